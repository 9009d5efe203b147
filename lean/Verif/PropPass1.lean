import Verif.Runs

/-
C44: copying a file row by row (odc compact, odc fixed, ...).
-/

namespace Verif

/-- `CompactTool::run` up to `pass1`, tools/CompactTool.cc l.38-47: the reader's iterator is copied to a new writer.  (The comparison of the two
files that follows is the subject of C34.) -/
def copyFile (env : Env) (cap : Nat) (junk : Junk) (bytes : List Byte) (fuel : Nat) : Except Err (Nat × List (List Byte)) :=
  match RowIt.begin env junk bytes with
  | .error e => .error e
  | .ok it => pass1 env .same cap it.cols (it.all env junk fuel)

theorem rowAt_pairs {env : Env} {xs : List (UTable × Nat)} {vs : List RowView}
    (h : Match (fun x p => IsRowPair env x.1 x.2 p) xs (vs.map (fun v => (v.cols, v.cells)))) : Match (IsRowAt env) xs vs := by
  induction vs generalizing xs with
  | nil => cases h; exact .nil
  | cons v vs ih =>
    cases h with
    | cons h1 h2 => exact .cons (IsRow.pair h1 rfl rfl) (ih h2)

theorem allRows_length (Ts : List UTable) : (allRows Ts).length = (Ts.map UTable.rows).sum := by
  simp [allRows, List.length_flatMap]

/-- Copying the rows an iterator yields, if they are those of the tables `Ts`. -/
theorem pass1_flags (env : Env) (hmd5 : env.Md5Ok) (cap : Nat) (hcap : 0 < cap) (vs : List RowView) (T : UTable) (Ts : List UTable)
    (hrow : RowsOfTables env (T :: Ts) vs) (hT : ∀ S ∈ T :: Ts, S.AnyRowsOk env ∧ S.cols ≠ []) (hpos : ∀ S ∈ Ts, 0 < S.rows)
    (ks : List Col) (hk : ks.map Col.key = T.cols.map InCol.key) :
    ∃ out, pass1 env .same cap ks (vs, none) = .ok (vs.length, out) ∧ ((∀ f ∈ out, f.length ≤ 2147483647) →
      ∀ (junk' : Junk) (fuel' : Nat), vs.length + 1 < fuel' →
        ∃ views', readRows env junk' out.flatten fuel' = (views', none) ∧ views'.length = vs.length ∧
          Match (IsRowAt env) (allRows (T :: Ts)) views' ∧ FlagsTrue views') := by
  obtain ⟨w0, w1, w2, Fs, a1, a2, a3, a4, a5, a6, a7, a8, a9⟩ := tables_ok env hmd5 .same cap hcap (T :: Ts) vs hrow hT hpos T rfl (Writer.new cap)
    rfl rfl ks hk
  refine ⟨Fs.map RFrame.bytes, ?_, ?_⟩
  · unfold pass1
    rw [a1]
    dsimp only
    rw [a3]
    dsimp only
    rw [a4]
    dsimp only
    have : w2.close env .same = .ok w2 := by
      unfold Writer.close
      rw [a7, if_pos rfl]
      unfold Writer.flush
      rw [a7, if_neg (by simp)]
      split
      · rfl
      · rw [if_pos a6]
    rw [this]
    dsimp only
    rw [a5]
    rfl
  · intro hsz junk' fuel' hf
    obtain ⟨b1, b2⟩ := a8 hsz
    have hlen : rowCount Fs = vs.length := by
      rw [← rowPairs_length, ← b2.length, allRows_length]
      clear b2 b1 hsz a9 a8 a7 a6 a5 a4 a3 a2 a1 hf hT hpos hk
      generalize T :: Ts = Ts at hrow
      induction hrow with
      | last h => simp [h.len]
      | more h _ _ _ ih => simp only [List.map_cons, List.sum_cons, List.length_append, h.len] at ih ⊢; rw [ih]
    have hv : Match (IsRowAt env) (allRows (T :: Ts)) (fileViews Fs) := by
      apply rowAt_pairs
      rw [fileViews_pairs]
      exact b2
    refine ⟨fileViews Fs, readRows_file env junk' Fs b1 fuel' (by omega), ?_, hv, flags_file Fs a9⟩
    rw [← hv.length, ← hlen, ← rowPairs_length, b2.length]

/-- The same without what the columns say about missing values. -/
theorem pass1_tables (env : Env) (hmd5 : env.Md5Ok) (cap : Nat) (hcap : 0 < cap) (vs : List RowView) (T : UTable) (Ts : List UTable)
    (hrow : RowsOfTables env (T :: Ts) vs) (hT : ∀ S ∈ T :: Ts, S.AnyRowsOk env ∧ S.cols ≠ []) (hpos : ∀ S ∈ Ts, 0 < S.rows)
    (ks : List Col) (hk : ks.map Col.key = T.cols.map InCol.key) :
    ∃ out, pass1 env .same cap ks (vs, none) = .ok (vs.length, out) ∧ ((∀ f ∈ out, f.length ≤ 2147483647) →
      ∀ (junk' : Junk) (fuel' : Nat), vs.length + 1 < fuel' →
        ∃ views', readRows env junk' out.flatten fuel' = (views', none) ∧ views'.length = vs.length ∧
          Match (IsRowAt env) (allRows (T :: Ts)) views') := by
  obtain ⟨out, a, b⟩ := pass1_flags env hmd5 cap hcap vs T Ts hrow hT hpos ks hk
  refine ⟨out, a, fun hs junk' fuel' hf => ?_⟩
  obtain ⟨views, v1, v2, v3, _⟩ := b hs junk' fuel' hf
  exact ⟨views, v1, v2, v3⟩

/-- **C44**, for any file: if the row reader shows the rows of the tables `Ts` (a table here is a run of rows with the same columns, as long as
possible), the copy of the file shows them again: all rows, in order, with the same columns and values, and a column of the copy
says that it has missing values only if it has. -/
theorem C44_copied (env : Env) (hmd5 : env.Md5Ok) (cap : Nat) (hcap : 0 < cap) (junk : Junk) (bytes : List Byte) (fuel : Nat)
    (views : List RowView) (hr : readRows env junk bytes fuel = (views, none)) (Ts : List UTable) (hrow : RowsOfTables env Ts views)
    (hT : ∀ T ∈ Ts, T.AnyRowsOk env ∧ T.cols ≠ []) (hpos : ∀ T ∈ Ts, 0 < T.rows) :
    ∃ out, copyFile env cap junk bytes fuel = .ok (views.length, out) ∧ ((∀ f ∈ out, f.length ≤ 2147483647) →
      ∀ (junk' : Junk) (fuel' : Nat), views.length + 1 < fuel' →
        ∃ views', readRows env junk' out.flatten fuel' = (views', none) ∧ views'.length = views.length ∧
          Match (IsRowAt env) (allRows Ts) views' ∧ FlagsTrue views') := by
  obtain ⟨T, Ts', rfl⟩ : ∃ T Ts', Ts = T :: Ts' := by
    cases hrow <;> exact ⟨_, _, rfl⟩
  obtain ⟨u, us, rfl, hu⟩ := hrow.head T rfl (hpos T (by simp))
  unfold readRows at hr
  unfold copyFile
  cases hb : RowIt.begin env junk bytes with
  | error e => rw [hb] at hr; simp at hr
  | ok it =>
    rw [hb] at hr
    dsimp only at hr ⊢
    have hcols : it.cols = u.cols := by
      generalize hx : u :: us = xs at hr
      have := reads_of_all hr
      subst hx
      cases this
      rfl
    rw [hr]
    exact pass1_flags env hmd5 cap hcap (u :: us) T Ts' hrow hT (fun T hT' => hpos T (List.mem_cons_of_mem _ hT')) it.cols (by rw [hcols]; exact hu)

/-! ### Files written by `encode` -/

/-- The REAL values are floats (or missing). -/
def Vals.Exact : Vals → Prop
  | .reals vs => ∀ v ∈ vs, widen (narrow v) = v ∨ v = realMDI
  | _ => True

/-- The same values, strings possibly in a narrower column. -/
def Vals.Narrow : Vals → Vals → Prop
  | .strings w a, .strings w' b => a = b ∧ 1 ≤ w ∧ w ≤ w' ∧ ∀ s ∈ a, s.length ≤ 8 * w
  | a, b => a = b

theorem asRead_narrow {c c' : InCol} (h : AsRead c c') (hx : c.vals.Exact) : c'.name = c.name ∧ c'.vals.Narrow c.vals := by
  obtain ⟨nm, v⟩ := c
  obtain ⟨nm', v'⟩ := c'
  obtain ⟨rfl, h⟩ := h
  refine ⟨rfl, ?_⟩
  cases v <;> cases v' <;> simp only at h
  case reals.reals vs vs' =>
    show Vals.reals vs' = Vals.reals vs
    congr 1
    have key : ∀ x ∈ vs, ∀ x', RealOut realMDI vs x x' → x' = x := by
      intro x hx0 x' hR
      unfold RealOut at hR
      split at hR
      · rename_i hf
        rw [hR]
        exact (eq_of_feq hf ⟨fun _ => by decide +kernel, fun _ => by decide +kernel⟩).symm
      · rename_i hf
        rcases hR with hR | hR
        · rcases hx x hx0 with h1 | h1
          · rw [hR, h1]
          · rw [h1] at hf
            exact absurd (by decide +kernel) hf
        · exact hR.1
    apply List.ext_getElem?
    intro i
    have hl := h.length
    by_cases hi : i < vs.length
    · have e1 : vs[i]? = some vs[i] := List.getElem?_eq_getElem hi
      have e2 : vs'[i]? = some (vs'[i]'(by omega)) := List.getElem?_eq_getElem _
      rw [e1, e2, key _ (List.getElem_mem hi) _ (h.get i _ _ e1 e2)]
    · rw [List.getElem?_eq_none (by omega), List.getElem?_eq_none (by omega)]
  case strings.strings w vs w' vs' =>
    obtain ⟨rfl, h1, h2, h3⟩ := h
    exact ⟨rfl, h1, h2, h3⟩
  all_goals
    simp only [Vals.Narrow]
    simp_all

theorem Vals.Narrow.parts {env : Env} {a b : Vals} (h : a.Narrow b) :
    a.ty = b.ty ∧ a.members = b.members ∧ (b.Fits → a.Fits) ∧ (∀ v, b.In v → a.In v) ∧
    ∀ (r : Nat) (y : Cell), (a.part r 1).Gives env 0 y → (b.part r 1).Gives env 0 y := by
  cases a <;> cases b <;> simp only [Vals.Narrow, reduceCtorEq] at h
  case strings.strings w vs w' vs' =>
    obtain ⟨rfl, h1, h2, h3⟩ := h
    refine ⟨rfl, rfl, fun _ => ⟨h1, h3⟩, ?_, fun r y hy => hy⟩
    intro v hv
    cases v <;> simp only [Vals.In] at hv ⊢
    exact ⟨by omega, hv.2⟩
  all_goals
    rw [h]
    exact ⟨rfl, rfl, id, fun _ => id, fun _ _ => id⟩

theorem narrow_missing {a b : Vals} (h : a.Narrow b) (r : Nat) : a.isMissing r = b.isMissing r := by
  cases a <;> cases b <;> simp only [Vals.Narrow, reduceCtorEq] at h
  case strings.strings => rfl
  all_goals rw [h]

theorem IsRow.narrow {env : Env} {T T' : UTable} (h : Match (fun c c' => c'.name = c.name ∧ c'.vals.Narrow c.vals) T.cols T'.cols)
    {r : Nat} {v : RowView} (hv : IsRow env T' r v) : IsRow env T r v := by
  have hl := h.length
  refine ⟨by rw [hv.ncols, hl], by rw [hv.ncells, hl], ?_, ?_, hv.wide, ?_⟩
  on_goal 3 =>
    intro had p c k hp hk
    have hlt := (List.getElem?_eq_some_iff.mp hp).1
    have hp' : T'.cols[p]? = some (T'.cols[p]'(by omega)) := List.getElem?_eq_getElem _
    generalize T'.cols[p]'(by omega) = c' at hp'
    rw [hv.mdi had p c' k hp' hk, Vals.mdi_ty env ((h.get p c c' hp hp').2.parts (env := env)).1]
  rotate_left
  · intro p c hp
    have hlt := (List.getElem?_eq_some_iff.mp hp).1
    have hp' : T'.cols[p]? = some (T'.cols[p]'(by omega)) := List.getElem?_eq_getElem _
    generalize T'.cols[p]'(by omega) = c' at hp'
    rw [hv.missing p c' hp', narrow_missing (h.get p c c' hp hp').2]
  intro p c hp
  have hlt := (List.getElem?_eq_some_iff.mp hp).1
  have hp' : T'.cols[p]? = some (T'.cols[p]'(by omega)) := List.getElem?_eq_getElem _
  generalize T'.cols[p]'(by omega) = c' at hp'
  obtain ⟨n1, n2⟩ := h.get p c c' hp hp'
  obtain ⟨k, y, e1, e2, e3, e4, e5, e6, e7⟩ := hv.col p c' hp'
  obtain ⟨m1, m2, _, _, m5⟩ := n2.parts (env := env)
  exact ⟨k, y, e1, by rw [e2, n1], by rw [e3, m1], by rw [e4, m2], by rw [e5, m2], e6, m5 r y e7⟩

theorem Vals.Ok.fits {env : Env} {v : Vals} (h : v.Ok env) : v.Fits := by
  cases v with
  | strings w vs => exact ⟨h.1, fun s hs => (h.2.2.1 s hs).1⟩
  | _ => trivial

/-- The frames of `encode`, as read. -/
theorem encode_runs (env : Env) (hmd5 : env.Md5Ok) (Ps : List (List InCol × UTable)) (hw : ∀ p ∈ Ps, p.2.Within p.1)
    (hT : ∀ p ∈ Ps, p.2.Ok env) (hv : ∀ p ∈ Ps, ∀ c ∈ p.2.cols, c.vals.Ok env ∧ c.vals.Exact) (hpos : ∀ p ∈ Ps, 0 < p.2.rows) :
    ∃ (Fs : List RFrame) (Qs : List (List InCol × UTable)), writeTables env (Ps.map Prod.snd) = .ok (Fs.map RFrame.bytes) ∧
      ((∀ b ∈ Fs.map RFrame.bytes, b.length ≤ 2147483647) → ∀ F ∈ Fs, F.Ok env) ∧
      Qs.map Prod.fst = Ps.map Prod.fst ∧ Qs.map (fun q => q.2.rows) = Ps.map (fun p => p.2.rows) ∧ (∀ q ∈ Qs, URun q.1 q.2) ∧
      Match (fun (p q : List InCol × UTable) => Match (fun c c' => c'.name = c.name ∧ c'.vals.Narrow c.vals) p.2.cols q.2.cols) Ps Qs ∧
      (∀ b, Match (fun (q : List InCol × UTable) (F : RFrame) => RowsAre env q.2 (tableViews b F)) Qs Fs) := by
  induction Ps with
  | nil => exact ⟨[], [], rfl, by simp, rfl, rfl, by simp, .nil, fun _ => .nil⟩
  | cons p Ps ih =>
    obtain ⟨Fs, Qs, a1, a2, a3, a4, a5, a6, a7⟩ := ih (fun p hp => hw p (by simp [hp])) (fun p hp => hT p (by simp [hp]))
      (fun p hp => hv p (by simp [hp])) (fun p hp => hpos p (by simp [hp]))
    have hp := hT p (by simp)
    have hvp := hv p (by simp)
    obtain ⟨F, T', f1, f2, f3, f4, f5, f6, f7, f8, f9, _⟩ := encode_reads1 env hmd5 p.2 hp (fun c hc => (hvp c hc).1) (hpos p (by simp))
    have hnar : Match (fun c c' => c'.name = c.name ∧ c'.vals.Narrow c.vals) p.2.cols T'.cols := by
      apply Match.of_get _ _ f5.length
      intro i c c' hc hc'
      exact asRead_narrow (f5.get i c c' hc hc') (hvp c (List.mem_of_getElem? hc)).2
    have get : ∀ c' ∈ T'.cols, ∃ c ∈ p.2.cols, c'.name = c.name ∧ c'.vals.Narrow c.vals := by
      intro c' hc'
      obtain ⟨i, hi⟩ := List.mem_iff_getElem?.mp hc'
      have hlt := (List.getElem?_eq_some_iff.mp hi).1
      have hl := hnar.length
      exact ⟨_, List.getElem_mem (by omega), hnar.get i _ c' (List.getElem?_eq_getElem (by omega)) hi⟩
    refine ⟨F :: Fs, (p.1, T') :: Qs, ?_, ?_, by simp [a3], by simp [a4, f3], ?_, .cons hnar a6, ?_⟩
    · simp only [List.map_cons, writeTables, f1, a1]
    · intro hs G hG
      rcases List.mem_cons.mp hG with rfl | hG
      · exact f2 (hs _ (by simp))
      · exact a2 (fun b hb => hs b (by rw [List.map_cons]; exact List.mem_cons_of_mem _ hb)) G hG
    · intro q hq
      rcases List.mem_cons.mp hq with rfl | hq
      · refine ⟨?_, fun c hc => by rw [f6 c hc, f3], ?_, ?_, by rw [← hnar.length]; exact hp.few, ?_, by rw [f3]; exact hpos p (by simp)⟩
        · have h1 := hw p (by simp)
          apply Match.of_get _ _ (by rw [← hnar.length]; exact h1.length)
          intro i c' b hc' hb
          have hlt := (List.getElem?_eq_some_iff.mp hc').1
          have hl := hnar.length
          have hc : p.2.cols[i]? = some (p.2.cols[i]'(by dsimp only at hlt; omega)) := List.getElem?_eq_getElem _
          generalize p.2.cols[i]'(by dsimp only at hlt; omega) = c at hc
          obtain ⟨n1, n2⟩ := hnar.get i c c' hc hc'
          obtain ⟨e1, e2⟩ := h1.get i c b hc hb
          exact ⟨by rw [n1, e1], (n2.parts (env := env)).2.2.2.1 _ e2⟩
        · intro c' hc'
          obtain ⟨c, hc, n1, n2⟩ := get c' hc'
          obtain ⟨m1, m2, _, _, _⟩ := n2.parts (env := env)
          have hmem : LenOk c.vals.members.length ∧ ∀ b ∈ c.vals.members, LenOk b.1.length ∧ InI32 b.2 := by
            have := (hvp c hc).1
            cases hvv : c.vals with
            | bits ms vs => rw [hvv] at this; exact ⟨this.2.1, this.2.2⟩
            | _ => simp [Vals.members, LenOk]
          exact ⟨by rw [n1]; exact (hp.col c hc).1, by rw [m2]; exact hmem.1, by rw [m2]; exact hmem.2⟩
        · intro c' hc'
          obtain ⟨c, hc, n1, n2⟩ := get c' hc'
          exact (n2.parts (env := env)).2.2.1 (hvp c hc).1.fits
        · intro h0
          have := hnar.length
          dsimp only at h0
          rw [h0] at this
          exact hp.ne (List.length_eq_zero_iff.mp this)
      · exact a5 q hq
    · intro b
      refine .cons ⟨by rw [tableViews_length, f7, f3], ?_⟩ (a7 b)
      intro r v hr
      rw [tableViews_get, Option.map_eq_some_iff] at hr
      obtain ⟨row, h1, rfl⟩ := hr
      exact ⟨f8, f9 r row h1⟩

theorem grouped_fst {Ps Qs : List (List InCol × UTable)} (h : Qs.map Prod.fst = Ps.map Prod.fst) (hg : Grouped Ps) : Grouped Qs := by
  induction Ps generalizing Qs with
  | nil =>
    simp at h
    subst h
    trivial
  | cons p Ps ih =>
    cases Qs with
    | nil => trivial
    | cons q Qs =>
      simp only [List.map_cons, List.cons.injEq] at h
      cases Ps with
      | nil =>
        simp at h
        rw [h.2]
        trivial
      | cons p' Ps =>
        cases Qs with
        | nil => simp at h
        | cons q' Qs =>
          refine ⟨?_, ih h.2 hg.2⟩
          simp only [List.map_cons, List.cons.injEq] at h
          rw [h.1, h.2.1]
          exact hg.1

/-- **C44.**  A file of tables written by `encode` is copied with `pass1` (odc compact).  Consecutive tables belong to one group, whose columns and
possible values are `p.1`, or differ in the names or types of their columns.  All rows arrive, in order, with the same columns and values, however
many rows a frame of the copy holds. -/
theorem C44_compact (env : Env) (hmd5 : env.Md5Ok) (cap : Nat) (hcap : 0 < cap) (Ps : List (List InCol × UTable)) (hne : Ps ≠ [])
    (hT : ∀ p ∈ Ps, p.2.Ok env) (hv : ∀ p ∈ Ps, ∀ c ∈ p.2.cols, c.vals.Ok env ∧ c.vals.Exact) (hpos : ∀ p ∈ Ps, 0 < p.2.rows)
    (hw : ∀ p ∈ Ps, p.2.Within p.1) (hB : ∀ p ∈ Ps, ∀ b ∈ p.1, b.vals.Ok env ∧ (env.longEnv = true → b.vals.NoEmpty))
    (hg : Grouped Ps) (hbig : (Ps.map (fun p => p.2.rows)).sum < 18446744073709551616) :
    ∃ bss, writeTables env (Ps.map Prod.snd) = .ok bss ∧ ((∀ b ∈ bss, b.length ≤ 2147483647) →
      ∀ (junk : Junk) (fuel : Nat), (Ps.map (fun p => p.2.rows)).sum + 1 < fuel →
        ∃ out, copyFile env cap junk bss.flatten fuel = .ok ((Ps.map (fun p => p.2.rows)).sum, out) ∧
          ((∀ f ∈ out, f.length ≤ 2147483647) → ∀ (junk' : Junk) (fuel' : Nat), (Ps.map (fun p => p.2.rows)).sum + 1 < fuel' →
            ∃ views, readRows env junk' out.flatten fuel' = (views, none) ∧ Match (IsRowAt env) (allRows (Ps.map Prod.snd)) views ∧ FlagsTrue views)) := by
  obtain ⟨Fs, Qs, a1, a2, a3, a4, a5, a6, a7⟩ := encode_runs env hmd5 Ps hw hT hv hpos
  refine ⟨_, a1, ?_⟩
  intro hsz junk fuel hf
  have hQ : Qs ≠ [] := by
    intro h
    rw [h] at a3
    simp at a3
    exact hne a3
  obtain ⟨F, Fs, rfl⟩ : ∃ F Fs', Fs = F :: Fs' := by
    have := (a7 true).length
    cases Fs with
    | nil => simp at this; exact absurd this hQ
    | cons F Fs => exact ⟨F, Fs, rfl⟩
  have hm : Match (fun (p : List InCol × UTable) vs => RowsAre env p.2 vs) Qs (tableViews false F :: Fs.map (tableViews true)) := by
    have h0 := a7 false
    have h1 := a7 true
    cases h0 with
    | cons g0 _ =>
      cases h1 with
      | cons _ g1 =>
        refine .cons g0 ?_
        clear * - g1
        induction g1 with
        | nil => exact .nil
        | cons h _ ih => exact .cons h ih
  obtain ⟨U, Us, r1, r2, r3, r4⟩ := runs env Qs _ hQ hm a5 (grouped_fst a3 hg) (by
    intro vs hvs u hu
    simp only [List.tail_cons, List.mem_map] at hvs
    obtain ⟨G, _, rfl⟩ := hvs
    have : (tableViews true G)[0]? = some u := by rw [← List.head?_eq_getElem?]; exact hu
    rw [tableViews_get, Option.map_eq_some_iff] at this
    obtain ⟨row, _, rfl⟩ := this
    rfl)
  have hfv : (tableViews false F :: Fs.map (tableViews true)).flatten = fileViews (F :: Fs) := by
    simp [fileViews, List.flatMap_def]
  rw [hfv] at r1
  have hcount : rowCount (F :: Fs) = (Ps.map (fun p => p.2.rows)).sum := by
    rw [← a4]
    have h1 := a7 true
    clear * - h1
    generalize F :: Fs = Gs at h1
    induction h1 with
    | nil => rfl
    | cons h _ ih =>
      have := h.len
      rw [tableViews_length] at this
      simp only [rowCount, List.map_cons, List.sum_cons] at ih ⊢
      rw [ih, this]
  have hread := readRows_file env junk (F :: Fs) (a2 hsz) fuel (by omega)
  have hvl : (fileViews (F :: Fs)).length = (Ps.map (fun p => p.2.rows)).sum := by
    rw [← hcount, ← rowPairs_length, ← fileViews_pairs, List.length_map]
  obtain ⟨out, o1, o2⟩ := C44_copied env hmd5 cap hcap junk ((F :: Fs).map RFrame.bytes).flatten fuel (fileViews (F :: Fs)) hread (U :: Us) r1
    (by
      intro V hV
      obtain ⟨q, hq, hR, hle⟩ := r3 V hV
      refine ⟨hR.ok ?_ (by rw [a4] at hle; omega), hR.ne⟩
      have : q.1 ∈ Ps.map Prod.fst := by rw [← a3]; exact List.mem_map.mpr ⟨q, hq, rfl⟩
      obtain ⟨p, hp, hpq⟩ := List.mem_map.mp this
      rw [← hpq]
      exact hB p hp)
    (by
      intro V hV
      obtain ⟨q, hq, hR, _⟩ := r3 V hV
      exact hR.pos)
  rw [hvl] at o1 o2
  refine ⟨out, o1, ?_⟩
  intro hso junk' fuel' hf'
  obtain ⟨views, v1, _, v3, v4⟩ := o2 hso junk' fuel' hf'
  refine ⟨views, v1, ?_, v4⟩
  have h4 := r4 views v3
  clear * - h4 a6 a4
  induction a6 generalizing views with
  | nil => exact h4
  | @cons p q Ps Qs h _ ih =>
    simp only [List.map_cons, List.cons.injEq] at a4
    rw [List.map_cons] at h4 ⊢
    obtain ⟨va, vb, rfl, m1, m2⟩ := rows_split h4
    rw [show allRows (p.2 :: Ps.map Prod.snd) = allRows [p.2] ++ allRows (Ps.map Prod.snd) by simp [allRows]]
    refine Match.append ?_ (ih a4.2 vb m2)
    simp only [allRows, List.flatMap_cons, List.flatMap_nil, List.append_nil, a4.1] at m1 ⊢
    generalize List.range p.2.rows = js at m1 ⊢
    clear h4 ih m2
    induction js generalizing va with
    | nil => exact m1
    | cons j js ih2 =>
      cases m1 with
      | cons h1 h2 =>
        exact .cons (IsRow.narrow h h1) (ih2 _ h2)

/-! ### Concrete cases -/

/-- Sample: tables written and copied. -/
def tryCopy (env : Env) (cap : Nat) (Ts : List UTable) : Except Err (Nat × List (List Byte)) :=
  match writeTables env Ts with
  | .error e => .error e
  | .ok bss => copyFile env cap (fun _ _ _ => 0) bss.flatten 100

/-- Number of rows copied, and how many rows each frame of the copy holds. -/
def copyShape (env : Env) (r : Except Err (Nat × List (List Byte))) : Option (Nat × List Nat) :=
  match r with
  | .error _ => none
  | .ok (n, fs) => some (n, fs.map (fun f => ((readRows env (fun _ _ _ => 0) f 100).1).length))

/-- Sample: two rows. -/
def partA : UTable := { rows := 2, props := [(lit "k", lit "v")], cols := [⟨lit "a@t", .ints [1, 2]⟩, ⟨lit "s@t", .strings 1 [lit "x", lit "yz"]⟩] }

/-- Sample: a row with the columns of `partA`. -/
def partB : UTable := { rows := 1, props := [], cols := [⟨lit "a@t", .ints [7]⟩, ⟨lit "s@t", .strings 1 [lit "w"]⟩] }

/-- Sample: a row with another column. -/
def partC : UTable := { rows := 1, props := [], cols := [⟨lit "b@t", .doubles [0x3ff8000000000000]⟩] }

/-- Frames of 2, 1 and 1 rows; the first two have the same columns. -/
theorem copy_sample : copyShape sampleEnv (tryCopy sampleEnv 10 [partA, partB, partC]) = some (4, [3, 1]) := by decide +kernel

theorem copy_values : rowsSeen sampleEnv ((tryCopy sampleEnv 10 [partA, partB, partC]).map Prod.snd) 10 =
    some ([[[intWord false 1], wordsOf 1 (lit "x")], [[intWord false 2], wordsOf 1 (lit "yz")], [[intWord false 7], wordsOf 1 (lit "w")],
      [[0x3ff8000000000000]]], true) := by decide +kernel

/-- A file without rows cannot be copied. -/
theorem copy_empty : (match copyFile sampleEnv 10 (fun _ _ _ => 0) [] 100 with | .ok _ => false | .error e => decide (e = .assertFailed)) = true := by
  decide +kernel

/-- The bitfield definition of a column shown for each row. -/
def membersSeen (env : Env) (r : Except Err (List (List Byte))) (fuel : Nat) : Option (List (List (List Str × List Int))) :=
  match r with
  | .error _ => none
  | .ok fs => some ((readRows env (fun _ _ _ => 0) fs.flatten fuel).1.map (fun v => v.cols.map (fun k => (k.bitNames, k.bitSizes))))

/-- **C44**, violated: the members of bitfields are not compared, so the rows of the second table are copied under the members of the first. -/
theorem C44_violated_bits :
    membersSeen sampleEnv ((tryCopy sampleEnv 10 [oneCol 1 (.bits [(lit "lo", 2), (lit "hi", 6)] [5]), oneCol 1 (.bits [(lit "p", 4), (lit "q", 4)] [5])]).map
      Prod.snd) 10 = some [[([lit "lo", lit "hi"], [2, 6])], [([lit "lo", lit "hi"], [2, 6])]] ∧
    membersSeen sampleEnv (writeTables sampleEnv [oneCol 1 (.bits [(lit "lo", 2), (lit "hi", 6)] [5]), oneCol 1 (.bits [(lit "p", 4), (lit "q", 4)] [5])]) 10 =
      some [[([lit "lo", lit "hi"], [2, 6])], [([lit "p", lit "q"], [4, 4])]] := by
  constructor <;> decide +kernel

/-- The properties of the frames. -/
def propsSeen (env : Env) (r : Except Err (List (List Byte))) : Option (List (List (Str × Str))) :=
  match r with
  | .error _ => none
  | .ok fs => some (fs.map (fun f => match parseHeader env.md5 env.asDbl f with | .ok (some h) => h.1.props | _ => []))

/-- **C44**, violated: the properties of the frames are not copied. -/
theorem C44_violated_props :
    propsSeen sampleEnv ((tryCopy sampleEnv 10 [partA]).map Prod.snd) = some [[]] ∧
    (propsSeen sampleEnv (writeTables sampleEnv [partA])).map (fun l => l.map (fun ps => ps.contains (lit "k", lit "v"))) = some [true] := by
  constructor <;> decide +kernel

/-! The hypotheses of `C44_compact` are met by these three tables. -/

/-- Sample: the columns of `partA` and `partB` together. -/
def groupAB : List InCol := [⟨lit "a@t", .ints [1, 2, 7]⟩, ⟨lit "s@t", .strings 1 [lit "x", lit "yz", lit "w"]⟩]

/-- Sample: the columns of `partC`. -/
def groupC : List InCol := [⟨lit "b@t", .doubles [0x3ff8000000000000]⟩]

/-- Sample: each part with the columns of its group. -/
def copyCase : List (List InCol × UTable) := [(groupAB, partA), (groupAB, partB), (groupC, partC)]

theorem groupAB_ok : ∀ b ∈ groupAB, b.vals.Ok sampleEnv ∧ (sampleEnv.longEnv = true → b.vals.NoEmpty) := by
  intro b hb
  simp only [groupAB, List.mem_cons, List.not_mem_nil, or_false] at hb
  rcases hb with rfl | rfl
  · exact ⟨ball (P := InI32) (by decide +kernel), fun _ => trivial⟩
  · refine ⟨⟨by decide, by decide, ?_, ?_, ?_, ?_⟩, ?_⟩
    · intro s hs
      simp only [List.mem_cons, List.not_mem_nil, or_false] at hs
      rcases hs with rfl | rfl | rfl <;> exact ⟨by decide +kernel, nulFree_of (by decide +kernel)⟩
    · intro ds h1 h2
      exact few_distinct _ _ h1 h2 (by decide)
    · intro h; cases h
    · exact ball (by decide +kernel)
    · intro h; cases h

theorem groupC_ok : ∀ b ∈ groupC, b.vals.Ok sampleEnv ∧ (sampleEnv.longEnv = true → b.vals.NoEmpty) := by
  intro b hb
  simp only [groupC, List.mem_singleton] at hb
  subst hb
  exact ⟨⟨ball (by decide +kernel), ball (by decide +kernel), by decide +kernel, fun h => absurd h (by decide +kernel)⟩, fun _ => trivial⟩

theorem copyCase_within : ∀ p ∈ copyCase, p.2.Within p.1 := by
  intro p hp
  simp only [copyCase, List.mem_cons, List.not_mem_nil, or_false] at hp
  rcases hp with rfl | rfl | rfl
  · exact .cons ⟨rfl, ball (P := fun x => x ∈ [1, 2, 7]) (by decide +kernel)⟩ (.cons ⟨rfl, by decide, ball (P := fun x => x ∈ _) (by decide +kernel)⟩ .nil)
  · exact .cons ⟨rfl, ball (P := fun x => x ∈ [1, 2, 7]) (by decide +kernel)⟩ (.cons ⟨rfl, by decide, ball (P := fun x => x ∈ _) (by decide +kernel)⟩ .nil)
  · exact .cons ⟨rfl, fun x hx => hx⟩ .nil

theorem copyCase_group : ∀ p ∈ copyCase, ∀ b ∈ p.1, b.vals.Ok sampleEnv ∧ (sampleEnv.longEnv = true → b.vals.NoEmpty) := by
  intro p hp
  simp only [copyCase, List.mem_cons, List.not_mem_nil, or_false] at hp
  rcases hp with rfl | rfl | rfl
  · exact groupAB_ok
  · exact groupAB_ok
  · exact groupC_ok

theorem copyCase_vals : ∀ p ∈ copyCase, ∀ c ∈ p.2.cols, c.vals.Ok sampleEnv ∧ c.vals.Exact := by
  intro p hp c hc
  obtain ⟨b, hb, _, h2⟩ := (copyCase_within p hp).mem_right' hc
  have hB := copyCase_group p hp b hb
  simp only [copyCase, List.mem_cons, List.not_mem_nil, or_false] at hp
  have hf : c.vals.Fits ∧ c.vals.Exact := by
    rcases hp with rfl | rfl | rfl
    all_goals
      simp only [partA, partB, partC, List.mem_cons, List.not_mem_nil, or_false] at hc
      rcases hc with rfl | rfl
    all_goals first | exact ⟨trivial, trivial⟩ | exact ⟨⟨by decide, ball (by decide +kernel)⟩, trivial⟩
  exact ⟨(h2.ok hf.1 hB.1 hB.2).1, hf.2⟩

theorem copyCase_ok : ∀ p ∈ copyCase, p.2.Ok sampleEnv := by
  intro p hp
  have hv := copyCase_vals p hp
  simp only [copyCase, List.mem_cons, List.not_mem_nil, or_false] at hp
  have hc : ∀ c ∈ p.2.cols, LenOk c.name.length ∧ c.vals.rows = p.2.rows := by
    rcases hp with rfl | rfl | rfl <;> exact ball (by decide +kernel)
  refine ⟨⟨?_, ?_, fun c hcc => ⟨(hc c hcc).1, (hv c hcc).1.codable, (hc c hcc).2⟩, ?_, ?_, ?_, ?_, ?_⟩, ?_⟩
  all_goals rcases hp with rfl | rfl | rfl
  all_goals first
    | exact List.pairwise_singleton _ _
    | exact List.Pairwise.nil
    | exact ball (by decide +kernel)
    | (intro kv hkv; cases hkv; done)
    | decide +kernel

/-- `C44_compact` applies to them. -/
example : ∃ bss, writeTables sampleEnv (copyCase.map Prod.snd) = .ok bss ∧ ((∀ b ∈ bss, b.length ≤ 2147483647) →
      ∀ (junk : Junk) (fuel : Nat), (copyCase.map (fun p => p.2.rows)).sum + 1 < fuel →
        ∃ out, copyFile sampleEnv 2 junk bss.flatten fuel = .ok ((copyCase.map (fun p => p.2.rows)).sum, out) ∧
          ((∀ f ∈ out, f.length ≤ 2147483647) → ∀ (junk' : Junk) (fuel' : Nat), (copyCase.map (fun p => p.2.rows)).sum + 1 < fuel' →
            ∃ views, readRows sampleEnv junk' out.flatten fuel' = (views, none) ∧ Match (IsRowAt sampleEnv) (allRows (copyCase.map Prod.snd)) views ∧ FlagsTrue views)) :=
  C44_compact sampleEnv sampleEnv_md5 2 (by decide) copyCase (by simp [copyCase]) copyCase_ok copyCase_vals (by
    intro p hp
    simp only [copyCase, List.mem_cons, List.not_mem_nil, or_false] at hp
    rcases hp with rfl | rfl | rfl <;> decide) copyCase_within copyCase_group
    ⟨Or.inl rfl, Or.inr (by decide +kernel), trivial⟩ (by decide)

end Verif
