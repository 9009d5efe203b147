import Verif.SplitRows

/-
C54: `odc split`.
-/

namespace Verif

theorem map_at (L : List (Nat × UTable × Nat)) (z : Nat × UTable × Nat) : (List.range L.length).map (fun i => (L.getD i z).2) = L.map Prod.snd := by
  apply List.ext_getElem?
  intro i
  simp only [List.getElem?_map]
  by_cases hi : i < L.length
  · rw [List.getElem?_range hi, List.getElem?_eq_getElem hi, Option.map_some, Option.map_some, List.getD_eq_getElem?_getD, List.getElem?_eq_getElem hi]
    rfl
  · rw [List.getElem?_eq_none (by simp; omega), List.getElem?_eq_none (by omega)]
    rfl

theorem rowsOf_length {env : Env} {Ts : List UTable} {vs : List RowView} (h : RowsOfTables env Ts vs) : (allRows Ts).length = vs.length := by
  rw [allRows_length]
  induction h with
  | last h => simp [h.len]
  | more h _ _ _ ih => simp only [List.map_cons, List.sum_cons, List.length_append, h.len] at ih ⊢; rw [ih]

/-- **C54.**  A file whose rows are those of the tables `Ts` is split by a template that names some columns in each of them.  Whatever the number of
files that may be open at once and wherever the columns change: the number of rows is reported, every row is in the file whose name is the template
with the values of the row and in no other file, and the rows of a file are in the order of the input, with the columns and values they had.  Files of
other names are not touched.  What a file held before is discarded, as long as the number of files is not larger than the number that may be open. -/
theorem C54_split (env : Env) (hmd5 : env.Md5Ok) (junk : Junk) (bytes : List Byte) (fuel : Nat) (views : List RowView)
    (hr : readRows env junk bytes fuel = (views, none)) (Ts : List UTable) (hrow : RowsOfTables env Ts views)
    (hT : ∀ T ∈ Ts, T.AnyRowsOk env ∧ T.cols ≠ []) (hpos : ∀ T ∈ Ts, 0 < T.rows) (hbig : views.length < 18446744073709551616)
    (ts : List (Str × Str)) (tail : Str) (ps : UTable → List Part) (hts : Templates env Ts ts ps) (htail : chOpen ∉ tail)
    (hdist : ∀ x ∈ allRows Ts, ∀ y ∈ allRows Ts, nameOf (ps x.1) tail x.2 = nameOf (ps y.1) tail y.2 → labelsOf (ps x.1) x.2 = labelsOf (ps y.1) y.2)
    (max cap : Nat) (hmax : 0 < max) (hcap : 0 < cap) (d : Disk) :
    ∃ d' : Disk, splitFile env (tmplText ts tail) max cap d junk bytes fuel = .ok (views.length, d') ∧
      ∃ base : Str → List Byte,
        (∀ (nm : Str) (xs : List (UTable × Nat)), xs = (allRows Ts).filter (fun x => decide (nameOf (ps x.1) tail x.2 = nm)) →
          (xs = [] → d' nm = d nm) ∧
          (xs ≠ [] → ∃ fs : List (List Byte), d' nm = some (base nm ++ fs.flatten) ∧ ((∀ f ∈ fs, f.length ≤ 2147483647) →
            ∀ (junk' : Junk) (fuel' : Nat), xs.length + 1 < fuel' →
              ∃ views' : List RowView, readRows env junk' fs.flatten fuel' = (views', none) ∧ Match (IsRowAt env) xs views'))) ∧
        (∀ nm, d nm = none → base nm = []) ∧
        ((∀ ns : List Str, ns.Nodup → (∀ n ∈ ns, ∃ x ∈ allRows Ts, nameOf (ps x.1) tail x.2 = n) → ns.length ≤ max) → ∀ nm, base nm = []) := by
  obtain ⟨T0, Ts, rfl⟩ : ∃ T Ts', Ts = T :: Ts' := by
    cases hrow <;> exact ⟨_, _, rfl⟩
  have hlen := rowsOf_length hrow
  obtain ⟨C, cols, s, hC, ho, hd, happ, hm, hS, hmerge, hnew, hfin, d1, s1, hloop, sg, base, done, cur, hinv⟩ :=
    split_run env hmd5 .same T0 Ts views hrow hT hpos (by rw [hlen]; exact hbig) ts tail ps hts htail hdist max cap hmax hcap d
  obtain ⟨d', c1, base, c2, _, c4, c5⟩ := hinv.closed hC
  obtain ⟨u, us, rfl, hu⟩ := hrow.head T0 rfl (hpos T0 (by simp))
  have hname : ∀ (i : Nat), i < (segRows 0 (T0 :: Ts)).length →
      C.name i = nameOf (ps ((segRows 0 (T0 :: Ts)).getD i (0, T0, 0)).2.1) tail ((segRows 0 (T0 :: Ts)).getD i (0, T0, 0)).2.2 := by
    intro i hi
    have hx : (segRows 0 (T0 :: Ts))[i]? = some (segRows 0 (T0 :: Ts))[i] := List.getElem?_eq_getElem hi
    rw [(hS.at_ i _ hx).2.2, List.getD_eq_getElem?_getD, hx]
    rfl
  have hpick : ∀ nm : Str, (C.pick C.is nm).map (fun i => ((segRows 0 (T0 :: Ts)).getD i (0, T0, 0)).2) =
      (allRows (T0 :: Ts)).filter (fun x => decide (nameOf (ps x.1) tail x.2 = nm)) := by
    intro nm
    unfold DCtx.pick
    rw [← segRows_all 0 (T0 :: Ts), ← map_at _ (0, T0, 0), List.filter_map, hS.is]
    congr 1
    apply List.filter_congr
    intro i hi
    rw [hname i (by simpa using hi)]
    rfl
  refine ⟨d', ?_, base, ?_, by rw [hd] at c4; exact c4, ?_⟩
  · unfold readRows at hr
    unfold splitFile
    cases hb : RowIt.begin env junk bytes with
    | error e => rw [hb] at hr; simp at hr
    | ok it =>
      rw [hb] at hr
      dsimp only at hr ⊢
      have hcols : it.cols = u.cols := by
        generalize hx : u :: us = xs at hr
        have := reads_of_all hr
        subst hx
        cases this
        rfl
      rw [hr]
      unfold splitRows
      dsimp only
      rw [hcols, hmerge u.cols hu]
      dsimp only
      rw [hnew]
      dsimp only
      rw [if_neg (by
        intro h
        rw [h] at hu
        simp at hu
        exact (hT T0 (by simp)).2 hu), hloop]
      dsimp only
      rw [hS.envs, ho] at c1
      rw [c1]
  · rintro nm xs rfl
    obtain ⟨gs, g1, g2, g3, g4⟩ := c2 nm
    have hnil : C.pick C.is nm = [] ↔ (allRows (T0 :: Ts)).filter (fun x => decide (nameOf (ps x.1) tail x.2 = nm)) = [] := by
      rw [← hpick nm, List.map_eq_nil_iff]
    rw [hd] at g4
    refine ⟨fun h => by rw [g4, if_pos (hnil.mpr h)], fun hne => ?_⟩
    rw [if_neg (fun h => hne (hnil.mp h))] at g4
    obtain ⟨Fs, f1, f2⟩ := sessions_ok gs (fun x hx => hfin x.1 x.2 (g3 x hx))
    refine ⟨Fs.map RFrame.bytes, by rw [g4, f1], ?_⟩
    intro hsz junk' fuel' hfuel
    obtain ⟨h1, h2⟩ := f2 hsz
    rw [g1] at h2
    have h3 := Match.map_left (R := fun (x : UTable × Nat) p => IsRowPair env x.1 x.2 p)
      (fun i => ((segRows 0 (T0 :: Ts)).getD i (0, T0, 0)).2) h2
    rw [hpick nm] at h3
    have hcount := h3.length
    rw [rowPairs_length] at hcount
    refine ⟨fileViews Fs, readRows_file env junk' Fs h1 fuel' (by omega), ?_⟩
    apply rowAt_pairs
    rw [fileViews_pairs]
    exact h3
  · intro hfew
    apply c5 ?_ happ
    intro ns h1 h2
    rw [hm]
    apply hfew ns h1
    intro n hn
    obtain ⟨i, hi, he⟩ := h2 n hn
    have hil : i < (segRows 0 (T0 :: Ts)).length := by rw [hS.is] at hi; simpa using hi
    refine ⟨_, ?_, (hname i hil).symm.trans he⟩
    rw [← segRows_all 0 (T0 :: Ts), ← map_at _ (0, T0, 0)]
    exact List.mem_map.mpr ⟨i, by simpa using hil, rfl⟩

/-- **C54**: a file without rows makes no files. -/
theorem C54_no_rows (env : Env) (tmpl : Str) (max cap : Nat) (d : Disk) (junk : Junk) (bytes : List Byte) (fuel : Nat)
    (hr : readRows env junk bytes fuel = ([], none)) : splitFile env tmpl max cap d junk bytes fuel = .ok (0, d) := by
  unfold readRows at hr
  unfold splitFile
  cases hb : RowIt.begin env junk bytes with
  | error e => rw [hb] at hr; simp at hr
  | ok it =>
    rw [hb] at hr
    dsimp only at hr ⊢
    rw [hr]
    rfl

/-- **C54**: if the input cannot be read to its end, `split` fails too. -/
theorem C54_complete (env : Env) (tmpl : Str) (max cap : Nat) (d d' : Disk) (junk : Junk) (bytes : List Byte) (fuel n : Nat)
    (h : splitFile env tmpl max cap d junk bytes fuel = .ok (n, d')) : ∃ views, readRows env junk bytes fuel = (views, none) ∧ views.length = n := by
  unfold splitFile at h
  unfold readRows
  cases hb : RowIt.begin env junk bytes with
  | error e => rw [hb] at h; simp at h
  | ok it =>
    rw [hb] at h
    dsimp only at h ⊢
    generalize it.all env junk fuel = inp at h
    obtain ⟨views, fin⟩ := inp
    cases fin with
    | none =>
      refine ⟨views, rfl, ?_⟩
      unfold splitRows at h
      cases views with
      | nil => simp only [Except.ok.injEq, Prod.mk.injEq] at h; exact h.1
      | cons v vs =>
        dsimp only at h
        repeat' (split at h)
        all_goals try (simp at h; done)
        rename_i hx
        simp only [Except.ok.injEq, Prod.mk.injEq] at h
        exact h.1
    | some e =>
      exfalso
      unfold splitRows at h
      cases views with
      | nil => simp at h
      | cons v vs =>
        dsimp only at h
        repeat' (split at h)
        all_goals simp at h

/-- Specification: what follows a value in the template begins with a byte that is not in the value. -/
def SepLabels : List (Str × Str) → List Str → Prop
  | _ :: t :: ts, l :: ls => (∃ b r, t.1 = b :: r ∧ b ∉ l) ∧ SepLabels (t :: ts) ls
  | _, _ => True

/-- Names differ whenever the values do, if what follows a value in the template begins with a byte that is in none of the values. -/
theorem C54_names (env : Env) (Ts : List UTable) (ts : List (Str × Str)) (tail : Str) (ps : UTable → List Part) (hts : Templates env Ts ts ps)
    (hsep : ∀ x ∈ allRows Ts, SepLabels ts (labelsOf (ps x.1) x.2)) :
    ∀ x ∈ allRows Ts, ∀ y ∈ allRows Ts, nameOf (ps x.1) tail x.2 = nameOf (ps y.1) tail y.2 → labelsOf (ps x.1) x.2 = labelsOf (ps y.1) y.2 := by
  have cut : ∀ (b : Byte) (s s' r r' : Str), b ∉ s → b ∉ s' → s ++ b :: r = s' ++ b :: r' → s = s' := by
    intro b s
    induction s with
    | nil =>
      intro s' r r' _ h2 h3
      cases s' with
      | nil => rfl
      | cons c s' => simp only [List.nil_append, List.cons_append, List.cons.injEq] at h3; simp [h3.1] at h2
    | cons a s ih =>
      intro s' r r' h1 h2 h3
      cases s' with
      | nil => simp only [List.nil_append, List.cons_append, List.cons.injEq] at h3; simp [h3.1] at h1
      | cons c s' =>
        simp only [List.cons_append, List.cons.injEq] at h3
        rw [h3.1, ih s' r r' (fun hc => h1 (by simp [hc])) (fun hc => h2 (by simp [hc])) h3.2]
  have key : ∀ (ts : List (Str × Str)) (p q : List Part) (i j : Nat), p.map (fun p => (p.text, p.query)) = ts → q.map (fun p => (p.text, p.query)) = ts →
      SepLabels ts (labelsOf p i) → SepLabels ts (labelsOf q j) → nameOf p tail i = nameOf q tail j → labelsOf p i = labelsOf q j := by
    intro ts
    induction ts with
    | nil =>
      intro p q i j hp hq _ _ _
      simp at hp hq
      subst hp hq
      rfl
    | cons t ts ih =>
      intro p q i j hp hq h1 h2 hn
      cases p with
      | nil => simp at hp
      | cons a p =>
        cases q with
        | nil => simp at hq
        | cons b q =>
          simp only [List.map_cons, List.cons.injEq] at hp hq
          obtain ⟨rfl, hp⟩ := hp
          obtain ⟨hab, hq⟩ := hq
          simp only [Prod.mk.injEq] at hab
          have e : ∀ (x : Part) (xs : List Part) (i : Nat), nameOf (x :: xs) tail i = x.text ++ (x.col.vals.label i ++ nameOf xs tail i) := by
            intro x xs i; simp [nameOf]
          rw [e, e, hab.1] at hn
          have hn := List.append_cancel_left hn
          simp only [labelsOf, List.map_cons] at h1 h2 ⊢
          cases ts with
          | nil =>
            simp at hp hq
            subst hp hq
            simp only [nameOf, List.flatMap_nil, List.nil_append] at hn
            rw [List.append_cancel_right hn]
            rfl
          | cons t' ts =>
            obtain ⟨⟨c, r, hc, hc1⟩, h1'⟩ := h1
            obtain ⟨⟨c', r', hc', hc2⟩, h2'⟩ := h2
            rw [hc] at hc'
            simp only [List.cons.injEq] at hc'
            obtain ⟨rfl, rfl⟩ := hc'
            have e2 : ∀ (xs : List Part) (i : Nat), xs.map (fun p => (p.text, p.query)) = t' :: ts → ∃ z, nameOf xs tail i = c :: z := by
              intro xs i hxs
              cases xs with
              | nil => simp at hxs
              | cons x xs =>
                simp only [List.map_cons, List.cons.injEq] at hxs
                have : x.text = c :: r := by rw [← hc, ← hxs.1]
                exact ⟨r ++ (x.col.vals.label i ++ nameOf xs tail i), by rw [e, this]; rfl⟩
            have h3 : a.col.vals.label i = b.col.vals.label j := by
              obtain ⟨z, hz⟩ := e2 p i hp
              obtain ⟨z', hz'⟩ := e2 q j hq
              rw [hz, hz'] at hn
              exact cut c _ _ _ _ hc1 hc2 hn
            rw [h3] at hn ⊢
            have := ih p q i j hp hq h1' h2' (List.append_cancel_left hn)
            unfold labelsOf at this
            rw [this]
  have hm : ∀ x ∈ allRows Ts, x.1 ∈ Ts := by
    intro x hx
    simp only [allRows, List.mem_flatMap, List.mem_map] at hx
    obtain ⟨T, h1, j, _, rfl⟩ := hx
    exact h1
  intro x hx y hy hn
  exact key ts _ _ _ _ (hts.pieces _ (hm x hx)) (hts.pieces _ (hm y hy)) (hsep x hx) (hsep y hy) hn

end Verif
