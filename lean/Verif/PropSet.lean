import Verif.SetTool

/-!
C51: `odc set`.
-/

namespace Verif

/-- Specification: the assignments can be made in a table: each means exactly one column, and all columns are one word wide. -/
structure Settable (us : List (Str × Word)) (T : UTable) : Prop where
  one : ∀ u ∈ us, MeansOne u.1 T.cols
  narrow : ∀ c ∈ T.cols, c.vals.words = 1

theorem setLoop_fresh (us : List (Str × Word)) (ps qs : List Nat) (vs : List RowView) (e : Option Err)
    (h : ∀ u, vs.head? = some u → u.fresh = true) : setLoop us ps vs e = setLoop us qs vs e := by
  cases vs with
  | nil => rfl
  | cons v vs => simp only [setLoop]; rw [h v rfl]; rfl

/-- A table's rows. -/
theorem setLoop_rowsAre {env : Env} {us : List (Str × Word)} {T T' : UTable} (hset : SetTable env us T T') (hs : Settable us T)
    (hrows : ∀ c ∈ T.cols, c.vals.rows = T.rows) {ps : List Nat} (hix : setIndices (T.cols.map InCol.name) us = .ok ps) (vs : List RowView)
    (hv : RowsAre env T vs) (rest : List RowView) (e : Option Err) :
    ∃ vs' : List RowView, RowsAre env T' vs' ∧ vs'.head?.map RowView.fresh = vs.head?.map RowView.fresh ∧
      setLoop us ps (vs ++ rest) e = (vs' ++ (setLoop us ps rest e).1, (setLoop us ps rest e).2) := by
  obtain ⟨ps', h1, h2⟩ := setIndices_ok T.cols us hs.one
  rw [hix] at h1
  simp only [Except.ok.injEq] at h1
  subst h1
  obtain ⟨vs', a1, a2, a3⟩ := setLoop_table hset hs.narrow hrows hix h2 vs 0 (by rw [hv.len]; omega) (by
    intro i v hi
    simpa using hv.row i v hi) rest e
  have hget : ∀ (r : Nat) (v' : RowView), vs'[r]? = some v' → ∃ v, vs[r]? = some v := by
    intro r v' hr
    have hlt := (List.getElem?_eq_some_iff.mp hr).1
    exact ⟨_, List.getElem?_eq_getElem (by omega)⟩
  refine ⟨vs', ⟨by rw [a1, hv.len, hset.rows], ?_⟩, ?_, a3⟩
  · intro r v' hr
    obtain ⟨v, hvr⟩ := hget r v' hr
    obtain ⟨b1, _, b3⟩ := a2 r v v' hvr hr
    rw [b1, (hv.row r v hvr).1, setTable_key hset]
    exact ⟨rfl, by simpa using b3⟩
  · cases vs with
    | nil => cases vs' with
      | nil => rfl
      | cons _ _ => simp at a1
    | cons v vs => cases vs' with
      | nil => simp at a1
      | cons v' vs' =>
        obtain ⟨_, b2, _⟩ := a2 0 v v' rfl rfl
        simp [b2]

theorem head_fresh {vs vs' : List RowView} (h : vs'.head?.map RowView.fresh = vs.head?.map RowView.fresh)
    (hf : ∀ u, vs.head? = some u → u.fresh = true) : ∀ u, vs'.head? = some u → u.fresh = true := by
  intro u hu
  rw [hu] at h
  cases hv : vs.head? with
  | none => rw [hv] at h; simp at h
  | some v =>
    rw [hv] at h
    simp only [Option.map_some, Option.some.injEq] at h
    rw [h]; exact hf v hv

theorem head_append {vs ws us : List RowView} (hv : vs.head?.map RowView.fresh = ws.head?.map RowView.fresh) (h : 0 < ws.length) :
    (vs ++ us).head?.map RowView.fresh = ws.head?.map RowView.fresh := by
  cases vs with
  | nil => cases ws with
    | nil => simp at h
    | cons _ _ => simp at hv
  | cons v vs => simpa using hv

theorem setTable_other {env : Env} {us : List (Str × Word)} {S S' T T' : UTable} (hS : SetTable env us S S') (hT : SetTable env us T T')
    (h : S.OtherShape T) : S'.OtherShape T' := by
  have h1 : S'.OtherShape T := key_other (setTable_key hS) h
  exact fun h' => key_other (setTable_key hT) (fun e => h1 e.symm) h'.symm

/-- The rows of tables with different columns. -/
theorem setLoop_tables {env : Env} {us : List (Str × Word)} {Ts : List UTable} {vs : List RowView} (h : RowsOfTables env Ts vs)
    {Ts' : List UTable} (hset : Match (SetTable env us) Ts Ts') (hs : ∀ T ∈ Ts, Settable us T) (hrows : ∀ T ∈ Ts, ∀ c ∈ T.cols, c.vals.rows = T.rows)
    (hpos : ∀ T ∈ Ts, 0 < T.rows) (T : UTable) (hT : Ts.head? = some T) (ps : List Nat) (hix : setIndices (T.cols.map InCol.name) us = .ok ps) :
    ∃ vs', setLoop us ps vs none = (vs', none) ∧ RowsOfTables env Ts' vs' ∧ vs'.length = vs.length ∧
      vs'.head?.map RowView.fresh = vs.head?.map RowView.fresh := by
  induction h generalizing T Ts' ps with
  | @last S vs h =>
    simp only [List.head?_cons, Option.some.injEq] at hT
    subst hT
    cases hset with
    | @cons _ S' _ _ h1 h2 =>
      cases h2
      obtain ⟨vs', a1, a2, a3⟩ := setLoop_rowsAre h1 (hs S (by simp)) (hrows S (by simp)) hix vs h [] none
      simp only [List.append_nil, setLoop] at a3
      exact ⟨vs', a3, .last a1, by rw [a1.len, h.len, h1.rows], a2⟩
  | @more S U Ss vs ws h ho hf hr ih =>
    simp only [List.head?_cons, Option.some.injEq] at hT
    subst hT
    cases hset with
    | @cons _ S' _ _ h1 h2 =>
      obtain ⟨qs, q1, _⟩ := setIndices_ok U.cols us (hs U (by simp)).one
      obtain ⟨ws', b1, b2, b3, b4⟩ := ih h2 (fun T hT => hs T (List.mem_cons_of_mem _ hT)) (fun T hT => hrows T (List.mem_cons_of_mem _ hT))
        (fun T hT => hpos T (List.mem_cons_of_mem _ hT)) U rfl qs q1
      obtain ⟨vs', a1, a2, a3⟩ := setLoop_rowsAre h1 (hs S (by simp)) (hrows S (by simp)) hix vs h ws none
      rw [setLoop_fresh us ps qs ws none hf, b1] at a3
      refine ⟨vs' ++ ws', a3, ?_, by simp [a1.len, h.len, h1.rows, b3], ?_⟩
      · cases h2 with
        | cons h3 h4 => exact .more a1 (setTable_other h1 h3 ho) (head_fresh b4 hf) b2
      · have hp := hpos S (by simp)
        rw [head_append a2 (by rw [h.len]; exact hp)]
        cases vs with
        | nil => have := h.len; simp at this; omega
        | cons v vs => rfl

/-- The rows of tables that may have the same columns. -/
theorem setLoop_chunks {env : Env} {us : List (Str × Word)} {Ts Ts' : List UTable} (hset : Match (SetTable env us) Ts Ts')
    {vss : List (List RowView)} (h : Match (RowsAre env) Ts vss) (hs : ∀ T ∈ Ts, Settable us T)
    (hrows : ∀ T ∈ Ts, ∀ c ∈ T.cols, c.vals.rows = T.rows) (hpos : ∀ T ∈ Ts, 0 < T.rows)
    (hfr : ∀ vs ∈ vss.tail, ∀ u, vs.head? = some u → u.fresh = true) (ps : List Nat)
    (hix : ∀ T, Ts.head? = some T → setIndices (T.cols.map InCol.name) us = .ok ps) :
    ∃ vss', setLoop us ps vss.flatten none = (vss'.flatten, none) ∧ Match (RowsAre env) Ts' vss' ∧
      vss'.map (fun vs => vs.head?.map RowView.fresh) = vss.map (fun vs => vs.head?.map RowView.fresh) := by
  induction hset generalizing vss ps with
  | nil =>
    cases h
    exact ⟨[], rfl, .nil, rfl⟩
  | @cons T T' Ts Ts' h1 _ ih =>
    cases h with
    | @cons _ vs _ vss g1 g2 =>
      simp only [List.tail_cons] at hfr
      obtain ⟨qs, q1⟩ : ∃ qs, ∀ U, Ts.head? = some U → setIndices (U.cols.map InCol.name) us = .ok qs := by
        cases Ts with
        | nil => exact ⟨[], by simp⟩
        | cons U Ts =>
          obtain ⟨qs, q1, _⟩ := setIndices_ok U.cols us (hs U (by simp)).one
          exact ⟨qs, fun V hV => by simp at hV; subst hV; exact q1⟩
      obtain ⟨vss', b1, b2, b3⟩ := ih g2 (fun T hT => hs T (List.mem_cons_of_mem _ hT)) (fun T hT => hrows T (List.mem_cons_of_mem _ hT))
        (fun T hT => hpos T (List.mem_cons_of_mem _ hT)) (fun vs hvs => hfr vs (List.mem_of_mem_tail hvs)) qs q1
      obtain ⟨vs', a1, a2, a3⟩ := setLoop_rowsAre h1 (hs T (by simp)) (hrows T (by simp)) (hix T rfl) vs g1 vss.flatten none
      have hff : ∀ u, vss.flatten.head? = some u → u.fresh = true := by
        intro u hu
        cases g2 with
        | nil => simp at hu
        | @cons U ws _ vss k1 _ =>
          have hp := hpos U (by simp)
          cases ws with
          | nil => have := k1.len; simp at this; omega
          | cons w ws => exact hfr _ (List.mem_cons_self ..) u (by simpa using hu)
      rw [setLoop_fresh us ps qs vss.flatten none hff, b1] at a3
      exact ⟨vs' :: vss', by simpa using a3, .cons a1 b2, by simp [a2, b3]⟩

/-- What the iterator is at before its first row. -/
theorem begin_first {env : Env} {junk : Junk} {bytes : List Byte} {fuel : Nat} {u : RowView} {us : List RowView} {e : Option Err} {it : RowIt}
    (hb : RowIt.begin env junk bytes = .ok it) (hr : readRows env junk bytes fuel = (u :: us, e)) :
    it.cols = u.cols ∧ it.noMore = false ∧ it.all env junk fuel = (u :: us, e) := by
  unfold readRows at hr
  rw [hb] at hr
  dsimp only at hr
  refine ⟨?_, ?_, hr⟩
  · cases fuel with
    | zero => simp [RowIt.all] at hr
    | succ n =>
      simp only [RowIt.all] at hr
      split at hr
      · simp at hr
      · cases hn : it.next env junk with
        | error x =>
          rw [hn] at hr
          simp only [Prod.mk.injEq, List.cons.injEq] at hr
          rw [← hr.1.1]
        | ok x =>
          rw [hn] at hr
          simp only [Prod.mk.injEq, List.cons.injEq] at hr
          rw [← hr.1.1]
  · cases fuel with
    | zero => simp [RowIt.all] at hr
    | succ n =>
      simp only [RowIt.all] at hr
      split at hr <;> simp_all

/-- **C51.**  `odc set` on a file whose rows are those of the tables `Ts` (consecutive ones with different columns).  The command line is
a list of assignments, each of which means exactly one column in every table; all columns are one word wide.  The rows are counted and written to
the output with the columns set (`SetTable`: the columns meant have the given value in all rows, the last assignment to a column counting, the
others are as before), however many rows a frame of the output holds. -/
theorem C51_set (env : Env) (hmd5 : env.Md5Ok) (lib : SetLib) (cap : Nat) (hcap : 0 < cap) (junk : Junk) (bytes : List Byte) (fuel : Nat)
    (views : List RowView) (hr : readRows env junk bytes fuel = (views, none)) (Ts : List UTable) (hrow : RowsOfTables env Ts views)
    (hrows : ∀ T ∈ Ts, ∀ c ∈ T.cols, c.vals.rows = T.rows) (hpos : ∀ T ∈ Ts, 0 < T.rows)
    (as : List SetWords) (us : List (Str × Word)) (has : Match (SetWords.Ok lib) as us) (hs : ∀ T ∈ Ts, Settable us T)
    (Ts' : List UTable) (hset : Match (SetTable env us) Ts Ts') (hT : ∀ T ∈ Ts', T.AnyRowsOk env ∧ T.cols ≠ []) :
    ∃ out, setFile env lib cap junk (joinWith 44 (as.map SetWords.text)) bytes fuel = .ok (views.length, out) ∧
      ((∀ f ∈ out, f.length ≤ 2147483647) → ∀ (junk' : Junk) (fuel' : Nat), views.length + 1 < fuel' →
        ∃ views', readRows env junk' out.flatten fuel' = (views', none) ∧ views'.length = views.length ∧
          Match (IsRowAt env) (allRows Ts') views') := by
  obtain ⟨T, Ss, rfl⟩ : ∃ T Ss, Ts = T :: Ss := by
    cases hrow <;> exact ⟨_, _, rfl⟩
  obtain ⟨u, vs, rfl, hu⟩ := hrow.head T rfl (hpos T (by simp))
  cases hb : RowIt.begin env junk bytes with
  | error e => unfold readRows at hr; rw [hb] at hr; simp at hr
  | ok it =>
    obtain ⟨c1, c2, c3⟩ := begin_first hb hr
    obtain ⟨ps, p1, _⟩ := setIndices_ok T.cols us (hs T (by simp)).one
    obtain ⟨vs', a1, a2, a3, _⟩ := setLoop_tables hrow hset hs hrows hpos T rfl ps p1
    unfold setFile
    rw [hb]
    dsimp only
    rw [setParse_text lib as us has]
    dsimp only
    rw [c1, names_of_key hu, p1]
    dsimp only
    rw [c2, c3, if_neg (by simp), a1]
    rw [← a3]
    cases hset with
    | @cons _ T' _ Ss' h1 h2 =>
      refine pass1_tables env hmd5 cap hcap vs' T' Ss' a2 hT ?_ u.cols (by rw [hu, setTable_key h1])
      intro S' hS'
      obtain ⟨S, hS, hSS⟩ := h2.mem_left' hS'
      rw [hSS.rows]
      exact hpos S (by simp [hS])

/-- The values of one-word columns are read as they are. -/
theorem narrow_one {a b : Vals} (h : a.Narrow b) (hb : b.words = 1) : a = b := by
  cases a <;> cases b <;> simp only [Vals.Narrow, reduceCtorEq] at h
  case strings.strings w vs w' vs' =>
    obtain ⟨rfl, h1, h2, _⟩ := h
    simp only [Vals.words] at hb
    rw [show w = w' by omega]
  all_goals exact h

theorem Vals.In.refl (v : Vals) : v.In v := by
  cases v <;> simp [Vals.In]

/-- **C51.**  `odc set` on a file of tables written by `encode`, consecutive ones possibly with the same columns: `Ps'` are the tables after the
assignments, each with the group it belongs to, as in `C44_compact`. -/
theorem C51_set_encoded (env : Env) (hmd5 : env.Md5Ok) (lib : SetLib) (cap : Nat) (hcap : 0 < cap) (Ts : List UTable) (hne : Ts ≠ [])
    (hT : ∀ T ∈ Ts, T.Ok env) (hv : ∀ T ∈ Ts, ∀ c ∈ T.cols, c.vals.Ok env ∧ c.vals.Exact) (hpos : ∀ T ∈ Ts, 0 < T.rows)
    (as : List SetWords) (us : List (Str × Word)) (has : Match (SetWords.Ok lib) as us) (hs : ∀ T ∈ Ts, Settable us T)
    (Ps' : List (List InCol × UTable)) (hset : Match (SetTable env us) Ts (Ps'.map Prod.snd)) (hT' : ∀ p ∈ Ps', p.2.AnyRowsOk env)
    (hw : ∀ p ∈ Ps', p.2.Within p.1) (hB : ∀ p ∈ Ps', ∀ b ∈ p.1, b.vals.Ok env ∧ (env.longEnv = true → b.vals.NoEmpty))
    (hg : Grouped Ps') (hbig : (Ts.map UTable.rows).sum < 18446744073709551616) :
    ∃ bss, writeTables env Ts = .ok bss ∧ ((∀ b ∈ bss, b.length ≤ 2147483647) →
      ∀ (junk : Junk) (fuel : Nat), (Ts.map UTable.rows).sum + 1 < fuel →
        ∃ out, setFile env lib cap junk (joinWith 44 (as.map SetWords.text)) bss.flatten fuel = .ok ((Ts.map UTable.rows).sum, out) ∧
          ((∀ f ∈ out, f.length ≤ 2147483647) → ∀ (junk' : Junk) (fuel' : Nat), (Ts.map UTable.rows).sum + 1 < fuel' →
            ∃ views, readRows env junk' out.flatten fuel' = (views, none) ∧ Match (IsRowAt env) (allRows (Ps'.map Prod.snd)) views)) := by
  obtain ⟨Fs, Qs, a1, a2, a3, a4, a5, a6, a7⟩ := encode_runs env hmd5 (Ts.map (fun T => (T.cols, T)))
    (by intro p hp; obtain ⟨T, _, rfl⟩ := List.mem_map.mp hp; exact Match.self (fun c _ => ⟨rfl, Vals.In.refl _⟩))
    (by intro p hp; obtain ⟨T, h, rfl⟩ := List.mem_map.mp hp; exact hT T h)
    (by intro p hp; obtain ⟨T, h, rfl⟩ := List.mem_map.mp hp; exact hv T h)
    (by intro p hp; obtain ⟨T, h, rfl⟩ := List.mem_map.mp hp; exact hpos T h)
  have hsnd : (Ts.map (fun T => (T.cols, T))).map Prod.snd = Ts := by simp [Function.comp_def]
  rw [hsnd] at a1
  refine ⟨_, a1, ?_⟩
  intro hsz junk fuel hf
  -- the rows read are those of the tables
  have hrows : ∀ (b : Bool), Match (fun (T : UTable) (F : RFrame) => RowsAre env T (tableViews b F)) Ts Fs := by
    intro b
    have h7 := a7 b
    clear * - h7 a6 a4 hs
    generalize hP : Ts.map (fun T => (T.cols, T)) = Ps at a4 a6
    induction a6 generalizing Ts Fs with
    | nil =>
      cases h7
      simp at hP
      subst hP
      exact .nil
    | @cons p q Ps Qs h _ ih =>
      cases Ts with
      | nil => simp at hP
      | cons T Ts =>
        simp only [List.map_cons, List.cons.injEq] at hP
        obtain ⟨rfl, hP⟩ := hP
        cases h7 with
        | @cons _ F _ Fs g1 g2 =>
          simp only [List.map_cons, List.cons.injEq] at a4
          refine .cons ?_ (ih Ts (fun T hT => hs T (by simp [hT])) Fs g2 hP a4.2)
          have hc : q.2.cols = T.cols := by
            have hl := h.length
            apply List.ext_getElem?
            intro i
            by_cases hi : i < T.cols.length
            · have e1 : T.cols[i]? = some T.cols[i] := List.getElem?_eq_getElem hi
              have e2 : q.2.cols[i]? = some (q.2.cols[i]'(by dsimp only at hl; omega)) := List.getElem?_eq_getElem _
              obtain ⟨n1, n2⟩ := h.get i _ _ e1 e2
              have n3 := narrow_one n2 ((hs T (by simp)).narrow _ (List.getElem_mem hi))
              rw [e1, e2]
              congr 1
              generalize q.2.cols[i]'(by dsimp only at hl; omega) = x at n1 n3
              generalize T.cols[i] = y at n1 n3
              obtain ⟨x1, x2⟩ := x
              obtain ⟨y1, y2⟩ := y
              dsimp only at n1 n3
              rw [n1, n3]
            · rw [List.getElem?_eq_none (by dsimp only at hl; omega), List.getElem?_eq_none (by omega)]
          refine ⟨by rw [g1.len, a4.1], ?_⟩
          intro r v hr
          rw [← hc]
          exact g1.row r v hr
  obtain ⟨F, Fs, rfl⟩ : ∃ F Fs', Fs = F :: Fs' := by
    have := (hrows true).length
    cases Fs with
    | nil => simp at this; exact absurd this hne
    | cons F Fs => exact ⟨F, Fs, rfl⟩
  have hm : Match (RowsAre env) Ts (tableViews false F :: Fs.map (tableViews true)) := by
    have h0 := hrows false
    have h1 := hrows true
    cases h0 with
    | cons g0 _ =>
      cases h1 with
      | cons _ g1 =>
        refine .cons g0 ?_
        clear * - g1
        induction g1 with
        | nil => exact .nil
        | cons h _ ih => exact .cons h ih
  have hfresh : ∀ vs ∈ Fs.map (tableViews true), ∀ u, vs.head? = some u → u.fresh = true := by
    intro vs hvs u hu
    obtain ⟨G, _, rfl⟩ := List.mem_map.mp hvs
    have : (tableViews true G)[0]? = some u := by rw [← List.head?_eq_getElem?]; exact hu
    rw [tableViews_get, Option.map_eq_some_iff] at this
    obtain ⟨row, _, rfl⟩ := this
    rfl
  have hfv : (tableViews false F :: Fs.map (tableViews true)).flatten = fileViews (F :: Fs) := by
    simp [fileViews, List.flatMap_def]
  have hcount : rowCount (F :: Fs) = (Ts.map UTable.rows).sum := by
    have h1 := hrows true
    clear * - h1
    generalize F :: Fs = Gs at h1
    induction h1 with
    | nil => rfl
    | cons h _ ih =>
      have := h.len
      rw [tableViews_length] at this
      simp only [rowCount, List.map_cons, List.sum_cons] at ih ⊢
      rw [ih, this]
  have hread := readRows_file env junk (F :: Fs) (a2 hsz) fuel (by omega)
  have hvl : (fileViews (F :: Fs)).length = (Ts.map UTable.rows).sum := by
    rw [← hcount, ← rowPairs_length, ← fileViews_pairs, List.length_map]
  -- the first row
  obtain ⟨T, Ss, rfl⟩ : ∃ T Ss, Ts = T :: Ss := by
    cases Ts with
    | nil => exact absurd rfl hne
    | cons T Ss => exact ⟨T, Ss, rfl⟩
  obtain ⟨u, vs, hu1, hu⟩ : ∃ u us, fileViews (F :: Fs) = u :: us ∧ u.cols.map Col.key = T.cols.map InCol.key := by
    rw [← hfv]
    cases hm with
    | cons g _ =>
      obtain ⟨u, us, e, hu⟩ := g.head (hpos T (by simp))
      exact ⟨u, _, by rw [List.flatten_cons, e]; rfl, hu⟩
  obtain ⟨ps, p1, _⟩ := setIndices_ok T.cols us (hs T (by simp)).one
  obtain ⟨vss', l1, l2, l3⟩ := setLoop_chunks hset hm hs (fun T hT0 c hc => ((hT T hT0).col c hc).2.2) hpos (by simpa using hfresh) ps
    (by intro S hS; simp at hS; subst hS; exact p1)
  rw [hfv] at l1
  have hrun : ∀ p ∈ Ps', URun p.1 p.2 := by
    intro p hp
    have h1 := hT' p hp
    obtain ⟨S, hS, hSS⟩ := hset.mem_left' (List.mem_map.mpr ⟨p, hp, rfl⟩)
    refine ⟨hw p hp, h1.rows, h1.lens, fun c hc => (h1.vals c hc).fits, h1.few, ?_, by rw [hSS.rows]; exact hpos S hS⟩
    intro h0
    have := hSS.cols.length
    rw [h0] at this
    exact (hT S hS).ne (List.length_eq_zero_iff.mp this)
  have hP : Ps' ≠ [] := by
    rintro rfl
    simp only [List.map_nil] at hset
    cases hset
  have hrs : Ps'.map (fun p => p.2.rows) = (T :: Ss).map UTable.rows := by
    have : ∀ (A B : List UTable), Match (SetTable env us) A B → B.map UTable.rows = A.map UTable.rows := by
      intro A B h
      induction h with
      | nil => rfl
      | cons h _ ih => simp only [List.map_cons]; rw [h.rows, ih]
    rw [← this _ _ hset, List.map_map]
    rfl
  obtain ⟨U, Us, r1, r2, r3, r4⟩ := runs env Ps' vss' hP (by
      clear * - l2
      generalize hX : Ps'.map Prod.snd = X at l2
      induction l2 generalizing Ps' with
      | nil => simp at hX; subst hX; exact .nil
      | cons h _ ih =>
        cases Ps' with
        | nil => simp at hX
        | cons p Ps' =>
          simp only [List.map_cons, List.cons.injEq] at hX
          exact .cons (by rw [hX.1]; exact h) (ih Ps' hX.2)) hrun hg (by
      intro ws hws
      have htail : vss'.tail.map (fun vs => vs.head?.map RowView.fresh) = (Fs.map (tableViews true)).map (fun vs => vs.head?.map RowView.fresh) := by
        have := congrArg List.tail l3
        simpa using this
      have hmem : ws.head?.map RowView.fresh ∈ vss'.tail.map (fun vs => vs.head?.map RowView.fresh) := List.mem_map.mpr ⟨ws, hws, rfl⟩
      rw [htail] at hmem
      obtain ⟨xs, hxs, hx⟩ := List.mem_map.mp hmem
      exact head_fresh hx.symm (hfresh xs hxs))
  have hlen : vss'.flatten.length = (Ps'.map (fun p => p.2.rows)).sum := by
    rw [show Ps'.map (fun p => p.2.rows) = (Ps'.map Prod.snd).map UTable.rows by simp [Function.comp_def]]
    clear * - l2
    generalize Ps'.map Prod.snd = X at l2
    induction l2 with
    | nil => rfl
    | cons h _ ih => simp only [List.flatten_cons, List.length_append, List.map_cons, List.sum_cons]; rw [ih, h.len]
  cases hb : RowIt.begin env junk ((F :: Fs).map RFrame.bytes).flatten with
  | error e => unfold readRows at hread; rw [hb] at hread; simp [hu1] at hread
  | ok it =>
    obtain ⟨c1, c2, c3⟩ := begin_first hb (hu1 ▸ hread)
    rw [← hu1] at c3
    obtain ⟨out, o1, o2⟩ := pass1_tables env hmd5 cap hcap vss'.flatten U Us r1
      (by
        intro V hV
        obtain ⟨q, hq, hR, hle⟩ := r3 V hV
        exact ⟨hR.ok (hB q hq) (by rw [hrs] at hle; omega), hR.ne⟩)
      (by
        intro V hV
        obtain ⟨q, hq, hR, _⟩ := r3 V (List.mem_cons_of_mem _ hV)
        exact hR.pos)
      u.cols (by
        cases hPs : Ps' with
        | nil => exact absurd hPs hP
        | cons p Qs' =>
          rw [hPs, List.map_cons] at hset
          cases hset with
          | cons h1 _ => rw [hu, (r2 p (by rw [hPs]; rfl)).2, setTable_key h1])
    rw [hlen, hrs] at o1 o2
    refine ⟨out, ?_, ?_⟩
    · unfold setFile
      rw [hb]
      dsimp only
      rw [setParse_text lib as us has]
      dsimp only
      rw [c1, names_of_key hu, p1]
      dsimp only
      rw [c2, c3, if_neg (by simp), l1]
      exact o1
    · intro hso junk' fuel' hf'
      obtain ⟨views, v1, _, v3⟩ := o2 hso junk' fuel' hf'
      exact ⟨views, v1, r4 views v3⟩

/-- What was accepted. -/
theorem setLoop_ok (us : List (Str × Word)) (ps : List Nat) (vs : List RowView) (e : Option Err) (h : (setLoop us ps vs e).2 = none) :
    e = none ∧ (setLoop us ps vs e).1.length = vs.length ∧ (∀ v ∈ vs, v.fresh = true → ∃ qs, setIndices (v.cols.map Col.name) us = .ok qs) ∧
      ∀ v ∈ vs, v.cells.flatten.length = v.cols.length := by
  induction vs generalizing ps with
  | nil => exact ⟨h, rfl, by simp, by simp⟩
  | cons v vs ih =>
    simp only [setLoop] at h ⊢
    cases hx : (if v.fresh then setIndices (v.cols.map Col.name) us else .ok ps) with
    | error x => rw [hx] at h; simp at h
    | ok qs =>
      rw [hx] at h
      dsimp only at h ⊢
      cases hy : setRow qs us v with
      | error x => rw [hy] at h; simp at h
      | ok v' =>
        rw [hy] at h
        dsimp only at h ⊢
        obtain ⟨i1, i2, i3, i4⟩ := ih qs h
        refine ⟨i1, by simp [i2], ?_, ?_⟩
        · intro w hw hf
          rcases List.mem_cons.mp hw with rfl | hw
          · rw [hf] at hx; exact ⟨qs, by simpa using hx⟩
          · exact i3 w hw hf
        · intro w hw
          rcases List.mem_cons.mp hw with rfl | hw
          · unfold setRow at hy
            split at hy
            · simp at hy
            · rename_i hc; exact Decidable.not_not.mp hc
          · exact i4 w hw

theorem setIndices_inv (names : List Str) (us : List (Str × Word)) (ps : List Nat) (h : setIndices names us = .ok ps) :
    ∀ u ∈ us, ∃ (p : Nat), (∃ n, names[p]? = some n ∧ Means u.1 n) ∧ ∀ (p' : Nat) (n' : Str), names[p']? = some n' → Means u.1 n' → p' = p := by
  induction us generalizing ps with
  | nil => simp
  | cons u us ih =>
    simp only [setIndices] at h
    cases hc : columnIndex names u.1 with
    | error e => rw [hc] at h; simp at h
    | ok p =>
      rw [hc] at h
      dsimp only at h
      cases hi : setIndices names us with
      | error e => rw [hi] at h; simp at h
      | ok qs =>
        intro x hx
        rcases List.mem_cons.mp hx with rfl | hx
        · exact ⟨p, ((C24_column_index names x.1).1 p).mp hc⟩
        · exact ih qs hi x hx

theorem pass1_count {env : Env} {o : Order} {cap : Nat} {ks : List Col} {input : List RowView × Option Err} {n : Nat} {out : List (List Byte)}
    (h : pass1 env o cap ks input = .ok (n, out)) : input.2 = none ∧ n = input.1.length := by
  unfold pass1 at h
  repeat' split at h
  all_goals simp_all

/-- **C51.**  If `odc set` succeeds on a file that has rows, then reading the file ended without an exception, all rows were counted, the text is a list
of assignments, and wherever the columns changed each assignment meant exactly one column. -/
theorem C51_accepted (env : Env) (lib : SetLib) (cap : Nat) (junk : Junk) (text : Str) (bytes : List Byte) (fuel : Nat) (n : Nat)
    (out : List (List Byte)) (h : setFile env lib cap junk text bytes fuel = .ok (n, out)) (u : RowView) (vs : List RowView) (e : Option Err)
    (hr : readRows env junk bytes fuel = (u :: vs, e)) :
    e = none ∧ n = vs.length + 1 ∧ ∃ us, setParse lib text = .ok us ∧
      ∀ v ∈ u :: vs, v.cells.flatten.length = v.cols.length ∧ ((v = u ∨ v.fresh = true) → ∀ x ∈ us, ∃ (p : Nat),
        (∃ k, v.cols[p]? = some k ∧ Means x.1 k.name) ∧ ∀ (p' : Nat) (k' : Col), v.cols[p']? = some k' → Means x.1 k'.name → p' = p) := by
  unfold setFile at h
  cases hb : RowIt.begin env junk bytes with
  | error x => rw [hb] at h; simp at h
  | ok it =>
    obtain ⟨c1, c2, c3⟩ := begin_first hb hr
    rw [hb] at h
    dsimp only at h
    cases hp : setParse lib text with
    | error x => rw [hp] at h; simp at h
    | ok us =>
      rw [hp] at h
      dsimp only at h
      cases hi : setIndices (it.cols.map Col.name) us with
      | error x => rw [hi] at h; simp at h
      | ok ps =>
        rw [hi] at h
        dsimp only at h
        rw [c2, c3, if_neg (by simp)] at h
        obtain ⟨q1, q2⟩ := pass1_count h
        obtain ⟨l1, l2, l3, l4⟩ := setLoop_ok us ps (u :: vs) e q1
        refine ⟨l1, by rw [q2, l2]; rfl, us, rfl, ?_⟩
        intro v hv
        refine ⟨l4 v hv, ?_⟩
        intro hf x hx
        obtain ⟨qs, hqs⟩ : ∃ qs, setIndices (v.cols.map Col.name) us = .ok qs := by
          rcases hf with rfl | hf
          · exact ⟨ps, by rw [← c1]; exact hi⟩
          · exact l3 v hv hf
        obtain ⟨p, ⟨nm, n1, n2⟩, n3⟩ := setIndices_inv _ us qs hqs x hx
        rw [List.getElem?_map, Option.map_eq_some_iff] at n1
        obtain ⟨k, k1, k2⟩ := n1
        refine ⟨p, ⟨k, k1, by rw [k2]; exact n2⟩, ?_⟩
        intro p' k' hk' hm
        exact n3 p' k'.name (by rw [List.getElem?_map, hk']; rfl) hm

end Verif
