import Verif.PropSql

/-!
C52: the SQL filter on files written by `encode`.
-/

namespace Verif

/-! ### Specification -/

/-- Specification: the same text, possibly in columns of different widths. -/
def SameText (a b : Cell) : Prop := ∃ n : Nat, a = b ++ List.replicate n 0 ∨ b = a ++ List.replicate n 0

/-- Specification: the condition is about the text of strings, not about the width of the columns they are in. -/
def Query.OfText (q : Query) : Prop :=
  ∀ xs ys : List (Cell × Bool), Match (fun a b => SameText a.1 b.1 ∧ a.2 = b.2) xs ys → q.keep xs = q.keep ys

/-! ### What the header says about missing values -/

/-- The header of a frame written by `encode` tells correctly whether values are missing. -/
theorem sent_src {env : Env} {c c' : InCol} {k : Col} (hv : c.vals.Ok env) (hn : c'.vals.Narrow c.vals)
    (h : ∃ q back, ColSent env c.vals none q back ∧ k.codec = reload env.asDbl c.vals.ty.toInt q) : SrcCol env c' k := by
  obtain ⟨q, back, hs, hk⟩ := h
  obtain ⟨m, m1, m2⟩ := hs.missing
  have hhas := (reload_spec env.asDbl c.vals.ty.toInt q).2.2.2
  have hch := hs.chosen
  unfold SrcCol
  rw [hk, hhas]
  have key : ((q.hasMissing = 0 ∨ q.hasMissing = 1) ∧ ∀ (r : Nat) (x : Cell), (c'.vals.cells env)[r]? = some x →
      (decide (q.hasMissing ≠ 0) && feq (cellWord x) m) = c'.vals.isMissing r) := by
    cases hv' : c.vals with
    | strings w vs =>
      rw [hv'] at hch hn
      have h0 := chosen_strHas hch
      refine ⟨Or.inl h0, ?_⟩
      intro r x _
      cases hv2 : c'.vals <;> rw [hv2] at hn <;> simp only [Vals.Narrow, reduceCtorEq] at hn
      simp [h0, Vals.isMissing]
    | ints vs =>
      have hn' : c'.vals = .ints vs := by cases h2 : c'.vals <;> rw [h2, hv'] at hn <;> simpa [Vals.Narrow] using hn
      rw [hv'] at hch hv
      obtain ⟨a, b⟩ := sent_ints (Or.inl rfl) hv hch m2
      refine ⟨a, ?_⟩
      intro r x hx
      rw [hn'] at hx ⊢
      simp only [Vals.cells, List.getElem?_map, Option.map_eq_some_iff] at hx
      obtain ⟨i, hi, rfl⟩ := hx
      exact b r i hi
    | bits ms vs =>
      have hn' : c'.vals = .bits ms vs := by cases h2 : c'.vals <;> rw [h2, hv'] at hn <;> simpa [Vals.Narrow] using hn
      rw [hv'] at hch hv
      obtain ⟨a, b⟩ := sent_ints (Or.inr rfl) hv.1 hch m2
      refine ⟨a, ?_⟩
      intro r x hx
      rw [hn'] at hx ⊢
      simp only [Vals.cells, List.getElem?_map, Option.map_eq_some_iff] at hx
      obtain ⟨i, hi, rfl⟩ := hx
      exact b r i hi
    | reals vs =>
      have hn' : c'.vals = .reals vs := by cases h2 : c'.vals <;> rw [h2, hv'] at hn <;> simpa [Vals.Narrow] using hn
      rw [hv'] at hch hv
      obtain ⟨a, b⟩ := sent_reals (Or.inl rfl) hv.nan hch m2
      refine ⟨a, ?_⟩
      intro r x hx
      rw [hn'] at hx ⊢
      simp only [Vals.cells, List.getElem?_map, Option.map_eq_some_iff] at hx
      obtain ⟨i, hi, rfl⟩ := hx
      exact b r i hi
    | doubles vs =>
      have hn' : c'.vals = .doubles vs := by cases h2 : c'.vals <;> rw [h2, hv'] at hn <;> simpa [Vals.Narrow] using hn
      rw [hv'] at hch hv
      obtain ⟨a, b⟩ := sent_reals (Or.inr rfl) hv.nan hch m2
      refine ⟨a, ?_⟩
      intro r x hx
      rw [hn'] at hx ⊢
      simp only [Vals.cells, List.getElem?_map, Option.map_eq_some_iff] at hx
      obtain ⟨i, hi, rfl⟩ := hx
      exact b r i hi
  exact ⟨key.1, m, m1, key.2⟩

/-! ### Narrower columns -/

/-- Proof device: the same columns, strings possibly narrower. -/
def NarrowCols (cs cs' : List InCol) : Prop := Match (fun (c c' : InCol) => c'.name = c.name ∧ c'.vals.Narrow c.vals) cs cs'

theorem wordsOf_wide (w : Nat) (n : Nat) (s : Str) (h : s.length ≤ 8 * w) : wordsOf (w + n) s = wordsOf w s ++ List.replicate n 0 := by
  induction w generalizing s with
  | zero =>
    have : s = [] := List.length_eq_zero_iff.mp (by omega)
    subst this
    rw [Nat.zero_add, wordsOf_nil]
    rfl
  | succ w ih =>
    rw [show w + 1 + n = (w + n) + 1 by omega]
    simp only [wordsOf, List.cons_append]
    rw [ih (s.drop 8) (by simp; omega)]


theorem narrow_cells {env : Env} {a b : Vals} (h : a.Narrow b) (r : Nat) (hr : r < b.rows) :
    SameText ((a.cells env).getD r []) ((b.cells env).getD r []) := by
  cases a <;> cases b <;> simp only [Vals.Narrow, reduceCtorEq] at h
  case strings.strings w vs w' vs' =>
    obtain ⟨rfl, h1, h2, h3⟩ := h
    refine ⟨w' - w, Or.inr ?_⟩
    have hr : r < vs.length := hr
    simp only [Vals.cells, List.getD_eq_getElem?_getD, List.getElem?_map, List.getElem?_eq_getElem hr, Option.map_some, Option.getD_some]
    have := wordsOf_wide w (w' - w) vs[r] (h3 _ (List.getElem_mem hr))
    rwa [show w + (w' - w) = w' by omega] at this
  all_goals
    rw [h]
    exact ⟨0, Or.inl (by simp)⟩

theorem narrow_pick {a b : Vals} (h : a.Narrow b) (js : List Nat) : (a.pick js).Narrow (b.pick js) := by
  cases a <;> cases b <;> simp only [Vals.Narrow, reduceCtorEq] at h
  case strings.strings w vs w' vs' =>
    obtain ⟨rfl, h1, h2, h3⟩ := h
    refine ⟨rfl, h1, h2, ?_⟩
    intro s hs
    obtain ⟨j, _, rfl⟩ := List.mem_map.mp hs
    by_cases hj : j < vs.length
    · rw [List.getD_eq_getElem?_getD, List.getElem?_eq_getElem hj]
      exact h3 _ (List.getElem_mem hj)
    · rw [List.getD_eq_getElem?_getD, List.getElem?_eq_none (by omega)]
      simp
  all_goals
    simp only [Vals.Narrow, Vals.pick]
    simp_all

theorem chosen_narrow {first : List Str} {T T' : UTable} (h : NarrowCols T.cols T'.cols) {n : Str} {c : InCol} (hc : Chosen first T n c) :
    ∃ c', Chosen first T' n c' ∧ c' ∈ T'.cols ∧ c ∈ T.cols ∧ c'.vals.Narrow c.vals := by
  obtain ⟨m, h1, p, h2, h3, h4⟩ := hc
  have hl := Match.length h
  have hp := (List.getElem?_eq_some_iff.mp h2).1
  obtain ⟨c', hc'⟩ : ∃ c', T'.cols[p]? = some c' := ⟨_, List.getElem?_eq_getElem (by omega)⟩
  obtain ⟨g1, g2⟩ := Match.get h p c c' h2 hc'
  refine ⟨c', ⟨m, h1, p, hc', by rw [g1]; exact h3, ?_⟩, List.mem_of_getElem? hc', List.mem_of_getElem? h2, g2⟩
  intro p' d' hd' hm
  have hp' := (List.getElem?_eq_some_iff.mp hd').1
  obtain ⟨d, hd⟩ : ∃ d, T.cols[p']? = some d := ⟨_, List.getElem?_eq_getElem (by omega)⟩
  obtain ⟨e1, _⟩ := Match.get h p' d d' hd hd'
  exact h4 p' d hd (by rw [← e1]; exact hm)

/-- The answers on tables that differ in the widths of their strings only do so, too. -/
theorem answer_narrow {env : Env} {q : Query} (hq : q.OfText) {first : List Str} {T T' R : UTable} (h : NarrowCols T.cols T'.cols)
    (hr : T'.rows = T.rows) (hrows : ∀ c ∈ T.cols, c.vals.rows = T.rows) (hA : Answer env q first T R) :
    ∃ R', Answer env q first T' R' ∧ R'.rows = R.rows ∧ NarrowCols R.cols R'.cols := by
  obtain ⟨cs, h1, h2, h3⟩ := hA.ex
  obtain ⟨cs', g1, g2⟩ : ∃ cs', Match (Chosen first T') q.cond cs' ∧ Match (fun (c c' : InCol) => c ∈ T.cols ∧ c'.vals.Narrow c.vals) cs cs' := by
    clear h2 h3 hA
    generalize q.cond = ns at h1
    induction h1 with
    | nil => exact ⟨[], .nil, .nil⟩
    | cons hc _ ih =>
      obtain ⟨cs', a1, a2⟩ := ih
      obtain ⟨c', b1, _, b2, b3⟩ := chosen_narrow h hc
      exact ⟨c' :: cs', .cons b1 a1, .cons ⟨b2, b3⟩ a2⟩
  have hj : q.rows env T' cs' = q.rows env T cs := by
    unfold Query.rows
    rw [hr]
    apply List.filter_congr
    intro j hjm
    apply hq
    clear h1 h2 h3 g1
    induction g2 with
    | nil => exact .nil
    | @cons c c' cs cs' hc _ ih =>
      refine .cons ⟨narrow_cells hc.2 j ?_, narrow_missing hc.2 j⟩ ih
      rw [hrows c hc.1]
      simpa using hjm
  obtain ⟨cols, a1, a2⟩ : ∃ cols, Match (fun (s : Str × Str) (c' : InCol) => ∃ c, Chosen first T' s.1 c ∧ c'.name = s.2 ∧ c'.vals = c.vals.pick (q.rows env T cs)) q.select cols ∧
      NarrowCols R.cols cols := by
    clear h1 h2 hj hA
    generalize q.rows env T cs = js at h3
    generalize R.cols = rs at h3
    generalize q.select = sl at h3
    induction h3 with
    | nil => exact ⟨[], .nil, .nil⟩
    | @cons s r sl rs hc _ ih =>
      obtain ⟨cols, a1, a2⟩ := ih
      obtain ⟨c, e1, e2, e3⟩ := hc
      obtain ⟨c', b1, _, b2, b3⟩ := chosen_narrow h e1
      refine ⟨⟨s.2, c'.vals.pick js⟩ :: cols, .cons ⟨c', b1, rfl, rfl⟩ a1, .cons ⟨e2.symm, ?_⟩ a2⟩
      rw [e3]
      exact narrow_pick b3 js
  refine ⟨{ cols := cols, rows := R.rows, props := [] }, ⟨cs', g1, ?_, ?_⟩, rfl, a2⟩
  · rw [hj]; exact h2
  · rw [hj]; exact a1

theorem allRows_narrow {env : Env} {Rs Rs' : List UTable} (h : Match (fun (R R' : UTable) => R'.rows = R.rows ∧ NarrowCols R.cols R'.cols) Rs Rs')
    {views : List RowView} (hv : Match (IsRowAt env) (allRows Rs') views) : Match (IsRowAt env) (allRows Rs) views := by
  have hx : Match (fun (a b : UTable × Nat) => b.2 = a.2 ∧ NarrowCols a.1.cols b.1.cols) (allRows Rs) (allRows Rs') := by
    clear hv
    induction h with
    | nil => exact .nil
    | @cons R R' Rs Rs' h _ ih =>
      simp only [allRows, List.flatMap_cons] at ih ⊢
      refine Match.append ?_ ih
      rw [h.1]
      refine Match.of_get _ _ (by simp) ?_
      intro i a b ha hb
      rw [List.getElem?_map, Option.map_eq_some_iff] at ha hb
      obtain ⟨j, j1, rfl⟩ := ha
      obtain ⟨j', j2, rfl⟩ := hb
      rw [j1] at j2
      cases j2
      exact ⟨rfl, h.2⟩
  refine Match.of_get _ _ (by rw [hx.length, hv.length]) ?_
  intro i a v ha hvi
  obtain ⟨b, hb⟩ : ∃ b, (allRows Rs')[i]? = some b := ⟨_, List.getElem?_eq_getElem (by rw [hv.length]; exact (List.getElem?_eq_some_iff.mp hvi).1)⟩
  obtain ⟨e1, e2⟩ := hx.get i a b ha hb
  have := hv.get i b v hb hvi
  unfold IsRowAt at this ⊢
  rw [e1] at this
  exact IsRow.narrow e2 this

/-! ### Files written by `encode` -/

/-- The rows of a file written by `encode`, with what the headers say about missing values. -/
theorem encode_from (env : Env) (hmd5 : env.Md5Ok) (Ts : List UTable) (hT : ∀ T ∈ Ts, T.Ok env)
    (hv : ∀ T ∈ Ts, ∀ c ∈ T.cols, c.vals.Ok env ∧ c.vals.Exact) (hpos : ∀ T ∈ Ts, 0 < T.rows) :
    ∃ (Fs : List RFrame) (Ts' : List UTable), writeTables env Ts = .ok (Fs.map RFrame.bytes) ∧
      ((∀ b ∈ Fs.map RFrame.bytes, b.length ≤ 2147483647) → ∀ F ∈ Fs, F.Ok env) ∧
      Match (fun (T T' : UTable) => T'.rows = T.rows ∧ NarrowCols T.cols T'.cols) Ts Ts' ∧ (∀ T' ∈ Ts', ∀ c ∈ T'.cols, c.vals.rows = T'.rows) ∧
      Match (fun (T' : UTable) (F : RFrame) => ∀ b, RowsFrom env T' (tableViews b F)) Ts' Fs := by
  induction Ts with
  | nil => exact ⟨[], [], rfl, by simp, .nil, by simp, .nil⟩
  | cons T Ts ih =>
    obtain ⟨Fs, Ts', a1, a2, a3, a4, a5⟩ := ih (fun T h => hT T (by simp [h])) (fun T h => hv T (by simp [h])) (fun T h => hpos T (by simp [h]))
    have hvT := hv T (by simp)
    obtain ⟨F, T', f1, f2, f3, f4, f5, f6, f7, f8, f9, f10⟩ := encode_reads1 env hmd5 T (hT T (by simp)) (fun c hc => (hvT c hc).1) (hpos T (by simp))
    have hnar : NarrowCols T.cols T'.cols := by
      apply Match.of_get _ _ f5.length
      intro i c c' hc hc'
      exact asRead_narrow (f5.get i c c' hc hc') (hvT c (List.mem_of_getElem? hc)).2
    refine ⟨F :: Fs, T' :: Ts', by simp only [writeTables, f1, a1, List.map_cons], ?_, .cons ⟨f3, hnar⟩ a3, ?_, .cons ?_ a5⟩
    · intro hs G hG
      rcases List.mem_cons.mp hG with rfl | hG
      · exact f2 (hs _ (by simp))
      · exact a2 (fun b hb => hs b (by rw [List.map_cons]; exact List.mem_cons_of_mem _ hb)) G hG
    · intro S hS
      rcases List.mem_cons.mp hS with rfl | hS
      · intro c hc; rw [f6 c hc, f3]
      · exact a4 S hS
    · intro b
      refine ⟨⟨by rw [tableViews_length, f7, f3], ?_⟩, F.cols, ?_, ?_⟩
      · intro r v hr
        rw [tableViews_get, Option.map_eq_some_iff] at hr
        obtain ⟨row, h1, rfl⟩ := hr
        exact ⟨f8, f9 r row h1⟩
      · have hl1 := Match.length hnar
        have hl2 := Match.length f10
        refine Match.of_get _ _ (by omega) ?_
        intro i c' k hc' hk
        have hi := (List.getElem?_eq_some_iff.mp hc').1
        obtain ⟨c, hc⟩ : ∃ c, T.cols[i]? = some c := ⟨_, List.getElem?_eq_getElem (by omega)⟩
        exact sent_src (hvT c (List.mem_of_getElem? hc)).1 (Match.get hnar i c c' hc hc').2 (Match.get f10 i c k hc hk)
      · intro v hv'
        obtain ⟨i, hi⟩ := List.getElem?_of_mem hv'
        rw [tableViews_get, Option.map_eq_some_iff] at hi
        obtain ⟨row, _, rfl⟩ := hi
        rfl

/-- A file written by `encode` as the engine sees it. -/
theorem encoded_source (env : Env) (hmd5 : env.Md5Ok) (q : Query) (hq : q.OfText)
    (Ts Rs : List UTable) (hT : ∀ T ∈ Ts, T.Ok env) (hv : ∀ T ∈ Ts, ∀ c ∈ T.cols, c.vals.Ok env ∧ c.vals.Exact) (hpos : ∀ T ∈ Ts, 0 < T.rows)
    (T0 : UTable) (hT0 : Ts.head? = some T0) (hans : Match (Answer env q (T0.cols.map InCol.name)) Ts Rs)
    (B : List InCol) (hw : ∀ R ∈ Rs, R.Within B) (htitle : ∀ s ∈ q.select, LenOk s.2.length) :
    ∃ bss, writeTables env Ts = .ok bss ∧ ((∀ b ∈ bss, b.length ≤ 2147483647) →
      ∀ (junk : Junk) (fuel : Nat), (Ts.map UTable.rows).sum + 1 < fuel →
        ∃ (Ts' Rs' : List UTable) (vss : List (List RowView)), readRows env junk bss.flatten fuel = (vss.flatten, none) ∧ Match (RowsFrom env) Ts' vss ∧
          (∀ vs ∈ vss.tail, ∀ u, vs.head? = some u → u.fresh = true) ∧ (∀ T ∈ Ts', ∀ c ∈ T.cols, c.vals.rows = T.rows) ∧ (∀ T ∈ Ts', 0 < T.rows) ∧
          (∃ T0', Ts'.head? = some T0' ∧ Match (Answer env q (T0'.cols.map InCol.name)) Ts' Rs') ∧ (∀ R ∈ Rs', R.Within B) ∧
          (∀ R ∈ Rs', ∀ c ∈ R.cols, c.vals.Fits) ∧ (∀ R ∈ Rs', ∀ c ∈ R.cols, ColLen c) ∧ Rs'.map UTable.rows = Rs.map UTable.rows ∧
          Match (fun (R R' : UTable) => R'.rows = R.rows ∧ NarrowCols R.cols R'.cols) Rs Rs' ∧
          ∀ vs ∈ vss, ∀ u ∈ vs.tail, u.fresh = false) := by
  obtain ⟨Fs, Ts', a1, a2, a3, a4, a5⟩ := encode_from env hmd5 Ts hT hv hpos
  refine ⟨_, a1, ?_⟩
  intro hsz junk fuel hf
  have hrowsT : ∀ T ∈ Ts, ∀ c ∈ T.cols, c.vals.rows = T.rows := fun T h c hc => ((hT T h).col c hc).2.2
  have hnames : ∀ T T' : UTable, NarrowCols T.cols T'.cols → T'.cols.map InCol.name = T.cols.map InCol.name := by
    intro T T' h
    unfold NarrowCols at h
    generalize T.cols = cs at h
    generalize T'.cols = cs' at h
    induction h with
    | nil => rfl
    | cons h _ ih => simp only [List.map_cons, h.1, ih]
  obtain ⟨T0', Ts1', rfl, hn0⟩ : ∃ T0' Ts1', Ts' = T0' :: Ts1' ∧ T0'.cols.map InCol.name = T0.cols.map InCol.name := by
    cases a3 with
    | nil => simp at hT0
    | cons h _ => simp at hT0; subst hT0; exact ⟨_, _, rfl, hnames _ _ h.2⟩
  obtain ⟨F, Fs, rfl⟩ : ∃ F Fs', Fs = F :: Fs' := by cases a5; exact ⟨_, _, rfl⟩
  -- the answers on the tables as read
  obtain ⟨Rs', hans', hnar⟩ : ∃ Rs', Match (Answer env q (T0'.cols.map InCol.name)) (T0' :: Ts1') Rs' ∧
      Match (fun (R R' : UTable) => R'.rows = R.rows ∧ NarrowCols R.cols R'.cols) Rs Rs' := by
    rw [hn0]
    clear * - a3 hans hrowsT hq
    generalize T0' :: Ts1' = Us at a3
    generalize T0.cols.map InCol.name = first at hans
    induction hans generalizing Us with
    | nil => cases a3; exact ⟨[], .nil, .nil⟩
    | cons h _ ih =>
      cases a3 with
      | cons g1 g2 =>
        obtain ⟨Rs', b1, b2⟩ := ih (fun T hT => hrowsT T (by simp [hT])) _ g2
        obtain ⟨R', c1, c2, c3⟩ := answer_narrow hq g1.2 g1.1 (hrowsT _ (by simp)) h
        exact ⟨R' :: Rs', .cons c1 b1, .cons ⟨c2, c3⟩ b2⟩
  have hsum : Rs'.map UTable.rows = Rs.map UTable.rows := by
    clear * - hnar
    induction hnar with
    | nil => rfl
    | cons h _ ih => simp only [List.map_cons, h.1, ih]
  -- the columns of the answers
  have hsrc : ∀ R ∈ Rs, ∀ r ∈ R.cols, LenOk r.name.length ∧ ∃ (c : InCol) (js : List Nat), r.vals = c.vals.pick js ∧ c.vals.Ok env := by
    intro R hR r hr
    obtain ⟨T, hTm, hA⟩ := hans.mem_left' hR
    obtain ⟨cs, _, _, h3⟩ := hA.ex
    obtain ⟨s, hs, c, ⟨_, _, p, hp, _⟩, e1, e2⟩ := h3.mem_left' hr
    exact ⟨by rw [e1]; exact htitle s hs, c, _, e2, (hv T hTm c (List.mem_of_getElem? hp)).1⟩
  have hback : ∀ R' ∈ Rs', ∃ R ∈ Rs, NarrowCols R.cols R'.cols := by
    intro R' hR'
    obtain ⟨R, hR, _, h⟩ := hnar.mem_left' hR'
    exact ⟨R, hR, h⟩
  have hfr : ∀ vs ∈ Fs.map (tableViews true), ∀ u, vs.head? = some u → u.fresh = true := by
    intro vs hvs u hu
    obtain ⟨G, _, rfl⟩ := List.mem_map.mp hvs
    have : (tableViews true G)[0]? = some u := by rw [← List.head?_eq_getElem?]; exact hu
    rw [tableViews_get, Option.map_eq_some_iff] at this
    obtain ⟨row, _, rfl⟩ := this
    rfl
  have hfv : (tableViews false F :: Fs.map (tableViews true)).flatten = fileViews (F :: Fs) := by
    simp [fileViews, List.flatMap_def]
  have hcount : rowCount (F :: Fs) = (Ts.map UTable.rows).sum := by
    have e1 : (T0' :: Ts1').map UTable.rows = Ts.map UTable.rows := by
      clear * - a3
      generalize T0' :: Ts1' = Us at a3
      induction a3 with
      | nil => rfl
      | cons h _ ih => simp only [List.map_cons, h.1, ih]
    rw [← e1]
    clear * - a5
    generalize F :: Fs = Gs at a5
    generalize T0' :: Ts1' = Us at a5
    induction a5 with
    | nil => rfl
    | cons h _ ih =>
      have := (h true).are.len
      rw [tableViews_length] at this
      simp only [rowCount, List.map_cons, List.sum_cons] at ih ⊢
      rw [ih, this]
  have hread := readRows_file env junk (F :: Fs) (a2 hsz) fuel (by omega)
  have hm : Match (RowsFrom env) (T0' :: Ts1') (tableViews false F :: Fs.map (tableViews true)) := by
    cases a5 with
    | cons g0 g1 =>
      refine .cons (g0 false) ?_
      clear * - g1
      induction g1 with
      | nil => exact .nil
      | cons h _ ih => exact .cons (h true) ih
  refine ⟨T0' :: Ts1', Rs', tableViews false F :: Fs.map (tableViews true), by rw [hfv]; exact hread, hm, by simpa using hfr, a4, ?_, ⟨T0', rfl, hans'⟩, ?_, ?_, ?_, hsum, hnar, ?_⟩
  · intro T' hT'
    obtain ⟨T, hTm, h1, _⟩ := a3.mem_left' hT'
    rw [h1]
    exact hpos T hTm
  · intro R' hR'
    obtain ⟨R, hR, h⟩ := hback R' hR'
    have hl1 := Match.length h
    have hl2 := Match.length (hw R hR)
    refine Match.of_get _ _ (by omega) ?_
    intro i r' b hr' hb
    have hi := (List.getElem?_eq_some_iff.mp hr').1
    obtain ⟨r, hr⟩ : ∃ r, R.cols[i]? = some r := ⟨_, List.getElem?_eq_getElem (by omega)⟩
    obtain ⟨n1, n2⟩ := Match.get h i r r' hr hr'
    obtain ⟨w1, w2⟩ := Match.get (hw R hR) i r b hr hb
    exact ⟨by rw [n1, w1], (n2.parts (env := env)).2.2.2.1 _ w2⟩
  · intro R' hR' r' hr'
    obtain ⟨R, hR, h⟩ := hback R' hR'
    obtain ⟨r, hr, _, n2⟩ := Match.mem_left' h hr'
    apply (n2.parts (env := env)).2.2.1
    obtain ⟨_, c, js, e, hc⟩ := hsrc R hR r hr
    rw [e]
    cases hvc : c.vals with
    | strings w vs =>
      rw [hvc] at hc
      refine ⟨hc.1, ?_⟩
      intro s hs
      obtain ⟨j, _, rfl⟩ := List.mem_map.mp hs
      by_cases hj : j < vs.length
      · rw [List.getD_eq_getElem?_getD, List.getElem?_eq_getElem hj]
        exact (hc.2.2.1 _ (List.getElem_mem hj)).1
      · rw [List.getD_eq_getElem?_getD, List.getElem?_eq_none (by omega)]
        simp
    | _ => trivial
  · intro R' hR' r' hr'
    obtain ⟨R, hR, h⟩ := hback R' hR'
    obtain ⟨r, hr, n1, n2⟩ := Match.mem_left' h hr'
    obtain ⟨hlen', c, js, e, hc⟩ := hsrc R hR r hr
    have hmem : r'.vals.members = c.vals.members := by
      rw [(n2.parts (env := env)).2.1, e, Vals.pick_members]
    have hmm : LenOk c.vals.members.length ∧ ∀ b ∈ c.vals.members, LenOk b.1.length ∧ InI32 b.2 := by
      cases hvv : c.vals with
      | bits ms vs => rw [hvv] at hc; exact ⟨hc.2.1, hc.2.2⟩
      | _ => simp [Vals.members, LenOk]
    exact ⟨by rw [n1]; exact hlen', by rw [hmem]; exact hmm.1, by rw [hmem]; exact hmm.2⟩
  · have key : ∀ (b : Bool) (G : RFrame), ∀ u ∈ (tableViews b G).tail, u.fresh = false := by
      intro b G u hu
      obtain ⟨i, hi⟩ := List.mem_iff_getElem?.mp hu
      rw [List.getElem?_tail, tableViews_get, Option.map_eq_some_iff] at hi
      obtain ⟨row, _, rfl⟩ := hi
      simp
    intro vs hvs
    rcases List.mem_cons.mp hvs with rfl | hvs
    · exact key _ _
    · obtain ⟨G, _, rfl⟩ := List.mem_map.mp hvs
      exact key _ _

/-- **C52.**  The SQL filter on a file of tables written by `encode`.  The condition is about values and texts (`OfText`); each name in the query means
one column in every table; the answers on the tables have columns of the same types (`B`), consecutive tables may have any columns otherwise.  The
result is the number of rows of the answers, and a file with exactly these rows, in order. -/
theorem C52_filter_encoded (env : Env) (hmd5 : env.Md5Ok) (len : List Byte → Nat) (hlen : StrLen len) (cap : Nat) (hcap : 0 < cap) (q : Query) (hq : q.OfText)
    (Ts Rs : List UTable) (hT : ∀ T ∈ Ts, T.Ok env) (hv : ∀ T ∈ Ts, ∀ c ∈ T.cols, c.vals.Ok env ∧ c.vals.Exact) (hpos : ∀ T ∈ Ts, 0 < T.rows)
    (T0 : UTable) (hT0 : Ts.head? = some T0) (hans : Match (Answer env q (T0.cols.map InCol.name)) Ts Rs)
    (B : List InCol) (hB : ∀ b ∈ B, b.vals.Ok env ∧ (env.longEnv = true → b.vals.NoEmpty)) (hw : ∀ R ∈ Rs, R.Within B)
    (hne : q.select ≠ []) (hfew : q.select.length < 65536) (htitle : ∀ s ∈ q.select, LenOk s.2.length)
    (hbig : (Rs.map UTable.rows).sum < 18446744073709551616) :
    ∃ bss, writeTables env Ts = .ok bss ∧ ((∀ b ∈ bss, b.length ≤ 2147483647) →
      ∀ (junk : Junk) (fuel : Nat), (Ts.map UTable.rows).sum + 1 < fuel →
        ∃ out, filterFile env len cap junk q bss.flatten fuel = .ok ((Rs.map UTable.rows).sum, out) ∧
          ((∀ f ∈ out, f.length ≤ 2147483647) → ∀ (junk' : Junk) (fuel' : Nat), (Rs.map UTable.rows).sum + 1 < fuel' →
            ∃ views, readRows env junk' out.flatten fuel' = (views, none) ∧ Match (IsRowAt env) (allRows Rs) views)) := by
  obtain ⟨bss, a1, a2⟩ := encoded_source env hmd5 q hq Ts Rs hT hv hpos T0 hT0 hans B hw htitle
  refine ⟨bss, a1, ?_⟩
  intro hsz junk fuel hf
  obtain ⟨Ts', Rs', vss, b1, b2, b3, b4, b5, ⟨T0', b6, b7⟩, b8, b9, b10, hsum, hnar, _⟩ := a2 hsz junk fuel hf
  obtain ⟨out, o1, o2⟩ := C52_filter env hmd5 len hlen cap hcap junk _ fuel q Ts' Rs' vss b1 b2 b3 b4 b5 T0' b6 b7 B hB b8 b9 b10 hne hfew
    (by rw [hsum]; exact hbig)
  rw [hsum] at o1 o2
  refine ⟨out, o1, ?_⟩
  intro hsz' junk' fuel' hf'
  obtain ⟨views, v1, v2⟩ := o2 hsz' junk' fuel' hf'
  exact ⟨views, v1, allRows_narrow hnar v2⟩

end Verif
