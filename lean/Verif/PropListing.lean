import Verif.Listing
import Verif.PropCommandLine
import Verif.CompactCompare

/-!
C64: what `odc ls` prints.
-/

namespace Verif

/-! ### Specification -/

/-- Specification: texts with tabulators between them. -/
def tabbed : List Str → Str
  | [] => []
  | t :: ts => t ++ ts.flatMap (fun s => 9 :: s)

/-- Specification: how a value is shown: a dot if it is missing, else a number in decimal notation or a text in quotes; `fmt` gives the text for a number that
is not an integer. -/
def Vals.listed (fmt : Word → Str) (v : Vals) (r : Nat) : Str :=
  if v.isMissing r = true then lit "."
  else
    match v with
    | .ints vs => decimal (vs.getD r 0)
    | .bits _ vs => decimal (vs.getD r 0)
    | .reals vs => fmt (vs.getD r 0)
    | .doubles vs => fmt (vs.getD r 0)
    | .strings _ vs => lit "'" ++ vs.getD r [] ++ lit "'"

/-- Specification: the line for a row. -/
def UTable.line (fmt : Word → Str) (T : UTable) (r : Nat) : Str := tabbed (T.cols.map (fun c => c.vals.listed fmt r)) ++ [10]

/-- Specification: the line with the names of the columns. -/
def UTable.nameLine (T : UTable) : Str := tabbed (T.cols.map InCol.name) ++ [10]

/-- Specification: name, type and width of the columns as the reader reports them. -/
abbrev Shape : Type := List (Str × Int × Nat)

/-- Specification: the listing of tables of these shapes: the rows in order, each table after the names of its columns unless the shape is that of
the table before (there being no columns before the first). -/
def listing (fmt : Word → Str) : Shape → List (UTable × Shape) → Str
  | _, [] => []
  | prev, (T, s) :: Ts => (if prev = s then [] else T.nameLine) ++ (List.range T.rows).flatMap (T.line fmt) ++ listing fmt s Ts

/-- Specification: the shape has the names and types of the table's columns. -/
def UTable.HasShape (T : UTable) (s : Shape) : Prop := s.map (fun k => (k.1, k.2.1)) = T.cols.map (fun c => (c.name, c.vals.ty.toInt))

/-- Specification: the reader reports these shapes: for every row of a table the shape of the table. -/
def ShapesSeen (views : List RowView) (Ts : List (UTable × Shape)) : Prop :=
  views.map (fun v => v.cols.map Col.shape) = Ts.flatMap (fun x => List.replicate x.1.rows x.2)

/-! ### One row -/

theorem lsCells_ok (fmt : Word → Str) (v : RowView) (ks : List Col) (ts : List Str) (i : Nat) (hl : ks.length = ts.length)
    (h : ∀ (j : Nat) (k : Col) (t : Str), ks[j]? = some k → ts[j]? = some t → lsCell fmt v k (i + j) = .ok t) :
    lsCells fmt v ks i = (if i = 0 then tabbed ts else ts.flatMap (fun s => 9 :: s), none) := by
  induction ks generalizing ts i with
  | nil =>
    cases ts with
    | nil => simp [lsCells, tabbed]
    | cons t ts => simp at hl
  | cons k ks ih =>
    cases ts with
    | nil => simp at hl
    | cons t ts =>
      have h0 := h 0 k t rfl rfl
      rw [Nat.add_zero] at h0
      have := ih ts (i + 1) (by simpa using hl) (fun j k' t' hk ht => by
        have := h (j + 1) k' t' (by simpa using hk) (by simpa using ht)
        rwa [show i + (j + 1) = i + 1 + j by omega] at this)
      simp only [lsCells, h0, this]
      by_cases hi : i = 0 <;> simp [hi, tabbed]

theorem lsNames_eq (ks : List Col) (i : Nat) : lsNames ks i = if i = 0 then tabbed (ks.map Col.name) else (ks.map Col.name).flatMap (fun s => 9 :: s) := by
  induction ks generalizing i with
  | nil => simp [lsNames, tabbed]
  | cons k ks ih =>
    simp only [lsNames, ih (i + 1)]
    by_cases hi : i = 0 <;> simp [hi, tabbed]

/-- A value of a row. -/
theorem lsCell_row (fmt : Word → Str) {env : Env} (had : env.asDbl = true) {T : UTable} (hv : ∀ c ∈ T.cols, c.vals.Ok env ∧ c.vals.Exact) {r : Nat}
    {v : RowView} (h : IsRow env T r v) {p : Nat} {c : InCol} (hp : T.cols[p]? = some c) {k : Col} (hty : k.ty = c.vals.ty.toInt) :
    lsCell fmt v k p = .ok (c.vals.listed fmt r) := by
  obtain ⟨q, y, e1, e2, e3, e4, e5, e6, e7⟩ := h.col p c hp
  obtain ⟨ok, ex⟩ := hv c (List.mem_of_getElem? hp)
  have hs := Vals.shows_part ex e7
  have hw := h.wide p q y e1 e6
  have hgd : v.cells.getD p [] = y := by rw [List.getD_eq_getElem?_getD, e6]; rfl
  unfold lsCell
  rw [h.missing p c hp, hgd, e1]
  have hint : ∀ (i : Int), InI32 i → fcast (-2147483648) 2147483647 (cellWord [intWord env.asDbl i]) = .ok i := by
    intro i hi
    rw [had]
    exact fcast_ofInt _ _ _ hi.small hi.1 hi.2
  cases hm : c.vals.isMissing r with
  | true => simp only [Vals.listed, hm, if_true]; decide +kernel
  | false =>
    simp only [Vals.listed, hm, Bool.false_eq_true, if_false]
    rw [hty]
    clear hm
    cases hvv : c.vals with
    | ints vs =>
      rw [hvv] at hs ok
      obtain ⟨i, i1, rfl⟩ := hs
      rw [if_pos (by simp [Vals.ty, ColType.toInt]), hint i (ok i (List.mem_of_getElem? i1))]
      simp [List.getD_eq_getElem?_getD, i1]
    | bits ms vs =>
      rw [hvv] at hs ok
      obtain ⟨i, i1, rfl⟩ := hs
      rw [if_pos (by simp [Vals.ty, ColType.toInt]), hint i (ok.1 i (List.mem_of_getElem? i1))]
      simp [List.getD_eq_getElem?_getD, i1]
    | reals vs =>
      rw [hvv] at hs
      obtain ⟨i, i1, rfl⟩ := hs
      simp [Vals.ty, ColType.toInt, cellWord, List.getD_eq_getElem?_getD, i1]
    | doubles vs =>
      rw [hvv] at hs
      obtain ⟨i, i1, rfl⟩ := hs
      simp [Vals.ty, ColType.toInt, cellWord, List.getD_eq_getElem?_getD, i1]
    | strings w vs =>
      rw [hvv] at hs ok
      obtain ⟨s, w', i1, i2, rfl⟩ := hs
      rw [wordsOf_length] at hw
      rw [hw, cellStr_wordsOf _ _ i2 (ok.2.2.1 s (List.mem_of_getElem? i1)).2]
      have hq : lit "'" = [39] := by decide +kernel
      simp [Vals.ty, ColType.toInt, List.getD_eq_getElem?_getD, i1, hq]

/-- A row under a heading of the right shape. -/
theorem lsCells_row (fmt : Word → Str) {env : Env} (had : env.asDbl = true) {T : UTable} (hv : ∀ c ∈ T.cols, c.vals.Ok env ∧ c.vals.Exact) {r : Nat}
    {v : RowView} (h : IsRow env T r v) {md : List Col} (hmd : md.map Col.shape = v.cols.map Col.shape) :
    lsCells fmt v md 0 = (tabbed (T.cols.map (fun c => c.vals.listed fmt r)), none) := by
  have hlen : md.length = v.cols.length := by simpa using congrArg List.length hmd
  have := lsCells_ok fmt v md (T.cols.map (fun c => c.vals.listed fmt r)) 0 (by rw [hlen, h.ncols]; simp) (by
    intro j k t hk ht
    rw [List.getElem?_map, Option.map_eq_some_iff] at ht
    obtain ⟨c, hc, rfl⟩ := ht
    rw [Nat.zero_add]
    obtain ⟨q, y, e1, e2, e3, _⟩ := h.col j c hc
    have hj : (md.map Col.shape)[j]? = (v.cols.map Col.shape)[j]? := by rw [hmd]
    simp only [List.getElem?_map, hk, e1, Option.map_some, Option.some.injEq, Col.shape, Prod.mk.injEq] at hj
    exact lsCell_row fmt had hv h hc (by rw [hj.2.1, e3]))
  simpa using this

theorem row_names {env : Env} {T : UTable} {r : Nat} {v : RowView} (h : IsRow env T r v) : v.cols.map Col.name = T.cols.map InCol.name := by
  apply List.ext_getElem?
  intro p
  simp only [List.getElem?_map]
  cases hp : T.cols[p]? with
  | none => rw [List.getElem?_eq_none (by rw [h.ncols]; exact List.getElem?_eq_none_iff.mp hp)]; rfl
  | some c =>
    obtain ⟨q, y, e1, e2, _⟩ := h.col p c hp
    rw [e1]
    simp [e2]

/-! ### The loop -/

/-- Rows of one table. -/
theorem lsRows_table (fmt : Word → Str) {env : Env} (had : env.asDbl = true) {T : UTable} (hv : ∀ c ∈ T.cols, c.vals.Ok env ∧ c.vals.Exact) (s : Shape)
    (js : List Nat) (vs rest : List RowView) (hm : Match (fun j v => IsRow env T j v ∧ v.cols.map Col.shape = s) js vs) (md : List Col)
    (hmd : md.map Col.shape = s) :
    ∃ md', md'.map Col.shape = s ∧
      lsRows fmt md (vs ++ rest) = (js.flatMap (T.line fmt) ++ (lsRows fmt md' rest).1, (lsRows fmt md' rest).2) := by
  induction hm with
  | nil => exact ⟨md, hmd, by simp⟩
  | cons h _ ih =>
    obtain ⟨md', h1, h2⟩ := ih
    refine ⟨md', h1, ?_⟩
    rw [List.cons_append, lsRows.eq_def]
    simp only [lsHead, hmd, h.2, if_true, lsCells_row fmt had hv h.1 (hmd.trans h.2.symm), h2, List.flatMap_cons, UTable.line, List.nil_append, List.append_assoc]

/-- The whole file, from the rows the reader shows. -/
theorem lsRows_file (fmt : Word → Str) {env : Env} (had : env.asDbl = true) (Ts : List (UTable × Shape))
    (hv : ∀ x ∈ Ts, ∀ c ∈ x.1.cols, c.vals.Ok env ∧ c.vals.Exact) (hpos : ∀ x ∈ Ts, 0 < x.1.rows) (views : List RowView)
    (hm : Match (IsRowAt env) (allRows (Ts.map Prod.fst)) views) (hr : ShapesSeen views Ts) (hc : ∀ v ∈ views, cloneCols v.cols = .ok v.cols) (md : List Col) :
    lsRows fmt md views = (listing fmt (md.map Col.shape) Ts, none) := by
  induction Ts generalizing views md with
  | nil =>
    cases hm
    rfl
  | cons x Ts ih =>
    obtain ⟨T, s⟩ := x
    have hn : 0 < T.rows := hpos (T, s) (by simp)
    have hvT := hv (T, s) (by simp)
    rw [List.map_cons, show allRows (T :: Ts.map Prod.fst) = (List.range T.rows).map (fun j => (T, j)) ++ allRows (Ts.map Prod.fst) by simp [allRows]] at hm
    obtain ⟨v1, v2, rfl, m1, m2⟩ : ∃ v1 v2, views = v1 ++ v2 ∧ Match (IsRowAt env) ((List.range T.rows).map (fun j => (T, j))) v1 ∧
        Match (IsRowAt env) (allRows (Ts.map Prod.fst)) v2 := by
      refine ⟨views.take T.rows, views.drop T.rows, (List.take_append_drop _ _).symm, ?_, ?_⟩
      · have hl := hm.length
        simp only [List.length_append, List.length_map, List.length_range] at hl
        refine Match.of_get _ _ (by simp only [List.length_map, List.length_range, List.length_take]; omega) ?_
        intro i a b ha hb
        have hi : i < T.rows := by have := (List.getElem?_eq_some_iff.mp ha).1; simpa using this
        refine hm.get i a b ?_ ?_
        · rw [List.getElem?_append_left (by simpa using hi)]; exact ha
        · rw [List.getElem?_take, if_pos hi] at hb; exact hb
      · have hl := hm.length
        simp only [List.length_append, List.length_map, List.length_range] at hl
        refine Match.of_get _ _ (by simp only [List.length_drop]; omega) ?_
        intro i a b ha hb
        refine hm.get (T.rows + i) a b ?_ ?_
        · rw [List.getElem?_append_right (by simp)]; simpa using ha
        · rw [List.getElem?_drop] at hb; exact hb
    have hl1 : v1.length = T.rows := by rw [← m1.length]; simp
    unfold ShapesSeen at hr
    rw [List.map_append, List.flatMap_cons] at hr
    obtain ⟨r1, r2⟩ := List.append_inj hr (by simp [hl1])
    have hsh : ∀ v ∈ v1, v.cols.map Col.shape = s := by
      intro v hvm
      have : v.cols.map Col.shape ∈ v1.map (fun v => v.cols.map Col.shape) := List.mem_map.mpr ⟨v, hvm, rfl⟩
      rw [r1] at this
      exact List.eq_of_mem_replicate this
    have hrow : Match (fun j v => IsRow env T j v ∧ v.cols.map Col.shape = s) (List.range T.rows) v1 := by
      refine Match.of_get _ _ (by simp [hl1]) ?_
      intro i j v hj hvv
      have := m1.get i (T, j) v (by rw [List.getElem?_map, hj]; rfl) hvv
      exact ⟨this, hsh v (List.mem_of_getElem? hvv)⟩
    have hc2 : ∀ v ∈ v2, cloneCols v.cols = .ok v.cols := fun v hvm => hc v (List.mem_append_right _ hvm)
    have tail := fun md => ih (fun x hx => hv x (by simp [hx])) (fun x hx => hpos x (by simp [hx])) v2 m2 r2 hc2 md
    by_cases hs : md.map Col.shape = s
    · obtain ⟨md', g1, g2⟩ := lsRows_table fmt had hvT s _ v1 v2 hrow md hs
      rw [g2, tail md', g1]
      simp [listing, hs]
    · -- the heading
      obtain ⟨j, js, hjs⟩ : ∃ j js, List.range T.rows = j :: js := by
        cases hl : List.range T.rows with
        | nil => rw [List.range_eq_nil] at hl; omega
        | cons j js => exact ⟨j, js, rfl⟩
      rw [hjs] at hrow
      cases hrow with
      | cons h0 h1 =>
        rename_i v vs
        obtain ⟨md', g1, g2⟩ := lsRows_table fmt had hvT s js vs v2 h1 v.cols h0.2
        rw [List.cons_append, lsRows.eq_def]
        have hcv := hc v (by simp)
        have hne : ¬ md.map Col.shape = v.cols.map Col.shape := by rw [h0.2]; exact hs
        simp only [lsHead, hne, if_false, hcv, lsCells_row fmt had hvT h0.1 rfl, g2, tail md', g1]
        simp [listing, hs, hjs, UTable.line, UTable.nameLine, lsNames_eq, row_names h0.1]

/-! ### Files written by `encode` -/

theorem encode_shown (env : Env) (hmd5 : env.Md5Ok) (Ts : List UTable) (hT : ∀ T ∈ Ts, T.Ok env)
    (hv : ∀ T ∈ Ts, ∀ c ∈ T.cols, c.vals.Ok env) (hpos : ∀ T ∈ Ts, 0 < T.rows) :
    ∃ Fs : List RFrame, writeTables env Ts = .ok (Fs.map RFrame.bytes) ∧ ((∀ b ∈ Fs.map RFrame.bytes, b.length ≤ 2147483647) → ∀ F ∈ Fs, F.Ok env) ∧
      rowCount Fs = (Ts.map UTable.rows).sum ∧
      Match (fun T F => F.rows.length = T.rows ∧ T.HasShape (F.cols.map Col.shape) ∧ cloneCols F.cols = .ok F.cols) Ts Fs := by
  induction Ts with
  | nil => exact ⟨[], rfl, by simp, rfl, .nil⟩
  | cons T Ts ih =>
    obtain ⟨Fs, a1, a2, a3, a4⟩ := ih (fun T h => hT T (by simp [h])) (fun T h => hv T (by simp [h])) (fun T h => hpos T (by simp [h]))
    have hvT := hv T (by simp)
    obtain ⟨F, f1, f2, f3, f4, f5⟩ := encode_rframe env hmd5 .same T (hT T (by simp)) hvT (hpos T (by simp))
    refine ⟨F :: Fs, by simp only [writeTables, f1, a1, List.map_cons], ?_,
      by simp only [rowCount, List.map_cons, List.sum_cons] at a3 ⊢; rw [a3, f3], .cons ⟨f3, ?_, ?_⟩ a4⟩
    · intro hs G hG
      rcases List.mem_cons.mp hG with rfl | hG
      · exact f2 (hs _ (by simp))
      · exact a2 (fun b hb => hs b (by rw [List.map_cons]; exact List.mem_cons_of_mem _ hb)) G hG
    · have hr : F.rows[0]? = some (F.rows[0]'(by rw [f3]; exact hpos T (by simp))) := List.getElem?_eq_getElem _
      have hrow := (f4 0 _ false hr).isRow
      unfold UTable.HasShape
      apply List.ext_getElem?
      intro p
      simp only [List.getElem?_map]
      cases hp : T.cols[p]? with
      | none => rw [List.getElem?_eq_none (by rw [← f5.length]; exact List.getElem?_eq_none_iff.mp hp)]; rfl
      | some c =>
        obtain ⟨q, y, e1, e2, e3, _⟩ := hrow.col p c hp
        dsimp only at e1
        rw [e1]
        simp [Col.shape, e2, e3]
    · apply cloneCols_of
      intro k hk
      obtain ⟨p, hp⟩ := List.mem_iff_getElem?.mp hk
      obtain ⟨c, hc⟩ : ∃ c, T.cols[p]? = some c := ⟨_, List.getElem?_eq_getElem (by rw [f5.length]; exact (List.getElem?_eq_some_iff.mp hp).1)⟩
      obtain ⟨q, back, q1, q2⟩ := f5.get p c k hc hp
      rw [q2]
      have hrows := (hT T (by simp)).col c (List.mem_of_getElem? hc) |>.2.2
      have := hpos T (by simp)
      exact (sent_plain q1 ((Vals.OkMiss.none_iff env _).mpr (hvT c (List.mem_of_getElem? hc))) (by omega) (fun _ => rfl)).1

theorem shapes_rows (Ts : List UTable) (Fs : List RFrame) (h : Match (fun T F => F.rows.length = T.rows) Ts Fs) :
    (rowPairs Fs).map (fun p => p.1.map Col.shape) = (Ts.zip (Fs.map (fun F => F.cols.map Col.shape))).flatMap (fun x => List.replicate x.1.rows x.2) := by
  induction h with
  | nil => rfl
  | cons h hm ih =>
    rename_i T F Ts Fs
    rw [show rowPairs (F :: Fs) = F.rows.map (fun r => (F.cols, r)) ++ rowPairs Fs by simp [rowPairs], List.map_append, ih, List.map_map]
    simp only [List.map_cons, List.zip_cons_cons, List.flatMap_cons]
    congr 1
    rw [← h, List.eq_replicate_iff]
    simp

/-- **C64.**  `odc ls` on a file written by `encode`, the integers read as doubles (the default) and the REAL values being floats: the listing has a line for
each row, in order, missing values being dots and no others, and the names of the columns before the first row and wherever name, type or width of a column,
as the reader reports them, differ from the table before; the number of rows is that of the tables. -/
theorem C64_ls (fmt : Word → Str) (env : Env) (hmd5 : env.Md5Ok) (had : env.asDbl = true) (Ts : List UTable) (hT : ∀ T ∈ Ts, T.Ok env)
    (hv : ∀ T ∈ Ts, ∀ c ∈ T.cols, c.vals.Ok env ∧ c.vals.Exact) (hpos : ∀ T ∈ Ts, 0 < T.rows) :
    ∃ bss, writeTables env Ts = .ok bss ∧ ((∀ b ∈ bss, b.length ≤ 2147483647) →
      ∃ ss : List Shape, Match UTable.HasShape Ts ss ∧ ∀ (junk : Junk) (fuel : Nat), (Ts.map UTable.rows).sum + 1 < fuel →
        (∃ views, readRows env junk bss.flatten fuel = (views, none) ∧ ShapesSeen views (Ts.zip ss)) ∧
        lsFile fmt env junk bss.flatten fuel = (listing fmt [] (Ts.zip ss), .ok (Ts.map UTable.rows).sum)) := by
  obtain ⟨Fs, a1, a2, a3, a4⟩ := encode_shown env hmd5 Ts hT (fun T h c hc => (hv T h c hc).1) hpos
  obtain ⟨bss, e1, e2⟩ := encode_views env hmd5 Ts hT (fun T h c hc => (hv T h c hc).1) hpos
  rw [a1] at e1
  simp only [Except.ok.injEq] at e1
  subst e1
  refine ⟨_, a1, ?_⟩
  intro hs
  have hlen := a4.length
  refine ⟨Fs.map (fun F => F.cols.map Col.shape), ?_, ?_⟩
  · refine Match.of_get _ _ (by simpa using hlen) ?_
    intro i T s h1 h2
    rw [List.getElem?_map, Option.map_eq_some_iff] at h2
    obtain ⟨F, hF, rfl⟩ := h2
    exact (a4.get i T F h1 hF).2.1
  · intro junk fuel hf
    have hread := readRows_file env junk Fs (a2 hs) fuel (by omega)
    obtain ⟨views, v1, v2, _⟩ := e2 hs fuel hf
    rw [v1 junk] at hread
    simp only [Prod.mk.injEq, and_true] at hread
    have hsh : ShapesSeen views (Ts.zip (Fs.map (fun F => F.cols.map Col.shape))) := by
      unfold ShapesSeen
      rw [← shapes_rows Ts Fs (Match.of_get _ _ hlen (fun i T F h1 h2 => (a4.get i T F h1 h2).1)), ← fileViews_pairs, hread, List.map_map]
      rfl
    have hcl : ∀ v ∈ views, cloneCols v.cols = .ok v.cols := by
      intro v hvm
      have : (v.cols, v.cells) ∈ rowPairs Fs := by
        rw [← fileViews_pairs, ← hread]
        exact List.mem_map.mpr ⟨v, hvm, rfl⟩
      simp only [rowPairs, List.mem_flatMap, List.mem_map, Prod.mk.injEq] at this
      obtain ⟨F, hF, row, _, hc, _⟩ := this
      obtain ⟨i, hi⟩ := List.mem_iff_getElem?.mp hF
      obtain ⟨T, hTi⟩ : ∃ T, Ts[i]? = some T := ⟨_, List.getElem?_eq_getElem (by rw [hlen]; exact (List.getElem?_eq_some_iff.mp hi).1)⟩
      rw [← hc]
      exact (a4.get i T F hTi hi).2.2
    have hzip : (Ts.zip (Fs.map (fun F => F.cols.map Col.shape))).map Prod.fst = Ts := List.map_fst_zip (by simp [hlen])
    refine ⟨⟨views, v1 junk, hsh⟩, ?_⟩
    unfold lsFile
    rw [v1 junk]
    dsimp only
    have hmem : ∀ x ∈ Ts.zip (Fs.map (fun F => F.cols.map Col.shape)), x.1 ∈ Ts := fun x hx => (List.of_mem_zip hx).1
    rw [lsRows_file fmt had (Ts.zip (Fs.map (fun F => F.cols.map Col.shape))) (fun x hx => hv x.1 (hmem x hx)) (fun x hx => hpos x.1 (hmem x hx)) views
      (by rw [hzip]; exact v2) hsh hcl []]
    dsimp only
    rw [← v2.length, allRows_length]
    rfl

/-! ### The arguments -/

/-- Specification: the option `odc ls` gives an argument to. -/
def lsOptions : List Str := [lit "-o"]

/-- `odc ls` takes one file; the text goes to the argument of `-o`, or to the standard output. -/
theorem C64_args (args : List Str) :
    (CutShort lsOptions args → lsPlan args = .error .userError) ∧
    ∀ items, Says lsOptions args items →
      ((Arg.words items).length ≠ 2 → lsPlan args = .error .userError) ∧
      (∀ tool db, Arg.words items = [tool, db] → lsPlan args = .ok (db, Arg.value (lit "-o") items)) := by
  have hu : Unread ((Clp.new args).register (lit "-o")) lsOptions args :=
    ⟨rfl, rfl, fun o => by simp [Clp.register, Clp.new, lsOptions], rfl, rfl, rfl⟩
  constructor
  · intro hc
    have hfail := hu.cut hc
    unfold lsPlan
    dsimp only
    generalize Clp.parameters ((Clp.new args).register (lit "-o")) = r at hfail ⊢
    obtain ⟨c, r⟩ := r
    dsimp only at hfail
    rw [hfail]
  · intro items hs
    obtain ⟨c', p1, p2⟩ := hu.parse hs
    have hpar : Clp.parameters ((Clp.new args).register (lit "-o")) = (c', .ok (Arg.words items)) := by
      unfold Clp.parameters
      rw [p1]
      dsimp only
      rw [p2.params]
    have hpar2 : c'.parameter 1 = (c', match (Arg.words items)[1]? with | some p => .ok p | none => .error .ub) := by
      unfold Clp.parameter Clp.parameters
      rw [p2.parse]
      dsimp only
      rw [p2.params]
      rfl
    have hset : c'.optionIsSet (lit "-o") = (c', .ok (decide (Arg.Given (lit "-o") items))) := by
      unfold Clp.optionIsSet
      rw [p2.parse]
      dsimp only
      rw [p2.contains]
    have harg : c'.optionArgument (fun s => Except.ok s) (lit "-o") [] = (c', .ok ((Arg.value (lit "-o") items).getD [])) := by
      unfold Clp.optionArgument
      rw [p2.parse, ← p2.value (lit "-o")]
      dsimp only
      cases c'.withArg.find? (fun p => decide (p.1 = lit "-o")) <;> rfl
    have hgiven : Arg.Given (lit "-o") items ↔ (Arg.value (lit "-o") items).isSome = true := by
      rw [value_given]
      constructor
      · rintro (h | h)
        · exact absurd (by simp [lsOptions]) (hs.1 _ h).2
        · exact h
      · exact Or.inr
    unfold lsPlan
    dsimp only
    rw [hpar]
    dsimp only
    constructor
    · intro h
      rw [if_pos h]
    · intro tool db hw
      rw [if_neg (by rw [hw]; simp), hpar2, hw]
      simp only [List.getElem?_cons_succ, List.getElem?_cons_zero, hset, harg]
      cases hv : Arg.value (lit "-o") items with
      | none =>
        rw [decide_eq_false (by rw [hgiven, hv]; simp)]
      | some o =>
        rw [decide_eq_true (by rw [hgiven, hv]; rfl)]
        simp only [harg, hv, Option.getD_some]

/-- `C64_args` on a command line with and without the option. -/
example : lsPlan [lit "ls", lit "-o", lit "out.txt", lit "f.odb"] = .ok (lit "f.odb", some (lit "out.txt")) ∧
    lsPlan [lit "ls", lit "f.odb"] = .ok (lit "f.odb", none) ∧ lsPlan [lit "ls"] = .error .userError := by
  decide +kernel

/-! ### What goes wrong -/

/-- Sample: a table with one row of two strings. -/
def twoStrings (a b : Str) : UTable := ⟨[⟨lit "a", .strings 1 [a]⟩, ⟨lit "b", .strings 1 [b]⟩], 1, []⟩

/-- Sample: what `odc ls` prints for a file of these tables. -/
def tryLs (Ts : List UTable) : Str × Except Err Nat := lsFile (fun _ => lit "x") dblEnv (fun _ _ _ => 0) (compactFileOf dblEnv Ts) 20

/-- **The listing does not tell the values apart**: quotes and tabulators in texts are printed as they are. -/
theorem C64_violated_quotes :
    (compactFileOf dblEnv [twoStrings (lit "a'\t'b") (lit "c")] ≠ compactFileOf dblEnv [twoStrings (lit "a") (lit "b'\t'c")]) ∧
    (tryLs [twoStrings (lit "a'\t'b") (lit "c")]).1 = lit "a\tb\n'a'\t'b'\t'c'\n" ∧
    (tryLs [twoStrings (lit "a") (lit "b'\t'c")]).1 = lit "a\tb\n'a'\t'b'\t'c'\n" := by
  refine ⟨?_, ?_, ?_⟩ <;> decide +kernel

/-- Sample: the file of `halfMissing` once more after a table of another column. -/
def lsCase : List UTable := halfMissing ++ [⟨[⟨lit "b", .ints [5]⟩], 1, []⟩]

/-- The listing of `lsCase`: one heading for the first two tables, one for the third. -/
example : (tryLs lsCase).1 = lit "a\n1\n2\n3\n.\nb\n5\n" := by decide +kernel

/-- `C64_ls` applies to `lsCase`. -/
example :=
  C64_ls (fun _ => lit "x") dblEnv sampleEnv_md5 rfl lsCase
    (by
      intro T hT
      simp only [lsCase, halfMissing, List.cons_append, List.nil_append, List.mem_cons, List.not_mem_nil, or_false] at hT
      have hc : ∀ c ∈ T.cols, LenOk c.name.length ∧ c.vals.rows = T.rows := by
        rcases hT with rfl | rfl | rfl <;> exact ball (by decide +kernel)
      have hv : ∀ c ∈ T.cols, c.vals.Ok dblEnv := by
        intro c hcc
        rcases hT with rfl | rfl | rfl
        all_goals
          simp only [List.mem_singleton] at hcc
          subst hcc
          exact ball (P := InI32) (by decide +kernel)
      refine ⟨⟨?_, ?_, fun c hcc => ⟨(hc c hcc).1, (hv c hcc).codable, (hc c hcc).2⟩, ?_, ?_, ?_, ?_, ?_⟩, ?_⟩
      all_goals rcases hT with rfl | rfl | rfl
      all_goals first
        | decide +kernel
        | exact ball (by decide +kernel)
        | exact List.Pairwise.nil
        | (intro kv hkv; cases hkv; done))
    (by
      intro T hT c hc
      simp only [lsCase, halfMissing, List.cons_append, List.nil_append, List.mem_cons, List.not_mem_nil, or_false] at hT
      rcases hT with rfl | rfl | rfl
      all_goals
        simp only [List.mem_singleton] at hc
        subst hc
        exact ⟨ball (P := InI32) (by decide +kernel), trivial⟩)
    (by
      intro T hT
      simp only [lsCase, halfMissing, List.cons_append, List.nil_append, List.mem_cons, List.not_mem_nil, or_false] at hT
      rcases hT with rfl | rfl | rfl <;> decide)

end Verif
