import Verif.OldSelect
import Mathlib.Data.List.Dedup

/-!
C52: the SQL filter.
-/

namespace Verif

/-! ### Specification -/

/-- Specification: the column that a name in a query means, given the names of the columns of the first table: the one of this very name, or else the only
one with this name followed by `@`. -/
def QueryMeans (names : List Str) (q n : Str) : Prop :=
  n ∈ names ∧ (n = q ∨ (q ∉ names ∧ (∃ t, n = q ++ 0x40 :: t) ∧ ∀ n' ∈ names, (∃ t, n' = q ++ 0x40 :: t) → n' = n))

/-- Specification: `c` is the column of the table `T` that `q` means in a query on a file whose first table has columns called `first`. -/
def Chosen (first : List Str) (T : UTable) (q : Str) (c : InCol) : Prop :=
  ∃ n, QueryMeans first q n ∧ ∃ p : Nat, T.cols[p]? = some c ∧ Means n c.name ∧
    ∀ (p' : Nat) (c' : InCol), T.cols[p']? = some c' → Means n c'.name → p' = p

/-- Specification: the rows of a table that meet the condition, `cs` being the columns it is about. -/
def Query.rows (q : Query) (env : Env) (T : UTable) (cs : List InCol) : List Nat :=
  (List.range T.rows).filter (fun j => q.keep (cs.map (fun c => ((c.vals.cells env).getD j [], c.vals.isMissing j))))

/-- Specification: the table `R` is the answer of the query on the table `T`: the columns asked for, with their titles, in the rows that meet the condition. -/
structure Answer (env : Env) (q : Query) (first : List Str) (T R : UTable) : Prop where
  ex : ∃ cs, Match (Chosen first T) q.cond cs ∧ R.rows = (q.rows env T cs).length ∧
    Match (fun (s : Str × Str) (c' : InCol) => ∃ c, Chosen first T s.1 c ∧ c'.name = s.2 ∧ c'.vals = c.vals.pick (q.rows env T cs)) q.select R.cols

/-- Specification: the engine's idea of the length of a string stored with zeros behind it: the zeros may or may not be counted. -/
def StrLen (len : List Byte → Nat) : Prop :=
  ∀ (s : Str) (n : Nat), NulFree s → s.length ≤ len (s ++ List.replicate n 0) ∧ len (s ++ List.replicate n 0) ≤ s.length + n

/-- Specification: what the header of a table says about missing values of a column agrees with its values. -/
def SrcCol (env : Env) (c : InCol) (k : Col) : Prop :=
  (k.codec.hasMissing = 0 ∨ k.codec.hasMissing = 1) ∧ ∃ m, k.codec.missingWord = .ok m ∧
    ∀ (r : Nat) (x : Cell), (c.vals.cells env)[r]? = some x → (decide (k.codec.hasMissing ≠ 0) && feq (cellWord x) m) = c.vals.isMissing r

/-- Specification: the rows of a table in a file. -/
structure RowsFrom (env : Env) (T : UTable) (vs : List RowView) : Prop where
  are : RowsAre env T vs
  src : ∃ ks, Match (SrcCol env) T.cols ks ∧ ∀ v ∈ vs, v.cols = ks

/-! ### The engine's columns -/

/-- Proof device: the engine knows the column as it is in the table. -/
structure SqlOf (c : InCol) (s : SqlCol) : Prop where
  name : s.name = c.name
  ty : s.ty = c.vals.ty
  bitNames : s.bitNames = c.vals.members.map Prod.fst
  bitSizes : s.bitSizes = c.vals.members.map Prod.snd
  width : s.width = c.vals.words

theorem ofInt_ty (v : Vals) : ColType.ofInt? v.ty.toInt = some v.ty := by cases v <;> rfl

theorem populate_ok {env : Env} (cs : List InCol) (ks : List Col) (hk : ks.map Col.key = cs.map InCol.key) (hs : Match (SrcCol env) cs ks) :
    ∃ ss, populate ks = .ok ss ∧ Match SqlOf cs ss := by
  induction hs with
  | nil => exact ⟨[], rfl, .nil⟩
  | @cons c k cs ks h _ ih =>
    simp only [List.map_cons, List.cons.injEq] at hk
    obtain ⟨h1, h2⟩ := hk
    obtain ⟨ss, a1, a2⟩ := ih h2
    obtain ⟨m, hm, _⟩ := h.2
    simp only [Col.key, InCol.key, Prod.mk.injEq] at h1
    obtain ⟨e1, e2, e3, e4, e5⟩ := h1
    unfold populate
    rw [hm]
    dsimp only
    rw [e2, ofInt_ty]
    have hne := c.vals.ty_ne
    refine ⟨⟨k.name, c.vals.ty, k.bitNames, k.bitSizes, if c.vals.ty = .bitfield then 1 else k.codec.width, decide (k.codec.hasMissing ≠ 0)⟩ :: ss, ?_,
      .cons ⟨e1, rfl, e3, e4, ?_⟩ a2⟩
    · rw [a1]
      cases hv : c.vals.ty with
      | ignore => exact absurd hv hne
      | _ => rfl
    · dsimp only
      rw [e5]
      cases c.vals <;> rfl

theorem dedup_single {l : List Str} {n : Str} (h1 : n ∈ l) (h2 : ∀ x ∈ l, x = n) : l.dedup = [n] := by
  have hm : ∀ x, x ∈ l.dedup ↔ x ∈ l := fun x => List.mem_dedup
  have hn := List.nodup_dedup l
  have h2' : ∀ x ∈ l.dedup, x = n := fun x hx => h2 x ((hm x).mp hx)
  have h1' := (hm n).mpr h1
  match hl : l.dedup with
  | [] => rw [hl] at h1'; simp at h1'
  | [x] => rw [hl] at h2'; rw [h2' x (by simp)]
  | x :: y :: r =>
    rw [hl] at h2' hn
    have := h2' x (by simp)
    have := h2' y (by simp)
    subst_vars
    simp at hn

theorem sqlColumn_ok {cs : List InCol} {ss : List SqlCol} (hs : Match SqlOf cs ss) {q n : Str} (h : QueryMeans (cs.map InCol.name) q n) :
    ∃ s ∈ ss, sqlColumn ss q = .ok s ∧ s.name = n := by
  have hnames : ss.map SqlCol.name = cs.map InCol.name := by
    clear h
    induction hs with
    | nil => rfl
    | cons h _ ih => simp [h.name, ih]
  obtain ⟨h1, h2⟩ := h
  have find : ∀ m, m ∈ cs.map InCol.name → ∃ s ∈ ss, ss.reverse.find? (fun c => decide (c.name = m)) = some s ∧ s.name = m := by
    intro m hm
    rw [← hnames] at hm
    obtain ⟨s, hs1, hs2⟩ := List.mem_map.mp hm
    cases hf : ss.reverse.find? (fun c => decide (c.name = m)) with
    | none =>
      have := List.find?_eq_none.mp hf s (by simpa using hs1)
      simp [hs2] at this
    | some s' =>
      have e1 := List.find?_some hf
      have e2 := List.mem_of_find?_eq_some hf
      exact ⟨s', by simpa using e2, rfl, by simpa using e1⟩
  unfold sqlColumn
  rcases h2 with rfl | ⟨g1, g2, g3⟩
  · obtain ⟨s, a1, a2, a3⟩ := find n h1
    rw [a2]
    exact ⟨s, a1, rfl, a3⟩
  · have hno : ss.reverse.find? (fun c => decide (c.name = q)) = none := by
      rw [List.find?_eq_none]
      intro s hs1 hs2
      simp only [List.mem_reverse, decide_eq_true_eq] at hs1 hs2
      apply g1
      rw [← hnames, ← hs2]
      exact List.mem_map.mpr ⟨s, hs1, rfl⟩
    rw [hno]
    dsimp only
    have pre : ∀ x : Str, (q ++ [0x40]).isPrefixOf x = true ↔ ∃ t, x = q ++ 0x40 :: t := by
      intro x
      rw [List.isPrefixOf_iff_prefix]
      constructor
      · rintro ⟨t, rfl⟩; exact ⟨t, by simp⟩
      · rintro ⟨t, rfl⟩; exact ⟨t, by simp⟩
    have hd : ((ss.map SqlCol.name).filter (fun n => (q ++ [0x40]).isPrefixOf n)).dedup = [n] := by
      apply dedup_single
      · rw [List.mem_filter, hnames]
        exact ⟨h1, (pre n).mpr g2⟩
      · intro x hx
        rw [List.mem_filter, hnames] at hx
        exact g3 x hx.1 ((pre x).mp hx.2)
    rw [hd]
    dsimp only
    obtain ⟨s, a1, a2, a3⟩ := find n h1
    rw [a2]
    exact ⟨s, a1, rfl, a3⟩

theorem sqlColumns_ok {cs : List InCol} {ss : List SqlCol} (hs : Match SqlOf cs ss) (qs : List Str)
    (h : ∀ q ∈ qs, ∃ n, QueryMeans (cs.map InCol.name) q n) :
    ∃ l, sqlColumns ss qs = .ok l ∧ Match (fun q s => s ∈ ss ∧ QueryMeans (cs.map InCol.name) q s.name) qs l := by
  induction qs with
  | nil => exact ⟨[], rfl, .nil⟩
  | cons q qs ih =>
    obtain ⟨l, a1, a2⟩ := ih (fun q hq => h q (by simp [hq]))
    obtain ⟨n, hn⟩ := h q (by simp)
    obtain ⟨s, b1, b2, b3⟩ := sqlColumn_ok hs hn
    exact ⟨s :: l, by simp only [sqlColumns, b2, a1], .cons ⟨b1, by rw [b3]; exact hn⟩ a2⟩

/-- A name means one column. -/
theorem QueryMeans.unique {names : List Str} {q n n' : Str} (h : QueryMeans names q n) (h' : QueryMeans names q n') : n = n' := by
  obtain ⟨a1, a2⟩ := h
  obtain ⟨b1, b2⟩ := h'
  rcases a2 with rfl | ⟨a2, a3, a4⟩
  · rcases b2 with rfl | ⟨b2, _, _⟩
    · rfl
    · exact absurd a1 b2
  · rcases b2 with rfl | ⟨b2, b3, _⟩
    · exact absurd b1 a2
    · exact (a4 n' b1 b3).symm

/-! ### The values of a row -/

theorem flat_get (cells : List Cell) (p : Nat) (x : Cell) (h : cells[p]? = some x) :
    (cells.flatten.drop ((cells.take p).map List.length).sum).take x.length = x := by
  induction cells generalizing p with
  | nil => simp at h
  | cons y ys ih =>
    cases p with
    | zero =>
      simp at h
      subst h
      simp
    | succ p =>
      simp only [List.getElem?_cons_succ] at h
      simp only [List.take_succ_cons, List.map_cons, List.sum_cons, List.flatten_cons]
      rw [← List.drop_drop, List.drop_left]
      exact ih p h

/-- Proof device: the only column the name means. -/
def TheOne (T : UTable) (n : Str) (c : InCol) : Prop :=
  ∃ p : Nat, T.cols[p]? = some c ∧ Means n c.name ∧ ∀ (p' : Nat) (c' : InCol), T.cols[p']? = some c' → Means n c'.name → p' = p

/-- Proof device: the value of the column is found in the rows of the table. -/
def FetchOf (env : Env) (T : UTable) (c : InCol) (f : Fetch) : Prop :=
  f.size = c.vals.words ∧ ∀ r, r < T.rows →
    f.get (rowAt (T.cols.map (InCol.data env)) r).flatten = ((c.vals.cells env).getD r [], c.vals.isMissing r)

theorem rowAt_get (env : Env) (cs : List InCol) (r p : Nat) (c : InCol) (h : cs[p]? = some c) :
    (rowAt (cs.map (InCol.data env)) r)[p]? = some ((c.vals.cells env).getD r []) := by
  simp [rowAt, InCol.data, h]

theorem fetchCol_ok {env : Env} {T : UTable} (hrows : ∀ c ∈ T.cols, c.vals.rows = T.rows) {ks : List Col}
    (hk : ks.map Col.key = T.cols.map InCol.key) (hs : Match (SrcCol env) T.cols ks) {n : Str} {c : InCol} (h : TheOne T n c) :
    ∃ f, fetchCol ks n = .ok f ∧ FetchOf env T c f := by
  obtain ⟨p, h1, h2, h3⟩ := h
  have hlen : ks.length = T.cols.length := by simpa using congrArg List.length hk
  have hp := (List.getElem?_eq_some_iff.mp h1).1
  obtain ⟨k, hkp⟩ : ∃ k, ks[p]? = some k := ⟨ks[p]'(by omega), List.getElem?_eq_getElem _⟩
  have hix : columnIndex (ks.map Col.name) n = .ok p := by
    rw [names_of_key hk, (C24_column_index _ _).1]
    refine ⟨⟨c.name, by rw [List.getElem?_map, h1]; rfl, h2⟩, ?_⟩
    intro p' n' hn' hm
    rw [List.getElem?_map, Option.map_eq_some_iff] at hn'
    obtain ⟨c', e1, rfl⟩ := hn'
    exact h3 p' c' e1 hm
  obtain ⟨hh, m, hm, hmiss⟩ := hs.get p c k h1 hkp
  have hwidth : ∀ (i : Nat) (c : InCol) (k : Col), T.cols[i]? = some c → ks[i]? = some k → k.codec.width = c.vals.words := by
    intro i c k e1 e2
    have := congrArg (fun l : List _ => l[i]?) hk
    simp only [List.getElem?_map, e1, e2, Option.map_some, Option.some.injEq, Col.key, InCol.key, Prod.mk.injEq] at this
    exact this.2.2.2.2
  unfold fetchCol
  rw [hix]
  dsimp only
  rw [hkp]
  dsimp only
  rw [if_neg (by rcases hh with h | h <;> rw [h] <;> decide), hm]
  refine ⟨_, rfl, hwidth p c k h1 hkp, ?_⟩
  intro r hr
  have hcr : (c.vals.cells env)[r]? = some ((c.vals.cells env).getD r []) := by
    have : r < (c.vals.cells env).length := by rw [Vals.cells_length, hrows c (List.mem_of_getElem? h1)]; exact hr
    rw [List.getElem?_eq_getElem this, List.getD_eq_getElem?_getD, List.getElem?_eq_getElem this]
    rfl
  have hoff : ((ks.take p).map (fun k => k.codec.width)).sum =
      (((rowAt (T.cols.map (InCol.data env)) r).take p).map List.length).sum := by
    congr 1
    apply List.ext_getElem?
    intro i
    simp only [List.getElem?_map, List.getElem?_take]
    by_cases hi : i < p
    · rw [if_pos hi, if_pos hi]
      have e1 : T.cols[i]? = some T.cols[i] := List.getElem?_eq_getElem (by omega)
      have e2 : ks[i]? = some ks[i] := List.getElem?_eq_getElem (by omega)
      rw [e2, rowAt_get env _ r i _ e1]
      simp only [Option.map_some, Option.some.injEq]
      rw [hwidth i _ _ e1 e2]
      symm
      apply Vals.cells_words env
      have : r < (T.cols[i].vals.cells env).length := by rw [Vals.cells_length, hrows _ (List.getElem_mem _)]; exact hr
      rw [List.getD_eq_getElem?_getD, List.getElem?_eq_getElem this]
      exact List.getElem_mem _
    · rw [if_neg hi, if_neg hi]
      rfl
  have hx : ((rowAt (T.cols.map (InCol.data env)) r).flatten.drop ((ks.take p).map (fun k => k.codec.width)).sum).take k.codec.width =
      (c.vals.cells env).getD r [] := by
    have hl : k.codec.width = ((c.vals.cells env).getD r []).length := by
      rw [hwidth p c k h1 hkp]
      exact (Vals.cells_words env _ _ (List.mem_of_getElem? hcr)).symm
    rw [hoff, hl]
    exact flat_get _ p _ (rowAt_get env _ r p c h1)
  unfold Fetch.get
  dsimp only
  rw [hx, hmiss r _ hcr]

theorem fetchCols_ok {env : Env} {T : UTable} (hrows : ∀ c ∈ T.cols, c.vals.rows = T.rows) {ks : List Col}
    (hk : ks.map Col.key = T.cols.map InCol.key) (hs : Match (SrcCol env) T.cols ks) {ns : List Str} {cs : List InCol}
    (h : Match (TheOne T) ns cs) :
    ∃ fs, fetchCols ks ns = .ok fs ∧ Match (FetchOf env T) cs fs := by
  induction h with
  | nil => exact ⟨[], rfl, .nil⟩
  | cons h _ ih =>
    obtain ⟨fs, a1, a2⟩ := ih
    obtain ⟨f, b1, b2⟩ := fetchCol_ok hrows hk hs h
    exact ⟨f :: fs, by simp only [fetchCols, b1, a1], .cons b2 a2⟩

theorem fetched {env : Env} {T : UTable} {cs : List InCol} {fs : List Fetch} (h : Match (FetchOf env T) cs fs) (r : Nat) (hr : r < T.rows) :
    fs.map (Fetch.get (rowAt (T.cols.map (InCol.data env)) r).flatten) = cs.map (fun c => ((c.vals.cells env).getD r [], c.vals.isMissing r)) := by
  induction h with
  | nil => rfl
  | cons h _ ih => simp only [List.map_cons, ih, h.2 r hr]

/-! ### The output columns -/

/-- Proof device: an output column, and the word that stands for a missing value in it. -/
def OutOf (env : Env) (title : Str) (c : InCol) (x : Col × Word) : Prop :=
  x.1.key = (⟨title, c.vals⟩ : InCol).key ∧ (∀ (r : Nat), c.vals.isMissing r = true → (c.vals.cells env).getD r [] = [x.2]) ∧
    x.1.codec.missingWord = .ok x.2 ∧ x.2 = c.vals.mdiWord env ∧ (x.1.codec.hasMissing = 0 → ∀ r, c.vals.isMissing r = false)

theorem Vals.isMissing_lt {v : Vals} {r : Nat} (h : v.isMissing r = true) : r < v.rows := by
  cases v with
  | ints vs => exact (List.getElem?_eq_some_iff.mp (of_decide_eq_true h)).1
  | bits ms vs => exact (List.getElem?_eq_some_iff.mp (of_decide_eq_true h)).1
  | reals vs => exact (List.getElem?_eq_some_iff.mp (of_decide_eq_true h)).1
  | doubles vs => exact (List.getElem?_eq_some_iff.mp (of_decide_eq_true h)).1
  | strings w vs => simp [Vals.isMissing] at h

theorem FetchOf.none {env : Env} {T : UTable} {c : InCol} {f : Fetch} (h : FetchOf env T c f) (hr : c.vals.rows = T.rows)
    (hf : f.hasMissing = false) (r : Nat) : c.vals.isMissing r = false := by
  cases hm : c.vals.isMissing r with
  | false => rfl
  | true =>
    have h1 := h.2 r (by rw [← hr]; exact Vals.isMissing_lt hm)
    have h2 := congrArg Prod.snd h1
    simp only [Fetch.get, hf, Bool.false_and] at h2
    rw [hm] at h2
    exact h2.symm

theorem intWord_vt (asDbl : Bool) (ty : Int) (h : ty = 1 ∨ ty = 4) : toVT (vtOf .int32 ty asDbl) (ofInt 2147483647) = .ok (intWord asDbl 2147483647) := by
  rcases h with rfl | rfl <;> cases asDbl <;> decide +kernel

theorem selColumn_of (env : Env) (s : SqlCol) (f : Fetch) (title : Str) (d : Codec) (m : Word) (hd : defaultCodec s.ty env.asDbl = .ok d)
    (hm : d.missingWord = .ok m) (hc : d.kind.isChars = decide (s.ty = .string)) (hw : d.width = 1) :
    selColumn env s f title = .ok (⟨title, s.ty.toInt, s.bitNames, s.bitSizes,
      { d with hasMissing := if f.hasMissing then 1 else 0, width := if s.ty = .string then f.size else 1 }⟩, m) := by
  have h2 : ∀ (a : Int) (b : Nat), ({ d with hasMissing := a, width := b } : Codec).missingWord = .ok m := fun _ _ => hm
  unfold selColumn
  rw [hd]
  dsimp only
  by_cases ht : s.ty = .string
  · simp only [ht, if_true]
    rw [show ({ d with hasMissing := if f.hasMissing then 1 else 0 } : Codec).setWidth f.size =
      .ok { d with hasMissing := if f.hasMissing then 1 else 0, width := f.size } by
        unfold Codec.setWidth
        rw [if_pos (by simpa [ht] using hc)]]
    dsimp only
    rw [h2]
  · simp only [ht, if_false]
    rw [show ({ d with hasMissing := if f.hasMissing then 1 else 0 } : Codec).setWidth 1 =
      .ok { d with hasMissing := if f.hasMissing then 1 else 0, width := 1 } by
        unfold Codec.setWidth
        rw [if_neg (by simpa [ht] using hc), if_pos rfl, ← hw]]
    dsimp only
    rw [h2]

theorem selColumn_ok (env : Env) (title : Str) (c : InCol) (s : SqlCol) (f : Fetch) (hs : s.ty = c.vals.ty) (hn : s.bitNames = c.vals.members.map Prod.fst)
    (hb : s.bitSizes = c.vals.members.map Prod.snd) (hf : f.size = c.vals.words)
    (hfm : f.hasMissing = false → ∀ r, c.vals.isMissing r = false) :
    ∃ x, selColumn env s f title = .ok x ∧ OutOf env title c x := by
  have hmdi : integerMDI = ofInt 2147483647 := by unfold integerMDI; rfl
  have key : ∀ (d : Codec), (⟨title, s.ty.toInt, s.bitNames, s.bitSizes,
      { d with hasMissing := if f.hasMissing then 1 else 0, width := if s.ty = .string then f.size else 1 }⟩ : Col).key =
        (⟨title, c.vals⟩ : InCol).key := by
    intro d
    have : (if s.ty = .string then f.size else 1) = c.vals.words := by
      rw [hs, hf]
      cases c.vals <;> rfl
    simp only [Col.key, InCol.key, hn, hb, this]
    rw [hs]
  have fin : ∀ (d : Codec) (m : Word), defaultCodec s.ty env.asDbl = .ok d → d.missingWord = .ok m → d.kind.isChars = decide (s.ty = .string) →
      d.width = 1 → m = c.vals.mdiWord env → (∀ (r : Nat), c.vals.isMissing r = true → (c.vals.cells env).getD r [] = [m]) →
      ∃ x, selColumn env s f title = .ok x ∧ OutOf env title c x := by
    intro d m h1 h2 h3 h4 h5 h6
    refine ⟨_, selColumn_of env s f title d m h1 h2 h3 h4, key _, h6, h2, h5, ?_⟩
    intro h0
    apply hfm
    cases hb : f.hasMissing with
    | false => rfl
    | true => simp [hb] at h0
  cases hv : c.vals with
  | ints vs =>
    rw [hv] at hs
    refine fin (fresh .int32 1 env.asDbl) (intWord env.asDbl 2147483647) (by rw [hs]; rfl) ?_ (by rw [hs]; rfl) rfl (by rw [hv]; rfl) ?_
    · unfold Codec.missingWord
      rw [if_pos (by simp [fresh, Kind.isInt])]
      show toVT (vtOf .int32 1 env.asDbl) integerMDI = _
      rw [hmdi]
      exact intWord_vt _ _ (Or.inl rfl)
    · intro r hr
      simp only [hv, Vals.isMissing, decide_eq_true_eq] at hr
      simp [hv, Vals.cells, hr]
  | bits ms vs =>
    rw [hv] at hs
    obtain ⟨d, hd⟩ : ∃ d, (fresh .int32 4 env.asDbl).setMissing integerMDI = .ok d := by
      rw [hmdi]
      unfold Codec.setMissing
      have : feq (fresh .int32 4 env.asDbl).min (fresh .int32 4 env.asDbl).missing = true ∧
          feq (fresh .int32 4 env.asDbl).max (fresh .int32 4 env.asDbl).missing = true := by
        show feq integerMDI integerMDI = true ∧ feq integerMDI integerMDI = true
        rw [hmdi]
        constructor <;> decide +kernel
      rw [if_pos (by simp [this])]
      dsimp only
      rw [if_pos (by rfl)]
      rw [show (fresh .int32 4 env.asDbl).vt = vtOf .int32 4 env.asDbl from rfl, intWord_vt _ _ (Or.inr rfl)]
      exact ⟨_, rfl⟩
    obtain ⟨p1, p2, p3, p4, _⟩ := setMissing_pres hd
    refine fin d (intWord env.asDbl 2147483647) (by rw [hs]; exact hd) ?_ (by rw [hs, p1]; rfl) (by rw [p3]; rfl) (by rw [hv]; rfl) ?_
    · unfold Codec.missingWord
      rw [p1, if_pos (by simp [fresh, Kind.isInt]), p2, p4, hmdi]
      exact intWord_vt _ _ (Or.inr rfl)
    · intro r hr
      simp only [hv, Vals.isMissing, decide_eq_true_eq] at hr
      simp [hv, Vals.cells, hr]
  | reals vs =>
    rw [hv] at hs
    refine fin (fresh .longReal 2 env.asDbl) realMDI (by rw [hs]; rfl) ?_ (by rw [hs]; rfl) rfl (by rw [hv]; rfl) ?_
    · unfold Codec.missingWord
      rw [if_neg (by simp [fresh, Kind.isInt])]
      rfl
    · intro r hr
      simp only [hv, Vals.isMissing, decide_eq_true_eq] at hr
      simp [hv, Vals.cells, hr]
  | doubles vs =>
    rw [hv] at hs
    refine fin (fresh .longReal 5 env.asDbl) realMDI (by rw [hs]; rfl) ?_ (by rw [hs]; rfl) rfl (by rw [hv]; rfl) ?_
    · unfold Codec.missingWord
      rw [if_neg (by simp [fresh, Kind.isInt])]
      rfl
    · intro r hr
      simp only [hv, Vals.isMissing, decide_eq_true_eq] at hr
      simp [hv, Vals.cells, hr]
  | strings w vs =>
    rw [hv] at hs
    refine fin (fresh .chars 3 env.asDbl) realMDI (by rw [hs]; rfl) ?_ (by rw [hs]; rfl) rfl (by rw [hv]; rfl) ?_
    · unfold Codec.missingWord
      rw [if_neg (by simp [fresh, Kind.isInt])]
      rfl
    · intro r hr
      simp [hv, Vals.isMissing] at hr

/-- Proof device: the engine's column has the type of the column. -/
structure TypeOf (c : InCol) (s : SqlCol) : Prop where
  ty : s.ty = c.vals.ty
  bitNames : s.bitNames = c.vals.members.map Prod.fst
  bitSizes : s.bitSizes = c.vals.members.map Prod.snd

theorem selColumns_ok (env : Env) {T : UTable} {cs : List InCol} {ss : List SqlCol} {fs : List Fetch} (titles : List Str) (ht : titles.length ≤ cs.length)
    (hs : Match TypeOf (cs.take titles.length) (ss.take titles.length)) (hf : Match (FetchOf env T) cs fs)
    (hr : ∀ c ∈ cs, c.vals.rows = T.rows) :
    ∃ xs, selColumns env ss fs titles = .ok xs ∧ xs.length = titles.length ∧
      ∀ (i : Nat) (c : InCol) (t : Str) (x : Col × Word), cs[i]? = some c → titles[i]? = some t → xs[i]? = some x → OutOf env t c x := by
  induction titles generalizing cs ss fs with
  | nil =>
    refine ⟨[], ?_, rfl, by simp⟩
    cases ss <;> cases fs <;> rfl
  | cons t ts ih =>
    cases hf with
    | nil => simp at ht
    | @cons c f cs fs h1 h2 =>
      cases ss with
      | nil => simp at hs; cases hs
      | cons s ss =>
        simp only [List.length_cons, List.take_succ_cons] at hs ht
        cases hs with
        | cons g1 g2 =>
          obtain ⟨xs, a1, a2, a3⟩ := ih (by omega) g2 h2 (fun c hc => hr c (by simp [hc]))
          obtain ⟨x, b1, b2⟩ := selColumn_ok env t c s f g1.ty g1.bitNames g1.bitSizes h1.1 (h1.none (hr c (by simp)))
          refine ⟨x :: xs, by simp only [selColumns, b1, a1], by simp [a2], ?_⟩
          intro i c' t' x' e1 e2 e3
          cases i with
          | zero => simp at e1 e2 e3; subst e1 e2 e3; exact b2
          | succ i => simp at e1 e2 e3; exact a3 i c' t' x' e1 e2 e3

/-! ### The output row -/

/-- Proof device: strings without zeros that fit their column. -/
def Vals.Texts : Vals → Nat → Prop
  | .strings w vs, r => ∃ s, vs[r]? = some s ∧ s.length ≤ 8 * w ∧ NulFree s
  | _, _ => True

theorem wordsOf_zeros (w : Nat) (s : Str) (n : Nat) : wordsOf w (s ++ List.replicate n 0) = wordsOf w s := by
  induction w generalizing s n with
  | zero => rfl
  | succ w ih =>
    simp only [wordsOf]
    congr 1
    · rw [List.take_append, List.take_replicate]
      unfold wordOfBytes
      rw [ofLe_append_zeros]
    · rw [List.drop_append, List.drop_replicate]
      exact ih _ _

theorem wordsOf_text (w : Nat) (s : Str) (n l : Nat) (hl : s.length ≤ l) : wordsOf w ((s ++ List.replicate n 0).take l) = wordsOf w s := by
  rw [List.take_append, List.take_of_length_le hl, List.take_replicate]
  exact wordsOf_zeros w s _

theorem selCell_ok {env : Env} {len : List Byte → Nat} (hlen : StrLen len) {title : Str} {c : InCol} {x : Col × Word} (h : OutOf env title c x) (r : Nat)
    (hr : r < c.vals.rows) (ht : c.vals.Texts r) :
    selCell len x.1 x.2 ((c.vals.cells env).getD r [], c.vals.isMissing r) = .ok ((c.vals.cells env).getD r []) := by
  obtain ⟨h1, h2, _⟩ := h
  simp only [Col.key, InCol.key, Prod.mk.injEq] at h1
  obtain ⟨_, hty, _, _, hw⟩ := h1
  unfold selCell
  dsimp only
  have hn : ∀ (hd : Word), (c.vals.cells env).getD r [] = [hd] →
      (Except.ok [if c.vals.isMissing r = true then x.2 else cellWord ((c.vals.cells env).getD r [])] : Except Err Cell) = .ok ((c.vals.cells env).getD r []) := by
    intro hd he
    cases hm : c.vals.isMissing r with
    | true => rw [if_pos rfl, h2 r hm]
    | false => rw [if_neg (by simp), he]; rfl
  rw [hty, hw]
  cases hv : c.vals with
  | strings w vs =>
    rw [hv] at ht hr
    obtain ⟨s, hs, hl, hz⟩ := ht
    have hc : ((Vals.strings w vs).cells env).getD r [] = wordsOf w s := by simp [Vals.cells, hs]
    rw [if_pos (by rfl), hc, cellBytes_wordsOf w s hl]
    obtain ⟨l1, l2⟩ := hlen s (8 * w - s.length) hz
    rw [if_neg (by simp only [Vals.words]; omega), if_neg (by simp [Vals.isMissing])]
    rw [show (Vals.strings w vs).words = w from rfl, wordsOf_text _ _ _ _ l1]
  | ints vs =>
    rw [hv] at hn hr
    rw [if_neg (by simp [Vals.ty, ColType.toInt])]
    have hr' : r < vs.length := hr
    exact hn _ (by rw [List.getD_eq_getElem?_getD, Vals.cells, List.getElem?_map, List.getElem?_eq_getElem hr']; rfl)
  | bits ms vs =>
    rw [hv] at hn hr
    rw [if_neg (by simp [Vals.ty, ColType.toInt])]
    have hr' : r < vs.length := hr
    exact hn _ (by rw [List.getD_eq_getElem?_getD, Vals.cells, List.getElem?_map, List.getElem?_eq_getElem hr']; rfl)
  | reals vs =>
    rw [hv] at hn hr
    rw [if_neg (by simp [Vals.ty, ColType.toInt])]
    have hr' : r < vs.length := hr
    exact hn _ (by rw [List.getD_eq_getElem?_getD, Vals.cells, List.getElem?_map, List.getElem?_eq_getElem hr']; rfl)
  | doubles vs =>
    rw [hv] at hn hr
    rw [if_neg (by simp [Vals.ty, ColType.toInt])]
    have hr' : r < vs.length := hr
    exact hn _ (by rw [List.getD_eq_getElem?_getD, Vals.cells, List.getElem?_map, List.getElem?_eq_getElem hr']; rfl)

/-! ### The rows of one table -/

/-- Proof device: the state of a selection while rows of `T` are read; `cs` are the columns asked for. -/
structure Ready (env : Env) (T : UTable) (titles : List Str) (cs : List InCol) (s : SelState) : Prop where
  fetch : Match (FetchOf env T) cs s.fetch
  out : ∃ xs : List (Col × Word), s.out.cols = xs.map Prod.fst ∧ s.out.missing = xs.map Prod.snd ∧ xs.length = titles.length ∧
    ∀ (i : Nat) (c : InCol) (t : Str) (x : Col × Word), cs[i]? = some c → titles[i]? = some t → xs[i]? = some x → OutOf env t c x

/-- Proof device: no row has been passed on since the last change of the columns. -/
def SelState.New (s : SelState) : Prop := s.out.isNew = true ∧ s.out.outputted = false

/-- Proof device: the keys of the output columns. -/
def outKeys (titles : List Str) (cs : List InCol) : List (Str × Int × List Str × List Int × Nat) :=
  List.zipWith (fun t (c : InCol) => (⟨t, c.vals⟩ : InCol).key) titles cs

theorem Ready.keys {env : Env} {T : UTable} {titles : List Str} {cs : List InCol} {s : SelState} (h : Ready env T titles cs s)
    (hl : titles.length ≤ cs.length) : s.out.cols.map Col.key = outKeys titles cs := by
  obtain ⟨xs, h1, _, h3, h4⟩ := h.out
  rw [h1]
  apply List.ext_getElem?
  intro i
  by_cases hi : i < titles.length
  · have e1 : titles[i]? = some titles[i] := List.getElem?_eq_getElem hi
    have e2 : cs[i]? = some (cs[i]'(by omega)) := List.getElem?_eq_getElem _
    have e3 : xs[i]? = some (xs[i]'(by omega)) := List.getElem?_eq_getElem _
    have := (h4 i _ _ _ e2 e1 e3).1
    simp only [outKeys, List.map_map, List.getElem?_map, e3, List.getElem?_zipWith, e1, e2, Option.map_some, Function.comp, this]
  · rw [List.getElem?_eq_none (by simp; omega), List.getElem?_eq_none (by simp [outKeys]; omega)]

theorem enter_ok {env : Env} {T : UTable} {titles : List Str} {cs : List InCol} {ss : List SqlCol} (hrows : ∀ c ∈ T.cols, c.vals.rows = T.rows)
    (hl : titles.length ≤ cs.length) (hty : Match TypeOf (cs.take titles.length) (ss.take titles.length))
    (hone : Match (TheOne T) (ss.map SqlCol.name) cs) {ks : List Col} (hk : ks.map Col.key = T.cols.map InCol.key)
    (hs : Match (SrcCol env) T.cols ks) : ∃ s' : SelState, Ready env T titles cs s' ∧ s'.New ∧
      ∀ (s : SelState) (v : RowView), v.cols = ks → v.fresh = true → s.enter env titles ss v = .ok s' := by
  obtain ⟨fs, a1, a2⟩ := fetchCols_ok hrows hk hs hone
  obtain ⟨xs, b1, b2, b3⟩ := selColumns_ok env titles hl hty a2 (by
    intro c hc
    obtain ⟨n, _, p, hp, _⟩ := hone.mem_left' hc
    exact hrows c (List.mem_of_getElem? hp))
  refine ⟨⟨fs, ⟨xs.map Prod.fst, xs.map Prod.snd, true, false⟩⟩, ⟨a2, xs, rfl, rfl, b2, b3⟩, ⟨rfl, rfl⟩, ?_⟩
  intro s v hv hf
  unfold SelState.enter
  rw [hf, if_pos rfl, hv, a1]
  dsimp only
  unfold selUpdate
  rw [b1]

theorem selCells_ok {env : Env} {len : List Byte → Nat} (hlen : StrLen len) (r : Nat) (titles : List Str) (cs : List InCol) (xs : List (Col × Word))
    (hl : titles.length ≤ cs.length) (hx : xs.length = titles.length)
    (h : ∀ (i : Nat) (c : InCol) (t : Str) (x : Col × Word), cs[i]? = some c → titles[i]? = some t → xs[i]? = some x → OutOf env t c x)
    (hr : ∀ c ∈ cs.take titles.length, r < c.vals.rows) (ht : ∀ c ∈ cs.take titles.length, c.vals.Texts r) :
    selCells len (xs.map Prod.fst) (xs.map Prod.snd)
      ((cs.map (fun c => ((c.vals.cells env).getD r [], c.vals.isMissing r))).take titles.length) =
        .ok ((cs.take titles.length).map (fun c => (c.vals.cells env).getD r [])) := by
  induction titles generalizing cs xs with
  | nil =>
    have : xs = [] := List.length_eq_zero_iff.mp hx
    subst this
    rfl
  | cons t ts ih =>
    cases cs with
    | nil => simp at hl
    | cons c cs =>
      cases xs with
      | nil => simp at hx
      | cons x xs =>
        simp only [List.length_cons, List.take_succ_cons, List.map_cons] at *
        have h0 := selCell_ok hlen (h 0 c t x rfl rfl rfl) r (hr c (by simp)) (ht c (by simp))
        have h1 := ih cs xs (by omega) (by omega) (fun i c t x e1 e2 e3 => h (i + 1) c t x e1 e2 e3) (fun c hc => hr c (by simp [hc]))
          (fun c hc => ht c (by simp [hc]))
        simp only [selCells, h0, h1]

/-- Proof device: what the output columns say about missing values. -/
def ShownCols (env : Env) (cs : List InCol) (ks : List Col) : Prop :=
  ∀ (i : Nat) (c : InCol) (k : Col), cs[i]? = some c → ks[i]? = some k →
    k.codec.missingWord = .ok (c.vals.mdiWord env) ∧ (k.codec.hasMissing = 0 → ∀ r, c.vals.isMissing r = false)

theorem Ready.shown {env : Env} {T : UTable} {titles : List Str} {cs : List InCol} {s : SelState} (h : Ready env T titles cs s) :
    ShownCols env cs s.out.cols := by
  obtain ⟨xs, h1, _, h3, h4⟩ := h.out
  intro i c k hc hk
  rw [h1, List.getElem?_map] at hk
  cases hx : xs[i]? with
  | none => rw [hx] at hk; cases hk
  | some x =>
    rw [hx] at hk
    simp at hk
    subst hk
    have hi := (List.getElem?_eq_some_iff.mp hx).1
    obtain ⟨_, _, a, b, c'⟩ := h4 i c _ x hc (List.getElem?_eq_getElem (by omega)) hx
    exact ⟨by rw [a, b], c'⟩

theorem output_ok {env : Env} {T : UTable} {len : List Byte → Nat} (hlen : StrLen len) {titles : List Str} {cs : List InCol} {s : SelState}
    (h : Ready env T titles cs s) (hl : titles.length ≤ cs.length) (r : Nat)
    (hr : ∀ c ∈ cs.take titles.length, r < c.vals.rows) (ht : ∀ c ∈ cs.take titles.length, c.vals.Texts r) :
    ∃ (row : RowView) (o : SelOut), s.out.output len ((cs.map (fun c => ((c.vals.cells env).getD r [], c.vals.isMissing r))).take titles.length) = .ok (row, o) ∧
      Ready env T titles cs { s with out := o } ∧ row.cols.map Col.key = outKeys titles cs ∧
      row.cells = (cs.take titles.length).map (fun c => (c.vals.cells env).getD r []) ∧ ShownCols env cs row.cols ∧ (s.New → row.fresh = true) ∧
      (¬ s.New → row.fresh = false) ∧ ¬ ({ s with out := o } : SelState).New := by
  have hk := h.keys hl
  have hsh := h.shown
  obtain ⟨xs, h1, h2, h3, h4⟩ := h.out
  have hc := selCells_ok hlen r titles cs xs hl h3 h4 hr ht
  unfold SelOut.output
  rw [h1, h2, hc]
  dsimp only
  refine ⟨_, _, rfl, ⟨h.fetch, xs, ?_, ?_, h3, h4⟩, ?_, rfl, ?_, ?_, ?_, ?_⟩
  · cases h5 : s.out.isNew <;> cases h6 : s.out.outputted <;> simp [h1]
  · cases h5 : s.out.isNew <;> cases h6 : s.out.outputted <;> simp [h2]
  · rw [← hk]
    cases h5 : s.out.isNew <;> cases h6 : s.out.outputted <;> simp [h1]
  · have : ∀ ks, ks = s.out.cols → ShownCols env cs ks := by rintro _ rfl; exact hsh
    apply this
    cases h5 : s.out.isNew <;> cases h6 : s.out.outputted <;> simp [h1]
  · rintro ⟨n1, n2⟩
    simp [n1, n2]
  · intro hn
    cases h5 : s.out.isNew with
    | false => simp [h5]
    | true =>
      cases h6 : s.out.outputted with
      | false => exact absurd ⟨h5, h6⟩ hn
      | true => simp
  · unfold SelState.New
    cases h5 : s.out.isNew <;> cases h6 : s.out.outputted <;> simp_all

/-- Proof device: an output row for row `r`. -/
def OutRow (env : Env) (titles : List Str) (cs : List InCol) (r : Nat) (v : RowView) : Prop :=
  v.cols.map Col.key = outKeys titles cs ∧ v.cells = (cs.take titles.length).map (fun c => (c.vals.cells env).getD r []) ∧
    ShownCols env cs v.cols

/-- Proof device: the condition holds in row `r`. -/
def Query.at (q : Query) (env : Env) (cs : List InCol) (r : Nat) : Bool :=
  q.keep ((cs.drop q.select.length).map (fun c => ((c.vals.cells env).getD r [], c.vals.isMissing r)))

theorem selLoop_rows {env : Env} {T : UTable} {len : List Byte → Nat} (hlen : StrLen len) (q : Query) {cs : List InCol} {ss : List SqlCol}
    (hrows : ∀ c ∈ T.cols, c.vals.rows = T.rows) (hl : q.select.length ≤ cs.length)
    (hty : Match TypeOf (cs.take q.select.length) (ss.take q.select.length)) (hone : Match (TheOne T) (ss.map SqlCol.name) cs)
    {ks : List Col} (hk : ks.map Col.key = T.cols.map InCol.key) (hs : Match (SrcCol env) T.cols ks)
    (us : List RowView) (i : Nat) (hi : i + us.length ≤ T.rows)
    (hus : ∀ (t : Nat) (u : RowView), us[t]? = some u → u.cols = ks ∧ u.cells = rowAt (T.cols.map (InCol.data env)) (i + t))
    (htext : ∀ r, i ≤ r → r < i + us.length → q.at env cs r = true → ∀ c ∈ cs.take q.select.length, c.vals.Texts r)
    (s : SelState) (hready : Ready env T (q.select.map Prod.snd) cs s) (rest : List RowView) (e : Option Err) :
    ∃ (us' : List RowView) (s' : SelState), Ready env T (q.select.map Prod.snd) cs s' ∧
      selLoop env len q ss s (us ++ rest) e =
        (us' ++ (selLoop env len q ss s' rest e).1, (selLoop env len q ss s' rest e).2) ∧
      Match (OutRow env (q.select.map Prod.snd) cs) ((List.range' i us.length).filter (q.at env cs)) us' ∧
      (s.New → ∀ u, us'.head? = some u → u.fresh = true) ∧
      ((∀ u ∈ us, u.fresh = false) → ¬ s.New → ∀ u ∈ us', u.fresh = false) ∧
      ((∀ u ∈ us.tail, u.fresh = false) → ∀ u ∈ us'.tail, u.fresh = false) := by
  have htl : (q.select.map Prod.snd).length = q.select.length := by simp
  have hcr : ∀ c ∈ cs, c.vals.rows = T.rows := by
    intro c hc
    obtain ⟨n, _, p, hp, _⟩ := hone.mem_left' hc
    exact hrows c (List.mem_of_getElem? hp)
  induction us generalizing i s with
  | nil => exact ⟨[], s, hready, by simp, by simpa using Match.nil, by simp, by simp, by simp⟩
  | cons u us ih =>
    simp only [List.length_cons] at hi
    obtain ⟨u1, u2⟩ := hus 0 u rfl
    obtain ⟨s1, hs1, hs1n, hs1u, hs1e⟩ : ∃ s1 : SelState, Ready env T (q.select.map Prod.snd) cs s1 ∧ (s.New → s1.New) ∧
        (u.fresh = false → ¬ s.New → ¬ s1.New) ∧ s.enter env (q.select.map Prod.snd) ss u = .ok s1 := by
      by_cases hf : u.fresh = true
      · obtain ⟨s', g1, g2, g3⟩ := enter_ok (titles := q.select.map Prod.snd) hrows (by rw [htl]; exact hl) (by rw [htl]; exact hty) hone hk hs
        exact ⟨s', g1, fun _ => g2, fun h => (by rw [hf] at h; cases h), g3 s u u1 hf⟩
      · exact ⟨s, hready, id, fun _ => id, by unfold SelState.enter; rw [if_neg hf]⟩
    have hfe := fetched hs1.fetch i (by omega)
    have hus' : ∀ (t : Nat) (u' : RowView), us[t]? = some u' → u'.cols = ks ∧ u'.cells = rowAt (T.cols.map (InCol.data env)) (i + 1 + t) := by
      intro t u' ht
      have := hus (t + 1) u' ht
      rwa [show i + (t + 1) = i + 1 + t by omega] at this
    simp only [List.cons_append, selLoop, hs1e]
    rw [u2, Nat.add_zero, hfe, ← List.map_drop]
    by_cases hkeep : q.at env cs i = true
    · rw [if_pos (show q.keep _ = true from hkeep)]
      obtain ⟨row, o, o1, o2, o3, o4, o6, o5, o7, o8⟩ := output_ok hlen hs1 (by rw [htl]; exact hl) i
        (by intro c hc; rw [hcr c (List.mem_of_mem_take hc)]; omega)
        (by rw [htl]; exact htext i (by omega) (by simp) hkeep)
      rw [htl] at o1
      rw [o1]
      dsimp only
      obtain ⟨us', s', a1, a2, a3, _, a5, _⟩ := ih (i + 1) (by omega) hus' (fun r h1 h2 => htext r (by omega) (by simp; omega)) _ o2
      rw [a2]
      refine ⟨row :: us', s', a1, rfl, ?_, ?_, ?_, ?_⟩
      · rw [List.length_cons, List.range'_succ, List.filter_cons, if_pos hkeep]
        exact .cons ⟨o3, o4, o6⟩ a3
      · intro hn v hv
        simp at hv
        subst hv
        exact o5 (hs1n hn)
      · intro hall hn v hv
        rcases List.mem_cons.mp hv with rfl | hv
        · exact o7 (hs1u (hall u (by simp)) hn)
        · exact a5 (fun u hu => hall u (by simp [hu])) o8 v hv
      · intro hall v hv
        exact a5 hall o8 v hv
    · rw [if_neg (show ¬ q.keep _ = true from hkeep)]
      obtain ⟨us', s', a1, a2, a3, a4, a5, a6⟩ := ih (i + 1) (by omega) hus' (fun r h1 h2 => htext r (by omega) (by simp; omega)) _ hs1
      refine ⟨us', s', a1, a2, ?_, fun hn => a4 (hs1n hn), fun hall hn => a5 (fun u hu => hall u (by simp [hu])) (hs1u (hall u (by simp)) hn),
        fun hall => a6 (fun u hu => hall u (List.mem_of_mem_tail hu))⟩
      rw [List.length_cons, List.range'_succ, List.filter_cons, if_neg hkeep]
      exact a3

/-! ### All tables -/

/-- Proof device: the columns asked for (`cs`) in the table `T`, and the answer `R`. -/
structure AskedIn (env : Env) (q : Query) (ss : List SqlCol) (T R : UTable) (cs : List InCol) : Prop where
  rows : ∀ c ∈ T.cols, c.vals.rows = T.rows
  len : q.select.length ≤ cs.length
  ty : Match TypeOf (cs.take q.select.length) (ss.take q.select.length)
  one : Match (TheOne T) (ss.map SqlCol.name) cs
  count : R.rows = ((List.range T.rows).filter (q.at env cs)).length
  cols : R.cols = List.zipWith (fun (t : Str) (c : InCol) => (⟨t, c.vals.pick ((List.range T.rows).filter (q.at env cs))⟩ : InCol)) (q.select.map Prod.snd) cs
  text : ∀ r, r < T.rows → q.at env cs r = true → ∀ c ∈ cs.take q.select.length, c.vals.Texts r

theorem AskedIn.keys {env : Env} {q : Query} {ss : List SqlCol} {T R : UTable} {cs : List InCol} (h : AskedIn env q ss T R cs) :
    outKeys (q.select.map Prod.snd) cs = R.cols.map InCol.key := by
  rw [h.cols]
  unfold outKeys
  rw [List.map_zipWith]
  congr 1
  funext t c
  simp [InCol.key, Vals.pick_ty, Vals.pick_members, Vals.pick_words]

/-- The rows put out for a table are those of the answer. -/
theorem AskedIn.answer {env : Env} {q : Query} {ss : List SqlCol} {T R : UTable} {cs : List InCol} (h : AskedIn env q ss T R cs) {us : List RowView}
    (hm : Match (OutRow env (q.select.map Prod.snd) cs) ((List.range T.rows).filter (q.at env cs)) us) : RowsAre env R us := by
  refine ⟨by rw [h.count, hm.length], ?_⟩
  intro j v hv
  have hj := (List.getElem?_eq_some_iff.mp hv).1
  rw [← hm.length] at hj
  obtain ⟨r, hr⟩ : ∃ r, ((List.range T.rows).filter (q.at env cs))[j]? = some r := ⟨_, List.getElem?_eq_getElem hj⟩
  obtain ⟨g1, g2, _⟩ := hm.get j r v hr hv
  refine ⟨by rw [g1, h.keys], ?_⟩
  have hlt : ∀ c ∈ cs, ∀ i ∈ (List.range T.rows).filter (q.at env cs), i < c.vals.rows := by
    intro c hc i hi
    obtain ⟨n, _, p, hp, _⟩ := h.one.mem_left' hc
    rw [h.rows c (List.mem_of_getElem? hp)]
    simpa using (List.mem_filter.mp hi).1
  rw [g2, h.cols]
  have hlen := h.len
  unfold rowAt
  simp only [List.map_map]
  apply List.ext_getElem?
  intro i
  by_cases hi : i < q.select.length
  · have e2 : cs[i]? = some (cs[i]'(by omega)) := List.getElem?_eq_getElem _
    have e1 : (q.select.map Prod.snd)[i]? = some (q.select[i].2) := by simp [hi]
    have hmem : cs[i]'(by omega) ∈ cs := List.getElem_mem _
    simp only [List.length_map, List.getElem?_map, List.getElem?_take, if_pos hi, e2, Option.map_some, List.getElem?_zipWith, e1, Function.comp,
      InCol.data]
    rw [Vals.pick_cells env _ _ (hlt _ hmem)]
    congr 1
    rw [List.getD_eq_getElem?_getD (l := List.map _ _), List.getElem?_map, hr]
    rfl
  · rw [List.getElem?_eq_none (by simp; omega), List.getElem?_eq_none (by simp; omega)]

/-- Specification: what the columns of the rows of an answer say about missing values. -/
def RowsTell (env : Env) (R : UTable) (vs : List RowView) : Prop :=
  ∀ (j p : Nat) (v : RowView) (c : InCol) (k : Col), vs[j]? = some v → R.cols[p]? = some c → v.cols[p]? = some k →
    k.codec.missingWord = .ok (c.vals.mdiWord env) ∧ (k.codec.hasMissing = 0 → ∀ r, c.vals.isMissing r = false)

theorem Vals.pick_mdi (env : Env) (js : List Nat) (v : Vals) : (v.pick js).mdiWord env = v.mdiWord env := by cases v <;> rfl

theorem Vals.pick_isMissing (js : List Nat) (v : Vals) (hj : ∀ j ∈ js, j < v.rows) (r : Nat) (h : ∀ i, v.isMissing i = false) :
    (v.pick js).isMissing r = false := by
  cases hm : (v.pick js).isMissing r with
  | false => rfl
  | true =>
    have hr := Vals.isMissing_lt hm
    rw [Vals.pick_rows] at hr
    have hjr := hj js[r] (List.getElem_mem hr)
    have hh := h js[r]
    exfalso
    cases v with
    | ints vs =>
      have hl : js[r] < vs.length := hjr
      simp [Vals.isMissing, Vals.pick, hr, hl] at hm hh
      exact hh hm
    | bits ms vs =>
      have hl : js[r] < vs.length := hjr
      simp [Vals.isMissing, Vals.pick, hr, hl] at hm hh
      exact hh hm
    | reals vs =>
      have hl : js[r] < vs.length := hjr
      simp [Vals.isMissing, Vals.pick, hr, hl] at hm hh
      exact hh hm
    | doubles vs =>
      have hl : js[r] < vs.length := hjr
      simp [Vals.isMissing, Vals.pick, hr, hl] at hm hh
      exact hh hm
    | strings w vs => simp [Vals.isMissing, Vals.pick] at hm

theorem AskedIn.tell {env : Env} {q : Query} {ss : List SqlCol} {T R : UTable} {cs : List InCol} (h : AskedIn env q ss T R cs) {us : List RowView}
    (hm : Match (OutRow env (q.select.map Prod.snd) cs) ((List.range T.rows).filter (q.at env cs)) us) : RowsTell env R us := by
  intro j p v c k hv hc hk
  have hj := (List.getElem?_eq_some_iff.mp hv).1
  rw [← hm.length] at hj
  obtain ⟨g1, g2, g3⟩ := hm.get j _ v (List.getElem?_eq_getElem hj) hv
  rw [h.cols, List.getElem?_zipWith] at hc
  cases ht : (q.select.map Prod.snd)[p]? with
  | none => rw [ht] at hc; cases hc
  | some t =>
    cases hx : cs[p]? with
    | none => rw [ht, hx] at hc; cases hc
    | some x =>
      rw [ht, hx] at hc
      simp only [Option.some.injEq] at hc
      subst hc
      obtain ⟨a, b⟩ := g3 p x k hx hk
      refine ⟨by rw [a, Vals.pick_mdi], fun h0 r => Vals.pick_isMissing _ _ ?_ r (b h0)⟩
      intro i hi
      obtain ⟨n, _, p', hp, _⟩ := h.one.mem_left' (List.mem_of_getElem? hx)
      rw [h.rows x (List.mem_of_getElem? hp)]
      simpa using (List.mem_filter.mp hi).1

theorem selLoop_enter {env : Env} {len : List Byte → Nat} {q : Query} {ss : List SqlCol} {s s' s2 : SelState} {v : RowView}
    (h : s.enter env (q.select.map Prod.snd) ss v = .ok s2) (h' : s'.enter env (q.select.map Prod.snd) ss v = .ok s2) (vs : List RowView) (e : Option Err) :
    selLoop env len q ss s (v :: vs) e = selLoop env len q ss s' (v :: vs) e := by
  simp only [selLoop, h, h']

/-- Proof device: table, answer and rows in the file. -/
structure FilteredFrom (env : Env) (q : Query) (ss : List SqlCol) (T R : UTable) (vs : List RowView) : Prop where
  asked : ∃ cs, AskedIn env q ss T R cs
  rowsFrom : RowsFrom env T vs
  pos : 0 < T.rows

theorem FilteredFrom.head {env : Env} {q : Query} {ss : List SqlCol} {T R : UTable} {vs : List RowView} (h : FilteredFrom env q ss T R vs) :
    ∃ u us, vs = u :: us := by
  have := h.rowsFrom.are.len
  have := h.pos
  cases vs with
  | nil => simp at this; omega
  | cons u us => exact ⟨u, us, rfl⟩

theorem FilteredFrom.keyed {env : Env} {q : Query} {ss : List SqlCol} {T R : UTable} {vs : List RowView} (h : FilteredFrom env q ss T R vs) :
    ∃ ks, ks.map Col.key = T.cols.map InCol.key ∧ Match (SrcCol env) T.cols ks ∧ ∀ v ∈ vs, v.cols = ks := by
  obtain ⟨ks, h1, h2⟩ := h.rowsFrom.src
  obtain ⟨u, us, rfl⟩ := h.head
  have := (h.rowsFrom.are.row 0 u rfl).1
  rw [h2 u (by simp)] at this
  exact ⟨ks, this, h1, h2⟩

theorem selLoop_chunks {env : Env} {len : List Byte → Nat} (hlen : StrLen len) (q : Query) (ss : List SqlCol)
    (Xs : List (UTable × UTable × List RowView)) (hX : ∀ x ∈ Xs, FilteredFrom env q ss x.1 x.2.1 x.2.2) (hne : Xs ≠ [])
    (hfr : ∀ x ∈ Xs.tail, ∀ u, x.2.2.head? = some u → u.fresh = true)
    (s : SelState) (hs : ∀ x, Xs.head? = some x → (∃ cs, AskedIn env q ss x.1 x.2.1 cs ∧ Ready env x.1 (q.select.map Prod.snd) cs s) ∧ s.New) :
    ∃ (vss : List (List RowView)) (ks : List Col), selLoop env len q ss s (Xs.map (fun x => x.2.2)).flatten none = (vss.flatten, none, ks) ∧
      Match (fun x vs => (RowsAre env x.2.1 vs ∧ RowsTell env x.2.1 vs) ∧ ((∀ u ∈ x.2.2.tail, u.fresh = false) → ∀ u ∈ vs.tail, u.fresh = false)) Xs vss ∧
      (∀ vs ∈ vss, ∀ u, vs.head? = some u → u.fresh = true) ∧
      ∃ x ∈ Xs, ks.map Col.key = x.2.1.cols.map InCol.key := by
  have htl : (q.select.map Prod.snd).length = q.select.length := by simp
  induction Xs generalizing s with
  | nil => exact absurd rfl hne
  | cons x Xs ih =>
    obtain ⟨T, R, vs⟩ := x
    obtain ⟨⟨cs, hA, hR⟩, hN⟩ := hs _ rfl
    dsimp only at hA hR
    have hF := hX (T, R, vs) (by simp)
    dsimp only at hF
    obtain ⟨ks, k1, k2, k3⟩ := hF.keyed
    have hvl := hF.rowsFrom.are.len
    obtain ⟨us', s', a1, a2, a3, a4, _, a6⟩ := selLoop_rows hlen q hA.rows hA.len hA.ty hA.one k1 k2 vs 0 (by omega)
      (by
        intro t u hu
        exact ⟨k3 u (List.mem_of_getElem? hu), by rw [Nat.zero_add]; exact (hF.rowsFrom.are.row t u hu).2⟩)
      (by intro r _ hr; exact hA.text r (by omega)) s hR (Xs.map (fun x => x.2.2)).flatten none
    rw [hvl, ← List.range_eq_range'] at a3
    have hRows := And.intro (And.intro (hA.answer a3) (hA.tell a3)) a6
    simp only [List.map_cons, List.flatten_cons]
    cases Xs with
    | nil =>
      refine ⟨[us'], s'.out.cols, by rw [a2]; simp [selLoop], .cons hRows .nil, ?_, (T, R, vs), by simp, ?_⟩
      · intro ws hws
        simp at hws
        subst hws
        exact a4 hN
      · rw [a1.keys (by rw [htl]; exact hA.len), hA.keys]
    | cons y Ys =>
      obtain ⟨T2, R2, vs2⟩ := y
      have hF2 := hX (T2, R2, vs2) (by simp)
      dsimp only at hF2
      obtain ⟨cs2, hA2⟩ := hF2.asked
      obtain ⟨ks2, m1, m2, m3⟩ := hF2.keyed
      obtain ⟨u, us, hu⟩ := hF2.head
      obtain ⟨s2, e1, e2, e3⟩ := enter_ok (titles := q.select.map Prod.snd) hA2.rows (by rw [htl]; exact hA2.len) (by rw [htl]; exact hA2.ty) hA2.one m1 m2
      have hfu : u.fresh = true := hfr (T2, R2, vs2) (by simp) u (by rw [hu]; rfl)
      have hcu : u.cols = ks2 := m3 u (by rw [hu]; simp)
      obtain ⟨vss, kz, l1, l2, l3, z, l4, l5⟩ := ih (fun x hx => hX x (by simp [hx])) (by simp)
        (fun x hx => hfr x (by simp only [List.tail_cons] at hx ⊢; exact List.mem_cons_of_mem _ hx)) s2
        (by intro x hx; simp at hx; subst hx; exact ⟨⟨cs2, hA2, e1⟩, e2⟩)
      have hsame : selLoop env len q ss s' (List.map (fun x => x.2.2) ((T2, R2, vs2) :: Ys)).flatten none =
          selLoop env len q ss s2 (List.map (fun x => x.2.2) ((T2, R2, vs2) :: Ys)).flatten none := by
        simp only [List.map_cons, List.flatten_cons, hu, List.cons_append]
        exact selLoop_enter (e3 s' u hcu hfu) (e3 s2 u hcu hfu) _ _
      refine ⟨us' :: vss, kz, by rw [a2, hsame, l1]; simp, .cons hRows l2, ?_, z, by simp [l4], l5⟩
      intro ws hws
      rcases List.mem_cons.mp hws with rfl | h
      · exact a4 hN
      · exact l3 ws h

theorem answer_cols {env : Env} {q : Query} {first : List Str} {T R : UTable} (h : Answer env q first T R) :
    ∃ cs : List InCol, Match (Chosen first T) q.names cs ∧ q.select.length ≤ cs.length ∧ R.rows = ((List.range T.rows).filter (q.at env cs)).length ∧
      R.cols = List.zipWith (fun (t : Str) (c : InCol) => (⟨t, c.vals.pick ((List.range T.rows).filter (q.at env cs))⟩ : InCol)) (q.select.map Prod.snd) cs := by
  obtain ⟨cond, h1, h2, h3⟩ := h.ex
  obtain ⟨sel, a1, a2⟩ : ∃ sel : List InCol, Match (Chosen first T) (q.select.map Prod.fst) sel ∧
      R.cols = List.zipWith (fun (t : Str) (c : InCol) => (⟨t, c.vals.pick (q.rows env T cond)⟩ : InCol)) (q.select.map Prod.snd) sel := by
    clear h h1 h2
    generalize q.rows env T cond = js at h3
    generalize R.cols = cs' at h3
    generalize q.select = sl at h3
    induction h3 with
    | nil => exact ⟨[], .nil, rfl⟩
    | @cons s c' ss cs' h _ ih =>
      obtain ⟨sel, b1, b2⟩ := ih
      obtain ⟨c, g1, g2, g3⟩ := h
      refine ⟨c :: sel, .cons g1 b1, ?_⟩
      obtain ⟨n, v⟩ := c'
      dsimp only at g2 g3
      simp only [List.map_cons, List.zipWith_cons_cons, b2, g2, g3]
  have hl : sel.length = q.select.length := by rw [← a1.length]; simp
  have hat : q.rows env T cond = (List.range T.rows).filter (q.at env (sel ++ cond)) := by
    unfold Query.rows
    congr 1
    funext j
    unfold Query.at
    rw [← hl, List.drop_left]
  rw [hat] at h2 a2
  refine ⟨sel ++ cond, a1.append h1, by simp [hl], h2, ?_⟩
  rw [a2]
  apply List.ext_getElem?
  intro i
  simp only [List.getElem?_zipWith]
  by_cases hi : i < q.select.length
  · rw [List.getElem?_append_left (by omega)]
  · rw [List.getElem?_eq_none (l := q.select.map Prod.snd) (by simp; omega)]

/-- The columns of the first table as the engine knows them, and what the query asks for in a table. -/
theorem answer_asked {env : Env} {q : Query} {T0 T R0 R : UTable} {ss0 ss : List SqlCol} (hs0 : Match SqlOf T0.cols ss0)
    (hss : Match (fun n s => s ∈ ss0 ∧ QueryMeans (T0.cols.map InCol.name) n s.name) q.names ss)
    (h0 : Answer env q (T0.cols.map InCol.name) T0 R0) (h : Answer env q (T0.cols.map InCol.name) T R) {B : List InCol}
    (hB : ∀ b ∈ B, b.vals.Ok env ∧ (env.longEnv = true → b.vals.NoEmpty)) (hw0 : R0.Within B) (hw : R.Within B) (hf : ∀ c ∈ R.cols, c.vals.Fits)
    (hrows : ∀ c ∈ T.cols, c.vals.rows = T.rows) : ∃ cs, AskedIn env q ss T R cs := by
  obtain ⟨cs0, a1, a2, a3, a4⟩ := answer_cols h0
  obtain ⟨cs, b1, b2, b3, b4⟩ := answer_cols h
  have hone : ∀ {T : UTable} {cs : List InCol}, Match (Chosen (T0.cols.map InCol.name) T) q.names cs → Match (TheOne T) (ss.map SqlCol.name) cs := by
    intro T cs hm
    refine Match.of_get _ _ (by rw [List.length_map, ← hss.length, hm.length]) ?_
    intro i n c e1 e2
    rw [List.getElem?_map, Option.map_eq_some_iff] at e1
    obtain ⟨s, e1, rfl⟩ := e1
    obtain ⟨x, hx⟩ : ∃ x, q.names[i]? = some x := by
      have := (List.getElem?_eq_some_iff.mp e1).1
      exact ⟨_, List.getElem?_eq_getElem (by rw [hss.length]; exact this)⟩
    obtain ⟨n, g1, g2⟩ := hm.get i x c hx e2
    rw [g1.unique (hss.get i x s hx e1).2] at g2
    exact g2
  have hlss : ss.length = q.select.length + q.cond.length := by rw [← hss.length]; simp [Query.names]
  refine ⟨cs, ⟨hrows, b2, ?_, hone b1, b3, b4, ?_⟩⟩
  · refine Match.of_get _ _ (by simp only [List.length_take]; omega) ?_
    intro i c s e1 e2
    rw [List.getElem?_take] at e1 e2
    split at e1
    case isFalse => simp at e1
    rename_i hi
    rw [if_pos hi] at e2
    -- the column in the first table
    have hc0 : cs0[i]? = some (cs0[i]'(by omega)) := List.getElem?_eq_getElem _
    generalize cs0[i]'(by omega) = c0 at hc0
    have hn : (ss.map SqlCol.name)[i]? = some s.name := by rw [List.getElem?_map, e2]; rfl
    obtain ⟨p, p1, p2, p3⟩ := (hone a1).get i _ _ hn hc0
    obtain ⟨x, hx⟩ : ∃ x, q.names[i]? = some x := ⟨_, List.getElem?_eq_getElem (by rw [hss.length]; omega)⟩
    obtain ⟨m1, m2⟩ := hss.get i x s hx e2
    obtain ⟨c1, n1, n2⟩ := hs0.mem_left' m1
    obtain ⟨p', hp'⟩ := List.getElem?_of_mem n1
    have := p3 p' c1 hp' (Or.inl n2.name.symm)
    subst this
    rw [p1] at hp'
    cases hp'
    have ht : (q.select.map Prod.snd)[i]? = some (q.select[i].2) := by simp [hi]
    have r0 : R0.cols[i]? = some ⟨q.select[i].2, c0.vals.pick ((List.range T0.rows).filter (q.at env cs0))⟩ := by
      rw [a4, List.getElem?_zipWith, ht, hc0]
    have r1 : R.cols[i]? = some ⟨q.select[i].2, c.vals.pick ((List.range T.rows).filter (q.at env cs))⟩ := by
      rw [b4, List.getElem?_zipWith, ht, e1]
    obtain ⟨b, hb⟩ : ∃ b, B[i]? = some b := ⟨_, List.getElem?_eq_getElem (by rw [← Match.length hw]; exact (List.getElem?_eq_some_iff.mp r1).1)⟩
    obtain ⟨t1, t2⟩ := (Match.get hw0 i _ _ r0 hb).2.ty
    obtain ⟨t3, t4⟩ := (Match.get hw i _ _ r1 hb).2.ty
    simp only [Vals.pick_ty, Vals.pick_members] at t1 t2 t3 t4
    exact ⟨by rw [n2.ty, t1, t3], by rw [n2.bitNames, t2, t4], by rw [n2.bitSizes, t2, t4]⟩
  · intro r hr hk c hc
    obtain ⟨i, hi⟩ := List.getElem?_of_mem hc
    rw [List.getElem?_take] at hi
    split at hi
    case isFalse => simp at hi
    rename_i hlt
    have ht : (q.select.map Prod.snd)[i]? = some (q.select[i].2) := by simp [hlt]
    have r1 : R.cols[i]? = some ⟨q.select[i].2, c.vals.pick ((List.range T.rows).filter (q.at env cs))⟩ := by
      rw [b4, List.getElem?_zipWith, ht, hi]
    obtain ⟨b, hb, w1, w2⟩ := Match.mem_right' hw (List.mem_of_getElem? r1)
    have hok := (w2.ok (hf _ (List.mem_of_getElem? r1)) (hB b hb).1 (hB b hb).2).1
    have hrc : c.vals.rows = T.rows := by
      obtain ⟨n, _, p, hp, _⟩ := (hone b1).mem_left' (List.mem_of_getElem? hi)
      exact hrows c (List.mem_of_getElem? hp)
    have hmem : r ∈ (List.range T.rows).filter (q.at env cs) := List.mem_filter.mpr ⟨by simpa using hr, hk⟩
    generalize (List.range T.rows).filter (q.at env cs) = js at hok hmem
    dsimp only at hok
    cases hv : c.vals with
    | strings w vs =>
      rw [hv] at hok hrc
      simp only [Vals.rows] at hrc
      have hr' : r < vs.length := by omega
      refine ⟨vs[r], List.getElem?_eq_getElem hr', ?_⟩
      apply hok.2.2.1
      refine List.mem_map.mpr ⟨r, hmem, ?_⟩
      rw [List.getD_eq_getElem?_getD, List.getElem?_eq_getElem hr']
      rfl
    | _ => trivial

/-! ### The whole file -/

theorem drop_empty {env : Env} {Rs : List UTable} {vss : List (List RowView)} (h : Match (RowsAre env) Rs vss) :
    ∃ (Rs' : List UTable) (vss' : List (List RowView)), Match (RowsAre env) Rs' vss' ∧ vss'.flatten = vss.flatten ∧ allRows Rs' = allRows Rs ∧
      (Rs'.map UTable.rows).sum = (Rs.map UTable.rows).sum ∧ (∀ R ∈ Rs', R ∈ Rs ∧ 0 < R.rows) ∧ ∀ vs ∈ vss', vs ∈ vss := by
  induction h with
  | nil => exact ⟨[], [], .nil, rfl, rfl, rfl, by simp, by simp⟩
  | @cons R vs Rs vss h _ ih =>
    obtain ⟨Rs', vss', a1, a2, a3, a4, a5, a6⟩ := ih
    by_cases hz : R.rows = 0
    · have hv : vs = [] := List.length_eq_zero_iff.mp (by rw [h.len, hz])
      refine ⟨Rs', vss', a1, by simp [a2, hv], ?_, by simp [a4, hz], fun R hR => ⟨by simp [(a5 R hR).1], (a5 R hR).2⟩, fun vs hvs => by simp [a6 vs hvs]⟩
      rw [a3]
      simp [allRows, hz]
    · refine ⟨R :: Rs', vs :: vss', .cons h a1, by simp [a2], ?_, by simp [a4], ?_, ?_⟩
      · simp only [allRows, List.flatMap_cons] at a3 ⊢
        rw [a3]
      · intro S hS
        rcases List.mem_cons.mp hS with rfl | hS
        · exact ⟨by simp, by omega⟩
        · exact ⟨by simp [(a5 S hS).1], (a5 S hS).2⟩
      · intro ws hws
        rcases List.mem_cons.mp hws with rfl | hws
        · simp
        · simp [a6 ws hws]

theorem le_of_mem_sum {l : List Nat} {n : Nat} (h : n ∈ l) : n ≤ l.sum := by
  induction l with
  | nil => simp at h
  | cons a l ih =>
    simp only [List.sum_cons]
    rcases List.mem_cons.mp h with rfl | h
    · omega
    · have := ih h; omega

theorem grouped_one (B : List InCol) (Rs : List UTable) : Grouped (Rs.map (fun R => (B, R))) := by
  induction Rs with
  | nil => trivial
  | cons R Rs ih =>
    cases Rs with
    | nil => trivial
    | cons S Rs => exact ⟨Or.inl rfl, ih⟩

theorem Match.weaken {α β : Type} {R R' : α → β → Prop} {as : List α} {bs : List β} (h : Match R as bs) (hr : ∀ a b, R a b → R' a b) :
    Match R' as bs := by
  induction h with
  | nil => exact .nil
  | cons h _ ih => exact .cons (hr _ _ h) ih

/-- The rows of the iterator over the answer. -/
theorem select_answers (env : Env) (len : List Byte → Nat) (hlen : StrLen len) (junk : Junk)
    (bytes : List Byte) (fuel : Nat) (q : Query) (Ts Rs : List UTable) (vss : List (List RowView))
    (hr : readRows env junk bytes fuel = (vss.flatten, none)) (hfrom : Match (RowsFrom env) Ts vss)
    (hfresh : ∀ vs ∈ vss.tail, ∀ u, vs.head? = some u → u.fresh = true)
    (hrows : ∀ T ∈ Ts, ∀ c ∈ T.cols, c.vals.rows = T.rows) (hpos : ∀ T ∈ Ts, 0 < T.rows)
    (T0 : UTable) (hT0 : Ts.head? = some T0) (hans : Match (Answer env q (T0.cols.map InCol.name)) Ts Rs)
    (B : List InCol) (hB : ∀ b ∈ B, b.vals.Ok env ∧ (env.longEnv = true → b.vals.NoEmpty)) (hw : ∀ R ∈ Rs, R.Within B)
    (hf : ∀ R ∈ Rs, ∀ c ∈ R.cols, c.vals.Fits) :
    ∃ (wss : List (List RowView)) (kz : List Col) (sel : Selection), Match (fun R ws => RowsAre env R ws ∧ RowsTell env R ws) Rs wss ∧
      (∀ ws ∈ wss, ∀ u, ws.head? = some u → u.fresh = true) ∧
      ((∀ vs ∈ vss, ∀ u ∈ vs.tail, u.fresh = false) → ∀ ws ∈ wss, ∀ u ∈ ws.tail, u.fresh = false) ∧
      (∃ R ∈ Rs, kz.map Col.key = R.cols.map InCol.key) ∧
      selOpen env junk q bytes fuel = .ok sel ∧ (∃ R, Rs.head? = some R ∧ sel.st.out.cols.map Col.key = R.cols.map InCol.key) ∧
      selLoop env len q sel.asked sel.st sel.rest sel.fin = (wss.flatten, none, kz) := by
  have htl : (q.select.map Prod.snd).length = q.select.length := by simp
  -- the first table
  obtain ⟨Ts', rfl⟩ : ∃ Ts', Ts = T0 :: Ts' := by
    cases Ts with
    | nil => simp at hT0
    | cons T Ts => simp at hT0; subst hT0; exact ⟨Ts, rfl⟩
  obtain ⟨R0, Rs', rfl, hans0⟩ : ∃ R0 Rs', Rs = R0 :: Rs' ∧ Answer env q (T0.cols.map InCol.name) T0 R0 := by
    cases hans with
    | cons h _ => exact ⟨_, _, rfl, h⟩
  obtain ⟨vs0, vss', rfl, hfrom0⟩ : ∃ vs0 vss', vss = vs0 :: vss' ∧ RowsFrom env T0 vs0 := by
    cases hfrom with
    | cons h _ => exact ⟨_, _, rfl, h⟩
  have hp0 := hpos T0 (by simp)
  obtain ⟨u, us0, rfl⟩ : ∃ u us, vs0 = u :: us := by
    have := hfrom0.are.len
    cases vs0 with
    | nil => simp at this; omega
    | cons u us => exact ⟨u, us, rfl⟩
  obtain ⟨ks0, k2, k3⟩ := hfrom0.src
  have k1 : ks0.map Col.key = T0.cols.map InCol.key := by rw [← k3 u (by simp)]; exact (hfrom0.are.row 0 u rfl).1
  obtain ⟨ss0, p1, p2⟩ := populate_ok T0.cols ks0 k1 k2
  obtain ⟨cs0', n1, _⟩ := answer_cols hans0
  obtain ⟨ss, q1, q2⟩ := sqlColumns_ok p2 q.names (by
    intro x hx
    obtain ⟨c, _, n, hn, _⟩ := n1.mem_right' hx
    exact ⟨n, hn⟩)
  have hasked : ∀ (T R : UTable), T ∈ T0 :: Ts' → R ∈ R0 :: Rs' → Answer env q (T0.cols.map InCol.name) T R → ∃ cs, AskedIn env q ss T R cs := by
    intro T R hT hR hA
    exact answer_asked p2 q2 hans0 hA hB (hw R0 (by simp)) (hw R hR) (hf R hR) (hrows T hT)
  obtain ⟨cs0, hA0⟩ := hasked T0 R0 (by simp) (by simp) hans0
  obtain ⟨fs, f1, f2⟩ := fetchCols_ok hA0.rows k1 k2 hA0.one
  obtain ⟨xs, x1, x2, x3⟩ := selColumns_ok env (q.select.map Prod.snd) (by rw [htl]; exact hA0.len) (by rw [htl]; exact hA0.ty) f2
    (by
      intro c hc
      obtain ⟨n, _, p, hp, _⟩ := hA0.one.mem_left' hc
      exact hA0.rows c (List.mem_of_getElem? hp))
  -- all rows
  obtain ⟨Xs, e1, e2, e3, hXs⟩ : ∃ Xs : List (UTable × UTable × List RowView), Xs.map Prod.fst = T0 :: Ts' ∧ Xs.map (fun x => x.2.1) = R0 :: Rs' ∧
      Xs.map (fun x => x.2.2) = (u :: us0) :: vss' ∧ ∀ x ∈ Xs, FilteredFrom env q ss x.1 x.2.1 x.2.2 := by
    have : ∀ (As Bs : List UTable) (wss : List (List RowView)), Match (Answer env q (T0.cols.map InCol.name)) As Bs → Match (RowsFrom env) As wss →
        (∀ T ∈ As, T ∈ T0 :: Ts') → (∀ R ∈ Bs, R ∈ R0 :: Rs') →
        ∃ Xs : List (UTable × UTable × List RowView), Xs.map Prod.fst = As ∧ Xs.map (fun x => x.2.1) = Bs ∧
          Xs.map (fun x => x.2.2) = wss ∧ ∀ x ∈ Xs, FilteredFrom env q ss x.1 x.2.1 x.2.2 := by
      intro As Bs wss h1 h2 h3 h4
      induction h1 generalizing wss with
      | nil => cases h2; exact ⟨[], rfl, rfl, rfl, by simp⟩
      | @cons T R As Bs g1 _ ih =>
        cases h2 with
        | @cons _ ws _ wss g2 g3 =>
          obtain ⟨Xs, a1, a2, a3, a4⟩ := ih wss g3 (fun T hT => h3 T (by simp [hT])) (fun R hR => h4 R (by simp [hR]))
          refine ⟨(T, R, ws) :: Xs, by simp [a1], by simp [a2], by simp [a3], ?_⟩
          intro x hx
          rcases List.mem_cons.mp hx with rfl | hx
          · exact ⟨hasked T R (h3 T (by simp)) (h4 R (by simp)) g1, g2, hpos T (h3 T (by simp))⟩
          · exact a4 x hx
    exact this _ _ _ hans hfrom (fun _ h => h) (fun _ h => h)
  obtain ⟨wss, kz, l1, l2, l3, z, l4, l5⟩ := selLoop_chunks hlen q ss Xs hXs (by rintro rfl; simp at e1)
    (by
      intro x hx w hw'
      refine hfresh x.2.2 ?_ w hw'
      rw [← e3, ← List.map_tail]
      exact List.mem_map.mpr ⟨x, hx, rfl⟩)
    ⟨fs, ⟨xs.map Prod.fst, xs.map Prod.snd, true, false⟩⟩
    (by
      intro x hx
      refine ⟨⟨cs0, ?_, ?_⟩, rfl, rfl⟩
      · cases Xs with
        | nil => simp at hx
        | cons y Ys =>
          simp at hx
          subst hx
          simp only [List.map_cons, List.cons.injEq] at e1 e2
          rw [e1.1, e2.1]
          exact hA0
      · cases Xs with
        | nil => simp at hx
        | cons y Ys =>
          simp at hx
          subst hx
          simp only [List.map_cons, List.cons.injEq] at e1
          rw [e1.1]
          exact ⟨f2, xs, rfl, rfl, x2, x3⟩)
  rw [e3] at l1
  have hm : Match (fun R ws => RowsAre env R ws ∧ RowsTell env R ws) (R0 :: Rs') wss := by
    rw [← e2]
    exact Match.map_left _ (Match.weaken l2 (fun _ _ h => h.1))
  have hz' : z.2.1 ∈ R0 :: Rs' := by rw [← e2]; exact List.mem_map.mpr ⟨z, l4, rfl⟩
  have hready : Ready env T0 (q.select.map Prod.snd) cs0 ⟨fs, ⟨xs.map Prod.fst, xs.map Prod.snd, true, false⟩⟩ := ⟨f2, xs, rfl, rfl, x2, x3⟩
  cases hb : RowIt.begin env junk bytes with
  | error e => unfold readRows at hr; rw [hb] at hr; simp at hr
  | ok it =>
    obtain ⟨c1, c2, c3⟩ := begin_first (u := u) (us := us0 ++ vss'.flatten) hb (by simpa using hr)
    have c3' : it.all env junk fuel = (((u :: us0) :: vss').flatten, none) := by simpa using c3
    refine ⟨wss, kz, ⟨ss, ⟨fs, ⟨xs.map Prod.fst, xs.map Prod.snd, true, false⟩⟩, ((u :: us0) :: vss').flatten, none⟩, hm, l3, ?_, ⟨_, hz', l5⟩, ?_,
      ⟨R0, rfl, ?_⟩, l1⟩
    · intro hall ws hws
      obtain ⟨x, hx, hx2⟩ := l2.mem_left' hws
      refine hx2.2 (hall x.2.2 ?_)
      rw [← e3]
      exact List.mem_map.mpr ⟨x, hx, rfl⟩
    · unfold selOpen
      rw [hb]
      dsimp only
      rw [c1, k3 u (by simp), p1]
      dsimp only
      rw [q1]
      dsimp only
      unfold selBegin selUpdate
      rw [c2, if_neg (by simp), f1]
      dsimp only
      rw [x1]
      dsimp only
      rw [c3']
    · rw [hready.keys (by rw [htl]; exact hA0.len), hA0.keys]

theorem filterFile_open (env : Env) (len : List Byte → Nat) (cap : Nat) (junk : Junk) (q : Query) (bytes : List Byte) (fuel : Nat) :
    filterFile env len cap junk q bytes fuel =
      match selectFile env len junk q bytes fuel with
      | .error e => .error e
      | .ok r =>
        match r.1, r.2.1 with
        | [], some e => .error e
        | [], none => pass1 env .same cap r.2.2 ([], none)
        | v :: vs, e => pass1 env .same cap v.cols (v :: vs, e) := by
  unfold filterFile selectFile selOpen
  cases RowIt.begin env junk bytes with
  | error e => rfl
  | ok it =>
    dsimp only
    cases populate it.cols with
    | error e => rfl
    | ok table =>
      dsimp only
      cases sqlColumns table q.names with
      | error e => rfl
      | ok cs =>
        dsimp only
        cases selBegin it.cols cs it.noMore (cs.map SqlCol.name) with
        | error e => rfl
        | ok fs =>
          dsimp only
          cases selUpdate env cs fs (q.select.map Prod.snd) with
          | error e => rfl
          | ok o => rfl

/-- The rows that the engine gives to the writer. -/
theorem filter_selects (env : Env) (len : List Byte → Nat) (hlen : StrLen len) (cap : Nat) (junk : Junk)
    (bytes : List Byte) (fuel : Nat) (q : Query) (Ts Rs : List UTable) (vss : List (List RowView))
    (hr : readRows env junk bytes fuel = (vss.flatten, none)) (hfrom : Match (RowsFrom env) Ts vss)
    (hfresh : ∀ vs ∈ vss.tail, ∀ u, vs.head? = some u → u.fresh = true)
    (hrows : ∀ T ∈ Ts, ∀ c ∈ T.cols, c.vals.rows = T.rows) (hpos : ∀ T ∈ Ts, 0 < T.rows)
    (T0 : UTable) (hT0 : Ts.head? = some T0) (hans : Match (Answer env q (T0.cols.map InCol.name)) Ts Rs)
    (B : List InCol) (hB : ∀ b ∈ B, b.vals.Ok env ∧ (env.longEnv = true → b.vals.NoEmpty)) (hw : ∀ R ∈ Rs, R.Within B)
    (hf : ∀ R ∈ Rs, ∀ c ∈ R.cols, c.vals.Fits) :
    ∃ (wss : List (List RowView)) (kz : List Col), Match (RowsAre env) Rs wss ∧
      (∀ ws ∈ wss, ∀ u, ws.head? = some u → u.fresh = true) ∧ (∃ R ∈ Rs, kz.map Col.key = R.cols.map InCol.key) ∧
      (wss.flatten = [] → filterFile env len cap junk q bytes fuel = pass1 env .same cap kz ([], none)) ∧
      ∀ v vs, wss.flatten = v :: vs → filterFile env len cap junk q bytes fuel = pass1 env .same cap v.cols (v :: vs, none) := by
  obtain ⟨wss, kz, sel, h1, h2, _, h4, h5, _, h6⟩ := select_answers env len hlen junk bytes fuel q Ts Rs vss hr hfrom hfresh hrows hpos T0 hT0 hans
    B hB hw hf
  have hval := filterFile_open env len cap junk q bytes fuel
  unfold selectFile at hval
  rw [h5] at hval
  dsimp only at hval
  rw [h6] at hval
  refine ⟨wss, kz, Match.weaken h1 (fun _ _ h => h.1), h2, h4, ?_, ?_⟩
  · intro h0
    rw [hval, h0]
  · intro v vs h0
    rw [hval, h0]

/-- **C52.**  The SQL filter on a file whose rows are those of the tables `Ts`.  Each name in the query means one column, in every table; the
answers on the tables (`Answer`: the columns asked for with their titles, in the rows that meet the condition) have columns of the same types (`B`).  The result
of `filter` is the number of rows of the answers, and a file with exactly these rows, in order. -/
theorem C52_filter (env : Env) (hmd5 : env.Md5Ok) (len : List Byte → Nat) (hlen : StrLen len) (cap : Nat) (hcap : 0 < cap) (junk : Junk)
    (bytes : List Byte) (fuel : Nat) (q : Query) (Ts Rs : List UTable) (vss : List (List RowView))
    (hr : readRows env junk bytes fuel = (vss.flatten, none)) (hfrom : Match (RowsFrom env) Ts vss)
    (hfresh : ∀ vs ∈ vss.tail, ∀ u, vs.head? = some u → u.fresh = true)
    (hrows : ∀ T ∈ Ts, ∀ c ∈ T.cols, c.vals.rows = T.rows) (hpos : ∀ T ∈ Ts, 0 < T.rows)
    (T0 : UTable) (hT0 : Ts.head? = some T0) (hans : Match (Answer env q (T0.cols.map InCol.name)) Ts Rs)
    (B : List InCol) (hB : ∀ b ∈ B, b.vals.Ok env ∧ (env.longEnv = true → b.vals.NoEmpty)) (hw : ∀ R ∈ Rs, R.Within B)
    (hf : ∀ R ∈ Rs, ∀ c ∈ R.cols, c.vals.Fits) (hl : ∀ R ∈ Rs, ∀ c ∈ R.cols, ColLen c)
    (hne : q.select ≠ []) (hfew : q.select.length < 65536) (hbig : (Rs.map UTable.rows).sum < 18446744073709551616) :
    ∃ out, filterFile env len cap junk q bytes fuel = .ok ((Rs.map UTable.rows).sum, out) ∧
      ((∀ f ∈ out, f.length ≤ 2147483647) → ∀ (junk' : Junk) (fuel' : Nat), (Rs.map UTable.rows).sum + 1 < fuel' →
        ∃ views, readRows env junk' out.flatten fuel' = (views, none) ∧ Match (IsRowAt env) (allRows Rs) views) := by
  obtain ⟨wss, kz, hm, l3, ⟨Rz, hz', l5⟩, hnil, hcons⟩ := filter_selects env len hlen cap junk bytes fuel q Ts Rs vss hr hfrom hfresh hrows hpos T0 hT0
    hans B hB hw hf
  obtain ⟨Rd, wd, d1, d2, d3, d4, d5, d6⟩ := drop_empty hm
  have hcols : ∀ R ∈ Rs, R.cols.length = q.select.length := by
    intro R hR
    obtain ⟨T, _, hA⟩ := hans.mem_left' hR
    obtain ⟨cs, _, c2, _, c4⟩ := answer_cols hA
    rw [c4]
    simp
    omega
  have hok : ∀ R ∈ Rs, R.AnyRowsOk env ∧ R.cols ≠ [] := by
    intro R hR
    have key : ∀ c ∈ R.cols, c.vals.Ok env ∧ (env.longEnv = true → c.vals.NoEmpty) := by
      intro c hc
      obtain ⟨b, hb, _, h2⟩ := Match.mem_right' (hw R hR) hc
      exact h2.ok (hf R hR c hc) (hB b hb).1 (hB b hb).2
    have hrw : ∀ c ∈ R.cols, c.vals.rows = R.rows := by
      obtain ⟨T, _, hA⟩ := hans.mem_left' hR
      obtain ⟨cond, _, r2, r3⟩ := hA.ex
      intro c hc
      obtain ⟨s, _, c', _, _, h3⟩ := r3.mem_left' hc
      rw [h3, Vals.pick_rows, r2]
    have hle : R.rows ≤ ((Rs).map UTable.rows).sum := le_of_mem_sum (List.mem_map.mpr ⟨R, hR, rfl⟩)
    refine ⟨⟨by rw [hcols R hR]; exact hfew, hrw, hl R hR, by omega, fun c hc => (key c hc).1, fun h c hc => (key c hc).2 h⟩, ?_⟩
    intro h0
    have := hcols R hR
    rw [h0] at this
    exact hne (List.length_eq_zero_iff.mp this.symm)
  cases hwf : wss.flatten with
  | nil =>
    have hz : ∀ R ∈ Rs, R.rows = 0 := by
      intro R hR
      obtain ⟨ws, h1, h2⟩ := hm.mem_right' hR
      have := List.flatten_eq_nil_iff.mp hwf ws h1
      rw [← h2.len, this]
      rfl
    have hsum : (Rs.map UTable.rows).sum = 0 := by
      clear * - hz
      induction Rs with
      | nil => rfl
      | cons R Rs ih => simp [hz R (by simp), ih (fun R hR => hz R (by simp [hR]))]
    obtain ⟨out, o1, o2⟩ := pass1_tables env hmd5 cap hcap [] Rz [] (.last ⟨by rw [hz _ hz']; rfl, by simp⟩)
      (by intro S hS; simp at hS; subst hS; exact hok _ hz') (by simp) kz l5
    refine ⟨out, by rw [hnil hwf, hsum]; exact o1, ?_⟩
    intro hsz junk' fuel' hf'
    obtain ⟨views, v1, v2, v3⟩ := o2 hsz junk' fuel' (by simp; omega)
    refine ⟨views, v1, ?_⟩
    have : allRows Rs = [] := by
      rw [← List.length_eq_zero_iff, allRows_length, hsum]
    rw [this]
    have : views = [] := List.length_eq_zero_iff.mp v2
    rw [this]
    exact .nil
  | cons v vs =>
    rw [hwf] at d2
    have hRd : Rd ≠ [] := by
      rintro rfl
      cases d1
      simp at d2
    obtain ⟨U, Us, r1, r2, r3, r4⟩ := runs env (Rd.map (fun R => (B, R))) wd (by simpa using hRd)
      (Match.map_left _ d1)
      (by
        intro p hp
        obtain ⟨R, hR, rfl⟩ := List.mem_map.mp hp
        obtain ⟨g1, g2⟩ := d5 R hR
        have := hok R g1
        exact ⟨hw R g1, this.1.rows, this.1.lens, hf R g1, this.1.few, this.2, g2⟩)
      (grouped_one B Rd)
      (fun ws hws => l3 ws (d6 ws (List.mem_of_mem_tail hws)))
    rw [d2] at r1
    have hsum : ((Rd.map (fun R => (B, R))).map (fun p => p.2.rows)).sum = (Rs.map UTable.rows).sum := by
      rw [← d4, List.map_map]
      rfl
    have hvl : (v :: vs).length = (Rs.map UTable.rows).sum := by
      rw [← d4, ← d2]
      clear * - d1
      induction d1 with
      | nil => rfl
      | cons h _ ih => simp only [List.flatten_cons, List.length_append, List.map_cons, List.sum_cons]; rw [ih, h.len]
    obtain ⟨out, o1, o2⟩ := pass1_tables env hmd5 cap hcap (v :: vs) U Us r1
      (by
        intro V hV
        obtain ⟨p, hp, hR, hle⟩ := r3 V hV
        obtain ⟨R, _, rfl⟩ := List.mem_map.mp hp
        exact ⟨hR.ok hB (by rw [hsum] at hle; omega), hR.ne⟩)
      (by
        intro V hV
        obtain ⟨p, hp, hR, _⟩ := r3 V (List.mem_cons_of_mem _ hV)
        exact hR.pos)
      v.cols (by
        cases d1 with
        | nil => exact absurd rfl hRd
        | @cons R ws Rd wd g _ =>
          rw [(r2 (B, R) rfl).2]
          have := (d5 R (by simp)).2
          obtain ⟨w, ws', rfl⟩ : ∃ w ws', ws = w :: ws' := by
            have := g.len
            cases ws with
            | nil => simp at this; omega
            | cons w ws => exact ⟨w, ws, rfl⟩
          simp only [List.flatten_cons, List.cons_append, List.cons.injEq] at d2
          rw [← d2.1]
          exact (g.row 0 w rfl).1)
    rw [hvl] at o1 o2
    refine ⟨out, by rw [hcons v vs hwf]; exact o1, ?_⟩
    intro hsz junk' fuel' hf'
    obtain ⟨views, v1, v2, v3⟩ := o2 hsz junk' fuel' hf'
    refine ⟨views, v1, ?_⟩
    have := r4 views v3
    rw [List.map_map] at this
    rw [← d3]
    simpa [Function.comp_def] using this

end Verif
