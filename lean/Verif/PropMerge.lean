import Verif.Merge
import Verif.SampleFile

/-
C32 for files written by `encode`; concrete cases; what is lost.
-/

namespace Verif

/-- `c'` holds the values of `c` as a frame gives them back: REAL values rounded to single precision. -/
def AsRead (c c' : InCol) : Prop :=
  c'.name = c.name ∧
    match c.vals, c'.vals with
    | .ints vs, .ints vs' => vs' = vs
    | .bits ms vs, .bits ms' vs' => ms' = ms ∧ vs' = vs
    | .doubles vs, .doubles vs' => vs' = vs
    | .reals vs, .reals vs' => Match (RealOut realMDI vs) vs vs'
    | .strings w vs, .strings w' vs' => vs' = vs ∧ 1 ≤ w' ∧ w' ≤ w ∧ ∀ s ∈ vs, s.length ≤ 8 * w'
    | _, _ => False

theorem exists_pos {α β : Type} (l : List α) (R : Nat → α → β → Prop) (h : ∀ (p : Nat) (a : α), l[p]? = some a → ∃ b, R p a b) :
    ∃ bs : List β, bs.length = l.length ∧ ∀ (p : Nat) (a : α) (b : β), l[p]? = some a → bs[p]? = some b → R p a b := by
  induction l generalizing R with
  | nil => exact ⟨[], rfl, by simp⟩
  | cons a l ih =>
    obtain ⟨b, hb⟩ := h 0 a rfl
    obtain ⟨bs, h1, h2⟩ := ih (fun p => R (p + 1)) (fun p a ha => h (p + 1) a (by simpa using ha))
    refine ⟨b :: bs, by simp [h1], ?_⟩
    intro p x y hx hy
    cases p with
    | zero => simp at hx hy; subst hx; subst hy; exact hb
    | succ p => exact h2 p x y (by simpa using hx) (by simpa using hy)

theorem wordsOf_len (n : Nat) (s : List Byte) : (wordsOf n s).length = n := by
  induction n generalizing s with
  | zero => rfl
  | succ n ih => simp [wordsOf, ih]

/-- One column of a frame, as read. -/
theorem col_asRead (env : Env) (T : UTable) (F : RFrame) (hl : F.rows.length = T.rows) (hpos : 0 < T.rows)
    (h : ∀ (r : Nat) (row : List Cell) (b : Bool), F.rows[r]? = some row → RowOf env T r ⟨F.cols, row, b⟩)
    (p : Nat) (c : InCol) (hc : T.cols[p]? = some c) (hrows : c.vals.rows = T.rows) :
    ∃ c', AsRead c c' ∧ c'.vals.rows = T.rows ∧ (F.cols[p]?.map Col.key = some c'.key) ∧
      ∀ (r : Nat) (row : List Cell), F.rows[r]? = some row → row[p]? = some ((c'.vals.cells env).getD r []) := by
  have h0 : F.rows[0]? = some (F.rows[0]'(by omega)) := List.getElem?_eq_getElem _
  obtain ⟨k, y0, a1, a2, a3, a4, a5⟩ := (h 0 _ true h0).col p c hc
  obtain ⟨s1, s2, s3, s4, s5⟩ := (h 0 _ true h0).shape p c k y0 hc a1 a4
  dsimp only at a1 a4
  -- the value in each row
  have hrow : ∀ (r : Nat) (row : List Cell), F.rows[r]? = some row → ∃ y, row[p]? = some y ∧ c.vals.Gives env r y ∧ y.length = k.codec.width := by
    intro r row hr
    obtain ⟨k', y, b1, _, _, b4, b5⟩ := (h r row true hr).col p c hc
    dsimp only at b1 b4
    rw [a1] at b1
    simp only [Option.some.injEq] at b1
    subst b1
    exact ⟨y, b4, b5, ((h r row true hr).shape p c k y hc a1 b4).1⟩
  have key : ∀ c' : InCol, c'.name = c.name → c'.vals.ty = c.vals.ty → c'.vals.members = c.vals.members → c'.vals.words = k.codec.width →
      F.cols[p]?.map Col.key = some c'.key := by
    intro c' e1 e2 e3 e4
    rw [a1]
    simp only [Option.map_some, Option.some.injEq, Col.key, InCol.key, a2, a3, s2, s3, e1, e2, e3, e4]
  obtain ⟨nm, v⟩ := c
  cases v with
  | ints vs =>
    refine ⟨⟨nm, .ints vs⟩, ⟨rfl, rfl⟩, hrows, key _ rfl rfl rfl ?_, ?_⟩
    · obtain ⟨y, _, ⟨i, _, rfl⟩, e⟩ := hrow 0 _ h0
      exact e
    · intro r row hr
      obtain ⟨y, e1, ⟨i, e2, rfl⟩, _⟩ := hrow r row hr
      rw [e1]
      simp [Vals.cells, List.getD_eq_getElem?_getD, e2]
  | bits ms vs =>
    refine ⟨⟨nm, .bits ms vs⟩, ⟨rfl, rfl, rfl⟩, hrows, key _ rfl rfl rfl ?_, ?_⟩
    · obtain ⟨y, _, ⟨i, _, rfl⟩, e⟩ := hrow 0 _ h0
      exact e
    · intro r row hr
      obtain ⟨y, e1, ⟨i, e2, rfl⟩, _⟩ := hrow r row hr
      rw [e1]
      simp [Vals.cells, List.getD_eq_getElem?_getD, e2]
  | doubles vs =>
    refine ⟨⟨nm, .doubles vs⟩, ⟨rfl, rfl⟩, hrows, key _ rfl rfl rfl ?_, ?_⟩
    · obtain ⟨y, _, ⟨i, _, rfl⟩, e⟩ := hrow 0 _ h0
      exact e
    · intro r row hr
      obtain ⟨y, e1, ⟨i, e2, rfl⟩, _⟩ := hrow r row hr
      rw [e1]
      simp [Vals.cells, List.getD_eq_getElem?_getD, e2]
  | strings w vs =>
    refine ⟨⟨nm, .strings k.codec.width vs⟩, ⟨rfl, rfl, s4, s5, ?_⟩, hrows, key _ rfl rfl rfl rfl, ?_⟩
    · intro s hs
      obtain ⟨r, hr⟩ := List.mem_iff_getElem?.mp hs
      have hrl : r < F.rows.length := by
        rw [hl, ← hrows]; exact (List.getElem?_eq_some_iff.mp hr).1
      obtain ⟨y, _, ⟨i, w', e2, e4, rfl⟩, e3⟩ := hrow r _ (List.getElem?_eq_getElem hrl)
      rw [wordsOf_len] at e3
      rw [hr] at e2
      simp only [Option.some.injEq] at e2
      subst e2; subst e3
      exact e4
    intro r row hr
    obtain ⟨y, e1, ⟨i, w', e2, _, rfl⟩, e3⟩ := hrow r row hr
    rw [wordsOf_len] at e3
    subst e3
    rw [e1]
    simp [Vals.cells, List.getD_eq_getElem?_getD, e2]
  | reals vs =>
    refine ⟨⟨nm, .reals (F.rows.map (fun row => (row.getD p []).headD 0))⟩, ⟨rfl, ?_⟩, by simp [Vals.rows, hl], key _ rfl rfl rfl ?_, ?_⟩
    · have hvl : vs.length = T.rows := hrows
      apply Match.of_get
      · simp [hl, hvl]
      · intro r x x' hx hx'
        rw [List.getElem?_map] at hx'
        cases hr : F.rows[r]? with
        | none => rw [hr] at hx'; simp at hx'
        | some row =>
          rw [hr] at hx'
          obtain ⟨y, e1, ⟨z, z', e2, rfl, e3⟩, _⟩ := hrow r row hr
          simp only [Option.map_some, Option.some.injEq, List.getD_eq_getElem?_getD, e1, Option.getD_some, List.headD_cons] at hx'
          rw [hx] at e2
          simp only [Option.some.injEq] at e2
          subst e2; subst hx'
          exact e3
    · obtain ⟨y, _, ⟨x, x', _, rfl, _⟩, e⟩ := hrow 0 _ h0
      exact e
    · intro r row hr
      obtain ⟨y, e1, ⟨z, z', e2, rfl, _⟩, _⟩ := hrow r row hr
      rw [e1]
      simp [Vals.cells, List.getD_eq_getElem?_getD, hr, e1]

/-- The frame of a table written by `encode`, as it is read: the table with its REAL values rounded and its string columns as
narrow as their strings allow. -/
theorem encode_reads1 (env : Env) (hmd5 : env.Md5Ok) (T : UTable) (hT : T.Ok env) (hv : ∀ c ∈ T.cols, c.vals.Ok env)
    (hpos : 0 < T.rows) :
    ∃ (F : RFrame) (T' : UTable), T.encode env .same = .ok F.bytes ∧ (F.bytes.length ≤ 2147483647 → F.Ok env) ∧ T'.rows = T.rows ∧
      T'.props = [] ∧ Match AsRead T.cols T'.cols ∧ (∀ c ∈ T'.cols, c.vals.rows = T.rows) ∧ F.rows.length = T.rows ∧
      F.cols.map Col.key = T'.cols.map InCol.key ∧
      (∀ (r : Nat) (row : List Cell), F.rows[r]? = some row → row = rowAt (T'.cols.map (InCol.data env)) r) ∧ CodecsSent env T.cols F.cols := by
  obtain ⟨F, f1, f2, f3, f4, f5⟩ := encode_rframe env hmd5 .same T hT hv hpos
  obtain ⟨cs, h1, h2⟩ := exists_pos T.cols (fun p c c' => AsRead c c' ∧ c'.vals.rows = T.rows ∧ (F.cols[p]?.map Col.key = some c'.key) ∧
      ∀ (r : Nat) (row : List Cell), F.rows[r]? = some row → row[p]? = some ((c'.vals.cells env).getD r []))
    (fun p c hc => col_asRead env T F f3 hpos f4 p c hc (hT.col c (List.mem_of_getElem? hc)).2.2)
  refine ⟨F, ⟨cs, T.rows, []⟩, f1, f2, rfl, rfl, Match.of_get _ _ h1.symm (fun p c c' hc hc' => (h2 p c c' hc hc').1), ?_, f3, ?_, ?_, f5⟩
  · intro c hc
    obtain ⟨p, hp⟩ := List.mem_iff_getElem?.mp hc
    have hlt := (List.getElem?_eq_some_iff.mp hp).1
    exact (h2 p _ c (List.getElem?_eq_getElem (by dsimp only at hlt; omega)) hp).2.1
  · have hnc := (f4 0 _ true (List.getElem?_eq_getElem (by omega))).ncols
    dsimp only at hnc ⊢
    apply List.ext_getElem?
    intro p
    by_cases hp : p < T.cols.length
    · have := (h2 p T.cols[p] (cs[p]'(by omega)) (List.getElem?_eq_getElem hp) (List.getElem?_eq_getElem (by omega))).2.2.1
      rw [List.getElem?_map, List.getElem?_map, this, List.getElem?_eq_getElem (by omega : p < cs.length)]
      rfl
    · rw [List.getElem?_eq_none (by simp; omega), List.getElem?_eq_none (by simp; omega)]
  · intro r row hrow
    have hnl := (f4 r row true hrow).ncells
    dsimp only at hnl ⊢
    apply List.ext_getElem?
    intro p
    by_cases hp : p < T.cols.length
    · have := (h2 p T.cols[p] (cs[p]'(by omega)) (List.getElem?_eq_getElem hp) (List.getElem?_eq_getElem (by omega))).2.2.2 r row hrow
      rw [this]
      simp [rowAt, List.getElem?_eq_getElem (by omega : p < cs.length), InCol.data]
    · rw [List.getElem?_eq_none (by omega), List.getElem?_eq_none (by simp [rowAt]; omega)]

/-- A file of one table written by `encode` is read as that table, its REAL values rounded. -/
theorem encode_readsAs (env : Env) (hmd5 : env.Md5Ok) (T : UTable) (hT : T.Ok env) (hv : ∀ c ∈ T.cols, c.vals.Ok env)
    (hpos : 0 < T.rows) :
    ∃ bytes T', T.encode env .same = .ok bytes ∧ T'.rows = T.rows ∧ Match AsRead T.cols T'.cols ∧
      (bytes.length ≤ 2147483647 → ReadsAs env bytes T') := by
  obtain ⟨F, T', f1, f2, f3, _, f5, _, f7, f8, f9, _⟩ := encode_reads1 env hmd5 T hT hv hpos
  refine ⟨F.bytes, T', f1, f3, f5, ?_⟩
  intro hsz junk fuel hf
  refine ⟨fileViews [F], ?_, ?_, ?_⟩
  · have := readRows_file env junk [F] (by intro G hG; simp at hG; subst hG; exact f2 hsz) fuel (by simp [rowCount, f7, ← f3]; exact hf)
    simpa using this
  · simp [fileViews, tableViews_length, f7, f3]
  · intro r v hvw
    simp only [fileViews, List.flatMap_nil, List.append_nil] at hvw
    rw [tableViews_get, Option.map_eq_some_iff] at hvw
    obtain ⟨row, hrow, rfl⟩ := hvw
    exact ⟨f8, f9 r row hrow⟩

/-! ### Concrete cases -/

/-- Sample: tables written and merged. -/
def tryMerge (env : Env) (cap : Nat) (Ts : List UTable) : Except Err (List (List Byte)) :=
  match writeTables env Ts with
  | .error e => .error e
  | .ok bss => mergeFiles env cap (bss.map (fun b => (fun _ _ _ => 0, b))) 100

/-- Sample: a table. -/
def leftTable : UTable :=
  { rows := 3, props := [(lit "k", lit "v")], cols := [⟨lit "a@t", .ints [1, 2, 3]⟩, ⟨lit "s@t", .strings 2 [lit "abcdefgh", [], lit "xy"]⟩] }

/-- Sample: a table with a bitfield. -/
def rightTable : UTable :=
  { rows := 2, props := [], cols := [⟨lit "b@t", .doubles [0x3ff8000000000000, 0x3fb999999999999a]⟩, ⟨lit "a", .bits [(lit "m", 3)] [5, 6]⟩] }

theorem merge_sample : rowsSeen sampleEnv (tryMerge sampleEnv 10 [leftTable, { rightTable with cols := rightTable.cols.take 1 }]) 10 =
    some ([[[intWord false 1], wordsOf 1 (lit "abcdefgh"), [0x3ff8000000000000]], [[intWord false 2], [0], [0x3fb999999999999a]]], true) := by
  decide +kernel

/-- "a" stands for the column "a@t" of the first file. -/
example : (match tryMerge sampleEnv 10 [leftTable, rightTable] with | .ok _ => false | .error e => decide (e = .userError)) = true := by
  decide +kernel

/-- The other way round the two names are told apart. -/
example : (match tryMerge sampleEnv 10 [rightTable, leftTable] with | .ok _ => true | .error _ => false) = true := by decide +kernel

/-- **C32**, violated: of a string of 12 bytes 8 arrive. -/
theorem C32_violated_strings :
    rowsSeen sampleEnv (tryMerge sampleEnv 10 [oneCol 2 (.strings 2 [lit "abcdefghijkl", lit "xy"]),
      ⟨[⟨lit "d", .ints [7, 8]⟩], 2, []⟩]) 10 =
    some ([[wordsOf 1 (lit "abcdefgh"), [intWord false 7]], [wordsOf 1 (lit "xy"), [intWord false 8]]], true) := by decide +kernel

/-- The third row of the first file has no counterpart and does not arrive; no error is reported. -/
example :
    rowsSeen sampleEnv (tryMerge sampleEnv 10 [oneCol 3 (.ints [1, 2, 3]), ⟨[⟨lit "d", .ints [7, 8]⟩], 2, []⟩]) 10 =
    some ([[[intWord false 1], [intWord false 7]], [[intWord false 2], [intWord false 8]]], true) := by decide +kernel

/-! The hypotheses of `C32_merge` are met by two files of `encode`, one with integers and one with doubles. -/

/-- Sample: a table of integers. -/
def intsTable : UTable := { rows := 3, props := [], cols := [⟨lit "a@t", .ints [1, 2, 3]⟩] }

/-- Sample: a table with an infinite value. -/
def dblsTable : UTable := { rows := 3, props := [], cols := [⟨lit "b@t", .doubles [0x3ff0000000000000, 0x4000000000000000, 0x7ff0000000000000]⟩] }

theorem intsTable_vals : ∀ c ∈ intsTable.cols, c.vals.Ok sampleEnv := by
  intro c hc
  simp only [intsTable, List.mem_singleton] at hc
  subst hc
  exact ball (P := InI32) (by decide +kernel)

theorem dblsTable_vals : ∀ c ∈ dblsTable.cols, c.vals.Ok sampleEnv := by
  intro c hc
  simp only [dblsTable, List.mem_singleton] at hc
  subst hc
  exact sampleDoubles_ok

theorem intsTable_ok : intsTable.Ok sampleEnv where
  ne := by decide
  few := by decide
  names := by decide +kernel
  col := by
    intro c hc
    refine ⟨?_, (intsTable_vals c hc).codable, ?_⟩ <;>
    · simp only [intsTable, List.mem_singleton] at hc
      subst hc
      decide +kernel
  props := List.Pairwise.nil
  nprops := by decide
  plen := by simp [intsTable]
  version := by decide +kernel
  rows := by decide

theorem dblsTable_ok : dblsTable.Ok sampleEnv where
  ne := by decide
  few := by decide
  names := by decide +kernel
  col := by
    intro c hc
    refine ⟨?_, (dblsTable_vals c hc).codable, ?_⟩ <;>
    · simp only [dblsTable, List.mem_singleton] at hc
      subst hc
      decide +kernel
  props := List.Pairwise.nil
  nprops := by decide
  plen := by simp [dblsTable]
  version := by decide +kernel
  rows := by decide

theorem asRead_self {c c' : InCol} (h : AsRead c c') (h1 : c.vals.ty ≠ .real) (h2 : c.vals.ty ≠ .string) : c' = c := by
  obtain ⟨nm, v⟩ := c
  obtain ⟨nm', v'⟩ := c'
  obtain ⟨rfl, h⟩ := h
  cases v <;> cases v' <;> simp_all [Vals.ty]

/-- Without strings and REAL columns, a table of `encode` is read as it is. -/
theorem encode_readsAs_self (env : Env) (hmd5 : env.Md5Ok) (T : UTable) (hT : T.Ok env) (hv : ∀ c ∈ T.cols, c.vals.Ok env)
    (hpos : 0 < T.rows) (hty : ∀ c ∈ T.cols, c.vals.ty ≠ .real ∧ c.vals.ty ≠ .string) {bytes : List Byte}
    (he : T.encode env .same = .ok bytes) (hsz : bytes.length ≤ 2147483647) : ReadsAs env bytes T := by
  obtain ⟨bs, T', h1, h2, h3, h4⟩ := encode_readsAs env hmd5 T hT hv hpos
  rw [he] at h1
  simp only [Except.ok.injEq] at h1
  subst h1
  have hc : T'.cols = T.cols := by
    clear h4
    generalize T'.cols = cs at h3
    generalize hT' : T.cols = ts at h3
    rw [hT'] at hty
    clear hT'
    induction h3 with
    | nil => rfl
    | @cons c c' _ _ h _ ih => rw [asRead_self h (hty c (by simp)).1 (hty c (by simp)).2, ih (fun c hc => hty c (by simp [hc]))]
  have := h4 hsz
  unfold ReadsAs at this ⊢
  rw [hc, h2] at this
  exact this

theorem merge_case : (joined [intsTable, dblsTable] 3).RowsOk sampleEnv 10 where
  few := by decide
  names := by decide +kernel
  named := by
    intro c hc
    simp only [joined, intsTable, dblsTable, List.flatMap_cons, List.flatMap_nil, List.map_cons, List.map_nil, List.append_nil, List.singleton_append,
      List.mem_cons, List.not_mem_nil, or_false] at hc
    rcases hc with rfl | rfl <;> decide +kernel
  rows := by
    intro c hc
    simp only [joined, intsTable, dblsTable, List.flatMap_cons, List.flatMap_nil, List.map_cons, List.map_nil, List.append_nil, List.singleton_append,
      List.mem_cons, List.not_mem_nil, or_false] at hc
    rcases hc with rfl | rfl <;> rfl
  lens := by
    intro c hc
    simp only [joined, intsTable, dblsTable, List.flatMap_cons, List.flatMap_nil, List.map_cons, List.map_nil, List.append_nil, List.singleton_append,
      List.mem_cons, List.not_mem_nil, or_false] at hc
    rcases hc with rfl | rfl <;> exact ⟨by decide +kernel, by decide +kernel, by simp [Vals.part, Vals.members]⟩
  props := List.Pairwise.nil
  nprops := by decide
  plen := by simp [joined]
  big := by decide
  vals := by
    intro k hk c hc
    have hk0 : k = 0 := by
      have : k * 10 < 3 := hk
      omega
    subst hk0
    simp only [joined, intsTable, dblsTable, List.flatMap_cons, List.flatMap_nil, List.map_cons, List.map_nil, List.append_nil, List.singleton_append,
      List.mem_cons, List.not_mem_nil, or_false] at hc
    rcases hc with rfl | rfl
    · exact ball (P := InI32) (by decide +kernel)
    · exact sampleDoubles_ok

example : ∃ a b out, intsTable.encode sampleEnv .same = .ok a ∧ dblsTable.encode sampleEnv .same = .ok b ∧
    (a.length ≤ 2147483647 → b.length ≤ 2147483647 → ∀ j1 j2 : Junk, mergeFiles sampleEnv 10 [(j1, a), (j2, b)] 4 = .ok out) := by
  obtain ⟨a, _, ha, _⟩ := encode_readsAs sampleEnv sampleEnv_md5 intsTable intsTable_ok intsTable_vals (by decide)
  obtain ⟨b, _, hb, _⟩ := encode_readsAs sampleEnv sampleEnv_md5 dblsTable dblsTable_ok dblsTable_vals (by decide)
  have key : a.length ≤ 2147483647 → b.length ≤ 2147483647 → ∀ j1 j2 : Junk, ∃ out, (joined [intsTable, dblsTable] 3).write sampleEnv .same 10 = .ok out ∧
      mergeFiles sampleEnv 10 [(j1, a), (j2, b)] 4 = .ok out := by
    intro ha' hb' j1 j2
    obtain ⟨out, o1, _, o2, _⟩ := C32_merge sampleEnv sampleEnv_md5 10 (by decide) [(j1, a), (j2, b)] [intsTable, dblsTable]
      (.cons (encode_readsAs_self _ sampleEnv_md5 _ intsTable_ok intsTable_vals (by decide) (by
          intro c hc; simp only [intsTable, List.mem_singleton] at hc; subst hc; simp [Vals.ty]) ha ha')
        (.cons (encode_readsAs_self _ sampleEnv_md5 _ dblsTable_ok dblsTable_vals (by decide) (by
          intro c hc; simp only [dblsTable, List.mem_singleton] at hc; subst hc; simp [Vals.ty]) hb hb') .nil))
      (by intro T hT; simp at hT; rcases hT with rfl | rfl <;> decide)
      (by
        intro T hT c hc
        simp only [List.mem_cons, List.not_mem_nil, or_false] at hT
        rcases hT with rfl | rfl
        · simp only [intsTable, List.mem_singleton] at hc; subst hc; trivial
        · simp only [dblsTable, List.mem_singleton] at hc; subst hc; trivial)
      (by
        simp only [NoClash, intsTable, dblsTable, List.mem_singleton, forall_eq, List.not_mem_nil, false_implies, implies_true, and_true]
        rw [← columnNameMatches_iff]
        decide +kernel)
      3 (by intro T hT; simp at hT; rcases hT with rfl | rfl <;> decide) ⟨intsTable, by simp, rfl⟩ merge_case 4 (by decide)
    exact ⟨out, o1, o2⟩
  by_cases h : a.length ≤ 2147483647 ∧ b.length ≤ 2147483647
  · obtain ⟨out, e1, _⟩ := key h.1 h.2 (fun _ _ _ => 0) (fun _ _ _ => 0)
    refine ⟨a, b, out, ha, hb, ?_⟩
    intro h1 h2 j1 j2
    obtain ⟨out', g1, g2⟩ := key h1 h2 j1 j2
    rw [e1] at g1
    simp only [Except.ok.injEq] at g1
    rw [g1, g2]
  · exact ⟨a, b, [], ha, hb, fun h1 h2 => absurd ⟨h1, h2⟩ h⟩

end Verif
