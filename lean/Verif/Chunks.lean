import Verif.HeaderSer

/-
`api::encode` with a limit on the number of rows per frame.

Models: src/odc/api/Odb.cc l.660-687, src/odc/api/StridedData.h l.72-80.
-/

namespace Verif

/-- `StridedDataT::slice`, StridedData.h l.77-80: the row offset is converted to `int` for the address
computation (StridedData.h l.106), so larger offsets are outside the array. -/
def ColData.slice (start n : Nat) (d : ColData) : Except Err ColData :=
  if d.cells.length < (start + n) % 18446744073709551616 then .error .assertFailed
  else if 2147483647 < start ∨ d.cells.length < start + n then .error .ub
  else .ok ⟨d.elem, (d.cells.drop start).take n⟩

/-- The loop over the columns, Odb.cc l.679-681. -/
def sliceData (start n : Nat) : List ColData → Except Err (List ColData)
  | [] => .ok []
  | d :: ds =>
    match d.slice start n with
    | .error e => .error e
    | .ok d' =>
      match sliceData start n ds with
      | .error e => .error e
      | .ok ds' => .ok (d' :: ds')

/-- The loop over the frames, Odb.cc l.676-685: the frames written, one after the other; at most `fuel`
iterations. -/
def encodeLoop (env : Env) (cols : List ColumnInfo) (data : List ColData) (props : StrMap) (nrows limit : Nat) :
    Nat → Nat → Except Err (List (List Byte))
  | fuel, start =>
    if start < nrows then
      match fuel with
      | 0 => .error .diverges
      | fuel + 1 =>
        match sliceData start (min (nrows - start) limit) data with
        | .error e => .error e
        | .ok sl =>
          match encodeFrame env .same cols sl props with
          | .error e => .error e
          | .ok b =>
            match encodeLoop env cols data props nrows limit fuel (start + min (nrows - start) limit) with
            | .error e => .error e
            | .ok bs => .ok (b :: bs)
    else .ok []

/-- `api::encode`, Odb.cc l.660-687. -/
def apiEncode (env : Env) (cols : List ColumnInfo) (data : List ColData) (props : StrMap) (limit fuel : Nat) :
    Except Err (List (List Byte)) :=
  if cols.length ≠ data.length then .error .assertFailed
  else
    match data.head? with
    | none => .error .assertFailed
    | some d0 =>
      if ¬ (∀ d ∈ data, d.cells.length = d0.cells.length) then .error .assertFailed
      else if d0.cells.length ≤ limit then
        match encodeFrame env .same cols data props with
        | .error e => .error e
        | .ok b => .ok [b]
      else encodeLoop env cols data props d0.cells.length limit fuel 0

/-- `encode` on a table. [api/Odb.cc l.660-687] -/
def UTable.encodeLimit (env : Env) (T : UTable) (limit fuel : Nat) : Except Err (List (List Byte)) :=
  apiEncode env (T.cols.map InCol.info) (T.cols.map (InCol.data env)) T.props limit fuel

/-! ### Specification: part of a table -/

/-- Rows `start` to `start + n` of a column. -/
def Vals.part (start n : Nat) : Vals → Vals
  | .ints vs => .ints ((vs.drop start).take n)
  | .bits ms vs => .bits ms ((vs.drop start).take n)
  | .reals vs => .reals ((vs.drop start).take n)
  | .doubles vs => .doubles ((vs.drop start).take n)
  | .strings w vs => .strings w ((vs.drop start).take n)

/-- Rows `start` to `start + n` of a table. -/
def UTable.part (T : UTable) (start n : Nat) : UTable :=
  { cols := T.cols.map (fun c => ⟨c.name, c.vals.part start n⟩), rows := n, props := T.props }

/-- Number of frames needed for `n` rows, at most `limit` in each. -/
def frameCount (n limit : Nat) : Nat := if n ≤ limit then 1 else (n + limit - 1) / limit

/-! ### Proofs -/

theorem Vals.part_cells (env : Env) (s n : Nat) (v : Vals) :
    (v.part s n).cells env = ((v.cells env).drop s).take n := by
  cases v <;> simp [Vals.part, Vals.cells, List.map_take, List.map_drop]

theorem Vals.part_words (s n : Nat) (v : Vals) : (v.part s n).words = v.words := by cases v <;> rfl
theorem Vals.part_ty (s n : Nat) (v : Vals) : (v.part s n).ty = v.ty := by cases v <;> rfl
theorem Vals.part_members (s n : Nat) (v : Vals) : (v.part s n).members = v.members := by cases v <;> rfl

theorem Vals.cells_length (env : Env) (v : Vals) : (v.cells env).length = v.rows := by
  cases v <;> simp [Vals.cells, Vals.rows]

theorem UTable.part_infos (T : UTable) (s n : Nat) : (T.part s n).cols.map InCol.info = T.cols.map InCol.info := by
  simp only [UTable.part, List.map_map]
  apply List.map_congr_left
  intro c _
  simp [InCol.info, Vals.part_words, Vals.part_ty, Vals.part_members]

theorem sliceData_part (env : Env) (cols : List InCol) (s n rows : Nat) (hc : ∀ c ∈ cols, c.vals.rows = rows)
    (hs : s + n ≤ rows) (hbig : rows ≤ 2147483647) :
    sliceData s n (cols.map (InCol.data env)) = .ok ((cols.map (fun c => (⟨c.name, c.vals.part s n⟩ : InCol))).map (InCol.data env)) := by
  induction cols with
  | nil => rfl
  | cons c cs ih =>
    simp only [List.map_cons, sliceData, ColData.slice, InCol.data, Vals.cells_length, hc c (by simp)]
    rw [Nat.mod_eq_of_lt (by omega), if_neg (by omega), if_neg (by omega)]
    have := ih (fun c hc' => hc c (by simp [hc']))
    rw [this]
    simp only [Vals.part_cells, Vals.part_words]

theorem encodeLoop_parts (env : Env) (T : UTable) (limit : Nat) (hl : 0 < limit) (hc : ∀ c ∈ T.cols, c.vals.rows = T.rows)
    (hbig : T.rows ≤ 2147483647) (fuel start : Nat) (hf : T.rows - start ≤ fuel) :
    ∃ Cs : List UTable, encodeLoop env (T.cols.map InCol.info) (T.cols.map (InCol.data env)) T.props T.rows limit fuel start =
        writeTables env Cs ∧ Cs.length = (T.rows - start + limit - 1) / limit ∧
      ∀ (i : Nat) (C : UTable), Cs[i]? = some C →
        start + i * limit < T.rows ∧ C = T.part (start + i * limit) (min (T.rows - (start + i * limit)) limit) := by
  induction fuel generalizing start with
  | zero =>
    unfold encodeLoop
    rw [if_neg (by omega)]
    refine ⟨[], rfl, ?_, by simp⟩
    have : T.rows - start = 0 := by omega
    rw [this, Nat.zero_add, Nat.div_eq_of_lt (by omega)]; rfl
  | succ fuel ih =>
    unfold encodeLoop
    by_cases h : start < T.rows
    · rw [if_pos h]
      dsimp only
      rw [sliceData_part env T.cols start (min (T.rows - start) limit) T.rows hc (by omega) hbig]
      dsimp only
      obtain ⟨Cs, h1, h2, h3⟩ := ih (start + min (T.rows - start) limit) (by omega)
      refine ⟨T.part start (min (T.rows - start) limit) :: Cs, ?_, ?_, ?_⟩
      · simp only [writeTables, UTable.encode, UTable.part_infos, h1]
        rfl
      · rw [List.length_cons, h2]
        by_cases hle : T.rows - start ≤ limit
        · rw [Nat.min_eq_left hle, show T.rows - (start + (T.rows - start)) = 0 by omega, Nat.zero_add,
            Nat.div_eq_of_lt (by omega : limit - 1 < limit)]
          have h1 : (T.rows - start + limit - 1) / limit = 1 := by
            apply Nat.div_eq_of_lt_le <;> omega
          omega
        · rw [Nat.min_eq_right (by omega)]
          have : T.rows - start + limit - 1 = (T.rows - (start + limit) + limit - 1) + limit := by omega
          rw [this, Nat.add_div_right _ hl]
      · intro i C hi
        cases i with
        | zero => simp at hi; subst hi; simpa using h
        | succ i =>
          obtain ⟨a, b⟩ := h3 i C (by simpa using hi)
          by_cases hle : T.rows - start ≤ limit
          · rw [Nat.min_eq_left hle] at a; omega
          · rw [Nat.min_eq_right (by omega)] at a b
            have e : start + limit + i * limit = start + (i + 1) * limit := by rw [Nat.succ_mul]; omega
            rw [e] at a b
            exact ⟨a, b⟩
    · rw [if_neg h]
      refine ⟨[], rfl, ?_, by simp⟩
      have : T.rows - start = 0 := by omega
      rw [this, Nat.zero_add, Nat.div_eq_of_lt (by omega)]; rfl

/-- Encoding a table with a limit is encoding its parts. -/
theorem encodeLimit_parts (env : Env) (T : UTable) (limit fuel : Nat) (hl : 0 < limit) (hne : T.cols ≠ [])
    (hc : ∀ c ∈ T.cols, c.vals.rows = T.rows) (hbig : T.rows ≤ 2147483647) (hf : T.rows ≤ fuel) :
    ∃ Cs : List UTable, T.encodeLimit env limit fuel = writeTables env Cs ∧ Cs.length = frameCount T.rows limit ∧
      ∀ (i : Nat) (C : UTable), Cs[i]? = some C →
        (0 < T.rows → i * limit < T.rows) ∧
          ((T.rows ≤ limit ∧ i = 0 ∧ C = T) ∨ (limit < T.rows ∧ C = T.part (i * limit) (min (T.rows - i * limit) limit))) := by
  unfold UTable.encodeLimit apiEncode
  rw [if_neg (by simp)]
  cases hcols : T.cols with
  | nil => exact absurd hcols hne
  | cons c cs =>
    have hrows : (c.data env).cells.length = T.rows := by
      simp only [InCol.data, Vals.cells_length]; exact hc c (by simp [hcols])
    have hall : ∀ d ∈ (c :: cs).map (InCol.data env), d.cells.length = (c.data env).cells.length := by
      intro d hd
      simp only [List.mem_map] at hd
      obtain ⟨c', hc', rfl⟩ := hd
      rw [hrows]; simp only [InCol.data, Vals.cells_length]; exact hc c' (by rw [hcols]; exact hc')
    simp only [List.map_cons, List.head?_cons]
    rw [List.map_cons] at hall
    rw [if_neg (not_not_intro hall), hrows]
    unfold frameCount
    by_cases h : T.rows ≤ limit
    · rw [if_pos h, if_pos h]
      refine ⟨[T], ?_, rfl, ?_⟩
      · simp only [writeTables, UTable.encode, hcols, List.map_cons]
        generalize encodeFrame env Order.same (c.info :: List.map InCol.info cs)
          (InCol.data env c :: List.map (InCol.data env) cs) T.props = x
        cases x <;> rfl
      · intro i C hi
        cases i with
        | zero => simp at hi; subst hi; exact ⟨by omega, Or.inl ⟨h, rfl, rfl⟩⟩
        | succ i => simp at hi
    · rw [if_neg h, if_neg h]
      obtain ⟨Cs, h1, h2, h3⟩ := encodeLoop_parts env T limit hl hc hbig fuel 0 (by omega)
      rw [hcols] at h1
      refine ⟨Cs, by simpa using h1, by simpa using h2, ?_⟩
      intro i C hi
      obtain ⟨a, b⟩ := h3 i C hi
      simp only [Nat.zero_add] at a b
      exact ⟨fun _ => a, Or.inr ⟨by omega, b⟩⟩

/-- The frame a row of the table is in, and where. -/
theorem row_place (n limit : Nat) (hl : 0 < limit) (r : Nat) (hr : r < n) :
    r / limit < frameCount n limit ∧ r / limit * limit ≤ r ∧ r % limit < min (n - r / limit * limit) limit ∧
      r / limit * limit + r % limit = r := by
  have h1 := Nat.div_add_mod r limit
  have h2 := Nat.mod_lt r hl
  rw [Nat.mul_comm] at h1
  refine ⟨?_, by omega, ?_, h1⟩
  · unfold frameCount
    split
    · rw [Nat.div_eq_of_lt (by omega)]; omega
    · rw [Nat.lt_iff_add_one_le, Nat.le_div_iff_mul_le hl, Nat.succ_mul]; omega
  · omega

/-- **C08**: `encode` with a limit of `limit > 0` rows per frame writes `⌈rows / limit⌉` frames (one for a table
without rows), each with at most `limit` rows and at least one if the table has any; frame `i` holds the rows
from `i * limit` on: each column of it decodes to what these rows of the column give. Each part of the table
must be encodable (`UTable.Ok`). -/
theorem C08_chunks (env : Env) (hmd5 : env.Md5Ok) (T : UTable) (hT : T.Ok env) (limit fuel : Nat) (hl : 0 < limit)
    (hbig : T.rows ≤ 2147483647) (hf : T.rows ≤ fuel)
    (hparts : ∀ i : Nat, i * limit < T.rows → (T.part (i * limit) (min (T.rows - i * limit) limit)).Ok env) :
    ∃ bss, T.encodeLimit env limit fuel = .ok bss ∧ bss.length = frameCount T.rows limit ∧
      ((∀ b ∈ bss, b.length ≤ 2147483647) → ∃ fs, readPlain env bss.flatten = (fs, none) ∧
        fs.length = frameCount T.rows limit ∧
        ∀ (i : Nat) (fr : List Tbl), fs[i]? = some fr →
          (0 < T.rows → 0 < rowSum fr) ∧ rowSum fr ≤ limit ∧ rowSum fr = min (T.rows - i * limit) limit ∧
          ∀ c ∈ T.cols, ∀ tg : Target, tg.Fits (rowSum fr) c.vals.words →
            ∃ w m, 1 ≤ w ∧ w ≤ c.vals.words ∧ decodeCol bss.flatten fr c.name tg = .ok m ∧
              ∀ r, r < rowSum fr → (c.vals.part (i * limit) (rowSum fr)).Back env r ((m r).take w)) := by
  have hc : ∀ c ∈ T.cols, c.vals.rows = T.rows := fun c hc => (hT.col c hc).2.2
  obtain ⟨Cs, h1, h2, h3⟩ := encodeLimit_parts env T limit fuel hl hT.ne hc hbig hf
  have hCs : ∀ C ∈ Cs, C.Ok env := by
    intro C hC
    obtain ⟨i, hi⟩ := List.mem_iff_getElem?.mp hC
    obtain ⟨a, b | ⟨b1, b2⟩⟩ := h3 i C hi
    · rw [b.2.2]; exact hT
    · rw [b2]; exact hparts i (a (by omega))
  obtain ⟨bss, w1, w2, _⟩ := writeTables_ok env hmd5 Cs hCs
  refine ⟨bss, by rw [h1, w1], by rw [w2, h2], ?_⟩
  intro hsz
  obtain ⟨ts, t1, t2⟩ := plain_tables env hmd5 Cs hCs bss w1 hsz
  refine ⟨_, t1, by rw [List.length_map, t2.length, h2], ?_⟩
  intro i fr hfr
  rw [List.getElem?_map] at hfr
  cases ht : ts[i]? with
  | none => rw [ht] at hfr; simp at hfr
  | some t =>
    rw [ht] at hfr
    simp only [Option.map_some, Option.some.injEq] at hfr
    subst hfr
    have hi : i < Cs.length := by rw [← t2.length]; exact (List.getElem?_eq_some_iff.mp ht).1
    have hCi : Cs[i]? = some Cs[i] := List.getElem?_eq_getElem hi
    generalize hC : Cs[i] = C at hCi
    have hh := t2.get i t C ht hCi
    have hrows : rowSum [t] = C.rows := by simp [rowSum, hh.shows.nrows]
    obtain ⟨a, b⟩ := h3 i C hCi
    have hCr : C.rows = min (T.rows - i * limit) limit := by
      rcases b with ⟨b1, b2, b3⟩ | ⟨b1, b2⟩
      · subst b2; rw [b3]; omega
      · rw [b2]; rfl
    rw [hrows]
    refine ⟨fun hp => ?_, by omega, hCr, ?_⟩
    · have := a hp; omega
    · intro c hcm tg htg
      have hcol : ∃ c' ∈ C.cols, c'.name = c.name ∧ c'.vals = c.vals.part (i * limit) C.rows := by
        rcases b with ⟨b1, b2, b3⟩ | ⟨b1, b2⟩
        · subst b2; subst b3
          refine ⟨c, hcm, rfl, ?_⟩
          have := hc c hcm
          rw [← this]
          cases hv : c.vals <;> simp [Vals.part, Vals.rows]
        · have hr := hCr
          rw [b2] at hr ⊢
          exact ⟨⟨c.name, _⟩, List.mem_map.mpr ⟨c, hcm, rfl⟩, rfl, rfl⟩
      obtain ⟨c', hc', hn, hv⟩ := hcol
      obtain ⟨w, m, m1, m2, _, m3, m4, _⟩ := decode_col hh c' hc' tg (by rw [hv, Vals.part_words]; exact htg)
      rw [hn] at m3
      rw [hv] at m4
      rw [hv, Vals.part_words] at m2
      exact ⟨w, m, m1, m2, m3, m4⟩

/-- With a limit of 0 rows per frame and at least one row, `encode` does not end: however long it runs, it has
not finished. -/
theorem C08_violated_zero (env : Env) (T : UTable) (hne : T.cols ≠ []) (hc : ∀ c ∈ T.cols, c.vals.rows = T.rows)
    (hbig : T.rows ≤ 2147483647) (hrows : 0 < T.rows) (henc : ∃ b, (T.part 0 0).encode env .same = .ok b) (fuel : Nat) :
    T.encodeLimit env 0 fuel = .error .diverges := by
  unfold UTable.encodeLimit apiEncode
  rw [if_neg (by simp)]
  cases hcols : T.cols with
  | nil => exact absurd hcols hne
  | cons c cs =>
    have hr : (c.data env).cells.length = T.rows := by
      simp only [InCol.data, Vals.cells_length]; exact hc c (by simp [hcols])
    have hall : ∀ d ∈ (c :: cs).map (InCol.data env), d.cells.length = (c.data env).cells.length := by
      intro d hd
      simp only [List.mem_map] at hd
      obtain ⟨c', hc', rfl⟩ := hd
      rw [hr]; simp only [InCol.data, Vals.cells_length]; exact hc c' (by rw [hcols]; exact hc')
    simp only [List.map_cons, List.head?_cons]
    rw [List.map_cons] at hall
    rw [if_neg (not_not_intro hall), hr, if_neg (by omega)]
    obtain ⟨b, hb⟩ := henc
    induction fuel with
    | zero => unfold encodeLoop; rw [if_pos hrows]
    | succ fuel ih =>
      unfold encodeLoop
      rw [if_pos hrows]
      dsimp only
      have := sliceData_part env T.cols 0 0 T.rows hc (by omega) hbig
      rw [hcols, List.map_cons] at this
      rw [Nat.min_zero, this]
      dsimp only
      have e : encodeFrame env .same (c.info :: cs.map InCol.info)
          (((c :: cs).map (fun c => (⟨c.name, c.vals.part 0 0⟩ : InCol))).map (InCol.data env)) T.props = .ok b := by
        rw [← hb]
        unfold UTable.encode
        rw [UTable.part_infos, hcols, List.map_cons]
        simp only [UTable.part, hcols]
        rfl
      rw [e]
      dsimp only
      rw [ih]

/-- The hypotheses of C08 hold for the sample table in frames of two rows. -/
example : frameCount sampleTable.rows 2 = 2 ∧
    (match sampleTable.encodeLimit sampleEnv 2 3 with
      | .ok bss => decide (bss.length = 2 ∧ (readPlain sampleEnv bss.flatten).1.map rowSum = [2, 1])
      | .error _ => false) = true := by
  constructor <;> decide +kernel

end Verif
