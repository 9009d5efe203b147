import Verif.PropCApi

/-
The C encoder: reading the columns from the user's memory.

Models: src/odc/api/odc.cc l.71-92 (`odc_encoder_t`), l.800-860 (setters), l.884-980 (`fill_in_encoder`), l.982-1009
(`odc_encode_to_data_handle`).  Sizes and addresses are natural numbers; a negative `columnMajorWidth` is not modelled.
-/

namespace Verif

/-- `ColumnInfo` and `EncodeColumn` of one column, odc.cc l.76-79, 82-91. -/
structure EncArg where
  info : ColumnInfo
  data : Option Nat
  stride : Nat

/-- `odc_encoder_t`, odc.cc l.71-91. -/
structure Enc where
  arr : Option Nat
  cmWidth : Nat
  nrows : Nat
  width : Nat
  height : Nat
  limit : Nat
  cols : List EncArg
  props : StrMap

/-- `odc_new_encoder`, odc.cc l.73-74, 781-783. -/
def Enc.new : Enc := ⟨none, 0, 0, 0, 0, 10000, [], []⟩

/-- `odc_encoder_add_column`, odc.cc l.835-841, then `odc_encoder_column_set_data_size`, l.843-850 and
`odc_encoder_column_add_bitfield` (see `addBit`). -/
def Enc.addColumn (e : Enc) (ci : ColumnInfo) : Enc := { e with cols := e.cols ++ [⟨ci, none, 0⟩] }

/-- `odc_encoder_set_row_count`, odc.cc l.796-801. -/
def Enc.setRows (e : Enc) (n : Nat) : Enc := { e with nrows := n }

/-- `odc_encoder_set_rows_per_frame`, odc.cc l.803-808. -/
def Enc.setLimit (e : Enc) (n : Nat) : Enc := { e with limit := n }

/-- `odc_encoder_set_data_array`, odc.cc l.810-833. -/
def Enc.setArray (e : Enc) (data width height cmWidth : Nat) : Except Err Enc :=
  let cols := if e.arr ≠ none then e.cols.map (fun c => { c with data := none, stride := 0 }) else e.cols
  if cmWidth % 8 ≠ 0 then .error .assertFailed
  else .ok { e with cols := cols, arr := some data, width := width, height := height, cmWidth := cmWidth,
                    nrows := if e.nrows = 0 then height else e.nrows }

/-- `odc_encoder_column_set_data_array`, odc.cc l.852-862. -/
def Enc.setColumn (e : Enc) (col size stride data : Nat) : Except Err Enc :=
  match e.cols[col]? with
  | none => .error .assertFailed
  | some c =>
    if size % 8 = 0 ∧ stride % 8 = 0 then
      .ok { e with cols := e.cols.set col { c with info := { c.info with decodedSize := size }, stride := stride, data := some data } }
    else .error .assertFailed

/-- The elements a `ConstStridedData` shows: `words` words each, `stride` bytes apart. [api/StridedData.h l.101-106] -/
def cellsAt (m : Mem) (base stride words nrows : Nat) : List Cell :=
  (List.range nrows).map (fun r => (List.range words).map (fun w => m.word (base + r * stride + 8 * w)))

/-- The transposed copy of a wide column, odc.cc l.932-947: its bytes, indexed from 0; `n` elements of `cw` bytes in each
row, `H` rows. -/
def gather (m : Mem) (src cw n H : Nat) : Mem := fun k => m (src + ((k / cw) / n + (k / cw) % n * H) * cw + k % cw)

/-- The column sizes, odc.cc l.889-893. -/
def sized (ci : ColumnInfo) : ColumnInfo := { ci with decodedSize := if ci.decodedSize = 0 then 8 else ci.decodedSize }

/-- One column of the array, odc.cc l.919-957.  Reading a transposed column beyond the copy is undefined behaviour. -/
def arrayCol (m : Mem) (e : Enc) (base off : Nat) (c : EncArg) : Except Err ColData :=
  if c.info.decodedSize = 0 ∨ c.info.decodedSize % 8 ≠ 0 ∨ c.data ≠ none ∨ c.stride ≠ 0 then .error .assertFailed
  else if e.cmWidth ≠ 0 then
    if c.info.decodedSize ≠ e.cmWidth then
      let n := c.info.decodedSize / e.cmWidth
      if n * e.cmWidth * e.height < e.nrows * c.info.decodedSize then .error .ub
      else .ok ⟨c.info.decodedSize / 8, cellsAt (gather m (base + off) e.cmWidth n e.height) 0 c.info.decodedSize (c.info.decodedSize / 8) e.nrows⟩
    else .ok ⟨c.info.decodedSize / 8, cellsAt m (base + off) c.info.decodedSize (c.info.decodedSize / 8) e.nrows⟩
  else if e.width % 8 ≠ 0 then .error .assertFailed
  else .ok ⟨c.info.decodedSize / 8, cellsAt m (base + off) e.width (c.info.decodedSize / 8) e.nrows⟩

/-- What a column adds to `offset`, odc.cc l.945, 949. -/
def arrayStep (e : Enc) (c : EncArg) : Nat :=
  if e.cmWidth ≠ 0 then c.info.decodedSize * e.height else c.info.decodedSize

/-- The loop over the columns of an array, odc.cc l.918-957. -/
def arrayCols (m : Mem) (e : Enc) (base : Nat) : Nat → List EncArg → Except Err (List ColData)
  | _, [] => .ok []
  | off, c :: cs =>
    match arrayCol m e base off c with
    | .error x => .error x
    | .ok d =>
      match arrayCols m e base (off + arrayStep e c) cs with
      | .error x => .error x
      | .ok ds => .ok (d :: ds)

/-- One column with its own memory, odc.cc l.963-978. -/
def ownCol (m : Mem) (nrows : Nat) (c : EncArg) : Except Err ColData :=
  match c.data with
  | none => .error .assertFailed
  | some p =>
    let stride := if c.stride = 0 then c.info.decodedSize else c.stride
    if c.info.decodedSize = 0 ∨ stride % 8 ≠ 0 ∨ c.info.decodedSize % 8 ≠ 0 then .error .assertFailed
    else .ok ⟨c.info.decodedSize / 8, cellsAt m p stride (c.info.decodedSize / 8) nrows⟩

/-- `odc_encoder_t`, the columns with their own data, api/odc.cc l.960-980. -/
def ownCols (m : Mem) (nrows : Nat) : List EncArg → Except Err (List ColData)
  | [] => .ok []
  | c :: cs =>
    match ownCol m nrows c with
    | .error x => .error x
    | .ok d =>
      match ownCols m nrows cs with
      | .error x => .error x
      | .ok ds => .ok (d :: ds)

/-- `fill_in_encoder`, odc.cc l.883-981: the columns as seen by `encode`. -/
def fillEnc (m : Mem) (e : Enc) : Except Err (List ColData) :=
  let cols := e.cols.map (fun c => { c with info := sized c.info })
  if e.nrows = 0 then .error .assertFailed
  else
    match e.arr with
    | some base =>
      if e.height < e.nrows then .error .seriousBug
      else if e.width < (cols.map (fun c => c.info.decodedSize)).sum then .error .seriousBug
      else arrayCols m e base 0 cols
    | none => ownCols m e.nrows cols

/-- The encoder after `fill_in_encoder` succeeded: every column has a pointer and a stride (the pointers of transposed
columns are those of released memory; only whether they are null matters below). [api/odc.cc l.883-981] -/
def Enc.after (e : Enc) : Enc :=
  { e with cols := e.cols.map (fun c =>
      { c with info := sized c.info,
               data := some (c.data.getD (e.arr.getD 0)),
               stride := if e.arr = none then (if c.stride = 0 then (sized c.info).decodedSize else c.stride)
                 else if e.cmWidth ≠ 0 then (sized c.info).decodedSize else e.width }) }

/-- `odc_encode_to_data_handle`, odc.cc l.983-1008: the frames written. -/
def odcEncode (env : Env) (m : Mem) (e : Enc) (fuel : Nat) : Except Err (List (List Byte)) :=
  if e.nrows = 0 ∨ e.limit = 0 then .error .assertFailed
  else
    match fillEnc m e with
    | .error x => .error x
    | .ok ds =>
      if ds = [] then .error .assertFailed
      else apiEncode env (e.cols.map (fun c => sized c.info)) ds e.props e.limit fuel

/-! ### Specification: memory that holds a table -/

/-- Word `w` of each element, at the address `at_ i r w` of row `r` of column `i`. -/
def HoldsTable (env : Env) (m : Mem) (T : UTable) (at_ : Nat → Nat → Nat → Nat) : Prop :=
  ∀ (i : Nat) (c : InCol) (r w : Nat) (y : Cell) (x : Word), T.cols[i]? = some c → (c.vals.cells env)[r]? = some y → y[w]? = some x →
    m.word (at_ i r w) = x

/-- Bytes of the columns before column `i`. -/
def UTable.before (T : UTable) (i : Nat) : Nat := ((T.cols.map (fun c => 8 * c.vals.words)).take i).sum

/-! ### Proofs -/

theorem gather_word (m : Mem) (src cw n H r w : Nat) (hcw : 0 < cw) (h8 : cw % 8 = 0) (hn : 0 < n) (hw : 8 * w < n * cw) :
    (gather m src cw n H).word (r * (n * cw) + 8 * w) = m.word (src + (r + 8 * w / cw * H) * cw + 8 * w % cw) := by
  unfold Mem.word gather
  congr 1
  apply List.map_congr_left
  intro k hk
  have hk : k < 8 := by simpa using hk
  have h1 : (r * (n * cw) + 8 * w + k) / cw = r * n + 8 * w / cw ∧ (r * (n * cw) + 8 * w + k) % cw = 8 * w % cw + k := by
    have hm : 8 * w % cw + k < cw := by
      -- both are multiples of 8
      obtain ⟨q, hq⟩ := Nat.dvd_of_mod_eq_zero h8
      have : 8 * w % cw = 8 * (w % q) := by rw [hq, Nat.mul_mod_mul_left]
      have hq0 : 0 < q := by
        rcases Nat.eq_zero_or_pos q with h | h
        · subst h; omega
        · exact h
      have := Nat.mod_lt w hq0
      omega
    have he : r * (n * cw) + 8 * w + k = cw * (r * n + 8 * w / cw) + (8 * w % cw + k) := by
      have := Nat.div_add_mod (8 * w) cw
      rw [Nat.mul_add, show cw * (r * n) = r * (n * cw) by rw [Nat.mul_comm, Nat.mul_assoc]]
      omega
    constructor
    · rw [he, Nat.mul_add_div hcw, Nat.div_eq_of_lt hm]; rfl
    · rw [he, Nat.mul_add_mod, Nat.mod_eq_of_lt hm]
  rw [h1.1, h1.2]
  have hx : 8 * w / cw < n := by rw [Nat.div_lt_iff_lt_mul hcw]; exact hw
  rw [show (r * n + 8 * w / cw) / n = r by
    rw [Nat.mul_comm, Nat.mul_add_div hn, Nat.div_eq_of_lt hx]; rfl,
    show (r * n + 8 * w / cw) % n = 8 * w / cw by rw [Nat.mul_comm, Nat.mul_add_mod, Nat.mod_eq_of_lt hx]]
  rw [Nat.add_assoc (src + _)]

/-- The elements shown are those of the column. -/
theorem cellsAt_eq (m : Mem) (base stride words : Nat) (cells : List Cell) (hl : ∀ y ∈ cells, y.length = words)
    (h : ∀ (r w : Nat) (y : Cell) (x : Word), cells[r]? = some y → y[w]? = some x → m.word (base + r * stride + 8 * w) = x) :
    cellsAt m base stride words cells.length = cells := by
  unfold cellsAt
  apply List.ext_getElem (by simp)
  intro r h1 h2
  rw [List.getElem_map, List.getElem_range]
  apply List.ext_getElem (by simp [hl _ (List.getElem_mem h2)])
  intro w h3 h4
  rw [List.getElem_map, List.getElem_range]
  exact h r w _ _ (List.getElem?_eq_getElem h2) (List.getElem?_eq_getElem h4)

theorem Vals.cells_words (env : Env) (v : Vals) : ∀ y ∈ v.cells env, y.length = v.words := by
  intro y hy
  cases v <;> simp only [Vals.cells, List.mem_map] at hy <;> obtain ⟨x, _, rfl⟩ := hy <;> simp [Vals.words, wordsOf_length]

/-- Address of word `w` of row `r` of a column at offset `o`. -/
def arrayAddr (e : Enc) (base o r w : Nat) : Nat :=
  if e.cmWidth ≠ 0 then base + o + (r + 8 * w / e.cmWidth * e.height) * e.cmWidth + 8 * w % e.cmWidth
  else base + o + r * e.width + 8 * w

/-- Specification: the distance of two rows of a column in a caller's array. -/
def stepOf (e : Enc) (words : Nat) : Nat := if e.cmWidth ≠ 0 then 8 * words * e.height else 8 * words

theorem arrayCol_eq (env : Env) (m : Mem) (e : Enc) (base off : Nat) (c : EncArg) (ic : InCol) (hi : c.info = ic.info)
    (hf : c.data = none ∧ c.stride = 0) (hr : ic.vals.rows = e.nrows) (hw : 1 ≤ ic.vals.words) (hh : e.nrows ≤ e.height)
    (hcm : e.cmWidth ≠ 0 → e.cmWidth % 8 = 0 ∧ e.cmWidth ∣ 8 * ic.vals.words) (hrm : e.cmWidth = 0 → e.width % 8 = 0)
    (hm : ∀ (r w : Nat) (y : Cell) (x : Word), (ic.vals.cells env)[r]? = some y → y[w]? = some x →
      m.word (arrayAddr e base off r w) = x) :
    arrayCol m e base off c = .ok (ic.data env) := by
  have hsz : c.info.decodedSize = 8 * ic.vals.words := by rw [hi]; rfl
  have hcl := Vals.cells_words env ic.vals
  have hlen := Vals.cells_length env ic.vals
  unfold arrayCol
  rw [if_neg (by rw [hsz, hf.1, hf.2]; simp; omega), hsz, show 8 * ic.vals.words / 8 = ic.vals.words by omega]
  unfold arrayAddr at hm
  by_cases hz : e.cmWidth ≠ 0
  · rw [if_pos hz]
    obtain ⟨h8, n, hn⟩ := hcm hz
    have hdiv : 8 * ic.vals.words / e.cmWidth = n := by rw [hn, Nat.mul_div_cancel_left _ (by omega)]
    by_cases heq : 8 * ic.vals.words ≠ e.cmWidth
    · rw [if_pos heq]
      dsimp only
      rw [hdiv]
      have hn0 : 0 < n := by
        rcases Nat.eq_zero_or_pos n with h | h
        · subst h; omega
        · exact h
      have hnc : n * e.cmWidth = 8 * ic.vals.words := by rw [hn, Nat.mul_comm]
      rw [if_neg (by rw [hnc, Nat.mul_comm]; exact Nat.not_lt.mpr (Nat.mul_le_mul_right _ hh))]
      rw [InCol.data, ← hr, ← hlen]
      congr 2
      apply cellsAt_eq _ _ _ _ _ hcl
      intro r w y x hy hx
      have hwl : w < ic.vals.words := by
        rw [← hcl y (List.mem_of_getElem? hy)]; exact (List.getElem?_eq_some_iff.mp hx).1
      rw [← hnc, Nat.zero_add, gather_word _ _ _ _ _ _ _ (by omega) h8 hn0 (by omega)]
      have := hm r w y x hy hx
      rw [if_pos hz] at this
      exact this
    · rw [if_neg heq]
      have heq : e.cmWidth = 8 * ic.vals.words := by omega
      rw [InCol.data, ← hr, ← hlen]
      congr 2
      apply cellsAt_eq _ _ _ _ _ hcl
      intro r w y x hy hx
      have hwl : w < ic.vals.words := by
        rw [← hcl y (List.mem_of_getElem? hy)]; exact (List.getElem?_eq_some_iff.mp hx).1
      have := hm r w y x hy hx
      rw [if_pos hz, heq, Nat.div_eq_of_lt (by omega), Nat.mod_eq_of_lt (by omega), Nat.zero_mul, Nat.add_zero] at this
      exact this
  · rw [if_neg hz, if_neg (by have := hrm (by omega); omega)]
    rw [InCol.data, ← hr, ← hlen]
    congr 2
    apply cellsAt_eq _ _ _ _ _ hcl
    intro r w y x hy hx
    have := hm r w y x hy hx
    rw [if_neg hz] at this
    exact this

theorem arrayCols_eq (env : Env) (m : Mem) (e : Enc) (base : Nat) (hh : e.nrows ≤ e.height)
    (hrm : e.cmWidth = 0 → e.width % 8 = 0) (h8 : e.cmWidth % 8 = 0) (ics : List InCol) (cs : List EncArg) (off : Nat)
    (hi : cs.map EncArg.info = ics.map InCol.info) (hf : ∀ c ∈ cs, c.data = none ∧ c.stride = 0)
    (hc : ∀ ic ∈ ics, ic.vals.rows = e.nrows ∧ 1 ≤ ic.vals.words ∧ (e.cmWidth ≠ 0 → e.cmWidth ∣ 8 * ic.vals.words))
    (hm : ∀ (i : Nat) (ic : InCol) (r w : Nat) (y : Cell) (x : Word), ics[i]? = some ic → (ic.vals.cells env)[r]? = some y →
      y[w]? = some x → m.word (arrayAddr e base (off + ((ics.map (fun c => stepOf e c.vals.words)).take i).sum) r w) = x) :
    arrayCols m e base off cs = .ok (ics.map (InCol.data env)) := by
  induction ics generalizing cs off with
  | nil =>
    have : cs = [] := by simpa using hi
    subst this
    rfl
  | cons ic ics ih =>
    cases cs with
    | nil => simp at hi
    | cons c cs =>
      simp only [List.map_cons, List.cons.injEq] at hi
      obtain ⟨h1, h2, h3⟩ := hc ic (by simp)
      unfold arrayCols
      rw [arrayCol_eq env m e base off c ic hi.1 (hf c (by simp)) h1 h2 hh (fun hz => ⟨h8, h3 hz⟩) hrm
        (fun r w y x hy hx => by simpa using hm 0 ic r w y x rfl hy hx)]
      dsimp only
      have hst : arrayStep e c = stepOf e ic.vals.words := by
        unfold arrayStep stepOf; rw [hi.1]; rfl
      rw [ih cs (off + arrayStep e c) hi.2 (fun c' hc' => hf c' (by simp [hc'])) (fun c' hc' => hc c' (by simp [hc']))]
      · simp
      · intro i ic' r w y x hi' hy hx
        have := hm (i + 1) ic' r w y x (by simpa using hi') hy hx
        rw [List.map_cons, List.take_succ_cons, List.sum_cons] at this
        rw [hst, Nat.add_assoc]
        exact this

theorem sum_steps (e : Enc) (ics : List InCol) (i : Nat) :
    ((ics.map (fun c => stepOf e c.vals.words)).take i).sum =
      if e.cmWidth ≠ 0 then ((ics.map (fun c => 8 * c.vals.words)).take i).sum * e.height
      else ((ics.map (fun c => 8 * c.vals.words)).take i).sum := by
  induction ics generalizing i with
  | nil => simp
  | cons c cs ih =>
    cases i with
    | zero => simp
    | succ i =>
      have := ih i
      simp only [List.map_cons, List.take_succ_cons, List.sum_cons, this]
      unfold stepOf
      by_cases hz : e.cmWidth ≠ 0
      · simp only [if_pos hz, Nat.add_mul]
      · simp only [if_neg hz]

/-- The encoder was told about the columns of the table (a size of 0 stands for 8), but not where their data is. -/
structure Enc.For (e : Enc) (T : UTable) : Prop where
  cols : e.cols.map (fun c => sized c.info) = T.cols.map InCol.info
  fresh : ∀ c ∈ e.cols, c.data = none ∧ c.stride = 0
  rows : e.nrows = T.rows
  props : e.props = T.props
  limit : 0 < e.limit

/-- **C23 (encoding)**: a table in an array of the user, in either layout, is encoded exactly as `encode` encodes the table
(C01-C08), so both layouts give the same bytes.  `width` and `height` may exceed what the table needs.  In the row-major
array word `w` of row `r` of a column is found after `r` rows and the columns before it; in the column-major array the
parts of `columnMajorWidth` bytes of the elements are found one after the other, each as a run over all `height` rows. -/
theorem C23_encode (env : Env) (T : UTable) (hT : T.Ok env) (hrows : 0 < T.rows) (m : Mem) (e : Enc) (he : e.For T) (base fuel : Nat)
    (harr : e.arr = some base) (hh : T.rows ≤ e.height) (hw : (T.cols.map (fun c => 8 * c.vals.words)).sum ≤ e.width)
    (hword : ∀ c ∈ T.cols, 1 ≤ c.vals.words)
    (hlay : (e.cmWidth = 0 ∧ e.width % 8 = 0 ∧ HoldsTable env m T (fun i r w => base + r * e.width + T.before i + 8 * w)) ∨
      (0 < e.cmWidth ∧ e.cmWidth % 8 = 0 ∧ (∀ c ∈ T.cols, e.cmWidth ∣ 8 * c.vals.words) ∧
        HoldsTable env m T (fun i r w => base + T.before i * e.height + (r + 8 * w / e.cmWidth * e.height) * e.cmWidth +
          8 * w % e.cmWidth))) :
    odcEncode env m e fuel = T.encodeLimit env e.limit fuel := by
  unfold odcEncode
  have hlim := he.limit
  have hr := he.rows
  rw [if_neg (by omega)]
  have hfill : fillEnc m e = .ok (T.cols.map (InCol.data env)) := by
    unfold fillEnc
    dsimp only
    rw [if_neg (by omega), harr]
    dsimp only
    have hinfo : (e.cols.map (fun c => { c with info := sized c.info })).map EncArg.info = T.cols.map InCol.info := by
      rw [List.map_map]; exact he.cols
    have hsum : ((e.cols.map (fun c => { c with info := sized c.info })).map (fun c => c.info.decodedSize)) =
        T.cols.map (fun c => 8 * c.vals.words) := by
      have := congrArg (List.map ColumnInfo.decodedSize) hinfo
      rw [List.map_map, List.map_map] at this
      rw [List.map_map]
      simpa [Function.comp_def, InCol.info] using this
    rw [if_neg (by omega), hsum, if_neg (by omega)]
    refine arrayCols_eq env m e base (by omega) ?_ ?_ T.cols _ 0 hinfo ?_ ?_ ?_
    · intro hz
      rcases hlay with h | h
      · exact h.2.1
      · omega
    · rcases hlay with h | h
      · rw [h.1]
      · exact h.2.1
    · intro c hc
      simp only [List.mem_map] at hc
      obtain ⟨c', hc', rfl⟩ := hc
      exact he.fresh c' hc'
    · intro ic hic
      refine ⟨by rw [(hT.col ic hic).2.2, hr], hword ic hic, ?_⟩
      intro hz
      rcases hlay with h | h
      · exact absurd h.1 hz
      · exact h.2.2.1 ic hic
    · intro i ic r w y x hi hy hx
      rw [sum_steps, Nat.zero_add]
      unfold arrayAddr
      rcases hlay with h | h
      · have hz : ¬ e.cmWidth ≠ 0 := by rw [h.1]; simp
        have := h.2.2 i ic r w y x hi hy hx
        rw [if_neg hz, if_neg hz]
        rw [← this]
        congr 1
        unfold UTable.before
        dsimp only
        omega
      · have hz : e.cmWidth ≠ 0 := by omega
        rw [if_pos hz, if_pos hz]
        exact h.2.2.2 i ic r w y x hi hy hx
  rw [hfill]
  dsimp only
  rw [if_neg (by simp [hT.ne]), he.cols, he.props]
  rfl

end Verif
