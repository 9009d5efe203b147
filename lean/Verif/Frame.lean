import Verif.ColStr
import Verif.Header

/-
Encoding and decoding the data section of a frame.

Models: src/odc/core/Encoder.cc l.75-105 (rows), src/odc/core/Table.cc l.127-250 (decode),
src/odc/api/StridedData.h (elements, fill, isNewValue).
-/

namespace Verif

/-! ### Encoding -/

/-- Number of leading columns whose element is byte-identical in two successive rows
(Encoder.cc l.88-95, `isNewValue` StridedData.h l.124-128). -/
def sameLead : List Cell → List Cell → Nat
  | x :: xs, y :: ys => if x = y then sameLead xs ys + 1 else 0
  | _, _ => 0

/-- The two marker bytes, Encoder.cc l.98-99 (big endian, modulo 65536). -/
def markerBytes (start : Nat) : List Byte :=
  [BitVec.ofNat 8 (start / 256), BitVec.ofNat 8 start]

/-- Encode the given columns of a row, Encoder.cc l.102-106. -/
def encCols (o : Order) : List Codec → List Cell → Except Err (List Byte)
  | c :: cs, x :: xs =>
    match c.enc o x with
    | .error e => .error e
    | .ok bs =>
      match encCols o cs xs with
      | .error e => .error e
      | .ok bs' => .ok (bs ++ bs')
  | _, _ => .ok []

/-- First column written in a row, given the previous row (none for the first row), Encoder.cc l.88-95. -/
def startOf : Option (List Cell) → List Cell → Nat
  | none, _ => 0
  | some p, row => sameLead p row

/-- One row, given the previous one, Encoder.cc l.97-106. -/
def encRow (o : Order) (cs : List Codec) (prev : Option (List Cell)) (row : List Cell) :
    Except Err (List Byte) :=
  match encCols o (cs.drop (startOf prev row)) (row.drop (startOf prev row)) with
  | .error e => .error e
  | .ok bs => .ok (markerBytes (startOf prev row) ++ bs)

/-- All rows, Encoder.cc l.87-107. -/
def encRows (o : Order) (cs : List Codec) : Option (List Cell) → List (List Cell) → Except Err (List Byte)
  | _, [] => .ok []
  | prev, row :: rows =>
    match encRow o cs prev row with
    | .error e => .error e
    | .ok bs =>
      match encRows o cs (some row) rows with
      | .error e => .error e
      | .ok bs' => .ok (bs ++ bs')

/-! ### Decoding -/

/-- Decoding state of one column of a table: its codec, whether it is wanted (`visitColumn`), the
element size in words of its target (`dataSize / 8`), the row last decoded (`lastDecoded`), the
target memory (element of each row), and the word `codec.missingValue()` returns. [core/Table.cc l.120-195] -/
structure Slot where
  codec : Codec
  first : Except Err Word
  visit : Bool
  elem : Nat
  last : Nat
  mem : Nat → Cell

/-- Store the decoded words at the start of the element of row `row`: writing past the element is
undefined behaviour. [core/Table.cc l.213] -/
def Slot.store (s : Slot) (row : Nat) (d : Cell) : Except Err Slot :=
  if d.length ≤ s.elem then
    .ok { s with mem := fun r => if r = row then d ++ (s.mem row).drop d.length else s.mem r }
  else .error .ub

/-- Run a failing computation inside a parser. -/
def P.lift {α : Type} (x : Except Err α) : P α := fun s =>
  match x with
  | .ok a => .ok (a, s)
  | .error e => .error e

/-- One column of one row, Table.cc l.212-218. -/
def decSlot (o : Order) (row : Nat) (s : Slot) : P Slot :=
  if s.visit then do
    let d ← s.codec.dec o
    let s' ← P.lift (s.store row d)
    pure { s' with last := row }
  else do
    s.codec.skip
    pure s

/-- All columns from the start column on, Table.cc l.211-219. -/
def decSlots (o : Order) (row : Nat) : List Slot → P (List Slot)
  | [] => pure []
  | s :: ss => do
    let s' ← decSlot o row s
    let ss' ← decSlots o row ss
    pure (s' :: ss')

/-- `StridedData::fill(last, final)` on a wanted column (StridedData.h, Table.cc l.205-207, 227-231). -/
def Slot.fill (final : Nat) (s : Slot) : Except Err Slot :=
  if s.visit then
    if s.last ≤ final then
      .ok { s with mem := fun r => if s.last < r ∧ r ≤ final then s.mem s.last else s.mem r }
    else .error .assertFailed
  else .ok s

/-- All columns, core/Table.cc l.226-235; see `fillRange`. -/
def fillAll (final : Nat) : List Slot → Except Err (List Slot)
  | [] => .ok []
  | s :: ss =>
    match s.fill final with
    | .error e => .error e
    | .ok s' =>
      match fillAll final ss with
      | .error e => .error e
      | .ok ss' => .ok (s' :: ss')

/-- The fill of columns `[start, lastStart)` before row `row`, Table.cc l.203-209: indexing
`visitColumn` beyond the number of columns is undefined behaviour. -/
def fillRange (start lastStart row : Nat) (ss : List Slot) : Except Err (List Slot) :=
  if start < lastStart then
    if lastStart ≤ ss.length then
      match fillAll (row - 1) ((ss.take lastStart).drop start) with
      | .error e => .error e
      | .ok m => .ok (ss.take start ++ (m ++ ss.drop lastStart))
    else .error .ub
  else .ok ss

/-- Start column of a row from its marker, Table.cc l.199-201. -/
def markerStart (m : List Byte) : Nat := (m.getD 0 0).toNat * 256 + (m.getD 1 0).toNat

/-- The row loop, Table.cc l.197-222: `k` rows remain, `row` is the next row. -/
def decRows (o : Order) : Nat → Nat → Nat → List Slot → P (List Slot)
  | 0, _, _, ss => pure ss
  | k + 1, row, lastStart, ss => do
    let m ← readBytes 2
    let ss ← P.lift (fillRange (markerStart m) lastStart row ss)
    let tail ← decSlots o row (ss.drop (markerStart m))
    decRows o k (row + 1) (markerStart m) (ss.take (markerStart m) ++ tail)

/-- The final fill, Table.cc l.226-235: stops at the first column decoded in the last row. -/
def finish (nrows : Nat) : List Slot → Except Err (List Slot)
  | [] => .ok []
  | s :: ss =>
    if s.last < nrows - 1 then
      match s.fill (nrows - 1) with
      | .error e => .error e
      | .ok s' =>
        match finish nrows ss with
        | .error e => .error e
        | .ok ss' => .ok (s' :: ss')
    else .ok (s :: ss)

/-- First row of a wanted column is set to the missing value, Table.cc l.186-190. -/
def Slot.init (s : Slot) : Except Err Slot :=
  if s.visit then
    match s.first with
    | .ok w => s.store 0 [w]
    | .error e => .error e
  else .ok s

/-- All columns, core/Table.cc l.186-190. -/
def initAll : List Slot → Except Err (List Slot)
  | [] => .ok []
  | s :: ss =>
    match s.init with
    | .error e => .error e
    | .ok s' =>
      match initAll ss with
      | .error e => .error e
      | .ok ss' => .ok (s' :: ss')

/-- `Table::decode` after the target columns have been resolved (Table.cc l.164-236); `data` is the
data section. -/
def decodeTable (o : Order) (nrows : Nat) (ss : List Slot) (data : List Byte) : Except Err (List Slot) :=
  if nrows = 0 then .ok ss
  else
    match initAll ss with
    | .error e => .error e
    | .ok ss =>
      match decRows o nrows 0 0 ss data with
      | .error e => .error e
      | .ok (ss, _) => finish nrows ss

/-! ### Reference semantics: each row repeats the leading cells of the previous one -/

/-- Cells of the wanted columns from `cs`, the others keep their current cell. -/
def refCols (o : Order) : List (Codec × Bool) → List Cell → P (List Cell)
  | (c, v) :: cs, x :: xs => do
    let y ← (if v then c.dec o else do c.skip; pure x)
    let ys ← refCols o cs xs
    pure (y :: ys)
  | _, _ => pure []

/-- Rows of a table: the current row `cur` is updated from the start column on. -/
def refRows (o : Order) (cs : List (Codec × Bool)) : Nat → Nat → List Cell → P (List (List Cell))
  | 0, _, _ => pure []
  | k + 1, lastStart, cur => do
    let m ← readBytes 2
    if markerStart m < lastStart ∧ cs.length < lastStart then P.fail .ub
    else do
      let tail ← refCols o (cs.drop (markerStart m)) (cur.drop (markerStart m))
      let rows ← refRows o cs k (markerStart m) (cur.take (markerStart m) ++ tail)
      pure ((cur.take (markerStart m) ++ tail) :: rows)

/-! ### Facts about single cells -/

/-- Words written by a codec into a target element. [codec/*.h, the `decode` of each class] -/
def Codec.decWidth (c : Codec) : Nat :=
  match c.kind with
  | .chars | .int8String | .int16String => c.width
  | .longConstantString =>
    match c.strings.head? with
    | some s => if s = [] then 0 else c.width
    | none => 0
  | _ => 1

theorem readBytes_ok {n : Nat} {s bs r : List Byte} (h : readBytes n s = .ok (bs, r)) :
    bs = s.take n ∧ r = s.drop n ∧ n ≤ s.length := by
  unfold readBytes at h
  split at h
  · simp only [Except.ok.injEq, Prod.mk.injEq] at h
    exact ⟨h.1.symm, h.2.symm, by assumption⟩
  · simp at h

theorem readN_ok {o : Order} {k : Nat} {s r : List Byte} {n : Nat} (h : readN o k s = .ok (n, r)) :
    r = s.drop k ∧ k ≤ s.length := by
  unfold readN at h
  split at h
  · rename_i bs r' hb
    simp only [Except.ok.injEq, Prod.mk.injEq] at h
    obtain ⟨_, h2, h3⟩ := readBytes_ok hb
    exact ⟨by rw [← h.2, h2], h3⟩
  · simp at h

/-- A successful decode consumes exactly `encSize` bytes and yields `decWidth` words. -/
theorem dec_consumes (o : Order) (c : Codec) (s r : List Byte) (d : Cell) (h : c.dec o s = .ok (d, r)) :
    r = s.drop c.encSize ∧ c.encSize ≤ s.length ∧ d.length = c.decWidth := by
  have hoff : ∀ k, decOffset o c k s = .ok (d, r) → r = s.drop k ∧ k ≤ s.length ∧ d.length = 1 := by
    intro k h
    unfold decOffset at h
    rw [P.bind_apply] at h
    split at h
    · rename_i n r' hn
      obtain ⟨h1, h2⟩ := readN_ok hn
      cases hv : toVT c.vt (fadd (ofInt n) c.min) <;> simp only [hv] at h
      · simp [P.fail] at h
      · simp only [P.pure_apply, Except.ok.injEq, Prod.mk.injEq] at h
        exact ⟨by rw [← h.2, h1], h2, by rw [← h.1]; rfl⟩
    · simp at h
  have hmis : ∀ k m, decMissing o c k m s = .ok (d, r) → r = s.drop k ∧ k ≤ s.length ∧ d.length = 1 := by
    intro k m h
    unfold decMissing at h
    rw [P.bind_apply] at h
    split at h
    · rename_i n r' hn
      obtain ⟨h1, h2⟩ := readN_ok hn
      cases hv : toVT c.vt (if n = m then c.missing else fadd (ofInt n) c.min) <;> simp only [hv] at h
      · simp [P.fail] at h
      · simp only [P.pure_apply, Except.ok.injEq, Prod.mk.injEq] at h
        exact ⟨by rw [← h.2, h1], h2, by rw [← h.1]; rfl⟩
    · simp at h
  have hsh : ∀ m, decShort o c m s = .ok (d, r) → r = s.drop 4 ∧ 4 ≤ s.length ∧ d.length = 1 := by
    intro m h
    unfold decShort at h
    rw [P.bind_apply] at h
    split at h
    · rename_i n r' hn
      obtain ⟨h1, h2⟩ := readN_ok hn
      simp only [P.pure_apply, Except.ok.injEq, Prod.mk.injEq] at h
      exact ⟨by rw [← h.2, h1], h2, by rw [← h.1]; rfl⟩
    · simp at h
  have hst : ∀ k, decStrIdx o c k s = .ok (d, r) → r = s.drop k ∧ k ≤ s.length ∧ d.length = c.width := by
    intro k h
    unfold decStrIdx at h
    rw [P.bind_apply] at h
    split at h
    · rename_i n r' hn
      obtain ⟨h1, h2⟩ := readN_ok hn
      cases hv : c.strings[n]? <;> simp only [hv] at h
      · simp [P.fail] at h
      · simp only [P.pure_apply, Except.ok.injEq, Prod.mk.injEq] at h
        exact ⟨by rw [← h.2, h1], h2, by rw [← h.1]; simp⟩
    · simp at h
  unfold Codec.dec at h
  unfold Codec.encSize Codec.decWidth
  cases hk : c.kind <;> rw [hk] at h <;> simp only at h ⊢
  case int8 => exact hoff 1 h
  case int16 => exact hoff 2 h
  case int32 =>
    unfold decDirect at h
    rw [P.bind_apply] at h
    split at h
    · rename_i n r' hn
      unfold readI32 at hn
      split at hn
      · rename_i n' r'' hn'
        obtain ⟨h1, h2⟩ := readN_ok hn'
        simp only [Except.ok.injEq, Prod.mk.injEq] at hn
        cases hv : c.vt <;> simp only [hv] at h
        · simp only [P.pure_apply, Except.ok.injEq, Prod.mk.injEq] at h
          exact ⟨by rw [← h.2, ← hn.2, h1], h2, by rw [← h.1]; rfl⟩
        · simp only [P.pure_apply, Except.ok.injEq, Prod.mk.injEq] at h
          exact ⟨by rw [← h.2, ← hn.2, h1], h2, by rw [← h.1]; rfl⟩
      · simp at hn
    · simp at h
  case int8Missing => exact hmis 1 _ h
  case constOrMissing => exact hmis 1 _ h
  case realConstOrMissing => exact hmis 1 _ h
  case int16Missing => exact hmis 2 _ h
  case shortReal => exact hsh _ h
  case shortReal2 => exact hsh _ h
  case longReal =>
    rw [P.bind_apply] at h
    split at h
    · rename_i n r' hn
      unfold readWord at hn
      split at hn
      · rename_i n' r'' hn'
        obtain ⟨h1, h2⟩ := readN_ok hn'
        simp only [Except.ok.injEq, Prod.mk.injEq] at hn
        simp only [P.pure_apply, Except.ok.injEq, Prod.mk.injEq] at h
        exact ⟨by rw [← h.2, ← hn.2, h1], h2, by rw [← h.1]; rfl⟩
      · simp at hn
    · simp at h
  case constant =>
    cases hv : toVT c.vt c.min <;> simp only [hv] at h
    · simp [P.fail] at h
    · simp only [P.pure_apply, Except.ok.injEq, Prod.mk.injEq] at h
      exact ⟨by rw [← h.2]; rfl, Nat.zero_le _, by rw [← h.1]; rfl⟩
  case constantString =>
    simp only [P.pure_apply, Except.ok.injEq, Prod.mk.injEq] at h
    exact ⟨by rw [← h.2]; rfl, Nat.zero_le _, by rw [← h.1]; rfl⟩
  case longConstantString =>
    cases hv : c.strings.head? with
    | none => simp only [hv] at h; simp [P.fail] at h
    | some x =>
      simp only [hv] at h
      by_cases he : x = []
      · rw [if_pos he] at h
        simp only [P.pure_apply, Except.ok.injEq, Prod.mk.injEq] at h
        exact ⟨by rw [← h.2]; rfl, Nat.zero_le _, by rw [← h.1]; simp [he]⟩
      · rw [if_neg he] at h
        simp only [P.pure_apply, Except.ok.injEq, Prod.mk.injEq] at h
        exact ⟨by rw [← h.2]; rfl, Nat.zero_le _, by rw [← h.1]; simp [he]⟩
  case chars =>
    rw [P.bind_apply] at h
    split at h
    · rename_i n r' hn
      obtain ⟨h1, h2, h3⟩ := readBytes_ok hn
      simp only [P.pure_apply, Except.ok.injEq, Prod.mk.injEq] at h
      exact ⟨by rw [← h.2, h2], h3, by rw [← h.1]; simp⟩
    · simp at h
  case int8String => exact hst 1 h
  case int16String => exact hst 2 h

/-- Skipping a cell leaves the stream where decoding it would. -/
theorem skip_of_dec (o : Order) (c : Codec) (s r : List Byte) (d : Cell) (h : c.dec o s = .ok (d, r)) :
    c.skip s = .ok ((), r) := by
  obtain ⟨h1, h2, _⟩ := dec_consumes o c s r d h
  unfold Codec.skip advance
  rw [if_pos h2, h1]

end Verif
