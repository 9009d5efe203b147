import Verif.RowWriter

/-
Reading a file row by row: `odc::Reader` / `odc::ReaderIterator`.

Models: src/odc/ReaderIterator.{h,cc}, src/odc/Reader.cc l.60-69, src/odc/IteratorProxy.h l.216-224.
-/

namespace Verif

/-- State of a `ReaderIterator` (ReaderIterator.h l.119-138): what is left of the file, the columns,
properties and byte order of the current table, `lastValues_` (a cell per column), `rowsRemainingInTable_`,
the row data buffer, the unread part of it, `newDataset_`, `noMore_`, `headerCounter_`. -/
structure RowIt where
  rest : List Byte
  cols : List Col
  props : StrMap
  order : Order
  last : List Cell
  remaining : Nat
  buf : List Byte
  stream : List Byte
  newData : Bool
  noMore : Bool
  tables : Nat

/-- The contents of memory obtained from `new double[]`: by table, column, word. [ReaderIterator.cc l.149-169] -/
abbrev Junk := Nat → Nat → Nat → Word

/-- Specification: a constant string that is empty, in the codec for long ones; its size in memory wraps around
(2^61 words), so that its neighbours in a row overlap. -/
def Codec.Blank (c : Codec) : Prop := c.kind = .longConstantString ∧ c.strings.headD [] = []

instance (c : Codec) : Decidable c.Blank := by unfold Codec.Blank; infer_instance

/-- Initial cell of column `p` in `lastValues_`: only the first double is set, ReaderIterator.cc l.149-169.  A
column of size 2^61 words (an empty long constant string, Constant.h l.173-181) makes the sum of sizes, truncated
to 32 bits l.150, and the offsets l.168 wrap around: the columns overlap and the last one is outside the buffer. -/
def firstCell (junk : Junk) (t p : Nat) (c : Codec) : Except Err Cell :=
  match c.missingWord with
  | .error e => .error e
  | .ok m => if c.Blank then .error .ub else .ok (m :: (List.range (c.width - 1)).map (junk t p))

/-- All columns, `initRowBuffer`, ReaderIterator.cc l.149-169; see `firstCell`. -/
def firstCells (junk : Junk) (t : Nat) : Nat → List Col → Except Err (List Cell)
  | _, [] => .ok []
  | p, c :: cs =>
    match firstCell junk t p c.codec with
    | .error e => .error e
    | .ok x =>
      match firstCells junk t (p + 1) cs with
      | .error e => .error e
      | .ok xs => .ok (x :: xs)

/-- A freshly constructed iterator before its first load, ReaderIterator.cc l.25-70. -/
def RowIt.new (bytes : List Byte) : RowIt :=
  { rest := bytes, cols := [], props := [], order := .same, last := [], remaining := 0, buf := [], stream := [],
    newData := false, noMore := false, tables := 0 }

/-- `loadHeaderAndBufferData`, ReaderIterator.cc l.72-132, with `readBuffer` l.171-201: the next table with
rows; `false` at the end of the file.  The stream covers the whole buffer, which keeps the size of the
largest table so far.  At most `fuel` tables are looked at. -/
def RowIt.load (env : Env) (junk : Junk) : Nat → RowIt → Except Err (RowIt × Bool)
  | 0, _ => .error .diverges
  | fuel + 1, it =>
    if it.noMore then .ok (it, false)
    else if it.remaining ≠ 0 then .error .assertFailed
    else
      match parseHeader env.md5 env.asDbl it.rest with
      | .error e => .error e
      | .ok none => .ok ({ it with noMore := true }, false)
      | .ok (some (h, o, r)) =>
        match firstCells junk (it.tables + 1) 0 h.cols with
        | .error e => .error e
        | .ok l =>
          let it := { it with rest := r, cols := h.cols, props := h.props, order := o, last := l, tables := it.tables + 1 }
          if h.dataSize = 0 then
            if h.nrows = 0 then RowIt.load env junk fuel it else .error .assertFailed
          else if h.nrows = 0 then .error .assertFailed
          else if h.dataSize < 2 then .error .assertFailed
          else if r.length = 0 then .error .seriousBug
          else if r.length < h.dataSize then .error .incomplete
          else
            let b := r.take h.dataSize ++ it.buf.drop h.dataSize
            .ok ({ it with rest := r.drop h.dataSize, buf := b, stream := b, newData := true, remaining := h.nrows }, true)

/-- Decode the cells of a row from some column on: each codec writes its words at the start of its cell. [ReaderIterator.cc l.203-227] -/
def decRow (o : Order) : List Codec → List Cell → P (List Cell)
  | c :: cs, x :: xs => do
    let d ← c.dec o
    if x.length < d.length then P.fail .ub
    else do
      let r ← decRow o cs xs
      pure ((d ++ x.drop d.length) :: r)
  | _, _ => pure []

/-- One row, ReaderIterator.cc l.213-222; a marker beyond the last column decodes nothing. -/
def itStep (o : Order) (cs : List Codec) (cur : List Cell) : P (List Cell) := do
  let m ← readBytes 2
  let tail ← decRow o (cs.drop (markerStart m)) (cur.drop (markerStart m))
  pure (cur.take (markerStart m) ++ tail)

/-- `next`, ReaderIterator.cc l.203-227. -/
def RowIt.next (env : Env) (junk : Junk) (it : RowIt) : Except Err (RowIt × Bool) :=
  let it := { it with newData := false }
  if it.noMore then .ok (it, false)
  else
    match (if it.remaining = 0 then it.load env junk (it.rest.length + 1) else .ok (it, true)) with
    | .error e => .error e
    | .ok (it, false) => .ok (it, false)
    | .ok (it, true) =>
      match itStep it.order (it.cols.map Col.codec) it.last it.stream with
      | .error e => .error e
      | .ok (row, r) =>
        .ok ({ it with last := row, stream := r, remaining := it.remaining - 1 }, decide (it.cols.length ≠ 0))

/-- `Reader::begin`, Reader.cc l.56-60. -/
def RowIt.begin (env : Env) (junk : Junk) (bytes : List Byte) : Except Err RowIt :=
  match (RowIt.new bytes).load env junk (bytes.length + 1) with
  | .error e => .error e
  | .ok (it, _) =>
    match it.next env junk with
    | .error e => .error e
    | .ok (it, _) => .ok it

/-- What a user sees of the current row: the columns, the cells, whether a new table has begun. [IteratorProxy.h l.30-159] -/
structure RowView where
  cols : List Col
  cells : List Cell
  fresh : Bool

/-- The loop `for (; it != end; ++it)` (IteratorProxy.h l.205-211): the rows seen, and the exception that
ended it if any; at most `fuel` rows. -/
def RowIt.all (env : Env) (junk : Junk) : Nat → RowIt → List RowView × Option Err
  | 0, _ => ([], some .diverges)
  | fuel + 1, it =>
    if it.noMore then ([], none)
    else
      match it.next env junk with
      | .error e => ([⟨it.cols, it.last, it.newData⟩], some e)
      | .ok (it', _) =>
        let (rs, e) := RowIt.all env junk fuel it'
        (⟨it.cols, it.last, it.newData⟩ :: rs, e)

/-- Reading a whole file. [A loop `for (; it != end; ++it)` over ReaderIterator.cc l.203-227] -/
def readRows (env : Env) (junk : Junk) (bytes : List Byte) (fuel : Nat) : List RowView × Option Err :=
  match RowIt.begin env junk bytes with
  | .error e => ([], some e)
  | .ok it => it.all env junk fuel

end Verif
