import Verif.Names
import Verif.Chunks

/-
Writing a file row by row: `odc::Writer<>` / `odc::WriterBufferingIterator`.

Models: src/odc/WriterBufferingIterator.{h,cc}, src/odc/core/Column.h l.181-218.
-/

namespace Verif

/-- A column of the writer: `core::Column` (core/Column.h l.116-124); the coder is null until the type is
set. -/
structure WCol where
  name : Str
  ty : ColType
  bits : List (Str × Int)
  codec : Option Codec
  deriving DecidableEq

/-- State of a `WriterBufferingIterator` (WriterBufferingIterator.h l.128-175).  A row is held as one cell
per column (the offsets `columnOffsets_` into an array of doubles are abstracted).  `alloc` is the number of
words per row of `rowsBuffer_` if it is allocated, `rows` the rows between its start and `nextRowInBuffer_`,
`last` is `lastValues_`, `cur` is `nextRow_`, `out` the frames written to the handle. -/
structure Writer where
  cols : List WCol
  inited : Bool
  props : StrMap
  cap : Nat
  alloc : Option Nat
  rows : List (List Cell)
  last : List Cell
  cur : List Cell
  out : List (List Byte)
  deriving DecidableEq

/-- Constructor, WriterBufferingIterator.cc l.33-55; `cap` is `rowsBufferSize_` (constant here). -/
def Writer.new (cap : Nat) : Writer :=
  { cols := [], inited := false, props := [], cap := cap, alloc := none, rows := [], last := [], cur := [], out := [] }

/-- `setNumberOfColumns` on a new writer, WriterBufferingIterator.h l.82, MetaData.cc l.76-87. -/
def Writer.setSize (w : Writer) (n : Nat) : Writer :=
  { w with cols := w.cols.take n ++ List.replicate (n - w.cols.length) ⟨[], .ignore, [], none⟩ }

/-- `property`, WriterBufferingIterator.h l.88. -/
def Writer.property (w : Writer) (k v : Str) : Writer := { w with props := mapSet k v w.props }

/-- `setColumn`, WriterBufferingIterator.cc l.272-293. -/
def Writer.setColumn (env : Env) (w : Writer) (i : Nat) (name : Str) (ty : ColType) : Except Err Writer :=
  match w.cols[i]? with
  | none => .error .assertFailed
  | some col =>
    if (List.range w.cols.length).any (fun j => decide (j ≠ i) && decide ((w.cols[j]?.map WCol.name) = some name)) then
      .error .seriousBug
    else
      match defaultCodec ty env.asDbl with
      | .error e => .error e
      | .ok c => .ok { w with cols := w.cols.set i { col with name := name, ty := ty, codec := some c } }

/-- `setBitfieldColumn`, WriterBufferingIterator.cc l.295-306. -/
def Writer.setBitfieldColumn (env : Env) (w : Writer) (i : Nat) (name : Str) (ty : ColType) (bits : List (Str × Int)) :
    Except Err Writer :=
  match w.cols[i]? with
  | none => .error .assertFailed
  | some _ =>
    match defaultCodec ty env.asDbl with
    | .error e => .error e
    | .ok c => .ok { w with cols := w.cols.set i ⟨name, ty, bits, some c⟩ }

/-- `missingValue(i, v)`, WriterBufferingIterator.cc l.308-314 (a null coder is dereferenced). -/
def Writer.setMissing (w : Writer) (i : Nat) (v : Word) : Except Err Writer :=
  match w.cols[i]? with
  | none => .error .assertFailed
  | some col =>
    match col.codec with
    | none => .error .ub
    | some c =>
      match c.setMissing v with
      | .error e => .error e
      | .ok c' => .ok { w with cols := w.cols.set i { col with codec := some c' } }

/-- `columns()[i]->dataSizeDoubles(n)`, core/Column.h l.60. -/
def Writer.setWidth (w : Writer) (i n : Nat) : Except Err Writer :=
  match w.cols[i]? with
  | none => .error .ub
  | some col =>
    match col.codec with
    | none => .error .ub
    | some c =>
      match c.setWidth n with
      | .error e => .error e
      | .ok c' => .ok { w with cols := w.cols.set i { col with codec := some c' } }

/-- All coders, if all are set. [WriterBufferingIterator.cc l.104-148] -/
def coders : List WCol → Option (List Codec)
  | [] => some []
  | w :: ws =>
    match w.codec, coders ws with
    | some c, some cs => some (c :: cs)
    | _, _ => none

/-- The optimised codecs put into the columns, WriterBufferingIterator.cc l.316-362. -/
def setCoders (ws : List WCol) (cs : List Codec) : List WCol :=
  List.zipWith (fun w c => { w with codec := some c }) ws cs

/-- Doubles per row, `rowDataSizeDoublesInternal`, WriterBufferingIterator.cc l.216-223. -/
def rowWords (cs : List Codec) : Nat := (cs.map Codec.width).sum

/-- Initial cell of a column in `lastValues_` and `nextRow_`: zeros, then the missing value in the first
double, WriterBufferingIterator.cc l.125-147. -/
def initCell (c : Codec) : Except Err Cell :=
  match c.missingWord with
  | .error e => .error e
  | .ok m => .ok (m :: List.replicate (c.width - 1) 0)

/-- All columns, WriterBufferingIterator.cc l.104-148 (the row starts as missing values). -/
def initRow : List Codec → Except Err (List Cell)
  | [] => .ok []
  | c :: cs =>
    match initCell c with
    | .error e => .error e
    | .ok x =>
      match initRow cs with
      | .error e => .error e
      | .ok xs => .ok (x :: xs)

/-- `writeHeader`, WriterBufferingIterator.cc l.157-181: `allocBuffers`, drop a rows buffer that is too
small (with the rows in it), reset the statistics. -/
def Writer.writeHeader (w : Writer) : Except Err Writer :=
  match coders w.cols with
  | none => .error .assertFailed
  | some cs =>
    match initRow cs with
    | .error e => .error e
    | .ok l =>
      let w := { w with last := l, cur := l }
      let w := match w.alloc with
        | none => w
        | some a => if a < rowWords cs then { w with alloc := none, rows := [] } else w
      .ok { w with cols := setCoders w.cols (cs.map Codec.resetStats), inited := true }

/-- `CodecOptimizer::setOptimalCodecs` over the columns. [codec/CodecOptimizer.h l.42-169] -/
def optimiseAll (env : Env) : List WCol → List Codec → Except Err (List Codec)
  | w :: ws, c :: cs =>
    match optimise w.ty env.asDbl env.longEnv c with
    | .error e => .error e
    | .ok c' =>
      match optimiseAll env ws cs with
      | .error e => .error e
      | .ok cs' => .ok (c' :: cs')
  | _, _ => .ok []

/-- `Column::resetCodec` then `resetStats` (core/Column.h l.213-218, 91-94): the default codec of the type,
keeping the data size of the codec in use. -/
def resetCodec (env : Env) (ty : ColType) (width : Nat) : Except Err Codec :=
  match defaultCodec ty env.asDbl with
  | .error e => .error e
  | .ok c =>
    match c.setWidth width with
    | .error e => .error e
    | .ok c => .ok c.resetStats

/-- All columns, WriterBufferingIterator.cc l.384-393 (codecs reset after a flush). -/
def resetAll (env : Env) : List WCol → List Codec → Except Err (List Codec)
  | w :: ws, c :: cs =>
    match resetCodec env w.ty c.width with
    | .error e => .error e
    | .ok c' =>
      match resetAll env ws cs with
      | .error e => .error e
      | .ok cs' => .ok (c' :: cs')
  | _, _ => .ok []

/-- The columns as stored in the header. [WriterBufferingIterator.cc l.316-362] -/
def headerCols (ws : List WCol) (cs : List Codec) : List Col :=
  List.zipWith (fun w c => ⟨w.name, w.ty.toInt, w.bits.map Prod.fst, w.bits.map Prod.snd, c⟩) ws cs

/-- `flush`, WriterBufferingIterator.cc l.316-362: optimise the codecs, encode the buffered rows (the first
one relative to `lastValues_`; `doWriteRow` l.225-259 encodes like `encodeFrame`, for less than 65536
columns), allocate the buffers anew **with the optimised codecs**, write header and data, reset the codecs.
The encoded data is written with raw pointers into a buffer, so exceeding it is undefined behaviour. -/
def Writer.flush (env : Env) (o : Order) (w : Writer) : Except Err Writer :=
  if w.inited = false then .error .assertFailed
  else
    match w.alloc with
    | none => .ok w
    | some a =>
      if w.rows = [] then .ok w
      else
        match coders w.cols with
        | none => .error .ub
        | some cs =>
          match optimiseAll env w.cols cs with
          | .error e => .error e
          | .ok opt =>
            match encRows o opt (some w.last) w.rows with
            | .error e => .error e
            | .ok bs =>
              if w.cap * (8 * a) + 2 * w.cap < bs.length then .error .ub
              else
                match initRow opt, resetAll env w.cols opt with
                | .error e, _ => .error e
                | _, .error e => .error e
                | .ok l, .ok cs' =>
                  .ok { w with
                    last := l, cur := l, rows := []
                    cols := setCoders w.cols cs'
                    out := w.out ++ [putHeader env.md5 o
                      { dataSize := bs.length, nrows := w.rows.length, props := w.props,
                        cols := headerCols w.cols opt } ++ bs] }

/-- `writeRow`, WriterBufferingIterator.cc l.196-214.  The row is given as one cell per column; a caller whose
array does not have the layout of the columns, and a buffer of no rows, are undefined behaviour. -/
def Writer.writeRow (env : Env) (o : Order) (w : Writer) (row : List Cell) : Except Err Writer :=
  if row.length ≠ w.cols.length then .error .assertFailed
  else if w.inited = false then .error .assertFailed
  else
    match coders w.cols with
    | none => .error .ub
    | some cs =>
      if row.map List.length ≠ cs.map Codec.width ∨ w.cap = 0 then .error .ub
      else
        let a := w.alloc.getD (rowWords cs)
        if a < rowWords cs then .error .ub
        else
          let w := { w with
            alloc := some a
            cols := setCoders w.cols (List.zipWith Codec.gather cs row)
            rows := w.rows ++ [row] }
          if w.rows.length = w.cap then w.flush env o else .ok w

/-- `data(i) = cell`, WriterBufferingIterator.cc l.187-194. -/
def Writer.setData (w : Writer) (i : Nat) (x : Cell) : Except Err Writer :=
  if w.inited = false then .error .assertFailed
  else if i < w.cols.length then .ok { w with cur := w.cur.set i x }
  else .error .assertFailed

/-- `next`, WriterBufferingIterator.cc l.183-185. -/
def Writer.next (env : Env) (o : Order) (w : Writer) : Except Err Writer := w.writeRow env o w.cur

/-- `close`, WriterBufferingIterator.cc l.368-376 (also called by the destructor). -/
def Writer.close (env : Env) (o : Order) (w : Writer) : Except Err Writer :=
  if w.inited then w.flush env o else .ok w

/-- `flushAndResetColumnSizes`, WriterBufferingIterator.cc l.384-393 (the map lists its keys in order). -/
def Writer.resize (env : Env) (o : Order) (w : Writer) (sizes : List (Str × Nat)) : Except Err Writer := do
  let w ← w.flush env o
  let w ← sizes.foldlM (fun (w : Writer) (kv : Str × Nat) => do
    let i ← columnIndex (w.cols.map WCol.name) kv.1
    w.setWidth i kv.2) w
  w.writeHeader

/-! ### A whole file -/

/-- Declare columns `i`, `i + 1`, ..., with a missing value of their own if one is given. [`setColumn`, WriterBufferingIterator.cc l.272-314] -/
def Writer.declare (env : Env) : Writer → Nat → List (InCol × Option Word) → Except Err Writer
  | w, _, [] => .ok w
  | w, i, (c, m?) :: cs => do
    let w ← if c.vals.ty = .bitfield then w.setBitfieldColumn env i c.name .bitfield c.vals.members
            else w.setColumn env i c.name c.vals.ty
    let w ← w.setWidth i c.vals.words
    let w ← match m? with
      | none => .ok w
      | some m => w.setMissing i m
    Writer.declare env w (i + 1) cs

/-- Write rows one after the other. [`writeRow`, WriterBufferingIterator.cc l.196-214] -/
def Writer.writeRows (env : Env) (o : Order) : Writer → List (List Cell) → Except Err Writer
  | w, [] => .ok w
  | w, r :: rs => do
    let w ← w.writeRow env o r
    Writer.writeRows env o w rs

/-- The properties of a table, one by one. [`property`, WriterBufferingIterator.cc] -/
def Writer.properties (w : Writer) (ps : StrMap) : Writer := ps.foldl (fun w kv => w.property kv.1 kv.2) w

/-- A user writing table `T` row by row with a buffer of `cap` rows, having set the missing values `ms` (one
entry per column): the frames written. [The sequence `setColumn`..., `writeHeader`, `writeRow`..., `close` of WriterBufferingIterator.cc] -/
def UTable.writeMiss (env : Env) (o : Order) (cap : Nat) (ms : List (Option Word)) (T : UTable) :
    Except Err (List (List Byte)) := do
  let w ← ((Writer.new cap).setSize T.cols.length).declare env 0 (T.cols.zip ms)
  let w := w.properties T.props
  let w ← w.writeHeader
  let w ← w.writeRows env o (rowsOf (T.cols.map (InCol.data env)) T.rows)
  let w ← w.close env o
  pure w.out

/-- The same without missing values of its own. [See `UTable.writeMiss`] -/
def UTable.write (env : Env) (o : Order) (cap : Nat) (T : UTable) : Except Err (List (List Byte)) :=
  T.writeMiss env o cap (List.replicate T.cols.length none)

end Verif
