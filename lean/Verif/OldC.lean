import Verif.Count
import Verif.Dispatch

/-
The old C interface (`odb_…` functions, which the Fortran module binds to).

Models: src/odc/odccapi.cc.  Exceptions are not caught by these functions; `Except.error` is an exception that leaves the function, or undefined
behaviour.  The indices of columns and the numbers of columns, sizes and rows are natural numbers here (`int` there).
-/

namespace Verif

/-! ### Writing -/

/-- `std::string(p)` for a `const char*`: the bytes before the first zero byte. [odccapi.cc l.393, 399-400] -/
def cstr (s : Str) : Str := s.takeWhile (fun b => decide (b ≠ 0))

/-- Function of the C library whose result is not modelled: the size that `size_t size(atof(text))` and the conversion to the `int32_t` of a member give,
odccapi.cc l.417-419. -/
structure OldLib where
  sizeOf : Str → Int

/-- The texts that a colon ends, odccapi.cc l.405-412 and 414-422: what follows the last colon is not looked at. -/
def colonFields : Str → Str → List Str
  | _, [] => []
  | acc, b :: s => if b = 58 then acc :: colonFields [] s else colonFields (acc ++ [b]) s

/-- An array of doubles as one cell per column. [`columnOffsets_`, WriterBufferingIterator.cc l.139-146] -/
def splitWords : List Nat → List Word → List Cell
  | [], _ => []
  | n :: ns, ws => ws.take n :: splitWords ns (ws.drop n)

/-- The calls a client makes on a write iterator, odccapi.cc l.384-493. -/
inductive OldCall where
  /-- `odb_write_iterator_set_no_of_columns`, l.384-388 -/
  | columns (n : Nat)
  /-- `odb_write_iterator_set_column`, l.390-393 -/
  | column (i : Nat) (ty : Int) (name : Str)
  /-- `odb_write_iterator_set_bitfield`, l.395-429 -/
  | bitfield (i : Nat) (ty : Int) (name names sizes : Str)
  /-- `odb_write_iterator_set_column_size_doubles`, l.431-436 -/
  | size (i n : Nat)
  /-- `odb_write_iterator_set_missing_value`, l.478-482 -/
  | missing (i : Nat) (v : Word)
  /-- `odb_write_iterator_write_header`, l.484-488 -/
  | header
  /-- `odb_write_iterator_set_next_row`, l.490-493 -/
  | row (data : List Word) (count : Nat)
  deriving DecidableEq

/-- One call, odccapi.cc l.384-493.  A number that is no type fails the assertion of core/Column.h l.202-204; member names and sizes of different number
are refused at once here, and when the table is written there (core/Column.h l.168).  The row is an array that must reach as far as the columns. -/
def OldCall.run (env : Env) (lib : OldLib) (w : Writer) : OldCall → Except Err Writer
  | .columns n => .ok (w.setSize n)
  | .column i ty name =>
    match ColType.ofInt? ty with
    | none => .error .assertFailed
    | some t => w.setColumn env i (cstr name) t
  | .bitfield i ty name names sizes =>
    let ns := colonFields [] (cstr names)
    let ss := (colonFields [] (cstr sizes)).map lib.sizeOf
    match ColType.ofInt? ty with
    | none => .error .assertFailed
    | some t => if ns.length ≠ ss.length then .error .assertFailed else w.setBitfieldColumn env i (cstr name) t (ns.zip ss)
  | .size i n => w.setWidth i n
  | .missing i v => w.setMissing i v
  | .header => w.writeHeader
  | .row data count =>
    if count ≠ w.cols.length then .error .assertFailed
    else if w.inited = false then .error .assertFailed
    else
      match coders w.cols with
      | none => .error .ub
      | some cs => if data.length < rowWords cs then .error .ub else w.writeRow env .same (splitWords (cs.map Codec.width) data)

/-- Calls one after the other, odccapi.cc l.384-493. -/
def runCalls (env : Env) (lib : OldLib) : Writer → List OldCall → Except Err Writer
  | w, [] => .ok w
  | w, c :: cs =>
    match c.run env lib w with
    | .error e => .error e
    | .ok w => runCalls env lib w cs

/-- A client of `odb_create_write_iterator` (`old = []`: the file is emptied) or `odb_create_append_iterator` (`old` is what the file holds), l.357-377, of
the calls, and of `odb_write_iterator_destroy` (the destructor closes the iterator), l.379-382: the file afterwards. -/
def oldWriteFile (env : Env) (lib : OldLib) (cap : Nat) (old : List Byte) (calls : List OldCall) : Except Err (List Byte) :=
  match runCalls env lib (Writer.new cap) calls with
  | .error e => .error e
  | .ok w =>
    match w.close env .same with
    | .error e => .error e
    | .ok w => .ok (old ++ w.out.flatten)

/-- `odb_write_iterator_get_row_buffer_size_doubles`, odccapi.cc l.438-443, after `write_header`. -/
def Writer.oldRowSize (w : Writer) : Except Err Nat :=
  match coders w.cols with
  | none => .error .ub
  | some cs => .ok (rowWords cs)

/-- `odb_write_iterator_get_column_offset`, odccapi.cc l.445-450. -/
def Writer.oldOffset (w : Writer) (i : Nat) : Except Err Nat :=
  match coders w.cols with
  | none => .error .ub
  | some cs => if i < cs.length then .ok (rowWords (cs.take i)) else .error .ub

/-! ### Reading -/

/-- `odb_create_read_iterator` on an existing file with these bytes, odccapi.cc l.198-210: the constructor loads the first table with rows
(ReaderIterator.cc l.47-70). -/
def oldOpen (env : Env) (junk : Junk) (bytes : List Byte) : Except Err RowIt :=
  match (RowIt.new bytes).load env junk (bytes.length + 1) with
  | .error e => .error e
  | .ok (it, _) => .ok it

/-- `odb_read_iterator_get_no_of_columns`, odccapi.cc l.256-260. -/
def RowIt.oldCount (it : RowIt) : Nat := it.cols.length

/-- `iter->columns()[n]`: a vector without a check of the index. [odccapi.cc l.263] -/
def RowIt.oldColumn (it : RowIt) (n : Nat) : Except Err Col :=
  match it.cols[n]? with
  | none => .error .ub
  | some c => .ok c

/-- `odb_read_iterator_get_column_size_doubles`, odccapi.cc l.262-266. -/
def RowIt.oldSize (it : RowIt) (n : Nat) : Except Err Nat := (it.oldColumn n).map (fun c => c.codec.width)

/-- `odb_read_iterator_get_column_offset`, odccapi.cc l.268-272: the offsets are sums of sizes (ReaderIterator.cc l.162-168). -/
def RowIt.oldOffset (it : RowIt) (n : Nat) : Except Err Nat :=
  (it.oldColumn n).map (fun _ => rowWords ((it.cols.take n).map Col.codec))

/-- `odb_read_iterator_get_column_type`, odccapi.cc l.292-296. -/
def RowIt.oldType (it : RowIt) (n : Nat) : Except Err Int := (it.oldColumn n).map Col.ty

/-- `odb_read_iterator_get_column_name`, odccapi.cc l.304-309. -/
def RowIt.oldName (it : RowIt) (n : Nat) : Except Err Str := (it.oldColumn n).map Col.name

/-- `odb_read_iterator_get_row_buffer_size_doubles`, odccapi.cc l.464-469. -/
def RowIt.oldRowSize (it : RowIt) : Nat := rowWords (it.cols.map Col.codec)

/-- `odb_read_iterator_get_missing_value`, odccapi.cc l.452-462: the check lets the number of columns pass as an index. -/
def RowIt.oldMissing (it : RowIt) (index : Int) : Except Err Word :=
  if index < 0 ∨ (it.cols.length : Int) < index then .error .userError
  else
    match it.oldColumn index.toNat with
    | .error e => .error e
    | .ok c => c.codec.missingWord

/-- The two texts of `get_bitfield`, odccapi.cc l.39-62: a colon after every name and every size. -/
def bitfieldTexts (names : List Str) (sizes : List Int) : Str × Str :=
  ((names.map (fun n => n ++ [58])).flatten, (sizes.map (fun s => decimal s ++ [58])).flatten)

/-- `odb_read_iterator_get_bitfield`, odccapi.cc l.495-498. -/
def RowIt.oldBitfield (it : RowIt) (n : Nat) : Except Err (Str × Str) := (it.oldColumn n).map (fun c => bitfieldTexts c.bitNames c.bitSizes)

/-- What `odb_read_iterator_get_next_row` leaves: the iterator, the value returned, `*new_dataset` if it has been set, the client's array. -/
structure OldRow where
  it : RowIt
  rc : Int
  fresh : Option Bool
  data : List Word

/-- `odb_read_iterator_get_next_row`, odccapi.cc l.318-337: the array `data` of the client is written from its start without a check of its size; with a
wrong `count` the row has been read already. -/
def RowIt.oldNext (env : Env) (junk : Junk) (it : RowIt) (count : Nat) (data : List Word) : Except Err OldRow :=
  match it.next env junk with
  | .error e => .error e
  | .ok (it, false) => .ok ⟨it, 1, none, data⟩
  | .ok (it, true) =>
    if count ≠ it.cols.length then .ok ⟨it, 2, some it.newData, data⟩
    else if data.length < it.oldRowSize then .error .ub
    else .ok ⟨it, 0, some it.newData, it.last.flatten.take it.oldRowSize ++ data.drop it.oldRowSize⟩

/-! ### Files -/

/-- The loop of `odb_count`, odccapi.cc l.81-90: like `countLoop`, in a double. -/
def oldCountLoop (env : Env) (f : File) : Nat → List Tbl → Int → Word → Except Err Word
  | 0, _, _, _ => .error .diverges
  | fuel + 1, ts, pos, n =>
    if pos = -1 then .ok n
    else
      match itGet ts pos with
      | .error e => .error e
      | .ok t =>
        match itIncr env f ts pos with
        | (_, _, some e) => .error e
        | (ts', pos', none) => oldCountLoop env f fuel ts' pos' (fadd n (ofInt t.info.nrows))

/-- `odb_count`, odccapi.cc l.81-90. -/
def odbCount (env : Env) (bytes : List Byte) : Except Err Word :=
  match ensureTable env (File.known bytes) [] 0 with
  | .error e => .error e
  | .ok (ts, true) => oldCountLoop env (File.known bytes) (bytes.length + 1) ts 0 (ofInt 0)
  | .ok (ts, false) => oldCountLoop env (File.known bytes) (bytes.length + 1) ts (-1) (ofInt 0)

/-- The loop of `get_blocks_offsets`, odccapi.cc l.98-101: start and length of every table. -/
def oldBlocksLoop (env : Env) (f : File) : Nat → List Tbl → Int → Except Err (List (Int × Int))
  | 0, _, _ => .error .diverges
  | fuel + 1, ts, pos =>
    if pos = -1 then .ok []
    else
      match itGet ts pos with
      | .error e => .error e
      | .ok t =>
        match itIncr env f ts pos with
        | (_, _, some e) => .error e
        | (ts', pos', none) =>
          match oldBlocksLoop env f fuel ts' pos' with
          | .error e => .error e
          | .ok bs => .ok ((t.start, t.next - t.start) :: bs)

/-- `get_blocks_offsets`, odccapi.cc l.92-117: offsets and sizes, one pair per block. -/
def blocksOffsets (env : Env) (bytes : List Byte) : Except Err (List (Int × Int)) :=
  match ensureTable env (File.known bytes) [] 0 with
  | .error e => .error e
  | .ok (ts, true) => oldBlocksLoop env (File.known bytes) (bytes.length + 1) ts 0
  | .ok (ts, false) => oldBlocksLoop env (File.known bytes) (bytes.length + 1) ts (-1)

end Verif
