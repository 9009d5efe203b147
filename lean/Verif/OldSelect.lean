import Verif.SqlFilter
import Verif.OldC

/-!
Reading the answer of a query row by row: `odc::Select` and its iterator, and the functions `odb_select_iterator_*` of the old C interface, which have the
rows written to an array of the client.

Models: src/odc/Select.cc, src/odc/SelectIterator.{h,cc}, src/odc/sql/SQLSelectOutput.{h,cc}, src/odc/IteratorProxy.h l.86-130,
src/odc/odccapi.cc l.163-171, 212-242, 274-316, 339-355, 471-476, 500-519.  As in `filter` the engine is a parameter (`Query`).
-/

namespace Verif

/-- A select iterator that has been opened: the columns the engine asks for, its state, and the rows of the table still to come with the exception after them
if any (they are read when the engine asks for them; SelectIterator.h l.46-92, sql/TODATableIterator.h l.66-80). -/
structure Selection where
  asked : List SqlCol
  st : SelState
  rest : List RowView
  fin : Option Err

/-- Making the iterator: Select.cc l.39-46, 59-65, SelectIterator.cc l.26-46, sql/SQLSelectOutput.cc l.139-141. -/
def selOpen (env : Env) (junk : Junk) (q : Query) (bytes : List Byte) (fuel : Nat) : Except Err Selection :=
  match RowIt.begin env junk bytes with
  | .error e => .error e
  | .ok it =>
    match populate it.cols with
    | .error e => .error e
    | .ok table =>
      match sqlColumns table q.names with
      | .error e => .error e
      | .ok cs =>
        match selBegin it.cols cs it.noMore (cs.map SqlCol.name) with
        | .error e => .error e
        | .ok fs =>
          match selUpdate env cs fs (q.select.map Prod.snd) with
          | .error e => .error e
          | .ok o => .ok ⟨cs, ⟨fs, o⟩, (it.all env junk fuel).1, (it.all env junk fuel).2⟩

/-- The loop `for (; it != end; ++it)` over a `Select`, Select.cc l.71-90, SelectIterator.cc l.49-58: the rows seen, the exception that ends it if any, and
the columns the iterator shows in the end. -/
def selectFile (env : Env) (len : List Byte → Nat) (junk : Junk) (q : Query) (bytes : List Byte) (fuel : Nat) :
    Except Err (List RowView × Option Err × List Col) :=
  match selOpen env junk q bytes fuel with
  | .error e => .error e
  | .ok s => .ok (selLoop env len q s.asked s.st s.rest s.fin)

/-! ### The old C interface -/

/-- `columns()[n]` of a select iterator: a vector without a check of the index. [odccapi.cc l.282, 300, 313; SelectIterator.h l.58] -/
def Selection.oldColumn (s : Selection) (n : Nat) : Except Err Col :=
  match s.st.out.cols[n]? with
  | none => .error .ub
  | some c => .ok c

/-- `odb_select_iterator_get_no_of_columns`, odccapi.cc l.274-278. -/
def Selection.oldCount (s : Selection) : Nat := s.st.out.cols.length

/-- `odb_select_iterator_get_column_size_doubles`, odccapi.cc l.280-284. -/
def Selection.oldSize (s : Selection) (n : Nat) : Except Err Nat := (s.oldColumn n).map (fun c => c.codec.width)

/-- `odb_select_iterator_get_column_offset`, odccapi.cc l.286-290: sums of sizes, sql/SQLSelectOutput.cc l.174-176. -/
def Selection.oldOffset (s : Selection) (n : Nat) : Except Err Nat :=
  (s.oldColumn n).map (fun _ => rowWords ((s.st.out.cols.take n).map Col.codec))

/-- `odb_select_iterator_get_column_type`, odccapi.cc l.298-302. -/
def Selection.oldType (s : Selection) (n : Nat) : Except Err Int := (s.oldColumn n).map Col.ty

/-- `odb_select_iterator_get_column_name`, odccapi.cc l.311-316. -/
def Selection.oldName (s : Selection) (n : Nat) : Except Err Str := (s.oldColumn n).map Col.name

/-- `odb_select_iterator_get_row_buffer_size_doubles`, odccapi.cc l.471-476; sql/SQLSelectOutput.cc l.194. -/
def Selection.oldRowSize (s : Selection) : Nat := rowWords (s.st.out.cols.map Col.codec)

/-- `odb_select_iterator_get_missing_value`, odccapi.cc l.509-519: the check lets the number of columns pass as an index. -/
def Selection.oldMissing (s : Selection) (index : Int) : Except Err Word :=
  if index < 0 ∨ (s.st.out.cols.length : Int) < index then .error .userError
  else
    match s.oldColumn index.toNat with
    | .error e => .error e
    | .ok c => c.codec.missingWord

/-- `odb_select_iterator_get_bitfield`, odccapi.cc l.500-504. -/
def Selection.oldBitfield (s : Selection) (n : Nat) : Except Err (Str × Str) := (s.oldColumn n).map (fun c => bitfieldTexts c.bitNames c.bitSizes)

/-- `output` into memory with room for `room` words, sql/SQLSelectOutput.cc l.72-79, 92-137: the words written, and the exception if any.  There must be
room for each value (l.93, 117), and none may be left (l.78). -/
def selPut (len : List Byte → Nat) : Nat → List Col → List Word → List (Cell × Bool) → List Word × Option Err
  | room, k :: ks, m :: ms, x :: xs =>
    if room < (if k.ty = 3 then k.codec.width else 1) then ([], some .assertFailed)
    else
      match selCell len k m x with
      | .error e => ([], some e)
      | .ok y =>
        let r := selPut len (room - (if k.ty = 3 then k.codec.width else 1)) ks ms xs
        (y ++ r.1, r.2)
  | room, _, _, _ => ([], if room = 0 then none else some .assertFailed)

/-- What a call of `next` on a select iterator with the client's memory leaves: a row, with the words written and `isNewDataset()`; the end; an exception, with
the words written before. [SelectIterator.cc l.49-63] -/
inductive SelGot where
  | row (words : List Word) (fresh : Bool) (s : Selection)
  | done (s : Selection)
  | failed (words : List Word) (e : Err)

/-- The flags after a row has been put out, sql/SQLSelectOutput.cc l.81-89. -/
def SelOut.marked (s : SelOut) : SelOut :=
  if s.isNew then (if s.outputted then { s with isNew := false, outputted := false } else { s with outputted := true }) else s

/-- `next`, SelectIterator.cc l.49-58: the engine looks for the next row that meets the condition and passes it to the output.  A new table changes the columns and the
size of a row, but not the memory that was set before (sql/SQLSelectOutput.cc l.196-207). -/
def selPull (env : Env) (len : List Byte → Nat) (q : Query) (cs : List SqlCol) (room : Nat) : SelState → List RowView → Option Err → SelGot
  | s, [], none => .done ⟨cs, s, [], none⟩
  | _, [], some e => .failed [] e
  | s, v :: vs, e =>
    match s.enter env (q.select.map Prod.snd) cs v with
    | .error x => .failed [] x
    | .ok s =>
      let xs := s.fetch.map (Fetch.get v.cells.flatten)
      if q.keep (xs.drop q.select.length) then
        match selPut len room s.out.cols s.out.missing (xs.take q.select.length) with
        | (ws, some x) => .failed ws x
        | (ws, none) => .row ws s.out.marked.isNew ⟨cs, { s with out := s.out.marked }, vs, e⟩
      else selPull env len q cs room s vs e

/-- The memory is set before the row is fetched, its size taken to be that of a row then: odccapi.cc l.342, sql/SQLSelectOutput.cc l.47-60. -/
def Selection.pull (env : Env) (len : List Byte → Nat) (q : Query) (s : Selection) : SelGot :=
  selPull env len q s.asked s.oldRowSize s.st s.rest s.fin

/-- What `odb_select_iterator_get_next_row` leaves: the iterator, the value returned, `*new_dataset` if it has been set, the client's array. -/
structure OldSelRow where
  sel : Selection
  rc : Int
  fresh : Option Bool
  data : List Word

/-- `odb_select_iterator_get_next_row`, odccapi.cc l.339-355: the argument `count` is not used; the client's array is written from its start. -/
def Selection.oldNext (env : Env) (len : List Byte → Nat) (q : Query) (s : Selection) (data : List Word) : Except Err OldSelRow :=
  match s.pull env len q with
  | .failed ws e => if data.length < ws.length then .error .ub else .error e
  | .done s => .ok ⟨s, 1, none, data⟩
  | .row ws fresh s =>
    if data.length < ws.length then .error .ub
    else .ok ⟨s, 0, some fresh, ws ++ data.drop ws.length⟩

end Verif
