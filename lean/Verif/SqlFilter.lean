import Verif.PropSet

/-!
The SQL filter: `odc::api::filter`, and what lies between the rows of a file, the SQL engine and the rows written.

Models: src/odc/sql/TODATable.cc, src/odc/sql/TODATableIterator.cc, src/odc/sql/SQLSelectOutput.{h,cc}, src/odc/sql/Types.cc,
src/odc/Select.cc, src/odc/SelectIterator.cc, src/odc/api/Odb.cc l.690-705.  The engine itself (eckit::sql) is not part of odc: it is a
parameter, restricted to `SELECT column AS title, ... WHERE condition` over the one table that `filter` makes known to it.
-/

namespace Verif

/-! ### Model -/

/-- A query, as the engine has it after parsing: the columns to be output with their titles, the columns the condition is about, and the condition, a
function of their values (each with the information whether it is missing).  [Not in odc: eckit::sql::SQLSelect; sql/TODATableIterator.h l.40-60 is all the engine can
see of a table] -/
structure Query where
  select : List (Str × Str)
  cond : List Str
  keep : List (Cell × Bool) → Bool

/-- All columns the engine asks for, in this order.  [The argument `columns` of `TODATable::iterator`, sql/TODATable.cc l.236-241] -/
def Query.names (q : Query) : List Str := q.select.map Prod.fst ++ q.cond

/-- A column of the table as the engine knows it: what `addColumn` is called with, sql/TODATable.cc l.85-127. -/
structure SqlCol where
  name : Str
  ty : ColType
  bitNames : List Str
  bitSizes : List Int
  width : Nat
  hasMissing : Bool

/-- `populateMetaData`, sql/TODATable.cc l.80-128: the columns of the first table of the file (l.113-114: the other types are refused). -/
def populate : List Col → Except Err (List SqlCol)
  | [] => .ok []
  | k :: ks =>
    match k.codec.missingWord with
    | .error e => .error e
    | .ok _ =>
      match ColType.ofInt? k.ty with
      | none => .error .seriousBug
      | some .ignore => .error .seriousBug
      | some ty =>
        match populate ks with
        | .error e => .error e
        | .ok cs => .ok (⟨k.name, ty, k.bitNames, k.bitSizes, if ty = .bitfield then 1 else k.codec.width, decide (k.codec.hasMissing ≠ 0)⟩ :: cs)

/-- `TODATable::column`, sql/TODATable.cc l.204-233; `columnsByName_` is a map: a name that occurs twice counts once, the last one is kept. -/
def sqlColumn (cs : List SqlCol) (q : Str) : Except Err SqlCol :=
  match cs.reverse.find? (fun c => decide (c.name = q)) with
  | some c => .ok c
  | none =>
    match ((cs.map SqlCol.name).filter (fun n => (q ++ [0x40]).isPrefixOf n)).dedup with
    | [] => .error .seriousBug
    | [n] =>
      match cs.reverse.find? (fun c => decide (c.name = n)) with
      | some c => .ok c
      | none => .error .seriousBug
    | _ => .error .userError

/-- All columns the engine asks for.  [Calls of `TODATable::column`, sql/TODATable.cc l.204-233] -/
def sqlColumns (cs : List SqlCol) : List Str → Except Err (List SqlCol)
  | [] => .ok []
  | q :: qs =>
    match sqlColumn cs q with
    | .error e => .error e
    | .ok c =>
      match sqlColumns cs qs with
      | .error e => .error e
      | .ok l => .ok (c :: l)

/-- Where the value of a column is in a row, and which value means that it is missing: one entry of `columnOffsets_`, `columnDoublesSizes_`,
`columnsHaveMissing_`, `columnMissingValues_`, sql/TODATableIterator.h l.70-77. -/
structure Fetch where
  offset : Nat
  size : Nat
  hasMissing : Bool
  missing : Word

/-- One turn of the loop of `updateMetaData`, sql/TODATableIterator.cc l.112-119 and 33-46: the column of the row's table that the name means; `hasMissing`
is turned into a `char` (by way of `double`, IteratorProxy.h l.131). -/
def fetchCol (ks : List Col) (name : Str) : Except Err Fetch :=
  match columnIndex (ks.map Col.name) name with
  | .error _ => .error .userError
  | .ok i =>
    match ks[i]? with
    | none => .error .ub
    | some k =>
      if k.codec.hasMissing < -128 ∨ 127 < k.codec.hasMissing then .error .ub
      else
        match k.codec.missingWord with
        | .error e => .error e
        | .ok m => .ok ⟨((ks.take i).map (fun k => k.codec.width)).sum, k.codec.width, decide (k.codec.hasMissing ≠ 0), m⟩

/-- `updateMetaData`, sql/TODATableIterator.cc l.103-120. -/
def fetchCols (ks : List Col) : List Str → Except Err (List Fetch)
  | [] => .ok []
  | n :: ns =>
    match fetchCol ks n with
    | .error e => .error e
    | .ok f =>
      match fetchCols ks ns with
      | .error e => .error e
      | .ok fs => .ok (f :: fs)

/-- The value of a column in a row, and whether it is missing.  [`data()` with `columnOffsets()` etc., sql/TODATableIterator.cc l.122-149; read by the engine] -/
def Fetch.get (ws : List Word) (f : Fetch) : Cell × Bool :=
  let x := (ws.drop f.offset).take f.size
  (x, f.hasMissing && feq (cellWord x) f.missing)

/-- The state of the output, sql/SQLSelectOutput.h l.86-111: the columns, the values that stand for missing ones, `isNewDataset_` and `newDatasetOutputted_`. -/
structure SelOut where
  cols : List Col
  missing : List Word
  isNew : Bool
  outputted : Bool

/-- One turn of the loop of `updateTypes`, sql/SQLSelectOutput.cc l.163-192: type (sql/Types.cc l.26-46) and bitfield as the engine knows them from the first
table; the size in memory of strings is that in the current table, of other types one word; a new default codec, hence the default missing value. -/
def selColumn (env : Env) (c : SqlCol) (f : Fetch) (title : Str) : Except Err (Col × Word) :=
  match defaultCodec c.ty env.asDbl with
  | .error e => .error e
  | .ok d =>
    match ({ d with hasMissing := if f.hasMissing then 1 else 0 } : Codec).setWidth (if c.ty = .string then f.size else 1) with
    | .error e => .error e
    | .ok d =>
      match d.missingWord with
      | .error e => .error e
      | .ok m => .ok (⟨title, c.ty.toInt, c.bitNames, c.bitSizes, d⟩, m)

/-- All output columns, sql/SQLSelectOutput.cc l.163-192. -/
def selColumns (env : Env) : List SqlCol → List Fetch → List Str → Except Err (List (Col × Word))
  | c :: cs, f :: fs, t :: ts =>
    match selColumn env c f t with
    | .error e => .error e
    | .ok x =>
      match selColumns env cs fs ts with
      | .error e => .error e
      | .ok xs => .ok (x :: xs)
  | _, _, _ => .ok []

/-- `updateTypes`, sql/SQLSelectOutput.cc l.143-209. -/
def selUpdate (env : Env) (cs : List SqlCol) (fs : List Fetch) (titles : List Str) : Except Err SelOut :=
  match selColumns env cs fs titles with
  | .error e => .error e
  | .ok xs => .ok ⟨xs.map Prod.fst, xs.map Prod.snd, true, false⟩

/-- `outputNumber` and `outputString`, sql/SQLSelectOutput.cc l.92-137: one value.  `len` is the length of a string according to the engine. -/
def selCell (len : List Byte → Nat) (k : Col) (m : Word) (x : Cell × Bool) : Except Err Cell :=
  if k.ty = 3 then
    let n := 8 * k.codec.width
    let l := len (cellBytes x.1)
    if n < l then .error .seriousBug
    else .ok (wordsOf k.codec.width (if x.2 then [] else (cellBytes x.1).take l))
  else .ok [if x.2 then m else cellWord x.1]

/-- The loop of `output`, sql/SQLSelectOutput.cc l.75-77. -/
def selCells (len : List Byte → Nat) : List Col → List Word → List (Cell × Bool) → Except Err (List Cell)
  | k :: ks, m :: ms, x :: xs =>
    match selCell len k m x with
    | .error e => .error e
    | .ok y =>
      match selCells len ks ms xs with
      | .error e => .error e
      | .ok ys => .ok (y :: ys)
  | _, _, _ => .ok []

/-- `output`, sql/SQLSelectOutput.cc l.72-93: the row, as `SelectIterator` (SelectIterator.h l.52-71) then shows it, and the flags afterwards. -/
def SelOut.output (len : List Byte → Nat) (s : SelOut) (xs : List (Cell × Bool)) : Except Err (RowView × SelOut) :=
  match selCells len s.cols s.missing xs with
  | .error e => .error e
  | .ok ys =>
    let s := if s.isNew then (if s.outputted then { s with isNew := false, outputted := false } else { s with outputted := true }) else s
    .ok (⟨s.cols, ys, s.isNew⟩, s)

/-- State of a selection: the positions of the columns in the rows (`TODATableIterator`) and the output. -/
structure SelState where
  fetch : List Fetch
  out : SelOut

/-- `TODATableIterator::next` for one row, sql/TODATableIterator.cc l.77-100: in a new table the columns are looked up again, and the engine tells the output so
(`metadataUpdateCallback_`). -/
def SelState.enter (env : Env) (titles : List Str) (cs : List SqlCol) (s : SelState) (v : RowView) : Except Err SelState :=
  if v.fresh then
    match fetchCols v.cols (cs.map SqlCol.name) with
    | .error e => .error e
    | .ok fs =>
      match selUpdate env cs fs titles with
      | .error e => .error e
      | .ok o => .ok ⟨fs, o⟩
  else .ok s

/-- The rows a `SelectIterator` yields (SelectIterator.cc l.49-58), the exception that ends it, and the columns it shows in the end: the engine passes
the rows that meet the condition to the output. -/
def selLoop (env : Env) (len : List Byte → Nat) (q : Query) (cs : List SqlCol) : SelState → List RowView → Option Err → List RowView × Option Err × List Col
  | s, [], e => ([], e, s.out.cols)
  | s, v :: vs, e =>
    match s.enter env (q.select.map Prod.snd) cs v with
    | .error x => ([], some x, s.out.cols)
    | .ok s =>
      let xs := s.fetch.map (Fetch.get v.cells.flatten)
      if q.keep (xs.drop q.select.length) then
        match s.out.output len (xs.take q.select.length) with
        | .error x => ([], some x, s.out.cols)
        | .ok (row, o) =>
          let r := selLoop env len q cs { s with out := o } vs e
          (row :: r.1, r.2.1, r.2.2)
      else selLoop env len q cs s vs e

/-- The positions before the first row: sql/TODATableIterator.cc l.62-64.  If there is no row the engine has only what it knows of the columns of the table. -/
def selBegin (ks : List Col) (cs : List SqlCol) (noMore : Bool) (names : List Str) : Except Err (List Fetch) :=
  if noMore then .ok (cs.map (fun c => ⟨0, c.width, c.hasMissing, 0⟩)) else fetchCols ks names

/-- `filter` with a query, api/Odb.cc l.692-703, Select.cc l.39-46, 80-90, SelectIterator.cc l.34-46: the table, the names, the iterator over the table,
`prepare` (sql/SQLSelectOutput.cc l.139-141); `begin()` goes to the first row; then `pass1`. -/
def filterFile (env : Env) (len : List Byte → Nat) (cap : Nat) (junk : Junk) (q : Query) (bytes : List Byte) (fuel : Nat) :
    Except Err (Nat × List (List Byte)) :=
  match RowIt.begin env junk bytes with
  | .error e => .error e
  | .ok it =>
    match populate it.cols with
    | .error e => .error e
    | .ok table =>
      match sqlColumns table q.names with
      | .error e => .error e
      | .ok cs =>
        match selBegin it.cols cs it.noMore (cs.map SqlCol.name) with
        | .error e => .error e
        | .ok fs =>
          match selUpdate env cs fs (q.select.map Prod.snd) with
          | .error e => .error e
          | .ok o =>
            let rows := it.all env junk fuel
            let r := selLoop env len q cs ⟨fs, o⟩ rows.1 rows.2
            match r.1, r.2.1 with
            | [], some e => .error e
            | [], none => pass1 env .same cap r.2.2 ([], none)
            | v :: vs, e => pass1 env .same cap v.cols (v :: vs, e)

/-- `filter`, api/Odb.cc l.690-705: with an empty query text the input is copied and the number of rows is given as 0. -/
def filterApi (env : Env) (len : List Byte → Nat) (cap : Nat) (junk : Junk) (q : Option Query) (bytes : List Byte) (fuel : Nat) :
    Except Err (Nat × List (List Byte)) :=
  match q with
  | none => .ok (0, [bytes])
  | some q => filterFile env len cap junk q bytes fuel

end Verif
