import Verif.Count
import Verif.Listing

/-!
`odc header`.

Models: src/odc/tools/ODAHeaderTool.cc l.24-190.
-/

namespace Verif

/-- The three printers, tools/ODAHeaderTool.cc l.169-171. -/
inductive HdMode
  | verbose
  | offsets
  | ddl
  deriving DecidableEq

/-- `headerCount_` of the verbose printer and `md_` of the DDL printer, tools/ODAHeaderTool.cc l.46, 146 (unbounded here). -/
structure HdState where
  count : Nat
  md : List (List Col)

/-- `VerbosePrinter::print`, tools/ODAHeaderTool.cc l.35-42, with `n` the count after the increment; `shown` is the text of the columns (MetaData.cc l.276-280),
a parameter here. -/
def hdVerbose (shown : List Col → Str) (n : Nat) (t : Tbl) : Str :=
  lit "\nHeader " ++ decimal n ++ lit ". Begin offset: " ++ decimal t.start ++ lit ", end offset: " ++ decimal t.next ++ lit ", number of rows in block: " ++
    decimal t.info.nrows ++ lit ", byteOrder: " ++ (match t.order with | .same => lit "same" | .other => lit "other") ++ [10] ++ shown t.info.cols

/-- `OffsetsPrinter::print`, tools/ODAHeaderTool.cc l.53-57. -/
def hdOffsets (t : Tbl) : Str :=
  decimal t.start ++ [32] ++ decimal (t.next - t.start) ++ [32] ++ decimal t.info.nrows ++ [32] ++ decimal t.info.cols.length ++ [10]

/-- One call of the printer: the new state and what is printed, tools/ODAHeaderTool.cc l.35-42, 53-57, 64-69. -/
def hdPrint (shown : List Col → Str) (m : HdMode) (s : HdState) (t : Tbl) : Except Err (HdState × Str) :=
  match m with
  | .verbose => .ok ({ s with count := s.count + 1 }, hdVerbose shown (s.count + 1) t)
  | .offsets => .ok (s, hdOffsets t)
  | .ddl =>
    match s.md.getLast? with
    | none => match cloneCols t.info.cols with | .error e => .error e | .ok cs => .ok ({ s with md := s.md ++ [cs] }, [])
    | some b =>
      if b.map Col.shape = t.info.cols.map Col.shape then .ok (s, [])
      else match cloneCols t.info.cols with | .error e => .error e | .ok cs => .ok ({ s with md := s.md ++ [cs] }, [])

/-- The loop over the tables, tools/ODAHeaderTool.cc l.174-180: what is printed, and the state at the end or the exception.  At most `fuel` tables. -/
def hdLoop (shown : List Col → Str) (m : HdMode) (env : Env) (f : File) : Nat → List Tbl → Int → HdState → Str × Except Err HdState
  | 0, _, _, _ => ([], .error .diverges)
  | fuel + 1, ts, pos, s =>
    if pos = -1 then ([], .ok s)
    else
      match itGet ts pos with
      | .error e => ([], .error e)
      | .ok t =>
        match hdPrint shown m s t with
        | .error e => ([], .error e)
        | .ok (s, text) =>
          match itIncr env f ts pos with
          | (_, _, some e) => (text, .error e)
          | (ts', pos', none) => (text ++ (hdLoop shown m env f fuel ts' pos' s).1, (hdLoop shown m env f fuel ts' pos' s).2)

/-- `typeName`, tools/ODAHeaderTool.cc l.76-91; the default throws a pointer, which nobody catches. -/
def ddlTypeName (ty : Int) : Except Err Str :=
  if ty = 3 then .ok (lit "STRING")
  else if ty = 1 then .ok (lit "INTEGER")
  else if ty = 4 then .ok (lit "INTEGER")
  else if ty = 2 then .ok (lit "REAL")
  else if ty = 5 then .ok (lit "DOUBLE")
  else .error .assertFailed

/-- `stripAtTable`, tools/ODAHeaderTool.cc l.114-122. -/
def stripAt (table name : Str) : Str :=
  let suffix := 64 :: table
  if suffix.length ≤ name.length ∧ name.drop (name.length - suffix.length) = suffix then name.take (name.length - suffix.length) else name

/-- The fields of a bitfield, tools/ODAHeaderTool.cc l.105-107. -/
def ddlFields : List Str → List Int → Except Err Str
  | _, [] => .ok []
  | [], _ :: _ => .error .ub
  | n :: ns, k :: ks =>
    match ddlFields ns ks with
    | .error e => .error e
    | .ok s => .ok (n ++ lit " bit" ++ decimal k ++ (if ks = [] then [] else lit ", ") ++ s)

/-- `typeDefinitionAndName`, tools/ODAHeaderTool.cc l.93-112. -/
def ddlType (table : Str) (k : Col) : Except Err (Str × Str) :=
  match ddlTypeName k.ty with
  | .error e => .error e
  | .ok ty =>
    if k.ty = 4 then
      let name := stripAt table k.name ++ lit "_at_" ++ table ++ lit "_t"
      match ddlFields k.bitNames k.bitSizes with
      | .error e => .error e
      | .ok s => .ok (lit "CREATE TYPE " ++ name ++ lit " AS (" ++ s ++ lit ");\n", name)
    else .ok ([], ty)

/-- The loop of `printTable`, tools/ODAHeaderTool.cc l.128-134: the definitions of types, and the columns. -/
def ddlCols (table : Str) : List Col → Except Err (Str × Str)
  | [] => .ok ([], [])
  | k :: ks =>
    match ddlType table k with
    | .error e => .error e
    | .ok (d, ty) =>
      match ddlCols table ks with
      | .error e => .error e
      | .ok (ds, cs) => .ok (d ++ ds, lit "  " ++ stripAt table k.name ++ [32] ++ ty ++ lit ",\n" ++ cs)

/-- `printTable`, tools/ODAHeaderTool.cc l.124-139. -/
def ddlTable (table path : Str) (ks : List Col) : Except Err Str :=
  match ddlCols table ks with
  | .error e => .error e
  | .ok (ds, cs) => .ok (ds ++ lit "CREATE TABLE " ++ table ++ lit " AS (\n" ++ cs ++ lit ") ON '" ++ path ++ lit "';\n")

/-- `printSummary`, tools/ODAHeaderTool.cc l.27, 71-74. -/
def hdSummary (table path : Str) : List (List Col) → Str × Option Err
  | [] => ([], none)
  | ks :: kss =>
    match ddlTable table path ks with
    | .error e => ([], some e)
    | .ok s => (s ++ (hdSummary table path kss).1, (hdSummary table path kss).2)

/-- `run` from the opening of the file, tools/ODAHeaderTool.cc l.174-181: what is printed, and the exception if any. -/
def hdFile (shown : List Col → Str) (m : HdMode) (table path : Str) (env : Env) (bytes : List Byte) : Str × Option Err :=
  let f := File.known bytes
  match ensureTable env f [] 0 with
  | .error e => ([], some e)
  | .ok (ts, more) =>
    match hdLoop shown m env f (bytes.length + 1) ts (if more then 0 else -1) ⟨0, []⟩ with
    | (text, .error e) => (text, some e)
    | (text, .ok s) => (text ++ (hdSummary table path s.md).1, (hdSummary table path s.md).2)

/-- `run` up to the opening of the file, tools/ODAHeaderTool.cc l.152-171: the file, what is printed, and the name of the table. -/
def hdPlan (args : List Str) : Except Err (Str × HdMode × Str) :=
  let c := (Clp.new args).register (lit "-table")
  match c.parameters with
  | (_, .error e) => .error e
  | (c, .ok ps) =>
    if ps.length ≠ 2 then .error .userError
    else
      match c.parameter 1 with
      | (_, .error e) => .error e
      | (c, .ok db) =>
        match c.optionArgument (fun s => Except.ok s) (lit "-table") (lit "foo") with
        | (_, .error e) => .error e
        | (c, .ok table) =>
          match c.optionIsSet (lit "-offsets") with
          | (_, .error e) => .error e
          | (_, .ok true) => .ok (db, .offsets, table)
          | (c, .ok false) =>
            match c.optionIsSet (lit "-ddl") with
            | (_, .error e) => .error e
            | (_, .ok true) => .ok (db, .ddl, table)
            | (_, .ok false) => .ok (db, .verbose, table)

end Verif
