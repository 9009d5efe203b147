import Verif.Csv
import Verif.CommandLine

/-!
What the tools take from their command lines.

Models: the constructors and the beginnings of `run` in src/odc/tools/{CompactTool,FixedSizeRowTool,CountTool,IndexTool,SetTool,MDSetTool,SplitTool,CompareTool,MergeTool}.cc.
Everywhere `parameters()` is called once; calling it again gives the same (`C63_answers`).
-/

namespace Verif

/-- `odc compact` and `odc fixrowsize`: the file to read and the file to write, tools/CompactTool.cc l.27-38, tools/FixedSizeRowTool.cc l.26-37. -/
def copyPlan (args : List Str) : Except Err (Str × Str) :=
  match (Clp.new args).parameters with
  | (_, .error e) => .error e
  | (_, .ok [_, inFile, outFile]) => .ok (inFile, outFile)
  | (_, .ok _) => .error .userError

/-- `odc count`: the files, tools/CountTool.cc l.42-63. -/
def countPlan (args : List Str) : Except Err (List Str) :=
  match (Clp.new args).parameters with
  | (_, .error e) => .error e
  | (_, .ok ps) => if ps.length < 2 then .error .userError else .ok (ps.drop 1)

/-- `odc index`: the file and the index, tools/IndexTool.cc l.44-58. -/
def indexPlan (args : List Str) : Except Err (Str × Str) :=
  match (Clp.new args).parameters with
  | (_, .error e) => .error e
  | (_, .ok [_, dataFile]) => .ok (dataFile, dataFile ++ lit ".idx")
  | (_, .ok [_, dataFile, indexFile]) => .ok (dataFile, indexFile)
  | (_, .ok _) => .error .userError

/-- `odc set` and `odc mdset`: the list of updates, the file to read and the file to write, tools/SetTool.cc l.33-55, tools/MDSetTool.cc l.54-69. -/
def updatePlan (args : List Str) : Except Err (Str × Str × Str) :=
  match (Clp.new args).parameters with
  | (_, .error e) => .error e
  | (_, .ok [_, updates, inFile, outFile]) => .ok (updates, inFile, outFile)
  | (_, .ok _) => .error .userError

/-- What `odc split` is asked. [tools/SplitTool.cc l.38-61] -/
structure SplitPlan where
  inFile : Str
  template : Str
  sort : Bool
  maxOpen : Int
  verify : Bool
  deriving DecidableEq

/-- `odc split`, tools/SplitTool.cc l.34-61; `num` is the translator of the number.  (`-no_verification` is asked for only without `-sort`.) -/
def splitPlan (num : Str → Except Err Int) (args : List Str) : Except Err SplitPlan :=
  let c := (Clp.new args).register (lit "-maxopenfiles")
  match c.parameters with
  | (_, .error e) => .error e
  | (c, .ok ps) =>
    if ps.length ≠ 3 then .error .userError
    else
      match c.optionIsSet (lit "-sort") with
      | (_, .error e) => .error e
      | (c, .ok sort) =>
        match c.optionArgument num (lit "-maxopenfiles") 200 with
        | (_, .error e) => .error e
        | (c, .ok n) =>
          match c.optionIsSet (lit "-no_verification") with
          | (_, .error e) => .error e
          | (_, .ok b) => .ok ⟨ps.getD 1 [], ps.getD 2 [], sort, n, !b⟩

/-- What `odc compare` is asked: the files and the arguments of `compareTool`. [tools/CompareTool.cc l.28-75] -/
structure ComparePlan where
  file1 : Str
  file2 : Str
  dontCheckMissing : Bool
  exclTypes : List Str
  exclCols : List Str
  deriving DecidableEq

/-- `odc compare`, tools/CompareTool.cc l.28-75; `present` says which files exist (the exception is a plain `eckit::Exception`).  That the files are opened
between is left out. -/
def comparePlan (present : Str → Bool) (args : List Str) : Except Err ComparePlan :=
  let c := ((Clp.new args).register (lit "-excludeColumnsTypes")).register (lit "-excludeColumns")
  match c.parameters with
  | (_, .error e) => .error e
  | (c, .ok ps) =>
    if ps.length ≠ 3 then .error .userError
    else if !present (ps.getD 1 []) || !present (ps.getD 2 []) then .error .ioError
    else
      match c.optionArgument (fun s => Except.ok s) (lit "-excludeColumnsTypes") [] with
      | (_, .error e) => .error e
      | (c, .ok types) =>
        match c.optionArgument (fun s => Except.ok s) (lit "-excludeColumns") [] with
        | (_, .error e) => .error e
        | (c, .ok cols) =>
          match c.optionIsSet (lit "-dontCheckMissing") with
          | (_, .error e) => .error e
          | (_, .ok b) => .ok ⟨ps.getD 1 [], ps.getD 2 [], b, splitAt (lit ",") types, splitAt (lit ",") cols⟩

/-- The loop of the constructor of `MergeTool`, tools/MergeTool.cc l.55-61: the files, and with `-S` the statements, `stmt` being the statement itself or what is
in the file of this name; reading a parameter beyond the last is undefined. -/
def mergeArgs (stmt : Str → Except Err Str) (sql : Bool) : List Str → Except Err (List (Str × Option Str))
  | [] => .ok []
  | [f] => if sql then .error .ub else .ok [(f, none)]
  | f :: s :: r =>
    if sql then
      match stmt s with
      | .error e => .error e
      | .ok q =>
        match mergeArgs stmt sql r with
        | .error e => .error e
        | .ok fs => .ok ((f, some q) :: fs)
    else
      match mergeArgs stmt sql (s :: r) with
      | .error e => .error e
      | .ok fs => .ok ((f, none) :: fs)

/-- `odc merge`, tools/MergeTool.cc l.37-62: the files with their statements, and the file to write.  `UserError("Output file is obligatory …")` in l.52 makes
an exception and does not throw it. -/
def mergePlan (stmt : Str → Except Err Str) (args : List Str) : Except Err (List (Str × Option Str) × Str) :=
  let c := (Clp.new args).register (lit "-o")
  match c.parameters with
  | (_, .error e) => .error e
  | (c, .ok ps) =>
    if ps.length < 3 then .error .userError
    else
      match c.optionIsSet (lit "-S") with
      | (_, .error e) => .error e
      | (c, .ok sql) =>
        match c.optionArgument (fun s => Except.ok s) (lit "-o") (lit "<no-default>") with
        | (_, .error e) => .error e
        | (_, .ok out) =>
          match mergeArgs stmt sql (ps.drop 1) with
          | .error e => .error e
          | .ok fs => .ok (fs, out)

end Verif
