import Verif.CommandLine
import Verif.Csv

/-!
`odc xyv`: a column of a file with its coordinates, as text for plotting.

Models: src/odc/tools/XYVTool.cc.
-/

namespace Verif

/-- What `odc xyv` takes from its command line: the file to read, the column, the file to write. [tools/XYVTool.cc l.29-41] -/
def xyvPlan (args : List Str) : Except Err (Str × Str × Str) :=
  match (Clp.new args).parameters with
  | (_, .error e) => .error e
  | (_, .ok [_, inFile, column, outFile]) => .ok (inFile, column, outFile)
  | (_, .ok _) => .error .userError

/-- The statement, tools/XYVTool.cc l.52. -/
def xyvSelect (inFile column : Str) : Str := lit "select lat, lon, " ++ column ++ lit " from \"" ++ inFile ++ lit "\";"

/-- What is written before the rows, tools/XYVTool.cc l.46-50. -/
def xyvHead : Str :=
  lit "#GEO" ++ [10, 10] ++ lit "#FORMAT XYV" ++ [10, 10] ++ lit "PARAMETER = 12004" ++ [10, 10] ++ lit "x/long" ++ [9] ++ lit "y/lat" ++ [9] ++ lit "value" ++ [10] ++
    lit "#DATA" ++ [10, 10]

/-- The loop over the rows, tools/XYVTool.cc l.56-58; `out` is what has been written, `num` is `<<` of a `double` (a word of the row as one), the rows are those the statement gives (a row
with fewer values than three is not one of them). -/
def xyvLoop (num : Word → Str) (out : Str) : List (List Word) → Str
  | [] => out
  | r :: rs => xyvLoop num (out ++ num (r.getD 0 0) ++ [9] ++ num (r.getD 1 0) ++ [9] ++ num (r.getD 2 0) ++ [10]) rs

/-- `odc xyv`, tools/XYVTool.cc l.28-60: the file written and its contents.  `select` runs a statement. -/
def xyvTool (num : Word → Str) (select : Str → Except Err (List (List Word))) (args : List Str) : Except Err (Str × Str) :=
  match xyvPlan args with
  | .error e => .error e
  | .ok (inFile, column, outFile) =>
    match select (xyvSelect inFile column) with
    | .error e => .error e
    | .ok rows => .ok (outFile, xyvLoop num xyvHead rows)

end Verif
