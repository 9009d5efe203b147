import Verif.Csv
import Verif.CommandLine

/-!
What `odc sql` takes from its command line.

Models: src/odc/tools/SQLTool.cc (constructor, `run` up to the statement), src/odc/sql/SQLOutputConfig.cc (`buildOutput`).
-/

namespace Verif

/-- The next question to the command line, if the one before was answered. -/
def ask {α β : Type} (r : Clp × Except Err α) (k : Clp → α → Except Err β) : Except Err β :=
  match r with
  | (_, .error e) => .error e
  | (c, .ok a) => k c a

/-- Where the rows come from that are not in a table named in the statement: nowhere, a file, or a part of a file. [tools/SQLTool.cc l.116-138] -/
inductive SqlInput
  | nothing
  | whole (file : Str)
  | part (file : Str) (offset length : Int)
  deriving DecidableEq

/-- What `odc sql` is asked. [tools/SQLTool.cc l.39-143] -/
structure SqlPlan where
  noColumnNames : Bool
  noNull : Bool
  delimiter : Str
  format : Str
  binary : Bool
  noAlignment : Bool
  fullPrecision : Bool
  outputFile : Str
  textFile : Option Str
  statement : Str
  input : SqlInput
  deriving DecidableEq

/-- Where the rows come from, tools/SQLTool.cc l.118-133 (`NOTIMP` throws `eckit::NotImplemented`, for which `seriousBug` stands here). -/
def sqlInput (file : Str) (offset length : Int) : Except Err SqlInput :=
  if file = [] then .ok .nothing
  else if file = lit "/dev/stdin" ∨ file = lit "stdin" then .error .seriousBug
  else if offset = 0 then .ok (.whole file)
  else .ok (.part file offset length)

/-- `odc sql`, tools/SQLTool.cc l.39-143: `num` is the translator of numbers, `sel` is `StringTool::isSelectStatement`, `read` is `StringTool::readFile`.  The
default format is `default` (eckit).  The second name of an option is asked for always. -/
def sqlPlan (num : Str → Except Err Int) (sel : Str → Bool) (read : Str → Except Err Str) (args : List Str) : Except Err SqlPlan :=
  let text (s : Str) : Except Err Str := .ok s
  let c := ((((((((Clp.new args).register (lit "-o")).register (lit "-i")).register (lit "-I")).register (lit "-delimiter")).register (lit "-f")).register
    (lit "-offset")).register (lit "-length"))
  ask (c.optionArgument text (lit "-i") []) fun c i =>
  ask (c.optionArgument num (lit "-offset") 0) fun c offset =>
  ask (c.optionArgument num (lit "-length") 0) fun c length =>
  ask (c.optionIsSet (lit "-T")) fun c noColumnNames =>
  ask (c.optionIsSet (lit "-N")) fun c noNull =>
  ask (c.optionArgument text (lit "-delimiter") [9]) fun c delimiter =>
  ask (c.optionArgument text (lit "-f") (lit "default")) fun c format =>
  ask (c.optionIsSet (lit "--bin")) fun c bin =>
  ask (c.optionIsSet (lit "--binary")) fun c binary =>
  ask (c.optionIsSet (lit "--no_alignment")) fun c noAlignment =>
  ask (c.optionIsSet (lit "--full_precision")) fun c full =>
  ask (c.optionIsSet (lit "--full-precision")) fun c full' =>
  ask (c.optionArgument text (lit "-o") []) fun c o =>
  ask c.parameters fun c ps =>
  ask (c.optionIsSet (lit "-o")) fun _ oSet =>
  match ps with
  | _ :: p :: ps' =>
    if format = lit "odb" ∧ !oSet then .error .userError
    else
      match (if sel p then .ok (joinWith 32 (p :: ps')) else read (if p = lit "-" then lit "/dev/tty" else p)) with
      | .error e => .error e
      | .ok q =>
        match sqlInput (if i = lit "-" then lit "/dev/stdin" else i) offset length with
        | .error e => .error e
        | .ok input =>
          .ok ⟨noColumnNames, noNull, delimiter, format, bin || binary, noAlignment, full || full', if o = lit "-" then lit "/dev/stdout" else o,
            if oSet && format ≠ lit "odb" then some o else none, q ++ lit ";", input⟩
  | _ => .error .userError

/-- Where the result goes: text to standard output or to a file, or frames to a file. [sql/SQLOutputConfig.cc l.39-70] -/
inductive SqlDest
  | text (file : Option Str)
  | frames (file : Str)
  deriving DecidableEq

/-- `SQLOutputConfig::buildOutput` called with the output file of the configuration, as eckit does for a statement without INTO, sql/SQLOutputConfig.cc
l.39-66 (`NOTIMP` as in `sqlInput`; a file with parameters in its name is a template, left out here). -/
def SqlPlan.dest (p : SqlPlan) : Except Err SqlDest :=
  let format := if p.format = lit "default" then (if p.outputFile = [] then lit "ascii" else lit "odb") else p.format
  if format = lit "wide" ∨ format = lit "ascii" then .ok (.text p.textFile)
  else if format = lit "odb" then (if p.outputFile = [] then .error .assertFailed else .ok (.frames p.outputFile))
  else .error .seriousBug

end Verif
