import Verif.PropCsv

/-!
The command lines of the tools.

Models: src/odc/CommandLineParser.cc, CommandLineParser.h; src/odc/tools/ImportTool.cc l.37-78.
-/

namespace Verif

/-! ### The parser -/

/-- The state of a `CommandLineParser`: what has been given and registered, and what has been found so far (CommandLineParser.h l.63-73).  The map of options with
arguments is a list with one entry for each key. -/
structure Clp where
  parsed : Bool
  args : List Str
  regs : List Str
  withArg : List (Str × Str)
  noArg : List Str
  params : List Str

/-- The constructor, CommandLineParser.cc l.26-33. -/
def Clp.new (args : List Str) : Clp := ⟨false, args, [], [], [], []⟩

/-- `registerOptionWithArgument`, CommandLineParser.cc l.77-79. -/
def Clp.register (c : Clp) (o : Str) : Clp := { c with regs := o :: c.regs }

/-- `map[key] = value`. -/
def setKey (m : List (Str × Str)) (k v : Str) : List (Str × Str) := (k, v) :: m.filter (fun p => p.1 ≠ k)

/-- `s[0] != '-' || s.size() == 1` is false: the argument is taken for an option, CommandLineParser.cc l.117.  (`s[0]` of an empty string is the null character.) -/
def dashed (s : Str) : Bool := s.head? = some 45 ∧ s.length ≠ 1

/-- The loop of `parseCommandLine`, CommandLineParser.cc l.115-137: at the end of the arguments `argv(++i)` throws (l.69-76), and what has been found so far stays. -/
def Clp.scan : Clp → List Str → Clp × Except Err Unit
  | c, [] => (c, .ok ())
  | c, s :: ss =>
    if dashed s then
      if s ∈ c.regs then
        match ss with
        | [] => (c, .error .userError)
        | v :: ss => Clp.scan { c with withArg := setKey c.withArg s v } ss
      else Clp.scan { c with noArg := s :: c.noArg } ss
    else Clp.scan { c with params := c.params ++ [s] } ss

/-- `if (!commandLineParsed_) parseCommandLine();`, CommandLineParser.cc l.81-84, 87-88, 98-99, 115-139. -/
def Clp.parse (c : Clp) : Clp × Except Err Unit :=
  if c.parsed then (c, .ok ())
  else
    match c.scan c.args with
    | (c, .error e) => (c, .error e)
    | (c, .ok ()) => ({ c with parsed := true }, .ok ())

/-- `parameters()`, CommandLineParser.cc l.81-85. -/
def Clp.parameters (c : Clp) : Clp × Except Err (List Str) :=
  match c.parse with
  | (c, .error e) => (c, .error e)
  | (c, .ok ()) => (c, .ok c.params)

/-- `parameters(i)`, CommandLineParser.h l.37: the index is not checked. -/
def Clp.parameter (c : Clp) (i : Nat) : Clp × Except Err Str :=
  match c.parameters with
  | (c, .error e) => (c, .error e)
  | (c, .ok ps) => (c, match ps[i]? with | some p => .ok p | none => .error .ub)

/-- `optionIsSet`, CommandLineParser.cc l.87-95. -/
def Clp.optionIsSet (c : Clp) (o : Str) : Clp × Except Err Bool :=
  match c.parse with
  | (c, .error e) => (c, .error e)
  | (c, .ok ()) => (c, .ok (decide (o ∈ c.noArg) || (c.withArg.map Prod.fst).contains o))

/-- `optionArgument`, CommandLineParser.cc l.97-108; the translator is a parameter. -/
def Clp.optionArgument {α : Type} (tr : Str → Except Err α) (c : Clp) (o : Str) (dflt : α) : Clp × Except Err α :=
  match c.parse with
  | (c, .error e) => (c, .error e)
  | (c, .ok ()) =>
    (c, match c.withArg.find? (fun p => p.1 = o) with
      | none => .ok dflt
      | some p => tr p.2)

/-- The copy constructor and the assignment, CommandLineParser.cc l.35-61: the other parser is made to parse its command line first.  (`argc_` and `argv_` of the
copy are not set; they are not used any more, as `argv()` is called by no tool but the one that was given the command line.) -/
def Clp.copy (c : Clp) : Clp × Except Err Clp :=
  match c.parameters with
  | (c, .error e) => (c, .error e)
  | (c, .ok ps) => (c, .ok ⟨true, [], c.regs, c.withArg, c.noArg, ps⟩)

/-! ### `odc import` -/

/-- What `odc import` does: the row writer's import of a text, or an import through the SQL engine. -/
inductive ImportPlan where
  | plain (src dst delim : Str)
  | query (src dst sql delim : Str)
  deriving DecidableEq

/-- The constructor of `ImportTool` and `run` up to the import itself, tools/ImportTool.cc l.37-77: with no statement of its own the tool calls
`odbFromCSV` without the delimiter, which is a comma by default (api/Odb.h l.384). -/
def importPlan (args : List Str) : Except Err ImportPlan :=
  let c := ((Clp.new args).register (lit "-d")).register (lit "-sql")
  match c.parameters with
  | (_, .error e) => .error e
  | (c, .ok ps) =>
    if ps.length ≠ 3 then .error .userError
    else
      match c.optionArgument (fun s => Except.ok s) (lit "-d") (lit ",") with
      | (_, .error e) => .error e
      | (c, .ok d) =>
        match c.optionArgument (fun s => Except.ok s) (lit "-sql") (lit "select *;") with
        | (_, .error e) => .error e
        | (_, .ok sql) =>
          let d := if upper d = lit "TAB" then [9] else if upper d = lit "SPACE" then [32] else upper d
          if sql = lit "select *;" then .ok (.plain (ps.getD 1 []) (ps.getD 2 []) (lit ","))
          else .ok (.query (ps.getD 1 []) (ps.getD 2 []) sql d)

/-- `odc import` on a text when the tool makes no query, tools/ImportTool.cc l.76-85: number of rows and the frames written; the files' names are
in the plan. -/
def importTool (lib : CsvLib) (env : Env) (cap : Nat) (junk : Junk) (args : List Str) (text : List Byte) :
    Except Err (ImportPlan × Option (Nat × List (List Byte))) :=
  match importPlan args with
  | .error e => .error e
  | .ok (.query a b s d) => .ok (.query a b s d, none)
  | .ok (.plain a b d) =>
    match importCsv lib env cap junk d text with
    | .error e => .error e
    | .ok r => .ok (.plain a b d, some r)

end Verif
