import Verif.Compact
import Verif.CommandLine

/-!
`odc ls`.

Models: src/odc/tools/LSTool.cc l.29-112.
-/

namespace Verif

/-- One value, tools/LSTool.cc l.49-77.  `fmt` is what `std::fixed` makes of a double; the type is that of the columns the heading was made of, the rest is
taken from the row (`string(i)`: IteratorProxy.h l.107-114; `static_cast<int>` is undefined outside the range of `int`). -/
def lsCell (fmt : Word → Str) (v : RowView) (k : Col) (i : Nat) : Except Err Str :=
  match v.isMissing i with
  | .error e => .error e
  | .ok true => .ok [46]
  | .ok false =>
    let x := v.cells.getD i []
    if k.ty = 1 ∨ k.ty = 4 then
      match fcast (-2147483648) 2147483647 (cellWord x) with
      | .error e => .error e
      | .ok n => .ok (decimal n)
    else if k.ty = 2 ∨ k.ty = 5 then .ok (fmt (cellWord x))
    else if k.ty = 3 then
      match v.cols[i]? with
      | none => .error .ub
      | some q => .ok (39 :: cellStr q.codec.width x ++ [39])
    else .error .assertFailed

/-- The values of a row with a tabulator before each but the first, tools/LSTool.cc l.47-79, and the exception that ends it if any. -/
def lsCells (fmt : Word → Str) (v : RowView) : List Col → Nat → Str × Option Err
  | [], _ => ([], none)
  | k :: ks, i =>
    match lsCell fmt v k i with
    | .error e => ((if i = 0 then [] else [9]), some e)
    | .ok s => ((if i = 0 then [] else [9]) ++ s ++ (lsCells fmt v ks (i + 1)).1, (lsCells fmt v ks (i + 1)).2)

/-- The names of the columns, tools/LSTool.cc l.40-44. -/
def lsNames : List Col → Nat → Str
  | [], _ => []
  | k :: ks, i => (if i = 0 then [] else [9]) ++ k.name ++ lsNames ks (i + 1)

/-- `if (md != it->columns()) …`, tools/LSTool.cc l.38-46: the columns kept (a copy of those of the row), and the heading. -/
def lsHead (md : List Col) (v : RowView) : Except Err (List Col × Str) :=
  if md.map Col.shape = v.cols.map Col.shape then .ok (md, [])
  else
    match cloneCols v.cols with
    | .error e => .error e
    | .ok cs => .ok (cs, lsNames cs 0 ++ [10])

/-- The loop of `printData`, tools/LSTool.cc l.37-81, over the rows the reader yields: what is printed, and the exception that ends it if any. -/
def lsRows (fmt : Word → Str) : List Col → List RowView → Str × Option Err
  | _, [] => ([], none)
  | md, v :: vs =>
    match lsHead md v with
    | .error e => ([], some e)
    | .ok (md, h) =>
      match lsCells fmt v md 0 with
      | (t, some e) => (h ++ t, some e)
      | (t, none) => (h ++ t ++ [10] ++ (lsRows fmt md vs).1, (lsRows fmt md vs).2)

/-- `printData`, tools/LSTool.cc l.29-82: what is printed, and the number of rows unless an exception is thrown. -/
def lsFile (fmt : Word → Str) (env : Env) (junk : Junk) (bytes : List Byte) (fuel : Nat) : Str × Except Err Nat :=
  match readRows env junk bytes fuel with
  | (vs, e) =>
    match lsRows fmt [] vs with
    | (t, some e') => (t, .error e')
    | (t, none) => (t, match e with | none => .ok vs.length | some e => .error e)

/-- `run` up to the listing, tools/LSTool.cc l.25-27, 84-103: the file listed, and the file the text goes to (standard output if none). -/
def lsPlan (args : List Str) : Except Err (Str × Option Str) :=
  let c := (Clp.new args).register (lit "-o")
  match c.parameters with
  | (_, .error e) => .error e
  | (c, .ok ps) =>
    if ps.length ≠ 2 then .error .userError
    else
      match c.parameter 1 with
      | (_, .error e) => .error e
      | (c, .ok db) =>
        match c.optionIsSet (lit "-o") with
        | (_, .error e) => .error e
        | (_, .ok false) => .ok (db, none)
        | (c, .ok true) =>
          match c.optionArgument (fun s => Except.ok s) (lit "-o") [] with
          | (_, .error e) => .error e
          | (_, .ok o) => .ok (db, some o)

end Verif
