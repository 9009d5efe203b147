import Verif.Csv
import Verif.PropAny2
import Verif.HeaderSer

/-!
`odc mdset`: changing the type of columns, or the value of constant columns, in the headers of a file.

Models: src/odc/tools/MDSetTool.cc, src/odc/StringTool.cc l.86-125, src/odc/core/Column.cc l.70-90.
-/

namespace Verif

/-- One element of the four vectors of `parseUpdateList`, tools/MDSetTool.cc l.123-125. -/
structure MdEntry where
  column : Str
  type : Str
  value : Str
  bits : List (Str × Int)
  deriving DecidableEq

/-- The loop over the members of a bitfield, tools/MDSetTool.cc l.137-141: `field[0]` and `field[1]` are unchecked. -/
def mdBits (atoi : Str → Int) : List Str → Except Err (List (Str × Int))
  | [] => .ok []
  | p :: ps =>
    match splitAt [58] p with
    | nm :: sz :: _ =>
      match mdBits atoi ps with
      | .error e => .error e
      | .ok bs => .ok ((nm, atoi sz) :: bs)
    | _ => .error .ub

/-- `parts.size() == 2 ? parts[1] : "NONE"`, tools/MDSetTool.cc l.129, 131, on the parts after the first. -/
def mdSecond : List Str → Str
  | [v] => v
  | _ => lit "NONE"

/-- One round of the loop of `parseUpdateList`, tools/MDSetTool.cc l.128-149; `assignment[0]` and `columnNameAndType[0]`
are unchecked. -/
def mdEntry (atoi : Str → Int) (s : Str) : Except Err MdEntry :=
  match splitAt [61] s with
  | [] => .error .ub
  | a0 :: rest =>
    match splitAt [58] a0 with
    | [] => .error .ub
    | column :: more =>
      let value := mdSecond rest
      let type := mdSecond more
      if type.head? = some 91 ∧ type.getLast? = some 93 then
        match mdBits atoi (splitAt [59] ((type.drop 1).take (type.length - 2))) with
        | .error e => .error e
        | .ok bs => .ok ⟨column, type, value, bs⟩
      else .ok ⟨column, type, value, []⟩

/-- All rounds of the loop, tools/MDSetTool.cc l.126-150. -/
def mdEntries (atoi : Str → Int) : List Str → Except Err (List MdEntry)
  | [] => .ok []
  | s :: ss =>
    match mdEntry atoi s with
    | .error e => .error e
    | .ok x =>
      match mdEntries atoi ss with
      | .error e => .error e
      | .ok xs => .ok (x :: xs)

/-- `MDSetTool::parseUpdateList`, tools/MDSetTool.cc l.123-155. -/
def mdParse (atoi : Str → Int) (s : Str) : Except Err (List MdEntry) := mdEntries atoi (splitAt [44] s)

/-- `Column::type(const std::string&)`, core/Column.cc l.70-90. -/
def typeCode (s : Str) : Except Err Int :=
  if upper s = lit "IGNORE" then .ok 0
  else if upper s = lit "INTEGER" then .ok 1
  else if upper s = lit "REAL" then .ok 2
  else if upper s = lit "DOUBLE" then .ok 5
  else if upper s = lit "STRING" then .ok 3
  else if upper s = lit "BITFIELD" then .ok 4
  else .error .assertFailed

/-- `StringTool::isInQuotes`, StringTool.cc l.86-89. -/
def isInQuotes (s : Str) : Bool :=
  decide (1 < s.length ∧ ((s.head? = some 34 ∧ s.getLast? = some 34) ∨ (s.head? = some 39 ∧ s.getLast? = some 39)))

/-- `StringTool::cast_as_double`, StringTool.cc l.106-114: eight bytes, padded with blanks on the left (a command line
contains no NUL, at which `strncpy` would stop). -/
def castAsDouble (s : Str) : Except Err Word :=
  if s.length ≤ 8 then .ok (wordOfBytes (List.replicate (8 - s.length) 32 ++ s)) else .error .assertFailed

/-- `StringTool::translate`, StringTool.cc l.123-125; `toDouble` is `Translator<std::string, double>`. -/
def translate (toDouble : Str → Except Err Word) (s : Str) : Except Err Word :=
  if isInQuotes s then castAsDouble ((s.drop 1).take (s.length - 2)) else toDouble s

/-- `std::string::find(needle) != npos`. -/
def findIn (needle : Str) : Str → Bool
  | [] => decide (needle = [])
  | b :: s => needle.isPrefixOf (b :: s) || findIn needle s

/-- The codecs whose name contains "constant", tools/MDSetTool.cc l.86. -/
def Kind.saysConstant (k : Kind) : Bool := findIn (lit "constant") k.name

/-- The column type, tools/MDSetTool.cc l.80-81: the codec stays as it is (core/Column.h l.70). -/
def mdType (x : MdEntry) (c : Col) : Except Err Col :=
  if x.type ≠ [] ∧ x.type ≠ lit "NONE" then
    match typeCode x.type with
    | .error e => .error e
    | .ok t => .ok { c with ty := t }
  else .ok c

/-- The members of a bitfield, tools/MDSetTool.cc l.82-83. -/
def mdBitfield (x : MdEntry) (c : Col) : Col :=
  if x.bits ≠ [] then { c with bitNames := x.bits.map Prod.fst, bitSizes := x.bits.map Prod.snd } else c

/-- The value, tools/MDSetTool.cc l.84-94. -/
def mdValue (toDouble : Str → Except Err Word) (x : MdEntry) (c : Col) : Except Err Col :=
  if x.value ≠ [] ∧ x.value ≠ lit "NONE" then
    if c.codec.kind.saysConstant then
      match translate toDouble x.value with
      | .error e => .error e
      | .ok v => .ok { c with codec := { c.codec with min := v, max := v } }
    else .error .userError
  else .ok c

/-- One round of the loop over the updates on the column found, tools/MDSetTool.cc l.77-94. -/
def mdCol (toDouble : Str → Except Err Word) (x : MdEntry) (c : Col) : Except Err Col :=
  match mdType x c with
  | .error e => .error e
  | .ok c1 => mdValue toDouble x (mdBitfield x c1)

/-- The loop over the updates, tools/MDSetTool.cc l.76-95. -/
def mdCols (toDouble : Str → Except Err Word) : List MdEntry → List Col → Except Err (List Col)
  | [], cs => .ok cs
  | x :: xs, cs =>
    match columnIndex (cs.map Col.name) x.column with
    | .error e => .error e
    | .ok p =>
      match cs[p]? with
      | none => .error .ub
      | some c =>
        match mdCol toDouble x c with
        | .error e => .error e
        | .ok c' => mdCols toDouble xs (cs.set p c')

/-- What is written for one table, tools/MDSetTool.cc l.97-116: the header is serialised again, in the byte order of the
table, and the data are copied.  `serializeHeader` is `putHeader` (see `C26_buffer_size`; in the other byte order for a
header that fits the buffer of ODC_HEADER_BUFFER_SIZE, see `C26_violated_other`). -/
def mdTable (env : Env) (toDouble : Str → Except Err Word) (f : File) (xs : List MdEntry) (t : Tbl) : Except Err (List Byte) :=
  match mdCols toDouble xs t.info.cols with
  | .error e => .error e
  | .ok cs =>
    match t.data f with
    | .error e => .error e
    | .ok d =>
      if cs.all saveColOk then .ok (putHeader env.md5 t.order { t.info with cols := cs } ++ d)
      else .error .assertFailed

/-- The loop over the tables, tools/MDSetTool.cc l.73-117: what has been written and the exception, if any.  At most `fuel`
tables. -/
def mdLoop (env : Env) (toDouble : Str → Except Err Word) (f : File) (xs : List MdEntry) :
    Nat → List Tbl → Int → List Byte → List Byte × Option Err
  | 0, _, _, out => (out, some .diverges)
  | fuel + 1, ts, pos, out =>
    if pos = -1 then (out, none)
    else
      match itGet ts pos with
      | .error e => (out, some e)
      | .ok t =>
        match mdTable env toDouble f xs t with
        | .error e => (out, some e)
        | .ok b =>
          match itIncr env f ts pos with
          | (_, _, some e) => (out ++ b, some e)
          | (ts', pos', none) => mdLoop env toDouble f xs fuel ts' pos' (out ++ b)

/-- `MDSetTool::run`, tools/MDSetTool.cc l.54-118, after the command line has been split: the file written and the exception,
if any. -/
def mdset (env : Env) (toDouble : Str → Except Err Word) (atoi : Str → Int) (updates : Str) (bytes : List Byte) :
    List Byte × Option Err :=
  match mdParse atoi updates with
  | .error e => ([], some e)
  | .ok xs =>
    match ensureTable env (File.known bytes) [] 0 with
    | .error e => ([], some e)
    | .ok (ts, true) => mdLoop env toDouble (File.known bytes) xs (bytes.length + 1) ts 0 []
    | .ok (ts, false) => mdLoop env toDouble (File.known bytes) xs (bytes.length + 1) ts (-1) []

end Verif
