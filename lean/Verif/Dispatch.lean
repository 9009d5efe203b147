import Verif.Fill
import Verif.Names
import Verif.PropRows

/-
Writing rows to several files chosen by a template: `DispatchingWriter`.

Models: src/odc/WriterDispatchingIterator.cc, src/odc/TemplateParameters.cc, src/odc/DispatchingWriter.cc,
src/odc/Writer.cc l.106-112.
-/

namespace Verif

/-! ### Files -/

/-- The files of the file system, by name.  Two names are two files: links and the cleaning of names by
`eckit::PathName` are not modelled, nor are directories. -/
abbrev Disk := Str → Option (List Byte)

/-- Writing a file from the start: the file system is a map from paths to contents. -/
def Disk.put (d : Disk) (p : Str) (bs : List Byte) : Disk := fun q => if q = p then some bs else d q

/-- Bytes written at a position of a file (a gap is filled with zeros). -/
def writeAt (old : List Byte) (pos : Nat) (bs : List Byte) : List Byte :=
  old.take pos ++ List.replicate (pos - old.length) 0 ++ bs ++ old.drop (pos + bs.length)

/-- An open output: the handle (`FileHandle` opened by `openForWrite` or `openForAppend`, ODBAPISettings.cc l.140-165) and
the writer on it.  The stdio buffer of the handle is not modelled: what the writer emits is in the file at once. -/
structure OutFile where
  path : Str
  app : Bool
  pos : Nat
  w : Writer

/-- `createWriteIterator`, Writer.cc l.106-112: the file is opened at once, hence created, or emptied unless opened for
appending. -/
def OutFile.create (d : Disk) (cap : Nat) (path : Str) (app : Bool) : Disk × OutFile :=
  (d.put path (if app then (d path).getD [] else []), ⟨path, app, 0, Writer.new cap⟩)

/-- The writer goes on to `w'`, the frames it has added go to the file: at its end if it is open for appending, else at the
position of the handle. [WriterDispatchingIterator.cc l.165-230 (the handles it opens)] -/
def OutFile.emit (d : Disk) (f : OutFile) (w' : Writer) : Disk × OutFile :=
  let bs := (w'.out.drop f.w.out.length).flatten
  (d.put f.path (if f.app then (d f.path).getD [] ++ bs else writeAt ((d f.path).getD []) f.pos bs),
    { f with pos := f.pos + bs.length, w := w' })

/-! ### The template -/

/-- The character `{` of a template, TemplateParameters.cc l.50. -/
def chOpen : Byte := 123

/-- The character `}` of a template, TemplateParameters.cc l.54. -/
def chClose : Byte := 125

/-- The character `/`, WriterDispatchingIterator.cc l.119. -/
def chSlash : Byte := 47

/-- The character space, WriterDispatchingIterator.cc. [`isspace`, WriterDispatchingIterator.cc l.96-99] -/
def chSpace : Byte := 32

/-- `t.find(c, start)`. [TemplateParameters.cc l.50, 54] -/
def findFrom (c : Byte) (t : Str) (start : Nat) : Option Nat :=
  match (t.drop start).findIdx? (fun b => decide (b = c)) with
  | none => none
  | some i => some (start + i)

/-- A parameter: positions of its braces and index of its column, TemplateParameters.h. [TemplateParameters.h l.35-42] -/
structure TParam where
  l : Nat
  r : Nat
  col : Nat
  deriving DecidableEq

/-- `TemplateParameters::parse`, TemplateParameters.cc l.44-70, from position `start` on; every round begins after the brace
that closed the one before, so `t.length + 1` rounds are enough.  (`start` is an `int` there: templates shorter than 2 GB.) -/
def parseFrom (names : List Str) (t : Str) : Nat → Nat → Except Err (List TParam)
  | 0, _ => .error .diverges
  | fuel + 1, start =>
    match findFrom chOpen t start with
    | none => .ok []
    | some l =>
      match findFrom chClose t l with
      | none => .error .userError
      | some r =>
        match columnIndex names ((t.drop (l + 1)).take (r - l - 1)) with
        | .error e => .error e
        | .ok i =>
          match parseFrom names t fuel r with
          | .error e => .error e
          | .ok ps => .ok (⟨l, r, i⟩ :: ps)

/-- `parseTemplateParameters`, WriterDispatchingIterator.cc l.288-301: a template without parameters is refused. -/
def parseTemplate (names : List Str) (t : Str) : Except Err (List TParam) :=
  match parseFrom names t (t.length + 1) 0 with
  | .error e => .error e
  | .ok [] => .error .userError
  | .ok ps => .ok ps

/-- `isprint` in the C locale. [WriterDispatchingIterator.cc l.94] -/
def isPrint (b : Byte) : Bool := decide (32 ≤ b.toNat ∧ b.toNat ≤ 126)

/-- `trimStringInDouble`, WriterDispatchingIterator.cc l.91-103: the printable bytes at the start of a double, without
spaces at either end (the space is the only printable byte with `isspace`). -/
def trimWord (w : Word) : Str :=
  let s := (wordBytes w).takeWhile isPrint
  ((s.reverse.dropWhile (fun b => decide (b = chSpace))).reverse).dropWhile (fun b => decide (b = chSpace))

/-- The text `__SLASH__`, WriterDispatchingIterator.cc l.119-125. -/
def slashText : Str := lit "__SLASH__"

/-- The loop of WriterDispatchingIterator.cc l.119-125: `s.replace(pos, pos + 1, "__SLASH__")` removes `pos + 1` bytes from `pos` on (the second argument
is a count).  Each round removes a slash and adds none. -/
def unslash : Nat → Str → Str
  | 0, s => s
  | fuel + 1, s =>
    match findFrom chSlash s 0 with
    | none => s
    | some pos => unslash fuel (s.take pos ++ slashText ++ s.drop (pos + (pos + 1)))

/-- Decimal digits of a number. [`Translator<int, std::string>`, WriterDispatchingIterator.cc l.128] -/
def digits (n : Nat) : Str :=
  if h : n < 10 then [BitVec.ofNat 8 (48 + n)] else digits (n / 10) ++ [BitVec.ofNat 8 (48 + n % 10)]
termination_by n
decreasing_by omega

/-- `eckit::Translator<int, std::string>`. -/
def decimal (i : Int) : Str := if i < 0 then 45 :: digits i.natAbs else digits i.natAbs

/-- The text for a value, WriterDispatchingIterator.cc l.107-129; `int(d)` is undefined outside the range of `int`. -/
def paramText (ty : ColType) (d : Word) : Except Err Str :=
  if ty = .string then .ok (unslash (trimWord d).length (trimWord d))
  else
    match fcast (-2147483648) 2147483647 d with
    | .error e => .error e
    | .ok i => .ok (decimal i)

/-- The loop of `generateFileName`, WriterDispatchingIterator.cc l.104-133: `fileName.replace(p.startPos - diff, …)` with `diff` the number of bytes by
which the name is shorter than the template. -/
def replaceAll (tys : List ColType) (t : Str) (vals : List Word) : Str → List TParam → Except Err Str
  | fn, [] => .ok fn
  | fn, p :: ps =>
    match tys[p.col]?, vals[p.col]? with
    | some ty, some d =>
      match paramText ty d with
      | .error e => .error e
      | .ok s =>
        let at_ : Int := (p.l : Int) - ((t.length : Int) - (fn.length : Int))
        if at_ < 0 ∨ (fn.length : Int) < at_ then .error .lengthError  -- std::out_of_range
        else replaceAll tys t vals (fn.take at_.toNat ++ s ++ fn.drop (at_.toNat + (p.r - p.l + 1))) ps
    | _, _ => .error .ub

/-- `generateFileName`, WriterDispatchingIterator.cc l.84-137.  `vals` is the row as an array of doubles, indexed by the **number** of the column. -/
def fileName (tys : List ColType) (t : Str) (ps : List TParam) (vals : List Word) : Except Err Str := replaceAll tys t vals t ps

/-! ### The dispatcher -/

/-- State of a `WriterDispatchingIterator`, WriterDispatchingIterator.h l.~114-151: `outs` is `iterators_` with `files_`, `keys`
is `values2iteratorIndex_`, `used` is `lastDispatch_`, `created` the keys of `filesCreated_`. -/
structure Disp where
  cols : List WCol
  tmpl : Str
  params : List TParam
  max : Nat
  cap : Nat
  outs : List OutFile
  keys : List (List Word × Nat)
  used : List Nat
  lastKey : List Word
  lastIdx : Nat
  append : Bool
  created : List Str
  nrows : Nat

/-- Constructor, WriterDispatchingIterator.cc l.27-51, with the columns set and the template parsed (`parseTemplateParameters` at the first row). -/
def Disp.new (cols : List WCol) (tmpl : Str) (max cap : Nat) (append : Bool) : Except Err Disp :=
  match parseTemplate (cols.map WCol.name) tmpl with
  | .error e => .error e
  | .ok ps => .ok ⟨cols, tmpl, ps, max, cap, [], [], List.replicate max 18446744073709551615, [], 0, append, [], 0⟩

/-- Equality of `vector<double>`. [WriterDispatchingIterator.cc l.150-153] -/
def keyEq : List Word → List Word → Bool
  | [], [] => true
  | a :: as, b :: bs => feq a b && keyEq as bs
  | _, _ => false

/-- Index of the smallest entry, the first one if there are several: WriterDispatchingIterator.cc l.171-178. -/
def oldestFrom : List Nat → Nat → Nat → Nat → Nat
  | [], _, best, _ => best
  | x :: xs, i, best, row => if x < row then oldestFrom xs (i + 1) i x else oldestFrom xs (i + 1) best row

/-- The index of the writer used longest ago, WriterDispatchingIterator.cc l.171-179 (the scan of `lastDispatch_`); see `oldestFrom`. -/
def oldest (xs : List Nat) : Nat := oldestFrom xs 0 0 (xs.headD 0)

/-- `columns(md)` of the writer, WriterBufferingIterator.h l.74-80: the columns with default codecs of the same width. -/
def resetCols (env : Env) : List WCol → Except Err (List WCol)
  | [] => .ok []
  | c :: cs =>
    match c.codec with
    | none => .error .ub
    | some k =>
      match resetCodec env c.ty k.width with
      | .error e => .error e
      | .ok k' =>
        match resetCols env cs with
        | .error e => .error e
        | .ok cs' => .ok ({ c with codec := some k' } :: cs')

/-- A new writer with the columns, after `writeHeader`: WriterDispatchingIterator.cc l.227-229. -/
def startWriter (env : Env) (cap : Nat) (cols : List WCol) : Except Err Writer :=
  match resetCols env cols with
  | .error e => .error e
  | .ok cs => (Writer.withCols cap cs (!cs.isEmpty)).writeHeader

/-- An open writer goes on with other columns, WriterDispatchingIterator.cc l.431-435: `flush`, `columns(md)` (WriterBufferingIterator.h l.74-80),
`writeHeader`. -/
def Writer.changeCols (env : Env) (o : Order) (w : Writer) (cols : List WCol) : Except Err Writer :=
  match w.flush env o with
  | .error e => .error e
  | .ok w =>
    match resetCols env cols with
    | .error e => .error e
    | .ok cs => ({ w with cols := cs, inited := !cs.isEmpty } : Writer).writeHeader

/-- Close the output number `i` (`delete iterators_[i]`: the destructor of the writer closes it) and forget its key,
WriterDispatchingIterator.cc l.185-192.  A key that is not found makes `erase(end())` undefined behaviour. -/
def Disp.evict (env : Env) (o : Order) (d : Disk) (s : Disp) (i : Nat) : Except Err (Disk × Disp) :=
  match s.outs[i]? with
  | none => .error .ub
  | some f =>
    match f.w.close env o with
    | .error e => .error e
    | .ok w =>
      if s.keys.any (fun e => decide (e.2 = i)) then
        .ok ((f.emit d w).1, { s with keys := s.keys.eraseP (fun e => decide (e.2 = i)) })
      else .error .ub

/-- `createIterator`, WriterDispatchingIterator.cc l.164-232. -/
def Disp.createOut (env : Env) (o : Order) (d : Disk) (s : Disp) (key : List Word) (name : Str) :
    Except Err (Disk × Disp × Nat) :=
  let i := if s.max ≤ s.outs.length then oldest s.used else s.outs.length
  match (if s.max ≤ s.outs.length then (if s.outs = [] then Except.error Err.assertFailed else s.evict env o d i) else .ok (d, s)) with
  | .error e => .error e
  | .ok (d, s) =>
    let append := if s.append = false ∧ (d name).isSome ∧ name ∈ s.created then true else s.append
    match startWriter env s.cap s.cols with
    | .error e => .error e
    | .ok w =>
      let (d, f) := OutFile.create d s.cap name append
      .ok (d, { s with
        append := append
        created := if name ∈ s.created then s.created else name :: s.created
        outs := if i = s.outs.length then s.outs ++ [{ f with w := w }] else s.outs.set i { f with w := w }
        keys := (key, i) :: s.keys }, i)

/-- `dispatchIndex`, WriterDispatchingIterator.cc l.144-162.  The key consists of the doubles at the **numbers** of the columns, not at their offsets.
NaNs are not ordered, which the map requires. -/
def Disp.index (env : Env) (o : Order) (d : Disk) (s : Disp) (row : List Cell) : Except Err (Disk × Disp × Nat) :=
  let key := s.params.map (fun p => row.flatten.getD p.col 0)
  if key.any isNaN then .error .ub
  else if keyEq key s.lastKey then .ok (d, s, s.lastIdx)
  else
    match (match s.keys.find? (fun e => keyEq e.1 key) with
      | some e => Except.ok (d, s, e.2)
      | none =>
        match fileName (s.cols.map WCol.ty) s.tmpl s.params row.flatten with
        | .error e => .error e
        | .ok name => s.createOut env o d key name) with
    | .error e => .error e
    | .ok (d, s, i) => .ok (d, { s with lastKey := key, lastIdx := i, used := s.used.set i s.nrows }, i)

/-- `writeRow`, WriterDispatchingIterator.cc l.324-336. -/
def Disp.writeRow (env : Env) (o : Order) (d : Disk) (s : Disp) (row : List Cell) : Except Err (Disk × Disp) :=
  match s.index env o d row with
  | .error e => .error e
  | .ok (d, s, i) =>
    match s.outs[i]? with
    | none => .error .ub
    | some f =>
      match f.w.writeRow env o row with
      | .error e => .error e
      | .ok w =>
        let (d, f) := f.emit d w
        .ok (d, { s with outs := s.outs.set i f, nrows := s.nrows + 1 })

/-- Specification: rows given to the dispatching writer one after the other. -/
def Disp.writeRows (env : Env) (o : Order) : Disk → Disp → List (List Cell) → Except Err (Disk × Disp)
  | d, s, [] => .ok (d, s)
  | d, s, r :: rs =>
    match s.writeRow env o d r with
    | .error e => .error e
    | .ok (d, s) => Disp.writeRows env o d s rs

/-- `close`, WriterDispatchingIterator.cc l.543-554. -/
def closeOuts (env : Env) (o : Order) : Disk → List OutFile → Except Err Disk
  | d, [] => .ok d
  | d, f :: fs =>
    match f.w.close env o with
    | .error e => .error e
    | .ok w => closeOuts env o (f.emit d w).1 fs

/-- All open outputs go on with other columns, WriterDispatchingIterator.cc l.431-435. -/
def changeOuts (env : Env) (o : Order) (cols : List WCol) : Disk → List OutFile → Except Err (Disk × List OutFile)
  | d, [] => .ok (d, [])
  | d, f :: fs =>
    match f.w.changeCols env o cols with
    | .error e => .error e
    | .ok w =>
      match changeOuts env o cols (f.emit d w).1 fs with
      | .error e => .error e
      | .ok (d, fs) => .ok (d, (f.emit d w).2 :: fs)

/-- The input goes on with other columns, WriterDispatchingIterator.cc l.427-436: `columns(md)`, `parseTemplateParameters`, and the open outputs.
The values dispatched on last and the outputs by their values are kept. -/
def Disp.change (env : Env) (o : Order) (d : Disk) (s : Disp) (cols : List WCol) : Except Err (Disk × Disp) :=
  match parseTemplate (cols.map WCol.name) s.tmpl with
  | .error e => .error e
  | .ok ps =>
    match changeOuts env o cols d s.outs with
    | .error e => .error e
    | .ok (d, outs) => .ok (d, { s with cols := cols, params := ps, outs := outs })

/-- A user writing rows through a `DispatchingWriter` with at most `max` open files: the files afterwards. -/
def dispatchRows (env : Env) (o : Order) (cols : List WCol) (tmpl : Str) (max cap : Nat) (append : Bool) (d : Disk)
    (rows : List (List Cell)) : Except Err Disk :=
  match Disp.new cols tmpl max cap append with
  | .error e => .error e
  | .ok s =>
    match s.writeRows env o d rows with
    | .error e => .error e
    | .ok (d, s) => closeOuts env o d s.outs

end Verif
