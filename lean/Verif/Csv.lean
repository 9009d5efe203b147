import Verif.PropPass1

/-
Import of comma separated text.

Models: src/odc/csv/TextReaderIterator.cc, src/odc/csv/TextReader.cc l.24-26, 66-72, src/odc/api/Odb.cc l.630-651 (`odbFromCSV`).
The functions of eckit (`StringTools`, `Tokenizer`) and of the standard library it uses are modelled here, except those that give a
meaning to the text of a value, which are parameters (`CsvLib`).
-/

namespace Verif

/-! ### Text -/

/-- White space as `eckit::StringTools::trim` takes it: tab, newline, vertical tab, form feed, return, blank. -/
def isBlank (b : Byte) : Bool := (9 ≤ b.toNat && b.toNat ≤ 13) || b.toNat == 32

/-- `eckit::StringTools::trim`, the left end. -/
def ltrim (s : Str) : Str := s.dropWhile isBlank

/-- `eckit::StringTools::trim`, the right end. -/
def rtrim (s : Str) : Str := (s.reverse.dropWhile isBlank).reverse

/-- `eckit::StringTools::trim`. -/
def trim (s : Str) : Str := rtrim (ltrim s)

/-- `toupper` in the C locale. -/
def upperByte (b : Byte) : Byte := if 97 ≤ b.toNat ∧ b.toNat ≤ 122 then b - 32 else b

/-- `eckit::StringTools::upper`. -/
def upper (s : Str) : Str := s.map upperByte

/-- The loop of `eckit::Tokenizer`: every byte of `seps` separates, empty tokens are dropped; `cur` is the token under way. -/
def tokens (seps : Str) : Str → Str → List Str
  | cur, [] => if cur = [] then [] else [cur]
  | cur, b :: s =>
    if b ∈ seps then (if cur = [] then tokens seps [] s else cur :: tokens seps [] s)
    else tokens seps (cur ++ [b]) s

/-- `eckit::StringTools::split`. -/
def splitAt (seps s : Str) : List Str := tokens seps [] s

/-- `eckit::StringTools::join`, with a separator of one byte. -/
def joinWith (d : Byte) : List Str → Str
  | [] => []
  | [s] => s
  | s :: t :: r => s ++ d :: joinWith d (t :: r)

/-- `std::getline`: the line and the rest of the stream. -/
def getLine (s : List Byte) : Str × List Byte := (s.takeWhile (· ≠ 10), (s.dropWhile (· ≠ 10)).drop 1)

/-- What the library makes of the text of a value: `eckit::StringTools::unQuote`, `Translator<string, double>`,
`Translator<string, float>` (converted to `double`), `Translator<string, long>` and `atoi`. -/
structure CsvLib where
  unQuote : Str → Str
  toDouble : Str → Except Err Word
  toFloat : Str → Except Err Word
  toLong : Str → Except Err Int
  atoi : Str → Int

/-! ### The header -/

/-- The loop of `parseBitfields`, TextReaderIterator.cc l.92-114: the members so far and the number of bits (a `size_t`). -/
def bitMembers (lib : CsvLib) : List (Str × Int) → Int → List Str → Except Err (List (Str × Int) × Int)
  | ms, n, [] => .ok (ms, n)
  | ms, n, b :: bs =>
    match splitAt [58] b with
    | [nm, sz] =>
      if nm ∈ ms.map Prod.fst then .error .userError
      else bitMembers lib (ms ++ [(nm, lib.atoi sz)]) ((n + lib.atoi sz) % 18446744073709551616) bs
    | _ => .error .userError

/-- `parseBitfields`, csv/TextReaderIterator.cc l.72-123.  (With `]` before `[` the length given to `substr` wraps around: the rest of the text is taken.) -/
def parseBits (lib : CsvLib) (c : Str) : Except Err (List (Str × Int)) :=
  if 91 ∈ c ∧ 93 ∈ c then
    let l := c.idxOf 91
    let r := c.idxOf 93
    let s := if l < r then (c.drop (l + 1)).take (r - l - 1) else c.drop (l + 1)
    match bitMembers lib [] 0 (splitAt [59] s) with
    | .error e => .error e
    | .ok (ms, n) => if 31 < n then .error .userError else .ok ms
  else .error .userError

/-- `Column::type(string)`, core/Column.cc l.70-88. -/
def typeOfName (t : Str) : Except Err ColType :=
  if upper t = lit "IGNORE" then .ok .ignore
  else if upper t = lit "INTEGER" then .ok .integer
  else if upper t = lit "REAL" then .ok .real
  else if upper t = lit "DOUBLE" then .ok .double
  else if upper t = lit "STRING" then .ok .string
  else if upper t = lit "BITFIELD" then .ok .bitfield
  else .error .assertFailed

/-- One column of the header, TextReaderIterator.cc l.140-157, `MetaData::addColumn`, `addBitfield` (core/MetaData.h l.160-182). -/
def headerCol (lib : CsvLib) (env : Env) (c : Str) : Except Err Col :=
  match splitAt [58] c with
  | nm :: t :: ts =>
    let ty := upper (joinWith 58 (t :: ts))
    if ty.take 8 = lit "BITFIELD" then
      match parseBits lib c with
      | .error e => .error e
      | .ok ms =>
        match defaultCodec .bitfield env.asDbl with
        | .error e => .error e
        | .ok k => .ok ⟨trim nm, ColType.bitfield.toInt, ms.map Prod.fst, ms.map Prod.snd, k⟩
    else
      match typeOfName ty with
      | .error e => .error e
      | .ok ty =>
        match defaultCodec ty env.asDbl with
        | .error e => .error e
        | .ok k => .ok ⟨trim nm, ty.toInt, [], [], k⟩
  | _ => .error .userError

/-- All columns of the header line, csv/TextReaderIterator.cc l.137-158 (the loop of `parseHeader`); see `csvCol`. -/
def csvCols (lib : CsvLib) (env : Env) : List Str → Except Err (List Col)
  | [] => .ok []
  | c :: cs =>
    match headerCol lib env c with
    | .error e => .error e
    | .ok k =>
      match csvCols lib env cs with
      | .error e => .error e
      | .ok ks => .ok (k :: ks)

/-! ### Rows -/

/-- The state of the iterator, csv/TextReaderIterator.h l.81-103: columns, row buffer, input, flags; `allocs` counts the row buffers
allocated. -/
structure CsvIt where
  cols : List Col
  row : List Cell
  rest : List Byte
  fresh : Bool
  noMore : Bool
  allocs : Nat

/-- 8-byte words needed for a string, TextReaderIterator.cc l.216-217. -/
def needWords (s : Str) : Nat := if 0 < s.length then (s.length - 1) / 8 + 1 else 1

/-- One value, TextReaderIterator.cc l.207-263: the column, its cell in the row buffer, and whether the column was made wider. -/
def csvValue (lib : CsvLib) (k : Col) (x : Cell) (v : Str) : Except Err (Col × Cell × Bool) :=
  let t := trim v
  if upper t = lit "NULL" then
    match k.codec.missingWord with
    | .error e => .error e
    | .ok m => .ok (k, m :: x.drop 1, false)
  else if k.ty = ColType.string.toInt then
    let s := lib.unQuote t
    if k.codec.width < needWords s then
      match k.codec.setWidth (needWords s) with
      | .error e => .error e
      | .ok c => .ok ({ k with codec := c }, wordsOf c.width s, true)
    else .ok (k, wordsOf k.codec.width s, false)
  else if k.ty = ColType.real.toInt then
    match lib.toFloat t with
    | .error e => .error e
    | .ok w => .ok (k, w :: x.drop 1, false)
  else if k.ty = ColType.double.toInt then
    match lib.toDouble t with
    | .error e => .error e
    | .ok w => .ok (k, w :: x.drop 1, false)
  else if k.ty = ColType.integer.toInt ∨ k.ty = ColType.bitfield.toInt then
    match lib.toLong t with
    | .error e => .error e
    | .ok i => .ok (k, ofInt i :: x.drop 1, false)
  else .error .seriousBug

/-- The loop over the values of a line, csv/TextReaderIterator.cc l.206-264: `dk`, `dr` are the columns and cells already done.  When a column is made wider a
new row buffer is allocated and initialised (`initRowBuffer`, l.174-189), to which only the cells before it are copied (l.233-239). -/
def csvCells (lib : CsvLib) (junk : Junk) : List Col → List Cell → Bool → Nat → List Col → List Cell → List Str →
    Except Err (List Col × List Cell × Bool × Nat)
  | dk, dr, f, a, [], _, _ => .ok (dk, dr, f, a)
  | dk, dr, f, a, k :: ks, xs, v :: vs =>
    match csvValue lib k (xs.headD []) v with
    | .error e => .error e
    | .ok (k', y, false) => csvCells lib junk (dk ++ [k']) (dr ++ [y]) f a ks (xs.drop 1) vs
    | .ok (k', y, true) =>
      match firstCells junk (a + 1) 0 (dk ++ k' :: ks) with
      | .error e => .error e
      | .ok ys => csvCells lib junk (dk ++ [k']) (dr ++ [y]) true (a + 1) ks (ys.drop (dk.length + 1)) vs
  | _, _, _, _, _ :: _, _, [] => .error .assertFailed

/-- `next`, csv/TextReaderIterator.cc l.189-266. -/
def CsvIt.next (lib : CsvLib) (delim : Str) (junk : Junk) (it : CsvIt) : Except Err CsvIt :=
  if it.noMore then .ok { it with fresh := false }
  else
    match splitAt delim (trim (getLine it.rest).1) with
    | [] => .ok { it with fresh := false, rest := (getLine it.rest).2, noMore := true }
    | v :: vs =>
      if (v :: vs).length = it.cols.length then
        match csvCells lib junk [] [] false it.allocs it.cols it.row (v :: vs) with
        | .error e => .error e
        | .ok (ks, xs, f, a) => .ok { cols := ks, row := xs, rest := (getLine it.rest).2, fresh := f, noMore := false, allocs := a }
      else .error .assertFailed

/-- `parseHeader`, csv/TextReaderIterator.cc l.125-160. -/
def csvHeader (lib : CsvLib) (env : Env) (delim : Str) (junk : Junk) (text : List Byte) : Except Err CsvIt :=
  match csvCols lib env (splitAt delim (getLine text).1) with
  | .error e => .error e
  | .ok ks =>
    match firstCells junk 1 0 ks with
    | .error e => .error e
    | .ok xs => .ok { cols := ks, row := xs, rest := (getLine text).2, fresh := false, noMore := false, allocs := 1 }

/-- The loop `for (; it != end; ++it)`: the rows seen, and the exception that ended it if any. [csv/TextReaderIterator.cc; Odb.cc `importText`] -/
def CsvIt.all (lib : CsvLib) (delim : Str) (junk : Junk) : Nat → CsvIt → List RowView × Option Err
  | 0, _ => ([], some .diverges)
  | fuel + 1, it =>
    if it.noMore then ([], none)
    else
      match it.next lib delim junk with
      | .error e => ([⟨it.cols, it.row, it.fresh⟩], some e)
      | .ok it' => let r := CsvIt.all lib delim junk fuel it'; (⟨it.cols, it.row, it.fresh⟩ :: r.1, r.2)

/-- `odbFromCSV`, api/Odb.cc l.640-651: header and first row (TextReaderIterator.cc l.36-52), then `pass1` on a new writer whose
buffer holds `cap` rows.  The number of rows and the frames written.  (Every row but the last one takes at least one byte of the
text, so `text.length + 2` steps are enough.) -/
def importCsv (lib : CsvLib) (env : Env) (cap : Nat) (junk : Junk) (delim : Str) (text : List Byte) : Except Err (Nat × List (List Byte)) :=
  match csvHeader lib env delim junk text with
  | .error e => .error e
  | .ok it =>
    match it.next lib delim junk with
    | .error e => .error e
    | .ok it => pass1 env .same cap it.cols (it.all lib delim junk (text.length + 2))

end Verif
