import Verif.Ieee

/-
The file format, as described in docs/content/reference/file-format-reference.rst.

This file is a specification: it does not use the model of the code.  It was written from the document, section by
section.  Where the document and the existing files differ, the files were followed; these places are marked
DIFFERENCE and listed in DESIGN.md (finding 35).
-/

namespace Verif.Doc

/-! ### Data types (section "Data Types") -/

/-- Specification: the byte order of a file (section "Endianness"). -/
inductive Endian
  | little
  | big
  deriving DecidableEq, Repr

/-- Specification: an unsigned integer `n` in `k` bytes: byte number `i` from the low end is `n / 256^i` modulo 256. -/
def uint (e : Endian) (k n : Nat) : List Byte :=
  let low := (List.range k).map (fun i => BitVec.ofNat 8 (n / 256 ^ i))
  match e with
  | .little => low
  | .big => low.reverse

/-- Specification: `int32`, in two's complement. -/
def int32 (e : Endian) (i : Int) : List Byte := uint e 4 (i % 4294967296).toNat

/-- Specification: `double` (`w` is its 64-bit pattern). -/
def double (e : Endian) (w : Word) : List Byte := uint e 8 w.toNat

/-- Specification: `string`: the number of characters and the characters. -/
def string (e : Endian) (s : List Byte) : List Byte := uint e 4 s.length ++ s

/-- Specification: `char[8]` held in the space of a double, "independent of endianness": the first character is the
low byte. -/
def chars8 (w : Word) : List Byte := uint .little 8 w.toNat

/-- Specification: the characters of a name. -/
def ascii (s : String) : List Byte := s.toList.map (fun c => BitVec.ofNat 8 c.toNat)

/-! ### Codecs (section "Codecs") -/

/-- Specification: the documented codecs.
DIFFERENCE: there is a sixteenth one, `long_constant_string`, which the document does not mention; the library
writes it only if the environment variable ODC_ENABLE_WRITING_LONG_STRING_CODEC is set. -/
inductive Which
  | constant | constantString | constantOrMissing | realConstantOrMissing | chars
  | longReal | shortReal | shortReal2 | int32 | int16 | int8 | int8Missing | int16Missing | int8String | int16String
  deriving DecidableEq, Repr

/-- Specification: `codecName`. -/
def Which.name : Which → List Byte
  | .constant => ascii "constant"
  | .constantString => ascii "constant_string"
  | .constantOrMissing => ascii "constant_or_missing"
  | .realConstantOrMissing => ascii "real_constant_or_missing"
  | .chars => ascii "chars"
  | .longReal => ascii "long_real"
  | .shortReal => ascii "short_real"
  | .shortReal2 => ascii "short_real2"
  | .int32 => ascii "int32"
  | .int16 => ascii "int16"
  | .int8 => ascii "int8"
  | .int8Missing => ascii "int8_missing"
  | .int16Missing => ascii "int16_missing"
  | .int8String => ascii "int8_string"
  | .int16String => ascii "int16_string"

/-- Specification: the number of bytes of a value in a row. -/
def Which.size : Which → Nat
  | .constant | .constantString => 0
  | .constantOrMissing | .realConstantOrMissing | .int8 | .int8Missing | .int8String => 1
  | .int16 | .int16Missing | .int16String => 2
  | .int32 | .shortReal | .shortReal2 => 4
  | .longReal | .chars => 8

/-- Specification: the codec part of a column. -/
structure Codec where
  which : Which
  hasMissing : Int
  min : Word
  max : Word
  missing : Word
  strings : List (List Byte)
  deriving DecidableEq

/-- Specification: the entries of a string list, from number `i` on.
DIFFERENCE: each entry also has two numbers that the document does not mention: a count (0) and its position. -/
def entries (e : Endian) : Nat → List (List Byte) → List Byte
  | _, [] => []
  | i, s :: ss => string e s ++ int32 e 0 ++ int32 e i ++ entries e (i + 1) ss

/-- Specification: `codecData`. -/
def Codec.bytes (e : Endian) (c : Codec) : List Byte :=
  match c.which with
  | .constantString => int32 e c.hasMissing ++ chars8 c.min ++ chars8 c.max ++ double e c.missing
  | .chars => int32 e c.hasMissing ++ double e c.min ++ double e c.max ++ double e c.missing ++ int32 e 0
  | .int8String | .int16String =>
    int32 e c.hasMissing ++ double e c.min ++ double e c.max ++ double e c.missing ++
      int32 e c.strings.length ++ entries e 0 c.strings
  | _ => int32 e c.hasMissing ++ double e c.min ++ double e c.max ++ double e c.missing

/-- Specification: a value of the table: a number (a double, given by its pattern) or characters. -/
inductive Value
  | num (d : Word)
  | text (s : List Byte)
  deriving DecidableEq

/-- Specification: the value that a code found in a row stands for. -/
def Codec.value (c : Codec) (code : Nat) : Option Value :=
  match c.which with
  | .constant => some (.num c.min)
  | .constantString => some (.text (chars8 c.min))
  | .constantOrMissing | .realConstantOrMissing | .int8Missing =>
    some (.num (if code = 0xff then c.missing else fadd (ofInt code) c.min))
  | .int16Missing => some (.num (if code = 0xffff then c.missing else fadd (ofInt code) c.min))
  | .int8 | .int16 => some (.num (fadd (ofInt code) c.min))
  | .int32 => some (.num (ofInt (if code < 2147483648 then code else (code : Int) - 4294967296)))
  | .shortReal => some (.num (if code = 0x800000 then c.missing else widen (BitVec.ofNat 32 code)))
  | .shortReal2 => some (.num (if code = 0xff7fffff then c.missing else widen (BitVec.ofNat 32 code)))
  | .longReal => some (.num (BitVec.ofNat 64 code))
  | .chars => some (.text (uint .little 8 code))
  | .int8String | .int16String => (c.strings[code]?).map .text

/-- Specification: how a code is stored in a row: characters do not depend on the byte order. -/
def Codec.code (e : Endian) (c : Codec) (code : Nat) : List Byte :=
  match c.which with
  | .chars => uint .little 8 code
  | w => uint e w.size code

/-! ### Frames (section "Frames") -/

/-- Specification: a column: name, type, bitfield members with their sizes, codec. -/
structure Col where
  name : List Byte
  type : Int
  bits : List (List Byte × Int)
  codec : Codec

/-- Specification: a column in the header.
DIFFERENCE: the members are there for columns of type BITFIELD only, and are followed by their sizes, which the
document does not mention. -/
def Col.bytes (e : Endian) (c : Col) : List Byte :=
  string e c.name ++ int32 e c.type ++
    (if c.type = 4 then
      int32 e c.bits.length ++ c.bits.flatMap (fun b => string e b.1) ++
      int32 e c.bits.length ++ c.bits.flatMap (fun b => int32 e b.2)
     else []) ++
    string e c.codec.which.name ++ c.codec.bytes e

/-- Specification: a row: the first column stored, and the codes from there on (section "Row Format"). -/
structure Row where
  start : Nat
  codes : List Nat

/-- Specification: a frame. -/
structure Frame where
  flags : List Word
  props : List (List Byte × List Byte)
  cols : List Col
  rows : List Row

/-- Specification: the codes of a row, each as its column stores it. -/
def codes (e : Endian) : List Col → List Nat → List Byte
  | c :: cs, x :: xs => c.codec.code e x ++ codes e cs xs
  | _, _ => []

/-- Specification: the data section.
DIFFERENCE: the marker of a row is big-endian in every file. -/
def Frame.data (e : Endian) (f : Frame) : List Byte :=
  f.rows.flatMap (fun r => uint .big 2 r.start ++ codes e (f.cols.drop r.start) r.codes)

/-- Specification: the part of the header that follows its length.
DIFFERENCE: flags and properties come before the columns. -/
def Frame.variable (e : Endian) (f : Frame) : List Byte :=
  uint e 8 (f.data e).length ++ uint e 8 0 ++ uint e 8 f.rows.length ++
    int32 e f.flags.length ++ f.flags.flatMap (double e) ++
    int32 e f.props.length ++ f.props.flatMap (fun p => string e p.1 ++ string e p.2) ++
    int32 e f.cols.length ++ f.cols.flatMap (Col.bytes e)

/-- Specification: the bytes of a frame (sections "Fixed Size Header", "Variable Header", "Data").
DIFFERENCE: the digest is that of the rest of the header, not of the data, and the length is that of the rest of the
header. -/
def Frame.bytes (md5 : List Byte → List Byte) (e : Endian) (f : Frame) : List Byte :=
  [0xff, 0xff] ++ ascii "ODA" ++ uint e 4 1 ++ int32 e 0 ++ int32 e 5 ++ string e (md5 (f.variable e)) ++
    uint e 4 (f.variable e).length ++ f.variable e ++ f.data e

/-! ### The table a frame stands for (section "Data") -/

/-- Specification: the values of the codes of a row. -/
def values : List Col → List Nat → Option (List Value)
  | [], [] => some []
  | c :: cs, x :: xs =>
    match c.codec.value x, values cs xs with
    | some v, some vs => some (v :: vs)
    | _, _ => none
  | _, _ => none

/-- Specification: the rows: the columns before the first one stored keep their values. -/
def rowsFrom (cols : List Col) : List Value → List Row → Option (List (List Value))
  | _, [] => some []
  | before, r :: rs =>
    match values (cols.drop r.start) r.codes with
    | none => none
    | some vs =>
      match rowsFrom cols (before.take r.start ++ vs) rs with
      | none => none
      | some rows => some ((before.take r.start ++ vs) :: rows)

/-- Specification: the table; "the values associated with the skipped columns [of the first row] are treated as missing
values". -/
def Frame.table (f : Frame) : Option (List (List Value)) :=
  rowsFrom f.cols (f.cols.map (fun c => .num c.codec.missing)) f.rows

/-! ### Which frames are considered -/

/-- Specification: whether the interface gives the values of a column as 64-bit integers. -/
def Col.integral (asDbl : Bool) (c : Col) : Bool :=
  !asDbl && (c.type == 1 || c.type == 4) &&
    (match c.codec.which with
     | .int8 | .int16 | .int32 | .int8Missing | .int16Missing | .constantOrMissing | .constant => true
     | _ => false)

/-- Specification: the integer part of a number is a 64-bit integer. -/
def Whole (d : Word) : Prop := ∃ i : Int, ftrunc d = some i ∧ InI64 i

/-- Specification: numbers and lengths fit their fields. -/
structure Col.Valid (asDbl : Bool) (c : Col) : Prop where
  name : c.name.length ≤ 2147483647
  type : InI32 c.type
  bits : c.type ≠ 4 → c.bits = []
  nbits : c.bits.length ≤ 2147483647
  members : ∀ b ∈ c.bits, b.1.length ≤ 2147483647 ∧ InI32 b.2
  hasMissing : InI32 c.codec.hasMissing
  nstrings : c.codec.strings.length ≤ 2147483647
  strings : ∀ s ∈ c.codec.strings, s.length ≤ 2147483647
  /-- only the codecs with a list have one -/
  noStrings : c.codec.which ≠ .int8String → c.codec.which ≠ .int16String → c.codec.strings = []
  /-- the range of a text column is not used, but must not be a NaN -/
  range : c.codec.which = .chars ∨ c.codec.which = .int8String ∨ c.codec.which = .int16String →
    isNaN c.codec.min = false ∧ isNaN c.codec.max = false
  /-- integers passed as 64-bit integers must be such -/
  missing : c.integral asDbl = true → c.codec.which ≠ .constant → Whole c.codec.missing

/-- Specification: a column that the first row may leave out: it holds numbers, with the usual missing value if they are
integers.  (The library sets the missing value of integers to this one, whatever the header says.) -/
def Col.Skippable (asDbl : Bool) (c : Col) : Prop :=
  match c.codec.which with
  | .constantString | .chars | .int8String | .int16String => False
  | .int8 | .int16 | .int32 | .int8Missing | .int16Missing | .constantOrMissing => c.codec.missing = ofInt 2147483647
  | .constant => c.integral asDbl = false
  | .realConstantOrMissing | .longReal | .shortReal | .shortReal2 => True

/-- Specification: a frame as described, all fields of which fit. -/
structure Frame.Valid (asDbl : Bool) (f : Frame) : Prop where
  cols : ∀ c ∈ f.cols, c.Valid asDbl
  /-- a table with two columns of the same name cannot be decoded by name -/
  names : (f.cols.map Col.name).Nodup
  ncols : f.cols.length < 65536
  nflags : f.flags.length ≤ 2147483647
  nprops : f.props.length ≤ 2147483647
  props : ∀ p ∈ f.props, p.1.length ≤ 2147483647 ∧ p.2.length ≤ 2147483647
  nrows : f.rows.length < 9223372036854775808
  rows : ∀ r ∈ f.rows, r.start ≤ f.cols.length
  codes : ∀ r ∈ f.rows, ∀ (i : Nat) (c : Col) (x : Nat), (f.cols.drop r.start)[i]? = some c → r.codes[i]? = some x →
    x < 256 ^ c.codec.which.size
  /-- integers passed as 64-bit integers must be such -/
  whole : ∀ r ∈ f.rows, ∀ (i : Nat) (c : Col) (x : Nat) (d : Word), (f.cols.drop r.start)[i]? = some c → r.codes[i]? = some x →
    c.integral asDbl = true → c.codec.value x = some (.num d) → Whole d
  first : ∀ r, f.rows.head? = some r → ∀ c ∈ f.cols.take r.start, c.Skippable asDbl

/-- Specification: how the interface shows a value in the words of a cell. -/
def Value.Shown (integral : Bool) : Value → List Word → Prop
  | .num d, cell =>
    if integral then ∃ i : Int, ftrunc d = some i ∧ cell = [BitVec.ofInt 64 i] else cell = [d]
  | .text s, cell => ∃ n : Nat, cell.flatMap chars8 = s ++ List.replicate n 0

end Verif.Doc
