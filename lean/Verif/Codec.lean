import Verif.Ieee

/-
Column codecs: statistics, choice of codec, encoding and decoding of one cell, and
(de)serialisation of the codec parameters.

Models: src/odc/core/Codec.{h,cc}, src/odc/codec/{Integer,IntegerMissing,Real,Constant,String}.h,
src/odc/codec/CodecOptimizer.{h,cc}, src/odc/core/CodecFactory.h, src/odc/MDI.cc.
-/

namespace Verif

/-- In-memory representation of integers: `int64_t`, or `double` (default,
`ODBAPISettings::integersAsDoubles`).  Template parameter `ValueType` of codec/Integer.h l.30. -/
inductive VT
  | i64
  | dbl
  deriving DecidableEq, Repr

/-- The registered codecs (codec/*.cc l.22-26). -/
inductive Kind
  | int8 | int16 | int32 | int8Missing | int16Missing | constOrMissing | realConstOrMissing
  | shortReal | shortReal2 | longReal
  | constant | constantString | longConstantString
  | chars | int8String | int16String
  deriving DecidableEq, Repr

/-- `api::ColumnType`, api/ColumnType.h l.23-40. -/
inductive ColType
  | ignore | integer | real | string | bitfield | double
  deriving DecidableEq, Repr

/-- The numbers of the column types, api/ColumnType.h l.23-36. -/
def ColType.toInt : ColType → Int
  | .ignore => 0 | .integer => 1 | .real => 2 | .string => 3 | .bitfield => 4 | .double => 5

/-- A string (`std::string`) as bytes. -/
abbrev Str := List Byte

/-- An element of a column in memory: `width` 8-byte words. [`double*` and `dataSizeDoubles`, core/Codec.h l.86-90] -/
abbrev Cell := List Word

/-- ASCII literal. -/
def lit (s : String) : Str := s.toList.map (fun c => BitVec.ofNat 8 c.toNat)

/-- `codec_name()` of each codec class (codec/*.h). [Integer.h, IntegerMissing.h l.73-129, Real.h, Constant.h, String.h: one line in each class] -/
def Kind.name : Kind → Str
  | .int8 => lit "int8" | .int16 => lit "int16" | .int32 => lit "int32"
  | .int8Missing => lit "int8_missing" | .int16Missing => lit "int16_missing"
  | .constOrMissing => lit "constant_or_missing"
  | .realConstOrMissing => lit "real_constant_or_missing"
  | .shortReal => lit "short_real" | .shortReal2 => lit "short_real2" | .longReal => lit "long_real"
  | .constant => lit "constant" | .constantString => lit "constant_string"
  | .longConstantString => lit "long_constant_string"
  | .chars => lit "chars" | .int8String => lit "int8_string" | .int16String => lit "int16_string"

/-- The codecs of the library (the registered builders, codec/*.cc). -/
def Kind.all : List Kind :=
  [.int8, .int16, .int32, .int8Missing, .int16Missing, .constOrMissing, .realConstOrMissing,
   .shortReal, .shortReal2, .longReal, .constant, .constantString, .longConstantString,
   .chars, .int8String, .int16String]

/-- `builders_.find(name)`, core/CodecFactory.h l.152-160. -/
def Kind.ofName (s : Str) : Option Kind := Kind.all.find? (fun k => decide (k.name = s))

/-- Codecs derived from `BaseCodecInteger` (codec/Integer.h l.30, codec/IntegerMissing.h). -/
def Kind.isInt : Kind → Bool
  | .int8 | .int16 | .int32 | .int8Missing | .int16Missing | .constOrMissing | .realConstOrMissing => true
  | _ => false

/-- Codecs derived from `CodecChars` (codec/String.h l.28, codec/Constant.h l.46, 80). -/
def Kind.isChars : Kind → Bool
  | .chars | .int8String | .int16String | .longConstantString => true
  | _ => false

/-- Codecs registered with `IntegerCodecBuilder` (codec/Integer.cc, IntegerMissing.cc, Constant.cc). [`IntegerCodecBuilder`, core/CodecFactory.h l.122-148] -/
def Kind.hasVT : Kind → Bool
  | .int8 | .int16 | .int32 | .int8Missing | .int16Missing | .constOrMissing | .constant => true
  | _ => false

/-- MDI.cc l.15-16 (the process-wide values are modelled at their defaults). -/
@[irreducible] def realMDI : Word := ofInt (-2147483647)
/-- MDI.cc l.16 (at its default). -/
@[irreducible] def integerMDI : Word := ofInt 2147483647

/-- State of a codec object: `Codec` (core/Codec.h l.105-112) plus the members of the derived classes:
`hasShortReal*InternalMissing_` (Real.h l.74-75), `strings_` and `decodedSizeDoubles_`
(String.h l.65-67).  `stringLookup_` is the inverse of `strings_` and not stored separately.
`castedMissingValue_` (Integer.h l.74) is the cast of `missing`, not stored separately. -/
structure Codec where
  kind : Kind
  vt : VT
  hasMissing : Int
  missing : Word
  min : Word
  max : Word
  srFlag : Bool
  sr2Flag : Bool
  strings : List Str
  width : Nat
  deriving DecidableEq, Repr

/-- Which `ValueType` the factory instantiates: core/CodecFactory.h l.122-148. -/
def vtOf (k : Kind) (ty : Int) (asDbl : Bool) : VT :=
  if k.hasVT && (ty == 1 || ty == 4) && !asDbl then .i64 else .dbl

/-- Constructor of each codec: Codec.cc l.24-30, Integer.h l.38-44, IntegerMissing.h l.29-31, 133-134,
String.h l.82-89, 235-236, Real.h l.37-40. -/
def fresh (k : Kind) (ty : Int) (asDbl : Bool) : Codec :=
  let m := match k with
    | .int8 | .int16 | .int32 | .int8Missing | .int16Missing | .constOrMissing => integerMDI
    | .int8String | .int16String => integerMDI
    | _ => realMDI
  { kind := k, vt := vtOf k ty asDbl, hasMissing := 0, missing := m, min := m, max := m,
    srFlag := false, sr2Flag := false, strings := [], width := 1 }

/-- Cast to `ValueType` of a double (C++ implicit / static cast): undefined when out of range. -/
def toVT (vt : VT) (d : Word) : Except Err Word :=
  match vt with
  | .dbl => .ok d
  | .i64 =>
    match fcast (-9223372036854775808) 9223372036854775807 d with
    | .ok i => .ok (BitVec.ofInt 64 i)
    | .error e => .error e

/-- Value of a cell word as a double (implicit conversion of `ValueType` to `double`). [codec/Integer.h l.66-70] -/
def toDbl (vt : VT) (w : Word) : Word :=
  match vt with
  | .dbl => w
  | .i64 => ofInt w.toInt

/-- `missingValue() const`: the word a decoded missing cell holds.  Integer.h l.55-59 (punned cast),
IntegerMissing.h l.138 (real_constant_or_missing: raw), Codec.h l.78-80 (raw). -/
def Codec.missingWord (c : Codec) : Except Err Word :=
  if c.kind.isInt && c.kind != .realConstOrMissing then toVT c.vt c.missing else .ok c.missing

/-- `missingValue(double)`: Codec.cc l.94-98 and Integer.h l.50-53. -/
def Codec.setMissing (c : Codec) (v : Word) : Except Err Codec :=
  if feq c.min c.missing && feq c.max c.missing then
    let c' := { c with missing := v, min := v, max := v }
    if c.kind.isInt then
      match toVT c.vt v with
      | .ok _ => .ok c'
      | .error e => .error e
    else .ok c'
  else .error .assertFailed

/-- `dataSizeDoubles(size_t)`: Codec.h l.86-90, String.h l.58-59. -/
def Codec.setWidth (c : Codec) (n : Nat) : Except Err Codec :=
  if c.kind.isChars then .ok { c with width := n }
  else if n = 1 then .ok c else .error .seriousBug

/-- `resetStats`, Codec.h l.62-65. -/
def Codec.resetStats (c : Codec) : Codec :=
  { c with min := c.missing, max := c.missing, hasMissing := 0 }

/-- Base `Codec::gatherStats`, Codec.cc l.100-110. -/
def Codec.gatherBase (c : Codec) (v : Word) : Codec :=
  if feq v c.missing then { c with hasMissing := 1 }
  else
    { c with
      min := if flt v c.min || feq c.min c.missing then v else c.min
      max := if flt c.max v || feq c.max c.missing then v else c.max }

/-- Bytes of a cell in memory. [codec/String.h l.121] -/
def cellBytes (cell : Cell) : List Byte := cell.flatMap wordBytes

/-- `std::string(p, strnlen(p, width*8))` for a cell: String.h l.121-122, 263-264. -/
def cellStr (width : Nat) (cell : Cell) : Str :=
  ((cellBytes cell).take (8 * width)).takeWhile (fun b => decide (b ≠ 0))

/-- First word of a cell (numeric codecs are passed `const double&`). [core/Codec.h, the signature of `encode`; codec/Integer.h l.95] -/
def cellWord (cell : Cell) : Word := cell.headD 0

/-- FLT_MIN and FLT_MAX as in Real.h l.22-24. -/
def minFloat : BitVec 32 := 0x800000

/-- `std::numeric_limits<float>::max()`, codec/Real.h l.22-24. -/
def maxFloat : BitVec 32 := 0x7f7fffff

/-- The missing value of `short_real2`, `-std::numeric_limits<float>::max()`, codec/Real.h l.22-24. -/
def real2Missing : BitVec 32 := 0xff7fffff

/-- `CodecChars::gatherStats`, String.h l.260-276. -/
def Codec.gatherChars (c : Codec) (cell : Cell) : Codec :=
  let s := cellStr c.width cell
  { c with
    strings := if s ∈ c.strings then c.strings else c.strings ++ [s]
    min := wordOfBytes (s.take 8) }

/-- Virtual `gatherStats`: Codec.cc l.100, Integer.h l.66-70, Real.h l.61-70, Constant.h l.105-109,
String.h l.260-276. -/
def Codec.gather (c : Codec) (cell : Cell) : Codec :=
  match c.kind with
  | .longReal =>
    let v := cellWord cell
    let c' := c.gatherBase v
    { c' with
      srFlag := c'.srFlag || feq v (widen minFloat)
      sr2Flag := c'.sr2Flag || feq v (widen maxFloat) }
  | .chars | .int8String | .int16String | .longConstantString => c.gatherChars cell
  | _ => c.gatherBase (toDbl c.vt (cellWord cell))

/-! ### Encoding and decoding of one cell -/

/-- `CodecIntegerOffset::encode`, Integer.h l.95-106; `k` bytes per value. -/
def encOffset (o : Order) (c : Codec) (k : Nat) (w : Word) : Except Err (List Byte) :=
  match fcast 0 18446744073709551615 (fsub (toDbl c.vt w) c.min) with
  | .ok i => .ok (putN o k i.toNat)
  | .error e => .error e

/-- `BaseCodecMissing::encode`, IntegerMissing.h l.38-53. -/
def encMissing (o : Order) (c : Codec) (k : Nat) (marker : Nat) (w : Word) : Except Err (List Byte) :=
  if feq (toDbl c.vt w) c.missing then .ok (putN o k marker)
  else
    match fcast 0 (256 ^ k - 1) (fsub (toDbl c.vt w) c.min) with
    | .ok i => if i.toNat = marker then .error .assertFailed else .ok (putN o k i.toNat)
    | .error e => .error e

/-- `CodecIntegerDirect::encode`, Integer.h l.135-143. -/
def encDirect (o : Order) (c : Codec) (w : Word) : Except Err (List Byte) :=
  match c.vt with
  | .i64 => .ok (putN o 4 (w.toNat % 2 ^ 32))
  | .dbl =>
    match fcast (-2147483648) 2147483647 w with
    | .ok i => .ok (putI32 o i)
    | .error e => .error e

/-- `ShortRealBase::encode`, Real.h l.91-108. -/
def encShort (o : Order) (c : Codec) (marker : BitVec 32) (w : Word) : Except Err (List Byte) :=
  if feq w c.missing then .ok (putN o 4 marker.toNat)
  else if geq (narrow w) marker then .error .assertFailed
  else .ok (putN o 4 (narrow w).toNat)

/-- `IntStringCodecBase::encode`, String.h l.116-132.  The inner offset codec has `min = 0`
(String.h l.88), so it stores the index itself. -/
def encStrIdx (o : Order) (c : Codec) (k : Nat) (cell : Cell) : Except Err (List Byte) :=
  match c.strings.findIdx? (fun s => decide (s = cellStr c.width cell)) with
  | some i => .ok (putN o k i)
  | none => .error .assertFailed

/-- Virtual `encode`. [Dispatch to the `encode` of each class: codec/Integer.h l.95-106, 135-143, IntegerMissing.h l.38-53, Real.h l.44-50, 91-108, Constant.h l.112-114, 139-141, 178-180, String.h l.116-132, 239-246] -/
def Codec.enc (o : Order) (c : Codec) (cell : Cell) : Except Err (List Byte) :=
  match c.kind with
  | .int8 => encOffset o c 1 (cellWord cell)
  | .int16 => encOffset o c 2 (cellWord cell)
  | .int32 => encDirect o c (cellWord cell)
  | .int8Missing | .constOrMissing | .realConstOrMissing => encMissing o c 1 0xff (cellWord cell)
  | .int16Missing => encMissing o c 2 0xffff (cellWord cell)
  | .shortReal => encShort o c minFloat (cellWord cell)
  | .shortReal2 => encShort o c real2Missing (cellWord cell)
  | .longReal => .ok (putWord o (cellWord cell))                          -- Real.h l.49-54
  | .constant | .constantString | .longConstantString => .ok []           -- Constant.h l.114, 144, 185
  | .chars => .ok ((cellBytes cell).take (8 * c.width))                   -- String.h l.229-236
  | .int8String => encStrIdx o c 1 cell
  | .int16String => encStrIdx o c 2 cell

/-- `n` words whose bytes are `bs` padded with zeros (`memset` + `memcpy`). [codec/String.h l.146-147] -/
def wordsOf : Nat → List Byte → List Word
  | 0, _ => []
  | n + 1, bs => wordOfBytes (bs.take 8) :: wordsOf n (bs.drop 8)

/-- `CodecIntegerOffset::decode`, Integer.h l.108-115. -/
def decOffset (o : Order) (c : Codec) (k : Nat) : P Cell := do
  let s ← readN o k
  match toVT c.vt (fadd (ofInt s) c.min) with
  | .ok w => pure [w]
  | .error e => P.fail e

/-- `BaseCodecMissing::decode`, IntegerMissing.h l.55-62. -/
def decMissing (o : Order) (c : Codec) (k : Nat) (marker : Nat) : P Cell := do
  let s ← readN o k
  match toVT c.vt (if s = marker then c.missing else fadd (ofInt s) c.min) with
  | .ok w => pure [w]
  | .error e => P.fail e

/-- `CodecIntegerDirect::decode`, Integer.h l.145-152. -/
def decDirect (o : Order) (c : Codec) : P Cell := do
  let s ← readI32 o
  match c.vt with
  | .i64 => pure [BitVec.ofInt 64 s]
  | .dbl => pure [ofInt s]

/-- `ShortRealBase::decode`, Real.h l.110-116. -/
def decShort (o : Order) (c : Codec) (marker : BitVec 32) : P Cell := do
  let n ← readN o 4
  let f := BitVec.ofNat 32 n
  pure [if geq f marker then c.missing else widen f]

/-- `IntStringCodecBase::decode`, String.h l.134-148. -/
def decStrIdx (o : Order) (c : Codec) (k : Nat) : P Cell := do
  let i ← readN o k
  match c.strings[i]? with
  | some s => pure (wordsOf c.width (s.take (8 * c.width)))
  | none => P.fail .assertFailed

/-- Virtual `decode`. [Dispatch to the `decode` of each class: codec/Integer.h l.108-115, 145-152, IntegerMissing.h l.55-62, Real.h l.110-116, Constant.h l.117-120, 144-146, 183-187, String.h l.134-148, 249-252] -/
def Codec.dec (o : Order) (c : Codec) : P Cell :=
  match c.kind with
  | .int8 => decOffset o c 1
  | .int16 => decOffset o c 2
  | .int32 => decDirect o c
  | .int8Missing | .constOrMissing | .realConstOrMissing => decMissing o c 1 0xff
  | .int16Missing => decMissing o c 2 0xffff
  | .shortReal => decShort o c minFloat
  | .shortReal2 => decShort o c real2Missing
  | .longReal => do let w ← readWord o; pure [w]                           -- Real.h l.56
  | .constant =>                                                           -- Constant.h l.119-123
    match toVT c.vt c.min with
    | .ok w => pure [w]
    | .error e => P.fail e
  | .constantString => pure [c.min]                                        -- Constant.h l.149-151
  | .longConstantString =>                                                 -- Constant.h l.190-195
    match c.strings.head? with
    | some s => if s = [] then pure [] else pure (wordsOf c.width (s.take (8 * c.width)))
    | none => P.fail .ub
  | .chars => do let bs ← readBytes (8 * c.width); pure (wordsOf c.width bs)  -- String.h l.239-242
  | .int8String => decStrIdx o c 1
  | .int16String => decStrIdx o c 2

/-- Encoded size of a cell: what `skip` advances by. [The `skip` of each class, see `Codec.skip`] -/
def Codec.encSize (c : Codec) : Nat :=
  match c.kind with
  | .int8 => 1 | .int16 => 2 | .int32 => 4
  | .int8Missing | .constOrMissing | .realConstOrMissing => 1
  | .int16Missing => 2
  | .shortReal | .shortReal2 => 4
  | .longReal => 8
  | .constant | .constantString | .longConstantString => 0
  | .chars => 8 * c.width
  | .int8String => 1 | .int16String => 2

/-- Virtual `skip` (Integer.h l.117, 154, IntegerMissing.h l.64, Real.h l.58, 118, Constant.h l.123, 149, 190,
String.h l.150,255-257). -/
def Codec.skip (c : Codec) : P Unit := advance c.encSize

/-! ### Choice of the codec: `CodecOptimizer::setOptimalCodecs`, CodecOptimizer.h l.38-172 -/

/-- Default codec of a column type when it is defined: `Column::type<ByteOrder>`,
core/Column.h l.180-211. -/
def defaultCodec (ty : ColType) (asDbl : Bool) : Except Err Codec :=
  match ty with
  | .integer => .ok (fresh .int32 1 asDbl)
  | .bitfield => (fresh .int32 4 asDbl).setMissing integerMDI
  | .real => .ok (fresh .longReal 2 asDbl)
  | .double => .ok (fresh .longReal 5 asDbl)
  | .string => .ok (fresh .chars 3 asDbl)
  | .ignore => .error .assertFailed

/-- Codec chosen for integer columns, CodecOptimizer.h l.130-147; `n = max - min` truncated. -/
def intKind (hasMissing : Bool) (n : Int) : Kind :=
  if hasMissing then
    if n = 0 then .constOrMissing
    else if n < 0xff then .int8Missing
    else if n < 0xffff then .int16Missing
    else .int32
  else
    if n = 0 then .constant
    else if n ≤ 0xff then .int8
    else if n ≤ 0xffff then .int16
    else .int32

/-- Codec chosen for string columns, CodecOptimizer.h l.99-109 (`longEnv`: the environment variable
ODC_ENABLE_WRITING_LONG_STRING_CODEC is set). -/
def strKind (longEnv : Bool) (n width : Nat) : Kind :=
  if n = 1 ∧ width = 1 then .constantString
  else if n = 1 ∧ longEnv then .longConstantString
  else if n < 256 then .int8String
  else .int16String

/-- Codec chosen for REAL columns, CodecOptimizer.h l.55-72, 86-87. -/
def realKind (c : Codec) : Except Err Kind :=
  if feq c.max c.min then .ok (if c.hasMissing ≠ 0 then .realConstOrMissing else .constant)
  else if c.sr2Flag then (if c.srFlag then .error .assertFailed else .ok .shortReal)
  else if c.srFlag then .ok .shortReal2
  else .ok .shortReal2

/-- Common tail of each case: build the new codec, then copy has-missing, missing, min and max
(CodecOptimizer.h l.74-78 and following). -/
def rebuild (k : Kind) (ty : ColType) (asDbl : Bool) (c : Codec) : Except Err Codec :=
  match (fresh k ty.toInt asDbl).setMissing c.missing with
  | .ok c' => .ok { c' with hasMissing := if c.hasMissing ≠ 0 then 1 else 0, min := c.min, max := c.max }
  | .error e => .error e

/-- `setOptimalCodecs` for one column. [codec/CodecOptimizer.h l.42-169] -/
def optimise (ty : ColType) (asDbl longEnv : Bool) (c : Codec) : Except Err Codec :=
  match ty with
  | .real =>
    if c.kind = .longReal then
      match realKind c with
      | .ok k => rebuild k ty asDbl c
      | .error e => .error e
    else .error .assertFailed
  | .double =>
    rebuild (if feq c.max c.min then (if c.hasMissing ≠ 0 then .realConstOrMissing else .constant)
             else .longReal) ty asDbl c
  | .string =>
    if c.strings.length < 65536 then
      let k := strKind longEnv c.strings.length c.width
      match rebuild k ty asDbl c with
      | .ok c' =>
        if k = .constantString then .ok c'
        else .ok { c' with strings := c.strings, width := c.width }
      | .error e => .error e
    else .error .assertFailed
  | .integer | .bitfield =>
    match fcast (-9223372036854775808) 9223372036854775807 (fsub c.max c.min) with
    | .ok n => rebuild (intKind (decide (c.hasMissing ≠ 0)) n) ty asDbl c
    | .error e => .error e
  | .ignore => .ok c     -- "Unsupported type" is only logged, l.160-162

/-! ### Saving and loading codec parameters -/

/-- `ByteOrder::swap` of an in-memory double. [core/DataStream.h l.47-53, used by codec/Constant.h l.152-165] -/
def swapWord (o : Order) (w : Word) : Word := wordOfBytes (swapBytes o (wordBytes w))

/-- `DataStreamCodec::save`, Codec.h l.150-158. -/
def saveBase (o : Order) (hm : Int) (mn mx ms : Word) : List Byte :=
  putI32 o hm ++ (putWord o mn ++ (putWord o mx ++ putWord o ms))

/-- One entry of the string table, String.h l.195-201. -/
def putEntry (o : Order) (s : Str) (i : Nat) : List Byte :=
  putStr o s ++ (putI32 o 0 ++ putI32 o i)

/-- String table entries from index `i` on. [codec/String.h l.195-201] -/
def putEntries (o : Order) : List Str → Nat → List Byte
  | [], _ => []
  | s :: ss, i => putEntry o s i ++ putEntries o ss (i + 1)

/-- Virtual `save`: Codec.h l.150-158; Constant.h l.158-165 (constant_string), l.201-205
(long_constant_string); String.h l.190-202, 288-293. -/
def Codec.save (o : Order) (c : Codec) : List Byte :=
  match c.kind with
  | .constantString => saveBase o c.hasMissing (swapWord o c.min) (swapWord o c.max) c.missing
  | .longConstantString =>
    saveBase o c.hasMissing c.min c.max c.missing ++ putStr o (c.strings.headD [])
  | .chars => saveBase o c.hasMissing c.min c.max c.missing ++ putI32 o 0
  | .int8String | .int16String =>
    saveBase o c.hasMissing c.min c.max c.missing ++
      (putI32 o c.strings.length ++ putEntries o c.strings 0)
  | _ => saveBase o c.hasMissing c.min c.max c.missing

/-- `DataStreamCodec::load`, Codec.h l.141-148. -/
def loadBase (o : Order) (c : Codec) : P Codec := do
  let hm ← readI32 o
  let mn ← readWord o
  let mx ← readWord o
  let ms ← readWord o
  pure { c with hasMissing := hm, min := mn, max := mx, missing := ms }

/-- Number of words for a string of `n` bytes: `((n - 1) / 8) + 1` with `size_t` arithmetic
(for `n = 0` the subtraction wraps around: 2^61). [codec/String.h l.153-188] -/
def wordsFor (n : Nat) : Nat := (if n = 0 then 18446744073709551615 else n - 1) / 8 + 1

/-- The loop of `IntStringCodecBase::load`, String.h l.170-188: `k` entries remain of `num`. -/
def readEntries (o : Order) (num : Nat) : Nat → List Str → Nat → P (List Str × Nat)
  | 0, ss, w => pure (ss, w)
  | k + 1, ss, w => do
    let s ← readStr o
    let _cnt ← readI32 o
    let idx ← readI32 o
    if (num : Int) ≤ idx then P.fail .assertFailed
    else if idx < 0 then P.fail .ub       -- strings_[index] with a negative index
    else readEntries o num k (ss.set idx.toNat s) (if s.length ≠ 0 then max w (wordsFor s.length) else w)

/-- Virtual `load` of a freshly built codec. [core/Codec.h l.141-148, codec/Integer.h l.61-64, Constant.h l.152-156, 193-199, String.h l.153-188, 280-285] -/
def Codec.load (o : Order) (c : Codec) : P Codec := do
  let c ← loadBase o c
  match c.kind with
  | .constantString => pure { c with min := swapWord o c.min, max := swapWord o c.max }  -- Constant.h l.157-161
  | .longConstantString => do                                                            -- Constant.h l.201-207
    let s ← readStr o
    pure { c with strings := c.strings ++ [s], width := wordsFor s.length }
  | .chars => do                                                                         -- String.h l.272-277
    let n ← readI32 o
    if n = 0 then pure c else P.fail .assertFailed
  | .int8String | .int16String => do                                                     -- String.h l.160-197
    let n ← readI32 o
    if n < 0 then P.fail .assertFailed
    else do
      let (ss, w) ← readEntries o n.toNat n.toNat (List.replicate n.toNat []) 1
      pure { c with strings := ss, width := w }
  | k =>
    if k.isInt then                                                                      -- Integer.h l.59-62
      match toVT c.vt c.missing with
      | .ok _ => pure c
      | .error e => P.fail e
    else pure c

/-- `CodecFactory::load`, core/CodecFactory.h l.162-171. -/
def loadCodec (o : Order) (asDbl : Bool) (ty : Int) : P Codec := do
  let nm ← readStr o
  match Kind.ofName nm with
  | none => P.fail .decodeError
  | some k => (fresh k ty asDbl).load o

/-- Column codec as written by `Column::save`: name then parameters (Column.h l.172-177). -/
def saveCodec (o : Order) (c : Codec) : List Byte := putStr o c.kind.name ++ c.save o

end Verif
