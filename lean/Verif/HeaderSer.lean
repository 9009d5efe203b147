import Verif.PropHeader

/-
Serialising a header into a buffer that may be too small.

Models: src/odc/core/Header.cc l.141-203 (`serializeHeaderInternal`), src/odc/core/DataStream.h l.286-350
(writing), src/odc/core/Column.h l.154-178, src/odc/core/MetaData.h l.137-143, src/odc/core/Codec.h l.149-158,
src/odc/codec/Constant.h l.158-165 and l.201-205, src/odc/codec/String.h l.190-202 and l.288-293.
-/

namespace Verif

/-- `DataStream::writeBytes`, DataStream.h l.336-350: `none` is the exception `ODBEndOfDataStream`.  `cap` is
the distance from the start of the stream to the end of the buffer, negative if the buffer is smaller than the
fixed part of the header (Header.cc l.159-160). -/
def wr (cap : Int) (acc b : List Byte) : Option (List Byte) :=
  if ((acc.length + b.length : Nat) : Int) ≤ cap then some (acc ++ b) else none

/-- Successive writes. -/
def wrAll (cap : Int) (acc : List Byte) : List (List Byte) → Option (List Byte)
  | [] => some acc
  | b :: bs =>
    match wr cap acc b with
    | none => none
    | some a => wrAll cap a bs

/-- The writes for a string, DataStream.h l.313-319. -/
def strChunks (o : Order) (s : Str) : List (List Byte) := [putI32 o s.length, s]

/-- The writes for a column before its codec, Column.h l.155-175. -/
def colChunks (o : Order) (c : Col) : List (List Byte) :=
  strChunks o c.name ++ ([putI32 o c.ty] ++
    ((if c.ty = 4 then (putI32 o c.bitNames.length :: c.bitNames.flatMap (strChunks o)) ++
        (putI32 o c.bitSizes.length :: c.bitSizes.map (putI32 o)) else []) ++ strChunks o c.codec.kind.name))

/-- The writes for the part common to all codecs, Codec.h l.149-158. -/
def baseChunks (o : Order) (c : Codec) : List (List Byte) :=
  [putI32 o c.hasMissing, putWord o c.min, putWord o c.max, putWord o c.missing]

/-- The writes of the string table, String.h l.195-201. -/
def entryChunks (o : Order) : List Str → Nat → List (List Byte)
  | [], _ => []
  | s :: ss, i => strChunks o s ++ (putI32 o 0 :: putI32 o i :: entryChunks o ss (i + 1))

/-- The writes following the common part. -/
def extraChunks (o : Order) (c : Codec) : List (List Byte) :=
  match c.kind with
  | .longConstantString => strChunks o (c.strings.headD [])
  | .chars => [putI32 o 0]
  | .int8String | .int16String => putI32 o c.strings.length :: entryChunks o c.strings 0
  | _ => []

/-- `ByteOrder::swap` of minimum and maximum in memory, Constant.h l.160-161 and l.163-164. -/
def Codec.swapped (o : Order) (c : Codec) : Codec := { c with min := swapWord o c.min, max := swapWord o c.max }

/-- Virtual `save` into a bounded buffer: the codec as it is left in memory, and the bytes written so far
unless the buffer was too small.  The codec of a constant string swaps its members in place around the writes,
so an exception leaves them swapped. -/
def saveCodecW (cap : Int) (o : Order) (acc : List Byte) (c : Codec) : Codec × Option (List Byte) :=
  if c.kind = .constantString then
    match wrAll cap acc (baseChunks o (c.swapped o)) with
    | none => (c.swapped o, none)
    | some a => ((c.swapped o).swapped o, some a)
  else (c, wrAll cap acc (baseChunks o c ++ extraChunks o c))

/-- `Column::save`, Column.h l.154-178 (the sizes of the bitfield definition agree). -/
def saveColW (cap : Int) (o : Order) (acc : List Byte) (c : Col) : Col × Option (List Byte) :=
  match wrAll cap acc (colChunks o c) with
  | none => (c, none)
  | some a =>
    let r := saveCodecW cap o a c.codec
    ({ c with codec := r.1 }, r.2)

/-- The loop of `MetaData::save`, MetaData.h l.140-142. -/
def saveColsW (cap : Int) (o : Order) (acc : List Byte) : List Col → List Col × Option (List Byte)
  | [] => ([], some acc)
  | c :: cs =>
    match saveColW cap o acc c with
    | (c', none) => (c' :: cs, none)
    | (c', some a) =>
      let r := saveColsW cap o a cs
      (c' :: r.1, r.2)

/-- The writes before the columns, Header.cc l.163-171, MetaData.h l.139. -/
def frontChunks (o : Order) (h : HeaderInfo) : List (List Byte) :=
  [putN o 8 h.dataSize, putN o 8 0, putN o 8 h.nrows, putI32 o 0] ++
    ((putI32 o h.props.length :: h.props.flatMap (fun kv => strChunks o kv.1 ++ strChunks o kv.2)) ++ [putI32 o h.cols.length])

/-- One pass through the `try` block, Header.cc l.158-178, with a buffer of `size` bytes. -/
def attempt (size : Nat) (o : Order) (h : HeaderInfo) : HeaderInfo × Option (List Byte) :=
  match wrAll ((size : Int) - 57) [] (frontChunks o h) with
  | none => (h, none)
  | some a =>
    let r := saveColsW ((size : Int) - 57) o a h.cols
    ({ h with cols := r.1 }, r.2)

/-- The retry loop, Header.cc l.157-182, for at most `fuel` attempts (`Err.diverges` if that is not enough);
then the fixed part, Header.cc l.184-213. -/
def serializeLoop (md5 : List Byte → Str) (o : Order) : Nat → Nat → HeaderInfo → Except Err (List Byte)
  | 0, _, _ => .error .diverges
  | fuel + 1, size, h =>
    match attempt size o h with
    | (h', none) => serializeLoop md5 o fuel (size * 2) h'
    | (_, some var) => .ok (magic ++ (putFixed o (md5 var) var.length ++ var))

/-- The loop ends, with this result. -/
def Serializes (md5 : List Byte → Str) (o : Order) (size : Nat) (h : HeaderInfo) (bytes : List Byte) : Prop :=
  ∃ n, ∀ fuel, n ≤ fuel → serializeLoop md5 o fuel size h = .ok bytes

/-! ### Proofs -/

theorem wrAll_eq (cap : Int) (acc : List Byte) (bs : List (List Byte)) (hb : bs ≠ []) :
    wrAll cap acc bs = if ((acc.length + bs.flatten.length : Nat) : Int) ≤ cap then some (acc ++ bs.flatten) else none := by
  induction bs generalizing acc with
  | nil => exact absurd rfl hb
  | cons b bs ih =>
    simp only [wrAll, wr]
    by_cases h : ((acc.length + b.length : Nat) : Int) ≤ cap
    · rw [if_pos h]
      simp only
      cases bs with
      | nil => simp only [wrAll, List.flatten_cons, List.flatten_nil, List.append_nil]; rw [if_pos h]
      | cons b' bs =>
        rw [ih _ (by simp)]
        simp only [List.flatten_cons, List.length_append, List.append_assoc]
        simp only [Nat.add_assoc]
    · rw [if_neg h, if_neg]
      simp only [List.flatten_cons, List.length_append]
      omega

theorem flatten_strs (o : Order) (ss : List Str) : (ss.flatMap (strChunks o)).flatten = ss.flatMap (putStr o) := by
  induction ss with
  | nil => rfl
  | cons s ss ih =>
    simp only [List.flatMap_cons, List.flatten_append, ih]
    congr 1
    simp [strChunks, putStr]

theorem flatten_entries (o : Order) (ss : List Str) (i : Nat) : (entryChunks o ss i).flatten = putEntries o ss i := by
  induction ss generalizing i with
  | nil => rfl
  | cons s ss ih =>
    simp only [entryChunks, putEntries, putEntry, List.flatten_append, List.flatten_cons, ih]
    simp [strChunks, putStr]

theorem flatten_col (o : Order) (c : Col) :
    (colChunks o c).flatten ++ c.codec.save o = putCol o c := by
  unfold colChunks putCol saveCodec
  have h1 : (c.bitNames.flatMap (strChunks o)).flatten = c.bitNames.flatMap (putStr o) := flatten_strs o _
  have h2 : (c.bitSizes.map (putI32 o)).flatten = c.bitSizes.flatMap (putI32 o) := by simp [List.flatMap]
  split
  · simp only [List.flatten_append, List.flatten_cons, h1, h2]
    simp [strChunks, putStr, putVec]
  · simp [strChunks, putStr]

theorem flatten_front (o : Order) (h : HeaderInfo) (xs : List Byte) :
    (frontChunks o h).flatten ++ xs = putN o 8 h.dataSize ++ (putN o 8 0 ++ (putN o 8 h.nrows ++ (putI32 o 0 ++
      (putMap o h.props ++ (putI32 o h.cols.length ++ xs))))) := by
  have h1 : (h.props.flatMap (fun kv => strChunks o kv.1 ++ strChunks o kv.2)).flatten =
      h.props.flatMap (fun kv => putStr o kv.1 ++ putStr o kv.2) := by
    generalize h.props = m
    induction m with
    | nil => rfl
    | cons kv m ih =>
      simp only [List.flatMap_cons, List.flatten_append, ih]
      simp [strChunks, putStr]
  unfold frontChunks putMap
  simp only [List.flatten_append, List.flatten_cons, h1, List.flatten_nil]
  simp

theorem flatten_codec (o : Order) (c : Codec) (h : c.kind ≠ .constantString) :
    (baseChunks o c ++ extraChunks o c).flatten = c.save o := by
  unfold extraChunks Codec.save baseChunks saveBase
  cases hk : c.kind <;> simp [hk, strChunks, putStr, flatten_entries] at h ⊢

theorem flatten_constant (o : Order) (c : Codec) (h : c.kind = .constantString) :
    (baseChunks o (c.swapped o)).flatten = c.save o := by
  unfold Codec.save baseChunks saveBase Codec.swapped
  simp [h]

theorem Codec.swapped_swapped (o : Order) (c : Codec) : (c.swapped o).swapped o = c := by
  unfold Codec.swapped; simp

theorem Codec.swapped_same (c : Codec) : c.swapped .same = c := by
  unfold Codec.swapped swapWord swapBytes; simp

theorem baseChunks_ne (o : Order) (c : Codec) : baseChunks o c ≠ [] := by simp [baseChunks]

/-- Columns for which an interrupted attempt leaves no trace. -/
def Safe (o : Order) (cs : List Col) : Prop := o = .same ∨ ∀ c ∈ cs, c.codec.kind ≠ .constantString

theorem saveCodecW_eq (cap : Int) (o : Order) (acc : List Byte) (c : Codec) :
    (saveCodecW cap o acc c).2 = (if ((acc.length + (c.save o).length : Nat) : Int) ≤ cap then some (acc ++ c.save o) else none) ∧
    ((o = .same ∨ c.kind ≠ .constantString ∨ ((acc.length + (c.save o).length : Nat) : Int) ≤ cap) → (saveCodecW cap o acc c).1 = c) := by
  unfold saveCodecW
  by_cases hk : c.kind = .constantString
  · rw [if_pos hk, wrAll_eq _ _ _ (baseChunks_ne _ _), flatten_constant o c hk]
    by_cases h : ((acc.length + (c.save o).length : Nat) : Int) ≤ cap
    · simp only [if_pos h, Codec.swapped_swapped, true_and, implies_true]
    · simp only [if_neg h, true_and]
      rintro (rfl | h' | h')
      · exact Codec.swapped_same c
      · exact absurd hk h'
      · exact absurd h' h
  · rw [if_neg hk, wrAll_eq _ _ _ (by simp [baseChunks]), flatten_codec o c hk]
    simp

theorem saveColW_eq (cap : Int) (o : Order) (acc : List Byte) (c : Col) :
    (saveColW cap o acc c).2 = (if ((acc.length + (putCol o c).length : Nat) : Int) ≤ cap then some (acc ++ putCol o c) else none) ∧
    ((o = .same ∨ c.codec.kind ≠ .constantString ∨ ((acc.length + (putCol o c).length : Nat) : Int) ≤ cap) → (saveColW cap o acc c).1 = c) := by
  have hne : colChunks o c ≠ [] := by simp [colChunks, strChunks]
  rw [← flatten_col o c]
  unfold saveColW
  rw [wrAll_eq _ _ _ hne]
  generalize (colChunks o c).flatten = F
  by_cases h : ((acc.length + F.length : Nat) : Int) ≤ cap
  · rw [if_pos h]
    dsimp only
    obtain ⟨a, b⟩ := saveCodecW_eq cap o (acc ++ F) c.codec
    have e : (acc ++ F).length + (c.codec.save o).length = acc.length + (F ++ c.codec.save o).length := by
      simp only [List.length_append]; omega
    rw [e] at a b
    constructor
    · rw [a, List.append_assoc]
    · intro h'; rw [b h']
  · rw [if_neg h]
    dsimp only
    refine ⟨?_, fun _ => rfl⟩
    rw [if_neg]
    simp only [List.length_append]; omega

theorem saveColsW_eq (cap : Int) (o : Order) (acc : List Byte) (cs : List Col) (hacc : (acc.length : Int) ≤ cap) :
    (saveColsW cap o acc cs).2 = (if ((acc.length + (cs.flatMap (putCol o)).length : Nat) : Int) ≤ cap
      then some (acc ++ cs.flatMap (putCol o)) else none) ∧
    (Safe o cs → (saveColsW cap o acc cs).1 = cs) := by
  induction cs generalizing acc with
  | nil => simp [saveColsW, hacc]
  | cons c cs ih =>
    obtain ⟨a, b⟩ := saveColW_eq cap o acc c
    simp only [saveColsW, List.flatMap_cons, List.length_append]
    generalize hr : saveColW cap o acc c = r at *
    obtain ⟨c', w⟩ := r
    dsimp only at a b
    by_cases h : ((acc.length + (putCol o c).length : Nat) : Int) ≤ cap
    · rw [if_pos h] at a
      subst a
      have hc := b (Or.inr (Or.inr h))
      subst hc
      dsimp only
      obtain ⟨i1, i2⟩ := ih (acc ++ putCol o c') (by rw [List.length_append]; exact h)
      simp only [List.length_append, List.append_assoc] at i1
      rw [i1]
      constructor
      · congr 2; omega
      · intro hs
        rw [i2]
        rcases hs with hs | hs
        · exact Or.inl hs
        · exact Or.inr (fun c hc => hs c (by simp [hc]))
    · rw [if_neg h] at a
      subst a
      dsimp only
      refine ⟨by rw [if_neg (by omega)], ?_⟩
      intro hs
      rw [b]
      rcases hs with hs | hs
      · exact Or.inl hs
      · exact Or.inr (Or.inl (hs c (by simp)))

/-- One attempt succeeds exactly if the header fits, and then gives the variable part. -/
theorem attempt_eq (size : Nat) (o : Order) (h : HeaderInfo) :
    (attempt size o h).2 = (if 57 + (putVar o h).length ≤ size then some (putVar o h) else none) ∧
    (Safe o h.cols → (attempt size o h).1 = h) := by
  have hv : putVar o h = (frontChunks o h).flatten ++ h.cols.flatMap (putCol o) := by
    rw [flatten_front]; rfl
  unfold attempt
  rw [wrAll_eq _ _ _ (by simp [frontChunks]), hv]
  generalize (frontChunks o h).flatten = F
  simp only [List.length_nil, Nat.zero_add, List.nil_append, List.length_append]
  by_cases hF : (F.length : Int) ≤ (size : Int) - 57
  · rw [if_pos hF]
    obtain ⟨a, b⟩ := saveColsW_eq ((size : Int) - 57) o F h.cols hF
    dsimp only
    rw [a]
    constructor
    · by_cases h1 : 57 + (F.length + (h.cols.flatMap (putCol o)).length) ≤ size
      · rw [if_pos h1, if_pos (by omega)]
      · rw [if_neg h1, if_neg (by omega)]
    · intro hs; rw [b hs]
  · rw [if_neg hF]
    dsimp only
    exact ⟨by rw [if_neg (by omega)], fun _ => rfl⟩

theorem serializeLoop_ok (md5 : List Byte → Str) (o : Order) (h : HeaderInfo) (hs : Safe o h.cols) (fuel size k : Nat)
    (hk : 57 + (putVar o h).length ≤ size * 2 ^ k) (hfuel : k < fuel) :
    serializeLoop md5 o fuel size h = .ok (putHeader md5 o h) := by
  induction fuel generalizing size k with
  | zero => omega
  | succ fuel ih =>
    obtain ⟨a, b⟩ := attempt_eq size o h
    have b := b hs
    simp only [serializeLoop]
    generalize attempt size o h = r at *
    obtain ⟨h', w⟩ := r
    dsimp only at a b
    subst b
    by_cases hc : 57 + (putVar o h').length ≤ size
    · rw [if_pos hc] at a
      subst a
      rfl
    · rw [if_neg hc] at a
      subst a
      dsimp only
      cases k with
      | zero => simp at hk; omega
      | succ k => exact ih (size * 2) k (by rw [Nat.mul_assoc, ← Nat.pow_succ']; exact hk) (by omega)

/-- **C26**: for a positive initial buffer size, serialising a header in the machine's byte order ends, and the
bytes do not depend on that size. -/
theorem C26_buffer_size (md5 : List Byte → Str) (size : Nat) (hsize : 0 < size) (h : HeaderInfo) :
    Serializes md5 .same size h (putHeader md5 .same h) := by
  refine ⟨57 + (putVar .same h).length + 1, fun fuel hf => ?_⟩
  refine serializeLoop_ok md5 .same h (Or.inl rfl) fuel size (57 + (putVar .same h).length) ?_ (by omega)
  calc 57 + (putVar .same h).length ≤ 2 ^ (57 + (putVar .same h).length) := Nat.le_of_lt Nat.lt_two_pow_self
    _ ≤ size * 2 ^ (57 + (putVar .same h).length) := Nat.le_mul_of_pos_left _ hsize

/-- The same in the other byte order, if no column has a constant string codec. -/
theorem C26_other_order (md5 : List Byte → Str) (size : Nat) (hsize : 0 < size) (h : HeaderInfo)
    (hc : ∀ c ∈ h.cols, c.codec.kind ≠ .constantString) : Serializes md5 .other size h (putHeader md5 .other h) := by
  refine ⟨57 + (putVar .other h).length + 1, fun fuel hf => ?_⟩
  refine serializeLoop_ok md5 .other h (Or.inr hc) fuel size (57 + (putVar .other h).length) ?_ (by omega)
  calc 57 + (putVar .other h).length ≤ 2 ^ (57 + (putVar .other h).length) := Nat.le_of_lt Nat.lt_two_pow_self
    _ ≤ size * 2 ^ (57 + (putVar .other h).length) := Nat.le_mul_of_pos_left _ hsize

/-- With an initial buffer size of 0 the loop never ends. -/
theorem C26_violated_zero (md5 : List Byte → Str) (o : Order) (h : HeaderInfo) (fuel : Nat) :
    serializeLoop md5 o fuel 0 h = .error .diverges := by
  induction fuel generalizing h with
  | zero => rfl
  | succ fuel ih =>
    obtain ⟨a, _⟩ := attempt_eq 0 o h
    rw [if_neg (by omega)] at a
    simp only [serializeLoop]
    generalize attempt 0 o h = r at *
    obtain ⟨h', w⟩ := r
    dsimp only at a
    subst a
    exact ih h'

/-- A header with one constant string column. -/
def constantStringHeader : HeaderInfo :=
  ⟨0, 0, [], [⟨lit "s", 3, [], [], { fresh .constantString 3 false with min := wordOfBytes (lit "abcdefgh"), max := wordOfBytes (lit "abcdefgh") }⟩]⟩

/-- In the other byte order the bytes *do* depend on the buffer size when a column is a constant string and
the buffer ends inside its codec: the string is written with its bytes in reverse. -/
theorem C26_violated_other :
    serializeLoop sampleEnv.md5 .other 3 1000 constantStringHeader = .ok (putHeader sampleEnv.md5 .other constantStringHeader) ∧
    (57 + (putVar .other constantStringHeader).length = 149) ∧
    (match serializeLoop sampleEnv.md5 .other 3 140 constantStringHeader with
      | .ok b => decide ((b.drop 125).take 8 = (lit "abcdefgh").reverse)
      | .error _ => false) = true ∧
    ((putHeader sampleEnv.md5 .other constantStringHeader).drop 125).take 8 = lit "abcdefgh" := by
  refine ⟨?_, ?_, ?_, ?_⟩ <;> decide +kernel

/-- A buffer of one byte is enough to start. -/
example : serializeLoop sampleEnv.md5 .same 9 1 constantStringHeader = .ok (putHeader sampleEnv.md5 .same constantStringHeader) ∧
    serializeLoop sampleEnv.md5 .same 8 1 constantStringHeader = .error .diverges := by
  constructor <;> decide +kernel

end Verif
