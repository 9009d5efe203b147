/-
Bytes, machine words, byte order, errors and the `DataStream` reader/writer primitives.

Models: src/odc/core/DataStream.h (l.36-52 byte orders; l.205-350 read/write templates).
-/

namespace Verif

/-- A byte of a file or of memory. -/
abbrev Byte := BitVec 8

/-- An 8-byte in-memory cell slot ("a double" in the C++ API, which is reinterpreted as int64,
double or eight characters depending on the column type). -/
abbrev Word := BitVec 64

/-- Outcomes other than normal return.  One constructor per exception class that callers can
distinguish (src/odc/core/Exceptions.h, eckit exceptions) plus `ub` for undefined behaviour
(which the C++ code does not detect: anything may happen). -/
inductive Err
  | endOfStream      -- ODBEndOfDataStream            (core/Exceptions.h)
  | incomplete       -- ODBIncomplete                 (core/Exceptions.h)
  | invalid          -- ODBInvalid                    (core/Exceptions.h)
  | decodeError      -- ODBDecodeError                (core/Exceptions.h)
  | ambiguousColumn  -- AmbiguousColumnException      (core/Exceptions.h)
  | columnNotFound   -- ColumnNotFoundException       (core/Exceptions.h)
  | assertFailed     -- eckit::AssertionFailed (ASSERT macro)
  | userError        -- eckit::UserError
  | seriousBug       -- eckit::SeriousBug
  | lengthError      -- std::length_error / bad_alloc from resize with a negative size
  | ioError          -- eckit::FailedSystemCall etc. from the underlying handle
  | diverges         -- the loop does not end (fuel of a modelled loop exhausted)
  | ub               -- undefined behaviour
  deriving DecidableEq, Repr

/-- Byte order of a stream relative to the machine: `same` does not swap, `other` reverses the
bytes of each scalar.  DataStream.h l.37-53. -/
inductive Order
  | same
  | other
  deriving DecidableEq, Repr

/-- The `k` low-order bytes of `n`, least significant first (machine memory layout of a `k`-byte
integer on the little-endian machine of the model). -/
def leBytes : Nat → Nat → List Byte
  | 0, _ => []
  | k + 1, n => BitVec.ofNat 8 n :: leBytes k (n / 256)

/-- The number whose little-endian bytes are given. -/
def ofLe : List Byte → Nat
  | [] => 0
  | b :: bs => b.toNat + 256 * ofLe bs

/-- `ByteOrder::swap` on a scalar of the given bytes. DataStream.h l.37-53. -/
def swapBytes (o : Order) (bs : List Byte) : List Byte :=
  match o with
  | .same => bs
  | .other => bs.reverse

@[simp] theorem leBytes_length (k n : Nat) : (leBytes k n).length = k := by
  induction k generalizing n with
  | zero => rfl
  | succ k ih => simp [leBytes, ih]

@[simp] theorem swapBytes_length (o : Order) (bs : List Byte) :
    (swapBytes o bs).length = bs.length := by
  cases o <;> simp [swapBytes]

@[simp] theorem swapBytes_swapBytes (o : Order) (bs : List Byte) :
    swapBytes o (swapBytes o bs) = bs := by
  cases o <;> simp [swapBytes]

theorem ofLe_leBytes (k n : Nat) : ofLe (leBytes k n) = n % 256 ^ k := by
  induction k generalizing n with
  | zero => simp [leBytes, ofLe, Nat.mod_one]
  | succ k ih =>
    simp only [leBytes, ofLe, ih, BitVec.toNat_ofNat]
    have h := Nat.mod_mul (a := 256) (b := 256 ^ k) (x := n)
    have e : (2:Nat) ^ 8 = 256 := rfl
    rw [e, Nat.pow_succ 256 k, Nat.mul_comm (256 ^ k) 256, h]

theorem ofLe_lt (bs : List Byte) : ofLe bs < 256 ^ bs.length := by
  induction bs with
  | nil => simp [ofLe]
  | cons b bs ih =>
    simp only [ofLe, List.length_cons, Nat.pow_succ]
    have := b.isLt
    omega

theorem leBytes_ofLe (bs : List Byte) : leBytes bs.length (ofLe bs) = bs := by
  induction bs with
  | nil => rfl
  | cons b bs ih =>
    simp only [ofLe, List.length_cons, leBytes]
    have hb := b.isLt
    have h1 : BitVec.ofNat 8 (b.toNat + 256 * ofLe bs) = b := by
      apply BitVec.eq_of_toNat_eq
      simp only [BitVec.toNat_ofNat]
      omega
    have h2 : (b.toNat + 256 * ofLe bs) / 256 = ofLe bs := by omega
    rw [h1, h2, ih]

/-! ### Words and their bytes in memory -/

/-- Memory bytes of a word. [The `reinterpret_cast`s of the codecs, e.g. codec/String.h l.121] -/
def wordBytes (w : Word) : List Byte := leBytes 8 w.toNat

/-- The word with the given eight memory bytes (missing bytes read as zero). [The `reinterpret_cast`s of the codecs, e.g. codec/String.h l.147] -/
def wordOfBytes (bs : List Byte) : Word := BitVec.ofNat 64 (ofLe bs)

@[simp] theorem wordBytes_length (w : Word) : (wordBytes w).length = 8 := by simp [wordBytes]

@[simp] theorem wordOfBytes_wordBytes (w : Word) : wordOfBytes (wordBytes w) = w := by
  apply BitVec.eq_of_toNat_eq
  have := w.isLt
  simp only [wordOfBytes, wordBytes, ofLe_leBytes, BitVec.toNat_ofNat]
  omega

theorem wordBytes_wordOfBytes (bs : List Byte) (h : bs.length = 8) :
    wordBytes (wordOfBytes bs) = bs := by
  have h1 := ofLe_lt bs
  rw [h] at h1
  simp only [wordBytes, wordOfBytes, BitVec.toNat_ofNat]
  rw [Nat.mod_eq_of_lt (by simpa using h1)]
  rw [← h]; exact leBytes_ofLe bs

/-! ### Parsers -/

/-- A parser consumes a prefix of the remaining bytes of a `DataStream`. [core/DataStream.h l.57-58, 112-116] -/
abbrev P (α : Type) := List Byte → Except Err (α × List Byte)

/-- `DataStream::readBytes`, DataStream.h l.275-288: throws `ODBEndOfDataStream` when fewer than `n`
bytes remain. -/
def readBytes (n : Nat) : P (List Byte) := fun s =>
  if n ≤ s.length then .ok (s.take n, s.drop n) else .error .endOfStream

/-- `DataStream::advance` (DataStream.h l.105-108): ASSERTs that the position stays inside the buffer. -/
def advance (n : Nat) : P Unit := fun s =>
  if n ≤ s.length then .ok ((), s.drop n) else .error .assertFailed

/-- Read a `k`-byte scalar as an unsigned number. DataStream.h l.220-224, 267-270. -/
def readN (o : Order) (k : Nat) : P Nat := fun s =>
  match readBytes k s with
  | .ok (bs, r) => .ok (ofLe (swapBytes o bs), r)
  | .error e => .error e

/-- Write a `k`-byte scalar. DataStream.h l.292-296, 331-335. -/
def putN (o : Order) (k : Nat) (n : Nat) : List Byte := swapBytes o (leBytes k n)

@[simp] theorem putN_length (o : Order) (k n : Nat) : (putN o k n).length = k := by
  simp [putN]

@[simp] theorem readBytes_append (bs r : List Byte) :
    readBytes bs.length (bs ++ r) = .ok (bs, r) := by
  simp [readBytes]

theorem readBytes_append' (n : Nat) (bs r : List Byte) (h : bs.length = n) :
    readBytes n (bs ++ r) = .ok (bs, r) := by
  subst h; simp

theorem readN_putN (o : Order) (k n : Nat) (r : List Byte) :
    readN o k (putN o k n ++ r) = .ok (n % 256 ^ k, r) := by
  unfold readN
  rw [readBytes_append' k _ _ (by simp)]
  simp [putN, ofLe_leBytes]

/-- int32 [`DataStream::read(T)`, core/DataStream.h l.220-224] -/
def readI32 (o : Order) : P Int := fun s =>
  match readN o 4 s with
  | .ok (n, r) => .ok ((BitVec.ofNat 32 n).toInt, r)
  | .error e => .error e

/-- int32, `DataStream::write(T)`, core/DataStream.h l.293. -/
def putI32 (o : Order) (i : Int) : List Byte := putN o 4 (BitVec.ofInt 32 i).toNat

/-- int64 [`DataStream::read(T)`, core/DataStream.h l.220-224] -/
def readI64 (o : Order) : P Int := fun s =>
  match readN o 8 s with
  | .ok (n, r) => .ok ((BitVec.ofNat 64 n).toInt, r)
  | .error e => .error e

/-- int64, `DataStream::write(T)`, core/DataStream.h l.293. -/
def putI64 (o : Order) (i : Int) : List Byte := putN o 8 (BitVec.ofInt 64 i).toNat

/-- A double (its 64-bit pattern). [`DataStream::read(T)`, core/DataStream.h l.220-224] -/
def readWord (o : Order) : P Word := fun s =>
  match readN o 8 s with
  | .ok (n, r) => .ok (BitVec.ofNat 64 n, r)
  | .error e => .error e

/-- double, `DataStream::write(T)`, core/DataStream.h l.293. -/
def putWord (o : Order) (w : Word) : List Byte := putN o 8 w.toNat

@[simp] theorem putI32_length (o i) : (putI32 o i).length = 4 := by simp [putI32]
@[simp] theorem putI64_length (o i) : (putI64 o i).length = 8 := by simp [putI64]
@[simp] theorem putWord_length (o i) : (putWord o i).length = 8 := by simp [putWord]

/-- `i` fits in a signed 32-bit integer. -/
def InI32 (i : Int) : Prop := -2147483648 ≤ i ∧ i ≤ 2147483647
instance (i : Int) : Decidable (InI32 i) := inferInstanceAs (Decidable (_ ∧ _))

/-- The range of int64. -/
def InI64 (i : Int) : Prop := -9223372036854775808 ≤ i ∧ i ≤ 9223372036854775807
instance (i : Int) : Decidable (InI64 i) := inferInstanceAs (Decidable (_ ∧ _))

theorem toInt_ofInt32 (i : Int) (h : InI32 i) : (BitVec.ofInt 32 i).toInt = i := by
  obtain ⟨h1, h2⟩ := h
  rw [BitVec.toInt_ofInt]
  exact Int.bmod_eq_of_le (by omega) (by omega)

theorem toInt_ofInt64 (i : Int) (h : InI64 i) : (BitVec.ofInt 64 i).toInt = i := by
  obtain ⟨h1, h2⟩ := h
  rw [BitVec.toInt_ofInt]
  exact Int.bmod_eq_of_le (by omega) (by omega)

theorem readI32_putI32 (o : Order) (i : Int) (h : InI32 i) (r : List Byte) :
    readI32 o (putI32 o i ++ r) = .ok (i, r) := by
  unfold readI32 putI32
  rw [readN_putN]
  have := (BitVec.ofInt 32 i).isLt
  rw [Nat.mod_eq_of_lt (by omega)]; dsimp only; rw [BitVec.ofNat_toNat, BitVec.setWidth_eq, toInt_ofInt32 i h]

theorem readI64_putI64 (o : Order) (i : Int) (h : InI64 i) (r : List Byte) :
    readI64 o (putI64 o i ++ r) = .ok (i, r) := by
  unfold readI64 putI64
  rw [readN_putN]
  have := (BitVec.ofInt 64 i).isLt
  rw [Nat.mod_eq_of_lt (by omega)]; dsimp only; rw [BitVec.ofNat_toNat, BitVec.setWidth_eq, toInt_ofInt64 i h]

@[simp] theorem readWord_putWord (o : Order) (w : Word) (r : List Byte) :
    readWord o (putWord o w ++ r) = .ok (w, r) := by
  unfold readWord putWord
  rw [readN_putN]
  have := w.isLt
  rw [Nat.mod_eq_of_lt (by simpa using this)]
  simp

/-- Sequencing of parsers (statement order in the C++ code). -/
def P.bind {α β : Type} (p : P α) (f : α → P β) : P β := fun s =>
  match p s with
  | .ok (a, r) => f a r
  | .error e => .error e

/-- A reader of the stream that reads nothing (the state is the rest of the data handle, core/DataStream.h l.221-288). -/
def P.pure {α : Type} (a : α) : P α := fun s => .ok (a, s)

/-- A reader of the stream that throws (core/DataStream.h l.275-288). -/
def P.fail {α : Type} (e : Err) : P α := fun _ => .error e

instance : Monad P where
  pure := P.pure
  bind := P.bind

/-- `ASSERT(b)` inside a parser. [E.g. codec/String.h l.143] -/
def P.assert (b : Bool) : P Unit := if b then P.pure () else P.fail .assertFailed

@[simp] theorem P.bind_apply {α β : Type} (p : P α) (f : α → P β) (s : List Byte) :
    (p >>= f) s = match p s with | .ok (a, r) => f a r | .error e => .error e := rfl

@[simp] theorem P.pure_apply {α : Type} (a : α) (s : List Byte) :
    (Pure.pure a : P α) s = .ok (a, s) := rfl

/-- `p` reads back exactly what was written as `bs`, leaving any following bytes alone. -/
def Reads {α : Type} (p : P α) (bs : List Byte) (a : α) : Prop :=
  ∀ r, p (bs ++ r) = .ok (a, r)

theorem Reads.bind {α β : Type} {p : P α} {f : α → P β} {b1 b2 : List Byte} {a : α} {b : β}
    (h1 : Reads p b1 a) (h2 : Reads (f a) b2 b) : Reads (p >>= f) (b1 ++ b2) b := by
  intro r
  rw [P.bind_apply, List.append_assoc, h1]
  exact h2 r

theorem Reads.pure {α : Type} (a : α) : Reads (Pure.pure a : P α) [] a := by
  intro r; rfl

theorem Reads.bind_pure {α β : Type} {p : P α} {f : α → P β} {b1 : List Byte} {a : α} {b : β}
    (h1 : Reads p b1 a) (h2 : ∀ s, f a s = .ok (b, s)) : Reads (p >>= f) b1 b := by
  intro r
  rw [P.bind_apply, h1]
  exact h2 r

theorem Reads.map {α β : Type} {p : P α} {f : α → β} {b1 : List Byte} {a : α}
    (h1 : Reads p b1 a) : Reads (f <$> p) b1 (f a) := by
  intro r
  show (p >>= fun a => Pure.pure (f a)) _ = _
  rw [P.bind_apply, h1]; rfl

theorem Reads.assert {b : Bool} (h : b = true) : Reads (P.assert b) [] () := by
  intro r; subst h; rfl

/-! ### Strings, vectors, maps -/

/-- `DataStream::read(std::string&)`, DataStream.h l.255-262: int32 length (a negative one makes
`std::string::resize` throw), then raw bytes. -/
def readStr (o : Order) : P (List Byte) := do
  let len ← readI32 o
  if len < 0 then P.fail .lengthError else readBytes len.toNat

/-- `DataStream::write(const std::string&)`, DataStream.h l.321-326: the length is converted to int32 and that
many bytes are written (a length of 2^31 or more is outside the model's domain: `writeBytes` would be
called with a negative count). -/
def putStr (o : Order) (s : List Byte) : List Byte := putI32 o s.length ++ s

/-- Read `n` elements. [core/DataStream.h l.228-236] -/
def readMany {α : Type} (p : P α) : Nat → P (List α)
  | 0 => pure []
  | n + 1 => do
    let a ← p
    let as ← readMany p n
    pure (a :: as)

/-- `DataStream::read(std::vector<T>&)`, DataStream.h l.228-236. -/
def readVec {α : Type} (o : Order) (p : P α) : P (List α) := do
  let n ← readI32 o
  if n < 0 then P.fail .lengthError else readMany p n.toNat

/-- `DataStream::write(const std::vector<T>&)`, DataStream.h l.300-305. -/
def putVec {α : Type} (o : Order) (put : α → List Byte) (xs : List α) : List Byte :=
  putI32 o xs.length ++ xs.flatMap put

/-- Insertion in a `std::map` kept sorted by key with unique keys; `emplace` keeps an existing
entry. -/
def mapEmplace (lt : List Byte → List Byte → Bool) (k v : List Byte) :
    List (List Byte × List Byte) → List (List Byte × List Byte)
  | [] => [(k, v)]
  | (k', v') :: m =>
    if lt k k' then (k, v) :: (k', v') :: m
    else if lt k' k then (k', v') :: mapEmplace lt k v m
    else (k', v') :: m

/-- `std::string::operator<`: lexicographic on unsigned bytes. -/
def strLt : List Byte → List Byte → Bool
  | [], [] => false
  | [], _ :: _ => true
  | _ :: _, [] => false
  | a :: as, b :: bs => if a.toNat < b.toNat then true else if b.toNat < a.toNat then false else strLt as bs

/-- A `std::map<std::string,std::string>`: its entries in iteration order. -/
abbrev StrMap := List (List Byte × List Byte)

/-- `DataStream::read(std::map<T,S>&)`, DataStream.h l.240-252: a negative count reads nothing. -/
def readMap (o : Order) : P StrMap := do
  let n ← readI32 o
  let kvs ← readMany (do let k ← readStr o; let v ← readStr o; pure (k, v)) n.toNat
  pure (kvs.foldl (fun m kv => mapEmplace strLt kv.1 kv.2 m) [])

/-- `DataStream::write(const std::map<T,S>&)`, DataStream.h l.310-317. -/
def putMap (o : Order) (m : StrMap) : List Byte :=
  putI32 o m.length ++ m.flatMap (fun kv => putStr o kv.1 ++ putStr o kv.2)

/-- Length representable as a non-negative int32. -/
def LenOk (n : Nat) : Prop := n ≤ 2147483647
instance (n : Nat) : Decidable (LenOk n) := inferInstanceAs (Decidable (_ ≤ _))

theorem LenOk.inI32 {n : Nat} (h : LenOk n) : InI32 (n : Int) := by
  unfold LenOk at h; unfold InI32; omega

theorem reads_i32 (o : Order) (i : Int) (h : InI32 i) : Reads (readI32 o) (putI32 o i) i :=
  fun r => readI32_putI32 o i h r

theorem reads_i64 (o : Order) (i : Int) (h : InI64 i) : Reads (readI64 o) (putI64 o i) i :=
  fun r => readI64_putI64 o i h r

theorem reads_word (o : Order) (w : Word) : Reads (readWord o) (putWord o w) w :=
  fun r => readWord_putWord o w r

theorem reads_str (o : Order) (s : List Byte) (h : LenOk s.length) :
    Reads (readStr o) (putStr o s) s := by
  unfold readStr putStr
  refine Reads.bind (reads_i32 o _ h.inI32) ?_
  intro r
  have : ¬ ((s.length : Int) < 0) := by omega
  simp [this]

theorem reads_many {α : Type} (p : P α) (put : α → List Byte) (xs : List α)
    (h : ∀ x ∈ xs, Reads p (put x) x) : Reads (readMany p xs.length) (xs.flatMap put) xs := by
  induction xs with
  | nil => exact Reads.pure _
  | cons x xs ih =>
    simp only [List.length_cons, readMany, List.flatMap_cons]
    refine Reads.bind (h x (by simp)) ?_
    have := ih (fun y hy => h y (by simp [hy]))
    exact Reads.bind_pure this (fun s => rfl)

theorem reads_vec {α : Type} (o : Order) (p : P α) (put : α → List Byte) (xs : List α)
    (hl : LenOk xs.length) (h : ∀ x ∈ xs, Reads p (put x) x) :
    Reads (readVec o p) (putVec o put xs) xs := by
  unfold readVec putVec
  refine Reads.bind (reads_i32 o _ hl.inI32) ?_
  have h0 : ¬ ((xs.length : Int) < 0) := by omega
  simp only [h0, if_false]
  exact reads_many p put xs h

/-! A map is well formed when its keys are strictly increasing (the `std::map` invariant). -/

theorem strLt_irrefl (a : List Byte) : strLt a a = false := by
  induction a with
  | nil => rfl
  | cons x xs ih => simp [strLt, ih]

theorem strLt_trans {a b c : List Byte} (h1 : strLt a b = true) (h2 : strLt b c = true) :
    strLt a c = true := by
  induction a generalizing b c with
  | nil =>
    cases b <;> cases c <;> simp_all [strLt]
  | cons x xs ih =>
    cases b with
    | nil => simp [strLt] at h1
    | cons y ys =>
      cases c with
      | nil => simp [strLt] at h2
      | cons z zs =>
        simp only [strLt] at h1 h2 ⊢
        split at h1
        · split at h2
          · rw [if_pos (by omega)]
          · split at h2
            · simp at h2
            · rw [if_pos (by omega)]
        · split at h1
          · simp at h1
          · split at h2
            · rw [if_pos (by omega)]
            · split at h2
              · simp at h2
              · rw [if_neg (by omega), if_neg (by omega)]
                exact ih h1 h2

theorem strLt_total {a b : List Byte} (h1 : strLt a b = false) (h2 : strLt b a = false) : a = b := by
  induction a generalizing b with
  | nil => cases b <;> simp_all [strLt]
  | cons x xs ih =>
    cases b with
    | nil => simp [strLt] at h2
    | cons y ys =>
      simp only [strLt] at h1 h2
      split at h1
      · simp at h1
      · rename_i hxy
        rw [if_neg hxy] at h2
        split at h1
        · rename_i hyx; rw [if_pos hyx] at h2; simp at h2
        · rename_i hyx
          rw [if_neg hyx] at h2
          rw [ih h1 h2]
          congr 1
          apply BitVec.eq_of_toNat_eq; omega

theorem strLt_asymm {a b : List Byte} (h : strLt a b = true) : strLt b a = false := by
  cases hb : strLt b a with
  | false => rfl
  | true => have := strLt_trans h hb; rw [strLt_irrefl] at this; simp at this

/-- Specification: the keys of a `std::map<std::string, std::string>`, in order and without repetition. -/
def MapOk (m : StrMap) : Prop := m.Pairwise (fun a b => strLt a.1 b.1 = true)

theorem mapEmplace_last (m : StrMap) (k v : List Byte) (h : ∀ kv ∈ m, strLt kv.1 k = true) :
    mapEmplace strLt k v m = m ++ [(k, v)] := by
  induction m with
  | nil => rfl
  | cons kv m ih =>
    have h0 := h kv (by simp)
    simp only [mapEmplace, h0, strLt_asymm h0, List.cons_append]
    simp [ih (fun x hx => h x (by simp [hx]))]

theorem foldl_emplace_sorted (m acc : StrMap) (h : MapOk (acc ++ m)) :
    m.foldl (fun m kv => mapEmplace strLt kv.1 kv.2 m) acc = acc ++ m := by
  induction m generalizing acc with
  | nil => simp
  | cons kv m ih =>
    have h1 : mapEmplace strLt kv.1 kv.2 acc = acc ++ [kv] := by
      apply mapEmplace_last
      intro x hx
      exact (List.pairwise_append.mp h).2.2 x hx kv (by simp)
    simp only [List.foldl_cons, h1]
    rw [ih]
    · simp
    · simpa using h

theorem reads_map (o : Order) (m : StrMap) (hl : LenOk m.length) (hok : MapOk m)
    (hs : ∀ kv ∈ m, LenOk kv.1.length ∧ LenOk kv.2.length) :
    Reads (readMap o) (putMap o m) m := by
  unfold readMap putMap
  refine Reads.bind (reads_i32 o _ hl.inI32) ?_
  refine Reads.bind_pure (a := m) ?_ ?_
  · simp only [Int.toNat_natCast]
    refine reads_many _ _ m ?_
    intro kv hkv
    refine Reads.bind (reads_str o _ (hs kv hkv).1) ?_
    exact Reads.bind_pure (reads_str o _ (hs kv hkv).2) (fun s => rfl)
  · intro s
    have := foldl_emplace_sorted m [] (by simpa using hok)
    simp only [List.nil_append] at this
    rw [P.pure_apply, this]

/-- Any read of a primitive past the end of the stream is an error (never garbage). -/
theorem readN_short (o : Order) (k : Nat) (s : List Byte) (h : s.length < k) :
    readN o k s = .error .endOfStream := by
  unfold readN readBytes
  rw [if_neg (by omega)]

end Verif
