import Verif.CodecSer

/-
Frame header: columns, metadata, properties, magic number, digest.

Models: src/odc/core/Column.h l.130-178, src/odc/core/MetaData.h l.137-159, src/odc/core/Header.cc.
-/

namespace Verif

/-- `core::Column` (Column.h l.118-124). -/
structure Col where
  name : Str
  ty : Int
  bitNames : List Str
  bitSizes : List Int
  codec : Codec
  deriving DecidableEq, Repr

/-- `Column::load`, Column.h l.130-152. -/
def readCol (o : Order) (asDbl : Bool) : P Col := do
  let name ← readStr o
  let ty ← readI32 o
  if ty = 4 then do
    let names ← readVec o (readStr o)
    let sizes ← readVec o (readI32 o)
    if names.length ≠ sizes.length then P.fail .assertFailed
    else do
      let c ← loadCodec o asDbl ty
      pure ⟨name, ty, names, sizes, c⟩
  else do
    let c ← loadCodec o asDbl ty
    pure ⟨name, ty, [], [], c⟩

/-- `Column::save`, Column.h l.154-178 (the ASSERT on the sizes is in `saveColOk`). -/
def putCol (o : Order) (c : Col) : List Byte :=
  putStr o c.name ++ (putI32 o c.ty ++
    ((if c.ty = 4 then putVec o (putStr o) c.bitNames ++ putVec o (putI32 o) c.bitSizes else []) ++
      saveCodec o c.codec))

/-- The ASSERT of `Column::save`, Column.h l.168. -/
def saveColOk (c : Col) : Bool := decide (c.ty = 4 → c.bitNames.length = c.bitSizes.length)

/-- What a frame header carries: `Header` members plus metadata (Header.h l.84-92). -/
structure HeaderInfo where
  dataSize : Nat
  nrows : Nat
  props : StrMap
  cols : List Col
  deriving DecidableEq, Repr

/-- Variable-size part, Header.cc l.158-172.  `Flags` is an empty `vector<double>`. -/
def putVar (o : Order) (h : HeaderInfo) : List Byte :=
  putN o 8 h.dataSize ++ (putN o 8 0 ++ (putN o 8 h.nrows ++ (putI32 o 0 ++ (putMap o h.props ++
    (putI32 o h.cols.length ++ h.cols.flatMap (putCol o))))))

/-- Variable-size part, Header.cc l.93-121, and `MetaData::load`, MetaData.h l.145-159 (a negative
number of columns makes `resize` throw). -/
def readVar (o : Order) (asDbl : Bool) : P HeaderInfo := do
  let ds ← readN o 8
  let prev ← readN o 8
  if prev ≠ 0 then P.fail .assertFailed
  else do
    let nr ← readN o 8
    let _flags ← readVec o (readWord o)
    let props ← readMap o
    let nc ← readI32 o
    if nc < 0 then P.fail .lengthError
    else do
      let cols ← readMany (readCol o asDbl) nc.toNat
      pure ⟨ds, nr, props, cols⟩

/-- Magic: 0xffff then "ODA" (Header.cc l.187-188; Header.cc l.38, 47). -/
def magic : List Byte := [0xff, 0xff, 0x4f, 0x44, 0x41]

/-- Fixed-size part after the magic, Header.cc l.188-204; `digest` is the MD5 of the variable part. -/
def putFixed (o : Order) (digest : Str) (varSize : Nat) : List Byte :=
  putI32 o 1 ++ (putI32 o 0 ++ (putI32 o 5 ++ (putStr o digest ++ putI32 o varSize)))

/-- The bytes of a header: `serializeHeaderInternal`, Header.cc l.141-207, once serialised. -/
def putHeader (md5 : List Byte → Str) (o : Order) (h : HeaderInfo) : List Byte :=
  magic ++ (putFixed o (md5 (putVar o h)) (putVar o h).length ++ putVar o h)

/-- The 48-byte block after the byte-order indicator, Header.cc l.56-77. -/
def readBasic (o : Order) : P (Str × Int) := do
  let major ← readI32 o
  if ¬ major ≤ 0 then P.fail .assertFailed
  else do
    let minor ← readI32 o
    if ¬ (minor ≤ 5 ∧ minor > 3) then P.fail .assertFailed
    else do
      let digest ← readStr o
      let size ← readI32 o
      pure (digest, size)

/-- `Header::load`, Header.cc l.51-122, on the bytes following the byte-order indicator. Result: header
contents and the bytes following the header.  `dh.read` returns at most the bytes available. -/
def loadHeader (md5 : List Byte → Str) (asDbl : Bool) (o : Order) (s : List Byte) :
    Except Err (HeaderInfo × List Byte) :=
  if s.length < 48 then .error .incomplete
  else
    match readBasic o (s.take 48) with
    | .error e => .error e
    | .ok ((digest, size), _) =>
      if size < 0 then .error .lengthError
      else if (s.drop 48).length < size.toNat then .error .incomplete
      else
        if digest ≠ md5 ((s.drop 48).take size.toNat) then .error .invalid
        else
          match readVar o asDbl ((s.drop 48).take size.toNat) with
          | .error e => .error e
          | .ok (h, _) => .ok (h, (s.drop 48).drop size.toNat)

/-- Which byte order a file has, from the raw int32 following the magic (Header.cc l.124-136). -/
def orderOf (bs : List Byte) : Order := if ofLe bs = 1 then .same else .other

/-- `Header::loadAfterMagic`, Header.cc l.124-136. -/
def loadAfterMagic (md5 : List Byte → Str) (asDbl : Bool) (s : List Byte) :
    Except Err (HeaderInfo × Order × List Byte) :=
  if s.length < 4 then .error .incomplete
  else
    match loadHeader md5 asDbl (orderOf (s.take 4)) (s.drop 4) with
    | .error e => .error e
    | .ok (h, r) => .ok (h, orderOf (s.take 4), r)

/-- `Header::readMagic` then `loadAfterMagic`: `none` at the end of the data
(Header.cc l.37-49, Table.cc l.432-447). -/
def parseHeader (md5 : List Byte → Str) (asDbl : Bool) (s : List Byte) :
    Except Err (Option (HeaderInfo × Order × List Byte)) :=
  if s.length = 0 then .ok none
  else if s.length < 5 then .error .incomplete
  else if s.take 5 ≠ magic then .error .invalid
  else
    match loadAfterMagic md5 asDbl (s.drop 5) with
    | .error e => .error e
    | .ok x => .ok (some x)

/-! ### Round trip -/

/-- Limits of the file format for a column. -/
structure ColOk (asDbl : Bool) (c : Col) : Prop where
  name : LenOk c.name.length
  ty : InI32 c.ty
  bits : c.ty ≠ 4 → c.bitNames = [] ∧ c.bitSizes = []
  nb : c.bitNames.length = c.bitSizes.length
  nbOk : LenOk c.bitNames.length
  bn : ∀ s ∈ c.bitNames, LenOk s.length
  bs : ∀ i ∈ c.bitSizes, InI32 i
  codec : SaveOk asDbl c.ty c.codec

/-- Column as read back. -/
def Col.reload (asDbl : Bool) (c : Col) : Col := { c with codec := Verif.reload asDbl c.ty c.codec }

/-- Specification: a header whose numbers fit the fields of the format and whose codecs read back. -/
structure HeaderOk (asDbl : Bool) (h : HeaderInfo) : Prop where
  ds : h.dataSize < 18446744073709551616
  nr : h.nrows < 18446744073709551616
  np : LenOk h.props.length
  sorted : MapOk h.props
  pk : ∀ kv ∈ h.props, LenOk kv.1.length ∧ LenOk kv.2.length
  nc : LenOk h.cols.length
  cols : ∀ c ∈ h.cols, ColOk asDbl c

/-- Specification: the header as it is read back. -/
def HeaderInfo.reload (asDbl : Bool) (h : HeaderInfo) : HeaderInfo :=
  { h with cols := h.cols.map (Col.reload asDbl) }

theorem reads_N (o : Order) (k n : Nat) (h : n < 256 ^ k) : Reads (readN o k) (putN o k n) n := by
  intro r; rw [readN_putN, Nat.mod_eq_of_lt h]

theorem reads_col (o : Order) (asDbl : Bool) (c : Col) (h : ColOk asDbl c) :
    Reads (readCol o asDbl) (putCol o c) (c.reload asDbl) := by
  unfold readCol putCol
  refine Reads.bind (reads_str o _ h.name) ?_
  refine Reads.bind (reads_i32 o _ h.ty) ?_
  have hc := reads_codec o asDbl c.ty c.codec h.codec
  by_cases hty : c.ty = 4
  · rw [if_pos hty, if_pos hty, List.append_assoc]
    refine Reads.bind (reads_vec o (readStr o) (putStr o) c.bitNames h.nbOk
      (fun s hs => reads_str o s (h.bn s hs))) ?_
    refine Reads.bind (reads_vec o (readI32 o) (putI32 o) c.bitSizes (by rw [← h.nb]; exact h.nbOk)
      (fun i hi => reads_i32 o i (h.bs i hi))) ?_
    rw [if_neg (by simp [h.nb])]
    exact Reads.bind_pure hc (fun s => rfl)
  · rw [if_neg hty, if_neg hty, List.nil_append]
    refine Reads.bind_pure hc (fun s => ?_)
    obtain ⟨b1, b2⟩ := h.bits hty
    simp [Col.reload, b1, b2]

theorem reads_many' {α β : Type} (p : P β) (put : α → List Byte) (f : α → β) (xs : List α)
    (h : ∀ x ∈ xs, Reads p (put x) (f x)) :
    Reads (readMany p xs.length) (xs.flatMap put) (xs.map f) := by
  induction xs with
  | nil => exact Reads.pure _
  | cons x xs ih =>
    show Reads (do let a ← p; let as ← readMany p xs.length; pure (a :: as)) (put x ++ xs.flatMap put) _
    refine Reads.bind (h x (by simp)) ?_
    exact Reads.bind_pure (ih (fun y hy => h y (by simp [hy]))) (fun s => rfl)

theorem reads_var (o : Order) (asDbl : Bool) (h : HeaderInfo) (hok : HeaderOk asDbl h) :
    Reads (readVar o asDbl) (putVar o h) (h.reload asDbl) := by
  unfold readVar putVar
  refine Reads.bind (reads_N o 8 _ hok.ds) ?_
  refine Reads.bind (reads_N o 8 0 (by decide)) ?_
  rw [if_neg (by simp)]
  refine Reads.bind (reads_N o 8 _ hok.nr) ?_
  have hf : Reads (readVec o (readWord o)) (putI32 o 0) [] := by
    have := reads_vec o (readWord o) (putWord o) [] (by decide) (by simp)
    simpa [putVec] using this
  refine Reads.bind hf ?_
  refine Reads.bind (reads_map o h.props hok.np hok.sorted hok.pk) ?_
  refine Reads.bind (reads_i32 o _ hok.nc.inI32) ?_
  rw [if_neg (by omega), Int.toNat_natCast]
  exact Reads.bind_pure (reads_many' _ _ _ h.cols (fun c hc => reads_col o asDbl c (hok.cols c hc)))
    (fun s => rfl)

theorem reads_basic (o : Order) (digest : Str) (n : Nat) (hd : LenOk digest.length) (hn : LenOk n) :
    Reads (readBasic o) (putI32 o 0 ++ (putI32 o 5 ++ (putStr o digest ++ putI32 o n))) (digest, (n : Int)) := by
  unfold readBasic
  refine Reads.bind (reads_i32 o 0 (by decide)) ?_
  rw [if_neg (by decide)]
  refine Reads.bind (reads_i32 o 5 (by decide)) ?_
  rw [if_neg (by decide)]
  refine Reads.bind (reads_str o _ hd) ?_
  exact Reads.bind_pure (reads_i32 o _ hn.inI32) (fun s => rfl)

@[simp] theorem putStr_length (o : Order) (s : Str) : (putStr o s).length = 4 + s.length := by
  simp [putStr]

theorem orderOf_put (o : Order) : orderOf (putI32 o 1) = o := by cases o <;> decide

theorem magic_length : magic.length = 5 := rfl

/-- Reading a well-formed header followed by anything. -/
theorem parseHeader_put (md5 : List Byte → Str) (hmd5 : ∀ x, (md5 x).length = 32) (asDbl : Bool) (o : Order)
    (h : HeaderInfo) (hok : HeaderOk asDbl h) (hsz : LenOk (putVar o h).length) (r : List Byte) :
    parseHeader md5 asDbl (putHeader md5 o h ++ r) = .ok (some (h.reload asDbl, o, r)) := by
  have e : putHeader md5 o h ++ r = magic ++ (putI32 o 1 ++ ((putI32 o 0 ++ (putI32 o 5 ++
      (putStr o (md5 (putVar o h)) ++ putI32 o (putVar o h).length))) ++ (putVar o h ++ r))) := by
    simp [putHeader, putFixed]
  generalize hB : putI32 o 0 ++ (putI32 o 5 ++ (putStr o (md5 (putVar o h)) ++ putI32 o (putVar o h).length)) = B at e
  have hBl : B.length = 48 := by rw [← hB]; simp [hmd5]
  have hbasic : readBasic o (B ++ []) = .ok ((md5 (putVar o h), ((putVar o h).length : Int)), []) := by
    rw [← hB]; exact reads_basic o _ _ (by rw [hmd5]; decide) hsz []
  rw [List.append_nil] at hbasic
  have h4 : (putI32 o 1).length = 4 := by simp
  unfold parseHeader
  rw [e, if_neg (by simp [magic_length]), if_neg (by simp [magic_length]),
    List.take_left' magic_length, if_neg (by simp), List.drop_left' magic_length]
  unfold loadAfterMagic
  rw [if_neg (by simp), List.take_left' h4, List.drop_left' h4, orderOf_put]
  unfold loadHeader
  rw [if_neg (by simp; omega), List.take_left' hBl, List.drop_left' hBl, hbasic]
  simp only
  rw [if_neg (by omega), Int.toNat_natCast, if_neg (by simp), List.take_left, List.drop_left, if_neg (by simp)]
  have := reads_var o asDbl h hok []
  rw [List.append_nil] at this
  rw [this]

theorem putHeader_length (md5 : List Byte → Str) (hmd5 : ∀ x, (md5 x).length = 32) (o : Order) (h : HeaderInfo) :
    (putHeader md5 o h).length = 57 + (putVar o h).length := by
  simp [putHeader, putFixed, magic_length, hmd5]; omega

/-! ### What a successful parse implies -/

/-- Anatomy of every accepted header. -/
theorem parseHeader_ok (md5 : List Byte → Str) (asDbl : Bool) (s : List Byte) (h : HeaderInfo) (o : Order)
    (r : List Byte) (hp : parseHeader md5 asDbl s = .ok (some (h, o, r))) :
    ∃ bo basic var digest, s = magic ++ (bo ++ (basic ++ (var ++ r))) ∧ bo.length = 4 ∧ basic.length = 48 ∧
      o = orderOf bo ∧ (∃ rest, readBasic o basic = .ok ((digest, (var.length : Int)), rest)) ∧
      digest = md5 var ∧ (∃ rest, readVar o asDbl var = .ok (h, rest)) := by
  unfold parseHeader at hp
  split at hp
  · simp at hp
  split at hp
  · simp at hp
  split at hp
  · simp at hp
  rename_i hl0 hl5 hmag
  have hmag : s.take 5 = magic := by simpa using hmag
  generalize hs1 : s.drop 5 = s1 at hp
  have es : s = magic ++ s1 := by rw [← hmag, ← hs1, List.take_append_drop]
  unfold loadAfterMagic at hp
  split at hp
  · simp at hp
  rename_i x hx
  split at hx
  · simp at hx
  rename_i hl4
  generalize hs2 : s1.drop 4 = s2 at hx
  generalize hbo : s1.take 4 = bo at hx
  have es1 : s1 = bo ++ s2 := by rw [← hbo, ← hs2, List.take_append_drop]
  split at hx
  · simp at hx
  rename_i h' r' hlh
  simp only [Except.ok.injEq, Option.some.injEq] at hx hp
  subst hx
  simp only [Prod.mk.injEq] at hp
  obtain ⟨rfl, rfl, rfl⟩ := hp
  unfold loadHeader at hlh
  split at hlh
  · simp at hlh
  rename_i hl48
  generalize hba : s2.take 48 = basic at hlh
  generalize hs3 : s2.drop 48 = s3 at hlh
  have es2 : s2 = basic ++ s3 := by rw [← hba, ← hs3, List.take_append_drop]
  split at hlh
  · simp at hlh
  rename_i digest size rest hrb
  split at hlh
  · simp at hlh
  split at hlh
  · simp at hlh
  rename_i hneg hsz
  split at hlh
  · simp at hlh
  rename_i hdig
  split at hlh
  · simp at hlh
  rename_i h'' rest' hrv
  simp only [Except.ok.injEq, Prod.mk.injEq] at hlh
  obtain ⟨rfl, rfl⟩ := hlh
  have hvl : (s3.take size.toNat).length = size.toNat := by simp; omega
  refine ⟨bo, basic, s3.take size.toNat, digest, ?_, ?_, ?_, rfl, ⟨rest, ?_⟩, by simpa using hdig, ⟨rest', hrv⟩⟩
  · rw [es, es1, es2, List.take_append_drop]
  · rw [← hbo]; simp; omega
  · rw [← hba]; simp; omega
  · rw [hvl, hrb]; congr 3; omega

end Verif
