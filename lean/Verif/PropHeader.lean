import Verif.SampleFile

/-
Properties about headers and data streams: C38 (primitives), C09 (headers), C10 (corrupted headers).
-/

namespace Verif

/-! ### C38: primitives -/

/-- Reading from any proper prefix of the bytes is the end-of-data error. -/
def CutFails {α : Type} (p : P α) (bs : List Byte) : Prop := ∀ k : Nat, k < bs.length → p (bs.take k) = .error .endOfStream

theorem CutFails.nil {α : Type} (p : P α) : CutFails p [] := by intro k hk; simp at hk

theorem CutFails.bind {α β : Type} {p : P α} {f : α → P β} {b1 b2 : List Byte} {a : α}
    (h1 : Reads p b1 a) (c1 : CutFails p b1) (c2 : CutFails (f a) b2) : CutFails (p >>= f) (b1 ++ b2) := by
  intro k hk
  rw [P.bind_apply]
  by_cases h : k < b1.length
  · rw [List.take_append_of_le_length (by omega), c1 k h]
  · rw [List.take_append, List.take_of_length_le (by omega), h1]
    exact c2 _ (by simp at hk; omega)

theorem CutFails.bind_pure {α β : Type} {p : P α} {f : α → P β} {b1 : List Byte} (c1 : CutFails p b1) :
    CutFails (p >>= f) b1 := by
  intro k hk
  rw [P.bind_apply, c1 k hk]

theorem cut_N (o : Order) (k n : Nat) : CutFails (readN o k) (putN o k n) := by
  intro j hj
  apply readN_short
  simp at hj ⊢; omega

theorem cut_i32 (o : Order) (i : Int) : CutFails (readI32 o) (putI32 o i) := by
  intro j hj
  have := cut_N o 4 (BitVec.ofInt 32 i).toNat j (by simpa [putI32] using hj)
  unfold readI32 putI32; rw [this]

theorem cut_i64 (o : Order) (i : Int) : CutFails (readI64 o) (putI64 o i) := by
  intro j hj
  have := cut_N o 8 (BitVec.ofInt 64 i).toNat j (by simpa [putI64] using hj)
  unfold readI64 putI64; rw [this]

theorem cut_word (o : Order) (w : Word) : CutFails (readWord o) (putWord o w) := by
  intro j hj
  have := cut_N o 8 w.toNat j (by simpa [putWord] using hj)
  unfold readWord putWord; rw [this]

theorem cut_str (o : Order) (s : List Byte) (h : LenOk s.length) : CutFails (readStr o) (putStr o s) := by
  unfold readStr putStr
  refine CutFails.bind (reads_i32 o _ h.inI32) (cut_i32 o _) ?_
  have : ¬ ((s.length : Int) < 0) := by omega
  rw [if_neg this, Int.toNat_natCast]
  intro k hk
  unfold readBytes
  rw [if_neg (by simp; omega)]

theorem cut_many {α : Type} (p : P α) (put : α → List Byte) (xs : List α)
    (h : ∀ x ∈ xs, Reads p (put x) x) (c : ∀ x ∈ xs, CutFails p (put x)) :
    CutFails (readMany p xs.length) (xs.flatMap put) := by
  induction xs with
  | nil => exact CutFails.nil _
  | cons x xs ih =>
    simp only [List.length_cons, readMany, List.flatMap_cons]
    refine CutFails.bind (h x (by simp)) (c x (by simp)) ?_
    exact CutFails.bind_pure (ih (fun y hy => h y (by simp [hy])) (fun y hy => c y (by simp [hy])))

theorem cut_vec {α : Type} (o : Order) (p : P α) (put : α → List Byte) (xs : List α)
    (hl : LenOk xs.length) (h : ∀ x ∈ xs, Reads p (put x) x) (c : ∀ x ∈ xs, CutFails p (put x)) :
    CutFails (readVec o p) (putVec o put xs) := by
  unfold readVec putVec
  refine CutFails.bind (reads_i32 o _ hl.inI32) (cut_i32 o _) ?_
  have h0 : ¬ ((xs.length : Int) < 0) := by omega
  rw [if_neg h0, Int.toNat_natCast]
  exact cut_many p put xs h c

theorem cut_map (o : Order) (m : StrMap) (hl : LenOk m.length)
    (hs : ∀ kv ∈ m, LenOk kv.1.length ∧ LenOk kv.2.length) : CutFails (readMap o) (putMap o m) := by
  unfold readMap putMap
  refine CutFails.bind (reads_i32 o _ hl.inI32) (cut_i32 o _) ?_
  rw [Int.toNat_natCast]
  refine CutFails.bind_pure (cut_many _ _ m ?_ ?_)
  · intro kv hkv
    refine Reads.bind (reads_str o _ (hs kv hkv).1) ?_
    exact Reads.bind_pure (reads_str o _ (hs kv hkv).2) (fun s => rfl)
  · intro kv hkv
    exact CutFails.bind (reads_str o _ (hs kv hkv).1) (cut_str o _ (hs kv hkv).1)
      (CutFails.bind_pure (cut_str o _ (hs kv hkv).2))

/-- What is written is read back, whatever follows, and reading it from a stream that ends too early is the
end-of-data error. -/
def Inverse {α : Type} (read : P α) (put : α → List Byte) (x : α) : Prop :=
  (∀ rest, read (put x ++ rest) = .ok (x, rest)) ∧
    ∀ k : Nat, k < (put x).length → read ((put x).take k) = .error .endOfStream

/-- **C38**: 32-bit and 64-bit integers, doubles, strings, vectors of anything that reads back, and maps, in
both byte orders.  Lengths must fit a 32-bit integer; a map has increasing keys. -/
theorem C38_streams (o : Order) :
    (∀ i : Int, InI32 i → Inverse (readI32 o) (putI32 o) i) ∧
    (∀ i : Int, InI64 i → Inverse (readI64 o) (putI64 o) i) ∧
    (∀ w : Word, Inverse (readWord o) (putWord o) w) ∧
    (∀ s : Str, s.length ≤ 2147483647 → Inverse (readStr o) (putStr o) s) ∧
    (∀ (α : Type) (read : P α) (put : α → List Byte) (xs : List α), xs.length ≤ 2147483647 →
      (∀ x ∈ xs, Inverse read put x) → Inverse (readVec o read) (putVec o put) xs) ∧
    (∀ m : StrMap, m.length ≤ 2147483647 → m.Pairwise (fun a b => strLt a.1 b.1 = true) →
      (∀ kv ∈ m, kv.1.length ≤ 2147483647 ∧ kv.2.length ≤ 2147483647) → Inverse (readMap o) (putMap o) m) :=
  ⟨fun i h => ⟨reads_i32 o i h, cut_i32 o i⟩, fun i h => ⟨reads_i64 o i h, cut_i64 o i⟩,
    fun w => ⟨reads_word o w, cut_word o w⟩, fun s h => ⟨reads_str o s h, cut_str o s h⟩,
    fun _ read put xs hl h => ⟨reads_vec o read put xs hl (fun x hx => (h x hx).1),
      cut_vec o read put xs hl (fun x hx => (h x hx).1) (fun x hx => (h x hx).2)⟩,
    fun m hl hm hs => ⟨reads_map o m hl hm hs, cut_map o m hl hs⟩⟩

/-- The two orders are really different: bytes of every 4-byte or 8-byte scalar are reversed. -/
theorem C38_orders (k n : Nat) : putN .other k n = (putN .same k n).reverse := rfl

example : Inverse (readVec .other (readStr .other)) (putVec .other (putStr .other)) [lit "ab", [], lit "c"] :=
  (C38_streams .other).2.2.2.2.1 _ _ _ _ (by decide) (fun x hx => (C38_streams .other).2.2.2.1 x (by
    simp only [List.mem_cons, List.not_mem_nil, or_false] at hx
    rcases hx with rfl | rfl | rfl <;> decide +kernel))
example : putI32 .other 1 = [0, 0, 0, 1] ∧ putI32 .same 1 = [1, 0, 0, 0] := by decide +kernel

/-! ### C09: headers -/

/-- The parameters of a codec that are stored in a file. -/
structure SameCodec (a b : Codec) : Prop where
  kind : a.kind = b.kind
  hasMissing : a.hasMissing = b.hasMissing
  missing : a.missing = b.missing
  min : a.min = b.min
  max : a.max = b.max
  strings : b.kind = .int8String ∨ b.kind = .int16String → a.strings = b.strings
  constant : b.kind = .longConstantString → a.strings = [b.strings.headD []]

theorem sameCodec_reload (asDbl : Bool) (ty : Int) (c : Codec) : SameCodec (reload asDbl ty c) c := by
  constructor
  all_goals (unfold reload; cases hk : c.kind <;> simp [fresh, hk])

/-- **C09**, for headers: a header within the limits of the format, written in either byte order and followed
by anything, is read back with the same row count, data size, properties, columns and codec parameters; the
byte order is recognised and the following bytes are left. -/
theorem C09_header (md5 : List Byte → Str) (hmd5 : ∀ x, (md5 x).length = 32) (asDbl : Bool) (o : Order)
    (h : HeaderInfo) (hok : HeaderOk asDbl h) (hsz : (putVar o h).length ≤ 2147483647) (rest : List Byte) :
    ∃ h', parseHeader md5 asDbl (putHeader md5 o h ++ rest) = .ok (some (h', o, rest)) ∧
      h'.dataSize = h.dataSize ∧ h'.nrows = h.nrows ∧ h'.props = h.props ∧ h'.cols.length = h.cols.length ∧
      ∀ (i : Nat) (c c' : Col), h.cols[i]? = some c → h'.cols[i]? = some c' →
        c'.name = c.name ∧ c'.ty = c.ty ∧ c'.bitNames = c.bitNames ∧ c'.bitSizes = c.bitSizes ∧
          SameCodec c'.codec c.codec := by
  refine ⟨h.reload asDbl, parseHeader_put md5 hmd5 asDbl o h hok hsz rest, rfl, rfl, rfl, by simp [HeaderInfo.reload], ?_⟩
  intro i c c' hc hc'
  simp only [HeaderInfo.reload, List.getElem?_map, hc, Option.map_some, Option.some.injEq] at hc'
  subst hc'
  exact ⟨rfl, rfl, rfl, rfl, sameCodec_reload _ _ _⟩

/-- What is read back does not depend on the byte order it was written in. -/
theorem C09_same_in_both_orders (md5 : List Byte → Str) (hmd5 : ∀ x, (md5 x).length = 32) (asDbl : Bool)
    (h : HeaderInfo) (hok : HeaderOk asDbl h) (hsz : ∀ o, (putVar o h).length ≤ 2147483647) (r r' : List Byte)
    (x y : HeaderInfo) (ox oy : Order) (rx ry : List Byte)
    (hx : parseHeader md5 asDbl (putHeader md5 .same h ++ r) = .ok (some (x, ox, rx)))
    (hy : parseHeader md5 asDbl (putHeader md5 .other h ++ r') = .ok (some (y, oy, ry))) : x = y := by
  rw [parseHeader_put md5 hmd5 asDbl _ h hok (hsz _)] at hx hy
  simp only [Except.ok.injEq, Option.some.injEq, Prod.mk.injEq] at hx hy
  rw [← hx.1, ← hy.1]

/-- **C09**, for users: a table written in either byte order is read as one frame with the same number of
rows, the same properties, and columns of the same names, types and bitfield members. -/
theorem C09_frame (env : Env) (hmd5 : env.Md5Ok) (T : UTable) (hT : T.Ok env) (o : Order) :
    ∃ bytes, T.encode env o = .ok bytes ∧ (bytes.length ≤ 2147483647 →
      ∃ t xs, readPlain env bytes = ([[t]], none) ∧ t.order = o ∧ t.rows = T.rows ∧
        (∀ q, mapGet q (frameProps [t]) = if q = lit "encoder" then some (lit "odc version " ++ env.version) else mapGet q T.props) ∧
        frameInfo [t] = .ok xs ∧ xs.map ColShown.name = T.cols.map InCol.name ∧
        ∀ (p : Nat) (c : InCol) (x : ColShown), T.cols[p]? = some c → xs[p]? = some x →
          x.ty = c.vals.ty.toInt ∧ x.bits = bitInfos 0 (c.vals.members.map Prod.fst) (c.vals.members.map Prod.snd)) := by
  obtain ⟨bytes, henc, h1⟩ := T.encode_ok env hmd5 hT o
  refine ⟨bytes, henc, ?_⟩
  intro hsz
  obtain ⟨r, hr, hc⟩ := h1 hsz
  have hs := scan_fileOf env [r] (by simpa using hc.ok) r.bytes.length (by simp [fileOf])
  have hfile : fileOf [r] = bytes := by simp [fileOf, hr]
  rw [hfile, hr] at hs
  have hread : readPlain env bytes = ((layout 0 [r]).map (fun t => [t]), none) := by
    rw [readPlain_iff]
    refine ⟨_, hs, rfl, ?_⟩
    intro t ht
    simp only [layout, List.mem_singleton] at ht
    subst ht
    exact Tbl.copy_of _ hc.copy
  have hgetCols : ∀ (p : Nat) (k : Col), r.info.cols[p]? = some k → ∃ c, T.cols[p]? = some c := by
    intro p k hk
    have := (List.getElem?_eq_some_iff.mp hk).1
    rw [hc.ncols] at this
    exact ⟨_, List.getElem?_eq_getElem this⟩
  refine ⟨r.tbl 0, r.info.cols.map (fun c => ⟨c.name, c.ty, 8 * c.codec.width, bitInfos 0 c.bitNames c.bitSizes⟩), hread,
    hc.order, ?_, ?_, ?_, ?_, ?_⟩
  rotate_left 2
  · show colsShown r.info.cols = _
    apply colsShown_of
    intro k hk
    obtain ⟨p, hp⟩ := List.mem_iff_getElem?.mp hk
    obtain ⟨c, hcp⟩ := hgetCols p k hp
    obtain ⟨_, _, k3, k4, _⟩ := hc.col p c k hcp hp
    rw [k3, k4]; simp
  · apply List.ext_getElem?
    intro p
    simp only [List.getElem?_map]
    cases hk : r.info.cols[p]? with
    | none =>
      have : r.info.cols.length ≤ p := by simpa using hk
      rw [hc.ncols] at this
      simp [List.getElem?_eq_none this]
    | some k =>
      obtain ⟨c, hcp⟩ := hgetCols p k hk
      rw [hcp]; simp [(hc.col p c k hcp hk).1]
  · intro p c x hp hx
    simp only [List.getElem?_map] at hx
    cases hk : r.info.cols[p]? with
    | none => rw [hk] at hx; simp at hx
    | some k =>
      rw [hk] at hx
      simp only [Option.map_some, Option.some.injEq] at hx
      obtain ⟨_, k2, k3, k4, _⟩ := hc.col p c k hp hk
      subst hx
      exact ⟨k2, by simp [k3, k4]⟩
  · show toI64 r.info.nrows = T.rows
    rw [hc.nrows]
    exact toI64_small _ (by have := hT.rows; omega)
  · intro q
    rw [C19_first_table, List.findSome?_cons, List.findSome?_nil]
    have hpr : (r.tbl 0).info.props = T.stored env := hc.props
    rw [hpr]
    have hst : mapGet q (T.stored env) = if q = lit "encoder" then some (lit "odc version " ++ env.version) else mapGet q T.props :=
      mapGet_mapSet _ _ _ hT.props q
    rw [hst]
    split <;> (rename_i x hx; rw [hx])

/-- The values of a frame in the other byte order cannot be decoded through a `Frame`: decoding any columns of
a table with at least one row fails (Codec.cc l.41-56: a copied codec refuses the other byte order). -/
theorem C09_violated_decode (bytes : List Byte) (t : Tbl) (ho : t.order = .other) (hrows : t.info.nrows ≠ 0)
    (hcols : t.info.cols ≠ []) (req : List (Str × Target)) : ∀ out, decodeFrame bytes [t] req ≠ .ok out := by
  intro out h
  unfold decodeFrame frameDecode at h
  simp only [List.map_cons, List.map_nil] at h
  unfold Tbl.decode at h
  split at h
  · simp at h
  split at h
  · simp at h
  split at h
  · simp at h
  rename_i hres
  split at h
  · simp at h
  rename_i hlen _ _ _ _ _
  unfold tableDecode at h
  rw [if_neg hlen, hres] at h
  simp [hrows, ho, hcols] at h

/-- The same on a file written in the other byte order. -/
theorem C09_violated_decode_file (env : Env) (hmd5 : env.Md5Ok) (T : UTable) (hT : T.Ok env) (hrows : 0 < T.rows) :
    ∃ bytes, T.encode env .other = .ok bytes ∧ (bytes.length ≤ 2147483647 →
      ∃ fr, readPlain env bytes = ([fr], none) ∧ ∀ req out, decodeFrame bytes fr req ≠ .ok out) := by
  obtain ⟨bytes, h1, h2⟩ := C09_frame env hmd5 T hT .other
  refine ⟨bytes, h1, fun hsz => ?_⟩
  obtain ⟨t, xs, t1, t2, t3, _, t5, t6, _⟩ := h2 hsz
  refine ⟨[t], t1, fun req => C09_violated_decode bytes t t2 ?_ ?_ req⟩
  · intro h0
    unfold Tbl.rows at t3
    rw [h0] at t3
    simp [toI64] at t3
    omega
  · intro h0
    simp only [frameInfo, h0, colsShown, Except.ok.injEq] at t5
    subst t5
    have := hT.ne
    simp at t6
    exact this t6

/-! ### C10: corrupted headers -/

theorem readBytes_inv {n : Nat} {s bs r : List Byte} (h : readBytes n s = .ok (bs, r)) : s = bs ++ r ∧ bs.length = n := by
  unfold readBytes at h
  split at h
  · rename_i hl
    simp only [Except.ok.injEq, Prod.mk.injEq] at h
    obtain ⟨rfl, rfl⟩ := h
    exact ⟨(List.take_append_drop _ _).symm, by simp; omega⟩
  · simp at h

theorem readN_inv {o : Order} {k n : Nat} {s r : List Byte} (h : readN o k s = .ok (n, r)) : s = putN o k n ++ r := by
  unfold readN at h
  split at h
  · rename_i bs r' hb
    simp only [Except.ok.injEq, Prod.mk.injEq] at h
    obtain ⟨rfl, rfl⟩ := h
    obtain ⟨rfl, hl⟩ := readBytes_inv hb
    unfold putN
    have : leBytes k (ofLe (swapBytes o bs)) = swapBytes o bs := by
      rw [← hl, ← swapBytes_length o bs]; exact leBytes_ofLe _
    rw [this, swapBytes_swapBytes]
  · simp at h

theorem readI32_inv {o : Order} {i : Int} {s r : List Byte} (h : readI32 o s = .ok (i, r)) : s = putI32 o i ++ r := by
  unfold readI32 at h
  split at h
  · rename_i n r' hn
    simp only [Except.ok.injEq, Prod.mk.injEq] at h
    obtain ⟨rfl, rfl⟩ := h
    rw [readN_inv hn]
    congr 1
    unfold putI32
    rw [BitVec.ofInt_toInt, BitVec.toNat_ofNat]
    unfold putN
    congr 1
    have := ofLe_leBytes 4 n
    have e1 : leBytes 4 n = leBytes 4 (ofLe (leBytes 4 n)) := by
      have := leBytes_ofLe (leBytes 4 n); rw [leBytes_length] at this; exact this.symm
    rw [e1, this]
  · simp at h

theorem readStr_inv {o : Order} {d : Str} {s r : List Byte} (h : readStr o s = .ok (d, r)) : s = putStr o d ++ r := by
  unfold readStr at h
  rw [P.bind_apply] at h
  split at h
  · rename_i len r1 h1
    have e1 := readI32_inv h1
    split at h
    · simp [P.fail] at h
    · rename_i hneg
      obtain ⟨e2, hl⟩ := readBytes_inv h
      rw [e1, e2]
      unfold putStr
      rw [List.append_assoc, hl]
      congr 2
      omega
  · simp at h

theorem readBasic_inv {o : Order} {d : Str} {n : Int} {s r : List Byte} (h : readBasic o s = .ok ((d, n), r)) :
    ∃ major minor : Int, major ≤ 0 ∧ (minor = 4 ∨ minor = 5) ∧
      s = putI32 o major ++ (putI32 o minor ++ (putStr o d ++ (putI32 o n ++ r))) := by
  unfold readBasic at h
  rw [P.bind_apply] at h
  split at h
  · rename_i major r1 h1
    split at h
    · simp [P.fail] at h
    rename_i hmaj
    rw [P.bind_apply] at h
    split at h
    · rename_i minor r2 h2
      split at h
      · simp [P.fail] at h
      rename_i hmin
      rw [P.bind_apply] at h
      split at h
      · rename_i dd r3 h3
        rw [P.bind_apply] at h
        split at h
        · rename_i sz r4 h4
          simp only [P.pure_apply, Except.ok.injEq, Prod.mk.injEq] at h
          obtain ⟨⟨rfl, rfl⟩, rfl⟩ := h
          refine ⟨major, minor, by omega, by omega, ?_⟩
          rw [readI32_inv h1, readI32_inv h2, readStr_inv h3, readI32_inv h4]
        · simp at h
      · simp at h
    · simp at h
  · simp at h

/-- **C10**, what acceptance means: whatever the bytes, if a frame header is accepted then they start with the
magic number, followed by the byte order indicator, a supported version, the digest *of the variable part that
was read*, and the size of that part.  In particular bytes with another magic number or version, or whose
variable part does not have the digest stored, are rejected. -/
theorem C10_accepted (md5 : List Byte → Str) (hmd5 : ∀ x, (md5 x).length = 32) (asDbl : Bool) (s : List Byte)
    (h : HeaderInfo) (o : Order) (r : List Byte) (hp : parseHeader md5 asDbl s = .ok (some (h, o, r))) :
    ∃ (bo var : List Byte) (major minor : Int), bo.length = 4 ∧ o = orderOf bo ∧ major ≤ 0 ∧ (minor = 4 ∨ minor = 5) ∧
      s = magic ++ (bo ++ (putI32 o major ++ (putI32 o minor ++ (putStr o (md5 var) ++ (putI32 o var.length ++ (var ++ r)))))) := by
  obtain ⟨bo, basic, var, digest, e, h1, h2, h3, ⟨rest, h4⟩, h5, _⟩ := parseHeader_ok md5 asDbl s h o r hp
  obtain ⟨major, minor, m1, m2, m3⟩ := readBasic_inv h4
  subst h5
  have hr : rest = [] := by
    have := congrArg List.length m3
    rw [h2] at this
    simp [hmd5] at this
    exact List.length_eq_zero_iff.mp (by omega)
  subst hr
  refine ⟨bo, var, major, minor, h1, h3, m1, m2, ?_⟩
  rw [e, m3]
  simp

/-- **C10**, alterations: let `hd` be the header of a frame and `hd'` bytes of the same length that keep the
version and the digest (and, for a file of the other byte order, the byte order indicator).  If `hd'` is
accepted, whatever follows, then it *is* `hd` — unless two different byte strings, one of them found in the
file, have the same MD5 digest. -/
theorem C10_altered (md5 : List Byte → Str) (hmd5 : ∀ x, (md5 x).length = 32) (asDbl : Bool) (o : Order)
    (h : HeaderInfo) (hd' rest : List Byte) (hlen : hd'.length = (putHeader md5 o h).length)
    (hver : (hd'.drop 9).take 8 = ((putHeader md5 o h).drop 9).take 8)
    (hdig : (hd'.drop 17).take 36 = ((putHeader md5 o h).drop 17).take 36)
    (hbo : o = .other → (hd'.drop 5).take 4 = ((putHeader md5 o h).drop 5).take 4)
    (x : Option (HeaderInfo × Order × List Byte)) (hp : parseHeader md5 asDbl (hd' ++ rest) = .ok x) :
    hd' = putHeader md5 o h ∨
      ∃ n, ((hd' ++ rest).drop 57).take n ≠ putVar o h ∧ md5 (((hd' ++ rest).drop 57).take n) = md5 (putVar o h) := by
  have hl := putHeader_length md5 hmd5 o h
  cases x with
  | none =>
    exfalso
    unfold parseHeader at hp
    split at hp
    · rename_i h0; rw [List.length_append] at h0; omega
    split at hp
    · simp at hp
    split at hp
    · simp at hp
    split at hp <;> simp at hp
  | some x =>
    obtain ⟨h', o', r⟩ := x
    obtain ⟨bo, var, major, minor, b1, b2, b3, b4, b5⟩ := C10_accepted md5 hmd5 asDbl _ h' o' r hp
    have ehd : putHeader md5 o h = magic ++ (putI32 o 1 ++ ((putI32 o 0 ++ putI32 o 5) ++ (putStr o (md5 (putVar o h)) ++
        (putI32 o (putVar o h).length ++ putVar o h)))) := by simp [putHeader, putFixed]
    generalize hV : putVar o h = V at *
    have hstr : ∀ o v, (putStr o (md5 v)).length = 36 := by intro o v; simp [hmd5]
    -- pieces of the file
    have hpre : ∀ n, n ≤ hd'.length → hd'.take n = (hd' ++ rest).take n := fun n hn =>
      (List.take_append_of_le_length hn).symm
    have piece : ∀ a n, a + n ≤ hd'.length → (hd'.drop a).take n = ((hd' ++ rest).drop a).take n := by
      intro a n han
      rw [List.drop_append_of_le_length (by omega), List.take_append_of_le_length (by simp; omega)]
    have p5 : ((hd' ++ rest).drop 5).take 4 = bo := by
      rw [b5, List.drop_left' magic_length, List.take_left' b1]
    have p9 : ((hd' ++ rest).drop 9).take 8 = putI32 o' major ++ putI32 o' minor := by
      rw [b5, show magic ++ (bo ++ (putI32 o' major ++ (putI32 o' minor ++ (putStr o' (md5 var) ++ (putI32 o' var.length ++ (var ++ r)))))) =
        (magic ++ bo) ++ ((putI32 o' major ++ putI32 o' minor) ++ (putStr o' (md5 var) ++ (putI32 o' var.length ++ (var ++ r)))) by simp]
      rw [List.drop_left' (by simp [magic_length, b1]), List.take_left' (by simp)]
    have p17 : ((hd' ++ rest).drop 17).take 36 = putStr o' (md5 var) := by
      rw [b5, show magic ++ (bo ++ (putI32 o' major ++ (putI32 o' minor ++ (putStr o' (md5 var) ++ (putI32 o' var.length ++ (var ++ r)))))) =
        (magic ++ (bo ++ (putI32 o' major ++ putI32 o' minor))) ++ (putStr o' (md5 var) ++ (putI32 o' var.length ++ (var ++ r))) by simp]
      rw [List.drop_left' (by simp [magic_length, b1]), List.take_left' (hstr _ _)]
    have p57 : (hd' ++ rest).drop 57 = var ++ r := by
      rw [b5, show magic ++ (bo ++ (putI32 o' major ++ (putI32 o' minor ++ (putStr o' (md5 var) ++ (putI32 o' var.length ++ (var ++ r)))))) =
        (magic ++ (bo ++ (putI32 o' major ++ (putI32 o' minor ++ (putStr o' (md5 var) ++ putI32 o' var.length))))) ++ (var ++ r) by simp]
      exact List.drop_left' (by simp [magic_length, b1, hmd5])
    have q5 : ((putHeader md5 o h).drop 5).take 4 = putI32 o 1 := by
      rw [ehd, List.drop_left' magic_length, List.take_left' (by simp)]
    have q9 : ((putHeader md5 o h).drop 9).take 8 = putI32 o 0 ++ putI32 o 5 := by
      rw [ehd, ← List.append_assoc magic, List.drop_left' (by simp [magic_length]), List.take_left' (by simp)]
    have q17 : ((putHeader md5 o h).drop 17).take 36 = putStr o (md5 V) := by
      rw [ehd, ← List.append_assoc magic, ← List.append_assoc (magic ++ _), List.drop_left' (by simp [magic_length]),
        List.take_left' (hstr _ _)]
    rw [piece 9 8 (by omega), p9, q9] at hver
    rw [piece 17 36 (by omega), p17, q17] at hdig
    rw [piece 5 4 (by omega), p5, q5] at hbo
    obtain ⟨v1, v2⟩ := List.append_inj hver (by simp)
    -- the byte order
    have ho : o' = o := by
      cases o with
      | other =>
        rw [b2, hbo rfl]; rfl
      | same =>
        cases o' with
        | same => rfl
        | other =>
          exfalso
          rcases b4 with rfl | rfl
          · exact absurd v2 (by decide)
          · exact absurd v2 (by decide)
    subst ho
    have hdd : md5 var = md5 V := by
      have := (List.append_inj hdig (by simp)).2
      exact this
    by_cases hv : var = V
    · left
      subst hv
      have hb : bo = putI32 o' 1 := by
        cases o' with
        | other => exact hbo rfl
        | same =>
          have hb1 : ofLe bo = 1 := by
            unfold orderOf at b2
            by_contra hne
            rw [if_neg hne] at b2
            simp at b2
          have := leBytes_ofLe bo
          rw [b1, hb1] at this
          rw [← this]; decide
      have hfin : hd' ++ rest = putHeader md5 o' h ++ r := by
        rw [b5, ehd, hb, v1, v2]
        simp
      exact (List.append_inj hfin hlen).1
    · right
      refine ⟨var.length, ?_⟩
      rw [p57, List.take_left]
      exact ⟨hv, hdd⟩

/-- Altering only the digest (or its length) makes the header be rejected. -/
theorem C10_altered_digest (md5 : List Byte → Str) (hmd5 : ∀ x, (md5 x).length = 32) (asDbl : Bool) (o : Order)
    (h : HeaderInfo) (hsz : (putVar o h).length ≤ 2147483647) (hd' rest : List Byte)
    (hlen : hd'.length = (putHeader md5 o h).length)
    (hbefore : hd'.take 17 = (putHeader md5 o h).take 17) (hafter : hd'.drop 53 = (putHeader md5 o h).drop 53)
    (hne : hd' ≠ putHeader md5 o h) : ∃ e, parseHeader md5 asDbl (hd' ++ rest) = .error e := by
  cases hp : parseHeader md5 asDbl (hd' ++ rest) with
  | error e => exact ⟨e, rfl⟩
  | ok x =>
    exfalso
    have hl := putHeader_length md5 hmd5 o h
    cases x with
    | none =>
      unfold parseHeader at hp
      split at hp
      · rename_i h0; rw [List.length_append] at h0; omega
      split at hp
      · simp at hp
      split at hp
      · simp at hp
      split at hp <;> simp at hp
    | some x =>
      obtain ⟨h', o', r⟩ := x
      obtain ⟨bo, var, major, minor, b1, b2, b3, b4, b5⟩ := C10_accepted md5 hmd5 asDbl _ h' o' r hp
      have ehd : putHeader md5 o h = (magic ++ (putI32 o 1 ++ (putI32 o 0 ++ putI32 o 5))) ++ (putStr o (md5 (putVar o h)) ++
          (putI32 o (putVar o h).length ++ putVar o h)) := by simp [putHeader, putFixed]
      have hA : (magic ++ (putI32 o 1 ++ (putI32 o 0 ++ putI32 o 5))).length = 17 := by simp [magic_length]
      have hstr : ∀ o v, (putStr o (md5 v)).length = 36 := by intro o v; simp [hmd5]
      have eA : (hd' ++ rest).take 17 = magic ++ (putI32 o 1 ++ (putI32 o 0 ++ putI32 o 5)) := by
        rw [List.take_append_of_le_length (by omega), hbefore, ehd, List.take_left' hA]
      have eB : (hd' ++ rest).take 17 = magic ++ (bo ++ (putI32 o' major ++ putI32 o' minor)) := by
        rw [b5, show magic ++ (bo ++ (putI32 o' major ++ (putI32 o' minor ++ (putStr o' (md5 var) ++ (putI32 o' var.length ++ (var ++ r)))))) =
          (magic ++ (bo ++ (putI32 o' major ++ putI32 o' minor))) ++ (putStr o' (md5 var) ++ (putI32 o' var.length ++ (var ++ r))) by simp]
        exact List.take_left' (by simp [magic_length, b1])
      rw [eA] at eB
      have hbo : bo = putI32 o 1 := (List.append_inj (List.append_cancel_left eB) (by simp [b1])).1.symm
      have ho : o' = o := by rw [b2, hbo, orderOf_put]
      subst ho
      have eD : (hd' ++ rest).drop 53 = putI32 o' var.length ++ (var ++ r) := by
        rw [b5, show magic ++ (bo ++ (putI32 o' major ++ (putI32 o' minor ++ (putStr o' (md5 var) ++ (putI32 o' var.length ++ (var ++ r)))))) =
          (magic ++ (bo ++ (putI32 o' major ++ (putI32 o' minor ++ putStr o' (md5 var))))) ++ (putI32 o' var.length ++ (var ++ r)) by simp]
        exact List.drop_left' (by simp [magic_length, b1, hmd5])
      have eD' : (hd' ++ rest).drop 53 = (putI32 o' (putVar o' h).length ++ putVar o' h) ++ rest := by
        rw [List.drop_append_of_le_length (by omega), hafter, ehd, ← List.append_assoc (magic ++ _),
          List.drop_left' (by rw [List.length_append, hA, hstr])]
      rw [eD'] at eD
      rw [List.append_assoc] at eD
      obtain ⟨s1, s2⟩ := List.append_inj eD (by simp)
      have hvl : (var.length : Int) < 4294967296 → var.length = (putVar o' h).length := by
        intro hlt
        unfold putI32 putN at s1
        have s3 := congrArg (swapBytes o') s1
        simp only [swapBytes_swapBytes] at s3
        have s4 := congrArg ofLe s3
        rw [ofLe_leBytes, ofLe_leBytes] at s4
        simp at s4
        omega
      -- the size read is a 32-bit integer
      obtain ⟨bo2, basic2, var2, dg, e2, k1, k2, k3, ⟨rest2, k4⟩, k5, _⟩ := parseHeader_ok md5 asDbl _ h' o' r hp
      have hvv : var2 = var := by
        have t1 : (hd' ++ rest).drop 57 = var2 ++ r := by
          rw [e2, show magic ++ (bo2 ++ (basic2 ++ (var2 ++ r))) = (magic ++ (bo2 ++ basic2)) ++ (var2 ++ r) by simp]
          exact List.drop_left' (by simp [magic_length, k1, k2])
        have t2 : (hd' ++ rest).drop 57 = var ++ r := by
          rw [b5, show magic ++ (bo ++ (putI32 o' major ++ (putI32 o' minor ++ (putStr o' (md5 var) ++ (putI32 o' var.length ++ (var ++ r)))))) =
            (magic ++ (bo ++ (putI32 o' major ++ (putI32 o' minor ++ (putStr o' (md5 var) ++ putI32 o' var.length))))) ++ (var ++ r) by simp]
          exact List.drop_left' (by simp [magic_length, b1, hmd5])
        rw [t1] at t2
        exact List.append_cancel_right t2
      have hrange : (var.length : Int) < 4294967296 := by
        unfold readBasic at k4
        simp only [P.bind_apply] at k4
        rw [hvv] at k4
        split at k4
        · split at k4
          · simp [P.fail] at k4
          · simp only [P.bind_apply] at k4
            split at k4
            · split at k4
              · simp [P.fail] at k4
              · simp only [P.bind_apply] at k4
                split at k4
                · split at k4
                  · rename_i sz _ h4
                    simp only [P.pure_apply, Except.ok.injEq, Prod.mk.injEq] at k4
                    unfold readI32 at h4
                    split at h4
                    · simp only [Except.ok.injEq, Prod.mk.injEq] at h4
                      rename_i n _ _
                      have := (BitVec.ofNat 32 n).toInt_lt
                      omega
                    · simp at h4
                  · simp at k4
                · simp at k4
            · simp at k4
        · simp at k4
      have hl' := hvl hrange
      obtain ⟨hv, hr⟩ := List.append_inj s2 hl'.symm
      subst hv
      apply hne
      have hfin : hd' ++ rest = putHeader md5 o' h ++ r := by
        rw [b5, ehd, eB]
        simp
      exact (List.append_inj hfin hlen).1

/-- **C10**, for users: after a readable file, a frame whose header is rejected ends the reading with an
exception; the frames before it are delivered and none is produced from it. -/
theorem C10_reader (env : Env) (a bad : List Byte) (fs : List (List Tbl)) (ha : readPlain env a = (fs, none))
    (e : Err) (hbad : parseHeader env.md5 env.asDbl bad = .error e) : readPlain env (a ++ bad) = (fs, some e) := by
  obtain ⟨ts, h1, h2, h3⟩ := readPlain_iff.mp ha
  have hs : Scan env (File.known (a ++ bad)) ts (some e) := by
    refine ⟨h1.1.left, ?_⟩
    rw [h1.ends]
    unfold readTable
    have e1 : (File.known (a ++ bad)).bytes = a ++ bad := rfl
    rw [if_neg (by omega), Int.toNat_natCast, e1, List.drop_left, hbad]
  have := readFrames_plain hs h3 (-1) (fun t _ => Or.inl (by decide)) (by
    have := h1.few
    have e1 : (File.known (a ++ bad)).bytes = a ++ bad := rfl
    have e2 : (File.known a).bytes = a := rfl
    rw [e1, List.length_append]; rw [e2] at this; omega)
  rw [h2]; exact this

/-- A frame of the sample table with one byte changed. -/
def poke (i : Nat) (b : Byte) (bs : List Byte) : List Byte := bs.set i b

/-- Altered magic, digest and contents are rejected: concrete cases of the theorems above. -/
example : onSample (fun b => decide (shape (readPlain sampleEnv (poke 0 0 b)) = ([], some .invalid))) = true := by decide +kernel
example : onSample (fun b => decide (shape (readPlain sampleEnv (poke 22 0 b)) = ([], some .invalid))) = true := by decide +kernel
example : onSample (fun b => decide (shape (readPlain sampleEnv (poke 13 6 b)) = ([], some .assertFailed))) = true := by decide +kernel

/-- Not every alteration of the version is noticed: minor version 4 instead of 5, and a negative major
version, are accepted. -/
theorem C10_violated_version :
    onSample (fun b => decide (shape (readPlain sampleEnv (poke 13 4 b)) = ([1, 1, 1], none))) = true ∧
    onSample (fun b => decide (shape (readPlain sampleEnv (poke 12 0x80 b)) = ([1, 1, 1], none))) = true := by
  constructor <;> decide +kernel

/-- Nor is an alteration of the byte order indicator of a file of the other byte order. -/
theorem C10_violated_order :
    (match sampleTable2.encode sampleEnv .other with
      | .ok b => decide (shape (readPlain sampleEnv (poke 5 7 b)) = ([1], none))
      | .error _ => false) = true := by
  decide +kernel

end Verif
