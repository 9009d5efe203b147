import Verif.AnyFile

/-
`Frame::columnInfo` and friends.

Models: src/odc/api/Odb.cc l.298-352, src/odc/api/odc.cc l.864-883.
-/

namespace Verif

/-- `ColumnInfo::Bit`, ColumnInfo.h l.32-39. -/
structure BitInfo where
  name : Str
  size : Int
  offset : Int
  deriving DecidableEq, Repr

/-- `ColumnInfo`, ColumnInfo.h l.29-49, as returned by a frame. -/
structure ColShown where
  name : Str
  ty : Int
  bytes : Nat
  bits : List BitInfo
  deriving DecidableEq, Repr

/-- The bitfield loop, Odb.cc l.311-325: the offset is a `uint8_t`. -/
def bitInfos : Nat → List Str → List Int → List BitInfo
  | off, n :: ns, s :: ss => ⟨n, s, off⟩ :: bitInfos ((off + s) % 256).toNat ns ss
  | _, _, _ => []

/-- One column, Odb.cc l.306-333; `dataSizeDoubles` is the codec's (`Column::dataSizeDoubles`). -/
def colShown (c : Col) : Except Err ColShown :=
  if c.bitNames.length ≠ c.bitSizes.length then .error Err.assertFailed
  else .ok ⟨c.name, c.ty, 8 * c.codec.width, bitInfos 0 c.bitNames c.bitSizes⟩

/-- All columns. -/
def colsShown : List Col → Except Err (List ColShown)
  | [] => .ok []
  | c :: cs =>
    match colShown c with
    | .error e => .error e
    | .ok x =>
      match colsShown cs with
      | .error e => .error e
      | .ok xs => .ok (x :: xs)

/-- `FrameImpl::columnInfo`, Odb.cc l.298-335: the columns of the first table (memoisation is not
observable). -/
def frameInfo : List Tbl → Except Err (List ColShown)
  | [] => .error Err.assertFailed
  | t :: _ => colsShown t.info.cols

/-- `FrameImpl::columnCount`, Odb.cc l.349-352. -/
def frameCols : List Tbl → Except Err Nat
  | [] => .error Err.assertFailed
  | t :: _ => .ok t.info.cols.length

/-- `odc_encoder_column_add_bitfield`, odc.cc l.864-881, for an existing column: the new member is added
unless it ends beyond bit 32.  `offset` is a `size_t`, the sum is taken in 64 bits and stored as `int`. -/
def addBit (bits : List BitInfo) (nm : Str) (nbits : Int) : Except Err (List BitInfo) :=
  let off : Nat := match bits.getLast? with
    | none => 0
    | some b => (BitVec.ofInt 64 (BitVec.ofInt 32 (b.offset + b.size)).toInt).toNat
  if (BitVec.ofInt 64 (off + nbits)).toNat ≤ 32 then .ok (bits ++ [⟨nm, nbits, (BitVec.ofNat 32 off).toInt⟩])
  else .error Err.assertFailed

/-- A sequence of such calls on a fresh column. -/
def addBits : List BitInfo → List (Str × Int) → Except Err (List BitInfo)
  | bits, [] => .ok bits
  | bits, (n, k) :: ms =>
    match addBit bits n k with
    | .error e => .error e
    | .ok b => addBits b ms

/-! ### Specification: cumulative offsets -/

/-- The members with the sum of the sizes before each. -/
def cumulative : Int → List (Str × Int) → List BitInfo
  | _, [] => []
  | off, (n, k) :: ms => ⟨n, k, off⟩ :: cumulative (off + k) ms

/-- Specification: the number of bits of a bitfield. -/
def sizeSum (ms : List (Str × Int)) : Int := (ms.map Prod.snd).sum

theorem sizeSum_nonneg (ms : List (Str × Int)) (h : ∀ m ∈ ms, 0 ≤ m.2) : 0 ≤ sizeSum ms := by
  induction ms with
  | nil => simp [sizeSum]
  | cons m ms ih =>
    have h1 := h m (by simp)
    have h2 := ih (fun m hm => h m (by simp [hm]))
    simp only [sizeSum, List.map_cons, List.sum_cons] at h2 ⊢
    omega

theorem bitInfos_cumulative (ms : List (Str × Int)) (off : Nat) (hpos : ∀ m ∈ ms, 0 ≤ m.2)
    (hsum : (off : Int) + sizeSum ms ≤ 255) :
    bitInfos off (ms.map Prod.fst) (ms.map Prod.snd) = cumulative off ms := by
  induction ms generalizing off with
  | nil => rfl
  | cons m ms ih =>
    obtain ⟨n, k⟩ := m
    have hk := hpos (n, k) (by simp)
    have hnn : 0 ≤ sizeSum ms := sizeSum_nonneg _ (fun m hm => hpos m (by simp [hm]))
    simp only [sizeSum, List.map_cons, List.sum_cons] at hsum
    have hs : sizeSum ms = (ms.map Prod.snd).sum := rfl
    simp only at hk
    have e : ((off + k) % 256).toNat = off + k.toNat := by omega
    simp only [List.map_cons, bitInfos, cumulative]
    rw [e, ih (off + k.toNat) (fun m hm => hpos m (by simp [hm])) (by omega)]
    congr 2
    omega

theorem cumulative_getLast (off : Int) (ms : List (Str × Int)) (b : BitInfo) (h : (cumulative off ms).getLast? = some b) :
    b.offset + b.size = off + sizeSum ms := by
  induction ms generalizing off with
  | nil => simp [cumulative] at h
  | cons m ms ih =>
    obtain ⟨n, k⟩ := m
    simp only [cumulative] at h
    cases hms : cumulative (off + k) ms with
    | nil =>
      rw [hms] at h
      have : ms = [] := by cases ms with
        | nil => rfl
        | cons m ms => simp [cumulative] at hms
      subst this
      simp only [List.getLast?_singleton, Option.some.injEq] at h
      subst h
      simp [sizeSum]
    | cons x xs =>
      rw [hms, List.getLast?_cons_cons, ← hms] at h
      rw [ih _ h]
      simp only [sizeSum, List.map_cons, List.sum_cons]; omega

theorem cumulative_append (off : Int) (a b : List (Str × Int)) :
    cumulative off (a ++ b) = cumulative off a ++ cumulative (off + sizeSum a) b := by
  induction a generalizing off with
  | nil => simp [cumulative, sizeSum]
  | cons m a ih =>
    obtain ⟨n, k⟩ := m
    simp only [List.cons_append, cumulative, ih, sizeSum, List.map_cons, List.sum_cons]
    rw [Int.add_assoc]

theorem addBit_cumulative (ms : List (Str × Int)) (n : Str) (k : Int) (hs : 0 ≤ sizeSum ms) (hs' : sizeSum ms ≤ 32)
    (hk : 0 ≤ k) (hk' : k < 2147483648) :
    addBit (cumulative 0 ms) n k =
      if sizeSum ms + k ≤ 32 then .ok (cumulative 0 (ms ++ [(n, k)])) else .error Err.assertFailed := by
  unfold addBit
  have hoff : (match (cumulative 0 ms).getLast? with
      | none => 0
      | some b => (BitVec.ofInt 64 (BitVec.ofInt 32 (b.offset + b.size)).toInt).toNat) = (sizeSum ms).toNat := by
    cases hl : (cumulative 0 ms).getLast? with
    | none =>
      cases ms with
      | nil => rfl
      | cons m ms => simp [cumulative] at hl
    | some b =>
      simp only
      rw [cumulative_getLast 0 ms b hl, Int.zero_add]
      simp only [BitVec.toInt_ofInt, BitVec.toNat_ofInt]
      unfold Int.bmod
      simp
      omega
  dsimp only
  rw [hoff]
  have e1 : (BitVec.ofInt 64 (((sizeSum ms).toNat : Int) + k)).toNat = (sizeSum ms + k).toNat := by
    rw [BitVec.toNat_ofInt]; simp; omega
  rw [e1]
  have e2 : (BitVec.ofNat 32 (sizeSum ms).toNat).toInt = sizeSum ms := by
    rw [BitVec.toInt_ofNat']; unfold Int.bmod; simp; omega
  rw [e2]
  by_cases h : sizeSum ms + k ≤ 32
  · rw [if_pos (by omega), if_pos h, cumulative_append, Int.zero_add]; rfl
  · rw [if_neg (by omega), if_neg h]

theorem sizeSum_append (a b : List (Str × Int)) : sizeSum (a ++ b) = sizeSum a + sizeSum b := by
  simp [sizeSum]

theorem addBits_cumulative (done ms : List (Str × Int)) (hd : ∀ m ∈ done, 0 ≤ m.2) (hd' : sizeSum done ≤ 32)
    (hm : ∀ m ∈ ms, 0 ≤ m.2 ∧ m.2 < 2147483648) :
    addBits (cumulative 0 done) ms =
      if sizeSum (done ++ ms) ≤ 32 then .ok (cumulative 0 (done ++ ms)) else .error Err.assertFailed := by
  induction ms generalizing done with
  | nil => simp [addBits, hd']
  | cons m ms ih =>
    obtain ⟨n, k⟩ := m
    have hk := hm (n, k) (by simp)
    simp only [addBits]
    rw [addBit_cumulative done n k (sizeSum_nonneg _ hd) hd' hk.1 hk.2]
    by_cases h : sizeSum done + k ≤ 32
    · rw [if_pos h]
      simp only
      rw [ih (done ++ [(n, k)]) ?_ ?_ (fun m hm' => hm m (by simp [hm']))]
      · simp
      · intro m hm'
        rcases List.mem_append.mp hm' with h1 | h1
        · exact hd m h1
        · simp only [List.mem_singleton] at h1; subst h1; exact hk.1
      · rw [sizeSum_append]; simpa [sizeSum] using h
    · rw [if_neg h, if_neg]
      rw [sizeSum_append]
      have : 0 ≤ sizeSum ms := sizeSum_nonneg _ (fun m hm' => (hm m (by simp [hm'])).1)
      simp only [sizeSum, List.map_cons, List.sum_cons] at this ⊢
      simp only [sizeSum] at h
      omega

theorem colsShown_get {cs : List Col} {xs : List ColShown} (h : colsShown cs = .ok xs) :
    xs.length = cs.length ∧ ∀ (i : Nat) (c : Col) (x : ColShown), cs[i]? = some c → xs[i]? = some x → colShown c = .ok x := by
  induction cs generalizing xs with
  | nil => simp only [colsShown, Except.ok.injEq] at h; subst h; simp
  | cons c cs ih =>
    simp only [colsShown] at h
    split at h
    · simp at h
    rename_i x hx
    split at h
    · simp at h
    rename_i ys hy
    simp only [Except.ok.injEq] at h
    subst h
    obtain ⟨h1, h2⟩ := ih hy
    refine ⟨by simp [h1], ?_⟩
    intro i c' x' hc hx'
    cases i with
    | zero => simp at hc hx'; subst hc; subst hx'; exact hx
    | succ i => exact h2 i c' x' (by simpa using hc) (by simpa using hx')

theorem colsShown_of {cs : List Col} (h : ∀ c ∈ cs, c.bitNames.length = c.bitSizes.length) :
    colsShown cs = .ok (cs.map (fun c => ⟨c.name, c.ty, 8 * c.codec.width, bitInfos 0 c.bitNames c.bitSizes⟩)) := by
  induction cs with
  | nil => rfl
  | cons c cs ih =>
    simp only [colsShown, colShown]
    rw [if_neg (by simpa using h c (by simp)), ih (fun c hc => h c (by simp [hc]))]
    rfl

end Verif
