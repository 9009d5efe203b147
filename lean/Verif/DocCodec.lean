import Verif.DocSpec
import Verif.Encode

/-
The codecs of the model against the file format document (`Verif.DocSpec`).
-/

namespace Verif

/-- Proof device: the byte order of a file on the little-endian machine of the model. -/
def endian : Order → Doc.Endian
  | .same => .little
  | .other => .big

theorem leBytes_map (k n : Nat) : leBytes k n = (List.range k).map (fun i => BitVec.ofNat 8 (n / 256 ^ i)) := by
  induction k generalizing n with
  | zero => rfl
  | succ k ih =>
    rw [List.range_succ_eq_map, List.map_cons, List.map_map, leBytes, ih]
    congr 1
    · simp
    · apply List.map_congr_left
      intro i _
      simp only [Function.comp_apply, Nat.pow_succ]
      rw [Nat.div_div_eq_div_mul, Nat.mul_comm]

theorem uint_eq (o : Order) (k n : Nat) : Doc.uint (endian o) k n = putN o k n := by
  unfold Doc.uint putN
  rw [leBytes_map]
  cases o <;> rfl

theorem uint_little (k n : Nat) : Doc.uint .little k n = leBytes k n := by
  rw [leBytes_map]; rfl

theorem int32_eq (o : Order) (i : Int) : Doc.int32 (endian o) i = putI32 o i := by
  unfold Doc.int32 putI32
  rw [uint_eq, BitVec.toNat_ofInt]
  rfl

theorem int32_nat (o : Order) (n : Nat) (h : LenOk n) : Doc.uint (endian o) 4 n = putI32 o n := by
  rw [← int32_eq]
  unfold Doc.int32
  congr 1
  unfold LenOk at h
  omega

theorem double_eq (o : Order) (w : Word) : Doc.double (endian o) w = putWord o w := uint_eq o 8 _

theorem string_eq (o : Order) (s : Str) (h : LenOk s.length) : Doc.string (endian o) s = putStr o s := by
  unfold Doc.string putStr
  rw [int32_nat o _ h]

theorem chars8_eq (w : Word) : Doc.chars8 w = wordBytes w := uint_little 8 _

theorem putWord_swap (o : Order) (w : Word) : putWord o (swapWord o w) = Doc.chars8 w := by
  rw [chars8_eq]
  have h : putWord o (swapWord o w) = swapBytes o (wordBytes (swapWord o w)) := rfl
  rw [h]
  unfold swapWord
  rw [wordBytes_wordOfBytes _ (by simp), swapBytes_swapBytes]

/-! ### Codecs and their names -/

/-- Proof device: the codec of the library. -/
def kindOf : Doc.Which → Kind
  | .constant => .constant | .constantString => .constantString | .constantOrMissing => .constOrMissing
  | .realConstantOrMissing => .realConstOrMissing | .chars => .chars | .longReal => .longReal
  | .shortReal => .shortReal | .shortReal2 => .shortReal2 | .int32 => .int32 | .int16 => .int16 | .int8 => .int8
  | .int8Missing => .int8Missing | .int16Missing => .int16Missing | .int8String => .int8String
  | .int16String => .int16String

/-- Proof device: the documented codec. -/
def whichOf : Kind → Doc.Which
  | .constant => .constant | .constantString => .constantString | .constOrMissing => .constantOrMissing
  | .realConstOrMissing => .realConstantOrMissing | .chars => .chars | .longReal => .longReal
  | .shortReal => .shortReal | .shortReal2 => .shortReal2 | .int32 => .int32 | .int16 => .int16 | .int8 => .int8
  | .int8Missing => .int8Missing | .int16Missing => .int16Missing | .int8String => .int8String
  | .int16String => .int16String
  | .longConstantString => .chars

theorem whichOf_kindOf (w : Doc.Which) : whichOf (kindOf w) = w := by cases w <;> rfl
theorem kindOf_whichOf (k : Kind) (h : k ≠ .longConstantString) : kindOf (whichOf k) = k := by cases k <;> first | rfl | exact absurd rfl h

theorem which_name (w : Doc.Which) : w.name = (kindOf w).name := by cases w <;> rfl
theorem kindOf_long (w : Doc.Which) : kindOf w ≠ .longConstantString := by cases w <;> simp [kindOf]

/-- Proof device: a documented codec as the library writes it. -/
def ofDoc (c : Doc.Codec) : Codec :=
  { kind := kindOf c.which, vt := .dbl, hasMissing := c.hasMissing, missing := c.missing, min := c.min, max := c.max,
    srFlag := false, sr2Flag := false, strings := c.strings, width := 1 }

/-- Proof device: a codec of the library as documented. -/
def docOf (c : Codec) : Doc.Codec :=
  { which := whichOf c.kind, hasMissing := c.hasMissing, min := c.min, max := c.max, missing := c.missing,
    strings := if c.kind = .int8String ∨ c.kind = .int16String then c.strings else [] }

theorem entries_eq (o : Order) (ss : List Str) (i : Nat) (h : ∀ s ∈ ss, LenOk s.length) (hi : LenOk (i + ss.length)) :
    Doc.entries (endian o) i ss = putEntries o ss i := by
  induction ss generalizing i with
  | nil => rfl
  | cons s ss ih =>
    simp only [Doc.entries, putEntries, putEntry]
    rw [string_eq o s (h s (by simp)), int32_eq, int32_eq, ih (i + 1) (fun t ht => h t (by simp [ht]))
      (by simp only [LenOk, List.length_cons] at hi ⊢; omega)]
    simp

theorem ofDoc_save (o : Order) (c : Doc.Codec) (hn : LenOk c.strings.length) (hs : ∀ s ∈ c.strings, LenOk s.length) :
    c.bytes (endian o) = (ofDoc c).save o := by
  unfold Doc.Codec.bytes Codec.save
  cases hk : c.which <;>
    simp only [ofDoc, hk, kindOf, saveBase, putWord_swap, int32_eq, double_eq, List.append_assoc,
      entries_eq o c.strings 0 hs (by simpa using hn)] <;> rfl

theorem reload_docOf (asDbl : Bool) (ty : Int) (c : Codec) (hk : c.kind ≠ .longConstantString) :
    reload asDbl ty (ofDoc (docOf c)) = reload asDbl ty c := by
  unfold reload ofDoc docOf
  simp only [kindOf_whichOf _ hk]
  cases h : c.kind <;> simp_all [fresh]

theorem docOf_save (o : Order) (c : Codec) (hk : c.kind ≠ .longConstantString) (hn : LenOk c.strings.length)
    (hs : ∀ s ∈ c.strings, LenOk s.length) : (docOf c).bytes (endian o) = c.save o := by
  rw [ofDoc_save o (docOf c)]
  · unfold Codec.save ofDoc docOf
    simp only [kindOf_whichOf _ hk]
    cases h : c.kind <;> simp_all
  · unfold docOf
    dsimp only
    split
    · exact hn
    · decide
  · unfold docOf
    dsimp only
    split
    · exact hs
    · simp

/-! ### Values -/

theorem encSize_doc (asDbl : Bool) (ty : Int) (c : Doc.Codec) : (reload asDbl ty (ofDoc c)).encSize = c.which.size := by
  unfold Codec.encSize reload ofDoc
  cases c.which <;> rfl

theorem code_length (e : Doc.Endian) (c : Doc.Codec) (x : Nat) : (c.code e x).length = c.which.size := by
  unfold Doc.Codec.code
  have : ∀ k, (Doc.uint e k x).length = k := by intro k; cases e <;> simp [Doc.uint]
  cases h : c.which <;> simp only [this] <;> simp [Doc.uint, Doc.Which.size]

theorem geq_iff (f m : BitVec 32) (hm : gisNaN m = false) (h0 : gmag m ≠ 0) : geq f m = true ↔ f = m := by
  constructor
  · intro h
    unfold geq at h
    simp only [Bool.and_eq_true, decide_eq_true_eq] at h
    have hk := h.2
    unfold gkey at hk
    have h1 : gneg f = gneg m ∧ gmag f = gmag m := by
      cases hf : gneg f <;> cases hg : gneg m <;> simp only [hf, hg, if_true, if_false, Bool.false_eq_true] at hk <;>
        first
          | exact ⟨rfl, by omega⟩
          | (exfalso; omega)
    apply BitVec.eq_of_toNat_eq
    obtain ⟨a, b⟩ := h1
    unfold gneg at a
    unfold gmag at b
    have := f.isLt
    have := m.isLt
    have : decide (2 ^ 31 ≤ f.toNat) = decide (2 ^ 31 ≤ m.toNat) := a
    rw [decide_eq_decide] at this
    omega
  · rintro rfl
    simp [geq, hm]

theorem vt_doc (asDbl : Bool) (c : Doc.Col) :
    vtOf (kindOf c.codec.which) c.type asDbl = if c.integral asDbl then .i64 else .dbl := by
  unfold vtOf Doc.Col.integral
  cases asDbl <;> cases h1 : (c.type == 1 || c.type == 4) <;> cases h2 : c.codec.which <;> simp [kindOf, Kind.hasVT]

theorem toVT_whole {d : Word} (h : Doc.Whole d) : ∃ i : Int, ftrunc d = some i ∧ toVT .i64 d = .ok (BitVec.ofInt 64 i) := by
  obtain ⟨i, h1, h2⟩ := h
  refine ⟨i, h1, ?_⟩
  unfold toVT fcast
  simp only [h1]
  unfold InI64 at h2
  rw [if_pos h2]

theorem whole_toVT {d w : Word} (h : toVT .i64 d = .ok w) : Doc.Whole d := by
  unfold toVT fcast at h
  cases h1 : ftrunc d with
  | none => simp [h1] at h
  | some i =>
    simp only [h1] at h
    by_cases h2 : (-9223372036854775808 : Int) ≤ i ∧ i ≤ 9223372036854775807
    · exact ⟨i, h1, h2⟩
    · rw [if_neg h2] at h; simp at h

/-- A number given in the representation of the column. -/
theorem toVT_shown {b : Bool} {d : Word} (h : b = true → Doc.Whole d) :
    ∃ w, toVT (if b then VT.i64 else VT.dbl) d = .ok w ∧ (Doc.Value.num d).Shown b [w] := by
  cases b with
  | false => exact ⟨d, rfl, by simp [Doc.Value.Shown]⟩
  | true =>
    obtain ⟨i, h1, h2⟩ := toVT_whole (h rfl)
    exact ⟨_, h2, by simp only [Doc.Value.Shown, if_true]; exact ⟨i, h1, rfl⟩⟩

theorem ofInt_bv32 (n : Nat) (h : n < 4294967296) :
    (BitVec.ofNat 32 n).toInt = if n < 2147483648 then (n : Int) else (n : Int) - 4294967296 := by
  rw [BitVec.toInt_eq_toNat_cond, BitVec.toNat_ofNat, Nat.mod_eq_of_lt (by omega)]
  split <;> split <;> omega

/-- The column as it is in memory after its header has been read. -/
theorem reload_fields (asDbl : Bool) (c : Doc.Col) :
    (reload asDbl c.type (ofDoc c.codec)).vt = (if c.integral asDbl then .i64 else .dbl) ∧
    (reload asDbl c.type (ofDoc c.codec)).kind = kindOf c.codec.which ∧
    (reload asDbl c.type (ofDoc c.codec)).min = c.codec.min ∧
    (reload asDbl c.type (ofDoc c.codec)).max = c.codec.max ∧
    (reload asDbl c.type (ofDoc c.codec)).missing = c.codec.missing := by
  rw [← vt_doc]
  unfold reload
  cases h : c.codec.which <;> simp [ofDoc, h, kindOf, fresh]

theorem readN_code (o : Order) (k x : Nat) (h : x < 256 ^ k) : Reads (readN o k) (putN o k x) x := reads_N o k x h

/-- **Values, reading**: a code is decoded to the value that the document gives it. -/
theorem dec_doc (o : Order) (asDbl : Bool) (c : Doc.Col) (x : Nat) (hx : x < 256 ^ c.codec.which.size) (v : Doc.Value)
    (hv : c.codec.value x = some v) (hw : c.integral asDbl = true → ∀ d, v = .num d → Doc.Whole d) :
    ∃ cell, Reads ((reload asDbl c.type (ofDoc c.codec)).dec o) (c.codec.code (endian o) x) cell ∧
      v.Shown (c.integral asDbl) cell := by
  obtain ⟨e1, e2, e3, _, e5⟩ := reload_fields asDbl c
  have hint : ∀ (k : Nat) (f : Nat → Word), x < 256 ^ k → v = .num (f x) →
      ∀ (p : P Cell), (∀ w, toVT (if c.integral asDbl then VT.i64 else VT.dbl) (f x) = .ok w → Reads p (putN o k x) [w]) →
        ∃ cell, Reads p (putN o k x) cell ∧ v.Shown (c.integral asDbl) cell := by
    intro k f hk hf p hp
    obtain ⟨w, w1, w2⟩ := toVT_shown (fun hi => hw hi _ hf)
    exact ⟨[w], hp w w1, by rw [hf]; exact w2⟩
  unfold Doc.Codec.value at hv
  unfold Doc.Codec.code
  unfold Codec.dec
  rw [e2]
  cases hwh : c.codec.which <;> simp only [hwh, kindOf, Doc.Which.size, uint_eq, uint_little] at hv hx e2 ⊢
  case constant =>
    cases hv
    obtain ⟨w, w1, w2⟩ := toVT_shown (b := c.integral asDbl) (d := c.codec.min) (fun hi => hw hi _ rfl)
    refine ⟨[w], ?_, w2⟩
    intro r
    rw [e1, e3, w1]
    cases o <;> rfl
  case constantString =>
    cases hv
    have hi : c.integral asDbl = false := by simp [Doc.Col.integral, hwh]
    refine ⟨[c.codec.min], ?_, 0, by simp⟩
    intro r
    rw [e3]
    cases o <;> rfl
  case constantOrMissing =>
    cases hv
    exact hint 1 (fun n => if n = 0xff then c.codec.missing else fadd (ofInt n) c.codec.min) hx rfl _
      (fun w h => by unfold decMissing; exact Reads.bind_pure (readN_code o _ x hx) (fun s => by rw [e1, e3, e5]; simp only [h]; rfl))
  case realConstantOrMissing =>
    cases hv
    exact hint 1 (fun n => if n = 0xff then c.codec.missing else fadd (ofInt n) c.codec.min) hx rfl _
      (fun w h => by unfold decMissing; exact Reads.bind_pure (readN_code o _ x hx) (fun s => by rw [e1, e3, e5]; simp only [h]; rfl))
  case int8Missing =>
    cases hv
    exact hint 1 (fun n => if n = 0xff then c.codec.missing else fadd (ofInt n) c.codec.min) hx rfl _
      (fun w h => by unfold decMissing; exact Reads.bind_pure (readN_code o _ x hx) (fun s => by rw [e1, e3, e5]; simp only [h]; rfl))
  case int16Missing =>
    cases hv
    exact hint 2 (fun n => if n = 0xffff then c.codec.missing else fadd (ofInt n) c.codec.min) hx rfl _
      (fun w h => by unfold decMissing; exact Reads.bind_pure (readN_code o _ x hx) (fun s => by rw [e1, e3, e5]; simp only [h]; rfl))
  case int8 =>
    cases hv
    exact hint 1 (fun n => fadd (ofInt n) c.codec.min) hx rfl _ 
      (fun w h => by unfold decOffset; exact Reads.bind_pure (readN_code o _ x hx) (fun s => by rw [e1, e3]; simp only [h]; rfl))
  case int16 =>
    cases hv
    exact hint 2 (fun n => fadd (ofInt n) c.codec.min) hx rfl _ 
      (fun w h => by unfold decOffset; exact Reads.bind_pure (readN_code o _ x hx) (fun s => by rw [e1, e3]; simp only [h]; rfl))
  case int32 =>
    simp only [Option.some.injEq] at hv
    have hr := ofInt_bv32 x (by simpa using hx)
    have hr4 : Reads (readI32 o) (putN o 4 x) (BitVec.ofNat 32 x).toInt := by
      intro r
      unfold readI32
      rw [readN_code o 4 x hx r]
    generalize hz : (BitVec.ofNat 32 x).toInt = z at hr hr4
    rw [← hr] at hv
    have hzi : InI32 z := by unfold InI32; rw [hr]; split <;> simp at hx <;> omega
    cases hv
    cases hi : c.integral asDbl
    · refine ⟨[ofInt z], ?_, by simp [Doc.Value.Shown]⟩
      unfold decDirect
      rw [e1, hi]
      exact Reads.bind_pure hr4 (fun s => rfl)
    · refine ⟨[BitVec.ofInt 64 z], ?_, ?_⟩
      · unfold decDirect
        rw [e1, hi]
        exact Reads.bind_pure hr4 (fun s => rfl)
      · simp only [Doc.Value.Shown, if_true]
        exact ⟨z, ftrunc_ofInt z hzi.small, rfl⟩
  case shortReal =>
    cases hv
    have hi : c.integral asDbl = false := by simp [Doc.Col.integral, hwh]
    refine ⟨[if x = 0x800000 then c.codec.missing else widen (BitVec.ofNat 32 x)], ?_, by simp [hi, Doc.Value.Shown]⟩
    unfold decShort
    refine Reads.bind_pure (readN_code o 4 x hx) (fun s => ?_)
    have : geq (BitVec.ofNat 32 x) minFloat = decide (x = 0x800000) := by
      rw [Bool.eq_iff_iff, geq_iff _ _ (by decide) (by decide), decide_eq_true_eq]
      constructor
      · intro h
        have := congrArg BitVec.toNat h
        rw [BitVec.toNat_ofNat, Nat.mod_eq_of_lt (by simpa using hx)] at this
        rw [this]; rfl
      · rintro rfl; rfl
    rw [this, e5]
    by_cases h : x = 0x800000 <;> simp [h] <;> rfl
  case shortReal2 =>
    cases hv
    have hi : c.integral asDbl = false := by simp [Doc.Col.integral, hwh]
    refine ⟨[if x = 0xff7fffff then c.codec.missing else widen (BitVec.ofNat 32 x)], ?_, by simp [hi, Doc.Value.Shown]⟩
    unfold decShort
    refine Reads.bind_pure (readN_code o 4 x hx) (fun s => ?_)
    have : geq (BitVec.ofNat 32 x) real2Missing = decide (x = 0xff7fffff) := by
      rw [Bool.eq_iff_iff, geq_iff _ _ (by decide) (by decide), decide_eq_true_eq]
      constructor
      · intro h
        have := congrArg BitVec.toNat h
        rw [BitVec.toNat_ofNat, Nat.mod_eq_of_lt (by simpa using hx)] at this
        rw [this]; rfl
      · rintro rfl; rfl
    rw [this, e5]
    by_cases h : x = 0xff7fffff <;> simp [h] <;> rfl
  case longReal =>
    cases hv
    have hi : c.integral asDbl = false := by simp [Doc.Col.integral, hwh]
    refine ⟨[BitVec.ofNat 64 x], ?_, by simp [hi, Doc.Value.Shown]⟩
    have hr : Reads (readWord o) (putN o 8 x) (BitVec.ofNat 64 x) := by
      intro r
      unfold readWord
      rw [readN_code o 8 x hx r]
    exact Reads.bind_pure hr (fun s => rfl)
  case chars =>
    cases hv
    have hwd : (reload asDbl c.type (ofDoc c.codec)).width = 1 := by unfold reload; simp [ofDoc, hwh, kindOf, fresh]
    refine ⟨wordsOf 1 (leBytes 8 x), ?_, 0, ?_⟩
    · rw [hwd]
      refine Reads.bind_pure (a := leBytes 8 x) ?_ (fun s => rfl)
      intro r
      exact readBytes_append' _ _ _ (by simp)
    · have := cellBytes_wordsOf 1 (leBytes 8 x) (by simp)
      unfold cellBytes at this
      rw [funext chars8_eq, this]
      simp
  case int8String | int16String =>
    rw [Option.map_eq_some_iff] at hv
    obtain ⟨s, hs, rfl⟩ := hv
    have hf : (reload asDbl c.type (ofDoc c.codec)).strings = c.codec.strings ∧
        (reload asDbl c.type (ofDoc c.codec)).width = tableWidth c.codec.strings 1 := by
      unfold reload; simp [ofDoc, hwh, kindOf]
    have hfit := tableWidth_fits c.codec.strings 1 s (List.mem_of_getElem? hs)
    refine ⟨wordsOf (tableWidth c.codec.strings 1) s, ?_, ?_⟩
    · unfold decStrIdx
      refine Reads.bind_pure (readN_code o _ x hx) (fun t => ?_)
      rw [hf.1, hf.2, hs]
      dsimp only
      rw [List.take_of_length_le hfit]
      rfl
    · have := cellBytes_wordsOf (tableWidth c.codec.strings 1) s hfit
      unfold cellBytes at this
      exact ⟨_, by rw [funext chars8_eq, this]⟩

theorem decOffset_ok (o : Order) (c : Codec) (k x : Nat) (hk : x < 256 ^ k) (cell : Cell)
    (h : Reads (decOffset o c k) (putN o k x) cell) : ∃ w, toVT c.vt (fadd (ofInt x) c.min) = .ok w := by
  have h1 := h []
  unfold decOffset at h1
  have h2 := readN_code o k x hk []
  generalize hz : fadd (ofInt (x : Int)) c.min = z
  cases ht : toVT c.vt z with
  | ok w => exact ⟨w, rfl⟩
  | error e =>
    exfalso
    have h3 : ∀ (f : Nat → P Cell), f x = P.fail e → (readN o k >>= f) (putN o k x ++ []) = .error e := by
      intro f hf
      rw [P.bind_apply, h2]
      simp only [hf, P.fail]
    rw [h3 _ (by rw [hz, ht])] at h1
    cases h1

/-- **Values, accepting**: if a code is decoded then the document gives it a value. -/
theorem value_of_dec (o : Order) (asDbl : Bool) (c : Doc.Col) (x : Nat) (hx : x < 256 ^ c.codec.which.size) (cell : Cell)
    (h : Reads ((reload asDbl c.type (ofDoc c.codec)).dec o) (c.codec.code (endian o) x) cell) :
    ∃ v, c.codec.value x = some v ∧ v.Shown (c.integral asDbl) cell ∧
      (c.integral asDbl = true → ∀ d, v = .num d → Doc.Whole d) := by
  obtain ⟨e1, e2, e3, _, e5⟩ := reload_fields asDbl c
  suffices hs : ∃ v, c.codec.value x = some v ∧ (c.integral asDbl = true → ∀ d, v = .num d → Doc.Whole d) by
    obtain ⟨v, v1, v2⟩ := hs
    obtain ⟨cell', d1, d2⟩ := dec_doc o asDbl c x hx v v1 v2
    have := (d1 []).symm.trans (h [])
    simp only [Except.ok.injEq, Prod.mk.injEq, and_true] at this
    exact ⟨v, v1, this ▸ d2, v2⟩
  have key : ∀ (d : Word), (c.integral asDbl = true → ∃ w, toVT .i64 d = .ok w) →
      (c.integral asDbl = true → ∀ d', Doc.Value.num d = .num d' → Doc.Whole d') := by
    intro d hd hi d' he
    cases he
    obtain ⟨w, hw⟩ := hd hi
    exact whole_toVT hw
  have h0 := h []
  have hmis : ∀ k m, Reads (decMissing o (reload asDbl c.type (ofDoc c.codec)) k m) (putN o k x) cell → x < 256 ^ k →
      c.integral asDbl = true → ∃ w, toVT .i64 (if x = m then c.codec.missing else fadd (ofInt x) c.codec.min) = .ok w := by
    intro k m hr hk hi
    have h1 := hr []
    unfold decMissing at h1
    rw [P.bind_apply, readN_code o k x hk [], e1, e3, e5, if_pos hi] at h1
    dsimp only at h1
    cases ht : toVT .i64 (if x = m then c.codec.missing else fadd (ofInt x) c.codec.min) with
    | ok w => exact ⟨w, rfl⟩
    | error e => rw [ht] at h1; simp [P.fail] at h1
  have hoff : ∀ k, Reads (decOffset o (reload asDbl c.type (ofDoc c.codec)) k) (putN o k x) cell → x < 256 ^ k →
      c.integral asDbl = true → ∃ w, toVT .i64 (fadd (ofInt x) c.codec.min) = .ok w := by
    intro k hr hk hi
    obtain ⟨w, hw⟩ := decOffset_ok o _ k x hk cell hr
    rw [e1, e3, if_pos hi] at hw
    exact ⟨w, hw⟩
  have hstr : ∀ k, Reads (decStrIdx o (reload asDbl c.type (ofDoc c.codec)) k) (putN o k x) cell → x < 256 ^ k →
      (reload asDbl c.type (ofDoc c.codec)).strings = c.codec.strings → ∃ s, c.codec.strings[x]? = some s := by
    intro k hr hk hst
    have h1 := hr []
    unfold decStrIdx at h1
    rw [P.bind_apply, readN_code o k x hk [], hst] at h1
    dsimp only at h1
    cases ht : c.codec.strings[x]? with
    | some w => exact ⟨w, rfl⟩
    | none => rw [ht] at h1; simp [P.fail] at h1
  unfold Doc.Codec.value
  unfold Doc.Codec.code at h
  unfold Codec.dec at h
  rw [e2] at h
  cases hwh : c.codec.which <;> simp only [hwh, kindOf, Doc.Which.size, uint_eq, uint_little] at h hx ⊢
  case constant =>
    refine ⟨_, rfl, key _ ?_⟩
    intro hi
    have h1 := h []
    rw [e1, e3, if_pos hi] at h1
    cases ht : toVT .i64 c.codec.min with
    | ok w => exact ⟨w, rfl⟩
    | error e => rw [ht] at h1; simp [P.fail] at h1
  case constantString => exact ⟨_, rfl, fun _ d hd => by simp at hd⟩
  case constantOrMissing => exact ⟨_, rfl, key _ (hmis 1 _ h hx)⟩
  case realConstantOrMissing => exact ⟨_, rfl, key _ (hmis 1 _ h hx)⟩
  case int8Missing => exact ⟨_, rfl, key _ (hmis 1 _ h hx)⟩
  case int16Missing => exact ⟨_, rfl, key _ (hmis 2 _ h hx)⟩
  case int8 => exact ⟨_, rfl, key _ (hoff 1 h hx)⟩
  case int16 => exact ⟨_, rfl, key _ (hoff 2 h hx)⟩
  case int32 =>
    refine ⟨_, rfl, fun _ d hd => ?_⟩
    cases hd
    have hz : InI32 (if x < 2147483648 then (x : Int) else (x : Int) - 4294967296) := by
      unfold InI32; split <;> simp at hx <;> omega
    exact ⟨_, ftrunc_ofInt _ hz.small, by unfold InI32 at hz; unfold InI64; omega⟩
  case shortReal => exact ⟨_, rfl, fun hi => by simp [Doc.Col.integral, hwh] at hi⟩
  case shortReal2 => exact ⟨_, rfl, fun hi => by simp [Doc.Col.integral, hwh] at hi⟩
  case longReal => exact ⟨_, rfl, fun hi => by simp [Doc.Col.integral, hwh] at hi⟩
  case chars => exact ⟨_, rfl, fun _ d hd => by simp at hd⟩
  case int8String =>
    obtain ⟨s, hs⟩ := hstr 1 h hx (by unfold reload; simp [ofDoc, hwh, kindOf])
    exact ⟨.text s, by rw [hs]; rfl, fun _ d hd => by simp at hd⟩
  case int16String =>
    obtain ⟨s, hs⟩ := hstr 2 h hx (by unfold reload; simp [ofDoc, hwh, kindOf])
    exact ⟨.text s, by rw [hs]; rfl, fun _ d hd => by simp at hd⟩

/-- Any bytes of the right number are a code. -/
theorem code_of_bytes (o : Order) (c : Doc.Codec) (bs : List Byte) (h : bs.length = c.which.size) :
    ∃ x, x < 256 ^ c.which.size ∧ c.code (endian o) x = bs := by
  by_cases hc : c.which = .chars
  · refine ⟨ofLe bs, by rw [← h]; exact ofLe_lt bs, ?_⟩
    unfold Doc.Codec.code
    rw [hc]
    dsimp only
    have h8 : bs.length = 8 := by rw [h, hc]; rfl
    rw [uint_little, ← h8, leBytes_ofLe]
  · refine ⟨ofLe (swapBytes o bs), ?_, ?_⟩
    · have := ofLe_lt (swapBytes o bs)
      rwa [swapBytes_length, h] at this
    · have he : c.code (endian o) (ofLe (swapBytes o bs)) = Doc.uint (endian o) c.which.size (ofLe (swapBytes o bs)) := by
        unfold Doc.Codec.code
        cases hw : c.which <;> first | rfl | exact absurd hw hc
      rw [he, uint_eq, putN, ← h, ← swapBytes_length o bs, leBytes_ofLe, swapBytes_swapBytes]

end Verif
