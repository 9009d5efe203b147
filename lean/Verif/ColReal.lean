import Verif.ColInt

/-
Correctness of DOUBLE and REAL columns.
-/

namespace Verif

/-- The two zero patterns. -/
def posZero : Word := 0

/-- IEEE: the pattern of -0.0. -/
def negZero : Word := 0x8000000000000000

theorem fmag_zero_iff (w : Word) : fmag w = 0 ↔ w = posZero ∨ w = negZero := by
  constructor
  · intro h
    cases hn : fneg w
    · left; apply word_ext
      · rw [hn]; decide
      · rw [h]; decide
    · right; apply word_ext
      · rw [hn]; decide
      · rw [h]; decide
  · rintro (h | h) <;> subst h <;> decide

theorem eq_of_feq {a b : Word} (h : feq a b = true) (hz : (a = posZero → b ≠ negZero) ∧ (a = negZero → b ≠ posZero)) :
    a = b := by
  unfold feq at h
  simp only [Bool.and_eq_true, decide_eq_true_eq] at h
  apply eq_of_fkey h.2
  intro ha
  have hb : fmag b = 0 := by
    have h2 := h.2; unfold fkey at h2; rw [ha] at h2
    split at h2 <;> split at h2 <;> omega
  rcases (fmag_zero_iff a).mp ha with ha' | ha' <;> rcases (fmag_zero_iff b).mp hb with hb' | hb'
  · rw [ha', hb']
  · exact absurd hb' (hz.1 ha')
  · exact absurd hb' (hz.2 ha')
  · rw [ha', hb']

theorem ofInt_zero : ofInt 0 = posZero := by decide +kernel

/-- `0 + x` is `x`, except for the negative zero. -/
theorem zero_fadd (x : Word) (hn : isNaN x = false) (hz : x ≠ negZero) : fadd posZero x = x := by
  have hp : isFin posZero = true := by decide
  cases hx : isFin x
  · simp [fadd, isFin_not_nan hp, hn, hp, hx]
  · rw [fadd_fin _ _ hp hx]
    have h0 : fval posZero = 0 := by decide
    have hneg : fneg posZero = false := by decide
    rw [h0, hneg, Bool.false_and, Int.zero_add]
    unfold ofVal
    by_cases hm : fmag x = 0
    · have hx0 : x = posZero := by
        rcases (fmag_zero_iff x).mp hm with h | h
        · exact h
        · exact absurd h hz
      subst hx0; decide
    · have hd : 0 < dec 52 (fmag x) := by
        have := dec_lt (p := 52) (a := 0) (b := fmag x) (by omega)
        rwa [dec_zero] at this
      have hfin : fmag x < inf64 := by simpa [isFin] using hx
      have hna : (fval x).natAbs = dec 52 (fmag x) := by unfold fval; split <;> omega
      have hlt : decide (fval x < 0) = fneg x := by
        unfold fval; cases fneg x <;> simp <;> omega
      have hne : fval x ≠ 0 := by unfold fval; split <;> omega
      rw [if_neg hne, hna, rnd_dec, hlt, Nat.min_eq_left (Nat.le_of_lt hfin), mk64_eta]

/-- `x - x = +0` for finite `x`. -/
theorem fsub_self (x : Word) (hx : isFin x = true) : fsub x x = posZero := by
  unfold fsub
  rw [fadd_fin _ _ hx (by rw [isFin_fflip]; exact hx), fval_fflip, fneg_fflip]
  have : fval x + -fval x = 0 := by omega
  rw [this]
  unfold ofVal
  simp only [if_true]
  cases fneg x <;> rfl

theorem vtOf_real (k : Kind) (ty : ColType) (hty : ty = .real ∨ ty = .double) (asDbl : Bool) :
    vtOf k ty.toInt asDbl = .dbl := by
  rcases hty with h | h <;> subst h <;> simp [vtOf, ColType.toInt]

theorem realMDI_nan : isNaN realMDI = false := by
  unfold realMDI; exact ofInt_nan _ (by unfold Small; omega)

theorem integerMDI_nan : isNaN integerMDI = false := by
  unfold integerMDI; exact ofInt_nan _ (by unfold Small; omega)

theorem startCodec_real (ty : ColType) (hty : ty = .real ∨ ty = .double) (asDbl : Bool) (m : Word)
    (m? : Option Word) (hm? : m? = some m ∨ (m? = none ∧ m = realMDI)) :
    ∃ c, startCodec ty asDbl 1 m? = .ok c ∧ c.kind = .longReal ∧ c.vt = .dbl ∧ c.missing = m ∧
      c.min = m ∧ c.max = m ∧ c.hasMissing = 0 ∧ c.srFlag = false ∧ c.sr2Flag = false := by
  have hself : feq realMDI realMDI = true := feq_self realMDI_nan
  have hv := vtOf_real .longReal ty hty asDbl
  unfold startCodec
  rcases hty with h | h <;> subst h <;>
    simp only [defaultCodec, Codec.setWidth, fresh, Kind.isChars, Bool.false_eq_true, if_false, if_true] <;>
    rcases hm? with h | ⟨h, h'⟩ <;> subst h
  · simp only [Codec.setMissing, hself, Bool.and_self, if_true, Kind.isInt, Bool.false_eq_true, if_false]
    exact ⟨_, rfl, rfl, hv, rfl, rfl, rfl, rfl, rfl, rfl⟩
  · subst h'; exact ⟨_, rfl, rfl, hv, rfl, rfl, rfl, rfl, rfl, rfl⟩
  · simp only [Codec.setMissing, hself, Bool.and_self, if_true, Kind.isInt, Bool.false_eq_true, if_false]
    exact ⟨_, rfl, rfl, hv, rfl, rfl, rfl, rfl, rfl, rfl⟩
  · subst h'; exact ⟨_, rfl, rfl, hv, rfl, rfl, rfl, rfl, rfl, rfl⟩

/-- Codecs used for real columns. -/
def Kind.isRealKind : Kind → Bool
  | .realConstOrMissing | .constant | .longReal | .shortReal | .shortReal2 => true
  | _ => false

theorem rebuild_real (k : Kind) (hk : k.isRealKind = true) (ty : ColType) (hty : ty = .real ∨ ty = .double)
    (asDbl : Bool) (c : Codec) :
    ∃ c', rebuild k ty asDbl c = .ok c' ∧ c'.kind = k ∧ c'.vt = .dbl ∧ c'.missing = c.missing ∧
      c'.min = c.min ∧ c'.max = c.max ∧ c'.hasMissing = (if c.hasMissing ≠ 0 then 1 else 0) ∧
      c'.strings = [] ∧ c'.width = 1 := by
  have hn2 : feq realMDI realMDI = true := feq_self realMDI_nan
  have hv := vtOf_real k ty hty asDbl
  unfold rebuild Codec.setMissing fresh
  cases k <;> simp [Kind.isRealKind] at hk <;> simp [hn2, hv, Kind.isInt, toVT]

theorem reload_real (k : Kind) (hk : k.isRealKind = true) (ty : ColType) (hty : ty = .real ∨ ty = .double)
    (asDbl : Bool) (c : Codec) (hc : c.kind = k) :
    (reload asDbl ty.toInt c).kind = k ∧ (reload asDbl ty.toInt c).vt = .dbl ∧
      (reload asDbl ty.toInt c).min = c.min ∧ (reload asDbl ty.toInt c).missing = c.missing := by
  have hv := vtOf_real k ty hty asDbl
  unfold reload
  rw [hc]
  cases k <;> simp [Kind.isRealKind] at hk <;> simp [fresh, hv]

/-- Statistics of a real column. -/
theorem real_stats (m : Word) (hm : isNaN m = false) (vs : List Word) (hvs : ∀ v ∈ vs, isNaN v = false)
    (c : Codec) (hk : c.kind = .longReal) (h1 : c.missing = m)
    (h2 : c.min = m) (h3 : c.max = m) (h4 : c.hasMissing = 0) (h5 : c.srFlag = false) (h6 : c.sr2Flag = false) :
    let c' := c.gatherAll (vs.map (fun v => [v]))
    StatInv m vs c' ∧ c'.kind = .longReal ∧
      c'.srFlag = vs.any (fun v => feq v (widen minFloat)) ∧
      c'.sr2Flag = vs.any (fun v => feq v (widen maxFloat)) := by
  intro c'
  obtain ⟨a1, a2, a3, a4, a5, a6, a7, _⟩ := gatherAll_longReal c (vs.map (fun v => [v])) hk
  have hmap : (vs.map (fun v => [v])).map cellWord = vs := by
    rw [List.map_map]
    conv => rhs; rw [← List.map_id vs]
    apply List.map_congr_left; intro v _; rfl
  have hfl := StatInv.foldl hm vs [] c (by simp) hvs (StatInv.init m c h1 h2 h3 h4)
  rw [List.nil_append] at hfl
  refine ⟨hfl.congr ?_ ?_ ?_ ?_, a1, ?_, ?_⟩
  · rw [a2, hmap]
  · rw [a3, hmap]
  · rw [a4, hmap]
  · rw [a5, hmap]
  · rw [a6, h5, List.any_map]; rfl
  · rw [a7, h6, List.any_map]; rfl

/-- One cell through the constant codec. -/
theorem trip_constant (o : Order) (asDbl : Bool) (ty : ColType) (hty : ty = .real ∨ ty = .double) (c : Codec)
    (hk : c.kind = .constant) (v : Word) :
    CellTrip o asDbl ty.toInt c [v] [c.min] := by
  obtain ⟨r1, r2, r3, r4⟩ := reload_real .constant rfl ty hty asDbl c hk
  refine ⟨[], ?_, ?_, ?_⟩
  · unfold Codec.enc; rw [hk]
  · unfold Codec.encSize; rw [hk]; rfl
  · intro r; unfold Codec.dec; rw [r1, r2, r3]; rfl

/-- One cell through the long_real codec. -/
theorem trip_longReal (o : Order) (asDbl : Bool) (ty : ColType) (hty : ty = .real ∨ ty = .double) (c : Codec)
    (hk : c.kind = .longReal) (v : Word) :
    CellTrip o asDbl ty.toInt c [v] [v] := by
  obtain ⟨r1, _⟩ := reload_real .longReal rfl ty hty asDbl c hk
  refine ⟨putWord o v, ?_, ?_, ?_⟩
  · unfold Codec.enc; rw [hk]; rfl
  · unfold Codec.encSize; rw [hk]; simp
  · intro r; unfold Codec.dec; rw [r1]; simp

/-- A missing cell through real_constant_or_missing. -/
theorem trip_rcm_missing (o : Order) (asDbl : Bool) (ty : ColType) (hty : ty = .real ∨ ty = .double) (c : Codec)
    (hk : c.kind = .realConstOrMissing) (hvt : c.vt = .dbl) (v : Word) (hv : feq v c.missing = true) :
    CellTrip o asDbl ty.toInt c [v] [c.missing] := by
  obtain ⟨r1, r2, r3, r4⟩ := reload_real .realConstOrMissing rfl ty hty asDbl c hk
  refine ⟨putN o 1 0xff, ?_, ?_, ?_⟩
  · unfold Codec.enc; rw [hk]; simp [encMissing, cellWord, toDbl, hvt, hv]
  · unfold Codec.encSize; rw [hk]; simp
  · intro r; unfold Codec.dec; rw [r1]
    simp only [decMissing, P.bind_apply, readN_putN, r2, r4, toVT]
    rfl

/-- A non-missing cell through real_constant_or_missing. -/
theorem trip_rcm_value (o : Order) (asDbl : Bool) (ty : ColType) (hty : ty = .real ∨ ty = .double) (c : Codec)
    (hk : c.kind = .realConstOrMissing) (hvt : c.vt = .dbl) (v : Word) (hv : feq v c.missing = false)
    (hmin : c.min = v) (hfin : isFin v = true) (hz : v ≠ negZero) :
    CellTrip o asDbl ty.toInt c [v] [v] := by
  obtain ⟨r1, r2, r3, r4⟩ := reload_real .realConstOrMissing rfl ty hty asDbl c hk
  have hcast : fcast 0 (256 ^ 1 - 1) posZero = .ok 0 := by
    rw [← ofInt_zero]; exact fcast_ofInt _ _ _ (by unfold Small; omega) (by omega) (by decide)
  refine ⟨putN o 1 0, ?_, ?_, ?_⟩
  · unfold Codec.enc; rw [hk]
    simp only [encMissing, cellWord, List.headD_cons, toDbl, hvt, hv, Bool.false_eq_true, if_false, hmin,
      fsub_self v hfin, hcast]
    rfl
  · unfold Codec.encSize; rw [hk]; simp
  · intro r; unfold Codec.dec; rw [r1]
    have h0 : ((0 % 256 ^ 1 : Nat) : Int) = 0 := rfl
    have h1 : (0 % 256 ^ 1 = 0xff) = False := by simp
    simp only [decMissing, P.bind_apply, readN_putN, r2, r3, hmin, h0, h1, if_false, ofInt_zero,
      zero_fadd v (isFin_not_nan hfin) hz, toVT]
    rfl

theorem decShort_apply (o : Order) (c : Codec) (marker : BitVec 32) (f : BitVec 32) (r : List Byte) :
    decShort o c marker (putN o 4 f.toNat ++ r) = .ok ([if geq f marker then c.missing else widen f], r) := by
  simp only [decShort, P.bind_apply, readN_putN]
  have : f.toNat % 256 ^ 4 = f.toNat := Nat.mod_eq_of_lt (by have := f.isLt; omega)
  rw [this, BitVec.ofNat_toNat, BitVec.setWidth_eq]
  rfl

/-- Marker of each short codec. -/
def shortMarker : Kind → BitVec 32
  | .shortReal => minFloat
  | _ => real2Missing

theorem trip_short (o : Order) (asDbl : Bool) (ty : ColType) (hty : ty = .real ∨ ty = .double) (c : Codec)
    (k : Kind) (hk : c.kind = k) (hks : k = .shortReal ∨ k = .shortReal2) (v : Word)
    (hv : feq v c.missing = false → geq (narrow v) (shortMarker k) = false) :
    CellTrip o asDbl ty.toInt c [v] [if feq v c.missing then c.missing else widen (narrow v)] := by
  have hkr : k.isRealKind = true := by rcases hks with h | h <;> subst h <;> rfl
  obtain ⟨r1, r2, r3, r4⟩ := reload_real k hkr ty hty asDbl c hk
  have henc : c.enc o [v] = encShort o c (shortMarker k) v := by
    unfold Codec.enc; rw [hk]; rcases hks with h | h <;> subst h <;> rfl
  have hsz : c.encSize = 4 := by unfold Codec.encSize; rw [hk]; rcases hks with h | h <;> subst h <;> rfl
  have hdec : (reload asDbl ty.toInt c).dec o = decShort o (reload asDbl ty.toInt c) (shortMarker k) := by
    unfold Codec.dec; rw [r1]; rcases hks with h | h <;> subst h <;> rfl
  have hmm : geq (shortMarker k) (shortMarker k) = true := by rcases hks with h | h <;> subst h <;> decide
  unfold CellTrip
  rw [henc, hsz, hdec]
  unfold encShort
  cases hf : feq v c.missing
  · have := hv hf
    simp only [Bool.false_eq_true, if_false, this]
    refine ⟨_, rfl, by simp, ?_⟩
    intro r
    rw [decShort_apply, this]
    rfl
  · simp only [if_true]
    refine ⟨_, rfl, by simp, ?_⟩
    intro r
    rw [decShort_apply, hmm, r4]
    rfl

/-- What a DOUBLE column must satisfy to be stored exactly. -/
structure DoublesOk (m : Word) (vs : List Word) : Prop where
  /-- no NaN -/
  nan : ∀ v ∈ vs, isNaN v = false
  /-- a value equal to the missing value is the missing value (only relevant if that is ±0) -/
  miss : ∀ v ∈ vs, feq v m = true → v = m
  /-- +0 and -0 are not mixed -/
  zero : posZero ∈ vs → negZero ∉ vs
  /-- next to missing values, no -0 and no infinity -/
  withMissing : m ∈ vs → ∀ v ∈ vs, v ≠ m → v ≠ negZero ∧ isFin v = true

theorem StatInv.const_eq {m : Word} {vs : List Word} {c : Codec} (h : StatInv m vs c)
    (hmx : feq c.max c.min = true) (hz : posZero ∈ vs → negZero ∉ vs) (hn : ∀ v ∈ vs, isNaN v = false)
    (v : Word) (hv : v ∈ vs) (hvm : feq v m = false) : c.min = v := by
  obtain ⟨a1, a2, a3⟩ := h.minmem ⟨v, hv, hvm⟩
  obtain ⟨b1, b2, b3⟩ := h.maxmem ⟨v, hv, hvm⟩
  have h1 := a3 v hv hvm
  have h2 := b3 v hv hvm
  have h3 : fkey c.max = fkey c.min := by
    unfold feq at hmx; simp only [Bool.and_eq_true, decide_eq_true_eq] at hmx; exact hmx.2
  apply eq_of_feq
  · simp [feq, hn _ a1, hn _ hv]; omega
  · constructor
    · intro he hv'; subst hv'; rw [he] at a1; exact hz a1 hv
    · intro he hv'; subst hv'; rw [he] at a1; exact hz hv a1

/-- The codec chosen for a DOUBLE column encodes and decodes every value exactly. -/
theorem double_column (asDbl longEnv : Bool) (m : Word) (hm : isNaN m = false)
    (m? : Option Word) (hm? : m? = some m ∨ (m? = none ∧ m = realMDI))
    (vs : List Word) (hok : DoublesOk m vs) :
    ∃ c, chosenCodec .double asDbl longEnv 1 m? (vs.map (fun v => [v])) = .ok c ∧
      SaveOk asDbl ColType.double.toInt c ∧ c.width = 1 ∧ StatInv m vs c ∧
      c.kind = (if feq c.max c.min then (if c.hasMissing ≠ 0 then .realConstOrMissing else .constant)
             else .longReal) ∧
      ∀ o, ∀ v ∈ vs, CellTrip o asDbl ColType.double.toInt c [v] [v] := by
  obtain ⟨c0, h0, hk, hvt, h1, h2, h3, h4, h5, h6⟩ := startCodec_real .double (Or.inr rfl) asDbl m m? hm?
  obtain ⟨hinv, hk', _, _⟩ := real_stats m hm vs hok.nan c0 hk h1 h2 h3 h4 h5 h6
  generalize hg : c0.gatherAll (vs.map (fun v => [v])) = g at *
  have hkr : (if feq g.max g.min then (if g.hasMissing ≠ 0 then Kind.realConstOrMissing else .constant)
             else .longReal).isRealKind = true := by
    split
    · split <;> rfl
    · rfl
  obtain ⟨c, e1, e2, e3, e4, e5, e6, e7, e8, e9⟩ := rebuild_real _ hkr .double (Or.inr rfl) asDbl g
  have hh : c.hasMissing ≠ 0 ↔ g.hasMissing ≠ 0 := by rw [e7]; split <;> simp_all
  have hinv' : StatInv m vs c := by
    refine hinv.congr e4 ?_ e5 e6
    rw [e7]; rcases hinv.has01 with h | h <;> simp [h]
  refine ⟨c, ?_, ?_, e9, hinv', ?_, ?_⟩
  · unfold chosenCodec; rw [h0]; simp only [hg]; unfold optimise; exact e1
  · constructor
    · rw [e7]; split <;> decide
    · rw [e8]; decide
    · rw [e8]; simp
    · intro _; rw [vtOf_real _ .double (Or.inr rfl) asDbl]; exact ⟨_, rfl⟩
  · rw [e2, e5, e6]; simp only [hh]
  · intro o v hv
    by_cases hmx : feq g.max g.min = true
    · rw [if_pos hmx] at e2
      have hmx' : feq c.max c.min = true := by rw [e5, e6]; exact hmx
      by_cases hhas : g.hasMissing ≠ 0
      · rw [if_pos hhas] at e2
        obtain ⟨d, hd, hdm⟩ := hinv.has.mp hhas
        have hmem : m ∈ vs := by rw [← hok.miss d hd hdm]; exact hd
        cases hvm : feq v m
        · have hmin := hinv'.const_eq hmx' hok.zero hok.nan v hv hvm
          have hne : v ≠ m := by
            intro he; rw [he, feq_self hm] at hvm; simp at hvm
          obtain ⟨z1, z2⟩ := hok.withMissing hmem v hv hne
          exact trip_rcm_value o asDbl .double (Or.inr rfl) c e2 e3 v (by rw [hinv'.missing]; exact hvm) hmin z2 z1
        · have := hok.miss v hv hvm
          have ht := trip_rcm_missing o asDbl .double (Or.inr rfl) c e2 e3 v (by rw [hinv'.missing]; exact hvm)
          rw [hinv'.missing, ← this] at ht
          exact ht
      · rw [if_neg hhas] at e2
        have hvm : feq v m = false := by
          cases hvm : feq v m with
          | false => rfl
          | true => exact absurd (hinv.has.mpr ⟨v, hv, hvm⟩) hhas
        have hmin := hinv'.const_eq hmx' hok.zero hok.nan v hv hvm
        have ht := trip_constant o asDbl .double (Or.inr rfl) c e2 v
        rw [hmin] at ht
        exact ht
    · rw [if_neg hmx] at e2
      exact trip_longReal o asDbl .double (Or.inr rfl) c e2 v

/-- What a REAL column must satisfy to be encodable: as for DOUBLE, and no value may collide with the
internal missing marker of the codec that will be used. -/
structure RealsOk (m : Word) (vs : List Word) : Prop where
  nan : ∀ v ∈ vs, isNaN v = false
  zero : posZero ∈ vs → negZero ∉ vs
  withMissing : (∃ d ∈ vs, feq d m = true) → ∀ v ∈ vs, feq v m = false → v ≠ negZero ∧ isFin v = true
  /-- no value rounds to -FLT_MAX -/
  lowest : ∀ v ∈ vs, feq v m = false → geq (narrow v) real2Missing = false
  /-- if FLT_MAX occurs then no value rounds to FLT_MIN -/
  smallest : (∃ w ∈ vs, feq w (widen maxFloat) = true) → ∀ v ∈ vs,
    geq (narrow v) minFloat = false ∧ feq v (widen minFloat) = false

/-- Value expected back for a REAL cell. -/
def RealOut (m : Word) (vs : List Word) (v v' : Word) : Prop :=
  if feq v m then v' = m
  else v' = widen (narrow v) ∨ (v' = v ∧ ∀ w ∈ vs, feq w m = false → feq w v = true)

theorem real_column (asDbl longEnv : Bool) (m : Word) (hm : isNaN m = false)
    (m? : Option Word) (hm? : m? = some m ∨ (m? = none ∧ m = realMDI))
    (vs : List Word) (hok : RealsOk m vs) :
    ∃ c, chosenCodec .real asDbl longEnv 1 m? (vs.map (fun v => [v])) = .ok c ∧
      SaveOk asDbl ColType.real.toInt c ∧ c.width = 1 ∧ StatInv m vs c ∧
      ∃ f : Word → Word, (∀ v ∈ vs, RealOut m vs v (f v)) ∧
        ∀ o, ∀ v ∈ vs, CellTrip o asDbl ColType.real.toInt c [v] [f v] := by
  obtain ⟨c0, h0, hk, hvt, h1, h2, h3, h4, h5, h6⟩ := startCodec_real .real (Or.inl rfl) asDbl m m? hm?
  obtain ⟨hinv, hk', hs1, hs2⟩ := real_stats m hm vs hok.nan c0 hk h1 h2 h3 h4 h5 h6
  generalize hg : c0.gatherAll (vs.map (fun v => [v])) = g at *
  have hrk : ∃ k, realKind g = .ok k ∧ k.isRealKind = true ∧
      (feq g.max g.min = true → k = if g.hasMissing ≠ 0 then .realConstOrMissing else .constant) ∧
      (feq g.max g.min = false → (k = .shortReal ∧ g.sr2Flag = true) ∨ k = .shortReal2) := by
    unfold realKind
    cases hmx : feq g.max g.min
    · simp only [Bool.false_eq_true, if_false]
      cases hf : g.sr2Flag
      · refine ⟨.shortReal2, ?_, rfl, by simp, by simp⟩
        simp
      · have : g.srFlag = false := by
          rw [hs2, List.any_eq_true] at hf
          obtain ⟨w, hw, hw'⟩ := hf
          rw [hs1, List.any_eq_false]
          intro v hv
          have := (hok.smallest ⟨w, hw, hw'⟩ v hv).2
          simp [this]
        simp only [this, if_true, Bool.false_eq_true, if_false]
        exact ⟨_, rfl, rfl, by simp, by simp⟩
    · simp only [if_true]
      refine ⟨_, rfl, by split <;> rfl, by simp, by simp⟩
  obtain ⟨k, hk1, hk2, hk3, hk4⟩ := hrk
  obtain ⟨c, e1, e2, e3, e4, e5, e6, e7, e8, e9⟩ := rebuild_real k hk2 .real (Or.inl rfl) asDbl g
  have hinv' : StatInv m vs c := by
    refine hinv.congr e4 ?_ e5 e6
    rw [e7]; rcases hinv.has01 with h | h <;> simp [h]
  have hcm : c.missing = m := hinv'.missing
  refine ⟨c, ?_, ?_, e9, hinv', ?_⟩
  · unfold chosenCodec; rw [h0]; simp only [hg]; unfold optimise; rw [hk', hk1]; exact e1
  · constructor
    · rw [e7]; split <;> decide
    · rw [e8]; decide
    · rw [e8]; simp
    · intro _; rw [vtOf_real _ .real (Or.inl rfl) asDbl]; exact ⟨_, rfl⟩
  · cases hmx : feq g.max g.min
    · refine ⟨fun v => if feq v m then m else widen (narrow v), ?_, ?_⟩
      · intro v _; unfold RealOut; cases hvm : feq v m <;> simp [hvm]
      · intro o v hv
        have hks : k = .shortReal ∨ k = .shortReal2 := by
          rcases hk4 hmx with h | h
          · exact Or.inl h.1
          · exact Or.inr h
        have ht := trip_short o asDbl .real (Or.inl rfl) c k e2 hks v (by
          intro hvm
          rw [hcm] at hvm
          rcases hk4 hmx with ⟨h, hf⟩ | h
          · subst h
            rw [hs2, List.any_eq_true] at hf
            exact (hok.smallest hf v hv).1
          · subst h; exact hok.lowest v hv hvm)
        rw [hcm] at ht
        exact ht
    · have hkk := hk3 hmx
      have hmx' : feq c.max c.min = true := by rw [e5, e6]; exact hmx
      refine ⟨fun v => if feq v m then m else v, ?_, ?_⟩
      · intro v hv
        unfold RealOut
        cases hvm : feq v m
        · simp only [hvm, Bool.false_eq_true, if_false]
          right
          refine ⟨trivial, ?_⟩
          intro w hw hwm
          rw [← hinv'.const_eq hmx' hok.zero hok.nan v hv hvm, ← hinv'.const_eq hmx' hok.zero hok.nan w hw hwm]
          apply feq_self
          rw [hinv'.const_eq hmx' hok.zero hok.nan w hw hwm]; exact hok.nan w hw
        · simp [hvm]
      · intro o v hv
        by_cases hhas : g.hasMissing ≠ 0
        · rw [if_pos hhas] at hkk
          rw [hkk] at e2
          cases hvm : feq v m
          · have hmin := hinv'.const_eq hmx' hok.zero hok.nan v hv hvm
            obtain ⟨z1, z2⟩ := hok.withMissing (hinv.has.mp hhas) v hv hvm
            simp only [hvm, Bool.false_eq_true, if_false]
            exact trip_rcm_value o asDbl .real (Or.inl rfl) c e2 e3 v (by rw [hcm]; exact hvm) hmin z2 z1
          · simp only [hvm, if_true]
            have ht := trip_rcm_missing o asDbl .real (Or.inl rfl) c e2 e3 v (by rw [hcm]; exact hvm)
            rw [hcm] at ht
            exact ht
        · rw [if_neg hhas] at hkk
          rw [hkk] at e2
          have hvm : feq v m = false := by
            cases hvm : feq v m with
            | false => rfl
            | true => exact absurd (hinv.has.mpr ⟨v, hv, hvm⟩) hhas
          have hmin := hinv'.const_eq hmx' hok.zero hok.nan v hv hvm
          have ht := trip_constant o asDbl .real (Or.inl rfl) c e2 v
          rw [hmin] at ht
          simp only [hvm, Bool.false_eq_true, if_false]
          exact ht

end Verif
