import Verif.Stats

/-
The per-column encoding pipeline and its correctness for INTEGER / BITFIELD columns.
-/

namespace Verif

/-- Column set-up of `encodeFrame` (core/Encoder.cc l.38-42): default codec of the type, then the
element width; `m?` is an optional user-defined missing value
(`WriterBufferingIterator::missingValue`, WriterBufferingIterator.cc). -/
def startCodec (ty : ColType) (asDbl : Bool) (width : Nat) (m? : Option Word) : Except Err Codec :=
  match defaultCodec ty asDbl with
  | .error e => .error e
  | .ok c =>
    match c.setWidth width with
    | .error e => .error e
    | .ok c =>
      match m? with
      | none => .ok c
      | some m => c.setMissing m

/-- Statistics then choice of codec (core/Encoder.cc l.57-69). -/
def chosenCodec (ty : ColType) (asDbl longEnv : Bool) (width : Nat) (m? : Option Word)
    (cells : List Cell) : Except Err Codec :=
  match startCodec ty asDbl width m? with
  | .error e => .error e
  | .ok c => optimise ty asDbl longEnv (c.gatherAll cells)

/-- Encoding cell `x` with codec `c` and decoding with the reloaded codec gives `y`, consuming exactly
the bytes written, whatever follows. -/
def CellTrip (o : Order) (asDbl : Bool) (ty : Int) (c : Codec) (x y : Cell) : Prop :=
  ∃ bs, c.enc o x = .ok bs ∧ bs.length = c.encSize ∧ Reads ((reload asDbl ty c).dec o) bs y

/-- Encode then decode one cell on its own. -/
def cellTrip (o : Order) (asDbl : Bool) (ty : Int) (c : Codec) (x : Cell) : Except Err Cell :=
  match c.enc o x with
  | .error e => .error e
  | .ok bs =>
    match (reload asDbl ty c).dec o bs with
    | .ok (y, _) => .ok y
    | .error e => .error e

/-- Encode a whole column (choose the codec, encode each cell) and decode each cell with the codec
reconstructed from the header. -/
def colTrip (o : Order) (ty : ColType) (asDbl longEnv : Bool) (width : Nat) (m? : Option Word)
    (cells : List Cell) : Except Err (List Cell) :=
  match chosenCodec ty asDbl longEnv width m? cells with
  | .error e => .error e
  | .ok c => cells.mapM (cellTrip o asDbl ty.toInt c)

theorem CellTrip.eq {o asDbl ty c x y} (h : CellTrip o asDbl ty c x y) :
    cellTrip o asDbl ty c x = .ok y := by
  obtain ⟨bs, h1, _, h3⟩ := h
  unfold cellTrip
  have := h3 []
  rw [List.append_nil] at this
  simp [h1, this]

theorem mapM_ok {α β : Type} (f : α → Except Err β) (g : α → β) (l : List α)
    (h : ∀ x ∈ l, f x = .ok (g x)) : l.mapM f = .ok (l.map g) := by
  induction l with
  | nil => rfl
  | cons a l ih =>
    rw [List.mapM_cons, h a (by simp), ih (fun x hx => h x (by simp [hx]))]
    rfl

/-- The in-memory word of integer `i`. -/
def intWord (asDbl : Bool) (i : Int) : Word := if asDbl then ofInt i else BitVec.ofInt 64 i

/-- The value type of integer codecs, codec/Integer.cc and core/CodecFactory.h l.122-148: double if `integersAsDoubles`. -/
def vtI (asDbl : Bool) : VT := if asDbl then .dbl else .i64

theorem InI32.small {i : Int} (h : InI32 i) : Small i := by
  obtain ⟨a, b⟩ := h; unfold Small; omega

theorem InI32.i64 {i : Int} (h : InI32 i) : InI64 i := by
  obtain ⟨a, b⟩ := h; unfold InI64; omega

theorem toDbl_intWord (asDbl : Bool) (i : Int) (h : InI32 i) :
    toDbl (vtI asDbl) (intWord asDbl i) = ofInt i := by
  cases asDbl <;> simp [toDbl, vtI, intWord, toInt_ofInt64 i h.i64]

theorem toVT_ofInt (asDbl : Bool) (i : Int) (h : InI32 i) :
    toVT (vtI asDbl) (ofInt i) = .ok (intWord asDbl i) := by
  cases asDbl
  · simp only [toVT, vtI, Bool.false_eq_true, if_false, intWord]
    rw [fcast_ofInt _ _ i h.small (by have := h.1; omega) (by have := h.2; omega)]
  · simp [toVT, vtI, intWord]

theorem vtOf_int (k : Kind) (hk : k.hasVT = true) (ty : ColType) (hty : ty = .integer ∨ ty = .bitfield)
    (asDbl : Bool) : vtOf k ty.toInt asDbl = vtI asDbl := by
  rcases hty with h | h <;> subst h <;> cases asDbl <;> simp [vtOf, hk, ColType.toInt, vtI]

theorem startCodec_int (ty : ColType) (hty : ty = .integer ∨ ty = .bitfield) (asDbl : Bool) (m : Int)
    (hm : InI32 m) (m? : Option Word) (hm? : m? = some (ofInt m) ∨ (m? = none ∧ m = 2147483647)) :
    ∃ c, startCodec ty asDbl 1 m? = .ok c ∧ c.kind = .int32 ∧ c.vt = vtI asDbl ∧ c.missing = ofInt m ∧
      c.min = ofInt m ∧ c.max = ofInt m ∧ c.hasMissing = 0 := by
  have hmdi : integerMDI = ofInt 2147483647 := by unfold integerMDI; rfl
  have hmi : InI32 2147483647 := by decide
  have hself : ∀ i, InI32 i → feq (ofInt i) (ofInt i) = true := fun i hi => feq_self (ofInt_nan i hi.small)
  have hv : ∀ t, (t = 1 ∨ t = 4) → vtOf .int32 t asDbl = vtI asDbl := by
    intro t ht; rcases ht with h | h <;> subst h <;> cases asDbl <;> rfl
  unfold startCodec
  rcases hty with h | h <;> subst h
  · simp only [defaultCodec, Codec.setWidth, fresh, Kind.isChars, Bool.false_eq_true, if_false, if_true]
    rcases hm? with h | ⟨h, h'⟩
    · subst h
      simp only [Codec.setMissing, hmdi, hself _ hmi, Bool.and_self, if_true, Kind.isInt, hv 1 (by simp),
        toVT_ofInt asDbl m hm]
      exact ⟨_, rfl, rfl, rfl, rfl, rfl, rfl, rfl⟩
    · subst h; subst h'
      exact ⟨_, rfl, rfl, hv 1 (by simp), hmdi, hmdi, hmdi, rfl⟩
  · simp only [defaultCodec, Codec.setMissing, fresh, hmdi, hself _ hmi, Bool.and_self, if_true, Kind.isInt,
      hv 4 (by simp), toVT_ofInt asDbl _ hmi, Codec.setWidth, Kind.isChars, Bool.false_eq_true, if_false]
    rcases hm? with h | ⟨h, h'⟩
    · subst h
      simp only [toVT_ofInt asDbl m hm]
      exact ⟨_, rfl, rfl, rfl, rfl, rfl, rfl, rfl⟩
    · subst h; subst h'
      generalize ofInt 2147483647 = M
      exact ⟨_, rfl, rfl, rfl, rfl, rfl, rfl, rfl⟩

/-- Statistics of an integer column, in terms of integers. -/
theorem int_stats (asDbl : Bool) (m : Int) (hm : InI32 m) (is : List Int) (his : ∀ i ∈ is, InI32 i)
    (c : Codec) (hk : c.kind = .int32) (hvt : c.vt = vtI asDbl) (h1 : c.missing = ofInt m)
    (h2 : c.min = ofInt m) (h3 : c.max = ofInt m) (h4 : c.hasMissing = 0) :
    let c' := c.gatherAll (is.map (fun i => [intWord asDbl i]))
    ∃ lo hi : Int, InI32 lo ∧ InI32 hi ∧ lo ≤ hi ∧ c'.missing = ofInt m ∧ c'.min = ofInt lo ∧ c'.max = ofInt hi ∧
      (c'.hasMissing ≠ 0 ↔ m ∈ is) ∧ (∀ i ∈ is, i ≠ m → lo ≤ i ∧ i ≤ hi) := by
  intro c'
  have hmap : (is.map (fun i => [intWord asDbl i])).map (fun x => toDbl c.vt (cellWord x)) = is.map ofInt := by
    rw [List.map_map]
    apply List.map_congr_left
    intro i hi
    simp only [Function.comp, cellWord, List.headD_cons, hvt]
    exact toDbl_intWord asDbl i (his i hi)
  have hc' : c' = (is.map ofInt).foldl Codec.gatherBase c := by
    show c.gatherAll _ = _
    rw [gatherAll_int32 c _ hk, hmap]
  have hnan : ∀ d ∈ is.map ofInt, isNaN d = false := by
    intro d hd
    obtain ⟨i, hi, rfl⟩ := List.mem_map.mp hd
    exact ofInt_nan i (his i hi).small
  have hinv : StatInv (ofInt m) ([] ++ is.map ofInt) c' := by
    rw [hc']
    exact StatInv.foldl (ofInt_nan m hm.small) _ _ _ (by simp) hnan (StatInv.init _ c h1 h2 h3 h4)
  rw [List.nil_append] at hinv
  have hfeq : ∀ i ∈ is, (feq (ofInt i) (ofInt m) = true ↔ i = m) := by
    intro i hi; rw [feq_ofInt i m (his i hi).small hm.small]; simp
  have hhas : c'.hasMissing ≠ 0 ↔ m ∈ is := by
    rw [hinv.has]
    constructor
    · rintro ⟨d, hd, hdm⟩
      obtain ⟨i, hi, rfl⟩ := List.mem_map.mp hd
      have := (hfeq i hi).mp hdm
      subst this; exact hi
    · intro h
      exact ⟨ofInt m, List.mem_map_of_mem h, (hfeq m h).mpr rfl⟩
  by_cases hex : ∃ i ∈ is, i ≠ m
  · obtain ⟨i0, hi0, hi0m⟩ := hex
    have hex' : ∃ d ∈ is.map ofInt, feq d (ofInt m) = false := by
      refine ⟨ofInt i0, List.mem_map_of_mem hi0, ?_⟩
      cases hf : feq (ofInt i0) (ofInt m) with
      | false => rfl
      | true => exact absurd ((hfeq i0 hi0).mp hf) hi0m
    obtain ⟨a1, a2, a3⟩ := hinv.minmem hex'
    obtain ⟨b1, b2, b3⟩ := hinv.maxmem hex'
    obtain ⟨lo, hlo, hlo'⟩ := List.mem_map.mp a1
    obtain ⟨hi, hhi, hhi'⟩ := List.mem_map.mp b1
    have bounds : ∀ i ∈ is, i ≠ m → lo ≤ i ∧ i ≤ hi := by
      intro i hii him
      have hne : feq (ofInt i) (ofInt m) = false := by
        cases hf : feq (ofInt i) (ofInt m) with
        | false => rfl
        | true => exact absurd ((hfeq i hii).mp hf) him
      have e1 := a3 _ (List.mem_map_of_mem hii) hne
      have e2 := b3 _ (List.mem_map_of_mem hii) hne
      rw [← hlo'] at e1
      rw [← hhi'] at e2
      have s1 := fkey_ofInt_lt i lo (his i hii).small (his lo hlo).small
      have s2 := fkey_ofInt_lt hi i (his hi hhi).small (his i hii).small
      omega
    refine ⟨lo, hi, his lo hlo, his hi hhi, ?_, hinv.missing, hlo'.symm, hhi'.symm, hhas, bounds⟩
    have := bounds i0 hi0 hi0m; omega
  · have hall : ∀ i ∈ is, i = m := by
      intro i hi
      by_cases h : i = m
      · exact h
      · exact absurd ⟨i, hi, h⟩ hex
    have := hinv.none (by
      intro d hd
      obtain ⟨i, hi, rfl⟩ := List.mem_map.mp hd
      exact (hfeq i hi).mpr (hall i hi))
    refine ⟨m, m, hm, hm, Int.le_refl _, hinv.missing, this.1, this.2, hhas, ?_⟩
    intro i hi h; exact absurd (hall i hi) h

/-- What `rebuild` produces for an integer codec. -/
theorem rebuild_int (k : Kind) (hkv : k.hasVT = true) (ty : ColType) (hty : ty = .integer ∨ ty = .bitfield)
    (asDbl : Bool) (m : Int) (hm : InI32 m) (c : Codec) (hc : c.missing = ofInt m) :
    ∃ c', rebuild k ty asDbl c = .ok c' ∧ c'.kind = k ∧ c'.vt = vtI asDbl ∧ c'.missing = ofInt m ∧
      c'.min = c.min ∧ c'.max = c.max ∧ c'.hasMissing = (if c.hasMissing ≠ 0 then 1 else 0) ∧
      c'.strings = [] ∧ c'.width = 1 := by
  have hn1 : feq integerMDI integerMDI = true := by
    unfold integerMDI; exact feq_self (ofInt_nan _ (by unfold Small; omega))
  have hn2 : feq realMDI realMDI = true := by
    unfold realMDI; exact feq_self (ofInt_nan _ (by unfold Small; omega))
  have hv := vtOf_int k hkv ty hty asDbl
  have ht := toVT_ofInt asDbl m hm
  unfold rebuild Codec.setMissing fresh
  cases k <;> simp [Kind.hasVT] at hkv <;>
    simp [hn1, hn2, hv, hc, ht, Kind.isInt]

/-- Encoding and decoding one integer with the codec chosen for its column. -/
theorem int_cell (o : Order) (ty : ColType) (hty : ty = .integer ∨ ty = .bitfield) (asDbl : Bool) (m lo hi i : Int)
    (hm : InI32 m) (hlo : InI32 lo) (hhi : InI32 hi) (hi' : InI32 i) (hle : lo ≤ hi) (has : Bool)
    (hmiss : i = m → has = true) (hb : i ≠ m → lo ≤ i ∧ i ≤ hi) (c : Codec)
    (hk : c.kind = intKind has (hi - lo)) (hvt : c.vt = vtI asDbl)
    (hmissing : c.missing = ofInt m) (hmin : c.min = ofInt lo) :
    CellTrip o asDbl ty.toInt c [intWord asDbl i] [intWord asDbl i] := by
  have hw : ∀ k, c.kind = k → k.hasVT = true →
      (reload asDbl ty.toInt c).kind = k ∧ (reload asDbl ty.toInt c).vt = vtI asDbl ∧
      (reload asDbl ty.toInt c).min = ofInt lo ∧ (reload asDbl ty.toInt c).missing = ofInt m := by
    intro k hk' hkv
    have hv := vtOf_int k hkv ty hty asDbl
    unfold reload
    rw [hk']
    cases k <;> simp [Kind.hasVT] at hkv <;> simp [fresh, hmin, hmissing, hv]
  have htd := toDbl_intWord asDbl i hi'
  have hcw : cellWord [intWord asDbl i] = intWord asDbl i := rfl
  -- offset arithmetic
  have hsub : fsub (ofInt i) (ofInt lo) = ofInt (i - lo) := fsub_ofInt i lo hi'.small hlo.small
  have hadd : ∀ n : Nat, InI32 (n : Int) → (n : Int) = i - lo → fadd (ofInt (n : Int)) (ofInt lo) = ofInt i := by
    intro n hn he
    rw [fadd_ofInt _ _ hn.small hlo.small, he]; congr 1; omega
  have hsm : Small (i - lo) := by
    obtain ⟨a, b⟩ := hi'; obtain ⟨a', b'⟩ := hlo; unfold Small; omega
  have hmz := fun k (hk' : c.kind = k) hkv => hw k hk' hkv
  unfold CellTrip
  -- generic "missing" codecs
  have hmissingCodec : ∀ (k : Kind) (nb marker : Nat), c.kind = k → k.hasVT = true →
      (hi - lo < marker) → marker = 256 ^ nb - 1 → (nb = 1 ∨ nb = 2) →
      c.enc o [intWord asDbl i] = encMissing o c nb marker (intWord asDbl i) →
      (reload asDbl ty.toInt c).dec o = decMissing o (reload asDbl ty.toInt c) nb marker → c.encSize = nb →
      ∃ bs, c.enc o [intWord asDbl i] = .ok bs ∧ bs.length = c.encSize ∧
        Reads ((reload asDbl ty.toInt c).dec o) bs [intWord asDbl i] := by
    intro k nb marker hk' hkv hlt hmk hnb henc hdec hsz
    obtain ⟨_, r2, r3, r4⟩ := hw k hk' hkv
    have hpow : (256 : Nat) ^ nb = marker + 1 := by
      have : 0 < 256 ^ nb := Nat.pow_pos (by omega)
      omega
    have hmk2 : marker ≤ 65535 := by
      rcases hnb with h | h <;> subst h <;> omega
    rw [henc, hdec, hsz]
    unfold encMissing
    rw [hvt, htd, hmissing, feq_ofInt i m hi'.small hm.small]
    by_cases him : i = m
    · simp only [him, decide_true, if_true]
      refine ⟨_, rfl, by simp, ?_⟩
      intro r
      unfold decMissing
      rw [P.bind_apply, readN_putN, Nat.mod_eq_of_lt (by omega)]
      simp only [if_true, r2, r4, toVT_ofInt asDbl m hm, P.pure_apply]
    · obtain ⟨b1, b2⟩ := hb him
      simp only [him, decide_false, Bool.false_eq_true, if_false, hmin, hsub]
      have hc1 : fcast 0 (256 ^ nb - 1) (ofInt (i - lo)) = .ok (i - lo) := by
        apply fcast_ofInt _ _ _ hsm (by omega)
        have : ((256 : Int) ^ nb) = ((256 ^ nb : Nat) : Int) := by simp
        rw [this, hpow]; omega
      rw [hc1]
      have hne : (i - lo).toNat ≠ marker := by omega
      simp only [hne, if_false]
      refine ⟨_, rfl, by simp, ?_⟩
      intro r
      unfold decMissing
      have hlt2 : (i - lo).toNat < 256 ^ nb := by omega
      rw [P.bind_apply, readN_putN, Nat.mod_eq_of_lt hlt2]
      have hin : InI32 ((i - lo).toNat : Int) := by unfold InI32; omega
      have := hadd (i - lo).toNat hin (by omega)
      simp only [hne, if_false, r2, r3, this, toVT_ofInt asDbl i hi', P.pure_apply]
  have hoffset : ∀ (k : Kind) (nb : Nat), c.kind = k → k.hasVT = true → i ≠ m →
      (hi - lo ≤ 256 ^ nb - 1) → (nb = 1 ∨ nb = 2) →
      c.enc o [intWord asDbl i] = encOffset o c nb (intWord asDbl i) →
      (reload asDbl ty.toInt c).dec o = decOffset o (reload asDbl ty.toInt c) nb → c.encSize = nb →
      ∃ bs, c.enc o [intWord asDbl i] = .ok bs ∧ bs.length = c.encSize ∧
        Reads ((reload asDbl ty.toInt c).dec o) bs [intWord asDbl i] := by
    intro k nb hk' hkv him hlt hnb henc hdec hsz
    obtain ⟨_, r2, r3, r4⟩ := hw k hk' hkv
    obtain ⟨b1, b2⟩ := hb him
    rw [henc, hdec, hsz]
    unfold encOffset
    have hbig : (256 : Int) ^ nb ≤ 65536 := by rcases hnb with h | h <;> subst h <;> decide
    have hc1 : fcast 0 18446744073709551615 (ofInt (i - lo)) = .ok (i - lo) := by
      apply fcast_ofInt _ _ _ hsm (by omega) (by omega)
    rw [hvt, htd, hmin, hsub, hc1]
    refine ⟨_, rfl, by simp, ?_⟩
    intro r
    unfold decOffset
    have hlt2 : (i - lo).toNat < 256 ^ nb := by
      have : ((256 : Int) ^ nb) = ((256 ^ nb : Nat) : Int) := by simp
      rw [this] at hlt; omega
    rw [P.bind_apply, readN_putN, Nat.mod_eq_of_lt hlt2]
    have hin : InI32 ((i - lo).toNat : Int) := by unfold InI32; omega
    have := hadd (i - lo).toNat hin (by omega)
    simp only [r2, r3, this, toVT_ofInt asDbl i hi', P.pure_apply]
  have hdirect : c.kind = .int32 → ∃ bs, c.enc o [intWord asDbl i] = .ok bs ∧ bs.length = c.encSize ∧
        Reads ((reload asDbl ty.toInt c).dec o) bs [intWord asDbl i] := by
    intro hk'
    obtain ⟨r1, r2, _, _⟩ := hw .int32 hk' rfl
    have henc : c.enc o [intWord asDbl i] = encDirect o c (intWord asDbl i) := by
      unfold Codec.enc; rw [hk']; rfl
    have hdec : (reload asDbl ty.toInt c).dec o = decDirect o (reload asDbl ty.toInt c) := by
      unfold Codec.dec; rw [r1]
    have hsz : c.encSize = 4 := by unfold Codec.encSize; rw [hk']
    rw [henc, hdec, hsz]
    unfold encDirect
    rw [hvt]
    cases hd : asDbl
    · subst hd
      simp only [vtI, Bool.false_eq_true, if_false]
      refine ⟨_, rfl, by simp, ?_⟩
      have heq : putN o 4 ((intWord false i).toNat % 2 ^ 32) = putI32 o i := by
        unfold putI32 intWord
        congr 1
        simp only [Bool.false_eq_true, if_false, BitVec.toNat_ofInt]
        omega
      rw [heq]
      intro r
      unfold decDirect
      rw [P.bind_apply, readI32_putI32 o i hi', r2]
      simp [vtI, intWord]
    · subst hd
      simp only [vtI, if_true, intWord]
      rw [fcast_ofInt _ _ i hi'.small (by have := hi'.1; omega) (by have := hi'.2; omega)]
      refine ⟨_, rfl, by simp, ?_⟩
      intro r
      unfold decDirect
      rw [P.bind_apply, readI32_putI32 o i hi', r2]
      simp [vtI]
  unfold intKind at hk
  split at hk
  · split at hk
    · rename_i hn
      refine hmissingCodec .constOrMissing 1 0xff hk rfl (by omega) rfl (Or.inl rfl) ?_ ?_ ?_
      · unfold Codec.enc; rw [hk]; rfl
      · unfold Codec.dec; rw [(hw _ hk rfl).1]
      · unfold Codec.encSize; rw [hk]
    · split at hk
      · refine hmissingCodec .int8Missing 1 0xff hk rfl (by omega) rfl (Or.inl rfl) ?_ ?_ ?_
        · unfold Codec.enc; rw [hk]; rfl
        · unfold Codec.dec; rw [(hw _ hk rfl).1]
        · unfold Codec.encSize; rw [hk]
      · split at hk
        · refine hmissingCodec .int16Missing 2 0xffff hk rfl (by omega) rfl (Or.inr rfl) ?_ ?_ ?_
          · unfold Codec.enc; rw [hk]; rfl
          · unfold Codec.dec; rw [(hw _ hk rfl).1]
          · unfold Codec.encSize; rw [hk]
        · exact hdirect hk
  · rename_i hhas
    have him : i ≠ m := fun h => hhas (hmiss h)
    split at hk
    · rename_i hn
      obtain ⟨r1, r2, r3, r4⟩ := hw _ hk rfl
      obtain ⟨b1, b2⟩ := hb him
      have hil : i = lo := by omega
      refine ⟨[], ?_, ?_, ?_⟩
      · unfold Codec.enc; rw [hk]
      · unfold Codec.encSize; rw [hk]; rfl
      · intro r
        unfold Codec.dec
        rw [r1, r2, r3, ← hil, toVT_ofInt asDbl i hi']
        rfl
    · split at hk
      · refine hoffset .int8 1 hk rfl him (by omega) (Or.inl rfl) ?_ ?_ ?_
        · unfold Codec.enc; rw [hk]; rfl
        · unfold Codec.dec; rw [(hw _ hk rfl).1]
        · unfold Codec.encSize; rw [hk]
      · split at hk
        · refine hoffset .int16 2 hk rfl him (by omega) (Or.inr rfl) ?_ ?_ ?_
          · unfold Codec.enc; rw [hk]; rfl
          · unfold Codec.dec; rw [(hw _ hk rfl).1]
          · unfold Codec.encSize; rw [hk]
        · exact hdirect hk

/-- The codec chosen for an integer column encodes and decodes every value of the column exactly. -/
theorem int_column (ty : ColType) (hty : ty = .integer ∨ ty = .bitfield) (asDbl longEnv : Bool) (m : Int)
    (hm : InI32 m) (m? : Option Word) (hm? : m? = some (ofInt m) ∨ (m? = none ∧ m = 2147483647))
    (is : List Int) (his : ∀ i ∈ is, InI32 i) :
    ∃ c, chosenCodec ty asDbl longEnv 1 m? (is.map (fun i => [intWord asDbl i])) = .ok c ∧
      SaveOk asDbl ty.toInt c ∧ c.width = 1 ∧ c.missing = ofInt m ∧
      (∃ lo hi : Int, lo ≤ hi ∧ c.min = ofInt lo ∧ c.max = ofInt hi ∧
        c.kind = intKind (decide (m ∈ is)) (hi - lo) ∧ (∀ i ∈ is, i ≠ m → lo ≤ i ∧ i ≤ hi)) ∧
      ∀ o, ∀ i ∈ is, CellTrip o asDbl ty.toInt c [intWord asDbl i] [intWord asDbl i] := by
  obtain ⟨c0, h0, hk, hvt, h1, h2, h3, h4⟩ := startCodec_int ty hty asDbl m hm m? hm?
  obtain ⟨lo, hi, hlo, hhi, hle, g1, g2, g3, g4, g5⟩ :=
    int_stats asDbl m hm is his c0 hk hvt h1 h2 h3 h4
  have hdec : decide ((c0.gatherAll (is.map (fun i => [intWord asDbl i]))).hasMissing ≠ 0) = decide (m ∈ is) := by
    simp [g4]
  have hkv : (intKind (decide (m ∈ is)) (hi - lo)).hasVT = true := by
    unfold intKind; split <;> split <;> (try rfl) <;> split <;> (try rfl) <;> split <;> rfl
  obtain ⟨c, e1, e2, e3, e4, e5, e6, e7, e8, e9⟩ :=
    rebuild_int (intKind (decide (m ∈ is)) (hi - lo)) hkv ty hty asDbl m hm _ g1
  have hfc : fcast (-9223372036854775808) 9223372036854775807 (fsub (ofInt hi) (ofInt lo)) = .ok (hi - lo) := by
    rw [fsub_ofInt hi lo hhi.small hlo.small]
    have a := hhi.1; have b := hhi.2; have a' := hlo.1; have b' := hlo.2
    exact fcast_ofInt _ _ _ (by unfold Small; omega) (by omega) (by omega)
  refine ⟨c, ?_, ?_, e9, e4, ⟨lo, hi, hle, ?_, ?_, e2, g5⟩, ?_⟩
  · unfold chosenCodec
    rw [h0]
    unfold optimise
    rcases hty with h | h <;> subst h <;> simp only [g2, g3, hfc, hdec] <;> exact e1
  · constructor
    · rw [e7]; split <;> decide
    · rw [e8]; decide
    · rw [e8]; simp
    · intro _
      rw [e4, e2, vtOf_int _ hkv ty hty asDbl]
      exact ⟨_, toVT_ofInt asDbl m hm⟩
  · rw [e5, g2]
  · rw [e6, g3]
  · intro o i hii
    exact int_cell o ty hty asDbl m lo hi i hm hlo hhi (his i hii) hle (decide (m ∈ is))
      (by intro h; subst h; simpa using hii) (g5 i hii) c e2 e3 e4 (by rw [e5, g2])

end Verif
