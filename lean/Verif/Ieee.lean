import Verif.Bytes
import Mathlib.Tactic.Ring

/-
IEEE-754 binary64 / binary32 on bit patterns.

The C++ code of odc uses `double`/`float` comparison, conversion, addition and subtraction
(src/odc/core/Codec.cc l.100-112, src/odc/codec/*.h).  These are language/hardware primitives; this
file *defines* them (no axioms): a finite magnitude is a natural number of units of 2^-1074, results
are rounded to nearest, ties to even.
-/

namespace Verif

/-! ### Magnitudes -/

/-- Magnitude encoded by the exponent/mantissa bits `b` of a format with `p` explicit mantissa bits,
in units of the smallest subnormal. -/
def dec (p b : Nat) : Nat :=
  if b < 2 ^ p then b else (2 ^ p + b % 2 ^ p) * 2 ^ (b / 2 ^ p - 1)

/-- `n / 2^e` rounded to nearest, ties to even. -/
def rne (n e : Nat) : Nat :=
  if 2 * (n % 2 ^ e) > 2 ^ e ∨ (2 * (n % 2 ^ e) = 2 ^ e ∧ (n / 2 ^ e) % 2 = 1) then n / 2 ^ e + 1
  else n / 2 ^ e

/-- Exponent (power of two) of the last mantissa bit used for magnitude `n`, when the unit of the
target format is `2^k` source units. -/
def expo (p k n : Nat) : Nat := max k (n.log2 - p)

/-- Round magnitude `n` (source units) to the format with `p` mantissa bits whose unit is `2^k`
source units; the result is the exponent/mantissa bit pattern (overflow not yet treated). -/
def rnd (p k n : Nat) : Nat := (expo p k n - k) * 2 ^ p + rne n (expo p k n)

/-- Exponent/mantissa bits of infinity. -/
def inf64 : Nat := 0x7ff0000000000000

/-- IEEE: the pattern of +infinity, binary32. -/
def inf32 : Nat := 0x7f800000

/-! ### binary64 -/

/-- Exponent/mantissa bits. -/
def fmag (w : Word) : Nat := w.toNat % 2 ^ 63
/-- Sign bit. -/
def fneg (w : Word) : Bool := decide (2 ^ 63 ≤ w.toNat)

/-- IEEE: `std::isnan`, binary64. -/
def isNaN (w : Word) : Bool := decide (inf64 < fmag w)

/-- IEEE: `std::isfinite`, binary64. -/
def isFin (w : Word) : Bool := decide (fmag w < inf64)

/-- Order-preserving integer key of a non-NaN double (both zeros map to 0). -/
def fkey (w : Word) : Int := if fneg w then -(fmag w : Int) else fmag w

/-- C++ `a == b`. -/
def feq (a b : Word) : Bool := !isNaN a && !isNaN b && decide (fkey a = fkey b)
/-- C++ `a < b`. -/
def flt (a b : Word) : Bool := !isNaN a && !isNaN b && decide (fkey a < fkey b)

/-- Assemble sign and magnitude bits. -/
def mk64 (neg : Bool) (m : Nat) : Word := BitVec.ofNat 64 (if neg then 2 ^ 63 + m else m)

/-- Value of a finite double in units of 2^-1074. -/
def fval (w : Word) : Int := if fneg w then -(dec 52 (fmag w) : Int) else dec 52 (fmag w)

/-- Round a value in units of 2^-1074 to a double; `negZero` gives the sign of a zero result. -/
def ofVal (negZero : Bool) (v : Int) : Word :=
  if v = 0 then mk64 negZero 0
  else mk64 (decide (v < 0)) (min (rnd 52 0 v.natAbs) inf64)

/-- The unit: one is `2^1074` units of 2^-1074. -/
def one64 : Nat := 2 ^ 1074

/-- Conversion of an integer to double. -/
def ofInt (i : Int) : Word := ofVal false (i * one64)

/-- IEEE: the default quiet NaN, binary64. -/
def fnan : Word := 0x7ff8000000000000

/-- C++ `a + b` on doubles (the NaN payload is not modelled). -/
def fadd (a b : Word) : Word :=
  if isNaN a || isNaN b then fnan
  else if !isFin a then (if !isFin b && fneg a != fneg b then fnan else a)
  else if !isFin b then b
  else ofVal (fneg a && fneg b) (fval a + fval b)

/-- Sign change. -/
def fflip (a : Word) : Word := mk64 (!fneg a) (fmag a)

/-- C++ `a - b` on doubles. -/
def fsub (a b : Word) : Word := fadd a (fflip b)

/-- Truncation of a double towards zero; `none` for NaN and infinities. -/
def ftrunc (w : Word) : Option Int :=
  if isFin w then
    some (if fneg w then -((dec 52 (fmag w) / one64 : Nat) : Int) else ((dec 52 (fmag w) / one64 : Nat) : Int))
  else none

/-- Conversion of a double to an integer type with range `[lo, hi]`: undefined behaviour when the
truncated value is not representable. -/
def fcast (lo hi : Int) (w : Word) : Except Err Int :=
  match ftrunc w with
  | some i => if lo ≤ i ∧ i ≤ hi then .ok i else .error .ub
  | none => .error .ub

/-! ### binary32 -/

/-- IEEE: the pattern without sign, binary32. -/
def gmag (f : BitVec 32) : Nat := f.toNat % 2 ^ 31

/-- IEEE: the sign, binary32. -/
def gneg (f : BitVec 32) : Bool := decide (2 ^ 31 ≤ f.toNat)

/-- IEEE: `std::isnan`, binary32. -/
def gisNaN (f : BitVec 32) : Bool := decide (inf32 < gmag f)

/-- IEEE: `std::isfinite`, binary32. -/
def gisFin (f : BitVec 32) : Bool := decide (gmag f < inf32)

/-- IEEE: order-preserving key, binary32. -/
def gkey (f : BitVec 32) : Int := if gneg f then -(gmag f : Int) else gmag f
/-- C++ `a == b` on floats. -/
def geq (a b : BitVec 32) : Bool := !gisNaN a && !gisNaN b && decide (gkey a = gkey b)

/-- IEEE: pattern of a sign and the rest, binary32. -/
def mk32 (neg : Bool) (m : Nat) : BitVec 32 := BitVec.ofNat 32 (if neg then 2 ^ 31 + m else m)

/-- double → float conversion (round to nearest even, overflow to infinity, NaN quieted). -/
def narrow (w : Word) : BitVec 32 :=
  if isNaN w then mk32 (fneg w) (0x7fc00000 ||| (fmag w / 2 ^ 29) % 2 ^ 31)
  else if isFin w then mk32 (fneg w) (min (rnd 23 925 (dec 52 (fmag w))) inf32)
  else mk32 (fneg w) inf32

/-- float → double conversion (exact; NaN quieted). -/
def widen (f : BitVec 32) : Word :=
  if gisNaN f then mk64 (gneg f) (0x7ff8000000000000 ||| (gmag f % 2 ^ 23) * 2 ^ 29)
  else if gisFin f then mk64 (gneg f) (rnd 52 0 (dec 23 (gmag f) * 2 ^ 925))
  else mk64 (gneg f) inf64

/-! ### Lemmas on magnitudes -/

theorem dec_enc (p j q : Nat) (h1 : q ≤ 2 ^ (p + 1)) (h2 : j = 0 ∨ 2 ^ p ≤ q) :
    dec p (j * 2 ^ p + q) = q * 2 ^ j := by
  have hp : 0 < 2 ^ p := Nat.two_pow_pos p
  have hs : 2 ^ (p + 1) = 2 * 2 ^ p := by rw [Nat.pow_succ]; omega
  unfold dec
  by_cases hq : q < 2 ^ p
  · have hj : j = 0 := by rcases h2 with h | h <;> omega
    subst hj
    simp [hq]
  · have hlt : ¬ (j * 2 ^ p + q < 2 ^ p) := by
      have : 0 ≤ j * 2 ^ p := Nat.zero_le _
      omega
    rw [if_neg hlt]
    by_cases hc : q = 2 ^ (p + 1)
    · have e : j * 2 ^ p + q = (j + 2) * 2 ^ p := by rw [hc, hs]; ring
      rw [e, Nat.mul_mod_left, Nat.mul_div_cancel _ hp, hc, hs]
      have : j + 2 - 1 = j + 1 := by omega
      rw [this, Nat.pow_succ]; ring
    · have e : j * 2 ^ p + q = (q - 2 ^ p) + (j + 1) * 2 ^ p := by
        have : (j + 1) * 2 ^ p = j * 2 ^ p + 2 ^ p := by ring
        omega
      have hr : q - 2 ^ p < 2 ^ p := by omega
      rw [e, Nat.add_mul_mod_self_right, Nat.mod_eq_of_lt hr, Nat.add_mul_div_right _ _ hp,
        Nat.div_eq_of_lt hr]
      have h3 : 0 + (j + 1) - 1 = j := by omega
      have h4 : 2 ^ p + (q - 2 ^ p) = q := by omega
      rw [h3, h4]

/-- Every bit pattern has the form of `dec_enc`. -/
theorem dec_form (p b : Nat) : ∃ j q, b = j * 2 ^ p + q ∧ q < 2 ^ (p + 1) ∧ (j = 0 ∨ 2 ^ p ≤ q) := by
  have hp : 0 < 2 ^ p := Nat.two_pow_pos p
  have hs : 2 ^ (p + 1) = 2 * 2 ^ p := by rw [Nat.pow_succ]; omega
  by_cases h : b < 2 ^ p
  · exact ⟨0, b, by simp, by omega, Or.inl rfl⟩
  · have hd := Nat.div_add_mod b (2 ^ p)
    have hm := Nat.mod_lt b hp
    have h1 : 1 ≤ b / 2 ^ p := by
      rw [Nat.le_div_iff_mul_le hp]; omega
    refine ⟨b / 2 ^ p - 1, 2 ^ p + b % 2 ^ p, ?_, by omega, Or.inr (by omega)⟩
    have : 2 ^ p * (b / 2 ^ p) = (b / 2 ^ p - 1) * 2 ^ p + 2 ^ p := by
      obtain ⟨x, hx⟩ : ∃ x, b / 2 ^ p = x + 1 := ⟨b / 2 ^ p - 1, by omega⟩
      rw [hx]
      have : x + 1 - 1 = x := by omega
      rw [this]; ring
    omega

theorem dec_lt_succ (p b : Nat) : dec p b < dec p (b + 1) := by
  obtain ⟨j, q, hb, hq, hj⟩ := dec_form p b
  have e : b + 1 = j * 2 ^ p + (q + 1) := by omega
  rw [e, dec_enc p j (q + 1) (by omega) (by omega), hb, dec_enc p j q (by omega) hj]
  exact Nat.mul_lt_mul_of_pos_right (by omega) (Nat.two_pow_pos j)

theorem dec_lt {p a b : Nat} (h : a < b) : dec p a < dec p b := by
  induction b with
  | zero => omega
  | succ b ih =>
    by_cases hab : a = b
    · subst hab; exact dec_lt_succ p a
    · exact Nat.lt_trans (ih (by omega)) (dec_lt_succ p b)

theorem dec_lt_iff {p a b : Nat} : dec p a < dec p b ↔ a < b := by
  constructor
  · intro h
    rcases Nat.lt_trichotomy a b with h1 | h1 | h1
    · exact h1
    · subst h1; omega
    · have := dec_lt (p := p) h1; omega
  · exact dec_lt

theorem dec_inj {p a b : Nat} (h : dec p a = dec p b) : a = b := by
  rcases Nat.lt_trichotomy a b with h1 | h1 | h1
  · have := dec_lt (p := p) h1; omega
  · exact h1
  · have := dec_lt (p := p) h1; omega

theorem dec_zero (p : Nat) : dec p 0 = 0 := by simp [dec]

theorem rne_exact (q e : Nat) : rne (q * 2 ^ e) e = q := by
  have he : 0 < 2 ^ e := Nat.two_pow_pos e
  unfold rne
  rw [Nat.mul_mod_left, Nat.mul_div_cancel _ he, if_neg (by omega)]

/-- The quotient used by `rnd` fits in the mantissa. -/
theorem quot_lt (p k n : Nat) : n / 2 ^ expo p k n < 2 ^ (p + 1) := by
  rw [Nat.div_lt_iff_lt_mul (Nat.two_pow_pos _), ← Nat.pow_add]
  have h1 : n < 2 ^ (n.log2 + 1) := Nat.lt_log2_self
  refine Nat.lt_of_lt_of_le h1 (Nat.pow_le_pow_right (by omega) ?_)
  unfold expo; omega

theorem quot_ge (p k n : Nat) (h : k < expo p k n) : 2 ^ p ≤ n / 2 ^ expo p k n := by
  have he : expo p k n = n.log2 - p := by unfold expo at *; omega
  have hn : n ≠ 0 := by
    intro h0; subst h0; simp [expo] at h
  rw [Nat.le_div_iff_mul_le (Nat.two_pow_pos _), ← Nat.pow_add, he]
  have : p + (n.log2 - p) = n.log2 := by unfold expo at h; omega
  rw [this]
  exact Nat.log2_self_le hn

theorem expo_ge (p k n : Nat) : k ≤ expo p k n := by unfold expo; omega

theorem expo_cases (p k n : Nat) : expo p k n - k = 0 ∨ 2 ^ p ≤ n / 2 ^ expo p k n := by
  by_cases h : k < expo p k n
  · exact Or.inr (quot_ge p k n h)
  · exact Or.inl (by omega)

/-- Representable magnitudes are not changed by rounding. -/
theorem dec_rnd (p k n q e : Nat) (hn : n = q * 2 ^ e) (hq : q < 2 ^ (p + 1)) (hk : k ≤ e) :
    dec p (rnd p k n) * 2 ^ k = n := by
  have hle : expo p k n ≤ e := by
    by_cases h0 : n = 0
    · subst h0; simp [expo]; omega
    · have : n.log2 < p + 1 + e := by
        rw [Nat.log2_lt h0, hn, Nat.pow_add]
        exact Nat.mul_lt_mul_of_pos_right hq (Nat.two_pow_pos e)
      unfold expo; omega
  have hge := expo_ge p k n
  have hn' : n = (q * 2 ^ (e - expo p k n)) * 2 ^ expo p k n := by
    rw [Nat.mul_assoc, ← Nat.pow_add, hn]
    have : e - expo p k n + expo p k n = e := by omega
    rw [← hn, this]
    exact hn
  have hdiv : n / 2 ^ expo p k n = q * 2 ^ (e - expo p k n) := by
    conv => lhs; lhs; rw [hn']
    exact Nat.mul_div_cancel _ (Nat.two_pow_pos _)
  have hr : rne n (expo p k n) = n / 2 ^ expo p k n := by
    rw [hdiv]
    conv => lhs; arg 1; rw [hn']
    exact rne_exact _ _
  have h1 := quot_lt p k n
  have h2 := expo_cases p k n
  unfold rnd
  rw [hr, dec_enc p _ _ (by omega) h2, Nat.mul_assoc, ← Nat.pow_add]
  have : expo p k n - k + k = expo p k n := by omega
  rw [this, hdiv, ← hn']

/-- Rounding a value of the format gives it back. -/
theorem rnd_dec (p b : Nat) : rnd p 0 (dec p b) = b := by
  obtain ⟨j, q, hb, hq, hj⟩ := dec_form p b
  have h : dec p b = q * 2 ^ j := by rw [hb]; exact dec_enc p j q (by omega) hj
  have := dec_rnd p 0 (dec p b) q j h hq (by omega)
  simp only [Nat.pow_zero, Nat.mul_one] at this
  exact dec_inj this

/-- Generalisation to formats with unit `2^k`. -/
theorem rnd_dec' (p k b : Nat) : rnd p k (dec p b * 2 ^ k) = b := by
  obtain ⟨j, q, hb, hq, hj⟩ := dec_form p b
  have h : dec p b * 2 ^ k = q * 2 ^ (j + k) := by
    rw [hb, dec_enc p j q (by omega) hj, Nat.pow_add]; ring
  have := dec_rnd p k (dec p b * 2 ^ k) q (j + k) h hq (by omega)
  exact dec_inj (Nat.eq_of_mul_eq_mul_right (Nat.two_pow_pos k) this)

/-- **Specification of rounding**: no other bit pattern of the target format is nearer. -/
theorem rnd_nearest (p k n b : Nat) :
    ((dec p (rnd p k n) * 2 ^ k : Nat) - (n : Int)).natAbs ≤ ((dec p b * 2 ^ k : Nat) - (n : Int)).natAbs := by
  have hge := expo_ge p k n
  have h1 := quot_lt p k n
  have h2 := expo_cases p k n
  have hE : 0 < 2 ^ expo p k n := Nat.two_pow_pos _
  have hda := Nat.div_add_mod n (2 ^ expo p k n)
  have hmod := Nat.mod_lt n hE
  -- lower neighbour
  have lo : dec p ((expo p k n - k) * 2 ^ p + n / 2 ^ expo p k n) * 2 ^ k
      = n / 2 ^ expo p k n * 2 ^ expo p k n := by
    rw [dec_enc p _ _ (by omega) h2, Nat.mul_assoc, ← Nat.pow_add, Nat.sub_add_cancel hge]
  have hi : dec p ((expo p k n - k) * 2 ^ p + (n / 2 ^ expo p k n + 1)) * 2 ^ k
      = (n / 2 ^ expo p k n + 1) * 2 ^ expo p k n := by
    rw [dec_enc p _ _ (by omega) (by omega), Nat.mul_assoc, ← Nat.pow_add, Nat.sub_add_cancel hge]
  rw [Nat.mul_comm] at hda
  rw [Nat.add_mul, Nat.one_mul] at hi
  generalize hQ : n / 2 ^ expo p k n * 2 ^ expo p k n = Q at *
  generalize hD : 2 ^ expo p k n = D at *
  generalize hR : n % D = R at *
  -- position of b
  have hb : dec p b * 2 ^ k ≤ Q ∨ Q + D ≤ dec p b * 2 ^ k := by
    rcases Nat.lt_or_ge ((expo p k n - k) * 2 ^ p + n / D) b with h | h
    · right
      rw [← hi]
      apply Nat.mul_le_mul_right
      rcases Nat.lt_or_ge ((expo p k n - k) * 2 ^ p + (n / D + 1)) b with h' | h'
      · exact Nat.le_of_lt (dec_lt h')
      · have : b = (expo p k n - k) * 2 ^ p + (n / D + 1) := by omega
        rw [this]
    · left
      rw [← lo]
      apply Nat.mul_le_mul_right
      rcases Nat.lt_or_ge b ((expo p k n - k) * 2 ^ p + n / D) with h' | h'
      · exact Nat.le_of_lt (dec_lt h')
      · have : b = (expo p k n - k) * 2 ^ p + n / D := by omega
        rw [this]
  unfold rnd rne
  simp only [hD, hR]
  split
  · rw [hi]; omega
  · rw [lo]; omega

/-! ### Assembling doubles -/

theorem mk64_toNat (neg : Bool) (m : Nat) (h : m < 2 ^ 63) :
    (mk64 neg m).toNat = if neg then 2 ^ 63 + m else m := by
  unfold mk64
  rw [BitVec.toNat_ofNat]
  cases neg <;> simp <;> omega

@[simp] theorem fmag_mk64 (neg : Bool) (m : Nat) (h : m < 2 ^ 63) : fmag (mk64 neg m) = m := by
  unfold fmag; rw [mk64_toNat neg m h]
  cases neg
  · exact Nat.mod_eq_of_lt h
  · simp only [if_true]; omega

@[simp] theorem fneg_mk64 (neg : Bool) (m : Nat) (h : m < 2 ^ 63) : fneg (mk64 neg m) = neg := by
  unfold fneg; rw [mk64_toNat neg m h]
  cases neg
  · simp only [Bool.false_eq_true, if_false, decide_eq_false_iff_not]; omega
  · simp only [if_true, decide_eq_true_eq]; omega

theorem fmag_lt (w : Word) : fmag w < 2 ^ 63 := Nat.mod_lt _ (by omega)

@[simp] theorem mk64_eta (w : Word) : mk64 (fneg w) (fmag w) = w := by
  apply BitVec.eq_of_toNat_eq
  rw [mk64_toNat _ _ (fmag_lt w)]
  have := w.isLt
  unfold fneg fmag
  split <;> rename_i h <;> simp at h <;> omega

theorem isFin_not_nan {w : Word} (h : isFin w = true) : isNaN w = false := by
  unfold isFin isNaN at *; simp at *; omega

theorem word_ext {a b : Word} (h1 : fneg a = fneg b) (h2 : fmag a = fmag b) : a = b := by
  rw [← mk64_eta a, ← mk64_eta b, h1, h2]

/-- Equal, non-NaN and not opposite zeros: identical patterns. -/
theorem eq_of_fkey {a b : Word} (h : fkey a = fkey b) (hz : fmag a = 0 → fneg a = fneg b) : a = b := by
  unfold fkey at h
  apply word_ext
  · cases ha : fneg a <;> cases hb : fneg b <;> simp_all <;> omega
  · cases ha : fneg a <;> cases hb : fneg b <;> simp_all <;> omega

/-! ### Small integers are exact -/

/-- Integers up to 2^53 in magnitude. -/
def Small (i : Int) : Prop := -9007199254740992 ≤ i ∧ i ≤ 9007199254740992

theorem one64_pos : 0 < one64 := Nat.two_pow_pos _

theorem dec52_inf : dec 52 inf64 = 2 ^ 52 * 2 ^ 2046 := by
  have h : inf64 = 2046 * 2 ^ 52 + 2 ^ 52 := by decide
  rw [h, dec_enc 52 2046 (2 ^ 52) (by decide) (Or.inr (by decide))]

theorem small_nat (n : Nat) (h : n ≤ 9007199254740992) :
    dec 52 (rnd 52 0 (n * one64)) = n * one64 ∧ rnd 52 0 (n * one64) < inf64 := by
  have key : dec 52 (rnd 52 0 (n * one64)) = n * one64 := by
    by_cases hlt : n < 2 ^ 53
    · have := dec_rnd 52 0 (n * one64) n 1074 rfl hlt (by omega)
      simpa using this
    · have hn : n = 2 ^ 53 := by omega
      have := dec_rnd 52 0 (n * one64) 1 (53 + 1074) (by rw [hn, Nat.pow_add]; simp [one64]) (by decide) (by omega)
      simpa using this
  refine ⟨key, ?_⟩
  rw [← dec_lt_iff (p := 52), key, dec52_inf]
  have h1 : n * one64 ≤ 2 ^ 53 * one64 := Nat.mul_le_mul_right _ (by omega)
  have h2 : 2 ^ 53 * one64 = 2 ^ (53 + 1074) := by
    unfold one64; rw [Nat.pow_add]
  have h3 : 2 ^ 52 * 2 ^ 2046 = 2 ^ (52 + 2046) := by
    rw [Nat.pow_add]
  have h4 : 2 ^ (53 + 1074) < 2 ^ (52 + 2046) :=
    (Nat.pow_lt_pow_iff_right (a := 2) (by omega)).mpr (by omega)
  rw [h3]
  rw [h2] at h1
  exact Nat.lt_of_le_of_lt h1 h4

theorem inf64_lt : inf64 < 2 ^ 63 := by decide

theorem one64_ne : (one64 : Int) ≠ 0 := by have := one64_pos; omega

theorem mul_one64_eq_zero {i : Int} : i * (one64 : Int) = 0 ↔ i = 0 := by
  constructor
  · intro h; rcases Int.mul_eq_zero.mp h with h | h
    · exact h
    · exact absurd h one64_ne
  · intro h; simp [h]

theorem mul_one64_neg {i : Int} : i * (one64 : Int) < 0 ↔ i < 0 := by
  have := one64_pos
  constructor
  · intro h
    rcases Int.lt_or_le i 0 with h1 | h1
    · exact h1
    · have := Int.mul_nonneg h1 (Int.natCast_nonneg one64); omega
  · intro h
    exact Int.mul_neg_of_neg_of_pos h (by omega)

theorem ofInt_spec (i : Int) (h : Small i) :
    fneg (ofInt i) = decide (i < 0) ∧ dec 52 (fmag (ofInt i)) = i.natAbs * one64 ∧
    fmag (ofInt i) < inf64 := by
  obtain ⟨h1, h2⟩ := h
  unfold ofInt ofVal
  by_cases h0 : i = 0
  · subst h0
    refine ⟨?_, ?_, ?_⟩ <;> simp [dec_zero] 
    decide
  · have hne : i * (one64 : Int) ≠ 0 := fun h => h0 (mul_one64_eq_zero.mp h)
    rw [if_neg hne]
    have hs := small_nat i.natAbs (by omega)
    have e : (i * (one64 : Int)).natAbs = i.natAbs * one64 := by
      rw [Int.natAbs_mul]; simp
    rw [e]
    have hi := inf64_lt
    have hm : min (rnd 52 0 (i.natAbs * one64)) inf64 = rnd 52 0 (i.natAbs * one64) :=
      Nat.min_eq_left (Nat.le_of_lt hs.2)
    have hlt : rnd 52 0 (i.natAbs * one64) < 2 ^ 63 := Nat.lt_trans hs.2 hi
    rw [hm, fneg_mk64 _ _ hlt, fmag_mk64 _ _ hlt]
    refine ⟨?_, hs.1, hs.2⟩
    simp [mul_one64_neg]

theorem ofInt_fin (i : Int) (h : Small i) : isFin (ofInt i) = true := by
  simp [isFin, (ofInt_spec i h).2.2]

theorem ofInt_nan (i : Int) (h : Small i) : isNaN (ofInt i) = false := isFin_not_nan (ofInt_fin i h)

theorem fval_ofInt (i : Int) (h : Small i) : fval (ofInt i) = i * one64 := by
  obtain ⟨h1, h2, _⟩ := ofInt_spec i h
  unfold fval
  rw [h1, h2]
  by_cases hi : i < 0
  · simp [hi]
    have : (i.natAbs : Int) = -i := by omega
    rw [this]
    ring
  · have : (i.natAbs : Int) = i := by omega
    simp only [hi, decide_false, Bool.false_eq_true, if_false]
    rw [Int.natCast_mul, this]

theorem fkey_lt_iff_fval (a b : Word) : fkey a < fkey b ↔ fval a < fval b := by
  have z : ∀ w, fmag w = 0 ↔ dec 52 (fmag w) = 0 := by
    intro w
    constructor
    · intro h; rw [h]; exact dec_zero _
    · intro h; exact dec_inj (p := 52) (by rw [h, dec_zero])
  have za := z a
  have zb := z b
  have l1 := dec_lt_iff (p := 52) (a := fmag a) (b := fmag b)
  have l2 := dec_lt_iff (p := 52) (a := fmag b) (b := fmag a)
  unfold fkey fval
  generalize dec 52 (fmag a) = A at *
  generalize dec 52 (fmag b) = B at *
  cases fneg a <;> cases fneg b <;> simp <;> omega

theorem fkey_eq_iff_fval (a b : Word) : fkey a = fkey b ↔ fval a = fval b := by
  have h1 := fkey_lt_iff_fval a b
  have h2 := fkey_lt_iff_fval b a
  omega

theorem mul_one64_lt {i j : Int} : i * (one64 : Int) < j * (one64 : Int) ↔ i < j := by
  have : (0 : Int) < one64 := by have := one64_pos; omega
  exact Int.mul_lt_mul_right this

theorem fkey_ofInt_lt (i j : Int) (hi : Small i) (hj : Small j) :
    fkey (ofInt i) < fkey (ofInt j) ↔ i < j := by
  rw [fkey_lt_iff_fval, fval_ofInt i hi, fval_ofInt j hj, mul_one64_lt]

theorem fkey_ofInt_eq (i j : Int) (hi : Small i) (hj : Small j) :
    fkey (ofInt i) = fkey (ofInt j) ↔ i = j := by
  have h1 := fkey_ofInt_lt i j hi hj
  have h2 := fkey_ofInt_lt j i hj hi
  omega

theorem feq_ofInt (i j : Int) (hi : Small i) (hj : Small j) :
    feq (ofInt i) (ofInt j) = decide (i = j) := by
  simp [feq, ofInt_nan i hi, ofInt_nan j hj, fkey_ofInt_eq i j hi hj]

theorem flt_ofInt (i j : Int) (hi : Small i) (hj : Small j) :
    flt (ofInt i) (ofInt j) = decide (i < j) := by
  simp [flt, ofInt_nan i hi, ofInt_nan j hj, fkey_ofInt_lt i j hi hj]

theorem ofInt_inj (i j : Int) (hi : Small i) (hj : Small j) (h : ofInt i = ofInt j) : i = j := by
  rw [← fkey_ofInt_eq i j hi hj, h]

theorem ftrunc_ofInt (i : Int) (h : Small i) : ftrunc (ofInt i) = some i := by
  obtain ⟨h1, h2, h3⟩ := ofInt_spec i h
  unfold ftrunc
  rw [ofInt_fin i h, h1, h2, Nat.mul_div_cancel _ one64_pos]
  simp only [if_true]
  by_cases hi : i < 0
  · simp [hi]; omega
  · simp [hi]; omega

theorem fcast_ofInt (lo hi i : Int) (h : Small i) (h1 : lo ≤ i) (h2 : i ≤ hi) :
    fcast lo hi (ofInt i) = .ok i := by
  simp [fcast, ftrunc_ofInt i h, h1, h2]

theorem fval_fflip (a : Word) : fval (fflip a) = -fval a := by
  unfold fflip fval
  rw [fneg_mk64 _ _ (fmag_lt a), fmag_mk64 _ _ (fmag_lt a)]
  cases fneg a <;> simp

theorem isFin_fflip (a : Word) : isFin (fflip a) = isFin a := by
  unfold isFin fflip; rw [fmag_mk64 _ _ (fmag_lt a)]

theorem isNaN_fflip (a : Word) : isNaN (fflip a) = isNaN a := by
  unfold isNaN fflip; rw [fmag_mk64 _ _ (fmag_lt a)]

theorem fneg_fflip (a : Word) : fneg (fflip a) = !fneg a := by
  unfold fflip; rw [fneg_mk64 _ _ (fmag_lt a)]

theorem fadd_fin (a b : Word) (ha : isFin a = true) (hb : isFin b = true) :
    fadd a b = ofVal (fneg a && fneg b) (fval a + fval b) := by
  simp [fadd, isFin_not_nan ha, isFin_not_nan hb, ha, hb]

theorem fadd_ofInt (i j : Int) (hi : Small i) (hj : Small j) :
    fadd (ofInt i) (ofInt j) = ofInt (i + j) := by
  rw [fadd_fin _ _ (ofInt_fin i hi) (ofInt_fin j hj), fval_ofInt i hi, fval_ofInt j hj,
    (ofInt_spec i hi).1, (ofInt_spec j hj).1]
  unfold ofInt
  have e : i * (one64 : Int) + j * one64 = (i + j) * one64 := by ring
  rw [e]
  unfold ofVal
  by_cases h0 : (i + j) * (one64 : Int) = 0
  · rw [if_pos h0, if_pos h0]
    have := mul_one64_eq_zero.mp h0
    congr 1
    simp; omega
  · rw [if_neg h0, if_neg h0]

theorem fsub_ofInt (i j : Int) (hi : Small i) (hj : Small j) :
    fsub (ofInt i) (ofInt j) = ofInt (i - j) := by
  unfold fsub
  rw [fadd_fin _ _ (ofInt_fin i hi) (by rw [isFin_fflip]; exact ofInt_fin j hj), fval_fflip,
    fval_ofInt i hi, fval_ofInt j hj, fneg_fflip, (ofInt_spec i hi).1, (ofInt_spec j hj).1]
  unfold ofInt
  have e : i * (one64 : Int) + -(j * one64) = (i - j) * one64 := by ring
  rw [e]
  unfold ofVal
  by_cases h0 : (i - j) * (one64 : Int) = 0
  · rw [if_pos h0, if_pos h0]
    have := mul_one64_eq_zero.mp h0
    congr 1
    simp; omega
  · rw [if_neg h0, if_neg h0]

/-! ### Tests of the definitions against known patterns -/
example : ofInt 1 = 0x3ff0000000000000 := by decide +kernel
example : ofInt (-2147483647) = 0xc1dfffffffc00000 := by decide +kernel
example : ofInt 2147483647 = 0x41dfffffffc00000 := by decide +kernel
example : ofInt 9007199254740993 = ofInt 9007199254740992 := by decide +kernel
example : narrow 0x3fb999999999999a = 0x3dcccccd := by decide +kernel   -- (float)0.1
example : widen 0x3dcccccd = 0x3fb99999a0000000 := by decide +kernel
example : fsub 0x3ff0000000000000 0x3fe0000000000000 = 0x3fe0000000000000 := by decide +kernel -- 1-0.5
example : narrow 0x7fefffffffffffff = 0x7f800000 := by decide +kernel -- DBL_MAX -> inf

end Verif
