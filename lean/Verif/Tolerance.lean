import Verif.Ieee

/-
Comparison of numbers up to a tolerance: `Comparator::err`, `Comparator::same`.

Models: src/odc/Comparator.h l.31-32, 76-88.  Division of doubles is defined here, like the other operations in
`Ieee`: the exact quotient rounded to nearest, ties to even.
-/

namespace Verif

/-- `fabs`. -/
def fabs (a : Word) : Word := mk64 false (fmag a)

/-- Bits of `A / B` for magnitudes in units of 2^-1074, `B` not zero: two further bits and a sticky bit are kept before
rounding, so the rounding is that of the exact quotient. -/
def divBits (A B : Nat) : Nat :=
  rnd 52 2 (2 * (A * 2 ^ 1075 / B) + if A * 2 ^ 1075 % B = 0 then 0 else 1)

/-- C++ `a / b` on doubles (the NaN payload is not modelled). -/
def fdiv (a b : Word) : Word :=
  if isNaN a || isNaN b then fnan
  else
    let s := fneg a != fneg b
    if !isFin a then (if !isFin b then fnan else mk64 s inf64)
    else if !isFin b then mk64 s 0
    else if fmag b = 0 then (if fmag a = 0 then fnan else mk64 s inf64)
    else mk64 s (min (divBits (dec 52 (fmag a)) (dec 52 (fmag b))) inf64)

-- Tests against known patterns.
example : fdiv 0x3ff0000000000000 0x4008000000000000 = 0x3fd5555555555555 := by decide +kernel   -- 1/3
example : fdiv 0x4000000000000000 0x4008000000000000 = 0x3fe5555555555555 := by decide +kernel   -- 2/3
example : fdiv 0x3ff0000000000000 0x4024000000000000 = 0x3fb999999999999a := by decide +kernel   -- 1/10
example : fdiv 0xc008000000000000 0x4000000000000000 = 0xbff8000000000000 := by decide +kernel   -- -3/2
example : fdiv 0x0000000000000001 0x4000000000000000 = 0 := by decide +kernel                    -- least subnormal / 2
example : fdiv 0x0000000000000003 0x4000000000000000 = 0x0000000000000002 := by decide +kernel
example : fdiv 0x7fefffffffffffff 0x3fe0000000000000 = 0x7ff0000000000000 := by decide +kernel   -- DBL_MAX / 0.5

/-- `maxAbsoluteError` and `maxRelativeError`, Comparator.h l.33-34: the double nearest to 10^-9. -/
def tolerance : Word := 0x3e112e0be826d695

/-- `a <= b` on doubles. [Tolerance checks of Comparator.cc] -/
def fle (a b : Word) : Bool := !isNaN a && !isNaN b && decide (fkey a ≤ fkey b)

/-- `Comparator::err`, Comparator.h l.68-78. -/
def cmpErr (A B : Word) : Word :=
  if fle (fabs A) tolerance || fle (fabs B) tolerance then fabs (fsub A B)
  else if flt (fabs A) (fabs B) then fabs (fdiv (fsub A B) B)
  else fabs (fdiv (fsub A B) A)

/-- `Comparator::same`, Comparator.h l.80. -/
def same (A B : Word) : Bool := flt (cmpErr A B) tolerance

/-! ### Rounding -/

theorem dec_le {p a b : Nat} (h : a ≤ b) : dec p a ≤ dec p b := by
  rcases Nat.lt_or_eq_of_le h with h | h
  · exact Nat.le_of_lt (dec_lt h)
  · rw [h]

/-- A value at least a representable one is not rounded below it. -/
theorem rnd_ge {p k n b : Nat} (h : dec p b * 2 ^ k ≤ n) : b ≤ rnd p k n := by
  by_contra hlt
  have h1 : dec p (rnd p k n) < dec p b := dec_lt (by omega)
  have h2 : dec p (rnd p k n) * 2 ^ k < dec p b * 2 ^ k := Nat.mul_lt_mul_of_pos_right h1 (Nat.two_pow_pos k)
  have h3 := rnd_nearest p k n b
  omega

/-- A value at most a representable one is not rounded above it. -/
theorem rnd_le {p k n b : Nat} (h : n ≤ dec p b * 2 ^ k) : rnd p k n ≤ b := by
  by_contra hlt
  have h1 : dec p b < dec p (rnd p k n) := dec_lt (by omega)
  have h2 : dec p b * 2 ^ k < dec p (rnd p k n) * 2 ^ k := Nat.mul_lt_mul_of_pos_right h1 (Nat.two_pow_pos k)
  have h3 := rnd_nearest p k n b
  omega

/-- The relative error of rounding an integer number of units. -/
theorem rnd_close (p n : Nat) : ((dec p (rnd p 0 n) : Int) - n).natAbs * 2 ^ p ≤ n := by
  have hd := Nat.div_add_mod n (2 ^ expo p 0 n)
  have hm := Nat.mod_lt n (Nat.two_pow_pos (expo p 0 n))
  have h1 := quot_lt p 0 n
  have h2 := expo_cases p 0 n
  have lo : dec p ((expo p 0 n - 0) * 2 ^ p + n / 2 ^ expo p 0 n) = n / 2 ^ expo p 0 n * 2 ^ expo p 0 n := by
    rw [dec_enc p _ _ (by omega) h2, Nat.sub_zero]
  have hn := rnd_nearest p 0 n ((expo p 0 n - 0) * 2 ^ p + n / 2 ^ expo p 0 n)
  rw [lo] at hn
  simp only [Nat.pow_zero, Nat.mul_one] at hn
  rw [Nat.mul_comm] at hd
  have hb : ((dec p (rnd p 0 n) : Int) - n).natAbs ≤ n % 2 ^ expo p 0 n := by omega
  refine Nat.le_trans (Nat.mul_le_mul_right _ hb) ?_
  rcases h2 with h2 | h2
  · have : expo p 0 n = 0 := by omega
    rw [this]; simp [Nat.mod_one]
  · calc n % 2 ^ expo p 0 n * 2 ^ p ≤ 2 ^ expo p 0 n * (n / 2 ^ expo p 0 n) := Nat.mul_le_mul (Nat.le_of_lt hm) h2
      _ = n / 2 ^ expo p 0 n * 2 ^ expo p 0 n := Nat.mul_comm _ _
      _ ≤ n := by omega

theorem close_lower {D n P : Nat} (h : ((D : Int) - n).natAbs * P ≤ n) : n * (P - 1) ≤ P * D := by
  have h1 : n ≤ D + ((D : Int) - n).natAbs := by omega
  generalize ((D : Int) - n).natAbs = x at *
  have h2 : n * P ≤ (D + x) * P := Nat.mul_le_mul_right _ h1
  rw [Nat.add_mul] at h2
  rw [Nat.mul_sub, Nat.mul_one, Nat.mul_comm P D]
  omega

theorem close_upper {D n P : Nat} (h : ((D : Int) - n).natAbs * P ≤ n) : P * D ≤ n * (P + 1) := by
  have h1 : D ≤ n + ((D : Int) - n).natAbs := by omega
  generalize ((D : Int) - n).natAbs = x at *
  have h2 : D * P ≤ (n + x) * P := Nat.mul_le_mul_right _ h1
  rw [Nat.add_mul] at h2
  rw [Nat.mul_add, Nat.mul_one, Nat.mul_comm P D]
  omega

/-! ### The tolerance -/

/-- The tolerance in units of 2^-1074. -/
def tolUnits : Nat := dec 52 (fmag tolerance)

theorem tol_fin : fmag tolerance < inf64 ∧ fneg tolerance = false := by decide +kernel

/-- Slightly more than 10^-9 ... -/
theorem tol_upper : 2 ^ 52 * tolUnits * 999999999 ≤ (2 ^ 52 - 1) * one64 := by decide +kernel
/-- ... and slightly less. -/
theorem tol_lower : (2 ^ 52 + 1) * one64 < 2 ^ 52 * dec 52 (fmag tolerance - 1) * 1000000001 := by decide +kernel

theorem flt_fabs {a : Word} : flt (fabs a) tolerance = true ↔ fmag a < fmag tolerance := by
  have ht := tol_fin
  have hf : fmag (fabs a) = fmag a := fmag_mk64 _ _ (fmag_lt a)
  have hs : fneg (fabs a) = false := fneg_mk64 _ _ (fmag_lt a)
  have hnt : isNaN tolerance = false := by decide +kernel
  unfold flt
  rw [hnt]
  unfold fkey
  rw [hs, ht.2, hf]
  simp only [Bool.not_false, Bool.and_true, Bool.false_eq_true, if_false, Bool.and_eq_true, Bool.not_eq_true', decide_eq_true_eq]
  constructor
  · rintro ⟨_, h⟩; omega
  · intro h
    refine ⟨?_, by omega⟩
    unfold isNaN
    rw [hf]
    simp only [decide_eq_false_iff_not]; omega

theorem fle_fabs {a : Word} : fle (fabs a) tolerance = true ↔ fmag a ≤ fmag tolerance := by
  have ht := tol_fin
  have hf : fmag (fabs a) = fmag a := fmag_mk64 _ _ (fmag_lt a)
  have hs : fneg (fabs a) = false := fneg_mk64 _ _ (fmag_lt a)
  have hnt : isNaN tolerance = false := by decide +kernel
  unfold fle
  rw [hnt]
  unfold fkey
  rw [hs, ht.2, hf]
  simp only [Bool.not_false, Bool.and_true, Bool.false_eq_true, if_false, Bool.and_eq_true, Bool.not_eq_true', decide_eq_true_eq]
  constructor
  · rintro ⟨_, h⟩; omega
  · intro h
    refine ⟨?_, by omega⟩
    unfold isNaN
    rw [hf]
    simp only [decide_eq_false_iff_not]; omega

/-- The difference of two finite doubles. -/
theorem fmag_fsub {a b : Word} (ha : isFin a = true) (hb : isFin b = true) :
    fmag (fsub a b) = min (rnd 52 0 (fval a - fval b).natAbs) inf64 := by
  have hi := inf64_lt
  unfold fsub
  rw [fadd_fin _ _ ha (by rw [isFin_fflip]; exact hb), fval_fflip, ← Int.sub_eq_add_neg]
  unfold ofVal
  by_cases h0 : fval a - fval b = 0
  · rw [if_pos h0, fmag_mk64 _ _ (by omega), h0]
    have : rnd 52 0 (0 : Int).natAbs = 0 := by decide
    rw [this]; rfl
  · rw [if_neg h0, fmag_mk64 _ _ (by omega)]

/-- The quotient of finite doubles is below the tolerance when the exact quotient is. -/
theorem divBits_lt {A B : Nat} (hB : 0 < B) (h : divBits A B < fmag tolerance) : A * one64 < tolUnits * B := by
  by_contra hge
  have hge : tolUnits * B ≤ A * one64 := by omega
  have h1 : tolUnits * 2 ≤ A * 2 ^ 1075 / B := by
    rw [Nat.le_div_iff_mul_le hB]
    have : A * 2 ^ 1075 = 2 * (A * one64) := by unfold one64; rw [Nat.pow_succ]; ring
    rw [this]
    calc tolUnits * 2 * B = 2 * (tolUnits * B) := by ring
      _ ≤ 2 * (A * one64) := Nat.mul_le_mul_left _ hge
  have h2 : fmag tolerance ≤ divBits A B := by
    apply rnd_ge
    have : (2 : Nat) ^ 2 = 4 := by decide
    rw [this]
    unfold tolUnits at h1
    omega
  omega

theorem divBits_ge {A B : Nat} (hB : 0 < B) (h : fmag tolerance ≤ divBits A B) :
    dec 52 (fmag tolerance - 1) * B ≤ A * one64 := by
  by_contra hlt
  have hlt : A * one64 < dec 52 (fmag tolerance - 1) * B := by omega
  have e : A * 2 ^ 1075 = 2 * (A * one64) := by unfold one64; rw [Nat.pow_succ]; ring
  have h1 : A * 2 ^ 1075 / B < 2 * dec 52 (fmag tolerance - 1) := by
    rw [Nat.div_lt_iff_lt_mul hB, e]
    calc 2 * (A * one64) < 2 * (dec 52 (fmag tolerance - 1) * B) := by omega
      _ = 2 * dec 52 (fmag tolerance - 1) * B := by ring
  have h2 : divBits A B ≤ fmag tolerance - 1 := by
    apply rnd_le
    have : (2 : Nat) ^ 2 = 4 := by decide
    rw [this]
    split <;> omega
  have : 0 < fmag tolerance := by decide +kernel
  omega

theorem fmag_fabs (a : Word) : fmag (fabs a) = fmag a := fmag_mk64 _ _ (fmag_lt a)

theorem flt_fabs2 {a b : Word} (ha : isFin a = true) (hb : isFin b = true) :
    flt (fabs a) (fabs b) = true ↔ fmag a < fmag b := by
  have hsa : fneg (fabs a) = false := fneg_mk64 _ _ (fmag_lt a)
  have hsb : fneg (fabs b) = false := fneg_mk64 _ _ (fmag_lt b)
  have hna : isNaN (fabs a) = false := by have := isFin_not_nan ha; unfold isNaN at this ⊢; rw [fmag_fabs]; exact this
  have hnb : isNaN (fabs b) = false := by have := isFin_not_nan hb; unfold isNaN at this ⊢; rw [fmag_fabs]; exact this
  unfold flt
  rw [hna, hnb]
  unfold fkey
  rw [hsa, hsb, fmag_fabs, fmag_fabs]
  simp

theorem fmag_fdiv {a b : Word} (ha : isFin a = true) (hb : isFin b = true) (h0 : fmag b ≠ 0) :
    fmag (fdiv a b) = min (divBits (dec 52 (fmag a)) (dec 52 (fmag b))) inf64 := by
  have hi := inf64_lt
  unfold fdiv
  rw [isFin_not_nan ha, isFin_not_nan hb, ha, hb]
  simp only [Bool.or_self, Bool.false_eq_true, if_false, Bool.not_true, if_neg h0]
  rw [fmag_mk64 _ _ (by omega)]

theorem fmag_fdiv_inf {a b : Word} (ha : fmag a = inf64) (hb : isFin b = true) : fmag (fdiv a b) = inf64 := by
  have hi := inf64_lt
  have hna : isNaN a = false := by unfold isNaN; simp [ha]
  have hfa : isFin a = false := by unfold isFin; simp [ha]
  unfold fdiv
  rw [hna, isFin_not_nan hb, hfa, hb]
  simp only [Bool.or_self, Bool.false_eq_true, if_false, Bool.not_false, if_true, Bool.not_true]
  rw [fmag_mk64 _ _ hi]

/-- Both numbers are used with their magnitude in units of 2^-1074. -/
def magnitude (a : Word) : Nat := (fval a).natAbs

theorem magnitude_eq (a : Word) : magnitude a = dec 52 (fmag a) := by
  unfold magnitude fval; split <;> omega

/-- At most 10^-9 in magnitude. -/
def Tiny (a : Word) : Prop := fmag a ≤ fmag tolerance

instance (a : Word) : Decidable (Tiny a) := by unfold Tiny; infer_instance

/-- The reference against which a difference is measured: one (absolute) if one of the numbers is tiny, the larger
magnitude otherwise. -/
def scale (A B : Word) : Nat := if Tiny A ∨ Tiny B then one64 else max (magnitude A) (magnitude B)

/-- `same` in terms of bit patterns. -/
theorem same_bits {A B : Word} (hA : isFin A = true) (hB : isFin B = true) :
    same A B = true ↔ (if Tiny A ∨ Tiny B then rnd 52 0 (fval A - fval B).natAbs < fmag tolerance
      else rnd 52 0 (fval A - fval B).natAbs < inf64 ∧
        divBits (dec 52 (rnd 52 0 (fval A - fval B).natAbs)) (max (magnitude A) (magnitude B)) < fmag tolerance) := by
  have htl := tol_fin.1
  have hsub := fmag_fsub hA hB
  unfold same cmpErr
  have htiny : (fle (fabs A) tolerance || fle (fabs B) tolerance) = true ↔ (Tiny A ∨ Tiny B) := by
    rw [Bool.or_eq_true, fle_fabs, fle_fabs]; rfl
  by_cases ht : Tiny A ∨ Tiny B
  · rw [if_pos (htiny.mpr ht), if_pos ht, flt_fabs, hsub]; omega
  · rw [if_neg (fun h => ht (htiny.mp h)), if_neg ht]
    have hA0 : fmag tolerance < fmag A := by unfold Tiny at ht; omega
    have hB0 : fmag tolerance < fmag B := by unfold Tiny at ht; omega
    -- dividing by a number of magnitude bits `x`
    have key : ∀ X : Word, isFin X = true → fmag tolerance < fmag X → max (magnitude A) (magnitude B) = dec 52 (fmag X) →
        (flt (fabs (fdiv (fsub A B) X)) tolerance = true ↔ rnd 52 0 (fval A - fval B).natAbs < inf64 ∧
          divBits (dec 52 (rnd 52 0 (fval A - fval B).natAbs)) (max (magnitude A) (magnitude B)) < fmag tolerance) := by
      intro X hX hX0 hm
      rw [flt_fabs, hm]
      by_cases hinf : rnd 52 0 (fval A - fval B).natAbs < inf64
      · rw [Nat.min_eq_left (by omega)] at hsub
        have hfin : isFin (fsub A B) = true := by unfold isFin; rw [hsub]; simpa using hinf
        rw [fmag_fdiv hfin hX (by omega), hsub]
        omega
      · rw [Nat.min_eq_right (by omega)] at hsub
        rw [fmag_fdiv_inf hsub hX]
        omega
    by_cases hlt : flt (fabs A) (fabs B) = true
    · rw [if_pos hlt]
      rw [flt_fabs2 hA hB] at hlt
      apply key B hB hB0
      rw [magnitude_eq, magnitude_eq]
      exact Nat.max_eq_right (dec_le (by omega))
    · rw [if_neg hlt]
      rw [flt_fabs2 hA hB] at hlt
      apply key A hA hA0
      rw [magnitude_eq, magnitude_eq]
      exact Nat.max_eq_left (dec_le (by omega))

theorem magnitude_pos {A : Word} (h : ¬ Tiny A) : 0 < magnitude A := by
  rw [magnitude_eq]
  have : dec 52 0 < dec 52 (fmag A) := dec_lt (by unfold Tiny at h; omega)
  rw [dec_zero] at this
  exact this

/-- Numbers that compare the same differ by less than 1/999999999 of the scale. -/
theorem same_close {A B : Word} (hA : isFin A = true) (hB : isFin B = true) (h : same A B = true) :
    (fval A - fval B).natAbs * 999999999 < scale A B := by
  rw [same_bits hA hB] at h
  have hc := rnd_close 52 (fval A - fval B).natAbs
  generalize (fval A - fval B).natAbs = n at *
  have hcl := close_lower hc
  have hu := tol_upper
  unfold scale
  by_cases ht : Tiny A ∨ Tiny B
  · rw [if_pos ht] at h ⊢
    have hd : dec 52 (rnd 52 0 n) < tolUnits := dec_lt h
    generalize dec 52 (rnd 52 0 n) = D at *
    clear h ht hA hB hc
    generalize one64 = O at *
    generalize tolUnits = T at *
    omega
  · rw [if_neg ht] at h ⊢
    have hm : 0 < max (magnitude A) (magnitude B) := by
      have := magnitude_pos (A := A) (fun h => ht (Or.inl h)); omega
    have hd := divBits_lt hm h.2
    generalize dec 52 (rnd 52 0 n) = D at *
    generalize max (magnitude A) (magnitude B) = m at *
    have hone := one64_pos
    generalize one64 = O at *
    generalize tolUnits = T at *
    have hX : 0 < (2 ^ 52 - 1) * O := by omega
    refine Nat.lt_of_mul_lt_mul_left (a := (2 ^ 52 - 1) * O) ?_
    calc (2 ^ 52 - 1) * O * (n * 999999999) = (n * (2 ^ 52 - 1)) * O * 999999999 := by ring
      _ ≤ (2 ^ 52 * D) * O * 999999999 := Nat.mul_le_mul_right _ (Nat.mul_le_mul_right _ hcl)
      _ = (D * O) * (2 ^ 52 * 999999999) := by ring
      _ < (T * m) * (2 ^ 52 * 999999999) := Nat.mul_lt_mul_of_pos_right hd (by decide)
      _ = (2 ^ 52 * T * 999999999) * m := by ring
      _ ≤ (2 ^ 52 - 1) * O * m := Nat.mul_le_mul_right _ hu

/-- Numbers that differ by at most 1/1000000001 of the scale compare the same. -/
theorem close_same {A B : Word} (hA : isFin A = true) (hB : isFin B = true)
    (h : (fval A - fval B).natAbs * 1000000001 ≤ scale A B) : same A B = true := by
  rw [same_bits hA hB]
  have hc := rnd_close 52 (fval A - fval B).natAbs
  have hl := tol_lower
  have htt : dec 52 (fmag tolerance - 1) < dec 52 (fmag tolerance) := dec_lt (by decide +kernel)
  unfold scale at h
  by_cases ht : Tiny A ∨ Tiny B
  · rw [if_pos ht] at h ⊢
    generalize (fval A - fval B).natAbs = n at *
    by_contra hge
    have hd : dec 52 (fmag tolerance) ≤ dec 52 (rnd 52 0 n) := dec_le (by omega)
    generalize dec 52 (rnd 52 0 n) = D at *
    generalize one64 = O at *
    generalize dec 52 (fmag tolerance) = T at *
    generalize dec 52 (fmag tolerance - 1) = T' at *
    clear hge ht hA hB
    have hcu := close_upper hc
    clear hc
    omega
  · rw [if_neg ht] at h ⊢
    have hm : 0 < max (magnitude A) (magnitude B) := by
      have := magnitude_pos (A := A) (fun h => ht (Or.inl h)); omega
    have hfin : rnd 52 0 (fval A - fval B).natAbs < inf64 := by
      have hfa : fmag A < inf64 := by simpa [isFin] using hA
      have hfb : fmag B < inf64 := by simpa [isFin] using hB
      have hmx : max (magnitude A) (magnitude B) = dec 52 (max (fmag A) (fmag B)) := by
        rw [magnitude_eq, magnitude_eq]
        rcases Nat.le_total (fmag A) (fmag B) with q | q
        · rw [Nat.max_eq_right q, Nat.max_eq_right (dec_le q)]
        · rw [Nat.max_eq_left q, Nat.max_eq_left (dec_le q)]
      have : rnd 52 0 (fval A - fval B).natAbs ≤ max (fmag A) (fmag B) := by
        apply rnd_le
        rw [Nat.pow_zero, Nat.mul_one, ← hmx]
        omega
      omega
    refine ⟨hfin, ?_⟩
    generalize (fval A - fval B).natAbs = n at *
    by_contra hge
    have hd := divBits_ge hm (Nat.le_of_not_lt hge)
    generalize max (magnitude A) (magnitude B) = m at *
    have hcl := close_upper hc
    generalize dec 52 (rnd 52 0 n) = D at *
    generalize one64 = O at *
    generalize dec 52 (fmag tolerance - 1) = T' at *
    have : (2 ^ 52 + 1) * O * m < (2 ^ 52 + 1) * O * m := by
      calc (2 ^ 52 + 1) * O * m < (2 ^ 52 * T' * 1000000001) * m := Nat.mul_lt_mul_of_pos_right hl hm
        _ = (T' * m) * (2 ^ 52 * 1000000001) := by ring
        _ ≤ (D * O) * (2 ^ 52 * 1000000001) := Nat.mul_le_mul_right _ hd
        _ = (2 ^ 52 * D) * (O * 1000000001) := by ring
        _ ≤ (n * (2 ^ 52 + 1)) * (O * 1000000001) := Nat.mul_le_mul_right _ hcl
        _ = (2 ^ 52 + 1) * O * (n * 1000000001) := by ring
        _ ≤ (2 ^ 52 + 1) * O * m := Nat.mul_le_mul_left _ h
    omega

/-- A finite number is the same as itself. -/
theorem same_self {A : Word} (hA : isFin A = true) : same A A = true :=
  close_same hA hA (by rw [Int.sub_self]; exact Nat.zero_le _)

/-- Whole numbers below 10^9 in magnitude are the same only if equal. -/
theorem same_ints {i j : Int} (hi : -999999999 ≤ i ∧ i ≤ 999999999) (hj : -999999999 ≤ j ∧ j ≤ 999999999) :
    same (ofInt i) (ofInt j) = true ↔ i = j := by
  have si : Small i := ⟨by omega, by omega⟩
  have sj : Small j := ⟨by omega, by omega⟩
  constructor
  · intro h
    have hc := same_close (ofInt_fin i si) (ofInt_fin j sj) h
    rw [fval_ofInt i si, fval_ofInt j sj, ← Int.sub_mul, Int.natAbs_mul, Int.natAbs_natCast] at hc
    by_contra hne
    have h1 : 1 ≤ (i - j).natAbs := by omega
    have hs : scale (ofInt i) (ofInt j) ≤ 999999999 * one64 := by
      unfold scale magnitude
      rw [fval_ofInt i si, fval_ofInt j sj, Int.natAbs_mul, Int.natAbs_mul, Int.natAbs_natCast]
      have m1 : i.natAbs * one64 ≤ 999999999 * one64 := Nat.mul_le_mul_right _ (by omega)
      have m2 : j.natAbs * one64 ≤ 999999999 * one64 := Nat.mul_le_mul_right _ (by omega)
      have m3 : 1 * one64 ≤ 999999999 * one64 := Nat.mul_le_mul_right _ (by omega)
      split <;> omega
    have h2 : 1 * one64 * 999999999 ≤ (i - j).natAbs * one64 * 999999999 := Nat.mul_le_mul_right _ (Nat.mul_le_mul_right _ h1)
    generalize one64 = O at *
    omega
  · rintro rfl
    exact same_self (ofInt_fin i si)

-- The tolerance at work.
example : same (ofInt 2147483647) (ofInt 2147483646) = true := by decide +kernel
example : same (ofInt 999999999) (ofInt 999999998) = false := by decide +kernel
example : same 0x7ff0000000000000 0x7ff0000000000000 = false := by decide +kernel
example : same (ofInt 1) 0x3ff0000000400000 = true := by decide +kernel      -- 1 and 1 + 2^-30
example : same (ofInt 1) 0x3ff0000000800000 = false := by decide +kernel     -- 1 and 1 + 2^-29

end Verif
