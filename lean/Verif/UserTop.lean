import Verif.Spec

/-
From `file_scan`/`frame_decode` to the vocabulary of `Verif.Spec`.
-/

namespace Verif

/-- The tables of a written file, read one by one. -/
theorem plain_tables (env : Env) (hmd5 : env.Md5Ok) (Ts : List UTable) (hT : ∀ T ∈ Ts, T.Ok env)
    (bss : List (List Byte)) (hw : writeTables env Ts = .ok bss) (hsz : ∀ b ∈ bss, b.length ≤ 2147483647) :
    ∃ ts, readPlain env bss.flatten = (ts.map (fun t => [t]), none) ∧
      Match (Holds1 env (File.known bss.flatten)) ts Ts := by
  obtain ⟨bss', h1, h2, h3⟩ := file_scan env hmd5 Ts hT
  rw [hw] at h1
  cases h1
  obtain ⟨rs, _, _, hs, hl, hm⟩ := h3 hsz
  refine ⟨layout 0 rs, ?_, hm⟩
  apply readFrames_plain hs _ _ _ hl
  · intro t ht
    obtain ⟨T, _, h⟩ := hm.mem_left t ht
    exact h.copy
  · intro t _; left; decide

theorem plain_table (env : Env) (hmd5 : env.Md5Ok) (T : UTable) (hT : T.Ok env) (bytes : List Byte)
    (henc : T.encode env .same = .ok bytes) (hsz : bytes.length ≤ 2147483647) :
    ∃ t, readPlain env bytes = ([[t]], none) ∧ Holds1 env (File.known bytes) t T := by
  obtain ⟨ts, h1, h2⟩ := plain_tables env hmd5 [T] (by simpa using hT) [bytes] (by simp [writeTables, henc]) (by simpa using hsz)
  cases h2 with
  | cons a b =>
    cases b
    exact ⟨_, by simpa using h1, by simpa using a⟩

theorem decode_col {env : Env} {bytes : List Byte} {t : Tbl} {T : UTable} (h : Holds1 env (File.known bytes) t T)
    (c : InCol) (hc : c ∈ T.cols) (tg : Target) (htg : tg.Fits T.rows c.vals.words) :
    ∃ (w : Nat) (m : Nat → Cell), 1 ≤ w ∧ w ≤ c.vals.words ∧
      (∀ k ∈ t.info.cols, k.name = c.name → k.codec.width = w) ∧
      decodeCol bytes [t] c.name tg = .ok m ∧ (∀ r, r < T.rows → c.vals.Back env r ((m r).take w)) ∧
      (∀ r, (m r).length = tg.elem) ∧ ∀ r, T.rows ≤ r → m r = tg.mem r := by
  obtain ⟨p, hp⟩ := List.mem_iff_getElem?.mp hc
  have hlen : t.info.cols.length = T.cols.length := by
    have := congrArg List.length h.shows.colNames; simpa using this
  have hpl : p < t.info.cols.length := by rw [hlen]; exact (List.getElem?_eq_some_iff.mp hp).1
  have hk : t.info.cols[p]? = some (t.info.cols[p]) := List.getElem?_eq_getElem hpl
  obtain ⟨k1, _, _, _, k5, k6⟩ := h.col p c _ hp hk
  have hkm : t.info.cols[p] ∈ t.info.cols := List.getElem_mem hpl
  have hrow := h.shows.nrows
  obtain ⟨Ls, out, o1, o2, o3⟩ := frame_decode (fr := [t]) (Ts := [T]) (.cons h .nil)
    (by intro a b e; cases e; simp) (by have := h.tok.rows; simp [totalRows]; omega) [(c.name, tg)]
    ⟨by simp, by
      intro a b e; cases e
      intro e he
      simp only [List.mem_singleton] at he
      subst he
      exact ⟨_, hkm, k1, by have := htg.elem; simp only; omega⟩, by
      intro e he
      simp only [List.mem_singleton] at he
      subst he
      have := htg.rows
      simp [rowSum, hrow]; exact this, by
      intro e he
      simp only [List.mem_singleton] at he
      subst he
      exact htg.mem⟩
  obtain ⟨m, m1, m2, m3, m4⟩ := o3 0 c.name tg rfl
  refine ⟨(t.info.cols[p]).codec.width, m, k5, k6, ?_, ?_, ?_, m3, ?_⟩
  · intro k hk hkn
    rw [mem_same Col.name _ h.shows.col_names_nodup k _ hk hkm (by rw [hkn, k1])]
  · unfold decodeCol decodeFrame
    simp only [List.map_cons, List.map_nil] at o1
    simp only [List.map_cons, List.map_nil, o1]
    cases out with
    | nil => simp at m1
    | cons a l => simp at m1; simp [m1]
  · intro r hr
    have := m2 0 t T rfl rfl c _ hc rfl hkm k1 r hr
    simpa [rowsBefore] using this
  · intro r hr
    exact m4 r (by simpa [totalRows] using hr)

/-! ### Values -/

theorem wordInt_intWord (asDbl : Bool) (i : Int) (h : InI32 i) : wordInt asDbl (intWord asDbl i) = i := by
  unfold wordInt intWord
  cases asDbl
  · simp only [Bool.false_eq_true, if_false]
    rw [BitVec.toInt_ofInt]
    obtain ⟨h1, h2⟩ := h
    unfold Int.bmod
    simp
    omega
  · simp only [if_true]
    rw [fval_ofInt i h.small, Int.mul_ediv_cancel _ one64_ne]

/-- The exact value of a single-precision number. -/
theorem fval_widen (f : BitVec 32) (h : gisFin f = true) (hn : gisNaN f = false) :
    fmag (widen f) < inf64 ∧ dec 52 (fmag (widen f)) = dec 23 (gmag f) * 2 ^ 925 ∧ fneg (widen f) = gneg f := by
  obtain ⟨j, q, hb, hq, hj⟩ := dec_form 23 (gmag f)
  have hdec : dec 23 (gmag f) = q * 2 ^ j := by rw [hb]; exact dec_enc 23 j q (by omega) hj
  have hq' : q < 2 ^ (52 + 1) := by
    have : 2 ^ (23 + 1) < 2 ^ (52 + 1) := by decide
    omega
  have hexact := dec_rnd 52 0 (dec 23 (gmag f) * 2 ^ 925) q (j + 925) (by
    rw [hdec, Nat.pow_add]; ring) hq' (by omega)
  rw [Nat.pow_zero, Nat.mul_one] at hexact
  have hlt : rnd 52 0 (dec 23 (gmag f) * 2 ^ 925) < inf64 := by
    rw [← dec_lt_iff (p := 52), hexact, dec52_inf]
    have hg : gmag f < inf32 := by simpa [gisFin] using h
    have h1 : dec 23 (gmag f) < dec 23 inf32 := dec_lt hg
    have h2 : dec 23 inf32 = 2 ^ 23 * 2 ^ 254 := by
      have : inf32 = 254 * 2 ^ 23 + 2 ^ 23 := by decide
      rw [this, dec_enc 23 254 (2 ^ 23) (by decide) (Or.inr (by decide))]
    rw [h2] at h1
    calc dec 23 (gmag f) * 2 ^ 925 ≤ (2 ^ 23 * 2 ^ 254) * 2 ^ 925 := Nat.mul_le_mul_right _ (by omega)
      _ < 2 ^ 52 * 2 ^ 2046 := by
        rw [← Nat.pow_add, ← Nat.pow_add, ← Nat.pow_add]
        exact Nat.pow_lt_pow_right (by decide) (by decide)
  have hlt63 : rnd 52 0 (dec 23 (gmag f) * 2 ^ 925) < 2 ^ 63 := Nat.lt_trans hlt inf64_lt
  unfold widen
  rw [if_neg (by simp [hn]), if_pos h]
  rw [fmag_mk64 _ _ hlt63, fneg_mk64 _ _ hlt63]
  exact ⟨hlt, hexact, rfl⟩

/-- The missing value of real columns is not a single-precision number. -/
theorem widen_ne_mdi (f : BitVec 32) : widen f ≠ realMDI := by
  intro h
  have hs : Small (-2147483647) := InI32.small (by decide)
  obtain ⟨m1, m2, m3⟩ := ofInt_spec (-2147483647) hs
  have hm : realMDI = ofInt (-2147483647) := by unfold realMDI; rfl
  rw [← hm] at m1 m2 m3
  by_cases hn : gisNaN f = true
  · have : isNaN (widen f) = true := by
      unfold widen
      rw [if_pos hn]
      unfold isNaN
      have hb : (0x7ff8000000000000 ||| (gmag f % 2 ^ 23) * 2 ^ 29) < 2 ^ 63 := by
        apply Nat.or_lt_two_pow (by decide)
        have : gmag f % 2 ^ 23 < 2 ^ 23 := Nat.mod_lt _ (by decide)
        calc (gmag f % 2 ^ 23) * 2 ^ 29 ≤ 2 ^ 23 * 2 ^ 29 := Nat.mul_le_mul_right _ (by omega)
          _ < 2 ^ 63 := by decide
      rw [fmag_mk64 _ _ hb]
      have : 0x7ff8000000000000 ≤ (0x7ff8000000000000 ||| (gmag f % 2 ^ 23) * 2 ^ 29) := Nat.left_le_or
      simp only [decide_eq_true_eq]
      have : inf64 < 0x7ff8000000000000 := by decide
      omega
    rw [h, realMDI_nan] at this
    cases this
  have hn' : gisNaN f = false := by simpa using hn
  by_cases hf : gisFin f = true
  · obtain ⟨w1, w2, w3⟩ := fval_widen f hf hn'
    rw [h, m2] at w2
    obtain ⟨j, q, hb, hq, hj⟩ := dec_form 23 (gmag f)
    have hdec : dec 23 (gmag f) = q * 2 ^ j := by rw [hb]; exact dec_enc 23 j q (by omega) hj
    rw [hdec, Nat.mul_assoc, ← Nat.pow_add] at w2
    have e1 : (-2147483647 : Int).natAbs = 2147483647 := rfl
    rw [e1] at w2
    unfold one64 at w2
    by_cases hle : j + 925 ≤ 1074
    · obtain ⟨d, hd⟩ := Nat.exists_eq_add_of_le hle
      rw [hd, Nat.pow_add] at w2
      have hpos : 0 < 2 ^ (j + 925) := Nat.two_pow_pos _
      have : 2147483647 * 2 ^ d = q := by
        apply Nat.eq_of_mul_eq_mul_right hpos
        rw [← w2]; ring
      have hd1 : 1 ≤ 2 ^ d := Nat.one_le_two_pow
      have : 2147483647 ≤ q := by rw [← this]; exact Nat.le_mul_of_pos_right _ hd1
      have : (2 : Nat) ^ (23 + 1) < 2147483647 := by decide
      omega
    · obtain ⟨d, hd⟩ := Nat.exists_eq_add_of_lt (Nat.lt_of_not_le hle)
      rw [hd] at w2
      have hpos : 0 < 2 ^ 1074 := Nat.two_pow_pos _
      have : 2147483647 = q * 2 ^ (d + 1) := by
        apply Nat.eq_of_mul_eq_mul_right hpos
        rw [w2, show 1074 + d + 1 = (d + 1) + 1074 by omega, Nat.pow_add]; ring
      rw [Nat.pow_succ] at this
      have : 2147483647 = 2 * (q * 2 ^ d) := by rw [this]; ring
      omega
  · have : fmag (widen f) = inf64 := by
      unfold widen
      rw [if_neg hn, if_neg hf, fmag_mk64 _ _ inf64_lt]
    rw [h] at this
    omega

theorem feq_mdi (v : Word) : feq v realMDI = true ↔ v = realMDI := by
  constructor
  · intro h
    apply eq_of_feq h
    have hs : Small (-2147483647) := InI32.small (by decide)
    obtain ⟨m1, m2, m3⟩ := ofInt_spec (-2147483647) hs
    have hm : realMDI = ofInt (-2147483647) := by unfold realMDI; rfl
    rw [← hm] at m1 m2 m3
    constructor
    · intro _ hc
      have := (fmag_zero_iff realMDI).mpr (Or.inr hc)
      rw [this, dec_zero] at m2
      have := one64_pos
      have e1 : (-2147483647 : Int).natAbs = 2147483647 := rfl
      rw [e1] at m2
      omega
    · intro _ hc
      have := (fmag_zero_iff realMDI).mpr (Or.inl hc)
      rw [this, dec_zero] at m2
      have := one64_pos
      have e1 : (-2147483647 : Int).natAbs = 2147483647 := rfl
      rw [e1] at m2
      omega
  · rintro rfl; exact feq_self realMDI_nan

end Verif
