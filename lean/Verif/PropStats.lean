import Verif.Chunks

/-
C27: the statistics stored in the header of a frame; C28: the codec chosen for a column.
-/

namespace Verif

/-! ### Specification -/

/-- The frame consists of one table, which has a column of this name whose stored codec satisfies `P`. -/
def StoredCodec (fr : List Tbl) (name : Str) (P : Codec → Prop) : Prop :=
  ∃ t k, fr = [t] ∧ k ∈ t.info.cols ∧ k.name = name ∧ P k.codec

/-- Flag, minimum and maximum of the double values `ds`, of which those equal to `mdi` are missing. -/
structure StatsOf (mdi : Word) (ds : List Word) (hasMissing : Int) (lo hi : Word) : Prop where
  some : mdi ∈ ds → hasMissing = 1
  none : mdi ∉ ds → hasMissing = 0
  least : ∀ d ∈ ds, d ≠ mdi → lo ∈ ds ∧ lo ≠ mdi ∧ flt d lo = false
  greatest : ∀ d ∈ ds, d ≠ mdi → hi ∈ ds ∧ hi ≠ mdi ∧ flt hi d = false
  empty : (∀ d ∈ ds, d = mdi) → lo = mdi ∧ hi = mdi

/-- `lo` and `hi` are the least and greatest of the integers that are not missing (2147483647), both the missing
value if there is none. -/
structure IntRange (vs : List Int) (lo hi : Int) : Prop where
  least : ∀ i ∈ vs, i ≠ 2147483647 → lo ∈ vs ∧ lo ≠ 2147483647 ∧ lo ≤ i
  greatest : ∀ i ∈ vs, i ≠ 2147483647 → hi ∈ vs ∧ hi ≠ 2147483647 ∧ i ≤ hi
  empty : (∀ i ∈ vs, i = 2147483647) → lo = 2147483647 ∧ hi = 2147483647

/-- Bytes per cell for integers of the given range, with and without missing values. -/
def intBytes (missing : Bool) (range : Int) : Nat :=
  if missing then if range < 255 then 1 else if range < 65535 then 2 else 4
  else if range = 0 then 0 else if range ≤ 255 then 1 else if range ≤ 65535 then 2 else 4

/-! ### Proofs -/

theorem rebuild_spec {k : Kind} {ty : ColType} {asDbl : Bool} {g c : Codec} (h : rebuild k ty asDbl g = .ok c) :
    c.kind = k ∧ c.missing = g.missing ∧ c.min = g.min ∧ c.max = g.max ∧
      c.hasMissing = if g.hasMissing ≠ 0 then 1 else 0 := by
  unfold rebuild at h
  cases hs : (fresh k ty.toInt asDbl).setMissing g.missing with
  | error e => rw [hs] at h; simp at h
  | ok c' =>
    rw [hs] at h
    simp only [Except.ok.injEq] at h
    subst h
    have hk : c'.kind = k ∧ c'.missing = g.missing := by
      unfold Codec.setMissing at hs
      dsimp only at hs
      split at hs
      · split at hs
        · split at hs
          · cases hs; exact ⟨rfl, rfl⟩
          · cases hs
        · cases hs; exact ⟨rfl, rfl⟩
      · cases hs
    exact ⟨hk.1, hk.2, rfl, rfl, rfl⟩

theorem reload_spec (asDbl : Bool) (ty : Int) (c : Codec) :
    (reload asDbl ty c).kind = c.kind ∧ (reload asDbl ty c).min = c.min ∧ (reload asDbl ty c).max = c.max ∧
      (reload asDbl ty c).hasMissing = c.hasMissing := by
  unfold reload
  cases c.kind <;> exact ⟨rfl, rfl, rfl, rfl⟩

theorem StatInv.statsOf {m : Word} {ds : List Word} {c : Codec} (h : StatInv m ds c)
    (hf : ∀ d ∈ ds, feq d m = true ↔ d = m) (hn : ∀ d ∈ ds, isNaN d = false) :
    StatsOf m ds c.hasMissing c.min c.max := by
  have hf' : ∀ d ∈ ds, d ≠ m → feq d m = false := by
    intro d hd hne
    cases hx : feq d m with
    | false => rfl
    | true => exact absurd ((hf d hd).mp hx) hne
  constructor
  · intro hm
    have := h.has.mpr ⟨m, hm, (hf m hm).mpr rfl⟩
    rcases h.has01 with h' | h'
    · exact absurd h' this
    · exact h'
  · intro hm
    rcases h.has01 with h' | h'
    · exact h'
    · obtain ⟨d, hd, hdm⟩ := h.has.mp (by rw [h']; decide)
      rw [(hf d hd).mp hdm] at hd
      exact absurd hd hm
  · intro d hd hne
    obtain ⟨a, b, e⟩ := h.minmem ⟨d, hd, hf' d hd hne⟩
    refine ⟨a, ?_, ?_⟩
    · intro hc; rw [(hf _ a).mpr hc] at b; simp at b
    · have := e d hd (hf' d hd hne)
      simp only [flt, Bool.and_eq_false_iff, decide_eq_false_iff_not]
      right; omega
  · intro d hd hne
    obtain ⟨a, b, e⟩ := h.maxmem ⟨d, hd, hf' d hd hne⟩
    refine ⟨a, ?_, ?_⟩
    · intro hc; rw [(hf _ a).mpr hc] at b; simp at b
    · have := e d hd (hf' d hd hne)
      simp only [flt, Bool.and_eq_false_iff, decide_eq_false_iff_not]
      right; omega
  · intro hall
    exact h.none (fun d hd => (hf d hd).mpr (hall d hd))

/-- Statistics of a column of integers exactly representable as doubles. -/
theorem chosen_int {ty : ColType} (hty : ty = .integer ∨ ty = .bitfield) {asDbl longEnv : Bool} {is : List Int}
    (his : ∀ i ∈ is, Small i) {c : Codec}
    (h : chosenCodec ty asDbl longEnv 1 none (is.map (fun i => [intWord asDbl i])) = .ok c) :
    StatInv (ofInt 2147483647) (is.map ofInt) c ∧
      ∃ n, fcast (-9223372036854775808) 9223372036854775807 (fsub c.max c.min) = .ok n ∧
        c.kind = intKind (decide (c.hasMissing ≠ 0)) n := by
  have hmi : InI32 2147483647 := by decide
  obtain ⟨c0, h0, hk, hvt, h1, h2, h3, h4⟩ := startCodec_int ty hty asDbl 2147483647 hmi none (Or.inr ⟨rfl, rfl⟩)
  have hmap : (is.map (fun i => [intWord asDbl i])).map (fun x => toDbl c0.vt (cellWord x)) = is.map ofInt := by
    rw [List.map_map]
    apply List.map_congr_left
    intro i hi
    simp only [Function.comp, cellWord, List.headD_cons, hvt]
    have := his i hi
    unfold Small at this
    cases asDbl
    · simp only [toDbl, vtI, intWord, Bool.false_eq_true, if_false]
      rw [toInt_ofInt64 i (by unfold InI64; omega)]
    · rfl
  have hinv : StatInv (ofInt 2147483647) ([] ++ is.map ofInt) (c0.gatherAll (is.map (fun i => [intWord asDbl i]))) := by
    rw [gatherAll_int32 c0 _ hk, hmap]
    refine StatInv.foldl (ofInt_nan _ hmi.small) _ _ _ (by simp) ?_ (StatInv.init _ c0 h1 h2 h3 h4)
    intro d hd
    obtain ⟨i, hi, rfl⟩ := List.mem_map.mp hd
    exact ofInt_nan i (his i hi)
  rw [List.nil_append] at hinv
  unfold chosenCodec at h
  rw [h0] at h
  dsimp only at h
  generalize c0.gatherAll (is.map (fun i => [intWord asDbl i])) = g at *
  have h' : (match fcast (-9223372036854775808) 9223372036854775807 (fsub g.max g.min) with
    | .ok n => rebuild (intKind (decide (g.hasMissing ≠ 0)) n) ty asDbl g
    | .error e => .error e) = .ok c := by
    rcases hty with hh | hh <;> subst hh <;> exact h
  cases hfc : fcast (-9223372036854775808) 9223372036854775807 (fsub g.max g.min) with
  | error e => rw [hfc] at h'; simp at h'
  | ok n =>
    rw [hfc] at h'
    obtain ⟨e1, e2, e3, e4, e5⟩ := rebuild_spec h'
    refine ⟨hinv.congr e2 ?_ e3 e4, n, by rw [e3, e4]; exact hfc, ?_⟩
    · rw [e5]; rcases hinv.has01 with hh | hh <;> simp [hh]
    · rw [e1, e5]; congr 1; rcases hinv.has01 with hh | hh <;> simp [hh]

/-- Statistics of a column of doubles or reals without NaN. -/
theorem chosen_real {ty : ColType} (hty : ty = .real ∨ ty = .double) {asDbl longEnv : Bool} {vs : List Word}
    (hvs : ∀ v ∈ vs, isNaN v = false) {c : Codec}
    (h : chosenCodec ty asDbl longEnv 1 none (vs.map (fun v => [v])) = .ok c) :
    StatInv realMDI vs c ∧
      c.kind = (if feq c.max c.min then (if c.hasMissing ≠ 0 then .realConstOrMissing else .constant)
        else if ty = .double then .longReal
        else if vs.any (fun v => feq v (widen maxFloat)) then .shortReal else .shortReal2) := by
  obtain ⟨c0, h0, hk, hvt, h1, h2, h3, h4, h5, h6⟩ := startCodec_real ty hty asDbl realMDI none (Or.inr ⟨rfl, rfl⟩)
  obtain ⟨hinv, hk', hs1, hs2⟩ := real_stats realMDI realMDI_nan vs hvs c0 hk h1 h2 h3 h4 h5 h6
  unfold chosenCodec at h
  rw [h0] at h
  dsimp only at h
  generalize c0.gatherAll (vs.map (fun v => [v])) = g at *
  have key : ∀ k, rebuild k ty asDbl g = .ok c → StatInv realMDI vs c ∧ c.kind = k ∧ c.max = g.max ∧ c.min = g.min ∧
      (c.hasMissing ≠ 0 ↔ g.hasMissing ≠ 0) := by
    intro k hr
    obtain ⟨e1, e2, e3, e4, e5⟩ := rebuild_spec hr
    refine ⟨hinv.congr e2 ?_ e3 e4, e1, e4, e3, ?_⟩
    · rw [e5]; rcases hinv.has01 with hh | hh <;> simp [hh]
    · rw [e5]; rcases hinv.has01 with hh | hh <;> simp [hh]
  rcases hty with hh | hh
  · subst hh
    simp only [optimise, hk', if_true] at h
    cases hr : realKind g with
    | error e => rw [hr] at h; simp at h
    | ok k =>
      rw [hr] at h
      obtain ⟨a, b, d, e, f⟩ := key k h
      refine ⟨a, ?_⟩
      rw [b, d, e]
      unfold realKind at hr
      rw [hs2] at hr
      by_cases hq : feq g.max g.min = true
      · rw [if_pos hq] at hr ⊢
        cases hr
        by_cases hm : g.hasMissing ≠ 0
        · rw [if_pos hm, if_pos (f.mpr hm)]
        · rw [if_neg hm, if_neg (fun x => hm (f.mp x))]
      · rw [if_neg hq] at hr ⊢
        rw [if_neg (by decide)]
        by_cases ha : vs.any (fun v => feq v (widen maxFloat)) = true
        · rw [if_pos ha] at hr ⊢
          split at hr
          · cases hr
          · cases hr; rfl
        · rw [if_neg ha] at hr ⊢
          split at hr <;> (cases hr; rfl)
  · subst hh
    obtain ⟨a, b, d, e, f⟩ := key _ h
    refine ⟨a, ?_⟩
    rw [b, d, e, if_pos rfl]
    by_cases hm : g.hasMissing ≠ 0
    · rw [if_pos hm, if_pos (f.mpr hm)]
    · rw [if_neg hm, if_neg (fun x => hm (f.mp x))]

/-- The stored codec of a column, from the frame read back. -/
theorem stored_codec (env : Env) (hmd5 : env.Md5Ok) (T : UTable) (hT : T.Ok env) (bytes : List Byte)
    (henc : T.encode env .same = .ok bytes) (hsz : bytes.length ≤ 2147483647) :
    ∃ fr, readPlain env bytes = ([fr], none) ∧ ∀ c ∈ T.cols, ∃ e,
      chosenCodec c.vals.ty env.asDbl env.longEnv c.vals.words none (c.vals.cells env) = .ok e ∧
      StoredCodec fr c.name (fun k => k = reload env.asDbl c.vals.ty.toInt e) := by
  obtain ⟨t, ht, hh⟩ := plain_table env hmd5 T hT bytes henc hsz
  refine ⟨[t], ht, ?_⟩
  intro c hc
  obtain ⟨⟨r, hcar, hi, _⟩, _⟩ := hh.shows
  obtain ⟨p, hp⟩ := List.mem_iff_getElem?.mp hc
  have hpl : p < r.info.cols.length := by rw [hcar.ncols]; exact (List.getElem?_eq_some_iff.mp hp).1
  have hk : r.info.cols[p]? = some (r.info.cols[p]) := List.getElem?_eq_getElem hpl
  obtain ⟨e, e1, e2⟩ := hcar.codec p c _ hp hk
  refine ⟨e, e1, t, _, rfl, ?_, (hcar.col p c _ hp hk).1, e2⟩
  rw [hi]; exact List.getElem_mem hpl

/-- **C27**: in the header of an encoded frame, as read back, the has-missing flag of a numeric column is set
exactly if a value is missing, and minimum and maximum are values of the column that bound all values that are
not missing (both are the missing value if there are none).  Integers must be exactly representable as doubles,
doubles and reals must not be NaN. -/
theorem C27_statistics (env : Env) (hmd5 : env.Md5Ok) (T : UTable) (hT : T.Ok env) :
    ∃ bytes, T.encode env .same = .ok bytes ∧ (bytes.length ≤ 2147483647 →
      ∃ fr, readPlain env bytes = ([fr], none) ∧ ∀ c ∈ T.cols,
        (∀ vs : List Int, (c.vals = .ints vs ∨ ∃ ms, c.vals = .bits ms vs) → (∀ i ∈ vs, Small i) →
          StoredCodec fr c.name (fun k => StatsOf (ofInt 2147483647) (vs.map ofInt) k.hasMissing k.min k.max)) ∧
        (∀ vs : List Word, (c.vals = .reals vs ∨ c.vals = .doubles vs) → (∀ v ∈ vs, isNaN v = false) →
          StoredCodec fr c.name (fun k => StatsOf realMDI vs k.hasMissing k.min k.max))) := by
  obtain ⟨bytes, henc, _⟩ := T.encode_ok env hmd5 hT .same
  refine ⟨bytes, henc, fun hsz => ?_⟩
  obtain ⟨fr, hr, hst⟩ := stored_codec env hmd5 T hT bytes henc hsz
  refine ⟨fr, hr, ?_⟩
  intro c hc
  obtain ⟨e, e1, t, k, f1, f2, f3, f4⟩ := hst c hc
  obtain ⟨_, r2, r3, r4⟩ := reload_spec env.asDbl c.vals.ty.toInt e
  constructor
  · intro vs hv hs
    have hch : chosenCodec c.vals.ty env.asDbl env.longEnv 1 none (vs.map (fun i => [intWord env.asDbl i])) = .ok e ∧
        (c.vals.ty = .integer ∨ c.vals.ty = .bitfield) := by
      rcases hv with h | ⟨ms, h⟩ <;> rw [h] at e1 ⊢
      · exact ⟨e1, Or.inl rfl⟩
      · exact ⟨e1, Or.inr rfl⟩
    obtain ⟨hinv, _⟩ := chosen_int hch.2 hs hch.1
    refine ⟨t, k, f1, f2, f3, ?_⟩
    rw [f4]
    dsimp only
    rw [r2, r3, r4]
    refine hinv.statsOf ?_ ?_
    · intro d hd
      obtain ⟨i, hi, rfl⟩ := List.mem_map.mp hd
      rw [feq_ofInt i _ (hs i hi) (by unfold Small; omega), decide_eq_true_iff]
      constructor
      · intro h; rw [h]
      · intro h
        have := congrArg fkey h
        exact (fkey_ofInt_eq i _ (hs i hi) (by unfold Small; omega)).mp this
    · intro d hd
      obtain ⟨i, hi, rfl⟩ := List.mem_map.mp hd
      exact ofInt_nan i (hs i hi)
  · intro vs hv hs
    have hch : chosenCodec c.vals.ty env.asDbl env.longEnv 1 none (vs.map (fun i => [i])) = .ok e ∧
        (c.vals.ty = .real ∨ c.vals.ty = .double) := by
      rcases hv with h | h <;> rw [h] at e1 ⊢
      · exact ⟨e1, Or.inl rfl⟩
      · exact ⟨e1, Or.inr rfl⟩
    obtain ⟨hinv, _⟩ := chosen_real hch.2 hs hch.1
    refine ⟨t, k, f1, f2, f3, ?_⟩
    rw [f4]
    dsimp only
    rw [r2, r3, r4]
    exact hinv.statsOf (fun d _ => feq_mdi d) hs

theorem intKind_size (b : Bool) (n : Int) (hn : 0 ≤ n) (c : Codec) (hk : c.kind = intKind b n) :
    c.encSize = intBytes b n := by
  unfold Codec.encSize
  rw [hk]
  unfold intKind intBytes
  cases b
  · simp only [Bool.false_eq_true, if_false]
    by_cases h0 : n = 0
    · rw [if_pos h0, if_pos h0]
    rw [if_neg h0, if_neg h0]
    by_cases h1 : n ≤ 255
    · rw [if_pos h1, if_pos h1]
    rw [if_neg h1, if_neg h1]
    by_cases h2 : n ≤ 65535
    · rw [if_pos h2, if_pos h2]
    rw [if_neg h2, if_neg h2]
  · simp only [if_true]
    by_cases h0 : n = 0
    · rw [if_pos h0, if_pos (by omega)]
    rw [if_neg h0]
    by_cases h1 : n < 255
    · rw [if_pos h1, if_pos h1]
    rw [if_neg h1, if_neg h1]
    by_cases h2 : n < 65535
    · rw [if_pos h2, if_pos h2]
    rw [if_neg h2, if_neg h2]

theorem stats_intRange {vs : List Int} (hs : ∀ i ∈ vs, InI32 i) {hm : Int} {mn mx : Word}
    (h : StatsOf (ofInt 2147483647) (vs.map ofInt) hm mn mx) :
    ∃ lo hi : Int, IntRange vs lo hi ∧ InI32 lo ∧ InI32 hi ∧ lo ≤ hi ∧ mn = ofInt lo ∧ mx = ofInt hi ∧
      (hm ≠ 0 ↔ (2147483647 : Int) ∈ vs) := by
  have hmi : InI32 2147483647 := by decide
  have hinj : ∀ i j : Int, InI32 i → InI32 j → ofInt i = ofInt j → i = j := fun i j hi hj h' =>
    (fkey_ofInt_eq i j hi.small hj.small).mp (congrArg fkey h')
  have hmem : ofInt 2147483647 ∈ vs.map ofInt ↔ (2147483647 : Int) ∈ vs := by
    constructor
    · intro hh
      obtain ⟨i, hi, he⟩ := List.mem_map.mp hh
      rw [← hinj i _ (hs i hi) hmi he]; exact hi
    · exact fun hh => List.mem_map_of_mem hh
  have hhas : hm ≠ 0 ↔ (2147483647 : Int) ∈ vs := by
    rw [← hmem]
    constructor
    · intro hn
      apply Classical.byContradiction
      intro hc; exact hn (h.none hc)
    · intro hc; rw [h.some hc]; decide
  by_cases hex : ∃ i ∈ vs, i ≠ 2147483647
  · obtain ⟨i0, hi0, hn0⟩ := hex
    have hne : ∀ i ∈ vs, i ≠ 2147483647 → ofInt i ≠ ofInt 2147483647 := fun i hi hne he => hne (hinj i _ (hs i hi) hmi he)
    obtain ⟨l1, l2, _⟩ := h.least (ofInt i0) (List.mem_map_of_mem hi0) (hne i0 hi0 hn0)
    obtain ⟨g1, g2, _⟩ := h.greatest (ofInt i0) (List.mem_map_of_mem hi0) (hne i0 hi0 hn0)
    obtain ⟨lo, hlo, rfl⟩ := List.mem_map.mp l1
    obtain ⟨hi, hhi, rfl⟩ := List.mem_map.mp g1
    have hlom : lo ≠ 2147483647 := fun he => l2 (by rw [he])
    have hhim : hi ≠ 2147483647 := fun he => g2 (by rw [he])
    have hb : ∀ i ∈ vs, i ≠ 2147483647 → lo ≤ i ∧ i ≤ hi := by
      intro i hi' hne'
      have a := (h.least (ofInt i) (List.mem_map_of_mem hi') (hne i hi' hne')).2.2
      have b := (h.greatest (ofInt i) (List.mem_map_of_mem hi') (hne i hi' hne')).2.2
      rw [flt_ofInt _ _ (hs i hi').small (hs lo hlo).small, decide_eq_false_iff_not] at a
      rw [flt_ofInt _ _ (hs hi hhi).small (hs i hi').small, decide_eq_false_iff_not] at b
      omega
    refine ⟨lo, hi, ⟨?_, ?_, ?_⟩, hs lo hlo, hs hi hhi, (hb lo hlo hlom).2, rfl, rfl, hhas⟩
    · intro i hi' hne'; exact ⟨hlo, hlom, (hb i hi' hne').1⟩
    · intro i hi' hne'; exact ⟨hhi, hhim, (hb i hi' hne').2⟩
    · intro hall; exact absurd (hall i0 hi0) hn0
  · have hall : ∀ i ∈ vs, i = 2147483647 := by
      intro i hi
      apply Classical.byContradiction
      intro hc; exact hex ⟨i, hi, hc⟩
    obtain ⟨e1, e2⟩ := h.empty (by
      intro d hd
      obtain ⟨i, hi, rfl⟩ := List.mem_map.mp hd
      rw [hall i hi])
    refine ⟨2147483647, 2147483647, ⟨?_, ?_, fun _ => ⟨rfl, rfl⟩⟩, hmi, hmi, Int.le_refl _, e1, e2, hhas⟩
    · intro i hi hne; exact absurd (hall i hi) hne
    · intro i hi hne; exact absurd (hall i hi) hne

/-- **C28** (integers): a column of 32-bit integers takes the least number of bytes per cell of those documented:
0 for a constant column, then 1, 2 or 4 depending on the range of the values; with missing values one code is
reserved. -/
theorem C28_integer_width (env : Env) (hmd5 : env.Md5Ok) (T : UTable) (hT : T.Ok env) :
    ∃ bytes, T.encode env .same = .ok bytes ∧ (bytes.length ≤ 2147483647 →
      ∃ fr, readPlain env bytes = ([fr], none) ∧ ∀ c ∈ T.cols, ∀ vs : List Int,
        (c.vals = .ints vs ∨ ∃ ms, c.vals = .bits ms vs) → (∀ i ∈ vs, InI32 i) →
        ∃ lo hi : Int, IntRange vs lo hi ∧
          StoredCodec fr c.name (fun k => k.encSize = intBytes (decide ((2147483647 : Int) ∈ vs)) (hi - lo))) := by
  obtain ⟨bytes, henc, _⟩ := T.encode_ok env hmd5 hT .same
  refine ⟨bytes, henc, fun hsz => ?_⟩
  obtain ⟨fr, hr, hst⟩ := stored_codec env hmd5 T hT bytes henc hsz
  refine ⟨fr, hr, ?_⟩
  intro c hc vs hv hs
  obtain ⟨e, e1, t, k, f1, f2, f3, f4⟩ := hst c hc
  have hch : chosenCodec c.vals.ty env.asDbl env.longEnv 1 none (vs.map (fun i => [intWord env.asDbl i])) = .ok e ∧
      (c.vals.ty = .integer ∨ c.vals.ty = .bitfield) := by
    rcases hv with h | ⟨ms, h⟩ <;> rw [h] at e1 ⊢
    · exact ⟨e1, Or.inl rfl⟩
    · exact ⟨e1, Or.inr rfl⟩
  obtain ⟨hinv, n, hn, hk⟩ := chosen_int hch.2 (fun i hi => (hs i hi).small) hch.1
  have hso : StatsOf (ofInt 2147483647) (vs.map ofInt) e.hasMissing e.min e.max := by
    refine hinv.statsOf ?_ ?_
    · intro d hd
      obtain ⟨i, hi, rfl⟩ := List.mem_map.mp hd
      rw [feq_ofInt i _ (hs i hi).small (by unfold Small; omega), decide_eq_true_iff]
      constructor
      · intro h; rw [h]
      · intro h
        have := congrArg fkey h
        exact (fkey_ofInt_eq i _ (hs i hi).small (by unfold Small; omega)).mp this
    · intro d hd
      obtain ⟨i, hi, rfl⟩ := List.mem_map.mp hd
      exact ofInt_nan i (hs i hi).small
  obtain ⟨lo, hi, hrange, hlo, hhi, hle, hmn, hmx, hhas⟩ := stats_intRange hs hso
  refine ⟨lo, hi, hrange, t, k, f1, f2, f3, ?_⟩
  have hn' : n = hi - lo := by
    rw [hmn, hmx, fsub_ofInt hi lo hhi.small hlo.small] at hn
    have a := hhi.1; have b := hhi.2; have a' := hlo.1; have b' := hlo.2
    rw [fcast_ofInt _ _ _ (by unfold Small; omega) (by omega) (by omega)] at hn
    cases hn; rfl
  rw [f4]
  have hk2 : (reload env.asDbl c.vals.ty.toInt e).kind = intKind (decide ((2147483647 : Int) ∈ vs)) (hi - lo) := by
    rw [(reload_spec _ _ _).1, hk, hn']
    congr 1
    simp only [hhas]
  exact intKind_size _ _ (by omega) _ hk2

/-- **C28** (doubles, reals): a column takes no bytes (one, next to missing values) if all values that are not
missing are equal; otherwise a DOUBLE column takes 8 bytes per cell and a REAL column 4. -/
theorem C28_real_width (env : Env) (hmd5 : env.Md5Ok) (T : UTable) (hT : T.Ok env) :
    ∃ bytes, T.encode env .same = .ok bytes ∧ (bytes.length ≤ 2147483647 →
      ∃ fr, readPlain env bytes = ([fr], none) ∧ ∀ c ∈ T.cols, ∀ vs : List Word,
        (c.vals = .reals vs ∨ c.vals = .doubles vs) → (∀ v ∈ vs, isNaN v = false) →
        ((∀ v ∈ vs, ∀ w ∈ vs, v ≠ realMDI → w ≠ realMDI → feq v w = true) →
          StoredCodec fr c.name (fun k => k.encSize = if realMDI ∈ vs then 1 else 0)) ∧
        ((∃ v ∈ vs, ∃ w ∈ vs, v ≠ realMDI ∧ w ≠ realMDI ∧ feq v w = false) →
          StoredCodec fr c.name (fun k => k.encSize = if c.vals.ty = .double then 8 else 4))) := by
  obtain ⟨bytes, henc, _⟩ := T.encode_ok env hmd5 hT .same
  refine ⟨bytes, henc, fun hsz => ?_⟩
  obtain ⟨fr, hr, hst⟩ := stored_codec env hmd5 T hT bytes henc hsz
  refine ⟨fr, hr, ?_⟩
  intro c hc vs hv hs
  obtain ⟨e, e1, t, k, f1, f2, f3, f4⟩ := hst c hc
  have hch : chosenCodec c.vals.ty env.asDbl env.longEnv 1 none (vs.map (fun i => [i])) = .ok e ∧
      (c.vals.ty = .real ∨ c.vals.ty = .double) := by
    rcases hv with h | h <;> rw [h] at e1 ⊢
    · exact ⟨e1, Or.inl rfl⟩
    · exact ⟨e1, Or.inr rfl⟩
  obtain ⟨hinv, hk⟩ := chosen_real hch.2 hs hch.1
  have hso := hinv.statsOf (fun d _ => feq_mdi d) hs
  have hfeq : ∀ v ∈ vs, ∀ w ∈ vs, (feq v w = true ↔ fkey v = fkey w) := by
    intro v hv' w hw'; simp [feq, hs v hv', hs w hw']
  have hkr := (reload_spec env.asDbl c.vals.ty.toInt e).1
  constructor
  · intro hall
    refine ⟨t, k, f1, f2, f3, ?_⟩
    have hq : feq e.max e.min = true := by
      by_cases hex : ∃ v ∈ vs, v ≠ realMDI
      · obtain ⟨v, hv', hn⟩ := hex
        obtain ⟨a, b, _⟩ := hso.least v hv' hn
        obtain ⟨a', b', _⟩ := hso.greatest v hv' hn
        exact hall _ a' _ a b' b
      · obtain ⟨a, b⟩ := hso.empty (by
          intro d hd; apply Classical.byContradiction; intro hc'; exact hex ⟨d, hd, hc'⟩)
        rw [a, b]; exact feq_self realMDI_nan
    rw [if_pos hq] at hk
    rw [f4]
    dsimp only
    unfold Codec.encSize
    rw [hkr, hk]
    by_cases hm : realMDI ∈ vs
    · rw [if_pos (by rw [hso.some hm]; decide), if_pos hm]
    · rw [if_neg (by rw [hso.none hm]; decide), if_neg hm]
  · rintro ⟨v, hv', w, hw', hvm, hwm, hne⟩
    refine ⟨t, k, f1, f2, f3, ?_⟩
    have hq : feq e.max e.min = false := by
      obtain ⟨a, b, x1⟩ := hso.least v hv' hvm
      obtain ⟨_, _, x2⟩ := hso.least w hw' hwm
      obtain ⟨a', b', y1⟩ := hso.greatest v hv' hvm
      obtain ⟨_, _, y2⟩ := hso.greatest w hw' hwm
      cases hx : feq e.max e.min with
      | false => rfl
      | true =>
        rw [hfeq _ a' _ a] at hx
        simp only [flt, hs _ hv', hs _ hw', hs _ a, hs _ a', Bool.not_false, Bool.true_and,
          decide_eq_false_iff_not] at x1 x2 y1 y2
        have : feq v w = true := (hfeq v hv' w hw').mpr (by omega)
        rw [this] at hne; simp at hne
    rw [hq] at hk
    rw [f4]
    dsimp only
    unfold Codec.encSize
    rw [hkr, hk]
    simp only [Bool.false_eq_true, if_false]
    by_cases hd : c.vals.ty = .double
    · rw [if_pos hd, if_pos hd]
    · rw [if_neg hd, if_neg hd]; cases vs.any (fun v => feq v (widen maxFloat)) <;> rfl

theorem chosen_str {asDbl longEnv : Bool} {w : Nat} {ss : List Str}
    (hs : ∀ s ∈ ss, s.length ≤ 8 * w ∧ NulFree s) {c : Codec}
    (h : chosenCodec .string asDbl longEnv w none (ss.map (wordsOf w)) = .ok c) (ds : List Str) (hd : ds.Nodup)
    (hm : ∀ s, s ∈ ds ↔ s ∈ ss) : c.kind = strKind longEnv ds.length w := by
  obtain ⟨c0, h0, hk, h1, h2, h3, h4, h5, h6⟩ := startCodec_str asDbl w
  obtain ⟨g1, g2, g3, g4, g5, g6, g7, g8, g9⟩ := str_stats w ss hs c0 hk h6 (by rw [h5]; simp)
  unfold chosenCodec at h
  rw [h0] at h
  dsimp only at h
  generalize c0.gatherAll (ss.map (wordsOf w)) = g at *
  have hlen : g.strings.length = ds.length := by
    apply List.Perm.length_eq
    rw [List.perm_ext_iff_of_nodup g7 hd]
    intro a
    rw [g8, h5, hm]; simp
  simp only [optimise] at h
  split at h
  · rw [g2, hlen] at h
    cases hr : rebuild (strKind longEnv ds.length w) .string asDbl g with
    | error e => rw [hr] at h; simp at h
    | ok c' =>
      rw [hr] at h
      have := (rebuild_spec hr).1
      dsimp only at h
      split at h
      · cases h; exact this
      · cases h; exact this
  · cases h

/-- **C28** (strings): with `n` distinct strings, `ds`, a STRING column takes no bytes per cell if `n = 1` and the
strings are at most 8 bytes wide (or the codec for long constant strings is enabled), else 1 byte if `n < 256` and
2 bytes otherwise. -/
theorem C28_string_width (env : Env) (hmd5 : env.Md5Ok) (T : UTable) (hT : T.Ok env) :
    ∃ bytes, T.encode env .same = .ok bytes ∧ (bytes.length ≤ 2147483647 →
      ∃ fr, readPlain env bytes = ([fr], none) ∧ ∀ c ∈ T.cols, ∀ (w : Nat) (ss ds : List Str), c.vals = .strings w ss →
        ds.Nodup → (∀ s, s ∈ ds ↔ s ∈ ss) →
        StoredCodec fr c.name (fun k => k.encSize =
          if ds.length = 1 ∧ (w = 1 ∨ env.longEnv = true) then 0 else if ds.length < 256 then 1 else 2)) := by
  obtain ⟨bytes, henc, _⟩ := T.encode_ok env hmd5 hT .same
  refine ⟨bytes, henc, fun hsz => ?_⟩
  obtain ⟨fr, hr, hst⟩ := stored_codec env hmd5 T hT bytes henc hsz
  refine ⟨fr, hr, ?_⟩
  intro c hc w ss ds hv hd hm
  obtain ⟨e, e1, t, k, f1, f2, f3, f4⟩ := hst c hc
  have hcod := (hT.col c hc).2.1
  rw [hv] at hcod e1
  have hk := chosen_str (fun s hs => hcod.2.2.1 s hs) e1 ds hd hm
  refine ⟨t, k, f1, f2, f3, ?_⟩
  rw [f4]
  dsimp only
  unfold Codec.encSize
  rw [(reload_spec _ _ _).1, hk]
  unfold strKind
  by_cases h1 : ds.length = 1
  · by_cases h2 : w = 1
    · simp [h1, h2]
    · by_cases h3 : env.longEnv = true
      · simp [h1, h2, h3]
      · simp [h1, h2, h3]
  · simp only [h1, false_and, if_false]
    by_cases h256 : ds.length < 256 <;> simp [h256]

/-- **C28** (acceptance): encoding does not abort if all columns hold faithful values (`Vals.Ok`): integers in the
32-bit range, doubles and reals as in C02 and C03, fewer than 65536 distinct strings. -/
theorem C28_accepts (env : Env) (hmd5 : env.Md5Ok) (T : UTable) (hne : T.cols ≠ []) (hfew : T.cols.length < 65536)
    (hprops : MapOk T.props) (hnp : T.props.length < 2147483647)
    (hpl : ∀ kv ∈ T.props, LenOk kv.1.length ∧ LenOk kv.2.length) (hver : env.version.length < 2147483600)
    (hrows : T.rows < 9223372036854775808)
    (hcols : ∀ c ∈ T.cols, LenOk c.name.length ∧ c.vals.rows = T.rows ∧ c.vals.Ok env) :
    ∃ bytes, T.encode env .same = .ok bytes := by
  obtain ⟨b, h, _⟩ := T.encode_fit env hmd5
    ⟨hne, hfew, fun c hc => ⟨(hcols c hc).1, (hcols c hc).2.2.codable, (hcols c hc).2.1⟩, hprops, hnp, hpl,
      hver, hrows⟩ .same
  exact ⟨b, h⟩

/-- What the header of the sample frame says: bytes per cell and has-missing flag of the five columns. -/
example : onSample (fun b => decide (((readPlain sampleEnv b).1.flatten.map (fun t => t.info.cols.map (fun k =>
    (k.codec.encSize, k.codec.hasMissing)))).head? = some [(1, 1), (8, 0), (4, 1), (1, 0), (1, 0)])) = true := by
  decide +kernel

/-- The hypotheses of C27 and C28 on values hold for columns of the sample table. -/
example : (∀ i ∈ ([5, 2147483647, -7] : List Int), InI32 i) ∧
    IntRange [5, 2147483647, -7] (-7) 5 ∧ intBytes true (5 - (-7)) = 1 := by
  refine ⟨ball (P := InI32) (by decide +kernel), ⟨?_, ?_, ?_⟩, by decide⟩
  · intro i hi hn; simp at hi; rcases hi with rfl | rfl | rfl <;> simp_all
  · intro i hi hn; simp at hi; rcases hi with rfl | rfl | rfl <;> simp_all
  · intro h; exact absurd (h 5 (by simp)) (by decide)

end Verif
