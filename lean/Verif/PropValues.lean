import Verif.UserTop

/-
C01–C05: values of each column type through `encode`, `Reader` and `Frame::decode`.

All theorems are about a whole table written in one frame, read back from the bytes of the file, and one
column decoded into any target that is large enough, whatever it contained before.
`T.Ok env` (Verif.UserTable, Verif.ApiCol) says the format can carry the table: at least one and at most 65535
columns, distinct names, every column can be encoded at all.  Each theorem then has the condition on the
values of the one column it is about: 32-bit integers; doubles without NaN, without both zeros, and next to
missing values without -0 and infinities; etc.  The other columns may hold anything.
-/

namespace Verif

/-- **C01**: INTEGER and BITFIELD columns of values in the 32-bit range (the missing value 2147483647 is one
of them) come back exactly, whichever way integers are passed in memory. -/
theorem C01_integers_exact (env : Env) (hmd5 : env.Md5Ok) (T : UTable) (hT : T.Ok env) :
    ∃ bytes, T.encode env .same = .ok bytes ∧ (bytes.length ≤ 2147483647 →
      ∃ fr, readPlain env bytes = ([fr], none) ∧
        ∀ (c : InCol) (vs : List Int), c ∈ T.cols → (c.vals = .ints vs ∨ ∃ ms, c.vals = .bits ms vs) →
          (∀ i ∈ vs, InI32 i) → ∀ tg : Target, tg.Fits T.rows 1 → ∃ m, decodeCol bytes fr c.name tg = .ok m ∧
            ∀ (r : Nat) (i : Int), vs[r]? = some i →
              (m r).head? = some (intWord env.asDbl i) ∧ wordInt env.asDbl (intWord env.asDbl i) = i) := by
  obtain ⟨bytes, henc, _⟩ := T.encode_ok env hmd5 hT .same
  refine ⟨bytes, henc, ?_⟩
  intro hsz
  obtain ⟨t, ht, hh⟩ := plain_table env hmd5 T hT bytes henc hsz
  refine ⟨[t], ht, ?_⟩
  intro c vs hc hv hrange tg htg
  obtain ⟨_, hcod, hrows⟩ := hT.col c hc
  have hw1 : c.vals.words = 1 := by rcases hv with h | ⟨ms, h⟩ <;> rw [h] <;> rfl
  have hlen : vs.length = T.rows := by rw [← hrows]; rcases hv with h | ⟨ms, h⟩ <;> rw [h] <;> rfl
  have hok : c.vals.Ok env := by
    rcases hv with h | ⟨ms, h⟩
    · rw [h]; exact hrange
    · rw [h] at hcod ⊢; exact ⟨hrange, hcod.2⟩
  obtain ⟨w, m, hw, hw', _, hd, hback, hml, _⟩ := decode_col hh c hc tg (by rw [hw1]; exact htg)
  rw [hw1] at hw'
  have : w = 1 := by omega
  subst this
  refine ⟨m, hd, ?_⟩
  intro r i hi
  have hr : r < T.rows := by rw [← hlen]; exact (List.getElem?_eq_some_iff.mp hi).1
  have hb := (hback r hr).gives hok
  have : ∃ i, vs[r]? = some i ∧ (m r).take 1 = [intWord env.asDbl i] := by
    rcases hv with h | ⟨ms, h⟩ <;> rw [h] at hb <;> exact hb
  obtain ⟨i', hi', ht'⟩ := this
  rw [hi] at hi'
  cases hi'
  refine ⟨?_, wordInt_intWord _ _ (hrange i (List.mem_of_getElem? hi))⟩
  cases hmr : m r with
  | nil => rw [hmr] at ht'; simp at ht'
  | cons a l => rw [hmr] at ht'; simpa using ht'

/-- **C02**: DOUBLE columns come back with the same 64 bits. -/
theorem C02_doubles_exact (env : Env) (hmd5 : env.Md5Ok) (T : UTable) (hT : T.Ok env) :
    ∃ bytes, T.encode env .same = .ok bytes ∧ (bytes.length ≤ 2147483647 →
      ∃ fr, readPlain env bytes = ([fr], none) ∧
        ∀ (c : InCol) (vs : List Word), c ∈ T.cols → c.vals = .doubles vs →
          DoublesOk realMDI vs → ∀ tg : Target, tg.Fits T.rows 1 → ∃ m, decodeCol bytes fr c.name tg = .ok m ∧
            ∀ (r : Nat) (x : Word), vs[r]? = some x → (m r).head? = some x) := by
  obtain ⟨bytes, henc, _⟩ := T.encode_ok env hmd5 hT .same
  refine ⟨bytes, henc, ?_⟩
  intro hsz
  obtain ⟨t, ht, hh⟩ := plain_table env hmd5 T hT bytes henc hsz
  refine ⟨[t], ht, ?_⟩
  intro c vs hc hv hvs tg htg
  obtain ⟨_, _, hrows⟩ := hT.col c hc
  have hok : c.vals.Ok env := by rw [hv]; exact hvs
  have hw1 : c.vals.words = 1 := by rw [hv]; rfl
  have hlen : vs.length = T.rows := by rw [← hrows, hv]; rfl
  obtain ⟨w, m, hw, hw', _, hd, hback, _⟩ := decode_col hh c hc tg (by rw [hw1]; exact htg)
  rw [hw1] at hw'
  have : w = 1 := by omega
  subst this
  refine ⟨m, hd, ?_⟩
  intro r x hx
  have hr : r < T.rows := by rw [← hlen]; exact (List.getElem?_eq_some_iff.mp hx).1
  have hb := (hback r hr).gives hok
  rw [hv] at hb
  obtain ⟨x', hx', ht'⟩ := hb
  rw [hx] at hx'
  cases hx'
  cases hmr : m r with
  | nil => rw [hmr] at ht'; simp at ht'
  | cons a l => rw [hmr] at ht'; simpa using ht'

/-- **C03**: REAL columns come back missing exactly where they were missing, and otherwise rounded to single
precision — or exact, in a column whose non-missing values are all equal. -/
theorem C03_reals_rounded (env : Env) (hmd5 : env.Md5Ok) (T : UTable) (hT : T.Ok env) :
    ∃ bytes, T.encode env .same = .ok bytes ∧ (bytes.length ≤ 2147483647 →
      ∃ fr, readPlain env bytes = ([fr], none) ∧
        ∀ (c : InCol) (vs : List Word), c ∈ T.cols → c.vals = .reals vs →
          RealsOk realMDI vs → ∀ tg : Target, tg.Fits T.rows 1 → ∃ m, decodeCol bytes fr c.name tg = .ok m ∧
            ∀ (r : Nat) (x : Word), vs[r]? = some x → ∃ y, (m r).head? = some y ∧
              (y = realMDI ↔ x = realMDI) ∧
              (x ≠ realMDI → y = widen (narrow x) ∨
                (y = x ∧ ∀ x' ∈ vs, x' ≠ realMDI → feq x' x = true))) := by
  obtain ⟨bytes, henc, _⟩ := T.encode_ok env hmd5 hT .same
  refine ⟨bytes, henc, ?_⟩
  intro hsz
  obtain ⟨t, ht, hh⟩ := plain_table env hmd5 T hT bytes henc hsz
  refine ⟨[t], ht, ?_⟩
  intro c vs hc hv hvs tg htg
  obtain ⟨_, _, hrows⟩ := hT.col c hc
  have hok : c.vals.Ok env := by rw [hv]; exact hvs
  have hw1 : c.vals.words = 1 := by rw [hv]; rfl
  have hlen : vs.length = T.rows := by rw [← hrows, hv]; rfl
  obtain ⟨w, m, hw, hw', _, hd, hback, _⟩ := decode_col hh c hc tg (by rw [hw1]; exact htg)
  rw [hw1] at hw'
  have : w = 1 := by omega
  subst this
  refine ⟨m, hd, ?_⟩
  intro r x hx
  have hr : r < T.rows := by rw [← hlen]; exact (List.getElem?_eq_some_iff.mp hx).1
  have hb := (hback r hr).gives hok
  rw [hv] at hb
  obtain ⟨x', y, hx', ht', hout⟩ := hb
  rw [hx] at hx'
  cases hx'
  have hhead : (m r).head? = some y := by
    cases hmr : m r with
    | nil => rw [hmr] at ht'; simp at ht'
    | cons a l => rw [hmr] at ht'; simpa using ht'
  have hf : ∀ v, feq v realMDI = false ↔ v ≠ realMDI := by
    intro v
    have := feq_mdi v
    cases h : feq v realMDI <;> simp_all
  unfold RealOut at hout
  by_cases hxm : x = realMDI
  · rw [if_pos ((feq_mdi x).mpr hxm)] at hout
    exact ⟨y, hhead, by simp [hxm, hout], fun h => absurd hxm h⟩
  · rw [if_neg (by rw [(hf x).mpr hxm]; simp)] at hout
    refine ⟨y, hhead, ?_, ?_⟩
    · refine ⟨fun hy => ?_, fun h => absurd h hxm⟩
      rcases hout with h | ⟨h, _⟩
      · rw [hy] at h; exact absurd h.symm (widen_ne_mdi _)
      · rw [← h, hy]
    · intro _
      rcases hout with h | ⟨h1, h2⟩
      · exact Or.inl h
      · exact Or.inr ⟨h1, fun x' hx' hne => h2 x' hx' ((hf x').mpr hne)⟩

/-- **C04**: STRING columns: the element announced for the column (a number of 8-byte words, at most the
declared one) holds each string followed by NUL bytes. -/
theorem C04_strings_exact (env : Env) (hmd5 : env.Md5Ok) (T : UTable) (hT : T.Ok env) :
    ∃ bytes, T.encode env .same = .ok bytes ∧ (bytes.length ≤ 2147483647 →
      ∃ fr, readPlain env bytes = ([fr], none) ∧
        ∀ (c : InCol) (words : Nat) (vs : List Str), c ∈ T.cols → c.vals = .strings words vs →
          ∃ w, 1 ≤ w ∧ w ≤ words ∧ (∀ t ∈ fr, ∀ k ∈ t.info.cols, k.name = c.name → k.codec.width = w) ∧
          ∀ tg : Target, tg.Fits T.rows words → ∃ m, decodeCol bytes fr c.name tg = .ok m ∧
            ∀ (r : Nat) (s : Str), vs[r]? = some s → ∃ pad,
              cellBytes ((m r).take w) = s ++ List.replicate pad 0 ∧ s.length + pad = 8 * w) := by
  obtain ⟨bytes, henc, _⟩ := T.encode_ok env hmd5 hT .same
  refine ⟨bytes, henc, ?_⟩
  intro hsz
  obtain ⟨t, ht, hh⟩ := plain_table env hmd5 T hT bytes henc hsz
  refine ⟨[t], ht, ?_⟩
  intro c words vs hc hv
  obtain ⟨_, hcod, hrows⟩ := hT.col c hc
  have hok : c.vals.Ok env := by rw [hv] at hcod ⊢; exact hcod
  have hw1 : c.vals.words = words := by rw [hv]; rfl
  have hlen : vs.length = T.rows := by rw [← hrows, hv]; rfl
  obtain ⟨p, hp⟩ := List.mem_iff_getElem?.mp hc
  have hcl : t.info.cols.length = T.cols.length := by
    have := congrArg List.length hh.shows.colNames; simpa using this
  have hpl : p < t.info.cols.length := by rw [hcl]; exact (List.getElem?_eq_some_iff.mp hp).1
  obtain ⟨k1, _, _, _, k5, k6⟩ := hh.col p c _ hp (List.getElem?_eq_getElem hpl)
  have hkm : t.info.cols[p] ∈ t.info.cols := List.getElem_mem hpl
  refine ⟨(t.info.cols[p]).codec.width, k5, by rw [← hw1]; exact k6, ?_, ?_⟩
  · intro t' ht' k hk hkn
    simp only [List.mem_singleton] at ht'
    subst ht'
    rw [mem_same Col.name _ hh.shows.col_names_nodup k _ hk hkm (by rw [hkn, k1])]
  intro tg htg
  obtain ⟨w, m, hw, hw', hww, hd, hback, hml, _⟩ := decode_col hh c hc tg (by rw [hw1]; exact htg)
  rw [hww _ hkm k1]
  refine ⟨m, hd, ?_⟩
  intro r s hs
  have hr : r < T.rows := by rw [← hlen]; exact (List.getElem?_eq_some_iff.mp hs).1
  have hb := (hback r hr).gives hok
  rw [hv] at hb
  obtain ⟨s', w', hs', hfit, hy⟩ := hb
  rw [hs] at hs'
  cases hs'
  have hwl : ((m r).take w).length = w := by
    rw [List.length_take, hml]
    have := htg.elem
    omega
  have hww' : w' = w := by rw [hy, wordsOf_length] at hwl; exact hwl
  subst hww'
  refine ⟨8 * w' - s.length, ?_, by omega⟩
  rw [hy, cellBytes_wordsOf w' s hfit]

/-- The first eight bytes of a text are all zero only if the text is empty. -/
theorem wordOfBytes_zero (s : Str) (hn : NulFree s) : wordOfBytes (s.take 8) = 0 ↔ s = [] := by
  constructor
  · intro h
    have h1 := wordBytes_wordOfBytes_pad (s.take 8) (by simp)
    rw [h] at h1
    cases s with
    | nil => rfl
    | cons b s =>
      have h2 : (wordBytes (0 : Word)).head? = some b := by rw [h1]; rfl
      have h3 : (wordBytes (0 : Word)).head? = some 0 := by decide
      rw [h3] at h2
      exact absurd (Option.some.inj h2).symm (hn b (by simp))
  · rintro rfl; rfl

/-- **C05**: a decoded cell is the missing value if and only if the encoded cell was; the missing value of a string column is the empty string. -/
theorem C05_missing_iff (env : Env) (hmd5 : env.Md5Ok) (T : UTable) (hT : T.Ok env) :
    ∃ bytes, T.encode env .same = .ok bytes ∧ (bytes.length ≤ 2147483647 →
      ∃ fr, readPlain env bytes = ([fr], none) ∧
        ∀ (c : InCol), c ∈ T.cols → c.vals.Ok env → ∀ tg : Target, tg.Fits T.rows c.vals.words →
          ∃ m, decodeCol bytes fr c.name tg = .ok m ∧ ∀ r,
            match c.vals with
            | .ints vs => ∀ i, vs[r]? = some i → ((m r).head? = some (intWord env.asDbl 2147483647) ↔ i = 2147483647)
            | .bits _ vs => ∀ i, vs[r]? = some i → ((m r).head? = some (intWord env.asDbl 2147483647) ↔ i = 2147483647)
            | .reals vs => ∀ x, vs[r]? = some x → ((m r).head? = some realMDI ↔ x = realMDI)
            | .doubles vs => ∀ x, vs[r]? = some x → ((m r).head? = some realMDI ↔ x = realMDI)
            | .strings _ vs => ∀ s, vs[r]? = some s → ((m r).head? = some 0 ↔ s = [])) := by
  obtain ⟨bytes, henc, _⟩ := T.encode_ok env hmd5 hT .same
  refine ⟨bytes, henc, ?_⟩
  intro hsz
  obtain ⟨b1, e1, f1⟩ := C01_integers_exact env hmd5 T hT
  obtain ⟨b2, e2, f2⟩ := C02_doubles_exact env hmd5 T hT
  obtain ⟨b3, e3, f3⟩ := C03_reals_rounded env hmd5 T hT
  rw [henc] at e1 e2 e3
  cases e1; cases e2; cases e3
  obtain ⟨fr, r1, g1⟩ := f1 hsz
  obtain ⟨fr2, r2, g2⟩ := f2 hsz
  obtain ⟨fr3, r3, g3⟩ := f3 hsz
  rw [r1] at r2 r3
  cases r2; cases r3
  obtain ⟨t, ht, hh⟩ := plain_table env hmd5 T hT bytes henc hsz
  rw [r1] at ht
  cases ht
  refine ⟨[t], r1, ?_⟩
  intro c hc hok tg htg
  obtain ⟨w, m, hw, hw', _, hd, hback, hml, _⟩ := decode_col hh c hc tg htg
  refine ⟨m, hd, ?_⟩
  intro r
  have hint : ∀ vs : List Int, (c.vals = .ints vs ∨ ∃ ms, c.vals = .bits ms vs) → ∀ i, vs[r]? = some i →
      ((m r).head? = some (intWord env.asDbl 2147483647) ↔ i = 2147483647) := by
    intro vs hv i hi
    obtain ⟨m', d', q⟩ := g1 c vs hc hv (by
      rcases hv with h | ⟨ms, h⟩ <;> rw [h] at hok
      · exact hok
      · exact hok.1) tg (by
      rcases hv with h | ⟨ms, h⟩ <;> rw [h] at htg <;> exact htg)
    rw [hd] at d'
    cases d'
    obtain ⟨q1, q2⟩ := q r i hi
    rw [q1]
    constructor
    · intro h
      simp only [Option.some.injEq] at h
      rw [h, wordInt_intWord _ _ (by decide)] at q2
      exact q2.symm
    · rintro rfl; rfl
  cases hv : c.vals with
  | ints vs => exact hint vs (Or.inl hv)
  | bits ms vs => exact hint vs (Or.inr ⟨ms, hv⟩)
  | reals vs =>
    intro x hx
    obtain ⟨m', d', q⟩ := g3 c vs hc hv (by rw [hv] at hok; exact hok) tg (by rw [hv] at htg; exact htg)
    rw [hd] at d'
    cases d'
    obtain ⟨y, y1, y2, _⟩ := q r x hx
    rw [y1]
    simp only [Option.some.injEq]
    exact y2
  | doubles vs =>
    intro x hx
    obtain ⟨m', d', q⟩ := g2 c vs hc hv (by rw [hv] at hok; exact hok) tg (by rw [hv] at htg; exact htg)
    rw [hd] at d'
    cases d'
    rw [q r x hx]
    simp
  | strings words vs =>
    intro s hs
    have hr : r < T.rows := by
      have hrows := (hT.col c hc).2.2
      rw [← hrows, hv]
      exact (List.getElem?_eq_some_iff.mp hs).1
    have hb := (hback r hr).gives hok
    have hok' := hok
    rw [hv] at hb hok'
    have hnf : NulFree s := (hok'.2.2.1 s (List.mem_of_getElem? hs)).2
    obtain ⟨s', w', hs', hfit, hy⟩ := hb
    rw [hs] at hs'
    cases hs'
    have hwl : ((m r).take w).length = w := by
      rw [List.length_take, hml]
      have := htg.elem
      omega
    have hww' : w' = w := by rw [hy, wordsOf_length] at hwl; exact hwl
    subst hww'
    obtain ⟨n, rfl⟩ : ∃ n, w' = n + 1 := ⟨w' - 1, by omega⟩
    have hhead : (m r).head? = some (wordOfBytes (s.take 8)) := by
      have h1 : ((m r).take (n + 1)).head? = (m r).head? := by cases m r <;> rfl
      rw [← h1, hy]
      rfl
    rw [hhead]
    simp only [Option.some.injEq]
    exact wordOfBytes_zero s hnf

/-- **C05**, the short real codecs for *any* value: if the value is accepted then it decodes to missing
exactly if it is the missing value; a value colliding with the marker is refused. -/
theorem C05_short_collision (o : Order) (asDbl : Bool) (ty : ColType) (hty : ty = .real ∨ ty = .double)
    (c : Codec) (hk : c.kind = .shortReal ∨ c.kind = .shortReal2) (v : Word) :
    (feq v c.missing = false ∧ geq (narrow v) (shortMarker c.kind) = true ∧ c.enc o [v] = .error .assertFailed) ∨
    ((feq v c.missing = true ∨ geq (narrow v) (shortMarker c.kind) = false) ∧ ∃ bs, c.enc o [v] = .ok bs ∧
      ∀ rest, (reload asDbl ty.toInt c).dec o (bs ++ rest) =
        .ok ([if feq v c.missing then c.missing else widen (narrow v)], rest)) := by
  by_cases h : feq v c.missing = false ∧ geq (narrow v) (shortMarker c.kind) = true
  · left
    refine ⟨h.1, h.2, ?_⟩
    have : c.enc o [v] = encShort o c (shortMarker c.kind) v := by
      unfold Codec.enc; rcases hk with h | h <;> rw [h] <;> rfl
    rw [this]
    simp [encShort, h.1, h.2]
  · right
    have h' : feq v c.missing = false → geq (narrow v) (shortMarker c.kind) = false := by
      intro h1
      cases h2 : geq (narrow v) (shortMarker c.kind) with
      | false => rfl
      | true => exact absurd ⟨h1, h2⟩ h
    refine ⟨?_, ?_⟩
    · cases h1 : feq v c.missing with
      | true => exact Or.inl rfl
      | false => exact Or.inr (h' h1)
    · obtain ⟨bs, h1, _, h3⟩ := trip_short o asDbl ty hty c c.kind rfl hk v h'
      exact ⟨bs, h1, h3⟩


/-! ### The hypotheses are met -/

theorem few_distinct (vs ds : List Str) (h : ds.Nodup) (hs : ∀ s ∈ ds, s ∈ vs) (hl : vs.length < 65536) :
    ds.length < 65536 := Nat.lt_of_le_of_lt (List.Nodup.subperm h (fun s hs' => hs s hs')).length_le hl

theorem ball {α : Type} {l : List α} {P : α → Prop} [DecidablePred P] (h : (l.all fun a => decide (P a)) = true) :
    ∀ a ∈ l, P a := fun a ha => by simpa using List.all_eq_true.mp h a ha

theorem nulFree_of {s : Str} (h : (s.all fun b => decide (b ≠ 0)) = true) : NulFree s := ball h

theorem sampleDoubles_ok : DoublesOk realMDI [0x3ff0000000000000, 0x4000000000000000, 0x7ff0000000000000] :=
  ⟨ball (by decide +kernel), ball (by decide +kernel), by decide +kernel, fun h => absurd h (by decide +kernel)⟩

theorem sampleReals_ok : RealsOk realMDI [0x3ff8000000000000, ofInt (-2147483647), 0x3fb999999999999a] :=
  ⟨ball (by decide +kernel), by decide +kernel, fun _ => ball (by decide +kernel), ball (by decide +kernel),
    fun h => absurd h (by
      rintro ⟨w, hw, he⟩
      exact absurd he (ball (P := fun w => ¬ feq w (widen maxFloat) = true) (by decide +kernel) w hw))⟩

theorem sampleTable_vals : ∀ c ∈ sampleTable.cols, c.vals.Ok sampleEnv := by
  intro c hc
  simp only [sampleTable, List.mem_cons, List.not_mem_nil, or_false] at hc
  rcases hc with rfl | rfl | rfl | rfl | rfl
  · exact ball (P := InI32) (by decide +kernel)
  · exact sampleDoubles_ok
  · exact sampleReals_ok
  · refine ⟨by decide, by decide, ?_, ?_, ?_, ?_⟩
    · intro s hs
      simp only [List.mem_cons, List.not_mem_nil, or_false] at hs
      rcases hs with rfl | rfl | rfl <;> exact ⟨by decide +kernel, nulFree_of (by decide +kernel)⟩
    · intro ds h1 h2
      exact few_distinct _ _ h1 h2 (by decide)
    · intro h; cases h
    · exact ball (by decide +kernel)
  · refine ⟨ball (P := InI32) (by decide +kernel), by decide +kernel, ?_⟩
    intro b hb
    simp only [List.mem_cons, List.not_mem_nil, or_false] at hb
    rcases hb with rfl | rfl <;> exact ⟨by decide +kernel, by decide +kernel⟩

theorem sampleTable_ok : sampleTable.Ok sampleEnv where
  ne := by decide +kernel
  few := by decide +kernel
  names := by decide +kernel
  col := by
    intro c hc
    refine ⟨?_, (sampleTable_vals c hc).codable, ?_⟩ <;>
    · simp only [sampleTable, List.mem_cons, List.not_mem_nil, or_false] at hc
      rcases hc with rfl | rfl | rfl | rfl | rfl <;> decide +kernel
  props := List.pairwise_singleton _ _
  nprops := by decide +kernel
  plen := by
    intro kv hkv
    simp only [sampleTable, List.mem_singleton] at hkv
    subst hkv
    exact ⟨by decide +kernel, by decide +kernel⟩
  version := by decide +kernel
  rows := by decide +kernel

/-- Encoding, reading and decoding one column, by evaluation. -/
def tryCol (env : Env) (T : UTable) (nm : Str) (words : Nat) : Except Err (List Cell) :=
  match T.encode env .same with
  | .error e => .error e
  | .ok bytes =>
    match readPlain env bytes with
    | ([fr], none) =>
      match decodeCol bytes fr nm ⟨T.rows, words, fun _ => List.replicate words 0xff⟩ with
      | .error e => .error e
      | .ok m => .ok ((List.range T.rows).map m)
    | _ => .error .ub

/-- Sample: the call gives this. -/
def okIs (x : Except Err (List Cell)) (l : List Cell) : Bool :=
  match x with
  | .ok y => decide (y = l)
  | .error _ => false

/-- Sample: the call throws this. -/
def errIs {α : Type} (x : Except Err α) (e : Err) : Bool :=
  match x with
  | .ok _ => false
  | .error e' => decide (e' = e)

theorem sampleBytes : ∃ bytes, sampleTable.encode sampleEnv .same = .ok bytes ∧ bytes.length ≤ 2147483647 := by
  obtain ⟨bytes, h, _⟩ := sampleTable.encode_ok sampleEnv sampleEnv_md5 sampleTable_ok .same
  refine ⟨bytes, h, ?_⟩
  have : (match sampleTable.encode sampleEnv .same with | .ok b => decide (b.length ≤ 2147483647) | _ => false) = true := by
    decide +kernel
  rw [h] at this
  simpa using this

/-- The sample table really goes through. -/
example : okIs (tryCol sampleEnv sampleTable (lit "i@t") 1) [[5], [2147483647], [0xfffffffffffffff9]] = true ∧
    okIs (tryCol sampleEnv sampleTable (lit "b@t") 1) [[31], [0], [1]] = true :=
  ⟨by decide +kernel, by decide +kernel⟩

/-! ### What the domain excludes is really lost (the code violates the unrestricted properties) -/

/-- A table of one column. -/
def oneCol (rows : Nat) (v : Vals) : UTable := ⟨[⟨lit "c", v⟩], rows, []⟩

/-- **C01 fails outside the 32-bit range**: 2147483648 comes back as -2147483648 without any error. -/
theorem C01_violated : okIs (tryCol sampleEnv (oneCol 2 (.ints [0, 2147483648])) (lit "c") 1)
    [[0], [BitVec.ofInt 64 (-2147483648)]] = true := by decide +kernel

/-- **C05 fails outside the 32-bit range**: 6442450943 comes back as the missing value. -/
theorem C05_violated_wide : okIs (tryCol sampleEnv (oneCol 2 (.ints [0, 6442450943])) (lit "c") 1)
    [[0], [2147483647]] = true := by decide +kernel

/-- **C02 fails with NaN**: a NaN next to one other value is replaced by that value. -/
theorem C02_violated_nan : okIs (tryCol sampleEnv (oneCol 2 (.doubles [0x3ff0000000000000, 0x7ff8000000000000])) (lit "c") 1)
    [[0x3ff0000000000000], [0x3ff0000000000000]] = true := by decide +kernel

/-- **C02 fails with both zeros**: -0 becomes +0. -/
theorem C02_violated_zero : okIs (tryCol sampleEnv (oneCol 2 (.doubles [posZero, negZero])) (lit "c") 1)
    [[posZero], [posZero]] = true := by decide +kernel

/-- **C02 fails with -0 next to a missing value.** -/
theorem C02_violated_missing_zero :
    okIs (tryCol sampleEnv (oneCol 2 (.doubles [negZero, ofInt (-2147483647)])) (lit "c") 1)
    [[posZero], [ofInt (-2147483647)]] = true := by decide +kernel

/-- **C03/C28 fail for -FLT_MAX**: the column cannot be encoded. -/
theorem C03_violated_lowest :
    errIs ((oneCol 2 (.reals [widen 0xff7fffff, 0x3ff0000000000000])).encode sampleEnv .same) .assertFailed = true := by
  decide +kernel

/-- **C03/C28 fail for FLT_MIN together with FLT_MAX.** -/
theorem C03_violated_smallest :
    errIs ((oneCol 2 (.reals [widen 0x00800000, widen 0x7f7fffff])).encode sampleEnv .same) .assertFailed = true := by
  decide +kernel

/-- **Infinities only, next to a missing value**: undefined behaviour (conversion of NaN to an integer). -/
theorem C02_violated_inf :
    errIs (tryCol sampleEnv (oneCol 2 (.doubles [0x7ff0000000000000, ofInt (-2147483647)])) (lit "c") 1) .ub = true := by
  decide +kernel

/-- **C04 fails for strings whose first 8 bytes look like a NaN**: the file is written but cannot be read. -/
theorem C04_violated_nan :
    (match (oneCol 2 (.strings 1 [[97], [1, 0xff, 0xff, 0xff, 0xff, 0xff, 0xff, 0x7f]])).encode sampleEnv .same with
      | .ok bytes => (match readPlain sampleEnv bytes with
        | ([], some Err.assertFailed) => true
        | _ => false)
      | .error _ => false) = true := by
  decide +kernel

end Verif
