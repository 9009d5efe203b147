import Verif.RowOut
import Verif.PropValues

/-!
`isMissing` of a row, and what the header of a frame says about missing values.
-/

namespace Verif

/-- `isMissing` of a row, IteratorProxy.h l.113-117: the words are compared, not the numbers. -/
def RowView.isMissing (v : RowView) (i : Nat) : Except Err Bool :=
  match v.cols[i]? with
  | none => .error .ub
  | some k =>
    if k.codec.hasMissing = 0 then .ok false
    else
      match k.codec.missingWord with
      | .error e => .error e
      | .ok m => .ok (decide (m = cellWord (v.cells.getD i [])))

/-! ### Specification -/

/-- Specification: the value in a row is the one that stands for a missing value. -/
def Vals.isMissing : Vals → Nat → Bool
  | .ints vs, r => decide (vs[r]? = some 2147483647)
  | .bits _ vs, r => decide (vs[r]? = some 2147483647)
  | .reals vs, r => decide (vs[r]? = some realMDI)
  | .doubles vs, r => decide (vs[r]? = some realMDI)
  | .strings _ _, _ => false

/-- Specification: the word that stands for a missing value. -/
def Vals.mdiWord (env : Env) : Vals → Word
  | .ints _ => intWord env.asDbl 2147483647
  | .bits _ _ => intWord env.asDbl 2147483647
  | _ => realMDI

/-! ### What the header says about missing values -/

theorem feq_intWord (asDbl : Bool) (i : Int) (hi : InI32 i) : feq (intWord asDbl i) (intWord asDbl 2147483647) = decide (i = 2147483647) := by
  have hm : InI32 2147483647 := by decide
  cases h : feq (intWord asDbl i) (intWord asDbl 2147483647) with
  | true =>
    have := eq_of_feq h ⟨fun _ => by cases asDbl <;> decide +kernel, fun _ => by cases asDbl <;> decide +kernel⟩
    have := intWord_inj asDbl i _ hi hm this
    simp [this]
  | false =>
    symm
    rw [decide_eq_false_iff_not]
    rintro rfl
    have : feq (intWord asDbl 2147483647) (intWord asDbl 2147483647) = true := by cases asDbl <;> decide +kernel
    rw [h] at this
    simp at this

theorem gatherAll_chars (c : Codec) (hk : c.kind = .chars) (xs : List Cell) : (c.gatherAll xs).hasMissing = c.hasMissing := by
  induction xs generalizing c with
  | nil => rfl
  | cons x xs ih =>
    have h1 : (c.gather x).kind = .chars := by rw [(gather_pres c x).1, hk]
    have h2 : (c.gather x).hasMissing = c.hasMissing := by
      unfold Codec.gather
      rw [hk]
      rfl
    have := ih _ h1
    rw [h2] at this
    simpa [Codec.gatherAll] using this

theorem rebuild_has {k : Kind} {ty : ColType} {asDbl : Bool} {c c' : Codec} (h : rebuild k ty asDbl c = .ok c') (h0 : c.hasMissing = 0) : c'.hasMissing = 0 := by
  unfold rebuild at h
  split at h
  · simp only [Except.ok.injEq] at h
    subst h
    simp [h0]
  · simp at h

theorem chosen_strHas {asDbl longEnv : Bool} {w : Nat} {cells : List Cell} {c : Codec}
    (h : chosenCodec .string asDbl longEnv w none cells = .ok c) : c.hasMissing = 0 := by
  obtain ⟨c0, h0, hk, _, _, _, h4, _⟩ := startCodec_str asDbl w
  unfold chosenCodec at h
  rw [h0] at h
  dsimp only at h
  have hg : (c0.gatherAll cells).hasMissing = 0 := by rw [gatherAll_chars c0 hk, h4]
  generalize c0.gatherAll cells = g at h hg
  unfold optimise at h
  dsimp only at h
  split at h
  · cases hr : rebuild (strKind longEnv g.strings.length g.width) .string asDbl g with
    | error e => rw [hr] at h; simp at h
    | ok c' =>
      rw [hr] at h
      dsimp only at h
      have := rebuild_has hr hg
      split at h
      · simp only [Except.ok.injEq] at h
        subst h
        exact this
      · simp only [Except.ok.injEq] at h
        subst h
        exact this
  · simp at h

theorem sent_ints {env : Env} {ty : ColType} (hty : ty = .integer ∨ ty = .bitfield) {vs : List Int} (hvs : ∀ i ∈ vs, InI32 i) {c : Codec}
    (h : chosenCodec ty env.asDbl env.longEnv 1 none (vs.map (fun i => [intWord env.asDbl i])) = .ok c) {m : Word} (hm : c.missingWord = .ok m) :
    (c.hasMissing = 0 ∨ c.hasMissing = 1) ∧ ∀ (r : Nat) (i : Int), vs[r]? = some i →
      (decide (c.hasMissing ≠ 0) && feq (intWord env.asDbl i) m) = decide (vs[r]? = some 2147483647) := by
  have hmi : InI32 2147483647 := by decide
  obtain ⟨hinv, n, _, hkind⟩ := chosen_int hty (fun i hi => (hvs i hi).small) h
  refine ⟨hinv.has01, ?_⟩
  intro r i hi
  have hii := hvs i (List.mem_of_getElem? hi)
  have hmem := List.mem_of_getElem? hi
  by_cases hh : c.hasMissing = 0
  · have : i ≠ 2147483647 := by
      rintro rfl
      exact hinv.has.mpr ⟨_, List.mem_map.mpr ⟨_, hmem, rfl⟩, by decide +kernel⟩ hh
    simp [hh, hi, this]
  · obtain ⟨c0, h0, hk0, _⟩ := startCodec_int ty hty env.asDbl 2147483647 hmi none (Or.inr ⟨rfl, rfl⟩)
    obtain ⟨_, _, p3⟩ := chosen_pres (by rcases hty with rfl | rfl <;> simp) h0 h
    rw [show decide (c.hasMissing ≠ 0) = true by simpa using hh] at hkind
    have hk := intKind_hasMissing n
    rw [← hkind] at hk
    have hvt : c.vt = vtI env.asDbl := by
      rw [p3]
      apply vtOf_int _ _ ty hty
      rw [hkind]; unfold intKind; split <;> split <;> (try rfl) <;> split <;> (try rfl) <;> split <;> rfl
    rw [int_missingWord hmi hvt hinv.missing hk] at hm
    simp only [Except.ok.injEq] at hm
    subst hm
    rw [feq_intWord _ _ hii, hi]
    simp [hh]

theorem sent_reals {env : Env} {ty : ColType} (hty : ty = .real ∨ ty = .double) {vs : List Word} (hvs : ∀ v ∈ vs, isNaN v = false) {c : Codec}
    (h : chosenCodec ty env.asDbl env.longEnv 1 none (vs.map (fun v => [v])) = .ok c) {m : Word} (hm : c.missingWord = .ok m) :
    (c.hasMissing = 0 ∨ c.hasMissing = 1) ∧ ∀ (r : Nat) (i : Word), vs[r]? = some i →
      (decide (c.hasMissing ≠ 0) && feq i m) = decide (vs[r]? = some realMDI) := by
  obtain ⟨hinv, _⟩ := chosen_real hty hvs h
  rw [real_missingWord (chosen_isReal hty h), hinv.missing] at hm
  simp only [Except.ok.injEq] at hm
  subst hm
  refine ⟨hinv.has01, ?_⟩
  intro r i hi
  have hmem := List.mem_of_getElem? hi
  rw [hi]
  by_cases hx : i = realMDI
  · have := hinv.has.mpr ⟨i, hmem, (feq_mdi i).mpr hx⟩
    rw [(feq_mdi i).mpr hx]
    simp [this, hx]
  · have : feq i realMDI = false := by
      cases hf : feq i realMDI with
      | false => rfl
      | true => exact absurd ((feq_mdi i).mp hf) hx
    simp [this, hx]

/-- The answer of `isMissing`. -/
theorem RowView.isMissing_of {v : RowView} {p : Nat} {k : Col} {y : Cell} {m : Word} (hk : v.cols[p]? = some k) (hy : v.cells[p]? = some y)
    (hm : k.codec.missingWord = .ok m) : v.isMissing p = .ok (decide (k.codec.hasMissing ≠ 0) && decide (m = cellWord y)) := by
  unfold RowView.isMissing
  rw [hk]
  dsimp only
  rw [List.getD_eq_getElem?_getD, hy, hm]
  by_cases h : k.codec.hasMissing = 0
  · simp [h]
  · simp [h]

theorem told_ints {env : Env} {ty : ColType} (hty : ty = .integer ∨ ty = .bitfield) {vs : List Int} (hvs : ∀ i ∈ vs, InI32 i) {c : Codec}
    (h : chosenCodec ty env.asDbl env.longEnv 1 none (vs.map (fun i => [intWord env.asDbl i])) = .ok c) {m : Word} (hm : c.missingWord = .ok m)
    (r : Nat) (i : Int) (hi : vs[r]? = some i) : (decide (c.hasMissing ≠ 0) && decide (m = intWord env.asDbl i)) = decide (vs[r]? = some 2147483647) := by
  have hb := (sent_ints hty hvs h hm).2 r i hi
  have hii := hvs i (List.mem_of_getElem? hi)
  by_cases hh : c.hasMissing = 0
  · rw [← hb]; simp [hh]
  · rw [show decide (c.hasMissing ≠ 0) = true by simpa using hh, Bool.true_and] at hb ⊢
    have hmi : InI32 2147483647 := by decide
    obtain ⟨hinv, n, _, hkind⟩ := chosen_int hty (fun i hi => (hvs i hi).small) h
    obtain ⟨c0, h0, hk0, _⟩ := startCodec_int ty hty env.asDbl 2147483647 hmi none (Or.inr ⟨rfl, rfl⟩)
    obtain ⟨_, _, p3⟩ := chosen_pres (by rcases hty with rfl | rfl <;> simp) h0 h
    rw [show decide (c.hasMissing ≠ 0) = true by simpa using hh] at hkind
    have hk := intKind_hasMissing n
    rw [← hkind] at hk
    have hvt : c.vt = vtI env.asDbl := by
      rw [p3]
      apply vtOf_int _ _ ty hty
      rw [hkind]; unfold intKind; split <;> split <;> (try rfl) <;> split <;> (try rfl) <;> split <;> rfl
    rw [int_missingWord hmi hvt hinv.missing hk] at hm
    simp only [Except.ok.injEq] at hm
    subst hm
    rw [hi, decide_eq_decide]
    simp only [Option.some.injEq]
    exact ⟨fun e => (intWord_inj _ _ _ hmi hii e).symm, fun e => by rw [e]⟩

theorem told_reals {env : Env} {ty : ColType} (hty : ty = .real ∨ ty = .double) {vs : List Word} (hvs : ∀ v ∈ vs, isNaN v = false) {c : Codec}
    (h : chosenCodec ty env.asDbl env.longEnv 1 none (vs.map (fun v => [v])) = .ok c) {m : Word} (hm : c.missingWord = .ok m)
    (r : Nat) (x x' : Word) (hi : vs[r]? = some x) (hx : x' = realMDI ↔ x = realMDI) :
    (decide (c.hasMissing ≠ 0) && decide (m = x')) = decide (vs[r]? = some realMDI) := by
  obtain ⟨hinv, _⟩ := chosen_real hty hvs h
  rw [real_missingWord (chosen_isReal hty h), hinv.missing] at hm
  simp only [Except.ok.injEq] at hm
  subst hm
  have hmem := List.mem_of_getElem? hi
  rw [hi]
  by_cases hm : x = realMDI
  · have := hinv.has.mpr ⟨x, hmem, (feq_mdi x).mpr hm⟩
    simp [this, hm, hx.mpr hm]
  · have : realMDI ≠ x' := fun e => hm (hx.mp e.symm)
    simp [this, hm]

theorem RealOut.mdi {vs : List Word} {x x' : Word} (hx : RealOut realMDI vs x x') : x' = realMDI ↔ x = realMDI := by
  unfold RealOut at hx
  by_cases hm : x = realMDI
  · rw [if_pos ((feq_mdi x).mpr hm)] at hx
    simp [hm, hx]
  · rw [if_neg (fun h => hm ((feq_mdi x).mp h))] at hx
    constructor
    · intro e
      rcases hx with hx | hx
      · exact absurd (hx ▸ e) (widen_ne_mdi _)
      · rw [← hx.1]; exact e
    · exact fun e => absurd e hm

/-- A column written without a missing value of its own: what the reader says about a value. -/
theorem ColSent.told {env : Env} {v : Vals} {c : Codec} {back : Cell → Cell} (h : ColSent env v none c back) (hok : v.Ok env) (r : Nat) (y : Cell)
    (hy : v.Gives env r y) : ∃ m : Word, (reload env.asDbl v.ty.toInt c).missingWord = .ok m ∧
      (decide ((reload env.asDbl v.ty.toInt c).hasMissing ≠ 0) && decide (m = cellWord y)) = v.isMissing r := by
  obtain ⟨c0, h0⟩ : ∃ c0, startCodec v.ty env.asDbl v.words none = .ok c0 := by
    have := h.chosen
    unfold chosenCodec at this
    split at this
    · simp at this
    · rename_i c0 h0; exact ⟨c0, h0⟩
  obtain ⟨p1, p2, p3⟩ := chosen_pres v.ty_ne h0 h.chosen
  have hmw := reload_missingWord (ty := v.ty.toInt) p3
  obtain ⟨m, m1, m2⟩ := h.missing
  refine ⟨m, m1, ?_⟩
  rw [(reload_spec env.asDbl v.ty.toInt c).2.2.2]
  have hch := h.chosen
  cases v with
  | ints vs =>
    obtain ⟨i, i1, rfl⟩ := hy
    exact told_ints (Or.inl rfl) hok hch m2 r i i1
  | bits ms vs =>
    obtain ⟨i, i1, rfl⟩ := hy
    exact told_ints (Or.inr rfl) hok.1 hch m2 r i i1
  | reals vs =>
    obtain ⟨x, x', i1, rfl, hx⟩ := hy
    exact told_reals (Or.inl rfl) hok.nan hch m2 r x x' i1 hx.mdi
  | doubles vs =>
    obtain ⟨x, i1, rfl⟩ := hy
    exact told_reals (Or.inr rfl) hok.nan hch m2 r x x i1 Iff.rfl
  | strings w vs =>
    rw [chosen_strHas hch]
    simp [Vals.isMissing]

theorem Vals.mdi_ty (env : Env) {a b : Vals} (h : a.ty = b.ty) : a.mdiWord env = b.mdiWord env := by
  cases a <;> cases b <;> simp [Vals.ty] at h <;> rfl

theorem intKind_isInt (b : Bool) (n : Int) :
    ((intKind b n).isInt = true ∧ intKind b n ≠ .realConstOrMissing) ∨ (intKind b n).isInt = false := by
  cases b with
  | true => exact Or.inl (intKind_hasMissing n)
  | false =>
    unfold intKind
    simp only [Bool.false_eq_true, if_false]
    split <;> (try split) <;> (try split) <;> simp [Kind.isInt]

theorem mdi_ints {env : Env} (had : env.asDbl = true) {ty : ColType} (hty : ty = .integer ∨ ty = .bitfield) {vs : List Int} (hvs : ∀ i ∈ vs, InI32 i) {c : Codec}
    (h : chosenCodec ty env.asDbl env.longEnv 1 none (vs.map (fun i => [intWord env.asDbl i])) = .ok c) :
    c.missingWord = .ok (intWord env.asDbl 2147483647) := by
  have hmi : InI32 2147483647 := by decide
  obtain ⟨hinv, n, _, hkind⟩ := chosen_int hty (fun i hi => (hvs i hi).small) h
  obtain ⟨c0, h0, _⟩ := startCodec_int ty hty env.asDbl 2147483647 hmi none (Or.inr ⟨rfl, rfl⟩)
  obtain ⟨_, _, p3⟩ := chosen_pres (by rcases hty with rfl | rfl <;> simp) h0 h
  have hk := intKind_isInt (decide (c.hasMissing ≠ 0)) n
  rw [← hkind] at hk
  have hvt : c.vt = vtI env.asDbl := by
    rw [p3]
    apply vtOf_int _ _ ty hty
    rw [hkind]; unfold intKind; split <;> split <;> (try rfl) <;> split <;> (try rfl) <;> split <;> rfl
  rcases hk with hk | hk
  · exact int_missingWord hmi hvt hinv.missing hk
  · unfold Codec.missingWord
    rw [hk, had, hinv.missing]
    simp only [Bool.false_and, Bool.false_eq_true, if_false, intWord, if_true]

theorem gatherAll_charsMissing (c : Codec) (hk : c.kind = .chars) (xs : List Cell) : (c.gatherAll xs).missing = c.missing := by
  induction xs generalizing c with
  | nil => rfl
  | cons x xs ih =>
    have h1 : (c.gather x).kind = .chars := by rw [(gather_pres c x).1, hk]
    have h2 : (c.gather x).missing = c.missing := by
      unfold Codec.gather
      rw [hk]
      rfl
    have := ih _ h1
    rw [h2] at this
    simpa [Codec.gatherAll] using this

theorem mdi_strs {asDbl longEnv : Bool} {w : Nat} {cells : List Cell} {c : Codec}
    (h : chosenCodec .string asDbl longEnv w none cells = .ok c) : c.missingWord = .ok realMDI := by
  obtain ⟨c0, h0, hk, hm, _⟩ := startCodec_str asDbl w
  unfold chosenCodec at h
  rw [h0] at h
  dsimp only at h
  have hg : (c0.gatherAll cells).missing = realMDI := by rw [gatherAll_charsMissing c0 hk, hm]
  generalize c0.gatherAll cells = g at h hg
  unfold optimise at h
  dsimp only at h
  split at h
  · have hs : strKind longEnv g.strings.length g.width = .constantString ∨ strKind longEnv g.strings.length g.width = .longConstantString ∨
        strKind longEnv g.strings.length g.width = .int8String ∨ strKind longEnv g.strings.length g.width = .int16String := by
      unfold strKind
      split
      · exact Or.inl rfl
      · split
        · exact Or.inr (Or.inl rfl)
        · split
          · exact Or.inr (Or.inr (Or.inl rfl))
          · exact Or.inr (Or.inr (Or.inr rfl))
    obtain ⟨c', r1, r2, r3, _⟩ := rebuild_str _ hs asDbl g
    rw [r1] at h
    dsimp only at h
    have key : ∀ d : Codec, d.kind = c'.kind → d.missing = c'.missing → d.missingWord = .ok realMDI := by
      intro d d1 d2
      unfold Codec.missingWord
      rw [d1, d2, r2, r3, hg, if_neg]
      rcases hs with hs | hs | hs | hs <;> rw [hs] <;> simp [Kind.isInt]
    split at h
    · simp only [Except.ok.injEq] at h
      subst h
      exact key _ rfl rfl
    · simp only [Except.ok.injEq] at h
      subst h
      exact key _ rfl rfl
  · simp at h

/-- A column written without a missing value of its own: the missing value the reader reports. -/
theorem ColSent.reports {env : Env} (had : env.asDbl = true) {v : Vals} {c : Codec} {back : Cell → Cell} (h : ColSent env v none c back) (hok : v.Ok env) :
    (reload env.asDbl v.ty.toInt c).missingWord = .ok (v.mdiWord env) := by
  obtain ⟨c0, h0⟩ : ∃ c0, startCodec v.ty env.asDbl v.words none = .ok c0 := by
    have := h.chosen
    unfold chosenCodec at this
    split at this
    · simp at this
    · rename_i c0 h0; exact ⟨c0, h0⟩
  obtain ⟨p1, p2, p3⟩ := chosen_pres v.ty_ne h0 h.chosen
  rw [reload_missingWord (ty := v.ty.toInt) p3]
  have hch := h.chosen
  have hreal : ∀ (ty : ColType) (hty : ty = .real ∨ ty = .double) (vs : List Word) (hvs : ∀ v ∈ vs, isNaN v = false)
      (hc : chosenCodec ty env.asDbl env.longEnv 1 none (vs.map (fun v => [v])) = .ok c), c.missingWord = .ok realMDI := by
    intro ty hty vs hvs hc
    obtain ⟨hinv, _⟩ := chosen_real hty hvs hc
    rw [real_missingWord (chosen_isReal hty hc), hinv.missing]
  cases v with
  | ints vs => exact mdi_ints had (Or.inl rfl) hok hch
  | bits ms vs => exact mdi_ints had (Or.inr rfl) hok.1 hch
  | reals vs => exact hreal _ (Or.inl rfl) vs hok.nan hch
  | doubles vs => exact hreal _ (Or.inr rfl) vs hok.nan hch
  | strings w vs => exact mdi_strs hch

/-- What the header says about missing values in a column written without a missing value of its own. -/
theorem ColSent.flag {env : Env} {v : Vals} {c : Codec} {back : Cell → Cell} (h : ColSent env v none c back) (hok : v.Ok env) :
    ((reload env.asDbl v.ty.toInt c).hasMissing = 0 ∨ (reload env.asDbl v.ty.toInt c).hasMissing = 1) ∧
      ((reload env.asDbl v.ty.toInt c).hasMissing ≠ 0 → ∃ r : Nat, r < v.rows ∧ v.isMissing r = true) := by
  rw [(reload_spec env.asDbl v.ty.toInt c).2.2.2]
  have hch := h.chosen
  have hint : ∀ (ty : ColType) (hty : ty = .integer ∨ ty = .bitfield) (vs : List Int) (hvs : ∀ i ∈ vs, InI32 i)
      (hc : chosenCodec ty env.asDbl env.longEnv 1 none (vs.map (fun i => [intWord env.asDbl i])) = .ok c),
      (c.hasMissing = 0 ∨ c.hasMissing = 1) ∧ (c.hasMissing ≠ 0 → ∃ r : Nat, r < vs.length ∧ decide (vs[r]? = some 2147483647) = true) := by
    intro ty hty vs hvs hc
    obtain ⟨hinv, _⟩ := chosen_int hty (fun i hi => (hvs i hi).small) hc
    refine ⟨hinv.has01, ?_⟩
    intro hh
    obtain ⟨d, hd, hf⟩ := hinv.has.mp hh
    obtain ⟨i, hi, rfl⟩ := List.mem_map.mp hd
    obtain ⟨r, hr⟩ := List.mem_iff_getElem?.mp hi
    refine ⟨r, (List.getElem?_eq_some_iff.mp hr).1, ?_⟩
    rw [hr]
    have := eq_of_feq hf ⟨fun _ => by decide +kernel, fun _ => by decide +kernel⟩
    have := ofInt_inj _ _ (hvs i hi).small (InI32.small (i := 2147483647) (by decide)) this
    simp [this]
  have hreal : ∀ (ty : ColType) (hty : ty = .real ∨ ty = .double) (vs : List Word) (hvs : ∀ v ∈ vs, isNaN v = false)
      (hc : chosenCodec ty env.asDbl env.longEnv 1 none (vs.map (fun v => [v])) = .ok c),
      (c.hasMissing = 0 ∨ c.hasMissing = 1) ∧ (c.hasMissing ≠ 0 → ∃ r : Nat, r < vs.length ∧ decide (vs[r]? = some realMDI) = true) := by
    intro ty hty vs hvs hc
    obtain ⟨hinv, _⟩ := chosen_real hty hvs hc
    refine ⟨hinv.has01, ?_⟩
    intro hh
    obtain ⟨d, hd, hf⟩ := hinv.has.mp hh
    obtain ⟨r, hr⟩ := List.mem_iff_getElem?.mp hd
    refine ⟨r, (List.getElem?_eq_some_iff.mp hr).1, ?_⟩
    rw [hr, (feq_mdi d).mp hf]
    simp
  cases v with
  | ints vs => exact hint .integer (Or.inl rfl) vs hok hch
  | bits ms vs => exact hint .bitfield (Or.inr rfl) vs hok.1 hch
  | reals vs => exact hreal .real (Or.inl rfl) vs hok.nan hch
  | doubles vs => exact hreal .double (Or.inr rfl) vs hok.nan hch
  | strings w vs =>
    have := chosen_strHas hch
    exact ⟨Or.inl this, fun h => absurd this h⟩

end Verif
