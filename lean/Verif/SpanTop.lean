import Verif.Span

/-
What `span` finds in a table written by the user.
-/

namespace Verif

/-! ### Specification -/

/-- `i` is one of the values of an INTEGER or BITFIELD column. -/
def Vals.HasInt : Vals → Int → Prop
  | .ints vs, i => i ∈ vs
  | .bits _ vs, i => i ∈ vs
  | _, _ => False

/-- `s` is one of the values of a STRING column. -/
def Vals.HasStr : Vals → Str → Prop
  | .strings _ vs, s => s ∈ vs
  | _, _ => False

/-- `y` is one of the values decoding a REAL or DOUBLE column gives. -/
def Vals.HasReal (env : Env) (v : Vals) (y : Word) : Prop := ∃ r, v.Back env r [y]

/-- The three kinds of values. -/
inductive Sort3
  | int | real | str
  deriving DecidableEq

/-- Specification: the kind of values of a column in a span. -/
def Vals.sort : Vals → Sort3
  | .ints _ | .bits _ _ => .int
  | .reals _ | .doubles _ => .real
  | .strings _ _ => .str

/-- Specification: the kind of values of a column of a span. -/
def ColSpan.sort : ColSpan → Sort3
  | .ints _ => .int
  | .reals _ => .real
  | .strs _ => .str

/-- The set `V` lists exactly the values of the columns satisfying `P`.  For doubles `==` decides what is the same
value, so +0 and -0 are one value. -/
def SpanIs (env : Env) (P : Vals → Prop) : ColSpan → Prop
  | .ints l => ∀ i, i ∈ l ↔ ∃ v, P v ∧ v.HasInt i
  | .strs l => ∀ s, s ∈ l ↔ ∃ v, P v ∧ v.HasStr s
  | .reals l => (∀ y ∈ l, ∃ v, P v ∧ v.HasReal env y) ∧
      ∀ v, P v → ∀ y, v.HasReal env y → ∃ y' ∈ l, feq y' y = true

/-! ### Sets -/

theorem insertNew_mem {α : Type} [DecidableEq α] (l : List α) (x y : α) : y ∈ insertNew l x ↔ y ∈ l ∨ y = x := by
  unfold insertNew
  split
  · rename_i h
    constructor
    · exact Or.inl
    · rintro (h' | rfl)
      · exact h'
      · exact h
  · simp

theorem insertNews_mem {α : Type} [DecidableEq α] (xs l : List α) (y : α) :
    y ∈ xs.foldl insertNew l ↔ y ∈ l ∨ y ∈ xs := by
  induction xs generalizing l with
  | nil => simp
  | cons x xs ih => rw [List.foldl_cons, ih, insertNew_mem]; simp [or_assoc]

theorem insertReals_ok (xs l : List Word) (h : ∀ x ∈ xs, isNaN x = false) :
    ∃ l', insertReals l xs = .ok l' ∧ (∀ y ∈ l', y ∈ l ∨ y ∈ xs) ∧ (∀ y ∈ l, y ∈ l') ∧
      ∀ x ∈ xs, ∃ y ∈ l', feq y x = true := by
  induction xs generalizing l with
  | nil => exact ⟨l, rfl, fun y hy => Or.inl hy, fun y hy => hy, by simp⟩
  | cons x xs ih =>
    have hx := h x (by simp)
    have hone : ∃ l1, insertReal l x = .ok l1 ∧ (∀ y ∈ l1, y ∈ l ∨ y = x) ∧ (∀ y ∈ l, y ∈ l1) ∧ ∃ y ∈ l1, feq y x = true := by
      unfold insertReal
      rw [if_neg (by simp [hx])]
      by_cases ha : l.any (fun y => feq y x) = true
      · rw [if_pos ha]
        refine ⟨l, rfl, fun y hy => Or.inl hy, fun y hy => hy, ?_⟩
        simpa using ha
      · rw [if_neg ha]
        exact ⟨l ++ [x], rfl, by simp, by simp +contextual, x, by simp, feq_self hx⟩
    obtain ⟨l1, a1, a2, a3, y1, a4, a5⟩ := hone
    obtain ⟨l', b1, b2, b3, b4⟩ := ih l1 (fun x hx => h x (by simp [hx]))
    refine ⟨l', by simp [insertReals, a1, b1], ?_, fun y hy => b3 y (a3 y hy), ?_⟩
    · intro y hy
      rcases b2 y hy with h | h
      · rcases a2 y h with h | h
        · exact Or.inl h
        · exact Or.inr (by simp [h])
      · exact Or.inr (by simp [h])
    · intro x' hx'
      rcases List.mem_cons.mp hx' with rfl | hx'
      · exact ⟨y1, b3 y1 a4, a5⟩
      · exact b4 x' hx'

/-- No NaN among listed reals. -/
def ColSpan.NoNaN : ColSpan → Prop
  | .reals l => ∀ y ∈ l, isNaN y = false
  | _ => True

/-- A good set: right values, no NaN. -/
structure SpanOk (env : Env) (k : Sort3) (P : Vals → Prop) (V : ColSpan) : Prop where
  sort : V.sort = k
  is : SpanIs env P V
  nan : V.NoNaN

theorem feq_trans {a b c : Word} (h1 : feq a b = true) (h2 : feq b c = true) : feq a c = true := by
  unfold feq at *
  simp only [Bool.and_eq_true, Bool.not_eq_true', decide_eq_true_eq] at *
  exact ⟨⟨h1.1.1, h2.1.2⟩, h1.2.trans h2.2⟩

theorem SpanOk.merge {env : Env} {k : Sort3} {P Q : Vals → Prop} {V W : ColSpan} (h1 : SpanOk env k P V)
    (h2 : SpanOk env k Q W) : ∃ U, V.merge W = .ok U ∧ SpanOk env k (fun v => P v ∨ Q v) U := by
  have hs := h1.sort
  have ht := h2.sort
  cases V with
  | ints a =>
    cases W with
    | ints b =>
      refine ⟨_, rfl, ⟨hs, ?_, trivial⟩⟩
      intro i
      rw [insertNews_mem, h1.is i, h2.is i]
      constructor
      · rintro (⟨v, x, y⟩ | ⟨v, x, y⟩)
        · exact ⟨v, Or.inl x, y⟩
        · exact ⟨v, Or.inr x, y⟩
      · rintro ⟨v, x | x, y⟩
        · exact Or.inl ⟨v, x, y⟩
        · exact Or.inr ⟨v, x, y⟩
    | reals b => rw [← hs] at ht; cases ht
    | strs b => rw [← hs] at ht; cases ht
  | strs a =>
    cases W with
    | strs b =>
      refine ⟨_, rfl, ⟨hs, ?_, trivial⟩⟩
      intro i
      rw [insertNews_mem, h1.is i, h2.is i]
      constructor
      · rintro (⟨v, x, y⟩ | ⟨v, x, y⟩)
        · exact ⟨v, Or.inl x, y⟩
        · exact ⟨v, Or.inr x, y⟩
      · rintro ⟨v, x | x, y⟩
        · exact Or.inl ⟨v, x, y⟩
        · exact Or.inr ⟨v, x, y⟩
    | reals b => rw [← hs] at ht; cases ht
    | ints b => rw [← hs] at ht; cases ht
  | reals a =>
    cases W with
    | reals b =>
      obtain ⟨l, a1, a2, a3, a4⟩ := insertReals_ok b a h2.nan
      obtain ⟨p1, p2⟩ := h1.is
      obtain ⟨q1, q2⟩ := h2.is
      refine ⟨.reals l, by simp [ColSpan.merge, a1], ⟨hs, ⟨?_, ?_⟩, ?_⟩⟩
      · intro y hy
        rcases a2 y hy with h | h
        · obtain ⟨v, x, z⟩ := p1 y h; exact ⟨v, Or.inl x, z⟩
        · obtain ⟨v, x, z⟩ := q1 y h; exact ⟨v, Or.inr x, z⟩
      · rintro v (hv | hv) y hy
        · obtain ⟨y', b1, b2⟩ := p2 v hv y hy; exact ⟨y', a3 y' b1, b2⟩
        · obtain ⟨y', b1, b2⟩ := q2 v hv y hy
          obtain ⟨y'', c1, c2⟩ := a4 y' b1
          exact ⟨y'', c1, feq_trans c2 b2⟩
      · intro y hy
        rcases a2 y hy with h | h
        · exact h1.nan y h
        · exact h2.nan y h
    | ints b => rw [← hs] at ht; cases ht
    | strs b => rw [← hs] at ht; cases ht

theorem SpanOk.none {env : Env} {k : Sort3} {P : Vals → Prop} {V : ColSpan} (h : SpanOk env k P V) :
    SpanOk env k (fun _ => False) V.none := by
  have := h.sort
  cases V <;> exact ⟨this, by simp [ColSpan.none, SpanIs], by simp [ColSpan.none, ColSpan.NoNaN]⟩

theorem SpanOk.congr {env : Env} {k : Sort3} {P Q : Vals → Prop} {V : ColSpan} (h : SpanOk env k P V)
    (hpq : ∀ v, P v ↔ Q v) : SpanOk env k Q V := by
  have : P = Q := funext (fun v => propext (hpq v))
  rw [← this]; exact h

/-! ### Association lists -/

/-- Every entry is complete, and every column with values has an entry. -/
structure Good (env : Env) (K : Str → Sort3) (l : List (Str × ColSpan)) (F : Str → Vals → Prop) : Prop where
  entry : ∀ e ∈ l, SpanOk env (K e.1) (F e.1) e.2
  all : ∀ nm v, F nm v → nm ∈ l.map Prod.fst

theorem spanAdd_good {env : Env} {K : Str → Sort3} (nm : Str) (V : ColSpan) (P : Vals → Prop)
    (hV : SpanOk env (K nm) P V) (l : List (Str × ColSpan)) (F : Str → Vals → Prop) (hl : (l.map Prod.fst).Nodup)
    (h : ∀ e ∈ l, SpanOk env (K e.1) (F e.1) e.2) (hF : ∀ v, F nm v → nm ∈ l.map Prod.fst) :
    ∃ l', spanAdd nm V l = .ok l' ∧ (l'.map Prod.fst).Nodup ∧
      (∀ x, x ∈ l'.map Prod.fst ↔ x ∈ l.map Prod.fst ∨ x = nm) ∧
      ∀ e ∈ l', SpanOk env (K e.1) (fun v => F e.1 v ∨ (e.1 = nm ∧ P v)) e.2 := by
  induction l with
  | nil =>
    obtain ⟨U, h1, h2⟩ := hV.none.merge hV
    refine ⟨[(nm, U)], by simp [spanAdd, h1], by simp, by simp, ?_⟩
    intro e he
    simp only [List.mem_singleton] at he
    subst he
    apply h2.congr
    intro v
    simp only [true_and]
    constructor
    · rintro (h | h)
      · exact h.elim
      · exact Or.inr h
    · rintro (h | h)
      · simpa using hF v h
      · exact Or.inr h
  | cons e l ih =>
    rw [List.map_cons, List.nodup_cons] at hl
    by_cases hk : e.1 = nm
    · obtain ⟨U, h1, h2⟩ := SpanOk.merge (by have := h e (by simp); rw [hk] at this; exact this) hV
      refine ⟨(nm, U) :: l, by simp [spanAdd, hk, h1], ?_, ?_, ?_⟩
      · rw [List.map_cons, List.nodup_cons]
        exact ⟨by simpa [hk] using hl.1, hl.2⟩
      · intro x
        simp only [List.map_cons, List.mem_cons, hk]
        constructor
        · exact Or.inl
        · rintro (h | h)
          · exact h
          · exact Or.inl h
      · intro e' he'
        rcases List.mem_cons.mp he' with rfl | he'
        · exact h2.congr (by simp)
        · have hne : e'.1 ≠ nm := by
            intro hc
            apply hl.1
            rw [hk, ← hc]
            exact List.mem_map_of_mem he'
          exact (h e' (by simp [he'])).congr (by simp [hne])
    · obtain ⟨l', a1, a2, a3, a4⟩ := ih hl.2 (fun e' he' => h e' (by simp [he'])) (by
        intro v hv
        have := hF v hv
        simp only [List.map_cons, List.mem_cons] at this
        rcases this with h | h
        · exact absurd h.symm hk
        · exact h)
      refine ⟨e :: l', by simp [spanAdd, hk, a1], ?_, ?_, ?_⟩
      · rw [List.map_cons, List.nodup_cons]
        refine ⟨?_, a2⟩
        rw [a3]
        rintro (h | h)
        · exact hl.1 h
        · exact hk h
      · intro x
        simp only [List.map_cons, List.mem_cons, a3, or_assoc]
      · intro e' he'
        rcases List.mem_cons.mp he' with rfl | he'
        · exact (h e' (by simp)).congr (by simp [hk])
        · exact a4 e' he'

theorem spanAddAll_good {env : Env} {K : Str → Sort3} (es l : List (Str × ColSpan)) (F G : Str → Vals → Prop)
    (hl : (l.map Prod.fst).Nodup) (h : Good env K l F) (hes : ∀ e ∈ es, SpanOk env (K e.1) (G e.1) e.2) :
    ∃ l', spanAddAll l es = .ok l' ∧ (l'.map Prod.fst).Nodup ∧
      Good env K l' (fun nm v => F nm v ∨ (nm ∈ es.map Prod.fst ∧ G nm v)) ∧
      ∀ x, x ∈ l'.map Prod.fst ↔ x ∈ l.map Prod.fst ∨ x ∈ es.map Prod.fst := by
  induction es generalizing l F with
  | nil =>
    refine ⟨l, rfl, hl, ⟨fun e he => (h.entry e he).congr (by simp), ?_⟩, by simp⟩
    intro nm v hv
    simp only [List.map_nil, List.not_mem_nil, false_and, or_false] at hv
    exact h.all nm v hv
  | cons e es ih =>
    obtain ⟨l1, a1, a2, a3, a4⟩ := spanAdd_good e.1 e.2 (G e.1) (hes e (by simp)) l F hl h.entry (h.all e.1)
    obtain ⟨l2, b1, b2, b3, b4⟩ := ih l1 (fun nm v => F nm v ∨ (nm = e.1 ∧ G e.1 v)) a2
      ⟨a4, by
        intro nm v hv
        rw [a3]
        rcases hv with hv | ⟨hv, _⟩
        · exact Or.inl (h.all nm v hv)
        · exact Or.inr hv⟩ (fun e' he' => hes e' (by simp [he']))
    have hiff : ∀ nm v, ((F nm v ∨ (nm = e.1 ∧ G e.1 v)) ∨ (nm ∈ es.map Prod.fst ∧ G nm v)) ↔
        (F nm v ∨ (nm ∈ (e :: es).map Prod.fst ∧ G nm v)) := by
      intro nm v
      simp only [List.map_cons, List.mem_cons]
      constructor
      · rintro ((h | ⟨rfl, h⟩) | ⟨h, h'⟩)
        · exact Or.inl h
        · exact Or.inr ⟨Or.inl rfl, h⟩
        · exact Or.inr ⟨Or.inr h, h'⟩
      · rintro (h | ⟨rfl | h, h'⟩)
        · exact Or.inl (Or.inl h)
        · exact Or.inl (Or.inr ⟨rfl, h'⟩)
        · exact Or.inr ⟨h, h'⟩
    refine ⟨l2, by simp [spanAddAll, a1, b1], b2, ⟨fun e' he' => (b3.entry e' he').congr (hiff e'.1), ?_⟩, ?_⟩
    · intro nm v hv
      exact b3.all nm v ((hiff nm v).mpr hv)
    · intro x
      rw [b4, a3]
      simp only [List.map_cons, List.mem_cons, or_assoc]

theorem spanGet_of {env : Env} {K : Str → Sort3} {l : List (Str × ColSpan)} {F : Str → Vals → Prop}
    (h : Good env K l F) (nm : Str) (v : Vals) (hv : F nm v) :
    ∃ V, spanGet nm l = some V ∧ SpanOk env (K nm) (F nm) V := by
  have hm := h.all nm v hv
  have he := h.entry
  clear h
  induction l with
  | nil => simp at hm
  | cons e l ih =>
    by_cases hk : e.1 = nm
    · refine ⟨e.2, by simp [spanGet, hk], ?_⟩
      have := he e (by simp)
      rw [hk] at this
      exact this
    · simp only [List.map_cons, List.mem_cons] at hm
      rcases hm with h | h
      · exact absurd h.symm hk
      · obtain ⟨V, a, b⟩ := ih h (fun e' he' => he e' (by simp [he']))
        exact ⟨V, by simp [spanGet, hk, a], b⟩

/-! ### Values of a column -/

theorem columnValue_ints (asDbl : Bool) (k : Col) (f : Cell → Int) (xs : List Cell) (a : List Int)
    (h : ∀ x ∈ xs, cellValue asDbl k x = .ok (.ints [f x])) :
    ∃ l, columnValue asDbl k xs (.ints a) = .ok (.ints l) ∧ ∀ i, i ∈ l ↔ i ∈ a ∨ ∃ x ∈ xs, i = f x := by
  induction xs generalizing a with
  | nil => exact ⟨a, rfl, by simp⟩
  | cons x xs ih =>
    obtain ⟨l, h1, h2⟩ := ih ([f x].foldl insertNew a) (fun y hy => h y (by simp [hy]))
    refine ⟨l, by simp only [columnValue, h x (by simp), ColSpan.merge, h1], ?_⟩
    intro i
    rw [h2, insertNews_mem]
    simp [or_assoc]

theorem columnValue_strs (asDbl : Bool) (k : Col) (f : Cell → Str) (xs : List Cell) (a : List Str)
    (h : ∀ x ∈ xs, cellValue asDbl k x = .ok (.strs [f x])) :
    ∃ l, columnValue asDbl k xs (.strs a) = .ok (.strs l) ∧ ∀ i, i ∈ l ↔ i ∈ a ∨ ∃ x ∈ xs, i = f x := by
  induction xs generalizing a with
  | nil => exact ⟨a, rfl, by simp⟩
  | cons x xs ih =>
    obtain ⟨l, h1, h2⟩ := ih ([f x].foldl insertNew a) (fun y hy => h y (by simp [hy]))
    refine ⟨l, by simp only [columnValue, h x (by simp), ColSpan.merge, h1], ?_⟩
    intro i
    rw [h2, insertNews_mem]
    simp [or_assoc]

theorem columnValue_reals (asDbl : Bool) (k : Col) (xs : List Cell) (a : List Word)
    (h : ∀ x ∈ xs, cellValue asDbl k x = .ok (.reals [cellWord x]) ∧ isNaN (cellWord x) = false) :
    ∃ l, columnValue asDbl k xs (.reals a) = .ok (.reals l) ∧ (∀ y ∈ l, y ∈ a ∨ ∃ x ∈ xs, y = cellWord x) ∧
      (∀ y ∈ a, y ∈ l) ∧ ∀ x ∈ xs, ∃ y ∈ l, feq y (cellWord x) = true := by
  induction xs generalizing a with
  | nil => exact ⟨a, rfl, by simp +contextual, by simp, by simp⟩
  | cons x xs ih =>
    obtain ⟨hx, hn⟩ := h x (by simp)
    obtain ⟨l0, a1, a2, a3, a4⟩ := insertReals_ok [cellWord x] a (by simpa using hn)
    obtain ⟨l, h1, h2, h3, h4⟩ := ih l0 (fun y hy => h y (by simp [hy]))
    refine ⟨l, by simp only [columnValue, hx, ColSpan.merge, a1, h1], ?_, fun y hy => h3 y (a3 y hy), ?_⟩
    · intro y hy
      rcases h2 y hy with h | ⟨x', hx', h⟩
      · rcases a2 y h with h | h
        · exact Or.inl h
        · exact Or.inr ⟨x, by simp, by simpa using h⟩
      · exact Or.inr ⟨x', by simp [hx'], h⟩
    · intro x' hx'
      rcases List.mem_cons.mp hx' with rfl | hx'
      · obtain ⟨y, c1, c2⟩ := a4 (cellWord x') (by simp)
        exact ⟨y, h3 y c1, c2⟩
      · exact h4 x' hx'

theorem gmag_mk32 (neg : Bool) (m : Nat) (h : m < 2 ^ 31) : gmag (mk32 neg m) = m := by
  unfold gmag mk32
  rw [BitVec.toNat_ofNat]
  cases neg
  · simp only [Bool.false_eq_true, if_false]; omega
  · simp only [if_true]; omega

theorem narrow_not_nan (w : Word) (h : isNaN w = false) : gisNaN (narrow w) = false := by
  have hb : ∀ (s : Bool) (m : Nat), m ≤ inf32 → gisNaN (mk32 s m) = false := by
    intro s m hm
    have h32 : inf32 < 2 ^ 31 := by decide
    unfold gisNaN
    rw [gmag_mk32 _ _ (by omega)]
    simp; omega
  unfold narrow
  rw [if_neg (by simp [h])]
  split
  · exact hb _ _ (Nat.min_le_right _ _)
  · exact hb _ _ (Nat.le_refl _)

theorem widen_not_nan (f : BitVec 32) (h : gisNaN f = false) : isNaN (widen f) = false := by
  by_cases hf : gisFin f = true
  · obtain ⟨w1, _, _⟩ := fval_widen f hf h
    unfold isNaN
    simp; omega
  · unfold widen
    rw [if_neg (by simp [h]), if_neg hf]
    unfold isNaN
    rw [fmag_mk64 _ _ inf64_lt]
    simp

/-- What the words of a decoded cell mean. -/
theorem cell_value {env : Env} {v : Vals} (hok : v.Ok env) {r : Nat} {y : Cell} (hb : v.Back env r y) :
    match v with
    | .ints vs => ∃ i, vs[r]? = some i ∧ InI32 i ∧ y = [intWord env.asDbl i]
    | .bits _ vs => ∃ i, vs[r]? = some i ∧ InI32 i ∧ y = [intWord env.asDbl i]
    | .reals _ => ∃ x, y = [x] ∧ isNaN x = false
    | .doubles _ => ∃ x, y = [x] ∧ isNaN x = false
    | .strings _ vs => ∃ s w', vs[r]? = some s ∧ y = wordsOf w' s ∧ s.length ≤ 8 * w' ∧ NulFree s := by
  have hg := hb.gives hok
  cases v with
  | ints vs => obtain ⟨i, a, b⟩ := hg; exact ⟨i, a, hok i (List.mem_of_getElem? a), b⟩
  | bits ms vs => obtain ⟨i, a, b⟩ := hg; exact ⟨i, a, hok.1 i (List.mem_of_getElem? a), b⟩
  | reals vs =>
    obtain ⟨x, x', a, b, c⟩ := hg
    refine ⟨x', b, ?_⟩
    have hn := hok.nan x (List.mem_of_getElem? a)
    unfold RealOut at c
    split at c
    · rw [c]; exact realMDI_nan
    · rcases c with c | ⟨c, _⟩
      · rw [c]; exact widen_not_nan _ (narrow_not_nan x hn)
      · rw [c]; exact hn
  | doubles vs =>
    obtain ⟨x, a, b⟩ := hg
    exact ⟨x, b, hok.nan x (List.mem_of_getElem? a)⟩
  | strings w vs =>
    obtain ⟨s, w', a, b, c⟩ := hg
    exact ⟨s, w', a, c, b, (hok.2.2.1 s (List.mem_of_getElem? a)).2⟩

theorem intWord_cast (asDbl : Bool) (i : Int) (h : InI32 i) :
    (if asDbl then fcast (-9223372036854775808) 9223372036854775807 (intWord asDbl i)
      else .ok (intWord asDbl i).toInt) = .ok i := by
  obtain ⟨h1, h2⟩ := h
  cases asDbl
  · simp only [intWord, Bool.false_eq_true, if_false]
    rw [toInt_ofInt64 i (by unfold InI64; omega)]
  · simp only [intWord, if_true]
    exact fcast_ofInt _ _ i (InI32.small ⟨h1, h2⟩) (by omega) (by omega)

/-- Collected cells of a column give its values. -/
theorem columnValue_ok {env : Env} {v : Vals} (hok : v.Ok env) (k : Col) (hty : k.ty = v.ty.toInt) (n : Nat) (hn : v.rows = n)
    (hw : ∀ r y, v.Back env r y → y.length = k.codec.width)
    (xs : List Cell) (hxs : ∀ y, y ∈ xs ↔ ∃ r, r < n ∧ v.Back env r y)
    (hall : ∀ r, r < n → ∃ y, v.Back env r y) :
    ∃ V, columnValue env.asDbl k xs (emptyValue k.ty) = .ok V ∧ SpanOk env v.sort (fun u => u = v) V := by
  have hint : ∀ (vs : List Int), v.ty.toInt = 1 ∨ v.ty.toInt = 4 →
      (∀ (r : Nat) (y : Cell), v.Back env r y → ∃ i, vs[r]? = some i ∧ InI32 i ∧ y = [intWord env.asDbl i]) → vs.length = n →
      ∃ l, columnValue env.asDbl k xs (emptyValue k.ty) = .ok (.ints l) ∧ ∀ i, i ∈ l ↔ i ∈ vs := by
    intro vs ht hc hlen
    have hkt : k.ty = 1 ∨ k.ty = 4 := by rw [hty]; exact ht
    obtain ⟨l, h1, h2⟩ := columnValue_ints env.asDbl k (fun y =>
        match (if env.asDbl then fcast (-9223372036854775808) 9223372036854775807 (cellWord y)
          else .ok (cellWord y).toInt : Except Err Int) with
        | .ok i => i
        | .error _ => 0) xs [] (by
      intro x hx
      obtain ⟨r, hr, hb⟩ := (hxs x).mp hx
      obtain ⟨i, a, b, c⟩ := hc r x hb
      subst c
      have hcast := intWord_cast env.asDbl i b
      unfold cellValue
      rw [if_pos hkt]
      simp only [cellWord, List.headD_cons] at hcast ⊢
      cases hd : env.asDbl <;> rw [hd] at hcast <;> simp only [Bool.false_eq_true, if_false, if_true] at hcast ⊢
      rw [hcast])
    refine ⟨l, by unfold emptyValue; rw [if_pos hkt]; exact h1, ?_⟩
    intro i
    rw [h2]
    simp only [List.not_mem_nil, false_or]
    constructor
    · rintro ⟨x, hx, he⟩
      obtain ⟨r, hr, hb⟩ := (hxs x).mp hx
      obtain ⟨j, a, b, c⟩ := hc r x hb
      subst c
      simp only [cellWord, List.headD_cons, intWord_cast env.asDbl j b] at he
      rw [he]; exact List.mem_of_getElem? a
    · intro hi
      obtain ⟨r, hr⟩ := List.mem_iff_getElem?.mp hi
      have hrn : r < n := by rw [← hlen]; exact (List.getElem?_eq_some_iff.mp hr).1
      obtain ⟨y, hy⟩ := hall r hrn
      obtain ⟨j, a, b, c⟩ := hc r y hy
      rw [hr] at a
      cases a
      refine ⟨y, (hxs y).mpr ⟨r, hrn, hy⟩, ?_⟩
      subst c
      simp only [cellWord, List.headD_cons, intWord_cast env.asDbl i b]
  have hreal : v.ty.toInt = 2 ∨ v.ty.toInt = 5 →
      (∀ (r : Nat) (y : Cell), v.Back env r y → ∃ x, y = [x] ∧ isNaN x = false) →
      (∀ y, v.HasReal env y → ∃ r, r < n ∧ v.Back env r [y]) →
      ∃ l, columnValue env.asDbl k xs (emptyValue k.ty) = .ok (.reals l) ∧ SpanIs env (fun u => u = v) (.reals l) ∧
        ∀ y ∈ l, isNaN y = false := by
    intro ht hc hlt
    have hkt : k.ty = 2 ∨ k.ty = 5 := by rw [hty]; exact ht
    have hkn : ¬ (k.ty = 1 ∨ k.ty = 4) := by omega
    have hcell : ∀ x ∈ xs, ∃ w, x = [w] ∧ isNaN w = false ∧ v.HasReal env w := by
      intro x hx
      obtain ⟨r, hr, hb⟩ := (hxs x).mp hx
      obtain ⟨w, a, b⟩ := hc r x hb
      exact ⟨w, a, b, r, by rw [← a]; exact hb⟩
    obtain ⟨l, h1, h2, _, h4⟩ := columnValue_reals env.asDbl k xs [] (by
      intro x hx
      obtain ⟨w, a, b, _⟩ := hcell x hx
      subst a
      exact ⟨by unfold cellValue; rw [if_neg hkn, if_pos hkt], by simpa [cellWord] using b⟩)
    refine ⟨l, by unfold emptyValue; rw [if_neg hkn, if_pos hkt]; exact h1, ⟨?_, ?_⟩, ?_⟩
    · intro y hy
      rcases h2 y hy with h | ⟨x, hx, rfl⟩
      · simp at h
      · obtain ⟨w, a, b, c⟩ := hcell x hx
        subst a
        exact ⟨v, rfl, by simpa [cellWord] using c⟩
    · intro u hu y hy
      subst hu
      obtain ⟨r, hr, hb⟩ := hlt y hy
      obtain ⟨y', c1, c2⟩ := h4 [y] ((hxs _).mpr ⟨r, hr, hb⟩)
      exact ⟨y', c1, by simpa [cellWord] using c2⟩
    · intro y hy
      rcases h2 y hy with h | ⟨x, hx, rfl⟩
      · simp at h
      · obtain ⟨w, a, b, c⟩ := hcell x hx
        subst a
        simpa [cellWord] using b
  have hback : ∀ r y, v.Back env r y → v.sort = .real → r < n := by
    intro r y hb hs
    have hg := hb.gives hok
    cases v with
    | reals vs =>
      obtain ⟨x, _, a, _⟩ := hg
      rw [← hn]; exact (List.getElem?_eq_some_iff.mp a).1
    | doubles vs =>
      obtain ⟨x, a, _⟩ := hg
      rw [← hn]; exact (List.getElem?_eq_some_iff.mp a).1
    | ints vs => cases hs
    | bits ms vs => cases hs
    | strings w vs => cases hs
  cases v with
  | ints vs =>
    obtain ⟨l, h1, h2⟩ := hint vs (Or.inl rfl) (fun r y hb => cell_value hok hb) hn
    exact ⟨_, h1, rfl, fun i => by rw [h2]; simp [Vals.HasInt], trivial⟩
  | bits ms vs =>
    obtain ⟨l, h1, h2⟩ := hint vs (Or.inr rfl) (fun r y hb => cell_value hok hb) hn
    exact ⟨_, h1, rfl, fun i => by rw [h2]; simp [Vals.HasInt], trivial⟩
  | reals vs =>
    obtain ⟨l, h1, h2, h3⟩ := hreal (Or.inl rfl) (fun r y hb => cell_value hok hb)
      (fun y ⟨r, hb⟩ => ⟨r, hback r _ hb rfl, hb⟩)
    exact ⟨_, h1, rfl, h2, h3⟩
  | doubles vs =>
    obtain ⟨l, h1, h2, h3⟩ := hreal (Or.inr rfl) (fun r y hb => cell_value hok hb)
      (fun y ⟨r, hb⟩ => ⟨r, hback r _ hb rfl, hb⟩)
    exact ⟨_, h1, rfl, h2, h3⟩
  | strings w vs =>
    have hkt : k.ty = 3 := hty
    have hstr : ∀ (r : Nat) (y : Cell), (Vals.strings w vs).Back env r y → ∃ s, vs[r]? = some s ∧ cellStr k.codec.width y = s := by
      intro r y hb
      obtain ⟨s, w', a, b, c, d⟩ := cell_value hok hb
      have hlen := hw r y hb
      rw [b, wordsOf_length] at hlen
      refine ⟨s, a, ?_⟩
      rw [b, ← hlen]
      exact cellStr_wordsOf w' s c d
    obtain ⟨l, h1, h2⟩ := columnValue_strs env.asDbl k (cellStr k.codec.width) xs [] (by
      intro x hx
      unfold cellValue
      rw [if_neg (by omega), if_neg (by omega), if_pos hkt])
    refine ⟨.strs l, by unfold emptyValue; rw [if_neg (by omega), if_neg (by omega)]; exact h1, rfl, ?_, trivial⟩
    intro s
    rw [h2]
    simp only [List.not_mem_nil, false_or, exists_eq_left, Vals.HasStr]
    constructor
    · rintro ⟨x, hx, rfl⟩
      obtain ⟨r, hr, hb⟩ := (hxs x).mp hx
      obtain ⟨s, a, b⟩ := hstr r x hb
      rw [b]; exact List.mem_of_getElem? a
    · intro hs
      obtain ⟨r, hr⟩ := List.mem_iff_getElem?.mp hs
      have hrn : r < n := by rw [← hn]; exact (List.getElem?_eq_some_iff.mp hr).1
      obtain ⟨y, hy⟩ := hall r hrn
      obtain ⟨s', a, b⟩ := hstr r y hy
      rw [hr] at a
      cases a
      exact ⟨y, (hxs y).mpr ⟨r, hrn, hy⟩, b.symm⟩

end Verif
