import Verif.Table

/-
`Table::decode` of a table of `n` rows depends on the first `n` elements of its targets only, and writes
no other element — for arbitrary data.
-/

namespace Verif

/-- Both fail alike or both succeed with related results. -/
def RelE {α β : Type} (R : α → β → Prop) : Except Err α → Except Err β → Prop
  | .ok a, .ok b => R a b
  | .error e, .error e' => e = e'
  | _, _ => False

theorem RelE.both {α β : Type} {R : α → β → Prop} {x : Except Err α} {y : Except Err β} (h : RelE R x y) :
    (∃ e, x = .error e ∧ y = .error e) ∨ ∃ a b, x = .ok a ∧ y = .ok b ∧ R a b := by
  cases x with
  | error e => cases y with
    | error e' => left; exact ⟨e, rfl, by rw [show e = e' from h]⟩
    | ok b => exact h.elim
  | ok a => cases y with
    | error e' => exact h.elim
    | ok b => right; exact ⟨a, b, rfl, rfl, h⟩

/-- The same column in two decodings whose targets agree on the first `n` rows. -/
structure SameSlot (n : Nat) (s t : Slot) : Prop where
  codec : s.codec = t.codec
  first : s.first = t.first
  visit : s.visit = t.visit
  elem : s.elem = t.elem
  last : s.last = t.last
  lt : s.last < n
  mem : ∀ r, r < n → s.mem r = t.mem r

theorem SameSlot.store {n : Nat} {s t : Slot} (h : SameSlot n s t) (row : Nat) (hr : row < n) (d : Cell) :
    RelE (SameSlot n) (s.store row d) (t.store row d) := by
  unfold Slot.store
  rw [h.elem]
  split
  · refine ⟨h.codec, h.first, h.visit, rfl, h.last, h.lt, ?_⟩
    intro r hr'
    simp only
    rw [h.mem row hr, h.mem r hr']
  · rfl

theorem SameSlot.fill {n : Nat} {s t : Slot} (h : SameSlot n s t) (final : Nat) :
    RelE (SameSlot n) (s.fill final) (t.fill final) := by
  unfold Slot.fill
  rw [h.visit, h.last]
  split
  · split
    · refine ⟨h.codec, h.first, rfl, h.elem, rfl, by rw [← h.last]; exact h.lt, ?_⟩
      intro r hr'
      have h2 := h.mem s.last h.lt
      rw [h.last] at h2
      simp only
      rw [h2, h.mem r hr']
    · rfl
  · exact h

theorem SameSlot.init {n : Nat} {s t : Slot} (h : SameSlot n s t) (hn : 0 < n) : RelE (SameSlot n) s.init t.init := by
  unfold Slot.init
  rw [h.visit, h.first]
  split
  · cases t.first with
    | error e => rfl
    | ok w => exact h.store 0 hn [w]
  · exact h

/-- Proof device: `SameSlot` column by column. -/
inductive SameSlots (n : Nat) : List Slot → List Slot → Prop
  | nil : SameSlots n [] []
  | cons {s t ss ts} : SameSlot n s t → SameSlots n ss ts → SameSlots n (s :: ss) (t :: ts)

theorem SameSlots.length {n : Nat} {ss ts : List Slot} (h : SameSlots n ss ts) : ss.length = ts.length := by
  induction h with
  | nil => rfl
  | cons _ _ ih => simp [ih]

theorem SameSlots.drop {n : Nat} {ss ts : List Slot} (h : SameSlots n ss ts) (k : Nat) :
    SameSlots n (ss.drop k) (ts.drop k) := by
  induction k generalizing ss ts with
  | zero => exact h
  | succ k ih => cases h with
    | nil => exact .nil
    | cons _ h' => exact ih h'

theorem SameSlots.take {n : Nat} {ss ts : List Slot} (h : SameSlots n ss ts) (k : Nat) :
    SameSlots n (ss.take k) (ts.take k) := by
  induction k generalizing ss ts with
  | zero => exact .nil
  | succ k ih => cases h with
    | nil => exact .nil
    | cons h1 h' => exact .cons h1 (ih h')

theorem SameSlots.append {n : Nat} {a b c d : List Slot} (h : SameSlots n a b) (h' : SameSlots n c d) :
    SameSlots n (a ++ c) (b ++ d) := by
  induction h with
  | nil => exact h'
  | cons h1 _ ih => exact .cons h1 ih

theorem SameSlots.initAll {n : Nat} (hn : 0 < n) {ss ts : List Slot} (h : SameSlots n ss ts) :
    RelE (SameSlots n) (initAll ss) (initAll ts) := by
  induction h with
  | nil => exact SameSlots.nil
  | cons h1 _ ih =>
    simp only [Verif.initAll]
    rcases (h1.init hn).both with ⟨e, hx, hy⟩ | ⟨a, b, hx, hy, hab⟩
    · simp only [hx, hy]; rfl
    · simp only [hx, hy]
      rcases ih.both with ⟨e, hx, hy⟩ | ⟨c, d, hx, hy, hcd⟩
      · simp only [hx, hy]; rfl
      · simp only [hx, hy]; exact SameSlots.cons hab hcd

theorem SameSlots.fillAll {n : Nat} (final : Nat) {ss ts : List Slot} (h : SameSlots n ss ts) :
    RelE (SameSlots n) (fillAll final ss) (fillAll final ts) := by
  induction h with
  | nil => exact SameSlots.nil
  | cons h1 _ ih =>
    simp only [Verif.fillAll]
    rcases (h1.fill final).both with ⟨e, hx, hy⟩ | ⟨a, b, hx, hy, hab⟩
    · simp only [hx, hy]; rfl
    · simp only [hx, hy]
      rcases ih.both with ⟨e, hx, hy⟩ | ⟨c, d, hx, hy, hcd⟩
      · simp only [hx, hy]; rfl
      · simp only [hx, hy]; exact SameSlots.cons hab hcd

theorem SameSlots.fillRange {n : Nat} (a b row : Nat) {ss ts : List Slot} (h : SameSlots n ss ts) :
    RelE (SameSlots n) (fillRange a b row ss) (fillRange a b row ts) := by
  unfold Verif.fillRange
  rw [h.length]
  split
  · split
    · rcases (((h.take b).drop a).fillAll (row - 1)).both with ⟨e, hx, hy⟩ | ⟨x, y, hx, hy, hxy⟩
      · simp only [hx, hy]; rfl
      · simp only [hx, hy]; exact (h.take a).append (hxy.append (h.drop b))
    · rfl
  · exact h

theorem SameSlots.finish {n : Nat} (nrows : Nat) {ss ts : List Slot} (h : SameSlots n ss ts) :
    RelE (SameSlots n) (finish nrows ss) (finish nrows ts) := by
  induction h with
  | nil => exact SameSlots.nil
  | cons h1 hr ih =>
    simp only [Verif.finish, h1.last]
    split
    · rcases (h1.fill (nrows - 1)).both with ⟨e, hx, hy⟩ | ⟨a, b, hx, hy, hab⟩
      · simp only [hx, hy]; rfl
      · simp only [hx, hy]
        rcases ih.both with ⟨e, hx, hy⟩ | ⟨c, d, hx, hy, hcd⟩
        · simp only [hx, hy]; rfl
        · simp only [hx, hy]; exact SameSlots.cons hab hcd
    · exact SameSlots.cons h1 hr

/-- Same parser result on the same stream, up to a relation. -/
def RelP {α β : Type} (R : α → β → Prop) (p : P α) (q : P β) : Prop :=
  ∀ s, RelE (fun a b => R a.1 b.1 ∧ a.2 = b.2) (p s) (q s)

theorem RelP.bind {α β γ δ : Type} {R : α → β → Prop} {S : γ → δ → Prop} {p : P α} {q : P β} (h : RelP R p q)
    (f : α → P γ) (g : β → P δ) (hfg : ∀ a b, R a b → RelP S (f a) (g b)) : RelP S (p >>= f) (q >>= g) := by
  intro s
  have := h s
  simp only [P.bind_apply]
  cases hp : p s with
  | error e =>
    cases hq : q s with
    | error e' => rw [hp, hq] at this; exact this
    | ok b => rw [hp, hq] at this; exact this.elim
  | ok a =>
    cases hq : q s with
    | error e' => rw [hp, hq] at this; exact this.elim
    | ok b =>
      rw [hp, hq] at this
      obtain ⟨h1, h2⟩ := this
      simp only
      rw [h2]
      exact hfg _ _ h1 _

theorem RelP.pure {α β : Type} {R : α → β → Prop} {a : α} {b : β} (h : R a b) : RelP R (Pure.pure a) (Pure.pure b) := by
  intro s; exact ⟨h, rfl⟩

theorem RelP.refl {α : Type} (p : P α) : RelP (· = ·) p p := by
  intro s
  cases p s with
  | error e => rfl
  | ok a => exact ⟨rfl, rfl⟩

theorem RelP.lift {α β : Type} {R : α → β → Prop} {x : Except Err α} {y : Except Err β} (h : RelE R x y) :
    RelP R (P.lift x) (P.lift y) := by
  intro s
  unfold P.lift
  cases x with
  | error e => cases y with
    | error e' => exact h
    | ok b => exact h.elim
  | ok a => cases y with
    | error e' => exact h.elim
    | ok b => exact ⟨h, rfl⟩

theorem SameSlot.dec {n : Nat} {s t : Slot} (h : SameSlot n s t) (o : Order) (row : Nat) (hr : row < n) :
    RelP (SameSlot n) (decSlot o row s) (decSlot o row t) := by
  unfold decSlot
  rw [h.visit]
  split
  · rw [h.codec]
    refine RelP.bind (RelP.refl _) _ _ ?_
    rintro d _ rfl
    refine RelP.bind (RelP.lift (h.store row hr d)) _ _ ?_
    intro a b hab
    refine RelP.pure ⟨hab.codec, hab.first, hab.visit, hab.elem, rfl, hr, hab.mem⟩
  · rw [h.codec]
    refine RelP.bind (RelP.refl _) _ _ ?_
    intro _ _ _
    exact RelP.pure h

theorem SameSlots.dec {n : Nat} {ss ts : List Slot} (h : SameSlots n ss ts) (o : Order) (row : Nat) (hr : row < n) :
    RelP (SameSlots n) (decSlots o row ss) (decSlots o row ts) := by
  induction h with
  | nil => exact RelP.pure .nil
  | cons h1 _ ih =>
    unfold decSlots
    refine RelP.bind (h1.dec o row hr) _ _ ?_
    intro a b hab
    refine RelP.bind ih _ _ ?_
    intro c d hcd
    exact RelP.pure (.cons hab hcd)

theorem SameSlots.rows {n : Nat} (o : Order) (k row last : Nat) (hk : row + k ≤ n) {ss ts : List Slot}
    (h : SameSlots n ss ts) : RelP (SameSlots n) (decRows o k row last ss) (decRows o k row last ts) := by
  induction k generalizing row last ss ts with
  | zero => exact RelP.pure h
  | succ k ih =>
    unfold decRows
    refine RelP.bind (RelP.refl _) _ _ ?_
    rintro m _ rfl
    refine RelP.bind (RelP.lift (h.fillRange _ _ _)) _ _ ?_
    intro a b hab
    refine RelP.bind ((hab.drop _).dec o row (by omega)) _ _ ?_
    intro c d hcd
    exact ih (row + 1) _ (by omega) ((hab.take _).append hcd)

/-- **Decoding depends on the rows of the table only.** -/
theorem SameSlots.decodeTable {n : Nat} (o : Order) {ss ts : List Slot} (h : SameSlots n ss ts) (data : List Byte) :
    RelE (SameSlots n) (decodeTable o n ss data) (decodeTable o n ts data) := by
  unfold Verif.decodeTable
  by_cases hn : n = 0
  · rw [if_pos hn, if_pos hn]; exact h
  · rw [if_neg hn, if_neg hn]
    rcases (h.initAll (by omega)).both with ⟨e, hx, hy⟩ | ⟨a, b, hx, hy, hab⟩
    · simp only [hx, hy]; rfl
    simp only [hx, hy]
    have := SameSlots.rows o n 0 0 (by omega) hab data
    cases hp : decRows o n 0 0 a data with
    | error e =>
      cases hq : decRows o n 0 0 b data with
      | error e' => rw [hp, hq] at this; exact this
      | ok y => rw [hp, hq] at this; exact this.elim
    | ok x =>
      cases hq : decRows o n 0 0 b data with
      | error e' => rw [hp, hq] at this; exact this.elim
      | ok y =>
        rw [hp, hq] at this
        exact this.1.finish n

/-! ### Requests that agree on the rows of the table -/

/-- Same names, sizes and elements, memories agreeing on the first `n` rows. -/
inductive SameReq (n : Nat) : List (Str × Target) → List (Str × Target) → Prop
  | nil : SameReq n [] []
  | cons {nm t u req req'} : t.nelem = u.nelem → t.elem = u.elem → (∀ r, r < n → t.mem r = u.mem r) →
      SameReq n req req' → SameReq n ((nm, t) :: req) ((nm, u) :: req')

theorem SameReq.length {n : Nat} {a b : List (Str × Target)} (h : SameReq n a b) : a.length = b.length := by
  induction h with
  | nil => rfl
  | cons _ _ _ _ ih => simp [ih]

theorem SameReq.resolve {n : Nat} {a b : List (Str × Target)} (h : SameReq n a b) (L : Lookup) (k : Nat)
    (seen : List Nat) : resolve L k a seen = resolve L k b seen := by
  induction h generalizing seen with
  | nil => rfl
  | cons h1 _ _ _ ih => simp only [Verif.resolve, h1, ih]

theorem SameReq.find {n : Nat} {a b : List (Str × Target)} (h : SameReq n a b) (ps : List Nat) (p : Nat) :
    ((ps.zip (a.map Prod.snd)).find? (fun e => decide (e.1 = p)) = none ∧
      (ps.zip (b.map Prod.snd)).find? (fun e => decide (e.1 = p)) = none) ∨
    ∃ t u, (ps.zip (a.map Prod.snd)).find? (fun e => decide (e.1 = p)) = some (p, t) ∧
      (ps.zip (b.map Prod.snd)).find? (fun e => decide (e.1 = p)) = some (p, u) ∧ t.elem = u.elem ∧
      ∀ r, r < n → t.mem r = u.mem r := by
  induction h generalizing ps with
  | nil => left; simp
  | @cons nm t u req req' h1 h2 h3 _ ih =>
    cases ps with
    | nil => left; simp
    | cons q ps =>
      simp only [List.map_cons, List.zip_cons_cons, List.find?_cons]
      by_cases hq : q = p
      · right
        refine ⟨t, u, ?_, ?_, h2, h3⟩ <;> simp [hq]
      · simp only [hq, decide_false]
        exact ih ps

theorem SameReq.slot {n : Nat} (hn : 0 < n) {a b : List (Str × Target)} (h : SameReq n a b) (cols : List Col)
    (ps : List Nat) (p : Nat) :
    SameSlot n (mkSlot cols (a.map Prod.snd) ps p) (mkSlot cols (b.map Prod.snd) ps p) := by
  unfold mkSlot
  rcases h.find ps p with ⟨h1, h2⟩ | ⟨t, u, h1, h2, h3, h4⟩
  · simp only [h1, h2]
    exact ⟨rfl, rfl, rfl, rfl, rfl, hn, fun _ _ => rfl⟩
  · simp only [h1, h2]
    exact ⟨rfl, rfl, rfl, h3, rfl, hn, h4⟩

theorem SameReq.slots {n : Nat} (hn : 0 < n) {a b : List (Str × Target)} (h : SameReq n a b) (cols : List Col)
    (ps l : List Nat) :
    SameSlots n (l.map (mkSlot cols (a.map Prod.snd) ps)) (l.map (mkSlot cols (b.map Prod.snd) ps)) := by
  induction l with
  | nil => exact .nil
  | cons p l ih => exact .cons (h.slot hn cols ps p) ih

/-- Outputs agreeing on the first `n` rows. -/
inductive SameOut (n : Nat) : List (Nat → Cell) → List (Nat → Cell) → Prop
  | nil : SameOut n [] []
  | cons {m m' out out'} : (∀ r, r < n → m r = m' r) → SameOut n out out' → SameOut n (m :: out) (m' :: out')

theorem SameOut.get {n : Nat} {a b : List (Nat → Cell)} (h : SameOut n a b) (i : Nat) (m : Nat → Cell)
    (hi : a[i]? = some m) : ∃ m', b[i]? = some m' ∧ ∀ r, r < n → m r = m' r := by
  induction h generalizing i with
  | nil => simp at hi
  | cons h1 _ ih =>
    cases i with
    | zero => simp at hi; subst hi; exact ⟨_, rfl, h1⟩
    | succ i => exact ih i (by simpa using hi)

theorem SameSlots.get {n : Nat} {ss ts : List Slot} (h : SameSlots n ss ts) (p : Nat) (r : Nat) (hr : r < n) :
    (match ss[p]? with | some s => s.mem | none => fun _ => []) r =
      (match ts[p]? with | some s => s.mem | none => fun _ => []) r := by
  induction h generalizing p with
  | nil => rfl
  | cons h1 _ ih =>
    cases p with
    | zero => exact h1.mem r hr
    | succ p => simpa using ih p

theorem tableDecode_local (o : Order) (cols : List Col) (n : Nat) (data : List Byte) (L : Lookup)
    {a b : List (Str × Target)} (h : SameReq n a b) :
    RelE (SameOut n) (tableDecode o cols n data L a) (tableDecode o cols n data L b) := by
  unfold tableDecode
  rw [h.length, h.resolve]
  split
  · rfl
  · cases hr : resolve L n b [] with
    | error e => rfl
    | ok ps =>
      simp only
      by_cases hn : n = 0
      · rw [if_pos hn, if_pos hn]
        subst hn
        show SameOut 0 _ _
        clear hr
        induction h with
        | nil => exact .nil
        | cons _ _ _ _ ih => exact .cons (by simp) (ih (by simp_all; omega))
      · rw [if_neg hn, if_neg hn]
        split
        · rfl
        · rcases ((h.slots (by omega) cols ps _).decodeTable o data).both with ⟨e, hx, hy⟩ | ⟨x, y, hx, hy, hxy⟩
          · rw [hx, hy]; rfl
          rw [hx, hy]
          show SameOut n _ _
          have : ∀ l : List Nat, SameOut n (l.map (fun p => match x[p]? with | some s => s.mem | none => fun _ => []))
              (l.map (fun p => match y[p]? with | some s => s.mem | none => fun _ => [])) := by
            intro l
            induction l with
            | nil => exact .nil
            | cons p l ih => exact .cons (fun r hr => hxy.get p r hr) ih
          exact this ps

/-! ### Elements beyond the rows of the table are not written -/

/-- If it succeeds, the result is fine. -/
def PostE {α : Type} (R : α → Prop) : Except Err α → Prop
  | .ok a => R a
  | .error _ => True

theorem PostE.both {α : Type} {R : α → Prop} {x : Except Err α} (h : PostE R x) :
    (∃ e, x = .error e) ∨ ∃ a, x = .ok a ∧ R a := by
  cases x with
  | error e => left; exact ⟨e, rfl⟩
  | ok a => right; exact ⟨a, rfl, h⟩

/-- Proof device: what holds of the result of a reader of the stream, whatever the stream. -/
def PostP {α : Type} (R : α → Prop) (p : P α) : Prop := ∀ s, PostE (fun a => R a.1) (p s)

theorem PostP.bind {α β : Type} {R : α → Prop} {S : β → Prop} {p : P α} (h : PostP R p) (f : α → P β)
    (hf : ∀ a, R a → PostP S (f a)) : PostP S (p >>= f) := by
  intro s
  have := h s
  simp only [P.bind_apply]
  cases hp : p s with
  | error e => trivial
  | ok a => rw [hp] at this; exact hf _ this _

theorem PostP.pure {α : Type} {R : α → Prop} {a : α} (h : R a) : PostP R (Pure.pure a) := by
  intro s; exact h

theorem PostP.triv {α : Type} (p : P α) : PostP (fun _ => True) p := by
  intro s; cases p s <;> trivial

theorem PostP.lift {α : Type} {R : α → Prop} {x : Except Err α} (h : PostE R x) : PostP R (P.lift x) := by
  intro s; unfold P.lift; cases x <;> exact h

/-- The column has its original memory `g` from row `n` on. -/
def Kept (n : Nat) (g : Nat → Cell) (s : Slot) : Prop := ∀ r, n ≤ r → s.mem r = g r

theorem Kept.store {n : Nat} {g : Nat → Cell} {s : Slot} (h : Kept n g s) (row : Nat) (hr : row < n) (d : Cell) :
    PostE (Kept n g) (s.store row d) := by
  unfold Slot.store
  split
  · intro r hr'
    simp only
    rw [if_neg (by omega)]; exact h r hr'
  · trivial

theorem Kept.fill {n : Nat} {g : Nat → Cell} {s : Slot} (h : Kept n g s) (final : Nat) (hf : final < n) :
    PostE (Kept n g) (s.fill final) := by
  unfold Slot.fill
  split
  · split
    · intro r hr'
      simp only
      rw [if_neg (by omega)]; exact h r hr'
    · trivial
  · exact h

theorem Kept.init {n : Nat} (hn : 0 < n) {g : Nat → Cell} {s : Slot} (h : Kept n g s) : PostE (Kept n g) s.init := by
  unfold Slot.init
  split
  · split
    · exact h.store 0 hn _
    · trivial
  · exact h

/-- Proof device: `Kept` column by column. -/
inductive KeptAll (n : Nat) : List (Nat → Cell) → List Slot → Prop
  | nil : KeptAll n [] []
  | cons {g s gs ss} : Kept n g s → KeptAll n gs ss → KeptAll n (g :: gs) (s :: ss)

theorem KeptAll.length {n : Nat} {gs : List (Nat → Cell)} {ss : List Slot} (h : KeptAll n gs ss) :
    gs.length = ss.length := by
  induction h with
  | nil => rfl
  | cons _ _ ih => simp [ih]

theorem KeptAll.drop {n : Nat} {ss : List (Nat → Cell)} {ts : List Slot} (h : KeptAll n ss ts) (k : Nat) :
    KeptAll n (ss.drop k) (ts.drop k) := by
  induction k generalizing ss ts with
  | zero => exact h
  | succ k ih => cases h with
    | nil => exact .nil
    | cons _ h' => exact ih h'

theorem KeptAll.take {n : Nat} {ss : List (Nat → Cell)} {ts : List Slot} (h : KeptAll n ss ts) (k : Nat) :
    KeptAll n (ss.take k) (ts.take k) := by
  induction k generalizing ss ts with
  | zero => exact .nil
  | succ k ih => cases h with
    | nil => exact .nil
    | cons h1 h' => exact .cons h1 (ih h')

theorem KeptAll.append {n : Nat} {a c : List (Nat → Cell)} {b d : List Slot} (h : KeptAll n a b) (h' : KeptAll n c d) :
    KeptAll n (a ++ c) (b ++ d) := by
  induction h with
  | nil => exact h'
  | cons h1 _ ih => exact .cons h1 ih

theorem KeptAll.initAll {n : Nat} (hn : 0 < n) {gs : List (Nat → Cell)} {ss : List Slot} (h : KeptAll n gs ss) :
    PostE (KeptAll n gs) (initAll ss) := by
  induction h with
  | nil => exact KeptAll.nil
  | cons h1 _ ih =>
    simp only [Verif.initAll]
    rcases (h1.init hn).both with ⟨e, hx⟩ | ⟨a, hx, ha⟩
    · simp only [hx]; trivial
    · simp only [hx]
      rcases ih.both with ⟨e, hx⟩ | ⟨c, hx, hc⟩
      · simp only [hx]; trivial
      · simp only [hx]; exact KeptAll.cons ha hc

theorem KeptAll.fillAll {n : Nat} (final : Nat) (hf : final < n) {gs : List (Nat → Cell)} {ss : List Slot}
    (h : KeptAll n gs ss) : PostE (KeptAll n gs) (fillAll final ss) := by
  induction h with
  | nil => exact KeptAll.nil
  | cons h1 _ ih =>
    simp only [Verif.fillAll]
    rcases (h1.fill final hf).both with ⟨e, hx⟩ | ⟨a, hx, ha⟩
    · simp only [hx]; trivial
    · simp only [hx]
      rcases ih.both with ⟨e, hx⟩ | ⟨c, hx, hc⟩
      · simp only [hx]; trivial
      · simp only [hx]; exact KeptAll.cons ha hc

theorem KeptAll.fillRange {n : Nat} (a b row : Nat) (hr : row < n) {gs : List (Nat → Cell)} {ss : List Slot}
    (h : KeptAll n gs ss) : PostE (KeptAll n gs) (fillRange a b row ss) := by
  unfold Verif.fillRange
  split
  · split
    · rename_i hab hb
      rcases (((h.take b).drop a).fillAll (row - 1) (by omega)).both with ⟨e, hy⟩ | ⟨x, hy, hx⟩
      · simp only [hy]; trivial
      simp only [hy]
      have h3 := (h.take a).append (hx.append (h.drop b))
      have e : gs.take a ++ ((gs.take b).drop a ++ gs.drop b) = gs := by
        rw [← List.append_assoc]
        have : gs.take a = (gs.take b).take a := by rw [List.take_take, Nat.min_eq_left (by omega)]
        rw [this, List.take_append_drop, List.take_append_drop]
      rw [e] at h3
      exact h3
    · trivial
  · exact h

theorem KeptAll.finish {n : Nat} (hn : 0 < n) {gs : List (Nat → Cell)} {ss : List Slot} (h : KeptAll n gs ss) :
    PostE (KeptAll n gs) (finish n ss) := by
  induction h with
  | nil => exact KeptAll.nil
  | cons h1 hr ih =>
    simp only [Verif.finish]
    split
    · rcases (h1.fill (n - 1) (by omega)).both with ⟨e, hx⟩ | ⟨a, hx, ha⟩
      · simp only [hx]; trivial
      · simp only [hx]
        rcases ih.both with ⟨e, hx⟩ | ⟨c, hx, hc⟩
        · simp only [hx]; trivial
        · simp only [hx]; exact KeptAll.cons ha hc
    · exact KeptAll.cons h1 hr

theorem KeptAll.dec {n : Nat} {gs : List (Nat → Cell)} {ss : List Slot} (h : KeptAll n gs ss) (o : Order) (row : Nat)
    (hr : row < n) : PostP (KeptAll n gs) (decSlots o row ss) := by
  induction h with
  | nil => exact PostP.pure .nil
  | @cons g s gs ss h1 _ ih =>
    unfold decSlots
    have hd : PostP (Kept n g) (decSlot o row s) := by
      unfold decSlot
      split
      · refine PostP.bind (PostP.triv _) _ ?_
        intro d _
        refine PostP.bind (PostP.lift (h1.store row hr d)) _ ?_
        intro a ha
        exact PostP.pure ha
      · refine PostP.bind (PostP.triv _) _ ?_
        intro _ _
        exact PostP.pure h1
    refine PostP.bind hd _ ?_
    intro a ha
    refine PostP.bind ih _ ?_
    intro c hc
    exact PostP.pure (.cons ha hc)

theorem KeptAll.rows {n : Nat} (o : Order) (k row last : Nat) (hk : row + k ≤ n) {gs : List (Nat → Cell)}
    {ss : List Slot} (h : KeptAll n gs ss) : PostP (KeptAll n gs) (decRows o k row last ss) := by
  induction k generalizing row last ss with
  | zero => exact PostP.pure h
  | succ k ih =>
    unfold decRows
    refine PostP.bind (PostP.triv _) _ ?_
    intro m _
    refine PostP.bind (PostP.lift (h.fillRange _ _ row (by omega))) _ ?_
    intro a ha
    refine PostP.bind ((ha.drop _).dec o row (by omega)) _ ?_
    intro c hc
    refine ih (row + 1) _ (by omega) ?_
    have := (ha.take (markerStart m)).append hc
    rwa [List.take_append_drop] at this

theorem KeptAll.decodeTable {n : Nat} (o : Order) {gs : List (Nat → Cell)} {ss : List Slot} (h : KeptAll n gs ss)
    (data : List Byte) : PostE (KeptAll n gs) (decodeTable o n ss data) := by
  unfold Verif.decodeTable
  by_cases hn : n = 0
  · rw [if_pos hn]; exact h
  · rw [if_neg hn]
    rcases (h.initAll (by omega)).both with ⟨e, hx⟩ | ⟨a, hx, ha⟩
    · simp only [hx]; trivial
    simp only [hx]
    have := KeptAll.rows o n 0 0 (by omega) ha data
    cases hp : decRows o n 0 0 a data with
    | error e => trivial
    | ok x => rw [hp] at this; exact KeptAll.finish (by omega) this

/-- **Elements from row `n` on are not written**, whatever the data. -/
theorem tableDecode_kept (o : Order) (cols : List Col) (n : Nat) (data : List Byte) (L : Lookup)
    (req : List (Str × Target)) (out : List (Nat → Cell)) (hps : ∀ ps, resolve L n req [] = .ok ps → ∀ p ∈ ps, p < cols.length)
    (h : tableDecode o cols n data L req = .ok out) (i : Nat) (nm : Str) (t : Target) (m : Nat → Cell)
    (hi : req[i]? = some (nm, t)) (hm : out[i]? = some m) (r : Nat) (hr : n ≤ r) : m r = t.mem r := by
  unfold tableDecode at h
  split at h
  · simp at h
  split at h
  · simp at h
  rename_i ps hres
  split at h
  · simp only [Except.ok.injEq] at h
    subst h
    simp only [List.getElem?_map, hi, Option.map_some, Option.some.injEq] at hm
    rw [← hm]
  split at h
  · simp at h
  obtain ⟨r1, r2, _, _⟩ := resolve_ok L n req [] ps hres
  generalize hss : (List.range cols.length).map (mkSlot cols (req.map Prod.snd) ps) = ss at h
  have hk : KeptAll n (ss.map Slot.mem) ss := by
    clear hss h
    induction ss with
    | nil => exact .nil
    | cons s ss ih => exact .cons (fun _ _ => rfl) ih
  have hd := hk.decodeTable o data
  split at h
  · simp at h
  rename_i ss' hdec
  rw [hdec] at hd
  simp only [Except.ok.injEq] at h
  subst h
  simp only [List.getElem?_map, Option.map_eq_some_iff] at hm
  obtain ⟨p, hp, hm⟩ := hm
  have hpb := hps ps hres p (List.mem_of_getElem? hp)
  have hlen : ss'.length = cols.length := by
    have := hd.length
    rw [← this, ← hss]; simp
  rw [List.getElem?_eq_getElem (by omega)] at hm
  simp only at hm
  have hkp : ∀ (gs : List (Nat → Cell)) (ts : List Slot), KeptAll n gs ts → ∀ (p : Nat) (g : Nat → Cell) (s : Slot),
      gs[p]? = some g → ts[p]? = some s → s.mem r = g r := by
    intro gs ts hk
    induction hk with
    | nil => simp
    | cons h1 _ ih =>
      intro p g s hg hs
      cases p with
      | zero => simp at hg hs; subst hg; subst hs; exact h1 r hr
      | succ p => exact ih p g s (by simpa using hg) (by simpa using hs)
  rw [← hm]
  have hg : (ss.map Slot.mem)[p]? = some t.mem := by
    rw [← hss]
    simp only [List.map_map, List.getElem?_map, List.getElem?_range hpb, Option.map_some, Function.comp_apply,
      Option.some.injEq]
    unfold mkSlot
    have hfind : (ps.zip (req.map Prod.snd)).find? (fun e => decide (e.1 = p)) = some (p, t) := by
      have hz : (ps.zip (req.map Prod.snd))[i]? = some (p, t) :=
        List.getElem?_zip_eq_some.mpr ⟨hp, by simp [hi]⟩
      cases hf : (ps.zip (req.map Prod.snd)).find? (fun e => decide (e.1 = p)) with
      | none =>
        rw [List.find?_eq_none] at hf
        have := hf _ (List.mem_of_getElem? hz)
        simp at this
      | some e =>
        have he1 : e.1 = p := by simpa using List.find?_some hf
        obtain ⟨j, hj⟩ := List.mem_iff_getElem?.mp (List.mem_of_find?_eq_some hf)
        obtain ⟨q1, q2⟩ := List.getElem?_zip_eq_some.mp hj
        rw [he1] at q1
        obtain ⟨ha, ha'⟩ := List.getElem?_eq_some_iff.mp q1
        obtain ⟨hb, hb'⟩ := List.getElem?_eq_some_iff.mp hp
        have : j = i := (List.getElem_inj r2).mp (ha'.trans hb'.symm)
        rw [this, hz] at hj
        exact hj.symm
    simp only [hfind]
  exact hkp _ _ hd p _ _ hg (List.getElem?_eq_getElem (by omega))

end Verif
