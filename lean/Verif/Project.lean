import Verif.FrameInfo

/-
Decoding some columns of any frame, of any file, corrupt or not: the same memory as decoding more columns.
-/

namespace Verif

/-- `t` decodes the column as `s` does if it is wanted, and skips it otherwise. -/
structure Sub (w : Bool) (s t : Slot) : Prop where
  codec : t.codec = s.codec
  same : w = true → t = s
  idle : w = false → t.visit = false ∧ t.last = 0

/-- Proof device: `Sub` column by column. -/
inductive Subs : List Bool → List Slot → List Slot → Prop
  | nil : Subs [] [] []
  | cons {w : Bool} {s t : Slot} {ws : List Bool} {ss ts : List Slot} : Sub w s t → Subs ws ss ts →
      Subs (w :: ws) (s :: ss) (t :: ts)

theorem Subs.length {ws : List Bool} {ss ts : List Slot} (h : Subs ws ss ts) :
    ts.length = ss.length ∧ ws.length = ss.length := by
  induction h with
  | nil => exact ⟨rfl, rfl⟩
  | cons _ _ ih => simp [ih]

theorem Subs.take {ws : List Bool} {ss ts : List Slot} (h : Subs ws ss ts) (n : Nat) :
    Subs (ws.take n) (ss.take n) (ts.take n) := by
  induction h generalizing n with
  | nil => simp; exact .nil
  | cons h1 _ ih => cases n with
    | zero => exact .nil
    | succ n => exact .cons h1 (ih n)

theorem Subs.drop {ws : List Bool} {ss ts : List Slot} (h : Subs ws ss ts) (n : Nat) :
    Subs (ws.drop n) (ss.drop n) (ts.drop n) := by
  induction h generalizing n with
  | nil => simp; exact .nil
  | cons h1 h2 ih => cases n with
    | zero => exact .cons h1 h2
    | succ n => exact ih n

theorem Subs.append {v w : List Bool} {a b c d : List Slot} (h : Subs v a b) (h' : Subs w c d) :
    Subs (v ++ w) (a ++ c) (b ++ d) := by
  induction h with
  | nil => exact h'
  | cons h1 _ ih => exact .cons h1 ih

theorem Subs.get {ws : List Bool} {ss ts : List Slot} (h : Subs ws ss ts) (i : Nat) (w : Bool) (s t : Slot)
    (hw : ws[i]? = some w) (hs : ss[i]? = some s) (ht : ts[i]? = some t) : Sub w s t := by
  induction h generalizing i with
  | nil => simp at hs
  | cons h1 _ ih => cases i with
    | zero => simp at hw hs ht; subst hw; subst hs; subst ht; exact h1
    | succ i => exact ih i (by simpa using hw) (by simpa using hs) (by simpa using ht)

theorem Subs.of_get (ws : List Bool) (ss ts : List Slot) (hw : ws.length = ss.length) (hl : ts.length = ss.length)
    (h : ∀ (i : Nat) (w : Bool) (s t : Slot), ws[i]? = some w → ss[i]? = some s → ts[i]? = some t → Sub w s t) :
    Subs ws ss ts := by
  induction ss generalizing ws ts with
  | nil => cases ts with
    | nil => cases ws with
      | nil => exact .nil
      | cons w ws => simp at hw
    | cons t ts => simp at hl
  | cons s ss ih => cases ts with
    | nil => simp at hl
    | cons t ts => cases ws with
      | nil => simp at hw
      | cons w ws =>
        exact .cons (h 0 w s t rfl rfl rfl) (ih ws ts (by simpa using hw) (by simpa using hl)
          (fun i w a b hw ha hb => h (i + 1) w a b (by simpa using hw) (by simpa using ha) (by simpa using hb)))

/-- If `p` succeeds, so does `q`, with a related result and the same rest. -/
def SimP {α β : Type} (R : α → β → Prop) (p : P α) (q : P β) : Prop :=
  ∀ s a r, p s = .ok (a, r) → ∃ b, q s = .ok (b, r) ∧ R a b

theorem SimP.bind {α β γ δ : Type} {R : α → β → Prop} {S : γ → δ → Prop} {p : P α} {q : P β} (h : SimP R p q)
    (f : α → P γ) (g : β → P δ) (hfg : ∀ a b, R a b → SimP S (f a) (g b)) : SimP S (p >>= f) (q >>= g) := by
  intro s c r hc
  rw [P.bind_apply] at hc ⊢
  split at hc
  · rename_i a r' ha
    obtain ⟨b, hb, hR⟩ := h s a r' ha
    rw [hb]
    exact hfg a b hR r' c r hc
  · simp at hc

theorem SimP.pure {α β : Type} {R : α → β → Prop} {a : α} {b : β} (h : R a b) : SimP R (Pure.pure a) (Pure.pure b) := by
  intro s a' r ha
  simp only [P.pure_apply, Except.ok.injEq, Prod.mk.injEq] at ha
  obtain ⟨rfl, rfl⟩ := ha
  exact ⟨b, rfl, h⟩

theorem SimP.refl {α : Type} (p : P α) : SimP (· = ·) p p := fun _ a _ h => ⟨a, h, rfl⟩

/-- If `x` succeeds, so does `y`, with a related result. -/
def SimE {α β : Type} (R : α → β → Prop) (x : Except Err α) (y : Except Err β) : Prop :=
  ∀ a, x = .ok a → ∃ b, y = .ok b ∧ R a b

theorem SimP.lift {α β : Type} {R : α → β → Prop} {x : Except Err α} {y : Except Err β} (h : SimE R x y) :
    SimP R (P.lift x) (P.lift y) := by
  intro s a r ha
  unfold P.lift at ha ⊢
  cases x with
  | error e => simp at ha
  | ok a' =>
    simp only [Except.ok.injEq, Prod.mk.injEq] at ha
    obtain ⟨rfl, rfl⟩ := ha
    obtain ⟨b, hb, hR⟩ := h a' rfl
    exact ⟨b, by rw [hb], hR⟩

theorem Sub.dec {w : Bool} {s t : Slot} (h : Sub w s t) (o : Order) (row : Nat) :
    SimP (Sub w) (decSlot o row s) (decSlot o row t) := by
  cases w with
  | true =>
    have := h.same rfl
    subst this
    intro x a r ha
    exact ⟨a, ha, ⟨rfl, fun _ => rfl, by simp⟩⟩
  | false =>
    obtain ⟨ht, hl⟩ := h.idle rfl
    intro x a r ha
    unfold decSlot at ha ⊢
    rw [ht]
    simp only [Bool.false_eq_true, if_false]
    have key : ∀ s' : Slot, s'.codec = s.codec → Sub false s' t := fun s' hs' =>
      ⟨by rw [hs']; exact h.codec, by simp, fun _ => ⟨ht, hl⟩⟩
    by_cases hv : s.visit = true
    · rw [if_pos hv, P.bind_apply] at ha
      split at ha
      · rename_i d r1 hd
        rw [P.bind_apply] at ha
        split at ha
        · rename_i s' r' hs'
          simp only [P.pure_apply, Except.ok.injEq, Prod.mk.injEq] at ha
          unfold P.lift at hs'
          split at hs'
          · rename_i s'' hst
            simp only [Except.ok.injEq, Prod.mk.injEq] at hs'
            unfold Slot.store at hst
            split at hst
            · simp only [Except.ok.injEq] at hst
              refine ⟨t, ?_, key a (by rw [← ha.1, ← hs'.1, ← hst])⟩
              rw [P.bind_apply, h.codec, skip_of_dec o s.codec x r1 d hd]
              rw [← ha.2, ← hs'.2]
              rfl
            · simp at hst
          · simp at hs'
        · simp at ha
      · simp at ha
    · rw [if_neg hv, P.bind_apply] at ha
      rw [P.bind_apply, h.codec]
      split at ha
      · rename_i u r1 hu
        simp only [P.pure_apply, Except.ok.injEq, Prod.mk.injEq] at ha
        refine ⟨t, ?_, key a (by rw [← ha.1])⟩
        rw [← ha.2]
        rfl
      · simp at ha

theorem Subs.dec {ws : List Bool} {ss ts : List Slot} (h : Subs ws ss ts) (o : Order) (row : Nat) :
    SimP (Subs ws) (decSlots o row ss) (decSlots o row ts) := by
  induction h with
  | nil => exact SimP.pure .nil
  | cons h1 _ ih =>
    unfold decSlots
    refine SimP.bind (h1.dec o row) _ _ ?_
    intro a b hab
    refine SimP.bind ih _ _ ?_
    intro c d hcd
    exact SimP.pure (.cons hab hcd)

theorem fill_fields {n : Nat} {s s' : Slot} (h : s.fill n = .ok s') :
    s'.codec = s.codec ∧ s'.visit = s.visit ∧ s'.last = s.last := by
  unfold Slot.fill at h
  split at h
  · split at h
    · simp only [Except.ok.injEq] at h; rw [← h]; exact ⟨rfl, rfl, rfl⟩
    · simp at h
  · simp only [Except.ok.injEq] at h; rw [← h]; exact ⟨rfl, rfl, rfl⟩

theorem Sub.fill {w : Bool} {s t : Slot} (h : Sub w s t) (n : Nat) : SimE (Sub w) (s.fill n) (t.fill n) := by
  intro a ha
  have hf := fill_fields ha
  cases w with
  | true =>
    have := h.same rfl
    subst this
    exact ⟨a, ha, ⟨rfl, fun _ => rfl, by simp⟩⟩
  | false =>
    obtain ⟨ht, hl⟩ := h.idle rfl
    exact ⟨t, by simp [Slot.fill, ht], ⟨by rw [hf.1]; exact h.codec, by simp, fun _ => ⟨ht, hl⟩⟩⟩

theorem Subs.fillAll {ws : List Bool} {ss ts : List Slot} (h : Subs ws ss ts) (n : Nat) :
    SimE (Subs ws) (fillAll n ss) (fillAll n ts) := by
  induction h with
  | nil => intro a ha; simp only [Verif.fillAll, Except.ok.injEq] at ha; subst ha; exact ⟨[], rfl, .nil⟩
  | cons h1 _ ih =>
    intro a ha
    simp only [Verif.fillAll] at ha ⊢
    split at ha
    · simp at ha
    rename_i s' hs'
    split at ha
    · simp at ha
    rename_i ss' hss'
    simp only [Except.ok.injEq] at ha
    obtain ⟨t', ht', h'⟩ := h1.fill n s' hs'
    obtain ⟨ts', hts', h''⟩ := ih ss' hss'
    rw [ht', hts']
    subst ha
    exact ⟨_, rfl, .cons h' h''⟩

theorem cut3 {α : Type} (l : List α) (a b : Nat) (h : a < b) : l.take a ++ ((l.take b).drop a ++ l.drop b) = l := by
  rw [← List.append_assoc]
  conv_rhs => rw [← List.take_append_drop b l, ← List.take_append_drop a (l.take b)]
  rw [List.take_take, Nat.min_eq_left (by omega)]

theorem Subs.fillRange {ws : List Bool} {ss ts : List Slot} (h : Subs ws ss ts) (a b row : Nat) :
    SimE (Subs ws) (fillRange a b row ss) (fillRange a b row ts) := by
  intro x hx
  unfold Verif.fillRange at hx ⊢
  split at hx
  · rename_i hab
    rw [h.length.1]
    split at hx
    · split at hx
      · simp at hx
      rename_i m hm
      simp only [Except.ok.injEq] at hx
      obtain ⟨m', hm', h'⟩ := ((h.take b).drop a).fillAll _ m hm
      rw [if_pos (by assumption), if_pos (by assumption), hm']
      subst hx
      have := (h.take a).append (h'.append (h.drop b))
      rw [cut3 _ _ _ hab] at this
      exact ⟨_, rfl, this⟩
    · simp at hx
  · simp only [Except.ok.injEq] at hx
    subst hx
    rw [if_neg (by assumption)]
    exact ⟨ts, rfl, h⟩

theorem Subs.rows {ws : List Bool} {ss ts : List Slot} (h : Subs ws ss ts) (o : Order) (k row last : Nat) :
    SimP (Subs ws) (decRows o k row last ss) (decRows o k row last ts) := by
  induction k generalizing row last ss ts with
  | zero => exact SimP.pure h
  | succ k ih =>
    unfold decRows
    refine SimP.bind (SimP.refl _) _ _ ?_
    rintro m _ rfl
    refine SimP.bind (SimP.lift (h.fillRange _ _ _)) _ _ ?_
    intro a b hab
    refine SimP.bind ((hab.drop _).dec o row) _ _ ?_
    intro c d hcd
    have := (hab.take (markerStart m)).append hcd
    rw [List.take_append_drop] at this
    exact ih this (row + 1) _

theorem Subs.init {ws : List Bool} {ss ts : List Slot} (h : Subs ws ss ts) : SimE (Subs ws) (initAll ss) (initAll ts) := by
  induction h with
  | nil => intro a ha; simp only [initAll, Except.ok.injEq] at ha; subst ha; exact ⟨[], rfl, .nil⟩
  | @cons w s t ws ss ts h1 _ ih =>
    intro a ha
    simp only [initAll] at ha ⊢
    split at ha
    · simp at ha
    rename_i s' hs'
    split at ha
    · simp at ha
    rename_i ss' hss'
    simp only [Except.ok.injEq] at ha
    obtain ⟨ts', hts', h''⟩ := ih ss' hss'
    have hf : s'.codec = s.codec := by
      unfold Slot.init at hs'
      split at hs'
      · split at hs'
        · unfold Slot.store at hs'
          split at hs'
          · simp only [Except.ok.injEq] at hs'; rw [← hs']
          · simp at hs'
        · simp at hs'
      · simp only [Except.ok.injEq] at hs'; rw [← hs']
    cases w with
    | true =>
      have := h1.same rfl
      subst this
      rw [hs', hts']
      subst ha
      exact ⟨_, rfl, .cons ⟨rfl, fun _ => rfl, by simp⟩ h''⟩
    | false =>
      obtain ⟨ht, hl⟩ := h1.idle rfl
      rw [show t.init = .ok t by simp [Slot.init, ht], hts']
      subst ha
      exact ⟨_, rfl, .cons ⟨by rw [hf]; exact h1.codec, by simp, fun _ => ⟨ht, hl⟩⟩ h''⟩

/-! ### The final fill -/

/-- Rows last decoded, after `row` rows the last of which started at column `start`. -/
def LastOk (row start : Nat) (ss : List Slot) : Prop :=
  ∀ (i : Nat) (s : Slot), ss[i]? = some s →
    (s.visit = false → s.last = 0) ∧ s.last < row ∧ (s.visit = true → start ≤ i → s.last + 1 = row) ∧
      (s.visit = true → s.last + 1 = row → 1 < row → start ≤ i)

theorem decSlot_last {o : Order} {row : Nat} {s s' : Slot} {x r : List Byte} (h : decSlot o row s x = .ok (s', r)) :
    s'.visit = s.visit ∧ s'.last = if s.visit then row else s.last := by
  unfold decSlot at h
  split at h
  · rename_i hv
    rw [P.bind_apply] at h
    split at h
    · rw [P.bind_apply] at h
      split at h
      · rename_i s1 r' hs'
        simp only [P.pure_apply, Except.ok.injEq, Prod.mk.injEq] at h
        unfold P.lift at hs'
        split at hs'
        · rename_i s'' hst
          simp only [Except.ok.injEq, Prod.mk.injEq] at hs'
          unfold Slot.store at hst
          split at hst
          · simp only [Except.ok.injEq] at hst
            rw [← h.1, ← hs'.1, ← hst]
            exact ⟨rfl, by simp [hv]⟩
          · simp at hst
        · simp at hs'
      · simp at h
    · simp at h
  · rename_i hv
    rw [P.bind_apply] at h
    split at h
    · simp only [P.pure_apply, Except.ok.injEq, Prod.mk.injEq] at h
      rw [← h.1]; exact ⟨rfl, by simp [hv]⟩
    · simp at h

theorem decSlots_last {o : Order} {row : Nat} {ss ss' : List Slot} {x r : List Byte}
    (h : decSlots o row ss x = .ok (ss', r)) : ss'.length = ss.length ∧
      ∀ (i : Nat) (s s' : Slot), ss[i]? = some s → ss'[i]? = some s' →
        s'.visit = s.visit ∧ s'.last = if s.visit then row else s.last := by
  induction ss generalizing ss' x r with
  | nil => simp only [decSlots, P.pure_apply, Except.ok.injEq, Prod.mk.injEq] at h; rw [← h.1]; simp
  | cons s ss ih =>
    unfold decSlots at h
    rw [P.bind_apply] at h
    split at h
    · rename_i s1 r1 h1
      rw [P.bind_apply] at h
      split at h
      · rename_i ss1 r2 h2
        simp only [P.pure_apply, Except.ok.injEq, Prod.mk.injEq] at h
        obtain ⟨i1, i2⟩ := ih h2
        rw [← h.1]
        refine ⟨by simp [i1], ?_⟩
        intro i a b ha hb
        cases i with
        | zero => simp at ha hb; subst ha; subst hb; exact decSlot_last h1
        | succ i => exact i2 i a b (by simpa using ha) (by simpa using hb)
      · simp at h
    · simp at h

theorem fillAll_last {n : Nat} {ss ss' : List Slot} (h : fillAll n ss = .ok ss') : ss'.length = ss.length ∧
    ∀ (i : Nat) (s s' : Slot), ss[i]? = some s → ss'[i]? = some s' → s'.visit = s.visit ∧ s'.last = s.last := by
  induction ss generalizing ss' with
  | nil => simp only [fillAll, Except.ok.injEq] at h; rw [← h]; simp
  | cons s ss ih =>
    simp only [fillAll] at h
    split at h
    · simp at h
    rename_i s1 h1
    split at h
    · simp at h
    rename_i ss1 h2
    simp only [Except.ok.injEq] at h
    obtain ⟨i1, i2⟩ := ih h2
    rw [← h]
    refine ⟨by simp [i1], ?_⟩
    intro i a b ha hb
    cases i with
    | zero => simp at ha hb; subst ha; subst hb; exact (fill_fields h1).2
    | succ i => exact i2 i a b (by simpa using ha) (by simpa using hb)

theorem fillRange_last {a b row : Nat} {ss ss' : List Slot} (h : fillRange a b row ss = .ok ss') :
    ss'.length = ss.length ∧
    ∀ (i : Nat) (s s' : Slot), ss[i]? = some s → ss'[i]? = some s' → s'.visit = s.visit ∧ s'.last = s.last := by
  unfold fillRange at h
  split at h
  · rename_i hab
    split at h
    · rename_i hb
      split at h
      · simp at h
      rename_i m hm
      simp only [Except.ok.injEq] at h
      obtain ⟨i1, i2⟩ := fillAll_last hm
      simp only [List.length_drop, List.length_take] at i1
      rw [← h]
      refine ⟨by simp only [List.length_append, List.length_take, List.length_drop]; omega, ?_⟩
      intro i s s' hs hs'
      rcases Nat.lt_or_ge i a with hi | hi
      · rw [List.getElem?_append_left (by simp; omega), List.getElem?_take_of_lt hi, hs] at hs'
        cases hs'; exact ⟨rfl, rfl⟩
      · rw [List.getElem?_append_right (by simp; omega), List.length_take] at hs'
        rw [show i - min a ss.length = i - a by omega] at hs'
        rcases Nat.lt_or_ge i b with hi2 | hi2
        · rw [List.getElem?_append_left (by omega)] at hs'
          refine i2 (i - a) s s' ?_ hs'
          rw [List.getElem?_drop, List.getElem?_take_of_lt (by omega), show a + (i - a) = i by omega, hs]
        · rw [List.getElem?_append_right (by omega), List.getElem?_drop,
            show b + (i - a - m.length) = i by omega, hs] at hs'
          cases hs'; exact ⟨rfl, rfl⟩
    · simp at h
  · simp only [Except.ok.injEq] at h
    rw [← h]
    refine ⟨rfl, ?_⟩
    intro i s s' hs hs'
    rw [hs] at hs'; cases hs'; exact ⟨rfl, rfl⟩

/-- After the rows: either no row was decoded, or the invariant holds for some start column. -/
theorem decRows_last {o : Order} (k row start : Nat) {ss ss' : List Slot} {x r : List Byte}
    (h : decRows o k row start ss x = .ok (ss', r))
    (hinv : (row = 0 ∧ ∀ s ∈ ss, s.last = 0) ∨ (0 < row ∧ LastOk row start ss)) (hk : 0 < row + k) :
    ∃ start', LastOk (row + k) start' ss' := by
  induction k generalizing row start ss x with
  | zero =>
    simp only [decRows, P.pure_apply, Except.ok.injEq, Prod.mk.injEq] at h
    rw [← h.1]
    rcases hinv with h0 | h0
    · omega
    · exact ⟨start, h0.2⟩
  | succ k ih =>
    unfold decRows at h
    rw [P.bind_apply] at h
    split at h
    swap
    · simp at h
    rename_i m r1 hm
    rw [P.bind_apply] at h
    split at h
    swap
    · simp at h
    rename_i ss1 r2 hf
    rw [P.bind_apply] at h
    split at h
    swap
    · simp at h
    rename_i tl r3 hd
    have hf' : fillRange (markerStart m) start row ss = .ok ss1 := by
      unfold P.lift at hf
      split at hf
      · simp only [Except.ok.injEq, Prod.mk.injEq] at hf; rw [← hf.1]; assumption
      · simp at hf
    obtain ⟨f1, f2⟩ := fillRange_last hf'
    obtain ⟨d1, d2⟩ := decSlots_last hd
    simp only [List.length_drop] at d1
    have hgen : LastOk (row + 1) (markerStart m) (ss1.take (markerStart m) ++ tl) := by
      intro i s hs
      have hil : i < ss.length := by
        have := (List.getElem?_eq_some_iff.mp hs).1
        simp only [List.length_append, List.length_take] at this
        omega
      have h0 : ss[i]? = some ss[i] := List.getElem?_eq_getElem hil
      have h1 : ss1[i]? = some (ss1[i]'(by omega)) := List.getElem?_eq_getElem (by omega)
      obtain ⟨e1, e2⟩ := f2 i _ _ h0 h1
      have hbase : (ss[i].visit = false → ss[i].last = 0) ∧ (ss[i].last < row ∨ ss[i].last = 0) := by
        rcases hinv with ⟨h2, h3⟩ | ⟨h2, h3⟩
        · have := h3 _ (List.mem_of_getElem? h0)
          exact ⟨fun _ => this, Or.inr this⟩
        · obtain ⟨a1, a2, _, _⟩ := h3 i _ h0
          exact ⟨a1, Or.inl a2⟩
      rcases Nat.lt_or_ge i (markerStart m) with hi | hi
      · rw [List.getElem?_append_left (by simp; omega), List.getElem?_take_of_lt hi, h1] at hs
        cases hs
        refine ⟨?_, ?_, fun _ hc => absurd hi (by omega), ?_⟩
        · rw [e1, e2]; exact hbase.1
        · rw [e2]; rcases hbase.2 with h2 | h2 <;> omega
        · rw [e2]; intro _ _ _; rcases hbase.2 with h2 | h2 <;> omega
      · rw [List.getElem?_append_right (by simp; omega), List.length_take,
          show i - min (markerStart m) ss1.length = i - markerStart m by omega] at hs
        obtain ⟨c1, c2⟩ := d2 (i - markerStart m) (ss1[i]'(by omega)) s (by
          rw [List.getElem?_drop, show markerStart m + (i - markerStart m) = i by omega, h1]) hs
        rw [c1, c2, e1, e2]
        refine ⟨?_, ?_, ?_, fun _ _ _ => hi⟩
        · intro hv; rw [hv]; simpa using hbase.1 hv
        · split
          · omega
          · rcases hbase.2 with h2 | h2 <;> omega
        · intro hv _; rw [hv]; simp
    have := ih (row + 1) (markerStart m) h (Or.inr ⟨by omega, hgen⟩) (by omega)
    rw [show row + (k + 1) = row + 1 + k by omega]
    exact this

theorem fill_done (s : Slot) (n : Nat) (h : s.visit = true → s.last = n) : s.fill n = .ok s := by
  unfold Slot.fill
  split
  · rename_i hv
    have := h hv
    rw [if_pos (by omega)]
    congr 1
    obtain ⟨c, f, v, e, l, m⟩ := s
    simp only at this
    subst this
    simp only [Slot.mk.injEq, true_and]
    funext r
    rw [if_neg (by omega)]
  · rfl

theorem fillAll_done (n : Nat) (ss : List Slot) (h : ∀ s ∈ ss, s.visit = true → s.last = n) : fillAll n ss = .ok ss := by
  induction ss with
  | nil => rfl
  | cons s ss ih =>
    simp only [fillAll]
    rw [fill_done s n (h s (by simp)), ih (fun t ht => h t (by simp [ht]))]

/-- The final loop fills every column. -/
theorem finish_fill (n start i : Nat) (hn : 0 < n) (ss : List Slot)
    (h : ∀ (j : Nat) (s : Slot), ss[j]? = some s → (s.visit = false → s.last = 0) ∧ s.last < n ∧
      (s.visit = true → start ≤ i + j → s.last + 1 = n) ∧ (s.visit = true → s.last + 1 = n → 1 < n → start ≤ i + j)) :
    finish n ss = fillAll (n - 1) ss := by
  induction ss generalizing i with
  | nil => rfl
  | cons s ss ih =>
    obtain ⟨h1, h2, h3, h4⟩ := h 0 s rfl
    have hrest : ∀ (j : Nat) (t : Slot), ss[j]? = some t → (t.visit = false → t.last = 0) ∧ t.last < n ∧
        (t.visit = true → start ≤ i + 1 + j → t.last + 1 = n) ∧
        (t.visit = true → t.last + 1 = n → 1 < n → start ≤ i + 1 + j) := by
      intro j t ht
      have := h (j + 1) t (by simpa using ht)
      rw [show i + (j + 1) = i + 1 + j by omega] at this
      exact this
    simp only [finish]
    split
    · rw [ih (i + 1) hrest]
      simp only [fillAll]
    · rename_i hc
      symm
      apply fillAll_done
      intro t ht hv
      rcases List.mem_cons.mp ht with rfl | ht
      · omega
      · obtain ⟨j, hj⟩ := List.mem_iff_getElem?.mp ht
        obtain ⟨_, t2, t3, _⟩ := hrest j t hj
        by_cases hn1 : n = 1
        · omega
        · have hsv : s.visit = true := by
            cases hsv : s.visit with
            | true => rfl
            | false => have := h1 hsv; omega
          have := h4 hsv (by omega) (by omega)
          have := t3 hv (by omega)
          omega

/-- **Decoding fewer columns of a table.** -/
theorem Subs.decodeTable {ws : List Bool} {ss ts : List Slot} (h : Subs ws ss ts) (hl : ∀ s ∈ ss, s.last = 0)
    (o : Order) (n : Nat) (data : List Byte) : SimE (Subs ws) (decodeTable o n ss data) (decodeTable o n ts data) := by
  intro out hout
  unfold Verif.decodeTable at hout ⊢
  by_cases hn : n = 0
  · rw [if_pos hn] at hout ⊢
    simp only [Except.ok.injEq] at hout
    subst hout
    exact ⟨ts, rfl, h⟩
  rw [if_neg hn] at hout ⊢
  split at hout
  · simp at hout
  rename_i ss1 hss1
  obtain ⟨ts1, hts1, h1⟩ := h.init ss1 hss1
  rw [hts1]
  simp only
  split at hout
  · simp at hout
  rename_i ss2 rest hss2
  obtain ⟨ts2, hts2, h2⟩ := h1.rows o n 0 0 data ss2 rest hss2
  rw [hts2]
  simp only
  have hlast : ∀ us us1 : List Slot, (∀ s ∈ us, s.last = 0) → initAll us = .ok us1 → ∀ s ∈ us1, s.last = 0 := by
    intro us
    induction us with
    | nil => intro us1 _ he; simp only [initAll, Except.ok.injEq] at he; subst he; simp
    | cons u us ih =>
      intro us1 hz he
      simp only [initAll] at he
      split at he
      · simp at he
      rename_i u' hu'
      split at he
      · simp at he
      rename_i us' hus'
      simp only [Except.ok.injEq] at he
      subst he
      intro s hs
      rcases List.mem_cons.mp hs with rfl | hs
      · unfold Slot.init at hu'
        have := hz u (by simp)
        split at hu'
        · split at hu'
          · unfold Slot.store at hu'
            split at hu'
            · simp only [Except.ok.injEq] at hu'; rw [← hu']; exact this
            · simp at hu'
          · simp at hu'
        · simp only [Except.ok.injEq] at hu'; rw [← hu']; exact this
      · exact ih us' (fun s hs => hz s (by simp [hs])) hus' s hs
  have hzt : ∀ t ∈ ts, t.last = 0 := by
    intro t ht
    obtain ⟨i, hi⟩ := List.mem_iff_getElem?.mp ht
    have hil : i < ss.length := by rw [← h.length.1]; exact (List.getElem?_eq_some_iff.mp hi).1
    have hs : ss[i]? = some ss[i] := List.getElem?_eq_getElem hil
    have hw : ws[i]? = some (ws[i]'(by rw [h.length.2]; exact hil)) := List.getElem?_eq_getElem _
    have hsub := h.get i _ _ _ hw hs hi
    cases hv : ws[i]'(by rw [h.length.2]; exact hil) with
    | true => rw [hsub.same hv]; exact hl _ (List.mem_of_getElem? hs)
    | false => exact (hsub.idle hv).2
  obtain ⟨st1, hs1⟩ := decRows_last n 0 0 hss2 (Or.inl ⟨rfl, hlast ss ss1 hl hss1⟩) (by omega)
  obtain ⟨st2, hs2⟩ := decRows_last n 0 0 hts2 (Or.inl ⟨rfl, hlast ts ts1 hzt hts1⟩) (by omega)
  rw [Nat.zero_add] at hs1 hs2
  rw [finish_fill n st1 0 (by omega) ss2 (fun j s hj => by rw [Nat.zero_add]; exact hs1 j s hj)] at hout
  rw [finish_fill n st2 0 (by omega) ts2 (fun j s hj => by rw [Nat.zero_add]; exact hs2 j s hj)]
  exact h2.fillAll _ out hout

/-! ### Requests -/

theorem mkSlot_last (cols : List Col) (ts : List Target) (ps : List Nat) (p : Nat) : (mkSlot cols ts ps p).last = 0 := by
  unfold mkSlot
  dsimp only
  split <;> rfl

theorem mkSlot_codec (cols : List Col) (ts : List Target) (ps : List Nat) (p : Nat) : (mkSlot cols ts ps p).codec =
    (match cols[p]? with | some c => c.codec | none => fresh .int32 1 true) := by
  unfold mkSlot
  dsimp only
  split <;> rfl

theorem zip_get_mem {α β : Type} (a : List α) (b : List β) (x : α) (y : β) (h : (x, y) ∈ a.zip b) :
    ∃ i : Nat, a[i]? = some x ∧ b[i]? = some y := by
  obtain ⟨i, hi⟩ := List.mem_iff_getElem?.mp h
  rw [List.getElem?_zip_eq_some] at hi
  exact ⟨i, hi.1, hi.2⟩

/-- Slots of two requests, the second with fewer columns and the same targets. -/
theorem slots_subs (cols : List Col) (req1 req2 : List (Str × Target)) (ps qs : List Nat)
    (hl1 : ps.length = req1.length) (hl2 : qs.length = req2.length) (hnd1 : ps.Nodup) (hnd2 : qs.Nodup)
    (h : ∀ (j : Nat) (nm : Str) (tg : Target) (p : Nat), req2[j]? = some (nm, tg) → qs[j]? = some p →
      ∃ i : Nat, ps[i]? = some p ∧ req1[i]? = some (nm, tg)) :
    Subs ((List.range cols.length).map (fun p => decide (p ∈ qs)))
      ((List.range cols.length).map (mkSlot cols (req1.map Prod.snd) ps))
      ((List.range cols.length).map (mkSlot cols (req2.map Prod.snd) qs)) := by
  refine Subs.of_get _ _ _ (by simp) (by simp) ?_
  intro i w s t hw hs ht
  simp only [List.getElem?_map] at hw hs ht
  rcases Nat.lt_or_ge i cols.length with hi | hi
  swap
  · rw [List.getElem?_eq_none (by simpa using hi)] at hs; simp at hs
  rw [List.getElem?_range hi] at hw hs ht
  simp only [Option.map_some, Option.some.injEq] at hw hs ht
  subst hs
  subst ht
  subst hw
  refine ⟨by rw [mkSlot_codec, mkSlot_codec], ?_, ?_⟩
  · intro hv
    have hv : i ∈ qs := by simpa using hv
    obtain ⟨j, hj⟩ := List.mem_iff_getElem?.mp hv
    have hjl : j < req2.length := by rw [← hl2]; exact (List.getElem?_eq_some_iff.mp hj).1
    rcases hr : req2[j] with ⟨nm, tg⟩
    have hr' : req2[j]? = some (nm, tg) := by rw [List.getElem?_eq_getElem hjl, hr]
    obtain ⟨k, hk1, hk2⟩ := h j nm tg i hr' hj
    unfold mkSlot
    dsimp only
    rw [(zip_find (ts := req1.map Prod.snd) (by simpa using hl1) hnd1 i).2 k tg hk1 (by rw [List.getElem?_map, hk2]; rfl),
      (zip_find (ts := req2.map Prod.snd) (by simpa using hl2) hnd2 i).2 j tg hj (by rw [List.getElem?_map, hr']; rfl)]
  · intro hv
    have hv : i ∉ qs := by simpa using hv
    refine ⟨?_, mkSlot_last _ _ _ _⟩
    unfold mkSlot
    dsimp only
    rw [(zip_find (ts := req2.map Prod.snd) (by simpa using hl2) hnd2 i).1 hv]

/-- `b` consists of the elements of `a` at the positions `ix`, all different. -/
structure Picks {α : Type} (ix : List Nat) (a b : List α) : Prop where
  distinct : ix.Nodup
  len : b.length = ix.length
  bound : ∀ i ∈ ix, i < a.length
  get : ∀ (j i : Nat), ix[j]? = some i → b[j]? = a[i]?

theorem Picks.short {α : Type} {ix : List Nat} {a b : List α} (h : Picks ix a b) : b.length ≤ a.length := by
  rw [h.len]
  have hsub : ix ⊆ List.range a.length := fun i hi => List.mem_range.mpr (h.bound i hi)
  have := (List.Nodup.subperm h.distinct hsub).length_le
  simpa using this

theorem Picks.index {α : Type} {ix : List Nat} {a b : List α} (h : Picks ix a b) (j : Nat) (x : α) (hx : b[j]? = some x) :
    ∃ i : Nat, ix[j]? = some i ∧ a[i]? = some x := by
  have hj : j < ix.length := by rw [← h.len]; exact (List.getElem?_eq_some_iff.mp hx).1
  have := List.getElem?_eq_getElem hj
  exact ⟨ix[j], this, by rw [← h.get j _ this, hx]⟩

theorem Picks.map {α β : Type} {ix : List Nat} {a b : List α} (h : Picks ix a b) (f : α → β) :
    Picks ix (a.map f) (b.map f) :=
  ⟨h.distinct, by simp [h.len], by simpa using h.bound, fun j i hi => by
    rw [List.getElem?_map, List.getElem?_map, h.get j i hi]⟩

/-- The selection itself. -/
def pick {α : Type} (ix : List Nat) (a : List α) : List α := ix.filterMap (fun i => a[i]?)

theorem Picks.pick {α : Type} {ix : List Nat} {a : List α} (hd : ix.Nodup) (hb : ∀ i ∈ ix, i < a.length) :
    Picks ix a (pick ix a) := by
  suffices hs : (Verif.pick ix a).length = ix.length ∧ ∀ (j i : Nat), ix[j]? = some i → (Verif.pick ix a)[j]? = a[i]? from
    ⟨hd, hs.1, hb, hs.2⟩
  clear hd
  induction ix with
  | nil => simp [Verif.pick]
  | cons k ix ih =>
    obtain ⟨i1, i2⟩ := ih (fun i hi => hb i (by simp [hi]))
    have hk := hb k (by simp)
    have e : Verif.pick (k :: ix) a = a[k] :: Verif.pick ix a := by
      simp [Verif.pick, List.getElem?_eq_getElem hk]
    rw [e]
    refine ⟨by simp [i1], ?_⟩
    intro j i hj
    cases j with
    | zero => simp at hj; subst hj; simp [List.getElem?_eq_getElem hk]
    | succ j => simpa using i2 j i (by simpa using hj)

theorem Picks.unique {α : Type} {ix : List Nat} {a b c : List α} (h : Picks ix a b) (h' : Picks ix a c) : b = c := by
  apply List.ext_getElem?
  intro j
  rcases Nat.lt_or_ge j ix.length with hj | hj
  · have := List.getElem?_eq_getElem hj
    rw [h.get j _ this, h'.get j _ this]
  · rw [List.getElem?_eq_none (by rw [h.len]; exact hj), List.getElem?_eq_none (by rw [h'.len]; exact hj)]

theorem resolve_picks {L : Lookup} {n : Nat} {req1 req2 : List (Str × Target)} {ix ps : List Nat}
    (hp : Picks ix req1 req2) (h : resolve L n req1 [] = .ok ps) : resolve L n req2 [] = .ok (pick ix ps) := by
  obtain ⟨h1, h2, _, h4⟩ := resolve_ok _ _ _ _ _ h
  have hpk : Picks ix ps (pick ix ps) := Picks.pick hp.distinct (by rw [h1]; exact hp.bound)
  apply resolve_of
  · rw [hpk.len, hp.len]
  · rw [List.Nodup, List.pairwise_iff_getElem]
    intro a b ha hb hab heq
    obtain ⟨i, hi1, hi2⟩ := hpk.index a _ (List.getElem?_eq_getElem ha)
    obtain ⟨k, hk1, hk2⟩ := hpk.index b _ (List.getElem?_eq_getElem hb)
    have hil := (List.getElem?_eq_some_iff.mp hi2).1
    have hik : i = k := by
      rw [heq] at hi2
      exact (List.getElem?_inj hil h2).mp (hi2.trans hk2.symm)
    subst hik
    have hal := (List.getElem?_eq_some_iff.mp hi1).1
    have := (List.getElem?_inj hal hp.distinct).mp (hi1.trans hk1.symm)
    omega
  · simp
  · intro j nm t hj
    obtain ⟨i, hi1, hi2⟩ := hp.index j _ hj
    obtain ⟨q1, q2⟩ := h4 i nm t hi2
    exact ⟨by rw [q1, hpk.get j i hi1], q2⟩

theorem tableDecode_picks {o : Order} {cols : List Col} {n : Nat} {data : List Byte} {L : Lookup}
    {req1 req2 : List (Str × Target)} {ix : List Nat} (hp : Picks ix req1 req2) {out1 : List (Nat → Cell)}
    (hb : ∀ ps, resolve L n req1 [] = .ok ps → ∀ p ∈ ps, p < cols.length)
    (h : tableDecode o cols n data L req1 = .ok out1) :
    ∃ out2, tableDecode o cols n data L req2 = .ok out2 ∧ Picks ix out1 out2 := by
  unfold tableDecode at h ⊢
  split at h
  · simp at h
  have := hp.short
  rw [if_neg (by omega)]
  split at h
  · simp at h
  rename_i ps hps
  rw [resolve_picks hp hps]
  simp only
  obtain ⟨h1, h2, _, h4⟩ := resolve_ok _ _ _ _ _ hps
  have hpk : Picks ix ps (pick ix ps) := Picks.pick hp.distinct (by rw [h1]; exact hp.bound)
  split at h
  · rename_i hn
    simp only [Except.ok.injEq] at h
    rw [if_pos hn, ← h]
    exact ⟨_, rfl, hp.map _⟩
  rename_i hn
  rw [if_neg hn]
  split at h
  · simp at h
  rename_i ho
  rw [if_neg ho]
  split at h
  · simp at h
  rename_i ss hss
  simp only [Except.ok.injEq] at h
  have hsubs := slots_subs cols req1 req2 ps (pick ix ps) h1 (by rw [hpk.len, hp.len]) h2 (resolve_ok _ _ _ _ _ (resolve_picks hp hps)).2.1 (by
    intro j nm tg p hj hq
    obtain ⟨i, hi1, hi2⟩ := hp.index j _ hj
    exact ⟨i, by rw [← hpk.get j i hi1, hq], hi2⟩)
  have hcol : ∀ p ∈ pick ix ps, p < cols.length := by
    intro p hp'
    obtain ⟨j, hj⟩ := List.mem_iff_getElem?.mp hp'
    obtain ⟨i, _, hi2⟩ := hpk.index j _ hj
    exact hb ps hps p (List.mem_of_getElem? hi2)
  obtain ⟨ts, hts, h'⟩ := hsubs.decodeTable (by
    intro s hs
    simp only [List.mem_map] at hs
    obtain ⟨p, _, rfl⟩ := hs
    exact mkSlot_last _ _ _ _) o n data ss hss
  rw [hts]
  simp only
  refine ⟨_, rfl, ?_⟩
  rw [← h]
  obtain ⟨hlen, hlen'⟩ := h'.length
  have hsame : (pick ix ps).map (fun p => match ts[p]? with | some s => s.mem | none => fun _ => []) =
      (pick ix ps).map (fun p => match ss[p]? with | some s => s.mem | none => fun _ => []) := by
    apply List.map_congr_left
    intro p hpm
    have hpc := hcol p hpm
    have hl : p < ss.length := by rw [← hlen']; simpa using hpc
    have e1 : ss[p]? = some ss[p] := List.getElem?_eq_getElem hl
    have e2 : ts[p]? = some (ts[p]'(by omega)) := List.getElem?_eq_getElem (by omega)
    have e3 : ((List.range cols.length).map (fun p => decide (p ∈ pick ix ps)))[p]? = some true := by
      rw [List.getElem?_map, List.getElem?_range hpc]; simp [hpm]
    rw [e1, e2]
    simp only
    rw [(h'.get p _ _ _ e3 e1 e2).same rfl]
  exact hsame ▸ hpk.map _

/-! ### Any table -/

/-- All positions in the lookup maps are columns. -/
def Lookup.Within (L : Lookup) (n : Nat) : Prop := (∀ e ∈ L.exact, e.2 < n) ∧ ∀ e ∈ L.simple, e.2 < n

theorem Lookup.build_within (nms : List Str) (i n : Nat) (L : Lookup) (h : L.Within n) (hi : i + nms.length ≤ n) :
    (Lookup.build nms i L).1.Within n := by
  induction nms generalizing i L with
  | nil => exact h
  | cons nm nms ih =>
    simp only [List.length_cons] at hi
    unfold Lookup.build
    split
    · exact h
    · apply ih (i + 1) _ _ (by omega)
      refine ⟨?_, ?_⟩
      · intro e he
        rcases List.mem_append.mp he with h1 | h1
        · exact h.1 e h1
        · simp only [List.mem_singleton] at h1; subst h1; simp only; omega
      · intro e he
        simp only at he
        split at he
        · exact h.2 e he
        · rcases List.mem_append.mp he with h1 | h1
          · exact h.2 e h1
          · simp only [List.mem_singleton] at h1; subst h1; simp only; omega

theorem columnLookup_within (nms : List Str) (L : Lookup) (h : L.Within nms.length) :
    (columnLookup nms L).1.Within nms.length := by
  unfold columnLookup
  split
  · exact Lookup.build_within _ _ _ _ h (by omega)
  · exact h

theorem Lookup.find_within {L : Lookup} {n : Nat} (h : L.Within n) {nm : Str} {p : Nat} (hf : L.find nm = some p) :
    p < n := by
  have key : ∀ m : List (Str × Nat), (∀ e ∈ m, e.2 < n) → assoc nm m = some p → p < n := by
    intro m hm ha
    unfold assoc at ha
    rw [Option.map_eq_some_iff] at ha
    obtain ⟨e, he, rfl⟩ := ha
    exact hm e (List.mem_of_find?_eq_some he)
  unfold Lookup.find at hf
  split at hf
  · rename_i q hq
    simp only [Option.some.injEq] at hf
    subst hf
    exact key _ h.1 hq
  · exact key _ h.2 hf

theorem resolve_within {L : Lookup} {n k : Nat} (h : L.Within n) {req : List (Str × Target)} {ps : List Nat}
    (hr : resolve L k req [] = .ok ps) : ∀ p ∈ ps, p < n := by
  obtain ⟨h1, _, _, h4⟩ := resolve_ok _ _ _ _ _ hr
  intro p hp
  obtain ⟨i, hi⟩ := List.mem_iff_getElem?.mp hp
  have hil : i < req.length := by rw [← h1]; exact (List.getElem?_eq_some_iff.mp hi).1
  rcases hq : req[i] with ⟨nm, t⟩
  have := (h4 i nm t (by rw [List.getElem?_eq_getElem hil, hq])).1
  exact Lookup.find_within h (this.trans hi)

theorem Tbl.decode_picks {f : File} {t : Tbl} {L L' : Lookup} (hL : L.Within t.info.cols.length)
    {req1 req2 : List (Str × Target)} {ix : List Nat} (hp : Picks ix req1 req2) {out1 : List (Nat → Cell)}
    (h : t.decode f L req1 = (L', .ok out1)) : ∃ out2, t.decode f L req2 = (L', .ok out2) ∧ Picks ix out1 out2 := by
  unfold Tbl.decode at h ⊢
  have hw := columnLookup_within (t.info.cols.map Col.name) L (by simpa using hL)
  split at h
  · simp at h
  rename_i L1 hl1
  rw [hl1] at hw
  have := hp.short
  split at h
  · simp at h
  rw [if_neg (by omega)]
  split at h
  · simp at h
  rename_i ps hps
  rw [resolve_picks hp hps]
  simp only
  split at h
  · simp at h
  rename_i d hd
  simp only [Prod.mk.injEq] at h
  obtain ⟨rfl, h⟩ := h
  obtain ⟨out2, h2, h3⟩ := tableDecode_picks hp (fun ps hps => by
    have := resolve_within hw hps; simpa using this) h
  exact ⟨out2, by rw [h2], h3⟩

theorem sliceReq_get {off n : Nat} {req sub : List (Str × Target)} (h : sliceReq off n req = .ok sub) :
    sub.length = req.length ∧ ∀ (i : Nat) (nm : Str) (t : Target), req[i]? = some (nm, t) →
      ∃ t', t.slice off n = .ok t' ∧ sub[i]? = some (nm, t') := by
  induction req generalizing sub with
  | nil => simp only [sliceReq, Except.ok.injEq] at h; subst h; simp
  | cons e req ih =>
    obtain ⟨nm, t⟩ := e
    simp only [sliceReq] at h
    split at h
    · simp at h
    rename_i t' ht'
    split at h
    · simp at h
    rename_i sub' hsub'
    simp only [Except.ok.injEq] at h
    subst h
    obtain ⟨i1, i2⟩ := ih hsub'
    refine ⟨by simp [i1], ?_⟩
    intro i nm' t1 hi
    cases i with
    | zero => simp at hi; obtain ⟨rfl, rfl⟩ := hi; exact ⟨t', ht', rfl⟩
    | succ i => simpa using i2 i nm' t1 (by simpa using hi)

theorem sliceReq_of {off n : Nat} (req : List (Str × Target)) (h : ∀ e ∈ req, ∃ t', e.2.slice off n = .ok t') :
    ∃ sub, sliceReq off n req = .ok sub := by
  induction req with
  | nil => exact ⟨[], rfl⟩
  | cons e req ih =>
    obtain ⟨nm, t⟩ := e
    obtain ⟨t', ht'⟩ := h (nm, t) (by simp)
    obtain ⟨sub, hs⟩ := ih (fun e he => h e (by simp [he]))
    simp only at ht'
    exact ⟨(nm, t') :: sub, by simp only [sliceReq, ht', hs]⟩

theorem sliceReq_picks {off n : Nat} {req1 req2 sub1 : List (Str × Target)} {ix : List Nat} (hp : Picks ix req1 req2)
    (h : sliceReq off n req1 = .ok sub1) : ∃ sub2, sliceReq off n req2 = .ok sub2 ∧ Picks ix sub1 sub2 := by
  obtain ⟨h1, h2⟩ := sliceReq_get h
  obtain ⟨sub2, hs⟩ := sliceReq_of (off := off) (n := n) req2 (by
    intro e he
    obtain ⟨j, hj⟩ := List.mem_iff_getElem?.mp he
    obtain ⟨i, _, hi2⟩ := hp.index j _ hj
    obtain ⟨t', ht', _⟩ := h2 i e.1 e.2 hi2
    exact ⟨t', ht'⟩)
  obtain ⟨g1, g2⟩ := sliceReq_get hs
  refine ⟨sub2, hs, ⟨hp.distinct, by rw [g1, hp.len], by rw [h1]; exact hp.bound, ?_⟩⟩
  intro j i hj
  have hil := hp.bound i (List.mem_of_getElem? hj)
  rcases hr : req1[i] with ⟨nm, t⟩
  have hr1 : req1[i]? = some (nm, t) := by rw [List.getElem?_eq_getElem hil, hr]
  have hr2 : req2[j]? = some (nm, t) := by rw [hp.get j i hj, hr1]
  obtain ⟨a, ha1, ha2⟩ := h2 i nm t hr1
  obtain ⟨b, hb1, hb2⟩ := g2 j nm t hr2
  rw [ha1] at hb1
  cases hb1
  rw [ha2, hb2]

theorem putBacks_picks {off n : Nat} {req1 req2 : List (Str × Target)} {out1 out2 : List (Nat → Cell)} {ix : List Nat}
    (hp : Picks ix req1 req2) (ho : Picks ix out1 out2) :
    Picks ix (putBacks off n req1 out1) (putBacks off n req2 out2) := by
  unfold putBacks
  apply Picks.map
  refine ⟨hp.distinct, by simp [hp.len, ho.len], fun i hi => by
    simp only [List.length_zip]; exact Nat.lt_min.mpr ⟨hp.bound i hi, ho.bound i hi⟩, ?_⟩
  intro j i hj
  have h1 := hp.get j i hj
  have h2 := ho.get j i hj
  have hi1 := hp.bound i (List.mem_of_getElem? hj)
  have hi2 := ho.bound i (List.mem_of_getElem? hj)
  rw [List.getElem?_eq_getElem hi1] at h1
  rw [List.getElem?_eq_getElem hi2] at h2
  have e1 : (req1.zip out1)[i]? = some (req1[i], out1[i]) := by
    rw [List.getElem?_zip_eq_some]; exact ⟨List.getElem?_eq_getElem hi1, List.getElem?_eq_getElem hi2⟩
  have e2 : (req2.zip out2)[j]? = some (req1[i], out1[i]) := by
    rw [List.getElem?_zip_eq_some]; exact ⟨h1, h2⟩
  rw [e1, e2]

theorem frameSeq_picks {f : File} {ts : List (Tbl × Lookup)} (hL : ∀ e ∈ ts, e.2.Within e.1.info.cols.length) {off : Nat}
    {req1 req2 : List (Str × Target)} {ix : List Nat} (hp : Picks ix req1 req2) {Ls : List Lookup}
    {out1 : List (Nat → Cell)} (h : frameSeq f ts off req1 = (Ls, .ok out1)) :
    ∃ out2, frameSeq f ts off req2 = (Ls, .ok out2) ∧ Picks ix out1 out2 := by
  induction ts generalizing off req1 req2 Ls with
  | nil =>
    simp only [frameSeq, Prod.mk.injEq, Except.ok.injEq] at h ⊢
    rw [← h.2]
    exact ⟨_, ⟨h.1, rfl⟩, hp.map _⟩
  | cons x ts ih =>
    obtain ⟨t, L⟩ := x
    simp only [frameSeq] at h ⊢
    split at h
    · simp at h
    rename_i sub hsub
    obtain ⟨sub2, hs2, hp2⟩ := sliceReq_picks hp hsub
    rw [hs2]
    simp only
    split at h
    · simp at h
    rename_i L' o1 hd
    obtain ⟨o2, hd2, hpo⟩ := Tbl.decode_picks (hL (t, L) (by simp)) hp2 hd
    rw [hd2]
    simp only
    simp only [Prod.mk.injEq] at h
    obtain ⟨rfl, hres⟩ := h
    have hr : frameSeq f ts ((off + t.info.nrows) % 18446744073709551616) (putBacks off t.info.nrows req1 o1) =
      (_, .ok out1) := Prod.ext rfl hres
    obtain ⟨out2, h3, h4⟩ := ih (fun e he => hL e (by simp [he])) (putBacks_picks hp hpo) hr
    exact ⟨out2, by rw [h3], h4⟩

/-- **Decoding some columns of a frame.** -/
theorem frameDecode_picks {f : File} {ts : List (Tbl × Lookup)} (hL : ∀ e ∈ ts, e.2.Within e.1.info.cols.length)
    {req1 req2 : List (Str × Target)} {ix : List Nat} (hp : Picks ix req1 req2) {Ls : List Lookup}
    {out1 : List (Nat → Cell)} (h : frameDecode f ts req1 = (Ls, .ok out1)) :
    ∃ out2, frameDecode f ts req2 = (Ls, .ok out2) ∧ Picks ix out1 out2 := by
  unfold frameDecode at h ⊢
  split at h
  · rename_i t L
    dsimp only at h
    rcases hd : t.decode f L req1 with ⟨L', r⟩
    rw [hd] at h
    simp only [Prod.mk.injEq] at h
    obtain ⟨rfl, rfl⟩ := h
    obtain ⟨o2, hd2, hpo⟩ := Tbl.decode_picks (hL (t, L) (by simp)) hp hd
    exact ⟨o2, by simp only [hd2], hpo⟩
  · exact frameSeq_picks hL hp h

theorem Lookup.empty_within (n : Nat) : Lookup.empty.Within n := ⟨by simp [Lookup.empty], by simp [Lookup.empty]⟩

/-! ### What a successful decode implies -/

/-- Some table refused, or every table decoded a request with the same names. -/
theorem frameSeq_each {f : File} {ts : List (Tbl × Lookup)} {off : Nat} {req : List (Str × Target)} {Ls : List Lookup}
    {out : List (Nat → Cell)} (h : frameSeq f ts off req = (Ls, .ok out)) :
    ∀ e ∈ ts, ∃ sub L' o, e.1.decode f e.2 sub = (L', .ok o) ∧ sub.map Prod.fst = req.map Prod.fst := by
  induction ts generalizing off req Ls with
  | nil => simp
  | cons x ts ih =>
    obtain ⟨t, L⟩ := x
    simp only [frameSeq] at h
    split at h
    · simp at h
    rename_i sub hsub
    split at h
    · simp at h
    rename_i L' o1 hd
    simp only [Prod.mk.injEq] at h
    obtain ⟨rfl, hres⟩ := h
    have hr : frameSeq f ts ((off + t.info.nrows) % 18446744073709551616) (putBacks off t.info.nrows req o1) =
      (_, .ok out) := Prod.ext rfl hres
    obtain ⟨g1, g2⟩ := sliceReq_get hsub
    have hnames : sub.map Prod.fst = req.map Prod.fst := by
      apply List.ext_getElem?
      intro i
      rw [List.getElem?_map, List.getElem?_map]
      rcases Nat.lt_or_ge i req.length with hi | hi
      · rcases hq : req[i] with ⟨nm, tg⟩
        obtain ⟨t', _, h2⟩ := g2 i nm tg (by rw [List.getElem?_eq_getElem hi, hq])
        rw [h2, List.getElem?_eq_getElem hi, hq]; rfl
      · rw [List.getElem?_eq_none hi, List.getElem?_eq_none (by omega)]
    intro e he
    rcases List.mem_cons.mp he with rfl | he
    · exact ⟨sub, L', o1, hd, hnames⟩
    · obtain ⟨sub', L'', o', h1, h2⟩ := ih hr e he
      refine ⟨sub', L'', o', h1, ?_⟩
      rw [h2]
      have hol := Tbl.decode_length _ _ _ _ _ _ hd
      unfold putBacks
      rw [List.map_map]
      apply List.ext_getElem?
      intro i
      rw [List.getElem?_map, List.getElem?_map]
      rcases Nat.lt_or_ge i req.length with hi | hi
      · have e1 : (req.zip o1)[i]? = some (req[i], o1[i]'(by omega)) := by
          rw [List.getElem?_zip_eq_some]; exact ⟨List.getElem?_eq_getElem hi, List.getElem?_eq_getElem _⟩
        rw [e1, List.getElem?_eq_getElem hi]; rfl
      · rw [List.getElem?_eq_none hi, List.getElem?_eq_none (by simp; omega)]; rfl

theorem frameDecode_each {f : File} {ts : List (Tbl × Lookup)} {req : List (Str × Target)} {Ls : List Lookup}
    {out : List (Nat → Cell)} (h : frameDecode f ts req = (Ls, .ok out)) :
    ∀ e ∈ ts, ∃ sub L' o, e.1.decode f e.2 sub = (L', .ok o) ∧ sub.map Prod.fst = req.map Prod.fst := by
  unfold frameDecode at h
  split at h
  · rename_i t L
    dsimp only at h
    rcases hd : t.decode f L req with ⟨L', r⟩
    rw [hd] at h
    simp only [Prod.mk.injEq] at h
    obtain ⟨rfl, rfl⟩ := h
    intro e he
    simp only [List.mem_singleton] at he
    subst he
    exact ⟨req, L', out, hd, rfl⟩
  · exact frameSeq_each h

theorem Tbl.decode_resolve {f : File} {t : Tbl} {L L' : Lookup} {req : List (Str × Target)} {out : List (Nat → Cell)}
    (h : t.decode f L req = (L', .ok out)) : columnLookup (t.info.cols.map Col.name) L = (L', none) ∧
      ∃ ps, resolve L' t.info.nrows req [] = .ok ps := by
  unfold Tbl.decode at h
  split at h
  · simp at h
  rename_i L1 hl1
  split at h
  · simp at h
  split at h
  · simp at h
  rename_i ps hps
  split at h
  · simp at h
  simp only [Prod.mk.injEq] at h
  obtain ⟨rfl, _⟩ := h
  exact ⟨hl1, ps, hps⟩

/-- The names the lookup of a freshly read table knows. -/
theorem Lookup.build_names (nms : List Str) (i : Nat) (L L' : Lookup) (h : Lookup.build nms i L = (L', none)) (nm : Str)
    (hf : L'.find nm ≠ none) : L.find nm ≠ none ∨ nm ∈ nms ∨ nm ∈ nms.map simpleName := by
  induction nms generalizing i L with
  | nil => simp only [Lookup.build, Prod.mk.injEq, and_true] at h; subst h; exact Or.inl hf
  | cons n nms ih =>
    unfold Lookup.build at h
    split at h
    · simp at h
    rcases ih _ _ h with h1 | h1 | h1
    · by_cases hn : n = nm
      · right; left; simp [hn]
      by_cases hs : simpleName n = nm
      · right; right; simp [hs]
      left
      unfold Lookup.find at h1 ⊢
      simp only [assoc_append] at h1
      have e1 : assoc nm [(n, i)] = none := by simp [assoc, hn]
      rw [e1] at h1
      cases ha : assoc nm L.exact with
      | some p => simp
      | none =>
        rw [ha] at h1
        simp only at h1 ⊢
        split at h1
        · exact h1
        · rw [assoc_append] at h1
          have e2 : assoc nm [(simpleName n, i)] = none := by simp [assoc, hs]
          rw [e2] at h1
          cases hb : assoc nm L.simple <;> rw [hb] at h1 <;> simp_all
    · right; left; simp [h1]
    · right; right; simp only [List.map_cons, List.mem_cons]; right; exact h1

end Verif
