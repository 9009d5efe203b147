import Verif.Csv

/-
Splitting and trimming of lines.
-/

namespace Verif

theorem tokens_token (seps : Str) (cur a : Str) (h : ∀ b ∈ a, b ∉ seps) (s : Str) : tokens seps cur (a ++ s) = tokens seps (cur ++ a) s := by
  induction a generalizing cur with
  | nil => simp
  | cons b a ih =>
    rw [List.cons_append, tokens, if_neg (h b (by simp)), ih _ (fun c hc => h c (by simp [hc]))]
    simp

theorem tokens_join (seps : Str) (d : Byte) (hd : d ∈ seps) (cells : List Str) (hc : ∀ a ∈ cells, a ≠ [] ∧ ∀ b ∈ a, b ∉ seps) :
    splitAt seps (joinWith d cells) = cells := by
  unfold splitAt
  induction cells with
  | nil => rfl
  | cons a r ih =>
    cases r with
    | nil =>
      have := tokens_token seps [] a (hc a (by simp)).2 []
      rw [List.append_nil, List.nil_append] at this
      rw [joinWith, this, tokens, if_neg (hc a (by simp)).1]
    | cons c r =>
      rw [joinWith, tokens_token seps [] a (hc a (by simp)).2, List.nil_append, tokens, if_pos hd, if_neg (hc a (by simp)).1,
        ih (fun x hx => hc x (by simp [hx]))]

theorem ltrim_append (a s : Str) (h : ltrim a ≠ []) : ltrim (a ++ s) = ltrim a ++ s := by
  induction a with
  | nil => exact absurd rfl h
  | cons b a ih =>
    unfold ltrim at h ⊢ ih
    rw [List.cons_append]
    by_cases hb : isBlank b
    · rw [List.dropWhile_cons_of_pos hb] at h ⊢
      rw [List.dropWhile_cons_of_pos hb]
      exact ih h
    · rw [List.dropWhile_cons_of_neg hb, List.dropWhile_cons_of_neg hb]
      rfl

theorem rtrim_append (s a : Str) (h : rtrim a ≠ []) : rtrim (s ++ a) = s ++ rtrim a := by
  have h' : ltrim a.reverse ≠ [] := by
    intro e
    apply h
    unfold rtrim
    unfold ltrim at e
    rw [e]
    rfl
  have := ltrim_append a.reverse s.reverse h'
  unfold rtrim
  unfold ltrim at this
  rw [List.reverse_append, this, List.reverse_append, List.reverse_reverse]

theorem ltrim_eq_nil (s : Str) : ltrim s = [] ↔ ∀ b ∈ s, isBlank b = true := by
  induction s with
  | nil => simp [ltrim]
  | cons b s ih =>
    unfold ltrim at ih ⊢
    by_cases hb : isBlank b
    · rw [List.dropWhile_cons_of_pos hb, ih]
      simp [hb]
    · rw [List.dropWhile_cons_of_neg hb]
      simp [hb]

theorem rtrim_eq_nil (s : Str) : rtrim s = [] ↔ ∀ b ∈ s, isBlank b = true := by
  have := ltrim_eq_nil s.reverse
  unfold rtrim
  unfold ltrim at this
  simp only [List.reverse_eq_nil_iff, this, List.mem_reverse]

theorem ltrim_blank (w s : Str) (h : ∀ b ∈ w, isBlank b = true) : ltrim (w ++ s) = ltrim s := by
  unfold ltrim
  exact List.dropWhile_append_of_pos h

theorem rtrim_blank (s w : Str) (h : ∀ b ∈ w, isBlank b = true) : rtrim (s ++ w) = rtrim s := by
  unfold rtrim
  rw [List.reverse_append, List.dropWhile_append_of_pos (fun b hb => h b (List.mem_reverse.mp hb))]

/-- Starts and ends with something that is not a blank. -/
def Trimmed (s : Str) : Prop := (∀ b, s.head? = some b → isBlank b = false) ∧ ∀ b, s.getLast? = some b → isBlank b = false

theorem ltrim_same (s : Str) (h : ∀ b, s.head? = some b → isBlank b = false) : ltrim s = s := by
  cases s with
  | nil => rfl
  | cons b s => exact List.dropWhile_cons_of_neg (by simp [h b rfl])

theorem rtrim_same (s : Str) (h : ∀ b, s.getLast? = some b → isBlank b = false) : rtrim s = s := by
  have := ltrim_same s.reverse (by simpa using h)
  unfold rtrim
  unfold ltrim at this
  rw [this, List.reverse_reverse]

/-- Blanks around a text that has none at its ends are removed. -/
theorem trim_padded (w1 s w2 : Str) (h1 : ∀ b ∈ w1, isBlank b = true) (h2 : ∀ b ∈ w2, isBlank b = true) (hs : Trimmed s) :
    trim (w1 ++ (s ++ w2)) = s := by
  unfold trim
  rw [ltrim_blank _ _ h1]
  by_cases he : s = []
  · subst he
    rw [List.nil_append, (ltrim_eq_nil _).mpr h2]
    rfl
  · have hl := ltrim_same s hs.1
    rw [ltrim_append s w2 (by rw [hl]; exact he), hl, rtrim_blank _ _ h2, rtrim_same s hs.2]

/-- The texts of the cells after the blanks at the ends of the line are gone. -/
def trimEnds : List Str → List Str
  | [] => []
  | [s] => [trim s]
  | s :: r => ltrim s :: (r.dropLast ++ [rtrim (r.getLastD [])])

theorem rtrim_ltrim_ne {s : Str} (h : trim s ≠ []) : ltrim s ≠ [] ∧ rtrim s ≠ [] := by
  constructor
  · intro e
    apply h
    unfold trim
    rw [e]
    rfl
  · intro e
    apply h
    rw [rtrim_eq_nil] at e
    unfold trim
    rw [(ltrim_eq_nil s).mpr e]
    rfl

theorem rtrim_join (d : Byte) (r : List Str) (hr : r ≠ []) (h : ∀ s ∈ r, rtrim s ≠ []) :
    rtrim (joinWith d r) = joinWith d (r.dropLast ++ [rtrim (r.getLastD [])]) ∧ rtrim (joinWith d r) ≠ [] := by
  induction r with
  | nil => exact absurd rfl hr
  | cons s r ih =>
    cases r with
    | nil => exact ⟨rfl, h s (by simp)⟩
    | cons t r =>
      obtain ⟨i1, i2⟩ := ih (by simp) (fun x hx => h x (by simp [hx]))
      have e : rtrim (joinWith d (s :: t :: r)) = s ++ d :: rtrim (joinWith d (t :: r)) := by
        rw [joinWith, show s ++ d :: joinWith d (t :: r) = (s ++ [d]) ++ joinWith d (t :: r) by simp, rtrim_append _ _ i2]
        simp
      refine ⟨?_, by rw [e]; simp⟩
      rw [e, i1]
      have hl : (s :: t :: r).getLastD [] = (t :: r).getLastD [] := by simp [List.getLastD_eq_getLast?, List.getLast?_cons_cons]
      rw [hl, show (s :: t :: r).dropLast = s :: (t :: r).dropLast from rfl, List.cons_append]
      cases hx : (t :: r).dropLast with
      | nil => rfl
      | cons y ys => rfl

theorem trim_join (d : Byte) (cells : List Str) (h : ∀ s ∈ cells, trim s ≠ []) : trim (joinWith d cells) = joinWith d (trimEnds cells) := by
  cases cells with
  | nil => rfl
  | cons s r =>
    cases r with
    | nil => rfl
    | cons t r =>
      have hl := (rtrim_ltrim_ne (h s (by simp))).1
      obtain ⟨i1, i2⟩ := rtrim_join d (t :: r) (by simp) (fun x hx => (rtrim_ltrim_ne (h x (by simp [hx]))).2)
      unfold trim
      rw [joinWith, ltrim_append _ _ hl, show ltrim s ++ d :: joinWith d (t :: r) = (ltrim s ++ [d]) ++ joinWith d (t :: r) by simp,
        rtrim_append _ _ i2, i1]
      show _ = joinWith d (ltrim s :: ((t :: r).dropLast ++ [rtrim ((t :: r).getLastD [])]))
      generalize (t :: r).dropLast = q
      generalize rtrim ((t :: r).getLastD []) = l
      cases q with
      | nil => simp [joinWith]
      | cons y ys => simp [joinWith]

theorem ltrim_sub (s : Str) : ∀ b ∈ ltrim s, b ∈ s := fun _ hb => List.dropWhile_subset _ hb
theorem rtrim_sub (s : Str) : ∀ b ∈ rtrim s, b ∈ s := by
  intro b hb
  unfold rtrim at hb
  rw [List.mem_reverse] at hb
  exact List.mem_reverse.mp (List.dropWhile_subset _ hb)

theorem ltrim_idem (s : Str) : ltrim (ltrim s) = ltrim s := by
  apply ltrim_same
  intro b hb
  have := List.head?_dropWhile_not isBlank s
  unfold ltrim at hb
  rw [hb] at this
  simpa using this

theorem rtrim_idem (s : Str) : rtrim (rtrim s) = rtrim s := by
  have := ltrim_idem s.reverse
  unfold ltrim at this
  unfold rtrim
  rw [List.reverse_reverse, this]

theorem mem_takeWhile_blank (s : Str) : ∀ b ∈ s.takeWhile isBlank, isBlank b = true := by
  induction s with
  | nil => simp
  | cons c s ih =>
    intro b hb
    by_cases hc : isBlank c
    · rw [List.takeWhile_cons_of_pos hc] at hb
      rcases List.mem_cons.mp hb with rfl | hb
      · exact hc
      · exact ih b hb
    · rw [List.takeWhile_cons_of_neg hc] at hb
      simp at hb

theorem trim_ltrim (s : Str) : trim (ltrim s) = trim s := by
  unfold trim
  rw [ltrim_idem]

/-- The two ends can be trimmed in any order. -/
theorem rtrim_ltrim (s : Str) : ltrim (rtrim s) = rtrim (ltrim s) := by
  by_cases h : ltrim s = []
  · have hb := (ltrim_eq_nil s).mp h
    rw [h, (rtrim_eq_nil s).mpr hb]
    rfl
  · obtain ⟨w, hw⟩ : ∃ w, s = w ++ ltrim s := ⟨s.takeWhile isBlank, by unfold ltrim; simp⟩
    have hwb : ∀ b ∈ s.takeWhile isBlank, isBlank b = true := mem_takeWhile_blank s
    have hs : s = s.takeWhile isBlank ++ ltrim s := by unfold ltrim; simp
    have hne : rtrim (ltrim s) ≠ [] := by
      intro e
      rw [rtrim_eq_nil] at e
      have := (ltrim_eq_nil (ltrim s)).mpr e
      rw [ltrim_idem] at this
      exact h this
    have e1 : rtrim s = s.takeWhile isBlank ++ rtrim (ltrim s) := by
      conv => lhs; rw [hs]
      exact rtrim_append _ _ hne
    rw [e1, ltrim_blank _ _ hwb]
    apply ltrim_same
    intro b hb
    cases hl : ltrim s with
    | nil => exact absurd hl h
    | cons c r =>
      have hc : isBlank c = false := by
        have := List.head?_dropWhile_not isBlank s
        unfold ltrim at hl
        rw [hl] at this
        simpa using this
      rw [hl] at hb
      rw [show c :: r = [c] ++ r from rfl] at hb
      by_cases hr : rtrim r = []
      · have hrb := (rtrim_eq_nil r).mp hr
        rw [rtrim_blank _ _ hrb, rtrim_same [c] (by simpa using hc)] at hb
        simp at hb
        subst hb
        exact hc
      · rw [rtrim_append _ _ hr] at hb
        simp at hb
        subst hb
        exact hc

theorem trim_rtrim (s : Str) : trim (rtrim s) = trim s := by
  unfold trim
  rw [rtrim_ltrim, rtrim_idem]

theorem trim_idem (s : Str) : trim (trim s) = trim s := by
  have : trim (trim s) = trim (rtrim (ltrim s)) := rfl
  rw [this, trim_rtrim, trim_ltrim]

theorem trimEnds_spec (seps : Str) (cells : List Str) (h : ∀ s ∈ cells, trim s ≠ [] ∧ ∀ b ∈ s, b ∉ seps) :
    (∀ a ∈ trimEnds cells, a ≠ [] ∧ ∀ b ∈ a, b ∉ seps) ∧ (trimEnds cells).map trim = cells.map trim := by
  cases cells with
  | nil => simp [trimEnds]
  | cons s r =>
    cases r with
    | nil =>
      refine ⟨?_, by simp [trimEnds, trim_idem]⟩
      intro a ha
      simp only [trimEnds, List.mem_singleton] at ha
      subst ha
      exact ⟨(h s (by simp)).1, fun b hb => (h s (by simp)).2 b (ltrim_sub _ _ (rtrim_sub _ _ hb))⟩
    | cons t r =>
      have hne : (t :: r) ≠ [] := by simp
      have hlast : (t :: r).getLastD [] = (t :: r).getLast hne := by simp [List.getLastD_eq_getLast?, List.getLast?_eq_some_getLast]
      constructor
      · intro a ha
        unfold trimEnds at ha
        rcases List.mem_cons.mp ha with rfl | ha
        · exact ⟨(rtrim_ltrim_ne (h s (by simp)).1).1, fun b hb => (h s (by simp)).2 b (ltrim_sub _ _ hb)⟩
        rcases List.mem_append.mp ha with ha | ha
        · have hm : a ∈ s :: t :: r := by simp only [List.mem_cons]; right; exact List.mem_cons.mp (List.dropLast_subset _ ha)
          refine ⟨?_, (h a hm).2⟩
          intro e
          apply (h a hm).1
          rw [e]
          rfl
        · simp only [List.mem_singleton] at ha
          have hm : (t :: r).getLast hne ∈ s :: t :: r := by simp only [List.mem_cons]; right; exact List.mem_cons.mp (List.getLast_mem hne)
          rw [hlast] at ha
          subst ha
          exact ⟨(rtrim_ltrim_ne (h _ hm).1).2, fun b hb => (h _ hm).2 b (rtrim_sub _ _ hb)⟩
      · unfold trimEnds
        rw [List.map_cons, List.map_cons, trim_ltrim, List.map_append, List.map_singleton, trim_rtrim, hlast]
        congr 1
        conv => rhs; rw [← List.dropLast_append_getLast hne]
        simp

/-- The values found in a line are the texts of its cells. -/
theorem line_values (seps : Str) (d : Byte) (hd : d ∈ seps) (cells : List Str) (h : ∀ s ∈ cells, trim s ≠ [] ∧ ∀ b ∈ s, b ∉ seps) :
    (splitAt seps (trim (joinWith d cells))).map trim = cells.map trim ∧
    (splitAt seps (trim (joinWith d cells))).length = cells.length := by
  obtain ⟨h1, h2⟩ := trimEnds_spec seps cells h
  rw [trim_join d cells (fun s hs => (h s hs).1), tokens_join seps d hd _ h1]
  refine ⟨h2, ?_⟩
  have := congrArg List.length h2
  simpa using this

theorem getLine_line (l t : Str) (h : (10 : Byte) ∉ l) : getLine (l ++ 10 :: t) = (l, t) := by
  have : ∀ a ∈ l, (decide (a ≠ 10)) = true := fun a ha => by
    simp
    rintro rfl
    exact h ha
  unfold getLine
  rw [List.takeWhile_append_of_pos this, List.dropWhile_append_of_pos this, List.takeWhile_cons_of_neg (by simp),
    List.dropWhile_cons_of_neg (by simp)]
  simp

theorem getLine_last (l : Str) (h : (10 : Byte) ∉ l) : getLine l = (l, []) := by
  have : ∀ a ∈ l, (decide (a ≠ 10)) = true := fun a ha => by
    simp
    rintro rfl
    exact h ha
  have h1 := List.takeWhile_append_of_pos (l₂ := []) this
  have h2 := List.dropWhile_append_of_pos (l₂ := []) this
  unfold getLine
  simp only [List.append_nil, List.takeWhile_nil, List.dropWhile_nil] at h1 h2
  rw [h1, h2]
  rfl

end Verif
