import Verif.CApi

/-
Decoding into an array laid out by the C decoder: what ends up where.
-/

namespace Verif

theorem Mem.puts_word_of (ws : List (Nat × Word)) (m : Mem) (b : Nat) (v : Word) (hin : (b, v) ∈ ws)
    (h : ∀ p ∈ ws, p = (b, v) ∨ p.1 + 8 ≤ b ∨ b + 8 ≤ p.1) : (m.puts ws).word b = v := by
  induction ws generalizing m with
  | nil => simp at hin
  | cons p ws ih =>
    by_cases hw : (b, v) ∈ ws
    · exact ih _ hw (fun q hq => h q (by simp [hq]))
    · have hp : p = (b, v) := by
        rcases List.mem_cons.mp hin with e | e
        · exact e.symm
        · exact absurd e hw
      subst hp
      have := Mem.puts_word_ne ws (m.put b v) b (fun q hq => by
        rcases h q (by simp [hq]) with e | e
        · rw [e] at hq; exact absurd hq hw
        · exact e)
      unfold Mem.puts at this ⊢
      rw [List.foldl_cons, this, Mem.word_put]

/-- Columns added by name only. -/
def autoCols (names : List Str) : List (Str × DecCol) := names.map (fun n => (n, ⟨none, 0, 0, false⟩))

/-- The size the frame reports for a column. -/
def sizeIn (info : List (Str × Nat)) (nm : Str) : Nat :=
  match info.find? (fun e => decide (e.1 = nm)) with
  | some e => e.2
  | none => 0

theorem fillSizes_auto (info : List (Str × Nat)) (names : List Str)
    (h : ∀ n ∈ names, 0 < sizeIn info n ∧ sizeIn info n % 8 = 0) :
    fillSizes info (autoCols names) =
      .ok (names.map (fun n => (n, ⟨none, sizeIn info n, 0, false⟩)), (names.map (sizeIn info)).sum) := by
  induction names with
  | nil => rfl
  | cons n names ih =>
    obtain ⟨h1, h2⟩ := h n (by simp)
    have ih := ih (fun x hx => h x (by simp [hx]))
    unfold autoCols at ih ⊢
    rw [List.map_cons, fillSizes]
    have : fillSize info n ⟨none, 0, 0, false⟩ = .ok (⟨none, sizeIn info n, 0, false⟩, sizeIn info n) := by
      unfold fillSize
      rw [if_pos rfl]
      dsimp only
      unfold sizeIn at h1 h2 ⊢
      cases hf : info.find? (fun e => decide (e.1 = n)) with
      | none => rw [hf] at h1; simp at h1
      | some e =>
        rw [hf] at h1 h2
        dsimp only at h1 h2 ⊢
        rw [if_pos ⟨h1, h2⟩]
    rw [this]
    dsimp only
    rw [ih]
    simp

theorem autoSum_auto (info : List (Str × Nat)) (names : List Str) :
    autoSum (names.map (fun n => (n, (⟨none, sizeIn info n, 0, false⟩ : DecCol)))) = (names.map (sizeIn info)).sum := by
  induction names with
  | nil => rfl
  | cons n names ih => simp [autoSum, ih]

/-- Address of word `w` of row `r` of a column that has `off` bytes of columns before it, in an array of rows of `W`
bytes or of columns of `H` rows. -/
def autoAddr (cm : Bool) (base W H nrows off r w : Nat) : Nat :=
  if cm then base + H * off + 8 * (r + w * nrows) else base + r * W + off + 8 * w

/-- The decoder after `fill_in_decoder`, for columns added by name only. [Specification of api/odc.cc l.630-698] -/
def Dec.filled (alloc : Nat) (info : List (Str × Nat)) (names : List Str) (d : Dec) : Dec :=
  let S := (names.map (sizeIn info)).sum
  let W := if d.ext = none then S else d.width
  let H := if d.ext = none then d.nrows else d.height
  { d with cols := place d.columnMajor (d.ext.getD alloc) W H 0 (names.map (fun n => (n, ⟨none, sizeIn info n, 0, false⟩))),
           width := W, height := H }

theorem fillIn_auto (alloc : Nat) (info : List (Str × Nat)) (names : List Str) (rows : Nat) (d : Dec)
    (hne : names ≠ []) (h : ∀ n ∈ names, 0 < sizeIn info n ∧ sizeIn info n % 8 = 0) (hc : d.cols = autoCols names)
    (hr : 0 < d.nrows) (hext : d.ext ≠ none → (names.map (sizeIn info)).sum ≤ d.width ∧ d.nrows ≤ d.height) :
    fillIn alloc info rows d = .ok (d.filled alloc info names) := by
  have hS : 0 < (names.map (sizeIn info)).sum := by
    cases names with
    | nil => exact absurd rfl hne
    | cons n ns => have := (h n (by simp)).1; simp; omega
  unfold fillIn Dec.filled
  rw [hc, fillSizes_auto info names h]
  dsimp only
  rw [if_neg (show ¬ d.nrows = 0 by omega), if_pos ⟨by omega, by omega⟩]
  cases he : d.ext with
  | none => simp [he]
  | some p =>
    obtain ⟨h1, h2⟩ := hext (by rw [he]; simp)
    dsimp only
    rw [if_pos ⟨h1, h2⟩]
    simp [he]

theorem filled_col (alloc : Nat) (info : List (Str × Nat)) (names : List Str) (d : Dec)
    (h : ∀ n ∈ names, 0 < sizeIn info n ∧ sizeIn info n % 8 = 0) (i : Nat) (nm : Str) (hi : names[i]? = some nm) :
    ∃ c : DecCol, (d.filled alloc info names).cols[i]? = some (nm, c) ∧ c.elem = sizeIn info nm ∧ c.data ≠ none ∧
      (c.transpose = true → c.stride = c.elem) ∧
      ∀ r w, w < c.elem / 8 → c.addr d.nrows r w = autoAddr d.columnMajor (d.ext.getD alloc) (d.filled alloc info names).width
        (d.filled alloc info names).height d.nrows ((names.map (sizeIn info)).take i).sum r w := by
  obtain ⟨h1, h2⟩ := h nm (List.mem_of_getElem? hi)
  have hp := (place_spec d.columnMajor (d.ext.getD alloc) (d.filled alloc info names).width (d.filled alloc info names).height 0
    (names.map (fun n => (n, ⟨none, sizeIn info n, 0, false⟩)))).2 i (nm, ⟨none, sizeIn info nm, 0, false⟩) (by simp [hi])
  have hp := hp.1 rfl
  have hs : autoSum ((names.map (fun n => (n, (⟨none, sizeIn info n, 0, false⟩ : DecCol)))).take i) =
      ((names.map (sizeIn info)).take i).sum := by
    rw [← List.map_take, autoSum_auto, List.map_take]
  rw [hs] at hp
  refine ⟨_, hp, rfl, by simp, ?_, ?_⟩
  · intro ht
    dsimp only at ht ⊢
    cases hcm : d.columnMajor with
    | true => simp
    | false => rw [hcm] at ht; simp at ht
  · intro r w hw
    dsimp only at hw
    unfold DecCol.addr autoAddr
    dsimp only
    rw [Option.getD_some, Nat.add_zero]
    cases d.columnMajor with
    | false => simp; omega
    | true =>
      by_cases h8 : 8 < sizeIn info nm
      · simp [h8]
      · have : sizeIn info nm = 8 := by omega
        have hw0 : w = 0 := by omega
        subst hw0
        simp [this]; omega

theorem sum_take_next (l : List Nat) (i s : Nat) (h : l[i]? = some s) : (l.take (i + 1)).sum = (l.take i).sum + s := by
  obtain ⟨hl, he⟩ := List.getElem?_eq_some_iff.mp h
  rw [List.take_succ_eq_append_getElem hl, List.sum_append, he]
  simp

theorem sum_take_mono (l : List Nat) (i j : Nat) (h : i ≤ j) : (l.take i).sum ≤ (l.take j).sum := by
  have : l.take j = l.take i ++ (l.drop i).take (j - i) := by
    rw [show j = i + (j - i) by omega, List.take_add]; simp
  rw [this, List.sum_append]; omega

theorem sum_take_le (l : List Nat) (i : Nat) : (l.take i).sum ≤ l.sum := by
  have := sum_take_mono l i (max i l.length) (by omega)
  rwa [List.take_of_length_le (l := l) (i := max i l.length) (by omega)] at this

/-- The words of an array laid out this way are inside the array and do not overlap. -/
theorem autoAddr_inside (cm : Bool) (base W H n : Nat) (sizes : List Nat) (hW : sizes.sum ≤ W) (hH : n ≤ H)
    (h8 : ∀ s ∈ sizes, s % 8 = 0) (i s r w : Nat) (hi : sizes[i]? = some s) (hr : r < n) (hw : w < s / 8) :
    base ≤ autoAddr cm base W H n (sizes.take i).sum r w ∧
      autoAddr cm base W H n (sizes.take i).sum r w + 8 ≤
        (if cm then base + H * ((sizes.take i).sum + s) else base + r * W + (sizes.take i).sum + s) ∧
      (if cm then base + H * ((sizes.take i).sum + s) else base + r * W + (sizes.take i).sum + s) ≤
        (if cm then base + W * H else base + (r + 1) * W) ∧ (if cm then base + W * H else base + (r + 1) * W) ≤ base + W * H := by
  have hs := h8 s (List.mem_of_getElem? hi)
  have hle : (sizes.take i).sum + s ≤ W := by
    have := sum_take_next sizes i s hi
    have := sum_take_le sizes (i + 1)
    omega
  unfold autoAddr
  cases cm with
  | false =>
    simp only [Bool.false_eq_true, if_false]
    have : (r + 1) * W ≤ W * H := by rw [Nat.mul_comm]; exact Nat.mul_le_mul_left _ (by omega)
    have h2 : (r + 1) * W = r * W + W := by rw [Nat.add_mul, Nat.one_mul]
    omega
  | true =>
    simp only [if_true]
    rw [Nat.mul_add H]
    have h1 : (w + 1) * n ≤ s / 8 * n := Nat.mul_le_mul_right _ (by omega)
    rw [Nat.add_mul, Nat.one_mul] at h1
    have h2 : s / 8 * n ≤ s / 8 * H := Nat.mul_le_mul_left _ hH
    have h3 : H * s = 8 * (s / 8 * H) := by
      have he : s = 8 * (s / 8) := by omega
      rw [show H * s = H * (8 * (s / 8)) by rw [← he]]
      rw [Nat.mul_left_comm, Nat.mul_comm (s / 8)]
    have h4 : H * (sizes.take i).sum + H * s ≤ W * H := by
      rw [← Nat.mul_add, Nat.mul_comm]; exact Nat.mul_le_mul_right _ hle
    omega

theorem autoAddr_disjoint (cm : Bool) (base W H n : Nat) (sizes : List Nat) (hW : sizes.sum ≤ W) (hH : n ≤ H)
    (h8 : ∀ s ∈ sizes, s % 8 = 0) (i s r w j t r' w' : Nat) (hi : sizes[i]? = some s) (hr : r < n) (hw : w < s / 8)
    (hj : sizes[j]? = some t) (hr' : r' < n) (hw' : w' < t / 8) (hne : (i, r, w) ≠ (j, r', w')) :
    autoAddr cm base W H n (sizes.take i).sum r w + 8 ≤ autoAddr cm base W H n (sizes.take j).sum r' w' ∨
      autoAddr cm base W H n (sizes.take j).sum r' w' + 8 ≤ autoAddr cm base W H n (sizes.take i).sum r w := by
  have key : ∀ (i s r w j t r' w' : Nat), sizes[i]? = some s → r < n → w < s / 8 → sizes[j]? = some t → r' < n → w' < t / 8 →
      (if cm then i < j ∨ (i = j ∧ (w < w' ∨ (w = w' ∧ r < r'))) else r < r' ∨ (r = r' ∧ (i < j ∨ (i = j ∧ w < w')))) →
      autoAddr cm base W H n (sizes.take i).sum r w + 8 ≤ autoAddr cm base W H n (sizes.take j).sum r' w' := by
    intro i s r w j t r' w' hi hr hw hj hr' hw' hlt
    obtain ⟨a1, a2, a3, a4⟩ := autoAddr_inside cm base W H n sizes hW hH h8 i s r w hi hr hw
    cases cm with
    | false =>
      simp only [Bool.false_eq_true, if_false] at hlt a2 a3 a4
      rcases hlt with hl | ⟨rfl, hij | ⟨rfl, hww⟩⟩
      · have : (r + 1) * W ≤ r' * W := Nat.mul_le_mul_right _ (by omega)
        simp only [autoAddr, Bool.false_eq_true, if_false] at *
        omega
      · have h1 := sum_take_next sizes i s hi
        have h2 := sum_take_mono sizes (i + 1) j hij
        simp only [autoAddr, Bool.false_eq_true, if_false] at *
        omega
      · simp only [autoAddr, Bool.false_eq_true, if_false]; omega
    | true =>
      simp only [if_true] at hlt a2 a3 a4
      rcases hlt with hij | ⟨rfl, hww | ⟨rfl, hr2⟩⟩
      · have h1 := sum_take_next sizes i s hi
        have h2 := sum_take_mono sizes (i + 1) j hij
        have h3 : H * ((sizes.take i).sum + s) ≤ H * (sizes.take j).sum := Nat.mul_le_mul_left _ (by omega)
        simp only [autoAddr, if_true] at *
        omega
      · have : (w + 1) * n ≤ w' * n := Nat.mul_le_mul_right _ (by omega)
        rw [Nat.add_mul, Nat.one_mul] at this
        simp only [autoAddr, if_true]
        omega
      · simp only [autoAddr, if_true]; omega
  by_cases h1 : (if cm then i < j ∨ (i = j ∧ (w < w' ∨ (w = w' ∧ r < r'))) else r < r' ∨ (r = r' ∧ (i < j ∨ (i = j ∧ w < w'))))
  · exact .inl (key i s r w j t r' w' hi hr hw hj hr' hw' h1)
  · refine .inr (key j t r' w' i s r w hj hr' hw' hi hr hw ?_)
    have hne' : ¬ (i = j ∧ r = r' ∧ w = w') := fun ⟨a, b, c⟩ => hne (by rw [a, b, c])
    cases cm with
    | false => simp only [Bool.false_eq_true, if_false] at h1 ⊢; omega
    | true => simp only [if_true] at h1 ⊢; omega

end Verif
