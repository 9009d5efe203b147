import Verif.PropRowsApi
import Verif.Tolerance

/-
Comparing two files: `odc::Comparator`.

Models: src/odc/Comparator.cc l.52-81 (two handles or paths), 101-221 (a row), 224-270 (columns), Comparator.h
l.101-140 (the loop over rows).  Messages are not modelled.
-/

namespace Verif

/-- `Comparator` (Comparator.h l.84-89, 99-102) and the arguments of `compare`. -/
structure CmpOpts where
  skipMissing : Bool
  nanOk : Bool
  exclTypes : List Str
  exclCols : List Str

/-- Specification: no option of the comparator set. -/
def CmpOpts.strict : CmpOpts := ⟨false, false, [], []⟩

/-- `isMissing1` / `isMissing2`, Comparator.cc l.124-142. -/
def cmpMissing (o : CmpOpts) (c : Col) (x : Cell) : Except Err Bool :=
  if c.codec.hasMissing ≠ 0 ∨ o.skipMissing = true then
    match c.codec.missingWord with
    | .error e => .error e
    | .ok m => .ok (decide (cellWord x = m))
  else .ok false

/-- The comparison of two values by the type of the first column, Comparator.cc l.148-184; an unknown type throws,
which counts as a difference. -/
def cmpValue (o : CmpOpts) (c1 c2 : Col) (x1 x2 : Cell) : Bool :=
  if c1.ty = 3 then decide (cellStr c1.codec.width x1 = cellStr c2.codec.width x2)
  else if c1.ty = 1 ∨ c1.ty = 4 ∨ c1.ty = 5 then
    same (cellWord x1) (cellWord x2) || (o.nanOk && (isNaN (cellWord x1) && isNaN (cellWord x2)))
  else if c1.ty = 2 then
    same (widen (narrow (cellWord x1))) (widen (narrow (cellWord x2))) ||
      (o.nanOk && (isNaN (cellWord x1) && isNaN (cellWord x2)))
  else false

/-- One column of a row, Comparator.cc l.117-200: whether there is no difference. -/
def cmpCell (o : CmpOpts) (c1 c2 : Col) (x1 x2 : Cell) : Except Err Bool :=
  match cmpMissing o c1 x1 with
  | .error e => .error e
  | .ok m1 =>
    match cmpMissing o c2 x2 with
    | .error e => .error e
    | .ok m2 =>
      if m1 ≠ m2 then .ok false
      else if m1 then .ok true
      else .ok (cmpValue o c1 c2 x1 x2)

/-- One row, Comparator.cc l.98-212, from column `i` on; `skip` is what is left of `skipCols`.  The result tells
whether no difference was found (otherwise "Files differ" is thrown). -/
def cmpRow (o : CmpOpts) : List Nat → Nat → List Col → List Col → List Cell → List Cell → Except Err Bool
  | skip, i, c1 :: cs1, c2 :: cs2, xs1, xs2 =>
    if skip.head? = some i then cmpRow o skip.tail (i + 1) cs1 cs2 xs1.tail xs2.tail
    else
      match xs1, xs2 with
      | x1 :: xs1, x2 :: xs2 =>
        match cmpCell o c1 c2 x1 x2 with
        | .error e => .error e
        | .ok b =>
          match cmpRow o skip (i + 1) cs1 cs2 xs1 xs2 with
          | .error e => .error e
          | .ok b' => .ok (b && b')
      | _, _ => .error .ub
  | _, _, [], _, _, _ => .ok true
  | _, _, _ :: _, [], _, _ => .error .ub

/-- The checks on one pair of columns, Comparator.cc l.226-256: whether the column is to be skipped. -/
def cmpCol (o : CmpOpts) (c1 c2 : Col) : Except Err Bool :=
  if c1.name ≠ c2.name then .error .assertFailed
  else if c1.name ∈ o.exclCols then .ok true
  else if c1.name ∉ o.exclTypes ∧ c1.ty ≠ c2.ty then .error .assertFailed
  else if c1.name ∉ o.exclTypes ∧ c1.ty = 4 ∧ ¬ (c1.bitNames = c2.bitNames ∧ c1.bitSizes = c2.bitSizes) then .error .assertFailed
  else if o.skipMissing = false ∧ c1.codec.hasMissing ≠ c2.codec.hasMissing then .error .assertFailed
  else .ok false

/-- The columns, from number `i` on; the result is `skipCols`. [Comparator.cc, the loop over the columns; see `cmpCols`] -/
def cmpColsFrom (o : CmpOpts) : Nat → List Col → List Col → Except Err (List Nat)
  | i, c1 :: cs1, c2 :: cs2 =>
    match cmpCol o c1 c2 with
    | .error e => .error e
    | .ok b =>
      match cmpColsFrom o (i + 1) cs1 cs2 with
      | .error e => .error e
      | .ok r => .ok (if b then i :: r else r)
  | _, _, _ => .ok []

/-- `compare` of two `MetaData`, Comparator.cc l.215-262. -/
def cmpCols (o : CmpOpts) (a b : List Col) : Except Err (List Nat) :=
  if a.length ≠ b.length then .error .assertFailed else cmpColsFrom o 0 a b

/-- The loop over the rows and the final checks, Comparator.h l.116-128: `true` if no exception is thrown, `false` if
"Files differ" is.  At most `fuel` rounds. -/
def cmpLoop (env : Env) (j1 j2 : Junk) (o : CmpOpts) : Nat → RowIt → RowIt → List Nat → Except Err Bool
  | 0, _, _, _ => .error .diverges
  | fuel + 1, a, b, skip =>
    if a.noMore = false ∧ b.noMore = false then
      match (if a.newData then cmpCols o a.cols b.cols else .ok skip) with
      | .error e => .error e
      | .ok skip1 =>
        match (if b.newData then cmpCols o a.cols b.cols else .ok skip1) with
        | .error e => .error e
        | .ok skip2 =>
          match cmpRow o skip2 0 a.cols b.cols a.last b.last with
          | .error e => .error e
          | .ok false => .ok false
          | .ok true =>
            match a.next env j1 with
            | .error e => .error e
            | .ok (a', _) =>
              match b.next env j2 with
              | .error e => .error e
              | .ok (b', _) => cmpLoop env j1 j2 o fuel a' b' skip2
    else if a.noMore = false then .error .assertFailed
    else if b.noMore = false then .error .assertFailed
    else .ok true

/-- Comparing two files, Comparator.cc l.48-81. -/
def compareFiles (env : Env) (j1 j2 : Junk) (o : CmpOpts) (bytes1 bytes2 : List Byte) (fuel : Nat) : Except Err Bool :=
  match RowIt.begin env j1 bytes1 with
  | .error e => .error e
  | .ok a =>
    match RowIt.begin env j2 bytes2 with
    | .error e => .error e
    | .ok b =>
      match cmpCols o a.cols b.cols with
      | .error e => .error e
      | .ok skip => cmpLoop env j1 j2 o fuel a b skip

/-! ### Specification -/

/-- Two columns that may be compared. -/
def ColAgree (o : CmpOpts) (c1 c2 : Col) : Prop :=
  c1.name = c2.name ∧
  (c1.name ∉ o.exclCols →
    (c1.name ∉ o.exclTypes → c1.ty = c2.ty ∧ (c1.ty = 4 → c1.bitNames = c2.bitNames ∧ c1.bitSizes = c2.bitSizes)) ∧
    (o.skipMissing = false → c1.codec.hasMissing = c2.codec.hasMissing))

/-- The cell holds the missing value of its column (columns without missing values are not looked at, unless
asked for). -/
def ShownMissing (o : CmpOpts) (c : Col) (x : Cell) : Prop :=
  (c.codec.hasMissing ≠ 0 ∨ o.skipMissing = true) ∧ c.codec.missingWord = .ok (cellWord x)

/-- Two values that are not missing. -/
def ValueAgree (o : CmpOpts) (c1 c2 : Col) (x1 x2 : Cell) : Prop :=
  (c1.ty = 3 ∧ cellStr c1.codec.width x1 = cellStr c2.codec.width x2) ∨
  ((c1.ty = 1 ∨ c1.ty = 4 ∨ c1.ty = 5) ∧
    (same (cellWord x1) (cellWord x2) = true ∨ o.nanOk = true ∧ isNaN (cellWord x1) = true ∧ isNaN (cellWord x2) = true)) ∨
  (c1.ty = 2 ∧
    (same (widen (narrow (cellWord x1))) (widen (narrow (cellWord x2))) = true ∨
      o.nanOk = true ∧ isNaN (cellWord x1) = true ∧ isNaN (cellWord x2) = true))

/-- The missing value of a column is defined where it is asked for. -/
def MissingDefined (o : CmpOpts) (c : Col) : Prop :=
  (c.codec.hasMissing ≠ 0 ∨ o.skipMissing = true) → ∃ m, c.codec.missingWord = .ok m

/-- Two cells agree: both missing, or neither and the values agree. -/
def CellAgree (o : CmpOpts) (c1 c2 : Col) (x1 x2 : Cell) : Prop :=
  MissingDefined o c1 ∧ MissingDefined o c2 ∧
  ((ShownMissing o c1 x1 ∧ ShownMissing o c2 x2) ∨
    (¬ ShownMissing o c1 x1 ∧ ¬ ShownMissing o c2 x2 ∧ ValueAgree o c1 c2 x1 x2))

/-- The rows have the same columns, and the cells of every column that is not excluded agree. -/
def RowAgree (o : CmpOpts) (v1 v2 : RowView) : Prop :=
  Match (ColAgree o) v1.cols v2.cols ∧
  ∀ (j : Nat) (c1 c2 : Col), v1.cols[j]? = some c1 → v2.cols[j]? = some c2 → c1.name ∉ o.exclCols →
    ∃ x1 x2, v1.cells[j]? = some x1 ∧ v2.cells[j]? = some x2 ∧ CellAgree o c1 c2 x1 x2

/-! ### Cells, rows, columns -/

theorem cmpMissing_iff (o : CmpOpts) (c : Col) (x : Cell) (b : Bool) :
    cmpMissing o c x = .ok b ↔ MissingDefined o c ∧ (b = true ↔ ShownMissing o c x) := by
  unfold cmpMissing MissingDefined ShownMissing
  by_cases h : c.codec.hasMissing ≠ 0 ∨ o.skipMissing = true
  · rw [if_pos h]
    cases hm : c.codec.missingWord with
    | error e => simp [h]
    | ok m =>
      simp only [Except.ok.injEq, h, true_and, forall_true_left, exists_eq', true_and]
      by_cases hx : cellWord x = m
      · simp only [hx, decide_true]; cases b <;> simp
      · have : ¬ m = cellWord x := fun e => hx e.symm
        simp only [hx, this, decide_false]; cases b <;> simp
  · rw [if_neg h]
    simp only [h, false_and, iff_false, Except.ok.injEq, false_implies, true_and]
    cases b <;> simp

theorem cmpValue_iff (o : CmpOpts) (c1 c2 : Col) (x1 x2 : Cell) : cmpValue o c1 c2 x1 x2 = true ↔ ValueAgree o c1 c2 x1 x2 := by
  unfold cmpValue ValueAgree
  by_cases h3 : c1.ty = 3
  · rw [if_pos h3]; simp [h3]
  · rw [if_neg h3]
    by_cases h1 : c1.ty = 1 ∨ c1.ty = 4 ∨ c1.ty = 5
    · have h2 : ¬ c1.ty = 2 := by omega
      rw [if_pos h1]; simp [h1, h2, h3]
    · rw [if_neg h1]
      by_cases h2 : c1.ty = 2
      · rw [if_pos h2]; simp [h2]
      · rw [if_neg h2]; simp [h1, h2, h3]

theorem cmpCell_iff (o : CmpOpts) (c1 c2 : Col) (x1 x2 : Cell) : cmpCell o c1 c2 x1 x2 = .ok true ↔ CellAgree o c1 c2 x1 x2 := by
  unfold cmpCell CellAgree
  cases h1 : cmpMissing o c1 x1 with
  | error e =>
    simp only [reduceCtorEq, false_iff]
    rintro ⟨d1, _, _⟩
    have := (cmpMissing_iff o c1 x1 (decide (cmpMissing o c1 x1 = .ok true))).mpr ⟨d1, ?_⟩
    · rw [h1] at this; simp at this
    · rw [h1]; simp only [reduceCtorEq, decide_false, Bool.false_eq_true, false_iff]
      intro hs
      have := (cmpMissing_iff o c1 x1 true).mpr ⟨d1, by simpa using hs⟩
      rw [h1] at this; simp at this
  | ok m1 =>
    obtain ⟨d1, s1⟩ := (cmpMissing_iff o c1 x1 m1).mp h1
    cases h2 : cmpMissing o c2 x2 with
    | error e =>
      simp only [reduceCtorEq, false_iff]
      rintro ⟨_, d2, _⟩
      have := (cmpMissing_iff o c2 x2 (decide (cmpMissing o c2 x2 = .ok true))).mpr ⟨d2, ?_⟩
      · rw [h2] at this; simp at this
      · rw [h2]; simp only [reduceCtorEq, decide_false, Bool.false_eq_true, false_iff]
        intro hs
        have := (cmpMissing_iff o c2 x2 true).mpr ⟨d2, by simpa using hs⟩
        rw [h2] at this; simp at this
    | ok m2 =>
      obtain ⟨d2, s2⟩ := (cmpMissing_iff o c2 x2 m2).mp h2
      simp only [d1, d2, true_and]
      rw [← s1, ← s2, ← cmpValue_iff]
      cases m1 <;> cases m2 <;> simp

/-- The columns to be skipped, from number `i` on. -/
def skipsFrom (o : CmpOpts) : Nat → List Col → List Nat
  | _, [] => []
  | i, c :: cs => if c.name ∈ o.exclCols then i :: skipsFrom o (i + 1) cs else skipsFrom o (i + 1) cs

theorem cmpCol_iff (o : CmpOpts) (c1 c2 : Col) (b : Bool) :
    cmpCol o c1 c2 = .ok b ↔ ColAgree o c1 c2 ∧ b = decide (c1.name ∈ o.exclCols) := by
  unfold cmpCol ColAgree
  by_cases h1 : c1.name = c2.name
  · rw [if_neg (by simpa using h1)]
    by_cases h2 : c1.name ∈ o.exclCols
    · rw [if_pos h2]
      simp only [Except.ok.injEq, h2, decide_true]
      exact ⟨fun h => ⟨⟨h1, fun h' => absurd trivial h'⟩, h.symm⟩, fun h => h.2.symm⟩
    · rw [if_neg h2]
      by_cases h3 : c1.name ∉ o.exclTypes ∧ c1.ty ≠ c2.ty
      · rw [if_pos h3]
        simp only [reduceCtorEq, false_iff]
        rintro ⟨⟨_, h⟩, _⟩
        exact h3.2 ((h h2).1 h3.1).1
      · rw [if_neg h3]
        by_cases h4 : c1.name ∉ o.exclTypes ∧ c1.ty = 4 ∧ ¬ (c1.bitNames = c2.bitNames ∧ c1.bitSizes = c2.bitSizes)
        · rw [if_pos h4]
          simp only [reduceCtorEq, false_iff]
          rintro ⟨⟨_, h⟩, _⟩
          exact h4.2.2 (((h h2).1 h4.1).2 h4.2.1)
        · rw [if_neg h4]
          by_cases h5 : o.skipMissing = false ∧ c1.codec.hasMissing ≠ c2.codec.hasMissing
          · rw [if_pos h5]
            simp only [reduceCtorEq, false_iff]
            rintro ⟨⟨_, h⟩, _⟩
            exact h5.2 ((h h2).2 h5.1)
          · rw [if_neg h5]
            simp only [Except.ok.injEq, h2, decide_false]
            constructor
            · rintro rfl
              refine ⟨⟨h1, fun _ => ⟨fun ht => ⟨?_, fun h => ?_⟩, fun hs => ?_⟩⟩, rfl⟩
              · by_contra hne; exact h3 ⟨ht, hne⟩
              · by_contra hne; exact h4 ⟨ht, h, hne⟩
              · by_contra hne; exact h5 ⟨hs, hne⟩
            · rintro ⟨_, rfl⟩; rfl
  · rw [if_pos (by simpa using h1)]; simp [h1]

theorem cmpColsFrom_iff (o : CmpOpts) (a b : List Col) (hl : a.length = b.length) (i : Nat) (sk : List Nat) :
    cmpColsFrom o i a b = .ok sk ↔ Match (ColAgree o) a b ∧ sk = skipsFrom o i a := by
  induction a generalizing b i sk with
  | nil =>
    cases b with
    | cons _ _ => simp at hl
    | nil =>
      simp only [cmpColsFrom, skipsFrom, Except.ok.injEq]
      exact ⟨fun h => ⟨.nil, h.symm⟩, fun h => h.2.symm⟩
  | cons c1 a ih =>
    cases b with
    | nil => simp at hl
    | cons c2 b =>
      simp only [List.length_cons, Nat.add_right_cancel_iff] at hl
      simp only [cmpColsFrom, skipsFrom]
      cases hc : cmpCol o c1 c2 with
      | error e =>
        simp only [reduceCtorEq, false_iff]
        rintro ⟨hm, _⟩
        cases hm with
        | cons h1 _ =>
          have := (cmpCol_iff o c1 c2 _).mpr ⟨h1, rfl⟩
          rw [hc] at this; simp at this
      | ok x =>
        obtain ⟨h1, rfl⟩ := (cmpCol_iff o c1 c2 x).mp hc
        cases hr : cmpColsFrom o (i + 1) a b with
        | error e =>
          simp only [reduceCtorEq, false_iff]
          rintro ⟨hm, _⟩
          cases hm with
          | cons _ h2 =>
            have := (ih b hl (i + 1) _).mpr ⟨h2, rfl⟩
            rw [hr] at this; simp at this
        | ok r =>
          obtain ⟨h2, rfl⟩ := (ih b hl (i + 1) r).mp hr
          simp only [Except.ok.injEq]
          constructor
          · rintro rfl
            refine ⟨.cons h1 h2, ?_⟩
            by_cases he : c1.name ∈ o.exclCols <;> simp [he]
          · rintro ⟨_, rfl⟩
            by_cases he : c1.name ∈ o.exclCols <;> simp [he]

theorem cmpCols_iff (o : CmpOpts) (a b : List Col) (sk : List Nat) :
    cmpCols o a b = .ok sk ↔ Match (ColAgree o) a b ∧ sk = skipsFrom o 0 a := by
  unfold cmpCols
  by_cases hl : a.length = b.length
  · rw [if_neg (by simpa using hl)]; exact cmpColsFrom_iff o a b hl 0 sk
  · rw [if_pos (by simpa using hl)]
    simp only [reduceCtorEq, false_iff]
    rintro ⟨h, _⟩
    exact hl h.length

theorem skipsFrom_head (o : CmpOpts) (i : Nat) (cs : List Col) : ∀ k ∈ skipsFrom o i cs, i ≤ k := by
  induction cs generalizing i with
  | nil => intro k hk; simp [skipsFrom] at hk
  | cons c cs ih =>
    intro k hk
    simp only [skipsFrom] at hk
    split at hk
    · rcases List.mem_cons.mp hk with rfl | hk
      · exact Nat.le_refl _
      · have := ih (i + 1) k hk; omega
    · have := ih (i + 1) k hk; omega

theorem cmpRow_iff (o : CmpOpts) (cs1 cs2 : List Col) (hl : cs1.length = cs2.length) (i : Nat) (xs1 xs2 : List Cell) :
    cmpRow o (skipsFrom o i cs1) i cs1 cs2 xs1 xs2 = .ok true ↔
      ∀ (j : Nat) (c1 c2 : Col), cs1[j]? = some c1 → cs2[j]? = some c2 → c1.name ∉ o.exclCols →
        ∃ x1 x2, xs1[j]? = some x1 ∧ xs2[j]? = some x2 ∧ CellAgree o c1 c2 x1 x2 := by
  induction cs1 generalizing cs2 i xs1 xs2 with
  | nil => simp [cmpRow]
  | cons c1 cs1 ih =>
    cases cs2 with
    | nil => simp at hl
    | cons c2 cs2 =>
      simp only [List.length_cons, Nat.add_right_cancel_iff] at hl
      unfold cmpRow
      have tl : ∀ (xs : List Cell) (j : Nat), xs.tail[j]? = xs[j + 1]? := by intro xs j; cases xs <;> simp
      by_cases he : c1.name ∈ o.exclCols
      · have hs : skipsFrom o i (c1 :: cs1) = i :: skipsFrom o (i + 1) cs1 := by simp [skipsFrom, he]
        rw [hs, List.head?_cons, if_pos rfl, List.tail_cons, ih cs2 hl]
        constructor
        · intro h j d1 d2 h1 h2 h3
          cases j with
          | zero => simp only [List.getElem?_cons_zero, Option.some.injEq] at h1; subst h1; exact absurd he h3
          | succ j =>
            simp only [List.getElem?_cons_succ] at h1 h2
            have := h j d1 d2 h1 h2 h3
            rw [tl, tl] at this
            exact this
        · intro h j d1 d2 h1 h2 h3
          have := h (j + 1) d1 d2 (by simpa using h1) (by simpa using h2) h3
          rw [tl, tl]
          exact this
      · have hs : skipsFrom o i (c1 :: cs1) = skipsFrom o (i + 1) cs1 := by simp [skipsFrom, he]
        have hne : ¬ (skipsFrom o (i + 1) cs1).head? = some i := by
          intro hh
          have := skipsFrom_head o (i + 1) cs1 i (List.mem_of_mem_head? (by rw [hh]; rfl))
          omega
        rw [hs, if_neg hne]
        have hno : ∀ xs1 xs2 : List Cell, (xs1 = [] ∨ xs2 = []) → ¬ ∀ (j : Nat) (d1 d2 : Col), (c1 :: cs1)[j]? = some d1 → (c2 :: cs2)[j]? = some d2 → d1.name ∉ o.exclCols →
            ∃ x1 x2, xs1[j]? = some x1 ∧ xs2[j]? = some x2 ∧ CellAgree o d1 d2 x1 x2 := by
          intro xs1 xs2 hx h
          obtain ⟨x1, x2, q1, q2, _⟩ := h 0 c1 c2 rfl rfl he
          rcases hx with rfl | rfl
          · simp at q1
          · simp at q2
        cases xs1 with
        | nil => simp only [reduceCtorEq, false_iff]; exact hno _ _ (Or.inl rfl)
        | cons x1 xs1 =>
          cases xs2 with
          | nil => simp only [reduceCtorEq, false_iff]; exact hno _ _ (Or.inr rfl)
          | cons x2 xs2 =>
            have hr := ih cs2 hl (i + 1) xs1 xs2
            have hc := cmpCell_iff o c1 c2 x1 x2
            have split1 : (∀ (j : Nat) (d1 d2 : Col), (c1 :: cs1)[j]? = some d1 → (c2 :: cs2)[j]? = some d2 → d1.name ∉ o.exclCols →
                ∃ y1 y2, (x1 :: xs1)[j]? = some y1 ∧ (x2 :: xs2)[j]? = some y2 ∧ CellAgree o d1 d2 y1 y2) ↔
                CellAgree o c1 c2 x1 x2 ∧ ∀ (j : Nat) (d1 d2 : Col), cs1[j]? = some d1 → cs2[j]? = some d2 → d1.name ∉ o.exclCols →
                ∃ y1 y2, xs1[j]? = some y1 ∧ xs2[j]? = some y2 ∧ CellAgree o d1 d2 y1 y2 := by
              constructor
              · intro h
                refine ⟨?_, fun j d1 d2 h1 h2 h3 => by simpa using h (j + 1) d1 d2 (by simpa using h1) (by simpa using h2) h3⟩
                obtain ⟨y1, y2, q1, q2, q3⟩ := h 0 c1 c2 rfl rfl he
                simp only [List.getElem?_cons_zero, Option.some.injEq] at q1 q2
                subst q1 q2
                exact q3
              · rintro ⟨h0, h⟩ j d1 d2 h1 h2 h3
                cases j with
                | zero =>
                  simp only [List.getElem?_cons_zero, Option.some.injEq] at h1 h2
                  subst h1 h2
                  exact ⟨x1, x2, rfl, rfl, h0⟩
                | succ j => simpa using h j d1 d2 (by simpa using h1) (by simpa using h2) h3
            rw [split1, ← hr, ← hc]
            dsimp only
            cases cmpCell o c1 c2 x1 x2 with
            | error e => simp
            | ok b =>
              cases cmpRow o (skipsFrom o (i + 1) cs1) (i + 1) cs1 cs2 xs1 xs2 with
              | error e => simp
              | ok b' => cases b <;> cases b' <;> simp

/-! ### The loop -/

/-- Columns change only at a new table. -/
theorem load_true {env : Env} {junk : Junk} {fuel : Nat} {it it' : RowIt} (h : it.load env junk fuel = .ok (it', true)) :
    it'.newData = true ∧ it'.noMore = false := by
  induction fuel generalizing it with
  | zero => simp [RowIt.load] at h
  | succ fuel ih =>
    unfold RowIt.load at h
    split at h
    · simp at h
    · rename_i hn
      have hn : it.noMore = false := by simpa using hn
      split at h
      · simp at h
      · split at h
        · simp at h
        · simp at h
        · split at h
          · simp at h
          · dsimp only at h
            split at h
            · split at h
              · exact ih h
              · simp at h
            · split at h
              · simp at h
              · split at h
                · simp at h
                · split at h
                  · simp at h
                  · split at h
                    · simp at h
                    · simp only [Except.ok.injEq, Prod.mk.injEq, and_true] at h
                      subst h
                      exact ⟨rfl, hn⟩

theorem load_false {env : Env} {junk : Junk} {fuel : Nat} {it it' : RowIt} (h : it.load env junk fuel = .ok (it', false)) :
    it'.noMore = true := by
  induction fuel generalizing it with
  | zero => simp [RowIt.load] at h
  | succ fuel ih =>
    unfold RowIt.load at h
    split at h
    · rename_i hn
      simp only [Except.ok.injEq, Prod.mk.injEq, and_true] at h
      subst h; exact hn
    · split at h
      · simp at h
      · split at h
        · simp at h
        · simp only [Except.ok.injEq, Prod.mk.injEq, and_true] at h
          subst h; rfl
        · split at h
          · simp at h
          · dsimp only at h
            split at h
            · split at h
              · exact ih h
              · simp at h
            · split at h
              · simp at h
              · split at h
                · simp at h
                · split at h
                  · simp at h
                  · split at h
                    · simp at h
                    · simp at h

theorem next_cols {env : Env} {junk : Junk} {it it' : RowIt} {b : Bool} (h : it.next env junk = .ok (it', b))
    (hm : it'.noMore = false) (hn : it'.newData = false) : it'.cols = it.cols := by
  unfold RowIt.next at h
  dsimp only at h
  split at h
  · simp only [Except.ok.injEq, Prod.mk.injEq] at h
    rw [← h.1]
  · by_cases hr : it.remaining = 0
    · rw [if_pos hr] at h
      split at h
      · simp at h
      · rename_i it1 hl
        simp only [Except.ok.injEq, Prod.mk.injEq] at h
        have := load_false hl
        rw [h.1, hm] at this
        simp at this
      · rename_i it1 hl
        have := load_true hl
        split at h
        · simp at h
        · simp only [Except.ok.injEq, Prod.mk.injEq] at h
          rw [← h.1] at hn
          simp only [this.1] at hn
          simp at hn
    · rw [if_neg hr] at h
      dsimp only at h
      split at h
      · simp at h
      · simp only [Except.ok.injEq, Prod.mk.injEq] at h
        rw [← h.1]

/-- What is known about the columns to skip before a round of the loop. -/
def SkipOk (o : CmpOpts) (a b : RowIt) (skip : List Nat) : Prop :=
  a.noMore = false → b.noMore = false → a.newData = false → b.newData = false →
    Match (ColAgree o) a.cols b.cols ∧ skip = skipsFrom o 0 a.cols

theorem cmpLoop_iff (env : Env) (j1 j2 : Junk) (o : CmpOpts) (fuel : Nat) (a b : RowIt) (skip : List Nat) (hs : SkipOk o a b skip) :
    cmpLoop env j1 j2 o fuel a b skip = .ok true ↔
      ∃ vs1 vs2, a.all env j1 fuel = (vs1, none) ∧ b.all env j2 fuel = (vs2, none) ∧ Match (RowAgree o) vs1 vs2 := by
  induction fuel generalizing a b skip with
  | zero => simp [cmpLoop, RowIt.all]
  | succ fuel ih =>
    unfold cmpLoop RowIt.all
    by_cases ha : a.noMore = false
    · by_cases hb : b.noMore = false
      · rw [if_pos ⟨ha, hb⟩]
        simp only [ha, hb, Bool.false_eq_true, if_false]
        -- the columns to skip in this round
        have hskip : ∀ sk, (Match (ColAgree o) a.cols b.cols ∧ sk = skipsFrom o 0 a.cols) →
            ((match cmpRow o sk 0 a.cols b.cols a.last b.last with
              | .error e => Except.error e
              | .ok false => .ok false
              | .ok true =>
                match a.next env j1 with
                | .error e => .error e
                | .ok (a', _) =>
                  match b.next env j2 with
                  | .error e => .error e
                  | .ok (b', _) => cmpLoop env j1 j2 o fuel a' b' sk) = .ok true ↔
            ∃ vs1 vs2, (match a.next env j1 with
                | .error e => ([⟨a.cols, a.last, a.newData⟩], some e)
                | .ok (it', _) => match RowIt.all env j1 fuel it' with | (rs, e) => (⟨a.cols, a.last, a.newData⟩ :: rs, e)) = (vs1, none) ∧
              (match b.next env j2 with
                | .error e => ([⟨b.cols, b.last, b.newData⟩], some e)
                | .ok (it', _) => match RowIt.all env j2 fuel it' with | (rs, e) => (⟨b.cols, b.last, b.newData⟩ :: rs, e)) = (vs2, none) ∧
              Match (RowAgree o) vs1 vs2) := by
          rintro sk ⟨hc, rfl⟩
          have hrow := cmpRow_iff o a.cols b.cols hc.length 0 a.last b.last
          cases hna : a.next env j1 with
          | error e =>
            constructor
            · intro h; split at h <;> simp at h
            · rintro ⟨vs1, vs2, h, _⟩; simp at h
          | ok ra =>
            obtain ⟨a', ba⟩ := ra
            cases hnb : b.next env j2 with
            | error e =>
              constructor
              · intro h; split at h <;> simp at h
              · rintro ⟨vs1, vs2, _, h, _⟩; simp at h
            | ok rb =>
              obtain ⟨b', bb⟩ := rb
              dsimp only
              have hs' : SkipOk o a' b' (skipsFrom o 0 a.cols) := by
                intro m1 m2 n1 n2
                rw [next_cols hna m1 n1, next_cols hnb m2 n2]
                exact ⟨hc, rfl⟩
              have hi := ih a' b' (skipsFrom o 0 a.cols) hs'
              constructor
              · intro h
                split at h
                · simp at h
                · simp at h
                · rename_i hr
                  obtain ⟨ws1, ws2, q1, q2, q3⟩ := hi.mp h
                  refine ⟨_, _, by rw [q1], by rw [q2], .cons ⟨hc, hrow.mp hr⟩ q3⟩
              · rintro ⟨vs1, vs2, q1, q2, q3⟩
                cases hra : a'.all env j1 fuel with
                | mk ws1 e1 =>
                  cases hrb : b'.all env j2 fuel with
                  | mk ws2 e2 =>
                    rw [hra] at q1
                    rw [hrb] at q2
                    simp only [Prod.mk.injEq] at q1 q2
                    obtain ⟨rfl, rfl⟩ := q1
                    obtain ⟨rfl, rfl⟩ := q2
                    cases q3 with
                    | cons r1 r2 =>
                      rw [hrow.mpr r1.2]
                      dsimp only
                      exact hi.mpr ⟨ws1, ws2, hra, hrb, r2⟩
        -- whatever the flags, the columns agree if the loop goes on
        have hviews : (∃ vs1 vs2, (match a.next env j1 with
                | .error e => ([⟨a.cols, a.last, a.newData⟩], some e)
                | .ok (it', _) => match RowIt.all env j1 fuel it' with | (rs, e) => (⟨a.cols, a.last, a.newData⟩ :: rs, e)) = (vs1, none) ∧
              (match b.next env j2 with
                | .error e => ([⟨b.cols, b.last, b.newData⟩], some e)
                | .ok (it', _) => match RowIt.all env j2 fuel it' with | (rs, e) => (⟨b.cols, b.last, b.newData⟩ :: rs, e)) = (vs2, none) ∧
              Match (RowAgree o) vs1 vs2) → Match (ColAgree o) a.cols b.cols := by
          rintro ⟨vs1, vs2, q1, q2, q3⟩
          have e1 : ∃ ws, vs1 = ⟨a.cols, a.last, a.newData⟩ :: ws := by
            split at q1
            · simp at q1
            · split at q1
              simp only [Prod.mk.injEq] at q1
              exact ⟨_, q1.1.symm⟩
          have e2 : ∃ ws, vs2 = ⟨b.cols, b.last, b.newData⟩ :: ws := by
            split at q2
            · simp at q2
            · split at q2
              simp only [Prod.mk.injEq] at q2
              exact ⟨_, q2.1.symm⟩
          obtain ⟨ws1, rfl⟩ := e1
          obtain ⟨ws2, rfl⟩ := e2
          cases q3 with
          | cons r _ => exact r.1
        cases hc : cmpCols o a.cols b.cols with
        | ok sk =>
          have hsk := (cmpCols_iff o a.cols b.cols sk).mp hc
          have hone : (if a.newData = true then Except.ok sk else (Except.ok skip : Except Err (List Nat))) =
              .ok (if a.newData = true then sk else skip) := by split <;> rfl
          rw [hone]
          dsimp only
          have htwo : (if b.newData = true then Except.ok sk else (Except.ok (if a.newData = true then sk else skip) : Except Err (List Nat))) = .ok sk := by
            by_cases hbn : b.newData = true
            · rw [if_pos hbn]
            · rw [if_neg hbn]
              by_cases han : a.newData = true
              · rw [if_pos han]
              · rw [if_neg han]
                have := hs ha hb (by simpa using han) (by simpa using hbn)
                rw [this.2, hsk.2]
          rw [htwo]
          exact hskip sk hsk
        | error e =>
          have hno : ¬ Match (ColAgree o) a.cols b.cols := by
            intro hm
            have := (cmpCols_iff o a.cols b.cols _).mpr ⟨hm, rfl⟩
            rw [hc] at this; simp at this
          constructor
          · intro h
            exfalso
            by_cases han : a.newData = true
            · rw [if_pos han] at h; simp at h
            · rw [if_neg han] at h
              dsimp only at h
              by_cases hbn : b.newData = true
              · rw [if_pos hbn] at h; simp at h
              · exact hno (hs ha hb (by simpa using han) (by simpa using hbn)).1
          · intro h; exact absurd (hviews h) hno
      · rw [if_neg (by simp [hb]), if_pos ha]
        have hb' : b.noMore = true := by simpa using hb
        simp only [ha, hb', Bool.false_eq_true, if_false, if_true, reduceCtorEq, false_iff]
        rintro ⟨vs1, vs2, q1, q2, q3⟩
        simp only [Prod.mk.injEq, and_true] at q2
        subst q2
        cases q3
        split at q1
        · simp at q1
        · simp at q1
    · have ha' : a.noMore = true := by simpa using ha
      rw [if_neg (by simp [ha']), if_neg (by simp [ha'])]
      by_cases hb : b.noMore = false
      · rw [if_pos hb]
        simp only [ha', hb, Bool.false_eq_true, if_false, if_true, reduceCtorEq, false_iff]
        rintro ⟨vs1, vs2, q1, q2, q3⟩
        simp only [Prod.mk.injEq, and_true] at q1
        subst q1
        cases q3
        split at q2
        · simp at q2
        · simp at q2
      · have hb' : b.noMore = true := by simpa using hb
        rw [if_neg hb]
        simp only [ha', hb', if_true, true_iff]
        exact ⟨[], [], rfl, rfl, .nil⟩

/-- The columns the iterators show at the beginning. [Comparator.cc, the iterators at `begin()`] -/
def firstCols (env : Env) (junk : Junk) (bytes : List Byte) : Except Err (List Col) :=
  match RowIt.begin env junk bytes with
  | .error e => .error e
  | .ok it => .ok it.cols

/-- **C34**: comparison of two files succeeds exactly when both can be read to the end, show the same columns at the
beginning, have equally many rows, and row by row the columns and the cells that are not excluded agree. -/
theorem C34_compare (env : Env) (j1 j2 : Junk) (o : CmpOpts) (bytes1 bytes2 : List Byte) (fuel : Nat) :
    compareFiles env j1 j2 o bytes1 bytes2 fuel = .ok true ↔
      (∃ cs1 cs2, firstCols env j1 bytes1 = .ok cs1 ∧ firstCols env j2 bytes2 = .ok cs2 ∧ Match (ColAgree o) cs1 cs2) ∧
      ∃ vs1 vs2, readRows env j1 bytes1 fuel = (vs1, none) ∧ readRows env j2 bytes2 fuel = (vs2, none) ∧
        Match (RowAgree o) vs1 vs2 := by
  unfold compareFiles firstCols readRows
  cases h1 : RowIt.begin env j1 bytes1 with
  | error e => simp
  | ok a =>
    cases h2 : RowIt.begin env j2 bytes2 with
    | error e => simp
    | ok b =>
      simp only [Except.ok.injEq, exists_and_left, exists_eq_left']
      cases hc : cmpCols o a.cols b.cols with
      | error e =>
        simp only [reduceCtorEq, false_iff, not_and]
        intro hm
        have := (cmpCols_iff o a.cols b.cols _).mpr ⟨hm, rfl⟩
        rw [hc] at this; simp at this
      | ok sk =>
        have hsk := (cmpCols_iff o a.cols b.cols sk).mp hc
        simp only [hsk.1, true_and]
        have := cmpLoop_iff env j1 j2 o fuel a b sk (fun _ _ _ _ => hsk)
        simpa only [exists_and_left] using this

end Verif
