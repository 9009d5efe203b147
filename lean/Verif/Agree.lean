import Verif.RowAny

/-
The rows the row reader shows are the rows the table decoder stores.
-/

namespace Verif

/-! ### Rows -/

/-- Proof device: the cells `xs` of the row reader begin with the cells `ys` of the decoder, and the codecs fill
their cells. -/
inductive Like : List Codec → List Cell → List Cell → Prop
  | nil : Like [] [] []
  | cons {c cs x xs y ys} : c.decWidth = c.width → 1 ≤ c.width → x.length = c.width → Holds x y → y ≠ [] →
      Like cs xs ys → Like (c :: cs) (x :: xs) (y :: ys)

theorem Like.drop {cs : List Codec} {xs ys : List Cell} (h : Like cs xs ys) (n : Nat) :
    Like (cs.drop n) (xs.drop n) (ys.drop n) := by
  induction n generalizing cs xs ys with
  | zero => simpa using h
  | succ n ih =>
    cases h with
    | nil => exact .nil
    | cons _ _ _ _ _ h' => exact ih h'

theorem Like.get {cs : List Codec} {xs ys : List Cell} (h : Like cs xs ys) (i : Nat) (c : Codec) (hc : cs[i]? = some c) :
    ∃ x y, xs[i]? = some x ∧ ys[i]? = some y ∧ c.decWidth = c.width ∧ 1 ≤ c.width ∧ x.length = c.width ∧ Holds x y ∧ y ≠ [] := by
  induction h generalizing i with
  | nil => simp at hc
  | cons h1 h2 h3 h4 h5 _ ih =>
    cases i with
    | zero => simp at hc; subst hc; exact ⟨_, _, rfl, rfl, h1, h2, h3, h4, h5⟩
    | succ i => exact ih i (by simpa using hc)

theorem Like.lengths {cs : List Codec} {xs ys : List Cell} (h : Like cs xs ys) : xs.length = cs.length ∧ ys.length = cs.length := by
  induction h with
  | nil => exact ⟨rfl, rfl⟩
  | cons _ _ _ _ _ _ ih => simp [ih.1, ih.2]

/-- All columns are wanted. -/
def allOf (cs : List Codec) : List (Codec × Bool) := cs.map (fun c => (c, true))

theorem holds_self (d : Cell) : Holds d d := by simp [Holds]

/-- The columns from the marker on are read alike. -/
theorem cols_alike {o : Order} {cs : List Codec} {xs ys : List Cell} (h : Like cs xs ys) (s : List Byte) :
    decRow o cs xs s = refCols o (allOf cs) ys s ∧
      ∀ t s', decRow o cs xs s = .ok (t, s') → Like cs t t ∧ t.map List.length = cs.map Codec.width := by
  induction h generalizing s with
  | nil =>
    refine ⟨rfl, ?_⟩
    intro t s' ht
    simp only [decRow, P.pure_apply, Except.ok.injEq, Prod.mk.injEq] at ht
    obtain ⟨rfl, _⟩ := ht
    exact ⟨.nil, rfl⟩
  | @cons c cs x xs y ys h1 h2 h3 h4 h5 h ih =>
    simp only [decRow, allOf, List.map_cons, refCols, if_true, P.bind_apply]
    cases hd : c.dec o s with
    | error e => exact ⟨rfl, by intro t s' ht; simp at ht⟩
    | ok v =>
      obtain ⟨d, s1⟩ := v
      obtain ⟨_, _, hl⟩ := dec_consumes o c s s1 d hd
      dsimp only
      rw [if_neg (by omega)]
      obtain ⟨i1, i2⟩ := ih s1
      simp only [P.bind_apply]
      have i1' : decRow o cs xs s1 = refCols o (List.map (fun c => (c, true)) cs) ys s1 := i1
      rw [← i1']
      cases hr : decRow o cs xs s1 with
      | error e => exact ⟨rfl, by intro t s' ht; simp at ht⟩
      | ok v =>
        obtain ⟨t1, s2⟩ := v
        obtain ⟨j1, j2⟩ := i2 t1 s2 hr
        dsimp only
        rw [List.drop_of_length_le (by omega), List.append_nil]
        refine ⟨rfl, ?_⟩
        intro t s' ht
        simp only [P.pure_apply, Except.ok.injEq, Prod.mk.injEq] at ht
        obtain ⟨rfl, _⟩ := ht
        refine ⟨.cons h1 h2 (by omega) (holds_self d) (by intro he; rw [he] at hl; simp at hl; omega) j1, ?_⟩
        simp [j2, hl, h1]

theorem Like.step {cs : List Codec} {xs ys t : List Cell} (n : Nat) (h : Like cs xs ys) (ht : Like (cs.drop n) t t) :
    Like cs (xs.take n ++ t) (ys.take n ++ t) := by
  induction n generalizing cs xs ys with
  | zero => simpa using ht
  | succ n ih =>
    cases h with
    | nil =>
      simp only [List.drop_nil] at ht
      cases ht
      exact .nil
    | cons h1 h2 h3 h4 h5 h => exact .cons h1 h2 h3 h4 h5 (ih h ht)

/-- Proof device: from column `q` on the cells have been decoded. -/
def FullFrom (q : Nat) (cs : List Codec) (ys : List Cell) : Prop :=
  ∀ (i : Nat) (c : Codec) (y : Cell), q ≤ i → cs[i]? = some c → ys[i]? = some y → y.length = c.width

theorem full_step {cs : List Codec} {ys t : List Cell} (n q : Nat) (hl : ys.length = cs.length) (hq : FullFrom q cs ys)
    (ht : t.map List.length = (cs.drop n).map Codec.width) : FullFrom (min n q) cs (ys.take n ++ t) := by
  intro i c y hi hc hy
  have htl : t.length = cs.length - n := by
    have := congrArg List.length ht
    simpa using this
  have hil := (List.getElem?_eq_some_iff.mp hc).1
  by_cases hin : i < n
  · rw [List.getElem?_append_left (by simp; omega), List.getElem?_take, if_pos hin] at hy
    exact hq i c y (by omega) hc hy
  · have hnl : (ys.take n).length = n := by simp; omega
    rw [List.getElem?_append_right (by omega), hnl] at hy
    have h1 : (t.map List.length)[i - n]? = some y.length := by rw [List.getElem?_map, hy]; rfl
    rw [ht, List.getElem?_map, List.getElem?_drop, show n + (i - n) = i by omega, hc] at h1
    simpa using h1.symm

/-- Proof device: two lists of rows, row by row. -/
structure RowsLike (q : Nat) (cs : List Codec) (as bs : List (List Cell)) : Prop where
  len : as.length = bs.length
  row : ∀ (r : Nat) (a b : List Cell), as[r]? = some a → bs[r]? = some b → Like cs a b ∧ FullFrom q cs b

/-- If the decoder accepts the rows, the row reader does, and shows the same. -/
theorem rows_alike {o : Order} {cs : List Codec} (k : Nat) (ls q : Nat) (xs ys : List Cell) (h : Like cs xs ys)
    (hq : FullFrom q cs ys) (s : List Byte) (rows : List (List Cell)) (s' : List Byte)
    (hr : refRows o (allOf cs) k ls ys s = .ok (rows, s')) :
    ∃ rows', itRows o cs k xs s = .ok (rows', s') ∧ RowsLike q cs rows' rows := by
  induction k generalizing ls xs ys s rows s' with
  | zero =>
    simp only [refRows, P.pure_apply, Except.ok.injEq, Prod.mk.injEq] at hr
    obtain ⟨rfl, rfl⟩ := hr
    exact ⟨[], rfl, ⟨rfl, by simp⟩⟩
  | succ k ih =>
    simp only [refRows, P.bind_apply] at hr
    simp only [itRows, itStep, P.bind_apply]
    cases hm : readBytes 2 s with
    | error e => rw [hm] at hr; simp at hr
    | ok v =>
      obtain ⟨m, s1⟩ := v
      rw [hm] at hr
      dsimp only at hr ⊢
      split at hr
      · simp [P.fail] at hr
      rw [P.bind_apply] at hr
      obtain ⟨c1, c2⟩ := cols_alike (o := o) (h.drop (markerStart m)) s1
      have hdrop : (allOf cs).drop (markerStart m) = allOf (cs.drop (markerStart m)) := by simp [allOf]
      rw [hdrop, ← c1] at hr
      cases ht : decRow o (cs.drop (markerStart m)) (xs.drop (markerStart m)) s1 with
      | error e => rw [ht] at hr; simp at hr
      | ok v =>
        obtain ⟨t, s2⟩ := v
        rw [ht] at hr
        dsimp only at hr ⊢
        obtain ⟨d1, d2⟩ := c2 t s2 ht
        rw [P.bind_apply] at hr
        cases hrr : refRows o (allOf cs) k (markerStart m) (ys.take (markerStart m) ++ t) s2 with
        | error e => rw [hrr] at hr; simp at hr
        | ok v =>
          obtain ⟨rows1, s3⟩ := v
          rw [hrr] at hr
          simp only [P.pure_apply, Except.ok.injEq, Prod.mk.injEq] at hr
          obtain ⟨rfl, rfl⟩ := hr
          have hL := h.step (markerStart m) d1
          have hF : FullFrom q cs (ys.take (markerStart m) ++ t) := by
            have := full_step (markerStart m) q h.lengths.2 hq d2
            intro i c y hi; exact this i c y (by omega)
          obtain ⟨rows2, e1, e2⟩ := ih (markerStart m) _ _ hL hF s2 rows1 s3 hrr
          refine ⟨(xs.take (markerStart m) ++ t) :: rows2, by simp only [P.pure_apply, e1], ?_⟩
          refine ⟨by simp [e2.len], ?_⟩
          intro r a b ha hb
          cases r with
          | zero => simp at ha hb; subst ha; subst hb; exact ⟨hL, hF⟩
          | succ r => exact e2.row r a b (by simpa using ha) (by simpa using hb)

/-- Specification: the marker of the first row: the first column that is stored in it. -/
def firstMarker (data : List Byte) : Nat := markerStart (data.take 2)

/-- The first row sets the columns from its marker on. -/
theorem rows_alike_first {o : Order} {cs : List Codec} (k : Nat) (xs ys : List Cell) (h : Like cs xs ys) (s : List Byte)
    (rows : List (List Cell)) (s' : List Byte) (hr : refRows o (allOf cs) k 0 ys s = .ok (rows, s')) :
    ∃ rows', itRows o cs k xs s = .ok (rows', s') ∧ RowsLike (firstMarker s) cs rows' rows := by
  cases k with
  | zero =>
    simp only [refRows, P.pure_apply, Except.ok.injEq, Prod.mk.injEq] at hr
    obtain ⟨rfl, rfl⟩ := hr
    exact ⟨[], rfl, ⟨rfl, by simp⟩⟩
  | succ k =>
    simp only [refRows, P.bind_apply] at hr
    simp only [itRows, itStep, P.bind_apply]
    cases hm : readBytes 2 s with
    | error e => rw [hm] at hr; simp at hr
    | ok v =>
      obtain ⟨m, s1⟩ := v
      have hmk : markerStart m = firstMarker s := by rw [(readBytes_ok hm).1]; rfl
      rw [hm] at hr
      dsimp only at hr ⊢
      split at hr
      · simp [P.fail] at hr
      rw [P.bind_apply] at hr
      obtain ⟨c1, c2⟩ := cols_alike (o := o) (h.drop (markerStart m)) s1
      have hdrop : (allOf cs).drop (markerStart m) = allOf (cs.drop (markerStart m)) := by simp [allOf]
      rw [hdrop, ← c1] at hr
      cases ht : decRow o (cs.drop (markerStart m)) (xs.drop (markerStart m)) s1 with
      | error e => rw [ht] at hr; simp at hr
      | ok v =>
        obtain ⟨t, s2⟩ := v
        rw [ht] at hr
        dsimp only at hr ⊢
        obtain ⟨d1, d2⟩ := c2 t s2 ht
        rw [P.bind_apply] at hr
        cases hrr : refRows o (allOf cs) k (markerStart m) (ys.take (markerStart m) ++ t) s2 with
        | error e => rw [hrr] at hr; simp at hr
        | ok v =>
          obtain ⟨rows1, s3⟩ := v
          rw [hrr] at hr
          simp only [P.pure_apply, Except.ok.injEq, Prod.mk.injEq] at hr
          obtain ⟨rfl, rfl⟩ := hr
          have hL := h.step (markerStart m) d1
          have hF : FullFrom (firstMarker s) cs (ys.take (markerStart m) ++ t) := by
            have := full_step (markerStart m) cs.length h.lengths.2 (by
              intro i c y hi hc _
              have := (List.getElem?_eq_some_iff.mp hc).1
              omega) d2
            intro i c y hi; exact this i c y (by omega)
          obtain ⟨rows2, e1, e2⟩ := rows_alike k (markerStart m) (firstMarker s) _ _ hL hF s2 rows1 s3 hrr
          refine ⟨(xs.take (markerStart m) ++ t) :: rows2, by simp only [P.pure_apply, e1], ?_⟩
          refine ⟨by simp [e2.len], ?_⟩
          intro r a b ha hb
          cases r with
          | zero => simp at ha hb; subst ha; subst hb; exact ⟨hL, hF⟩
          | succ r => exact e2.row r a b (by simpa using ha) (by simpa using hb)

end Verif
