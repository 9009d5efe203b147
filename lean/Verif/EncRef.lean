import Verif.FrameRef

/-
Rows written by the encoder are read back by the reference semantics.
-/

namespace Verif

/-- A column on both sides of the file: the codec that encodes, the codec that decodes, whether the
column is wanted, and the cell expected back. -/
structure Tr where
  c : Codec
  d : Codec
  v : Bool
  g : Cell → Cell

/-- Cell `x` of the column travels. -/
def TrOk (o : Order) (t : Tr) (x : Cell) : Prop :=
  ∃ bs, t.c.enc o x = .ok bs ∧
    if t.v then Reads (t.d.dec o) bs (t.g x) else bs.length = t.d.encSize ∧ t.g x = []

/-- All cells of a row travel. -/
inductive RowOk (o : Order) : List Tr → List Cell → Prop
  | nil : RowOk o [] []
  | cons {t ts x xs} : TrOk o t x → RowOk o ts xs → RowOk o (t :: ts) (x :: xs)

/-- The row expected back. -/
def outRow : List Tr → List Cell → List Cell
  | t :: ts, x :: xs => t.g x :: outRow ts xs
  | _, _ => []

/-- Cells of unwanted columns stay empty. -/
inductive CurOk : List Tr → List Cell → Prop
  | nil : CurOk [] []
  | cons {t ts y ys} : (t.v = false → y = []) → CurOk ts ys → CurOk (t :: ts) (y :: ys)

theorem RowOk.length {o : Order} {ts : List Tr} {xs : List Cell} (h : RowOk o ts xs) : xs.length = ts.length := by
  induction h with
  | nil => rfl
  | cons _ _ ih => simp [ih]

theorem CurOk.length {ts : List Tr} {xs : List Cell} (h : CurOk ts xs) : xs.length = ts.length := by
  induction h with
  | nil => rfl
  | cons _ _ ih => simp [ih]

theorem RowOk.cur {o : Order} {ts : List Tr} {xs : List Cell} (h : RowOk o ts xs) : CurOk ts (outRow ts xs) := by
  induction h with
  | nil => exact .nil
  | cons ht _ ih =>
    refine .cons ?_ ih
    intro hv
    obtain ⟨bs, _, h2⟩ := ht
    rw [hv] at h2
    simpa using h2.2

theorem RowOk.drop {o : Order} {ts : List Tr} {xs : List Cell} (h : RowOk o ts xs) (n : Nat) :
    RowOk o (ts.drop n) (xs.drop n) := by
  induction n generalizing ts xs with
  | zero => simpa using h
  | succ n ih =>
    cases h with
    | nil => exact .nil
    | cons _ h' => exact ih h'

theorem CurOk.drop {ts : List Tr} {xs : List Cell} (h : CurOk ts xs) (n : Nat) :
    CurOk (ts.drop n) (xs.drop n) := by
  induction n generalizing ts xs with
  | zero => simpa using h
  | succ n ih =>
    cases h with
    | nil => exact .nil
    | cons _ h' => exact ih h'

theorem outRow_length {o : Order} {ts : List Tr} {xs : List Cell} (h : RowOk o ts xs) :
    (outRow ts xs).length = ts.length := by
  induction h with
  | nil => rfl
  | cons _ _ ih => simp [outRow, ih]

/-- Proof device: the codec as the decoder has it, and whether the column is wanted. -/
def Tr.dec (t : Tr) : Codec × Bool := (t.d, t.v)

theorem encCols_ref (o : Order) (ts : List Tr) (xs : List Cell) (h : RowOk o ts xs) :
    ∃ bs, encCols o (ts.map Tr.c) xs = .ok bs ∧ ∀ cur, CurOk ts cur →
      Reads (refCols o (ts.map Tr.dec) cur) bs (outRow ts xs) := by
  induction h with
  | nil =>
    refine ⟨[], rfl, ?_⟩
    intro cur hc
    cases hc
    exact Reads.pure _
  | @cons t ts x xs ht _ ih =>
    obtain ⟨bs, h1, h2⟩ := ht
    obtain ⟨bs', h3, h4⟩ := ih
    refine ⟨bs ++ bs', by simp [encCols, h1, h3], ?_⟩
    intro cur hc
    cases hc with
    | @cons _ _ y ys hy hys =>
      simp only [List.map_cons, Tr.dec, refCols, outRow]
      refine Reads.bind (a := t.g x) ?_ (Reads.bind_pure (h4 ys hys) (fun s => rfl))
      cases hv : t.v
      · rw [hv] at h2
        simp only [Bool.false_eq_true, if_false] at h2 ⊢
        intro r
        rw [P.bind_apply]
        unfold Codec.skip advance
        rw [if_pos (by rw [← h2.1]; simp), ← h2.1, List.drop_left]
        simp only [P.pure_apply, h2.2, hy hv]
      · rw [hv] at h2
        simpa using h2

theorem sameLead_le (p row : List Cell) : sameLead p row ≤ row.length := by
  induction p generalizing row with
  | nil => simp [sameLead]
  | cons x p ih =>
    cases row with
    | nil => simp [sameLead]
    | cons y row =>
      simp only [sameLead]
      split
      · have := ih row; simp; omega
      · simp

theorem outRow_lead {o : Order} (ts : List Tr) (p row : List Cell) (hp : RowOk o ts p) (hr : RowOk o ts row) :
    (outRow ts p).take (sameLead p row) ++ outRow (ts.drop (sameLead p row)) (row.drop (sameLead p row)) =
      outRow ts row := by
  induction ts generalizing p row with
  | nil => cases hp; cases hr; rfl
  | cons t ts ih =>
    cases hp with
    | cons a1 a2 =>
      cases hr with
      | cons b1 b2 =>
        rename_i x xs y ys
        simp only [sameLead]
        split
        · rename_i he
          subst he
          simp [outRow, ih _ _ a2 b2]
        · simp [outRow]

theorem markerStart_markerBytes (n : Nat) (h : n < 65536) : markerStart (markerBytes n) = n := by
  simp only [markerStart, markerBytes, List.getD_cons_zero, List.getD_cons_succ, BitVec.toNat_ofNat]
  omega

theorem reads_marker (n : Nat) : Reads (readBytes 2) (markerBytes n) (markerBytes n) := by
  intro r
  exact readBytes_append' 2 (markerBytes n) r rfl

/-- Rows after the first. -/
theorem encRows_ref_some (o : Order) (ts : List Tr) (hn : ts.length < 65536) (rows : List (List Cell))
    (hrows : ∀ row ∈ rows, RowOk o ts row) (p : List Cell) (hp : RowOk o ts p) (ls : Nat) (hls : ls ≤ ts.length) :
    ∃ bs, encRows o (ts.map Tr.c) (some p) rows = .ok bs ∧
      Reads (refRows o (ts.map Tr.dec) rows.length ls (outRow ts p)) bs (rows.map (outRow ts)) := by
  induction rows generalizing p ls with
  | nil => exact ⟨[], rfl, Reads.pure _⟩
  | cons row rows ih =>
    have hr := hrows row (by simp)
    have hle : sameLead p row ≤ ts.length := by rw [← hr.length]; exact sameLead_le p row
    obtain ⟨bs1, e1, e2⟩ := encCols_ref o _ _ (hr.drop (sameLead p row))
    obtain ⟨bs2, e3, e4⟩ := ih (fun r h => hrows r (by simp [h])) row hr (sameLead p row) hle
    refine ⟨(markerBytes (sameLead p row) ++ bs1) ++ bs2, ?_, ?_⟩
    · simp only [encRows, encRow, startOf]
      rw [← List.map_drop, e1]
      simp only [e3]
    · rw [List.append_assoc]
      simp only [List.length_cons, refRows, List.map_cons]
      refine Reads.bind (reads_marker _) ?_
      rw [markerStart_markerBytes _ (by omega), if_neg (by simp only [List.length_map]; omega)]
      rw [← List.map_drop]
      refine Reads.bind (e2 _ (hp.cur.drop _)) ?_
      rw [outRow_lead ts p row hp hr]
      exact Reads.bind_pure e4 (fun s => rfl)

/-- All rows: the encoder succeeds and the reference semantics reads the rows back, consuming exactly
the bytes written. -/
theorem encRows_ref (o : Order) (ts : List Tr) (hn : ts.length < 65536) (rows : List (List Cell))
    (hrows : ∀ row ∈ rows, RowOk o ts row) :
    ∃ bs, encRows o (ts.map Tr.c) none rows = .ok bs ∧ ∀ cur, CurOk ts cur →
      Reads (refRows o (ts.map Tr.dec) rows.length 0 cur) bs (rows.map (outRow ts)) := by
  cases rows with
  | nil => exact ⟨[], rfl, fun _ _ => Reads.pure _⟩
  | cons row rows =>
    have hr := hrows row (by simp)
    obtain ⟨bs1, e1, e2⟩ := encCols_ref o ts row hr
    obtain ⟨bs2, e3, e4⟩ := encRows_ref_some o ts hn rows (fun r h => hrows r (by simp [h])) row hr 0 (Nat.zero_le _)
    refine ⟨(markerBytes 0 ++ bs1) ++ bs2, ?_, ?_⟩
    · simp only [encRows, encRow, startOf, List.drop_zero, e1, e3]
    · intro cur hc
      rw [List.append_assoc]
      simp only [List.length_cons, refRows, List.map_cons]
      refine Reads.bind (reads_marker _) ?_
      rw [markerStart_markerBytes 0 (by omega), if_neg (by omega)]
      simp only [List.drop_zero, List.take_zero, List.nil_append]
      refine Reads.bind (e2 _ hc) ?_
      exact Reads.bind_pure e4 (fun s => rfl)

end Verif
