import Verif.RowReader

/-
Rows written by the encoder or by the row writer are read back by the row reader.
-/

namespace Verif

/-- The rows of a table, one `next` after the other. -/
def itRows (o : Order) (cs : List Codec) : Nat → List Cell → P (List (List Cell))
  | 0, _ => pure []
  | n + 1, cur => do
    let row ← itStep o cs cur
    let rest ← itRows o cs n row
    pure (row :: rest)

/-- Proof device: the same, with no marker beyond the last column. -/
def itRowsB (o : Order) (cs : List Codec) : Nat → List Cell → P (List (List Cell))
  | 0, _ => pure []
  | n + 1, cur => do
    let m ← readBytes 2
    if cs.length < markerStart m then P.fail .ub
    else do
      let tail ← decRow o (cs.drop (markerStart m)) (cur.drop (markerStart m))
      let rest ← itRowsB o cs n (cur.take (markerStart m) ++ tail)
      pure ((cur.take (markerStart m) ++ tail) :: rest)

theorem itRowsB_it (o : Order) (cs : List Codec) (n : Nat) (cur : List Cell) (s : List Byte) (r : List (List Cell) × List Byte)
    (h : itRowsB o cs n cur s = .ok r) : itRows o cs n cur s = .ok r := by
  induction n generalizing cur s r with
  | zero => exact h
  | succ n ih =>
    simp only [itRowsB, P.bind_apply] at h
    simp only [itRows, itStep, P.bind_apply]
    cases hm : readBytes 2 s with
    | error e => rw [hm] at h; simp at h
    | ok v =>
      obtain ⟨m, s1⟩ := v
      rw [hm] at h
      dsimp only at h ⊢
      split at h
      · simp [P.fail] at h
      rw [P.bind_apply] at h
      cases ht : decRow o (cs.drop (markerStart m)) (cur.drop (markerStart m)) s1 with
      | error e => rw [ht] at h; simp at h
      | ok v =>
        obtain ⟨t, s2⟩ := v
        rw [ht] at h
        dsimp only at h ⊢
        rw [P.bind_apply] at h
        cases hr : itRowsB o cs n (cur.take (markerStart m) ++ t) s2 with
        | error e => rw [hr] at h; simp at h
        | ok v =>
          rw [hr] at h
          simp only [P.pure_apply] at h ⊢
          rw [ih _ _ _ hr]
          exact h

/-- All cells of a row travel, and fill their element. -/
inductive RowIn (o : Order) : List Tr → List Cell → Prop
  | nil : RowIn o [] []
  | cons {t ts x xs} : (∃ bs, t.c.enc o x = .ok bs ∧ Reads (t.d.dec o) bs (t.g x)) → (t.g x).length = t.d.width →
      RowIn o ts xs → RowIn o (t :: ts) (x :: xs)

/-- A row of elements of the right sizes. -/
inductive CurIn : List Tr → List Cell → Prop
  | nil : CurIn [] []
  | cons {t ts y ys} : y.length = t.d.width → CurIn ts ys → CurIn (t :: ts) (y :: ys)

theorem RowIn.length {o : Order} {ts : List Tr} {xs : List Cell} (h : RowIn o ts xs) : xs.length = ts.length := by
  induction h with
  | nil => rfl
  | cons _ _ _ ih => simp [ih]

theorem CurIn.length {ts : List Tr} {xs : List Cell} (h : CurIn ts xs) : xs.length = ts.length := by
  induction h with
  | nil => rfl
  | cons _ _ ih => simp [ih]

theorem RowIn.drop {o : Order} {ts : List Tr} {xs : List Cell} (h : RowIn o ts xs) (n : Nat) :
    RowIn o (ts.drop n) (xs.drop n) := by
  induction n generalizing ts xs with
  | zero => simpa using h
  | succ n ih =>
    cases h with
    | nil => exact .nil
    | cons _ _ h' => exact ih h'

theorem CurIn.drop {ts : List Tr} {xs : List Cell} (h : CurIn ts xs) (n : Nat) : CurIn (ts.drop n) (xs.drop n) := by
  induction n generalizing ts xs with
  | zero => simpa using h
  | succ n ih =>
    cases h with
    | nil => exact .nil
    | cons _ h' => exact ih h'

theorem RowIn.cur {o : Order} {ts : List Tr} {xs : List Cell} (h : RowIn o ts xs) : CurIn ts (outRow ts xs) := by
  induction h with
  | nil => exact .nil
  | cons _ hl _ ih => exact .cons hl ih

theorem outRow_drop (ts : List Tr) (xs : List Cell) (n : Nat) : outRow (ts.drop n) (xs.drop n) = (outRow ts xs).drop n := by
  induction n generalizing ts xs with
  | zero => rfl
  | succ n ih =>
    cases ts with
    | nil => simp [outRow]
    | cons t ts =>
      cases xs with
      | nil => cases ts <;> simp [outRow]
      | cons x xs => simpa [outRow] using ih ts xs

theorem encCols_it (o : Order) (ts : List Tr) (xs : List Cell) (h : RowIn o ts xs) :
    ∃ bs, encCols o (ts.map Tr.c) xs = .ok bs ∧ ∀ cur, CurIn ts cur →
      Reads (decRow o (ts.map Tr.d) cur) bs (outRow ts xs) := by
  induction h with
  | nil =>
    refine ⟨[], rfl, ?_⟩
    intro cur hc
    cases hc
    exact Reads.pure _
  | @cons t ts x xs ht hl _ ih =>
    obtain ⟨bs, h1, h2⟩ := ht
    obtain ⟨bs', h3, h4⟩ := ih
    refine ⟨bs ++ bs', by simp [encCols, h1, h3], ?_⟩
    intro cur hc
    cases hc with
    | @cons _ _ y ys hy hys =>
      simp only [List.map_cons, decRow, outRow]
      refine Reads.bind h2 ?_
      rw [if_neg (by omega), List.drop_of_length_le (by omega), List.append_nil]
      exact Reads.bind_pure (h4 ys hys) (fun s => rfl)

theorem startOf_le (p : Option (List Cell)) (row : List Cell) : startOf p row ≤ row.length := by
  cases p with
  | none => exact Nat.zero_le _
  | some p => exact sameLead_le p row

theorem outRow_same (ts : List Tr) (p row : List Cell) :
    (outRow ts p).take (sameLead p row) = (outRow ts row).take (sameLead p row) := by
  induction ts generalizing p row with
  | nil => simp [outRow]
  | cons t ts ih =>
    cases p with
    | nil => simp [sameLead]
    | cons x p =>
      cases row with
      | nil => simp [sameLead]
      | cons y row =>
        simp only [sameLead]
        split
        · rename_i he; subst he; simp [outRow]; exact ih p row
        · simp

/-- Rows are read back if the reader's cells agree with the cells that were not written. -/
theorem rows_it (o : Order) (ts : List Tr) (hn : ts.length < 65536) (rows : List (List Cell))
    (hrows : ∀ row ∈ rows, RowIn o ts row) (prev : Option (List Cell)) (cur : List Cell) (hcur : CurIn ts cur)
    (hsame : ∀ row, rows.head? = some row → cur.take (startOf prev row) = (outRow ts row).take (startOf prev row)) :
    ∃ bs, encRows o (ts.map Tr.c) prev rows = .ok bs ∧ (rows ≠ [] → 2 ≤ bs.length) ∧
      Reads (itRowsB o (ts.map Tr.d) rows.length cur) bs (rows.map (outRow ts)) := by
  induction rows generalizing prev cur with
  | nil => exact ⟨[], rfl, by simp, Reads.pure _⟩
  | cons row rows ih =>
    have hr := hrows row (by simp)
    have hle : startOf prev row ≤ ts.length := by rw [← hr.length]; exact startOf_le prev row
    obtain ⟨bs1, e1, e2⟩ := encCols_it o _ _ (hr.drop (startOf prev row))
    obtain ⟨bs2, e3, _, e4⟩ := ih (fun r h => hrows r (by simp [h])) (some row) (outRow ts row) hr.cur
      (fun row' _ => outRow_same ts row row')
    refine ⟨(markerBytes (startOf prev row) ++ bs1) ++ bs2, ?_, ?_, ?_⟩
    · simp only [encRows, encRow]
      rw [← List.map_drop, e1]
      simp only [e3]
    · intro _; simp [markerBytes]
    · simp only [List.length_cons, itRowsB, List.map_cons]
      rw [List.append_assoc]
      refine Reads.bind (reads_marker _) ?_
      rw [markerStart_markerBytes _ (by omega), if_neg (by simp only [List.length_map]; omega), ← List.map_drop]
      refine Reads.bind (e2 _ (hcur.drop _)) ?_
      rw [hsame row rfl, outRow_drop, List.take_append_drop]
      exact Reads.bind_pure e4 (fun s => rfl)

/-! ### A file -/

/-- A frame as the row reader sees it. -/
structure RFrame where
  bytes : List Byte
  cols : List Col
  rows : List (List Cell)

/-- The frame, wherever it stands in a file, is read as these columns and rows. -/
def RFrame.Ok (env : Env) (F : RFrame) : Prop :=
  F.rows ≠ [] ∧ ∃ (h : HeaderInfo) (o : Order) (data : List Byte),
    (∀ r, parseHeader env.md5 env.asDbl (F.bytes ++ r) = .ok (some (h, o, data ++ r))) ∧
    h.cols = F.cols ∧ h.dataSize = data.length ∧ 2 ≤ data.length ∧ h.nrows = F.rows.length ∧
    ∀ (junk : Junk) (t : Nat), ∃ l, firstCells junk t 0 F.cols = .ok l ∧
      Reads (itRowsB o (F.cols.map Col.codec) F.rows.length l) data F.rows

/-- Specification: the byte order of the frame and its properties. -/
def RFrame.Head (env : Env) (o : Order) (props : StrMap) (F : RFrame) : Prop :=
  ∃ (h : HeaderInfo) (data : List Byte), parseHeader env.md5 env.asDbl F.bytes = .ok (some (h, o, data)) ∧ h.props = props

/-- What a user sees of a table: the first row of it may announce it. -/
def tableViews (fresh : Bool) (F : RFrame) : List RowView :=
  match F.rows with
  | [] => []
  | r :: rs => ⟨F.cols, r, fresh⟩ :: rs.map (fun r => ⟨F.cols, r, false⟩)

/-- What a user sees of a file. -/
def fileViews : List RFrame → List RowView
  | [] => []
  | F :: Fs => tableViews false F ++ Fs.flatMap (tableViews true)

/-- The reader is in a table with these rows still to come. -/
structure RowIt.In (it : RowIt) (rows : List (List Cell)) (Fs : List RFrame) : Prop where
  more : it.noMore = false
  rest : it.rest = (Fs.map RFrame.bytes).flatten
  left : it.remaining = rows.length
  stream : ∃ s, itRows it.order (it.cols.map Col.codec) rows.length it.last it.stream = .ok (rows, s)

theorem parseHeader_nil (md5 : List Byte → Str) (asDbl : Bool) : parseHeader md5 asDbl [] = .ok none := by
  rfl

theorem load_end (env : Env) (junk : Junk) (n : Nat) (it : RowIt) (h1 : it.noMore = false) (h2 : it.remaining = 0)
    (h3 : it.rest = []) : it.load env junk (n + 1) = .ok ({ it with noMore := true }, false) := by
  simp [RowIt.load, h1, h2, h3, parseHeader_nil]

theorem load_frame (env : Env) (junk : Junk) (n : Nat) (it : RowIt) (F : RFrame) (hF : F.Ok env) (Fs : List RFrame)
    (h1 : it.noMore = false) (h2 : it.remaining = 0) (h3 : it.rest = ((F :: Fs).map RFrame.bytes).flatten) :
    ∃ it', it.load env junk (n + 1) = .ok (it', true) ∧ it'.In F.rows Fs ∧ it'.cols = F.cols ∧ it'.newData = true := by
  obtain ⟨hne, h, o, data, p1, p2, p3, p4, p5, p6⟩ := hF
  obtain ⟨l, l1, l2⟩ := p6 junk (it.tables + 1)
  have hr : 0 < F.rows.length := List.length_pos_of_ne_nil hne
  simp only [RowIt.load, h1, h2, h3, List.map_cons, List.flatten_cons, p1, p2, l1]
  simp only [p3, p5, Bool.false_eq_true, if_false, ne_eq, not_true_eq_false, List.length_append, List.take_left,
    List.drop_left]
  rw [if_neg (by omega), if_neg (by omega), if_neg (by omega), if_neg (by omega), if_neg (by omega)]
  refine ⟨_, rfl, ⟨rfl, rfl, rfl, ?_⟩, rfl, rfl⟩
  exact ⟨_, itRowsB_it _ _ _ _ _ _ (l2 _)⟩

theorem next_of (env : Env) (junk : Junk) (it it1 : RowIt) (row : List Cell) (s : List Byte) (h : it.noMore = false)
    (hl : (it.remaining = 0 ∧ ({ it with newData := false } : RowIt).load env junk (it.rest.length + 1) = .ok (it1, true)) ∨
      (it.remaining ≠ 0 ∧ it1 = { it with newData := false }))
    (hs : itStep it1.order (it1.cols.map Col.codec) it1.last it1.stream = .ok (row, s)) :
    it.next env junk = .ok ({ it1 with last := row, stream := s, remaining := it1.remaining - 1 },
      decide (it1.cols.length ≠ 0)) := by
  unfold RowIt.next
  dsimp only
  rw [if_neg (by rw [h]; simp)]
  rcases hl with ⟨h1, h2⟩ | ⟨h1, h2⟩
  · rw [if_pos h1, h2]
    dsimp only
    rw [hs]
  · rw [if_neg h1]
    subst h2
    dsimp only at hs ⊢
    rw [hs]

theorem next_in (env : Env) (junk : Junk) (it : RowIt) (row : List Cell) (rows : List (List Cell)) (Fs : List RFrame)
    (h : it.In (row :: rows) Fs) :
    ∃ it' b, it.next env junk = .ok (it', b) ∧ it'.In rows Fs ∧ it'.cols = it.cols ∧ it'.last = row ∧ it'.newData = false := by
  obtain ⟨s, hs⟩ := h.stream
  simp only [List.length_cons, itRows, P.bind_apply] at hs
  cases h1 : itStep it.order (it.cols.map Col.codec) it.last it.stream with
  | error e => rw [h1] at hs; simp at hs
  | ok v =>
    obtain ⟨row', s'⟩ := v
    rw [h1] at hs
    simp only at hs
    cases h2 : itRows it.order (it.cols.map Col.codec) rows.length row' s' with
    | error e => rw [h2] at hs; simp at hs
    | ok v =>
      obtain ⟨rows', s2⟩ := v
      rw [h2] at hs
      simp only [P.pure_apply, Except.ok.injEq, Prod.mk.injEq, List.cons.injEq] at hs
      obtain ⟨⟨rfl, rfl⟩, rfl⟩ := hs
      have hrem : it.remaining ≠ 0 := by rw [h.left]; simp
      refine ⟨_, _, next_of env junk it { it with newData := false } _ _ h.more (Or.inr ⟨hrem, rfl⟩) h1, ⟨h.more, h.rest, ?_, ⟨s2, h2⟩⟩, rfl, rfl, rfl⟩
      simp [h.left]

theorem next_table (env : Env) (junk : Junk) (it : RowIt) (F : RFrame) (Fs : List RFrame) (hF : F.Ok env)
    (h : it.In [] (F :: Fs)) :
    ∃ it' b row rows, F.rows = row :: rows ∧ it.next env junk = .ok (it', b) ∧ it'.In rows Fs ∧ it'.cols = F.cols ∧
      it'.last = row ∧ it'.newData = true := by
  obtain ⟨it1, a1, a2, a3, a4⟩ := load_frame env junk it.rest.length { it with newData := false } F hF Fs h.more h.left h.rest
  obtain ⟨row, rows, hrows⟩ := List.exists_cons_of_ne_nil hF.1
  rw [hrows] at a2
  obtain ⟨s, hs⟩ := a2.stream
  simp only [List.length_cons, itRows, P.bind_apply] at hs
  cases h1 : itStep it1.order (it1.cols.map Col.codec) it1.last it1.stream with
  | error e => rw [h1] at hs; simp at hs
  | ok v =>
    obtain ⟨row', s'⟩ := v
    rw [h1] at hs
    simp only at hs
    cases h2 : itRows it1.order (it1.cols.map Col.codec) rows.length row' s' with
    | error e => rw [h2] at hs; simp at hs
    | ok v =>
      obtain ⟨rows', s2⟩ := v
      rw [h2] at hs
      simp only [P.pure_apply, Except.ok.injEq, Prod.mk.injEq, List.cons.injEq] at hs
      obtain ⟨⟨rfl, rfl⟩, rfl⟩ := hs
      have hl : it.remaining = 0 := h.left
      refine ⟨_, _, row', rows', hrows, next_of env junk it it1 _ _ h.more (Or.inl ⟨hl, a1⟩) h1, ⟨a2.more, a2.rest, ?_, ⟨s2, h2⟩⟩, a3, rfl, a4⟩
      simp [a2.left]

/-- Specification: the rows of some frames. -/
def rowCount (Fs : List RFrame) : Nat := (Fs.map (fun F => F.rows.length)).sum

theorem all_in (env : Env) (junk : Junk) (fuel : Nat) (it : RowIt) (rows : List (List Cell)) (Fs : List RFrame)
    (hF : ∀ F ∈ Fs, F.Ok env) (h : it.In rows Fs) (hf : rows.length + rowCount Fs + 1 < fuel) :
    it.all env junk fuel =
      (⟨it.cols, it.last, it.newData⟩ :: (rows.map (fun r => ⟨it.cols, r, false⟩) ++ Fs.flatMap (tableViews true)), none) := by
  induction fuel generalizing it rows Fs with
  | zero => omega
  | succ fuel ih =>
    simp only [RowIt.all, h.more, Bool.false_eq_true, if_false]
    cases rows with
    | cons row rows =>
      obtain ⟨it', b, e1, e2, e3, e4, e5⟩ := next_in env junk it row rows Fs h
      rw [e1]
      dsimp only
      rw [ih it' rows Fs hF e2 (by simp at hf; omega), e3, e4, e5]
      simp
    | nil =>
      cases Fs with
      | nil =>
        have e1 : it.next env junk = .ok ({ it with newData := false, noMore := true }, false) := by
          have hl : it.remaining = 0 := h.left
          unfold RowIt.next
          dsimp only
          rw [if_neg (by rw [h.more]; simp), if_pos hl,
            load_end env junk _ { it with newData := false } h.more hl (by simpa using h.rest)]
        rw [e1]
        cases fuel with
        | zero => omega
        | succ fuel => simp [RowIt.all]
      | cons F Fs =>
        obtain ⟨it', b, row, rows, e0, e1, e2, e3, e4, e5⟩ := next_table env junk it F Fs (hF F (by simp)) h
        rw [e1]
        dsimp only
        have hc : rowCount (F :: Fs) = rows.length + 1 + rowCount Fs := by simp [rowCount, e0]
        rw [ih it' rows Fs (fun G hG => hF G (by simp [hG])) e2 (by simp at hf; omega), e3, e4, e5]
        simp [tableViews, e0]

/-- **Reading a file row by row**: every row of every table is seen, in order, and nothing else. -/
theorem readRows_file (env : Env) (junk : Junk) (Fs : List RFrame) (hF : ∀ F ∈ Fs, F.Ok env) (fuel : Nat)
    (hf : rowCount Fs + 1 < fuel) :
    readRows env junk (Fs.map RFrame.bytes).flatten fuel = (fileViews Fs, none) := by
  unfold readRows RowIt.begin
  cases Fs with
  | nil =>
    simp only [List.map_nil, List.flatten_nil, List.length_nil]
    rw [load_end env junk 0 _ rfl rfl rfl]
    dsimp only
    cases fuel with
    | zero => omega
    | succ fuel => simp [RowIt.next, RowIt.all, fileViews]
  | cons F Fs =>
    obtain ⟨it1, a1, a2, a3, a4⟩ := load_frame env junk ((F :: Fs).map RFrame.bytes).flatten.length
      (RowIt.new ((F :: Fs).map RFrame.bytes).flatten) F (hF F (by simp)) Fs rfl rfl rfl
    rw [a1]
    dsimp only
    obtain ⟨row, rows, hrows⟩ := List.exists_cons_of_ne_nil (hF F (by simp)).1
    rw [hrows] at a2
    obtain ⟨it2, b, e1, e2, e3, e4, e5⟩ := next_in env junk it1 row rows Fs a2
    rw [e1]
    dsimp only
    have hc : rowCount (F :: Fs) = rows.length + 1 + rowCount Fs := by simp [rowCount, hrows]
    rw [all_in env junk fuel it2 rows Fs (fun G hG => hF G (by simp [hG])) e2 (by omega), e3, e4, e5, a3]
    simp [fileViews, tableViews, hrows]

end Verif
