import Verif.Agree

/-
Reading a file row by row when it may contain tables without rows, and when what is shown may depend on
the initial contents of the row buffer.
-/

namespace Verif

/-- Proof device: the frame, wherever it stands in a file, is read as these columns and rows, if it is the
`t`-th table that is loaded. -/
structure RFrame.At (env : Env) (junk : Junk) (t : Nat) (F : RFrame) : Prop where
  any : F.bytes ≠ []
  reads : ∃ (h : HeaderInfo) (o : Order) (data : List Byte) (l : List Cell),
    (∀ r, parseHeader env.md5 env.asDbl (F.bytes ++ r) = .ok (some (h, o, data ++ r))) ∧
    h.cols = F.cols ∧ h.dataSize = data.length ∧ h.nrows = F.rows.length ∧ firstCells junk t 0 F.cols = .ok l ∧
    ((F.rows = [] ∧ data = []) ∨
      (F.rows ≠ [] ∧ 2 ≤ data.length ∧ ∀ r, ∃ s, itRows o (F.cols.map Col.codec) F.rows.length l (data ++ r) = .ok (F.rows, s)))

/-- Proof device: the tables of a file, from the one after the `t`-th on. -/
def FilesAt (env : Env) (junk : Junk) : Nat → List RFrame → Prop
  | _, [] => True
  | t, F :: Fs => F.At env junk (t + 1) ∧ FilesAt env junk (t + 1) Fs

/-- Proof device: the frames with rows. -/
def withRows (Fs : List RFrame) : List RFrame := Fs.filter (fun F => !F.rows.isEmpty)

theorem withRows_flatMap (Fs : List RFrame) (b : Bool) : (withRows Fs).flatMap (tableViews b) = Fs.flatMap (tableViews b) := by
  induction Fs with
  | nil => rfl
  | cons F Fs ih =>
    cases hr : F.rows with
    | nil => simp [withRows, hr, tableViews] at ih ⊢; exact ih
    | cons r rs => simp [withRows, hr] at ih ⊢; exact ih

theorem FilesAt.short {env : Env} {junk : Junk} {t : Nat} {Fs : List RFrame} (h : FilesAt env junk t Fs) :
    Fs.length ≤ (Fs.map RFrame.bytes).flatten.length := by
  induction Fs generalizing t with
  | nil => simp
  | cons F Fs ih =>
    have h1 := ih h.2
    have h2 : 0 < F.bytes.length := List.length_pos_of_ne_nil h.1.any
    simp only [List.length_cons, List.map_cons, List.flatten_cons, List.length_append]
    omega

/-- Loading: tables without rows are passed over. -/
theorem load_any (env : Env) (junk : Junk) (n : Nat) (it : RowIt) (Fs : List RFrame) (hF : FilesAt env junk it.tables Fs)
    (h1 : it.noMore = false) (h2 : it.remaining = 0) (h3 : it.rest = (Fs.map RFrame.bytes).flatten) (hn : Fs.length < n) :
    (withRows Fs = [] ∧ ∃ it', it.load env junk n = .ok (it', false) ∧ it'.noMore = true) ∨
    ∃ (F : RFrame) (Gs : List RFrame) (it' : RowIt), withRows Fs = F :: withRows Gs ∧ F.rows ≠ [] ∧
      it.load env junk n = .ok (it', true) ∧ it'.In F.rows Gs ∧ FilesAt env junk it'.tables Gs ∧ it'.cols = F.cols ∧
      it'.newData = true := by
  induction Fs generalizing n it with
  | nil =>
    obtain ⟨m, rfl⟩ : ∃ m, n = m + 1 := ⟨n - 1, by simp at hn; omega⟩
    exact Or.inl ⟨rfl, _, load_end env junk m it h1 h2 (by simpa using h3), rfl⟩
  | cons F Fs ih =>
    obtain ⟨m, rfl⟩ : ∃ m, n = m + 1 := ⟨n - 1, by simp at hn; omega⟩
    obtain ⟨h, o, data, l, p1, p2, p3, p5, l1, p6⟩ := hF.1.reads
    rcases p6 with ⟨q1, q2⟩ | ⟨q1, q2, q3⟩
    · subst q2
      have hz : h.dataSize = 0 := by simpa using p3
      have hz' : h.nrows = 0 := by rw [p5, q1]; rfl
      have hw : withRows (F :: Fs) = withRows Fs := by simp [withRows, q1]
      have := ih m { it with rest := (Fs.map RFrame.bytes).flatten, cols := h.cols, props := h.props, order := o, last := l, tables := it.tables + 1 }
        hF.2 h1 h2 rfl (by simp at hn; omega)
      have hload : it.load env junk (m + 1) = RowIt.load env junk m
          { it with rest := (Fs.map RFrame.bytes).flatten, cols := h.cols, props := h.props, order := o, last := l, tables := it.tables + 1 } := by
        simp only [RowIt.load, h1, h2, h3, List.map_cons, List.flatten_cons, p1, p2, l1]
        simp [hz, hz']
      rw [hload, hw]
      exact this
    · right
      have hr : 0 < F.rows.length := List.length_pos_of_ne_nil q1
      have hw : withRows (F :: Fs) = F :: withRows Fs := by
        obtain ⟨r, rs, hr⟩ := List.exists_cons_of_ne_nil q1
        simp [withRows, hr]
      refine ⟨F, Fs, ?_⟩
      simp only [RowIt.load, h1, h2, h3, List.map_cons, List.flatten_cons, p1, p2, l1]
      simp only [p3, p5, Bool.false_eq_true, if_false, ne_eq, not_true_eq_false, List.length_append, List.take_left,
        List.drop_left]
      rw [if_neg (by omega), if_neg (by omega), if_neg (by omega), if_neg (by omega), if_neg (by omega)]
      refine ⟨_, hw, q1, rfl, ⟨rfl, rfl, rfl, ?_⟩, hF.2, rfl, rfl⟩
      exact q3 _

/-- The first row of what is to come. -/
theorem in_split (it : RowIt) (row : List Cell) (rows : List (List Cell)) (Fs : List RFrame) (h : it.In (row :: rows) Fs) :
    ∃ s, itStep it.order (it.cols.map Col.codec) it.last it.stream = .ok (row, s) ∧
      ({ it with last := row, stream := s, remaining := it.remaining - 1 } : RowIt).In rows Fs := by
  obtain ⟨s, hs⟩ := h.stream
  simp only [List.length_cons, itRows, P.bind_apply] at hs
  cases h1 : itStep it.order (it.cols.map Col.codec) it.last it.stream with
  | error e => rw [h1] at hs; simp at hs
  | ok v =>
    obtain ⟨row', s'⟩ := v
    rw [h1] at hs
    simp only at hs
    cases h2 : itRows it.order (it.cols.map Col.codec) rows.length row' s' with
    | error e => rw [h2] at hs; simp at hs
    | ok v =>
      obtain ⟨rows', s2⟩ := v
      rw [h2] at hs
      simp only [P.pure_apply, Except.ok.injEq, Prod.mk.injEq, List.cons.injEq] at hs
      obtain ⟨⟨rfl, rfl⟩, rfl⟩ := hs
      exact ⟨s', rfl, h.more, h.rest, by simp [h.left], ⟨s2, h2⟩⟩

theorem In.congr {it it' : RowIt} {rows : List (List Cell)} {Fs : List RFrame} (h : it.In rows Fs)
    (h1 : it'.noMore = it.noMore) (h2 : it'.rest = it.rest) (h3 : it'.remaining = it.remaining) (h4 : it'.order = it.order)
    (h5 : it'.cols = it.cols) (h6 : it'.last = it.last) (h7 : it'.stream = it.stream) : it'.In rows Fs :=
  ⟨h1 ▸ h.more, h2 ▸ h.rest, h3 ▸ h.left, by rw [h4, h5, h6, h7]; exact h.stream⟩

theorem next_in_any (env : Env) (junk : Junk) (it : RowIt) (row : List Cell) (rows : List (List Cell)) (Fs : List RFrame)
    (h : it.In (row :: rows) Fs) :
    ∃ it' b, it.next env junk = .ok (it', b) ∧ it'.In rows Fs ∧ it'.cols = it.cols ∧ it'.last = row ∧ it'.newData = false ∧
      it'.tables = it.tables := by
  have h' : ({ it with newData := false } : RowIt).In (row :: rows) Fs := In.congr h rfl rfl rfl rfl rfl rfl rfl
  obtain ⟨s, h1, h2⟩ := in_split _ row rows Fs h'
  have hrem : it.remaining ≠ 0 := by rw [h.left]; simp
  exact ⟨_, _, next_of env junk it { it with newData := false } _ _ h.more (Or.inr ⟨hrem, rfl⟩) h1, h2, rfl, rfl, rfl, rfl⟩

theorem all_any (env : Env) (junk : Junk) (fuel : Nat) (it : RowIt) (rows : List (List Cell)) (Fs : List RFrame)
    (hF : FilesAt env junk it.tables Fs) (h : it.In rows Fs) (hf : rows.length + rowCount Fs + 1 < fuel) :
    it.all env junk fuel =
      (⟨it.cols, it.last, it.newData⟩ :: (rows.map (fun r => ⟨it.cols, r, false⟩) ++ Fs.flatMap (tableViews true)), none) := by
  induction fuel generalizing it rows Fs with
  | zero => omega
  | succ fuel ih =>
    simp only [RowIt.all, h.more, Bool.false_eq_true, if_false]
    cases rows with
    | cons row rows =>
      obtain ⟨it', b, e1, e2, e3, e4, e5, e6⟩ := next_in_any env junk it row rows Fs h
      rw [e1]
      dsimp only
      rw [ih it' rows Fs (e6 ▸ hF) e2 (by simp at hf; omega), e3, e4, e5]
      simp
    | nil =>
      have hl : it.remaining = 0 := h.left
      have hle := hF.short
      rcases load_any env junk (it.rest.length + 1) { it with newData := false } Fs hF h.more hl h.rest (by rw [h.rest]; omega)
        with ⟨w, it', e1, e2⟩ | ⟨F, Gs, it1, w, w', a1, a2, a3, a4, a5⟩
      · have e3 : it.next env junk = .ok (it', false) := by
          unfold RowIt.next
          dsimp only
          rw [if_neg (by rw [h.more]; simp), if_pos hl, e1]
        have e4 := withRows_flatMap Fs true
        rw [w] at e4
        rw [e3, ← e4]
        cases fuel with
        | zero => omega
        | succ fuel => simp [RowIt.all, e2]
      · obtain ⟨row, rows, hrows⟩ := List.exists_cons_of_ne_nil w'
        rw [hrows] at a2
        obtain ⟨s, b1, b2⟩ := in_split it1 row rows Gs a2
        rw [next_of env junk it it1 _ _ h.more (Or.inl ⟨hl, a1⟩) b1]
        dsimp only
        have hc : rowCount Fs = rowCount (withRows Fs) := by
          clear w a1 hf ih h hF hle
          induction Fs with
          | nil => rfl
          | cons F Fs ih => cases hr : F.rows <;> simp [rowCount, withRows, hr] at ih ⊢ <;> omega
        have hc' : rowCount (F :: Gs) = rowCount (F :: withRows Gs) := by
          clear w a1 hf ih h hF hle a2 b2 a3
          induction Gs with
          | nil => rfl
          | cons G Gs ih => cases hr : G.rows <;> simp [rowCount, withRows, hr] at ih ⊢ <;> omega
        rw [w, ← hc'] at hc
        have hc2 : rowCount (F :: Gs) = rows.length + 1 + rowCount Gs := by simp [rowCount, hrows]
        rw [ih { it1 with last := row, stream := s, remaining := it1.remaining - 1 } rows Gs a3 b2 (by simp at hf; omega)]
        simp only [a4, a5, List.map_nil, List.nil_append]
        rw [← withRows_flatMap Fs, w]
        simp [tableViews, hrows, withRows_flatMap]

/-- **Reading a file row by row**: every row of every table is seen, in order, and nothing else. -/
theorem readRows_any (env : Env) (junk : Junk) (Fs : List RFrame) (hF : FilesAt env junk 0 Fs) (fuel : Nat)
    (hf : rowCount Fs + 1 < fuel) :
    readRows env junk (Fs.map RFrame.bytes).flatten fuel = (fileViews (withRows Fs), none) := by
  unfold readRows RowIt.begin
  have hle := hF.short
  rcases load_any env junk ((Fs.map RFrame.bytes).flatten.length + 1) (RowIt.new (Fs.map RFrame.bytes).flatten) Fs hF rfl rfl rfl
    (by omega) with ⟨w, it', e1, e2⟩ | ⟨F, Gs, it1, w, w', a1, a2, a3, a4, a5⟩
  · rw [e1, w]
    dsimp only
    cases fuel with
    | zero => omega
    | succ fuel => simp [RowIt.next, RowIt.all, fileViews, e2]
  · rw [a1]
    dsimp only
    obtain ⟨row, rows, hrows⟩ := List.exists_cons_of_ne_nil w'
    rw [hrows] at a2
    obtain ⟨it2, b, e1, e2, e3, e4, e5, e6⟩ := next_in_any env junk it1 row rows Gs a2
    rw [e1]
    dsimp only
    have hc : rowCount Fs = rowCount (withRows Fs) := by
      clear w a1 hf hF hle
      induction Fs with
      | nil => rfl
      | cons F Fs ih => cases hr : F.rows <;> simp [rowCount, withRows, hr] at ih ⊢ <;> omega
    have hc' : rowCount (F :: Gs) = rowCount (F :: withRows Gs) := by
      clear w a1 hf hF hle a2 e2 a3
      induction Gs with
      | nil => rfl
      | cons G Gs ih => cases hr : G.rows <;> simp [rowCount, withRows, hr] at ih ⊢ <;> omega
    rw [w, ← hc'] at hc
    have hc2 : rowCount (F :: Gs) = rows.length + 1 + rowCount Gs := by simp [rowCount, hrows]
    rw [all_any env junk fuel it2 rows Gs (e6 ▸ a3) e2 (by omega), e3, e4, e5, a4, w]
    simp [fileViews, tableViews, hrows, withRows_flatMap]

end Verif
