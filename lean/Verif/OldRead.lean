import Verif.OldC

/-
Reading with the old C interface shows the rows that iterating over the file shows.
-/

namespace Verif

/-- Specification: doubles per row, by the columns of a row. -/
def RowView.size (v : RowView) : Nat := (v.cols.map (fun c => c.codec.width)).sum

/-- Specification: the array of the client after the row has been copied to its start. -/
def RowView.into (v : RowView) (data : List Word) : List Word := v.cells.flatten.take v.size ++ data.drop v.size

/-- Specification: what the calls of `odb_read_iterator_get_next_row` on an iterator do when the rows `views` and then the end of the file, or an exception,
are to come.  Before the end every call with the number of columns as `count` and an array that is large enough returns 0, sets `new_dataset`, copies the row
and changes the rest of the array in nothing; a call with another `count` returns 2 and the row is lost.  At the end every call returns 1 and changes
nothing. -/
def Delivers (env : Env) (junk : Junk) : RowIt → List RowView → Option Err → Prop
  | it, [], none => ∃ it' : RowIt, ∀ (count : Nat) (data : List Word),
      it.oldNext env junk count data = .ok ⟨it', 1, none, data⟩ ∧ it'.oldNext env junk count data = .ok ⟨it', 1, none, data⟩
  | it, [], some e => ∀ (count : Nat) (data : List Word), it.oldNext env junk count data = .error e
  | it, v :: vs, fin => ∃ it' : RowIt, it'.cols = v.cols ∧
      (∀ data : List Word, v.size ≤ data.length → it.oldNext env junk v.cols.length data = .ok ⟨it', 0, some v.fresh, v.into data⟩) ∧
      (∀ (count : Nat) (data : List Word), count ≠ v.cols.length → it.oldNext env junk count data = .ok ⟨it', 2, some v.fresh, data⟩) ∧
      Delivers env junk it' vs fin

theorem load_over {env : Env} {junk : Junk} {fuel : Nat} {it it' : RowIt} (h : it.load env junk fuel = .ok (it', false)) : it'.noMore = true := by
  induction fuel generalizing it with
  | zero => simp [RowIt.load] at h
  | succ fuel ih =>
    simp only [RowIt.load] at h
    split at h
    · simp only [Except.ok.injEq, Prod.mk.injEq] at h
      rw [← h.1]; assumption
    split at h
    · simp at h
    split at h
    · simp at h
    · simp only [Except.ok.injEq, Prod.mk.injEq] at h
      rw [← h.1]
    split at h
    · simp at h
    split at h
    · split at h
      · exact ih h
      · simp at h
    iterate 4
      split at h
      · simp at h
    simp at h

theorem load_row {env : Env} {junk : Junk} {fuel : Nat} {it it' : RowIt} (h : it.load env junk fuel = .ok (it', true)) :
    it'.noMore = false ∧ it'.remaining ≠ 0 := by
  induction fuel generalizing it with
  | zero => simp [RowIt.load] at h
  | succ fuel ih =>
    simp only [RowIt.load] at h
    split at h
    · simp at h
    rename_i hn
    split at h
    · simp at h
    split at h
    · simp at h
    · simp at h
    split at h
    · simp at h
    split at h
    · split at h
      · exact ih h
      · simp at h
    split at h
    · simp at h
    rename_i hr
    iterate 3
      split at h
      · simp at h
    simp only [Except.ok.injEq, Prod.mk.injEq] at h
    rw [← h.1]
    exact ⟨by simpa using hn, hr⟩

/-- A step of the iterator: at the end, or on a row. -/
theorem next_step {env : Env} {junk : Junk} {it it' : RowIt} {b : Bool} (h : it.next env junk = .ok (it', b)) :
    (it'.noMore = true ∧ b = false) ∨ (it'.noMore = false ∧ b = decide (it'.cols.length ≠ 0)) := by
  unfold RowIt.next at h
  dsimp only at h
  split at h
  · rename_i hn
    simp only [Except.ok.injEq, Prod.mk.injEq] at h
    left
    rw [← h.1]
    exact ⟨hn, h.2.symm⟩
  rename_i hn
  split at h
  · simp at h
  · rename_i it1 h1
    simp only [Except.ok.injEq, Prod.mk.injEq] at h
    left
    split at h1
    · rw [← h.1]; exact ⟨load_over h1, h.2.symm⟩
    · simp at h1
  · rename_i it1 h1
    split at h
    · simp at h
    rename_i row r h2
    simp only [Except.ok.injEq, Prod.mk.injEq] at h
    right
    rw [← h.1]
    refine ⟨?_, h.2.symm⟩
    split at h1
    · exact (load_row h1).1
    · simp only [Except.ok.injEq, Prod.mk.injEq] at h1
      rw [← h1.1]
      simpa using hn

/-- At the end the iterator stays. -/
theorem next_ended {env : Env} {junk : Junk} {it it' : RowIt} {b : Bool} (h : it.next env junk = .ok (it', b)) (hn : it'.noMore = true) :
    ∃ it'' : RowIt, it'' = { it' with newData := false } ∧ it'.next env junk = .ok (it'', false) ∧ it''.next env junk = .ok (it'', false) := by
  refine ⟨_, rfl, ?_, ?_⟩
  · unfold RowIt.next; dsimp only; rw [if_pos hn]
  · unfold RowIt.next; dsimp only; rw [if_pos hn]

theorem load_newData {env : Env} {junk : Junk} {fuel : Nat} {it it' : RowIt} (h : it.load env junk fuel = .ok (it', false)) :
    it'.newData = it.newData := by
  induction fuel generalizing it with
  | zero => simp [RowIt.load] at h
  | succ fuel ih =>
    simp only [RowIt.load] at h
    split at h
    · simp only [Except.ok.injEq, Prod.mk.injEq] at h
      rw [← h.1]
    split at h
    · simp at h
    split at h
    · simp at h
    · simp only [Except.ok.injEq, Prod.mk.injEq] at h
      rw [← h.1]
    split at h
    · simp at h
    split at h
    · split at h
      · have := ih h; simpa using this
      · simp at h
    iterate 4
      split at h
      · simp at h
    simp at h

theorem next_end_flag {env : Env} {junk : Junk} {it it' : RowIt} {b : Bool} (h : it.next env junk = .ok (it', b)) (hn : it'.noMore = true) :
    it'.newData = false := by
  unfold RowIt.next at h
  dsimp only at h
  split at h
  · simp only [Except.ok.injEq, Prod.mk.injEq] at h
    rw [← h.1]
  rename_i hm
  split at h
  · simp at h
  · rename_i it1 h1
    simp only [Except.ok.injEq, Prod.mk.injEq] at h
    split at h1
    · rw [← h.1, load_newData h1]
    · simp at h1
  · rename_i it1 h1
    split at h
    · simp at h
    simp only [Except.ok.injEq, Prod.mk.injEq] at h
    rw [← h.1] at hn
    dsimp only at hn
    split at h1
    · rw [(load_row h1).1] at hn; simp at hn
    · simp only [Except.ok.injEq, Prod.mk.injEq] at h1
      rw [← h1.1] at hn
      exact absurd hn (by simpa using hm)

/-- What remains after a row: the calls deliver what the loop goes on to show. -/
theorem delivers_next (env : Env) (junk : Junk) (fuel : Nat) (it : RowIt) (views : List RowView) (fin : Option Err)
    (h : (match it.next env junk with
      | .error e => (([] : List RowView), some e)
      | .ok (it', _) => it'.all env junk fuel) = (views, fin)) (hfin : fin ≠ some .diverges) (hne : ∀ v ∈ views, v.cols ≠ []) :
    Delivers env junk it views fin := by
  induction fuel generalizing it views with
  | zero =>
    split at h
    · rename_i e he
      simp only [Prod.mk.injEq] at h
      rw [← h.1, ← h.2]
      intro count data
      simp only [RowIt.oldNext, he]
    · simp only [RowIt.all, Prod.mk.injEq] at h
      exact absurd h.2.symm hfin
  | succ fuel ih =>
    split at h
    · rename_i e he
      simp only [Prod.mk.injEq] at h
      rw [← h.1, ← h.2]
      intro count data
      simp only [RowIt.oldNext, he]
    · rename_i it' b he
      rcases next_step he with ⟨n1, n2⟩ | ⟨n1, n2⟩
      · simp only [RowIt.all, n1, if_true, Prod.mk.injEq] at h
        rw [← h.1, ← h.2]
        subst n2
        refine ⟨it', ?_⟩
        intro count data
        have hs : it'.next env junk = .ok (it', false) := by
          have hd := next_end_flag he n1
          unfold RowIt.next
          dsimp only
          rw [if_pos n1]
          have : { it' with newData := false } = it' := by rw [← hd]
          rw [this]
        exact ⟨by simp only [RowIt.oldNext, he], by simp only [RowIt.oldNext, hs]⟩
      · have key : ∃ vs, views = ⟨it'.cols, it'.last, it'.newData⟩ :: vs ∧ (match it'.next env junk with
            | .error e => (([] : List RowView), some e)
            | .ok (it'', _) => it''.all env junk fuel) = (vs, fin) := by
          simp only [RowIt.all, n1] at h
          cases hx : it'.next env junk with
          | error e =>
            rw [hx] at h
            simp only [Bool.false_eq_true, if_false, Prod.mk.injEq] at h
            exact ⟨[], h.1.symm, by rw [← h.2]⟩
          | ok p =>
            rw [hx] at h
            simp only [Bool.false_eq_true, if_false, Prod.mk.injEq] at h
            exact ⟨_, h.1.symm, by rw [← h.2]⟩
        obtain ⟨vs, rfl, h2⟩ := key
        have hc : it'.cols ≠ [] := hne _ (List.mem_cons_self ..)
        have hb : b = true := by
          rw [n2]
          have := List.length_pos_iff.mpr hc
          simp only [ne_eq, decide_eq_true_eq]; omega
        subst hb
        refine ⟨it', rfl, ?_, ?_, ih it' vs h2 (fun v hv => hne v (List.mem_cons_of_mem _ hv))⟩
        · intro data hd
          have hs : it'.oldRowSize = RowView.size ⟨it'.cols, it'.last, it'.newData⟩ := by
            simp only [RowIt.oldRowSize, RowView.size, rowWords, List.map_map]; rfl
          simp only [RowIt.oldNext, he, ne_eq, not_true_eq_false, if_false]
          rw [if_neg (by rw [hs]; omega), hs]
          rfl
        · intro count data hcount
          simp only [RowIt.oldNext, he, ne_eq, hcount, not_false_eq_true, if_true]

theorem load_end_props {env : Env} {junk : Junk} {it : RowIt} (h : it.remaining ≠ 0) {it' : RowIt} {b : Bool}
    (hn : it.next env junk = .ok (it', b)) : it'.cols = it.cols := by
  unfold RowIt.next at hn
  dsimp only at hn
  split at hn
  · simp only [Except.ok.injEq, Prod.mk.injEq] at hn
    rw [← hn.1]
  dsimp only at hn
  split at hn
  · simp at hn
  · simp only [Except.ok.injEq, Prod.mk.injEq] at hn
    rw [← hn.1]

/-- **C55**, reading: for any file, whoever wrote it: if iterating over it shows the rows `views` (each with columns) and ends with `fin`, then a client of
the old C interface is told the columns of the first row on opening the file and gets the same rows, in order, the same exception, and at the end of the file
the value 1, as often as it asks; or opening the file gives the exception, when iterating shows no row. -/
theorem C55_read (env : Env) (junk : Junk) (bytes : List Byte) (fuel : Nat) (views : List RowView) (fin : Option Err)
    (h : readRows env junk bytes fuel = (views, fin)) (hfin : fin ≠ some .diverges) (hne : ∀ v ∈ views, v.cols ≠ []) :
    (∃ it : RowIt, oldOpen env junk bytes = .ok it ∧ (∀ v, views.head? = some v → it.cols = v.cols) ∧ Delivers env junk it views fin) ∨
      (∃ e : Err, oldOpen env junk bytes = .error e ∧ views = [] ∧ fin = some e) := by
  unfold readRows RowIt.begin at h
  unfold oldOpen
  cases hl : (RowIt.new bytes).load env junk (bytes.length + 1) with
  | error e =>
    rw [hl] at h
    simp only [Prod.mk.injEq] at h
    exact Or.inr ⟨e, rfl, h.1.symm, h.2.symm⟩
  | ok p =>
    obtain ⟨it, b⟩ := p
    rw [hl] at h
    dsimp only at h
    refine Or.inl ⟨it, rfl, ?_, ?_⟩
    · intro v hv
      cases hx : it.next env junk with
      | error e =>
        rw [hx] at h
        simp only [Prod.mk.injEq] at h
        rw [← h.1] at hv
        simp at hv
      | ok p =>
        obtain ⟨it', b'⟩ := p
        rw [hx] at h
        dsimp only at h
        cases b with
        | false =>
          have hn := load_over hl
          have : it'.noMore = true := by
            unfold RowIt.next at hx
            dsimp only at hx
            rw [if_pos hn] at hx
            simp only [Except.ok.injEq, Prod.mk.injEq] at hx
            rw [← hx.1]; exact hn
          cases fuel with
          | zero => simp only [RowIt.all, Prod.mk.injEq] at h; exact absurd h.2.symm hfin
          | succ fuel =>
            simp only [RowIt.all, this, if_true, Prod.mk.injEq] at h
            rw [← h.1] at hv
            simp at hv
        | true =>
          obtain ⟨hm, hr⟩ := load_row hl
          have hc := load_end_props hr hx
          have hn' : it'.noMore = false := by
            unfold RowIt.next at hx
            dsimp only at hx
            rw [if_neg (by simp [hm]), if_neg hr] at hx
            dsimp only at hx
            split at hx
            · simp at hx
            · simp only [Except.ok.injEq, Prod.mk.injEq] at hx
              rw [← hx.1]; exact hm
          cases fuel with
          | zero => simp only [RowIt.all, Prod.mk.injEq] at h; exact absurd h.2.symm hfin
          | succ fuel =>
            simp only [RowIt.all, hn', Bool.false_eq_true, if_false] at h
            have : views.head? = some ⟨it'.cols, it'.last, it'.newData⟩ := by
              cases hy : it'.next env junk with
              | error e =>
                rw [hy] at h
                simp only [Prod.mk.injEq] at h
                rw [← h.1]; rfl
              | ok p =>
                rw [hy] at h
                simp only [Prod.mk.injEq] at h
                rw [← h.1]; rfl
            rw [this] at hv
            simp only [Option.some.injEq] at hv
            rw [← hv, ← hc]
    · refine delivers_next env junk fuel it views fin ?_ hfin hne
      cases hx : it.next env junk with
      | error e => rw [hx] at h; exact h
      | ok p => rw [hx] at h; exact h

end Verif
