import Verif.PropDone
import Verif.PropSelect

/-!
C61: a query answered row by row comes to its end only if the file was read to its end.
-/

namespace Verif

/-- Specification: calling `odb_select_iterator_get_next_row` over and over, with an array given by the client for each call, ends after this many rows. -/
inductive EndsAfter (env : Env) (len : List Byte → Nat) (q : Query) : Selection → Nat → Prop
  | done {s : Selection} {data : List Word} {g : OldSelRow} (h : s.oldNext env len q data = .ok g) (hrc : g.rc = 1) : EndsAfter env len q s 0
  | row {s : Selection} {data : List Word} {g : OldSelRow} {n : Nat} (h : s.oldNext env len q data = .ok g) (hrc : g.rc = 0)
      (hn : EndsAfter env len q g.sel n) : EndsAfter env len q s (n + 1)

theorem selPull_ends (env : Env) (len : List Byte → Nat) (q : Query) (cs : List SqlCol) (room : Nat) (st : SelState) (vs : List RowView) (e : Option Err) :
    (∀ s, selPull env len q cs room st vs e = .done s → e = none) ∧
    (∀ ws f s, selPull env len q cs room st vs e = .row ws f s → s.fin = e ∧ s.rest.length < vs.length) := by
  induction vs generalizing st with
  | nil => cases e <;> simp [selPull]
  | cons v vs ih =>
    unfold selPull
    cases st.enter env (q.select.map Prod.snd) cs v with
    | error x => simp
    | ok st' =>
      dsimp only
      split
      · generalize selPut len room _ _ _ = r
        obtain ⟨ws, x⟩ := r
        cases x with
        | some x => simp
        | none =>
          refine ⟨by simp, ?_⟩
          intro ws' f s h
          simp only [SelGot.row.injEq] at h
          obtain ⟨_, _, rfl⟩ := h
          exact ⟨rfl, by simp⟩
      · obtain ⟨h1, h2⟩ := ih st'
        exact ⟨h1, fun ws f s h => ⟨(h2 ws f s h).1, by have := (h2 ws f s h).2; simp only [List.length_cons]; omega⟩⟩

theorem EndsAfter.fin {env : Env} {len : List Byte → Nat} {q : Query} {s : Selection} {n : Nat} (h : EndsAfter env len q s n) :
    s.fin = none ∧ n ≤ s.rest.length := by
  induction h with
  | @done s data g h hrc =>
    unfold Selection.oldNext Selection.pull at h
    have key := selPull_ends env len q s.asked s.oldRowSize s.st s.rest s.fin
    cases hp : selPull env len q s.asked s.oldRowSize s.st s.rest s.fin with
    | failed ws e => rw [hp] at h; dsimp only at h; split at h <;> simp at h
    | done s' => exact ⟨key.1 s' hp, Nat.zero_le _⟩
    | row ws f s' =>
      rw [hp] at h
      dsimp only at h
      split at h
      · simp at h
      · simp only [Except.ok.injEq] at h; subst h; simp at hrc
  | @row s data g n h hrc _ ih =>
    unfold Selection.oldNext Selection.pull at h
    have key := selPull_ends env len q s.asked s.oldRowSize s.st s.rest s.fin
    cases hp : selPull env len q s.asked s.oldRowSize s.st s.rest s.fin with
    | failed ws e => rw [hp] at h; dsimp only at h; split at h <;> simp at h
    | done s' => rw [hp] at h; simp only [Except.ok.injEq] at h; subst h; simp at hrc
    | row ws f s' =>
      rw [hp] at h
      dsimp only at h
      split at h
      · simp at h
      · simp only [Except.ok.injEq] at h
        subst h
        obtain ⟨k1, k2⟩ := key.2 ws f s' hp
        exact ⟨k1 ▸ ih.1, by have := ih.2; dsimp only at this; omega⟩

/-- The rows a selection starts with are those of the file. -/
theorem selOpen_rows {env : Env} {junk : Junk} {q : Query} {bytes : List Byte} {fuel : Nat} {s : Selection} (h : selOpen env junk q bytes fuel = .ok s) :
    readRows env junk bytes fuel = (s.rest, s.fin) := by
  unfold selOpen at h
  unfold readRows
  cases hb : RowIt.begin env junk bytes with
  | error e => rw [hb] at h; simp at h
  | ok it =>
    rw [hb] at h
    dsimp only at h ⊢
    iterate 4 (split at h; · simp at h)
    simp only [Except.ok.injEq] at h
    subst h
    rfl

/-- **C61.**  Whatever the bytes: if the loop over the rows of an answer, or the calls of the old C interface, come to their end, the file was read to its end
without an exception, and there are not more rows in the answer than in the file. -/
theorem C61_complete (env : Env) (len : List Byte → Nat) (junk : Junk) (q : Query) (bytes : List Byte) (fuel : Nat) :
    (∀ views ks, selectFile env len junk q bytes fuel = .ok (views, none, ks) →
      (readRows env junk bytes fuel).2 = none ∧ views.length ≤ (readRows env junk bytes fuel).1.length) ∧
    (∀ s n, selOpen env junk q bytes fuel = .ok s → EndsAfter env len q s n →
      (readRows env junk bytes fuel).2 = none ∧ n ≤ (readRows env junk bytes fuel).1.length) := by
  constructor
  · intro views ks h
    unfold selectFile at h
    cases hs : selOpen env junk q bytes fuel with
    | error e => rw [hs] at h; simp at h
    | ok s =>
      rw [hs] at h
      simp only [Except.ok.injEq] at h
      rw [selOpen_rows hs]
      have := selLoop_done (env := env) (len := len) (q := q) (cs := s.asked) s.rest s.st s.fin (by rw [h])
      rw [h] at this
      exact this
  · intro s n hs h
    rw [selOpen_rows hs]
    exact h.fin

/-- A file cut short: the loop does not come to its end. -/
example : (match writeTables sampleEnv [sqlA, sqlB] with
    | .error _ => false
    | .ok bss =>
      (match selectFile sampleEnv textLen (fun _ _ _ => 0) sqlQ bss.flatten 100 with | .ok (vs, none, _) => decide (0 < vs.length) | _ => false) &&
      (match selectFile sampleEnv textLen (fun _ _ _ => 0) sqlQ (bss.flatten.take (bss.flatten.length - 1)) 100 with
        | .ok (_, some .incomplete, _) => true | _ => false)) = true := by
  decide +kernel

end Verif
