import Verif.SqlSamples

/-!
C44, C52: success means that the whole input was read.
-/

namespace Verif

/-- **C44.**  If copying a file row by row succeeds, reading the file ended without an exception and all rows were counted: a truncated or damaged input is never
copied in part without notice. -/
theorem C44_complete (env : Env) (cap : Nat) (junk : Junk) (bytes : List Byte) (fuel n : Nat) (out : List (List Byte))
    (h : copyFile env cap junk bytes fuel = .ok (n, out)) :
    (readRows env junk bytes fuel).2 = none ∧ n = (readRows env junk bytes fuel).1.length := by
  unfold copyFile at h
  unfold readRows
  cases hb : RowIt.begin env junk bytes with
  | error e => rw [hb] at h; simp at h
  | ok it => rw [hb] at h; exact pass1_count h

theorem selLoop_done {env : Env} {len : List Byte → Nat} {q : Query} {cs : List SqlCol} (vs : List RowView) (s : SelState) (e : Option Err)
    (h : (selLoop env len q cs s vs e).2.1 = none) : e = none ∧ (selLoop env len q cs s vs e).1.length ≤ vs.length := by
  induction vs generalizing s with
  | nil => exact ⟨h, Nat.le_refl _⟩
  | cons v vs ih =>
    simp only [selLoop] at h ⊢
    cases h1 : s.enter env (q.select.map Prod.snd) cs v with
    | error x => rw [h1] at h; simp at h
    | ok s1 =>
      rw [h1] at h
      dsimp only at h ⊢
      by_cases hk : q.keep (List.drop q.select.length (List.map (Fetch.get v.cells.flatten) s1.fetch)) = true
      · rw [if_pos hk] at h ⊢
        cases ho : s1.out.output len (List.take q.select.length (List.map (Fetch.get v.cells.flatten) s1.fetch)) with
        | error x => rw [ho] at h; simp at h
        | ok r =>
          obtain ⟨row, o⟩ := r
          rw [ho] at h
          dsimp only at h ⊢
          have := ih _ h
          exact ⟨this.1, by simp only [List.length_cons]; omega⟩
      · rw [if_neg hk] at h ⊢
        have := ih _ h
        exact ⟨this.1, by simp only [List.length_cons]; omega⟩

/-- **C52.**  If the filter succeeds, reading the input ended without an exception, and the output does not have more rows than the input. -/
theorem C52_complete (env : Env) (len : List Byte → Nat) (cap : Nat) (junk : Junk) (q : Query) (bytes : List Byte) (fuel n : Nat) (out : List (List Byte))
    (h : filterFile env len cap junk q bytes fuel = .ok (n, out)) :
    (readRows env junk bytes fuel).2 = none ∧ n ≤ (readRows env junk bytes fuel).1.length := by
  unfold filterFile at h
  unfold readRows
  cases hb : RowIt.begin env junk bytes with
  | error e => rw [hb] at h; simp at h
  | ok it =>
    rw [hb] at h
    dsimp only at h ⊢
    iterate 4 (split at h; · simp at h)
    generalize hl : selLoop env len q _ _ _ _ = r at h
    have key : r.2.1 = none ∧ n = r.1.length := by
      split at h
      · simp at h
      · rename_i h1 h2
        have := (pass1_count h).2
        exact ⟨h2, by rw [h1]; exact this⟩
      · rename_i h1
        have := pass1_count h
        exact ⟨this.1, by rw [h1]; exact this.2⟩
    obtain ⟨k1, k2⟩ := key
    rw [← hl] at k1
    obtain ⟨a, b⟩ := selLoop_done _ _ _ k1
    exact ⟨a, by rw [k2, ← hl]; exact b⟩

/-- A file cut short: neither copied nor filtered. -/
example : (match writeTables sampleEnv [sqlA, sqlB] with
    | .error _ => false
    | .ok bss =>
      errorIs (copyFile sampleEnv 10 (fun _ _ _ => 0) (bss.flatten.take (bss.flatten.length - 1)) 100) .incomplete &&
        errorIs (filterFile sampleEnv textLen 10 (fun _ _ _ => 0) sqlQ (bss.flatten.take (bss.flatten.length - 1)) 100) .incomplete) = true := by
  decide +kernel

end Verif
