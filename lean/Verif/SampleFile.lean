import Verif.PropTile

/-
A concrete file of three tables, on which the hypotheses of the theorems about reading are met.
-/

namespace Verif

/-- Another table, with other columns. -/
def sampleTable2 : UTable := { rows := 2, props := [(lit "a", lit "c"), (lit "k", lit "v")], cols := [⟨lit "z", .ints [1, 2]⟩] }

theorem sampleTable2_ok : sampleTable2.Ok sampleEnv where
  ne := by decide
  few := by decide
  names := by decide +kernel
  col := by
    intro c hc
    simp only [sampleTable2, List.mem_singleton] at hc
    subst hc
    refine ⟨by decide +kernel, Vals.Ok.codable ?_, by decide +kernel⟩
    exact ball (P := InI32) (by decide +kernel)
  props := by simp [sampleTable2, MapOk]; decide +kernel
  nprops := by decide
  plen := by
    intro kv hkv
    simp only [sampleTable2, List.mem_cons, List.not_mem_nil, or_false] at hkv
    rcases hkv with rfl | rfl <;> exact ⟨by decide +kernel, by decide +kernel⟩
  version := by decide +kernel
  rows := by decide

/-- The tables of the sample file. -/
def sampleTables : List UTable := [sampleTable, sampleTable, sampleTable2]

theorem sampleTables_ok : ∀ T ∈ sampleTables, T.Ok sampleEnv := by
  intro T hT
  simp only [sampleTables, List.mem_cons, List.not_mem_nil, or_false] at hT
  rcases hT with rfl | rfl | rfl
  · exact sampleTable_ok
  · exact sampleTable_ok
  · exact sampleTable2_ok

/-- Compute something on the sample file. -/
def onSample (p : List Byte → Bool) : Bool :=
  match writeTables sampleEnv sampleTables with
  | .ok bss => p bss.flatten
  | .error _ => false

/-- Sample: tables of each frame, and how the read ended. -/
def shape (r : List (List Tbl) × Option Err) : List Nat × Option Err := (r.1.map List.length, r.2)

example : onSample (fun b => decide (shape (readPlain sampleEnv b) = ([1, 1, 1], none))) = true := by decide +kernel
example : onSample (fun b => decide (shape (readAggregated sampleEnv b (-1)) = ([2, 1], none))) = true := by decide +kernel
example : onSample (fun b => decide (shape (readAggregated sampleEnv b 6) = ([2, 1], none))) = true := by decide +kernel
example : onSample (fun b => decide (shape (readAggregated sampleEnv b 5) = ([1, 1, 1], none))) = true := by decide +kernel
example : onSample (fun b => decide (shape (readAggregated sampleEnv b 2) = ([], some .assertFailed))) = true := by decide +kernel
example : onSample (fun b => decide (shape (readPlain sampleEnv (b.take (b.length - 1))) = ([1, 1], some .incomplete))) = true := by
  decide +kernel
example : onSample (fun b => decide (shape (readAggregated sampleEnv (b.take (b.length - 1)) (-1)) = ([], some .incomplete))) = true := by
  decide +kernel

/-- The hypotheses of C11, C12, C13, C18 and C36 hold for it. -/
theorem sampleFile : ∃ bytes fs, readPlain sampleEnv bytes = (fs, none) ∧ fs.length = 3 ∧ SizedFrames fs ∧
    rowSum fs.flatten = 8 ∧ ∀ fr ∈ fs, (rowSum fr : Int) ≤ 6 := by
  obtain ⟨bss, h1, h2⟩ := C12_enumerate sampleEnv sampleEnv_md5 sampleTables sampleTables_ok
  have hsz : ∀ b ∈ bss, b.length ≤ 2147483647 := by
    have : (match writeTables sampleEnv sampleTables with
        | .ok bss => bss.all (fun b => decide (b.length ≤ 2147483647)) | .error _ => false) = true := by decide +kernel
    rw [h1] at this
    intro b hb
    have := List.all_eq_true.mp this b hb
    simpa using this
  obtain ⟨fs, f1, f2, f3, _⟩ := h2 hsz
  refine ⟨bss.flatten, fs, f1, f2, f3, ?_⟩
  have : onSample (fun b => decide (rowSum (readPlain sampleEnv b).1.flatten = 8) &&
      (readPlain sampleEnv b).1.all (fun fr => decide ((rowSum fr : Int) ≤ 6))) = true := by decide +kernel
  unfold onSample at this
  rw [h1] at this
  simp only [f1, Bool.and_eq_true, decide_eq_true_eq, List.all_eq_true] at this
  exact this

end Verif
