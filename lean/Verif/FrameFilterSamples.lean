import Verif.PropFrameFilter
import Verif.SqlSamples

/-!
C59: cases that meet the hypotheses, and what users cannot rely on.
-/

namespace Verif

/-- Sample: the filter run on frame `i` of a file, `cap` rows to a frame of the result. -/
def tryFrameFilter (env : Env) (cap : Nat) (q : Query) (Ts : List UTable) (agg : Bool) (i : Nat) : Except Err (Option (List Byte × List Tbl)) :=
  match writeTables env Ts with
  | .error e => .error e
  | .ok bss =>
    match (readFrames env (File.known bss.flatten) agg (-1)).1[i]? with
    | none => .error .userError
    | some fr => frameFilter env textLen cap (fun _ _ _ => 0) (some q) bss.flatten fr 100

/-- Sample: what the first column of the frame decodes to. -/
def firstColumn (r : Except Err (Option (List Byte × List Tbl))) (w : Nat) : Option (Option (Nat × List Cell)) :=
  match r with
  | .error _ => none
  | .ok none => some none
  | .ok (some (b, g)) =>
    match g with
    | [] => none
    | t :: _ =>
      match t.info.cols with
      | [] => none
      | k :: _ =>
        match decodeFrame b g [(k.name, ⟨rowSum g, w, fun _ => List.replicate w 0⟩)] with
        | .ok [m] => some (some (g.length, (List.range (rowSum g)).map m))
        | _ => none

/-- `select s as txt, k where k = 5` on each of two frames. -/
example : firstColumn (tryFrameFilter sampleEnv 10 sqlQ [sqlA, sqlB] false 0) 1 = some (some (1, [wordsOf 1 (lit "ef")])) ∧
    firstColumn (tryFrameFilter sampleEnv 10 sqlQ [sqlA, sqlB] false 1) 2 = some (some (1, [wordsOf 2 (lit "longer text"), wordsOf 2 (lit "x")])) :=
  ⟨by decide +kernel, by decide +kernel⟩

/-- Sample: `select k`, where nothing is selected. -/
def sqlNone : Query := { select := [(lit "k", lit "k")], cond := [], keep := fun _ => false }

/-- The null frame. -/
example : firstColumn (tryFrameFilter sampleEnv 10 sqlNone [sqlA] false 0) 1 = some none := by decide +kernel

/-- A frame of two tables, and a result of two tables in one frame. -/
example : firstColumn (tryFrameFilter sampleEnv 3 sqlOne [sqlA, sqlA] true 0) 1 =
    some (some (2, [[intWord false 1], [intWord false 2147483647], [intWord false 5], [intWord false 1], [intWord false 2147483647], [intWord false 5]])) := by
  decide +kernel

/-- `C59_encoded` applies to the second of two frames. -/
example : ∃ bss, writeTables sampleEnv [sqlA, sqlB] = .ok bss ∧ ((∀ b ∈ bss, b.length ≤ 2147483647) →
      ∃ fs fr b, readPlain sampleEnv bss.flatten = (fs, none) ∧ fs[1]? = some fr ∧ bss[1]? = some b ∧ ∀ (junk : Junk) (fuel : Nat), 2 + 1 < fuel →
        ∃ out, filterFile sampleEnv textLen 10 junk sqlQ b fuel = .ok (2, out) ∧ ((∀ f ∈ out, f.length ≤ 2147483647) →
          (2 = 0 → frameFilter sampleEnv textLen 10 junk (some sqlQ) bss.flatten fr fuel = .ok none) ∧
          (0 < 2 → 2 ≤ 10 ∨ (∀ c ∈ sqlRB.cols, c.vals.words = 1) →
            ∃ fr', frameFilter sampleEnv textLen 10 junk (some sqlQ) bss.flatten fr fuel = .ok (some (out.flatten, fr')) ∧ FrameIs sampleEnv sqlRB out.flatten fr'))) :=
  C59_encoded sampleEnv sampleEnv_md5 textLen textLen_ok 10 (by decide) sqlQ keepFive_text [sqlA, sqlB] sqlSample_ok 1 sqlB sqlRB rfl
    (fun c hc => ⟨(sqlSample_vals sqlB (by simp) c hc).1, (sqlSample_vals sqlB (by simp) c hc).2, by intro h; cases h⟩) (by decide)
    (by
      refine ⟨[⟨lit "k", .ints [5, 5]⟩], ?_, ?_, ?_⟩
      · exact .cons (chosen_at (p := 1) (queryMeans_self (by decide +kernel)) (by decide +kernel) rfl) .nil
      · decide +kernel
      · have : sqlQ.rows sampleEnv sqlB [⟨lit "k", .ints [5, 5]⟩] = [0, 1] := by decide +kernel
        rw [this]
        exact .cons ⟨_, chosen_at (p := 0) (queryMeans_at (lit "t") (by decide +kernel) (by decide +kernel) (by decide +kernel)) (by decide +kernel) rfl, rfl, rfl⟩
          (.cons ⟨_, chosen_at (p := 1) (queryMeans_self (by decide +kernel)) (by decide +kernel) rfl, rfl, rfl⟩ .nil))
    (by simp [sqlQ]) (by decide) (by
      intro s hs
      simp only [sqlQ, List.mem_cons, List.not_mem_nil, or_false] at hs
      rcases hs with rfl | rfl <;> decide +kernel) (by decide +kernel) (by decide)

/-! ### What users cannot rely on -/

/-- Sample: `select s`. -/
def sqlText : Query := { select := [(lit "s", lit "s")], cond := [], keep := fun _ => true }

/-- Sample: a column of strings, the last one short. -/
def sqlMixed : UTable := { rows := 3, props := [], cols := [⟨lit "s", .strings 2 [lit "longer text", lit "longer still", lit "x"]⟩] }

/-- **C59**, violated: a result of more rows than one frame of the writer holds (`cap`: here 2, in the library 10000), with a column of strings, is not one frame if the
longest strings of two frames differ in length by a word: the columns are not the same, and an assertion fails although the query is answered. -/
theorem C59_violated_strings :
    errorIs (tryFrameFilter sampleEnv 2 sqlText [sqlMixed] false 0) .assertFailed ∧
    (tryFilter sampleEnv sqlText [sqlMixed]).map Prod.fst = .ok 3 ∧
    firstColumn (tryFrameFilter sampleEnv 3 sqlText [sqlMixed] false 0) 2 =
      some (some (1, [wordsOf 2 (lit "longer text"), wordsOf 2 (lit "longer still"), wordsOf 2 (lit "x")])) :=
  ⟨by decide +kernel, by decide +kernel, by decide +kernel⟩

end Verif
