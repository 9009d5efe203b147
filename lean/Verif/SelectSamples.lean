import Verif.PropSelect
import Verif.SqlSamples

/-!
C61: cases that meet the hypotheses, and what users cannot rely on.
-/

namespace Verif

/-- Sample: a select iterator over tables. -/
def trySelect (env : Env) (q : Query) (Ts : List UTable) : Except Err Selection :=
  match writeTables env Ts with
  | .error e => .error e
  | .ok bss => selOpen env (fun _ _ _ => 0) q bss.flatten 100

/-- Sample: some calls with an array of four words. -/
def tryFetch (env : Env) (q : Query) (Ts : List UTable) (n : Nat) : Except Err (List OldSelRow) :=
  match trySelect env q Ts with
  | .error e => .error e
  | .ok sel => fetchSel env textLen q n sel [7, 7, 7, 7]

/-- The rows of `sqlA` and then of `sqlB`, column `k`: one value is missing; the flags tell the first rows; then the end. -/
example : (tryFetch sampleEnv sqlOne [sqlA, sqlB] 6).map (fun os => os.map OldSelRow.data) =
      .ok [[1, 7, 7, 7], [2147483647, 7, 7, 7], [5, 7, 7, 7], [5, 7, 7, 7], [5, 7, 7, 7], [5, 7, 7, 7]] ∧
    (tryFetch sampleEnv sqlOne [sqlA, sqlB] 6).map (fun os => os.map OldSelRow.rc) = .ok [0, 0, 0, 0, 0, 1] ∧
    (tryFetch sampleEnv sqlOne [sqlA, sqlB] 6).map (fun os => os.map OldSelRow.fresh) = .ok [some true, some false, some false, some true, some false, none] :=
  ⟨by decide +kernel, by decide +kernel, by decide +kernel⟩

/-! ### The hypotheses are met -/

/-- Sample: the answer of `select k` on `sqlA`. -/
def selRA : UTable := { rows := 3, props := [], cols := [⟨lit "k", .ints [1, 2147483647, 5]⟩] }

/-- Sample: the answer of `select k` on `sqlB`. -/
def selRB : UTable := { rows := 2, props := [], cols := [⟨lit "k", .ints [5, 5]⟩] }

/-- Sample: column and values of the answers. -/
def selGroup : List InCol := [⟨lit "k", .ints [1, 2147483647, 5]⟩]

theorem sqlOne_text : sqlOne.OfText := fun _ _ _ => rfl

theorem selSample_answers : Match (Answer sampleEnv sqlOne (sqlA.cols.map InCol.name)) [sqlA, sqlB] [selRA, selRB] := by
  refine .cons ⟨[], .nil, ?_, ?_⟩ (.cons ⟨[], .nil, ?_, ?_⟩ .nil)
  · decide +kernel
  · have : sqlOne.rows sampleEnv sqlA [] = [0, 1, 2] := by decide +kernel
    rw [this]
    exact .cons ⟨_, chosen_at (p := 0) sqlNames_k (by decide +kernel) rfl, rfl, rfl⟩ .nil
  · decide +kernel
  · have : sqlOne.rows sampleEnv sqlB [] = [0, 1] := by decide +kernel
    rw [this]
    exact .cons ⟨_, chosen_at (p := 1) sqlNames_k (by decide +kernel) rfl, rfl, rfl⟩ .nil

theorem selSample_within : ∀ R ∈ [selRA, selRB], R.Within selGroup := by
  intro R hR
  simp only [List.mem_cons, List.not_mem_nil, or_false] at hR
  rcases hR with rfl | rfl
  · exact .cons ⟨rfl, ball (P := fun x => x ∈ [1, 2147483647, 5]) (by decide +kernel)⟩ .nil
  · exact .cons ⟨rfl, ball (P := fun x => x ∈ [1, 2147483647, 5]) (by decide +kernel)⟩ .nil

theorem selSample_group : ∀ b ∈ selGroup, b.vals.Ok sampleEnv ∧ (sampleEnv.longEnv = true → b.vals.NoEmpty) := by
  intro b hb
  simp only [selGroup, List.mem_cons, List.not_mem_nil, or_false] at hb
  subst hb
  exact ⟨ball (P := InI32) (by decide +kernel), fun _ => trivial⟩

theorem sqlSample_pos : ∀ T ∈ [sqlA, sqlB], 0 < T.rows := by
  intro T hT
  simp only [List.mem_cons, List.not_mem_nil, or_false] at hT
  rcases hT with rfl | rfl <;> decide

/-- `C61_select_encoded` applies to a query with a condition and strings of different widths. -/
example : ∃ bss, writeTables sampleEnv [sqlA, sqlB] = .ok bss ∧ ((∀ b ∈ bss, b.length ≤ 2147483647) →
      ∀ (junk : Junk) (fuel : Nat), 5 + 1 < fuel →
        ∃ (views : List RowView) (kz : List Col), selectFile sampleEnv textLen junk sqlQ bss.flatten fuel = .ok (views, none, kz) ∧
          Match (fun (x : UTable × Nat) (v : RowView) => SelRow sampleEnv x.1 x.2 v ∧ v.fresh = decide (x.2 = 0)) (allRows [sqlRA, sqlRB]) views) :=
  C61_select_encoded sampleEnv sampleEnv_md5 textLen textLen_ok sqlQ keepFive_text [sqlA, sqlB] [sqlRA, sqlRB] sqlSample_ok sqlSample_vals
    sqlSample_pos sqlA rfl sqlSample_answers sqlGroup sqlSample_group sqlSample_within (by
      intro s hs
      simp only [sqlQ, List.mem_cons, List.not_mem_nil, or_false] at hs
      rcases hs with rfl | rfl <;> decide +kernel)

/-- `C61_old_encoded` applies to `select k`. -/
example : ∃ bss, writeTables sampleEnv [sqlA, sqlB] = .ok bss ∧ ((∀ b ∈ bss, b.length ≤ 2147483647) →
      ∀ (junk : Junk) (fuel : Nat), 5 + 1 < fuel →
        ∃ sel : Selection, selOpen sampleEnv junk sqlOne bss.flatten fuel = .ok sel ∧ ∀ data : List Word, sel.oldRowSize ≤ data.length →
          ∃ (os : List OldSelRow) (last : OldSelRow), fetchSel sampleEnv textLen sqlOne (5 + 1) sel data = .ok (os ++ [last]) ∧
            last.rc = 1 ∧ last.fresh = none ∧ last.data = (os.getLast?.map OldSelRow.data).getD data ∧
            Match (fun (x : UTable × Nat) (o : OldSelRow) => o.rc = 0 ∧ o.fresh = some (decide (x.2 = 0)) ∧ o.data.length = data.length ∧
              SeesSel sampleEnv x.1 x.2 o.sel o.data) (allRows [selRA, selRB]) os) :=
  C61_old_encoded sampleEnv sampleEnv_md5 textLen textLen_ok sqlOne sqlOne_text [sqlA, sqlB] [selRA, selRB] sqlSample_ok sqlSample_vals
    sqlSample_pos sqlA rfl selSample_answers selGroup selSample_group selSample_within (by
      intro s hs
      simp only [sqlOne, List.mem_cons, List.not_mem_nil, or_false] at hs
      subst hs
      decide +kernel) (Or.inr (by
      intro R hR c hc
      simp only [List.mem_cons, List.not_mem_nil, or_false] at hR
      rcases hR with rfl | rfl
      · simp only [selRA, List.mem_cons, List.not_mem_nil, or_false] at hc
        subst hc
        decide
      · simp only [selRB, List.mem_cons, List.not_mem_nil, or_false] at hc
        subst hc
        decide))

/-! ### What users cannot rely on -/

/-- **C61**, violated: the old C interface, on a file where the strings asked for become wider in a later table, or narrower.  The rows of the first table are fetched; the call for the next one fails with an
assertion, although the array has room for it.  (`odc::Select` shows all rows, as does the filter.) -/
theorem C61_violated_width :
    (tryFetch sampleEnv sqlQ [sqlA, sqlB] 1).map (fun os => os.map OldSelRow.data) = .ok [[wordOfBytes (lit "ef"), 5, 7, 7]] ∧
    errorIs (tryFetch sampleEnv sqlQ [sqlA, sqlB] 2) .assertFailed ∧
    (tryFetch sampleEnv sqlQ [sqlB, sqlA] 2).map (fun os => os.map OldSelRow.rc) = .ok [0, 0] ∧
    errorIs (tryFetch sampleEnv sqlQ [sqlB, sqlA] 3) .assertFailed :=
  ⟨by decide +kernel, by decide +kernel, by decide +kernel, by decide +kernel⟩

/-- **C61**, violated: `odb_select_iterator_get_missing_value` checks its index, but lets the number of columns pass, and then reads behind the end of a vector. -/
theorem C61_violated_index (s : Selection) : s.oldMissing (s.oldCount : Int) = .error .ub := by
  unfold Selection.oldMissing Selection.oldCount Selection.oldColumn
  rw [if_neg (by omega), Int.toNat_natCast]
  simp

end Verif
