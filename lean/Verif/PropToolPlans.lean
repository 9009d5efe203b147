import Verif.ToolPlans
import Verif.PropCommandLine
import Verif.CsvText

/-!
C66: what the tools take from their command lines.
-/

namespace Verif

/-- Proof device: what a parser answers from its first question on. -/
theorem Unread.answers {c : Clp} {regs args : List Str} (hu : Unread c regs args) {items : List Arg} (hs : Says regs args items) :
    ∃ c', c.parameters = (c', .ok (Arg.words items)) ∧ (∀ o, c'.optionIsSet o = (c', .ok (decide (Arg.Given o items)))) ∧
      ∀ (α : Type) (tr : Str → Except Err α) (o : Str) (d : α), c'.optionArgument tr o d = (c', match Arg.value o items with | none => .ok d | some s => tr s) := by
  obtain ⟨c', p1, p2⟩ := hu.parse hs
  refine ⟨c', ?_, ?_, ?_⟩
  · unfold Clp.parameters
    rw [p1]
    dsimp only
    rw [p2.params]
  · intro o
    unfold Clp.optionIsSet
    rw [p2.parse]
    dsimp only
    rw [p2.contains]
  · intro α tr o d
    unfold Clp.optionArgument
    rw [p2.parse, ← p2.value o]
    dsimp only
    cases c'.withArg.find? (fun p => decide (p.1 = o)) <;> rfl

/-- Proof device: a tool that fails when its parser does. -/
theorem Unread.cutFails {c : Clp} {regs args : List Str} (hu : Unread c regs args) (hc : CutShort regs args) : ∃ c', c.parameters = (c', .error .userError) :=
  ⟨c.parameters.1, Prod.ext rfl (hu.cut hc)⟩

/-- A command line without options that take arguments is never cut short. -/
theorem not_cutShort (args : List Str) : ¬ CutShort [] args := by
  rintro ⟨_, _, _, _, h, _⟩
  cases h

/-- **C66**, `odc compact` and `odc fixrowsize`: two files, the second is written. -/
theorem C66_copy (args : List Str) (items : List Arg) (hs : Says [] args items) :
    (∀ tool inFile outFile, Arg.words items = [tool, inFile, outFile] → copyPlan args = .ok (inFile, outFile)) ∧
    ((Arg.words items).length ≠ 3 → copyPlan args = .error .userError) := by
  obtain ⟨c', h1, _, _⟩ := (unread_new args).answers hs
  unfold copyPlan
  rw [h1]
  constructor
  · intro tool inFile outFile hw; rw [hw]
  · intro hn
    generalize Arg.words items = ws at *
    rcases ws with _ | ⟨a, _ | ⟨b, _ | ⟨c, _ | ⟨d, r⟩⟩⟩⟩ <;> simp at hn ⊢

/-- **C66**, `odc count`: one file or more. -/
theorem C66_count (args : List Str) (items : List Arg) (hs : Says [] args items) :
    (∀ tool file files, Arg.words items = tool :: file :: files → countPlan args = .ok (file :: files)) ∧
    ((Arg.words items).length < 2 → countPlan args = .error .userError) := by
  obtain ⟨c', h1, _, _⟩ := (unread_new args).answers hs
  unfold countPlan
  rw [h1]
  constructor
  · intro tool file files hw; rw [hw]; simp
  · intro hn
    dsimp only
    rw [if_pos hn]

/-- **C66**, `odc index`: a file and the index, which is the name of the file and `.idx` if not given. -/
theorem C66_index (args : List Str) (items : List Arg) (hs : Says [] args items) :
    (∀ tool file, Arg.words items = [tool, file] → indexPlan args = .ok (file, file ++ lit ".idx")) ∧
    (∀ tool file index, Arg.words items = [tool, file, index] → indexPlan args = .ok (file, index)) ∧
    ((Arg.words items).length ≠ 2 → (Arg.words items).length ≠ 3 → indexPlan args = .error .userError) := by
  obtain ⟨c', h1, _, _⟩ := (unread_new args).answers hs
  unfold indexPlan
  rw [h1]
  refine ⟨?_, ?_, ?_⟩
  · intro tool file hw; rw [hw]
  · intro tool file index hw; rw [hw]
  · intro hn hn'
    generalize Arg.words items = ws at *
    rcases ws with _ | ⟨a, _ | ⟨b, _ | ⟨c, _ | ⟨d, r⟩⟩⟩⟩ <;> simp at hn hn' ⊢

/-- **C66**, `odc set` and `odc mdset`: a list of updates and two files, the second is written. -/
theorem C66_update (args : List Str) (items : List Arg) (hs : Says [] args items) :
    (∀ tool updates inFile outFile, Arg.words items = [tool, updates, inFile, outFile] → updatePlan args = .ok (updates, inFile, outFile)) ∧
    ((Arg.words items).length ≠ 4 → updatePlan args = .error .userError) := by
  obtain ⟨c', h1, _, _⟩ := (unread_new args).answers hs
  unfold updatePlan
  rw [h1]
  constructor
  · intro tool updates inFile outFile hw; rw [hw]
  · intro hn
    generalize Arg.words items = ws at *
    rcases ws with _ | ⟨a, _ | ⟨b, _ | ⟨c, _ | ⟨d, _ | ⟨e, r⟩⟩⟩⟩⟩ <;> simp at hn ⊢

/-- **C66**, `odc split`: a file and a template; 200 files open unless `-maxopenfiles` says otherwise, no presorting unless `-sort`, and verification unless
`-no_verification`. -/
theorem C66_split (num : Str → Except Err Int) (args : List Str) :
    (CutShort [lit "-maxopenfiles"] args → splitPlan num args = .error .userError) ∧
    ∀ items, Says [lit "-maxopenfiles"] args items →
      ((Arg.words items).length ≠ 3 → splitPlan num args = .error .userError) ∧
      (∀ tool inFile template, Arg.words items = [tool, inFile, template] → ∀ n : Int,
        (match Arg.value (lit "-maxopenfiles") items with | none => n = 200 | some s => num s = .ok n) →
        splitPlan num args = .ok ⟨inFile, template, decide (Arg.Given (lit "-sort") items), n, !decide (Arg.Given (lit "-no_verification") items)⟩) := by
  have hu : Unread ((Clp.new args).register (lit "-maxopenfiles")) [lit "-maxopenfiles"] args :=
    ⟨rfl, rfl, fun o => by simp [Clp.register, Clp.new], rfl, rfl, rfl⟩
  constructor
  · intro hc
    obtain ⟨c', h⟩ := hu.cutFails hc
    unfold splitPlan
    dsimp only
    rw [h]
  · intro items hs
    obtain ⟨c', h1, h2, h3⟩ := hu.answers hs
    unfold splitPlan
    dsimp only
    rw [h1]
    constructor
    · intro hn
      dsimp only
      rw [if_pos hn]
    · intro tool inFile template hw n hn
      dsimp only
      rw [if_neg (by rw [hw]; simp), hw]
      simp only [h2, h3]
      cases hv : Arg.value (lit "-maxopenfiles") items with
      | none => rw [hv] at hn; simp only at hn; subst hn; simp [h2]
      | some s => rw [hv] at hn; simp only at hn; simp [hn, h2]

/-- Specification: the options `odc compare` gives arguments to. -/
def compareOptions : List Str := [lit "-excludeColumnsTypes", lit "-excludeColumns"]

/-- **C66**, `odc compare`: two files that exist, types and columns not to compare as lists separated by commas, and whether `-dontCheckMissing` is given. -/
theorem C66_compare (present : Str → Bool) (args : List Str) :
    (CutShort compareOptions args → comparePlan present args = .error .userError) ∧
    ∀ items, Says compareOptions args items →
      ((Arg.words items).length ≠ 3 → comparePlan present args = .error .userError) ∧
      (∀ tool file1 file2, Arg.words items = [tool, file1, file2] →
        ((present file1 = false ∨ present file2 = false) → comparePlan present args = .error .ioError) ∧
        (present file1 = true → present file2 = true → ∀ types cols : List Str, (∀ a ∈ types ++ cols, a ≠ [] ∧ ∀ b ∈ a, b ≠ 44) →
          (Arg.value (lit "-excludeColumnsTypes") items).getD [] = joinWith 44 types → (Arg.value (lit "-excludeColumns") items).getD [] = joinWith 44 cols →
          comparePlan present args = .ok ⟨file1, file2, decide (Arg.Given (lit "-dontCheckMissing") items), types, cols⟩)) := by
  have hu : Unread (((Clp.new args).register (lit "-excludeColumnsTypes")).register (lit "-excludeColumns")) compareOptions args :=
    ⟨rfl, rfl, fun o => by simp [Clp.register, Clp.new, compareOptions, or_comm], rfl, rfl, rfl⟩
  constructor
  · intro hc
    obtain ⟨c', h⟩ := hu.cutFails hc
    unfold comparePlan
    dsimp only
    rw [h]
  · intro items hs
    obtain ⟨c', h1, h2, h3⟩ := hu.answers hs
    have h4 : ∀ o, c'.optionArgument (fun s => Except.ok s) o [] = (c', .ok ((Arg.value o items).getD [])) := by
      intro o
      rw [h3]
      cases Arg.value o items <;> rfl
    unfold comparePlan
    dsimp only
    rw [h1]
    constructor
    · intro hn
      dsimp only
      rw [if_pos hn]
    · intro tool file1 file2 hw
      dsimp only
      rw [if_neg (by rw [hw]; simp), hw]
      simp only [List.getD_cons_succ, List.getD_cons_zero]
      constructor
      · rintro (h | h) <;> simp [h]
      · intro p1 p2 types cols hc ht hcs
        have e : lit "," = [44] := by decide +kernel
        have hsplit : ∀ l : List Str, (∀ a ∈ l, a ≠ [] ∧ ∀ b ∈ a, b ≠ 44) → splitAt (lit ",") (joinWith 44 l) = l := by
          intro l hl
          rw [e]
          exact tokens_join [44] 44 (by simp) l (fun a ha => ⟨(hl a ha).1, fun b hb => by simpa using (hl a ha).2 b hb⟩)
        rw [if_neg (by simp [p1, p2])]
        simp only [h4, h2, ht, hcs]
        rw [hsplit types (fun a ha => hc a (by simp [ha])), hsplit cols (fun a ha => hc a (by simp [ha]))]

theorem mergeArgs_plain (stmt : Str → Except Err Str) (fs : List Str) : mergeArgs stmt false fs = .ok (fs.map (fun f => (f, none))) := by
  induction fs with
  | nil => rfl
  | cons f fs ih =>
    cases fs with
    | nil => simp [mergeArgs]
    | cons s r => simp [mergeArgs, ih]

theorem mergeArgs_sql (stmt : Str → Except Err Str) (fs : List (Str × Str × Str)) (h : ∀ f ∈ fs, stmt f.2.1 = .ok f.2.2) :
    mergeArgs stmt true (fs.flatMap (fun f => [f.1, f.2.1])) = .ok (fs.map (fun f => (f.1, some f.2.2))) := by
  induction fs with
  | nil => rfl
  | cons f fs ih =>
    have := ih (fun g hg => h g (by simp [hg]))
    simp only [List.flatMap_cons, List.cons_append, List.nil_append, mergeArgs, if_true, h f (by simp), this, List.map_cons]

/-- **C66**, `odc merge`: at least two parameters, the files or with `-S` the files each with a statement, merged into the argument of `-o`. -/
theorem C66_merge (stmt : Str → Except Err Str) (args : List Str) :
    (CutShort [lit "-o"] args → mergePlan stmt args = .error .userError) ∧
    ∀ items, Says [lit "-o"] args items →
      ((Arg.words items).length < 3 → mergePlan stmt args = .error .userError) ∧
      ∀ out, Arg.value (lit "-o") items = some out →
        (∀ tool files, Arg.words items = tool :: files → 2 ≤ files.length → ¬ Arg.Given (lit "-S") items →
          mergePlan stmt args = .ok (files.map (fun f => (f, none)), out)) ∧
        (∀ tool (fs : List (Str × Str × Str)), Arg.words items = tool :: fs.flatMap (fun f => [f.1, f.2.1]) → fs ≠ [] → Arg.Given (lit "-S") items →
          (∀ f ∈ fs, stmt f.2.1 = .ok f.2.2) → mergePlan stmt args = .ok (fs.map (fun f => (f.1, some f.2.2)), out)) := by
  have hu : Unread ((Clp.new args).register (lit "-o")) [lit "-o"] args :=
    ⟨rfl, rfl, fun o => by simp [Clp.register, Clp.new], rfl, rfl, rfl⟩
  constructor
  · intro hc
    obtain ⟨c', h⟩ := hu.cutFails hc
    unfold mergePlan
    dsimp only
    rw [h]
  · intro items hs
    obtain ⟨c', h1, h2, h3⟩ := hu.answers hs
    unfold mergePlan
    dsimp only
    rw [h1]
    constructor
    · intro hn
      dsimp only
      rw [if_pos hn]
    · intro out ho
      constructor
      · intro tool files hw hl hS
        dsimp only
        rw [if_neg (by rw [hw]; simp; omega), hw]
        simp only [h2, h3, ho, decide_eq_false hS, List.drop_succ_cons, List.drop_zero, mergeArgs_plain]
      · intro tool fs hw hne hS hst
        dsimp only
        rw [if_neg (by
          rw [hw]
          cases fs with
          | nil => exact absurd rfl hne
          | cons f fs => simp), hw]
        simp only [h2, h3, ho, decide_eq_true hS, List.drop_succ_cons, List.drop_zero, mergeArgs_sql stmt fs hst]

/-! ### Samples -/

/-- Sample: a tool's command line of words only says these words. -/
theorem says_words (regs args : List Str) (h : ∀ a ∈ args, ¬ OptionLike a) : Says regs args (args.map Arg.word) := by
  refine ⟨?_, ?_⟩
  · intro a ha
    obtain ⟨s, hs, rfl⟩ := List.mem_map.mp ha
    exact h s hs
  · induction args with
    | nil => rfl
    | cons a as ih =>
      have := ih (fun b hb => h b (by simp [hb]))
      simp only [List.map_cons, List.flatMap_cons, Arg.text]
      rw [← this]
      rfl

/-- `C66_copy` applies to `odc compact a.odb b.odb`. -/
example : copyPlan [lit "compact", lit "a.odb", lit "b.odb"] = .ok (lit "a.odb", lit "b.odb") :=
  (C66_copy _ _ (says_words [] [lit "compact", lit "a.odb", lit "b.odb"] (by
    intro a ha
    rw [← dashed_iff]
    simp only [List.mem_cons, List.not_mem_nil, or_false] at ha
    rcases ha with rfl | rfl | rfl <;> decide +kernel))).1 (lit "compact") (lit "a.odb") (lit "b.odb") rfl

/-- Sample: some command lines. -/
example : indexPlan [lit "index", lit "a.odb"] = .ok (lit "a.odb", lit "a.odb.idx") ∧
    countPlan [lit "count", lit "-x", lit "a.odb", lit "b.odb"] = .ok [lit "a.odb", lit "b.odb"] ∧
    updatePlan [lit "set", lit "x=1", lit "a.odb"] = .error .userError ∧
    splitPlan (fun _ => .ok 7) [lit "split", lit "-maxopenfiles", lit "7", lit "a.odb", lit "{x}.odb", lit "-no_verification"] =
      .ok ⟨lit "a.odb", lit "{x}.odb", false, 7, false⟩ ∧
    comparePlan (fun _ => true) [lit "compare", lit "-excludeColumns", lit "a,b", lit "a.odb", lit "b.odb"] =
      .ok ⟨lit "a.odb", lit "b.odb", false, [], [lit "a", lit "b"]⟩ ∧
    mergePlan .ok [lit "merge", lit "-S", lit "-o", lit "c.odb", lit "a.odb", lit "select a;", lit "b.odb", lit "select b;"] =
      .ok ([(lit "a.odb", some (lit "select a;")), (lit "b.odb", some (lit "select b;"))], lit "c.odb") := by
  decide +kernel

/-! ### What goes wrong -/

/-- **`odc merge` does not insist on `-o`**: the output goes to a file with the name `<no-default>`. -/
theorem C66_violated_output (stmt : Str → Except Err Str) (args : List Str) (items : List Arg) (hs : Says [lit "-o"] args items) (tool : Str) (files : List Str)
    (hw : Arg.words items = tool :: files) (hl : 2 ≤ files.length) (hS : ¬ Arg.Given (lit "-S") items) (ho : Arg.value (lit "-o") items = none) :
    mergePlan stmt args = .ok (files.map (fun f => (f, none)), lit "<no-default>") := by
  have hu : Unread ((Clp.new args).register (lit "-o")) [lit "-o"] args :=
    ⟨rfl, rfl, fun o => by simp [Clp.register, Clp.new], rfl, rfl, rfl⟩
  obtain ⟨c', h1, h2, h3⟩ := hu.answers hs
  unfold mergePlan
  dsimp only
  rw [h1]
  dsimp only
  rw [if_neg (by rw [hw]; simp; omega), hw]
  simp only [h2, h3, ho, decide_eq_false hS, List.drop_succ_cons, List.drop_zero, mergeArgs_plain]

/-- **`odc merge -S` reads beyond the parameters** if the last file has no statement. -/
theorem C66_violated_statement :
    mergePlan .ok [lit "merge", lit "-S", lit "-o", lit "c.odb", lit "a.odb", lit "select a;", lit "b.odb"] = .error .ub := by
  decide +kernel

end Verif
