import Verif.SqlTool
import Verif.PropToolPlans

/-!
C67: what `odc sql` takes from its command line.
-/

namespace Verif

/-- Proof device: a parser all of whose questions are answered, the first one too. -/
theorem Unread.ready {c : Clp} {regs args : List Str} (hu : Unread c regs args) {items : List Arg} (hs : Says regs args items) :
    ∃ c', (∀ (α : Type) (tr : Str → Except Err α) (o : Str) (d : α),
        c.optionArgument tr o d = (c', match Arg.value o items with | none => .ok d | some s => tr s)) ∧
      c'.parameters = (c', .ok (Arg.words items)) ∧ (∀ o, c'.optionIsSet o = (c', .ok (decide (Arg.Given o items)))) ∧
      ∀ (α : Type) (tr : Str → Except Err α) (o : Str) (d : α), c'.optionArgument tr o d = (c', match Arg.value o items with | none => .ok d | some s => tr s) := by
  obtain ⟨c', p1, p2⟩ := hu.parse hs
  refine ⟨c', ?_, ?_, ?_, ?_⟩
  · intro α tr o d
    unfold Clp.optionArgument
    rw [p1, ← p2.value o]
    dsimp only
    cases c'.withArg.find? (fun p => decide (p.1 = o)) <;> rfl
  · unfold Clp.parameters
    rw [p2.parse]
    dsimp only
    rw [p2.params]
  · intro o
    unfold Clp.optionIsSet
    rw [p2.parse]
    dsimp only
    rw [p2.contains]
  · intro α tr o d
    unfold Clp.optionArgument
    rw [p2.parse, ← p2.value o]
    dsimp only
    cases c'.withArg.find? (fun p => decide (p.1 = o)) <;> rfl

/-- Specification: the options of `odc sql` with an argument. -/
def sqlOptions : List Str := [lit "-o", lit "-i", lit "-I", lit "-delimiter", lit "-f", lit "-offset", lit "-length"]

/-- Specification: the number given with an option, 0 if it is not given. -/
def NumberOf (num : Str → Except Err Int) (o : Str) (items : List Arg) (n : Int) : Prop :=
  match Arg.value o items with
  | none => n = 0
  | some s => num s = .ok n

/-- Specification: the text given with an option, `d` if it is not given. -/
def TextOf (o : Str) (d : Str) (items : List Arg) : Str := (Arg.value o items).getD d

/-- Specification: the statement, which is all parameters or in the file of that name (`-` being the terminal). -/
def StatementOf (sel : Str → Bool) (read : Str → Except Err Str) (params : List Str) (q : Str) : Prop :=
  ∃ p rest, params = p :: rest ∧
    ((sel p = true ∧ q = joinWith 32 params ++ lit ";") ∨
     (sel p = false ∧ p ≠ lit "-" ∧ ∃ t, read p = .ok t ∧ q = t ++ lit ";") ∨
     (sel p = false ∧ p = lit "-" ∧ ∃ t, read (lit "/dev/tty") = .ok t ∧ q = t ++ lit ";"))

/-- Proof device: the parser of `odc sql`. -/
theorem sql_unread (args : List Str) :
    Unread ((((((((Clp.new args).register (lit "-o")).register (lit "-i")).register (lit "-I")).register (lit "-delimiter")).register (lit "-f")).register
      (lit "-offset")).register (lit "-length")) sqlOptions args :=
  ⟨rfl, rfl, fun o => by simp only [Clp.register, Clp.new, sqlOptions, List.mem_cons, List.not_mem_nil, or_false]; tauto, rfl, rfl, rfl⟩

theorem NumberOf.answer {num : Str → Except Err Int} {o : Str} {items : List Arg} {n : Int} (h : NumberOf num o items n) :
    (match Arg.value o items with | none => .ok 0 | some s => num s) = Except.ok n := by
  unfold NumberOf at h
  cases hv : Arg.value o items with
  | none => rw [hv] at h; simp only at h ⊢; rw [h]
  | some s => rw [hv] at h; exact h

theorem TextOf.answer (o d : Str) (items : List Arg) :
    (match Arg.value o items with | none => .ok d | some s => Except.ok s) = (Except.ok (TextOf o d items) : Except Err Str) := by
  unfold TextOf
  cases Arg.value o items <;> rfl

/-- Proof device: what remains of `odc sql` when the questions are answered. -/
theorem sqlPlan_answers (num : Str → Except Err Int) (sel : Str → Bool) (read : Str → Except Err Str) (args : List Str) (items : List Arg)
    (hs : Says sqlOptions args items) (off len : Int) (ho : NumberOf num (lit "-offset") items off) (hl : NumberOf num (lit "-length") items len) :
    sqlPlan num sel read args =
      match Arg.words items with
      | _ :: p :: ps' =>
        if TextOf (lit "-f") (lit "default") items = lit "odb" ∧ !decide (Arg.Given (lit "-o") items) then .error .userError
        else
          match (if sel p then .ok (joinWith 32 (p :: ps')) else read (if p = lit "-" then lit "/dev/tty" else p)) with
          | .error e => .error e
          | .ok q =>
            match sqlInput (if TextOf (lit "-i") [] items = lit "-" then lit "/dev/stdin" else TextOf (lit "-i") [] items) off len with
            | .error e => .error e
            | .ok input =>
              .ok ⟨decide (Arg.Given (lit "-T") items), decide (Arg.Given (lit "-N") items), TextOf (lit "-delimiter") [9] items,
                TextOf (lit "-f") (lit "default") items, decide (Arg.Given (lit "--bin") items) || decide (Arg.Given (lit "--binary") items),
                decide (Arg.Given (lit "--no_alignment") items),
                decide (Arg.Given (lit "--full_precision") items) || decide (Arg.Given (lit "--full-precision") items),
                if TextOf (lit "-o") [] items = lit "-" then lit "/dev/stdout" else TextOf (lit "-o") [] items,
                if decide (Arg.Given (lit "-o") items) && TextOf (lit "-f") (lit "default") items ≠ lit "odb" then some (TextOf (lit "-o") [] items) else none,
                q ++ lit ";", input⟩
      | _ => .error .userError := by
  obtain ⟨c', h0, h1, h2, h3⟩ := (sql_unread args).ready hs
  unfold sqlPlan
  dsimp only
  rw [h0]
  simp only [ask, h1, h2, h3, ho.answer, hl.answer, TextOf.answer]
  rcases Arg.words items with _ | ⟨a, _ | ⟨b, r⟩⟩ <;> rfl

/-- Proof device: a question to a command line that is cut short. -/
theorem Unread.cutAsk {c : Clp} {regs args : List Str} (hu : Unread c regs args) (hc : CutShort regs args) {α : Type} (tr : Str → Except Err α) (o : Str) (d : α) :
    ∃ c', c.optionArgument tr o d = (c', .error .userError) := by
  have h := hu.cut hc
  unfold Clp.parameters at h
  unfold Clp.optionArgument
  rcases hp : c.parse with ⟨c', e | u⟩
  · rw [hp] at h
    dsimp only at h ⊢
    cases h
    exact ⟨_, rfl⟩
  · rw [hp] at h
    cases h

theorem Arg.given_of_value {o s : Str} {items : List Arg} (h : Arg.value o items = some s) : Arg.Given o items := by
  induction items with
  | nil => cases h
  | cons a as ih =>
    have lift : Arg.Given o as → Arg.Given o (a :: as) := fun g => g.elim (fun g => Or.inl (by simp [g])) (fun ⟨v, g⟩ => Or.inr ⟨v, by simp [g]⟩)
    cases a with
    | word w => exact lift (ih h)
    | flag f => exact lift (ih h)
    | opt p v =>
      simp only [Arg.value] at h
      cases hv : Arg.value o as with
      | some t => exact lift (ih (by rw [hv] at h ⊢; simpa using h))
      | none =>
        rw [hv] at h
        by_cases hp : p = o
        · subst hp; exact Or.inr ⟨v, by simp⟩
        · simp [hp] at h

/-- **C67**: what `odc sql` takes from its command line, every option anywhere on it. -/
theorem C67_sql (num : Str → Except Err Int) (sel : Str → Bool) (read : Str → Except Err Str) (args : List Str) :
    (CutShort sqlOptions args → sqlPlan num sel read args = .error .userError) ∧
    ∀ items, Says sqlOptions args items → ∀ off len : Int, NumberOf num (lit "-offset") items off → NumberOf num (lit "-length") items len →
      ((Arg.words items).length < 2 → sqlPlan num sel read args = .error .userError) ∧
      (TextOf (lit "-f") (lit "default") items = lit "odb" → ¬ Arg.Given (lit "-o") items → sqlPlan num sel read args = .error .userError) ∧
      (∀ tool params q, Arg.words items = tool :: params → StatementOf sel read params q →
        (TextOf (lit "-f") (lit "default") items = lit "odb" → Arg.Given (lit "-o") items) →
        TextOf (lit "-i") [] items ∉ [lit "-", lit "stdin", lit "/dev/stdin"] →
        ∃ plan, sqlPlan num sel read args = .ok plan ∧ plan.statement = q ∧
          plan.delimiter = TextOf (lit "-delimiter") [9] items ∧
          plan.format = TextOf (lit "-f") (lit "default") items ∧
          (plan.noColumnNames = true ↔ Arg.Given (lit "-T") items) ∧
          (plan.noNull = true ↔ Arg.Given (lit "-N") items) ∧
          (plan.binary = true ↔ Arg.Given (lit "--bin") items ∨ Arg.Given (lit "--binary") items) ∧
          (plan.noAlignment = true ↔ Arg.Given (lit "--no_alignment") items) ∧
          (plan.fullPrecision = true ↔ Arg.Given (lit "--full_precision") items ∨ Arg.Given (lit "--full-precision") items) ∧
          (TextOf (lit "-i") [] items = [] → plan.input = .nothing) ∧
          (TextOf (lit "-i") [] items ≠ [] → off = 0 → plan.input = .whole (TextOf (lit "-i") [] items)) ∧
          (TextOf (lit "-i") [] items ≠ [] → off ≠ 0 → plan.input = .part (TextOf (lit "-i") [] items) off len)) := by
  constructor
  · intro hc
    unfold sqlPlan
    dsimp only
    obtain ⟨c', h⟩ := (sql_unread args).cutAsk hc (fun s => Except.ok s) (lit "-i") []
    rw [h]
    rfl
  · intro items hs off len ho hl
    rw [sqlPlan_answers num sel read args items hs off len ho hl]
    refine ⟨?_, ?_, ?_⟩
    · intro h
      generalize Arg.words items = ws at *
      rcases ws with _ | ⟨a, _ | ⟨b, r⟩⟩
      · rfl
      · rfl
      · simp only [List.length_cons] at h; omega
    · intro hf hg
      generalize Arg.words items = ws at *
      rcases ws with _ | ⟨a, _ | ⟨b, r⟩⟩ <;> simp [hf, hg]
    · rintro tool params q hw ⟨p, rest, rfl, hq⟩ hf hi
      simp only [List.mem_cons, List.not_mem_nil, or_false, not_or] at hi
      obtain ⟨i1, i2, i3⟩ := hi
      rw [hw]
      dsimp only
      rw [if_neg (by rintro ⟨a, b⟩; simp [hf a] at b), if_neg i1]
      have hin : ∃ input, sqlInput (TextOf (lit "-i") [] items) off len = .ok input ∧
          (TextOf (lit "-i") [] items = [] → input = .nothing) ∧
          (TextOf (lit "-i") [] items ≠ [] → off = 0 → input = .whole (TextOf (lit "-i") [] items)) ∧
          (TextOf (lit "-i") [] items ≠ [] → off ≠ 0 → input = .part (TextOf (lit "-i") [] items) off len) := by
        unfold sqlInput
        by_cases h : TextOf (lit "-i") [] items = []
        · simp [h]
        · by_cases h' : off = 0 <;> simp [h, h', i2, i3]
      obtain ⟨input, e, n1, n2, n3⟩ := hin
      rw [e]
      have hst : ∃ t, (if sel p then .ok (joinWith 32 (p :: rest)) else read (if p = lit "-" then lit "/dev/tty" else p)) = Except.ok t ∧ q = t ++ lit ";" := by
        rcases hq with ⟨s, rfl⟩ | ⟨s, hp, t, r, rfl⟩ | ⟨s, hp, t, r, rfl⟩
        · exact ⟨_, by simp [s], rfl⟩
        · exact ⟨t, by simp [s, hp, r], rfl⟩
        · exact ⟨t, by rw [if_neg (by rw [s]; simp), if_pos hp, r], rfl⟩
      obtain ⟨t, et, rfl⟩ := hst
      rw [et]
      exact ⟨_, rfl, rfl, rfl, rfl, by simp, by simp, by simp, by simp, by simp, n1, n2, n3⟩

/-- **C67**, the result: as text on standard output without `-o`, as text in the file of `-o` for the formats `ascii` and `wide`, and as frames in the file of
`-o` for `odb` and by default. -/
theorem C67_dest (num : Str → Except Err Int) (sel : Str → Bool) (read : Str → Except Err Str) (args : List Str) (items : List Arg) (hs : Says sqlOptions args items)
    (off len : Int) (ho : NumberOf num (lit "-offset") items off) (hl : NumberOf num (lit "-length") items len)
    (plan : SqlPlan) (hp : sqlPlan num sel read args = .ok plan) :
    (¬ Arg.Given (lit "-o") items → TextOf (lit "-f") (lit "default") items ∈ [lit "default", lit "ascii", lit "wide"] → plan.dest = .ok (.text none)) ∧
    (∀ out, Arg.value (lit "-o") items = some out → out ≠ [] →
      (TextOf (lit "-f") (lit "default") items ∈ [lit "ascii", lit "wide"] → plan.dest = .ok (.text (some out))) ∧
      (TextOf (lit "-f") (lit "default") items ∈ [lit "default", lit "odb"] → out ≠ lit "-" → plan.dest = .ok (.frames out)) ∧
      (TextOf (lit "-f") (lit "default") items ∈ [lit "default", lit "odb"] → out = lit "-" → plan.dest = .ok (.frames (lit "/dev/stdout")))) := by
  rw [sqlPlan_answers num sel read args items hs off len ho hl] at hp
  split at hp
  case h_2 => cases hp
  rename_i ws tool p ps' hw
  split at hp
  · cases hp
  rename_i hodb
  split at hp
  · cases hp
  split at hp
  · cases hp
  cases hp
  have d1 : lit "ascii" ≠ lit "default" := by decide +kernel
  have d2 : lit "wide" ≠ lit "default" := by decide +kernel
  have d3 : lit "odb" ≠ lit "default" := by decide +kernel
  have d4 : lit "odb" ≠ lit "ascii" := by decide +kernel
  have d5 : lit "odb" ≠ lit "wide" := by decide +kernel
  have d6 : lit "default" ≠ lit "odb" := d3.symm
  have d7 : lit "/dev/stdout" ≠ [] := by decide +kernel
  have d8 : ([] : Str) ≠ lit "-" := by decide +kernel
  constructor
  · intro hg hf
    have hv : Arg.value (lit "-o") items = none := by
      cases h : Arg.value (lit "-o") items with
      | none => rfl
      | some s => exact absurd (Arg.given_of_value h) hg
    have ht : TextOf (lit "-o") [] items = [] := by simp [TextOf, hv]
    simp only [List.mem_cons, List.not_mem_nil, or_false] at hf
    rcases hf with hf | hf | hf <;> simp [SqlPlan.dest, hf, ht, d1, d2, d8, hg]
  · intro out hv hne
    have hg := Arg.given_of_value hv
    have ht : TextOf (lit "-o") [] items = out := by simp [TextOf, hv]
    simp only [List.mem_cons, List.not_mem_nil, or_false]
    refine ⟨?_, ?_, ?_⟩
    · rintro (hf | hf) <;> simp [SqlPlan.dest, hf, ht, d1, d2, d4.symm, d5.symm, hg]
    · rintro (hf | hf) ho <;> simp [SqlPlan.dest, hf, ht, d3, d4, d5, ho, hne]
    · rintro (hf | hf) rfl <;> simp [SqlPlan.dest, hf, ht, d3, d4, d5, d7]

/-! ### Sample -/

/-- Sample: a statement and some options, before and after it. -/
example : sqlPlan (fun _ => .ok 64) (fun _ => true) (fun _ => .error .ioError)
      [lit "sql", lit "-T", lit "-i", lit "a.odb", lit "select", lit "-f", lit "odb", lit "*", lit "-offset", lit "64", lit "-o", lit "b.odb"] =
    .ok ⟨true, false, [9], lit "odb", false, false, false, lit "b.odb", none, lit "select *;", .part (lit "a.odb") 64 0⟩ := by
  decide +kernel

/-- The hypotheses of `C67_sql` and `C67_dest` hold for such a command line. -/
example : ∃ plan, sqlPlan (fun _ => .error .ioError) (fun _ => true) (fun _ => .error .ioError) [lit "sql", lit "select *", lit "-f", lit "odb", lit "-o", lit "b.odb"] = .ok plan ∧
    plan.dest = .ok (.frames (lit "b.odb")) := by
  have hs : Says sqlOptions [lit "sql", lit "select *", lit "-f", lit "odb", lit "-o", lit "b.odb"]
      [.word (lit "sql"), .word (lit "select *"), .opt (lit "-f") (lit "odb"), .opt (lit "-o") (lit "b.odb")] := by
    constructor
    · intro a ha
      simp only [List.mem_cons, List.not_mem_nil, or_false] at ha
      rcases ha with rfl | rfl | rfl | rfl <;> simp only [Arg.Ok, ← dashed_iff] <;> decide +kernel
    · decide +kernel
  obtain ⟨plan, h, _⟩ := ((C67_sql (fun _ => .error .ioError) (fun _ => true) (fun _ => .error .ioError) _).2 _ hs 0 0 (by unfold NumberOf; rfl) (by unfold NumberOf; rfl)).2.2
    (lit "sql") [lit "select *"] (lit "select *;") rfl ⟨_, _, rfl, Or.inl ⟨rfl, by decide +kernel⟩⟩ (fun _ => by decide +kernel) (by decide +kernel)
  exact ⟨plan, h, ((C67_dest _ _ _ _ _ hs 0 0 (by unfold NumberOf; rfl) (by unfold NumberOf; rfl) plan h).2 (lit "b.odb") (by decide +kernel) (by decide +kernel)).2.1
    (by decide +kernel) (by decide +kernel)⟩

/-! ### What goes wrong -/

/-- **`odc sql -f ascii -o -` writes to a file with the name `-`**, not to standard output, which is where `-f odb -o -` writes. -/
theorem C67_violated_stdout :
    ∃ plan, sqlPlan (fun _ => .ok 0) (fun _ => true) .ok [lit "sql", lit "select *", lit "-f", lit "ascii", lit "-o", lit "-"] = .ok plan ∧
      plan.outputFile = lit "/dev/stdout" ∧ plan.dest = .ok (.text (some (lit "-"))) :=
  ⟨⟨false, false, [9], lit "ascii", false, false, false, lit "/dev/stdout", some (lit "-"), lit "select *;", .nothing⟩, by decide +kernel, by decide +kernel,
    by decide +kernel⟩

/-- **`odc sql` cannot read standard input**: `-i -` is understood and then refused, as are the names `stdin` and `/dev/stdin`. -/
theorem C67_violated_stdin (num : Str → Except Err Int) (sel : Str → Bool) (read : Str → Except Err Str) (args : List Str) (items : List Arg)
    (hs : Says sqlOptions args items) (off len : Int) (ho : NumberOf num (lit "-offset") items off) (hl : NumberOf num (lit "-length") items len)
    (hi : TextOf (lit "-i") [] items ∈ [lit "-", lit "stdin", lit "/dev/stdin"]) (plan : SqlPlan) : sqlPlan num sel read args ≠ .ok plan := by
  have d : lit "/dev/stdin" ≠ [] := by decide +kernel
  have d' : lit "stdin" ≠ [] ∧ lit "stdin" ≠ lit "-" ∧ lit "/dev/stdin" ≠ lit "-" := by decide +kernel
  have hin : ∀ a b, sqlInput (if TextOf (lit "-i") [] items = lit "-" then lit "/dev/stdin" else TextOf (lit "-i") [] items) a b = .error .seriousBug := by
    intro a b
    simp only [List.mem_cons, List.not_mem_nil, or_false] at hi
    rcases hi with hi | hi | hi <;> simp [hi, sqlInput, d, d']
  rw [sqlPlan_answers num sel read args items hs off len ho hl, hin]
  intro h
  split at h
  case h_2 => cases h
  split at h
  · cases h
  split at h
  · cases h
  cases h

/-- **`odc sql -length` is ignored without an offset**: the whole file is read. -/
theorem C67_violated_length (num : Str → Except Err Int) (sel : Str → Bool) (read : Str → Except Err Str) (args : List Str) (items : List Arg)
    (hs : Says sqlOptions args items) (len : Int) (ho : NumberOf num (lit "-offset") items 0) (hl : NumberOf num (lit "-length") items len)
    (hi : TextOf (lit "-i") [] items ≠ []) (plan : SqlPlan) (hp : sqlPlan num sel read args = .ok plan) : plan.input = .whole (TextOf (lit "-i") [] items) := by
  have d : lit "/dev/stdin" ≠ [] := by decide +kernel
  rw [sqlPlan_answers num sel read args items hs 0 len ho hl] at hp
  split at hp
  case h_2 => cases hp
  split at hp
  · cases hp
  split at hp
  · cases hp
  by_cases h : TextOf (lit "-i") [] items = lit "-"
  · simp [h, sqlInput, d] at hp
  · rw [if_neg h] at hp
    unfold sqlInput at hp
    rw [if_neg hi] at hp
    by_cases h' : TextOf (lit "-i") [] items = lit "/dev/stdin" ∨ TextOf (lit "-i") [] items = lit "stdin"
    · rw [if_pos h'] at hp; cases hp
    · rw [if_neg h', if_pos rfl] at hp; cases hp; rfl

end Verif
