import Verif.CommandLine

/-!
C63: the command lines of the tools.
-/

namespace Verif

/-! ### Specification -/

/-- Specification: the things a command line consists of. -/
inductive Arg where
  /-- a parameter -/
  | word (s : Str)
  /-- an option without an argument -/
  | flag (o : Str)
  /-- an option with its argument -/
  | opt (o v : Str)

/-- Specification: how they are written. -/
def Arg.text : Arg → List Str
  | .word s => [s]
  | .flag o => [o]
  | .opt o v => [o, v]

/-- Specification: an option is a text of at least two characters of which the first is a dash. -/
def OptionLike (s : Str) : Prop := ∃ b t, s = 45 :: b :: t

/-- Specification: parameters do not look like options; the options that take an argument are those registered. -/
def Arg.Ok (regs : List Str) : Arg → Prop
  | .word s => ¬ OptionLike s
  | .flag o => OptionLike o ∧ o ∉ regs
  | .opt o _ => OptionLike o ∧ o ∈ regs

/-- Specification: the command line says these things. -/
def Says (regs args : List Str) (items : List Arg) : Prop := (∀ a ∈ items, a.Ok regs) ∧ args = items.flatMap Arg.text

/-- Specification: the command line ends with an option whose argument is missing. -/
def CutShort (regs args : List Str) : Prop :=
  ∃ (items : List Arg) (o : Str), (∀ a ∈ items, a.Ok regs) ∧ OptionLike o ∧ o ∈ regs ∧ args = items.flatMap Arg.text ++ [o]

/-- Specification: the parameters, in order. -/
def Arg.words : List Arg → List Str
  | [] => []
  | .word s :: as => s :: Arg.words as
  | _ :: as => Arg.words as

/-- Specification: the value an option is given last. -/
def Arg.value (o : Str) : List Arg → Option Str
  | [] => none
  | .opt p v :: as => (Arg.value o as).or (if p = o then some v else none)
  | _ :: as => Arg.value o as

/-- Specification: the option is given, with or without an argument. -/
def Arg.Given (o : Str) (items : List Arg) : Prop := Arg.flag o ∈ items ∨ ∃ v, Arg.opt o v ∈ items

instance (o : Str) (items : List Arg) : Decidable (Arg.Given o items) :=
  decidable_of_iff (items.any (fun a => match a with | .flag p => p = o | .opt p _ => p = o | .word _ => false) = true) (by
    unfold Arg.Given
    rw [List.any_eq_true]
    constructor
    · rintro ⟨a, h1, h2⟩
      cases a with
      | word s => simp at h2
      | flag p => simp only [decide_eq_true_eq] at h2; exact Or.inl (h2 ▸ h1)
      | opt p v => simp only [decide_eq_true_eq] at h2; exact Or.inr ⟨v, h2 ▸ h1⟩
    · rintro (h | ⟨v, h⟩)
      · exact ⟨_, h, by simp⟩
      · exact ⟨_, h, by simp⟩)

/-- Specification: what a tool does with the parser. -/
inductive ClpCall (α : Type) where
  | register (o : Str)
  | parameters
  | parameter (i : Nat)
  | isSet (o : Str)
  | argument (o : Str) (dflt : α)
  /-- go on with a copy of the parser -/
  | copy

/-- Specification: the answers. -/
inductive ClpAnswer (α : Type) where
  | done
  | texts (ps : List Str)
  | text (p : Str)
  | bool (b : Bool)
  | val (a : α)
  | failed (e : Err)

/-- Specification: is it a question? -/
def ClpCall.asks {α : Type} : ClpCall α → Prop
  | .register _ => False
  | _ => True

/-- Specification: the answer for a command line that says these things. -/
def answer {α : Type} (tr : Str → Except Err α) (items : List Arg) : ClpCall α → ClpAnswer α
  | .register _ => .done
  | .parameters => .texts (Arg.words items)
  | .parameter i => match (Arg.words items)[i]? with | some p => .text p | none => .failed .ub
  | .isSet o => .bool (decide (Arg.Given o items))
  | .argument o d =>
    match Arg.value o items with
    | none => .val d
    | some v => match tr v with | .ok a => .val a | .error e => .failed e
  | .copy => .done

/-- Specification: an answer of the model. -/
def ClpAnswer.of {α β : Type} (f : β → ClpAnswer α) : Except Err β → ClpAnswer α
  | .ok x => f x
  | .error e => .failed e

/-- Specification: one call. -/
def Clp.call {α : Type} (tr : Str → Except Err α) (c : Clp) : ClpCall α → Clp × ClpAnswer α
  | .register o => (c.register o, .done)
  | .parameters => (c.parameters.1, .of .texts c.parameters.2)
  | .parameter i => ((c.parameter i).1, .of .text (c.parameter i).2)
  | .isSet o => ((c.optionIsSet o).1, .of .bool (c.optionIsSet o).2)
  | .argument o d => ((c.optionArgument tr o d).1, .of .val (c.optionArgument tr o d).2)
  | .copy => match c.copy with
    | (_, .ok c') => (c', .done)
    | (c, .error e) => (c, .failed e)

/-- Specification: a sequence of calls, with the answers. -/
def Clp.session {α : Type} (tr : Str → Except Err α) : Clp → List (ClpCall α) → List (ClpAnswer α)
  | _, [] => []
  | c, q :: qs => (c.call tr q).2 :: Clp.session tr (c.call tr q).1 qs

/-! ### The loop -/

theorem dashed_iff (s : Str) : dashed s = true ↔ OptionLike s := by
  unfold dashed OptionLike
  simp only [decide_eq_true_eq]
  constructor
  · rintro ⟨h1, h2⟩
    match s, h1, h2 with
    | [], h1, _ => simp at h1
    | [a], _, h2 => simp at h2
    | a :: b :: t, h1, _ => simp only [List.head?_cons, Option.some.injEq] at h1; exact ⟨b, t, by rw [h1]⟩
  · rintro ⟨b, t, rfl⟩
    exact ⟨rfl, by simp⟩

/-- Proof device: the state after these things have been found. -/
def Clp.after (c : Clp) : List Arg → Clp
  | [] => c
  | .word s :: as => Clp.after { c with params := c.params ++ [s] } as
  | .flag o :: as => Clp.after { c with noArg := o :: c.noArg } as
  | .opt o v :: as => Clp.after { c with withArg := setKey c.withArg o v } as

theorem scan_word (c : Clp) (s : Str) (ss : List Str) (h : dashed s = false) : c.scan (s :: ss) = Clp.scan { c with params := c.params ++ [s] } ss := by
  rw [Clp.scan.eq_def]
  simp only [h, Bool.false_eq_true, if_false]

theorem scan_flag (c : Clp) (s : Str) (ss : List Str) (h : dashed s = true) (hr : s ∉ c.regs) : c.scan (s :: ss) = Clp.scan { c with noArg := s :: c.noArg } ss := by
  rw [Clp.scan.eq_def]
  simp only [h, if_true, if_neg hr]

theorem scan_items (items : List Arg) (c : Clp) (rest : List Str) (h : ∀ a ∈ items, a.Ok c.regs) :
    c.scan (items.flatMap Arg.text ++ rest) = (c.after items).scan rest := by
  induction items generalizing c with
  | nil => rfl
  | cons a as ih =>
    have ha := h a (by simp)
    have has : ∀ b ∈ as, b.Ok c.regs := fun b hb => h b (by simp [hb])
    cases a with
    | word s =>
      have : dashed s = false := by
        cases hd : dashed s with
        | false => rfl
        | true => exact absurd ((dashed_iff s).mp hd) ha
      simp only [List.flatMap_cons, Arg.text, List.cons_append, List.nil_append, Clp.after]
      rw [scan_word c s _ this]
      exact ih _ has
    | flag o =>
      have : dashed o = true := (dashed_iff o).mpr ha.1
      simp only [List.flatMap_cons, Arg.text, List.cons_append, List.nil_append, Clp.after]
      rw [scan_flag c o _ this ha.2]
      exact ih _ has
    | opt o v =>
      have : dashed o = true := (dashed_iff o).mpr ha.1
      simp only [List.flatMap_cons, Arg.text, List.cons_append, List.nil_append, Clp.scan, this, if_true, if_pos ha.2, Clp.after]
      exact ih _ has

theorem after_regs (items : List Arg) (c : Clp) : (c.after items).regs = c.regs ∧ (c.after items).args = c.args := by
  induction items generalizing c with
  | nil => exact ⟨rfl, rfl⟩
  | cons a as ih => cases a <;> simp only [Clp.after] <;> exact ih _

theorem after_params (items : List Arg) (c : Clp) : (c.after items).params = c.params ++ Arg.words items := by
  induction items generalizing c with
  | nil => simp [Clp.after, Arg.words]
  | cons a as ih => cases a <;> simp only [Clp.after, Arg.words, ih] <;> simp

theorem setKey_find (m : List (Str × Str)) (k v o : Str) :
    (setKey m k v).find? (fun p => decide (p.1 = o)) = if k = o then some (k, v) else m.find? (fun p => decide (p.1 = o)) := by
  unfold setKey
  rw [List.find?_cons]
  by_cases h : k = o
  · simp [h]
  · rw [if_neg h]
    simp only [h, decide_false]
    rw [List.find?_filter]
    congr 1
    funext p
    by_cases hp : p.1 = o
    · simp [hp, Ne.symm h]
    · simp [hp]

theorem after_value (items : List Arg) (c : Clp) (o : Str) :
    ((c.after items).withArg.find? (fun p => decide (p.1 = o))).map Prod.snd =
      (Arg.value o items).or ((c.withArg.find? (fun p => decide (p.1 = o))).map Prod.snd) := by
  induction items generalizing c with
  | nil => simp [Clp.after, Arg.value]
  | cons a as ih =>
    cases a with
    | word s => simp only [Clp.after, Arg.value, ih]
    | flag s => simp only [Clp.after, Arg.value, ih]
    | opt k v =>
      simp only [Clp.after, Arg.value, ih, setKey_find]
      by_cases h : k = o
      · simp [h, Option.or_assoc]
      · simp [h]

theorem after_flags (items : List Arg) (c : Clp) (o : Str) : o ∈ (c.after items).noArg ↔ Arg.flag o ∈ items ∨ o ∈ c.noArg := by
  induction items generalizing c with
  | nil => simp [Clp.after]
  | cons a as ih => cases a <;> simp only [Clp.after, ih, List.mem_cons] <;> simp <;> try tauto

theorem value_given (items : List Arg) (o : Str) : (Arg.value o items).isSome = true ↔ ∃ v, Arg.opt o v ∈ items := by
  induction items with
  | nil => simp [Arg.value]
  | cons a as ih =>
    cases a with
    | word s => simp [Arg.value, ih]
    | flag s => simp [Arg.value, ih]
    | opt k v =>
      simp only [Arg.value, Option.isSome_or, Bool.or_eq_true, ih, List.mem_cons, Arg.opt.injEq]
      constructor
      · rintro (⟨w, h⟩ | h)
        · exact ⟨w, Or.inr h⟩
        · by_cases hk : k = o
          · exact ⟨v, Or.inl ⟨hk.symm, rfl⟩⟩
          · simp [hk] at h
      · rintro ⟨w, ⟨h1, _⟩ | h⟩
        · exact Or.inr (by simp [h1])
        · exact Or.inl ⟨w, h⟩

/-! ### Questions -/

/-- Proof device: the parser has read these things. -/
structure Knows (c : Clp) (items : List Arg) : Prop where
  parsed : c.parsed = true
  params : c.params = Arg.words items
  flags : ∀ o, o ∈ c.noArg ↔ Arg.flag o ∈ items
  value : ∀ o, (c.withArg.find? (fun p => decide (p.1 = o))).map Prod.snd = Arg.value o items

/-- Proof device: the parser has registered these options and not been asked. -/
structure Unread (c : Clp) (regs args : List Str) : Prop where
  parsed : c.parsed = false
  args : c.args = args
  regs : ∀ o, o ∈ c.regs ↔ o ∈ regs
  params : c.params = []
  flags : c.noArg = []
  value : c.withArg = []

theorem Arg.Ok.same {r1 r2 : List Str} (h : ∀ o, o ∈ r1 ↔ o ∈ r2) {a : Arg} (ha : a.Ok r1) : a.Ok r2 := by
  cases a with
  | word s => exact ha
  | flag o => exact ⟨ha.1, fun h' => ha.2 ((h o).mpr h')⟩
  | opt o v => exact ⟨ha.1, (h o).mp ha.2⟩

theorem Knows.parse {c : Clp} {items : List Arg} (h : Knows c items) : c.parse = (c, .ok ()) := by
  unfold Clp.parse
  rw [if_pos h.parsed]

theorem Unread.parse {c : Clp} {regs args : List Str} {items : List Arg} (h : Unread c regs args) (hs : Says regs args items) :
    ∃ c', c.parse = (c', .ok ()) ∧ Knows c' items := by
  have hscan := scan_items items c [] (fun a ha => (hs.1 a ha).same (fun o => (h.regs o).symm))
  rw [List.append_nil, ← hs.2, ← h.args] at hscan
  refine ⟨{ c.after items with parsed := true }, ?_, rfl, ?_, ?_, ?_⟩
  · unfold Clp.parse
    rw [if_neg (by rw [h.parsed]; simp), hscan]
    rfl
  · simp only [after_params, h.params, List.nil_append]
  · intro o; simp only [after_flags, h.flags, List.not_mem_nil, or_false]
  · intro o; simp only [after_value, h.value, List.find?_nil, Option.map_none, Option.or_none]

theorem Knows.contains {c : Clp} {items : List Arg} (h : Knows c items) (o : Str) :
    (decide (o ∈ c.noArg) || (c.withArg.map Prod.fst).contains o) = decide (Arg.Given o items) := by
  have h1 : (c.withArg.map Prod.fst).contains o = true ↔ ∃ v, Arg.opt o v ∈ items := by
    rw [← value_given, ← h.value o, Option.isSome_map, List.find?_isSome]
    simp only [List.contains_iff_mem, List.mem_map, decide_eq_true_eq]
  rw [Bool.eq_iff_iff, Bool.or_eq_true, decide_eq_true_eq, decide_eq_true_eq, h1, h.flags]
  rfl

theorem parse_answer {α : Type} (tr : Str → Except Err α) {c c' : Clp} {items : List Arg} (hp : c.parse = (c', .ok ())) (h : Knows c' items) (q : ClpCall α) (hq : q.asks) :
    (c.call tr q).2 = answer tr items q ∧ Knows (c.call tr q).1 items := by
  cases q with
  | register o => exact absurd hq id
  | parameters =>
    simp only [Clp.call, Clp.parameters, hp, ClpAnswer.of, answer, h.params, true_and]
    exact h
  | parameter i =>
    simp only [Clp.call, Clp.parameter, Clp.parameters, hp, answer, h.params]
    refine ⟨?_, h⟩
    cases (Arg.words items)[i]? <;> rfl
  | isSet o =>
    simp only [Clp.call, Clp.optionIsSet, hp, ClpAnswer.of, answer, h.contains, true_and]
    exact h
  | argument o d =>
    simp only [Clp.call, Clp.optionArgument, hp, answer]
    refine ⟨?_, h⟩
    rw [← h.value o]
    cases c'.withArg.find? (fun p => decide (p.1 = o)) with
    | none => rfl
    | some p => dsimp only [Option.map_some]; cases tr p.2 <;> rfl
  | copy =>
    simp only [Clp.call, Clp.copy, Clp.parameters, hp, answer, true_and]
    exact ⟨rfl, h.params, h.flags, h.value⟩

theorem Knows.session {α : Type} (tr : Str → Except Err α) (qs : List (ClpCall α)) {c : Clp} {items : List Arg} (h : Knows c items) :
    c.session tr qs = qs.map (answer tr items) := by
  induction qs generalizing c with
  | nil => rfl
  | cons q qs ih =>
    simp only [Clp.session, List.map_cons]
    by_cases hq : q.asks
    · obtain ⟨h1, h2⟩ := parse_answer tr h.parse h q hq
      rw [h1, ih h2]
    · cases q with
      | register o =>
        have := ih (c := c.register o) ⟨h.parsed, h.params, h.flags, h.value⟩
        simp only [Clp.call, answer, this]
      | _ => exact absurd trivial hq

theorem Unread.registers {α : Type} (tr : Str → Except Err α) (rs : List Str) (qs : List (ClpCall α)) {c : Clp} {regs args : List Str} (h : Unread c regs args) :
    ∃ c', Unread c' (rs ++ regs) args ∧ c.session tr (rs.map ClpCall.register ++ qs) = rs.map (fun _ => ClpAnswer.done) ++ c'.session tr qs := by
  induction rs generalizing c regs with
  | nil => exact ⟨c, h, rfl⟩
  | cons r rs ih =>
    obtain ⟨c', h1, h2⟩ := ih (c := c.register r) (regs := r :: regs) ⟨h.parsed, h.args, fun o => by simp [Clp.register, h.regs], h.params, h.flags, h.value⟩
    refine ⟨c', ⟨h1.parsed, h1.args, fun o => by rw [h1.regs]; simp only [List.mem_append, List.mem_cons]; tauto, h1.params, h1.flags, h1.value⟩, ?_⟩
    simp only [List.map_cons, List.cons_append, Clp.session, Clp.call, h2]

theorem unread_new (args : List Str) : Unread (Clp.new args) [] args := ⟨rfl, rfl, fun o => by simp [Clp.new], rfl, rfl, rfl⟩

/-! ### C63 -/

theorem says_or_cut (regs args : List Str) : (∃ items, Says regs args items) ∨ CutShort regs args := by
  induction h : args.length using Nat.strongRecOn generalizing args with
  | _ n ih =>
    have step : ∀ (a : Arg) (rest : List Str), a.Ok regs → args = a.text ++ rest → rest.length < n → (∃ items, Says regs args items) ∨ CutShort regs args := by
      intro a rest ha he hl
      rcases ih rest.length hl rest rfl with ⟨items, h1, h2⟩ | ⟨items, o, h1, h2, h3, h4⟩
      · refine Or.inl ⟨a :: items, ?_, ?_⟩
        · intro b hb
          rcases List.mem_cons.mp hb with rfl | hb
          · exact ha
          · exact h1 b hb
        · rw [List.flatMap_cons, ← h2, he]
      · refine Or.inr ⟨a :: items, o, ?_, h2, h3, ?_⟩
        · intro b hb
          rcases List.mem_cons.mp hb with rfl | hb
          · exact ha
          · exact h1 b hb
        · rw [List.flatMap_cons, List.append_assoc, ← h4, he]
    cases args with
    | nil => exact Or.inl ⟨[], by simp, rfl⟩
    | cons s ss =>
      simp only [List.length_cons] at h
      by_cases hd : OptionLike s
      · by_cases hr : s ∈ regs
        · cases ss with
          | nil => exact Or.inr ⟨[], s, by simp, hd, hr, rfl⟩
          | cons v ss => exact step (.opt s v) ss ⟨hd, hr⟩ rfl (by simp only [List.length_cons] at h; omega)
        · exact step (.flag s) ss ⟨hd, hr⟩ rfl (by omega)
      · exact step (.word s) ss hd rfl (by omega)

theorem Says.unique {regs args : List Str} {i1 i2 : List Arg} (h1 : Says regs args i1) (h2 : Says regs args i2) : i1 = i2 := by
  obtain ⟨o1, e1⟩ := h1
  obtain ⟨o2, e2⟩ := h2
  induction i1 generalizing args i2 with
  | nil =>
    cases i2 with
    | nil => rfl
    | cons b bs => rw [e1] at e2; cases b <;> simp [Arg.text] at e2
  | cons a as ih =>
    cases i2 with
    | nil => rw [e1] at e2; cases a <;> simp [Arg.text] at e2
    | cons b bs =>
      have ha := o1 a (by simp)
      have hb := o2 b (by simp)
      rw [e1] at e2
      simp only [List.flatMap_cons] at e2
      have next : as.flatMap Arg.text = bs.flatMap Arg.text → as = bs := fun h =>
        ih (fun x hx => o1 x (by simp [hx])) rfl (fun x hx => o2 x (by simp [hx])) h
      cases a <;> cases b <;> simp only [Arg.text, List.cons_append, List.nil_append, List.cons.injEq] at e2
      all_goals (try (obtain ⟨rfl, e2⟩ := e2))
      · rw [next e2]
      · exact absurd hb.1 ha
      · exact absurd hb.1 ha
      · exact absurd ha.1 hb
      · rw [next e2]
      · exact absurd hb.2 ha.2
      · exact absurd ha.1 hb
      · exact absurd ha.2 hb.2
      · obtain ⟨rfl, e2⟩ := e2
        rw [next e2]

theorem CutShort.not_says {regs args : List Str} (h : CutShort regs args) : ¬ ∃ items, Says regs args items := by
  obtain ⟨i1, o, o1, ho, hr, e1⟩ := h
  rintro ⟨i2, o2, e2⟩
  induction i1 generalizing args i2 with
  | nil =>
    rw [e1] at e2
    cases i2 with
    | nil => simp at e2
    | cons b bs =>
      have hb := o2 b (by simp)
      cases b with
      | word s => simp [Arg.text] at e2; exact hb (e2.1 ▸ ho)
      | flag s => simp [Arg.text] at e2; exact hb.2 (e2.1 ▸ hr)
      | opt s v => simp [Arg.text] at e2
  | cons a as ih =>
    have ha := o1 a (by simp)
    cases i2 with
    | nil => rw [e1] at e2; cases a <;> simp [Arg.text] at e2
    | cons b bs =>
      have hb := o2 b (by simp)
      rw [e1] at e2
      simp only [List.flatMap_cons] at e2
      have next : as.flatMap Arg.text ++ [o] = bs.flatMap Arg.text → False := fun h =>
        ih (fun x hx => o1 x (by simp [hx])) rfl bs (fun x hx => o2 x (by simp [hx])) h
      cases a <;> cases b <;> simp only [Arg.text, List.cons_append, List.nil_append, List.append_assoc, List.cons.injEq] at e2
      all_goals (try (obtain ⟨rfl, e2⟩ := e2))
      · exact next e2
      · exact absurd hb.1 ha
      · exact absurd hb.1 ha
      · exact absurd ha.1 hb
      · exact next e2
      · exact absurd hb.2 ha.2
      · exact absurd ha.1 hb
      · exact absurd ha.2 hb.2
      · obtain ⟨rfl, e2⟩ := e2
        exact next e2

/-- **C63.**  A command line either says certain things, in one way only, or ends with an option whose argument is missing.  In the first case every question
asked of the parser, in whatever order and number, of it or of copies of it, and whatever is registered after the first question, is answered according to
what the command line says with the options registered before the first question; in the second every question fails with a `UserError`. -/
theorem C63_answers {α : Type} (tr : Str → Except Err α) (regs args : List Str) (q : ClpCall α) (hq : q.asks) (qs : List (ClpCall α)) :
    (∃ items, Says regs args items ∧ (∀ items', Says regs args items' → items' = items) ∧ ¬ CutShort regs args ∧
      (Clp.new args).session tr (regs.map ClpCall.register ++ q :: qs) = regs.map (fun _ => ClpAnswer.done) ++ (q :: qs).map (answer tr items)) ∨
    (CutShort regs args ∧ (¬ ∃ items, Says regs args items) ∧ ((∀ p ∈ qs, p.asks) →
      (Clp.new args).session tr (regs.map ClpCall.register ++ q :: qs) =
        regs.map (fun _ => ClpAnswer.done) ++ (q :: qs).map (fun _ => ClpAnswer.failed .userError))) := by
  obtain ⟨c, h1, h2⟩ := (unread_new args).registers tr regs (q :: qs)
  rw [List.append_nil] at h1
  rw [h2]
  rcases says_or_cut regs args with ⟨items, hs⟩ | hc
  · refine Or.inl ⟨items, hs, fun i hi => hi.unique hs, fun hc => hc.not_says ⟨items, hs⟩, ?_⟩
    congr 1
    obtain ⟨c', p1, p2⟩ := h1.parse hs
    obtain ⟨a1, a2⟩ := parse_answer tr p1 p2 q hq
    simp only [Clp.session, List.map_cons, a1, a2.session]
  · refine Or.inr ⟨hc, hc.not_says, ?_⟩
    intro hqs
    congr 1
    obtain ⟨items, o, o1, o2, o3, o4⟩ := hc
    have hfail : ∀ c : Clp, c.parsed = false → c.args = args → (∀ o, o ∈ c.regs ↔ o ∈ regs) →
        ∃ c', c.parse = (c', .error .userError) ∧ c'.parsed = false ∧ c'.args = args ∧ (∀ o, o ∈ c'.regs ↔ o ∈ regs) := by
      intro c hp ha hr
      have hscan := scan_items items c [o] (fun a ha => (o1 a ha).same (fun o => (hr o).symm))
      rw [← o4, ← ha] at hscan
      have hpar : ∀ (is : List Arg) (c : Clp), c.parsed = false → (c.after is).parsed = false := by
        intro is
        induction is with
        | nil => exact fun c h => h
        | cons a as ih => intro c h; cases a <;> exact ih _ h
      refine ⟨c.after items, ?_, hpar items c hp, by rw [(after_regs items c).2]; exact ha, by rw [(after_regs items c).1]; exact hr⟩
      unfold Clp.parse
      rw [if_neg (by rw [hp]; simp), hscan]
      simp only [Clp.scan]
      rw [if_pos ((dashed_iff o).mpr o2), if_pos (by rw [(after_regs items c).1]; exact (hr o).mpr o3)]
    have hall : ∀ (ps : List (ClpCall α)) (c : Clp), (∀ p ∈ ps, p.asks) → c.parsed = false → c.args = args → (∀ o, o ∈ c.regs ↔ o ∈ regs) →
        c.session tr ps = ps.map (fun _ => ClpAnswer.failed .userError) := by
      intro ps
      induction ps with
      | nil => intros; rfl
      | cons p ps ih =>
        intro c hps hp ha hr
        obtain ⟨c', e1, e2, e3, e4⟩ := hfail c hp ha hr
        have hrest := ih c' (fun x hx => hps x (by simp [hx])) e2 e3 e4
        have hpa := hps p (by simp)
        simp only [Clp.session, List.map_cons]
        cases p with
        | register o => exact absurd hpa id
        | parameters => simp only [Clp.call, Clp.parameters, e1, ClpAnswer.of, hrest]
        | parameter i => simp only [Clp.call, Clp.parameter, Clp.parameters, e1, ClpAnswer.of, hrest]
        | isSet o => simp only [Clp.call, Clp.optionIsSet, e1, ClpAnswer.of, hrest]
        | argument o d => simp only [Clp.call, Clp.optionArgument, e1, ClpAnswer.of, hrest]
        | copy => simp only [Clp.call, Clp.copy, Clp.parameters, e1, hrest]
    exact hall (q :: qs) c (by
      intro p hp
      rcases List.mem_cons.mp hp with rfl | hp
      · exact hq
      · exact hqs p hp) h1.parsed h1.args h1.regs

/-! ### `odc import` -/

/-- Specification: the options of `odc import` that take an argument. -/
def importOptions : List Str := [lit "-d", lit "-sql"]

/-- Specification: the delimiter meant. -/
def delimMeant (d : Str) : Str := if upper d = lit "TAB" then [9] else if upper d = lit "SPACE" then [32] else upper d

theorem Unread.cut {c : Clp} {regs args : List Str} (hu : Unread c regs args) (hc : CutShort regs args) : c.parameters.2 = .error .userError := by
  obtain ⟨items, o, o1, o2, o3, o4⟩ := hc
  have hscan := scan_items items c [o] (fun a ha => (o1 a ha).same (fun o => (hu.regs o).symm))
  rw [← o4] at hscan
  unfold Clp.parameters Clp.parse
  rw [if_neg (by rw [hu.parsed]; simp), hu.args, hscan]
  simp only [Clp.scan]
  rw [if_pos ((dashed_iff o).mpr o2), if_pos (by rw [(after_regs items c).1]; exact (hu.regs o).mpr o3)]

/-- `odc import`: what is done, for every command line.  Without a statement of its own the delimiter is a comma, whatever the command line says. -/
theorem C63_import_plan (args : List Str) :
    (CutShort importOptions args → importPlan args = .error .userError) ∧
    ∀ items, Says importOptions args items →
      ((Arg.words items).length ≠ 3 → importPlan args = .error .userError) ∧
      (∀ tool src dst, Arg.words items = [tool, src, dst] →
        ((Arg.value (lit "-sql") items).getD (lit "select *;") = lit "select *;" → importPlan args = .ok (.plain src dst (lit ","))) ∧
        (∀ sql, Arg.value (lit "-sql") items = some sql → sql ≠ lit "select *;" →
          importPlan args = .ok (.query src dst sql (delimMeant ((Arg.value (lit "-d") items).getD (lit ",")))))) := by
  have hu : Unread (((Clp.new args).register (lit "-d")).register (lit "-sql")) importOptions args :=
    ⟨rfl, rfl, fun o => by simp [Clp.register, Clp.new, importOptions, or_comm], rfl, rfl, rfl⟩
  constructor
  · intro hc
    have hfail := hu.cut hc
    unfold importPlan
    dsimp only
    generalize Clp.parameters (((Clp.new args).register (lit "-d")).register (lit "-sql")) = r at hfail ⊢
    obtain ⟨c, r⟩ := r
    dsimp only at hfail
    rw [hfail]
  · intro items hs
    obtain ⟨c', p1, p2⟩ := hu.parse hs
    have hpar : Clp.parameters (((Clp.new args).register (lit "-d")).register (lit "-sql")) = (c', .ok (Arg.words items)) := by
      unfold Clp.parameters
      rw [p1]
      dsimp only
      rw [p2.params]
    have harg : ∀ o d, c'.optionArgument (fun s => Except.ok s) o d = (c', .ok ((Arg.value o items).getD d)) := by
      intro o d
      unfold Clp.optionArgument
      rw [p2.parse, ← p2.value o]
      dsimp only
      cases c'.withArg.find? (fun p => decide (p.1 = o)) <;> rfl
    unfold importPlan
    dsimp only
    rw [hpar]
    dsimp only
    constructor
    · intro h
      rw [if_pos h]
    · intro tool src dst hw
      rw [if_neg (by rw [hw]; simp), harg]
      dsimp only
      rw [harg]
      dsimp only
      constructor
      · intro h
        rw [if_pos h, hw]
        rfl
      · intro sql h hn
        rw [h]
        simp only [Option.getD_some]
        rw [if_neg hn, hw]
        rfl

/-- `odc import` without a statement of its own imports the table the text stands for, if the cells are separated by commas. -/
theorem C63_import (lib : CsvLib) (env : Env) (hmd5 : env.Md5Ok) (hd : env.asDbl = true) (cap : Nat) (hcap : 0 < cap) (junk : Junk)
    (args : List Str) (items : List Arg) (hs : Says importOptions args items) (tool src dst : Str) (hw : Arg.words items = [tool, src, dst])
    (hq : (Arg.value (lit "-sql") items).getD (lit "select *;") = lit "select *;")
    (T : UTable) (hT : T.AnyRowsOk env) (hne : T.cols ≠ []) (text : List Byte) (h : CsvText lib (lit ",") T text) :
    ∃ out, importTool lib env cap junk args text = .ok (.plain src dst (lit ","), some (T.rows, out)) ∧ ((∀ f ∈ out, f.length ≤ 2147483647) →
      ∀ (junk' : Junk) (fuel' : Nat), T.rows + 1 < fuel' →
        ∃ views, readRows env junk' out.flatten fuel' = (views, none) ∧ Match (IsRow env T) (List.range T.rows) views) := by
  obtain ⟨out, h1, h2⟩ := C35_import lib env hmd5 hd cap hcap junk (lit ",") T hT hne text h
  refine ⟨out, ?_, h2⟩
  unfold importTool
  rw [(((C63_import_plan args).2 items hs).2 tool src dst hw).1 hq]
  dsimp only
  rw [h1]

/-! ### What goes wrong -/

/-- **`odc import -d` has no effect**: whatever the delimiter, the text is taken to be separated by commas. -/
theorem C63_violated_delimiter (d src dst : Str) (h1 : ¬ OptionLike src) (h2 : ¬ OptionLike dst) :
    importPlan [lit "import", lit "-d", d, src, dst] = .ok (.plain src dst (lit ",")) := by
  have himp : ¬ OptionLike (lit "import") := by rw [← dashed_iff]; decide +kernel
  have hd : OptionLike (lit "-d") := (dashed_iff _).mp (by decide +kernel)
  refine (((C63_import_plan _).2 [.word (lit "import"), .opt (lit "-d") d, .word src, .word dst] ⟨?_, rfl⟩).2 (lit "import") src dst rfl).1 ?_
  · intro a ha
    simp only [List.mem_cons, List.not_mem_nil, or_false] at ha
    rcases ha with rfl | rfl | rfl | rfl
    · exact himp
    · exact ⟨hd, by simp [importOptions]⟩
    · exact h1
    · exact h2
  · have : lit "-d" ≠ lit "-sql" := by decide +kernel
    simp [Arg.value, this]

/-- With a statement of its own the delimiter is put into upper case, so that cells separated by `x` cannot be told. -/
theorem C63_violated_case :
    importPlan [lit "import", lit "-d", lit "x", lit "-sql", lit "select a;", lit "f.csv", lit "f.odb"] = .ok (.query (lit "f.csv") (lit "f.odb") (lit "select a;") (lit "X")) := by
  decide +kernel

/-- Sample: the command line of the repository's own test. -/
def testArgs : List Str := [lit "-foo", lit "bar", lit "-intOpt", lit "69", lit "-blah", lit "-blahblah", lit "p1", lit "p2", lit "-lastOption", lit "p3"]

theorem testArgs_says : Says [lit "-foo", lit "-intOpt"] testArgs
    [.opt (lit "-foo") (lit "bar"), .opt (lit "-intOpt") (lit "69"), .flag (lit "-blah"), .flag (lit "-blahblah"), .word (lit "p1"), .word (lit "p2"),
      .flag (lit "-lastOption"), .word (lit "p3")] := by
  refine ⟨?_, rfl⟩
  intro a ha
  simp only [List.mem_cons, List.not_mem_nil, or_false] at ha
  rcases ha with rfl | rfl | rfl | rfl | rfl | rfl | rfl | rfl
  · exact ⟨(dashed_iff _).mp (by decide +kernel), by decide +kernel⟩
  · exact ⟨(dashed_iff _).mp (by decide +kernel), by decide +kernel⟩
  · exact ⟨(dashed_iff _).mp (by decide +kernel), by decide +kernel⟩
  · exact ⟨(dashed_iff _).mp (by decide +kernel), by decide +kernel⟩
  · show ¬ _; rw [← dashed_iff]; decide +kernel
  · show ¬ _; rw [← dashed_iff]; decide +kernel
  · exact ⟨(dashed_iff _).mp (by decide +kernel), by decide +kernel⟩
  · show ¬ _; rw [← dashed_iff]; decide +kernel

/-- The answers `C63_answers` gives for it. -/
example : (Clp.new testArgs).session Except.ok (α := Str)
      ([lit "-foo", lit "-intOpt"].map ClpCall.register ++ [.argument (lit "-foo") (lit "NONE"), .isSet (lit "-blahblah"), .isSet (lit "-blahblahblah"), .copy,
        .parameters, .parameter 3]) =
    [.done, .done, .val (lit "bar"), .bool true, .bool false, .done, .texts [lit "p1", lit "p2", lit "p3"], .failed .ub] := by
  rcases C63_answers (α := Str) Except.ok [lit "-foo", lit "-intOpt"] testArgs (.argument (lit "-foo") (lit "NONE")) trivial
      [.isSet (lit "-blahblah"), .isSet (lit "-blahblahblah"), .copy, .parameters, .parameter 3] with ⟨items, h1, _, _, h⟩ | ⟨_, h, _⟩
  · rw [h, h1.unique testArgs_says]
    rfl
  · exact absurd ⟨_, testArgs_says⟩ h

/-- An option that lacks its argument. -/
example : CutShort importOptions [lit "import", lit "f.csv", lit "f.odb", lit "-d"] := by
  refine ⟨[.word (lit "import"), .word (lit "f.csv"), .word (lit "f.odb")], lit "-d", ?_, (dashed_iff _).mp (by decide +kernel), by decide +kernel, rfl⟩
  intro a ha
  simp only [List.mem_cons, List.not_mem_nil, or_false] at ha
  rcases ha with rfl | rfl | rfl <;> (show ¬ _; rw [← dashed_iff]; decide +kernel)

end Verif
