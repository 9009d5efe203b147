import Verif.PropSet
import Verif.MdSamples
import Verif.PropC22

/-!
C51: what the values of assignments mean, cases that meet the hypotheses, and what users cannot rely on.
-/

namespace Verif

/-! ### What it means for a column to be filled with a word -/

/-- An INTEGER column set to a whole number, if integers are passed as doubles: that number in all rows. -/
theorem filled_ints (env : Env) (h : env.asDbl = true) (vs : List Int) (n : Int) :
    (Vals.ints vs).Filled env (ofInt n) (.ints (List.replicate vs.length n)) := by
  refine ⟨by simp [Vals.rows], rfl, rfl, rfl, ?_⟩
  intro x hx
  simp only [Vals.cells, List.mem_map, List.mem_replicate] at hx
  obtain ⟨i, ⟨_, rfl⟩, rfl⟩ := hx
  rw [h]; rfl

/-- The same for bitfields. -/
theorem filled_bits (env : Env) (h : env.asDbl = true) (ms : List (Str × Int)) (vs : List Int) (n : Int) :
    (Vals.bits ms vs).Filled env (ofInt n) (.bits ms (List.replicate vs.length n)) := by
  refine ⟨by simp [Vals.rows], rfl, rfl, rfl, ?_⟩
  intro x hx
  simp only [Vals.cells, List.mem_map, List.mem_replicate] at hx
  obtain ⟨i, ⟨_, rfl⟩, rfl⟩ := hx
  rw [h]; rfl

/-- DOUBLE columns take any number. -/
theorem filled_doubles (env : Env) (vs : List Word) (w : Word) : (Vals.doubles vs).Filled env w (.doubles (List.replicate vs.length w)) := by
  refine ⟨by simp [Vals.rows], rfl, rfl, rfl, ?_⟩
  intro x hx
  simp only [Vals.cells, List.mem_map, List.mem_replicate] at hx
  obtain ⟨i, ⟨_, rfl⟩, rfl⟩ := hx
  rfl

/-- So do REAL columns (what is stored is then a float). -/
theorem filled_reals (env : Env) (vs : List Word) (w : Word) : (Vals.reals vs).Filled env w (.reals (List.replicate vs.length w)) := by
  refine ⟨by simp [Vals.rows], rfl, rfl, rfl, ?_⟩
  intro x hx
  simp only [Vals.cells, List.mem_map, List.mem_replicate] at hx
  obtain ⟨i, ⟨_, rfl⟩, rfl⟩ := hx
  rfl

/-- A STRING column of one word set to a text of at most eight bytes: that text, after blanks that make it eight bytes long. -/
theorem filled_strings (env : Env) (vs : List Str) (s : Str) (hs : s.length ≤ 8) :
    (Vals.strings 1 vs).Filled env (wordOfBytes (List.replicate (8 - s.length) 32 ++ s))
      (.strings 1 (List.replicate vs.length (List.replicate (8 - s.length) 32 ++ s))) := by
  refine ⟨by simp [Vals.rows], rfl, rfl, rfl, ?_⟩
  intro x hx
  simp only [Vals.cells, List.mem_map, List.mem_replicate] at hx
  obtain ⟨i, ⟨_, rfl⟩, rfl⟩ := hx
  have hl : (List.replicate (8 - s.length) (32 : Byte) ++ s).length = 8 := by simp; omega
  generalize List.replicate (8 - s.length) (32 : Byte) ++ s = t at hl
  match t, hl with
  | [a, b, c, d, e, f, g, h], _ => rfl

/-! ### A case -/

/-- Sample: the library. -/
def setLib : SetLib where
  toDouble := sampleLib.toDouble
  hex := fun s => match s with
    | [a, b] => (a - 48) * 16 + (b - 48)
    | _ => 0

/-- Sample: two rows. -/
def setA : UTable := { rows := 2, props := [], cols := [⟨lit "a@t", .ints [1, 2]⟩, ⟨lit "s@t", .strings 1 [lit "x", lit "yz"]⟩, ⟨lit "d", .doubles [0, 1]⟩] }

/-- Sample: a row with the same columns. -/
def setB : UTable := { rows := 1, props := [], cols := [⟨lit "a@t", .ints [7]⟩, ⟨lit "s@t", .strings 1 [lit "w"]⟩, ⟨lit "d", .doubles [2]⟩] }

/-- Sample: the first table after `a=5,s='ab',a@t=6`. -/
def setA' : UTable :=
  { rows := 2, props := [], cols := [⟨lit "a@t", .ints [6, 6]⟩, ⟨lit "s@t", .strings 1 [lit "      ab", lit "      ab"]⟩, ⟨lit "d", .doubles [0, 1]⟩] }

/-- Sample: the second table after it. -/
def setB' : UTable := { rows := 1, props := [], cols := [⟨lit "a@t", .ints [6]⟩, ⟨lit "s@t", .strings 1 [lit "      ab"]⟩, ⟨lit "d", .doubles [2]⟩] }

/-- Sample: the columns and values of both. -/
def setGroup : List InCol := [⟨lit "a@t", .ints [6]⟩, ⟨lit "s@t", .strings 1 [lit "      ab"]⟩, ⟨lit "d", .doubles [0, 1, 2]⟩]

/-- Sample: the command run on tables. -/
def trySet (env : Env) (text : Str) (Ts : List UTable) : Except Err (Nat × List (List Byte)) :=
  match writeTables env Ts with
  | .error e => .error e
  | .ok bss => setFile env setLib 10 (fun _ _ _ => 0) text bss.flatten 100

/-- The command on both tables. -/
example : (trySet dblEnv (lit "a=5,s='ab',a@t=6") [setA, setB]).map Prod.fst = .ok 3 ∧
    rowsSeen dblEnv ((trySet dblEnv (lit "a=5,s='ab',a@t=6") [setA, setB]).map Prod.snd) 10 =
    some ([[[ofInt 6], wordsOf 1 (lit "      ab"), [0]], [[ofInt 6], wordsOf 1 (lit "      ab"), [1]], [[ofInt 6], wordsOf 1 (lit "      ab"), [2]]], true) :=
  ⟨by decide +kernel, by decide +kernel⟩

/-- Sample: the words of `a=5,s='ab',a@t=6`. -/
def setSampleWords : List SetWords := [⟨lit "a", lit "5"⟩, ⟨lit "s", lit "'ab'"⟩, ⟨lit "a@t", lit "6"⟩]

/-- Sample: what they mean. -/
def setSampleUpdates : List (Str × Word) := [(lit "a", ofInt 5), (lit "s", wordOfBytes (lit "      ab")), (lit "a@t", ofInt 6)]

theorem setSample_words : joinWith 44 (setSampleWords.map SetWords.text) = lit "a=5,s='ab',a@t=6" ∧
    Match (SetWords.Ok setLib) setSampleWords setSampleUpdates := by
  refine ⟨by decide +kernel, ?_⟩
  refine .cons ⟨by decide +kernel, by decide +kernel, rfl, .text (by decide +kernel) (.number _ _ (by decide +kernel) (by decide +kernel) (by decide +kernel))⟩
    (.cons ⟨by decide +kernel, by decide +kernel, rfl, .text (by decide +kernel) ?_⟩
      (.cons ⟨by decide +kernel, by decide +kernel, rfl, .text (by decide +kernel) (.number _ _ (by decide +kernel) (by decide +kernel) (by decide +kernel))⟩ .nil))
  exact .quoted 39 (lit "ab") (Or.inr rfl) (by decide +kernel)

/-- A value in hexadecimal. -/
example : SetText setLib (lit "0x4162") (wordOfBytes (lit "Ab")) :=
  .hex [(lit "41", 65), (lit "62", 98)] (by decide) (by intro b hb; simp at hb; rcases hb with rfl | rfl <;> decide +kernel)

theorem means_not {q full : Str} (h : columnNameMatches full q = false) : ¬ Means q full := by
  intro hm
  rw [(columnNameMatches_iff full q).mpr hm] at h
  simp at h

/-- Sample: the columns of both tables are called this. -/
def setNames : List Str := [lit "a@t", lit "s@t", lit "d"]

theorem setSample_one : ∀ u ∈ setSampleUpdates, ∀ cs : List InCol, cs.map InCol.name = setNames → MeansOne u.1 cs := by
  intro u hu cs hcs
  have hix : ∃ p, columnIndex setNames u.1 = .ok p := by
    simp only [setSampleUpdates, List.mem_cons, List.not_mem_nil, or_false] at hu
    rcases hu with rfl | rfl | rfl
    · exact ⟨0, by decide +kernel⟩
    · exact ⟨1, by decide +kernel⟩
    · exact ⟨0, by decide +kernel⟩
  obtain ⟨p, hp⟩ := hix
  obtain ⟨⟨n, n1, n2⟩, n3⟩ := ((C24_column_index setNames u.1).1 p).mp hp
  rw [← hcs] at n1 n3
  rw [List.getElem?_map, Option.map_eq_some_iff] at n1
  obtain ⟨c, c1, rfl⟩ := n1
  refine ⟨p, c, c1, n2, ?_⟩
  intro p' c' h1 h2
  exact n3 p' c'.name (by rw [List.getElem?_map, h1]; rfl) h2

theorem setSample_table (n : Nat) (ai : List Int) (ss : List Str) (ds : List Word) (ha : ai.length = n) (hs : ss.length = n) :
    SetTable dblEnv setSampleUpdates { rows := n, props := [], cols := [⟨lit "a@t", .ints ai⟩, ⟨lit "s@t", .strings 1 ss⟩, ⟨lit "d", .doubles ds⟩] }
      { rows := n, props := [], cols := [⟨lit "a@t", .ints (List.replicate n 6)⟩, ⟨lit "s@t", .strings 1 (List.replicate n (lit "      ab"))⟩, ⟨lit "d", .doubles ds⟩] } := by
  refine ⟨rfl, .cons (Or.inr ⟨setSampleUpdates.take 2, [], (lit "a@t", ofInt 6), by decide +kernel, ?_, by simp, rfl, ?_⟩)
    (.cons (Or.inr ⟨setSampleUpdates.take 1, setSampleUpdates.drop 2, (lit "s", wordOfBytes (lit "      ab")), by decide +kernel, ?_, ?_, rfl, ?_⟩)
      (.cons (Or.inl ⟨?_, rfl⟩) .nil))⟩
  · exact Or.inl rfl
  · subst ha
    have h := filled_ints dblEnv rfl ai 6
    dsimp only
    generalize ofInt 6 = w at h ⊢
    exact h
  · show Means (lit "s") (lit "s@t")
    exact (columnNameMatches_iff _ _).mp (by decide +kernel)
  · intro x hx
    exact means_not (ball (P := fun x : Str × Word => columnNameMatches (lit "s@t") x.1 = false) (l := setSampleUpdates.drop 2) (by decide +kernel) x hx)
  · subst hs
    exact filled_strings dblEnv ss (lit "ab") (by decide +kernel)
  · intro x hx
    exact means_not (ball (P := fun x : Str × Word => columnNameMatches (lit "d") x.1 = false) (l := setSampleUpdates) (by decide +kernel) x hx)

theorem setGroup_ok : ∀ b ∈ setGroup, b.vals.Ok dblEnv ∧ (dblEnv.longEnv = true → b.vals.NoEmpty) := by
  intro b hb
  simp only [setGroup, List.mem_cons, List.not_mem_nil, or_false] at hb
  rcases hb with rfl | rfl | rfl
  · exact ⟨ball (P := InI32) (by decide +kernel), fun _ => trivial⟩
  · refine ⟨⟨by decide, by decide, ?_, ?_, ?_, ?_⟩, ?_⟩
    · intro s hs
      simp only [List.mem_cons, List.not_mem_nil, or_false] at hs
      subst hs
      exact ⟨by decide +kernel, nulFree_of (by decide +kernel)⟩
    · intro ds h1 h2
      exact few_distinct _ _ h1 h2 (by decide)
    · intro h; cases h
    · exact ball (by decide +kernel)
    · intro h; cases h
  · exact ⟨⟨ball (by decide +kernel), ball (by decide +kernel), by decide +kernel, fun h => absurd h (by decide +kernel)⟩, fun _ => trivial⟩

/-- Sample: the columns and values of both tables before the assignments. -/
def setGroup0 : List InCol := [⟨lit "a@t", .ints [1, 2, 7]⟩, ⟨lit "s@t", .strings 1 [lit "x", lit "yz", lit "w"]⟩, ⟨lit "d", .doubles [0, 1, 2]⟩]

theorem setGroup0_ok : ∀ b ∈ setGroup0, b.vals.Ok dblEnv ∧ (dblEnv.longEnv = true → b.vals.NoEmpty) := by
  intro b hb
  simp only [setGroup0, List.mem_cons, List.not_mem_nil, or_false] at hb
  rcases hb with rfl | rfl | rfl
  · exact ⟨ball (P := InI32) (by decide +kernel), fun _ => trivial⟩
  · refine ⟨⟨by decide, by decide, ?_, ?_, ?_, ?_⟩, ?_⟩
    · intro s hs
      simp only [List.mem_cons, List.not_mem_nil, or_false] at hs
      rcases hs with rfl | rfl | rfl <;> exact ⟨by decide +kernel, nulFree_of (by decide +kernel)⟩
    · intro ds h1 h2
      exact few_distinct _ _ h1 h2 (by decide)
    · intro h; cases h
    · exact ball (by decide +kernel)
    · intro h; cases h
  · exact ⟨⟨ball (by decide +kernel), ball (by decide +kernel), by decide +kernel, fun h => absurd h (by decide +kernel)⟩, fun _ => trivial⟩

theorem setTables_within : (∀ T ∈ [setA, setB], T.Within setGroup0) ∧ ∀ T ∈ [setA', setB'], T.Within setGroup := by
  constructor
  all_goals
    intro T hT
    simp only [List.mem_cons, List.not_mem_nil, or_false] at hT
    rcases hT with rfl | rfl
  all_goals
    exact .cons ⟨rfl, by simp [Vals.In]⟩ (.cons ⟨rfl, by simp [Vals.In]⟩ (.cons ⟨rfl, by simp [Vals.In]⟩ .nil))

theorem setTables_fits : ∀ T ∈ [setA, setB, setA', setB'], ∀ c ∈ T.cols, c.vals.Fits ∧ c.vals.Exact ∧ c.vals.words = 1 ∧ LenOk c.name.length ∧
    c.vals.rows = T.rows := by
  intro T hT c hc
  simp only [List.mem_cons, List.not_mem_nil, or_false] at hT
  rcases hT with rfl | rfl | rfl | rfl
  all_goals
    simp only [setA, setB, setA', setB', List.mem_cons, List.not_mem_nil, or_false] at hc
    rcases hc with rfl | rfl | rfl
  all_goals first
    | exact ⟨trivial, trivial, rfl, by decide +kernel, rfl⟩
    | exact ⟨⟨by decide, ball (by decide +kernel)⟩, trivial, rfl, by decide +kernel, rfl⟩

theorem setTables_vals : ∀ T ∈ [setA, setB, setA', setB'], ∀ c ∈ T.cols, c.vals.Ok dblEnv ∧ (dblEnv.longEnv = true → c.vals.NoEmpty) := by
  intro T hT c hc
  obtain ⟨hf, _⟩ := setTables_fits T hT c hc
  obtain ⟨G, hG, hw⟩ : ∃ G : List InCol, (∀ b ∈ G, b.vals.Ok dblEnv ∧ (dblEnv.longEnv = true → b.vals.NoEmpty)) ∧ T.Within G := by
    simp only [List.mem_cons, List.not_mem_nil, or_false] at hT
    rcases hT with rfl | rfl | rfl | rfl
    · exact ⟨setGroup0, setGroup0_ok, setTables_within.1 _ (by simp)⟩
    · exact ⟨setGroup0, setGroup0_ok, setTables_within.1 _ (by simp)⟩
    · exact ⟨setGroup, setGroup_ok, setTables_within.2 _ (by simp)⟩
    · exact ⟨setGroup, setGroup_ok, setTables_within.2 _ (by simp)⟩
  obtain ⟨b, hb, _, h2⟩ := Match.mem_right' hw hc
  exact h2.ok hf (hG b hb).1 (hG b hb).2

theorem setTables_ok : ∀ T ∈ [setA, setB], T.Ok dblEnv := by
  intro T hT
  have hv := setTables_vals T (by simp at hT ⊢; tauto)
  have hf := setTables_fits T (by simp at hT ⊢; tauto)
  refine ⟨⟨?_, ?_, fun c hc => ⟨(hf c hc).2.2.2.1, (hv c hc).1.codable, (hf c hc).2.2.2.2⟩, ?_, ?_, ?_, ?_, ?_⟩, ?_⟩
  all_goals
    simp only [List.mem_cons, List.not_mem_nil, or_false] at hT
    rcases hT with rfl | rfl
  all_goals first
    | exact List.Pairwise.nil
    | exact ball (by decide +kernel)
    | (intro kv hkv; cases hkv; done)
    | decide +kernel

theorem setTables_settable : ∀ T ∈ [setA, setB], Settable setSampleUpdates T := by
  intro T hT
  have hf := setTables_fits T (by simp at hT ⊢; tauto)
  refine ⟨?_, fun c hc => (hf c hc).2.2.1⟩
  intro u hu
  apply setSample_one u hu
  simp only [List.mem_cons, List.not_mem_nil, or_false] at hT
  rcases hT with rfl | rfl <;> rfl

/-- `C51_set_encoded` applies to them. -/
example : ∃ bss, writeTables dblEnv [setA, setB] = .ok bss ∧ ((∀ b ∈ bss, b.length ≤ 2147483647) →
      ∀ (junk : Junk) (fuel : Nat), 3 + 1 < fuel →
        ∃ out, setFile dblEnv setLib 2 junk (lit "a=5,s='ab',a@t=6") bss.flatten fuel = .ok (3, out) ∧
          ((∀ f ∈ out, f.length ≤ 2147483647) → ∀ (junk' : Junk) (fuel' : Nat), 3 + 1 < fuel' →
            ∃ views, readRows dblEnv junk' out.flatten fuel' = (views, none) ∧ Match (IsRowAt dblEnv) (allRows [setA', setB']) views)) := by
  have hset : Match (SetTable dblEnv setSampleUpdates) [setA, setB] [setA', setB'] :=
    .cons (setSample_table 2 _ _ _ rfl rfl) (.cons (setSample_table 1 _ _ _ rfl rfl) .nil)
  have h := C51_set_encoded dblEnv sampleEnv_md5 setLib 2 (by decide) [setA, setB] (by simp) setTables_ok
    (fun T hT c hc => ⟨(setTables_vals T (by simp at hT ⊢; tauto) c hc).1, (setTables_fits T (by simp at hT ⊢; tauto) c hc).2.1⟩)
    (by intro T hT; simp at hT; rcases hT with rfl | rfl <;> decide) setSampleWords setSampleUpdates setSample_words.2 setTables_settable
    [(setGroup, setA'), (setGroup, setB')] hset
    (by
      intro p hp
      have hm : p.2 ∈ [setA', setB'] := by simp at hp ⊢; rcases hp with rfl | rfl <;> simp
      have hv := setTables_vals p.2 (by simp at hm ⊢; tauto)
      have hf := setTables_fits p.2 (by simp at hm ⊢; tauto)
      refine ⟨?_, fun c hc => (hf c hc).2.2.2.2, ?_, ?_, fun c hc => (hv c hc).1, fun h c hc => (hv c hc).2 h⟩
      · simp at hp; rcases hp with rfl | rfl <;> decide
      · intro c hc
        refine ⟨(hf c hc).2.2.2.1, ?_, ?_⟩
        all_goals
          simp at hp
          rcases hp with rfl | rfl
        all_goals
          simp only [setA', setB', List.mem_cons, List.not_mem_nil, or_false] at hc
          rcases hc with rfl | rfl | rfl <;> simp [Vals.members, LenOk]
      · simp at hp; rcases hp with rfl | rfl <;> decide)
    (by intro p hp; simp at hp; rcases hp with rfl | rfl <;> exact setTables_within.2 _ (by simp))
    (by intro p hp; simp at hp; rcases hp with rfl | rfl <;> exact setGroup_ok)
    ⟨Or.inl rfl, trivial⟩ (by decide)
  rw [setSample_words.1] at h
  exact h

/-- Refusals: an unknown column, one that is meant twice, a value that is no number, a text that is no assignment, too many hexadecimal digits. -/
example : errorIs (trySet dblEnv (lit "x=4") [setA]) .columnNotFound = true ∧
    errorIs (trySet dblEnv (lit "a=4") [{ rows := 1, props := [], cols := [⟨lit "a@t", .ints [1]⟩, ⟨lit "a@u", .ints [1]⟩] }]) .ambiguousColumn = true ∧
    errorIs (trySet dblEnv (lit "a=four") [setA]) .userError = true ∧
    errorIs (trySet dblEnv (lit "a") [setA]) .assertFailed = true ∧ errorIs (trySet dblEnv (lit "s=0x414141414141414141") [setA]) .assertFailed = true := by
  decide +kernel

/-! ### What users cannot rely on -/

/-- **C51 fails** for files with strings of more than one word, whichever column is set: the tool copies as many words of a row as there are columns,
and the writer reads beyond them. -/
theorem C51_violated_wide :
    errorIs (trySet dblEnv (lit "a=4") [{ rows := 1, props := [], cols := [⟨lit "s", .strings 2 [lit "0123456789"]⟩, ⟨lit "a", .ints [1]⟩] }]) .ub = true := by
  decide +kernel

/-- **C51 fails** for a file of a table without rows: the output has one row. -/
theorem C51_violated_norows :
    (trySet dblEnv (lit "a=4") [{ rows := 0, props := [], cols := [⟨lit "a", .ints []⟩, ⟨lit "b", .ints []⟩] }]).map Prod.fst = .ok 1 := by
  decide +kernel

end Verif
