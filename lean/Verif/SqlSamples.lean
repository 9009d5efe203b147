import Verif.PropSqlEnc
import Verif.SetSamples

/-!
C52: cases that meet the hypotheses, and what users cannot rely on.
-/

namespace Verif

/-- Sample: three rows, a value missing. -/
def sqlA : UTable := { rows := 3, props := [], cols := [⟨lit "k", .ints [1, 2147483647, 5]⟩, ⟨lit "s@t", .strings 1 [lit "ab", lit "cd", lit "ef"]⟩] }

/-- Sample: two rows, the columns in another order, wider strings. -/
def sqlB : UTable := { rows := 2, props := [], cols := [⟨lit "s@t", .strings 2 [lit "longer text", lit "x"]⟩, ⟨lit "k", .ints [5, 5]⟩] }

/-- Sample: the condition `k = 5`. -/
def keepFive : List (Cell × Bool) → Bool
  | [(x, m)] => !m && decide (cellWord x = 5)
  | _ => false

/-- Sample: `select s as txt, k where k = 5`. -/
def sqlQ : Query := { select := [(lit "s", lit "txt"), (lit "k", lit "k")], cond := [lit "k"], keep := keepFive }

/-- Sample: its answer on `sqlA`. -/
def sqlRA : UTable := { rows := 1, props := [], cols := [⟨lit "txt", .strings 1 [lit "ef"]⟩, ⟨lit "k", .ints [5]⟩] }

/-- Sample: its answer on `sqlB`. -/
def sqlRB : UTable := { rows := 2, props := [], cols := [⟨lit "txt", .strings 2 [lit "longer text", lit "x"]⟩, ⟨lit "k", .ints [5, 5]⟩] }

/-- Sample: columns and values of the answers. -/
def sqlGroup : List InCol := [⟨lit "txt", .strings 2 [lit "ef", lit "longer text", lit "x"]⟩, ⟨lit "k", .ints [5]⟩]

/-- Sample: the length of a text up to the first zero. -/
def textLen (s : List Byte) : Nat := (s.takeWhile (fun b => decide (b ≠ 0))).length

/-- Sample: the filter run on tables. -/
def tryFilter (env : Env) (q : Query) (Ts : List UTable) : Except Err (Nat × List (List Byte)) :=
  match writeTables env Ts with
  | .error e => .error e
  | .ok bss => filterFile env textLen 10 (fun _ _ _ => 0) q bss.flatten 100

/-- The filter on both tables: three rows. -/
example : (tryFilter sampleEnv sqlQ [sqlA, sqlB]).map Prod.fst = .ok 3 ∧
    rowsSeen sampleEnv ((tryFilter sampleEnv sqlQ [sqlA, sqlB]).map Prod.snd) 10 =
      some ([[wordsOf 1 (lit "ef"), [5]], [wordsOf 2 (lit "longer text"), [5]], [wordsOf 2 (lit "x"), [5]]], true) :=
  ⟨by decide +kernel, by decide +kernel⟩

/-! The hypotheses of `C52_filter_encoded` are met. -/

theorem textLen_ok : StrLen textLen := by
  intro s n hs
  have : textLen (s ++ List.replicate n 0) = s.length := by
    unfold textLen
    rw [List.takeWhile_append_of_pos (by intro b hb; simpa using hs b hb)]
    cases n <;> simp [List.replicate_succ]
  omega

theorem keepFive_text : sqlQ.OfText := by
  have hw : ∀ a b : Cell, SameText a b → cellWord a = cellWord b := by
    rintro a b ⟨n, rfl | rfl⟩
    · cases b with
      | nil => cases n <;> simp [cellWord, List.replicate_succ]
      | cons x b => rfl
    · cases a with
      | nil => cases n <;> simp [cellWord, List.replicate_succ]
      | cons x b => rfl
  intro xs ys h
  show keepFive xs = keepFive ys
  cases h with
  | nil => rfl
  | @cons a b xs ys h1 h2 =>
    cases h2 with
    | nil =>
      obtain ⟨a1, a2⟩ := a
      obtain ⟨b1, b2⟩ := b
      obtain ⟨h3, h4⟩ := h1
      dsimp only at h3 h4
      simp only [keepFive]
      rw [hw _ _ h3, h4]
    | cons _ _ => rfl

theorem queryMeans_self {names : List Str} {q : Str} (h : q ∈ names) : QueryMeans names q q := ⟨h, Or.inl rfl⟩

theorem queryMeans_at {names : List Str} {q : Str} (t : Str) (h1 : q ++ 0x40 :: t ∈ names) (h2 : q ∉ names)
    (h3 : ∀ n ∈ names, n = q ++ 0x40 :: t ∨ columnNameMatches n q = false) : QueryMeans names q (q ++ 0x40 :: t) := by
  refine ⟨h1, Or.inr ⟨h2, ⟨t, rfl⟩, ?_⟩⟩
  rintro n hn ⟨t', rfl⟩
  rcases h3 _ hn with h | h
  · exact h
  · exact absurd (Or.inr ⟨t', rfl⟩) (means_not h)

theorem chosen_at {first : List Str} {T : UTable} {q n : Str} {c : InCol} {p : Nat} (h : QueryMeans first q n)
    (hp : columnIndex (T.cols.map InCol.name) n = .ok p) (hc : T.cols[p]? = some c) : Chosen first T q c := by
  obtain ⟨⟨m, m1, m2⟩, m3⟩ := ((C24_column_index _ n).1 p).mp hp
  rw [List.getElem?_map, hc] at m1
  simp only [Option.map_some, Option.some.injEq] at m1
  subst m1
  exact ⟨n, h, p, hc, m2, fun p' c' h1 h2 => m3 p' c'.name (by rw [List.getElem?_map, h1]; rfl) h2⟩

theorem sqlNames_s : QueryMeans (sqlA.cols.map InCol.name) (lit "s") (lit "s" ++ 0x40 :: lit "t") :=
  queryMeans_at (lit "t") (by decide +kernel) (by decide +kernel) (by decide +kernel)

theorem sqlNames_k : QueryMeans (sqlA.cols.map InCol.name) (lit "k") (lit "k") := queryMeans_self (by decide +kernel)

theorem sqlSample_answers : Match (Answer sampleEnv sqlQ (sqlA.cols.map InCol.name)) [sqlA, sqlB] [sqlRA, sqlRB] := by
  refine .cons ⟨[⟨lit "k", .ints [1, 2147483647, 5]⟩], ?_, ?_, ?_⟩ (.cons ⟨[⟨lit "k", .ints [5, 5]⟩], ?_, ?_, ?_⟩ .nil)
  · exact .cons (chosen_at (p := 0) sqlNames_k (by decide +kernel) rfl) .nil
  · decide +kernel
  · have : sqlQ.rows sampleEnv sqlA [⟨lit "k", .ints [1, 2147483647, 5]⟩] = [2] := by decide +kernel
    rw [this]
    exact .cons ⟨_, chosen_at (p := 1) sqlNames_s (by decide +kernel) rfl, rfl, rfl⟩
      (.cons ⟨_, chosen_at (p := 0) sqlNames_k (by decide +kernel) rfl, rfl, rfl⟩ .nil)
  · exact .cons (chosen_at (p := 1) sqlNames_k (by decide +kernel) rfl) .nil
  · decide +kernel
  · have : sqlQ.rows sampleEnv sqlB [⟨lit "k", .ints [5, 5]⟩] = [0, 1] := by decide +kernel
    rw [this]
    exact .cons ⟨_, chosen_at (p := 0) sqlNames_s (by decide +kernel) rfl, rfl, rfl⟩
      (.cons ⟨_, chosen_at (p := 1) sqlNames_k (by decide +kernel) rfl, rfl, rfl⟩ .nil)

theorem sqlStrings_ok (w : Nat) (ss : List Str) (hw : 1 ≤ w ∧ w ≤ 2) (h : (ss.all (fun s => decide (s.length ≤ 8 * w) && s.all (fun b => decide (b ≠ 0)) &&
      !isNaN (wordOfBytes (s.take 8)))) = true) (hl : ss.length < 65536) : (Vals.strings w ss).Ok sampleEnv := by
  have h' : ∀ s ∈ ss, s.length ≤ 8 * w ∧ NulFree s ∧ isNaN (wordOfBytes (s.take 8)) = false := by
    intro s hs
    have := List.all_eq_true.mp h s hs
    rw [Bool.and_eq_true, Bool.and_eq_true, decide_eq_true_eq, Bool.not_eq_true'] at this
    exact ⟨this.1.1, nulFree_of this.1.2, this.2⟩
  exact ⟨hw.1, by omega, fun s hs => ⟨(h' s hs).1, (h' s hs).2.1⟩, fun ds h1 h2 => few_distinct _ _ h1 h2 hl, (by intro h; cases h),
    fun s hs => (h' s hs).2.2⟩

theorem sqlSample_vals : ∀ T ∈ [sqlA, sqlB], ∀ c ∈ T.cols, c.vals.Ok sampleEnv ∧ c.vals.Exact := by
  intro T hT c hc
  simp only [List.mem_cons, List.not_mem_nil, or_false] at hT
  rcases hT with rfl | rfl
  · simp only [sqlA, List.mem_cons, List.not_mem_nil, or_false] at hc
    rcases hc with rfl | rfl
    · exact ⟨ball (P := InI32) (by decide +kernel), trivial⟩
    · exact ⟨sqlStrings_ok 1 _ (by decide) (by decide +kernel) (by decide), trivial⟩
  · simp only [sqlB, List.mem_cons, List.not_mem_nil, or_false] at hc
    rcases hc with rfl | rfl
    · exact ⟨sqlStrings_ok 2 _ (by decide) (by decide +kernel) (by decide), trivial⟩
    · exact ⟨ball (P := InI32) (by decide +kernel), trivial⟩

theorem sqlSample_ok : ∀ T ∈ [sqlA, sqlB], T.Ok sampleEnv := by
  intro T hT
  have hv := sqlSample_vals T hT
  simp only [List.mem_cons, List.not_mem_nil, or_false] at hT
  have hc : ∀ c ∈ T.cols, LenOk c.name.length ∧ c.vals.rows = T.rows := by
    rcases hT with rfl | rfl <;> exact ball (by decide +kernel)
  refine ⟨⟨?_, ?_, fun c hcc => ⟨(hc c hcc).1, (hv c hcc).1.codable, (hc c hcc).2⟩, ?_, ?_, ?_, ?_, ?_⟩, ?_⟩
  all_goals rcases hT with rfl | rfl
  all_goals first
    | exact List.pairwise_singleton _ _
    | exact List.Pairwise.nil
    | exact ball (by decide +kernel)
    | (intro kv hkv; cases hkv; done)
    | decide +kernel

theorem sqlSample_within : ∀ R ∈ [sqlRA, sqlRB], R.Within sqlGroup := by
  intro R hR
  simp only [List.mem_cons, List.not_mem_nil, or_false] at hR
  rcases hR with rfl | rfl
  · exact .cons ⟨rfl, by decide, ball (P := fun x => x ∈ _) (by decide +kernel)⟩ (.cons ⟨rfl, ball (P := fun x => x ∈ [5]) (by decide +kernel)⟩ .nil)
  · exact .cons ⟨rfl, by decide, ball (P := fun x => x ∈ _) (by decide +kernel)⟩ (.cons ⟨rfl, ball (P := fun x => x ∈ [5]) (by decide +kernel)⟩ .nil)

theorem sqlSample_group : ∀ b ∈ sqlGroup, b.vals.Ok sampleEnv ∧ (sampleEnv.longEnv = true → b.vals.NoEmpty) := by
  intro b hb
  simp only [sqlGroup, List.mem_cons, List.not_mem_nil, or_false] at hb
  rcases hb with rfl | rfl
  · exact ⟨sqlStrings_ok 2 _ (by decide) (by decide +kernel) (by decide), by intro h; cases h⟩
  · exact ⟨ball (P := InI32) (by decide +kernel), fun _ => trivial⟩

/-- `C52_filter_encoded` applies to them. -/
example : ∃ bss, writeTables sampleEnv [sqlA, sqlB] = .ok bss ∧ ((∀ b ∈ bss, b.length ≤ 2147483647) →
      ∀ (junk : Junk) (fuel : Nat), 5 + 1 < fuel →
        ∃ out, filterFile sampleEnv textLen 10 junk sqlQ bss.flatten fuel = .ok (3, out) ∧
          ((∀ f ∈ out, f.length ≤ 2147483647) → ∀ (junk' : Junk) (fuel' : Nat), 3 + 1 < fuel' →
            ∃ views, readRows sampleEnv junk' out.flatten fuel' = (views, none) ∧ Match (IsRowAt sampleEnv) (allRows [sqlRA, sqlRB]) views)) :=
  C52_filter_encoded sampleEnv sampleEnv_md5 textLen textLen_ok 10 (by decide) sqlQ keepFive_text [sqlA, sqlB] [sqlRA, sqlRB] sqlSample_ok sqlSample_vals
    (by intro T hT; simp only [List.mem_cons, List.not_mem_nil, or_false] at hT; rcases hT with rfl | rfl <;> decide) sqlA rfl sqlSample_answers sqlGroup
    sqlSample_group sqlSample_within (by simp [sqlQ]) (by decide) (by
      intro s hs
      simp only [sqlQ, List.mem_cons, List.not_mem_nil, or_false] at hs
      rcases hs with rfl | rfl <;> decide +kernel) (by decide)

/-! ### What users cannot rely on -/

/-- Sample: `select k`. -/
def sqlOne : Query := { select := [(lit "k", lit "k")], cond := [], keep := fun _ => true }

/-- Sample: an INTEGER column. -/
def sqlInt : UTable := { rows := 1, props := [], cols := [⟨lit "k", .ints [1]⟩] }

/-- Sample: a DOUBLE column of the same name, with the value 1.5. -/
def sqlDbl : UTable := { rows := 2, props := [], cols := [⟨lit "k", .doubles [0x3ff8000000000000, 0]⟩] }

/-- Sample: columns `k` and `k@t`. -/
def sqlTwo : UTable := { rows := 1, props := [], cols := [⟨lit "k", .ints [1]⟩, ⟨lit "k@t", .ints [2]⟩] }

/-- **C52**, violated: a column that is INTEGER in the first table counts as INTEGER in all tables: 1.5 in a later one becomes 1. -/
theorem C52_violated_types :
    rowsSeen dblEnv ((tryFilter dblEnv sqlOne [sqlInt, sqlDbl]).map Prod.snd) 10 = some ([[[ofInt 1]], [[ofInt 1]], [[ofInt 0]]], true) := by decide +kernel

/-- **C52**, violated: of two columns `k` and `k@t`, the one called exactly as in the query cannot be selected. -/
theorem C52_violated_exact : errorIs (tryFilter sampleEnv sqlOne [sqlTwo]) .userError ∧
    (tryFilter sampleEnv { sqlOne with select := [(lit "k@t", lit "k")] } [sqlTwo]).map Prod.fst = .ok 1 :=
  ⟨by decide +kernel, by decide +kernel⟩

/-- **C52**, violated: without a query the file is copied, but the number of rows is given as 0. -/
theorem C52_violated_count (env : Env) (len : List Byte → Nat) (cap : Nat) (junk : Junk) (bytes : List Byte) (fuel : Nat) :
    filterApi env len cap junk none bytes fuel = .ok (0, [bytes]) := rfl

end Verif
