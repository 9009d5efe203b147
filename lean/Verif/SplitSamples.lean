import Verif.PropSplit

/-
C54: a file that meets the hypotheses, and what goes wrong outside them.
-/

namespace Verif

/-- Sample: three rows. -/
def splitA : UTable :=
  { rows := 3
    props := []
    cols := [⟨lit "type@hdr", .ints [1, 2, 1]⟩, ⟨lit "stn@hdr", .strings 1 [lit "ab", lit "ab", lit "c"]⟩,
      ⟨lit "value@body", .doubles [ofInt 10, ofInt 20, ofInt 30]⟩] }

/-- Sample: two rows with other columns, and the key columns in another place. -/
def splitB : UTable :=
  { rows := 2
    props := []
    cols := [⟨lit "stn@hdr", .strings 1 [lit "c", lit "ab"]⟩, ⟨lit "flag", .ints [7, 8]⟩, ⟨lit "type@hdr", .doubles [ofInt 1, ofInt 2]⟩] }

/-- Sample: the pieces of a template with two keys. -/
def splitTs : List (Str × Str) := [(lit "o.", lit "type"), (lit ".", lit "stn@hdr")]

/-- Sample: the columns meant in each table. -/
def splitPs (T : UTable) : List Part :=
  if T.rows = 3 then [⟨lit "o.", lit "type", ⟨lit "type@hdr", .ints [1, 2, 1]⟩⟩, ⟨lit ".", lit "stn@hdr", ⟨lit "stn@hdr", .strings 1 [lit "ab", lit "ab", lit "c"]⟩⟩]
  else [⟨lit "o.", lit "type", ⟨lit "type@hdr", .doubles [ofInt 1, ofInt 2]⟩⟩, ⟨lit ".", lit "stn@hdr", ⟨lit "stn@hdr", .strings 1 [lit "c", lit "ab"]⟩⟩]

/-- Sample: the tables in a file. -/
def splitBytes (env : Env) (Ts : List UTable) : List Byte :=
  match writeTables env Ts with
  | .error _ => []
  | .ok bss => bss.flatten

/-- Sample: a file is split; the rows found in a file afterwards. -/
def trySplit (env : Env) (Ts : List UTable) (tmpl : Str) (max cap : Nat) (nm : Str) : Option (List (List Cell) × Bool) :=
  match splitFile env tmpl max cap (fun _ => none) (fun _ _ _ => 0) (splitBytes env Ts) 30 with
  | .error _ => none
  | .ok (_, d) =>
    match d nm with
    | none => none
    | some bs => rowsSeen env (.ok [bs]) 20

example : tmplText splitTs (lit ".odb") = lit "o.{type}.{stn@hdr}.odb" := by decide +kernel

/-- Two open files for three names; the columns change after the third row. -/
theorem split_sample : trySplit dblEnv [splitA, splitB] (lit "o.{type}.{stn@hdr}.odb") 2 10 (lit "o.1.c.odb") =
      some ([[[ofInt 1], [wordOfBytes (lit "c")], [ofInt 30]], [[wordOfBytes (lit "c")], [ofInt 7], [ofInt 1]]], true) ∧
    trySplit dblEnv [splitA, splitB] (lit "o.{type}.{stn@hdr}.odb") 2 10 (lit "o.2.ab.odb") =
      some ([[[ofInt 2], [wordOfBytes (lit "ab")], [ofInt 20]], [[wordOfBytes (lit "ab")], [ofInt 8], [ofInt 2]]], true) := by
  constructor <;> decide +kernel

theorem rowsAre_of {env : Env} {T : UTable} {vs : List RowView}
    (h : vs.map RowView.cells = (List.range T.rows).map (fun r => rowAt (T.cols.map (InCol.data env)) r))
    (h' : vs.all (fun v => decide (v.cols.map Col.key = T.cols.map InCol.key)) = true) : RowsAre env T vs := by
  have hl : vs.length = T.rows := by have := congrArg List.length h; simpa using this
  refine ⟨hl, ?_⟩
  intro r v hv
  have h1 := congrArg (fun l => l[r]?) h
  have hr := (List.getElem?_eq_some_iff.mp hv).1
  simp only [List.getElem?_map, hv, Option.map_some] at h1
  rw [List.getElem?_range (by omega)] at h1
  simp only [Option.map_some, Option.some.injEq] at h1
  refine ⟨?_, h1⟩
  have := List.all_eq_true.mp h' v (List.mem_of_getElem? hv)
  simpa using this

/-- Sample: the rows of the file. -/
def splitViews : List RowView := (readRows dblEnv (fun _ _ _ => 0) (splitBytes dblEnv [splitA, splitB]) 30).1

theorem split_read : readRows dblEnv (fun _ _ _ => 0) (splitBytes dblEnv [splitA, splitB]) 30 = (splitViews, none) := by
  have h : (readRows dblEnv (fun _ _ _ => 0) (splitBytes dblEnv [splitA, splitB]) 30).2 = none := by decide +kernel
  unfold splitViews
  generalize readRows dblEnv (fun _ _ _ => 0) (splitBytes dblEnv [splitA, splitB]) 30 = x at h ⊢
  obtain ⟨a, b⟩ := x
  simp only at h
  rw [h]

theorem split_rows : RowsOfTables dblEnv [splitA, splitB] splitViews := by
  have h : splitViews = splitViews.take 3 ++ splitViews.drop 3 := (List.take_append_drop 3 _).symm
  rw [h]
  refine .more (rowsAre_of (by decide +kernel) (by decide +kernel)) (by unfold UTable.OtherShape; decide +kernel) ?_ (.last (rowsAre_of (by decide +kernel) (by decide +kernel)))
  intro u hu
  have : (splitViews.drop 3).head?.map RowView.fresh = some true := by decide +kernel
  rw [hu] at this
  simpa using this

theorem splitA_ok : splitA.AnyRowsOk dblEnv where
  few := by decide +kernel
  rows := by
    intro c hc
    simp only [splitA, List.mem_cons, List.not_mem_nil, or_false] at hc
    rcases hc with rfl | rfl | rfl <;> rfl
  lens := by
    intro c hc
    simp only [splitA, List.mem_cons, List.not_mem_nil, or_false] at hc
    rcases hc with rfl | rfl | rfl <;> exact ⟨by decide +kernel, by decide +kernel, by simp [Vals.members]⟩
  big := by decide
  vals := by
    intro c hc
    simp only [splitA, List.mem_cons, List.not_mem_nil, or_false] at hc
    rcases hc with rfl | rfl | rfl
    · exact ball (P := InI32) (by decide +kernel)
    · refine ⟨by decide, by decide, ?_, fun ds h1 h2 => few_distinct _ _ h1 h2 (by decide), (by intro h; cases h), ball (by decide +kernel)⟩
      intro s hs
      simp only [List.mem_cons, List.not_mem_nil, or_false] at hs
      rcases hs with rfl | rfl | rfl <;> exact ⟨by decide +kernel, nulFree_of (by decide +kernel)⟩
    · exact ⟨ball (by decide +kernel), ball (by decide +kernel), by decide +kernel, fun h => absurd h (by decide +kernel)⟩
  noEmpty := by intro h; cases h

theorem splitB_ok : splitB.AnyRowsOk dblEnv where
  few := by decide +kernel
  rows := by
    intro c hc
    simp only [splitB, List.mem_cons, List.not_mem_nil, or_false] at hc
    rcases hc with rfl | rfl | rfl <;> rfl
  lens := by
    intro c hc
    simp only [splitB, List.mem_cons, List.not_mem_nil, or_false] at hc
    rcases hc with rfl | rfl | rfl <;> exact ⟨by decide +kernel, by decide +kernel, by simp [Vals.members]⟩
  big := by decide
  vals := by
    intro c hc
    simp only [splitB, List.mem_cons, List.not_mem_nil, or_false] at hc
    rcases hc with rfl | rfl | rfl
    · refine ⟨by decide, by decide, ?_, fun ds h1 h2 => few_distinct _ _ h1 h2 (by decide), (by intro h; cases h), ball (by decide +kernel)⟩
      intro s hs
      simp only [List.mem_cons, List.not_mem_nil, or_false] at hs
      rcases hs with rfl | rfl <;> exact ⟨by decide +kernel, nulFree_of (by decide +kernel)⟩
    · exact ball (P := InI32) (by decide +kernel)
    · exact ⟨ball (by decide +kernel), ball (by decide +kernel), by decide +kernel, fun h => absurd h (by decide +kernel)⟩
  noEmpty := by intro h; cases h

theorem split_templates : Templates dblEnv [splitA, splitB] splitTs splitPs := by
  have hlook : ∀ (T : UTable) (q : Str) (k : Nat), columnIndex (T.cols.map InCol.name) q = .ok k →
      ∀ (k' : Nat) (c' : InCol), T.cols[k']? = some c' → Means q c'.name → k' = k := by
    intro T q k h k' c' h1 h2
    exact (((C24_column_index _ q).1 k).mp h).2 k' c'.name (by rw [List.getElem?_map, h1]; rfl) h2
  have hone : ∀ (T : UTable) (k : Nat), ((T.cols.take k).all (fun c => decide (c.vals.words = 1))) = true →
      ∀ (k' : Nat) (c' : InCol), k' < k → T.cols[k']? = some c' → c'.vals.words = 1 := by
    intro T k h k' c' hk hc
    have := List.all_eq_true.mp h c' (List.mem_of_getElem? (i := k') (by rw [List.getElem?_take, if_pos hk]; exact hc))
    simpa using this
  have htwo : ∀ (P : UTable → Prop), P splitA → P splitB → ∀ T ∈ [splitA, splitB], P T := by
    intro P h1 h2 T hT
    simp only [List.mem_cons, List.not_mem_nil, or_false] at hT
    rcases hT with rfl | rfl
    · exact h1
    · exact h2
  refine ⟨by simp [splitTs], htwo _ (by decide +kernel) (by decide +kernel), htwo _ ?_ ?_, htwo _ (htwo _ rfl (by decide +kernel)) (htwo _ (by decide +kernel) rfl)⟩
  · intro p hp
    rw [show splitPs splitA = _ from if_pos rfl] at hp
    simp only [List.mem_cons, List.not_mem_nil, or_false] at hp
    rcases hp with rfl | rfl
    · exact ⟨by decide +kernel, by decide +kernel, rfl, 0, rfl, (columnNameMatches_iff _ _).mp (by decide +kernel), hlook _ _ _ (by decide +kernel),
        hone _ _ (by decide +kernel)⟩
    · refine ⟨by decide +kernel, by decide +kernel, ⟨rfl, ?_⟩, 1, rfl, (columnNameMatches_iff _ _).mp (by decide +kernel), hlook _ _ _ (by decide +kernel),
        hone _ _ (by decide +kernel)⟩
      intro s hs
      simp only [List.mem_cons, List.not_mem_nil, or_false] at hs
      rcases hs with rfl | rfl | rfl <;> exact goodText_of (by decide +kernel)
  · intro p hp
    rw [show splitPs splitB = _ from if_neg (by decide)] at hp
    simp only [List.mem_cons, List.not_mem_nil, or_false] at hp
    rcases hp with rfl | rfl
    · refine ⟨by decide +kernel, by decide +kernel, ?_, 2, rfl, (columnNameMatches_iff _ _).mp (by decide +kernel), hlook _ _ _ (by decide +kernel),
        hone _ _ (by decide +kernel)⟩
      intro v hv
      simp only [List.mem_cons, List.not_mem_nil, or_false] at hv
      rcases hv with hv | hv
      · exact ⟨1, by decide, hv⟩
      · exact ⟨2, by decide, hv⟩
    · refine ⟨by decide +kernel, by decide +kernel, ⟨rfl, ?_⟩, 0, rfl, (columnNameMatches_iff _ _).mp (by decide +kernel), hlook _ _ _ (by decide +kernel),
        hone _ _ (by decide +kernel)⟩
      intro s hs
      simp only [List.mem_cons, List.not_mem_nil, or_false] at hs
      rcases hs with rfl | rfl <;> exact goodText_of (by decide +kernel)

/-- All the hypotheses of C54 together, with two open files for three names. -/
example : ∃ d', splitFile dblEnv (lit "o.{type}.{stn@hdr}.odb") 2 10 (fun _ => none) (fun _ _ _ => 0) (splitBytes dblEnv [splitA, splitB]) 30 = .ok (5, d') := by
  have htwo : ∀ (P : UTable → Prop), P splitA → P splitB → ∀ T ∈ [splitA, splitB], P T := by
    intro P h1 h2 T hT
    simp only [List.mem_cons, List.not_mem_nil, or_false] at hT
    rcases hT with rfl | rfl
    · exact h1
    · exact h2
  have hlen : splitViews.length = 5 := by decide +kernel
  obtain ⟨d', h, _⟩ := C54_split dblEnv sampleEnv_md5 (fun _ _ _ => 0) (splitBytes dblEnv [splitA, splitB]) 30 splitViews
    split_read [splitA, splitB] split_rows (htwo _ ⟨splitA_ok, by simp [splitA]⟩ ⟨splitB_ok, by simp [splitB]⟩)
    (htwo _ (by decide) (by decide)) (by rw [hlen]; decide) splitTs (lit ".odb") splitPs split_templates (by decide +kernel)
    (C54_names dblEnv _ splitTs _ splitPs split_templates (by
      intro x hx
      simp only [allRows, List.flatMap_cons, List.flatMap_nil, List.append_nil, List.mem_append, List.mem_map, List.mem_range] at hx
      have key : ∀ (ls : List Str), (decide (ls.length = 2) && decide ((0x2e : Byte) ∉ ls.getD 0 [])) = true → SepLabels splitTs ls := by
        intro ls h
        simp only [Bool.and_eq_true, decide_eq_true_eq] at h
        match ls, h.1 with
        | [a, b], _ => exact ⟨⟨0x2e, [], by decide +kernel, h.2⟩, trivial⟩
      rcases hx with ⟨j, hj, rfl⟩ | ⟨j, hj, rfl⟩
      · have : ((List.range 3).all (fun j => decide ((labelsOf (splitPs splitA) j).length = 2) && decide ((0x2e : Byte) ∉ (labelsOf (splitPs splitA) j).getD 0 []))) = true := by
          decide +kernel
        exact key _ (List.all_eq_true.mp this j (by simpa [splitA] using hj))
      · have : ((List.range 2).all (fun j => decide ((labelsOf (splitPs splitB) j).length = 2) && decide ((0x2e : Byte) ∉ (labelsOf (splitPs splitB) j).getD 0 []))) = true := by
          decide +kernel
        exact key _ (List.all_eq_true.mp this j (by simpa [splitB] using hj))))
    2 10 (by decide) (by decide) (fun _ => none)
  rw [hlen, show tmplText splitTs (lit ".odb") = lit "o.{type}.{stn@hdr}.odb" by decide +kernel] at h
  exact ⟨d', h⟩

/-- **C54 fails if a key is a number in one table and a string in another**: 5 and `"5"` give the same name but are different values, two writers are
open on the file `o.5`, and the row of the third table is written over that of the second; what remains cannot be read to its end. -/
theorem C54_violated_kinds :
    trySplit dblEnv [keyed (.ints [5]) 1, keyed (.strings 1 [lit "5"]) 1, keyed (.ints [5]) 1] (lit "o.{k}") 10 10 (lit "o.5") =
      some ([[[ofInt 5], [ofInt 0]], [[ofInt 5], [ofInt 0]]], false) := by
  decide +kernel

end Verif
