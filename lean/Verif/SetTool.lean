import Verif.PropPass1
import Verif.PropMdSet

/-!
`odc set`: copying a file with some columns set to given values.

Models: src/odc/tools/SetTool.cc, src/odc/ODAUpdatingIterator.{h,cc}, src/odc/ConstantSetter.h.
-/

namespace Verif

/-! ### Model -/

/-- The library: `Translator<std::string, double>`, and `strtoul(s, &p, 16)` cast to `unsigned char`, tools/SetTool.cc l.86, 99-100. -/
structure SetLib where
  toDouble : Str → Except Err Word
  hex : Str → Byte

/-- `value.substr(i * 2, 2)` for all `i < value.size() / 2`, tools/SetTool.cc l.95-96. -/
def hexPairs : Str → List Str
  | a :: b :: r => [a, b] :: hexPairs r
  | _ => []

/-- The value of an assignment, tools/SetTool.cc l.83-103. -/
def setValue (lib : SetLib) (s : Str) : Except Err Word :=
  if (lit "0x").isPrefixOf s then
    if (s.drop 2).length % 2 ≠ 0 then .error .assertFailed
    else if 8 < (s.drop 2).length / 2 then .error .assertFailed
    else .ok (wordOfBytes ((hexPairs (s.drop 2)).map lib.hex))
  else translate lib.toDouble s

/-- The loop of `parseUpdateList`, tools/SetTool.cc l.75-107. -/
def setEntries (lib : SetLib) : List Str → Except Err (List (Str × Word))
  | [] => .ok []
  | s :: ss =>
    match splitAt [61] s with
    | [c, v] =>
      match setValue lib v with
      | .error e => .error e
      | .ok w =>
        match setEntries lib ss with
        | .error e => .error e
        | .ok us => .ok ((c, w) :: us)
    | _ => .error .assertFailed

/-- `SetTool::parseUpdateList`, tools/SetTool.cc l.68-108. -/
def setParse (lib : SetLib) (s : Str) : Except Err (List (Str × Word)) := setEntries lib (splitAt [44] s)

/-- `updateIndices`, ODAUpdatingIterator.cc l.38-47. -/
def setIndices (names : List Str) : List (Str × Word) → Except Err (List Nat)
  | [] => .ok []
  | u :: us =>
    match columnIndex names u.1 with
    | .error e => .error e
    | .ok p =>
      match setIndices names us with
      | .error e => .error e
      | .ok ps => .ok (p :: ps)

/-- `update`, ODAUpdatingIterator.cc l.58-62. -/
def setWords : List Nat → List (Str × Word) → List Word → List Word
  | p :: ps, u :: us, ws => setWords ps us (ws.set p u.2)
  | _, _, ws => ws

/-- The row of the updating iterator, ODAUpdatingIterator.cc l.34-35, 78-79: as many words of the row as there are columns, with
those at the columns' positions (not offsets) replaced.  `writeRow` then copies a whole row out of them (WriterBufferingIterator.cc
l.206): beyond the end if the row has more words than columns. -/
def setRow (ps : List Nat) (us : List (Str × Word)) (v : RowView) : Except Err RowView :=
  if v.cells.flatten.length ≠ v.cols.length then .error .ub
  else .ok { v with cells := (setWords ps us (v.cells.flatten.take v.cols.length)).map (fun w => [w]) }

/-- The iterator from some row on, ODAUpdatingIterator.cc l.69-84: the rows it yields and the exception that ends it, given those of the
iterator it is built on. -/
def setLoop (us : List (Str × Word)) : List Nat → List RowView → Option Err → List RowView × Option Err
  | _, [], e => ([], e)
  | ps, v :: vs, e =>
    match (if v.fresh then setIndices (v.cols.map Col.name) us else .ok ps) with
    | .error x => ([], some x)
    | .ok ps =>
      match setRow ps us v with
      | .error x => ([], some x)
      | .ok v' => (v' :: (setLoop us ps vs e).1, (setLoop us ps vs e).2)

/-- `SetTool::run`, tools/SetTool.cc l.34-66: the constructor of the updating iterator (ODAUpdatingIterator.cc l.20-36) takes the row its source is
at, without asking if there is one. -/
def setFile (env : Env) (lib : SetLib) (cap : Nat) (junk : Junk) (updates : Str) (bytes : List Byte) (fuel : Nat) :
    Except Err (Nat × List (List Byte)) :=
  match RowIt.begin env junk bytes with
  | .error e => .error e
  | .ok it =>
    match setParse lib updates with
    | .error e => .error e
    | .ok us =>
      match setIndices (it.cols.map Col.name) us with
      | .error e => .error e
      | .ok ps =>
        let rows := if it.noMore then ([⟨it.cols, it.last, it.newData⟩], none) else it.all env junk fuel
        pass1 env .same cap it.cols (setLoop us ps rows.1 rows.2)

/-! ### Specification -/

/-- Specification: the word a value text stands for: a number, a string in quotes of at most eight bytes, to which blanks are added on the left,
or the bytes of the word, each as two characters after `0x`. -/
inductive SetText (lib : SetLib) : Str → Word → Prop
  | text {s w} : ¬ lit "0x" <+: s → ValueText lib.toDouble s w → SetText lib s w
  | hex (bs : List (Str × Byte)) : bs.length ≤ 8 → (∀ b ∈ bs, b.1.length = 2 ∧ lib.hex b.1 = b.2) →
      SetText lib (lit "0x" ++ bs.flatMap Prod.fst) (wordOfBytes (bs.map Prod.snd))

/-- Specification: an assignment `<column>=<value>`, whose words do not contain the separators. -/
structure SetWords where
  column : Str
  value : Str

/-- Specification: the text of the assignment. -/
def SetWords.text (a : SetWords) : Str := a.column ++ 61 :: a.value

/-- Specification: the words of the assignment contain no separators, and the value is `w`. -/
structure SetWords.Ok (lib : SetLib) (a : SetWords) (u : Str × Word) : Prop where
  column : a.column ≠ [] ∧ ∀ b ∈ a.column, b ≠ 44 ∧ b ≠ 61
  value : a.value ≠ [] ∧ ∀ b ∈ a.value, b ≠ 44 ∧ b ≠ 61
  name : u.1 = a.column
  word : SetText lib a.value u.2

/-- Specification: values of the same type, all of which are `w` in memory. -/
def Vals.Filled (env : Env) (w : Word) (v v' : Vals) : Prop :=
  v'.rows = v.rows ∧ v'.ty = v.ty ∧ v'.members = v.members ∧ v'.words = v.words ∧ ∀ x ∈ v'.cells env, x = [w]

/-- Specification: a column after the assignments: the last one that means it counts. -/
def SetCol (env : Env) (us : List (Str × Word)) (c c' : InCol) : Prop :=
  ((∀ u ∈ us, ¬ Means u.1 c.name) ∧ c' = c) ∨
  ∃ (before after : List (Str × Word)) (u : Str × Word), us = before ++ u :: after ∧ Means u.1 c.name ∧
    (∀ x ∈ after, ¬ Means x.1 c.name) ∧ c'.name = c.name ∧ c.vals.Filled env u.2 c'.vals

/-- Specification: a table after the assignments. -/
structure SetTable (env : Env) (us : List (Str × Word)) (T T' : UTable) : Prop where
  rows : T'.rows = T.rows
  cols : Match (SetCol env us) T.cols T'.cols

/-- Specification: the assignment means exactly one column. -/
def MeansOne (q : Str) (cs : List InCol) : Prop :=
  ∃ (p : Nat) (c : InCol), cs[p]? = some c ∧ Means q c.name ∧ ∀ (p' : Nat) (c' : InCol), cs[p']? = some c' → Means q c'.name → p' = p

/-! ### Proofs -/

theorem hexPairs_join (bs : List (Str × Byte)) (h : ∀ b ∈ bs, b.1.length = 2) : hexPairs (bs.flatMap Prod.fst) = bs.map Prod.fst := by
  induction bs with
  | nil => rfl
  | cons b bs ih =>
    have h2 := h b (by simp)
    obtain ⟨s, x⟩ := b
    match s, h2 with
    | [c, d], _ =>
      simp only [List.flatMap_cons, List.map_cons, List.cons_append, List.nil_append, hexPairs]
      rw [ih (fun b hb => h b (by simp [hb]))]

theorem setValue_text {lib : SetLib} {s : Str} {w : Word} (h : SetText lib s w) : setValue lib s = .ok w := by
  cases h with
  | text h1 h2 =>
    unfold setValue
    rw [if_neg (by rw [List.isPrefixOf_iff_prefix]; exact h1)]
    exact translate_text h2
  | hex bs h1 h2 =>
    have hlen : (bs.flatMap Prod.fst).length = 2 * bs.length := by
      clear h1
      induction bs with
      | nil => rfl
      | cons b bs ih =>
        have := (h2 b (by simp)).1
        rw [List.flatMap_cons, List.length_append, this, ih (fun b hb => h2 b (by simp [hb]))]
        simp; omega
    unfold setValue
    have e : (lit "0x" ++ bs.flatMap Prod.fst).drop 2 = bs.flatMap Prod.fst := List.drop_left' (by decide)
    rw [if_pos (by rw [List.isPrefixOf_iff_prefix]; exact List.prefix_append _ _), e, if_neg (by rw [hlen]; omega), if_neg (by rw [hlen]; omega),
      hexPairs_join bs (fun b hb => (h2 b hb).1), List.map_map]
    congr 2
    apply List.map_congr_left
    intro b hb
    exact (h2 b hb).2

theorem setParse_text (lib : SetLib) (as : List SetWords) (us : List (Str × Word)) (h : Match (SetWords.Ok lib) as us) :
    setParse lib (joinWith 44 (as.map SetWords.text)) = .ok us := by
  unfold setParse
  rw [tokens_join [44] 44 (by simp) _ (by
    intro a ha
    obtain ⟨w, hw, rfl⟩ := List.mem_map.mp ha
    obtain ⟨u, _, hu⟩ := h.mem_right' hw
    refine ⟨by simp [SetWords.text], ?_⟩
    intro b hb
    simp only [SetWords.text, List.mem_append, List.mem_cons] at hb
    simp only [List.mem_singleton]
    rcases hb with hb | rfl | hb
    · exact (hu.column.2 b hb).1
    · decide
    · exact (hu.value.2 b hb).1)]
  induction h with
  | nil => rfl
  | @cons a u as us h1 _ ih =>
    simp only [List.map_cons, setEntries]
    rw [show splitAt [61] a.text = [a.column, a.value] from
      split_pair 61 _ _ h1.column.1 h1.value.1 (fun b hb => (h1.column.2 b hb).2) (fun b hb => (h1.value.2 b hb).2)]
    dsimp only
    rw [setValue_text h1.word, ih]
    dsimp only
    rw [← h1.name]

/-- Proof device: the positions the assignments mean. -/
def IndexedBy (names : List Str) (us : List (Str × Word)) (ps : List Nat) : Prop :=
  Match (fun (u : Str × Word) (p : Nat) => ∀ (p' : Nat) (n : Str), names[p']? = some n → (Means u.1 n ↔ p' = p)) us ps

theorem setIndices_ok (cs : List InCol) (us : List (Str × Word)) (h : ∀ u ∈ us, MeansOne u.1 cs) :
    ∃ ps, setIndices (cs.map InCol.name) us = .ok ps ∧ IndexedBy (cs.map InCol.name) us ps := by
  induction us with
  | nil => exact ⟨[], rfl, .nil⟩
  | cons u us ih =>
    obtain ⟨ps, h1, h2⟩ := ih (fun u hu => h u (by simp [hu]))
    obtain ⟨p, c, e1, e2, e3⟩ := h u (by simp)
    have hget : ∀ (p' : Nat) (n : Str), (cs.map InCol.name)[p']? = some n → ∃ c', cs[p']? = some c' ∧ c'.name = n := by
      intro p' n hn
      rw [List.getElem?_map, Option.map_eq_some_iff] at hn
      exact hn
    have hp : columnIndex (cs.map InCol.name) u.1 = .ok p := by
      rw [(C24_column_index _ _).1]
      refine ⟨⟨c.name, by rw [List.getElem?_map, e1]; rfl, e2⟩, ?_⟩
      intro p' n' hn' hm
      obtain ⟨c', hc', rfl⟩ := hget p' n' hn'
      exact e3 p' c' hc' hm
    refine ⟨p :: ps, by simp only [setIndices, hp, h1], .cons ?_ h2⟩
    intro p' n hn
    obtain ⟨c', hc', rfl⟩ := hget p' n hn
    constructor
    · exact e3 p' c' hc'
    · rintro rfl
      rw [e1] at hc'
      simp only [Option.some.injEq] at hc'
      rw [← hc']; exact e2

theorem setWords_length (ps : List Nat) (us : List (Str × Word)) (ws : List Word) : (setWords ps us ws).length = ws.length := by
  induction ps generalizing us ws with
  | nil => cases us <;> rfl
  | cons p ps ih =>
    cases us with
    | nil => rfl
    | cons u us => simp only [setWords]; rw [ih]; simp

theorem setWords_get (us : List (Str × Word)) (ps : List Nat) (names : List Str) (h : IndexedBy names us ps) (ws : List Word)
    (p : Nat) (n : Str) (w : Word) (hn : names[p]? = some n) (hw : ws[p]? = some w) :
    ((∀ u ∈ us, ¬ Means u.1 n) ∧ (setWords ps us ws)[p]? = some w) ∨
    ∃ (before after : List (Str × Word)) (u : Str × Word), us = before ++ u :: after ∧ Means u.1 n ∧ (∀ x ∈ after, ¬ Means x.1 n) ∧
      (setWords ps us ws)[p]? = some u.2 := by
  induction h generalizing ws w with
  | nil => exact Or.inl ⟨by simp, hw⟩
  | @cons u q us ps h1 _ ih =>
    simp only [setWords]
    by_cases hm : Means u.1 n
    · have hq := (h1 p n hn).mp hm
      subst hq
      have hlt := (List.getElem?_eq_some_iff.mp hw).1
      rcases ih (ws.set p u.2) u.2 (by simp [hlt]) with ⟨a1, a2⟩ | ⟨b, a, x, e1, e2, e3, e4⟩
      · exact Or.inr ⟨[], us, u, rfl, hm, a1, a2⟩
      · exact Or.inr ⟨u :: b, a, x, by rw [e1]; rfl, e2, e3, e4⟩
    · have hq : ¬ p = q := fun h => hm ((h1 p n hn).mpr h)
      rcases ih (ws.set q u.2) w (by rw [List.getElem?_set]; simp [Ne.symm hq, hw]) with ⟨a1, a2⟩ | ⟨b, a, x, e1, e2, e3, e4⟩
      · refine Or.inl ⟨?_, a2⟩
        intro x hx
        rcases List.mem_cons.mp hx with rfl | hx
        · exact hm
        · exact a1 x hx
      · exact Or.inr ⟨u :: b, a, x, by rw [e1]; rfl, e2, e3, e4⟩

theorem singles_flatten (xs : List Cell) (h : ∀ x ∈ xs, x.length = 1) : ∃ ws : List Word, xs = ws.map (fun w => [w]) := by
  induction xs with
  | nil => exact ⟨[], rfl⟩
  | cons x xs ih =>
    obtain ⟨ws, hw⟩ := ih (fun x hx => h x (by simp [hx]))
    match x, h x (by simp) with
    | [w], _ => exact ⟨w :: ws, by rw [hw]; rfl⟩

theorem flatten_singles' (ws : List Word) : (ws.map (fun w => [w])).flatten = ws := by
  induction ws with
  | nil => rfl
  | cons w ws ih => simp [ih]

/-- What fixes which assignment counts. -/
theorem last_unique {P : (Str × Word) → Prop} {b1 a1 b2 a2 : List (Str × Word)} {u1 u2 : Str × Word} (h : b1 ++ u1 :: a1 = b2 ++ u2 :: a2)
    (p1 : P u1) (p2 : P u2) (q1 : ∀ x ∈ a1, ¬ P x) (q2 : ∀ x ∈ a2, ¬ P x) : u1 = u2 := by
  induction b1 generalizing b2 with
  | nil =>
    cases b2 with
    | nil => simp at h; exact h.1
    | cons x b2 =>
      simp only [List.nil_append, List.cons_append, List.cons.injEq] at h
      exact absurd p2 (q1 u2 (by rw [h.2]; simp))
  | cons y b1 ih =>
    cases b2 with
    | nil =>
      simp only [List.nil_append, List.cons_append, List.cons.injEq] at h
      exact absurd p1 (q2 u1 (by rw [← h.2]; simp))
    | cons x b2 =>
      simp only [List.cons_append, List.cons.injEq] at h
      exact ih h.2

theorem cell_in {env : Env} {v : Vals} {r : Nat} (hr : r < v.rows) : ∃ x, (v.cells env)[r]? = some x ∧ x ∈ v.cells env := by
  have : r < (v.cells env).length := by rw [v.cells_length]; exact hr
  exact ⟨_, List.getElem?_eq_getElem this, List.getElem_mem this⟩

theorem setCol_key {env : Env} {us : List (Str × Word)} {c c' : InCol} (h : SetCol env us c c') : c'.key = c.key := by
  rcases h with ⟨_, rfl⟩ | ⟨_, _, u, _, _, _, e1, _, e2, e3, e4, _⟩
  · rfl
  · unfold InCol.key; rw [e1, e2, e3, e4]

theorem setTable_key {env : Env} {us : List (Str × Word)} {T T' : UTable} (h : SetTable env us T T') :
    T'.cols.map InCol.key = T.cols.map InCol.key := by
  obtain ⟨_, h⟩ := h
  generalize T.cols = cs at h
  generalize T'.cols = cs' at h
  induction h with
  | nil => rfl
  | cons h _ ih => simp only [List.map_cons]; rw [setCol_key h, ih]

theorem names_of_key {ks : List Col} {cs : List InCol} (h : ks.map Col.key = cs.map InCol.key) : ks.map Col.name = cs.map InCol.name := by
  have := congrArg (List.map (fun x : Str × Int × List Str × List Int × Nat => x.1)) h
  simpa [Col.key, InCol.key, List.map_map, Function.comp_def] using this

/-- A row of a table. -/
theorem setRow_ok {env : Env} {us : List (Str × Word)} {T T' : UTable} (hset : SetTable env us T T') (hw : ∀ c ∈ T.cols, c.vals.words = 1)
    (hrows : ∀ c ∈ T.cols, c.vals.rows = T.rows) {ps : List Nat} (hps : IndexedBy (T.cols.map InCol.name) us ps) {r : Nat} (hr : r < T.rows)
    {v : RowView} (hk : v.cols.map Col.key = T.cols.map InCol.key) (hv : v.cells = rowAt (T.cols.map (InCol.data env)) r) :
    ∃ v', setRow ps us v = .ok v' ∧ v'.cols = v.cols ∧ v'.fresh = v.fresh ∧ v'.cells = rowAt (T'.cols.map (InCol.data env)) r := by
  have hcell : ∀ (p : Nat) (c : InCol), T.cols[p]? = some c → ∃ w, v.cells[p]? = some [w] ∧ (c.vals.cells env)[r]? = some [w] := by
    intro p c hc
    have hcm := List.mem_of_getElem? hc
    obtain ⟨x, x1, x2⟩ := cell_in (env := env) (v := c.vals) (r := r) (by rw [hrows c hcm]; exact hr)
    have hx := c.vals.cells_words env x x2
    rw [hw c hcm] at hx
    match x, hx with
    | [w], _ =>
      refine ⟨w, ?_, x1⟩
      rw [hv, rowAt, List.getElem?_map, List.getElem?_map, hc]
      simp [InCol.data, List.getD_eq_getElem?_getD, x1]
  have hlen : v.cells.length = T.cols.length := by rw [hv]; simp [rowAt]
  have hcl : v.cols.length = T.cols.length := by have := congrArg List.length hk; simpa using this
  obtain ⟨ws, hws⟩ := singles_flatten v.cells (by
    intro x hx
    obtain ⟨p, hp⟩ := List.mem_iff_getElem?.mp hx
    have hlt := (List.getElem?_eq_some_iff.mp hp).1
    obtain ⟨w, w1, _⟩ := hcell p _ (List.getElem?_eq_getElem (by omega))
    rw [hp] at w1
    simp only [Option.some.injEq] at w1
    rw [w1]; rfl)
  have hwl : ws.length = T.cols.length := by rw [← hlen, hws]; simp
  have hfl : v.cells.flatten = ws := by rw [hws, flatten_singles']
  unfold setRow
  rw [hfl, if_neg (by rw [hwl, hcl]; simp), hcl, ← hwl, List.take_length]
  refine ⟨_, rfl, rfl, rfl, ?_⟩
  dsimp only
  have hlen' := hset.cols.length
  apply List.ext_getElem?
  intro p
  by_cases hp : p < T.cols.length
  · obtain ⟨c, hc⟩ : ∃ c, T.cols[p]? = some c := ⟨_, List.getElem?_eq_getElem hp⟩
    obtain ⟨c', hc'⟩ : ∃ c', T'.cols[p]? = some c' := ⟨_, List.getElem?_eq_getElem (by omega)⟩
    have hcm := List.mem_of_getElem? hc
    obtain ⟨w, w1, w2⟩ := hcell p c hc
    have hwp : ws[p]? = some w := by
      rw [hws, List.getElem?_map, Option.map_eq_some_iff] at w1
      obtain ⟨w', a1, a2⟩ := w1
      simp only [List.cons.injEq, and_true] at a2
      rw [← a2]; exact a1
    have hrow : (rowAt (T'.cols.map (InCol.data env)) r)[p]? = some ((c'.vals.cells env).getD r []) := by
      rw [rowAt, List.getElem?_map, List.getElem?_map, hc']; rfl
    rw [hrow, List.getElem?_map]
    have hcol := hset.cols.get p c c' hc hc'
    rcases setWords_get us ps _ hps ws p c.name w (by rw [List.getElem?_map, hc]; rfl) hwp with ⟨a1, a2⟩ | ⟨b, a, u, e1, e2, e3, e4⟩
    · rw [a2]
      rcases hcol with ⟨_, rfl⟩ | ⟨b', a', u', f1, f2, _⟩
      · simp [List.getD_eq_getElem?_getD, w2]
      · exact absurd f2 (a1 u' (by rw [f1]; simp))
    · rw [e4]
      rcases hcol with ⟨f1, _⟩ | ⟨b', a', u', f1, f2, f3, f4, g1, g2, g3, g4, g5⟩
      · exact absurd e2 (f1 u (by rw [e1]; simp))
      · have hu : u = u' := last_unique (P := fun x => Means x.1 c.name) (e1 ▸ f1) e2 f2 e3 f3
        subst hu
        obtain ⟨x, x1, x2⟩ := cell_in (env := env) (v := c'.vals) (r := r) (by rw [g1, hrows c hcm]; exact hr)
        rw [g5 x x2] at x1
        simp [List.getD_eq_getElem?_getD, x1]
  · rw [List.getElem?_eq_none (by simp [setWords_length]; omega), List.getElem?_eq_none (by simp [rowAt]; omega)]

/-- The rows of a table, followed by others. -/
theorem setLoop_table {env : Env} {us : List (Str × Word)} {T T' : UTable} (hset : SetTable env us T T') (hw : ∀ c ∈ T.cols, c.vals.words = 1)
    (hrows : ∀ c ∈ T.cols, c.vals.rows = T.rows) {ps : List Nat} (hix : setIndices (T.cols.map InCol.name) us = .ok ps)
    (hps : IndexedBy (T.cols.map InCol.name) us ps) (vs : List RowView) (r : Nat) (hr : r + vs.length ≤ T.rows)
    (hv : ∀ (i : Nat) (v : RowView), vs[i]? = some v → v.cols.map Col.key = T.cols.map InCol.key ∧
      v.cells = rowAt (T.cols.map (InCol.data env)) (r + i)) (rest : List RowView) (e : Option Err) :
    ∃ vs' : List RowView, vs'.length = vs.length ∧
      (∀ (i : Nat) (v v' : RowView), vs[i]? = some v → vs'[i]? = some v' → v'.cols = v.cols ∧ v'.fresh = v.fresh ∧
        v'.cells = rowAt (T'.cols.map (InCol.data env)) (r + i)) ∧
      setLoop us ps (vs ++ rest) e = (vs' ++ (setLoop us ps rest e).1, (setLoop us ps rest e).2) := by
  induction vs generalizing r with
  | nil => exact ⟨[], rfl, by simp, rfl⟩
  | cons v vs ih =>
    simp only [List.length_cons] at hr
    obtain ⟨h1, h2⟩ := hv 0 v rfl
    obtain ⟨v', a1, a2, a3, a4⟩ := setRow_ok (r := r) hset hw hrows hps (by omega) h1 (by simpa using h2)
    obtain ⟨vs', b1, b2, b3⟩ := ih (r + 1) (by omega) (by
      intro i v hi
      have := hv (i + 1) v (by simpa using hi)
      rwa [show r + (i + 1) = r + 1 + i by omega] at this)
    refine ⟨v' :: vs', by simp [b1], ?_, ?_⟩
    · intro i x x' hx hx'
      cases i with
      | zero =>
        simp only [List.getElem?_cons_zero, Option.some.injEq] at hx hx'
        subst hx; subst hx'
        exact ⟨a2, a3, by simpa using a4⟩
      | succ i =>
        have := b2 i x x' (by simpa using hx) (by simpa using hx')
        rwa [show r + (i + 1) = r + 1 + i by omega]
    · simp only [List.cons_append, setLoop]
      rw [names_of_key h1, hix]
      cases v.fresh <;> simp [a1, b3]

end Verif
