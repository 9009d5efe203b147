import Verif.CsvHead

/-
The rows of a comma separated text.
-/

namespace Verif

/-! ### Specification -/

/-- The text of a missing value. -/
def IsNull (t : Str) : Prop := upper t = lit "NULL"

/-- The text `t` stands for the value in row `j` of the column. -/
def Vals.Stands (lib : CsvLib) (v : Vals) (j : Nat) (t : Str) : Prop :=
  match v with
  | .ints vs => ∃ i, vs[j]? = some i ∧ (IsNull t ∧ i = 2147483647 ∨ ¬ IsNull t ∧ lib.toLong t = .ok i)
  | .bits _ vs => ∃ i, vs[j]? = some i ∧ (IsNull t ∧ i = 2147483647 ∨ ¬ IsNull t ∧ lib.toLong t = .ok i)
  | .reals vs => ∃ x, vs[j]? = some x ∧ (IsNull t ∧ x = realMDI ∨ ¬ IsNull t ∧ lib.toFloat t = .ok x)
  | .doubles vs => ∃ x, vs[j]? = some x ∧ (IsNull t ∧ x = realMDI ∨ ¬ IsNull t ∧ lib.toDouble t = .ok x)
  | .strings _ vs => ∃ s, vs[j]? = some s ∧ ¬ IsNull t ∧ lib.unQuote t = s

/-- The text consists of the lines `ls`, and then ends or has a blank line, after which anything may follow. -/
inductive Lines : List Str → List Byte → Prop
  | done {t} : Blank (t.takeWhile (· ≠ 10)) → Lines [] t
  | line {l ls t} : 10 ∉ l → Lines ls t → Lines (l :: ls) (l ++ 10 :: t)
  | last {l} : 10 ∉ l → Lines [l] l

/-- The text says what the table contains: a line that declares the columns, then one line for each row.  `d` separates the cells; no byte
of `delim` occurs in a cell; there may be blanks around the cells. -/
structure CsvText (lib : CsvLib) (delim : Str) (T : UTable) (text : List Byte) : Prop where
  ex : ∃ (d : Byte) (heads : List Str) (rows : List (List Str)), d ∈ delim ∧
    Match (HeaderText lib) T.cols heads ∧ (∀ t ∈ heads, ∀ b ∈ t, b ∉ delim) ∧
    rows.length = T.rows ∧
    (∀ (j : Nat) (r : List Str), rows[j]? = some r →
      Match (fun c t => c.vals.Stands lib j (trim t)) T.cols r ∧ ∀ t ∈ r, trim t ≠ [] ∧ ∀ b ∈ t, b ∉ delim) ∧
    Lines (joinWith d heads :: rows.map (joinWith d)) text

/-! ### Widths of string columns -/

/-- The same values in a column of another width. -/
def Vals.rew (w : Nat) : Vals → Vals
  | .strings _ vs => .strings w vs
  | v => v

/-- The width of the column when the first `j` rows have been seen. -/
def Vals.upTo (j : Nat) : Vals → Nat
  | .strings _ vs => (vs.take j).foldl (fun m s => max m (needWords s)) 1
  | _ => 1

theorem upTo_zero (v : Vals) : v.upTo 0 = 1 := by cases v <;> rfl

theorem upTo_str (w : Nat) (vs : List Str) (j : Nat) (s : Str) (h : vs[j]? = some s) :
    (Vals.strings w vs).upTo (j + 1) = max ((Vals.strings w vs).upTo j) (needWords s) := by
  obtain ⟨hl, he⟩ := List.getElem?_eq_some_iff.mp h
  simp only [Vals.upTo]
  rw [List.take_succ_eq_append_getElem hl, he, List.foldl_append]
  rfl

theorem foldl_max (l : List Str) (m : Nat) : m ≤ l.foldl (fun m s => max m (needWords s)) m ∧
    ∀ s ∈ l, needWords s ≤ l.foldl (fun m s => max m (needWords s)) m := by
  induction l generalizing m with
  | nil => simp
  | cons a l ih =>
    obtain ⟨h1, h2⟩ := ih (max m (needWords a))
    rw [List.foldl_cons]
    refine ⟨by omega, ?_⟩
    intro s hs
    rcases List.mem_cons.mp hs with rfl | hs
    · omega
    · exact h2 s hs

theorem foldl_le (l : List Str) (m n : Nat) (hm : m ≤ n) (h : ∀ s ∈ l, needWords s ≤ n) : l.foldl (fun m s => max m (needWords s)) m ≤ n := by
  induction l generalizing m with
  | nil => exact hm
  | cons a l ih =>
    rw [List.foldl_cons]
    exact ih _ (by have := h a (by simp); omega) (fun s hs => h s (by simp [hs]))

theorem need_fits (s : Str) (w : Nat) : needWords s ≤ w ↔ 1 ≤ w ∧ s.length ≤ 8 * w := by
  unfold needWords
  split <;> omega

theorem upTo_one (v : Vals) (j : Nat) : 1 ≤ v.upTo j := by
  cases v <;> simp only [Vals.upTo] <;> first | exact Nat.le_refl _ | exact (foldl_max _ _).1

theorem rew_words (v : Vals) (j : Nat) : (v.rew (v.upTo j)).words = v.upTo j := by
  cases v <;> rfl

theorem rew_ty (v : Vals) (w : Nat) : (v.rew w).ty = v.ty := by cases v <;> rfl
theorem rew_members (v : Vals) (w : Nat) : (v.rew w).members = v.members := by cases v <;> rfl

/-! ### One row -/

/-- The cell of row `j`, strings in `w` words. -/
def Vals.cellOf (env : Env) (v : Vals) (w j : Nat) : Cell := ((v.rew w).cells env).getD j []

theorem start_str (asDbl : Bool) (w : Nat) : startCodec .string asDbl w none = .ok { fresh .chars 3 asDbl with width := w } := rfl

theorem start_num_missing :
    (∀ co, startCodec .integer true 1 none = .ok co → co.missingWord = .ok (ofInt 2147483647)) ∧
    (∀ co, startCodec .bitfield true 1 none = .ok co → co.missingWord = .ok (ofInt 2147483647)) ∧
    (∀ (a : Bool) co, startCodec .real a 1 none = .ok co → co.missingWord = .ok realMDI) ∧
    (∀ (a : Bool) co, startCodec .double a 1 none = .ok co → co.missingWord = .ok realMDI) := by
  refine ⟨?_, ?_, ?_, ?_⟩
  · intro co h
    have : (match startCodec .integer true 1 none with | .ok c => c.missingWord | .error e => .error e) = .ok (ofInt 2147483647) := by decide +kernel
    rw [h] at this
    exact this
  · intro co h
    have : (match startCodec .bitfield true 1 none with | .ok c => c.missingWord | .error e => .error e) = .ok (ofInt 2147483647) := by decide +kernel
    rw [h] at this
    exact this
  · intro a co h
    have : (match startCodec .real a 1 none with | .ok c => c.missingWord | .error e => .error e) = .ok realMDI := by
      cases a <;> decide +kernel
    rw [h] at this
    exact this
  · intro a co h
    have : (match startCodec .double a 1 none with | .ok c => c.missingWord | .error e => .error e) = .ok realMDI := by
      cases a <;> decide +kernel
    rw [h] at this
    exact this

theorem start_kind {ty : ColType} {asDbl : Bool} {w : Nat} {c : Codec} (h : startCodec ty asDbl w none = .ok c) :
    c.kind ≠ .longConstantString := by
  unfold startCodec at h
  cases hd : defaultCodec ty asDbl with
  | error e => rw [hd] at h; cases h
  | ok c0 =>
    rw [hd] at h
    dsimp only at h
    have h0 : c0.kind ≠ .longConstantString := by
      cases ty <;> simp only [defaultCodec, Codec.setMissing, Except.ok.injEq, reduceCtorEq] at hd
      case bitfield =>
        split at hd
        · split at hd
          · split at hd
            · simp only [Except.ok.injEq] at hd; subst hd; simp [fresh]
            · cases hd
          · simp only [Except.ok.injEq] at hd; subst hd; simp [fresh]
        · cases hd
      all_goals subst hd; simp [fresh]
    cases hs : c0.setWidth w with
    | error e => rw [hs] at h; cases h
    | ok c1 =>
      rw [hs] at h
      simp only [Except.ok.injEq] at h
      subst h
      unfold Codec.setWidth at hs
      split at hs
      · simp only [Except.ok.injEq] at hs; subst hs; exact h0
      · split at hs
        · simp only [Except.ok.injEq] at hs; subst hs; exact h0
        · cases hs

theorem csvCol_missing {env : Env} {j : Nat} {c : InCol} {k : Col} (h : CsvCol env (fun c => c.vals.upTo j) c k) :
    ∃ m, k.codec.missingWord = .ok m ∧ ¬ k.codec.Blank := by
  obtain ⟨co, h1, rfl⟩ := h
  obtain ⟨k', m, a1, a2⟩ := start_missing_none env (c.vals.rew (c.vals.upTo j))
  rw [rew_ty, rew_words, h1] at a1
  simp only [Except.ok.injEq] at a1
  subst a1
  exact ⟨m, a2, fun hb => start_kind h1 hb.1⟩

theorem csvCol_width {env : Env} {j : Nat} {c : InCol} {k : Col} (h : CsvCol env (fun c => c.vals.upTo j) c k) :
    k.codec.width = c.vals.upTo j := by
  obtain ⟨co, h1, rfl⟩ := h
  obtain ⟨c0, c1, a1, a2, a3⟩ := startCodec_split h1
  simp only [Except.ok.injEq] at a3
  subst a3
  unfold Codec.setWidth at a2
  split at a2
  · simp only [Except.ok.injEq] at a2
    subst a2
    rfl
  · rename_i hk
    split at a2
    · simp only [Except.ok.injEq] at a2
      subst a2
      rename_i hone
      dsimp only at hone ⊢
      rw [hone]
      have := default_start a1
      cases hv : c.vals <;> rw [hv] at a1 <;> simp only [Vals.ty, defaultCodec, Except.ok.injEq] at a1
      · subst a1; rfl
      · simp only [Codec.setMissing] at a1
        repeat' split at a1
        all_goals first | (simp only [Except.ok.injEq] at a1; subst a1; rfl) | simp at a1
      · subst a1; rfl
      · subst a1; rfl
      · subst a1; rfl
    · simp at a2

theorem csvValue_ok (lib : CsvLib) (env : Env) (hd : env.asDbl = true) (j : Nat) (c : InCol) (k : Col) (x : Cell) (t : Str)
    (hk : CsvCol env (fun c => c.vals.upTo j) c k) (hs : c.vals.Stands lib j (trim t)) (hx : c.vals.ty ≠ .string → x.drop 1 = []) :
    ∃ k' y wide, csvValue lib k x t = .ok (k', y, wide) ∧ CsvCol env (fun c => c.vals.upTo (j + 1)) c k' ∧
      y = c.vals.cellOf env (c.vals.upTo (j + 1)) j ∧ (c.vals.upTo j ≠ c.vals.upTo (j + 1) → wide = true) := by
  have hw := csvCol_width hk
  obtain ⟨co, h1, rfl⟩ := hk
  obtain ⟨nm, v⟩ := c
  dsimp only at h1 hw hs hx ⊢
  cases v with
  | ints vs =>
    obtain ⟨i, e1, e2⟩ := hs
    unfold IsNull at e2
    have hy : (Vals.ints vs).cellOf env ((Vals.ints vs).upTo (j + 1)) j = [ofInt i] := by
      simp [Vals.cellOf, Vals.rew, Vals.cells, List.getD_eq_getElem?_getD, e1, intWord, hd]
    refine ⟨_, _, false, ?_, ⟨co, h1, rfl⟩, hy.symm, fun h => absurd rfl h⟩
    unfold csvValue
    dsimp only
    rw [hx (by simp [Vals.ty])]
    rcases e2 with ⟨n1, n2⟩ | ⟨n1, n2⟩
    · rw [if_pos n1]
      rw [hd] at h1
      rw [start_num_missing.1 co h1, n2]
    · simp only [Vals.ty]
      rw [if_neg n1, if_neg (by decide), if_neg (by decide), if_neg (by decide), if_pos (by decide), n2]
  | bits ms vs =>
    obtain ⟨i, e1, e2⟩ := hs
    unfold IsNull at e2
    have hy : (Vals.bits ms vs).cellOf env ((Vals.bits ms vs).upTo (j + 1)) j = [ofInt i] := by
      simp [Vals.cellOf, Vals.rew, Vals.cells, List.getD_eq_getElem?_getD, e1, intWord, hd]
    refine ⟨_, _, false, ?_, ⟨co, h1, rfl⟩, hy.symm, fun h => absurd rfl h⟩
    unfold csvValue
    dsimp only
    rw [hx (by simp [Vals.ty])]
    rcases e2 with ⟨n1, n2⟩ | ⟨n1, n2⟩
    · rw [if_pos n1]
      rw [hd] at h1
      rw [start_num_missing.2.1 co h1, n2]
    · simp only [Vals.ty]
      rw [if_neg n1, if_neg (by decide), if_neg (by decide), if_neg (by decide), if_pos (by decide), n2]
  | reals vs =>
    obtain ⟨i, e1, e2⟩ := hs
    unfold IsNull at e2
    have hy : (Vals.reals vs).cellOf env ((Vals.reals vs).upTo (j + 1)) j = [i] := by
      simp [Vals.cellOf, Vals.rew, Vals.cells, List.getD_eq_getElem?_getD, e1]
    refine ⟨_, _, false, ?_, ⟨co, h1, rfl⟩, hy.symm, fun h => absurd rfl h⟩
    unfold csvValue
    dsimp only
    rw [hx (by simp [Vals.ty])]
    rcases e2 with ⟨n1, n2⟩ | ⟨n1, n2⟩
    · rw [if_pos n1, start_num_missing.2.2.1 _ co h1, n2]
    · simp only [Vals.ty]
      rw [if_neg n1, if_neg (by decide), if_pos trivial, n2]
  | doubles vs =>
    obtain ⟨i, e1, e2⟩ := hs
    unfold IsNull at e2
    have hy : (Vals.doubles vs).cellOf env ((Vals.doubles vs).upTo (j + 1)) j = [i] := by
      simp [Vals.cellOf, Vals.rew, Vals.cells, List.getD_eq_getElem?_getD, e1]
    refine ⟨_, _, false, ?_, ⟨co, h1, rfl⟩, hy.symm, fun h => absurd rfl h⟩
    unfold csvValue
    dsimp only
    rw [hx (by simp [Vals.ty])]
    rcases e2 with ⟨n1, n2⟩ | ⟨n1, n2⟩
    · rw [if_pos n1, start_num_missing.2.2.2 _ co h1, n2]
    · simp only [Vals.ty]
      rw [if_neg n1, if_neg (by decide), if_neg (by decide), if_pos trivial, n2]
  | strings w vs =>
    obtain ⟨s, e1, n1, e2⟩ := hs
    unfold IsNull at n1
    have hy : ∀ w', (Vals.strings w vs).cellOf env w' j = wordsOf w' s := by
      intro w'
      simp [Vals.cellOf, Vals.rew, Vals.cells, List.getD_eq_getElem?_getD, e1]
    have hup := upTo_str w vs j s e1
    unfold csvValue
    dsimp only
    rw [if_neg n1, if_pos (by rfl), e2, hw]
    by_cases hlt : (Vals.strings w vs).upTo j < needWords s
    · have hmax : (Vals.strings w vs).upTo (j + 1) = needWords s := by rw [hup]; omega
      rw [if_pos hlt]
      have hset : co.setWidth (needWords s) = .ok { fresh .chars 3 env.asDbl with width := needWords s } := by
        simp only [Vals.ty] at h1
        rw [start_str] at h1
        simp only [Except.ok.injEq] at h1
        subst h1
        rfl
      rw [hset]
      dsimp only
      refine ⟨_, _, true, rfl, ⟨_, ?_, rfl⟩, ?_, fun _ => rfl⟩
      · dsimp only; rw [hmax]; exact start_str _ _
      · rw [hy, hmax]
    · have hmax : (Vals.strings w vs).upTo (j + 1) = (Vals.strings w vs).upTo j := by rw [hup]; omega
      rw [if_neg hlt]
      refine ⟨_, _, false, rfl, ⟨co, ?_, rfl⟩, ?_, fun h => absurd hmax.symm h⟩
      · dsimp only; rw [hmax]; exact h1
      · rw [hy, hmax]

theorem csvFirst_ok (junk : Junk) (a p : Nat) (ks : List Col) (h : ∀ k ∈ ks, ∃ m, k.codec.missingWord = .ok m ∧ ¬ k.codec.Blank) :
    ∃ ys, firstCells junk a p ks = .ok ys ∧ Match (fun (k : Col) (y : Cell) => k.codec.width = 1 → y.drop 1 = []) ks ys := by
  induction ks generalizing p with
  | nil => exact ⟨[], rfl, .nil⟩
  | cons k ks ih =>
    obtain ⟨m, hm, hb⟩ := h k (by simp)
    obtain ⟨ys, h1, h2⟩ := ih (p + 1) (fun k hk => h k (by simp [hk]))
    refine ⟨(m :: (List.range (k.codec.width - 1)).map (junk a p)) :: ys, by simp only [firstCells, firstCell, hm, h1, if_neg hb], .cons ?_ h2⟩
    intro h1
    simp [h1]

theorem Match.drop {α β : Type} {R : α → β → Prop} {as : List α} {bs : List β} (h : Match R as bs) (n : Nat) : Match R (as.drop n) (bs.drop n) := by
  induction h generalizing n with
  | nil => simp; exact .nil
  | cons h1 h2 ih =>
    cases n with
    | zero => exact .cons h1 h2
    | succ n => exact ih n

theorem Match.mem_left' {α β : Type} {R : α → β → Prop} {as : List α} {bs : List β} (h : Match R as bs) {b : β} (hb : b ∈ bs) :
    ∃ a ∈ as, R a b := by
  induction h with
  | nil => simp at hb
  | cons h1 _ ih =>
    rcases List.mem_cons.mp hb with rfl | hb
    · exact ⟨_, by simp, h1⟩
    · obtain ⟨a, ha, h⟩ := ih hb
      exact ⟨a, by simp [ha], h⟩

/-- Cells of numeric columns have no words that could survive. -/
def CellsOk (cs : List InCol) (xs : List Cell) : Prop := ∀ (i : Nat) (c : InCol), cs[i]? = some c → c.vals.ty ≠ .string → (xs.getD i []).drop 1 = []

theorem upTo_num {c : InCol} (h : c.vals.ty ≠ .string) (j : Nat) : c.vals.upTo j = 1 := by
  cases hv : c.vals <;> rw [hv] at h <;> first | rfl | exact absurd rfl h

theorem csvCells_ok (lib : CsvLib) (env : Env) (hd : env.asDbl = true) (junk : Junk) (j : Nat) (cs : List InCol) (ks : List Col)
    (hk : Match (CsvCol env (fun c => c.vals.upTo j)) cs ks) (ts : List Str)
    (hs : Match (fun c t => c.vals.Stands lib j (trim t)) cs ts) (xs : List Cell) (hx : CellsOk cs xs)
    (dk : List Col) (hdk : ∀ k ∈ dk, ∃ m, k.codec.missingWord = .ok m ∧ ¬ k.codec.Blank) (dr : List Cell) (f : Bool) (a : Nat) :
    ∃ ks' f' a', csvCells lib junk dk dr f a ks xs ts = .ok (dk ++ ks', dr ++ cs.map (fun c => c.vals.cellOf env (c.vals.upTo (j + 1)) j), f', a') ∧
      Match (CsvCol env (fun c => c.vals.upTo (j + 1))) cs ks' ∧
      ((f = true ∨ ∃ c ∈ cs, c.vals.upTo j ≠ c.vals.upTo (j + 1)) → f' = true) := by
  induction hk generalizing ts xs dk dr f a with
  | nil => exact ⟨[], f, a, by simp [csvCells], .nil, by simp⟩
  | @cons c k cs ks h1 h2 ih =>
    cases hs with
    | @cons _ t _ ts s1 s2 =>
      have hx0 : c.vals.ty ≠ .string → (xs.headD []).drop 1 = [] := by
        intro h
        have := hx 0 c rfl h
        cases xs <;> simpa using this
      obtain ⟨k', y, wide, a1, a2, a3, a4⟩ := csvValue_ok lib env hd j c k (xs.headD []) t h1 s1 hx0
      have hdk' : ∀ q ∈ dk ++ [k'], ∃ m, q.codec.missingWord = .ok m ∧ ¬ q.codec.Blank := by
        intro q hq
        rcases List.mem_append.mp hq with hq | hq
        · exact hdk q hq
        · simp only [List.mem_singleton] at hq
          subst hq
          exact csvCol_missing a2
      unfold csvCells
      rw [a1]
      cases wide with
      | false =>
        dsimp only
        obtain ⟨ks', f', a', b1, b2, b3⟩ := ih ts s2 (xs.drop 1) (by
          intro i c' hc' hn
          have := hx (i + 1) c' (by simpa using hc') hn
          simpa [List.getD_eq_getElem?_getD, List.getElem?_drop, Nat.add_comm] using this) (dk ++ [k']) hdk' (dr ++ [y]) f a
        refine ⟨k' :: ks', f', a', ?_, .cons a2 b2, ?_⟩
        · rw [b1, a3]
          simp
        · rintro (h | ⟨c', hc', hne⟩)
          · exact b3 (Or.inl h)
          · rcases List.mem_cons.mp hc' with rfl | hc'
            · exact absurd (a4 hne) (by simp)
            · exact b3 (Or.inr ⟨c', hc', hne⟩)
      | true =>
        dsimp only
        have hall : ∀ q ∈ dk ++ k' :: ks, ∃ m, q.codec.missingWord = .ok m ∧ ¬ q.codec.Blank := by
          intro q hq
          rcases List.mem_append.mp hq with hq | hq
          · exact hdk q hq
          · rcases List.mem_cons.mp hq with rfl | hq
            · exact csvCol_missing a2
            · obtain ⟨c', _, hm⟩ := h2.mem_left' hq
              exact csvCol_missing hm
        obtain ⟨ys, y1, y2⟩ := csvFirst_ok junk (a + 1) 0 _ hall
        rw [y1]
        dsimp only
        have y3 := y2.drop (dk.length + 1)
        rw [show (dk ++ k' :: ks).drop (dk.length + 1) = ks by
          rw [show dk ++ k' :: ks = (dk ++ [k']) ++ ks by simp, show dk.length + 1 = (dk ++ [k']).length by simp, List.drop_left]] at y3
        obtain ⟨ks', f', a', b1, b2, b3⟩ := ih ts s2 (ys.drop (dk.length + 1)) (by
          intro i c' hc' hn
          cases hki : ks[i]? with
          | none =>
            have e1 := h2.length
            have e2 := (List.getElem?_eq_some_iff.mp hc').1
            have e3 := List.getElem?_eq_none_iff.mp hki
            omega
          | some q =>
            have e1 := y3.length
            cases hyi : (ys.drop (dk.length + 1))[i]? with
            | none =>
              have e2 := (List.getElem?_eq_some_iff.mp hki).1
              have e3 := List.getElem?_eq_none_iff.mp hyi
              omega
            | some z =>
              rw [List.getD_eq_getElem?_getD, hyi]
              apply y3.get i q z hki hyi
              rw [csvCol_width (h2.get i c' q hc' hki), upTo_num hn]) (dk ++ [k']) hdk' (dr ++ [y]) true (a + 1)
        refine ⟨k' :: ks', f', a', ?_, .cons a2 b2, fun _ => b3 (Or.inl rfl)⟩
        rw [b1, a3]
        simp

end Verif
