import Verif.PropPass1
import Verif.PropCompare

/-!
`odc compact` and `odc fixed`: the copy of a file and its verification.

Models: src/odc/tools/CompactTool.cc l.38-58, src/odc/tools/FixedSizeRowTool.cc l.37-54.
-/

namespace Verif

/-- `CompactTool::run` and `FixedSizeRowTool::run` after the parameters have been checked, tools/CompactTool.cc l.38-58, FixedSizeRowTool.cc l.37-54: the
file is copied, then the file and its copy are compared, with no option of the comparator set.  The result is the copy (which stays, whatever the
comparison says) and what the comparison says; the messages are not modelled. -/
def compactTool (env : Env) (cap : Nat) (junk j1 j2 : Junk) (bytes : List Byte) (fuel : Nat) : Except Err (List (List Byte) × Except Err Bool) :=
  match copyFile env cap junk bytes fuel with
  | .error e => .error e
  | .ok (_, out) => .ok (out, compareFiles env j1 j2 .strict bytes out.flatten fuel)

/-- `CompareTool::run`, tools/CompareTool.cc l.52-75: `checkMissing` is true if the option `-dontCheckMissing` is *not* set, and the comparator takes it as
`skipTestingHaveMissing`.  The lists of excluded columns are given as they are after `StringTools::split`; whether a NaN equals a NaN is set in the
environment. -/
def compareTool (env : Env) (j1 j2 : Junk) (dontCheckMissing nanOk : Bool) (exclTypes exclCols : List Str) (bytes1 bytes2 : List Byte) (fuel : Nat) :
    Except Err Bool :=
  compareFiles env j1 j2 ⟨!dontCheckMissing, nanOk, exclTypes, exclCols⟩ bytes1 bytes2 fuel

/-! ### Specification -/

/-- Specification: the two rows say the same about which of their columns have missing values. -/
def SameFlags (v1 v2 : RowView) : Prop :=
  v1.cols.map (fun k => k.codec.hasMissing) = v2.cols.map (fun k => k.codec.hasMissing)

/-! ### The outcome of a comparison -/

/-- Proof device: the values of two rows are found the same. -/
def CellsAgree (v1 v2 : RowView) : Prop :=
  v1.cols.length = v2.cols.length ∧ ∀ (j : Nat) (c1 c2 : Col), v1.cols[j]? = some c1 → v2.cols[j]? = some c2 →
    ∃ x1 x2, v1.cells[j]? = some x1 ∧ v2.cells[j]? = some x2 ∧ CellAgree .strict c1 c2 x1 x2

theorem skips_strict (i : Nat) (cs : List Col) : skipsFrom .strict i cs = [] := by
  induction cs generalizing i with
  | nil => rfl
  | cons c cs ih => simp [skipsFrom, CmpOpts.strict] at ih ⊢; exact ih _

theorem cmpCol_err {o : CmpOpts} {a b : Col} {e : Err} (h : cmpCol o a b = .error e) : e = .assertFailed := by
  unfold cmpCol at h
  repeat' split at h
  all_goals simp_all

theorem cmpColsFrom_err {o : CmpOpts} {i : Nat} {a b : List Col} {e : Err} (h : cmpColsFrom o i a b = .error e) : e = .assertFailed := by
  induction a generalizing b i e with
  | nil => simp [cmpColsFrom] at h
  | cons c a ih =>
    cases b with
    | nil => simp [cmpColsFrom] at h
    | cons d b =>
      simp only [cmpColsFrom] at h
      split at h
      · rename_i e' he
        simp only [Except.error.injEq] at h
        exact h ▸ cmpCol_err he
      · split at h
        · rename_i e' he
          simp only [Except.error.injEq] at h
          exact h ▸ ih he
        · simp at h

theorem cmpCols_err {o : CmpOpts} {a b : List Col} {e : Err} (h : cmpCols o a b = .error e) : e = .assertFailed := by
  unfold cmpCols at h
  split at h
  · simpa using h.symm
  · exact cmpColsFrom_err h

theorem cmpCols_strict (a b : List Col) : cmpCols .strict a b = .ok [] ∨ cmpCols .strict a b = .error .assertFailed := by
  cases h : cmpCols .strict a b with
  | error e => rw [cmpCols_err h]; exact Or.inr rfl
  | ok sk =>
    have := ((cmpCols_iff .strict a b sk).mp h).2
    rw [this, skips_strict]
    exact Or.inl rfl

/-- Rows with the same values: the comparison succeeds or an assertion on the columns fails. -/
theorem cmpLoop_outcome (env : Env) (j1 j2 : Junk) (fuel : Nat) (a b : RowIt) (vs1 vs2 : List RowView) (h1 : a.all env j1 fuel = (vs1, none))
    (h2 : b.all env j2 fuel = (vs2, none)) (hm : Match CellsAgree vs1 vs2) :
    cmpLoop env j1 j2 .strict fuel a b [] = .ok true ∨ cmpLoop env j1 j2 .strict fuel a b [] = .error .assertFailed := by
  induction fuel generalizing a b vs1 vs2 with
  | zero => simp [RowIt.all] at h1
  | succ fuel ih =>
    unfold cmpLoop
    unfold RowIt.all at h1 h2
    by_cases ha : a.noMore = false
    · by_cases hb : b.noMore = false
      · rw [if_pos ⟨ha, hb⟩]
        simp only [ha, hb, Bool.false_eq_true, if_false] at h1 h2
        cases hna : a.next env j1 with
        | error e => rw [hna] at h1; simp at h1
        | ok ra =>
          obtain ⟨a', ba⟩ := ra
          cases hnb : b.next env j2 with
          | error e => rw [hnb] at h2; simp at h2
          | ok rb =>
            obtain ⟨b', bb⟩ := rb
            rw [hna] at h1
            rw [hnb] at h2
            dsimp only at h1 h2
            cases hra : a'.all env j1 fuel with
            | mk ws1 e1 =>
              cases hrb : b'.all env j2 fuel with
              | mk ws2 e2 =>
                rw [hra] at h1
                rw [hrb] at h2
                simp only [Prod.mk.injEq] at h1 h2
                obtain ⟨rfl, rfl⟩ := h1
                obtain ⟨rfl, rfl⟩ := h2
                cases hm with
                | cons r1 r2 =>
                  have hrow := (cmpRow_iff .strict a.cols b.cols r1.1 0 a.last b.last).mpr (fun j c1 c2 g1 g2 _ => r1.2 j c1 c2 g1 g2)
                  rw [skips_strict] at hrow
                  have hi := ih a' b' ws1 ws2 hra hrb r2
                  rcases cmpCols_strict a.cols b.cols with hc | hc
                  · rw [hc]
                    have e1 : (if a.newData = true then Except.ok [] else (Except.ok [] : Except Err (List Nat))) = .ok [] := by split <;> rfl
                    rw [e1]
                    dsimp only
                    have e2 : (if b.newData = true then Except.ok [] else (Except.ok [] : Except Err (List Nat))) = .ok [] := by split <;> rfl
                    rw [e2]
                    dsimp only
                    rw [hrow]
                    exact hi
                  · rw [hc]
                    by_cases hn : a.newData = true
                    · rw [if_pos hn]; exact Or.inr rfl
                    · rw [if_neg hn]
                      dsimp only
                      by_cases hn' : b.newData = true
                      · rw [if_pos hn']; exact Or.inr rfl
                      · rw [if_neg hn']
                        dsimp only
                        rw [hrow]
                        exact hi
      · rw [if_neg (by simp [hb]), if_pos ha]
        exact Or.inr rfl
    · rw [if_neg (by simp [ha]), if_neg ha]
      split
      · exact Or.inr rfl
      · exact Or.inl rfl

theorem compare_outcome (env : Env) (j1 j2 : Junk) (b1 b2 : List Byte) (fuel : Nat) (vs1 vs2 : List RowView)
    (h1 : readRows env j1 b1 fuel = (vs1, none)) (h2 : readRows env j2 b2 fuel = (vs2, none)) (hm : Match CellsAgree vs1 vs2) :
    compareFiles env j1 j2 .strict b1 b2 fuel = .ok true ∨ compareFiles env j1 j2 .strict b1 b2 fuel = .error .assertFailed := by
  unfold readRows at h1 h2
  unfold compareFiles
  cases ha : RowIt.begin env j1 b1 with
  | error e => rw [ha] at h1; simp at h1
  | ok a =>
    cases hb : RowIt.begin env j2 b2 with
    | error e => rw [hb] at h2; simp at h2
    | ok b =>
      rw [ha] at h1
      rw [hb] at h2
      dsimp only
      rcases cmpCols_strict a.cols b.cols with hc | hc
      · rw [hc]
        exact cmpLoop_outcome env j1 j2 fuel a b vs1 vs2 h1 h2 hm
      · rw [hc]; exact Or.inr rfl

/-! ### Two readings of one row -/

theorem defined_of_missing {v : RowView} {p : Nat} {k : Col} {y : Cell} {b : Bool} (hk : v.cols[p]? = some k) (hy : v.cells[p]? = some y)
    (h : v.isMissing p = .ok b) : MissingDefined .strict k ∧ (ShownMissing .strict k y ↔ b = true) := by
  unfold RowView.isMissing at h
  rw [hk] at h
  dsimp only at h
  unfold MissingDefined ShownMissing
  by_cases h0 : k.codec.hasMissing = 0
  · rw [if_pos h0] at h
    simp only [Except.ok.injEq] at h
    subst h
    simp [h0, CmpOpts.strict]
  · rw [if_neg h0] at h
    cases hm : k.codec.missingWord with
    | error e => rw [hm] at h; simp at h
    | ok m =>
      rw [hm] at h
      simp only [List.getD_eq_getElem?_getD, hy, Option.getD_some, Except.ok.injEq] at h
      subst h
      refine ⟨fun _ => ⟨m, rfl⟩, ?_⟩
      simp [h0]

/-- A row of a table, shown twice: the comparator finds the values the same. -/
theorem rows_agree {env : Env} {T : UTable} (hv : ∀ c ∈ T.cols, c.vals.Ok env ∧ c.vals.Exact ∧ c.vals.Finite env) {r : Nat} {v1 v2 : RowView}
    (h1 : IsRow env T r v1) (h2 : IsRow env T r v2) : CellsAgree v1 v2 := by
  refine ⟨by rw [h1.ncols, h2.ncols], ?_⟩
  intro j c1 c2 g1 g2
  obtain ⟨c, hc⟩ : ∃ c, T.cols[j]? = some c := ⟨_, List.getElem?_eq_getElem (by rw [← h1.ncols]; exact (List.getElem?_eq_some_iff.mp g1).1)⟩
  obtain ⟨k1, y1, e1, _, e3, _, _, e6, e7⟩ := h1.col j c hc
  obtain ⟨k2, y2, f1, _, f3, _, _, f6, f7⟩ := h2.col j c hc
  rw [g1] at e1
  rw [g2] at f1
  simp only [Option.some.injEq] at e1 f1
  subst e1; subst f1
  obtain ⟨d1, s1⟩ := defined_of_missing g1 e6 (h1.missing j c hc)
  obtain ⟨d2, s2⟩ := defined_of_missing g2 f6 (h2.missing j c hc)
  refine ⟨y1, y2, e6, f6, d1, d2, ?_⟩
  rw [s1, s2]
  have hw1 := h1.wide j c1 y1 g1 e6
  have hw2 := h2.wide j c2 y2 g2 f6
  obtain ⟨ok, ex, fi⟩ := hv c (List.mem_of_getElem? hc)
  by_cases hmiss : c.vals.isMissing r = true
  · exact Or.inl ⟨hmiss, hmiss⟩
  refine Or.inr ⟨hmiss, hmiss, ?_⟩
  have same1 : ∀ {y : Cell}, y1 = y → y2 = y → SelfCell .strict c1 y → c1.ty ≠ 3 → ValueAgree .strict c1 c2 y1 y2 := by
    rintro y rfl rfl hs ht
    have := hs.agree.2.2
    rw [s1] at this
    rcases this with h | ⟨_, _, h⟩
    · exact absurd h.1 hmiss
    · rcases h with h | h
      · exact absurd h.1 ht
      · exact Or.inr h
  have key : ∀ {α : Type} (xs : List α), ((xs.drop r).take 1)[0]? = xs[r]? := by
    intro α xs
    rw [List.getElem?_take, if_pos (by omega), List.getElem?_drop, Nat.add_zero]
  cases hvv : c.vals with
  | ints vs =>
    rw [hvv] at e7 f7 ok fi e3
    obtain ⟨i, i1, i2⟩ := e7
    obtain ⟨i', j1, j2⟩ := f7
    rw [i1] at j1
    simp only [Option.some.injEq] at j1
    subst j1
    rw [key] at i1
    have hmem := List.mem_of_getElem? i1
    exact same1 i2 j2 ⟨d1, .inr (.inr (.inl ⟨.inl e3, intWord_fin (ok i hmem) (fi.imp id (fun h => h i hmem))⟩))⟩ (by rw [e3]; simp [Vals.ty, ColType.toInt])
  | bits ms vs =>
    rw [hvv] at e7 f7 ok fi e3
    obtain ⟨i, i1, i2⟩ := e7
    obtain ⟨i', j1, j2⟩ := f7
    rw [i1] at j1
    simp only [Option.some.injEq] at j1
    subst j1
    rw [key] at i1
    have hmem := List.mem_of_getElem? i1
    exact same1 i2 j2 ⟨d1, .inr (.inr (.inl ⟨.inr (.inl e3), intWord_fin (ok.1 i hmem) (fi.imp id (fun h => h i hmem))⟩))⟩ (by rw [e3]; simp [Vals.ty, ColType.toInt])
  | doubles vs =>
    rw [hvv] at e7 f7 ok fi e3
    obtain ⟨x, i1, i2⟩ := e7
    obtain ⟨x', j1, j2⟩ := f7
    rw [i1] at j1
    simp only [Option.some.injEq] at j1
    subst j1
    rw [key] at i1
    exact same1 i2 j2 ⟨d1, .inr (.inr (.inl ⟨.inr (.inr e3), fi x (List.mem_of_getElem? i1)⟩))⟩ (by rw [e3]; simp [Vals.ty, ColType.toInt])
  | reals vs =>
    rw [hvv] at e7 f7 ok fi e3 ex hmiss
    obtain ⟨x, x1, i1, i2, i3⟩ := e7
    obtain ⟨x', x2, j1, j2, j3⟩ := f7
    rw [i1] at j1
    simp only [Option.some.injEq] at j1
    subst j1
    rw [key] at i1
    have hmem := List.mem_of_getElem? i1
    have hx : x ≠ realMDI := by
      rintro rfl
      exact hmiss (by simp [Vals.isMissing, i1])
    have hout : ∀ {ws : List Word} {z : Word}, RealOut realMDI ws x z → z = x := by
      intro ws z hz
      unfold RealOut at hz
      rw [if_neg (fun h => hx ((feq_mdi x).mp h))] at hz
      rcases hz with hz | hz
      · rw [hz]; exact (ex x hmem).resolve_right hx
      · exact hz.1
    have hn : widen (narrow x) = x := (ex x hmem).resolve_right hx
    have hfin := fi x hmem
    exact same1 (y := [x]) (by rw [i2, hout i3]) (by rw [j2, hout j3]) ⟨d1, .inr (.inr (.inr (.inl ⟨e3, hfin⟩)))⟩ (by rw [e3]; simp [Vals.ty, ColType.toInt])
  | strings w vs =>
    rw [hvv] at e7 f7 ok e3
    obtain ⟨s, w1, i1, i2, i3⟩ := e7
    obtain ⟨s', w2, j1, j2, j3⟩ := f7
    rw [i1] at j1
    simp only [Option.some.injEq] at j1
    subst j1
    rw [key] at i1
    have hnf := (ok.2.2.1 s (List.mem_of_getElem? i1)).2
    refine Or.inl ⟨e3, ?_⟩
    rw [hw1, hw2, i3, j3, wordsOf_length, wordsOf_length, cellStr_wordsOf _ _ i2 hnf, cellStr_wordsOf _ _ j2 hnf]

/-! ### Files written by `encode` -/

theorem gives_part {env : Env} {v : Vals} {r : Nat} {y : Cell} (h : v.Gives env r y) : (v.part r 1).Gives env 0 y := by
  have key : ∀ {α : Type} (xs : List α), ((xs.drop r).take 1)[0]? = xs[r]? := by
    intro α xs
    rw [List.getElem?_take, if_pos (by omega), List.getElem?_drop, Nat.add_zero]
  cases v with
  | reals vs =>
    obtain ⟨x, x', i1, i2, i3⟩ := h
    refine ⟨x, x', by rw [key]; exact i1, i2, ?_⟩
    unfold RealOut at i3 ⊢
    split
    · rename_i hf; rw [if_pos hf] at i3; exact i3
    · rename_i hf
      rw [if_neg hf] at i3
      rcases i3 with i3 | ⟨i3, i4⟩
      · exact Or.inl i3
      · exact Or.inr ⟨i3, fun w hw => i4 w (List.mem_of_mem_drop (List.mem_of_mem_take hw))⟩
  | ints vs => obtain ⟨x, i1, i2⟩ := h; exact ⟨x, by rw [key]; exact i1, i2⟩
  | bits ms vs => obtain ⟨x, i1, i2⟩ := h; exact ⟨x, by rw [key]; exact i1, i2⟩
  | doubles vs => obtain ⟨x, i1, i2⟩ := h; exact ⟨x, by rw [key]; exact i1, i2⟩
  | strings w vs => obtain ⟨x, w', i1, i2⟩ := h; exact ⟨x, w', by rw [key]; exact i1, i2⟩

theorem RowOf.isRow {env : Env} {T : UTable} {r : Nat} {v : RowView} (h : RowOf env T r v) : IsRow env T r v := by
  refine ⟨h.ncols, h.ncells, ?_, h.missing, ?_, h.mdi⟩
  · intro p c hp
    obtain ⟨k, y, e1, e2, e3, e4, e5⟩ := h.col p c hp
    obtain ⟨_, f2, f3, _⟩ := h.shape p c k y hp e1 e4
    exact ⟨k, y, e1, e2, e3, f2, f3, e4, gives_part e5⟩
  · intro p k y hk hy
    obtain ⟨c, hc⟩ : ∃ c, T.cols[p]? = some c := ⟨_, List.getElem?_eq_getElem (by rw [← h.ncols]; exact (List.getElem?_eq_some_iff.mp hk).1)⟩
    exact (h.shape p c k y hc hk hy).1.symm

/-- The rows of a file written by `encode`. -/
theorem encode_views (env : Env) (hmd5 : env.Md5Ok) (Ts : List UTable) (hT : ∀ T ∈ Ts, T.Ok env)
    (hv : ∀ T ∈ Ts, ∀ c ∈ T.cols, c.vals.Ok env) (hpos : ∀ T ∈ Ts, 0 < T.rows) :
    ∃ bss, writeTables env Ts = .ok bss ∧ ((∀ b ∈ bss, b.length ≤ 2147483647) → ∀ fuel : Nat, (Ts.map UTable.rows).sum + 1 < fuel →
      ∃ views, (∀ junk : Junk, readRows env junk bss.flatten fuel = (views, none)) ∧ Match (IsRowAt env) (allRows Ts) views ∧ FlagsTrue views) := by
  have key : ∃ Fs : List RFrame, writeTables env Ts = .ok (Fs.map RFrame.bytes) ∧
      ((∀ b ∈ Fs.map RFrame.bytes, b.length ≤ 2147483647) → ∀ F ∈ Fs, F.Ok env) ∧ rowCount Fs = (Ts.map UTable.rows).sum ∧
      Match (fun x p => IsRowPair env x.1 x.2 p) (allRows Ts) (rowPairs Fs) ∧ ∀ F ∈ Fs, F.FlagsTrue := by
    induction Ts with
    | nil => exact ⟨[], rfl, by simp, rfl, .nil, by simp⟩
    | cons T Ts ih =>
      obtain ⟨Fs, a1, a2, a3, a4, a5⟩ := ih (fun T h => hT T (by simp [h])) (fun T h => hv T (by simp [h])) (fun T h => hpos T (by simp [h]))
      have hvT := hv T (by simp)
      obtain ⟨F, f1, f2, f3, f4, f5⟩ := encode_rframe env hmd5 .same T (hT T (by simp)) hvT (hpos T (by simp))
      have hrow : ∀ (r : Nat) (row : List Cell), F.rows[r]? = some row → IsRow env T r ⟨F.cols, row, false⟩ := fun r row h => (f4 r row false h).isRow
      refine ⟨F :: Fs, by simp only [writeTables, f1, a1, List.map_cons], ?_, by simp only [rowCount, List.map_cons, List.sum_cons] at a3 ⊢; rw [a3, f3], ?_, ?_⟩
      · intro hs G hG
        rcases List.mem_cons.mp hG with rfl | hG
        · exact f2 (hs _ (by simp))
        · exact a2 (fun b hb => hs b (by rw [List.map_cons]; exact List.mem_cons_of_mem _ hb)) G hG
      · rw [show rowPairs (F :: Fs) = F.rows.map (fun r => (F.cols, r)) ++ rowPairs Fs by simp [rowPairs]]
        rw [show allRows (T :: Ts) = (List.range T.rows).map (fun j => (T, j)) ++ allRows Ts by simp [allRows]]
        refine Match.append ?_ a4
        refine Match.of_get _ _ (by simp [f3]) ?_
        intro i x p hx hp
        rw [List.getElem?_map, Option.map_eq_some_iff] at hx hp
        obtain ⟨j, hj, rfl⟩ := hx
        obtain ⟨row, hr, rfl⟩ := hp
        obtain ⟨hi, hj⟩ := List.getElem?_eq_some_iff.mp hj
        simp only [List.getElem_range] at hj
        subst hj
        exact hrow i row hr
      · intro G hG
        rcases List.mem_cons.mp hG with rfl | hG
        · intro v hvv p k hk
          obtain ⟨v1, _⟩ := mem_tableViews hvv
          rw [v1] at hk
          obtain ⟨c, hc⟩ : ∃ c, T.cols[p]? = some c := ⟨_, List.getElem?_eq_getElem (by
            rw [Match.length f5]; exact (List.getElem?_eq_some_iff.mp hk).1)⟩
          obtain ⟨q, back, q1, q2⟩ := Match.get f5 p c k hc hk
          obtain ⟨b1, b2⟩ := q1.flag (hvT c (List.mem_of_getElem? hc))
          rw [q2]
          refine ⟨b1, fun hh => ?_⟩
          obtain ⟨r, r1, r2⟩ := b2 hh
          rw [(hT T (by simp)).col c (List.mem_of_getElem? hc) |>.2.2] at r1
          have hr : G.rows[r]? = some (G.rows[r]'(by omega)) := List.getElem?_eq_getElem _
          obtain ⟨u, u1, u2, u3⟩ := tableViews_mem false (List.mem_of_getElem? hr)
          refine ⟨u, u1, by rw [u2, v1], ?_⟩
          rw [isMissing_congr (v := ⟨G.cols, G.rows[r]'(by omega), false⟩) u2 u3, (hrow r _ hr).missing p c hc, r2]
        · exact a5 G hG
  obtain ⟨Fs, a1, a2, a3, a4, a5⟩ := key
  refine ⟨_, a1, fun hs fuel hf => ⟨fileViews Fs, fun junk => readRows_file env junk Fs (a2 hs) fuel (by omega), ?_, flags_file Fs a5⟩⟩
  apply rowAt_pairs
  rw [fileViews_pairs]
  exact a4

/-! ### The verification -/

theorem allRows_mem {Ts : List UTable} {x : UTable × Nat} (h : x ∈ allRows Ts) : x.1 ∈ Ts ∧ x.2 < x.1.rows := by
  simp only [allRows, List.mem_flatMap, List.mem_map, List.mem_range] at h
  obtain ⟨T, h1, j, h2, rfl⟩ := h
  exact ⟨h1, h2⟩

theorem cols_agree {env : Env} {T : UTable} {r : Nat} {v1 v2 : RowView} (h1 : IsRow env T r v1) (h2 : IsRow env T r v2) :
    Match (ColAgree .strict) v1.cols v2.cols ↔ SameFlags v1 v2 := by
  constructor
  · intro h
    unfold SameFlags
    apply List.ext_getElem?
    intro p
    simp only [List.getElem?_map]
    cases hk : v1.cols[p]? with
    | none =>
      rw [List.getElem?_eq_none (by rw [h2.ncols, ← h1.ncols]; exact List.getElem?_eq_none_iff.mp hk)]
    | some k =>
      obtain ⟨k2, hk2⟩ : ∃ k2, v2.cols[p]? = some k2 := ⟨_, List.getElem?_eq_getElem (by
        rw [h2.ncols, ← h1.ncols]; exact (List.getElem?_eq_some_iff.mp hk).1)⟩
      rw [hk2]
      have := (Match.get h p k k2 hk hk2).2 (by simp [CmpOpts.strict])
      simp [this.2 rfl]
  · intro h
    refine Match.of_get _ _ (by rw [h1.ncols, h2.ncols]) ?_
    intro p k k2 hk hk2
    obtain ⟨c, hc⟩ : ∃ c, T.cols[p]? = some c := ⟨_, List.getElem?_eq_getElem (by rw [← h1.ncols]; exact (List.getElem?_eq_some_iff.mp hk).1)⟩
    obtain ⟨k1', y1, e1, e2, e3, e4, e5, _⟩ := h1.col p c hc
    obtain ⟨k2', y2, f1, f2, f3, f4, f5, _⟩ := h2.col p c hc
    rw [hk] at e1
    rw [hk2] at f1
    simp only [Option.some.injEq] at e1 f1
    subst e1; subst f1
    have hf : (v1.cols.map (fun k => k.codec.hasMissing))[p]? = (v2.cols.map (fun k => k.codec.hasMissing))[p]? := by
      unfold SameFlags at h; rw [h]
    simp only [List.getElem?_map, hk, hk2, Option.map_some, Option.some.injEq] at hf
    exact ⟨by rw [e2, f2], fun _ => ⟨fun _ => ⟨by rw [e3, f3], fun _ => ⟨by rw [e4, f4], by rw [e5, f5]⟩⟩, fun _ => hf⟩⟩

/-- Two files that show the same rows of tables. -/
theorem compare_rows (env : Env) (j1 j2 : Junk) (Ts : List UTable) (b1 b2 : List Byte) (fuel : Nat) (vs1 vs2 : List RowView)
    (hv : ∀ T ∈ Ts, ∀ c ∈ T.cols, c.vals.Ok env ∧ c.vals.Exact ∧ c.vals.Finite env) (hne : allRows Ts ≠ [])
    (h1 : readRows env j1 b1 fuel = (vs1, none)) (h2 : readRows env j2 b2 fuel = (vs2, none))
    (m1 : Match (IsRowAt env) (allRows Ts) vs1) (m2 : Match (IsRowAt env) (allRows Ts) vs2) :
    (compareFiles env j1 j2 .strict b1 b2 fuel = .ok true ∨ compareFiles env j1 j2 .strict b1 b2 fuel = .error .assertFailed) ∧
      (compareFiles env j1 j2 .strict b1 b2 fuel = .ok true ↔ Match SameFlags vs1 vs2) := by
  have hlen : vs1.length = vs2.length := by rw [← m1.length, ← m2.length]
  have row : ∀ (i : Nat) (v1 v2 : RowView), vs1[i]? = some v1 → vs2[i]? = some v2 → ∃ x ∈ allRows Ts, IsRow env x.1 x.2 v1 ∧ IsRow env x.1 x.2 v2 := by
    intro i v1 v2 g1 g2
    obtain ⟨x, hx⟩ : ∃ x, (allRows Ts)[i]? = some x := ⟨_, List.getElem?_eq_getElem (by rw [m1.length]; exact (List.getElem?_eq_some_iff.mp g1).1)⟩
    exact ⟨x, List.mem_of_getElem? hx, m1.get i x v1 hx g1, m2.get i x v2 hx g2⟩
  have hcells : Match CellsAgree vs1 vs2 := by
    refine Match.of_get _ _ hlen ?_
    intro i v1 v2 g1 g2
    obtain ⟨x, hx, r1, r2⟩ := row i v1 v2 g1 g2
    exact rows_agree (hv x.1 (allRows_mem hx).1) r1 r2
  refine ⟨compare_outcome env j1 j2 b1 b2 fuel vs1 vs2 h1 h2 hcells, ?_⟩
  rw [C34_compare]
  constructor
  · rintro ⟨_, us1, us2, q1, q2, q3⟩
    rw [h1] at q1
    rw [h2] at q2
    simp only [Prod.mk.injEq, and_true] at q1 q2
    subst q1; subst q2
    refine Match.of_get _ _ hlen ?_
    intro i v1 v2 g1 g2
    obtain ⟨x, hx, r1, r2⟩ := row i v1 v2 g1 g2
    exact (cols_agree r1 r2).mp (q3.get i v1 v2 g1 g2).1
  · intro hm
    have hrows : Match (RowAgree .strict) vs1 vs2 := by
      refine Match.of_get _ _ hlen ?_
      intro i v1 v2 g1 g2
      obtain ⟨x, hx, r1, r2⟩ := row i v1 v2 g1 g2
      exact ⟨(cols_agree r1 r2).mpr (hm.get i v1 v2 g1 g2), fun j c1 c2 k1 k2 _ => (hcells.get i v1 v2 g1 g2).2 j c1 c2 k1 k2⟩
    refine ⟨?_, vs1, vs2, h1, h2, hrows⟩
    cases hrows with
    | nil => exact absurd (List.length_eq_zero_iff.mp m1.length) hne
    | cons r _ => exact ⟨_, _, firstCols_head h1, firstCols_head h2, r.1⟩

/-- No values missing: no column says so. -/
theorem flags_clean {env : Env} {Ts : List UTable} {vs : List RowView} (hm : Match (IsRowAt env) (allRows Ts) vs) (hf : FlagsTrue vs)
    (hno : ∀ T ∈ Ts, ∀ c ∈ T.cols, ∀ r : Nat, c.vals.isMissing r = false) : ∀ v ∈ vs, ∀ k ∈ v.cols, k.codec.hasMissing = 0 := by
  intro v hv k hk
  obtain ⟨p, hp⟩ := List.mem_iff_getElem?.mp hk
  by_cases h0 : k.codec.hasMissing = 0
  · exact h0
  · exfalso
    obtain ⟨u, u1, u2, u3⟩ := (hf v hv p k hp).2 h0
    obtain ⟨i, hi⟩ := List.mem_iff_getElem?.mp u1
    obtain ⟨x, hx⟩ : ∃ x, (allRows Ts)[i]? = some x := ⟨_, List.getElem?_eq_getElem (by rw [hm.length]; exact (List.getElem?_eq_some_iff.mp hi).1)⟩
    have hr : IsRow env x.1 x.2 u := hm.get i x u hx hi
    obtain ⟨c, hc⟩ : ∃ c, x.1.cols[p]? = some c := ⟨_, List.getElem?_eq_getElem (by rw [← hr.ncols, u2]; exact (List.getElem?_eq_some_iff.mp hp).1)⟩
    have := hr.missing p c hc
    rw [u3, hno x.1 (allRows_mem (List.mem_of_getElem? hx)).1 c (List.mem_of_getElem? hc)] at this
    simp at this

/-- **C62.**  `odc compact` (and `odc fixed`) on a file written by `encode`, under the conditions of `C44_compact`, the numbers being finite: the copy has
the rows of the file, and the verification that follows either succeeds or fails an assertion: it never finds a difference.  It succeeds exactly if in
every row the columns of the file and of the copy say the same about whether they have missing values; if no value is missing it succeeds. -/
theorem C62_verify (env : Env) (hmd5 : env.Md5Ok) (cap : Nat) (hcap : 0 < cap) (Ps : List (List InCol × UTable)) (hne : Ps ≠ [])
    (hT : ∀ p ∈ Ps, p.2.Ok env) (hv : ∀ p ∈ Ps, ∀ c ∈ p.2.cols, c.vals.Ok env ∧ c.vals.Exact) (hfin : ∀ p ∈ Ps, ∀ c ∈ p.2.cols, c.vals.Finite env)
    (hpos : ∀ p ∈ Ps, 0 < p.2.rows)
    (hw : ∀ p ∈ Ps, p.2.Within p.1) (hB : ∀ p ∈ Ps, ∀ b ∈ p.1, b.vals.Ok env ∧ (env.longEnv = true → b.vals.NoEmpty))
    (hg : Grouped Ps) (hbig : (Ps.map (fun p => p.2.rows)).sum < 18446744073709551616) :
    ∃ bss, writeTables env (Ps.map Prod.snd) = .ok bss ∧ ((∀ b ∈ bss, b.length ≤ 2147483647) →
      ∀ (junk j1 j2 : Junk) (fuel : Nat), (Ps.map (fun p => p.2.rows)).sum + 1 < fuel →
        ∃ (out : List (List Byte)) (res : Except Err Bool), compactTool env cap junk j1 j2 bss.flatten fuel = .ok (out, res) ∧
          ((∀ f ∈ out, f.length ≤ 2147483647) →
            ∃ vs1 vs2, readRows env j1 bss.flatten fuel = (vs1, none) ∧ readRows env j2 out.flatten fuel = (vs2, none) ∧
              Match (IsRowAt env) (allRows (Ps.map Prod.snd)) vs1 ∧ Match (IsRowAt env) (allRows (Ps.map Prod.snd)) vs2 ∧
              FlagsTrue vs1 ∧ FlagsTrue vs2 ∧ (res = .ok true ∨ res = .error .assertFailed) ∧ (res = .ok true ↔ Match SameFlags vs1 vs2) ∧
              ((∀ p ∈ Ps, ∀ c ∈ p.2.cols, ∀ r : Nat, c.vals.isMissing r = false) → res = .ok true))) := by
  obtain ⟨bss, w1, w2⟩ := C44_compact env hmd5 cap hcap Ps hne hT hv hpos hw hB hg hbig
  have hrows : (Ps.map Prod.snd).map UTable.rows = Ps.map (fun p => p.2.rows) := by rw [List.map_map]; rfl
  have mem : ∀ T ∈ Ps.map Prod.snd, ∃ p ∈ Ps, p.2 = T := fun T h => List.mem_map.mp h
  obtain ⟨bss', e1, e2⟩ := encode_views env hmd5 (Ps.map Prod.snd) (fun T h => by obtain ⟨p, hp, rfl⟩ := mem T h; exact hT p hp)
    (fun T h => by obtain ⟨p, hp, rfl⟩ := mem T h; exact fun c hc => (hv p hp c hc).1) (fun T h => by obtain ⟨p, hp, rfl⟩ := mem T h; exact hpos p hp)
  rw [w1] at e1
  simp only [Except.ok.injEq] at e1
  subst e1
  refine ⟨bss, w1, ?_⟩
  intro hs junk j1 j2 fuel hf
  obtain ⟨out, o1, o2⟩ := w2 hs junk fuel hf
  refine ⟨out, compareFiles env j1 j2 .strict bss.flatten out.flatten fuel, by unfold compactTool; rw [o1], ?_⟩
  intro hso
  obtain ⟨vs2, v1, v2, v3⟩ := o2 hso j2 fuel hf
  obtain ⟨vs1, u1, u2, u3⟩ := e2 hs fuel (by rw [hrows]; exact hf)
  have hall : allRows (Ps.map Prod.snd) ≠ [] := by
    cases Ps with
    | nil => exact absurd rfl hne
    | cons p Ps =>
      have := hpos p (by simp)
      intro h
      have hl := congrArg List.length h
      rw [allRows_length] at hl
      simp only [List.map_cons, List.sum_cons, List.length_nil] at hl
      omega
  obtain ⟨c1, c2⟩ := compare_rows env j1 j2 (Ps.map Prod.snd) bss.flatten out.flatten fuel vs1 vs2
    (fun T h => by obtain ⟨p, hp, rfl⟩ := mem T h; exact fun c hc => ⟨(hv p hp c hc).1, (hv p hp c hc).2, hfin p hp c hc⟩) hall (u1 j1) v1 u2 v2
  refine ⟨vs1, vs2, u1 j1, v1, u2, v2, u3, v3, c1, c2, ?_⟩
  intro hno
  rw [c2]
  have hno' : ∀ T ∈ Ps.map Prod.snd, ∀ c ∈ T.cols, ∀ r : Nat, c.vals.isMissing r = false := by
    intro T h
    obtain ⟨p, hp, rfl⟩ := mem T h
    exact hno p hp
  have z1 := flags_clean u2 u3 hno'
  have z2 := flags_clean v2 v3 hno'
  refine Match.of_get _ _ (by rw [← u2.length, ← v2.length]) ?_
  intro i a b ha hb
  obtain ⟨x, hx⟩ : ∃ x, (allRows (Ps.map Prod.snd))[i]? = some x := ⟨_, List.getElem?_eq_getElem (by rw [u2.length]; exact (List.getElem?_eq_some_iff.mp ha).1)⟩
  have ra : IsRow env x.1 x.2 a := u2.get i x a hx ha
  have rb : IsRow env x.1 x.2 b := v2.get i x b hx hb
  unfold SameFlags
  have hz : ∀ (ks : List Col), (∀ k ∈ ks, k.codec.hasMissing = 0) → ks.map (fun k => k.codec.hasMissing) = List.replicate ks.length 0 := by
    intro ks hk
    rw [List.eq_replicate_iff]
    simp only [List.length_map, List.mem_map, true_and]
    rintro b ⟨k, h1, rfl⟩
    exact hk k h1
  rw [hz _ (z1 a (List.mem_of_getElem? ha)), hz _ (z2 b (List.mem_of_getElem? hb)), ra.ncols, rb.ncols]

/-! ### A concrete case -/

theorem copyCase_fin : ∀ p ∈ copyCase, ∀ c ∈ p.2.cols, c.vals.Finite sampleEnv := by
  intro p hp
  simp only [copyCase, List.mem_cons, List.not_mem_nil, or_false] at hp
  rcases hp with rfl | rfl | rfl
  all_goals
    intro c hc
    simp only [partA, partB, partC, List.mem_cons, List.not_mem_nil, or_false] at hc
  · rcases hc with rfl | rfl
    · exact Or.inr (ball (P := fun i => (0 : Int) ≤ i) (by decide +kernel))
    · trivial
  · rcases hc with rfl | rfl
    · exact Or.inr (ball (P := fun i => (0 : Int) ≤ i) (by decide +kernel))
    · trivial
  · subst hc
    exact ball (P := fun x => isFin x = true) (by decide +kernel)

/-- `C62_verify` applies to the three tables of `copyCase`, of which two are merged. -/
example :=
  C62_verify sampleEnv sampleEnv_md5 2 (by decide) copyCase (by simp [copyCase]) copyCase_ok copyCase_vals copyCase_fin (by
    intro p hp
    simp only [copyCase, List.mem_cons, List.not_mem_nil, or_false] at hp
    rcases hp with rfl | rfl | rfl <;> decide) copyCase_within copyCase_group
    ⟨Or.inl rfl, Or.inr (by decide +kernel), trivial⟩ (by decide)

/-! ### What goes wrong -/

/-- Sample: the file of these tables. -/
def compactFileOf (env : Env) (Ts : List UTable) : List Byte := match writeTables env Ts with | .ok bss => bss.flatten | .error _ => []

/-- Sample: what the verification says, and how many rows the copy has. -/
def tryCompact (env : Env) (cap : Nat) (Ts : List UTable) : Option (Except Err Bool × Nat) :=
  match compactTool env cap (fun _ _ _ => 0) (fun _ _ _ => 0) (fun _ _ _ => 0) (compactFileOf env Ts) 20 with
  | .ok (out, res) => some (res, (readRows env (fun _ _ _ => 0) out.flatten 20).1.length)
  | .error _ => none

/-- Sample: what `odc compare` says of a file and its copy. -/
def tryCompareTool (env : Env) (cap : Nat) (dontCheck : Bool) (Ts : List UTable) : Except Err Bool :=
  match copyFile env cap (fun _ _ _ => 0) (compactFileOf env Ts) 20 with
  | .ok (_, out) => compareTool env (fun _ _ _ => 0) (fun _ _ _ => 0) dontCheck false [] [] (compactFileOf env Ts) out.flatten 20
  | .error e => .error e

/-- Sample: two tables with the same column, and a missing value in the second only. -/
def halfMissing : List UTable := [⟨[⟨lit "a", .ints [1, 2]⟩], 2, []⟩, ⟨[⟨lit "a", .ints [3, 2147483647]⟩], 2, []⟩]

/-- **C62 fails for files with missing values in some tables only**: the copy has all the rows (`C44_compact`), yet the verification of `odc compact`
fails an assertion, as the merged table has missing values and the first table of the file has none; with frames of two rows it succeeds. -/
theorem C62_violated_missing :
    (match tryCompact dblEnv 10 halfMissing with | some (r, n) => refuses r && decide (n = 4) | none => false) = true ∧
    (match tryCompact dblEnv 2 halfMissing with | some (r, n) => saysSame r && decide (n = 4) | none => false) = true := by
  constructor <;> decide +kernel

/-- **`-dontCheckMissing` does the opposite of what it says**: `odc compare` without it accepts a file and its copy whose columns say different things about
missing values; with it, it refuses them. -/
theorem C62_violated_option :
    saysSame (tryCompareTool dblEnv 10 false halfMissing) = true ∧ refuses (tryCompareTool dblEnv 10 true halfMissing) = true := by
  constructor <;> decide +kernel

end Verif
