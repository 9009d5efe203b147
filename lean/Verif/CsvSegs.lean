import Verif.CsvRows

/-
The rows of a comma separated text, as an iterator yields them, are those of tables with columns of increasing width.
-/

namespace Verif

/-! ### The iterator -/

theorem Lines.next {l : Str} {ls : List Str} {t : List Byte} (h : Lines (l :: ls) t) : (getLine t).1 = l ∧ Lines ls (getLine t).2 := by
  cases h with
  | line h1 h2 => rw [getLine_line _ _ h1]; exact ⟨rfl, h2⟩
  | last h1 => rw [getLine_last _ h1]; exact ⟨rfl, .done (by intro b hb; simp at hb)⟩

theorem Lines.stop {t : List Byte} (h : Lines [] t) (delim : Str) : splitAt delim (trim (getLine t).1) = [] := by
  cases h with
  | done h1 =>
    have : trim (getLine t).1 = [] := by
      unfold trim getLine
      rw [(ltrim_eq_nil _).mpr h1]
      rfl
    rw [this]
    rfl

/-- What the iterator shows when the first `j + 1` lines have been read. -/
structure CsvView (env : Env) (T : UTable) (j : Nat) (v : RowView) : Prop where
  cols : Match (CsvCol env (fun c => c.vals.upTo (j + 1))) T.cols v.cols
  cells : v.cells = T.cols.map (fun c => c.vals.cellOf env (c.vals.upTo (j + 1)) j)
  fresh : (∃ c ∈ T.cols, c.vals.upTo j ≠ c.vals.upTo (j + 1)) → v.fresh = true

theorem cellOf_num {env : Env} {c : InCol} (h : c.vals.ty ≠ .string) (w j : Nat) : (c.vals.cellOf env w j).drop 1 = [] := by
  have key : ∀ {α : Type} (l : List α) (f : α → Word), ((l.map (fun i => [f i])).getD j []).drop 1 = [] := by
    intro α l f
    rw [List.getD_eq_getElem?_getD, List.getElem?_map]
    cases l[j]? <;> rfl
  unfold Vals.cellOf
  cases hv : c.vals <;> rw [hv] at h
  · exact key _ _
  · exact key _ _
  · exact key _ (fun x => x)
  · exact key _ (fun x => x)
  · exact absurd rfl h

theorem CsvView.cellsOk {env : Env} {T : UTable} {j : Nat} {v : RowView} (h : CsvView env T j v) : CellsOk T.cols v.cells := by
  intro i c hc hn
  rw [h.cells, List.getD_eq_getElem?_getD, List.getElem?_map, hc]
  exact cellOf_num hn _ _

theorem Match.change {α β : Type} {R R' : α → β → Prop} {as : List α} {bs : List β} (h : Match R as bs) (hr : ∀ a b, R a b → R' a b) :
    Match R' as bs := by
  induction h with
  | nil => exact .nil
  | cons h1 _ ih => exact .cons (hr _ _ h1) ih

theorem stands_trim {lib : CsvLib} {j : Nat} {cs : List InCol} {ts us : List Str} (h : Match (fun c t => c.vals.Stands lib j (trim t)) cs ts)
    (he : us.map trim = ts.map trim) : Match (fun c t => c.vals.Stands lib j (trim t)) cs us := by
  induction h generalizing us with
  | nil =>
    cases us with
    | nil => exact .nil
    | cons _ _ => simp at he
  | cons h1 _ ih =>
    cases us with
    | nil => simp at he
    | cons u us =>
      simp only [List.map_cons, List.cons.injEq] at he
      exact .cons (by rw [he.1]; exact h1) (ih he.2)

/-- One more line. -/
theorem next_row (lib : CsvLib) (env : Env) (hd : env.asDbl = true) (junk : Junk) (delim : Str) (d : Byte) (hdd : d ∈ delim) (T : UTable)
    (hne : T.cols ≠ []) (j : Nat) (r : List Str)
    (hr : Match (fun c t => c.vals.Stands lib j (trim t)) T.cols r ∧ ∀ t ∈ r, trim t ≠ [] ∧ ∀ b ∈ t, b ∉ delim)
    (ls : List Str) (it : CsvIt) (hl : Lines (joinWith d r :: ls) it.rest) (hn : it.noMore = false)
    (hc : Match (CsvCol env (fun c => c.vals.upTo j)) T.cols it.cols) (hx : CellsOk T.cols it.row) :
    ∃ it', it.next lib delim junk = .ok it' ∧ it'.noMore = false ∧ Lines ls it'.rest ∧ CsvView env T j ⟨it'.cols, it'.row, it'.fresh⟩ := by
  obtain ⟨g1, g2⟩ := hl.next
  obtain ⟨v1, v2⟩ := line_values delim d hdd r hr.2
  unfold CsvIt.next
  rw [hn, g1]
  have hst := stands_trim hr.1 v1
  obtain ⟨ks', f', a', b1, b2, b3⟩ := csvCells_ok lib env hd junk j T.cols it.cols hc _ hst it.row hx [] (by simp) [] false it.allocs
  have hlen : (splitAt delim (trim (joinWith d r))).length = it.cols.length := by rw [← hst.length, hc.length]
  cases hv : splitAt delim (trim (joinWith d r)) with
  | nil =>
    rw [hv] at hst
    have := hst.length
    simp at this
    exact absurd this hne
  | cons v vs =>
    rw [hv] at b1 hlen
    simp only [Bool.false_eq_true, if_false]
    rw [if_pos hlen, b1]
    exact ⟨_, rfl, rfl, g2, ⟨b2, rfl, fun h => b3 (Or.inr h)⟩⟩

theorem next_end (lib : CsvLib) (junk : Junk) (delim : Str) (it : CsvIt) (hl : Lines [] it.rest) (hn : it.noMore = false) :
    ∃ it', it.next lib delim junk = .ok it' ∧ it'.noMore = true ∧ it'.cols = it.cols := by
  unfold CsvIt.next
  rw [hn, hl.stop delim]
  exact ⟨_, rfl, rfl, rfl⟩

/-- All lines from row `j` on, which has been read. -/
theorem all_rows (lib : CsvLib) (env : Env) (hd : env.asDbl = true) (junk : Junk) (delim : Str) (d : Byte) (hdd : d ∈ delim) (T : UTable)
    (hne : T.cols ≠ []) (rows : List (List Str))
    (hr : ∀ (j : Nat) (r : List Str), rows[j]? = some r →
      Match (fun c t => c.vals.Stands lib j (trim t)) T.cols r ∧ ∀ t ∈ r, trim t ≠ [] ∧ ∀ b ∈ t, b ∉ delim)
    (m j : Nat) (hm : j + m + 1 = rows.length) (it : CsvIt) (hn : it.noMore = false) (hv : CsvView env T j ⟨it.cols, it.row, it.fresh⟩)
    (hl : Lines ((rows.drop (j + 1)).map (joinWith d)) it.rest) (fuel : Nat) (hf : m + 1 < fuel) :
    ∃ views, it.all lib delim junk fuel = (views, none) ∧ views.length = m + 1 ∧
      ∀ (r : Nat) (v : RowView), views[r]? = some v → CsvView env T (j + r) v := by
  induction m generalizing j it fuel with
  | zero =>
    obtain ⟨fuel, rfl⟩ : ∃ f, fuel = f + 2 := ⟨fuel - 2, by omega⟩
    rw [List.drop_eq_nil_of_le (by omega)] at hl
    obtain ⟨it', a1, a2, _⟩ := next_end lib junk delim it hl hn
    refine ⟨[⟨it.cols, it.row, it.fresh⟩], ?_, rfl, ?_⟩
    · unfold CsvIt.all
      rw [hn, a1]
      simp only [Bool.false_eq_true, if_false]
      unfold CsvIt.all
      rw [a2]
      rfl
    · intro r v h
      cases r with
      | zero => simp at h; subst h; exact hv
      | succ r => simp at h
  | succ m ih =>
    obtain ⟨fuel, rfl⟩ : ∃ f, fuel = f + 1 := ⟨fuel - 1, by omega⟩
    have hlt : j + 1 < rows.length := by omega
    rw [List.drop_eq_getElem_cons hlt, List.map_cons] at hl
    obtain ⟨it', a1, a2, a3, a4⟩ := next_row lib env hd junk delim d hdd T hne (j + 1) rows[j + 1] (hr _ _ (List.getElem?_eq_getElem hlt)) _ it hl hn
      hv.cols hv.cellsOk
    obtain ⟨views, b1, b2, b3⟩ := ih (j + 1) (by omega) it' a2 a4 a3 fuel (by omega)
    refine ⟨⟨it.cols, it.row, it.fresh⟩ :: views, ?_, by simp [b2], ?_⟩
    · unfold CsvIt.all
      rw [hn, a1]
      simp only [Bool.false_eq_true, if_false]
      rw [b1]
    · intro r v h
      cases r with
      | zero => simp at h; subst h; exact hv
      | succ r =>
        have := b3 r v (by simpa using h)
        rwa [show j + 1 + r = j + (r + 1) by omega] at this

/-! ### Tables -/

/-- Rows `s` to `s + n` with the widths reached in row `s + n - 1`. -/
def UTable.seg (T : UTable) (s n : Nat) : UTable :=
  { rows := n, props := [], cols := T.cols.map (fun c => ⟨c.name, (c.vals.part s n).rew (c.vals.upTo (s + n))⟩) }

/-- Specification: the parts of a table, from a row on, of given lengths. -/
def segTables (T : UTable) : Nat → List Nat → List UTable
  | _, [] => []
  | s, n :: ns => T.seg s n :: segTables T (s + n) ns

theorem part_rew_cells (env : Env) (v : Vals) (s n w : Nat) : ((v.part s n).rew w).cells env = (((v.rew w).cells env).drop s).take n := by
  cases v <;> simp [Vals.part, Vals.rew, Vals.cells]

theorem seg_row (env : Env) (T : UTable) (s n r : Nat) (h : r < n) :
    rowAt ((T.seg s n).cols.map (InCol.data env)) r = T.cols.map (fun c => c.vals.cellOf env (c.vals.upTo (s + n)) (s + r)) := by
  unfold rowAt UTable.seg
  simp only [List.map_map]
  apply List.map_congr_left
  intro c _
  simp only [Function.comp_def, InCol.data, part_rew_cells, Vals.cellOf, List.getD_eq_getElem?_getD, List.getElem?_take, List.getElem?_drop, h, if_true]

theorem csv_keys {env : Env} {j : Nat} {cs : List InCol} {ks : List Col} (h : Match (CsvCol env (fun c => c.vals.upTo j)) cs ks) :
    ks.map Col.key = cs.map (fun c => (c.name, c.vals.ty.toInt, c.vals.members.map Prod.fst, c.vals.members.map Prod.snd, c.vals.upTo j)) := by
  induction h with
  | nil => rfl
  | cons h1 _ ih =>
    have hw := csvCol_width h1
    obtain ⟨co, _, rfl⟩ := h1
    dsimp only at hw
    rw [List.map_cons, List.map_cons, ih]
    simp [Col.key, hw]

theorem seg_keys (T : UTable) (s n : Nat) : (T.seg s n).cols.map InCol.key =
    T.cols.map (fun c => (c.name, c.vals.ty.toInt, c.vals.members.map Prod.fst, c.vals.members.map Prod.snd, c.vals.upTo (s + n))) := by
  unfold UTable.seg
  simp only [List.map_map]
  apply List.map_congr_left
  intro c _
  obtain ⟨nm, v⟩ := c
  cases v <;> rfl

theorem rowsAre_seg {env : Env} {T : UTable} {s n : Nat} {vs : List RowView} (hl : vs.length = n)
    (h : ∀ (r : Nat) (v : RowView), vs[r]? = some v → CsvView env T (s + r) v)
    (hc : ∀ c ∈ T.cols, ∀ r, r < n → c.vals.upTo (s + r + 1) = c.vals.upTo (s + n)) : RowsAre env (T.seg s n) vs := by
  refine ⟨hl, ?_⟩
  intro r v hv
  have hr : r < n := by rw [← hl]; exact (List.getElem?_eq_some_iff.mp hv).1
  have := h r v hv
  constructor
  · rw [csv_keys this.cols, seg_keys]
    apply List.map_congr_left
    intro c hcm
    rw [hc c hcm r hr]
  · rw [this.cells, seg_row env T s n r hr]
    apply List.map_congr_left
    intro c hcm
    rw [hc c hcm r hr]

/-- The rows fall into runs of the same widths. -/
theorem segs_exist (env : Env) (T : UTable) (m s : Nat) (vs : List RowView) (hl : vs.length = m + 1)
    (h : ∀ (r : Nat) (v : RowView), vs[r]? = some v → CsvView env T (s + r) v) :
    ∃ n ns, 0 < n ∧ (∀ k ∈ ns, 0 < k) ∧ n + ns.sum = m + 1 ∧ RowsOfTables env (segTables T s (n :: ns)) vs ∧
      (∀ c ∈ T.cols, ∀ r, r < n → c.vals.upTo (s + r + 1) = c.vals.upTo (s + n)) ∧
      ∃ us us', vs = us ++ us' ∧ us.length = n ∧ (ns = [] → us' = []) ∧ (∀ n' ns', ns = n' :: ns' →
        (T.seg s n).OtherShape (T.seg (s + n) n') ∧ (∀ u, us'.head? = some u → u.fresh = true) ∧ RowsOfTables env (segTables T (s + n) ns) us') := by
  induction m generalizing s vs with
  | zero =>
    have hc : ∀ c ∈ T.cols, ∀ r, r < 1 → c.vals.upTo (s + r + 1) = c.vals.upTo (s + 1) := by
      intro c _ r hr
      obtain rfl : r = 0 := by omega
      rfl
    exact ⟨1, [], by omega, by simp, rfl, .last (rowsAre_seg hl h hc), hc, vs, [], by simp, hl, fun _ => rfl, by simp⟩
  | succ m ih =>
    cases vs with
    | nil => simp at hl
    | cons v us =>
      obtain ⟨n, ns, p1, p2, p3, p4, p5, us1, us2, q1, q2, q3, q4⟩ := ih (s + 1) us (by simpa using hl) (by
        intro r u hu
        have := h (r + 1) u (by simpa using hu)
        rwa [show s + (r + 1) = s + 1 + r by omega] at this)
      by_cases hsame : ∀ c ∈ T.cols, c.vals.upTo (s + 1) = c.vals.upTo (s + 2)
      · -- the row joins the first run
        have hc : ∀ c ∈ T.cols, ∀ r, r < n + 1 → c.vals.upTo (s + r + 1) = c.vals.upTo (s + (n + 1)) := by
          intro c hcm r hr
          have e : s + (n + 1) = s + 1 + n := by omega
          rw [e]
          cases r with
          | zero =>
            rw [show s + 0 + 1 = s + 1 by omega, hsame c hcm, ← p5 c hcm 0 p1]
          | succ r =>
            rw [← p5 c hcm r (by omega)]
            congr 1
            omega
        have hra : RowsAre env (T.seg s (n + 1)) (v :: us1) := by
          apply rowsAre_seg (by simp [q2]) _ hc
          intro r u hu
          apply h r u
          subst q1
          have hlt := (List.getElem?_eq_some_iff.mp hu).1
          rw [show v :: (us1 ++ us2) = (v :: us1) ++ us2 by simp, List.getElem?_append_left hlt]
          exact hu
        have hsum : (n + 1) + ns.sum = m + 1 + 1 := by omega
        refine ⟨n + 1, ns, by omega, p2, hsum, ?_, hc, v :: us1, us2, by simp [q1], by simp [q2], q3, ?_⟩
        · cases ns with
          | nil =>
            have := q3 rfl
            subst this
            subst q1
            rw [List.append_nil]
            exact .last hra
          | cons n' ns' =>
            obtain ⟨o1, o2, o3⟩ := q4 n' ns' rfl
            subst q1
            rw [← List.cons_append]
            have e : s + (n + 1) = s + 1 + n := by omega
            simp only [segTables] at o3 ⊢
            rw [e]
            refine .more hra ?_ o2 o3
            unfold UTable.OtherShape UTable.seg at o1 ⊢
            intro hcon
            apply o1
            rw [← hcon]
            simp only [List.map_map]
            apply List.map_congr_left
            intro c _
            obtain ⟨nm, x⟩ := c
            cases x <;> simp [Vals.part, Vals.rew, Vals.ty, Vals.words, e]
        · intro n' ns' hns
          obtain ⟨o1, o2, o3⟩ := q4 n' ns' hns
          have e : s + (n + 1) = s + 1 + n := by omega
          rw [e]
          refine ⟨?_, o2, o3⟩
          unfold UTable.OtherShape UTable.seg at o1 ⊢
          intro hcon
          apply o1
          rw [← hcon]
          simp only [List.map_map]
          apply List.map_congr_left
          intro c _
          obtain ⟨nm, x⟩ := c
          cases x <;> simp [Vals.part, Vals.rew, Vals.ty, Vals.words, e]
      · -- a run of its own
        have hc : ∀ c ∈ T.cols, ∀ r, r < 1 → c.vals.upTo (s + r + 1) = c.vals.upTo (s + 1) := by
          intro c _ r hr
          obtain rfl : r = 0 := by omega
          rfl
        have hra : RowsAre env (T.seg s 1) [v] := by
          apply rowsAre_seg (n := 1) rfl _ hc
          intro r u hu
          apply h r u
          cases r with
          | zero => simpa using hu
          | succ r => simp at hu
        have hoth : (T.seg s 1).OtherShape (T.seg (s + 1) n) := by
          intro hcon
          apply hsame
          intro c hcm
          have hw := congrArg (List.map (fun t : Str × ColType × Nat => t.2.2)) hcon
          simp only [UTable.seg, List.map_map] at hw
          have := List.map_inj_left.mp hw c hcm
          have hx : ∀ (v : Vals) (a b j : Nat), ((v.part a b).rew (v.upTo j)).words = v.upTo j := by intro v a b j; cases v <;> rfl
          simp only [Function.comp_def, hx] at this
          rw [this, ← p5 c hcm 0 p1]
        have hfr : ∀ u, us.head? = some u → u.fresh = true := by
          intro u hu
          have := h 1 u (by cases us <;> simpa using hu)
          apply this.fresh
          simp only [not_forall] at hsame
          obtain ⟨c, hcm, hne⟩ := hsame
          exact ⟨c, hcm, hne⟩
        refine ⟨1, n :: ns, by omega, ?_, by simp; omega, ?_, hc, [v], us, rfl, rfl, by simp, ?_⟩
        · intro k hk
          rcases List.mem_cons.mp hk with rfl | hk
          · exact p1
          · exact p2 k hk
        · exact .more hra hoth hfr p4
        · intro n' ns' hns
          simp only [List.cons.injEq] at hns
          obtain ⟨rfl, rfl⟩ := hns
          exact ⟨hoth, hfr, p4⟩

theorem mem_segTables {T S : UTable} {s : Nat} {ns : List Nat} (h : S ∈ segTables T s ns) :
    ∃ s' n, S = T.seg s' n ∧ n ∈ ns ∧ s' + n ≤ s + ns.sum := by
  induction ns generalizing s with
  | nil => simp [segTables] at h
  | cons n ns ih =>
    rcases List.mem_cons.mp h with rfl | h
    · exact ⟨s, n, rfl, by simp, by simp⟩
    · obtain ⟨s', n', e1, e2, e3⟩ := ih h
      exact ⟨s', n', e1, by simp [e2], by simp; omega⟩

theorem upTo_le {env : Env} {c : InCol} (hv : c.vals.Ok env) (j : Nat) : c.vals.upTo j ≤ c.vals.words := by
  cases hc : c.vals with
  | strings w vs =>
    rw [hc] at hv
    obtain ⟨h1, _, h3, _⟩ := hv
    simp only [Vals.upTo, Vals.words]
    exact foldl_le _ _ _ h1 (fun s hs => (need_fits s w).mpr ⟨h1, (h3 s (List.mem_of_mem_take hs)).1⟩)
  | _ => exact Nat.le_refl _

theorem seg_ok {env : Env} {T : UTable} (hT : T.AnyRowsOk env) (s n : Nat) (h : s + n ≤ T.rows) : (T.seg s n).AnyRowsOk env := by
  have key : ∀ c ∈ T.cols, ((c.vals.part s n).rew (c.vals.upTo (s + n))).Ok env ∧
      (env.longEnv = true → ((c.vals.part s n).rew (c.vals.upTo (s + n))).NoEmpty) := by
    intro c hc
    have hin : ((c.vals.part s n).rew (c.vals.upTo (s + n))).In c.vals := by
      have hle := upTo_le (hT.vals c hc) (s + n)
      have hm : ∀ {α : Type} (l : List α), ∀ x ∈ (l.drop s).take n, x ∈ l := fun l x hx => List.mem_of_mem_drop (List.mem_of_mem_take hx)
      cases hv : c.vals <;> rw [hv] at hle <;> simp only [Vals.part, Vals.rew, Vals.In]
      · exact hm _
      · exact ⟨trivial, hm _⟩
      · exact hm _
      · exact hm _
      · exact ⟨hle, hm _⟩
    refine hin.ok ?_ (hT.vals c hc) (fun hl => hT.noEmpty hl c hc)
    cases hv : c.vals <;> simp only [Vals.part, Vals.rew, Vals.Fits]
    rename_i w vs
    refine ⟨upTo_one _ _, ?_⟩
    intro x hx
    have : needWords x ≤ (Vals.strings w vs).upTo (s + n) := by
      simp only [Vals.upTo]
      apply (foldl_max _ _).2
      rw [show (vs.drop s).take n = (vs.take (s + n)).drop s by rw [List.drop_take]; congr 1; omega] at hx
      exact List.mem_of_mem_drop hx
    exact ((need_fits x _).mp this).2
  refine ⟨by simpa [UTable.seg] using hT.few, ?_, ?_, ?_, ?_, ?_⟩
  · intro c hc
    simp only [UTable.seg, List.mem_map] at hc
    obtain ⟨c0, hc0, rfl⟩ := hc
    have hr := hT.rows c0 hc0
    show ((c0.vals.part s n).rew (c0.vals.upTo (s + n))).rows = n
    have : ((c0.vals.part s n).rew (c0.vals.upTo (s + n))).rows = (c0.vals.part s n).rows := by cases c0.vals <;> rfl
    rw [this, Vals.part_rows, hr]
    omega
  · intro c hc
    simp only [UTable.seg, List.mem_map] at hc
    obtain ⟨c0, hc0, rfl⟩ := hc
    obtain ⟨l1, l2, l3⟩ := hT.lens c0 hc0
    have hm : ((c0.vals.part s n).rew (c0.vals.upTo (s + n))).members = c0.vals.members := by cases c0.vals <;> rfl
    exact ⟨l1, by rw [hm]; exact l2, by rw [hm]; exact l3⟩
  · have := hT.big
    show n < 18446744073709551616
    omega
  · intro c hc
    simp only [UTable.seg, List.mem_map] at hc
    obtain ⟨c0, hc0, rfl⟩ := hc
    exact (key c0 hc0).1
  · intro hl c hc
    simp only [UTable.seg, List.mem_map] at hc
    obtain ⟨c0, hc0, rfl⟩ := hc
    exact (key c0 hc0).2 hl

theorem part_part (v : Vals) (s n r w : Nat) (h : r < n) : ((v.part s n).rew w).part r 1 = (v.part (s + r) 1).rew w := by
  have key : ∀ {α : Type} (l : List α), (((l.drop s).take n).drop r).take 1 = (l.drop (s + r)).take 1 := by
    intro α l
    apply List.ext_getElem?
    intro i
    simp only [List.getElem?_take, List.getElem?_drop]
    by_cases hi : i < 1
    · rw [if_pos hi, if_pos hi, if_pos (by omega), Nat.add_assoc]
    · rw [if_neg hi, if_neg hi]
  cases v <;> simp only [Vals.part, Vals.rew, key]

theorem gives_rew (env : Env) (v : Vals) (w r : Nat) (y : Cell) : (v.rew w).Gives env r y ↔ v.Gives env r y := by
  cases v <;> exact Iff.rfl

theorem isRow_seg {env : Env} {T : UTable} {s n r : Nat} {v : RowView} (hr : r < n) (h : IsRow env (T.seg s n) r v) : IsRow env T (s + r) v := by
  refine ⟨by simpa [UTable.seg] using h.ncols, by simpa [UTable.seg] using h.ncells, ?_, ?_, h.wide, ?_⟩
  on_goal 3 =>
    intro had p c k hp hk
    rw [h.mdi had p ⟨c.name, (c.vals.part s n).rew (c.vals.upTo (s + n))⟩ k (by simp [UTable.seg, hp]) hk]
    dsimp only
    cases c.vals <;> rfl
  rotate_left
  · intro p c hp
    rw [h.missing p ⟨c.name, (c.vals.part s n).rew (c.vals.upTo (s + n))⟩ (by simp [UTable.seg, hp])]
    dsimp only
    rw [← Vals.part_isMissing c.vals s n r hr]
    cases c.vals <;> rfl
  intro p c hp
  obtain ⟨k, y, e1, e2, e3, e4, e5, e6, e7⟩ := h.col p ⟨c.name, (c.vals.part s n).rew (c.vals.upTo (s + n))⟩ (by simp [UTable.seg, hp])
  have ht : ((c.vals.part s n).rew (c.vals.upTo (s + n))).ty = c.vals.ty := by cases c.vals <;> rfl
  have hm : ((c.vals.part s n).rew (c.vals.upTo (s + n))).members = c.vals.members := by cases c.vals <;> rfl
  dsimp only at e3 e4 e5 e7
  rw [ht] at e3
  rw [hm] at e4 e5
  rw [part_part _ _ _ _ _ hr, gives_rew] at e7
  exact ⟨k, y, e1, e2, e3, e4, e5, e6, e7⟩

theorem rows_of_segs {env : Env} {T : UTable} (ns : List Nat) (s : Nat) (vs : List RowView) (h : Match (IsRowAt env) (allRows (segTables T s ns)) vs) :
    Match (IsRow env T) (List.range' s ns.sum) vs := by
  induction ns generalizing s vs with
  | nil =>
    simp only [segTables, allRows, List.flatMap_nil] at h
    cases h
    exact .nil
  | cons n ns ih =>
    simp only [segTables, allRows, List.flatMap_cons] at h
    obtain ⟨b1, b2, rfl, h1, h2⟩ := h.append_left
    rw [List.sum_cons, ← List.range'_append_1]
    refine Match.append ?_ (ih (s + n) b2 h2)
    have hl := h1.length
    simp only [List.length_map, List.length_range] at hl
    apply Match.of_get _ _ (by simpa [UTable.seg] using hl)
    intro i a v ha hv
    have hi : i < n := by
      have := (List.getElem?_eq_some_iff.mp ha).1
      simpa using this
    rw [List.getElem?_range' hi] at ha
    simp only [Option.some.injEq, Nat.one_mul] at ha
    subst ha
    exact isRow_seg hi (h1.get i (T.seg s n, i) v (by simp [UTable.seg, hi]) hv)

end Verif
