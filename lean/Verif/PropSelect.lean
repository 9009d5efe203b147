import Verif.PropSqlEnc
import Verif.PropOldC

/-!
The answer of a query row by row: through `odc::Select`, and through the old C interface.
-/

namespace Verif

/-! ### Specification -/

/-- Specification: the cell shows the value in row `r` of the column; strings may be followed by more or fewer zeros. -/
def Vals.Shows (env : Env) (v : Vals) (r : Nat) (y : Cell) : Prop :=
  match v with
  | .ints vs => ∃ i, vs[r]? = some i ∧ y = [intWord env.asDbl i]
  | .bits _ vs => ∃ i, vs[r]? = some i ∧ y = [intWord env.asDbl i]
  | .reals vs => ∃ x, vs[r]? = some x ∧ y = [x]
  | .doubles vs => ∃ x, vs[r]? = some x ∧ y = [x]
  | .strings _ vs => ∃ s w', vs[r]? = some s ∧ s.length ≤ 8 * w' ∧ y = wordsOf w' s

/-- Specification: the row is row `j` of the table: titles, types and bitfield members of the columns, the values, and for each the answer of `isMissing`. -/
structure SelRow (env : Env) (R : UTable) (j : Nat) (v : RowView) : Prop where
  ncols : v.cols.length = R.cols.length
  ncells : v.cells.length = R.cols.length
  col : ∀ (p : Nat) (c : InCol), R.cols[p]? = some c →
    ∃ (k : Col) (y : Cell), v.cols[p]? = some k ∧ k.name = c.name ∧ k.ty = c.vals.ty.toInt ∧
      k.bitNames = c.vals.members.map Prod.fst ∧ k.bitSizes = c.vals.members.map Prod.snd ∧
      v.cells[p]? = some y ∧ c.vals.Shows env j y ∧ v.isMissing p = .ok (c.vals.isMissing j)

/-- Specification: `k` calls of `odb_select_iterator_get_next_row` with the same array: what each of them leaves. -/
def fetchSel (env : Env) (len : List Byte → Nat) (q : Query) : Nat → Selection → List Word → Except Err (List OldSelRow)
  | 0, _, _ => .ok []
  | k + 1, s, data =>
    match s.oldNext env len q data with
    | .error e => .error e
    | .ok o =>
      match fetchSel env len q k o.sel o.data with
      | .error e => .error e
      | .ok os => .ok (o :: os)

/-- Specification: what the client finds after row `j` of the answer has been fetched: through the functions about columns the titles, types and members, and
in its array, at the offset and in the size it is told, the value, which is the missing value it is told exactly if it is missing. -/
structure SeesSel (env : Env) (R : UTable) (j : Nat) (s : Selection) (data : List Word) : Prop where
  count : s.oldCount = R.cols.length
  fits : s.oldRowSize ≤ data.length
  col : ∀ (p : Nat) (c : InCol), R.cols[p]? = some c →
    s.oldName p = .ok c.name ∧ s.oldType p = .ok c.vals.ty.toInt ∧
    s.oldBitfield p = .ok (bitfieldTexts (c.vals.members.map Prod.fst) (c.vals.members.map Prod.snd)) ∧
    ∃ off n : Nat, s.oldOffset p = .ok off ∧ s.oldSize p = .ok n ∧ off + n ≤ s.oldRowSize ∧
      c.vals.Shows env j ((data.drop off).take n) ∧
      ∃ w : Word, s.oldMissing (p : Int) = .ok w ∧ ((data.drop off).take n = [w] ↔ c.vals.isMissing j = true)

/-- Specification: the size of a row of the answer in words. -/
def UTable.rowWidth (R : UTable) : Nat := (R.cols.map (fun c => c.vals.words)).sum

/-! ### Missing values -/

theorem text_not_mdi (w : Nat) (s : Str) (hz : NulFree s) : cellWord (wordsOf w s) ≠ realMDI := by
  have hm : wordBytes realMDI = [0, 0, 0xC0, 0xFF, 0xFF, 0xFF, 0xDF, 0xC1] := by unfold realMDI; decide +kernel
  cases w with
  | zero =>
    intro h
    have : (0 : Word) = realMDI := h
    rw [← this] at hm
    revert hm
    decide +kernel
  | succ w =>
    intro h
    have h1 : wordOfBytes (s.take 8) = realMDI := h
    cases s with
    | nil =>
      rw [← h1] at hm
      revert hm
      decide +kernel
    | cons b s =>
      have hb : b ≠ 0 := hz b (by simp)
      have h2 : (wordBytes (wordOfBytes ((b :: s).take 8))).head? = some b := by
        simp only [List.take_succ_cons, wordBytes, wordOfBytes, leBytes, ofLe, List.head?_cons, Option.some.injEq]
        apply BitVec.eq_of_toNat_eq
        have := b.isLt
        simp only [BitVec.toNat_ofNat]
        omega
      rw [h1, hm] at h2
      simp at h2
      exact hb h2.symm

/-- The word that stands for missing values is in the cells of missing values and in no others. -/
theorem mdi_iff {env : Env} {v : Vals} (hv : v.Ok env) (r : Nat) (y : Cell) (h : v.Shows env r y) :
    (cellWord y = v.mdiWord env ↔ v.isMissing r = true) := by
  have hint : ∀ (vs : List Int) (i : Int), (∀ i ∈ vs, InI32 i) → vs[r]? = some i →
      (intWord env.asDbl i = intWord env.asDbl 2147483647 ↔ decide (vs[r]? = some 2147483647) = true) := by
    intro vs i h1 h2
    rw [h2]
    simp only [Option.some.injEq, decide_eq_true_eq]
    exact ⟨fun h => intWord_inj env.asDbl i _ (h1 i (List.mem_of_getElem? h2)) (by decide) h, fun h => by rw [h]⟩
  cases v with
  | ints vs =>
    obtain ⟨i, h1, rfl⟩ := h
    exact hint vs i hv h1
  | bits ms vs =>
    obtain ⟨i, h1, rfl⟩ := h
    exact hint vs i hv.1 h1
  | reals vs =>
    obtain ⟨x, h1, rfl⟩ := h
    simp [cellWord, Vals.mdiWord, Vals.isMissing, h1]
  | doubles vs =>
    obtain ⟨x, h1, rfl⟩ := h
    simp [cellWord, Vals.mdiWord, Vals.isMissing, h1]
  | strings w vs =>
    obtain ⟨s, w', h1, _, rfl⟩ := h
    have := text_not_mdi w' s (hv.2.2.1 s (List.mem_of_getElem? h1)).2
    simp [Vals.mdiWord, Vals.isMissing, this]

theorem mdi_cell {env : Env} {v : Vals} (hv : v.Ok env) (r : Nat) (y : Cell) (h : v.Shows env r y) :
    (y = [v.mdiWord env] ↔ v.isMissing r = true) := by
  rw [← mdi_iff hv r y h]
  constructor
  · intro e; rw [e]; rfl
  · intro e
    have hm := (mdi_iff hv r y h).mp e
    cases v with
    | ints vs => obtain ⟨i, _, rfl⟩ := h; exact congrArg (fun x => [x]) e
    | bits ms vs => obtain ⟨i, _, rfl⟩ := h; exact congrArg (fun x => [x]) e
    | reals vs => obtain ⟨i, _, rfl⟩ := h; exact congrArg (fun x => [x]) e
    | doubles vs => obtain ⟨i, _, rfl⟩ := h; exact congrArg (fun x => [x]) e
    | strings w vs => cases hm

/-! ### Single steps -/

theorem selCell_len {len : List Byte → Nat} {k : Col} {m : Word} {x : Cell × Bool} {y : Cell} (h : selCell len k m x = .ok y) :
    y.length = if k.ty = 3 then k.codec.width else 1 := by
  unfold selCell at h
  by_cases h3 : k.ty = 3
  · rw [if_pos h3] at h ⊢
    dsimp only at h
    split at h
    · cases h
    · cases h
      rw [wordsOf_len]
  · rw [if_neg h3] at h ⊢
    cases h
    rfl

theorem selPut_ok (len : List Byte → Nat) (ks : List Col) (ms : List Word) (xs : List (Cell × Bool)) (ys : List Cell) (h : selCells len ks ms xs = .ok ys) :
    selPut len ys.flatten.length ks ms xs = (ys.flatten, none) := by
  induction ks generalizing ms xs ys with
  | nil => simp only [selCells] at h; cases h; simp [selPut]
  | cons k ks ih =>
    cases ms with
    | nil => simp only [selCells] at h; cases h; simp [selPut]
    | cons m ms =>
      cases xs with
      | nil => simp only [selCells] at h; cases h; simp [selPut]
      | cons x xs =>
        simp only [selCells] at h
        cases hy : selCell len k m x with
        | error e => rw [hy] at h; cases h
        | ok y =>
          rw [hy] at h
          dsimp only at h
          cases hz : selCells len ks ms xs with
          | error e => rw [hz] at h; cases h
          | ok zs =>
            rw [hz] at h
            cases h
            have hl := selCell_len hy
            simp only [selPut, List.flatten_cons, List.length_append]
            rw [← hl, if_neg (by omega), hy]
            dsimp only
            rw [Nat.add_sub_cancel_left, ih ms xs zs hz]

theorem selPut_le (len : List Byte → Nat) (room : Nat) (ks : List Col) (ms : List Word) (xs : List (Cell × Bool)) :
    (selPut len room ks ms xs).1.length ≤ room := by
  induction ks generalizing room ms xs with
  | nil => simp [selPut]
  | cons k ks ih =>
    cases ms with
    | nil => simp [selPut]
    | cons m ms =>
      cases xs with
      | nil => simp [selPut]
      | cons x xs =>
        simp only [selPut]
        by_cases h : room < (if k.ty = 3 then k.codec.width else 1)
        · rw [if_pos h]; simp
        · rw [if_neg h]
          cases hy : selCell len k m x with
          | error e => simp
          | ok y =>
            have hl := selCell_len hy
            have := ih (room - (if k.ty = 3 then k.codec.width else 1)) ms xs
            simp only [List.length_append]
            omega

theorem output_marked {len : List Byte → Nat} {s : SelOut} {xs : List (Cell × Bool)} {row : RowView} {o : SelOut} (h : s.output len xs = .ok (row, o)) :
    selCells len s.cols s.missing xs = .ok row.cells ∧ o = s.marked ∧ row.fresh = o.isNew ∧ row.cols = o.cols := by
  unfold SelOut.output at h
  cases hc : selCells len s.cols s.missing xs with
  | error e => rw [hc] at h; cases h
  | ok ys =>
    rw [hc] at h
    cases h
    exact ⟨rfl, rfl, rfl, rfl⟩

/-- If the size of the memory is that of the next row, a step gives this row. -/
theorem selPull_row (env : Env) (len : List Byte → Nat) (q : Query) (cs : List SqlCol) (s : SelState) (vs : List RowView) (e : Option Err)
    (row : RowView) (rows : List RowView) (x : Option Err) (ks : List Col) (h : selLoop env len q cs s vs e = (row :: rows, x, ks)) :
    ∃ (s' : SelState) (vs' : List RowView), selPull env len q cs row.cells.flatten.length s vs e = .row row.cells.flatten row.fresh ⟨cs, s', vs', e⟩ ∧
      selLoop env len q cs s' vs' e = (rows, x, ks) ∧ s'.out.cols = row.cols := by
  induction vs generalizing s with
  | nil => simp [selLoop] at h
  | cons v vs ih =>
    simp only [selLoop] at h
    simp only [selPull]
    cases he : s.enter env (q.select.map Prod.snd) cs v with
    | error e => rw [he] at h; simp at h
    | ok t =>
      rw [he] at h
      dsimp only at h ⊢
      split at h
      · rename_i hk
        rw [if_pos hk]
        cases ho : t.out.output len ((t.fetch.map (Fetch.get v.cells.flatten)).take q.select.length) with
        | error e => rw [ho] at h; simp at h
        | ok ro =>
          obtain ⟨r, o⟩ := ro
          rw [ho] at h
          simp only [Prod.mk.injEq, List.cons.injEq] at h
          obtain ⟨⟨rfl, h1⟩, h2, h3⟩ := h
          obtain ⟨a1, a2, a3, a4⟩ := output_marked ho
          rw [selPut_ok len _ _ _ _ a1]
          refine ⟨{ t with out := t.out.marked }, vs, ?_, ?_, ?_⟩
          · rw [a3, a2]
          · rw [← a2]
            exact Prod.ext h1 (Prod.ext h2 h3)
          · rw [a4, a2]
      · rename_i hk
        rw [if_neg hk]
        exact ih t h

/-- If there is no row, a step reports the end. -/
theorem selPull_done (env : Env) (len : List Byte → Nat) (q : Query) (cs : List SqlCol) (room : Nat) (s : SelState) (vs : List RowView) (e : Option Err)
    (ks : List Col) (h : selLoop env len q cs s vs e = ([], none, ks)) :
    ∃ s' : SelState, selPull env len q cs room s vs e = .done ⟨cs, s', [], none⟩ := by
  induction vs generalizing s with
  | nil =>
    simp [selLoop] at h
    rw [h.1]
    exact ⟨s, rfl⟩
  | cons v vs ih =>
    simp only [selLoop] at h
    simp only [selPull]
    cases he : s.enter env (q.select.map Prod.snd) cs v with
    | error e => rw [he] at h; simp at h
    | ok t =>
      rw [he] at h
      dsimp only at h ⊢
      split at h
      · rename_i hk
        cases ho : t.out.output len ((t.fetch.map (Fetch.get v.cells.flatten)).take q.select.length) with
        | error e => rw [ho] at h; simp at h
        | ok ro => rw [ho] at h; simp at h
      · rename_i hk
        rw [if_neg hk]
        exact ih t h

theorem fetchSel_cons {env : Env} {len : List Byte → Nat} {q : Query} {k : Nat} {s : Selection} {data : List Word} {o : OldSelRow} {os : List OldSelRow}
    (h : s.oldNext env len q data = .ok o) (h' : fetchSel env len q k o.sel o.data = .ok os) : fetchSel env len q (k + 1) s data = .ok (o :: os) := by
  simp only [fetchSel, h, h']

/-- All rows, with one array. -/
theorem fetch_sel (env : Env) (len : List Byte → Nat) (q : Query) (W : Nat) (kz : List Col) (rows : List RowView) (sel : Selection)
    (h : selLoop env len q sel.asked sel.st sel.rest sel.fin = (rows, none, kz)) (hrow : ∀ v ∈ rows, v.Shaped ∧ v.size = W)
    (hs : rows ≠ [] → sel.oldRowSize = W) (data : List Word) (hd : W ≤ data.length) :
    ∃ (os : List OldSelRow) (last : OldSelRow), fetchSel env len q (rows.length + 1) sel data = .ok (os ++ [last]) ∧ last.rc = 1 ∧ last.fresh = none ∧
      last.data = (os.getLast?.map OldSelRow.data).getD data ∧
      Match (fun (v : RowView) (o : OldSelRow) => o.rc = 0 ∧ o.fresh = some v.fresh ∧ o.sel.st.out.cols = v.cols ∧
        ∃ d : List Word, d.length = data.length ∧ o.data = v.cells.flatten ++ d.drop W) rows os := by
  induction rows generalizing sel data with
  | nil =>
    obtain ⟨s', h1⟩ := selPull_done env len q sel.asked sel.oldRowSize sel.st sel.rest sel.fin kz h
    refine ⟨[], ⟨⟨sel.asked, s', [], none⟩, 1, none, data⟩, ?_, rfl, rfl, rfl, .nil⟩
    simp only [List.length_nil, fetchSel, Selection.oldNext, Selection.pull, h1, List.nil_append]
  | cons v rows ih =>
    obtain ⟨s', vs', h1, h2, h3⟩ := selPull_row env len q sel.asked sel.st sel.rest sel.fin v rows none kz h
    obtain ⟨hsh, hsz⟩ := hrow v (by simp)
    have hfl : v.cells.flatten.length = W := by rw [hsh.flat, hsz]
    have hroom : sel.oldRowSize = W := hs (by simp)
    rw [hfl, ← hroom] at h1
    have hlen : (v.cells.flatten ++ data.drop W).length = data.length := by
      rw [List.length_append, List.length_drop, hfl]; omega
    have hsize : rowWords (v.cols.map Col.codec) = W := by
      rw [← hsz]
      unfold RowView.size rowWords
      rw [List.map_map]
      rfl
    obtain ⟨os, last, g1, g2, g3, g4, g5⟩ := ih ⟨sel.asked, s', vs', sel.fin⟩ h2 (fun u hu => hrow u (by simp [hu]))
      (fun _ => by unfold Selection.oldRowSize; dsimp only; rw [h3]; exact hsize) (v.cells.flatten ++ data.drop W) (by rw [hlen]; exact hd)
    refine ⟨⟨⟨sel.asked, s', vs', sel.fin⟩, 0, some v.fresh, v.cells.flatten ++ data.drop W⟩ :: os, last, ?_, g2, g3, ?_, .cons ⟨rfl, rfl, h3, data, rfl, rfl⟩ ?_⟩
    · rw [List.length_cons]
      refine fetchSel_cons ?_ g1
      simp only [Selection.oldNext, Selection.pull, h1]
      rw [if_neg (by rw [hfl]; omega), hfl]
    · rw [g4]
      cases os with
      | nil => rfl
      | cons o os => simp [List.getLast?_cons]
    · refine Match.weaken g5 (fun u o => ?_)
      rintro ⟨a, b, c, d, e1, e2⟩
      exact ⟨a, b, c, d, by rw [e1, hlen], e2⟩

/-! ### Rows of an answer -/

theorem cell_shows {env : Env} {v : Vals} (hv : v.Ok env) (r : Nat) (hr : r < v.rows) :
    v.Shows env r ((v.cells env).getD r []) ∧ ((v.cells env).getD r []).length = v.words := by
  cases v with
  | ints vs => simp only [Vals.rows] at hr; simp [Vals.Shows, Vals.cells, Vals.words, List.getElem?_eq_getElem hr]
  | bits ms vs => simp only [Vals.rows] at hr; simp [Vals.Shows, Vals.cells, Vals.words, List.getElem?_eq_getElem hr]
  | reals vs => simp only [Vals.rows] at hr; simp [Vals.Shows, Vals.cells, Vals.words, List.getElem?_eq_getElem hr]
  | doubles vs => simp only [Vals.rows] at hr; simp [Vals.Shows, Vals.cells, Vals.words, List.getElem?_eq_getElem hr]
  | strings w vs =>
    simp only [Vals.rows] at hr
    have h1 := (hv.2.2.1 vs[r] (List.getElem_mem hr)).1
    refine ⟨⟨vs[r], w, List.getElem?_eq_getElem hr, h1, ?_⟩, ?_⟩ <;> simp [Vals.cells, Vals.words, List.getElem?_eq_getElem hr]

theorem sel_row {env : Env} {R : UTable} {ws : List RowView} (h : RowsAre env R ws) (ht : RowsTell env R ws)
    (hok : ∀ c ∈ R.cols, c.vals.Ok env ∧ c.vals.rows = R.rows) (j : Nat) (v : RowView) (hv : ws[j]? = some v) :
    SelRow env R j v ∧ v.Shaped ∧ v.size = R.rowWidth := by
  obtain ⟨h1, h2⟩ := h.row j v hv
  have hj : j < R.rows := by rw [← h.len]; exact (List.getElem?_eq_some_iff.mp hv).1
  have hcells : v.cells = R.cols.map (fun c => (c.vals.cells env).getD j []) := by
    rw [h2, rowAt, List.map_map]
    rfl
  have hcl : v.cols.length = R.cols.length := by simpa using congrArg List.length h1
  have hwid : v.cols.map (fun c => c.codec.width) = R.cols.map (fun c => c.vals.words) := by
    have := congrArg (List.map (fun t : Str × Int × List Str × List Int × Nat => t.2.2.2.2)) h1
    simpa [List.map_map, Function.comp_def, Col.key, InCol.key] using this
  refine ⟨⟨hcl, by rw [hcells, List.length_map], ?_⟩, ?_, ?_⟩
  · intro p c hc
    have hp := (List.getElem?_eq_some_iff.mp hc).1
    obtain ⟨hco, hcr⟩ := hok c (List.mem_of_getElem? hc)
    have hk : v.cols[p]? = some (v.cols[p]'(by omega)) := List.getElem?_eq_getElem (by omega)
    generalize v.cols[p]'(by omega) = k at hk
    have hkey : k.key = c.key := by
      have e1 : (v.cols.map Col.key)[p]? = some k.key := by rw [List.getElem?_map, hk]; rfl
      have e2 : (R.cols.map InCol.key)[p]? = some c.key := by rw [List.getElem?_map, hc]; rfl
      rw [h1, e2] at e1
      exact (Option.some.inj e1).symm
    simp only [Col.key, InCol.key, Prod.mk.injEq] at hkey
    have hy : v.cells[p]? = some ((c.vals.cells env).getD j []) := by rw [hcells, List.getElem?_map, hc]; rfl
    have hsh := (cell_shows hco j (by omega)).1
    refine ⟨k, _, hk, hkey.1, hkey.2.1, hkey.2.2.1, hkey.2.2.2.1, hy, hsh, ?_⟩
    obtain ⟨t1, t2⟩ := ht j p v c k hv hc hk
    unfold RowView.isMissing
    rw [hk]
    dsimp only
    by_cases h0 : k.codec.hasMissing = 0
    · rw [if_pos h0, t2 h0]
    · rw [if_neg h0, t1]
      dsimp only
      have := mdi_iff hco j _ hsh
      rw [List.getD_eq_getElem?_getD (l := v.cells), hy]
      simp only [Option.getD_some]
      congr 1
      rw [Bool.eq_iff_iff, decide_eq_true_eq, eq_comm]
      exact this
  · unfold RowView.Shaped
    rw [hwid, hcells, List.map_map]
    apply List.map_congr_left
    intro c hc
    obtain ⟨hco, hcr⟩ := hok c hc
    exact (cell_shows hco j (by omega)).2
  · unfold RowView.size UTable.rowWidth
    rw [hwid]

theorem allRows_views {R : UTable × Nat → RowView → Prop} {Rs : List UTable} {wss : List (List RowView)}
    (h : Match (fun (T : UTable) ws => ws.length = T.rows ∧ ∀ (j : Nat) (v : RowView), ws[j]? = some v → R (T, j) v) Rs wss) :
    Match R (allRows Rs) wss.flatten := by
  induction h with
  | nil => exact .nil
  | @cons T ws Rs wss h _ ih =>
    simp only [allRows, List.flatMap_cons, List.flatten_cons] at ih ⊢
    refine Match.append ?_ ih
    refine Match.of_get _ _ (by simp [h.1]) ?_
    intro i a v ha hv
    rw [List.getElem?_map, Option.map_eq_some_iff] at ha
    obtain ⟨j, j1, rfl⟩ := ha
    obtain ⟨hl, rfl⟩ := List.getElem?_eq_some_iff.mp j1
    rw [List.getElem_range]
    exact h.2 i v hv

/-- Proof device: the rows of an answer as the iterator shows them. -/
structure SelRowAt (env : Env) (x : UTable × Nat) (v : RowView) : Prop where
  row : SelRow env x.1 x.2 v
  fresh : v.fresh = decide (x.2 = 0)
  shaped : v.Shaped
  size : v.size = x.1.rowWidth
  tell : ∀ (p : Nat) (c : InCol) (k : Col), x.1.cols[p]? = some c → v.cols[p]? = some k → k.codec.missingWord = .ok (c.vals.mdiWord env)

theorem select_rows (env : Env) (len : List Byte → Nat) (hlen : StrLen len) (junk : Junk)
    (bytes : List Byte) (fuel : Nat) (q : Query) (Ts Rs : List UTable) (vss : List (List RowView))
    (hr : readRows env junk bytes fuel = (vss.flatten, none)) (hfrom : Match (RowsFrom env) Ts vss)
    (hfresh : ∀ vs ∈ vss.tail, ∀ u, vs.head? = some u → u.fresh = true) (htail : ∀ vs ∈ vss, ∀ u ∈ vs.tail, u.fresh = false)
    (hrows : ∀ T ∈ Ts, ∀ c ∈ T.cols, c.vals.rows = T.rows) (hpos : ∀ T ∈ Ts, 0 < T.rows)
    (T0 : UTable) (hT0 : Ts.head? = some T0) (hans : Match (Answer env q (T0.cols.map InCol.name)) Ts Rs)
    (B : List InCol) (hB : ∀ b ∈ B, b.vals.Ok env ∧ (env.longEnv = true → b.vals.NoEmpty)) (hw : ∀ R ∈ Rs, R.Within B)
    (hf : ∀ R ∈ Rs, ∀ c ∈ R.cols, c.vals.Fits) :
    ∃ (views : List RowView) (kz : List Col) (sel : Selection), selOpen env junk q bytes fuel = .ok sel ∧
      selLoop env len q sel.asked sel.st sel.rest sel.fin = (views, none, kz) ∧
      (∃ R, Rs.head? = some R ∧ sel.oldRowSize = R.rowWidth) ∧ Match (SelRowAt env) (allRows Rs) views := by
  obtain ⟨wss, kz, sel, a1, a2, a3, _, a5, ⟨R0, a6, a7⟩, a8⟩ := select_answers env len hlen junk bytes fuel q Ts Rs vss hr hfrom hfresh hrows hpos T0 hT0 hans
    B hB hw hf
  have a3 := a3 htail
  refine ⟨wss.flatten, kz, sel, a5, a8, ⟨R0, a6, ?_⟩, ?_⟩
  · unfold Selection.oldRowSize UTable.rowWidth rowWords
    have := congrArg (List.map (fun t : Str × Int × List Str × List Int × Nat => t.2.2.2.2)) a7
    rw [List.map_map]
    congr 1
    simpa [List.map_map, Function.comp_def, Col.key, InCol.key] using this
  · apply allRows_views
    refine Match.of_get _ _ a1.length ?_
    intro i R ws hR hws
    have hm := a1.get i R ws hR hws
    refine ⟨hm.1.len, ?_⟩
    have hok : ∀ c ∈ R.cols, c.vals.Ok env ∧ c.vals.rows = R.rows := by
      intro c hc
      have hRm := List.mem_of_getElem? hR
      obtain ⟨b, hb, _, h2⟩ := Match.mem_right' (hw R hRm) hc
      refine ⟨(h2.ok (hf R hRm c hc) (hB b hb).1 (hB b hb).2).1, ?_⟩
      obtain ⟨T, _, hA⟩ := hans.mem_left' hRm
      obtain ⟨cond, _, r2, r3⟩ := hA.ex
      obtain ⟨s, _, c', _, _, h3⟩ := r3.mem_left' hc
      rw [h3, Vals.pick_rows, r2]
    intro j v hv
    obtain ⟨b1, b2, b3⟩ := sel_row hm.1 hm.2 hok j v hv
    refine ⟨b1, ?_, b2, b3, fun p c k hc hk => (hm.2 j p v c k hv hc hk).1⟩
    have hwm := List.mem_of_getElem? hws
    cases j with
    | zero => rw [a2 ws hwm v (by rw [List.head?_eq_getElem?]; exact hv)]; rfl
    | succ j =>
      rw [a3 ws hwm v]
      · rfl
      · cases ws with
        | nil => simp at hv
        | cons w ws => exact List.mem_of_getElem? (by simpa using hv)

/-- **C61.**  `odc::Select` on a file whose rows are those of the tables `Ts` (hypotheses as for `filter`, C52): the loop over it ends without an exception and shows the
rows of the answers, in order, with titles, types, bitfield members and values; `isMissing` tells the missing values, `isNewDataset` the first row of each
answer. -/
theorem C61_select (env : Env) (len : List Byte → Nat) (hlen : StrLen len) (junk : Junk)
    (bytes : List Byte) (fuel : Nat) (q : Query) (Ts Rs : List UTable) (vss : List (List RowView))
    (hr : readRows env junk bytes fuel = (vss.flatten, none)) (hfrom : Match (RowsFrom env) Ts vss)
    (hfresh : ∀ vs ∈ vss.tail, ∀ u, vs.head? = some u → u.fresh = true) (htail : ∀ vs ∈ vss, ∀ u ∈ vs.tail, u.fresh = false)
    (hrows : ∀ T ∈ Ts, ∀ c ∈ T.cols, c.vals.rows = T.rows) (hpos : ∀ T ∈ Ts, 0 < T.rows)
    (T0 : UTable) (hT0 : Ts.head? = some T0) (hans : Match (Answer env q (T0.cols.map InCol.name)) Ts Rs)
    (B : List InCol) (hB : ∀ b ∈ B, b.vals.Ok env ∧ (env.longEnv = true → b.vals.NoEmpty)) (hw : ∀ R ∈ Rs, R.Within B)
    (hf : ∀ R ∈ Rs, ∀ c ∈ R.cols, c.vals.Fits) :
    ∃ (views : List RowView) (kz : List Col), selectFile env len junk q bytes fuel = .ok (views, none, kz) ∧
      Match (fun (x : UTable × Nat) (v : RowView) => SelRow env x.1 x.2 v ∧ v.fresh = decide (x.2 = 0)) (allRows Rs) views := by
  obtain ⟨views, kz, sel, a1, a2, _, a4⟩ := select_rows env len hlen junk bytes fuel q Ts Rs vss hr hfrom hfresh htail hrows hpos T0 hT0 hans B hB hw hf
  refine ⟨views, kz, ?_, a4.weaken (fun x v h => ⟨h.row, h.fresh⟩)⟩
  unfold selectFile
  rw [a1]
  dsimp only
  rw [a2]

/-! ### Files written by `encode` -/

theorem narrow_shows {env : Env} {a b : Vals} (h : a.Narrow b) {r : Nat} {y : Cell} (hs : a.Shows env r y) : b.Shows env r y := by
  cases a <;> cases b <;> simp only [Vals.Narrow] at h
  case strings.strings =>
    obtain ⟨rfl, _⟩ := h
    exact hs
  all_goals first
    | exact h ▸ hs
    | cases h

theorem narrow_type {a b : Vals} (h : a.Narrow b) : a.ty = b.ty ∧ a.members = b.members := by
  revert h
  cases a <;> cases b <;> simp only [Vals.Narrow] <;> intro h <;> first
    | exact ⟨rfl, rfl⟩
    | (cases h; exact ⟨rfl, rfl⟩)
    | cases h

theorem narrow_row {env : Env} {R R' : UTable} (h : NarrowCols R.cols R'.cols) {j : Nat} {v : RowView} (hv : SelRow env R' j v) : SelRow env R j v := by
  refine ⟨by rw [hv.ncols, h.length], by rw [hv.ncells, h.length], ?_⟩
  intro p c hc
  have hp := (List.getElem?_eq_some_iff.mp hc).1
  have hc' : R'.cols[p]? = some (R'.cols[p]'(by rw [← h.length]; exact hp)) := List.getElem?_eq_getElem _
  generalize R'.cols[p]'(by rw [← h.length]; exact hp) = c' at hc'
  obtain ⟨n1, n2⟩ := h.get p c c' hc hc'
  obtain ⟨k, y, k1, k2, k3, k4, k5, k6, k7, k8⟩ := hv.col p c' hc'
  have hty := narrow_type n2
  refine ⟨k, y, k1, by rw [k2, n1], by rw [k3, hty.1], by rw [k4, hty.2], by rw [k5, hty.2], k6, narrow_shows n2 k7, by rw [k8, narrow_missing n2]⟩

theorem allRows_pairs {Rs Rs' : List UTable} (h : Match (fun (R R' : UTable) => R'.rows = R.rows ∧ NarrowCols R.cols R'.cols) Rs Rs') :
    Match (fun (a b : UTable × Nat) => b.2 = a.2 ∧ NarrowCols a.1.cols b.1.cols) (allRows Rs) (allRows Rs') := by
  induction h with
  | nil => exact .nil
  | @cons R R' Rs Rs' h _ ih =>
    simp only [allRows, List.flatMap_cons] at ih ⊢
    refine Match.append ?_ ih
    rw [h.1]
    refine Match.of_get _ _ (by simp) ?_
    intro i a b ha hb
    rw [List.getElem?_map, Option.map_eq_some_iff] at ha hb
    obtain ⟨j, j1, rfl⟩ := ha
    obtain ⟨j', j2, rfl⟩ := hb
    rw [j1] at j2
    cases j2
    exact ⟨rfl, h.2⟩

theorem Match.through {α β γ : Type} {R : α → β → Prop} {S : β → γ → Prop} {Q : α → γ → Prop} {as : List α} {bs : List β} {cs : List γ}
    (h1 : Match R as bs) (h2 : Match S bs cs) (hq : ∀ a b c, R a b → S b c → Q a c) : Match Q as cs := by
  induction h1 generalizing cs with
  | nil => cases h2; exact .nil
  | cons h _ ih =>
    cases h2 with
    | cons h' h2 => exact .cons (hq _ _ _ h h') (ih h2)

theorem Match.through' {α β γ : Type} {R : α → β → Prop} {S : β → γ → Prop} {Q : α → γ → Prop} {as : List α} {bs : List β} {cs : List γ}
    (h1 : Match R as bs) (h2 : Match S bs cs) (hq : ∀ a b c, a ∈ as → R a b → S b c → Q a c) : Match Q as cs := by
  induction h1 generalizing cs with
  | nil => cases h2; exact .nil
  | cons h _ ih =>
    cases h2 with
    | cons h' h2 => exact .cons (hq _ _ _ (by simp) h h') (ih h2 (fun a b c ha => hq a b c (by simp [ha])))

/-- **C61, on files written by `encode`** (hypotheses as for C52_filter_encoded). -/
theorem C61_select_encoded (env : Env) (hmd5 : env.Md5Ok) (len : List Byte → Nat) (hlen : StrLen len) (q : Query) (hq : q.OfText)
    (Ts Rs : List UTable) (hT : ∀ T ∈ Ts, T.Ok env) (hv : ∀ T ∈ Ts, ∀ c ∈ T.cols, c.vals.Ok env ∧ c.vals.Exact) (hpos : ∀ T ∈ Ts, 0 < T.rows)
    (T0 : UTable) (hT0 : Ts.head? = some T0) (hans : Match (Answer env q (T0.cols.map InCol.name)) Ts Rs)
    (B : List InCol) (hB : ∀ b ∈ B, b.vals.Ok env ∧ (env.longEnv = true → b.vals.NoEmpty)) (hw : ∀ R ∈ Rs, R.Within B)
    (htitle : ∀ s ∈ q.select, LenOk s.2.length) :
    ∃ bss, writeTables env Ts = .ok bss ∧ ((∀ b ∈ bss, b.length ≤ 2147483647) →
      ∀ (junk : Junk) (fuel : Nat), (Ts.map UTable.rows).sum + 1 < fuel →
        ∃ (views : List RowView) (kz : List Col), selectFile env len junk q bss.flatten fuel = .ok (views, none, kz) ∧
          Match (fun (x : UTable × Nat) (v : RowView) => SelRow env x.1 x.2 v ∧ v.fresh = decide (x.2 = 0)) (allRows Rs) views) := by
  obtain ⟨bss, a1, a2⟩ := encoded_source env hmd5 q hq Ts Rs hT hv hpos T0 hT0 hans B hw htitle
  refine ⟨bss, a1, ?_⟩
  intro hsz junk fuel hf
  obtain ⟨Ts', Rs', vss, b1, b2, b3, b4, b5, ⟨T0', b6, b7⟩, b8, b9, b10, hsum, hnar, b11⟩ := a2 hsz junk fuel hf
  obtain ⟨views, kz, c1, c2⟩ := C61_select env len hlen junk _ fuel q Ts' Rs' vss b1 b2 b3 b11 b4 b5 T0' b6 b7 B hB b8 b9
  refine ⟨views, kz, c1, (allRows_pairs hnar).through c2 ?_⟩
  rintro ⟨R, j⟩ ⟨R', j'⟩ v ⟨rfl, e2⟩ ⟨e3, e4⟩
  exact ⟨narrow_row e2 e3, e4⟩

/-! ### The old C interface -/

/-- What the client of the old C interface finds after a row has been fetched. -/
theorem sees_sel {env : Env} {R : UTable} {j : Nat} {v : RowView} (hok : ∀ c ∈ R.cols, c.vals.Ok env) (h : SelRow env R j v) (hsh : v.Shaped)
    (htell : ∀ (p : Nat) (c : InCol) (k : Col), R.cols[p]? = some c → v.cols[p]? = some k → k.codec.missingWord = .ok (c.vals.mdiWord env))
    {s : Selection} (hs : s.st.out.cols = v.cols) (rest : List Word) : SeesSel env R j s (v.cells.flatten ++ rest) := by
  have hsize : s.oldRowSize = v.size := by
    unfold Selection.oldRowSize RowView.size rowWords
    rw [hs, List.map_map]
    rfl
  refine ⟨by unfold Selection.oldCount; rw [hs, h.ncols], ?_, ?_⟩
  · rw [hsize, List.length_append, hsh.flat]
    omega
  · intro p c hc
    obtain ⟨k, y, k1, k2, k3, k4, k5, k6, k7, k8⟩ := h.col p c hc
    have hcol : s.oldColumn p = .ok k := by unfold Selection.oldColumn; rw [hs, k1]
    have hy : y.length = k.codec.width := by
      have e1 : (v.cells.map List.length)[p]? = some y.length := by rw [List.getElem?_map, k6]; rfl
      rw [hsh, List.getElem?_map, k1] at e1
      exact (Option.some.inj e1).symm
    have hp := (List.getElem?_eq_some_iff.mp k1).1
    have hcell : ((v.cells.flatten ++ rest).drop ((v.cols.map (fun c => c.codec.width)).take p).sum).take k.codec.width = y := by
      rw [← hy]
      exact cell_at v.cells _ hsh rest p y k6
    refine ⟨by simp [Selection.oldName, hcol, Except.map, k2], by simp [Selection.oldType, hcol, Except.map, k3],
      by simp [Selection.oldBitfield, hcol, Except.map, k4, k5], ((v.cols.map (fun c => c.codec.width)).take p).sum, k.codec.width, ?_,
      by simp [Selection.oldSize, hcol, Except.map], ?_, ?_, c.vals.mdiWord env, ?_, ?_⟩
    · simp only [Selection.oldOffset, hcol, Except.map, rowWords, hs, List.map_take, List.map_map]
      rfl
    · rw [hsize]
      unfold RowView.size
      exact take_sum_le _ p _ (by rw [List.getElem?_map, k1]; rfl)
    · rw [hcell]; exact k7
    · unfold Selection.oldMissing
      rw [if_neg (by rw [hs]; omega), Int.toNat_natCast, hcol]
      exact htell p c k hc k1
    · rw [hcell]
      exact mdi_cell (hok c (List.mem_of_getElem? hc)) j y k7

theorem narrow_sees {env : Env} {R R' : UTable} (h : NarrowCols R.cols R'.cols) {j : Nat} {s : Selection} {data : List Word} (hv : SeesSel env R' j s data) :
    SeesSel env R j s data := by
  refine ⟨by rw [hv.count, h.length], hv.fits, ?_⟩
  intro p c hc
  have hp := (List.getElem?_eq_some_iff.mp hc).1
  have hc' : R'.cols[p]? = some (R'.cols[p]'(by rw [← h.length]; exact hp)) := List.getElem?_eq_getElem _
  generalize R'.cols[p]'(by rw [← h.length]; exact hp) = c' at hc'
  obtain ⟨n1, n2⟩ := h.get p c c' hc hc'
  obtain ⟨k1, k2, k3, off, n, k4, k5, k6, k7, w, k8, k9⟩ := hv.col p c' hc'
  obtain ⟨t1, t2⟩ := narrow_type n2
  exact ⟨by rw [k1, n1], by rw [k2, t1], by rw [k3, t2], off, n, k4, k5, k6, narrow_shows n2 k7, w, k8, by rw [k9, narrow_missing n2]⟩

/-- **C61, old C interface.**  `odb_select_create`, `odb_create_select_iterator`, and then calls of `odb_select_iterator_get_next_row`, all with one array.  The rows of all
answers are of the same size, and the array is as large as the function for the size of a row says before the first call.  Then each call returns 0 until
the rows have been fetched, and `*new_dataset` tells the first row of each answer; after each call the client finds the row (`SeesSel`).  The next call returns 1, and leaves `*new_dataset` and
the array alone. -/
theorem C61_old (env : Env) (len : List Byte → Nat) (hlen : StrLen len) (junk : Junk)
    (bytes : List Byte) (fuel : Nat) (q : Query) (Ts Rs : List UTable) (vss : List (List RowView))
    (hr : readRows env junk bytes fuel = (vss.flatten, none)) (hfrom : Match (RowsFrom env) Ts vss)
    (hfresh : ∀ vs ∈ vss.tail, ∀ u, vs.head? = some u → u.fresh = true) (htail : ∀ vs ∈ vss, ∀ u ∈ vs.tail, u.fresh = false)
    (hrows : ∀ T ∈ Ts, ∀ c ∈ T.cols, c.vals.rows = T.rows) (hpos : ∀ T ∈ Ts, 0 < T.rows)
    (T0 : UTable) (hT0 : Ts.head? = some T0) (hans : Match (Answer env q (T0.cols.map InCol.name)) Ts Rs)
    (B : List InCol) (hB : ∀ b ∈ B, b.vals.Ok env ∧ (env.longEnv = true → b.vals.NoEmpty)) (hw : ∀ R ∈ Rs, R.Within B)
    (hf : ∀ R ∈ Rs, ∀ c ∈ R.cols, c.vals.Fits) (W : Nat) (hW : ∀ R ∈ Rs, R.rowWidth = W) :
    ∃ sel : Selection, selOpen env junk q bytes fuel = .ok sel ∧ ∀ data : List Word, sel.oldRowSize ≤ data.length →
      ∃ (os : List OldSelRow) (last : OldSelRow), fetchSel env len q ((Rs.map UTable.rows).sum + 1) sel data = .ok (os ++ [last]) ∧
        last.rc = 1 ∧ last.fresh = none ∧ last.data = (os.getLast?.map OldSelRow.data).getD data ∧
        Match (fun (x : UTable × Nat) (o : OldSelRow) => o.rc = 0 ∧ o.fresh = some (decide (x.2 = 0)) ∧ o.data.length = data.length ∧
          SeesSel env x.1 x.2 o.sel o.data) (allRows Rs) os := by
  obtain ⟨views, kz, sel, a1, a2, ⟨R0, a3, a3'⟩, a4⟩ := select_rows env len hlen junk bytes fuel q Ts Rs vss hr hfrom hfresh htail hrows hpos T0 hT0 hans B hB hw hf
  refine ⟨sel, a1, ?_⟩
  intro data hd
  have hmem : ∀ x ∈ allRows Rs, x.1 ∈ Rs := by
    intro x hx
    simp only [allRows, List.mem_flatMap, List.mem_map] at hx
    obtain ⟨R, hR, j, _, rfl⟩ := hx
    exact hR
  have hR0 : R0 ∈ Rs := by
    cases Rs with
    | nil => cases a3
    | cons R Rs => cases a3; simp
  have hWs : sel.oldRowSize = W := by rw [a3', hW R0 hR0]
  obtain ⟨os, last, b1, b2, b3, b4, b5⟩ := fetch_sel env len q W kz views sel a2
    (by
      intro v hv
      obtain ⟨x, hx, h⟩ := a4.mem_left' hv
      exact ⟨h.shaped, by rw [h.size, hW _ (hmem x hx)]⟩) (fun _ => hWs) data (by omega)
  have hl : views.length = (Rs.map UTable.rows).sum := by rw [← a4.length, allRows_length]
  rw [hl] at b1
  refine ⟨os, last, b1, b2, b3, b4, a4.through' b5 ?_⟩
  rintro ⟨R, j⟩ v o hx h ⟨c1, c2, c3, d, c4, c5⟩
  have hsz : v.size = W := by rw [h.size]; exact hW _ (hmem _ hx)
  refine ⟨c1, by rw [c2, h.fresh], ?_, ?_⟩
  · rw [c5, List.length_append, h.shaped.flat, hsz, List.length_drop]
    omega
  · rw [c5]
    refine sees_sel ?_ h.row h.shaped h.tell c3 _
    intro c hc
    have hRm := hmem _ hx
    obtain ⟨b, hb, _, h2⟩ := Match.mem_right' (hw R hRm) hc
    exact (h2.ok (hf R hRm c hc) (hB b hb).1 (hB b hb).2).1

theorem narrow_width {R R' : UTable} (h : NarrowCols R.cols R'.cols) (hn : ∀ c ∈ R.cols, c.vals.ty ≠ .string) : R'.rowWidth = R.cols.length := by
  unfold UTable.rowWidth
  revert hn h
  generalize R.cols = cs
  generalize R'.cols = cs'
  intro h hn
  unfold NarrowCols at h
  induction h with
  | nil => rfl
  | @cons c c' cs cs' h _ ih =>
    have h1 : c'.vals.words = 1 := by
      have := hn c (by simp)
      have h2 := h.2
      revert this h2
      cases c.vals <;> cases c'.vals <;> simp [Vals.Narrow, Vals.words, Vals.ty]
    simp only [List.map_cons, List.sum_cons, List.length_cons, ih (fun c hc => hn c (by simp [hc])), h1]
    omega

/-- **C61, old C interface, on files written by `encode`**: there is one table, or no strings are asked for. -/
theorem C61_old_encoded (env : Env) (hmd5 : env.Md5Ok) (len : List Byte → Nat) (hlen : StrLen len) (q : Query) (hq : q.OfText)
    (Ts Rs : List UTable) (hT : ∀ T ∈ Ts, T.Ok env) (hv : ∀ T ∈ Ts, ∀ c ∈ T.cols, c.vals.Ok env ∧ c.vals.Exact) (hpos : ∀ T ∈ Ts, 0 < T.rows)
    (T0 : UTable) (hT0 : Ts.head? = some T0) (hans : Match (Answer env q (T0.cols.map InCol.name)) Ts Rs)
    (B : List InCol) (hB : ∀ b ∈ B, b.vals.Ok env ∧ (env.longEnv = true → b.vals.NoEmpty)) (hw : ∀ R ∈ Rs, R.Within B)
    (htitle : ∀ s ∈ q.select, LenOk s.2.length) (hone : Ts.length = 1 ∨ ∀ R ∈ Rs, ∀ c ∈ R.cols, c.vals.ty ≠ .string) :
    ∃ bss, writeTables env Ts = .ok bss ∧ ((∀ b ∈ bss, b.length ≤ 2147483647) →
      ∀ (junk : Junk) (fuel : Nat), (Ts.map UTable.rows).sum + 1 < fuel →
        ∃ sel : Selection, selOpen env junk q bss.flatten fuel = .ok sel ∧ ∀ data : List Word, sel.oldRowSize ≤ data.length →
          ∃ (os : List OldSelRow) (last : OldSelRow), fetchSel env len q ((Rs.map UTable.rows).sum + 1) sel data = .ok (os ++ [last]) ∧
            last.rc = 1 ∧ last.fresh = none ∧ last.data = (os.getLast?.map OldSelRow.data).getD data ∧
            Match (fun (x : UTable × Nat) (o : OldSelRow) => o.rc = 0 ∧ o.fresh = some (decide (x.2 = 0)) ∧ o.data.length = data.length ∧
              SeesSel env x.1 x.2 o.sel o.data) (allRows Rs) os) := by
  obtain ⟨bss, a1, a2⟩ := encoded_source env hmd5 q hq Ts Rs hT hv hpos T0 hT0 hans B hw htitle
  refine ⟨bss, a1, ?_⟩
  intro hsz junk fuel hf
  obtain ⟨Ts', Rs', vss, b1, b2, b3, b4, b5, ⟨T0', b6, b7⟩, b8, b9, b10, hsum, hnar, b11⟩ := a2 hsz junk fuel hf
  have hwid : ∃ W, ∀ R ∈ Rs', R.rowWidth = W := by
    have hlen1 : Rs.length = Ts.length := hans.length.symm
    have hlen2 : Rs'.length = Rs.length := hnar.length.symm
    rcases hone with h1 | h1
    · match Rs', hlen2 with
      | [R], _ => exact ⟨R.rowWidth, by simp⟩
      | [], h => simp at h; omega
      | _ :: _ :: _, h => simp at h; omega
    · refine ⟨q.select.length, ?_⟩
      intro R' hR'
      obtain ⟨R, hR, _, e⟩ := hnar.mem_left' hR'
      rw [narrow_width e (h1 R hR)]
      obtain ⟨T, _, hA⟩ := hans.mem_left' hR
      obtain ⟨cond, _, _, r3⟩ := hA.ex
      exact r3.length.symm
  obtain ⟨W, hW⟩ := hwid
  obtain ⟨sel, c1, c2⟩ := C61_old env len hlen junk _ fuel q Ts' Rs' vss b1 b2 b3 b11 b4 b5 T0' b6 b7 B hB b8 b9 W hW
  refine ⟨sel, c1, ?_⟩
  intro data hd
  obtain ⟨os, last, d1, d2, d3, d4, d5⟩ := c2 data hd
  rw [hsum] at d1
  refine ⟨os, last, d1, d2, d3, d4, (allRows_pairs hnar).through d5 ?_⟩
  rintro ⟨R, j⟩ ⟨R', j'⟩ o ⟨rfl, e2⟩ ⟨e3, e4, e5, e6⟩
  exact ⟨e3, e4, e5, narrow_sees e2 e6⟩

/-! ### Any file -/

theorem selPull_le (env : Env) (len : List Byte → Nat) (q : Query) (cs : List SqlCol) (room : Nat) (s : SelState) (vs : List RowView) (e : Option Err) :
    (∀ ws x, selPull env len q cs room s vs e = .failed ws x → ws.length ≤ room) ∧
    (∀ ws b s', selPull env len q cs room s vs e = .row ws b s' → ws.length ≤ room) := by
  induction vs generalizing s with
  | nil =>
    cases e with
    | none => simp [selPull]
    | some x =>
      simp only [selPull, SelGot.failed.injEq, reduceCtorEq, false_implies, implies_true, and_true]
      rintro ws y ⟨rfl, rfl⟩
      simp
  | cons v vs ih =>
    simp only [selPull]
    cases he : s.enter env (q.select.map Prod.snd) cs v with
    | error y =>
      simp only [SelGot.failed.injEq, reduceCtorEq, false_implies, implies_true, and_true]
      rintro ws y ⟨rfl, rfl⟩
      simp
    | ok t =>
      dsimp only
      split
      · have hle := selPut_le len room t.out.cols t.out.missing ((t.fetch.map (Fetch.get v.cells.flatten)).take q.select.length)
        cases hp : selPut len room t.out.cols t.out.missing ((t.fetch.map (Fetch.get v.cells.flatten)).take q.select.length) with
        | mk ws x =>
          rw [hp] at hle
          cases x with
          | none =>
            simp only [reduceCtorEq, false_implies, implies_true, true_and, SelGot.row.injEq]
            rintro ws' b s' ⟨rfl, _⟩
            exact hle
          | some x =>
            simp only [SelGot.failed.injEq, reduceCtorEq, false_implies, implies_true, and_true]
            rintro ws' y ⟨rfl, _⟩
            exact hle
      · exact ih t

/-- **C61, any file, any query.**  However the iterator has got where it is: if the client's array is as large as the function for the size of a row says before the call, `odb_select_iterator_get_next_row`
does not write beyond this size: not if it fails with an exception, either. -/
theorem C61_bounded (env : Env) (len : List Byte → Nat) (q : Query) (s : Selection) (data : List Word) (hd : s.oldRowSize ≤ data.length) :
    (∀ ws e, s.pull env len q = .failed ws e → ws.length ≤ s.oldRowSize ∧ s.oldNext env len q data = .error e) ∧
    ∀ o, s.oldNext env len q data = .ok o → o.data.length = data.length ∧ o.data.drop s.oldRowSize = data.drop s.oldRowSize := by
  obtain ⟨h1, h2⟩ := selPull_le env len q s.asked s.oldRowSize s.st s.rest s.fin
  refine ⟨?_, ?_⟩
  · intro ws e h
    have := h1 ws e h
    refine ⟨this, ?_⟩
    unfold Selection.oldNext
    rw [h]
    dsimp only
    rw [if_neg (by omega)]
  · intro o h
    unfold Selection.oldNext at h
    cases hp : s.pull env len q with
    | failed ws e =>
      rw [hp] at h
      dsimp only at h
      split at h <;> cases h
    | done s' => rw [hp] at h; cases h; exact ⟨rfl, rfl⟩
    | row ws b s' =>
      have := h2 ws b s' hp
      rw [hp] at h
      dsimp only at h
      rw [if_neg (by omega)] at h
      cases h
      dsimp only
      refine ⟨by rw [List.length_append, List.length_drop]; omega, ?_⟩
      rw [List.drop_append, List.drop_of_length_le this, List.nil_append, List.drop_drop]
      congr 1
      omega

end Verif
