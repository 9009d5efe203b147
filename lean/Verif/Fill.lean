import Verif.PropRows

/-
Rows filled in value by value through `data(i)` and written with `++`: the style of MergeTool.cc l.94-113 and
Indexer.cc l.90-113.
-/

namespace Verif

/-- `data(i) = x`: `data(i)` is a reference to the first double of column `i` in `nextRow_`,
WriterBufferingIterator.cc l.187-194. -/
def Writer.setFirst (w : Writer) (i : Nat) (x : Word) : Except Err Writer :=
  if w.inited = false then .error .assertFailed
  else if i < w.cols.length then .ok { w with cur := w.cur.modify i (fun z => x :: z.tail) }
  else .error .assertFailed

/-- `data(i) = x0; data(i + 1) = x1; ...` [The loop of tools/MergeTool.cc l.104-107] -/
def Writer.fill : Writer → Nat → List Word → Except Err Writer
  | w, _, [] => .ok w
  | w, i, x :: xs =>
    match w.setFirst i x with
    | .error e => .error e
    | .ok w' => w'.fill (i + 1) xs

/-- Fill in all values of a row, then `++`. [tools/MergeTool.cc l.98-111] -/
def Writer.putRow (env : Env) (o : Order) (w : Writer) (xs : List Word) : Except Err Writer :=
  match w.fill 0 xs with
  | .error e => .error e
  | .ok w' => w'.next env o

/-- Specification: rows given to a writer one after the other. -/
def Writer.putRows (env : Env) (o : Order) : Writer → List (List Word) → Except Err Writer
  | w, [] => .ok w
  | w, r :: rs =>
    match w.putRow env o r with
    | .error e => .error e
    | .ok w' => w'.putRows env o rs

/-! ### The row that is written -/

/-- The cell of a column `n` doubles wide of which only the first has been set. -/
def headCell (x : Word) (n : Nat) : Cell := x :: List.replicate (n - 1) 0

/-- The cells of `nextRow_` are as wide as the columns, with zeros behind the first double. -/
def CurShape (ws : List Nat) (cur : List Cell) : Prop := Match (fun (z : Cell) n => ∃ x, z = headCell x n) cur ws

/-- The columns are of these widths. -/
def ColShape (ws : List Nat) (cols : List WCol) : Prop :=
  Match (fun (wc : WCol) n => ∃ c, wc.codec = some c ∧ c.width = n ∧ wc.ty ≠ .ignore ∧ (wc.ty ≠ .string → n = 1)) cols ws

theorem fill_ok (ws : List Nat) (pre : List Cell) (w : Writer) (xs : List Word) (rest : List Cell) (hi : w.inited = true)
    (hc : w.cur = pre ++ rest) (hl : w.cols.length = pre.length + ws.length) (hr : CurShape ws rest) (hx : xs.length = ws.length) :
    w.fill pre.length xs = .ok { w with cur := pre ++ List.zipWith headCell xs ws } := by
  induction xs generalizing w pre rest ws with
  | nil =>
    have : ws = [] := List.length_eq_zero_iff.mp (by simpa using hx.symm)
    subst this
    cases hr
    simp only [Writer.fill, List.zipWith_nil_left]
    rw [← hc]
  | cons x xs ih =>
    cases ws with
    | nil => simp at hx
    | cons n ws =>
      cases hr with
      | @cons z _ zs _ hz hr =>
        obtain ⟨y, rfl⟩ := hz
        have h1 : w.setFirst pre.length x = .ok { w with cur := (pre ++ [headCell x n]) ++ zs } := by
          unfold Writer.setFirst
          rw [if_neg (by simp [hi]), if_pos (by rw [hl]; simp), hc]
          congr 2
          rw [List.modify_eq_set_getElem?]
          simp [headCell]
        rw [Writer.fill, h1]
        dsimp only
        have := ih ws (pre ++ [headCell x n]) { w with cur := (pre ++ [headCell x n]) ++ zs } zs hi rfl
          (by rw [List.length_append, List.length_singleton]; show w.cols.length = _; simp only [List.length_cons] at hl; omega) hr (by simpa using hx)
        rw [List.length_append, List.length_singleton] at this
        rw [this]
        simp

theorem headCells_shape (xs : List Word) (ws : List Nat) (h : xs.length = ws.length) : CurShape ws (List.zipWith headCell xs ws) := by
  induction ws generalizing xs with
  | nil => cases xs <;> exact .nil
  | cons n ws ih =>
    cases xs with
    | nil => simp at h
    | cons x xs => exact .cons ⟨x, rfl⟩ (ih xs (by simpa using h))

/-- Two writers that differ at most in `nextRow_`. -/
def SameBut (w v : Writer) : Prop := v = { w with cur := v.cur }

theorem ColShape.coders {ws : List Nat} {cols : List WCol} (h : ColShape ws cols) :
    ∃ cs, coders cols = some cs ∧ cs.map Codec.width = ws ∧ cs.length = cols.length := by
  induction h with
  | nil => exact ⟨[], rfl, rfl, rfl⟩
  | cons h _ ih =>
    obtain ⟨c, h1, h2, _⟩ := h
    obtain ⟨cs, e1, e2, e3⟩ := ih
    exact ⟨c :: cs, by simp [Verif.coders, h1, e1], by simp [h2, e2], by simp [e3]⟩

theorem ColShape.set {ws : List Nat} {cols : List WCol} (h : ColShape ws cols) (cs : List Codec) (hc : cs.map Codec.width = ws) :
    ColShape ws (setCoders cols cs) := by
  induction h generalizing cs with
  | nil => cases cs with
    | nil => exact .nil
    | cons _ _ => simp at hc
  | cons h _ ih =>
    cases cs with
    | nil => simp at hc
    | cons k cs =>
      simp only [List.map_cons, List.cons.injEq] at hc
      obtain ⟨c, _, _, h3, h4⟩ := h
      exact .cons ⟨k, rfl, hc.1, h3, h4⟩ (ih cs hc.2)

theorem gather_widths (cs : List Codec) (row : List Cell) (h : row.length = cs.length) :
    (List.zipWith Codec.gather cs row).map Codec.width = cs.map Codec.width := by
  induction cs generalizing row with
  | nil => cases row <;> rfl
  | cons c cs ih =>
    cases row with
    | nil => simp at h
    | cons x row => simp [(gather_pres c x).2.2.1, ih row (by simpa using h)]

theorem optimiseAll_widths {env : Env} {ws : List Nat} {cols : List WCol} (h : ColShape ws cols) {cs : List Codec}
    (hc : cs.map Codec.width = ws) {opt : List Codec} (ho : optimiseAll env cols cs = .ok opt) : opt.map Codec.width = ws := by
  induction h generalizing cs opt with
  | nil =>
    cases cs with
    | nil => simp only [optimiseAll, Except.ok.injEq] at ho; subst ho; rfl
    | cons _ _ => simp at hc
  | @cons wc n _ _ h _ ih =>
    cases cs with
    | nil => simp at hc
    | cons k cs =>
      simp only [List.map_cons, List.cons.injEq] at hc
      obtain ⟨c, _, _, h3, h4⟩ := h
      unfold optimiseAll at ho
      split at ho
      · simp at ho
      rename_i c1 hc1
      split at ho
      · simp at ho
      rename_i cs1 hcs1
      simp only [Except.ok.injEq] at ho
      subst ho
      obtain ⟨_, _, p1, p2⟩ := optimise_pres hc1 h3
      simp only [List.map_cons, List.cons.injEq]
      refine ⟨?_, ih hc.2 hcs1⟩
      by_cases ht : wc.ty = .string
      · rw [p2 ht]; exact hc.1
      · rw [p1 ht, h4 ht]

theorem initRow_shape {cs : List Codec} {l : List Cell} (h : initRow cs = .ok l) : CurShape (cs.map Codec.width) l := by
  induction cs generalizing l with
  | nil => simp only [initRow, Except.ok.injEq] at h; subst h; exact .nil
  | cons c cs ih =>
    unfold initRow at h
    split at h
    · simp at h
    rename_i x hx
    split at h
    · simp at h
    rename_i xs hxs
    simp only [Except.ok.injEq] at h
    subst h
    unfold initCell at hx
    split at hx
    · simp at hx
    rename_i m _
    simp only [Except.ok.injEq] at hx
    exact .cons ⟨m, hx.symm⟩ (ih hxs)

theorem defaultCodec_width {ty : ColType} {asDbl : Bool} {c : Codec} (h : defaultCodec ty asDbl = .ok c) : c.width = 1 := by
  have : startCodec ty asDbl 1 none = .ok c ∨ ∃ d, startCodec ty asDbl 1 none = .ok d ∧ d.width = 1 ∧ c.width = 1 := by
    unfold startCodec
    rw [h]
    dsimp only
    unfold defaultCodec at h
    cases ty <;> simp only [Except.ok.injEq, reduceCtorEq] at h
    · subst h; left; rfl
    · subst h; left; rfl
    · subst h; left; rfl
    · obtain ⟨a, b, d, e, f, g, i⟩ := setMissing_pres h
      left
      unfold Codec.setWidth
      rw [if_neg (by rw [a]; simp [fresh, Kind.isChars]), if_pos rfl]
    · subst h; left; rfl
  rcases this with h | ⟨d, _, _, h⟩
  · exact (startCodec_pres h).1
  · exact h

theorem resetAll_widths {env : Env} {ws : List Nat} {cols : List WCol} (h : ColShape ws cols) {opt : List Codec}
    (hc : opt.map Codec.width = ws) {cs : List Codec} (ho : resetAll env cols opt = .ok cs) : cs.map Codec.width = ws := by
  induction h generalizing cs opt with
  | nil =>
    cases opt with
    | nil => simp only [resetAll, Except.ok.injEq] at ho; subst ho; rfl
    | cons _ _ => simp at hc
  | cons h _ ih =>
    cases opt with
    | nil => simp at hc
    | cons k opt =>
      simp only [List.map_cons, List.cons.injEq] at hc
      unfold resetAll at ho
      split at ho
      · simp at ho
      rename_i c1 hc1
      split at ho
      · simp at ho
      rename_i cs1 hcs1
      simp only [Except.ok.injEq] at ho
      subst ho
      simp only [List.map_cons, List.cons.injEq]
      refine ⟨?_, ih hc.2 hcs1⟩
      unfold resetCodec at hc1
      split at hc1
      · simp at hc1
      rename_i d hd
      split at hc1
      · simp at hc1
      rename_i d2 hd2
      simp only [Except.ok.injEq] at hc1
      subst hc1
      show d2.width = _
      unfold Codec.setWidth at hd2
      split at hd2
      · simp only [Except.ok.injEq] at hd2
        subst hd2
        exact hc.1
      · split at hd2
        · rename_i h1
          simp only [Except.ok.injEq] at hd2
          subst hd2
          rw [defaultCodec_width hd, ← hc.1, h1]
        · simp at hd2

theorem flush_same {env : Env} {o : Order} {ws : List Nat} {w v w' : Writer} (h : SameBut w v) (hs : ColShape ws w.cols)
    (hv : CurShape ws v.cur) (hw : w.flush env o = .ok w') :
    ∃ v', v.flush env o = .ok v' ∧ SameBut w' v' ∧ ColShape ws w'.cols ∧ CurShape ws v'.cur ∧ w'.inited = w.inited := by
  obtain ⟨cs, c1, c2, c3⟩ := hs.coders
  rw [h]
  unfold Writer.flush at hw ⊢
  dsimp only
  split at hw
  · simp at hw
  rename_i hi
  rw [if_neg hi]
  cases ha : w.alloc with
  | none =>
    rw [ha] at hw
    simp only [Except.ok.injEq] at hw
    subst hw
    exact ⟨_, rfl, by simp only [SameBut, ha], hs, hv, rfl⟩
  | some a =>
    rw [ha] at hw
    dsimp only at hw ⊢
    split at hw
    · rename_i hr
      simp only [Except.ok.injEq] at hw
      subst hw
      rw [if_pos hr]
      exact ⟨_, rfl, by simp only [SameBut, ha], hs, hv, rfl⟩
    rename_i hr
    rw [if_neg hr, c1]
    rw [c1] at hw
    dsimp only at hw ⊢
    cases ho : optimiseAll env w.cols cs with
    | error e => rw [ho] at hw; simp at hw
    | ok opt =>
      rw [ho] at hw
      dsimp only at hw ⊢
      cases he : encRows o opt (some w.last) w.rows with
      | error e => rw [he] at hw; simp at hw
      | ok bs =>
        rw [he] at hw
        dsimp only at hw ⊢
        split at hw
        · simp at hw
        rename_i hb
        rw [if_neg hb]
        have hwid := optimiseAll_widths hs c2 ho
        cases hl : initRow opt with
        | error e => rw [hl] at hw; simp at hw
        | ok l =>
          cases hre : resetAll env w.cols opt with
          | error e => rw [hl, hre] at hw; simp at hw
          | ok cs' =>
            rw [hl, hre] at hw
            simp only [Except.ok.injEq] at hw
            subst hw
            refine ⟨_, rfl, rfl, hs.set cs' (resetAll_widths hs hwid hre), ?_, rfl⟩
            have := initRow_shape hl
            rw [hwid] at this
            exact this

theorem writeRow_same {env : Env} {o : Order} {ws : List Nat} {w v w' : Writer} (h : SameBut w v) (hs : ColShape ws w.cols)
    (hv : CurShape ws v.cur) (row : List Cell) (hw : w.writeRow env o row = .ok w') :
    ∃ v', v.writeRow env o row = .ok v' ∧ SameBut w' v' ∧ ColShape ws w'.cols ∧ CurShape ws v'.cur ∧ w'.inited = true := by
  obtain ⟨cs, c1, c2, c3⟩ := hs.coders
  rw [h]
  unfold Writer.writeRow at hw ⊢
  dsimp only
  split at hw
  · simp at hw
  rename_i h1
  split at hw
  · simp at hw
  rename_i h2
  rw [if_neg h1, if_neg h2, c1]
  rw [c1] at hw
  dsimp only at hw ⊢
  split at hw
  · simp at hw
  rename_i h3
  rw [if_neg h3]
  split at hw
  · simp at hw
  rename_i h4
  rw [if_neg h4]
  have hi : w.inited = true := by simpa using h2
  have hlen : row.length = cs.length := by
    have : row.map List.length = cs.map Codec.width := by
      by_contra hne; exact h3 (.inl hne)
    simpa using congrArg List.length this
  have hs' : ColShape ws (setCoders w.cols (List.zipWith Codec.gather cs row)) :=
    hs.set _ (by rw [gather_widths cs row hlen, c2])
  split at hw
  · rename_i h5
    rw [if_pos h5]
    obtain ⟨v', a1, a2, a3, a4, a5⟩ := flush_same (w := { w with
      alloc := some (w.alloc.getD (rowWords cs)), cols := setCoders w.cols (List.zipWith Codec.gather cs row), rows := w.rows ++ [row] }) (v := { w with
      alloc := some (w.alloc.getD (rowWords cs)), cols := setCoders w.cols (List.zipWith Codec.gather cs row), rows := w.rows ++ [row], cur := v.cur })
      rfl hs' hv hw
    exact ⟨v', a1, a2, a3, a4, by rw [a5]; exact hi⟩
  · rename_i h5
    rw [if_neg h5]
    simp only [Except.ok.injEq] at hw
    subst hw
    exact ⟨_, rfl, rfl, hs', hv, hi⟩

/-- Filling in and writing rows is the same as writing the rows of cells. -/
theorem putRows_same {env : Env} {o : Order} {ws : List Nat} (rs : List (List Word)) {w v w' : Writer} (h : SameBut w v)
    (hi : w.inited = true) (hs : ColShape ws w.cols) (hv : CurShape ws v.cur) (hr : ∀ r ∈ rs, r.length = ws.length)
    (hw : w.writeRows env o (rs.map (fun r => List.zipWith headCell r ws)) = .ok w') :
    ∃ v', v.putRows env o rs = .ok v' ∧ SameBut w' v' ∧ ColShape ws w'.cols ∧ CurShape ws v'.cur ∧ w'.inited = true := by
  induction rs generalizing w v with
  | nil =>
    simp only [List.map_nil, Writer.writeRows, Except.ok.injEq] at hw
    subst hw
    exact ⟨v, rfl, h, hs, hv, hi⟩
  | cons r rs ih =>
    simp only [List.map_cons, Writer.writeRows, bind, Except.bind] at hw
    split at hw
    · simp at hw
    rename_i w1 hw1
    have hvi : v.inited = true := by rw [h]; exact hi
    have hvc : v.cols.length = ws.length := by rw [h]; exact hs.length
    have hf := fill_ok ws [] v r v.cur hvi rfl (by simpa using hvc) hv (hr r (by simp))
    simp only [List.length_nil, List.nil_append] at hf
    have hsame : SameBut w { v with cur := List.zipWith headCell r ws } := by
      show _ = _
      rw [h]
    have hshape : CurShape ws (List.zipWith headCell r ws) := headCells_shape r ws (hr r (by simp))
    obtain ⟨v1, a1, a2, a3, a4, a5⟩ := writeRow_same hsame hs hshape _ hw1
    obtain ⟨v', b1, b2⟩ := ih a2 a5 a3 a4 (fun q hq => hr q (by simp [hq])) hw
    refine ⟨v', ?_, b2⟩
    simp only [Writer.putRows, Writer.putRow, hf, Writer.next]
    rw [a1]
    exact b1

theorem closeW_same {env : Env} {o : Order} {ws : List Nat} {w v w' : Writer} (h : SameBut w v) (hs : ColShape ws w.cols)
    (hv : CurShape ws v.cur) (hw : w.close env o = .ok w') : ∃ v', v.close env o = .ok v' ∧ v'.out = w'.out := by
  unfold Writer.close at hw ⊢
  rw [show v.inited = w.inited by rw [h]]
  split at hw
  · rename_i hi
    rw [if_pos hi]
    obtain ⟨v', a1, a2, _⟩ := flush_same h hs hv hw
    exact ⟨v', a1, by rw [a2]⟩
  · rename_i hi
    rw [if_neg hi]
    simp only [Except.ok.injEq] at hw
    subst hw
    exact ⟨v, rfl, by rw [h]⟩

theorem ColShape.wcols {env : Env} {cols : List InCol} {ms : List (Option Word)} {starts : List Codec} (h : Starts env cols ms starts) :
    ColShape (cols.map (fun c => c.vals.words)) (List.zipWith wcol cols starts) := by
  refine Starts.rec' (P := fun cols _ ks => ColShape (cols.map (fun c => c.vals.words)) (List.zipWith wcol cols ks)) .nil ?_ cols ms starts h
  intro c cols m? ms k ks hk _ ih
  obtain ⟨p1, p2, _⟩ := startCodec_pres hk
  refine .cons ⟨k, rfl, p1, Vals.ty_ne _, ?_⟩ ih
  intro ht
  exact p2 ht

/-- The columns of a table, as the writer holds them before the first row. -/
def Writer.withCols (cap : Nat) (cols : List WCol) (b : Bool) : Writer := { Writer.new cap with cols := cols, inited := b }

/-- A table written row by row, its values filled in one by one; the row being filled in when the writer is closed does
not matter. -/
theorem putTable_most (env : Env) (o : Order) (T : UTable) (cap : Nat) (starts : List Codec) (b : Bool)
    (hst : Starts env T.cols (List.replicate T.cols.length none) starts)
    (hnd : (T.cols.map InCol.name).Nodup) (hne : ∀ c ∈ T.cols, c.name ≠ []) (hp : T.props = []) (rs : List (List Word))
    (hl : ∀ r ∈ rs, r.length = T.cols.length)
    (hrs : rs.map (fun r => List.zipWith headCell r (T.cols.map (fun c => c.vals.words))) = rowsOf (T.cols.map (InCol.data env)) T.rows)
    {fs : List (List Byte)} (h : T.write env o cap = .ok fs) :
    ∃ w1 w2, (Writer.withCols cap (List.zipWith wcol T.cols starts) b).writeHeader = .ok w1 ∧
      w1.putRows env o rs = .ok w2 ∧ ColShape (T.cols.map (fun c => c.vals.words)) w2.cols ∧
      CurShape (T.cols.map (fun c => c.vals.words)) w2.cur ∧ w2.inited = true ∧
      ∀ v, SameBut w2 v → CurShape (T.cols.map (fun c => c.vals.words)) v.cur → ∃ v3, v.close env o = .ok v3 ∧ v3.out = fs := by
  have hms : (List.replicate T.cols.length (none : Option Word)).length = T.cols.length := by simp
  have hfst : (T.cols.zip (List.replicate T.cols.length (none : Option Word))).map Prod.fst = T.cols := by
    rw [List.map_fst_zip]; simp
  have hd := declare_all env ((Writer.new cap).setSize T.cols.length) [] (T.cols.zip (List.replicate T.cols.length none)) starts
    (by rw [hst.2.1, List.length_zip]; simp) (by simp [Writer.new, Writer.setSize, blankCol])
    (by
      intro i c m? k h1 h2
      rw [List.getElem?_zip_eq_some] at h1
      exact hst.2.2 i c m? k h1.1 h1.2 h2)
    (by
      have : (T.cols.zip (List.replicate T.cols.length (none : Option Word))).map (fun c => c.1.name) =
          ((T.cols.zip (List.replicate T.cols.length (none : Option Word))).map Prod.fst).map InCol.name := by
        rw [List.map_map]; rfl
      rw [this, hfst]; exact hnd)
    (by
      intro c hc
      apply hne
      rw [← hfst]
      exact List.mem_map.mpr ⟨c, hc, rfl⟩)
    (by simp)
  rw [hfst] at hd
  simp only [List.length_nil, List.nil_append] at hd
  unfold UTable.write UTable.writeMiss at h
  rw [hd, hp] at h
  simp only [bind, Except.bind, pure, Except.pure] at h
  split at h
  · simp at h
  rename_i w1 h1
  split at h
  · simp at h
  rename_i w2 h2
  split at h
  · simp at h
  rename_i w3 h3
  simp only [Except.ok.injEq] at h
  have hw1 : (Writer.withCols cap (List.zipWith wcol T.cols starts) b).writeHeader = .ok w1 := by rw [← h1]; rfl
  have hshape := ColShape.wcols hst
  have hsh : ColShape (T.cols.map (fun c => c.vals.words)) w1.cols ∧ CurShape (T.cols.map (fun c => c.vals.words)) w1.cur ∧ w1.inited = true := by
    unfold Writer.writeHeader at hw1
    obtain ⟨cs, c1, c2, c3⟩ := hshape.coders
    simp only [Writer.withCols, c1] at hw1
    split at hw1
    · simp at hw1
    rename_i l hl
    dsimp only [Writer.new] at hw1
    simp only [Except.ok.injEq] at hw1
    subst hw1
    refine ⟨hshape.set _ ?_, ?_, rfl⟩
    · rw [← c2, List.map_map]; rfl
    · rw [← c2]; exact initRow_shape hl
  rw [← hrs] at h2
  obtain ⟨v2, a1, a2, a3, a4, a5⟩ := putRows_same rs (w := w1) (v := w1) rfl hsh.2.2 hsh.1 hsh.2.1 (by simpa using hl) h2
  refine ⟨w1, v2, hw1, a1, by rw [a2]; exact a3, a4, by rw [a2]; exact a5, ?_⟩
  intro v hv hc
  have hv' : SameBut w2 v := by
    unfold SameBut at hv a2 ⊢
    rw [hv, a2]
  obtain ⟨v3, b1, b2⟩ := closeW_same hv' a3 hc h3
  exact ⟨v3, b1, by rw [b2, h]⟩

/-- A table written row by row, its values filled in one by one. -/
theorem putTable_ok (env : Env) (o : Order) (T : UTable) (cap : Nat) (starts : List Codec) (b : Bool)
    (hst : Starts env T.cols (List.replicate T.cols.length none) starts)
    (hnd : (T.cols.map InCol.name).Nodup) (hne : ∀ c ∈ T.cols, c.name ≠ []) (hp : T.props = []) (rs : List (List Word))
    (hl : ∀ r ∈ rs, r.length = T.cols.length)
    (hrs : rs.map (fun r => List.zipWith headCell r (T.cols.map (fun c => c.vals.words))) = rowsOf (T.cols.map (InCol.data env)) T.rows)
    {fs : List (List Byte)} (h : T.write env o cap = .ok fs) :
    ∃ w1 w2 w3, (Writer.withCols cap (List.zipWith wcol T.cols starts) b).writeHeader = .ok w1 ∧
      w1.putRows env o rs = .ok w2 ∧ w2.close env o = .ok w3 ∧ w3.out = fs := by
  obtain ⟨w1, w2, h1, h2, h3, h4, h5, h6⟩ := putTable_most env o T cap starts b hst hnd hne hp rs hl hrs h
  obtain ⟨w3, h7, h8⟩ := h6 w2 rfl h4
  exact ⟨w1, w2, w3, h1, h2, h7, h8⟩

end Verif
