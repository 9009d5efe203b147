import Verif.OldWrite

/-
Files written and read with the old C interface; numbers of rows and blocks of a file.
-/

namespace Verif

/-! ### Specification -/

/-- Specification: `k` calls of `odb_read_iterator_get_next_row` with the same array: what each of them leaves. -/
def fetchRows (env : Env) (junk : Junk) (count : Nat) : Nat → RowIt → List Word → Except Err (List OldRow)
  | 0, _, _ => .ok []
  | k + 1, it, data =>
    match it.oldNext env junk count data with
    | .error e => .error e
    | .ok o =>
      match fetchRows env junk count k o.it o.data with
      | .error e => .error e
      | .ok os => .ok (o :: os)

/-- Specification: `w` tells the client whether the cell `y` of row `r` is missing: in columns of integers it is in the cells of the rows written with
2147483647 and in no others; in columns of reals it is the missing value a writer uses. -/
def Vals.MissingIs (v : Vals) (r : Nat) (y : Cell) (w : Word) : Prop :=
  match v with
  | .ints vs => ∀ i, vs[r]? = some i → (y = [w] ↔ i = 2147483647)
  | .bits _ vs => ∀ i, vs[r]? = some i → (y = [w] ↔ i = 2147483647)
  | .reals _ => w = realMDI
  | .doubles _ => w = realMDI
  | .strings _ _ => True

/-- Specification: what the client finds after row `r` of the table has been fetched: through the functions about columns the columns that were declared, with
the texts about the members of a bitfield, and in its array, at the offset and in the size it is told, the value of the row (as a frame of `cap` rows holds
it: REAL values may be rounded to single precision). -/
structure SeesRow (env : Env) (T : UTable) (cap r : Nat) (it : RowIt) (data : List Word) : Prop where
  count : it.oldCount = T.cols.length
  fits : it.oldRowSize ≤ data.length
  col : ∀ (p : Nat) (c : InCol), T.cols[p]? = some c →
    it.oldName p = .ok c.name ∧ it.oldType p = .ok c.vals.ty.toInt ∧
    it.oldBitfield p = .ok (bitfieldTexts (c.vals.members.map Prod.fst) (c.vals.members.map Prod.snd)) ∧
    ∃ off n : Nat, it.oldOffset p = .ok off ∧ it.oldSize p = .ok n ∧ 1 ≤ n ∧ n ≤ c.vals.words ∧ off + n ≤ it.oldRowSize ∧
      (c.vals.part (r / cap * cap) (min cap (T.rows - r / cap * cap))).Gives env (r % cap) ((data.drop off).take n) ∧
      (c.vals.ty ≠ .real → c.vals.Gives env r ((data.drop off).take n)) ∧
      ∃ w : Word, it.oldMissing (p : Int) = .ok w ∧ c.vals.MissingIs r ((data.drop off).take n) w

/-- Specification: tables written one after the other to the same file, each with its own iterator and number of buffered rows: the first one with a write
iterator, the others with append iterators. -/
def oldSessions (env : Env) (lib : OldLib) : List (Nat × UTable) → List Byte → Except Err (List Byte)
  | [], old => .ok old
  | s :: ss, old =>
    match oldWriteFile env lib s.1 old (s.2.oldCalls env (List.replicate s.2.cols.length none)) with
    | .error e => .error e
    | .ok bytes => oldSessions env lib ss bytes

/-- Specification: a table the interface can write. -/
structure OldTable (env : Env) (cap : Nat) (T : UTable) : Prop where
  pos : 0 < cap
  ok : T.RowsOk env cap
  old : ∀ c ∈ T.cols, c.OldOk
  props : T.props = []

/-- Specification: the values of `new_dataset`: a new table every `cap` rows and at the beginning of a session, but not for the first row of the file. -/
def newFlags (ss : List (Nat × UTable)) : List (Option Bool) :=
  match ss.flatMap (fun s => (List.range s.2.rows).map (fun r => some (decide (r % s.1 = 0)))) with
  | [] => []
  | _ :: fs => some false :: fs

/-! ### From rows to calls -/

/-- Proof device: the cells of a row have the sizes of its columns. -/
def RowView.Shaped (v : RowView) : Prop := v.cells.map List.length = v.cols.map (fun c => c.codec.width)

theorem RowView.Shaped.flat {v : RowView} (h : v.Shaped) : v.cells.flatten.length = v.size := by
  rw [List.length_flatten, h]; rfl

theorem delivers_fetch (env : Env) (junk : Junk) (n : Nat) (it : RowIt) (views : List RowView) (h : Delivers env junk it views none)
    (data : List Word) (hn : ∀ v ∈ views, v.cols.length = n) (hs : ∀ v ∈ views, v.Shaped ∧ v.size ≤ data.length) :
    ∃ (os : List OldRow) (last : OldRow), fetchRows env junk n (views.length + 1) it data = .ok (os ++ [last]) ∧ last.rc = 1 ∧ last.fresh = none ∧
      last.data = (os.getLast?.map OldRow.data).getD data ∧
      Match (fun (v : RowView) (o : OldRow) => o.rc = 0 ∧ o.fresh = some v.fresh ∧ o.it.cols = v.cols ∧
        ∃ d : List Word, d.length = data.length ∧ o.data = v.into d) views os := by
  induction views generalizing it data with
  | nil =>
    obtain ⟨it', h1⟩ := h
    refine ⟨[], ⟨it', 1, none, data⟩, ?_, rfl, rfl, rfl, .nil⟩
    simp only [List.length_nil, fetchRows, (h1 n data).1]
    rfl
  | cons v vs ih =>
    obtain ⟨it', h1, h2, _, h4⟩ := h
    obtain ⟨s1, s2⟩ := hs v (by simp)
    have hl : (v.into data).length = data.length := by
      unfold RowView.into
      rw [List.length_append, List.length_take, List.length_drop, s1.flat]
      omega
    obtain ⟨os, last, e1, e2, e3, e4, e5⟩ := ih it' h4 (v.into data) (fun x hx => hn x (by simp [hx]))
      (fun x hx => by rw [hl]; exact hs x (by simp [hx]))
    refine ⟨⟨it', 0, some v.fresh, v.into data⟩ :: os, last, ?_, e2, e3, ?_, .cons ⟨rfl, rfl, h1, data, rfl, rfl⟩ ?_⟩
    · have h2' := h2 data s2
      rw [hn v (by simp)] at h2'
      rw [List.length_cons]
      conv => lhs; rw [fetchRows, h2']
      dsimp only
      rw [e1]
      rfl
    · rw [e4]
      cases os with
      | nil => rfl
      | cons o os => rw [List.getLast?_cons_cons]; cases hx : (o :: os).getLast? with
        | none => simp at hx
        | some z => rfl
    · rw [hl] at e5
      exact e5

/-! ### From frames to rows -/

/-- Proof device: a row of a file, with everything a client can ask about it. -/
structure ViewOf (env : Env) (T : UTable) (cap r : Nat) (v : RowView) : Prop where
  ncols : v.cols.length = T.cols.length
  shaped : v.Shaped
  size : v.size ≤ (T.cols.map (fun c => c.vals.words)).sum
  col : ∀ (p : Nat) (c : InCol), T.cols[p]? = some c →
    ∃ (k : Col) (y : Cell), v.cols[p]? = some k ∧ k.name = c.name ∧ k.ty = c.vals.ty.toInt ∧
      k.bitNames = c.vals.members.map Prod.fst ∧ k.bitSizes = c.vals.members.map Prod.snd ∧ 1 ≤ k.codec.width ∧ k.codec.width ≤ c.vals.words ∧
      v.cells[p]? = some y ∧
      (c.vals.part (r / cap * cap) (min cap (T.rows - r / cap * cap))).Gives env (r % cap) y ∧ (c.vals.ty ≠ .real → c.vals.Gives env r y) ∧
      ∃ w : Word, k.codec.missingWord = .ok w ∧ c.vals.MissingIs r y w

theorem int_not_mdi (asDbl : Bool) (i : Int) (hi : InI32 i) (h : intWord asDbl i = ofInt 2147483647) : i = 2147483647 := by
  cases asDbl with
  | true =>
    apply intWord_inj true i 2147483647 hi (by decide)
    rw [h]
    unfold intWord
    rw [if_pos rfl]
  | false =>
    have h1 : (BitVec.ofInt 64 i) = ofInt 2147483647 := h
    have h2 : ¬ (ofInt 2147483647).toInt < 2147483648 := by decide +kernel
    have h3 : (BitVec.ofInt 64 i).toInt = i := by
      rw [BitVec.toInt_ofInt]
      have := hi.1; have := hi.2
      rw [Int.bmod_eq_of_le] <;> omega
    rw [h1] at h3
    have := hi.2
    omega

/-- The missing value of a column without one of its own. -/
theorem ColSent.mdi {env : Env} {v : Vals} {c : Codec} {back : Cell → Cell} (h : ColSent env v none c back) (hok : v.Ok env) (r : Nat) (y : Cell)
    (hy : v.Gives env r y) : ∃ w : Word, (reload env.asDbl v.ty.toInt c).missingWord = .ok w ∧ v.MissingIs r y w := by
  obtain ⟨c0, h0⟩ : ∃ c0, startCodec v.ty env.asDbl v.words none = .ok c0 := by
    have := h.chosen
    unfold chosenCodec at this
    split at this
    · simp at this
    · rename_i c0 h0; exact ⟨c0, h0⟩
  obtain ⟨p1, p2, p3⟩ := chosen_pres v.ty_ne h0 h.chosen
  have hmw := reload_missingWord (ty := v.ty.toInt) p3
  rw [hmw]
  have hmdi : InI32 2147483647 := by decide
  have hint : ∀ (ty : ColType) (hty : ty = .integer ∨ ty = .bitfield) (is : List Int) (hvty : v.ty = ty) (hw1 : v.words = 1)
      (hcells : v.cells env = is.map (fun i => [intWord env.asDbl i])) (his : ∀ i ∈ is, InI32 i),
      ∃ w : Word, c.missingWord = .ok w ∧ ∀ i ∈ is, (intWord env.asDbl i = w ↔ i = 2147483647) := by
    intro ty hty is hvty hw1 hcells his
    obtain ⟨c', e1, e2, e3, e4, ⟨lo, hi, _, _, _, e5, _⟩, _⟩ := int_column ty hty env.asDbl env.longEnv _ hmdi none (Or.inr ⟨rfl, rfl⟩) is his
    have hcc := h.chosen
    rw [hvty, hw1, hcells, e1] at hcc
    simp only [Except.ok.injEq] at hcc
    subst hcc
    have hvt : c'.vt = vtI env.asDbl := by
      rw [p3, hvty]
      apply vtOf_int _ _ ty hty
      rw [e5]; unfold intKind; split <;> split <;> (try rfl) <;> split <;> (try rfl) <;> split <;> rfl
    by_cases hk : c'.kind.isInt = true ∧ c'.kind ≠ .realConstOrMissing
    · refine ⟨_, int_missingWord hmdi hvt e4 hk, ?_⟩
      intro i hi
      exact ⟨fun e => intWord_inj _ _ _ (his i hi) hmdi e, fun e => by rw [e]⟩
    · have hno : 2147483647 ∉ is := by
        intro hm
        rw [show decide (2147483647 ∈ is) = true by simpa using hm] at e5
        exact hk (by rw [e5]; exact intKind_hasMissing _)
      refine ⟨c'.missing, ?_, ?_⟩
      · unfold Codec.missingWord
        rw [if_neg]
        intro hx
        simp only [Bool.and_eq_true, bne_iff_ne, ne_eq] at hx
        exact hk hx
      · intro i hi
        rw [e4]
        exact ⟨fun e => int_not_mdi _ i (his i hi) e, fun e => absurd (e ▸ hi) hno⟩
  cases v with
  | ints vs =>
    obtain ⟨w, w1, w2⟩ := hint .integer (Or.inl rfl) vs rfl rfl rfl hok
    refine ⟨w, w1, ?_⟩
    intro i hi
    obtain ⟨j, j1, j2⟩ := hy
    rw [hi] at j1
    simp only [Option.some.injEq] at j1
    subst j1
    rw [j2, List.cons.injEq]
    simpa using w2 i (List.mem_of_getElem? hi)
  | bits ms vs =>
    obtain ⟨w, w1, w2⟩ := hint .bitfield (Or.inr rfl) vs rfl rfl rfl hok.1
    refine ⟨w, w1, ?_⟩
    intro i hi
    obtain ⟨j, j1, j2⟩ := hy
    rw [hi] at j1
    simp only [Option.some.injEq] at j1
    subst j1
    rw [j2, List.cons.injEq]
    simpa using w2 i (List.mem_of_getElem? hi)
  | reals vs =>
    obtain ⟨k', s1, s2, s3, s4, _⟩ := startCodec_real .real (Or.inl rfl) env.asDbl realMDI none (Or.inr ⟨rfl, rfl⟩)
    have : startCodec .real env.asDbl 1 none = .ok c0 := h0
    rw [s1] at this
    simp only [Except.ok.injEq] at this
    exact ⟨realMDI, by rw [real_missingWord (chosen_isReal (Or.inl rfl) h.chosen), p1, ← this, s4], rfl⟩
  | doubles vs =>
    obtain ⟨k', s1, s2, s3, s4, _⟩ := startCodec_real .double (Or.inr rfl) env.asDbl realMDI none (Or.inr ⟨rfl, rfl⟩)
    have : startCodec .double env.asDbl 1 none = .ok c0 := h0
    rw [s1] at this
    simp only [Except.ok.injEq] at this
    exact ⟨realMDI, by rw [real_missingWord (chosen_isReal (Or.inr rfl) h.chosen), p1, ← this, s4], rfl⟩
  | strings n vs =>
    obtain ⟨w, w1, w2⟩ := h.missing
    exact ⟨w, w2, trivial⟩

theorem sum_le_sum {α β : Type} (f : α → Nat) (g : β → Nat) (as : List α) (bs : List β) (h : Match (fun a b => f a ≤ g b) as bs) :
    (as.map f).sum ≤ (bs.map g).sum := by
  induction h with
  | nil => simp
  | cons h1 _ ih => simp only [List.map_cons, List.sum_cons]; omega

/-- The rows of a table written. -/
theorem table_views (env : Env) (T : UTable) (cap : Nat) (hcap : 0 < cap) (Fs : List RFrame)
    (hF : WFrames env .same T cap (List.replicate T.cols.length none) Fs)
    (hvals : ∀ k : Nat, k * cap < T.rows → ∀ c ∈ T.cols, (c.vals.part (k * cap) (min cap (T.rows - k * cap))).Ok env) :
    (Fs.flatMap (tableViews true)).length = T.rows ∧ rowCount Fs = T.rows ∧
      ∀ (r : Nat) (v : RowView), (Fs.flatMap (tableViews true))[r]? = some v → v.fresh = decide (r % cap = 0) ∧ ViewOf env T cap r v := by
  have hlen : ∀ (k : Nat) (F : RFrame), Fs[k]? = some F → k * cap < T.rows ∧ F.rows.length = min cap (T.rows - k * cap) := by
    intro k F hk
    obtain ⟨a, _, es, _, _, _, b, _⟩ := hF.good k F hk
    exact ⟨a, by rw [b]; simp [backRows]⟩
  have hn : T.rows ≤ Fs.length * cap := by
    rw [hF.count]
    have := Nat.lt_div_mul_add (a := T.rows + cap - 1) hcap
    omega
  obtain ⟨c1, c2, c3⟩ := views_get cap T.rows hcap Fs hn hlen
  refine ⟨c1, c2, ?_⟩
  intro r v hv
  have hr : r < T.rows := by rw [← c1]; exact (List.getElem?_eq_some_iff.mp hv).1
  obtain ⟨F, row, e1, e2, e3⟩ := c3 r hr
  rw [hv] at e3
  simp only [Option.some.injEq] at e3
  subst e3
  obtain ⟨a, _, es, f1, f2, f3, f4, _⟩ := hF.good _ F e1
  have hdm := Nat.div_add_mod r cap
  have hml := Nat.mod_lt r hcap
  rw [Nat.mul_comm] at hdm
  have hin : r % cap < min cap (T.rows - r / cap * cap) := by omega
  rw [f4, backRows_get es _ _ hin] at e2
  simp only [Option.some.injEq] at e2
  subst e2
  rw [msAt_none] at f2
  -- column by column
  have hcol : ∀ (p : Nat) (c : InCol) (e : EncCol), T.cols[p]? = some c → es[p]? = some e →
      EncSent env (min cap (T.rows - r / cap * cap)) (partCol (r / cap * cap) (min cap (T.rows - r / cap * cap)) c) none e ∧
      (e.back (e.data.cells.getD (r % cap) [])).length = (e.col.reload env.asDbl).codec.width ∧
      (partCol (r / cap * cap) (min cap (T.rows - r / cap * cap)) c).vals.Gives env (r % cap) (e.back (e.data.cells.getD (r % cap) [])) ∧
      1 ≤ (e.col.reload env.asDbl).codec.width ∧ (e.col.reload env.asDbl).codec.width ≤ c.vals.words := by
    intro p c e hp he
    have hpl := (List.getElem?_eq_some_iff.mp hp).1
    have hE := f2 p c none e hp (by rw [List.getElem?_replicate, if_pos hpl]) he
    have hcl : r % cap < ((partCol (r / cap * cap) (min cap (T.rows - r / cap * cap)) c).vals.cells env).length := by
      rw [Vals.cells_length, hE.rows]; exact hin
    have hw : (partCol (r / cap * cap) (min cap (T.rows - r / cap * cap)) c).vals.words = c.vals.words := by
      simp only [partCol]; exact Vals.part_words ..
    have hcod : (e.col.reload env.asDbl).codec
        = reload env.asDbl (partCol (r / cap * cap) (min cap (T.rows - r / cap * cap)) c).vals.ty.toInt e.codec := by
      simp [Col.reload, EncCol.col, hE.info, InCol.info]
    refine ⟨hE, ?_, ?_, ?_, ?_⟩
    · rw [hE.cells, List.getD_eq_getElem?_getD, List.getElem?_eq_getElem hcl, Option.getD_some, hE.sent.exact _ (List.getElem_mem hcl), hcod]
    · rw [← Vals.GivesMiss.none_iff]
      apply hE.sent.gives
      rw [hE.cells, List.getD_eq_getElem?_getD, List.getElem?_eq_getElem hcl]
      rfl
    · rw [hcod]; exact hE.sent.pos
    · rw [hcod, ← hw]; exact hE.sent.le
  refine ⟨rfl, ?_, ?_, ?_, ?_⟩
  · simp [f3, readCols, f1]
  · unfold RowView.Shaped
    dsimp only
    rw [f3, readCols, List.map_map, List.map_map]
    apply List.map_congr_left
    intro e he
    obtain ⟨p, hp⟩ := List.mem_iff_getElem?.mp he
    have hpl := (List.getElem?_eq_some_iff.mp hp).1
    exact (hcol p _ e (List.getElem?_eq_getElem (by omega)) hp).2.1
  · unfold RowView.size
    dsimp only
    apply sum_le_sum
    rw [f3, readCols]
    apply Match.map_left
    apply Match.of_get _ _ f1
    intro p e c he hc
    exact (hcol p c e hc he).2.2.2.2
  · intro p c hp
    have hpl := (List.getElem?_eq_some_iff.mp hp).1
    have he : es[p]? = some (es[p]'(by omega)) := List.getElem?_eq_getElem _
    generalize es[p]'(by omega) = e at he
    obtain ⟨hE, g1, g2, g3, g4⟩ := hcol p c e hp he
    refine ⟨e.col.reload env.asDbl, _, by dsimp only; rw [f3, readCols, List.getElem?_map, he]; rfl, ?_, ?_, ?_, ?_, g3, g4,
      by dsimp only; rw [List.getElem?_map, he]; rfl, g2, fun hty => ?_, ?_⟩
    · simp [Col.reload, EncCol.col, hE.info, partCol, InCol.info]
    · simp [Col.reload, EncCol.col, hE.info, partCol, InCol.info, Vals.part_ty]
    · simp [Col.reload, EncCol.col, hE.info, partCol, InCol.info, Vals.part_members]
    · simp [Col.reload, EncCol.col, hE.info, partCol, InCol.info, Vals.part_members]
    · have := part_gives env _ _ _ _ _ g2 hty
      rwa [hdm] at this
    · obtain ⟨w, w1, w2⟩ := hE.sent.mdi (hvals _ a c (List.mem_of_getElem? hp)) _ _ g2
      refine ⟨w, ?_, ?_⟩
      · rw [← w1]; simp [Col.reload, EncCol.col, hE.info, InCol.info]
      · have hget : ∀ {α : Type} (l : List α) (x : α), l[r]? = some x → ((l.drop (r / cap * cap)).take (min cap (T.rows - r / cap * cap)))[r % cap]? = some x := by
          intro α l x hx
          rw [List.getElem?_take, if_pos hin, List.getElem?_drop, hdm, hx]
        have w2' : Vals.MissingIs (c.vals.part (r / cap * cap) (min cap (T.rows - r / cap * cap))) (r % cap) (e.back (e.data.cells.getD (r % cap) [])) w := w2
        clear w2
        cases hv : c.vals with
        | ints vs => rw [hv] at w2'; exact fun i hi => w2' i (hget vs i hi)
        | bits ms vs => rw [hv] at w2'; exact fun i hi => w2' i (hget vs i hi)
        | reals vs => rw [hv] at w2'; exact w2'
        | doubles vs => rw [hv] at w2'; exact w2'
        | strings n vs => trivial

theorem cell_at (cells : List Cell) (ws : List Nat) (h : cells.map List.length = ws) (rest : List Word) (p : Nat) (y : Cell) (hy : cells[p]? = some y) :
    ((cells.flatten ++ rest).drop (ws.take p).sum).take y.length = y := by
  induction cells generalizing ws p with
  | nil => simp at hy
  | cons x cells ih =>
    subst h
    cases p with
    | zero =>
      simp only [List.getElem?_cons_zero, Option.some.injEq] at hy
      subst hy
      simp only [List.flatten_cons, List.append_assoc, List.take_zero, List.sum_nil, List.drop_zero]
      rw [List.take_left]
    | succ p =>
      simp only [List.getElem?_cons_succ] at hy
      have := ih _ rfl p hy
      simp only [List.map_cons, List.take_succ_cons, List.sum_cons, List.flatten_cons, List.append_assoc]
      rw [← List.drop_drop, List.drop_left]
      exact this

theorem take_sum_le (ws : List Nat) (p n : Nat) (h : ws[p]? = some n) : (ws.take p).sum + n ≤ ws.sum := by
  induction ws generalizing p with
  | nil => simp at h
  | cons w ws ih =>
    cases p with
    | zero => simp at h; subst h; simp
    | succ p =>
      simp only [List.getElem?_cons_succ] at h
      have := ih p h
      simp only [List.take_succ_cons, List.sum_cons]
      omega

/-- What the client sees of a row that has been fetched. -/
theorem sees_of (env : Env) (T : UTable) (cap r : Nat) (v : RowView) (hv : ViewOf env T cap r v) (it : RowIt) (hit : it.cols = v.cols)
    (d : List Word) (hd : v.size ≤ d.length) : SeesRow env T cap r it (v.into d) := by
  have hsz : it.oldRowSize = v.size := by
    simp only [RowIt.oldRowSize, RowView.size, rowWords, List.map_map, hit]; rfl
  have hinto : v.into d = v.cells.flatten ++ d.drop v.size := by
    unfold RowView.into
    rw [← hv.shaped.flat, List.take_length]
  refine ⟨by rw [← hv.ncols, ← hit]; rfl, ?_, ?_⟩
  · rw [hsz, hinto, List.length_append, hv.shaped.flat]; omega
  · intro p c hp
    obtain ⟨k, y, e1, e2, e3, e4, e5, e6, e7, e8, e9, e10, w, e11, e12⟩ := hv.col p c hp
    have hcol : it.oldColumn p = .ok k := by unfold RowIt.oldColumn; rw [hit, e1]
    have hw : (v.cols.map (fun c => c.codec.width))[p]? = some k.codec.width := by rw [List.getElem?_map, e1]; rfl
    have hyl : y.length = k.codec.width := by
      have : (v.cells.map List.length)[p]? = some y.length := by rw [List.getElem?_map, e8]; rfl
      rw [show v.cells.map List.length = _ from hv.shaped, hw] at this
      simpa using this.symm
    have hcell : ((v.into d).drop ((v.cols.map (fun c => c.codec.width)).take p).sum).take k.codec.width = y := by
      rw [hinto, ← hyl]
      exact cell_at v.cells _ hv.shaped _ p y e8
    refine ⟨by simp [RowIt.oldName, hcol, Except.map, e2], by simp [RowIt.oldType, hcol, Except.map, e3],
      by simp [RowIt.oldBitfield, hcol, Except.map, e4, e5], ((v.cols.map (fun c => c.codec.width)).take p).sum, k.codec.width, ?_,
      by simp [RowIt.oldSize, hcol, Except.map], e6, e7, ?_, ?_, ?_, w, ?_, by rw [hcell]; exact e12⟩
    · simp only [RowIt.oldOffset, hcol, Except.map, hit, Except.ok.injEq, rowWords, List.map_map]
      rw [← List.map_take]; rfl
    · rw [hsz]; exact take_sum_le _ p _ hw
    · rw [hcell]; exact e9
    · intro hty; rw [hcell]; exact e10 hty
    · have hlt := (List.getElem?_eq_some_iff.mp e1).1
      unfold RowIt.oldMissing
      rw [if_neg (by rw [hit]; omega), Int.toNat_natCast, hcol]
      exact e11

/-! ### Sessions -/

theorem session_frames (env : Env) (hmd5 : env.Md5Ok) (lib : OldLib) (hlib : lib.Ok) (cap : Nat) (T : UTable) (hT : OldTable env cap T) (old : List Byte) :
    ∃ Fs : List RFrame, oldWriteFile env lib cap old (T.oldCalls env (List.replicate T.cols.length none)) = .ok (old ++ (Fs.map RFrame.bytes).flatten) ∧
      WFrames env .same T cap (List.replicate T.cols.length none) Fs := by
  have hT' := hT.ok
  obtain ⟨Fs, h1, h2⟩ := writeMiss_ok env hmd5 .same T hT'.wtable cap hT.pos (List.replicate T.cols.length none) (by simp) hT'.names
    hT'.named
    (by
      intro i c m? hc hm
      have := List.eq_of_mem_replicate (List.mem_of_getElem? hm)
      subst this
      exact start_missing_none env c.vals)
    (by
      intro k i c m? hk hc hm
      rw [msAt_none] at hm
      have := List.eq_of_mem_replicate (List.mem_of_getElem? hm)
      subst this
      exact (Vals.OkMiss.none_iff env _).mpr (hT'.vals k hk c (List.mem_of_getElem? hc)))
    (by
      intro i c m z hc hm
      have := List.eq_of_mem_replicate (List.mem_of_getElem? hm)
      simp at this)
  exact ⟨Fs, C55_write env lib hlib cap old T _ hT.old hT.props _ h1, h2⟩

/-- Proof device: the first row of a file is not announced as the first one of a table. -/
def opening : List RowView → List RowView
  | [] => []
  | v :: vs => { v with fresh := false } :: vs

theorem fileViews_opening (Fs : List RFrame) (h : ∀ F ∈ Fs, F.rows ≠ []) : fileViews Fs = opening (Fs.flatMap (tableViews true)) := by
  cases Fs with
  | nil => rfl
  | cons F Fs =>
    have := h F (by simp)
    simp only [fileViews, List.flatMap_cons, tableViews]
    cases hr : F.rows with
    | nil => exact absurd hr this
    | cons r rs => rfl

theorem match_weaken {α β : Type} {R R' : α → β → Prop} {as : List α} {bs : List β} (h : Match R as bs) (hr : ∀ a b, R a b → R' a b) :
    Match R' as bs := by
  induction h with
  | nil => exact .nil
  | cons h1 _ ih => exact .cons (hr _ _ h1) ih

theorem opening_match {R : RowView → OldRow → Prop} (hR : ∀ (v : RowView) (b : Bool) (o : OldRow), R { v with fresh := b } o → R v o)
    {vs : List RowView} {os : List OldRow} (h : Match R (opening vs) os) : Match R vs os := by
  cases vs with
  | nil => exact h
  | cons v vs =>
    simp only [opening] at h
    cases h with
    | cons h1 h2 => exact .cons (hR v false _ h1) h2

theorem opening_mem {vs : List RowView} {v : RowView} (h : v ∈ opening vs) : ∃ v' ∈ vs, v.cols = v'.cols ∧ v.cells = v'.cells := by
  cases vs with
  | nil => simp [opening] at h
  | cons w vs =>
    simp only [opening, List.mem_cons] at h
    rcases h with rfl | h
    · exact ⟨w, by simp, rfl, rfl⟩
    · exact ⟨v, by simp [h], rfl, rfl⟩

theorem opening_length (vs : List RowView) : (opening vs).length = vs.length := by cases vs <;> rfl

theorem opening_flags (vs : List RowView) : (opening vs).map (fun v => some v.fresh) =
    (match vs.map (fun v => some v.fresh) with
      | [] => []
      | _ :: fs => some false :: fs) := by
  cases vs <;> rfl

/-- The frames of all sessions. -/
theorem sessions_frames (env : Env) (hmd5 : env.Md5Ok) (lib : OldLib) (hlib : lib.Ok) (ss : List (Nat × UTable)) (h : ∀ s ∈ ss, OldTable env s.1 s.2)
    (old : List Byte) : ∃ Fss : List (List RFrame), oldSessions env lib ss old = .ok (old ++ (Fss.flatten.map RFrame.bytes).flatten) ∧
      Match (fun (s : Nat × UTable) Fs => WFrames env .same s.2 s.1 (List.replicate s.2.cols.length none) Fs) ss Fss := by
  induction ss generalizing old with
  | nil => exact ⟨[], by simp [oldSessions], .nil⟩
  | cons s ss ih =>
    obtain ⟨Fs, h1, h2⟩ := session_frames env hmd5 lib hlib s.1 s.2 (h s (by simp)) old
    obtain ⟨Fss, h3, h4⟩ := ih (fun x hx => h x (by simp [hx])) (old ++ (Fs.map RFrame.bytes).flatten)
    refine ⟨Fs :: Fss, ?_, .cons h2 h4⟩
    simp only [oldSessions, h1]
    rw [h3]
    simp

/-- The rows of all sessions. -/
theorem sessions_views (env : Env) (ss : List (Nat × UTable)) (hpos : ∀ s ∈ ss, 0 < s.1 ∧ s.2.RowsOk env s.1) (Fss : List (List RFrame))
    (h : Match (fun (s : Nat × UTable) Fs => WFrames env .same s.2 s.1 (List.replicate s.2.cols.length none) Fs) ss Fss) :
    ∃ vss : List (List RowView), vss.flatten = Fss.flatten.flatMap (tableViews true) ∧ rowCount Fss.flatten = (ss.map (fun s => s.2.rows)).sum ∧
      vss.flatten.map (fun v => some v.fresh) = ss.flatMap (fun s => (List.range s.2.rows).map (fun r => some (decide (r % s.1 = 0)))) ∧
      Match (fun (s : Nat × UTable) vs => vs.length = s.2.rows ∧ ∀ (r : Nat) (v : RowView), vs[r]? = some v → ViewOf env s.2 s.1 r v) ss vss := by
  induction h with
  | nil => exact ⟨[], rfl, rfl, rfl, .nil⟩
  | @cons s Fs ss Fss h1 h2 ih =>
    obtain ⟨vss, e1, e2, e3, e4⟩ := ih (fun x hx => hpos x (by simp [hx]))
    obtain ⟨t1, t2, t3⟩ := table_views env s.2 s.1 (hpos s (by simp)).1 Fs h1 (hpos s (by simp)).2.vals
    refine ⟨Fs.flatMap (tableViews true) :: vss, ?_, ?_, ?_, .cons ⟨t1, fun r v hv => (t3 r v hv).2⟩ e4⟩
    · rw [List.flatten_cons, List.flatten_cons, List.flatMap_append, e1]
    · have : ∀ (A B : List RFrame), rowCount (A ++ B) = rowCount A + rowCount B := by
        intro A B; simp [rowCount]
      rw [List.flatten_cons, this, t2, e2, List.map_cons, List.sum_cons]
    · rw [List.flatten_cons, List.map_append, e3, List.flatMap_cons]
      congr 1
      apply List.ext_getElem?
      intro r
      rw [List.getElem?_map, List.getElem?_map]
      by_cases hr : r < s.2.rows
      · obtain ⟨v, hv⟩ : ∃ v, (Fs.flatMap (tableViews true))[r]? = some v := ⟨_, List.getElem?_eq_getElem (by rw [t1]; exact hr)⟩
        rw [hv, List.getElem?_range hr]
        simp only [Option.map_some, (t3 r v hv).1]
      · rw [List.getElem?_eq_none (by omega), List.getElem?_eq_none (by simp; omega)]
        rfl

/-- **C55**: whatever tables with `n` columns are written with the old C interface, one after the other to a file, each with its own number of buffered
rows: a client that opens the file and calls `odb_read_iterator_get_next_row` with an array large enough for the declared sizes gets every row of every table
once, in order, finds by asking the columns and values it declared and wrote, is told of the new tables, and gets 1 at the end. -/
theorem C55_old_api (env : Env) (hmd5 : env.Md5Ok) (lib : OldLib) (hlib : lib.Ok) (n : Nat) (hn : 0 < n) (ss : List (Nat × UTable))
    (h : ∀ s ∈ ss, OldTable env s.1 s.2 ∧ s.2.cols.length = n) :
    ∃ fs : List (List Byte), oldSessions env lib ss [] = .ok fs.flatten ∧ ((∀ f ∈ fs, f.length ≤ 2147483647) →
      ∀ (junk : Junk) (data : List Word), (∀ s ∈ ss, (s.2.cols.map (fun c => c.vals.words)).sum ≤ data.length) →
        ∃ (it : RowIt) (rss : List (List OldRow)) (last : OldRow), oldOpen env junk fs.flatten = .ok it ∧
          (∀ o : OldRow, rss.flatten.head? = some o → it.cols = o.it.cols) ∧
          fetchRows env junk n ((ss.map (fun s => s.2.rows)).sum + 1) it data = .ok (rss.flatten ++ [last]) ∧ last.rc = 1 ∧ last.fresh = none ∧
          rss.flatten.map OldRow.fresh = newFlags ss ∧
          Match (fun (s : Nat × UTable) (os : List OldRow) => os.length = s.2.rows ∧
            ∀ (r : Nat) (o : OldRow), os[r]? = some o → o.rc = 0 ∧ SeesRow env s.2 s.1 r o.it o.data) ss rss) := by
  obtain ⟨Fss, h1, h2⟩ := sessions_frames env hmd5 lib hlib ss (fun s hs => (h s hs).1) []
  refine ⟨Fss.flatten.map RFrame.bytes, by simpa using h1, ?_⟩
  intro hsz junk data hdata
  obtain ⟨vss, e1, e2, e3, e4⟩ := sessions_views env ss (fun s hs => ⟨(h s hs).1.pos, (h s hs).1.ok⟩) Fss h2
  -- every frame
  have hgood : ∀ F ∈ Fss.flatten, F.Ok env ∧ F.rows ≠ [] := by
    intro F hF
    obtain ⟨Fs, m1, m2⟩ := List.mem_flatten.mp hF
    obtain ⟨i, hi⟩ := List.mem_iff_getElem?.mp m1
    have hil := (List.getElem?_eq_some_iff.mp hi).1
    have hW := h2.get i _ Fs (List.getElem?_eq_getElem (by rw [h2.length]; exact hil)) hi
    obtain ⟨k, hk⟩ := List.mem_iff_getElem?.mp m2
    obtain ⟨g1, g2, es, _, _, _, g3, _⟩ := hW.good k F hk
    refine ⟨(g2 (hsz _ (List.mem_map.mpr ⟨F, hF, rfl⟩))).1, ?_⟩
    have hp := (h _ (List.getElem_mem (by rw [h2.length]; exact hil))).1.pos
    intro h0
    have := congrArg List.length g3
    rw [h0] at this
    simp only [backRows, List.length_nil, List.length_map, List.length_range] at this
    omega
  -- every row
  have hview : ∀ v ∈ vss.flatten, v.cols.length = n ∧ v.Shaped ∧ v.size ≤ data.length := by
    intro v hv
    obtain ⟨vs, m1, m2⟩ := List.mem_flatten.mp hv
    obtain ⟨i, hi⟩ := List.mem_iff_getElem?.mp m1
    have hil := (List.getElem?_eq_some_iff.mp hi).1
    have hs := List.getElem_mem (l := ss) (n := i) (by rw [e4.length]; exact hil)
    have hW := e4.get i _ vs (List.getElem?_eq_getElem (by rw [e4.length]; exact hil)) hi
    obtain ⟨k, hk⟩ := List.mem_iff_getElem?.mp m2
    have hV := hW.2 k v hk
    exact ⟨by rw [hV.ncols]; exact (h _ hs).2, hV.shaped, Nat.le_trans hV.size (hdata _ hs)⟩
  have hview' : ∀ v ∈ opening vss.flatten, v.cols.length = n ∧ v.Shaped ∧ v.size ≤ data.length := by
    intro v hv
    obtain ⟨v', m1, m2, m3⟩ := opening_mem hv
    obtain ⟨a, b, c⟩ := hview v' m1
    refine ⟨by rw [m2]; exact a, ?_, ?_⟩
    · unfold RowView.Shaped; rw [m2, m3]; exact b
    · unfold RowView.size; rw [m2]; exact c
  have hread := readRows_file env junk Fss.flatten (fun F hF => (hgood F hF).1) (rowCount Fss.flatten + 2) (by omega)
  rw [fileViews_opening _ (fun F hF => (hgood F hF).2), ← e1] at hread
  rcases C55_read env junk _ _ _ _ hread (by simp) (fun v hv h0 => by
    have := (hview' v hv).1; rw [h0] at this; simp at this; omega) with ⟨it, o1, o2, o3⟩ | ⟨e, _, _, h0⟩
  swap
  · simp at h0
  obtain ⟨os, last, f1, f2, f3, f4, f5⟩ := delivers_fetch env junk n it _ o3 data (fun v hv => (hview' v hv).1) (fun v hv => (hview' v hv).2)
  have hcount : (opening vss.flatten).length = (ss.map (fun s => s.2.rows)).sum := by
    rw [opening_length, ← e2, e1]
    clear * -
    induction Fss.flatten with
    | nil => rfl
    | cons F Fs ih =>
      simp only [rowCount, List.map_cons, List.sum_cons] at ih ⊢
      rw [List.flatMap_cons, List.length_append, ih]
      congr 1
      unfold tableViews
      cases F.rows <;> simp
  rw [hcount] at f1
  have hfl : os.map OldRow.fresh = newFlags ss := by
    have : os.map OldRow.fresh = (opening vss.flatten).map (fun v => some v.fresh) := by
      generalize opening vss.flatten = V at f5
      clear * - f5
      induction f5 with
      | nil => rfl
      | cons h1 _ ih => rw [List.map_cons, List.map_cons, ih, h1.2.1]
    rw [this, opening_flags, e3]
    rfl
  have hm : Match (fun (v : RowView) (o : OldRow) => o.rc = 0 ∧ o.it.cols = v.cols ∧
      ∃ d : List Word, d.length = data.length ∧ o.data = v.into d) vss.flatten os := by
    apply opening_match
    · intro v b o hx; exact hx
    · exact match_weaken f5 (fun v o hx => ⟨hx.1, hx.2.2.1, hx.2.2.2⟩)
  obtain ⟨rss, r1, r2⟩ := Match.flatten vss hm
  refine ⟨it, rss, last, o1, ?_, by rw [r1]; exact f1, f2, f3, by rw [r1]; exact hfl, ?_⟩
  · intro o ho
    rw [r1] at ho
    generalize opening vss.flatten = V at f5 o2
    cases f5 with
    | nil => simp at ho
    | cons k1 _ =>
      simp only [List.head?_cons, Option.some.injEq] at ho
      subst ho
      rw [o2 _ rfl, k1.2.2.1]
  · refine Match.of_get _ _ (by rw [e4.length, r2.length]) ?_
    intro i s os' hs hos
    obtain ⟨vs, hvs⟩ : ∃ vs, vss[i]? = some vs :=
      ⟨_, List.getElem?_eq_getElem (by rw [← e4.length]; exact (List.getElem?_eq_some_iff.mp hs).1)⟩
    have k1 := e4.get i s vs hs hvs
    have k2 := r2.get i vs os' hvs hos
    refine ⟨by rw [← k2.length]; exact k1.1, ?_⟩
    intro r o ho
    obtain ⟨v, hv⟩ : ∃ v, vs[r]? = some v :=
      ⟨_, List.getElem?_eq_getElem (by rw [k2.length]; exact (List.getElem?_eq_some_iff.mp ho).1)⟩
    obtain ⟨q1, q2, d, q3, q4⟩ := k2.get r v o hv ho
    refine ⟨q1, ?_⟩
    rw [q4]
    have hV := k1.2 r v hv
    exact sees_of env s.2 s.1 r v hV o.it q2 d (by
      rw [q3]; exact Nat.le_trans hV.size (hdata s (List.mem_of_getElem? hs)))

end Verif
