import Verif.RowWrite

/-
The row writer, frame by frame.
-/

namespace Verif

/-- Rows `s` to `s + j` of a column. -/
def partCol (s j : Nat) (c : InCol) : InCol := ⟨c.name, c.vals.part s j⟩

/-- Names short enough for the format. -/
structure ColLen (c : InCol) : Prop where
  name : LenOk c.name.length
  nbits : LenOk c.vals.members.length
  bits : ∀ b ∈ c.vals.members, LenOk b.1.length ∧ InI32 b.2

theorem Vals.part_rows (s n : Nat) (v : Vals) : (v.part s n).rows = min n (v.rows - s) := by
  cases v <;> simp [Vals.part, Vals.rows]

theorem startCell_part {env : Env} {v : Vals} {s j : Nat} {m? : Option Word} {z : Cell} :
    StartCell env (v.part s j) m? z ↔ StartCell env v m? z := by
  simp [StartCell, Vals.part_ty, Vals.part_words]

theorem laterCell_part {env : Env} {v : Vals} {s j : Nat} {m? : Option Word} {z : Cell} :
    LaterCell env (v.part s j) m? z ↔ LaterCell env v m? z := by
  simp [LaterCell, Vals.part_ty, Vals.part_words]

theorem start_none (env : Env) (v : Vals) : ∃ k, startCodec v.ty env.asDbl v.words none = .ok k := by
  cases v with
  | ints vs => obtain ⟨k, h, _⟩ := startCodec_int .integer (Or.inl rfl) env.asDbl 2147483647 (by decide) none (Or.inr ⟨rfl, rfl⟩); exact ⟨k, h⟩
  | bits ms vs => obtain ⟨k, h, _⟩ := startCodec_int .bitfield (Or.inr rfl) env.asDbl 2147483647 (by decide) none (Or.inr ⟨rfl, rfl⟩); exact ⟨k, h⟩
  | reals vs => obtain ⟨k, h, _⟩ := startCodec_real .real (Or.inl rfl) env.asDbl realMDI none (Or.inr ⟨rfl, rfl⟩); exact ⟨k, h⟩
  | doubles vs => obtain ⟨k, h, _⟩ := startCodec_real .double (Or.inr rfl) env.asDbl realMDI none (Or.inr ⟨rfl, rfl⟩); exact ⟨k, h⟩
  | strings w vs => obtain ⟨k, h, _⟩ := startCodec_str env.asDbl w; exact ⟨k, h⟩

/-- The codec as it is reset after a flush. -/
theorem resetCodec_start {env : Env} {ty : ColType} {w : Nat} {k : Codec} (h : startCodec ty env.asDbl w none = .ok k) :
    resetCodec env ty w = .ok k := by
  obtain ⟨c0, c1, h0, h1, h2⟩ := startCodec_split h
  simp only [Except.ok.injEq] at h2
  subst h2
  unfold resetCodec
  simp only [h0, h1, startCodec_reset h]

/-- The codecs chosen for a frame of rows `s` to `s + j`. -/
theorem chosen_all (env : Env) (s j : Nat) (hj : 0 < j) (cols : List InCol) (ms : List (Option Word)) (starts : List Codec)
    (h : Starts env cols ms starts)
    (hok : ∀ (i : Nat) (c : InCol) (m? : Option Word), cols[i]? = some c → ms[i]? = some m? → (c.vals.part s j).OkMiss env m?)
    (hrows : ∀ c ∈ cols, s + j ≤ c.vals.rows) (hlen : ∀ c ∈ cols, ColLen c) :
    ∃ es : List EncCol, es.length = cols.length ∧
      (∀ ks : List Codec, ks.length = cols.length →
        optimiseAll env (List.zipWith wcol cols ks) (gathered env cols starts s j) = .ok (es.map EncCol.codec) ∧
        headerCols (List.zipWith wcol cols ks) (es.map EncCol.codec) = es.map EncCol.col ∧
        ∃ starts0, Starts env cols (List.replicate cols.length none) starts0 ∧
          resetAll env (List.zipWith wcol cols ks) (es.map EncCol.codec) = .ok starts0) ∧
      (∀ (i : Nat) (c : InCol) (m? : Option Word) (e : EncCol), cols[i]? = some c → ms[i]? = some m? → es[i]? = some e →
        EncSent env j (partCol s j c) m? e) ∧
      (∀ i, i < j → rowAt (es.map EncCol.data) i = rowAt (cols.map (InCol.data env)) (s + i)) ∧
      (es.map (fun e => 8 * e.data.elem)).sum = 8 * (cols.map (fun c => c.vals.words)).sum := by
  revert hok hrows hlen
  refine Starts.rec' (P := fun cols ms starts =>
    (∀ (i : Nat) (c : InCol) (m? : Option Word), cols[i]? = some c → ms[i]? = some m? → (c.vals.part s j).OkMiss env m?) →
    (∀ c ∈ cols, s + j ≤ c.vals.rows) → (∀ c ∈ cols, ColLen c) →
    ∃ es : List EncCol, es.length = cols.length ∧
      (∀ ks : List Codec, ks.length = cols.length →
        optimiseAll env (List.zipWith wcol cols ks) (gathered env cols starts s j) = .ok (es.map EncCol.codec) ∧
        headerCols (List.zipWith wcol cols ks) (es.map EncCol.codec) = es.map EncCol.col ∧
        ∃ starts0, Starts env cols (List.replicate cols.length none) starts0 ∧
          resetAll env (List.zipWith wcol cols ks) (es.map EncCol.codec) = .ok starts0) ∧
      (∀ (i : Nat) (c : InCol) (m? : Option Word) (e : EncCol), cols[i]? = some c → ms[i]? = some m? → es[i]? = some e →
        EncSent env j (partCol s j c) m? e) ∧
      (∀ i, i < j → rowAt (es.map EncCol.data) i = rowAt (cols.map (InCol.data env)) (s + i)) ∧
      (es.map (fun e => 8 * e.data.elem)).sum = 8 * (cols.map (fun c => c.vals.words)).sum) ?_ ?_ cols ms starts h
  · intro _ _ _
    refine ⟨[], rfl, ?_, by simp, by simp [rowAt], rfl⟩
    intro ks hks
    refine ⟨by simp [optimiseAll], by simp [headerCols], [], ⟨rfl, rfl, by simp⟩, by simp [resetAll]⟩
  · intro c cols m? ms k ks hk hst ih hok hrows hlen
    obtain ⟨es, e1, e2, e3, e4, e5⟩ := ih
      (fun i c' m' a b => hok (i + 1) c' m' (by simpa using a) (by simpa using b))
      (fun x hx => hrows x (by simp [hx])) (fun x hx => hlen x (by simp [hx]))
    have hrow := hrows c (by simp)
    have hpr : (c.vals.part s j).rows = j := by rw [Vals.part_rows]; omega
    obtain ⟨q, back, hq⟩ := Vals.sentMiss env (c.vals.part s j) m? (hok 0 c m? rfl rfl) (by omega)
    have hch := hq.chosen
    have hE : EncSent env j (partCol s j c) m? ⟨(partCol s j c).info, (partCol s j c).data env, q, back⟩ := by
      have hl := hlen c (by simp)
      exact ⟨rfl, rfl, hq, hpr, hl.name, by simpa [partCol, Vals.part_members] using hl.nbits,
        by simpa [partCol, Vals.part_members] using hl.bits⟩
    have hopt : optimise c.vals.ty env.asDbl env.longEnv (k.gatherAll (((c.vals.cells env).drop s).take j)) = .ok q := by
      unfold chosenCodec at hch
      rw [Vals.part_ty, Vals.part_words, hk, Vals.part_cells] at hch
      exact hch
    have hw : q.width = c.vals.words := by
      rw [Vals.part_ty, Vals.part_words] at hch
      exact (chosen_pres c.vals.ty_ne hk hch).2.1
    refine ⟨⟨(partCol s j c).info, (partCol s j c).data env, q, back⟩ :: es, by simp [e1], ?_, ?_, ?_, ?_⟩
    · intro ks' hks'
      cases ks' with
      | nil => simp at hks'
      | cons k' ks' =>
        obtain ⟨f1, f2, starts0, f3, f4⟩ := e2 ks' (by simpa using hks')
        refine ⟨?_, ?_, ?_⟩
        · simp only [List.zipWith_cons_cons, optimiseAll, gathered, List.map_cons] at f1 ⊢
          rw [show (wcol c k').ty = c.vals.ty from rfl, hopt]
          dsimp only
          rw [f1]
        · simp only [List.zipWith_cons_cons, headerCols, List.map_cons, List.cons.injEq] at f2 ⊢
          refine ⟨?_, f2⟩
          simp [EncCol.col, wcol, partCol, InCol.info, Vals.part_ty, Vals.part_members]
        · obtain ⟨k0, hk0⟩ := start_none env c.vals
          refine ⟨k0 :: starts0, ⟨by simp, by simp [f3.2.1], ?_⟩, ?_⟩
          · intro i c' m' k'' a b d
            cases i with
            | zero => simp [List.replicate_succ] at a b d; subst a; subst b; subst d; exact hk0
            | succ i => exact f3.2.2 i c' m' k'' (by simpa using a) (by simpa [List.replicate_succ] using b) (by simpa using d)
          · simp only [List.zipWith_cons_cons, resetAll, List.map_cons] at f4 ⊢
            rw [show (wcol c k').ty = c.vals.ty from rfl, hw, resetCodec_start hk0]
            dsimp only
            rw [f4]
    · intro i c' m' e a b d
      cases i with
      | zero => simp at a b d; subst a; subst b; subst d; exact hE
      | succ i => exact e3 i c' m' e (by simpa using a) (by simpa using b) (by simpa using d)
    · intro i hi
      have := e4 i hi
      simp only [rowAt, List.map_cons, List.cons.injEq] at this ⊢
      refine ⟨?_, this⟩
      simp only [partCol, InCol.data, Vals.part_cells, List.getD_eq_getElem?_getD, List.getElem?_take, if_pos hi, List.getElem?_drop]
    · simp only [List.map_cons, List.sum_cons, e5, partCol, InCol.data, Vals.part_words]
      omega

/-! ### The writer between two rows -/

/-- Fixed conditions on the table. -/
structure WTable (env : Env) (T : UTable) : Prop where
  few : T.cols.length < 65536
  rows : ∀ c ∈ T.cols, c.vals.rows = T.rows
  lens : ∀ c ∈ T.cols, ColLen c
  props : MapOk T.props
  nprops : LenOk T.props.length
  plen : ∀ kv ∈ T.props, LenOk kv.1.length ∧ LenOk kv.2.length
  big : T.rows < 18446744073709551616

/-- `j` rows, from row `s` on, are in the buffer; the missing values in use are `ms`. -/
structure WInv (env : Env) (T : UTable) (cap s j : Nat) (ms : List (Option Word)) (w : Writer) : Prop where
  cols : ∃ starts, Starts env T.cols ms starts ∧ w.cols = List.zipWith wcol T.cols (gathered env T.cols starts s j)
  inited : w.inited = true
  props : w.props = T.props
  cap : w.cap = cap
  alloc : w.alloc = some (T.cols.map (fun c => c.vals.words)).sum ∨ (w.alloc = none ∧ j = 0)
  rows : w.rows = (List.range j).map (fun i => rowAt (T.cols.map (InCol.data env)) (s + i))
  last : ∀ (i : Nat) (c : InCol) (m? : Option Word) (z : Cell), T.cols[i]? = some c → ms[i]? = some m? →
    w.last[i]? = some z → (c.vals.cells env)[s]? = some z →
    StartCell env c.vals m? z ∨ (m? = none ∧ LaterCell env c.vals none z)

/-- The bytes of the frame: the first row is encoded relative to the cells the writer starts with. -/
def FrameMade (env : Env) (o : Order) (T : UTable) (ms : List (Option Word)) (s j : Nat) (es : List EncCol) (bytes : List Byte) : Prop :=
  ∃ (bs : List Byte) (last : List Cell),
    bytes = putHeader env.md5 o { dataSize := bs.length, nrows := j, props := T.props, cols := es.map EncCol.col } ++ bs ∧
    encRows o (es.map EncCol.codec) (some last) (rowsOf (es.map EncCol.data) j) = .ok bs ∧
    ∀ (i : Nat) (c : InCol) (m? : Option Word) (z : Cell), T.cols[i]? = some c → ms[i]? = some m? →
      last[i]? = some z → (c.vals.cells env)[s]? = some z → StartCell env c.vals m? z ∨ (m? = none ∧ LaterCell env c.vals none z)

/-- A frame as it will be read: rows `s` to `s + j`. -/
def FrameFor (env : Env) (o : Order) (T : UTable) (ms : List (Option Word)) (s j : Nat) (F : RFrame) : Prop :=
  (F.bytes.length ≤ 2147483647 → F.Ok env ∧ F.Head env o T.props) ∧ ∃ es : List EncCol, es.length = T.cols.length ∧
    (∀ (i : Nat) (c : InCol) (m? : Option Word) (e : EncCol), T.cols[i]? = some c → ms[i]? = some m? → es[i]? = some e →
      EncSent env j (partCol s j c) m? e) ∧ F.cols = readCols env es ∧ F.rows = backRows es j ∧ FrameMade env o T ms s j es F.bytes

theorem AllSent.of {env : Env} {n s j : Nat} {cols : List InCol} {ms : List (Option Word)} {es : List EncCol}
    (hl : es.length = cols.length) (hm : ms.length = cols.length)
    (h : ∀ (i : Nat) (c : InCol) (m? : Option Word) (e : EncCol), cols[i]? = some c → ms[i]? = some m? → es[i]? = some e →
      EncSent env n (partCol s j c) m? e) : AllSent env n es := by
  intro e he
  obtain ⟨i, hi⟩ := List.mem_iff_getElem?.mp he
  have hlt := (List.getElem?_eq_some_iff.mp hi).1
  exact ⟨_, _, h i _ _ e (List.getElem?_eq_getElem (by omega)) (List.getElem?_eq_getElem (by omega)) hi⟩

theorem flush_ok (env : Env) (hmd5 : env.Md5Ok) (o : Order) (T : UTable) (hT : WTable env T) (cap s j : Nat)
    (ms : List (Option Word)) (w : Writer) (hI : WInv env T cap s j ms w) (hj : 0 < j) (hcap : j ≤ cap) (hs : s + j ≤ T.rows)
    (hok : ∀ (i : Nat) (c : InCol) (m? : Option Word), T.cols[i]? = some c → ms[i]? = some m? →
      (c.vals.part s j).OkMiss env m?) :
    ∃ (w' : Writer) (F : RFrame), w.flush env o = .ok w' ∧ w'.out = w.out ++ [F.bytes] ∧ FrameFor env o T ms s j F ∧
      LaterRow env T.cols ms w'.last ∧
      ∀ s', (∀ (i : Nat) (c : InCol) (z : Cell), T.cols[i]? = some c →
          w'.last[i]? = some z → (c.vals.cells env)[s']? = some z →
          StartCell env c.vals none z ∨ LaterCell env c.vals none z) →
        WInv env T cap s' 0 (List.replicate T.cols.length none) w' := by
  obtain ⟨starts, hst, hcols⟩ := hI.cols
  have hgl := gathered_length env T.cols starts s j hst.2.1
  obtain ⟨es, e1, e2, e3, e4, e5⟩ := chosen_all env s j hj T.cols ms starts hst hok
    (fun c hc => by rw [hT.rows c hc]; exact hs) hT.lens
  obtain ⟨f1, f2, starts0, f3, f4⟩ := e2 _ hgl
  have hall := AllSent.of e1 hst.1 e3
  have halloc : w.alloc = some (T.cols.map (fun c => c.vals.words)).sum := by
    rcases hI.alloc with h | ⟨_, h⟩
    · exact h
    · omega
  have hrows : w.rows = rowsOf (es.map EncCol.data) j := by
    rw [hI.rows]
    unfold rowsOf
    apply List.map_congr_left
    intro i hi
    exact (e4 i (List.mem_range.mp hi)).symm
  have hrl : w.rows.length = j := by rw [hI.rows]; simp
  have hne : w.rows ≠ [] := by intro h; rw [h] at hrl; simp at hrl; omega
  obtain ⟨bs, b1, b2, b3⟩ := frame_rows env hmd5 o es j hj (by have := hT.big; omega) (by rw [e1]; exact hT.few) hall T.props
    hT.props hT.nprops hT.plen (some w.last) (by
      intro l hl i e x h1 h2 h3 junk t
      simp only [Option.some.injEq] at hl
      subst hl
      have hlt := (List.getElem?_eq_some_iff.mp h1).1
      have hc : T.cols[i]? = some T.cols[i] := List.getElem?_eq_getElem (by omega)
      have hm : ms[i]? = some (ms[i]'(by have := hst.1; omega)) := List.getElem?_eq_getElem _
      generalize T.cols[i] = c at hc
      generalize ms[i]'(by have := hst.1; omega) = m? at hm
      have hE := e3 i c m? e hc hm h1
      have hcell : ((c.vals.part s j).cells env)[0]? = some x := by rw [← h3, hE.cells]; rfl
      have hcell' : (c.vals.cells env)[s]? = some x := by
        rw [Vals.part_cells, List.getElem?_take, if_pos hj, List.getElem?_drop] at hcell
        simpa using hcell
      have := hE.sent.skip (hok i c m? hc hm) x (by
        rcases hI.last i c m? x hc hm h2 hcell' with h | h
        · exact Or.inl (startCell_part.mpr h)
        · exact Or.inr ⟨h.1, laterCell_part.mpr h.2⟩) 0 hcell junk t i
      rw [hE.ty]
      exact this)
  have hcod : ∀ c ∈ es.map EncCol.codec, ∃ w, c.missingWord = .ok w := by
    intro c hc
    simp only [List.mem_map] at hc
    obtain ⟨e, he, rfl⟩ := hc
    obtain ⟨c', m?, hE⟩ := hall e he
    obtain ⟨w, _, hw⟩ := hE.sent.missing
    exact ⟨w, hw⟩
  obtain ⟨l, l1, l2, l3⟩ := initRow_ok hcod
  have hbuf : ¬ w.cap * (8 * (T.cols.map (fun c => c.vals.words)).sum) + 2 * w.cap < bs.length := by
    rw [e5] at b2
    rw [hI.cap]
    have h1 : (2 + 8 * (T.cols.map (fun c => c.vals.words)).sum) * j ≤ (2 + 8 * (T.cols.map (fun c => c.vals.words)).sum) * cap :=
      Nat.mul_le_mul_left _ hcap
    have h2 : (2 + 8 * (T.cols.map (fun c => c.vals.words)).sum) * cap = cap * (8 * (T.cols.map (fun c => c.vals.words)).sum) + 2 * cap := by
      ring
    omega
  have hlater : LaterRow env T.cols ms l := by
    refine ⟨by rw [l2]; simpa using e1, ?_⟩
    intro i c m? z hc hm hz
    have hlt := (List.getElem?_eq_some_iff.mp hc).1
    have he : es[i]? = some (es[i]'(by omega)) := List.getElem?_eq_getElem _
    generalize es[i]'(by omega) = e at he
    have hE := e3 i c m? e hc hm he
    have h1 := l3 i e.codec z (by rw [List.getElem?_map, he]; rfl) hz
    have h2 := hE.sent.chosen
    exact laterCell_part.mp ⟨_, e.codec, h2, h1⟩
  refine ⟨{ w with last := l, cur := l, rows := [], cols := List.zipWith wcol T.cols starts0, out := w.out ++ [_] },
    ⟨_, readCols env es, backRows es j⟩, ?_, rfl, ⟨b3, es, e1, e3, rfl, rfl, bs, w.last, rfl, b1, hI.last⟩, hlater, ?_⟩
  · unfold Writer.flush
    rw [hI.inited, if_neg (by simp), halloc]
    dsimp only
    rw [if_neg hne, hcols, coders_zip _ _ hgl]
    dsimp only
    rw [f1]
    dsimp only
    rw [hrows, b1]
    dsimp only
    rw [if_neg hbuf, l1, f4]
    dsimp only
    rw [setCoders_zip _ _ _ hgl f3.2.1, f2, hI.props]
    simp [rowsOf]
  · intro s' hs'
    refine ⟨⟨starts0, f3, ?_⟩, hI.inited, hI.props, hI.cap, Or.inl halloc, rfl, ?_⟩
    · rw [gathered_zero env T.cols starts0 s' f3.2.1]
    · intro i c m? z hc hm hz hcell
      have hmn : m? = none := by
        have := List.mem_of_getElem? hm
        exact List.eq_of_mem_replicate this
      subst hmn
      rcases hs' i c z hc hz hcell with h | h
      · exact Or.inl h
      · exact Or.inr ⟨rfl, h⟩

/-- The missing values in use in frame `k`. -/
def msAt (ms0 : List (Option Word)) (k : Nat) : List (Option Word) :=
  if k = 0 then ms0 else List.replicate ms0.length none

/-- A row that does not fill the buffer. -/
theorem writeRow_buffer (env : Env) (o : Order) (T : UTable) (hT : WTable env T) (cap s j : Nat)
    (ms : List (Option Word)) (w : Writer) (hI : WInv env T cap s j ms w) (hcap : 0 < cap) (hs : s + j < T.rows) :
    ∃ w1, WInv env T cap s (j + 1) ms w1 ∧ w1.out = w.out ∧
      w.writeRow env o (rowAt (T.cols.map (InCol.data env)) (s + j)) =
        (if j + 1 = cap then w1.flush env o else .ok w1) := by
  obtain ⟨starts, hst, hcols⟩ := hI.cols
  have hgl := gathered_length env T.cols starts s j hst.2.1
  have hwid := hst.widths s j
  have hrow : (rowAt (T.cols.map (InCol.data env)) (s + j)).map List.length = T.cols.map (fun c => c.vals.words) := by
    simp only [rowAt, List.map_map]
    apply List.map_congr_left
    intro c hc
    have hlen : s + j < (c.vals.cells env).length := by rw [Vals.cells_length, hT.rows c hc]; exact hs
    simp only [Function.comp_apply, InCol.data, List.getD_eq_getElem?_getD, List.getElem?_eq_getElem hlen, Option.getD_some]
    exact Vals.cells_words env c.vals _ (List.getElem_mem hlen)
  have hrw : rowWords (gathered env T.cols starts s j) = (T.cols.map (fun c => c.vals.words)).sum := by
    unfold rowWords; rw [hwid]
  have ha : w.alloc.getD (rowWords (gathered env T.cols starts s j)) = (T.cols.map (fun c => c.vals.words)).sum := by
    rcases hI.alloc with h | ⟨h, _⟩
    · rw [h]; rfl
    · rw [h, hrw]; rfl
  refine ⟨{ w with
      alloc := some (T.cols.map (fun c => c.vals.words)).sum
      cols := List.zipWith wcol T.cols (gathered env T.cols starts s (j + 1))
      rows := w.rows ++ [rowAt (T.cols.map (InCol.data env)) (s + j)] }, ?_, rfl, ?_⟩
  · refine ⟨⟨starts, hst, rfl⟩, hI.inited, hI.props, hI.cap, Or.inl rfl, ?_, hI.last⟩
    show w.rows ++ _ = _
    rw [hI.rows, List.range_succ, List.map_append]
    rfl
  · unfold Writer.writeRow
    rw [hcols, hI.inited, coders_zip _ _ hgl, if_neg (by simp [rowAt, hgl]), if_neg (by simp)]
    dsimp only
    rw [if_neg (by rw [hrow, hwid, hI.cap]; simp; omega), ha, hrw, if_neg (by omega)]
    rw [gathered_step env T.cols starts s j T.rows hT.rows hs, setCoders_zip _ _ _ hgl (gathered_length _ _ _ _ _ hst.2.1)]
    have : (w.rows ++ [rowAt (T.cols.map (InCol.data env)) (s + j)]).length = j + 1 := by
      rw [hI.rows]; simp
    rw [this, hI.cap]

/-- State after some rows: the frames written so far. -/
structure WState (env : Env) (o : Order) (T : UTable) (cap : Nat) (ms0 : List (Option Word)) (j : Nat) (w : Writer) (Fs : List RFrame) : Prop where
  inv : WInv env T cap (Fs.length * cap) j (msAt ms0 Fs.length) w
  out : w.out = Fs.map RFrame.bytes
  good : ∀ (k : Nat) (F : RFrame), Fs[k]? = some F → FrameFor env o T (msAt ms0 k) (k * cap) cap F

/-- Conditions on the values: each frame's part of each column. -/
def PartsOk (env : Env) (T : UTable) (cap : Nat) (ms0 : List (Option Word)) : Prop :=
  ∀ (k i : Nat) (c : InCol) (m? : Option Word), k * cap < T.rows → T.cols[i]? = some c → (msAt ms0 k)[i]? = some m? →
    (c.vals.part (k * cap) (min cap (T.rows - k * cap))).OkMiss env m?

/-- The first row after the first flush does not hold the missing value given by the user. -/
def FreshOk (env : Env) (T : UTable) (cap : Nat) (ms0 : List (Option Word)) : Prop :=
  ∀ (i : Nat) (c : InCol) (m : Word) (z : Cell), T.cols[i]? = some c → ms0[i]? = some (some m) →
    (c.vals.cells env)[cap]? = some z → ¬ LaterCell env c.vals (some m) z

theorem msAt_length (ms0 : List (Option Word)) (k : Nat) : (msAt ms0 k).length = ms0.length := by
  unfold msAt; split <;> simp

theorem msAt_succ (ms0 : List (Option Word)) (k : Nat) : msAt ms0 (k + 1) = List.replicate ms0.length none := by
  simp [msAt]

theorem writeRow_ok (env : Env) (hmd5 : env.Md5Ok) (o : Order) (T : UTable) (hT : WTable env T) (cap : Nat) (hcap : 0 < cap)
    (ms0 : List (Option Word)) (hms : ms0.length = T.cols.length) (hok : PartsOk env T cap ms0) (hfresh : FreshOk env T cap ms0)
    (j : Nat) (w : Writer) (Fs : List RFrame) (h : WState env o T cap ms0 j w Fs) (hj : j < cap)
    (hs : Fs.length * cap + j < T.rows) :
    ∃ (w' : Writer) (j' : Nat) (Fs' : List RFrame),
      w.writeRow env o (rowAt (T.cols.map (InCol.data env)) (Fs.length * cap + j)) = .ok w' ∧
      WState env o T cap ms0 j' w' Fs' ∧ j' < cap ∧ Fs'.length * cap + j' = Fs.length * cap + j + 1 := by
  obtain ⟨w1, a1, a2, a3⟩ := writeRow_buffer env o T hT cap _ j _ w h.inv hcap hs
  by_cases hfull : j + 1 = cap
  · rw [if_pos hfull] at a3
    rw [hfull] at a1
    have hmin : min cap (T.rows - Fs.length * cap) = cap := by omega
    obtain ⟨w', F, b1, b2, b3, b4, b5⟩ := flush_ok env hmd5 o T hT cap _ cap _ w1 a1 hcap (by omega) (by omega)
      (fun i c m? hc hm => by
        have := hok Fs.length i c m? (by omega) hc hm
        rwa [hmin] at this)
    refine ⟨w', 0, Fs ++ [F], by rw [a3, b1], ?_, hcap, by simp [Nat.add_mul]; omega⟩
    have hlen : (Fs ++ [F]).length = Fs.length + 1 := by simp
    refine ⟨?_, ?_, ?_⟩
    · rw [hlen, msAt_succ, hms]
      apply b5
      intro i c z hc hz hcell
      right
      have hlt := (List.getElem?_eq_some_iff.mp hc).1
      have hm : (msAt ms0 Fs.length)[i]? = some ((msAt ms0 Fs.length)[i]'(by rw [msAt_length]; omega)) := List.getElem?_eq_getElem _
      generalize (msAt ms0 Fs.length)[i]'(by rw [msAt_length]; omega) = m? at hm
      have hl := b4.2 i c m? z hc hm hz
      cases m? with
      | none => exact hl
      | some m =>
        exfalso
        by_cases hz0 : Fs.length = 0
        · rw [hz0] at hm
          simp only [msAt, if_true] at hm
          rw [hz0, Nat.zero_add, Nat.one_mul] at hcell
          exact hfresh i c m z hc hm hcell hl
        · simp only [msAt, if_neg hz0] at hm
          have := List.eq_of_mem_replicate (List.mem_of_getElem? hm)
          simp at this
    · rw [b2, a2, h.out]; simp
    · intro k F' hk
      by_cases hkl : k < Fs.length
      · rw [List.getElem?_append_left hkl] at hk
        exact h.good k F' hk
      · have hk2 := (List.getElem?_eq_some_iff.mp hk).1
        have : k = Fs.length := by rw [hlen] at hk2; omega
        subst this
        rw [List.getElem?_append_right (by omega)] at hk
        simp at hk
        subst hk
        exact b3
  · rw [if_neg hfull] at a3
    exact ⟨w1, j + 1, Fs, a3, ⟨a1, by rw [a2, h.out], h.good⟩, by omega, by omega⟩

theorem writeRows_ok (env : Env) (hmd5 : env.Md5Ok) (o : Order) (T : UTable) (hT : WTable env T) (cap : Nat) (hcap : 0 < cap)
    (ms0 : List (Option Word)) (hms : ms0.length = T.cols.length) (hok : PartsOk env T cap ms0) (hfresh : FreshOk env T cap ms0)
    (n j : Nat) (w : Writer) (Fs : List RFrame) (h : WState env o T cap ms0 j w Fs) (hj : j < cap)
    (hs : Fs.length * cap + j + n = T.rows) :
    ∃ (w' : Writer) (j' : Nat) (Fs' : List RFrame),
      w.writeRows env o ((List.range' (Fs.length * cap + j) n).map (rowAt (T.cols.map (InCol.data env)))) = .ok w' ∧
      WState env o T cap ms0 j' w' Fs' ∧ j' < cap ∧ Fs'.length * cap + j' = T.rows := by
  induction n generalizing j w Fs with
  | zero => exact ⟨w, j, Fs, rfl, h, hj, by omega⟩
  | succ n ih =>
    obtain ⟨w1, j1, Fs1, a1, a2, a3, a4⟩ := writeRow_ok env hmd5 o T hT cap hcap ms0 hms hok hfresh j w Fs h hj (by omega)
    obtain ⟨w', j', Fs', b1, b2, b3, b4⟩ := ih j1 w1 Fs1 a2 a3 (by omega)
    refine ⟨w', j', Fs', ?_, b2, b3, b4⟩
    rw [List.range'_succ, List.map_cons, Writer.writeRows, a1]
    rw [a4] at b1
    exact b1

/-- The frames of a file. -/
structure WFrames (env : Env) (o : Order) (T : UTable) (cap : Nat) (ms0 : List (Option Word)) (Fs : List RFrame) : Prop where
  count : Fs.length = (T.rows + cap - 1) / cap
  good : ∀ (k : Nat) (F : RFrame), Fs[k]? = some F → k * cap < T.rows ∧
    FrameFor env o T (msAt ms0 k) (k * cap) (min cap (T.rows - k * cap)) F

theorem ceil_at (cap k j : Nat) (hcap : 0 < cap) (hj : j < cap) :
    (k * cap + j + cap - 1) / cap = if j = 0 then k else k + 1 := by
  split
  · apply Nat.div_eq_of_lt_le
    · omega
    · rw [Nat.succ_mul]; omega
  · apply Nat.div_eq_of_lt_le
    · rw [Nat.succ_mul]; omega
    · rw [Nat.succ_mul, Nat.succ_mul]; omega

theorem close_ok (env : Env) (hmd5 : env.Md5Ok) (o : Order) (T : UTable) (hT : WTable env T) (cap : Nat) (hcap : 0 < cap)
    (ms0 : List (Option Word)) (hok : PartsOk env T cap ms0)
    (j : Nat) (w : Writer) (Fs : List RFrame) (h : WState env o T cap ms0 j w Fs) (hj : j < cap)
    (hs : Fs.length * cap + j = T.rows) :
    ∃ (w' : Writer) (Fs' : List RFrame), w.close env o = .ok w' ∧ w'.out = Fs'.map RFrame.bytes ∧ WFrames env o T cap ms0 Fs' := by
  have hgood : ∀ (k : Nat) (F : RFrame), Fs[k]? = some F → k * cap < T.rows ∧
      FrameFor env o T (msAt ms0 k) (k * cap) (min cap (T.rows - k * cap)) F := by
    intro k F hk
    have hlt := (List.getElem?_eq_some_iff.mp hk).1
    have : (k + 1) * cap ≤ Fs.length * cap := Nat.mul_le_mul_right _ hlt
    rw [Nat.succ_mul] at this
    refine ⟨by omega, ?_⟩
    rw [show min cap (T.rows - k * cap) = cap by omega]
    exact h.good k F hk
  unfold Writer.close
  rw [h.inv.inited, if_pos rfl]
  by_cases hz : j = 0
  · subst hz
    refine ⟨w, Fs, ?_, h.out, ?_, hgood⟩
    · unfold Writer.flush
      rw [h.inv.inited, if_neg (by simp)]
      split
      · rfl
      · rw [if_pos (by rw [h.inv.rows]; rfl)]
    · rw [← hs, ceil_at cap _ 0 hcap hcap]; simp
  · obtain ⟨w', F, b1, b2, b3, _, _⟩ := flush_ok env hmd5 o T hT cap _ j _ w h.inv (by omega) (by omega) (by omega)
      (fun i c m? hc hm => by
        have := hok Fs.length i c m? (by omega) hc hm
        rwa [show min cap (T.rows - Fs.length * cap) = j by omega] at this)
    refine ⟨w', Fs ++ [F], b1, by rw [b2, h.out]; simp, ?_, ?_⟩
    · rw [← hs, ceil_at cap _ j hcap hj, if_neg hz]; simp
    · intro k F' hk
      by_cases hkl : k < Fs.length
      · rw [List.getElem?_append_left hkl] at hk
        exact hgood k F' hk
      · have hk2 := (List.getElem?_eq_some_iff.mp hk).1
        have : k = Fs.length := by simp at hk2; omega
        subst this
        rw [List.getElem?_append_right (by omega)] at hk
        simp at hk
        subst hk
        refine ⟨by omega, ?_⟩
        rw [show min cap (T.rows - Fs.length * cap) = j by omega]
        exact b3

/-! ### From the declaration of the columns on -/

theorem mapSet_last (k v : Str) (m : StrMap) (h : ∀ kv ∈ m, strLt kv.1 k = true) : mapSet k v m = m ++ [(k, v)] := by
  induction m with
  | nil => rfl
  | cons a m ih =>
    obtain ⟨k', v'⟩ := a
    have h1 : strLt k' k = true := h (k', v') (by simp)
    have h2 : strLt k k' = false := by
      cases hh : strLt k k' with
      | false => rfl
      | true => exact absurd (strLt_trans hh h1) (by simp [strLt_irrefl])
    simp only [mapSet, h2, h1, if_true, Bool.false_eq_true, if_false, List.cons_append]
    rw [ih (fun kv hkv => h kv (by simp [hkv]))]

theorem mapSet_all (m pre : StrMap) (h : MapOk (pre ++ m)) :
    m.foldl (fun acc kv => mapSet kv.1 kv.2 acc) pre = pre ++ m := by
  induction m generalizing pre with
  | nil => simp
  | cons a m ih =>
    rw [List.foldl_cons, mapSet_last]
    · rw [ih (pre ++ [(a.1, a.2)]) (by simpa using h)]; simp
    · intro kv hkv
      exact (List.pairwise_append.mp h).2.2 kv hkv a (by simp)

theorem properties_eq (w : Writer) (m : StrMap) :
    w.properties m = { w with props := m.foldl (fun acc kv => mapSet kv.1 kv.2 acc) w.props } := by
  unfold Writer.properties
  induction m generalizing w with
  | nil => rfl
  | cons a m ih => rw [List.foldl_cons, ih]; rfl

end Verif
