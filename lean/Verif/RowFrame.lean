import Verif.RowCol

/-
A frame of the row writer (or of the encoder) read by the row reader.
-/

namespace Verif

/-- Column `c` of the user, with missing value `m?`, as sent in a frame of `n` rows. -/
structure EncSent (env : Env) (n : Nat) (c : InCol) (m? : Option Word) (e : EncCol) : Prop where
  info : e.info = c.info
  data : e.data = c.data env
  sent : ColSent env c.vals m? e.codec e.back
  rows : c.vals.rows = n
  name : LenOk c.name.length
  nbits : LenOk c.vals.members.length
  bits : ∀ b ∈ c.vals.members, LenOk b.1.length ∧ InI32 b.2

theorem EncSent.cells {env : Env} {n : Nat} {c : InCol} {m? : Option Word} {e : EncCol} (h : EncSent env n c m? e) :
    e.data.cells = c.vals.cells env := by rw [h.data]; rfl

theorem EncSent.ty {env : Env} {n : Nat} {c : InCol} {m? : Option Word} {e : EncCol} (h : EncSent env n c m? e) :
    e.info.ty = c.vals.ty := by rw [h.info]; rfl

theorem Vals.members_bitfield (v : Vals) (h : v.ty ≠ .bitfield) : v.members = [] := by
  cases v <;> first | rfl | exact absurd rfl h

theorem EncSent.colOk {env : Env} {n : Nat} {c : InCol} {m? : Option Word} {e : EncCol} (h : EncSent env n c m? e) :
    ColOk env.asDbl e.col := by
  have hi : e.info.bits = c.vals.members := by rw [h.info]; rfl
  have hnm : e.info.name = c.name := by rw [h.info]; rfl
  constructor
  · simpa [EncCol.col, hnm] using h.name
  · exact ColType.toInt_inI32 _
  · intro ht
    have : c.vals.ty ≠ .bitfield := by
      intro hb; apply ht; simp only [EncCol.col, h.ty]; exact (ColType.toInt_four _).mpr hb
    simp [EncCol.col, hi, Vals.members_bitfield _ this]
  · simp [EncCol.col]
  · simpa [EncCol.col, hi] using h.nbits
  · intro s hs
    simp only [EncCol.col, hi, List.mem_map] at hs
    obtain ⟨b, hb, rfl⟩ := hs
    exact (h.bits b hb).1
  · intro i hi'
    simp only [EncCol.col, hi, List.mem_map] at hi'
    obtain ⟨b, hb, rfl⟩ := hi'
    exact (h.bits b hb).2
  · have := h.sent.save
    simpa [EncCol.col, h.ty] using this

/-- The columns of a frame. -/
def AllSent (env : Env) (n : Nat) (es : List EncCol) : Prop := ∀ e ∈ es, ∃ c m?, EncSent env n c m? e

theorem AllSent.tail {env : Env} {n : Nat} {e : EncCol} {es : List EncCol} (h : AllSent env n (e :: es)) :
    AllSent env n es := fun x hx => h x (by simp [hx])

theorem rowIn_of {env : Env} {n : Nat} {es : List EncCol} (h : AllSent env n es) (o : Order) (i : Nat) (hi : i < n) :
    RowIn o (es.map (fun e => e.tr env true)) (rowAt (es.map EncCol.data) i) := by
  induction es with
  | nil => exact .nil
  | cons e es ih =>
    obtain ⟨c, m?, he⟩ := h e (by simp)
    have hmem : e.data.cells.getD i [] ∈ c.vals.cells env := by
      rw [he.cells]
      exact mem_getD _ _ _ (by rw [Vals.cells_length, he.rows]; exact hi)
    refine .cons ?_ ?_ (ih h.tail)
    · obtain ⟨bs, h1, _, h3⟩ := he.sent.trip o _ hmem
      refine ⟨bs, h1, ?_⟩
      simpa [EncCol.tr, he.ty] using h3
    · have := he.sent.exact _ hmem
      simpa [EncCol.tr, he.ty] using this

theorem encCols_bound {env : Env} {n : Nat} {es : List EncCol} (h : AllSent env n es) (o : Order) (i : Nat) (hi : i < n)
    (bs : List Byte) (hb : encCols o (es.map EncCol.codec) (rowAt (es.map EncCol.data) i) = .ok bs) :
    bs.length ≤ (es.map (fun e => 8 * e.data.elem)).sum := by
  induction es generalizing bs with
  | nil => simp [encCols] at hb; subst hb; simp
  | cons e es ih =>
    obtain ⟨c, m?, he⟩ := h e (by simp)
    have hmem : e.data.cells.getD i [] ∈ c.vals.cells env := by
      rw [he.cells]
      exact mem_getD _ _ _ (by rw [Vals.cells_length, he.rows]; exact hi)
    obtain ⟨b1, h1, h2, _⟩ := he.sent.trip o _ hmem
    simp only [rowAt, List.map_cons, encCols, h1] at hb
    split at hb
    · simp at hb
    rename_i b2 h3
    simp only [Except.ok.injEq] at hb
    subst hb
    have := ih h.tail b2 h3
    have h4 := he.sent.size
    have h5 : e.data.elem = c.vals.words := by rw [he.data]; rfl
    simp only [List.length_append, List.map_cons, List.sum_cons, h2, h5]
    omega

theorem encCols_drop_bound {env : Env} {n : Nat} {es : List EncCol} (h : AllSent env n es) (o : Order) (i : Nat) (hi : i < n)
    (k : Nat) (bs : List Byte)
    (hb : encCols o ((es.map EncCol.codec).drop k) ((rowAt (es.map EncCol.data) i).drop k) = .ok bs) :
    bs.length ≤ (es.map (fun e => 8 * e.data.elem)).sum := by
  induction k generalizing es with
  | zero => exact encCols_bound h o i hi bs (by simpa using hb)
  | succ k ih =>
    cases es with
    | nil => simp [encCols] at hb; subst hb; simp
    | cons e es =>
      have := ih h.tail (by simpa [rowAt] using hb)
      simp only [List.map_cons, List.sum_cons]; omega

theorem encRows_bound {env : Env} {n : Nat} {es : List EncCol} (h : AllSent env n es) (o : Order) (is : List Nat)
    (his : ∀ i ∈ is, i < n) (prev : Option (List Cell)) (bs : List Byte)
    (hb : encRows o (es.map EncCol.codec) prev (is.map (rowAt (es.map EncCol.data))) = .ok bs) :
    bs.length ≤ (2 + (es.map (fun e => 8 * e.data.elem)).sum) * is.length := by
  induction is generalizing prev bs with
  | nil => simp [encRows] at hb; subst hb; simp
  | cons i is ih =>
    simp only [List.map_cons, encRows] at hb
    split at hb
    · simp at hb
    rename_i b1 h1
    split at hb
    · simp at hb
    rename_i b2 h2
    simp only [Except.ok.injEq] at hb
    subst hb
    have h3 := ih (fun j hj => his j (by simp [hj])) _ b2 h2
    unfold encRow at h1
    split at h1
    · simp at h1
    rename_i b3 h4
    simp only [Except.ok.injEq] at h1
    subst h1
    have h5 := encCols_drop_bound h o i (his i (by simp)) _ b3 h4
    simp only [List.length_append, List.length_cons, markerBytes, List.length_nil, Nat.mul_succ]
    omega

theorem firstCells_ok {env : Env} {n : Nat} (hn : 0 < n) {es : List EncCol} (h : AllSent env n es) (junk : Junk) (t p : Nat) :
    ∃ l, firstCells junk t p (readCols env es) = .ok l ∧ CurIn (es.map (fun e => e.tr env true)) l := by
  induction es generalizing p with
  | nil => exact ⟨[], rfl, .nil⟩
  | cons e es ih =>
    obtain ⟨c, m?, he⟩ := h e (by simp)
    obtain ⟨l, l1, l2⟩ := ih h.tail (p + 1)
    obtain ⟨w, w1, _⟩ := he.sent.missing
    obtain ⟨z, z1, z2⟩ := firstCell_ok (junk := junk) (t := t) (p := p) w1 he.sent.pos (he.sent.notBlank (by rw [he.rows]; omega))
    rw [← he.ty] at z1 z2
    refine ⟨z :: l, ?_, .cons z2 l2⟩
    simp only [readCols, List.map_cons, firstCells, Col.reload, EncCol.col] at l1 ⊢
    rw [z1, l1]

/-- The cells the writer leaves out of the first row are those the reader starts with. -/
theorem first_same (env : Env) (junk : Junk) (t p : Nat) (es : List EncCol) (l row fs : List Cell)
    (hf : firstCells junk t p (readCols env es) = .ok fs)
    (h : ∀ (i : Nat) (e : EncCol) (x : Cell), es[i]? = some e → l[i]? = some x → row[i]? = some x →
      firstCell junk t (p + i) (reload env.asDbl e.info.ty.toInt e.codec) = .ok (e.back x)) :
    fs.take (sameLead l row) = (outRow (es.map (fun e => e.tr env true)) row).take (sameLead l row) := by
  induction es generalizing p l row fs with
  | nil =>
    simp only [readCols, List.map_nil, firstCells, Except.ok.injEq] at hf
    subst hf; simp [outRow]
  | cons e es ih =>
    simp only [readCols, List.map_cons, firstCells] at hf
    split at hf
    · simp at hf
    rename_i z hz
    split at hf
    · simp at hf
    rename_i zs hzs
    simp only [Except.ok.injEq] at hf
    subst hf
    cases l with
    | nil => simp [sameLead]
    | cons a l =>
      cases row with
      | nil => simp [sameLead]
      | cons b row =>
        simp only [sameLead]
        split
        · rename_i he
          subst he
          have h0 := h 0 e a rfl rfl rfl
          have hz' : firstCell junk t p (reload env.asDbl e.info.ty.toInt e.codec) = .ok z := hz
          rw [Nat.add_zero, hz'] at h0
          simp only [Except.ok.injEq] at h0
          simp only [List.map_cons, outRow, List.take_succ_cons, List.cons.injEq]
          refine ⟨by simp [EncCol.tr, h0], ?_⟩
          apply ih (p + 1) l row zs hzs
          intro i e' x h1 h2 h3
          have := h (i + 1) e' x (by simpa using h1) (by simpa using h2) (by simpa using h3)
          rwa [show p + (i + 1) = p + 1 + i by omega] at this
        · simp

/-- The rows of a frame as they are read. -/
def backRows (es : List EncCol) (n : Nat) : List (List Cell) :=
  (List.range n).map (fun r => es.map (fun e => e.back (e.data.cells.getD r [])))

theorem outRow_back (env : Env) (es : List EncCol) (i : Nat) :
    outRow (es.map (fun e => e.tr env true)) (rowAt (es.map EncCol.data) i) =
      es.map (fun e => e.back (e.data.cells.getD i [])) := by
  induction es with
  | nil => rfl
  | cons e es ih =>
    simp only [rowAt, List.map_cons, outRow] at ih ⊢
    rw [ih]
    simp [EncCol.tr]

/-- **A frame read row by row.** -/
theorem frame_rows (env : Env) (hmd5 : ∀ x, (env.md5 x).length = 32) (o : Order) (es : List EncCol) (n : Nat) (hn : 0 < n)
    (hbig : n < 18446744073709551616) (hcols : es.length < 65536) (h : AllSent env n es) (props : StrMap)
    (hp1 : MapOk props) (hp2 : LenOk props.length) (hp3 : ∀ kv ∈ props, LenOk kv.1.length ∧ LenOk kv.2.length)
    (prev : Option (List Cell))
    (hprev : ∀ l, prev = some l → ∀ (i : Nat) (e : EncCol) (x : Cell), es[i]? = some e → l[i]? = some x →
      e.data.cells[0]? = some x → ∀ junk t,
      firstCell junk t i (reload env.asDbl e.info.ty.toInt e.codec) = .ok (e.back x)) :
    ∃ bs, encRows o (es.map EncCol.codec) prev (rowsOf (es.map EncCol.data) n) = .ok bs ∧
      bs.length ≤ (2 + (es.map (fun e => 8 * e.data.elem)).sum) * n ∧
      ((putHeader env.md5 o { dataSize := bs.length, nrows := n, props := props, cols := es.map EncCol.col } ++ bs).length
          ≤ 2147483647 →
        RFrame.Ok env ⟨putHeader env.md5 o { dataSize := bs.length, nrows := n, props := props, cols := es.map EncCol.col } ++ bs,
          readCols env es, backRows es n⟩ ∧
        RFrame.Head env o props ⟨putHeader env.md5 o { dataSize := bs.length, nrows := n, props := props, cols := es.map EncCol.col } ++ bs,
          readCols env es, backRows es n⟩) := by
  have hrows : ∀ row ∈ rowsOf (es.map EncCol.data) n, RowIn o (es.map (fun e => e.tr env true)) row := by
    intro row hrow
    simp only [rowsOf, List.mem_map, List.mem_range] at hrow
    obtain ⟨i, hi, rfl⟩ := hrow
    exact rowIn_of h o i hi
  have hne : rowsOf (es.map EncCol.data) n ≠ [] := by
    intro h; have := congrArg List.length h; simp [rowsOf] at this; omega
  have hread : ∀ junk t, ∃ l bs, firstCells junk t 0 (readCols env es) = .ok l ∧
      encRows o ((es.map (fun e => e.tr env true)).map Tr.c) prev (rowsOf (es.map EncCol.data) n) = .ok bs ∧
      (rowsOf (es.map EncCol.data) n ≠ [] → 2 ≤ bs.length) ∧
      Reads (itRowsB o ((es.map (fun e => e.tr env true)).map Tr.d) (rowsOf (es.map EncCol.data) n).length l) bs
        ((rowsOf (es.map EncCol.data) n).map (outRow (es.map (fun e => e.tr env true)))) := by
    intro junk t
    obtain ⟨l, l1, l2⟩ := firstCells_ok hn h junk t 0
    obtain ⟨bs, b1, b2, b3⟩ := rows_it o (es.map (fun e => e.tr env true)) (by simpa using hcols) _ hrows prev l l2 (by
      intro row hrow
      cases prev with
      | none => simp [startOf]
      | some pl =>
        refine first_same env junk t 0 es pl row l l1 ?_
        intro i e x h1 h2 h3
        rw [Nat.zero_add]
        refine hprev pl rfl i e x h1 h2 ?_ junk t
        have hr0 : row = rowAt (es.map EncCol.data) 0 := by
          cases n with
          | zero => omega
          | succ n => simp [rowsOf, List.range_succ_eq_map] at hrow; exact hrow.symm
        rw [hr0] at h3
        simp only [rowAt, List.getElem?_map, h1, Option.map_some, Option.some.injEq] at h3
        obtain ⟨c, m?, he⟩ := h e (List.mem_of_getElem? h1)
        have hlen : 0 < e.data.cells.length := by rw [he.cells, Vals.cells_length, he.rows]; exact hn
        rw [List.getElem?_eq_getElem hlen]
        rw [List.getD_eq_getElem?_getD, List.getElem?_eq_getElem hlen] at h3
        simpa using h3)
    exact ⟨l, bs, l1, b1, b2, b3⟩
  obtain ⟨_, bs, _, b1, b2, _⟩ := hread (fun _ _ _ => 0) 0
  have hcc : (es.map (fun e => e.tr env true)).map Tr.c = es.map EncCol.codec := by
    simp [List.map_map, Function.comp_def, EncCol.tr]
  have hdd : (es.map (fun e => e.tr env true)).map Tr.d = (readCols env es).map Col.codec := by
    simp [List.map_map, Function.comp_def, EncCol.tr, readCols, Col.reload, EncCol.col]
  have hbk : (rowsOf (es.map EncCol.data) n).map (outRow (es.map (fun e => e.tr env true))) = backRows es n := by
    simp only [rowsOf, List.map_map, backRows]
    apply List.map_congr_left
    intro i _
    exact outRow_back env es i
  rw [hcc] at b1
  have hb1 := b1
  refine ⟨bs, b1, ?_, ?_⟩
  · have := encRows_bound h o (List.range n) (by simp) prev bs b1
    simpa using this
  · intro hsize
    generalize hH : HeaderInfo.mk bs.length n props (es.map EncCol.col) = H at *
    rw [List.length_append, putHeader_length env.md5 hmd5] at hsize
    have hHok : HeaderOk env.asDbl H := by
      rw [← hH]
      refine ⟨by simp only; omega, by simp only; omega, hp2, hp1, hp3, ?_, ?_⟩
      · simp only [LenOk, List.length_map]; omega
      · intro c hc
        simp only [List.mem_map] at hc
        obtain ⟨e, he, rfl⟩ := hc
        obtain ⟨c', m?, hs⟩ := h e he
        exact hs.colOk
    have hparse := fun r => parseHeader_put env.md5 hmd5 env.asDbl o H hHok (by simp only [LenOk]; omega) (bs ++ r)
    refine ⟨?_, H.reload env.asDbl, bs, by simpa using hparse [], by rw [← hH]; rfl⟩
    refine ⟨?_, H.reload env.asDbl, o, bs, ?_, ?_, ?_, b2 hne, ?_, ?_⟩
    · intro h; have := congrArg List.length h; simp [backRows] at this; omega
    · intro r; simpa [List.append_assoc] using hparse r
    · rw [← hH]; simp [HeaderInfo.reload, readCols, List.map_map, Function.comp_def]
    · rw [← hH]; rfl
    · rw [← hH]; simp [HeaderInfo.reload, backRows]
    · intro junk t
      obtain ⟨l, bs', l1, c1, _, c3⟩ := hread junk t
      rw [hcc, hb1] at c1
      simp only [Except.ok.injEq] at c1
      subst c1
      refine ⟨l, l1, ?_⟩
      rw [hdd, hbk] at c3
      simpa [rowsOf, backRows] using c3

end Verif
