import Verif.FrameApi

/-
Decoding frames of several tables; the tables of files made of encoded frames.
-/

namespace Verif

/-! ### Slices -/

theorem Target.slice_ok (t : Target) (off rows : Nat) (h : off + rows ≤ t.nelem) :
    t.slice off rows = .ok ⟨rows, t.elem, fun r => t.mem (off + r)⟩ := by
  unfold Target.slice
  have := Nat.mod_le (off + rows) 18446744073709551616
  rw [if_neg (by omega), if_neg (by omega)]

/-- The targets of one table of a frame. -/
def sliced (off rows : Nat) (req : List (Str × Target)) : List (Str × Target) :=
  req.map (fun e => (e.1, ⟨rows, e.2.elem, fun r => e.2.mem (off + r)⟩))

theorem sliceReq_ok (off rows : Nat) (req : List (Str × Target)) (h : ∀ e ∈ req, off + rows ≤ e.2.nelem) :
    sliceReq off rows req = .ok (sliced off rows req) := by
  induction req with
  | nil => rfl
  | cons e req ih =>
    obtain ⟨nm, t⟩ := e
    simp only [sliceReq, Target.slice_ok t off rows (h (nm, t) (by simp)), ih (fun e he => h e (by simp [he]))]
    rfl

/-- A request for a frame of several tables: distinct names, each a column of every table, room for all
the rows. -/
structure FrameReq (ts : List Tbl) (total : Nat) (req : List (Str × Target)) : Prop where
  distinct : (req.map Prod.fst).Nodup
  known : ∀ t ∈ ts, ∀ e ∈ req, ∃ k ∈ t.info.cols, k.name = e.1 ∧ k.codec.width ≤ e.2.elem
  room : ∀ e ∈ req, total ≤ e.2.nelem
  mem : ∀ e ∈ req, ∀ x, (e.2.mem x).length = e.2.elem

theorem FrameReq.sliced {ts : List Tbl} {total : Nat} {req : List (Str × Target)} (h : FrameReq ts total req)
    (t : Tbl) (ht : t ∈ ts) (off : Nat) : ReqOk t (sliced off t.info.nrows req) := by
  refine ⟨?_, ?_, ?_, ?_⟩
  · simpa [Verif.sliced, List.map_map, Function.comp_def] using h.distinct
  · intro e he
    simp only [Verif.sliced, List.mem_map] at he
    obtain ⟨e', he', rfl⟩ := he
    exact h.known t ht e' he'
  · intro e he
    simp only [Verif.sliced, List.mem_map] at he
    obtain ⟨e', he', rfl⟩ := he
    exact Nat.le_refl _
  · intro e he
    simp only [Verif.sliced, List.mem_map] at he
    obtain ⟨e', he', rfl⟩ := he
    intro x; exact h.mem e' he' _

theorem sliced_get (off rows : Nat) (req : List (Str × Target)) (i : Nat) (nm : Str) (t : Target)
    (h : req[i]? = some (nm, t)) :
    (sliced off rows req)[i]? = some (nm, ⟨rows, t.elem, fun r => t.mem (off + r)⟩) := by
  simp [sliced, h]

theorem putBacks_get (off rows : Nat) (req : List (Str × Target)) (out : List (Nat → Cell)) (i : Nat) (nm : Str)
    (t : Target) (m : Nat → Cell) (h : req[i]? = some (nm, t)) (hm : out[i]? = some m) :
    (putBacks off rows req out)[i]? = some (nm, { t with mem := putBack off rows t.mem m }) := by
  have hz : (req.zip out)[i]? = some ((nm, t), m) := List.getElem?_zip_eq_some.mpr ⟨h, hm⟩
  unfold putBacks
  rw [List.getElem?_map, hz]; rfl

theorem putBacks_length (off rows : Nat) (req : List (Str × Target)) (out : List (Nat → Cell))
    (h : out.length = req.length) : (putBacks off rows req out).length = req.length := by
  simp [putBacks, h]

/-- Rows before table `k` of a frame. -/
def rowsBefore (Ts : List UTable) (k : Nat) : Nat := ((Ts.take k).map UTable.rows).sum

/-- Total rows of a frame. -/
def totalRows (Ts : List UTable) : Nat := (Ts.map UTable.rows).sum

/-- Tables with their memoised lookups holding the given user tables. -/
inductive AllShow (env : Env) (f : File) : List (Tbl × Lookup) → List UTable → Prop
  | nil : AllShow env f [] []
  | cons {t L ts T Ts} : Shows env f t T → MemoOk (t.info.cols.map Col.name) L → AllShow env f ts Ts →
      AllShow env f ((t, L) :: ts) (T :: Ts)

theorem AllShow.length {env : Env} {f : File} {ts : List (Tbl × Lookup)} {Ts : List UTable} (h : AllShow env f ts Ts) :
    ts.length = Ts.length := by
  induction h with
  | nil => rfl
  | cons _ _ _ ih => simp [ih]

theorem FrameReq.putBacks {t : Tbl} {ts : List Tbl} {total : Nat} {req : List (Str × Target)}
    (h : FrameReq (t :: ts) total req) (off rows : Nat) (out : List (Nat → Cell)) (hlen : out.length = req.length)
    (hm : ∀ (i : Nat) (nm : Str) (tg : Target), req[i]? = some (nm, tg) → ∃ m : Nat → Cell, out[i]? = some m ∧
      ∀ x, (m x).length = tg.elem) : FrameReq ts total (putBacks off rows req out) := by
  have conv : ∀ e ∈ Verif.putBacks off rows req out, ∃ (i : Nat) (tg : Target) (m : Nat → Cell), req[i]? = some (e.1, tg) ∧
      out[i]? = some m ∧ e = (e.1, { tg with mem := putBack off rows tg.mem m }) := by
    intro e he
    obtain ⟨i, hi⟩ := List.mem_iff_getElem?.mp he
    have hil : i < req.length := by
      have := (List.getElem?_eq_some_iff.mp hi).1
      rwa [putBacks_length _ _ _ _ hlen] at this
    have hr : req[i]? = some (req[i].1, req[i].2) := List.getElem?_eq_getElem hil
    obtain ⟨m, hm1, _⟩ := hm i _ _ hr
    rw [putBacks_get off rows req out i _ _ m hr hm1] at hi
    simp only [Option.some.injEq] at hi
    rw [← hi]
    exact ⟨i, _, m, hr, hm1, rfl⟩
  refine ⟨?_, ?_, ?_, ?_⟩
  · have : (Verif.putBacks off rows req out).map Prod.fst = req.map Prod.fst := by
      apply List.ext_getElem (by simp [putBacks_length _ _ _ _ hlen])
      intro i h1 h2
      have hil : i < req.length := by simpa using h2
      have hr : req[i]? = some (req[i].1, req[i].2) := List.getElem?_eq_getElem hil
      obtain ⟨m, hm1, _⟩ := hm i _ _ hr
      have := putBacks_get off rows req out i _ _ m hr hm1
      have h3 : i < (Verif.putBacks off rows req out).length := by simpa using h1
      rw [List.getElem?_eq_getElem h3] at this
      simp only [Option.some.injEq] at this
      simp only [List.getElem_map, this]
    rw [this]; exact h.distinct
  · intro t' ht' e he
    obtain ⟨i, tg, m, a, b, c⟩ := conv e he
    have := h.known t' (by simp [ht']) _ (List.mem_of_getElem? a)
    rw [c]; exact this
  · intro e he
    obtain ⟨i, tg, m, a, b, c⟩ := conv e he
    have := h.room _ (List.mem_of_getElem? a)
    rw [c]; exact this
  · intro e he x
    obtain ⟨i, tg, m, a, b, c⟩ := conv e he
    obtain ⟨m', b', hm'⟩ := hm i _ _ a
    rw [b] at b'
    simp only [Option.some.injEq] at b'
    subst b'
    rw [c]
    simp only [putBack]
    split
    · exact hm' _
    · exact h.mem _ (List.mem_of_getElem? a) _

/-- **Sequential decoding of a frame of several tables**: table `k` fills the rows from the cumulative
offset on, all the other rows are untouched. -/
theorem frameSeq_ok {env : Env} {f : File} {ts : List (Tbl × Lookup)} {Ts : List UTable} (h : AllShow env f ts Ts)
    (off : Nat) (req : List (Str × Target)) (hbig : off + totalRows Ts < 18446744073709551616)
    (hreq : FrameReq (ts.map Prod.fst) (off + totalRows Ts) req) :
    ∃ Ls out, frameSeq f ts off req = (Ls, .ok out) ∧ AllShow env f ((ts.map Prod.fst).zip Ls) Ts ∧
      out.length = req.length ∧
      ∀ (i : Nat) (nm : Str) (tg : Target), req[i]? = some (nm, tg) → ∃ m : Nat → Cell, out[i]? = some m ∧
        (∀ (k : Nat) (t : Tbl) (L : Lookup) (T : UTable), ts[k]? = some (t, L) → Ts[k]? = some T →
          HoldsCol env t T nm (off + rowsBefore Ts k) m) ∧
        (∀ x, (m x).length = tg.elem) ∧
        ∀ x, x < off ∨ off + totalRows Ts ≤ x → m x = tg.mem x := by
  induction h generalizing off req with
  | nil =>
    refine ⟨[], req.map (fun e => e.2.mem), rfl, .nil, by simp, ?_⟩
    intro i nm tg hi
    refine ⟨tg.mem, by simp [hi], by simp, ?_, fun _ _ => rfl⟩
    exact hreq.mem _ (List.mem_of_getElem? hi)
  | @cons t L ts T Ts hs hL _ ih =>
    have hnr := hs.nrows
    have htot : totalRows (T :: Ts) = T.rows + totalRows Ts := by simp [totalRows]
    rw [htot] at hbig hreq
    simp only [List.map_cons] at hreq
    have hsl := sliceReq_ok off t.info.nrows req (by
      intro e he; have := hreq.room e he; omega)
    obtain ⟨L', out, d1, d2, d3, d4⟩ := hs.decode L hL (sliced off t.info.nrows req) (hreq.sliced t (by simp) off)
    have d3' : out.length = req.length := by rw [d3]; simp [sliced]
    have hout : ∀ (i : Nat) (nm : Str) (tg : Target), req[i]? = some (nm, tg) → ∃ m : Nat → Cell, out[i]? = some m ∧
        HoldsCol env t T nm 0 m ∧ ∀ x, (m x).length = tg.elem := by
      intro i nm tg hi
      obtain ⟨m, a, b, c, _⟩ := d4 i nm _ (sliced_get off t.info.nrows req i nm tg hi)
      exact ⟨m, a, b, c⟩
    have hreq' : FrameReq (ts.map Prod.fst) (off + t.info.nrows + totalRows Ts) (putBacks off t.info.nrows req out) := by
      rw [hnr, Nat.add_assoc, ← hnr]
      rw [← hnr] at hreq
      exact hreq.putBacks off t.info.nrows out d3' (by
        intro i nm tg hi; obtain ⟨m, a, _, c⟩ := hout i nm tg hi; exact ⟨m, a, c⟩)
    obtain ⟨Ls, out2, e1, e2, e3, e4⟩ := ih (off + t.info.nrows) (putBacks off t.info.nrows req out)
      (by omega) hreq'
    refine ⟨L' :: Ls, out2, ?_, .cons hs d2 e2, by rw [e3, putBacks_length _ _ _ _ d3'], ?_⟩
    · simp only [frameSeq, hsl, d1]
      rw [Nat.mod_eq_of_lt (by omega), e1]
    · intro i nm tg hi
      obtain ⟨m, a, b, c⟩ := hout i nm tg hi
      obtain ⟨m2, f1, f2, f3, f4⟩ := e4 i nm _ (putBacks_get off t.info.nrows req out i nm tg m hi a)
      refine ⟨m2, f1, ?_, f3, ?_⟩
      · intro k t' L'' T' hk hT
        cases k with
        | zero =>
          simp only [List.getElem?_cons_zero, Option.some.injEq, Prod.mk.injEq] at hk hT
          obtain ⟨rfl, rfl⟩ := hk
          subst hT
          intro cc kk h1 h2 h3 h4 x hx
          have hb := b cc kk h1 h2 h3 h4 x hx
          rw [f4 _ (Or.inl (by simp [rowsBefore]; omega))]
          simp only [putBack]
          rw [if_pos (by simp [rowsBefore]; omega)]
          rw [show off + rowsBefore (T :: Ts) 0 + x - off = 0 + x by simp [rowsBefore]]
          exact hb
        | succ k =>
          simp only [List.getElem?_cons_succ] at hk hT
          have := f2 k t' L'' T' hk hT
          have e : rowsBefore (T :: Ts) (k + 1) = T.rows + rowsBefore Ts k := by simp [rowsBefore]
          rw [e]
          rw [hnr] at this
          rwa [Nat.add_assoc] at this
      · intro x hx
        rw [htot] at hx
        rw [f4 x (by omega)]
        simp only [putBack]
        rw [if_neg (by omega)]

/-- **Decoding a frame**, one table or several, with one thread. -/
theorem frameDecode_ok {env : Env} {f : File} {ts : List (Tbl × Lookup)} {Ts : List UTable} (h : AllShow env f ts Ts)
    (req : List (Str × Target)) (hbig : totalRows Ts < 18446744073709551616)
    (hreq : FrameReq (ts.map Prod.fst) (totalRows Ts) req) :
    ∃ Ls out, frameDecode f ts req = (Ls, .ok out) ∧ AllShow env f ((ts.map Prod.fst).zip Ls) Ts ∧
      out.length = req.length ∧
      ∀ (i : Nat) (nm : Str) (tg : Target), req[i]? = some (nm, tg) → ∃ m : Nat → Cell, out[i]? = some m ∧
        (∀ (k : Nat) (t : Tbl) (L : Lookup) (T : UTable), ts[k]? = some (t, L) → Ts[k]? = some T →
          HoldsCol env t T nm (rowsBefore Ts k) m) ∧
        (∀ x, (m x).length = tg.elem) ∧
        ∀ x, totalRows Ts ≤ x → m x = tg.mem x := by
  have general : ∃ Ls out, frameSeq f ts 0 req = (Ls, .ok out) ∧ AllShow env f ((ts.map Prod.fst).zip Ls) Ts ∧
      out.length = req.length ∧
      ∀ (i : Nat) (nm : Str) (tg : Target), req[i]? = some (nm, tg) → ∃ m : Nat → Cell, out[i]? = some m ∧
        (∀ (k : Nat) (t : Tbl) (L : Lookup) (T : UTable), ts[k]? = some (t, L) → Ts[k]? = some T →
          HoldsCol env t T nm (rowsBefore Ts k) m) ∧
        (∀ x, (m x).length = tg.elem) ∧
        ∀ x, totalRows Ts ≤ x → m x = tg.mem x := by
    obtain ⟨Ls, out, a, b, c, d⟩ := frameSeq_ok h 0 req (by omega) (by simpa using hreq)
    refine ⟨Ls, out, a, b, c, ?_⟩
    intro i nm tg hi
    obtain ⟨m, m1, m2, m3, m4⟩ := d i nm tg hi
    refine ⟨m, m1, ?_, m3, fun x hx => m4 x (Or.inr (by omega))⟩
    intro k t L T h1 h2
    have := m2 k t L T h1 h2
    rwa [Nat.zero_add] at this
  cases h with
  | nil => exact general
  | @cons t L ts' T Ts' hs hL hrest =>
    cases hrest with
    | cons a b c => exact general
    | nil =>
      have htot : totalRows [T] = T.rows := by simp [totalRows]
      rw [htot] at hreq
      obtain ⟨L', out, d1, d2, d3, d4⟩ := hs.decode L hL req
        ⟨hreq.distinct, fun e he => hreq.known t (by simp) e he, by
          intro e he; rw [hs.nrows]; exact hreq.room e he, hreq.mem⟩
      refine ⟨[L'], out, by simp [frameDecode, d1], .cons hs d2 .nil, d3, ?_⟩
      intro i nm tg hi
      obtain ⟨m, m1, m2, m3, m4⟩ := d4 i nm tg hi
      refine ⟨m, m1, ?_, m3, by rw [htot]; exact m4⟩
      intro k t' L'' T' h1 h2
      cases k with
      | zero =>
        simp only [List.getElem?_cons_zero, Option.some.injEq, Prod.mk.injEq] at h1 h2
        obtain ⟨rfl, rfl⟩ := h1
        subst h2
        exact m2
      | succ k => simp at h1

/-! ### Encoded data -/

theorem readRange_ok (f : File) (pos len : Nat) (h : pos + len ≤ f.bytes.length) :
    readRange f pos len = .ok ((f.bytes.drop pos).take len) := by
  unfold readRange
  rw [if_neg (by omega), if_neg (by omega), if_neg (by omega)]
  simp

/-- A frame stored in a file, seen as a table. -/
theorem stored_table (env : Env) (f : File) (r : RawFrame) (hr : r.Ok env) (pos : Nat) (rest : List Byte)
    (hf : f.bytes.drop pos = r.bytes ++ rest) :
    (r.tbl pos).data f = .ok r.data ∧ (r.tbl pos).encoded f = .ok r.bytes := by
  have hs := hr.size
  have hlen : f.bytes.length = pos + r.bytes.length + rest.length ∨ r.bytes.length = 0 := by
    have := congrArg List.length hf
    simp only [List.length_drop, List.length_append] at this
    omega
  have hlen' : f.bytes.length = pos + r.bytes.length + rest.length := by omega
  have hsplit := (parseHeader_rest _ _ _ _ _ _ hr.1).2
  constructor
  · unfold Tbl.data RawFrame.tbl
    simp only
    rw [hr.2, show (pos : Int) + ((r.bytes.length - r.data.length : Nat) : Int) =
      ((pos + (r.bytes.length - r.data.length) : Nat) : Int) by push_cast; rfl]
    rw [readRange_ok f _ _ (by omega), ← List.drop_drop, hf, List.drop_append_of_le_length (by omega), hsplit,
      List.take_left]
  · unfold Tbl.encoded RawFrame.tbl
    simp only
    rw [show (pos : Int) + (r.bytes.length : Int) - pos = (r.bytes.length : Int) by omega, readRange_ok f _ _ (by omega),
      hf, List.take_left]

/-- The encoded data of consecutive frames is their bytes. -/
theorem encodedData_layout (env : Env) (f : File) (rs : List RawFrame) (hrs : ∀ r ∈ rs, r.Ok env) (pos : Nat)
    (rest : List Byte) (hf : f.bytes.drop pos = fileOf rs ++ rest) :
    encodedData f (layout pos rs) = .ok (fileOf rs) := by
  induction rs generalizing pos with
  | nil => rfl
  | cons r rs ih =>
    simp only [fileOf, List.flatMap_cons, List.append_assoc] at hf
    have h1 := stored_table env f r (hrs r (by simp)) pos _ hf
    have h2 := ih (fun x hx => hrs x (by simp [hx])) (pos + r.bytes.length) (by
      rw [← List.drop_drop, hf, List.drop_left]; rfl)
    simp only [layout, encodedData, h1.2]
    push_cast at h2
    rw [h2]
    simp [fileOf]

/-- **Frames tile the file**: concatenating the encoded data of all the frames of any grouping of the
tables gives the file back. -/
theorem encodedData_append (f : File) (a b : List Tbl) (x y : List Byte) (ha : encodedData f a = .ok x)
    (hb : encodedData f b = .ok y) : encodedData f (a ++ b) = .ok (x ++ y) := by
  induction a generalizing x with
  | nil => simp [encodedData] at ha; subst ha; simpa using hb
  | cons t a ih =>
    simp only [List.cons_append, encodedData] at ha ⊢
    split at ha
    · simp at ha
    · split at ha
      · simp at ha
      · rename_i b1 h1 _ bs h2
        simp only [Except.ok.injEq] at ha
        subst ha
        rw [ih bs h2]
        simp

theorem layout_split (f : File) (env : Env) (rs : List RawFrame) (hrs : ∀ r ∈ rs, r.Ok env) (pos : Nat)
    (rest : List Byte) (hf : f.bytes.drop pos = fileOf rs ++ rest) (i : Nat) (r : RawFrame) (h : rs[i]? = some r) :
    (layout pos rs)[i]? = some (r.tbl (pos + (fileOf (rs.take i)).length : Nat)) ∧
      ∃ rest', f.bytes.drop (pos + (fileOf (rs.take i)).length) = r.bytes ++ rest' := by
  induction rs generalizing pos i with
  | nil => simp at h
  | cons r0 rs ih =>
    simp only [fileOf, List.flatMap_cons, List.append_assoc] at hf
    cases i with
    | zero =>
      simp only [List.getElem?_cons_zero, Option.some.injEq] at h
      subst h
      exact ⟨by simp [layout, fileOf], _, by simpa [fileOf] using hf⟩
    | succ i =>
      simp only [List.getElem?_cons_succ] at h
      obtain ⟨h1, h2⟩ := ih (fun x hx => hrs x (by simp [hx])) (pos + r0.bytes.length) (by
        rw [← List.drop_drop, hf, List.drop_left]; rfl) i h
      have e : pos + (fileOf ((r0 :: rs).take (i + 1))).length =
          pos + r0.bytes.length + (fileOf (rs.take i)).length := by
        simp [fileOf]; omega
      rw [e]
      refine ⟨?_, h2⟩
      simp only [layout, List.getElem?_cons_succ]
      push_cast at h1 ⊢
      exact h1

/-- Tables of a file of encoded frames hold the user's tables. -/
theorem layout_shows (env : Env) (f : File) (rs : List RawFrame) (hrs : ∀ r ∈ rs, r.Ok env) (rest : List Byte)
    (hf : f.bytes = fileOf rs ++ rest) (Ts : List UTable) (hlen : rs.length = Ts.length)
    (hT : ∀ (i : Nat) (r : RawFrame) (T : UTable), rs[i]? = some r → Ts[i]? = some T → Carries env .same r T ∧ T.Ok env)
    (i : Nat) (t : Tbl) (T : UTable) (ht : (layout 0 rs)[i]? = some t) (hi : Ts[i]? = some T) : Shows env f t T := by
  have hil : i < rs.length := by
    have := (List.getElem?_eq_some_iff.mp ht).1
    rwa [layout_length] at this
  have hr : rs[i]? = some rs[i] := List.getElem?_eq_getElem hil
  obtain ⟨a, rest', b⟩ := layout_split f env rs hrs 0 rest (by simpa using hf) i _ hr
  simp only [Int.ofNat_eq_natCast, Nat.cast_zero] at a
  rw [ht] at a
  simp only [Option.some.injEq] at a
  obtain ⟨c1, c2⟩ := hT i _ _ hr hi
  obtain ⟨d1, _⟩ := stored_table env f rs[i] (hrs _ (List.getElem_mem hil)) _ rest' b
  exact ⟨⟨rs[i], c1, by rw [a]; rfl, by rw [a]; rfl, by rw [a]; exact d1⟩, c2.names⟩

end Verif
