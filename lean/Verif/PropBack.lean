import Verif.RowBack
import Verif.PropAgg
import Verif.SampleFile

/-!
Files written row by row, read frame by frame: the two interfaces agree (C47).
-/

namespace Verif

/-- Specification: what table `k` of a file written with `cap` rows to a frame holds: the properties, the columns
declared, the number of rows; and what decoding it gives: in each column asked for, the values of rows `k * cap`
on, and nothing after the last row. `m? p` is the missing value of column `p` when these rows were written. -/
structure FrameHolds (env : Env) (T : UTable) (cap : Nat) (m? : Nat → Option Word) (bytes : List Byte) (k : Nat) (t : Tbl) : Prop where
  rows : t.info.nrows = min cap (T.rows - k * cap)
  some_rows : k * cap < T.rows
  props : t.info.props = T.props
  width : t.info.cols.length = T.cols.length
  cols : ∀ (p : Nat) (c : InCol), T.cols[p]? = some c → ∃ col : Col, t.info.cols[p]? = some col ∧ col.name = c.name ∧
    col.ty = c.vals.ty.toInt ∧ col.bitNames = c.vals.members.map Prod.fst ∧ col.bitSizes = c.vals.members.map Prod.snd ∧
    1 ≤ col.codec.width ∧ col.codec.width ≤ c.vals.words
  decode : ∀ req, ReqOk t req → ∃ out, decodeFrame bytes [t] req = .ok out ∧ out.length = req.length ∧
    ∀ (i : Nat) (nm : Str) (tg : Target), req[i]? = some (nm, tg) → ∃ m : Nat → Cell, out[i]? = some m ∧
      (∀ (p : Nat) (c : InCol) (col : Col), T.cols[p]? = some c → c.name = nm → t.info.cols[p]? = some col →
        ∀ x : Nat, x < t.info.nrows →
          (c.vals.part (k * cap) t.info.nrows).GivesMiss env (m? p) x ((m x).take col.codec.width)) ∧
      (∀ x, (m x).length = tg.elem) ∧ ∀ x, t.info.nrows ≤ x → m x = tg.mem x

/-- From the frames written to the tables read. -/
theorem written_tables (env : Env) (T : UTable) (cap : Nat) (ms0 : List (Option Word))
    (hms : ms0.length = T.cols.length) (hnd : (T.cols.map InCol.name).Nodup) (hcols : T.cols ≠ [])
    (hok : PartsOk env T cap ms0) (hint : ∀ (p : Nat) (c : InCol), T.cols[p]? = some c →
      c.vals.ty = .integer ∨ c.vals.ty = .bitfield → ms0[p]? = some none)
    (Fs : List RFrame) (hF : WFrames env .same T cap ms0 Fs)
    (hsz : ∀ f ∈ Fs.map RFrame.bytes, f.length ≤ 2147483647) (hcap : 0 < cap) :
    ∃ ts : List Tbl, readPlain env (Fs.map RFrame.bytes).flatten = (ts.map (fun t => [t]), none) ∧
      ts.length = (T.rows + cap - 1) / cap ∧ ∀ (k : Nat) (t : Tbl), ts[k]? = some t →
        FrameHolds env T cap (fun p => ((msAt ms0 k)[p]?).join) (Fs.map RFrame.bytes).flatten k t := by
  have hname : ∀ (k : Nat) (F : RFrame), Fs[k]? = some F → ColsPlain F.cols ∧ F.rows.length = min cap (T.rows - k * cap) := by
    intro k F hk
    obtain ⟨a, _, es, f1, f2, f3, f4, _⟩ := hF.good k F hk
    have hcol : ∀ (p : Nat) (e : EncCol), es[p]? = some e → ∃ (c : InCol) (m? : Option Word), T.cols[p]? = some c ∧
        (msAt ms0 k)[p]? = some m? ∧ EncSent env (min cap (T.rows - k * cap)) (partCol (k * cap) (min cap (T.rows - k * cap)) c) m? e := by
      intro p e he
      have hpl := (List.getElem?_eq_some_iff.mp he).1
      have h1 : T.cols[p]? = some (T.cols[p]'(by omega)) := List.getElem?_eq_getElem _
      have h2 : (msAt ms0 k)[p]? = some ((msAt ms0 k)[p]'(by rw [msAt_length]; omega)) := List.getElem?_eq_getElem _
      exact ⟨_, _, h1, h2, f2 p _ _ e h1 h2 he⟩
    have hplain : ∀ col ∈ F.cols, col.codec.clone = .ok col.codec ∧ col.codec.missingWord = .ok col.codec.firstWord ∧ ¬ col.codec.Blank := by
      intro col hcm
      rw [f3, readCols] at hcm
      obtain ⟨e, he, rfl⟩ := List.mem_map.mp hcm
      obtain ⟨p, hp⟩ := List.mem_iff_getElem?.mp he
      obtain ⟨c, m?, g1, g2, g3⟩ := hcol p e hp
      have hpo := hok k p c m? a g1 g2
      have := sent_plain g3.sent hpo (by
        have := g3.rows
        omega) (by
        intro hty
        have hty' : c.vals.ty = .integer ∨ c.vals.ty = .bitfield := by
          simpa [partCol, Vals.part_ty] using hty
        have := hint p c g1 hty'
        unfold msAt at g2
        split at g2
        · rw [this] at g2; simpa using g2.symm
        · exact List.eq_of_mem_replicate (List.mem_of_getElem? g2))
      have hcd : (e.col.reload env.asDbl).codec = reload env.asDbl (partCol (k * cap) (min cap (T.rows - k * cap)) c).vals.ty.toInt e.codec := by
        simp [Col.reload, EncCol.col, g3.info, InCol.info]
      rw [hcd]
      exact this
    refine ⟨⟨?_, ?_, fun c hc => (hplain c hc).2.2, fun c hc => (hplain c hc).1, fun c hc => (hplain c hc).2.1⟩, ?_⟩
    · intro h0
      rw [f3, readCols, List.map_eq_nil_iff] at h0
      rw [h0] at f1
      exact hcols (List.length_eq_zero_iff.mp f1.symm)
    · have : F.cols.map Col.name = T.cols.map InCol.name := by
        refine List.ext_getElem? ?_
        intro p
        rw [f3, readCols, List.map_map, List.getElem?_map, List.getElem?_map]
        cases he : es[p]? with
        | none =>
          have := List.getElem?_eq_none_iff.mp he
          rw [List.getElem?_eq_none (by omega)]; rfl
        | some e =>
          obtain ⟨c, m?, g1, g2, g3⟩ := hcol p e he
          rw [g1]
          simp [Col.reload, EncCol.col, g3.info, partCol, InCol.info]
      rw [this]; exact hnd
    · rw [f4]; simp [backRows]
  obtain ⟨ts, t1, t2, t3⟩ := file_back env Fs T.props (by
    intro F hFm
    obtain ⟨k, hk⟩ := List.mem_iff_getElem?.mp hFm
    have hs := hsz _ (List.mem_map.mpr ⟨F, hFm, rfl⟩)
    obtain ⟨g1, g2⟩ := (hF.good k F hk).2.1 hs
    exact ⟨g1, (hname k F hk).1, g2, hs⟩)
  refine ⟨ts, t1, by rw [t2, hF.count], ?_⟩
  intro k t hk
  have hkl : k < Fs.length := by rw [← t2]; exact (List.getElem?_eq_some_iff.mp hk).1
  have hFk := List.getElem?_eq_getElem hkl
  obtain ⟨u1, u2, u3, u4⟩ := t3 k t _ hk hFk
  generalize Fs[k] = F at hFk u1 u2 u4
  obtain ⟨a, _, es, f1, f2, f3, f4, _⟩ := hF.good k F hFk
  have hr := (hname k F hFk).2
  have hat : ∀ (p : Nat) (c : InCol), T.cols[p]? = some c → ∃ (m? : Option Word) (e : EncCol), (msAt ms0 k)[p]? = some m? ∧
      es[p]? = some e ∧ EncSent env (min cap (T.rows - k * cap)) (partCol (k * cap) (min cap (T.rows - k * cap)) c) m? e := by
    intro p c hp
    have hpl := (List.getElem?_eq_some_iff.mp hp).1
    have h1 : es[p]? = some (es[p]'(by omega)) := List.getElem?_eq_getElem _
    have h2 : (msAt ms0 k)[p]? = some ((msAt ms0 k)[p]'(by rw [msAt_length]; omega)) := List.getElem?_eq_getElem _
    exact ⟨_, _, h2, h1, f2 p _ _ _ hp h2 h1⟩
  refine ⟨by rw [u2, hr], a, u3, by rw [u1, f3]; simp [readCols, f1], ?_, ?_⟩
  · intro p c hp
    obtain ⟨m?, e, h2, h1, hE⟩ := hat p c hp
    refine ⟨e.col.reload env.asDbl, by rw [u1, f3, readCols, List.getElem?_map, h1]; rfl, ?_, ?_, ?_, ?_, ?_, ?_⟩
    · simp [Col.reload, EncCol.col, hE.info, partCol, InCol.info]
    · simp [Col.reload, EncCol.col, hE.info, partCol, InCol.info, Vals.part_ty]
    · simp [Col.reload, EncCol.col, hE.info, partCol, InCol.info, Vals.part_members]
    · simp [Col.reload, EncCol.col, hE.info, partCol, InCol.info, Vals.part_members]
    · have := hE.sent.pos
      simpa [Col.reload, EncCol.col, hE.info, partCol, InCol.info] using this
    · have := hE.sent.le
      simpa [Col.reload, EncCol.col, hE.info, partCol, InCol.info, Vals.part_words] using this
  · intro req hreq
    obtain ⟨out, d1, d2, d3⟩ := u4 req hreq
    refine ⟨out, d1, d2, ?_⟩
    intro i nm tg hi
    obtain ⟨m, e1, e2, e3, e4⟩ := d3 i nm tg hi
    refine ⟨m, e1, ?_, e3, by rw [u2]; exact e4⟩
    intro p c col hp hnm hcol x hx
    obtain ⟨m?, e, h2, h1, hE⟩ := hat p c hp
    have hcol' : col = e.col.reload env.asDbl := by
      rw [u1, f3, readCols, List.getElem?_map, h1] at hcol
      simpa using hcol.symm
    have hcn : col.name = nm := by
      rw [hcol', ← hnm]; simp [Col.reload, EncCol.col, hE.info, partCol, InCol.info]
    rw [u2, hr] at hx
    have hrow : F.rows[x]? = some (es.map (fun e => e.back (e.data.cells.getD x []))) := by
      rw [f4]; exact backRows_get es _ _ hx
    rw [e2 p col hcol hcn x _ _ hrow (by rw [List.getElem?_map, h1]; rfl), u2, hr, h2]
    show (c.vals.part (k * cap) (min cap (T.rows - k * cap))).GivesMiss env m? x _
    apply hE.sent.gives
    rw [hE.cells]
    have hcl : x < ((partCol (k * cap) (min cap (T.rows - k * cap)) c).vals.cells env).length := by
      rw [Vals.cells_length, hE.rows]; exact hx
    rw [List.getD_eq_getElem?_getD, List.getElem?_eq_getElem hcl]
    rfl

/-- **C47**, with missing values: as `C21_missing`, the file read with the frame interface. Columns of integers and
bitfields keep the default missing value. -/
theorem C47_missing (env : Env) (hmd5 : env.Md5Ok) (cap : Nat) (hcap : 0 < cap) (T : UTable) (ms : List (Option Word))
    (hms : ms.length = T.cols.length) (hcols : T.cols ≠ []) (hfew : T.cols.length < 65536) (hnames : (T.cols.map InCol.name).Nodup)
    (hnamed : ∀ c ∈ T.cols, c.name ≠ []) (hrows : ∀ c ∈ T.cols, c.vals.rows = T.rows)
    (hlens : ∀ c ∈ T.cols, ColLen c) (hp1 : MapOk T.props) (hp2 : LenOk T.props.length)
    (hp3 : ∀ kv ∈ T.props, LenOk kv.1.length ∧ LenOk kv.2.length) (hbig : T.rows < 18446744073709551616)
    (hreal : ∀ (p : Nat) (c : InCol), T.cols[p]? = some c → c.vals.ty = .integer ∨ c.vals.ty = .bitfield → ms[p]? = some none)
    (hfirst : ∀ (p : Nat) (c : InCol) (m? : Option Word), T.cols[p]? = some c → ms[p]? = some m? →
      (c.vals.part 0 (min cap T.rows)).OkMiss env m?)
    (hlater : ∀ k : Nat, k ≠ 0 → k * cap < T.rows → ∀ c ∈ T.cols,
      (c.vals.part (k * cap) (min cap (T.rows - k * cap))).Ok env)
    (hfresh : ∀ (p : Nat) (c : InCol) (m : Word), T.cols[p]? = some c → ms[p]? = some (some m) →
      (c.vals.cells env)[cap]? ≠ some [m] ∧ ∀ i : Int, m = ofInt i → (c.vals.cells env)[cap]? ≠ some [intWord env.asDbl i]) :
    ∃ fs, T.writeMiss env .same cap ms = .ok fs ∧ ((∀ f ∈ fs, f.length ≤ 2147483647) →
      ∃ ts : List Tbl, readPlain env fs.flatten = (ts.map (fun t => [t]), none) ∧ ts.length = (T.rows + cap - 1) / cap ∧
        ∀ (k : Nat) (t : Tbl), ts[k]? = some t →
          FrameHolds env T cap (fun p => if k = 0 then (ms[p]?).join else none) fs.flatten k t) := by
  have hpo : PartsOk env T cap ms := by
    intro k i c m? hk hc hm
    by_cases hk0 : k = 0
    · subst hk0
      simp only [msAt, if_true] at hm
      simpa using hfirst i c m? hc hm
    · simp only [msAt, if_neg hk0] at hm
      have := List.eq_of_mem_replicate (List.mem_of_getElem? hm)
      subst this
      exact (Vals.OkMiss.none_iff env _).mpr (hlater k hk0 hk c (List.mem_of_getElem? hc))
  obtain ⟨Fs, h1, h2⟩ := writeMiss_ok env hmd5 .same T ⟨hfew, hrows, hlens, hp1, hp2, hp3, hbig⟩ cap hcap ms hms hnames hnamed
    (by
      intro i c m? hc hm
      have := start_missing (hfirst i c m? hc hm)
      rwa [Vals.part_ty, Vals.part_words] at this) hpo
    (by
      intro i c m z hc hm hz hl
      have hO := hfirst i c (some m) hc hm
      rw [← laterCell_part (s := 0) (j := min cap T.rows)] at hl
      obtain ⟨hf1, hf2⟩ := hfresh i c m hc hm
      rcases later_custom hO hl with h | ⟨j, h3, h4⟩
      · exact hf1 (by rw [hz, h])
      · exact hf2 j h3 (by rw [hz, h4]))
  refine ⟨Fs.map RFrame.bytes, h1, ?_⟩
  intro hsz
  obtain ⟨ts, t1, t2, t3⟩ := written_tables env T cap ms hms hnames hcols hpo hreal Fs h2 hsz hcap
  refine ⟨ts, t1, t2, ?_⟩
  intro k t hk
  have := t3 k t hk
  have he : (fun p : Nat => ((msAt ms k)[p]?).join) = (fun p : Nat => if k = 0 then (ms[p]?).join else none) := by
    funext p
    unfold msAt
    split
    · rfl
    · rw [List.getElem?_replicate]; split <;> rfl
  rwa [he] at this

/-- Specification: what a table of a file written with `cap` rows to a frame holds, and what decoding it gives: as
`FrameHolds`, no missing value having been set, and for values other than reals in terms of the whole column. -/
structure FrameGives (env : Env) (T : UTable) (cap : Nat) (bytes : List Byte) (k : Nat) (t : Tbl) : Prop where
  rows : t.info.nrows = min cap (T.rows - k * cap)
  some_rows : k * cap < T.rows
  props : t.info.props = T.props
  width : t.info.cols.length = T.cols.length
  cols : ∀ (p : Nat) (c : InCol), T.cols[p]? = some c → ∃ col : Col, t.info.cols[p]? = some col ∧ col.name = c.name ∧
    col.ty = c.vals.ty.toInt ∧ col.bitNames = c.vals.members.map Prod.fst ∧ col.bitSizes = c.vals.members.map Prod.snd ∧
    1 ≤ col.codec.width ∧ col.codec.width ≤ c.vals.words
  decode : ∀ req, ReqOk t req → ∃ out, decodeFrame bytes [t] req = .ok out ∧ out.length = req.length ∧
    ∀ (i : Nat) (nm : Str) (tg : Target), req[i]? = some (nm, tg) → ∃ m : Nat → Cell, out[i]? = some m ∧
      (∀ (p : Nat) (c : InCol) (col : Col), T.cols[p]? = some c → c.name = nm → t.info.cols[p]? = some col →
        ∀ x : Nat, x < t.info.nrows →
          (c.vals.part (k * cap) t.info.nrows).Gives env x ((m x).take col.codec.width) ∧
          (c.vals.ty ≠ .real → c.vals.Gives env (k * cap + x) ((m x).take col.codec.width))) ∧
      (∀ x, (m x).length = tg.elem) ∧ ∀ x, t.info.nrows ≤ x → m x = tg.mem x

/-- **C47**: a table written row by row with `Writer`, `cap` rows to a frame, and read with the frame interface (`Reader`,
`Frame`, `Decoder`): `⌈rows / cap⌉` frames, frame `k` with the properties and the columns declared and rows `k * cap`
on, and decoding it puts in any column asked for the values written, in order, with nothing after the last row. -/
theorem C47_rows_as_frames (env : Env) (hmd5 : env.Md5Ok) (cap : Nat) (hcap : 0 < cap) (T : UTable) (hT : T.RowsOk env cap)
    (hcols : T.cols ≠ []) :
    ∃ fs, T.write env .same cap = .ok fs ∧ ((∀ f ∈ fs, f.length ≤ 2147483647) →
      ∃ ts : List Tbl, readPlain env fs.flatten = (ts.map (fun t => [t]), none) ∧ ts.length = (T.rows + cap - 1) / cap ∧
        ∀ (k : Nat) (t : Tbl), ts[k]? = some t → FrameGives env T cap fs.flatten k t) := by
  have hpo : PartsOk env T cap (List.replicate T.cols.length none) := by
    intro k i c m? hk hc hm
    rw [msAt_none] at hm
    have := List.eq_of_mem_replicate (List.mem_of_getElem? hm)
    subst this
    exact (Vals.OkMiss.none_iff env _).mpr (hT.vals k hk c (List.mem_of_getElem? hc))
  obtain ⟨Fs, h1, h2⟩ := writeMiss_ok env hmd5 .same T hT.wtable cap hcap (List.replicate T.cols.length none) (by simp) hT.names
    hT.named
    (by
      intro i c m? hc hm
      have := List.eq_of_mem_replicate (List.mem_of_getElem? hm)
      subst this
      exact start_missing_none env c.vals)
    hpo
    (by
      intro i c m z hc hm
      have := List.eq_of_mem_replicate (List.mem_of_getElem? hm)
      simp at this)
  refine ⟨Fs.map RFrame.bytes, h1, ?_⟩
  intro hsz
  obtain ⟨ts, t1, t2, t3⟩ := written_tables env T cap _ (by simp) hT.names hcols hpo (by
    intro p c hp _
    rw [List.getElem?_replicate, if_pos (List.getElem?_eq_some_iff.mp hp).1]) Fs h2 hsz hcap
  refine ⟨ts, t1, t2, ?_⟩
  intro k t hk
  obtain ⟨a, b, c, d, e, f⟩ := t3 k t hk
  refine ⟨a, b, c, d, e, ?_⟩
  intro req hreq
  obtain ⟨out, d1, d2, d3⟩ := f req hreq
  refine ⟨out, d1, d2, ?_⟩
  intro i nm tg hi
  obtain ⟨m, e1, e2, e3, e4⟩ := d3 i nm tg hi
  refine ⟨m, e1, ?_, e3, e4⟩
  intro p c col hp hnm hcol x hx
  have hg := e2 p c col hp hnm hcol x hx
  rw [msAt_none, List.getElem?_replicate, if_pos (List.getElem?_eq_some_iff.mp hp).1] at hg
  have hg' := (Vals.GivesMiss.none_iff env _ _ _).mp hg
  exact ⟨hg', fun hty => part_gives env _ _ _ _ _ hg' hty⟩

/-- Rows of `n` consecutive tables. -/
theorem written_sum (T : UTable) (cap : Nat) (ts : List Tbl)
    (h : ∀ (k : Nat) (t : Tbl), ts[k]? = some t → t.info.nrows = min cap (T.rows - k * cap) ∧ k * cap < T.rows)
    (a n : Nat) (hn : a + n ≤ ts.length) : rowSum ((ts.drop a).take n) = min (n * cap) (T.rows - a * cap) := by
  induction n with
  | zero => simp [rowSum]
  | succ n ih =>
    have hl : a + n < ts.length := by omega
    obtain ⟨h1, h2⟩ := h (a + n) _ (List.getElem?_eq_getElem hl)
    rw [List.take_add_one, rowSum_append, ih (by omega), List.getElem?_drop, List.getElem?_eq_getElem hl]
    simp only [Option.toList_some, rowSum_cons, h1]
    simp only [rowSum, List.map_nil, List.sum_nil]
    rw [Nat.add_mul] at h2 ⊢
    rw [Nat.add_mul]
    generalize n * cap = u at *
    generalize a * cap = v at *
    omega

/-- Specification: what decoding `n` tables from table `a` on, as one frame, gives: row `x` of the frame holds what
row `a * cap + x` of the table written holds, in each column asked for. -/
def SpanGives (env : Env) (T : UTable) (cap : Nat) (bytes : List Byte) (ts : List Tbl) (a n : Nat) : Prop :=
  rowSum ((ts.drop a).take n) = min (n * cap) (T.rows - a * cap) ∧
  ∀ req, FrameReq ((ts.drop a).take n) (rowSum ((ts.drop a).take n)) req →
    ∃ out, decodeFrame bytes ((ts.drop a).take n) req = .ok out ∧ out.length = req.length ∧
      ∀ (i : Nat) (nm : Str) (tg : Target), req[i]? = some (nm, tg) → ∃ m : Nat → Cell, out[i]? = some m ∧
        (∀ (p : Nat) (c : InCol), T.cols[p]? = some c → c.name = nm → ∀ x : Nat, x < rowSum ((ts.drop a).take n) →
          ∃ (t : Tbl) (col : Col), ts[(a * cap + x) / cap]? = some t ∧ t.info.cols[p]? = some col ∧
            (c.vals.part ((a * cap + x) / cap * cap) (min cap (T.rows - (a * cap + x) / cap * cap))).Gives env ((a * cap + x) % cap)
              ((m x).take col.codec.width) ∧
            (c.vals.ty ≠ .real → c.vals.Gives env (a * cap + x) ((m x).take col.codec.width))) ∧
        ∀ x, rowSum ((ts.drop a).take n) ≤ x → m x = tg.mem x

/-- From single tables to frames of several. -/
theorem span_gives (env : Env) (T : UTable) (cap : Nat) (hcap : 0 < cap) (bytes : List Byte) (ts : List Tbl) (hbig : T.rows < 18446744073709551616)
    (h : ∀ (k : Nat) (t : Tbl), ts[k]? = some t → FrameGives env T cap bytes k t) (a n : Nat) (hn : a + n ≤ ts.length)
    (hpos : 1 ≤ n) : SpanGives env T cap bytes ts a n := by
  have hw := fun a n hn => written_sum T cap ts (fun k t hk => ⟨(h k t hk).rows, (h k t hk).some_rows⟩) a n hn
  have hsum := hw a n hn
  refine ⟨hsum, ?_⟩
  intro req hreq
  generalize hfr : (ts.drop a).take n = fr at *
  have hfl : fr.length = n := by rw [← hfr, List.length_take, List.length_drop]; omega
  have hget : ∀ k, k < n → fr[k]? = ts[a + k]? := by
    intro k hk
    rw [← hfr, List.getElem?_take_of_lt hk, List.getElem?_drop]
  have htake : ∀ k, k ≤ n → fr.take k = (ts.drop a).take k := by
    intro k hk
    rw [← hfr, List.take_take, Nat.min_eq_left hk]
  have hoff : ∀ k, k < n → rowSum (fr.take k) = k * cap := by
    intro k hk
    rw [htake k (by omega), hw a k (by omega)]
    obtain ⟨t, ht⟩ : ∃ t, ts[a + k]? = some t := ⟨_, List.getElem?_eq_getElem (by omega)⟩
    have := (h _ t ht).some_rows
    rw [Nat.add_mul] at this
    omega
  have hlt : ∀ x, x < rowSum fr → x / cap < n ∧ x % cap < min cap (T.rows - (a + x / cap) * cap) := by
    intro x hx
    have hm := Nat.div_add_mod x cap
    have hl := Nat.mod_lt x hcap
    rw [hsum] at hx
    have h1 : x / cap < n := (Nat.div_lt_iff_lt_mul hcap).mpr (by omega)
    refine ⟨h1, ?_⟩
    rw [Nat.add_mul]
    rw [Nat.mul_comm] at hm
    omega
  have hdiv : ∀ x, (a * cap + x) / cap = a + x / cap ∧ (a * cap + x) % cap = x % cap := by
    intro x
    constructor
    · rw [Nat.mul_comm, Nat.mul_add_div hcap]
    · rw [Nat.mul_comm, Nat.mul_add_mod]
  have hwhole : ∀ x, (a + x / cap) * cap + x % cap = a * cap + x := by
    intro x
    have hm := Nat.div_add_mod x cap
    rw [Nat.mul_comm] at hm
    rw [Nat.add_mul]; omega
  rcases Nat.lt_or_ge n 2 with h1 | h2
  · have hn1 : n = 1 := by omega
    subst hn1
    obtain ⟨t, rfl⟩ := List.length_eq_one_iff.mp hfl
    have ht : ts[a]? = some t := by
      have := hget 0 (by omega)
      simpa using this.symm
    have hG := h a t ht
    have hnr : rowSum [t] = t.info.nrows := by simp [rowSum]
    rw [hnr] at hsum hlt ⊢
    obtain ⟨out, d1, d2, d3⟩ := hG.decode req ⟨hreq.distinct, hreq.known t (by simp), by simpa [hnr] using hreq.room, hreq.mem⟩
    refine ⟨out, d1, d2, ?_⟩
    intro i nm tg hi
    obtain ⟨m, e1, e2, e3, e4⟩ := d3 i nm tg hi
    refine ⟨m, e1, ?_, e4⟩
    intro p c hp hnm x hx
    obtain ⟨col, c1, _⟩ := hG.cols p c hp
    have hx0 : x / cap = 0 := Nat.lt_one_iff.mp (hlt x hx).1
    have hxm : x % cap = x := Nat.mod_eq_of_lt (by
      have hm := Nat.div_add_mod x cap
      rw [hx0] at hm
      have := Nat.mod_lt x hcap
      omega)
    obtain ⟨q1, q2⟩ := hdiv x
    rw [hx0] at q1
    rw [hxm] at q2
    rw [q1, q2]
    refine ⟨t, col, ht, c1, ?_⟩
    have := e2 p c col hp hnm c1 x hx
    rwa [hG.rows] at this
  · have hcat := C14_concatenates bytes fr (by omega) req (by rw [hsum]; omega) hreq.room
    have hone : ∀ (k : Nat) (t : Tbl), fr[k]? = some t → ReqOk t (rowsFrom (rowSum (fr.take k)) t.info.nrows req) :=
      fun k t hk => hreq.sliced t (List.mem_of_getElem? hk) _
    have hts : ∀ (k : Nat) (t : Tbl), fr[k]? = some t → k < n ∧ ts[a + k]? = some t := by
      intro k t hk
      have hkn : k < n := by rw [← hfl]; exact (List.getElem?_eq_some_iff.mp hk).1
      exact ⟨hkn, by rw [← hget k hkn]; exact hk⟩
    cases hd : decodeFrame bytes fr req with
    | error e =>
      rw [hd] at hcat
      obtain ⟨k, t, hk, he⟩ := hcat
      obtain ⟨out, d1, _⟩ := (h _ t (hts k t hk).2).decode _ (hone k t hk)
      rw [d1] at he
      simp at he
    | ok out =>
      rw [hd] at hcat
      obtain ⟨o1, o2, o3⟩ := hcat
      refine ⟨out, rfl, o1, ?_⟩
      intro i nm tg hi
      have hil : i < out.length := by rw [o1]; exact (List.getElem?_eq_some_iff.mp hi).1
      refine ⟨out[i], List.getElem?_eq_getElem hil, ?_, fun x hx => o3 i _ _ (List.getElem?_eq_getElem hil) hi x hx⟩
      intro p c hp hnm x hx
      obtain ⟨l1, l2⟩ := hlt x hx
      obtain ⟨t, ht⟩ : ∃ t, fr[x / cap]? = some t := ⟨_, List.getElem?_eq_getElem (by omega)⟩
      have htt := (hts _ t ht).2
      have hG := h _ t htt
      obtain ⟨col, c1, _⟩ := hG.cols p c hp
      obtain ⟨q1, q2⟩ := hdiv x
      rw [q1, q2]
      refine ⟨t, col, htt, c1, ?_⟩
      obtain ⟨o, r1, r2, r3⟩ := o2 _ t ht
      obtain ⟨out', d1, d2, d3⟩ := hG.decode _ (hone _ t ht)
      rw [r1] at d1
      simp only [Except.ok.injEq] at d1
      subst d1
      obtain ⟨m, e1, e2, _⟩ := d3 i nm { nelem := t.info.nrows, elem := tg.elem, mem := fun r => tg.mem (rowSum (fr.take (x / cap)) + r) } (by
        unfold rowsFrom
        rw [List.getElem?_map, hi]; rfl)
      have hxr : x % cap < t.info.nrows := by rw [hG.rows]; exact l2
      have := r3 i _ m (List.getElem?_eq_getElem hil) e1 (x % cap) hxr
      rw [hoff _ l1] at this
      have hm := Nat.div_add_mod x cap
      rw [Nat.mul_comm] at hm
      rw [hm] at this
      rw [this]
      have := e2 p c col hp hnm c1 _ hxr
      rwa [hG.rows, hwhole] at this

/-- **C47**, frames of several tables: the frames that the aggregating reader can make of a file written row by row -
`n` consecutive tables from table `a` on - decode to rows `a * cap` on, across the tables. -/
theorem C47_rows_as_spans (env : Env) (hmd5 : env.Md5Ok) (cap : Nat) (hcap : 0 < cap) (T : UTable) (hT : T.RowsOk env cap)
    (hcols : T.cols ≠ []) :
    ∃ fs, T.write env .same cap = .ok fs ∧ ((∀ f ∈ fs, f.length ≤ 2147483647) →
      ∃ ts : List Tbl, readPlain env fs.flatten = (ts.map (fun t => [t]), none) ∧ ts.length = (T.rows + cap - 1) / cap ∧
        ∀ a n : Nat, 1 ≤ n → a + n ≤ ts.length → SpanGives env T cap fs.flatten ts a n) := by
  obtain ⟨fs, h1, h2⟩ := C47_rows_as_frames env hmd5 cap hcap T hT hcols
  refine ⟨fs, h1, fun hs => ?_⟩
  obtain ⟨ts, t1, t2, t3⟩ := h2 hs
  exact ⟨ts, t1, t2, fun a n hp hn => span_gives env T cap hcap _ ts hT.big t3 a n hn hp⟩

/-- **C47**, the whole table as one frame: without wide strings (every value in one word) all the tables have the same
shape, so reading with aggregation and no limit gives a single frame, and decoding it gives the table written. -/
theorem C47_one_frame (env : Env) (hmd5 : env.Md5Ok) (cap : Nat) (hcap : 0 < cap) (T : UTable) (hT : T.RowsOk env cap)
    (hcols : T.cols ≠ []) (hone : ∀ c ∈ T.cols, c.vals.words = 1) (hrows : 0 < T.rows) (hbig : T.rows < 9223372036854775808) :
    ∃ fs, T.write env .same cap = .ok fs ∧ ((∀ f ∈ fs, f.length ≤ 2147483647) →
      ∃ fr : List Tbl, readAggregated env fs.flatten (-1) = ([fr], none) ∧ rowSum fr = T.rows ∧
        ∀ req, FrameReq fr T.rows req → ∃ out, decodeFrame fs.flatten fr req = .ok out ∧ out.length = req.length ∧
          ∀ (i : Nat) (nm : Str) (tg : Target), req[i]? = some (nm, tg) → ∃ m : Nat → Cell, out[i]? = some m ∧
            (∀ c ∈ T.cols, c.name = nm → ∀ x : Nat, x < T.rows →
              (c.vals.part (x / cap * cap) (min cap (T.rows - x / cap * cap))).Gives env (x % cap) ((m x).take 1) ∧
              (c.vals.ty ≠ .real → c.vals.Gives env x ((m x).take 1))) ∧
            ∀ x, T.rows ≤ x → m x = tg.mem x) := by
  obtain ⟨fs, h1, h2⟩ := C47_rows_as_frames env hmd5 cap hcap T hT hcols
  refine ⟨fs, h1, fun hs => ?_⟩
  obtain ⟨ts, t1, t2, t3⟩ := h2 hs
  have hwid : ∀ (k : Nat) (t : Tbl), ts[k]? = some t → ∀ (p : Nat) (c : InCol), T.cols[p]? = some c → ∃ col : Col,
      t.info.cols[p]? = some col ∧ col.name = c.name ∧ col.ty = c.vals.ty.toInt ∧ col.codec.width = 1 := by
    intro k t hk p c hp
    obtain ⟨col, c1, c2, c3, _, _, c4, c5⟩ := (t3 k t hk).cols p c hp
    have := hone c (List.mem_of_getElem? hp)
    exact ⟨col, c1, c2, c3, by omega⟩
  have hcomp : ∀ t ∈ ts, ∀ u ∈ ts, compatible t.info.cols u.info.cols = true := by
    intro t ht u hu
    obtain ⟨k, hk⟩ := List.mem_iff_getElem?.mp ht
    obtain ⟨l, hl⟩ := List.mem_iff_getElem?.mp hu
    have w1 := (t3 k t hk).width
    have w2 := (t3 l u hl).width
    unfold compatible
    rw [Bool.and_eq_true, Bool.or_eq_true]
    refine ⟨by rw [w1, w2]; simp, Or.inl ?_⟩
    rw [List.all_eq_true]
    intro q hq
    obtain ⟨p, hp⟩ := List.mem_iff_getElem?.mp hq
    obtain ⟨a, b⟩ := q
    rw [List.getElem?_zip_eq_some] at hp
    have hpl : p < T.cols.length := by rw [← w1]; exact (List.getElem?_eq_some_iff.mp hp.1).1
    obtain ⟨ca, a1, a2, a3, a4⟩ := hwid k t hk p _ (List.getElem?_eq_getElem hpl)
    obtain ⟨cb, b1, b2, b3, b4⟩ := hwid l u hl p _ (List.getElem?_eq_getElem hpl)
    rw [hp.1] at a1
    rw [hp.2] at b1
    simp only [Option.some.injEq] at a1 b1
    subst a1 b1
    simp only [Col.same, a2, b2, a3, b3, a4, b4, decide_true, Bool.and_self]
  have hne : ts ≠ [] := by
    intro h0
    rw [h0] at t2
    have := (Nat.div_eq_zero_iff_lt hcap).mp t2.symm
    omega
  have hall : rowSum ts = T.rows := by
    have := written_sum T cap ts (fun k t hk => ⟨(t3 k t hk).rows, (t3 k t hk).some_rows⟩) 0 ts.length (by omega)
    rw [List.drop_zero, List.take_length] at this
    rw [this, t2]
    have := Nat.lt_div_mul_add (a := T.rows + cap - 1) hcap
    omega
  obtain ⟨gs, g1, g2, g3⟩ := C13_aggregation env fs.flatten _ t1 (-1) (Or.inl (by omega)) (by rw [flatten_singles, hall]; exact hbig)
  rw [flatten_singles] at g2
  have hgs : gs = [ts] := by
    cases hg : gs with
    | nil =>
      rw [hg] at g2
      exact absurd g2.all.symm hne
    | cons g rest =>
      cases hr : rest with
      | nil =>
        rw [hg, hr] at g2
        have := g2.all
        simp at this
        rw [this]
      | cons g' rest' =>
        exfalso
        rw [hg, hr] at g2
        have n1 := g2.nonempty g (by simp)
        have n2 := g2.nonempty g' (by simp)
        obtain ⟨x, xs, rfl⟩ := List.exists_cons_of_ne_nil n1
        obtain ⟨y, ys, rfl⟩ := List.exists_cons_of_ne_nil n2
        have hx : x ∈ ts := by rw [← g2.all]; simp
        have hy : y ∈ ts := by rw [← g2.all]; simp
        rcases g2.maximal 0 _ x xs y ys rfl rfl rfl with h | h
        · rw [hcomp x hx y hy] at h; simp at h
        · omega
  refine ⟨ts, by rw [g1, hgs], hall, ?_⟩
  have hsp := span_gives env T cap hcap _ ts hT.big t3 0 ts.length (by omega) (by
    have := List.length_pos_of_ne_nil hne; omega)
  obtain ⟨_, hsp⟩ := hsp
  rw [List.drop_zero, List.take_length, hall] at hsp
  intro req hreq
  obtain ⟨out, d1, d2, d3⟩ := hsp req hreq
  refine ⟨out, d1, d2, ?_⟩
  intro i nm tg hi
  obtain ⟨m, e1, e2, e3⟩ := d3 i nm tg hi
  refine ⟨m, e1, ?_, e3⟩
  intro c hc hnm x hx
  obtain ⟨p, hp⟩ := List.mem_iff_getElem?.mp hc
  obtain ⟨t, col, c1, c2, c3, c4⟩ := e2 p c hp hnm x hx
  obtain ⟨col', w1, _, _, w4⟩ := hwid _ t c1 p c hp
  rw [c2] at w1
  simp only [Option.some.injEq] at w1
  subst w1
  rw [w4, Nat.zero_mul, Nat.zero_add] at c3 c4
  exact ⟨c3, c4⟩

/-! ### A case -/

/-- Some of the columns of a table that can be written row by row. -/
theorem UTable.RowsOk.sub {env : Env} {cap : Nat} {T : UTable} (h : T.RowsOk env cap) {cols : List InCol}
    (hs : cols.Sublist T.cols) : UTable.RowsOk env cap { rows := T.rows, props := T.props, cols := cols } where
  few := Nat.lt_of_le_of_lt hs.length_le h.few
  names := h.names.sublist (hs.map _)
  named := fun c hc => h.named c (hs.subset hc)
  rows := fun c hc => h.rows c (hs.subset hc)
  lens := fun c hc => h.lens c (hs.subset hc)
  props := h.props
  nprops := h.nprops
  plen := h.plen
  big := h.big
  vals := fun k hk c hc => h.vals k hk c (hs.subset hc)

/-- Sample: the sample table without its strings. -/
def numbersTable : UTable :=
  { rows := 3
    props := [(lit "a", lit "b")]
    cols := [
      ⟨lit "i@t", .ints [5, 2147483647, -7]⟩,
      ⟨lit "d@t", .doubles [0x3ff0000000000000, 0x4000000000000000, 0x7ff0000000000000]⟩,
      ⟨lit "r@t", .reals [0x3ff8000000000000, ofInt (-2147483647), 0x3fb999999999999a]⟩ ] }

theorem numbersTable_rowsOk : numbersTable.RowsOk sampleEnv 2 :=
  sampleTable_rowsOk.sub (cols := numbersTable.cols)
    (.cons_cons _ (.cons_cons _ (.cons_cons _ (.cons _ (.cons _ .slnil)))))

/-- The sample table meets the conditions of C47, and so does the one without strings, for a single frame. -/
example := C47_rows_as_frames sampleEnv sampleEnv_md5 2 (by decide) sampleTable sampleTable_rowsOk (by simp [sampleTable])
example := C47_rows_as_spans sampleEnv sampleEnv_md5 2 (by decide) sampleTable sampleTable_rowsOk (by simp [sampleTable])
example := C47_one_frame sampleEnv sampleEnv_md5 2 (by decide) numbersTable numbersTable_rowsOk (by simp [numbersTable])
  (by
    intro c hc
    simp only [numbersTable, List.mem_cons, List.not_mem_nil, or_false] at hc
    rcases hc with rfl | rfl | rfl <;> rfl)
  (by decide) (by decide)

/-- Sample: what reading with aggregation and decoding columns `i@t` and `r@t` into four elements gives: the number
of tables in each frame, and the elements. -/
def aggSeen (r : Except Err (List (List Byte))) : Option (List Nat × List (List Cell)) :=
  match r with
  | .error _ => none
  | .ok fs =>
    match readAggregated sampleEnv fs.flatten (-1) with
    | (fr :: rest, none) =>
      match decodeFrame fs.flatten fr [(lit "r@t", { nelem := 4, elem := 1, mem := fun _ => [7] }),
          (lit "i@t", { nelem := 4, elem := 1, mem := fun _ => [7] })] with
      | .ok out => some ((fr :: rest).map List.length, out.map (fun m => [m 0, m 1, m 2, m 3]))
      | .error _ => none
    | _ => none

/-- Two frames written, one read; three rows, the fourth element untouched. (The real 0.1 is alone in its frame, where
it is a constant, which is not rounded.) -/
example : (match numbersTable.write sampleEnv .same 2 with | .ok fs => fs.length | .error _ => 0) = 2 := by decide +kernel
example : aggSeen (numbersTable.write sampleEnv .same 2) =
    some ([2], [[[0x3ff8000000000000], [ofInt (-2147483647)], [0x3fb999999999999a], [7]],
      [[5], [2147483647], [-7], [7]]]) := by decide +kernel

/-- The sample table with its strings: the second frame has an empty string only, so it has another shape, and the
reader does not join the frames (the theorem `C47_one_frame` asks for values of one word). -/
example : (match sampleTable.write sampleEnv .same 2 with
    | .ok fs => (shape (readAggregated sampleEnv fs.flatten (-1))).1 | .error _ => []) = [1, 1] := by decide +kernel

end Verif
