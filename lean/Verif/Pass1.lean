import Verif.PropDispatch
import Verif.PropMerge

/-
Copying rows from an iterator to a writer: `pass1` (odc compact, odc import, odc sort, odc set).

Models: src/odc/WriterBufferingIterator.h l.177-218.
-/

namespace Verif

/-! ### Model -/

/-- Name, type and width: what `MetaData::operator!=` compares (core/MetaData.cc l.209-227, core/Column.cc l.99-115; the
fields of a bitfield are not compared). -/
def Col.shape (k : Col) : Str × Int × Nat := (k.name, k.ty, k.codec.width)

/-- What `pass1` compares of a writer's column: name, type, width (WriterBufferingIterator.h l.193-218). -/
def WCol.shape (w : WCol) : Str × Int × Option Nat := (w.name, w.ty.toInt, w.codec.map Codec.width)

/-- Name, type and width of all columns agree (WriterBufferingIterator.h l.193-218). -/
def sameShape (ks : List Col) (ws : List WCol) : Bool :=
  decide (ks.map (fun k => (k.name, k.ty, some k.codec.width)) = ws.map WCol.shape)

/-- `pass1init`, WriterBufferingIterator.h l.177-191: the columns of the input with default codecs, a new buffer. -/
def Writer.pass1init (env : Env) (w : Writer) (ks : List Col) : Except Err Writer :=
  match mergeColList env ks with
  | .error e => .error e
  | .ok cs =>
    match coders cs with
    | none => .error .ub
    | some kk =>
      if ks = [] then .error .assertFailed
      else .ok { w with cols := cs, inited := true, alloc := some (rowWords kk), rows := [] }

/-- `pass1init` and `writeHeader`. [WriterBufferingIterator.h l.177-191] -/
def Writer.pass1start (env : Env) (w : Writer) (ks : List Col) : Except Err Writer :=
  match w.pass1init env ks with
  | .error e => .error e
  | .ok w => w.writeHeader

/-- The loop of `pass1`, WriterBufferingIterator.h l.201-211, over the rows the input iterator yields. -/
def Writer.pass1Loop (env : Env) (o : Order) : Writer → List RowView → Except Err Writer
  | w, [] => .ok w
  | w, v :: vs =>
    match (if v.fresh && !sameShape v.cols w.cols then
        match w.flush env o with
        | .error e => Except.error e
        | .ok w => w.pass1start env v.cols
      else .ok w) with
    | .error e => .error e
    | .ok w =>
      match w.writeRow env o v.cells with
      | .error e => .error e
      | .ok w => Writer.pass1Loop env o w vs

/-- `pass1` on a new writer, WriterBufferingIterator.h l.193-218: `ks` are the columns of the input iterator at its beginning, `input` the rows it yields and
the exception that ends it, if any.  The number of rows and the frames written. -/
def pass1 (env : Env) (o : Order) (cap : Nat) (ks : List Col) (input : List RowView × Option Err) : Except Err (Nat × List (List Byte)) :=
  match (Writer.new cap).pass1start env ks with
  | .error e => .error e
  | .ok w =>
    match w.pass1Loop env o input.1 with
    | .error e => .error e
    | .ok w =>
      match input.2 with
      | some e => .error e
      | none =>
        match w.flush env o with
        | .error e => .error e
        | .ok w =>
          match w.close env o with
          | .error e => .error e
          | .ok w => .ok (input.1.length, w.out)

/-! ### The frames already written do not matter -/

/-- The writer with more frames written before. -/
def Writer.pre (x : List (List Byte)) (w : Writer) : Writer := { w with out := x ++ w.out }

/-- Proof device: the output with some frames in front. -/
def Pre (x : List (List Byte)) : Except Err Writer → Except Err Writer
  | .error e => .error e
  | .ok w => .ok (w.pre x)

theorem flush_pre (env : Env) (o : Order) (x : List (List Byte)) (w : Writer) : (w.pre x).flush env o = Pre x (w.flush env o) := by
  unfold Writer.flush
  by_cases h1 : w.inited = false
  · rw [if_pos h1, if_pos (show (w.pre x).inited = false from h1)]; rfl
  rw [if_neg h1, if_neg (show ¬ (w.pre x).inited = false from h1)]
  rw [show (w.pre x).alloc = w.alloc from rfl]
  cases ha : w.alloc with
  | none => rfl
  | some a =>
    dsimp only
    by_cases h2 : w.rows = []
    · rw [if_pos h2, if_pos (show (w.pre x).rows = [] from h2)]; rfl
    rw [if_neg h2, if_neg (show ¬ (w.pre x).rows = [] from h2)]
    rw [show (w.pre x).cols = w.cols from rfl]
    cases hc : coders w.cols with
    | none => rfl
    | some cs =>
      dsimp only
      cases ho : optimiseAll env w.cols cs with
      | error e => rfl
      | ok opt =>
        dsimp only
        rw [show (w.pre x).last = w.last from rfl, show (w.pre x).rows = w.rows from rfl]
        cases hb : encRows o opt (some w.last) w.rows with
        | error e => rfl
        | ok bs =>
          dsimp only
          rw [show (w.pre x).cap = w.cap from rfl]
          split
          · rfl
          · cases initRow opt <;> cases resetAll env w.cols opt <;> simp [Pre, Writer.pre]

theorem writeRow_pre (env : Env) (o : Order) (x : List (List Byte)) (w : Writer) (row : List Cell) :
    (w.pre x).writeRow env o row = Pre x (w.writeRow env o row) := by
  unfold Writer.writeRow
  rw [show (w.pre x).cols = w.cols from rfl, show (w.pre x).inited = w.inited from rfl, show (w.pre x).alloc = w.alloc from rfl,
    show (w.pre x).cap = w.cap from rfl]
  split
  · rfl
  split
  · rfl
  cases hc : coders w.cols with
  | none => rfl
  | some cs =>
    dsimp only
    split
    · rfl
    split
    · rfl
    rw [show (w.pre x).rows = w.rows from rfl]
    split
    · exact flush_pre env o x { w with
        alloc := some (w.alloc.getD (rowWords cs))
        cols := setCoders w.cols (List.zipWith Codec.gather cs row)
        rows := w.rows ++ [row] }
    · rfl

theorem writeRows_pre (env : Env) (o : Order) (x : List (List Byte)) (w : Writer) (rows : List (List Cell)) :
    (w.pre x).writeRows env o rows = Pre x (w.writeRows env o rows) := by
  induction rows generalizing w with
  | nil => rfl
  | cons r rs ih =>
    simp only [Writer.writeRows, bind, Except.bind]
    rw [writeRow_pre]
    cases w.writeRow env o r with
    | error e => rfl
    | ok w' => exact ih w'

/-! ### A part of the input with the same columns -/

/-- Rows with the columns and values of a table. -/
structure RowsAre (env : Env) (T : UTable) (vs : List RowView) : Prop where
  len : vs.length = T.rows
  row : ∀ (r : Nat) (v : RowView), vs[r]? = some v → v.cols.map Col.key = T.cols.map InCol.key ∧
    v.cells = rowAt (T.cols.map (InCol.data env)) r

theorem key_shape {ks : List Col} {cs : List InCol} (h : ks.map Col.key = cs.map InCol.key) :
    ks.map (fun k => (k.name, k.ty, some k.codec.width)) = cs.map (fun c => (c.name, c.vals.ty.toInt, some c.vals.words)) := by
  have : ∀ (l : List (Str × Int × List Str × List Int × Nat)), l.map (fun t => (t.1, t.2.1, some t.2.2.2.2)) =
      l.map (fun t => (t.1, t.2.1, some t.2.2.2.2)) := fun _ => rfl
  have h' := congrArg (List.map (fun t : Str × Int × List Str × List Int × Nat => (t.1, t.2.1, some t.2.2.2.2))) h
  simpa [List.map_map, Function.comp_def, Col.key, InCol.key] using h'

theorem shape_zip (cs : List InCol) (ks : List Codec) (h : ks.map Codec.width = cs.map (fun c => c.vals.words)) :
    (List.zipWith wcol cs ks).map WCol.shape = cs.map (fun c => (c.name, c.vals.ty.toInt, some c.vals.words)) := by
  induction cs generalizing ks with
  | nil => rfl
  | cons c cs ih =>
    cases ks with
    | nil => simp at h
    | cons k ks =>
      simp only [List.map_cons, List.cons.injEq] at h
      simp [WCol.shape, wcol, h.1, ih ks h.2]

/-- Any order of the flags: rows of the same columns are written one after the other. -/
theorem loop_same (env : Env) (o : Order) (sh : List (Str × Int × Option Nat)) (w : Writer) (vs : List RowView)
    (hv : ∀ v ∈ vs, v.cols.map (fun k => (k.name, k.ty, some k.codec.width)) = sh)
    (hw : ∀ (n : Nat) (w' : Writer), w.writeRows env o ((vs.take n).map RowView.cells) = .ok w' → w'.cols.map WCol.shape = sh) :
    w.pass1Loop env o vs = w.writeRows env o (vs.map RowView.cells) := by
  induction vs generalizing w with
  | nil => rfl
  | cons v vs ih =>
    have h0 := hw 0 w rfl
    have hs : sameShape v.cols w.cols = true := by
      unfold sameShape
      rw [hv v (by simp), h0]
      simp
    unfold Writer.pass1Loop
    rw [if_neg (by simp [hs])]
    dsimp only
    simp only [List.map_cons, Writer.writeRows, bind, Except.bind]
    cases hr : w.writeRow env o v.cells with
    | error e => rfl
    | ok w1 =>
      dsimp only
      apply ih w1 (fun v hv' => hv v (by simp [hv']))
      intro n w' hn
      apply hw (n + 1) w'
      simp only [List.take_succ_cons, List.map_cons, Writer.writeRows, bind, Except.bind, hr]
      exact hn

theorem writeRows_le (env : Env) (hmd5 : env.Md5Ok) (o : Order) (T : UTable) (hT : WTable env T) (cap : Nat) (hcap : 0 < cap)
    (ms0 : List (Option Word)) (hms : ms0.length = T.cols.length) (hok : PartsOk env T cap ms0) (hfresh : FreshOk env T cap ms0)
    (n j : Nat) (w : Writer) (Fs : List RFrame) (h : WState env o T cap ms0 j w Fs) (hj : j < cap)
    (hs : Fs.length * cap + j + n ≤ T.rows) :
    ∃ (w' : Writer) (j' : Nat) (Fs' : List RFrame),
      w.writeRows env o ((List.range' (Fs.length * cap + j) n).map (rowAt (T.cols.map (InCol.data env)))) = .ok w' ∧
      WState env o T cap ms0 j' w' Fs' ∧ j' < cap ∧ Fs'.length * cap + j' = Fs.length * cap + j + n := by
  induction n generalizing j w Fs with
  | zero => exact ⟨w, j, Fs, rfl, h, hj, by omega⟩
  | succ n ih =>
    obtain ⟨w1, j1, Fs1, a1, a2, a3, a4⟩ := writeRow_ok env hmd5 o T hT cap hcap ms0 hms hok hfresh j w Fs h hj (by omega)
    obtain ⟨w', j', Fs', b1, b2, b3, b4⟩ := ih j1 w1 Fs1 a2 a3 (by omega)
    refine ⟨w', j', Fs', ?_, b2, b3, by omega⟩
    rw [List.range'_succ, List.map_cons, Writer.writeRows, a1]
    rw [a4] at b1
    exact b1

theorem WInv.shape {env : Env} {T : UTable} {cap s j : Nat} {ms : List (Option Word)} {w : Writer} (h : WInv env T cap s j ms w) :
    w.cols.map WCol.shape = T.cols.map (fun c => (c.name, c.vals.ty.toInt, some c.vals.words)) := by
  obtain ⟨starts, hst, hc⟩ := h.cols
  rw [hc]
  exact shape_zip _ _ (hst.widths s j)

theorem Vals.part_sub (v : Vals) (s n : Nat) : (v.part s n).Sub v := by
  have h : ∀ {α : Type} (l : List α), ∀ x ∈ (l.drop s).take n, x ∈ l := fun l x hx => List.mem_of_mem_drop (List.mem_of_mem_take hx)
  cases v <;> simp [Vals.part, Vals.Sub] <;> exact h _

theorem flush_keeps (env : Env) (o : Order) (w w' : Writer) (h : w.flush env o = .ok w') (hr : w.alloc ≠ none ∨ w.rows = []) :
    w'.cap = w.cap ∧ w'.props = w.props ∧ w'.inited = w.inited ∧ w'.rows = [] := by
  unfold Writer.flush at h
  split at h
  · simp at h
  split at h
  · rename_i ha
    simp only [Except.ok.injEq] at h
    subst h
    refine ⟨rfl, rfl, rfl, ?_⟩
    rcases hr with hr | hr
    · exact absurd ha hr
    · exact hr
  split at h
  · rename_i hz
    simp only [Except.ok.injEq] at h
    subst h
    exact ⟨rfl, rfl, rfl, hz⟩
  repeat' (first | (simp at h; done) | split at h)
  all_goals (simp at h; try (subst h; exact ⟨rfl, rfl, rfl, rfl⟩))

theorem writeHeader_alloc (w w' : Writer) (cs : List Codec) (hc : coders w.cols = some cs) (ha : w.alloc = none) (h : w.writeHeader = .ok w')
    (x : List (List Byte)) : ({ w with alloc := some (rowWords cs), out := x ++ w.out } : Writer).writeHeader =
      .ok (Writer.pre x { w' with alloc := some (rowWords cs) }) := by
  unfold Writer.writeHeader at h ⊢
  rw [hc] at h
  dsimp only at h ⊢
  rw [hc]
  dsimp only
  cases hi : initRow cs with
  | error e => rw [hi] at h; simp at h
  | ok l =>
    rw [hi] at h
    dsimp only at h ⊢
    rw [ha] at h
    simp only [Except.ok.injEq] at h
    subst h
    simp [Writer.pre]

/-! ### What columns say about missing values -/

/-- Specification: `hasMissing` of the columns is right: a column that says so has missing values, in a row with these very columns.  (The other
direction is in `isMissing`, which never says so of a value of another column.) -/
def FlagsTrue (vs : List RowView) : Prop :=
  ∀ v ∈ vs, ∀ (p : Nat) (k : Col), v.cols[p]? = some k → (k.codec.hasMissing = 0 ∨ k.codec.hasMissing = 1) ∧
    (k.codec.hasMissing ≠ 0 → ∃ u ∈ vs, u.cols = v.cols ∧ u.isMissing p = .ok true)

/-- Proof device: the same for a frame. -/
def RFrame.FlagsTrue (F : RFrame) : Prop := Verif.FlagsTrue (tableViews false F)

theorem isMissing_congr {u v : RowView} (h1 : u.cols = v.cols) (h2 : u.cells = v.cells) (p : Nat) : u.isMissing p = v.isMissing p := by
  unfold RowView.isMissing; rw [h1, h2]

theorem mem_tableViews {b : Bool} {F : RFrame} {v : RowView} (h : v ∈ tableViews b F) : v.cols = F.cols ∧ v.cells ∈ F.rows := by
  obtain ⟨i, hi⟩ := List.mem_iff_getElem?.mp h
  rw [tableViews_get, Option.map_eq_some_iff] at hi
  obtain ⟨row, h1, rfl⟩ := hi
  exact ⟨rfl, List.mem_of_getElem? h1⟩

theorem tableViews_mem (b : Bool) {F : RFrame} {row : List Cell} (h : row ∈ F.rows) : ∃ v ∈ tableViews b F, v.cols = F.cols ∧ v.cells = row := by
  obtain ⟨i, hi⟩ := List.mem_iff_getElem?.mp h
  refine ⟨⟨F.cols, row, b && decide (i = 0)⟩, List.mem_of_getElem? (i := i) ?_, rfl, rfl⟩
  rw [tableViews_get, hi]
  rfl

theorem RFrame.FlagsTrue.views {F : RFrame} (h : F.FlagsTrue) (b : Bool) : Verif.FlagsTrue (tableViews b F) := by
  intro v hv p k hk
  obtain ⟨v1, v2⟩ := mem_tableViews hv
  obtain ⟨u, u1, u2, u3⟩ := tableViews_mem false v2
  rw [v1, ← u2] at hk
  obtain ⟨a, b'⟩ := h u u1 p k hk
  refine ⟨a, fun hh => ?_⟩
  obtain ⟨w, w1, w2, w3⟩ := b' hh
  obtain ⟨x1, x2⟩ := mem_tableViews w1
  obtain ⟨z, z1, z2, z3⟩ := tableViews_mem b x2
  exact ⟨z, z1, by rw [z2, v1], by rw [← w3]; exact isMissing_congr (by rw [z2, x1]) z3 p⟩

theorem FlagsTrue.append {us vs : List RowView} (h1 : FlagsTrue us) (h2 : FlagsTrue vs) : FlagsTrue (us ++ vs) := by
  intro v hv p k hk
  rcases List.mem_append.mp hv with hv | hv
  · obtain ⟨a, b⟩ := h1 v hv p k hk
    refine ⟨a, fun hh => ?_⟩
    obtain ⟨u, u1, u2⟩ := b hh
    exact ⟨u, List.mem_append.mpr (Or.inl u1), u2⟩
  · obtain ⟨a, b⟩ := h2 v hv p k hk
    refine ⟨a, fun hh => ?_⟩
    obtain ⟨u, u1, u2⟩ := b hh
    exact ⟨u, List.mem_append.mpr (Or.inr u1), u2⟩

theorem flags_flatMap (b : Bool) (Fs : List RFrame) (h : ∀ F ∈ Fs, F.FlagsTrue) : FlagsTrue (Fs.flatMap (tableViews b)) := by
  induction Fs with
  | nil => intro v hv; simp at hv
  | cons F Fs ih =>
    rw [List.flatMap_cons]
    exact ((h F (by simp)).views b).append (ih (fun G hG => h G (by simp [hG])))

theorem flags_file (Fs : List RFrame) (h : ∀ F ∈ Fs, F.FlagsTrue) : FlagsTrue (fileViews Fs) := by
  cases Fs with
  | nil => intro v hv; simp [fileViews] at hv
  | cons F Fs => exact ((h F (by simp)).views false).append (flags_flatMap true Fs (fun G hG => h G (by simp [hG])))

/-- The frames of a writer without missing values of the user's own. -/
theorem frame_flags {env : Env} {o : Order} {T : UTable} {s j : Nat} {F : RFrame} (hF : FrameFor env o T (List.replicate T.cols.length none) s j F)
    (hok : ∀ c ∈ T.cols, (c.vals.part s j).Ok env) : F.FlagsTrue := by
  obtain ⟨_, es, f1, f2, f3, f4, _⟩ := hF
  intro v hv p k hk
  obtain ⟨v1, _⟩ := mem_tableViews hv
  rw [v1, f3, readCols, List.getElem?_map, Option.map_eq_some_iff] at hk
  obtain ⟨e, he, rfl⟩ := hk
  have hpl := (List.getElem?_eq_some_iff.mp he).1
  obtain ⟨c, hc⟩ : ∃ c, T.cols[p]? = some c := ⟨_, List.getElem?_eq_getElem (by omega)⟩
  have hE := f2 p c none e hc (by rw [List.getElem?_replicate, if_pos (by omega)]) he
  have hcok := hok c (List.mem_of_getElem? hc)
  have hcod : (e.col.reload env.asDbl).codec = reload env.asDbl (partCol s j c).vals.ty.toInt e.codec := by
    simp [Col.reload, EncCol.col, hE.info, partCol, InCol.info]
  obtain ⟨a, b⟩ := hE.sent.flag hcok
  rw [← hcod] at a b
  refine ⟨a, fun hh => ?_⟩
  obtain ⟨r, r1, r2⟩ := b hh
  rw [hE.rows] at r1
  have hcl : r < ((partCol s j c).vals.cells env).length := by rw [Vals.cells_length, hE.rows]; exact r1
  have hcell : ((partCol s j c).vals.cells env)[r]? = some (e.data.cells.getD r []) := by
    rw [hE.cells, List.getD_eq_getElem?_getD, List.getElem?_eq_getElem hcl]
    rfl
  have hg := (Vals.GivesMiss.none_iff env _ _ _).mp (hE.sent.gives _ _ hcell)
  obtain ⟨m, m1, m2⟩ := hE.sent.told hcok _ _ hg
  rw [← hcod] at m1 m2
  obtain ⟨u, u1, u2, u3⟩ := tableViews_mem false (F := F) (row := es.map (fun e => e.back (e.data.cells.getD r [])))
    (List.mem_of_getElem? (i := r) (by rw [f4]; exact backRows_get es j r r1))
  refine ⟨u, u1, by rw [u2, v1], ?_⟩
  rw [RowView.isMissing_of (k := e.col.reload env.asDbl) (y := e.back (e.data.cells.getD r [])) (m := m)
    (by rw [u2, f3, readCols, List.getElem?_map, he]; rfl) (by rw [u3, List.getElem?_map, he]; rfl) m1, m2, r2]

/-- Rows of one table, copied by a writer that is in use. -/
theorem segment_ok (env : Env) (hmd5 : env.Md5Ok) (o : Order) (cap : Nat) (hcap : 0 < cap) (T : UTable) (hT : T.AnyRowsOk env)
    (hne : T.cols ≠ []) (w : Writer) (hwc : w.cap = cap) (hwp : w.props = []) (ks : List Col)
    (hk : ks.map Col.key = T.cols.map InCol.key) (vs : List RowView) (hvs : RowsAre env T vs) :
    ∃ w0 w1 w2 Fs, w.pass1start env ks = .ok w0 ∧
      w0.cols.map WCol.shape = T.cols.map (fun c => (c.name, c.vals.ty.toInt, some c.vals.words)) ∧
      w0.pass1Loop env o vs = .ok w1 ∧
      w1.cols.map WCol.shape = T.cols.map (fun c => (c.name, c.vals.ty.toInt, some c.vals.words)) ∧
      w1.flush env o = .ok w2 ∧ w2.out = w.out ++ Fs.map RFrame.bytes ∧ w2.cap = cap ∧ w2.props = [] ∧ w2.rows = [] ∧
      w2.inited = true ∧
      ((∀ f ∈ Fs.map RFrame.bytes, f.length ≤ 2147483647) →
        (∀ F ∈ Fs, F.Ok env) ∧ Match (IsRowPair env T) (List.range T.rows) (rowPairs Fs)) ∧
      WFrames env o { T with props := [] } cap (List.replicate T.cols.length none) Fs := by
  obtain ⟨starts, s1, s2⟩ := mergeColList_ok env ks T.cols hk
  have hst := s1.starts
  have hWT : WTable env { T with props := [] } :=
    ⟨hT.few, hT.rows, hT.lens, List.Pairwise.nil, by show LenOk 0; decide, by simp, hT.big⟩
  have hmiss : ∀ (i : Nat) (c : InCol) (m? : Option Word), T.cols[i]? = some c →
      (List.replicate T.cols.length (none : Option Word))[i]? = some m? →
      ∃ k w, startCodec c.vals.ty env.asDbl c.vals.words m? = .ok k ∧ k.missingWord = .ok w := by
    intro i c m? _ hm
    have := List.eq_of_mem_replicate (List.mem_of_getElem? hm)
    subst this
    exact start_missing_none env c.vals
  have hparts : PartsOk env { T with props := [] } cap (List.replicate T.cols.length none) := by
    intro k i c m? _ hc hm
    rw [msAt_none] at hm
    have := List.eq_of_mem_replicate (List.mem_of_getElem? hm)
    subst this
    have h0 := List.mem_of_getElem? hc
    exact (Vals.OkMiss.none_iff env _).mpr (Vals.Ok.sub (Vals.part_sub _ _ _) (hT.vals c h0) (fun hl => hT.noEmpty hl c h0))
  have hfresh : FreshOk env { T with props := [] } cap (List.replicate T.cols.length none) := by
    intro i c m z hc hm
    have := List.eq_of_mem_replicate (List.mem_of_getElem? hm)
    simp at this
  have hcod := coders_zip T.cols starts hst.2.1
  obtain ⟨wa, a1, a2⟩ := writeHeader_ok env { T with props := [] } cap (List.replicate T.cols.length none) starts hst hmiss
    { w with cols := List.zipWith wcol T.cols starts, inited := true, alloc := none, rows := [], out := [] } rfl hwc hwp rfl rfl rfl
  have hsum : rowWords starts = (T.cols.map (fun c => c.vals.words)).sum := by
    have := hst.widths 0 0
    rw [gathered_zero _ _ _ _ hst.2.1] at this
    unfold rowWords
    rw [this]
  have hb := writeHeader_alloc { w with cols := List.zipWith wcol T.cols starts, inited := true, alloc := none, rows := [], out := [] } wa
    starts hcod rfl a1 w.out
  have hW : WState env o { T with props := [] } cap (List.replicate T.cols.length none) 0 { wa with alloc := some (rowWords starts) } [] := by
    refine ⟨⟨a2.inv.cols, a2.inv.inited, a2.inv.props, a2.inv.cap, Or.inl (by rw [hsum]), a2.inv.rows, a2.inv.last⟩, a2.out, a2.good⟩
  have hcells : ∀ n, n ≤ vs.length → (vs.take n).map RowView.cells =
      (List.range' (([] : List RFrame).length * cap + 0) n).map (rowAt (({ T with props := [] } : UTable).cols.map (InCol.data env))) := by
    intro n hn
    simp only [List.length_nil, Nat.zero_mul, Nat.add_zero]
    rw [← List.range_eq_range']
    apply List.ext_getElem?
    intro r
    simp only [List.getElem?_map, List.getElem?_take]
    by_cases hr : r < n
    · rw [List.getElem?_range hr, if_pos hr]
      have hv : vs[r]? = some (vs[r]'(by omega)) := List.getElem?_eq_getElem _
      rw [hv]
      simp only [Option.map_some, (hvs.row r _ hv).2]
    · rw [if_neg hr, List.getElem?_eq_none (by simp; omega)]
      rfl
  have hrun : ∀ n, n ≤ vs.length → ∃ w' j' Fs', Writer.writeRows env o { wa with alloc := some (rowWords starts) } ((vs.take n).map RowView.cells) = .ok w' ∧
      WState env o { T with props := [] } cap (List.replicate T.cols.length none) j' w' Fs' ∧ j' < cap ∧ Fs'.length * cap + j' = n := by
    intro n hn
    obtain ⟨w', j', Fs', b1, b2, b3, b4⟩ := writeRows_le env hmd5 o { T with props := [] } hWT cap hcap _ (by simp) hparts hfresh n 0 _ [] hW hcap
      (by simp; rw [← hvs.len]; exact hn)
    exact ⟨w', j', Fs', by rw [hcells n hn]; exact b1, b2, b3, by simpa using b4⟩
  obtain ⟨w1, j1, Fs1, c1, c2, c3, c4⟩ := hrun vs.length (Nat.le_refl _)
  rw [List.take_length] at c1
  obtain ⟨w2, Fs, d1, d2, d3⟩ := close_ok env hmd5 o { T with props := [] } hWT cap hcap _ hparts j1 w1 Fs1 c2 c3
    (by rw [c4]; exact hvs.len)
  unfold Writer.close at d1
  rw [c2.inv.inited, if_pos rfl] at d1
  obtain ⟨k1, k2, k3, k4⟩ := flush_keeps env o w1 w2 d1 (by
    rcases c2.inv.alloc with h | ⟨_, h⟩
    · exact Or.inl (by rw [h]; simp)
    · exact Or.inr (by rw [c2.inv.rows, h]; rfl))
  refine ⟨Writer.pre w.out { wa with alloc := some (rowWords starts) }, w1.pre w.out, w2.pre w.out, Fs, ?_, hW.inv.shape, ?_, c2.inv.shape, ?_, ?_,
    ?_, ?_, k4, ?_, ?_, d3⟩
  · unfold Writer.pass1start Writer.pass1init
    rw [s2]
    dsimp only
    rw [hcod]
    dsimp only
    rw [if_neg (by intro h; rw [h] at hk; simp at hk; exact hne hk)]
    simpa using hb
  · rw [loop_same env o (T.cols.map (fun c => (c.name, c.vals.ty.toInt, some c.vals.words)))]
    · rw [writeRows_pre, c1]
      rfl
    · intro v hv
      obtain ⟨r, hr⟩ := List.mem_iff_getElem?.mp hv
      exact key_shape (hvs.row r v hr).1
    · intro n w' hn
      rw [show vs.take n = vs.take (min n vs.length) by rw [List.take_eq_take_iff]; omega, writeRows_pre] at hn
      obtain ⟨w3, j3, Fs3, e1, e2, _, _⟩ := hrun (min n vs.length) (by omega)
      rw [e1] at hn
      simp only [Pre, Except.ok.injEq] at hn
      subst hn
      exact e2.inv.shape
  · rw [flush_pre, d1]; rfl
  · simp [Writer.pre, d2]
  · simp [Writer.pre, k1]; exact c2.inv.cap
  · simp [Writer.pre, k2]; exact c2.inv.props
  · simp [Writer.pre, k3]; exact c2.inv.inited
  · intro hsz
    have hFok : ∀ F ∈ Fs, F.Ok env := by
      intro F hF
      obtain ⟨k, hk⟩ := List.mem_iff_getElem?.mp hF
      exact ((d3.good k F hk).2.1 (hsz _ (List.mem_map.mpr ⟨F, hF, rfl⟩))).1
    obtain ⟨views, v1, v2, v3⟩ := written_rows env { T with props := [] } hWT cap hcap _ (by simp) Fs d3 hsz (fun _ _ _ => 0)
      (T.rows + rowCount Fs + 2) (by simp; omega)
    rw [readRows_file env (fun _ _ _ => 0) Fs hFok (T.rows + rowCount Fs + 2) (by omega)] at v1
    simp only [Prod.mk.injEq, and_true] at v1
    subst v1
    refine ⟨hFok, ?_⟩
    have : Match (IsRow env T) (List.range T.rows) (fileViews Fs) := by
      apply Match.of_get _ _ (by simp [v2])
      intro r j v hj hv
      obtain ⟨hr, hj⟩ := List.getElem?_eq_some_iff.mp hj
      simp only [List.getElem_range] at hj
      subst hj
      simp only [List.length_range] at hr
      have hS := v3 r v hv
      refine ⟨hS.ncols, hS.ncells, ?_, ?_, hS.wide, fun had p c k hp hk => hS.mdi had p c k hp hk
        (by rw [msAt_none, List.getElem?_replicate, if_pos (List.getElem?_eq_some_iff.mp hp).1])
        (Vals.Ok.sub (Vals.part_sub _ _ _) (hT.vals c (List.mem_of_getElem? hp)) (fun hl => hT.noEmpty hl c (List.mem_of_getElem? hp)))⟩
      rotate_left
      · intro p c hp
        have h0 := List.mem_of_getElem? hp
        exact hS.missing p c hp (by rw [msAt_none, List.getElem?_replicate, if_pos (List.getElem?_eq_some_iff.mp hp).1])
          (Vals.Ok.sub (Vals.part_sub _ _ _) (hT.vals c h0) (fun hl => hT.noEmpty hl c h0))
      intro p c hp
      obtain ⟨k, y, e1, e2, e3, e4, e5, e6, e7⟩ := hS.col p c hp
      refine ⟨k, y, e1, e2, e3, e4, e5, e6, ?_⟩
      have hg := e7 none (by
        rw [msAt_none, List.getElem?_replicate, if_pos (List.getElem?_eq_some_iff.mp hp).1])
      rw [Vals.GivesMiss.none_iff] at hg
      have hmod := Nat.mod_lt r hcap
      have hdm := Nat.div_add_mod r cap
      rw [Nat.mul_comm] at hdm
      have hg1 := gives_one hg (by
        show r % cap < min cap (T.rows - r / cap * cap)
        omega)
      rw [hdm] at hg1
      exact hg1
    rw [match_pairs, fileViews_pairs] at this
    exact this

/-! ### Several tables -/

theorem loop_append (env : Env) (o : Order) (w w1 : Writer) (vs us : List RowView) (h : w.pass1Loop env o vs = .ok w1) :
    w.pass1Loop env o (vs ++ us) = w1.pass1Loop env o us := by
  induction vs generalizing w with
  | nil =>
    simp only [Writer.pass1Loop, Except.ok.injEq] at h
    rw [h]; rfl
  | cons v vs ih =>
    rw [List.cons_append]
    rw [show Writer.pass1Loop env o w (v :: (vs ++ us)) = _ from rfl]
    unfold Writer.pass1Loop at h
    conv => lhs; unfold Writer.pass1Loop
    split at h
    · simp at h
    rename_i w' hw'
    split at h
    · simp at h
    rename_i w'' hw''
    exact ih w'' h

/-- The columns of two tables differ in a name, a type or a width. -/
def UTable.OtherShape (S T : UTable) : Prop :=
  S.cols.map (fun c => (c.name, c.vals.ty, c.vals.words)) ≠ T.cols.map (fun c => (c.name, c.vals.ty, c.vals.words))

/-- The rows an iterator yields are those of the tables one after the other, and where the columns change it says so. -/
inductive RowsOfTables (env : Env) : List UTable → List RowView → Prop
  | last {T vs} : RowsAre env T vs → RowsOfTables env [T] vs
  | more {T T' Ts vs us} : RowsAre env T vs → T.OtherShape T' → (∀ u, us.head? = some u → u.fresh = true) →
      RowsOfTables env (T' :: Ts) us → RowsOfTables env (T :: T' :: Ts) (vs ++ us)

theorem RowsAre.head {env : Env} {T : UTable} {vs : List RowView} (h : RowsAre env T vs) (hp : 0 < T.rows) :
    ∃ u us, vs = u :: us ∧ u.cols.map Col.key = T.cols.map InCol.key := by
  cases vs with
  | nil => have := h.len; simp at this; omega
  | cons u us => exact ⟨u, us, rfl, (h.row 0 u rfl).1⟩

theorem RowsOfTables.head {env : Env} {Ts : List UTable} {us : List RowView} (h : RowsOfTables env Ts us) (T : UTable)
    (hh : Ts.head? = some T) (hp : 0 < T.rows) : ∃ u us', us = u :: us' ∧ u.cols.map Col.key = T.cols.map InCol.key := by
  induction h with
  | last h =>
    simp only [List.head?_cons, Option.some.injEq] at hh
    subst hh
    exact h.head hp
  | more h _ _ _ _ =>
    simp only [List.head?_cons, Option.some.injEq] at hh
    subst hh
    obtain ⟨u, us', rfl, hu⟩ := h.head hp
    exact ⟨u, _, rfl, hu⟩

theorem toInt_inj {a b : ColType} (h : a.toInt = b.toInt) : a = b := by
  cases a <;> cases b <;> simp_all [ColType.toInt]

theorem OtherShape.shape {S T : UTable} (h : S.OtherShape T) :
    S.cols.map (fun c => (c.name, c.vals.ty.toInt, some c.vals.words)) ≠ T.cols.map (fun c => (c.name, c.vals.ty.toInt, some c.vals.words)) := by
  intro h'
  apply h
  have h1 : ∀ (cs ds : List InCol), cs.map (fun c => (c.name, c.vals.ty.toInt, some c.vals.words)) = ds.map (fun c => (c.name, c.vals.ty.toInt, some c.vals.words)) →
      cs.map (fun c => (c.name, c.vals.ty, c.vals.words)) = ds.map (fun c => (c.name, c.vals.ty, c.vals.words)) := by
    intro cs
    induction cs with
    | nil => intro ds hd; cases ds with
      | nil => rfl
      | cons _ _ => simp at hd
    | cons c cs ih =>
      intro ds hd
      cases ds with
      | nil => simp at hd
      | cons d ds =>
        simp only [List.map_cons, List.cons.injEq, Prod.mk.injEq, Option.some.injEq] at hd ⊢
        exact ⟨⟨hd.1.1, toInt_inj hd.1.2.1, hd.1.2.2⟩, ih ds hd.2⟩
  exact h1 _ _ h'

/-- Row `x.2` of table `x.1`. -/
def IsRowAt (env : Env) (x : UTable × Nat) (v : RowView) : Prop := IsRow env x.1 x.2 v

/-- All rows of the tables in order. -/
def allRows (Ts : List UTable) : List (UTable × Nat) := Ts.flatMap (fun T => (List.range T.rows).map (fun j => (T, j)))

theorem segment_flags {env : Env} {o : Order} {cap : Nat} {T : UTable} {Fs : List RFrame} (hT : T.AnyRowsOk env)
    (h : WFrames env o { T with props := [] } cap (List.replicate T.cols.length none) Fs) : ∀ F ∈ Fs, F.FlagsTrue := by
  intro F hF
  obtain ⟨k, hk⟩ := List.mem_iff_getElem?.mp hF
  have := (h.good k F hk).2
  rw [msAt_none] at this
  exact frame_flags this (fun c hc => Vals.Ok.sub (Vals.part_sub _ _ _) (hT.vals c hc) (fun hl => hT.noEmpty hl c hc))

theorem tables_ok (env : Env) (hmd5 : env.Md5Ok) (o : Order) (cap : Nat) (hcap : 0 < cap) (Ts : List UTable) (vs : List RowView)
    (h : RowsOfTables env Ts vs) (hT : ∀ T ∈ Ts, T.AnyRowsOk env ∧ T.cols ≠ []) (hpos : ∀ T ∈ Ts.tail, 0 < T.rows)
    (T : UTable) (hhead : Ts.head? = some T)
    (w : Writer) (hwc : w.cap = cap) (hwp : w.props = []) (ks : List Col) (hk : ks.map Col.key = T.cols.map InCol.key) :
    ∃ w0 w1 w2 Fs, w.pass1start env ks = .ok w0 ∧
      w0.cols.map WCol.shape = T.cols.map (fun c => (c.name, c.vals.ty.toInt, some c.vals.words)) ∧
      w0.pass1Loop env o vs = .ok w1 ∧ w1.flush env o = .ok w2 ∧ w2.out = w.out ++ Fs.map RFrame.bytes ∧ w2.rows = [] ∧ w2.inited = true ∧
      ((∀ f ∈ Fs.map RFrame.bytes, f.length ≤ 2147483647) →
        (∀ F ∈ Fs, F.Ok env) ∧ Match (fun x p => IsRowPair env x.1 x.2 p) (allRows Ts) (rowPairs Fs)) ∧ (∀ F ∈ Fs, F.FlagsTrue) := by
  induction h generalizing T w ks with
  | @last S vs hr =>
    simp only [List.head?_cons, Option.some.injEq] at hhead
    subst hhead
    obtain ⟨w0, w1, w2, Fs, a1, a2, a3, a4, a5, a6, a7, a8, a9, a10, a11, a12⟩ := segment_ok env hmd5 o cap hcap S (hT S (by simp)).1 (hT S (by simp)).2
      w hwc hwp ks hk vs hr
    refine ⟨w0, w1, w2, Fs, a1, a2, a3, a5, a6, a9, a10, ?_, segment_flags (hT S (by simp)).1 a12⟩
    intro hs
    obtain ⟨b1, b2⟩ := a11 hs
    refine ⟨b1, ?_⟩
    simp only [allRows, List.flatMap_cons, List.flatMap_nil, List.append_nil]
    exact Match.map_left (R := fun (x : UTable × Nat) p => IsRowPair env x.1 x.2 p) (fun j => (S, j)) b2
  | @more S S' Ts vs us hr hsh hfr hrest ih =>
    simp only [List.head?_cons, Option.some.injEq] at hhead
    subst hhead
    obtain ⟨w0, w1, w2, Fs, a1, a2, a3, a4, a5, a6, a7, a8, a9, a10, a11, a12⟩ := segment_ok env hmd5 o cap hcap S (hT S (by simp)).1 (hT S (by simp)).2
      w hwc hwp ks hk vs hr
    have hS' : 0 < S'.rows := hpos S' (by simp)
    obtain ⟨u, us', rfl, hukey⟩ := hrest.head S' rfl hS'
    obtain ⟨w0', w1', w2', Fs', b1, b2, b3, b4, b5, b6, b7, b8, b9⟩ := ih (fun T hT' => hT T (List.mem_cons_of_mem _ hT'))
      (fun T hT' => hpos T (by simp; exact Or.inr hT')) S' rfl w2 a7 a8 u.cols hukey
    refine ⟨w0, w1', w2', Fs ++ Fs', a1, a2, ?_, b4, ?_, b6, b7, ?_, ?_⟩
    on_goal 4 =>
      intro F hF
      rcases List.mem_append.mp hF with hF | hF
      · exact segment_flags (hT S (by simp)).1 a12 F hF
      · exact b9 F hF
    · rw [loop_append env o w0 w1 vs _ a3]
      unfold Writer.pass1Loop
      have hns : sameShape u.cols w1.cols = false := by
        unfold sameShape
        rw [a4, key_shape hukey]
        simp only [decide_eq_false_iff_not]
        exact fun h => OtherShape.shape hsh h.symm
      rw [if_pos (by rw [hfr u rfl, hns]; rfl), a5]
      dsimp only
      rw [b1]
      dsimp only
      unfold Writer.pass1Loop at b3
      have hs' : sameShape u.cols w0'.cols = true := by
        unfold sameShape
        rw [b2, key_shape hukey]
        simp
      rw [if_neg (by simp [hs'])] at b3
      exact b3
    · rw [b5, a6]; simp
    · intro hs
      obtain ⟨c1, c2⟩ := a11 (fun f hf => hs f (by simp only [List.map_append, List.mem_append]; exact Or.inl hf))
      obtain ⟨d1, d2⟩ := b8 (fun f hf => hs f (by simp only [List.map_append, List.mem_append]; exact Or.inr hf))
      refine ⟨?_, ?_⟩
      · intro F hF
        rcases List.mem_append.mp hF with hF | hF
        · exact c1 F hF
        · exact d1 F hF
      · rw [show rowPairs (Fs ++ Fs') = rowPairs Fs ++ rowPairs Fs' by simp [rowPairs]]
        rw [show allRows (S :: S' :: Ts) = (List.range S.rows).map (fun j => (S, j)) ++ allRows (S' :: Ts) by simp [allRows]]
        exact Match.append (Match.map_left (R := fun (x : UTable × Nat) p => IsRowPair env x.1 x.2 p) (fun j => (S, j)) c2) d2

end Verif
