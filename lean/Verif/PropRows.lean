import Verif.RowTold

/-
C20 and C21: files written and read row by row.
-/

namespace Verif

theorem writeHeader_ok (env : Env) (T : UTable) (cap : Nat) (ms : List (Option Word)) (starts : List Codec)
    (hst : Starts env T.cols ms starts)
    (hmw : ∀ (i : Nat) (c : InCol) (m? : Option Word), T.cols[i]? = some c → ms[i]? = some m? →
      ∃ k w, startCodec c.vals.ty env.asDbl c.vals.words m? = .ok k ∧ k.missingWord = .ok w)
    (w : Writer) (hcols : w.cols = List.zipWith wcol T.cols starts) (hcap : w.cap = cap) (hprops : w.props = T.props)
    (halloc : w.alloc = none) (hrows : w.rows = []) (hout : w.out = []) :
    ∃ w', w.writeHeader = .ok w' ∧ WState env o T cap ms 0 w' [] := by
  have hmiss : ∀ c ∈ starts, ∃ w, c.missingWord = .ok w := by
    intro k hk
    obtain ⟨i, hi⟩ := List.mem_iff_getElem?.mp hk
    have hlt := (List.getElem?_eq_some_iff.mp hi).1
    have h1 := hst.1
    have h2 := hst.2.1
    have hc : T.cols[i]? = some T.cols[i] := List.getElem?_eq_getElem (by omega)
    have hm : ms[i]? = some ms[i] := List.getElem?_eq_getElem (by omega)
    obtain ⟨k', w, a, b⟩ := hmw i _ _ hc hm
    rw [hst.2.2 i _ _ k hc hm hi] at a
    simp only [Except.ok.injEq] at a
    subst a
    exact ⟨w, b⟩
  obtain ⟨l, l1, l2, l3⟩ := initRow_ok hmiss
  refine ⟨{ w with last := l, cur := l, cols := List.zipWith wcol T.cols starts, inited := true }, ?_, ?_⟩
  · unfold Writer.writeHeader
    rw [hcols, coders_zip _ _ hst.2.1]
    dsimp only
    rw [l1]
    dsimp only
    rw [halloc]
    dsimp only
    rw [hst.reset, setCoders_zip _ _ _ hst.2.1 hst.2.1]
  · refine ⟨⟨⟨starts, by simpa [msAt] using hst, ?_⟩, rfl, hprops, hcap, Or.inr ⟨halloc, rfl⟩, ?_, ?_⟩, ?_, by simp⟩
    · rw [gathered_zero _ _ _ _ hst.2.1]
    · rw [show ({ w with last := l, cur := l, cols := List.zipWith wcol T.cols starts, inited := true } : Writer).rows = w.rows from rfl, hrows]; rfl
    · intro i c m? z hc hm hz _
      left
      simp only [List.length_nil, msAt, if_true] at hm
      have hlt := (List.getElem?_eq_some_iff.mp hc).1
      have h2 := hst.2.1
      have hk : starts[i]? = some starts[i] := List.getElem?_eq_getElem (by omega)
      exact ⟨_, hst.2.2 i c m? _ hc hm hk, l3 i _ z hk hz⟩
    · exact hout

/-- A table written row by row: the frames. -/
theorem writeMiss_ok (env : Env) (hmd5 : env.Md5Ok) (o : Order) (T : UTable) (hT : WTable env T) (cap : Nat) (hcap : 0 < cap)
    (ms0 : List (Option Word)) (hms : ms0.length = T.cols.length) (hnd : (T.cols.map InCol.name).Nodup)
    (hne : ∀ c ∈ T.cols, c.name ≠ []) 
    (hmw : ∀ (i : Nat) (c : InCol) (m? : Option Word), T.cols[i]? = some c → ms0[i]? = some m? →
      ∃ k w, startCodec c.vals.ty env.asDbl c.vals.words m? = .ok k ∧ k.missingWord = .ok w)
    (hok : PartsOk env T cap ms0) (hfresh : FreshOk env T cap ms0) :
    ∃ Fs, T.writeMiss env o cap ms0 = .ok (Fs.map RFrame.bytes) ∧ WFrames env o T cap ms0 Fs := by
  obtain ⟨starts, hst⟩ := Starts.exists T.cols ms0 hms (fun i c m? hc hm => by
    obtain ⟨k, _, h, _⟩ := hmw i c m? hc hm; exact ⟨k, h⟩)
  have hfst : (T.cols.zip ms0).map Prod.fst = T.cols := by
    rw [List.map_fst_zip]; omega
  have hd := declare_all env ((Writer.new cap).setSize T.cols.length) [] (T.cols.zip ms0) starts
    (by rw [hst.2.1, List.length_zip]; omega) (by simp [Writer.new, Writer.setSize, blankCol, hms])
    (by
      intro i c m? k h1 h2
      rw [List.getElem?_zip_eq_some] at h1
      exact hst.2.2 i c m? k h1.1 h1.2 h2)
    (by
      have : (T.cols.zip ms0).map (fun c => c.1.name) = ((T.cols.zip ms0).map Prod.fst).map InCol.name := by
        rw [List.map_map]; rfl
      rw [this, hfst]; exact hnd)
    (by
      intro c hc
      apply hne
      rw [← hfst]
      exact List.mem_map.mpr ⟨c, hc, rfl⟩)
    (by simp)
  rw [hfst] at hd
  simp only [List.length_nil, List.nil_append] at hd
  obtain ⟨w1, a1, a2⟩ := writeHeader_ok env T cap ms0 starts hst hmw
    (Writer.properties { (Writer.new cap).setSize T.cols.length with cols := List.zipWith wcol T.cols starts } T.props)
    (by rw [properties_eq]) (by rw [properties_eq]; rfl)
    (by
      rw [properties_eq]
      have := mapSet_all T.props [] (by simpa using hT.props)
      simpa [Writer.setSize, Writer.new] using this)
    (by rw [properties_eq]; rfl) (by rw [properties_eq]; rfl) (by rw [properties_eq]; rfl)
  obtain ⟨w2, j, Fs, b1, b2, b3, b4⟩ := writeRows_ok env hmd5 o T hT cap hcap ms0 hms hok hfresh T.rows 0 w1 [] a2 hcap (by simp)
  obtain ⟨w3, Fs', c1, c2, c3⟩ := close_ok env hmd5 o T hT cap hcap ms0 hok j w2 Fs b2 b3 b4
  refine ⟨Fs', ?_, c3⟩
  unfold UTable.writeMiss
  rw [hd]
  simp only [bind, Except.bind, pure, Except.pure]
  rw [a1]
  dsimp only
  have hr : rowsOf (T.cols.map (InCol.data env)) T.rows =
      (List.range' (([] : List RFrame).length * cap + 0) T.rows).map (rowAt (T.cols.map (InCol.data env))) := by
    unfold rowsOf; rw [List.range_eq_range']; simp
  rw [hr, b1]
  dsimp only
  rw [c1]
  dsimp only
  rw [c2]

/-! ### Rows by number -/

theorem tableViews_get (b : Bool) (F : RFrame) (i : Nat) :
    (tableViews b F)[i]? = F.rows[i]?.map (fun row => ⟨F.cols, row, b && decide (i = 0)⟩) := by
  unfold tableViews
  cases hF : F.rows with
  | nil => simp
  | cons r rs =>
    cases i with
    | zero => simp
    | succ i => simp

theorem tableViews_length (b : Bool) (F : RFrame) : (tableViews b F).length = F.rows.length := by
  unfold tableViews
  cases hF : F.rows <;> simp

theorem views_get (cap n : Nat) (hcap : 0 < cap) (Fs : List RFrame) (hn : n ≤ Fs.length * cap)
    (h : ∀ (k : Nat) (F : RFrame), Fs[k]? = some F → k * cap < n ∧ F.rows.length = min cap (n - k * cap)) :
    (Fs.flatMap (tableViews true)).length = n ∧ rowCount Fs = n ∧ ∀ r : Nat, r < n →
      ∃ F row, Fs[r / cap]? = some F ∧ F.rows[r % cap]? = some row ∧
        (Fs.flatMap (tableViews true))[r]? = some ⟨F.cols, row, decide (r % cap = 0)⟩ := by
  induction Fs generalizing n with
  | nil => simp at hn; subst hn; simp [rowCount]
  | cons F Fs ih =>
    obtain ⟨h1, h2⟩ := h 0 F rfl
    simp only [Nat.zero_mul, Nat.sub_zero] at h1 h2
    have hrec := ih (n - cap) (by simp [Nat.succ_mul] at hn; omega) (by
      intro k G hk
      obtain ⟨a, b⟩ := h (k + 1) G (by simpa using hk)
      rw [Nat.succ_mul] at a b
      exact ⟨by omega, by rw [b]; omega⟩)
    obtain ⟨a1, a2, a3⟩ := hrec
    refine ⟨?_, ?_, ?_⟩
    · rw [List.flatMap_cons, List.length_append, a1, tableViews_length, h2]; omega
    · simp only [rowCount, List.map_cons, List.sum_cons] at a2 ⊢
      rw [a2, h2]; omega
    · intro r hr
      rw [List.flatMap_cons]
      by_cases hrc : r < cap
      · have hlt : r < F.rows.length := by omega
        refine ⟨F, F.rows[r], by rw [Nat.div_eq_of_lt hrc]; rfl, ?_, ?_⟩
        · rw [Nat.mod_eq_of_lt hrc]; exact List.getElem?_eq_getElem hlt
        · rw [List.getElem?_append_left (by rw [tableViews_length]; exact hlt), tableViews_get, List.getElem?_eq_getElem hlt,
            Nat.mod_eq_of_lt hrc]
          simp
      · have hcl : F.rows.length = cap := by omega
        obtain ⟨G, row, g1, g2, g3⟩ := a3 (r - cap) (by omega)
        have hdiv : r / cap = (r - cap) / cap + 1 := by
          conv_lhs => rw [show r = r - cap + cap by omega]
          rw [Nat.add_div_right _ hcap]
        have hmod : r % cap = (r - cap) % cap := by
          conv_lhs => rw [show r = r - cap + cap by omega]
          rw [Nat.add_mod_right]
        refine ⟨G, row, by rw [hdiv]; simpa using g1, by rw [hmod]; exact g2, ?_⟩
        rw [List.getElem?_append_right (by rw [tableViews_length]; omega), tableViews_length, hcl, g3, hmod]

theorem fileViews_get (cap n : Nat) (hcap : 0 < cap) (Fs : List RFrame) (hn : n ≤ Fs.length * cap)
    (h : ∀ (k : Nat) (F : RFrame), Fs[k]? = some F → k * cap < n ∧ F.rows.length = min cap (n - k * cap)) :
    (fileViews Fs).length = n ∧ ∀ r : Nat, r < n →
      ∃ F row, Fs[r / cap]? = some F ∧ F.rows[r % cap]? = some row ∧
        (fileViews Fs)[r]? = some ⟨F.cols, row, decide (r ≠ 0 ∧ r % cap = 0)⟩ := by
  cases Fs with
  | nil => simp at hn; subst hn; simp [fileViews]
  | cons F Fs =>
    obtain ⟨a1, _, a3⟩ := views_get cap n hcap (F :: Fs) hn h
    have hlen : (fileViews (F :: Fs)).length = ((F :: Fs).flatMap (tableViews true)).length := by
      simp [fileViews, List.flatMap_cons, tableViews_length]
    refine ⟨by rw [hlen, a1], ?_⟩
    intro r hr
    obtain ⟨G, row, g1, g2, g3⟩ := a3 r hr
    refine ⟨G, row, g1, g2, ?_⟩
    rw [List.flatMap_cons] at g3
    by_cases hrl : r < F.rows.length
    · rw [List.getElem?_append_left (by rw [tableViews_length]; exact hrl), tableViews_get] at g3
      unfold fileViews
      rw [List.getElem?_append_left (by rw [tableViews_length]; exact hrl), tableViews_get]
      rw [List.getElem?_eq_getElem hrl] at g3 ⊢
      simp only [Option.map_some, Option.some.injEq, RowView.mk.injEq, Bool.true_and, Bool.false_and] at g3 ⊢
      refine ⟨g3.1, g3.2.1, ?_⟩
      have := (h 0 F rfl).2
      have hrc : r < cap := by omega
      rw [Nat.mod_eq_of_lt hrc]
      symm; simp
    · rw [List.getElem?_append_right (by rw [tableViews_length]; omega), tableViews_length] at g3
      unfold fileViews
      rw [List.getElem?_append_right (by rw [tableViews_length]; omega), tableViews_length, g3]
      have := (h 0 F rfl).2
      have : r ≠ 0 := by omega
      simp [this]

/-! ### Specification -/

/-- A table the row writer can take, with a buffer of `cap` rows: less than 65536 columns with distinct
non-empty names, columns of equal length, and values that each frame can hold (`Vals.Ok`, frame by frame). -/
structure UTable.RowsOk (env : Env) (cap : Nat) (T : UTable) : Prop where
  few : T.cols.length < 65536
  names : (T.cols.map InCol.name).Nodup
  named : ∀ c ∈ T.cols, c.name ≠ []
  rows : ∀ c ∈ T.cols, c.vals.rows = T.rows
  lens : ∀ c ∈ T.cols, ColLen c
  props : MapOk T.props
  nprops : LenOk T.props.length
  plen : ∀ kv ∈ T.props, LenOk kv.1.length ∧ LenOk kv.2.length
  big : T.rows < 18446744073709551616
  vals : ∀ k : Nat, k * cap < T.rows → ∀ c ∈ T.cols, (c.vals.part (k * cap) (min cap (T.rows - k * cap))).Ok env

/-- Row `r`, as the user of the reader sees it: the columns declared; a new table every `cap` rows (not
announced for the first one); in column `p` the value of row `r`, with `m?` the missing value in use when the
row was written. -/
structure ShowsRow (env : Env) (T : UTable) (cap : Nat) (ms : Nat → List (Option Word)) (r : Nat) (v : RowView) : Prop where
  ncols : v.cols.length = T.cols.length
  ncells : v.cells.length = T.cols.length
  fresh : v.fresh = decide (r ≠ 0 ∧ r % cap = 0)
  col : ∀ (p : Nat) (c : InCol), T.cols[p]? = some c →
    ∃ (k : Col) (y : Cell), v.cols[p]? = some k ∧ k.name = c.name ∧ k.ty = c.vals.ty.toInt ∧
      k.bitNames = c.vals.members.map Prod.fst ∧ k.bitSizes = c.vals.members.map Prod.snd ∧
      v.cells[p]? = some y ∧ ∀ m?, (ms r)[p]? = some m? →
        (c.vals.part (r / cap * cap) (min cap (T.rows - r / cap * cap))).GivesMiss env m? (r % cap) y
  missing : ∀ (p : Nat) (c : InCol), T.cols[p]? = some c → (ms r)[p]? = some none →
    (c.vals.part (r / cap * cap) (min cap (T.rows - r / cap * cap))).Ok env → v.isMissing p = .ok (c.vals.isMissing r)
  wide : ∀ (p : Nat) (k : Col) (y : Cell), v.cols[p]? = some k → v.cells[p]? = some y → k.codec.width = y.length
  mdi : env.asDbl = true → ∀ (p : Nat) (c : InCol) (k : Col), T.cols[p]? = some c → v.cols[p]? = some k → (ms r)[p]? = some none →
    (c.vals.part (r / cap * cap) (min cap (T.rows - r / cap * cap))).Ok env → k.codec.missingWord = .ok (c.vals.mdiWord env)

theorem Vals.part_isMissing (v : Vals) (s n r : Nat) (h : r < n) : (v.part s n).isMissing r = v.isMissing (s + r) := by
  cases v <;> simp [Vals.part, Vals.isMissing, List.getElem?_take, List.getElem?_drop, h]

theorem Vals.isMissing_one (v : Vals) (j : Nat) : (v.part j 1).isMissing 0 = v.isMissing j := Vals.part_isMissing v j 1 0 (by omega)

theorem UTable.RowsOk.wtable {env : Env} {cap : Nat} {T : UTable} (h : T.RowsOk env cap) : WTable env T :=
  ⟨h.few, h.rows, h.lens, h.props, h.nprops, h.plen, h.big⟩

theorem backRows_get (es : List EncCol) (n r : Nat) (h : r < n) :
    (backRows es n)[r]? = some (es.map (fun e => e.back (e.data.cells.getD r []))) := by
  simp [backRows, List.getElem?_map, List.getElem?_range h]

/-- From the frames to the rows. -/
theorem written_rows (env : Env) (T : UTable) (hT : WTable env T) (cap : Nat) (hcap : 0 < cap) (ms0 : List (Option Word))
    (hms : ms0.length = T.cols.length) (Fs : List RFrame) (hF : WFrames env o T cap ms0 Fs)
    (hsz : ∀ f ∈ Fs.map RFrame.bytes, f.length ≤ 2147483647) (junk : Junk) (fuel : Nat) (hf : T.rows + 1 < fuel) :
    ∃ views, readRows env junk (Fs.map RFrame.bytes).flatten fuel = (views, none) ∧ views.length = T.rows ∧
      ∀ (r : Nat) (v : RowView), views[r]? = some v → ShowsRow env T cap (fun r => msAt ms0 (r / cap)) r v := by
  have hlen : ∀ (k : Nat) (F : RFrame), Fs[k]? = some F → k * cap < T.rows ∧ F.rows.length = min cap (T.rows - k * cap) := by
    intro k F hk
    obtain ⟨a, _, es, _, _, _, b, _⟩ := hF.good k F hk
    exact ⟨a, by rw [b]; simp [backRows]⟩
  have hn : T.rows ≤ Fs.length * cap := by
    rw [hF.count]
    have := Nat.lt_div_mul_add (a := T.rows + cap - 1) hcap
    omega
  obtain ⟨_, c2, _⟩ := views_get cap T.rows hcap Fs hn hlen
  obtain ⟨d1, d2⟩ := fileViews_get cap T.rows hcap Fs hn hlen
  refine ⟨fileViews Fs, readRows_file env junk Fs ?_ fuel (by rw [c2]; exact hf), d1, ?_⟩
  · intro F hFm
    obtain ⟨k, hk⟩ := List.mem_iff_getElem?.mp hFm
    exact ((hF.good k F hk).2.1 (hsz _ (List.mem_map.mpr ⟨F, hFm, rfl⟩))).1
  · intro r v hv
    have hr : r < T.rows := by rw [← d1]; exact (List.getElem?_eq_some_iff.mp hv).1
    obtain ⟨F, row, e1, e2, e3⟩ := d2 r hr
    rw [hv] at e3
    simp only [Option.some.injEq] at e3
    subst e3
    obtain ⟨a, _, es, f1, f2, f3, f4, _⟩ := hF.good _ F e1
    have hdm := Nat.div_add_mod r cap
    have hml := Nat.mod_lt r hcap
    rw [Nat.mul_comm] at hdm
    have hin : r % cap < min cap (T.rows - r / cap * cap) := by omega
    rw [f4, backRows_get es _ _ hin] at e2
    simp only [Option.some.injEq] at e2
    subst e2
    refine ⟨by simp [f3, readCols, f1], by simp [f1], rfl, ?_, ?_, ?_, ?_⟩
    on_goal 4 =>
      intro had p c k hp hk hnone hok
      dsimp only at hk
      have hpl := (List.getElem?_eq_some_iff.mp hp).1
      have he : es[p]? = some (es[p]'(by omega)) := List.getElem?_eq_getElem _
      generalize es[p]'(by omega) = e at he
      have hE := f2 p c none e hp hnone he
      rw [f3, readCols, List.getElem?_map, he] at hk
      simp only [Option.map_some, Option.some.injEq] at hk
      subst hk
      have hcod : (e.col.reload env.asDbl).codec = reload env.asDbl (partCol (r / cap * cap) (min cap (T.rows - r / cap * cap)) c).vals.ty.toInt e.codec := by
        simp [Col.reload, EncCol.col, hE.info, partCol, InCol.info]
      rw [hcod, hE.sent.reports had hok]
      exact congrArg Except.ok (Vals.mdi_ty env (Vals.part_ty _ _ _))
    rotate_left 2
    · intro p k y hk hy
      dsimp only at hk hy
      have hpl : p < es.length := by
        have := (List.getElem?_eq_some_iff.mp hy).1
        simpa using this
      have he : es[p]? = some (es[p]'(by omega)) := List.getElem?_eq_getElem _
      generalize es[p]'(by omega) = e at he
      obtain ⟨c, hp⟩ : ∃ c, T.cols[p]? = some c := ⟨_, List.getElem?_eq_getElem (by omega)⟩
      obtain ⟨m?, hm⟩ : ∃ m?, (msAt ms0 (r / cap))[p]? = some m? := ⟨_, List.getElem?_eq_getElem (by rw [msAt_length]; omega)⟩
      have hE := f2 p c m? e hp hm he
      have hcl : r % cap < ((partCol (r / cap * cap) (min cap (T.rows - r / cap * cap)) c).vals.cells env).length := by
        rw [Vals.cells_length, hE.rows]; exact hin
      rw [f3, readCols, List.getElem?_map, he] at hk
      rw [List.getElem?_map, he] at hy
      simp only [Option.map_some, Option.some.injEq] at hk hy
      subst hk; subst hy
      rw [hE.cells, List.getD_eq_getElem?_getD, List.getElem?_eq_getElem hcl, Option.getD_some, hE.sent.exact _ (List.getElem_mem hcl)]
      simp [Col.reload, EncCol.col, hE.info, partCol, InCol.info]
    rotate_left
    · intro p c hp hnone hok
      have hpl := (List.getElem?_eq_some_iff.mp hp).1
      have he : es[p]? = some (es[p]'(by omega)) := List.getElem?_eq_getElem _
      generalize es[p]'(by omega) = e at he
      have hE := f2 p c none e hp hnone he
      have hcl : r % cap < ((partCol (r / cap * cap) (min cap (T.rows - r / cap * cap)) c).vals.cells env).length := by
        rw [Vals.cells_length, hE.rows]; exact hin
      have hcell : ((partCol (r / cap * cap) (min cap (T.rows - r / cap * cap)) c).vals.cells env)[r % cap]? = some (e.data.cells.getD (r % cap) []) := by
        rw [hE.cells, List.getD_eq_getElem?_getD, List.getElem?_eq_getElem hcl]
        rfl
      have hg := (Vals.GivesMiss.none_iff env _ _ _).mp (hE.sent.gives _ _ hcell)
      obtain ⟨m, m1, m2⟩ := hE.sent.told hok _ _ hg
      have hcod : (e.col.reload env.asDbl).codec = reload env.asDbl (partCol (r / cap * cap) (min cap (T.rows - r / cap * cap)) c).vals.ty.toInt e.codec := by
        simp [Col.reload, EncCol.col, hE.info, partCol, InCol.info]
      rw [← hcod] at m1 m2
      rw [RowView.isMissing_of (k := e.col.reload env.asDbl) (y := e.back (e.data.cells.getD (r % cap) [])) (m := m)
        (by rw [f3, readCols, List.getElem?_map, he]; rfl) (by rw [List.getElem?_map, he]; rfl) m1, m2]
      rw [show (partCol (r / cap * cap) (min cap (T.rows - r / cap * cap)) c).vals = c.vals.part (r / cap * cap) (min cap (T.rows - r / cap * cap)) from rfl,
        Vals.part_isMissing _ _ _ _ hin, hdm]
    intro p c hp
    have hpl := (List.getElem?_eq_some_iff.mp hp).1
    have he : es[p]? = some (es[p]'(by omega)) := List.getElem?_eq_getElem _
    generalize es[p]'(by omega) = e at he
    have hsome : (msAt ms0 (r / cap))[p]? = some ((msAt ms0 (r / cap))[p]'(by rw [msAt_length]; omega)) :=
      List.getElem?_eq_getElem _
    have hE := f2 p c _ e hp hsome he
    refine ⟨e.col.reload env.asDbl, _, by rw [f3, readCols, List.getElem?_map, he]; rfl, ?_, ?_, ?_, ?_,
      by rw [List.getElem?_map, he]; rfl, ?_⟩
    · simp [Col.reload, EncCol.col, hE.info, partCol, InCol.info]
    · simp [Col.reload, EncCol.col, hE.info, partCol, InCol.info, Vals.part_ty]
    · simp [Col.reload, EncCol.col, hE.info, partCol, InCol.info, Vals.part_members]
    · simp [Col.reload, EncCol.col, hE.info, partCol, InCol.info, Vals.part_members]
    · intro m? hm
      have hE := f2 p c m? e hp hm he
      apply hE.sent.gives
      rw [hE.cells]
      have hcl : r % cap < ((partCol (r / cap * cap) (min cap (T.rows - r / cap * cap)) c).vals.cells env).length := by
        rw [Vals.cells_length, hE.rows]; exact hin
      rw [List.getD_eq_getElem?_getD, List.getElem?_eq_getElem hcl]
      rfl

theorem start_missing_none (env : Env) (v : Vals) :
    ∃ k w, startCodec v.ty env.asDbl v.words none = .ok k ∧ k.missingWord = .ok w := by
  cases v with
  | ints vs => exact start_missing (v := .ints []) ⟨Or.inl rfl, by simp [Vals.Ok]⟩
  | bits ms vs =>
    obtain ⟨k, k1, k2, k3, k4, _⟩ := startCodec_int .bitfield (Or.inr rfl) env.asDbl 2147483647 (by decide) none (Or.inr ⟨rfl, rfl⟩)
    exact ⟨k, _, k1, int_missingWord (by decide) k3 k4 (by rw [k2]; simp [Kind.isInt])⟩
  | reals vs =>
    obtain ⟨k, k1, k2, _⟩ := startCodec_real .real (Or.inl rfl) env.asDbl realMDI none (Or.inr ⟨rfl, rfl⟩)
    exact ⟨k, _, k1, real_missingWord (by rw [k2]; rfl)⟩
  | doubles vs =>
    obtain ⟨k, k1, k2, _⟩ := startCodec_real .double (Or.inr rfl) env.asDbl realMDI none (Or.inr ⟨rfl, rfl⟩)
    exact ⟨k, _, k1, real_missingWord (by rw [k2]; rfl)⟩
  | strings w vs =>
    obtain ⟨k, k1, k2, k3, _⟩ := startCodec_str env.asDbl w
    refine ⟨k, realMDI, k1, ?_⟩
    unfold Codec.missingWord
    rw [k2, k3]; rfl

theorem msAt_none (n k : Nat) : msAt (List.replicate n none) k = List.replicate n none := by
  unfold msAt; split <;> simp

/-- A value of a part of a column is the value of the column, for all types but REAL. -/
theorem part_gives (env : Env) (v : Vals) (s n r : Nat) (y : Cell) (h : (v.part s n).Gives env r y) (hty : v.ty ≠ .real) :
    v.Gives env (s + r) y := by
  have hget : ∀ {α : Type} (l : List α) (a : α), ((l.drop s).take n)[r]? = some a → l[s + r]? = some a := by
    intro α l a ha
    rw [List.getElem?_take] at ha
    split at ha
    · rwa [List.getElem?_drop] at ha
    · simp at ha
  cases v with
  | ints vs => obtain ⟨i, a, b⟩ := h; exact ⟨i, hget _ _ a, b⟩
  | bits ms vs => obtain ⟨i, a, b⟩ := h; exact ⟨i, hget _ _ a, b⟩
  | reals vs => exact absurd rfl hty
  | doubles vs => obtain ⟨i, a, b⟩ := h; exact ⟨i, hget _ _ a, b⟩
  | strings w vs => obtain ⟨i, w', a, b, c⟩ := h; exact ⟨i, w', hget _ _ a, b, c⟩

/-- **C20**: a table written row by row with `Writer` - any buffer size `cap ≥ 1`, either byte order - gives
`⌈rows / cap⌉` frames, and iterating over the file with `Reader` shows exactly the rows written, in order, no more
and no less, without an exception, each with the declared columns and the values as a frame holds them
(`Vals.Gives`: integers, bitfields, doubles and strings unchanged, reals rounded to single precision). -/
theorem C20_rows (env : Env) (hmd5 : env.Md5Ok) (o : Order) (cap : Nat) (hcap : 0 < cap) (T : UTable) (hT : T.RowsOk env cap) :
    ∃ fs, T.write env o cap = .ok fs ∧ fs.length = (T.rows + cap - 1) / cap ∧
      ((∀ f ∈ fs, f.length ≤ 2147483647) → ∀ (junk : Junk) (fuel : Nat), T.rows + 1 < fuel →
        ∃ views, readRows env junk fs.flatten fuel = (views, none) ∧ views.length = T.rows ∧
          ∀ (r : Nat) (v : RowView), views[r]? = some v → v.cols.length = T.cols.length ∧
            v.cells.length = T.cols.length ∧ v.fresh = decide (r ≠ 0 ∧ r % cap = 0) ∧
            ∀ (p : Nat) (c : InCol), T.cols[p]? = some c →
              ∃ (k : Col) (y : Cell), v.cols[p]? = some k ∧ k.name = c.name ∧ k.ty = c.vals.ty.toInt ∧
                k.bitNames = c.vals.members.map Prod.fst ∧ k.bitSizes = c.vals.members.map Prod.snd ∧
                v.cells[p]? = some y ∧
                (c.vals.part (r / cap * cap) (min cap (T.rows - r / cap * cap))).Gives env (r % cap) y ∧
                (c.vals.ty ≠ .real → c.vals.Gives env r y)) := by
  obtain ⟨Fs, h1, h2⟩ := writeMiss_ok env hmd5 o T hT.wtable cap hcap (List.replicate T.cols.length none) (by simp) hT.names
    hT.named
    (by
      intro i c m? hc hm
      have := List.eq_of_mem_replicate (List.mem_of_getElem? hm)
      subst this
      exact start_missing_none env c.vals)
    (by
      intro k i c m? hk hc hm
      rw [msAt_none] at hm
      have := List.eq_of_mem_replicate (List.mem_of_getElem? hm)
      subst this
      exact (Vals.OkMiss.none_iff env _).mpr (hT.vals k hk c (List.mem_of_getElem? hc)))
    (by
      intro i c m z hc hm
      have := List.eq_of_mem_replicate (List.mem_of_getElem? hm)
      simp at this)
  refine ⟨Fs.map RFrame.bytes, h1, by simp [h2.count], ?_⟩
  intro hsz junk fuel hf
  obtain ⟨views, v1, v2, v3⟩ := written_rows env T hT.wtable cap hcap _ (by simp) Fs h2 hsz junk fuel hf
  refine ⟨views, v1, v2, ?_⟩
  intro r v hv
  obtain ⟨a, b, c, d⟩ := v3 r v hv
  refine ⟨a, b, c, ?_⟩
  intro p c' hp
  obtain ⟨k, y, e1, e2, e3, e4, e5, e6, e7⟩ := d p c' hp
  have hg : (c'.vals.part (r / cap * cap) (min cap (T.rows - r / cap * cap))).Gives env (r % cap) y := by
    rw [← Vals.GivesMiss.none_iff]
    apply e7
    rw [msAt_none, List.getElem?_replicate, if_pos (List.getElem?_eq_some_iff.mp hp).1]
  refine ⟨k, y, e1, e2, e3, e4, e5, e6, hg, fun hty => ?_⟩
  have := part_gives env _ _ _ _ y hg hty
  rwa [show r / cap * cap + r % cap = r by rw [Nat.mul_comm]; exact Nat.div_add_mod r cap] at this

/-- What the writer starts the second frame with in a column with a missing value of its own. -/
theorem later_custom {env : Env} {v : Vals} {m : Word} {z : Cell} (hO : v.OkMiss env (some m)) (h : LaterCell env v (some m) z) :
    z = [m] ∨ ∃ i : Int, m = ofInt i ∧ z = [intWord env.asDbl i] := by
  obtain ⟨cells, c, h1, h2⟩ := h
  obtain ⟨w, r1, r2⟩ := initCell_word h2
  obtain ⟨k, _, k1, _⟩ := start_missing hO
  obtain ⟨q1, q2, q3⟩ := chosen_pres v.ty_ne k1 h1
  have hone : v.words = 1 → z = [w] := by intro hw; rw [r2, q2, hw]; rfl
  have hint : ∀ ty : ColType, (ty = .integer ∨ ty = .bitfield) → v.ty = ty → v.words = 1 →
      (some m = none ∨ ∃ i, InI32 i ∧ some m = some (ofInt i)) →
      z = [m] ∨ ∃ i : Int, m = ofInt i ∧ z = [intWord env.asDbl i] := by
    intro ty hty hv hw hm
    rcases hm with hm | ⟨i, hi, hm⟩
    · simp at hm
    simp only [Option.some.injEq] at hm
    subst hm
    rw [hv, hw] at k1 h1
    obtain ⟨k', s1, s2, s3, s4, _⟩ := startCodec_int ty hty env.asDbl i hi _ (Or.inl rfl)
    rw [s1] at k1
    simp only [Except.ok.injEq] at k1
    subst k1
    have hkv : c.kind.hasVT = true := by
      unfold chosenCodec at h1
      rw [s1] at h1
      unfold optimise at h1
      have hk2 : ∀ b n, (intKind b n).hasVT = true := by
        intro b n
        unfold intKind; split <;> split <;> (try rfl) <;> split <;> (try rfl) <;> split <;> rfl
      rcases hty with rfl | rfl <;> simp only at h1 <;> split at h1
      · rw [rebuild_kind h1]; exact hk2 _ _
      · simp at h1
      · rw [rebuild_kind h1]; exact hk2 _ _
      · simp at h1
    unfold Codec.missingWord at r1
    rw [q1, s4, q3, hv, vtOf_int _ hkv ty hty] at r1
    split at r1
    · rw [toVT_ofInt env.asDbl _ hi] at r1
      simp only [Except.ok.injEq] at r1
      exact Or.inr ⟨i, rfl, by rw [hone hw, ← r1]⟩
    · simp only [Except.ok.injEq] at r1
      exact Or.inl (by rw [hone hw, ← r1])
  have hreal : ∀ ty : ColType, (ty = .real ∨ ty = .double) → v.ty = ty → v.words = 1 → z = [m] := by
    intro ty hty hv hw
    rw [hv, hw] at k1 h1
    obtain ⟨k', s1, s2, s3, s4, _⟩ := startCodec_real ty hty env.asDbl m (some m) (Or.inl rfl)
    rw [s1] at k1
    simp only [Except.ok.injEq] at k1
    subst k1
    rw [real_missingWord (chosen_isReal hty h1), q1, s4] at r1
    simp only [Except.ok.injEq] at r1
    rw [hone hw, ← r1]
  cases v with
  | ints vs => exact hint .integer (Or.inl rfl) rfl rfl hO.1
  | bits ms vs => exact hint .bitfield (Or.inr rfl) rfl rfl hO.1
  | reals vs => exact Or.inl (hreal .real (Or.inl rfl) rfl rfl)
  | doubles vs => exact Or.inl (hreal .double (Or.inr rfl) rfl rfl)
  | strings w vs => exact absurd hO.1 (by simp)

/-- **C21**: missing values set with `missingValue(i, v)` before `writeHeader`: the rows come back as written, the
given missing values meaning "missing" in the first frame and the default ones afterwards (what the code does;
see `C21_violated`), provided that the row after the first flush does not hold the given missing value. -/
theorem C21_missing (env : Env) (hmd5 : env.Md5Ok) (o : Order) (cap : Nat) (hcap : 0 < cap) (T : UTable) (ms : List (Option Word))
    (hms : ms.length = T.cols.length) (hfew : T.cols.length < 65536) (hnames : (T.cols.map InCol.name).Nodup)
    (hnamed : ∀ c ∈ T.cols, c.name ≠ []) (hrows : ∀ c ∈ T.cols, c.vals.rows = T.rows) (hpos : 0 < T.rows)
    (hlens : ∀ c ∈ T.cols, ColLen c) (hp1 : MapOk T.props) (hp2 : LenOk T.props.length)
    (hp3 : ∀ kv ∈ T.props, LenOk kv.1.length ∧ LenOk kv.2.length) (hbig : T.rows < 18446744073709551616)
    (hfirst : ∀ (p : Nat) (c : InCol) (m? : Option Word), T.cols[p]? = some c → ms[p]? = some m? →
      (c.vals.part 0 (min cap T.rows)).OkMiss env m?)
    (hlater : ∀ k : Nat, k ≠ 0 → k * cap < T.rows → ∀ c ∈ T.cols,
      (c.vals.part (k * cap) (min cap (T.rows - k * cap))).Ok env)
    (hfresh : ∀ (p : Nat) (c : InCol) (m : Word), T.cols[p]? = some c → ms[p]? = some (some m) →
      (c.vals.cells env)[cap]? ≠ some [m] ∧ ∀ i : Int, m = ofInt i → (c.vals.cells env)[cap]? ≠ some [intWord env.asDbl i]) :
    ∃ fs, T.writeMiss env o cap ms = .ok fs ∧ fs.length = (T.rows + cap - 1) / cap ∧
      ((∀ f ∈ fs, f.length ≤ 2147483647) → ∀ (junk : Junk) (fuel : Nat), T.rows + 1 < fuel →
        ∃ views, readRows env junk fs.flatten fuel = (views, none) ∧ views.length = T.rows ∧
          ∀ (r : Nat) (v : RowView), views[r]? = some v → ∀ (p : Nat) (c : InCol) (m? : Option Word),
            T.cols[p]? = some c → ms[p]? = some m? → ∃ y, v.cells[p]? = some y ∧
              (c.vals.part (r / cap * cap) (min cap (T.rows - r / cap * cap))).GivesMiss env
                (if r < cap then m? else none) (r % cap) y) := by
  have hWT : WTable env T := ⟨hfew, hrows, hlens, hp1, hp2, hp3, hbig⟩
  obtain ⟨Fs, h1, h2⟩ := writeMiss_ok env hmd5 o T hWT cap hcap ms hms hnames hnamed
    (by
      intro i c m? hc hm
      have := start_missing (hfirst i c m? hc hm)
      rwa [Vals.part_ty, Vals.part_words] at this)
    (by
      intro k i c m? hk hc hm
      by_cases hk0 : k = 0
      · subst hk0
        simp only [msAt, if_true] at hm
        simpa using hfirst i c m? hc hm
      · simp only [msAt, if_neg hk0] at hm
        have := List.eq_of_mem_replicate (List.mem_of_getElem? hm)
        subst this
        exact (Vals.OkMiss.none_iff env _).mpr (hlater k hk0 hk c (List.mem_of_getElem? hc)))
    (by
      intro i c m z hc hm hz hl
      have hO := hfirst i c (some m) hc hm
      rw [← laterCell_part (s := 0) (j := min cap T.rows)] at hl
      obtain ⟨hf1, hf2⟩ := hfresh i c m hc hm
      rcases later_custom hO hl with h | ⟨j, h3, h4⟩
      · exact hf1 (by rw [hz, h])
      · exact hf2 j h3 (by rw [hz, h4]))
  refine ⟨Fs.map RFrame.bytes, h1, by simp [h2.count], ?_⟩
  intro hsz junk fuel hf
  obtain ⟨views, v1, v2, v3⟩ := written_rows env T hWT cap hcap ms hms Fs h2 hsz junk fuel hf
  refine ⟨views, v1, v2, ?_⟩
  intro r v hv p c m? hp hm
  obtain ⟨k, y, _, _, _, _, _, e6, e7⟩ := (v3 r v hv).col p c hp
  refine ⟨y, e6, e7 _ ?_⟩
  by_cases hr : r < cap
  · rw [if_pos hr, Nat.div_eq_of_lt hr]
    simpa [msAt] using hm
  · rw [if_neg hr]
    have : r / cap ≠ 0 := by
      have := (Nat.div_pos_iff (a := r) (b := cap)).mpr ⟨hcap, by omega⟩
      omega
    simp only [msAt, if_neg this]
    rw [List.getElem?_replicate, if_pos (List.getElem?_eq_some_iff.mp hm).1]

/-! ### The hypotheses are met -/

/-- The cells of the rows read, and whether the loop ended normally. -/
def rowsSeen (env : Env) (r : Except Err (List (List Byte))) (fuel : Nat) : Option (List (List Cell) × Bool) :=
  match r with
  | .error _ => none
  | .ok fs => some ((readRows env (fun _ _ _ => 0) fs.flatten fuel).1.map RowView.cells,
      (readRows env (fun _ _ _ => 0) fs.flatten fuel).2.isNone)

/-- The sample table, in frames of two rows. -/
theorem sampleTable_rowsOk : sampleTable.RowsOk sampleEnv 2 where
  few := by decide +kernel
  names := by decide +kernel
  named := by
    intro c hc
    simp only [sampleTable, List.mem_cons, List.not_mem_nil, or_false] at hc
    rcases hc with rfl | rfl | rfl | rfl | rfl <;> decide +kernel
  rows := by
    intro c hc
    simp only [sampleTable, List.mem_cons, List.not_mem_nil, or_false] at hc
    rcases hc with rfl | rfl | rfl | rfl | rfl <;> decide +kernel
  lens := by
    intro c hc
    simp only [sampleTable, List.mem_cons, List.not_mem_nil, or_false] at hc
    rcases hc with rfl | rfl | rfl | rfl | rfl
    all_goals refine ⟨by decide +kernel, by decide +kernel, ?_⟩
    all_goals
      intro b hb
      simp only [Vals.members, List.mem_cons, List.not_mem_nil, or_false] at hb
    rcases hb with rfl | rfl <;> exact ⟨by decide +kernel, by decide +kernel⟩
  props := List.pairwise_singleton _ _
  nprops := by decide +kernel
  plen := by
    intro kv hkv
    simp only [sampleTable, List.mem_singleton] at hkv
    subst hkv
    exact ⟨by decide +kernel, by decide +kernel⟩
  big := by decide +kernel
  vals := by
    intro k hk c hc
    have hk3 : k * 2 < 3 := hk
    have hk' : k = 0 ∨ k = 1 := by omega
    simp only [sampleTable, List.mem_cons, List.not_mem_nil, or_false] at hc
    rcases hk' with rfl | rfl
    · rcases hc with rfl | rfl | rfl | rfl | rfl
      · exact ball (l := [5, 2147483647]) (P := InI32) (by decide +kernel)
      · exact (⟨ball (by decide +kernel), ball (by decide +kernel), by decide +kernel, fun h => absurd h (by decide +kernel)⟩ :
          DoublesOk realMDI [0x3ff0000000000000, 0x4000000000000000])
      · exact (⟨ball (by decide +kernel), by decide +kernel, fun _ => ball (by decide +kernel), ball (by decide +kernel),
          fun h => absurd h (by
            rintro ⟨w, hw, he⟩
            exact absurd he (ball (P := fun w => ¬ feq w (widen maxFloat) = true) (by decide +kernel) w hw))⟩ :
          RealsOk realMDI [0x3ff8000000000000, ofInt (-2147483647)])
      · refine ⟨by decide, by decide, ?_, ?_, ?_, ?_⟩
        · intro s hs
          have hs' : s ∈ [lit "x", lit "longer string"] := hs
          simp only [List.mem_cons, List.not_mem_nil, or_false] at hs'
          rcases hs' with rfl | rfl <;> exact ⟨by decide +kernel, nulFree_of (by decide +kernel)⟩
        · intro ds h1 h2
          exact few_distinct _ _ h1 h2 (by decide +kernel)
        · intro h; cases h
        · exact ball (l := [lit "x", lit "longer string"]) (P := fun s => isNaN (wordOfBytes (s.take 8)) = false) (by decide +kernel)
      · refine ⟨ball (l := [31, 0]) (P := InI32) (by decide +kernel), by decide +kernel, ?_⟩
        intro b hb
        simp only [List.mem_cons, List.not_mem_nil, or_false] at hb
        rcases hb with rfl | rfl <;> exact ⟨by decide +kernel, by decide +kernel⟩
    · rcases hc with rfl | rfl | rfl | rfl | rfl
      · exact ball (l := [-7]) (P := InI32) (by decide +kernel)
      · exact (⟨ball (by decide +kernel), ball (by decide +kernel), by decide +kernel, fun h => absurd h (by decide +kernel)⟩ :
          DoublesOk realMDI [0x7ff0000000000000])
      · exact (⟨ball (by decide +kernel), by decide +kernel, fun _ => ball (by decide +kernel), ball (by decide +kernel),
          fun h => absurd h (by
            rintro ⟨w, hw, he⟩
            exact absurd he (ball (P := fun w => ¬ feq w (widen maxFloat) = true) (by decide +kernel) w hw))⟩ :
          RealsOk realMDI [0x3fb999999999999a])
      · refine ⟨by decide, by decide, ?_, ?_, ?_, ?_⟩
        · intro s hs
          have hs' : s ∈ [([] : Str)] := hs
          simp only [List.mem_singleton] at hs'
          subst hs'
          exact ⟨by decide +kernel, nulFree_of (by decide +kernel)⟩
        · intro ds h1 h2
          exact few_distinct _ _ h1 h2 (by decide +kernel)
        · intro h; cases h
        · exact ball (l := [([] : Str)]) (P := fun s => isNaN (wordOfBytes (s.take 8)) = false) (by decide +kernel)
      · refine ⟨ball (l := [1]) (P := InI32) (by decide +kernel), by decide +kernel, ?_⟩
        intro b hb
        simp only [List.mem_cons, List.not_mem_nil, or_false] at hb
        rcases hb with rfl | rfl <;> exact ⟨by decide +kernel, by decide +kernel⟩

/-- Its frames are small, in either byte order. -/
example : (match sampleTable.write sampleEnv .same 2, sampleTable.write sampleEnv .other 2 with
    | .ok a, .ok b => decide (a.length = 2 ∧ b.length = 2) && (a ++ b).all (fun f => decide (f.length ≤ 2147483647))
    | _, _ => false) = true := by decide +kernel

/-- A custom missing value that works: -1 in the first frame. -/
example : rowsSeen sampleEnv ((oneCol 2 (.doubles [0x3ff0000000000000, ofInt (-1)])).writeMiss sampleEnv .same 2 [some (ofInt (-1))]) 10 =
    some ([[[0x3ff0000000000000]], [[ofInt (-1)]]], true) := by decide +kernel

theorem minusOnes_ok : DoublesOk (ofInt (-1)) [0x3ff0000000000000, ofInt (-1)] :=
  ⟨ball (by decide +kernel), ball (by decide +kernel), by decide +kernel, fun _ => ball (by decide +kernel)⟩

/-- A column meeting the conditions of C21 with the missing value -1. -/
example : ((Vals.doubles [0x3ff0000000000000, ofInt (-1)]).part 0 2).OkMiss sampleEnv (some (ofInt (-1))) := by
  simp only [Vals.part, Vals.OkMiss, Option.getD_some, List.drop_zero, List.take_succ_cons, List.take_zero]
  exact ⟨by decide +kernel, minusOnes_ok⟩

/-! ### What is lost -/

/-- **C21 fails after the first flush**: with the missing value -1 and a buffer of one row, the -1 of the second row
comes back as -2147483647. -/
theorem C21_violated : rowsSeen sampleEnv
    ((oneCol 2 (.doubles [0x3ff0000000000000, ofInt (-1)])).writeMiss sampleEnv .same 1 [some (ofInt (-1))]) 10 =
    some ([[[0x3ff0000000000000]], [[ofInt (-2147483647)]]], true) := by decide +kernel

/-- The same with integers held as doubles: the user writes -1 and reads 2147483647. -/
theorem C21_violated_int : rowsSeen { sampleEnv with asDbl := true }
    ((oneCol 2 (.ints [5, -1])).writeMiss { sampleEnv with asDbl := true } .same 1 [some (ofInt (-1))]) 10 =
    some ([[[ofInt 5]], [[ofInt 2147483647]]], true) := by decide +kernel

/-- Two rows through `data(i)` and `next()`, the second setting only the first column. -/
def carryRows (cap : Nat) : Except Err (List (List Byte)) := do
  let w ← ((Writer.new cap).setSize 2).declare sampleEnv 0
    [(⟨lit "a", .doubles []⟩, none), (⟨lit "b", .doubles []⟩, none)]
  let w ← w.writeHeader
  let w ← w.setData 0 [ofInt 1]
  let w ← w.setData 1 [ofInt 2]
  let w ← w.next sampleEnv .same
  let w ← w.setData 0 [ofInt 3]
  let w ← w.next sampleEnv .same
  let w ← w.close sampleEnv .same
  pure w.out

/-- **C20 fails for rows set value by value**: a column not set keeps its value from the row before, but only until
the buffer is flushed; the same calls write different rows with a buffer of one row. -/
theorem C20_violated_carry :
    rowsSeen sampleEnv (carryRows 4) 10 = some ([[[ofInt 1], [ofInt 2]], [[ofInt 3], [ofInt 2]]], true) ∧
    rowsSeen sampleEnv (carryRows 1) 10 = some ([[[ofInt 1], [ofInt 2]], [[ofInt 3], [ofInt (-2147483647)]]], true) :=
  ⟨by decide +kernel, by decide +kernel⟩

end Verif
