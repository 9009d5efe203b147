import Verif.PropRows
import Verif.PropFrames

/-
Files written by `encode`, read row by row.
-/

namespace Verif

theorem EncSent.encOk {env : Env} {n : Nat} {c : InCol} {e : EncCol} (h : EncSent env n c none e) : e.Ok env n where
  rows := by rw [h.cells, Vals.cells_length, h.rows]
  elem := by rw [h.info, h.data]; simp [InCol.info, InCol.data]
  travels := by
    have hi : e.info.ty = c.vals.ty ∧ e.info.decodedSize = 8 * c.vals.words := by rw [h.info]; exact ⟨rfl, rfl⟩
    refine ⟨by rw [hi.2]; omega, ?_, ?_, ?_, ?_⟩
    · rw [hi.1, hi.2, h.cells, Nat.mul_div_cancel_left _ (by omega)]; exact h.sent.chosen
    · rw [hi.1]; exact h.sent.save
    · rw [hi.1, h.cells]; exact h.sent.trip
    · intro _; rw [hi.2]; have := h.sent.size; omega
  name := by rw [h.info]; exact h.name
  nbits := by rw [h.info]; exact h.nbits
  bits := by rw [h.info]; exact h.bits
  noBits := by
    rw [h.info]
    intro hb
    exact Vals.members_bitfield _ hb

/-- What a row of a table is read as. -/
structure RowOf (env : Env) (T : UTable) (r : Nat) (v : RowView) : Prop where
  ncols : v.cols.length = T.cols.length
  ncells : v.cells.length = T.cols.length
  col : ∀ (p : Nat) (c : InCol), T.cols[p]? = some c →
    ∃ (k : Col) (y : Cell), v.cols[p]? = some k ∧ k.name = c.name ∧ k.ty = c.vals.ty.toInt ∧
      v.cells[p]? = some y ∧ c.vals.Gives env r y
  miss : ∀ k ∈ v.cols, ∃ m, k.codec.missingWord = .ok m
  shape : ∀ (p : Nat) (c : InCol) (k : Col) (y : Cell), T.cols[p]? = some c → v.cols[p]? = some k → v.cells[p]? = some y →
    y.length = k.codec.width ∧ k.bitNames = c.vals.members.map Prod.fst ∧ k.bitSizes = c.vals.members.map Prod.snd ∧
      1 ≤ k.codec.width ∧ k.codec.width ≤ c.vals.words
  missing : ∀ (p : Nat) (c : InCol), T.cols[p]? = some c → v.isMissing p = .ok (c.vals.isMissing r)
  mdi : env.asDbl = true → ∀ (p : Nat) (c : InCol) (k : Col), T.cols[p]? = some c → v.cols[p]? = some k → k.codec.missingWord = .ok (c.vals.mdiWord env)

/-- Proof device: the codecs of columns read from a file are those chosen for the values. -/
def CodecsSent (env : Env) (cs : List InCol) (ks : List Col) : Prop :=
  Match (fun (c : InCol) (k : Col) => ∃ q back, ColSent env c.vals none q back ∧ k.codec = reload env.asDbl c.vals.ty.toInt q) cs ks

theorem encode_rframe (env : Env) (hmd5 : env.Md5Ok) (o : Order) (T : UTable) (hT : T.Ok env) (hv : ∀ c ∈ T.cols, c.vals.Ok env)
    (hpos : 0 < T.rows) :
    ∃ F : RFrame, T.encode env o = .ok F.bytes ∧ (F.bytes.length ≤ 2147483647 → F.Ok env) ∧ F.rows.length = T.rows ∧
      (∀ (r : Nat) (row : List Cell) (b : Bool), F.rows[r]? = some row → RowOf env T r ⟨F.cols, row, b⟩) ∧ CodecsSent env T.cols F.cols := by
  obtain ⟨es, hl, hes⟩ := exists_list (fun c e => EncSent env T.rows c none e) T.cols (by
    intro c hc
    obtain ⟨h1, h2, h3⟩ := hT.col c hc
    obtain ⟨q, back, hq⟩ := Vals.sentMiss env c.vals none ((Vals.OkMiss.none_iff env _).mpr (hv c hc)) (by omega)
    have hm : LenOk c.vals.members.length ∧ ∀ b ∈ c.vals.members, LenOk b.1.length ∧ InI32 b.2 := by
      have := hv c hc
      cases hvv : c.vals with
      | bits ms vs => rw [hvv] at this; exact ⟨this.2.1, this.2.2⟩
      | _ => simp [Vals.members, LenOk]
    exact ⟨⟨c.info, c.data env, q, back⟩, rfl, rfl, hq, h3, h1, hm.1, hm.2⟩)
  have hS : ∀ e ∈ es, ∃ c ∈ T.cols, EncSent env T.rows c none e := by
    intro e he
    obtain ⟨i, hi, rfl⟩ := List.getElem_of_mem he
    exact ⟨T.cols[i]'(by omega), List.getElem_mem _, hes i _ _ (List.getElem?_eq_getElem (by omega)) (List.getElem?_eq_getElem hi)⟩
  have hinfo : es.map EncCol.info = T.cols.map InCol.info := by
    apply List.ext_getElem (by simp [hl])
    intro i h1 h2
    simp only [List.getElem_map]
    exact (hes i _ _ (List.getElem?_eq_getElem (by simpa using h2)) (List.getElem?_eq_getElem (by simpa using h1))).info
  have hdata : es.map EncCol.data = T.cols.map (InCol.data env) := by
    apply List.ext_getElem (by simp [hl])
    intro i h1 h2
    simp only [List.getElem_map]
    exact (hes i _ _ (List.getElem?_eq_getElem (by simpa using h2)) (List.getElem?_eq_getElem (by simpa using h1))).data
  have hne : es ≠ [] := by
    intro h; rw [h] at hl; exact hT.ne (List.length_eq_zero_iff.mp hl.symm)
  obtain ⟨bs, e1, _, _, e4⟩ := encodeFrame_ok env o es T.rows T.props hne (by rw [hl]; exact hT.few)
    (fun e he => let ⟨_, _, s⟩ := hS e he; s.encOk)
  have hall : AllSent env T.rows es := fun e he => let ⟨c, _, s⟩ := hS e he; ⟨c, none, s⟩
  have hver := hT.version
  obtain ⟨bs', b1, _, b3⟩ := frame_rows env hmd5 o es T.rows hpos (by have := hT.rows; omega) (by rw [hl]; exact hT.few) hall
    (mapSet (lit "encoder") (lit "odc version " ++ env.version) T.props) (mapSet_ok _ _ _ hT.props)
    (by have := mapSet_length (lit "encoder") (lit "odc version " ++ env.version) T.props; have := hT.nprops; simp only [LenOk]; omega)
    (by
      intro kv hkv
      rcases mapSet_mem _ _ _ kv hkv with h | h
      · exact hT.plen kv h
      · subst h
        refine ⟨by show LenOk (lit "encoder").length; decide +kernel, ?_⟩
        have : (lit "odc version ").length = 12 := by decide +kernel
        simp only [LenOk, List.length_append, this]; omega)
    none (by simp)
  rw [e4] at b1
  simp only [Except.ok.injEq] at b1
  subst b1
  rw [hinfo, hdata] at e1
  refine ⟨⟨_, readCols env es, backRows es T.rows⟩, e1, fun hs => (b3 hs).1, by simp [backRows], ?_, ?_⟩
  on_goal 2 =>
    refine Match.of_get _ _ (by simp [readCols, hl]) ?_
    intro p c k hp hk
    have hpl := (List.getElem?_eq_some_iff.mp hp).1
    have he : es[p]? = some (es[p]'(by omega)) := List.getElem?_eq_getElem _
    generalize es[p]'(by omega) = e at he
    have hE := hes p c e hp he
    dsimp only at hk
    rw [readCols, List.getElem?_map, he] at hk
    simp only [Option.map_some, Option.some.injEq] at hk
    subst hk
    exact ⟨e.codec, e.back, hE.sent, by simp [Col.reload, EncCol.col, hE.info, InCol.info]⟩
  intro r row b hrow
  have hr : r < T.rows := by
    have := (List.getElem?_eq_some_iff.mp hrow).1
    simpa [backRows] using this
  rw [backRows_get es _ _ hr] at hrow
  simp only [Option.some.injEq] at hrow
  subst hrow
  refine ⟨by simp [readCols, hl], by simp [hl], ?_, ?_, ?_, ?_, ?_⟩
  on_goal 5 =>
    intro had p c k hp hk
    have hpl := (List.getElem?_eq_some_iff.mp hp).1
    have he : es[p]? = some (es[p]'(by omega)) := List.getElem?_eq_getElem _
    generalize es[p]'(by omega) = e at he
    have hE := hes p c e hp he
    rw [readCols, List.getElem?_map, he] at hk
    simp only [Option.map_some, Option.some.injEq] at hk
    subst hk
    have hcod : (e.col.reload env.asDbl).codec = reload env.asDbl c.vals.ty.toInt e.codec := by
      simp [Col.reload, EncCol.col, hE.info, InCol.info]
    rw [hcod]
    exact hE.sent.reports had (hv c (List.mem_of_getElem? hp))
  on_goal 4 =>
    intro p c hp
    have hpl := (List.getElem?_eq_some_iff.mp hp).1
    have he : es[p]? = some (es[p]'(by omega)) := List.getElem?_eq_getElem _
    generalize es[p]'(by omega) = e at he
    have hE := hes p c e hp he
    have hcl : r < (c.vals.cells env).length := by rw [Vals.cells_length, hE.rows]; exact hr
    have hcell : (c.vals.cells env)[r]? = some (e.data.cells.getD r []) := by
      rw [hE.cells, List.getD_eq_getElem?_getD, List.getElem?_eq_getElem hcl]
      rfl
    have hg := (Vals.GivesMiss.none_iff env _ _ _).mp (hE.sent.gives _ _ hcell)
    obtain ⟨m, m1, m2⟩ := hE.sent.told (hv c (List.mem_of_getElem? hp)) _ _ hg
    have hcod : (e.col.reload env.asDbl).codec = reload env.asDbl c.vals.ty.toInt e.codec := by
      simp [Col.reload, EncCol.col, hE.info, InCol.info]
    rw [← hcod] at m1 m2
    rw [RowView.isMissing_of (k := e.col.reload env.asDbl) (y := e.back (e.data.cells.getD r [])) (m := m)
      (by rw [readCols, List.getElem?_map, he]; rfl) (by rw [List.getElem?_map, he]; rfl) m1, m2]
  on_goal 3 =>
    intro p c k y hp hk hy
    have hpl := (List.getElem?_eq_some_iff.mp hp).1
    have he : es[p]? = some (es[p]'(by omega)) := List.getElem?_eq_getElem _
    generalize es[p]'(by omega) = e at he
    have hE := hes p c e hp he
    rw [readCols, List.getElem?_map, he] at hk
    rw [List.getElem?_map, he] at hy
    simp only [Option.map_some, Option.some.injEq] at hk hy
    subst hk; subst hy
    have hcl : r < (c.vals.cells env).length := by rw [Vals.cells_length, hE.rows]; exact hr
    refine ⟨?_, by simp [Col.reload, EncCol.col, hE.info, InCol.info], by simp [Col.reload, EncCol.col, hE.info, InCol.info],
      by simpa [Col.reload, EncCol.col, hE.info, InCol.info] using hE.sent.pos, by simpa [Col.reload, EncCol.col, hE.info, InCol.info] using hE.sent.le⟩
    have := hE.sent.exact _ (List.getElem_mem hcl)
    rw [hE.cells, List.getD_eq_getElem?_getD, List.getElem?_eq_getElem hcl, Option.getD_some, this]
    simp [Col.reload, EncCol.col, hE.info, InCol.info]
  on_goal 2 =>
    intro k hk
    simp only [readCols, List.mem_map] at hk
    obtain ⟨e, he, rfl⟩ := hk
    obtain ⟨c, _, hE⟩ := hS e he
    obtain ⟨m, hm, _⟩ := hE.sent.missing
    exact ⟨m, by simpa [Col.reload, EncCol.col, hE.info, InCol.info] using hm⟩
  intro p c hp
  have hpl := (List.getElem?_eq_some_iff.mp hp).1
  have he : es[p]? = some (es[p]'(by omega)) := List.getElem?_eq_getElem _
  generalize es[p]'(by omega) = e at he
  have hE := hes p c e hp he
  refine ⟨e.col.reload env.asDbl, _, by rw [readCols, List.getElem?_map, he]; rfl, ?_, ?_, by rw [List.getElem?_map, he]; rfl, ?_⟩
  · simp [Col.reload, EncCol.col, hE.info, InCol.info]
  · simp [Col.reload, EncCol.col, hE.info, InCol.info]
  · rw [← Vals.GivesMiss.none_iff]
    apply hE.sent.gives
    rw [hE.cells]
    have hcl : r < (c.vals.cells env).length := by rw [Vals.cells_length, hE.rows]; exact hr
    rw [List.getD_eq_getElem?_getD, List.getElem?_eq_getElem hcl]
    rfl

/-- The rows of several tables, one after the other. -/
def RowsOfAll (env : Env) : List UTable → List RowView → Prop
  | [], vs => vs = []
  | T :: Ts, vs => (∀ (r : Nat) (v : RowView), r < T.rows → vs[r]? = some v → RowOf env T r v) ∧
      T.rows ≤ vs.length ∧ RowsOfAll env Ts (vs.drop T.rows)

theorem tableViews_rows {env : Env} {T : UTable} {F : RFrame} (hl : F.rows.length = T.rows)
    (h : ∀ (r : Nat) (row : List Cell) (b : Bool), F.rows[r]? = some row → RowOf env T r ⟨F.cols, row, b⟩)
    (b : Bool) (rest : List RowView) :
    (∀ (r : Nat) (v : RowView), r < T.rows → (tableViews b F ++ rest)[r]? = some v → RowOf env T r v) ∧
      T.rows ≤ (tableViews b F ++ rest).length ∧ (tableViews b F ++ rest).drop T.rows = rest := by
  refine ⟨?_, by simp [tableViews_length, hl], ?_⟩
  · intro r v hr hv
    rw [List.getElem?_append_left (by rw [tableViews_length, hl]; exact hr), tableViews_get, Option.map_eq_some_iff] at hv
    obtain ⟨row, h1, rfl⟩ := hv
    exact h r row _ h1
  · rw [← hl, ← tableViews_length b F, List.drop_left]

/-- **C43**: a file written by `encode` (any number of tables, each with rows, whose values a frame can hold) and
iterated over with the row interface `Reader` shows exactly the rows of the tables in order, with the same values
that decoding gives (`Vals.Gives`), whatever memory held before, and no exception. -/
theorem C43_encode_rows (env : Env) (hmd5 : env.Md5Ok) (Ts : List UTable) (hT : ∀ T ∈ Ts, T.Ok env)
    (hv : ∀ T ∈ Ts, ∀ c ∈ T.cols, c.vals.Ok env) (hpos : ∀ T ∈ Ts, 0 < T.rows) :
    ∃ bss, writeTables env Ts = .ok bss ∧ ((∀ b ∈ bss, b.length ≤ 2147483647) →
      ∀ fuel : Nat, (Ts.map UTable.rows).sum + 1 < fuel →
        ∃ views, (∀ junk : Junk, readRows env junk bss.flatten fuel = (views, none)) ∧ views.length = (Ts.map UTable.rows).sum ∧
          RowsOfAll env Ts views) := by
  have key : ∃ Fs : List RFrame, writeTables env Ts = .ok (Fs.map RFrame.bytes) ∧
      ((∀ b ∈ Fs.map RFrame.bytes, b.length ≤ 2147483647) → ∀ F ∈ Fs, F.Ok env) ∧ rowCount Fs = (Ts.map UTable.rows).sum ∧
      (fileViews Fs).length = (Ts.map UTable.rows).sum ∧ RowsOfAll env Ts (fileViews Fs) ∧
      RowsOfAll env Ts (Fs.flatMap (tableViews true)) ∧ (Fs.flatMap (tableViews true)).length = (Ts.map UTable.rows).sum := by
    induction Ts with
    | nil => exact ⟨[], rfl, by simp, rfl, rfl, rfl, rfl, rfl⟩
    | cons T Ts ih =>
      obtain ⟨Fs, f1, f2, f3, f4, f5, f6, f7⟩ := ih (fun x hx => hT x (by simp [hx])) (fun x hx => hv x (by simp [hx]))
        (fun x hx => hpos x (by simp [hx]))
      obtain ⟨F, g1, g2, g3, g4, _⟩ := encode_rframe env hmd5 .same T (hT T (by simp)) (hv T (by simp)) (hpos T (by simp))
      refine ⟨F :: Fs, by simp only [writeTables, g1, f1, List.map_cons], ?_, ?_, ?_, ?_, ?_, ?_⟩
      · intro hs G hG
        rcases List.mem_cons.mp hG with rfl | hG
        · exact g2 (hs _ (by simp))
        · exact f2 (fun b hb => hs b (by rw [List.map_cons]; exact List.mem_cons_of_mem _ hb)) G hG
      · simp only [rowCount, List.map_cons, List.sum_cons] at f3 ⊢
        rw [f3, g3]
      · simp only [fileViews, List.length_append, tableViews_length, f7, List.map_cons, List.sum_cons, g3]
      · obtain ⟨a, b, c⟩ := tableViews_rows g3 g4 false (Fs.flatMap (tableViews true))
        refine ⟨a, b, ?_⟩
        show RowsOfAll env Ts ((tableViews false F ++ Fs.flatMap (tableViews true)).drop T.rows)
        rw [c]; exact f6
      · rw [List.flatMap_cons]
        obtain ⟨a, b, c⟩ := tableViews_rows g3 g4 true (Fs.flatMap (tableViews true))
        refine ⟨a, b, ?_⟩
        rw [c]; exact f6
      · simp only [List.flatMap_cons, List.length_append, tableViews_length, f7, List.map_cons, List.sum_cons, g3]
  obtain ⟨Fs, f1, f2, f3, f4, f5, _, _⟩ := key
  refine ⟨_, f1, ?_⟩
  intro hs fuel hf
  exact ⟨fileViews Fs, fun junk => readRows_file env junk Fs (f2 hs) fuel (by rw [f3]; exact hf), f4, f5⟩

/-- The hypotheses are met by the sample table, twice in a file. -/
example : ∃ bss, writeTables sampleEnv [sampleTable, sampleTable] = .ok bss ∧ ((∀ b ∈ bss, b.length ≤ 2147483647) →
    ∀ fuel : Nat, 3 + (3 + 0) + 1 < fuel → ∃ views, (∀ junk : Junk, readRows sampleEnv junk bss.flatten fuel = (views, none)) ∧
      views.length = 3 + (3 + 0) ∧ RowsOfAll sampleEnv [sampleTable, sampleTable] views) :=
  C43_encode_rows sampleEnv sampleEnv_md5 _ (by intro T h; simp at h; subst h; exact sampleTable_ok)
    (by intro T h; simp at h; subst h; exact sampleTable_vals) (by intro T h; simp at h; subst h; decide)

end Verif
