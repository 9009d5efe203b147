import Verif.SplitTool

/-
C54: the rows of several tables through a dispatching writer.
-/

namespace Verif

/-! ### Specification -/

/-- Specification: a template `text₁{query₁}text₂{query₂}…tail`. -/
def tmplText (ts : List (Str × Str)) (tail : Str) : Str := ts.flatMap (fun t => t.1 ++ chOpen :: (t.2 ++ [chClose])) ++ tail

/-- Specification: what stands for row `i` in the places of the template. -/
def labelsOf (ps : List Part) (i : Nat) : List Str := ps.map (fun p => p.col.vals.label i)

/-- Specification: the template `ts` can be used for all the tables: in table `T`, its pieces name the columns of `ps T`.  A piece that names strings
in one table names strings in all. -/
structure Templates (env : Env) (Ts : List UTable) (ts : List (Str × Str)) (ps : UTable → List Part) : Prop where
  ne : ts ≠ []
  pieces : ∀ T ∈ Ts, (ps T).map (fun p => (p.text, p.query)) = ts
  ok : ∀ T ∈ Ts, ∀ p ∈ ps T, p.Ok env T
  kinds : ∀ S ∈ Ts, ∀ T ∈ Ts, (ps S).map (fun p => decide (p.col.vals.ty = .string)) = (ps T).map (fun p => decide (p.col.vals.ty = .string))

theorem tmplText_of {ts : List (Str × Str)} {ps : List Part} (h : ps.map (fun p => (p.text, p.query)) = ts) (tail : Str) :
    tmplText ts tail = tmplOf ps tail := by
  subst h
  simp [tmplText, tmplOf, List.flatMap_map]

/-! ### Keys of rows of different tables -/

theorem label_num {env : Env} {v : Vals} (hv : v.Ok env) (hl : v.Labels env) (hs : v.ty ≠ .string) (i : Nat) (hi : i < v.rows) :
    ∃ n : Int, InI32 n ∧ v.keyWord env i = ofInt n ∧ v.label i = decimal n := by
  cases v with
  | ints vs => exact ⟨_, hv _ (getD_mem vs i 0 hi), keyWord_int hl vs i hi, rfl⟩
  | bits ms vs => exact ⟨_, hv.1 _ (getD_mem vs i 0 hi), keyWord_bits hl ms vs i hi, rfl⟩
  | reals vs =>
    obtain ⟨n, hn, he⟩ := hl _ (getD_mem vs i 0 hi)
    refine ⟨n, hn, by rw [keyWord_real env vs i hi, he], ?_⟩
    simp only [Vals.label]
    rw [he, ftrunc_ofInt n hn.small]
    rfl
  | doubles vs =>
    obtain ⟨n, hn, he⟩ := hl _ (getD_mem vs i 0 hi)
    refine ⟨n, hn, by rw [keyWord_double env vs i hi, he], ?_⟩
    simp only [Vals.label]
    rw [he, ftrunc_ofInt n hn.small]
    rfl
  | strings w vs => exact absurd rfl hs

theorem label_str {env : Env} {v : Vals} (hv : v.Ok env) (hl : v.Labels env) (hs : v.ty = .string) (i : Nat) (hi : i < v.rows) :
    ∃ s : Str, s.length ≤ 8 ∧ GoodText s ∧ v.keyWord env i = wordOfBytes s ∧ v.label i = s := by
  cases v with
  | strings w vs =>
    obtain ⟨rfl, hg⟩ := hl
    have h8 : ∀ s ∈ vs, s.length ≤ 8 := fun s hs => by simpa using (hv.2.2.1 s hs).1
    have hm := getD_mem vs i [] hi
    exact ⟨_, h8 _ hm, hg _ hm, keyWord_str env vs i hi h8, rfl⟩
  | _ => simp [Vals.ty] at hs

theorem label_key2 {env : Env} {v v' : Vals} (hv : v.Ok env) (hl : v.Labels env) (hv' : v'.Ok env) (hl' : v'.Labels env)
    (hk : v.ty = .string ↔ v'.ty = .string) (i j : Nat) (hi : i < v.rows) (hj : j < v'.rows) :
    v.label i = v'.label j ↔ feq (v.keyWord env i) (v'.keyWord env j) = true := by
  by_cases hs : v.ty = .string
  · have hn := label_nan hv hl i hi
    obtain ⟨s, h8, hg, h1, h2⟩ := label_str hv hl hs i hi
    obtain ⟨s', h8', hg', h1', h2'⟩ := label_str hv' hl' (hk.mp hs) j hj
    rw [h1] at hn
    rw [h1, h2, h1', h2']
    constructor
    · intro h; rw [← h]; exact feq_self hn
    · intro h
      have he := eq_of_feq h ⟨fun _ => text_ne_negZero _ h8' hg', fun hc => absurd hc (text_ne_negZero _ h8 hg)⟩
      have := congrArg trimWord he
      rwa [trim_ok _ h8 hg, trim_ok _ h8' hg'] at this
  · obtain ⟨m, hm, h1, h2⟩ := label_num hv hl hs i hi
    obtain ⟨n, hn, h1', h2'⟩ := label_num hv' hl' (fun h => hs (hk.mpr h)) j hj
    rw [h1, h2, h1', h2', feq_ofInt m n hm.small hn.small, decide_eq_true_eq]
    exact ⟨decimal_inj m n, fun h => by rw [h]⟩

/-! ### One table and the template -/

/-- Proof device: what the template gives for the rows of a table. -/
theorem template_table (env : Env) (T : UTable) (hT : T.AnyRowsOk env) (cols : List WCol) (hcols : ColsOf T cols) (ps : List Part) (tail : Str)
    (hps : ps ≠ []) (hpart : ∀ p ∈ ps, p.Ok env T) (htail : chOpen ∉ tail) :
    ∃ params : List TParam, params ≠ [] ∧ parseTemplate (cols.map WCol.name) (tmplOf ps tail) = .ok params ∧
      ∀ i < T.rows,
        params.map (fun p => (rowAt (T.cols.map (InCol.data env)) i).flatten.getD p.col 0) = ps.map (fun p => p.col.vals.keyWord env i) ∧
        fileName (cols.map WCol.ty) (tmplOf ps tail) params (rowAt (T.cols.map (InCol.data env)) i).flatten = .ok (nameOf ps tail i) := by
  obtain ⟨cks, hck, hcw⟩ := hcols
  have hclen : cks.length = T.cols.length := by have := congrArg List.length hcw; simpa using this
  have hnames : cols.map WCol.name = T.cols.map InCol.name := by
    rw [hck]
    apply List.ext_getElem?
    intro q
    simp only [List.getElem?_map, List.getElem?_zipWith]
    by_cases hq : q < T.cols.length
    · rw [List.getElem?_eq_getElem hq, List.getElem?_eq_getElem (by omega)]; rfl
    · rw [List.getElem?_eq_none (by omega)]; rfl
  have htys : ∀ (q : Nat) (c : InCol), T.cols[q]? = some c → (cols.map WCol.ty)[q]? = some c.vals.ty := by
    intro q c hq
    rw [hck]
    have hlt := (List.getElem?_eq_some_iff.mp hq).1
    simp only [List.getElem?_map, List.getElem?_zipWith, hq]
    rw [List.getElem?_eq_getElem (by omega)]; rfl
  obtain ⟨ks, hkl, hks⟩ := exists_list (fun (p : Part) (k : Nat) => T.cols[k]? = some p.col ∧ Means p.query p.col.name ∧
    (∀ (k' : Nat) (c' : InCol), T.cols[k']? = some c' → Means p.query c'.name → k' = k) ∧
    ∀ (k' : Nat) (c' : InCol), k' < k → T.cols[k']? = some c' → c'.vals.words = 1) ps (fun p hp => (hpart p hp).col)
  have hkey : ∀ (q : Nat) (p : Part) (k : Nat), ps[q]? = some p → ks[q]? = some k → ∀ i < T.rows,
      (rowAt (T.cols.map (InCol.data env)) i).flatten[k]? = some (p.col.vals.keyWord env i) := by
    intro q p k hp hk i hi
    obtain ⟨a1, _, _, a4⟩ := hks q p k hp hk
    exact key_at env T hT.rows k p.col a1 (Labels.words (hpart p (List.mem_of_getElem? hp)).labels) a4 i hi
  have hrowsP : ∀ p ∈ ps, p.col.vals.rows = T.rows ∧ p.col.vals.Ok env := by
    intro p hp
    obtain ⟨k, hk, _⟩ := (hpart p hp).col
    exact ⟨hT.rows _ (List.mem_of_getElem? hk), hT.vals _ (List.mem_of_getElem? hk)⟩
  refine ⟨paramsOf 0 ps ks, ?_, ?_, fun i hi => ⟨?_, ?_⟩⟩
  · cases ps with
    | nil => exact absurd rfl hps
    | cons p ps => exact paramsOf_ne 0 p ps ks hkl
  · unfold parseTemplate
    have := parseFrom_ok (cols.map WCol.name) ps tail ks hkl (fun p hp => (hpart p hp).text) (fun p hp => (hpart p hp).query) htail
      (by
        intro q p k hp hk
        obtain ⟨a1, a2, a3, _⟩ := hks q p k hp hk
        rw [hnames]
        refine ((C24_column_index _ _).1 k).mpr ⟨⟨p.col.name, by simp [a1], a2⟩, ?_⟩
        intro k' n' h1 h2
        simp only [List.getElem?_map, Option.map_eq_some_iff] at h1
        obtain ⟨c', h1, rfl⟩ := h1
        exact a3 k' c' h1 h2)
      [] 0 (Nat.zero_le _) (by simp) ((tmplOf ps tail).length + 1) (by have := parts_le ps tail; omega)
    rw [List.nil_append, List.length_nil] at this
    rw [this]
    cases ps with
    | nil => exact absurd rfl hps
    | cons p ps =>
      cases ks with
      | nil => simp at hkl
      | cons k ks => rfl
  · have : (paramsOf 0 ps ks).map (fun p => (rowAt (T.cols.map (InCol.data env)) i).flatten.getD p.col 0) =
        ((paramsOf 0 ps ks).map TParam.col).map (fun k => (rowAt (T.cols.map (InCol.data env)) i).flatten.getD k 0) := by
      rw [List.map_map]; rfl
    rw [this, paramsOf_col 0 ps ks hkl]
    apply List.ext_getElem?
    intro q
    simp only [List.getElem?_map]
    by_cases hq : q < ps.length
    · have h1 : ps[q]? = some ps[q] := List.getElem?_eq_getElem hq
      have h2 : ks[q]? = some (ks[q]'(by omega)) := List.getElem?_eq_getElem (by omega)
      rw [h1, h2]
      simp only [Option.map_some, List.getD_eq_getElem?_getD]
      rw [hkey q _ _ h1 h2 i hi]
      rfl
    · rw [List.getElem?_eq_none (by omega), List.getElem?_eq_none (by omega)]; rfl
  · have := replaceAll_ok (cols.map WCol.ty) ps tail ks hkl (rowAt (T.cols.map (InCol.data env)) i).flatten
      (fun p => p.col.vals.label i) (by
        intro q p k hp hk
        have hpm := List.mem_of_getElem? hp
        exact ⟨_, _, htys k p.col (hks q p k hp hk).1, hkey q p k hp hk i hi,
          label_text (hrowsP p hpm).2 (hpart p hpm).labels i (by rw [(hrowsP p hpm).1]; exact hi)⟩) [] []
    simpa [fileName, nameOf] using this

/-! ### One writer over several tables -/

theorem startWriter_state {env : Env} {cap : Nat} {cols : List WCol} {w : Writer} (h : startWriter env cap cols = .ok w) (hne : cols ≠ []) :
    w.cap = cap ∧ w.props = [] ∧ w.inited = true ∧ w.alloc = none ∧ w.rows = [] ∧ w.out = [] := by
  unfold startWriter at h
  cases hr : resetCols env cols with
  | error e => rw [hr] at h; simp at h
  | ok cs =>
    rw [hr] at h
    dsimp only at h
    have hcs : cs ≠ [] := by
      cases cols with
      | nil => exact absurd rfl hne
      | cons c cols =>
        simp only [resetCols] at hr
        intro hn
        subst hn
        repeat' (split at hr)
        all_goals simp at hr
    unfold Writer.writeHeader Writer.withCols at h
    dsimp only at h
    cases hc : coders cs with
    | none => rw [hc] at h; simp at h
    | some ks =>
      rw [hc] at h
      dsimp only at h
      cases hi : initRow ks with
      | error e => rw [hi] at h; simp at h
      | ok l =>
        rw [hi] at h
        dsimp only [Writer.new] at h
        simp only [Except.ok.injEq] at h
        subst h
        refine ⟨rfl, rfl, ?_, rfl, rfl, rfl⟩
        cases cs with
        | nil => exact absurd rfl hcs
        | cons => rfl

theorem writeRow_keeps {env : Env} {o : Order} {w w' : Writer} {row : List Cell} (h : w.writeRow env o row = .ok w') :
    w'.cap = w.cap ∧ w'.props = w.props ∧ w'.inited = w.inited := by
  unfold Writer.writeRow at h
  split at h
  · simp at h
  split at h
  · simp at h
  split at h
  · simp at h
  split at h
  · simp at h
  dsimp only at h
  split at h
  · simp at h
  split at h
  · obtain ⟨a, b, c, _⟩ := flush_keeps env o _ _ h (Or.inl (by simp))
    exact ⟨a, b, c⟩
  · simp only [Except.ok.injEq] at h
    subst h
    exact ⟨rfl, rfl, rfl⟩

theorem writeRows_keeps {env : Env} {o : Order} {w w' : Writer} {rows : List (List Cell)} (h : w.writeRows env o rows = .ok w') :
    w'.cap = w.cap ∧ w'.props = w.props ∧ w'.inited = w.inited := by
  induction rows generalizing w with
  | nil =>
    simp only [Writer.writeRows, Pure.pure, Except.pure, Except.ok.injEq] at h
    subst h
    exact ⟨rfl, rfl, rfl⟩
  | cons r rs ih =>
    simp only [Writer.writeRows, bind, Except.bind] at h
    cases hr : w.writeRow env o r with
    | error e => rw [hr] at h; simp at h
    | ok w1 =>
      rw [hr] at h
      obtain ⟨a, b, c⟩ := ih h
      obtain ⟨a', b', c'⟩ := writeRow_keeps hr
      exact ⟨a.trans a', b.trans b', c.trans c'⟩

/-- Proof device: the frames `x` show the rows `js`, if none is too large. -/
def FramesIn (env : Env) (at_ : Nat → UTable × Nat) (js : List Nat) (x : List (List Byte)) : Prop :=
  ∃ Fs : List RFrame, x = Fs.map RFrame.bytes ∧ ((∀ f ∈ Fs.map RFrame.bytes, f.length ≤ 2147483647) →
    (∀ F ∈ Fs, F.Ok env) ∧ Match (fun j p => IsRowPair env (at_ j).1 (at_ j).2 p) js (rowPairs Fs))

theorem FramesIn.rows {env : Env} {at_ : Nat → UTable × Nat} {js : List Nat} {x : List (List Byte)} (h : FramesIn env at_ js x) :
    RowsIn env at_ js x.flatten := by
  obtain ⟨Fs, rfl, h⟩ := h
  exact ⟨Fs, rfl, h⟩

theorem FramesIn.append {env : Env} {at_ : Nat → UTable × Nat} {js ks : List Nat} {x y : List (List Byte)} (h : FramesIn env at_ js x)
    (h' : FramesIn env at_ ks y) : FramesIn env at_ (js ++ ks) (x ++ y) := by
  obtain ⟨Fs, rfl, h⟩ := h
  obtain ⟨Gs, rfl, h'⟩ := h'
  refine ⟨Fs ++ Gs, by simp, ?_⟩
  intro hsz
  obtain ⟨c1, c2⟩ := h (fun f hf => hsz f (by simp only [List.map_append, List.mem_append]; exact Or.inl hf))
  obtain ⟨d1, d2⟩ := h' (fun f hf => hsz f (by simp only [List.map_append, List.mem_append]; exact Or.inr hf))
  refine ⟨?_, ?_⟩
  · intro F hF
    rcases List.mem_append.mp hF with hF | hF
    · exact c1 F hF
    · exact d1 F hF
  · rw [show rowPairs (Fs ++ Gs) = rowPairs Fs ++ rowPairs Gs by simp [rowPairs]]
    exact c2.append d2

/-- A writer takes rows of one table. -/
theorem seg_session (env : Env) (hmd5 : env.Md5Ok) (o : Order) (cap : Nat) (hcap : 0 < cap) (T : UTable) (hT : T.AnyRowsOk env)
    (hne : T.cols ≠ []) (cols : List WCol) (hcols : ColsOf T cols) (at_ : Nat → UTable × Nat) (row : Nat → List Cell) (jc : List Nat)
    (hat : ∀ i ∈ jc, at_ i = (T, (at_ i).2) ∧ (at_ i).2 < T.rows ∧ row i = rowAt (T.cols.map (InCol.data env)) (at_ i).2)
    (hlen : jc.length < 18446744073709551616) :
    ∃ ws w1 w2, startWriter env cap cols = .ok ws ∧ ws.writeRows env o (jc.map row) = .ok w1 ∧ w1.cap = cap ∧ w1.props = [] ∧
      w1.inited = true ∧ w1.flush env o = .ok w2 ∧ FramesIn env at_ jc w2.out := by
  obtain ⟨w0, w, w', Fs, a1, a2, a3, a4, a5⟩ := session_ok env hmd5 o cap hcap T hT cols hcols (jc.map (fun i => (at_ i).2))
    (by
      intro j hj
      obtain ⟨i, hi, rfl⟩ := List.mem_map.mp hj
      exact (hat i hi).2.1) (by simpa using hlen)
  have hcne : cols ≠ [] := by
    obtain ⟨ks, rfl, hw⟩ := hcols
    intro h
    have h1 := congrArg List.length hw
    have h2 := congrArg List.length h
    simp only [List.length_map, List.length_zipWith, List.length_nil] at h1 h2
    have : T.cols.length = 0 := by omega
    exact hne (List.length_eq_zero_iff.mp this)
  obtain ⟨s1, s2, s3, _⟩ := startWriter_state a1 hcne
  obtain ⟨k1, k2, k3⟩ := writeRows_keeps a2
  have hin : w.inited = true := by rw [k3, s3]
  unfold Writer.close at a3
  rw [hin, if_pos rfl] at a3
  refine ⟨w0, w, w', a1, ?_, by rw [k1, s1], by rw [k2, s2], hin, a3, Fs, a4, ?_⟩
  · rw [← a2, List.map_map]
    congr 1
    apply List.map_congr_left
    intro i hi
    exact (hat i hi).2.2
  · intro hsz
    obtain ⟨c1, c2, _, c4⟩ := a5 hsz
    refine ⟨c1, ?_⟩
    rw [← fileViews_pairs]
    apply Match.of_get _ _ (by simpa using c2.symm)
    intro r j p hj hp
    rw [List.getElem?_map, Option.map_eq_some_iff] at hp
    obtain ⟨v, hv, rfl⟩ := hp
    have := c4 r v (at_ j).2 hv (by rw [List.getElem?_map, hj]; rfl)
    rw [(hat j (List.mem_of_getElem? hj)).1]
    exact IsRow.pair this rfl rfl

/-! ### Segments -/

/-- Proof device: the rows of the tables with the numbers of their tables. -/
def segRows : Nat → List UTable → List (Nat × UTable × Nat)
  | _, [] => []
  | g, T :: Ts => (List.range T.rows).map (fun j => (g, T, j)) ++ segRows (g + 1) Ts

theorem segRows_all (g : Nat) (Ts : List UTable) : (segRows g Ts).map Prod.snd = allRows Ts := by
  induction Ts generalizing g with
  | nil => rfl
  | cons T Ts ih => simp [segRows, allRows, ih (g + 1), List.map_map, Function.comp_def]

theorem segRows_mem {g : Nat} {Ts : List UTable} {x : Nat × UTable × Nat} (h : x ∈ segRows g Ts) :
    g ≤ x.1 ∧ Ts[x.1 - g]? = some x.2.1 ∧ x.2.2 < x.2.1.rows := by
  induction Ts generalizing g with
  | nil => simp [segRows] at h
  | cons T Ts ih =>
    simp only [segRows, List.mem_append, List.mem_map, List.mem_range] at h
    rcases h with ⟨j, hj, rfl⟩ | h
    · exact ⟨Nat.le_refl _, by simp, hj⟩
    · obtain ⟨h1, h2, h3⟩ := ih h
      refine ⟨by omega, ?_, h3⟩
      obtain ⟨n, hn⟩ : ∃ n, x.1 = g + 1 + n := ⟨x.1 - (g + 1), by omega⟩
      rw [hn] at h2 ⊢
      rw [show g + 1 + n - (g + 1) = n by omega] at h2
      rw [show g + 1 + n - g = n + 1 by omega, List.getElem?_cons_succ]
      exact h2

/-- Proof device: what is fixed while the rows of `Ts` are dispatched. -/
structure SplitCase (env : Env) (Ts : List UTable) (ts : List (Str × Str)) (tail : Str) (ps : UTable → List Part) (cap : Nat) (cols : Nat → List WCol)
    (C : DCtx) : Prop where
  envs : C.env = env
  tmpl : C.tmpl = tmplText ts tail
  caps : C.cap = cap
  colss : C.cols = cols
  top : C.top + 1 = Ts.length
  is : C.is = List.range (segRows 0 Ts).length
  at_ : ∀ (i : Nat) (x : Nat × UTable × Nat), (segRows 0 Ts)[i]? = some x →
    C.seg i = x.1 ∧ C.row i = rowAt (x.2.1.cols.map (InCol.data env)) x.2.2 ∧ C.name i = nameOf (ps x.2.1) tail x.2.2
  parse : ∀ g ≤ C.top, parseTemplate ((cols g).map WCol.name) C.tmpl = .ok (C.params g)

/-- The rows of one table: all are written. -/
theorem loop_rows {C : DCtx} (hC : C.Ok) (T : UTable) (vs us : List RowView) {sg : Nat}
    (hsh : (C.cols sg).map WCol.shape = T.cols.map (fun c => (c.name, c.vals.ty.toInt, some c.vals.words)))
    (hk : ∀ v ∈ vs, v.cols.map Col.key = T.cols.map InCol.key) {n : Nat}
    (hrow : ∀ (r : Nat) (v : RowView), vs[r]? = some v → C.seg (n + r) = sg ∧ C.row (n + r) = v.cells)
    {d : Disk} {s : Disp} {base : Str → List Byte} {done : Str → List (List Nat × List Byte)} {cur : List (List Nat)}
    (h : DInv C sg (List.range n) d s base done cur) (hl : LastAt C s) (hP : (List.range (n + vs.length)).Sublist C.is) :
    ∃ d1 s1, s.pass1Loop C.env C.o d (vs ++ us) = s1.pass1Loop C.env C.o d1 us ∧ ∃ base1 done1 cur1,
      DInv C sg (List.range (n + vs.length)) d1 s1 base1 done1 cur1 ∧ LastAt C s1 := by
  induction vs generalizing n d s base done cur with
  | nil => exact ⟨d, s, rfl, base, done, cur, h, hl⟩
  | cons v vs ih =>
    obtain ⟨r1, r2⟩ := hrow 0 v rfl
    rw [Nat.add_zero] at r1 r2
    have hsame : sameShape v.cols s.cols = true := by
      unfold sameShape
      rw [h.cols, hsh, key_shape (hk v (by simp))]
      simp
    have e : List.range n ++ [n] = List.range (n + 1) := List.range_succ.symm
    have hlen : n + (v :: vs).length = n + 1 + vs.length := by simp; omega
    rw [hlen] at hP ⊢
    obtain ⟨d1, s1, a1, base1, done1, cur1, a2, a3⟩ := h.writeRow hC hl n r1 (by
      rw [e]
      exact (List.range_sublist.mpr (by omega)).trans hP)
    rw [e] at a2
    obtain ⟨d2, s2, b1, b2⟩ := ih (fun v hv => hk v (by simp [hv])) (n := n + 1) (by
      intro r v' hv'
      have := hrow (r + 1) v' (by simpa using hv')
      rw [show n + 1 + r = n + (r + 1) by omega]
      exact this) a2 a3 hP
    refine ⟨d2, s2, ?_, b2⟩
    rw [← b1]
    rw [List.cons_append]
    conv => lhs; rw [Disp.pass1Loop]
    rw [if_neg (by simp [hsame])]
    dsimp only
    rw [← r2, a1]

theorem loop_tables {env : Env} {Ts : List UTable} {ts : List (Str × Str)} {tail : Str} {ps : UTable → List Part} {cap : Nat} {cols : Nat → List WCol}
    {C : DCtx} (hC : C.Ok) (hS : SplitCase env Ts ts tail ps cap cols C)
    (hsh : ∀ (g : Nat) (T : UTable), Ts[g]? = some T → (cols g).map WCol.shape = T.cols.map (fun c => (c.name, c.vals.ty.toInt, some c.vals.words)))
    (hmerge : ∀ (g : Nat) (T : UTable) (ks : List Col), Ts[g]? = some T → ks.map Col.key = T.cols.map InCol.key → mergeColList env ks = .ok (cols g))
    (hpos : ∀ T ∈ Ts, 0 < T.rows)
    (Us : List UTable) (vs : List RowView) (hrows : RowsOfTables env Us vs) (g n : Nat) (hg : Ts.drop g = Us)
    (hn : (segRows 0 Ts).drop n = segRows g Us) (hnl : n ≤ (segRows 0 Ts).length)
    {d : Disk} {s : Disp} {base : Str → List Byte} {done : Str → List (List Nat × List Byte)} {cur : List (List Nat)}
    (h : DInv C g (List.range n) d s base done cur) (hl : LastAt C s) :
    ∃ d1 s1, s.pass1Loop C.env C.o d vs = .ok (d1, s1) ∧ ∃ sg base1 done1 cur1, DInv C sg C.is d1 s1 base1 done1 cur1 := by
  induction hrows generalizing g n d s base done cur with
  | @last T vs hr =>
    have hTg : Ts[g]? = some T := by
      have := congrArg List.head? hg
      rw [List.head?_drop] at this
      simpa using this
    have hlen : n + vs.length = (segRows 0 Ts).length := by
      have := congrArg List.length hn
      simp only [List.length_drop, segRows, List.append_nil, List.length_map, List.length_range] at this
      rw [hr.len]
      omega
    obtain ⟨d1, s1, a1, base1, done1, cur1, a2, a3⟩ := loop_rows hC T vs [] (sg := g) (by rw [hS.colss]; exact hsh g T hTg)
      (by
        intro v hv
        obtain ⟨r, hr'⟩ := List.mem_iff_getElem?.mp hv
        exact (hr.row r v hr').1)
      (n := n) (by
        intro r v hv
        have hrl := (List.getElem?_eq_some_iff.mp hv).1
        have hx : (segRows 0 Ts)[n + r]? = some (g, T, r) := by
          rw [← List.getElem?_drop, hn]
          simp only [segRows, List.append_nil, List.getElem?_map]
          rw [List.getElem?_range (by rw [← hr.len]; exact hrl)]
          rfl
        obtain ⟨e1, e2, _⟩ := hS.at_ _ _ hx
        exact ⟨e1, by rw [e2, (hr.row r v hv).2]⟩) h hl (by rw [hS.is, hlen])
    rw [hlen, ← hS.is] at a2
    exact ⟨d1, s1, by rw [List.append_nil] at a1; rw [a1]; rfl, g, base1, done1, cur1, a2⟩
  | @more T T' Us vs us hr hother hfr hrest ih =>
    have hTg : Ts[g]? = some T := by
      have := congrArg List.head? hg
      rw [List.head?_drop] at this
      simpa using this
    have hg' : Ts.drop (g + 1) = T' :: Us := by
      rw [← List.drop_drop, hg]
      rfl
    have hTg' : Ts[g + 1]? = some T' := by
      have := congrArg List.head? hg'
      rw [List.head?_drop] at this
      simpa using this
    have hlen : n + vs.length ≤ (segRows 0 Ts).length := by
      have := congrArg List.length hn
      simp only [List.length_drop, segRows, List.length_append, List.length_map, List.length_range] at this
      rw [hr.len]
      omega
    obtain ⟨d1, s1, a1, base1, done1, cur1, a2, a3⟩ := loop_rows hC T vs us (sg := g) (by rw [hS.colss]; exact hsh g T hTg)
      (by
        intro v hv
        obtain ⟨r, hr'⟩ := List.mem_iff_getElem?.mp hv
        exact (hr.row r v hr').1)
      (n := n) (by
        intro r v hv
        have hrl := (List.getElem?_eq_some_iff.mp hv).1
        have hx : (segRows 0 Ts)[n + r]? = some (g, T, r) := by
          rw [← List.getElem?_drop, hn]
          rw [segRows, List.getElem?_append_left (by simp; rw [← hr.len]; exact hrl), List.getElem?_map,
            List.getElem?_range (by rw [← hr.len]; exact hrl)]
          rfl
        obtain ⟨e1, e2, _⟩ := hS.at_ _ _ hx
        exact ⟨e1, by rw [e2, (hr.row r v hv).2]⟩) h hl (by rw [hS.is]; exact List.range_sublist.mpr hlen)
    have htop : g + 1 ≤ C.top := by
      have := (List.getElem?_eq_some_iff.mp hTg').1
      have := hS.top
      omega
    obtain ⟨d2, s2, b1, b2, b3⟩ := a2.change hC a3 htop (by rw [hS.colss]; exact hS.parse _ htop)
    obtain ⟨u, us', rfl, hukey⟩ := hrest.head T' rfl (hpos T' (List.mem_of_getElem? hTg'))
    obtain ⟨d3, s3, c1, c2⟩ := ih (g + 1) (n + vs.length) hg' (by
        rw [← List.drop_drop, hn, segRows, List.drop_left' (by simp [hr.len])]) hlen b2 b3
    refine ⟨d3, s3, ?_, c2⟩
    rw [a1, ← c1]
    have hns : sameShape u.cols s1.cols = false := by
      unfold sameShape
      rw [a2.cols, hS.colss, hsh g T hTg, key_shape hukey]
      simp only [decide_eq_false_iff_not]
      exact fun h => OtherShape.shape hother h.symm
    have hs' : sameShape u.cols s2.cols = true := by
      unfold sameShape
      rw [b2.cols, hS.colss, hsh (g + 1) T' hTg', key_shape hukey]
      simp
    conv => lhs; rw [Disp.pass1Loop]
    conv => rhs; rw [Disp.pass1Loop]
    rw [if_pos (by rw [hfr u rfl, hns]; rfl), if_neg (by simp [hs']), hS.envs, hmerge (g + 1) T' u.cols hTg' hukey]
    dsimp only
    rw [hS.envs, hS.colss] at b1
    rw [b1]

/-! ### The run -/

theorem merge_cols (env : Env) (T : UTable) : ∃ cols : List WCol, ColsOf T cols ∧
    cols.map WCol.shape = T.cols.map (fun c => (c.name, c.vals.ty.toInt, some c.vals.words)) ∧
    ∀ ks : List Col, ks.map Col.key = T.cols.map InCol.key → mergeColList env ks = .ok cols := by
  have key : ∀ cs : List InCol, ∃ ss, Match (StartOf env) cs ss := by
    intro cs
    induction cs with
    | nil => exact ⟨[], .nil⟩
    | cons c cs ih =>
      obtain ⟨ss, h⟩ := ih
      obtain ⟨k, hk⟩ := start_none env c.vals
      exact ⟨k :: ss, .cons hk h⟩
  have uniq : ∀ (cs : List InCol) (ss ss' : List Codec), Match (StartOf env) cs ss → Match (StartOf env) cs ss' → ss = ss' := by
    intro cs ss ss' h
    induction h generalizing ss' with
    | nil => intro h'; cases h'; rfl
    | cons h _ ih =>
      intro h'
      cases h' with
      | cons h1 h2 =>
        unfold StartOf at h h1
        rw [h] at h1
        simp only [Except.ok.injEq] at h1
        rw [h1, ih _ h2]
  obtain ⟨ss, hss⟩ := key T.cols
  have hst := hss.starts
  have hw := hst.widths 0 0
  rw [gathered_zero _ _ _ _ hst.2.1] at hw
  refine ⟨List.zipWith wcol T.cols ss, ⟨ss, rfl, hw⟩, shape_zip _ _ hw, ?_⟩
  intro ks hk
  obtain ⟨ss', s1, s2⟩ := mergeColList_ok env ks T.cols hk
  rw [s2, uniq _ _ _ s1 hss]

theorem split_run (env : Env) (hmd5 : env.Md5Ok) (o : Order) (T0 : UTable) (Ts : List UTable) (views : List RowView)
    (hrows : RowsOfTables env (T0 :: Ts) views)
    (hT : ∀ T ∈ T0 :: Ts, T.AnyRowsOk env ∧ T.cols ≠ []) (hpos : ∀ T ∈ T0 :: Ts, 0 < T.rows) (hbig : (allRows (T0 :: Ts)).length < 18446744073709551616)
    (ts : List (Str × Str)) (tail : Str) (ps : UTable → List Part) (hts : Templates env (T0 :: Ts) ts ps) (htail : chOpen ∉ tail)
    (hdist : ∀ x ∈ allRows (T0 :: Ts), ∀ y ∈ allRows (T0 :: Ts), nameOf (ps x.1) tail x.2 = nameOf (ps y.1) tail y.2 →
      labelsOf (ps x.1) x.2 = labelsOf (ps y.1) y.2)
    (max cap : Nat) (hmax : 0 < max) (hcap : 0 < cap) (d : Disk) :
    ∃ (C : DCtx) (cols : Nat → List WCol) (s : Disp), C.Ok ∧ C.o = o ∧ C.d0 = d ∧ C.append = false ∧ C.max = max ∧
      SplitCase env (T0 :: Ts) ts tail ps cap cols C ∧
      (∀ ks : List Col, ks.map Col.key = T0.cols.map InCol.key → mergeColList env ks = .ok (cols 0)) ∧
      Disp.new (cols 0) (tmplText ts tail) max cap false = .ok s ∧
      (∀ js bs, C.Fin js bs → RowsIn env (fun i => ((segRows 0 (T0 :: Ts)).getD i (0, T0, 0)).2) js bs) ∧
      ∃ d1 s1, s.pass1Loop env o d views = .ok (d1, s1) ∧ ∃ sg base done cur, DInv C sg C.is d1 s1 base done cur := by
  let tab : Nat → UTable := fun g => (T0 :: Ts).getD g T0
  have htab : ∀ (g : Nat) (T : UTable), (T0 :: Ts)[g]? = some T → tab g = T := by
    intro g T h
    show (T0 :: Ts).getD g T0 = T
    rw [List.getD_eq_getElem?_getD, h]
    rfl
  have htabm : ∀ g, tab g ∈ T0 :: Ts := by
    intro g
    by_cases hg : g < (T0 :: Ts).length
    · rw [htab g _ (List.getElem?_eq_getElem hg)]
      exact List.getElem_mem hg
    · show (T0 :: Ts).getD g T0 ∈ _
      rw [List.getD_eq_getElem?_getD, List.getElem?_eq_none (by omega)]
      simp
  obtain ⟨colsT, hcolsT⟩ : ∃ f : UTable → List WCol, ∀ T, ColsOf T (f T) ∧
      (f T).map WCol.shape = T.cols.map (fun c => (c.name, c.vals.ty.toInt, some c.vals.words)) ∧
      ∀ ks : List Col, ks.map Col.key = T.cols.map InCol.key → mergeColList env ks = .ok (f T) :=
    ⟨fun T => (merge_cols env T).choose, fun T => (merge_cols env T).choose_spec⟩
  have htmpl : ∀ T ∈ T0 :: Ts, tmplText ts tail = tmplOf (ps T) tail := fun T h => tmplText_of (hts.pieces T h) tail
  have hpsne : ∀ T ∈ T0 :: Ts, ps T ≠ [] := by
    intro T h hn
    have := hts.pieces T h
    rw [hn] at this
    exact hts.ne this.symm
  obtain ⟨parT, hparT⟩ : ∃ f : UTable → List TParam, ∀ T ∈ T0 :: Ts, f T ≠ [] ∧ parseTemplate ((colsT T).map WCol.name) (tmplText ts tail) = .ok (f T) ∧
      ∀ i < T.rows, (f T).map (fun p => (rowAt (T.cols.map (InCol.data env)) i).flatten.getD p.col 0) = (ps T).map (fun p => p.col.vals.keyWord env i) ∧
        fileName ((colsT T).map WCol.ty) (tmplText ts tail) (f T) (rowAt (T.cols.map (InCol.data env)) i).flatten = .ok (nameOf (ps T) tail i) := by
    have : ∀ T, ∃ params : List TParam, T ∈ T0 :: Ts → params ≠ [] ∧ parseTemplate ((colsT T).map WCol.name) (tmplText ts tail) = .ok params ∧
      ∀ i < T.rows, params.map (fun p => (rowAt (T.cols.map (InCol.data env)) i).flatten.getD p.col 0) = (ps T).map (fun p => p.col.vals.keyWord env i) ∧
        fileName ((colsT T).map WCol.ty) (tmplText ts tail) params (rowAt (T.cols.map (InCol.data env)) i).flatten = .ok (nameOf (ps T) tail i) := by
      intro T
      by_cases h : T ∈ T0 :: Ts
      · obtain ⟨params, h1⟩ := template_table env T (hT T h).1 (colsT T) (hcolsT T).1 (ps T) tail (hpsne T h) (hts.ok T h) htail
        rw [← htmpl T h] at h1
        exact ⟨params, fun _ => h1⟩
      · exact ⟨[], fun h' => absurd h' h⟩
    exact ⟨fun T => (this T).choose, fun T h => (this T).choose_spec h⟩
  let L := segRows 0 (T0 :: Ts)
  have hLlen : L.length = (allRows (T0 :: Ts)).length := by
    rw [← segRows_all 0 (T0 :: Ts), List.length_map]
  let at_ : Nat → UTable × Nat := fun i => (L.getD i (0, T0, 0)).2
  let seg : Nat → Nat := fun i => (L.getD i (0, T0, 0)).1
  let row : Nat → List Cell := fun i => rowAt ((at_ i).1.cols.map (InCol.data env)) (at_ i).2
  have hat : ∀ (i : Nat) (x : Nat × UTable × Nat), L[i]? = some x → seg i = x.1 ∧ at_ i = x.2 := by
    intro i x hx
    have : L.getD i (0, T0, 0) = x := by rw [List.getD_eq_getElem?_getD, hx]; rfl
    exact ⟨by show (L.getD i (0, T0, 0)).1 = _; rw [this], by show (L.getD i (0, T0, 0)).2 = _; rw [this]⟩
  have hin : ∀ i < L.length, (T0 :: Ts)[seg i]? = some (at_ i).1 ∧ (at_ i).2 < (at_ i).1.rows ∧ at_ i ∈ allRows (T0 :: Ts) := by
    intro i hi
    have hx : L[i]? = some L[i] := List.getElem?_eq_getElem hi
    obtain ⟨e1, e2⟩ := hat i _ hx
    obtain ⟨_, h2, h3⟩ := segRows_mem (List.mem_of_getElem? hx)
    rw [e1, e2]
    refine ⟨by simpa using h2, h3, ?_⟩
    rw [← segRows_all 0 (T0 :: Ts)]
    exact List.mem_map.mpr ⟨_, List.mem_of_getElem? hx, rfl⟩
  let Good : Nat → List Nat → Writer → Prop := fun g js w => js.Sublist (List.range L.length) ∧ g < (T0 :: Ts).length ∧ ∃ jd jc x ws w1, js = jd ++ jc ∧ (∀ i ∈ jc, seg i = g) ∧
    startWriter env cap (colsT (tab g)) = .ok ws ∧ ws.writeRows env o (jc.map row) = .ok w1 ∧ Roomy x w1 w ∧ FramesIn env at_ jd x
  let C : DCtx := ⟨env, o, fun g => colsT (tab g), tmplText ts tail, fun g => parT (tab g), seg, Ts.length, max, cap, false, d, row, List.range L.length,
    fun i => nameOf (ps (at_ i).1) tail (at_ i).2, Good, RowsIn env at_⟩
  have hmem : ∀ i ∈ C.is, i < L.length := fun i hi => by simpa [C] using hi
  have hsess : ∀ (g : Nat) (jc : List Nat), g < (T0 :: Ts).length → jc.Sublist (List.range L.length) → (∀ i ∈ jc, seg i = g) → _ :=
    fun g jc hg hsub hseg => seg_session env hmd5 o cap hcap (tab g) (hT _ (htabm g)).1 (hT _ (htabm g)).2 (colsT (tab g)) (hcolsT _).1 at_ row jc
      (by
        intro i hi
        have hil : i < L.length := by simpa using hsub.subset hi
        obtain ⟨e1, e2, e3⟩ := hin i hil
        rw [hseg i hi] at e1
        have e4 := htab g _ e1
        rw [e4]
        exact ⟨rfl, e2, rfl⟩)
      (by
        have := hsub.length_le
        simp only [List.length_range] at this
        omega)
  have hkeyOf : ∀ i < L.length, C.key i = (ps (at_ i).1).map (fun p => p.col.vals.keyWord env (at_ i).2) := by
    intro i hi
    obtain ⟨e1, e2, e3⟩ := hin i hi
    show (parT (tab (seg i))).map (fun p => (row i).flatten.getD p.col 0) = _
    rw [htab _ _ e1]
    exact ((hparT _ (List.mem_of_getElem? e1)).2.2 _ e2).1
  have hvals : ∀ T ∈ T0 :: Ts, ∀ p ∈ ps T, p.col.vals.rows = T.rows ∧ p.col.vals.Ok env ∧ p.col.vals.Labels env := by
    intro T h p hp
    obtain ⟨k, hk, _⟩ := (hts.ok T h p hp).col
    exact ⟨(hT T h).1.rows _ (List.mem_of_getElem? hk), (hT T h).1.vals _ (List.mem_of_getElem? hk), (hts.ok T h p hp).labels⟩
  have hC : C.Ok := by
    refine ⟨hmax, fun g _ => (hparT _ (htabm g)).1, ?_, ?_, ?_, ?_, ?_, ?_, ?_⟩
    · intro i hi
      obtain ⟨e1, e2, e3⟩ := hin i (hmem i hi)
      rw [hkeyOf i (hmem i hi), List.any_eq_false]
      intro w hw
      obtain ⟨p, hp, rfl⟩ := List.mem_map.mp hw
      obtain ⟨r1, r2, r3⟩ := hvals _ (List.mem_of_getElem? e1) p hp
      rw [label_nan r2 r3 _ (by rw [r1]; exact e2)]
      simp
    · intro i hi
      obtain ⟨e1, e2, e3⟩ := hin i (hmem i hi)
      show fileName ((colsT (tab (seg i))).map WCol.ty) (tmplText ts tail) (parT (tab (seg i))) (row i).flatten = _
      rw [htab _ _ e1]
      exact ((hparT _ (List.mem_of_getElem? e1)).2.2 _ e2).2
    · intro i hi j hj
      obtain ⟨e1, e2, e3⟩ := hin i (hmem i hi)
      obtain ⟨f1, f2, f3⟩ := hin j (hmem j hj)
      have m1 := List.mem_of_getElem? e1
      have m2 := List.mem_of_getElem? f1
      show nameOf (ps (at_ i).1) tail (at_ i).2 = nameOf (ps (at_ j).1) tail (at_ j).2 ↔ _
      have hlens : (ps (at_ i).1).length = (ps (at_ j).1).length := by
        have := congrArg List.length ((hts.pieces _ m1).trans (hts.pieces _ m2).symm)
        simpa using this
      have hlab : labelsOf (ps (at_ i).1) (at_ i).2 = labelsOf (ps (at_ j).1) (at_ j).2 ↔ keyEq (C.key i) (C.key j) = true := by
        rw [hkeyOf i (hmem i hi), hkeyOf j (hmem j hj)]
        have hk := hts.kinds _ m1 _ m2
        have v1 := hvals _ m1
        have v2 := hvals _ m2
        generalize (ps (at_ i).1) = p1 at *
        generalize (ps (at_ j).1) = p2 at *
        clear_value at_
        clear hsess hkeyOf hlens
        induction p1 generalizing p2 with
        | nil =>
          cases p2 with
          | nil => simp [labelsOf, keyEq]
          | cons => simp at hk
        | cons a p1 ih =>
          cases p2 with
          | nil => simp at hk
          | cons b p2 =>
            simp only [List.map_cons, List.cons.injEq, decide_eq_decide] at hk
            have := ih (fun p hp => v1 p (by simp [hp])) p2 (fun p hp => v2 p (by simp [hp])) hk.2
            obtain ⟨r1, r2, r3⟩ := v1 a (by simp)
            obtain ⟨q1, q2, q3⟩ := v2 b (by simp)
            have h1 := label_key2 r2 r3 q2 q3 hk.1 (at_ i).2 (at_ j).2 (by rw [r1]; exact e2) (by rw [q1]; exact f2)
            simp only [labelsOf, List.map_cons, List.cons.injEq, keyEq, Bool.and_eq_true] at this ⊢
            exact and_congr h1 this
      rw [← hlab]
      constructor
      · exact hdist _ e3 _ f3
      · intro h
        have hp := (hts.pieces _ m1).trans (hts.pieces _ m2).symm
        unfold nameOf
        congr 1
        generalize (ps (at_ i).1) = p1 at *
        generalize (ps (at_ j).1) = p2 at *
        clear hlab hlens
        clear_value at_
        clear hsess hkeyOf
        induction p1 generalizing p2 with
        | nil =>
          cases p2 with
          | nil => rfl
          | cons => simp at hp
        | cons a p1 ih =>
          cases p2 with
          | nil => simp at hp
          | cons b p2 =>
            simp only [List.map_cons, List.cons.injEq, Prod.mk.injEq, labelsOf] at hp h
            rw [List.flatMap_cons, List.flatMap_cons, ih p2 h.2 hp.2, hp.1.1, h.1]
    · intro g hg
      have hg' : g < (T0 :: Ts).length := by simp only [List.length_cons]; have : g ≤ Ts.length := hg; omega
      obtain ⟨ws, w1, w2, b1, b2, b3, b4, b5, b6, b7⟩ := hsess g [] hg' (List.nil_sublist _) (by simp)
      have hcne : colsT (tab g) ≠ [] := by
        intro hn
        have := (hcolsT (tab g)).2.1
        rw [hn] at this
        simp at this
        exact (hT _ (htabm g)).2 this
      obtain ⟨k1, k2, k3, k4, k5, k6⟩ := startWriter_state b1 hcne
      refine ⟨ws, b1, List.nil_sublist _, hg', [], [], [], ws, ws, rfl, by simp, b1, rfl, ⟨rfl, fun _ => k5, Or.inl rfl⟩, [], rfl, fun _ => ⟨by simp, .nil⟩⟩
    · rintro g js w i ⟨h1, hg, jd, jc, x, ws, w1, rfl, h2, h3, h4, h5, h6⟩ hseg hsub
      obtain ⟨ws', w1', w2, b1, b2, _⟩ := hsess g (jc ++ [i]) hg ((List.sublist_append_right jd _).trans (by rw [← List.append_assoc]; exact hsub)) (by
        intro k hk
        rcases List.mem_append.mp hk with hk | hk
        · exact h2 k hk
        · rw [List.mem_singleton.mp hk]; exact hseg)
      rw [h3] at b1
      simp only [Except.ok.injEq] at b1
      subst b1
      have b2' := b2
      rw [List.map_append, List.map_cons, List.map_nil, writeRows_snoc h4] at b2'
      obtain ⟨v', c1, c2⟩ := h5.writeRow b2'
      refine ⟨v', c1, hsub, hg, jd, jc ++ [i], x, ws, w1', by rw [List.append_assoc], ?_, h3, b2, c2, h6⟩
      intro k hk
      rcases List.mem_append.mp hk with hk | hk
      · exact h2 k hk
      · rw [List.mem_singleton.mp hk]; exact hseg
    · rintro g js w ⟨h1, hg, jd, jc, x, ws, w1, rfl, h2, h3, h4, h5, h6⟩ htop
      have hg' : g + 1 < (T0 :: Ts).length := by simp only [List.length_cons]; have : g + 1 ≤ Ts.length := htop; omega
      obtain ⟨ws', w1', w2, b1, b2, b3, b4, b5, b6, b7⟩ := hsess g jc hg ((List.sublist_append_right jd _).trans h1) h2
      rw [h3] at b1
      simp only [Except.ok.injEq] at b1
      subst b1
      rw [h4] at b2
      simp only [Except.ok.injEq] at b2
      subst b2
      obtain ⟨wn, _, _, n1, _⟩ := hsess (g + 1) [] hg' (List.nil_sublist _) (by simp)
      obtain ⟨v', c1, c2⟩ := h5.change b3 b4 b6 n1
      refine ⟨v', c1, h1, hg', jd ++ jc, [], _, wn, wn, by simp, by simp, n1, rfl, c2, h6.append b7⟩
    · rintro g js w ⟨h1, hg, jd, jc, x, ws, w1, rfl, h2, h3, h4, h5, h6⟩ _
      obtain ⟨ws', w1', w2, b1, b2, b3, b4, b5, b6, b7⟩ := hsess g jc hg ((List.sublist_append_right jd _).trans h1) h2
      rw [h3] at b1
      simp only [Except.ok.injEq] at b1
      subst b1
      rw [h4] at b2
      simp only [Except.ok.injEq] at b2
      subst b2
      obtain ⟨v', c1, c2, _⟩ := h5.flush b6
      have hwi : w.inited = true := by rw [h5.eq]; exact b5
      refine ⟨v', ?_, ?_⟩
      · unfold Writer.close
        rw [if_pos (show w.inited = true from hwi)]
        exact c1
      · have : v'.out = x ++ w2.out := by rw [c2.eq]
        rw [this]
        exact (h6.append b7).rows
  have hS : SplitCase env (T0 :: Ts) ts tail ps cap (fun g => colsT (tab g)) C := by
    refine ⟨rfl, rfl, rfl, rfl, rfl, rfl, ?_, fun g _ => (hparT _ (htabm g)).2.1⟩
    intro i x hx
    obtain ⟨e1, e2⟩ := hat i x hx
    refine ⟨e1, ?_, ?_⟩
    · show rowAt ((at_ i).1.cols.map (InCol.data env)) (at_ i).2 = _
      rw [e2]
    · show nameOf (ps (at_ i).1) tail (at_ i).2 = _
      rw [e2]
  have hnew : Disp.new (colsT (tab 0)) (tmplText ts tail) max cap false =
      .ok ⟨colsT (tab 0), tmplText ts tail, parT (tab 0), max, cap, [], [], List.replicate max 18446744073709551615, [], 0, false, [], 0⟩ := by
    unfold Disp.new
    rw [(hparT _ (htabm 0)).2.1]
  refine ⟨C, fun g => colsT (tab g), _, hC, rfl, rfl, rfl, rfl, hS, fun ks hk => (hcolsT _).2.2 ks hk, hnew, fun js bs h => h, ?_⟩
  exact loop_tables hC hS (fun g T h => by rw [htab g T h]; exact (hcolsT T).2.1)
    (fun g T ks h hk => by rw [htab g T h]; exact (hcolsT T).2.2 ks hk) hpos (T0 :: Ts) views hrows 0 0 rfl rfl (Nat.zero_le _)
    (DInv.first C) (Or.inl rfl)

end Verif
