import Verif.DispatchName

/-
C30: rows written through a dispatching writer.
-/

namespace Verif

/-! ### The rows of a file -/

/-- Columns and values of the rows of some frames. -/
def rowPairs (Fs : List RFrame) : List (List Col × List Cell) := Fs.flatMap (fun F => F.rows.map (fun r => (F.cols, r)))

theorem tableViews_pairs (b : Bool) (F : RFrame) :
    (tableViews b F).map (fun v => (v.cols, v.cells)) = F.rows.map (fun r => (F.cols, r)) := by
  unfold tableViews
  cases F.rows with
  | nil => rfl
  | cons r rs => simp [Function.comp_def]

theorem fileViews_pairs (Fs : List RFrame) : (fileViews Fs).map (fun v => (v.cols, v.cells)) = rowPairs Fs := by
  cases Fs with
  | nil => rfl
  | cons F Fs =>
    simp only [fileViews, rowPairs, List.map_append, List.flatMap_cons, tableViews_pairs, List.map_flatMap]

theorem IsRow.pair {env : Env} {T : UTable} {j : Nat} {v v' : RowView} (h : IsRow env T j v) (hc : v'.cols = v.cols)
    (hd : v'.cells = v.cells) : IsRow env T j v' :=
  ⟨by rw [hc]; exact h.ncols, by rw [hd]; exact h.ncells, by rw [hc, hd]; exact h.col,
    fun p c hp => by rw [← h.missing p c hp]; unfold RowView.isMissing; rw [hc, hd],
    fun p k y hk hy => h.wide p k y (by rw [← hc]; exact hk) (by rw [← hd]; exact hy),
    fun had p c k hp hk => h.mdi had p c k hp (by rw [← hc]; exact hk)⟩

/-- Specification: row `j` of the table, as columns and values. -/
def IsRowPair (env : Env) (T : UTable) (j : Nat) (p : List Col × List Cell) : Prop := IsRow env T j ⟨p.1, p.2, false⟩

theorem Match.append {α β : Type} {R : α → β → Prop} {a1 a2 : List α} {b1 b2 : List β} (h1 : Match R a1 b1) (h2 : Match R a2 b2) :
    Match R (a1 ++ a2) (b1 ++ b2) := by
  induction h1 with
  | nil => exact h2
  | cons h _ ih => exact .cons h ih

theorem match_pairs {env : Env} {T : UTable} {js : List Nat} {vs : List RowView} :
    Match (IsRow env T) js vs ↔ Match (IsRowPair env T) js (vs.map (fun v => (v.cols, v.cells))) := by
  constructor
  · intro h
    induction h with
    | nil => exact .nil
    | cons h _ ih => exact .cons (h.pair rfl rfl) ih
  · intro h
    induction vs generalizing js with
    | nil => cases h; exact .nil
    | cons v vs ih =>
      cases h with
      | cons h1 h2 => exact .cons (IsRow.pair h1 rfl rfl) (ih h2)

theorem rowPairs_length (Fs : List RFrame) : (rowPairs Fs).length = rowCount Fs := by
  unfold rowPairs rowCount
  simp [List.length_flatMap]

/-- Proof device: the bytes are frames that show the rows `js`, if none is too large. -/
def RowsIn (env : Env) (at_ : Nat → UTable × Nat) (js : List Nat) (bs : List Byte) : Prop :=
  ∃ Fs : List RFrame, bs = (Fs.map RFrame.bytes).flatten ∧ ((∀ f ∈ Fs.map RFrame.bytes, f.length ≤ 2147483647) →
    (∀ F ∈ Fs, F.Ok env) ∧ Match (fun j p => IsRowPair env (at_ j).1 (at_ j).2 p) js (rowPairs Fs))

/-- The rows of several writers on a file, one after the other. -/
theorem sessions_ok {env : Env} {at_ : Nat → UTable × Nat} (gs : List (List Nat × List Byte)) (h : ∀ x ∈ gs, RowsIn env at_ x.1 x.2) :
    RowsIn env at_ (gs.flatMap Prod.fst) (gs.flatMap Prod.snd) := by
  induction gs with
  | nil => exact ⟨[], rfl, fun _ => ⟨by simp, .nil⟩⟩
  | cons g gs ih =>
    obtain ⟨Fs, a1, a2⟩ := ih (fun g hg => h g (by simp [hg]))
    obtain ⟨Gs, b1, b2⟩ := h g (by simp)
    refine ⟨Gs ++ Fs, ?_, ?_⟩
    · rw [List.flatMap_cons, a1, b1]
      simp
    · intro hsz
      obtain ⟨c1, c2⟩ := b2 (fun f hf => hsz f (by simp only [List.map_append, List.mem_append]; exact Or.inl hf))
      obtain ⟨d1, d2⟩ := a2 (fun f hf => hsz f (by simp only [List.map_append, List.mem_append]; exact Or.inr hf))
      refine ⟨?_, ?_⟩
      · intro F hF
        rcases List.mem_append.mp hF with hF | hF
        · exact c1 F hF
        · exact d1 F hF
      · rw [List.flatMap_cons, show rowPairs (Gs ++ Fs) = rowPairs Gs ++ rowPairs Fs by simp [rowPairs]]
        exact c2.append d2

/-! ### The key of a row -/

theorem flatten_getD (cells : List Cell) (k : Nat) (w : Word) (h1 : ∀ (q : Nat) (y : Cell), q < k → cells[q]? = some y → y.length = 1)
    (h : cells[k]? = some [w]) : cells.flatten[k]? = some w := by
  induction cells generalizing k with
  | nil => simp at h
  | cons y cells ih =>
    cases k with
    | zero => simp at h; subst h; simp
    | succ k =>
      have hy := h1 0 y (by omega) rfl
      obtain ⟨b, rfl⟩ := List.length_eq_one_iff.mp hy
      simp only [List.flatten_cons, List.singleton_append, List.getElem?_cons_succ]
      exact ih k (fun q y hq hy => h1 (q + 1) y (by omega) (by simpa using hy)) (by simpa using h)

/-- The double at the place of a column. -/
theorem key_at (env : Env) (T : UTable) (hrows : ∀ c ∈ T.cols, c.vals.rows = T.rows) (k : Nat) (c : InCol) (hk : T.cols[k]? = some c)
    (hc : c.vals.words = 1) (hbefore : ∀ (k' : Nat) (c' : InCol), k' < k → T.cols[k']? = some c' → c'.vals.words = 1)
    (i : Nat) (hi : i < T.rows) :
    (rowAt (T.cols.map (InCol.data env)) i).flatten[k]? = some (c.vals.keyWord env i) := by
  have len1 : ∀ c ∈ T.cols, c.vals.words = 1 → ((c.vals.cells env).getD i []).length = 1 := by
    intro c hc h1
    have hlt : i < (c.vals.cells env).length := by rw [Vals.cells_length, hrows c hc]; exact hi
    have := Vals.cells_words env c.vals _ (getD_mem (c.vals.cells env) i [] hlt)
    rw [this, h1]
  have hget : ∀ (q : Nat) (c : InCol), T.cols[q]? = some c →
      (rowAt (T.cols.map (InCol.data env)) i)[q]? = some ((c.vals.cells env).getD i []) := by
    intro q c hq
    simp [rowAt, hq, InCol.data]
  apply flatten_getD
  · intro q y hq hy
    have hlt : q < T.cols.length := by
      have := (List.getElem?_eq_some_iff.mp hy).1
      simpa [rowAt] using this
    have hcq : T.cols[q]? = some T.cols[q] := List.getElem?_eq_getElem hlt
    rw [hget q _ hcq] at hy
    simp only [Option.some.injEq] at hy
    rw [← hy]
    exact len1 _ (List.getElem_mem _) (hbefore q _ hq hcq)
  · rw [hget k c hk]
    have := len1 c (List.mem_of_getElem? hk) hc
    obtain ⟨w, hw⟩ := List.length_eq_one_iff.mp this
    unfold Vals.keyWord
    rw [hw]
    rfl

theorem Labels.words {env : Env} {v : Vals} (h : v.Labels env) : v.words = 1 := by
  cases v with
  | strings w vs => exact h.1
  | _ => rfl

theorem keyEq_map {α : Type} (l : List α) (f g : α → Word) : keyEq (l.map f) (l.map g) = true ↔ ∀ a ∈ l, feq (f a) (g a) = true := by
  induction l with
  | nil => simp [keyEq]
  | cons a l ih => simp [keyEq, ih]

/-! ### C30 -/

/-- **C30.**  A table is written row by row through a dispatching writer whose template names some of its columns.  Whatever the
number of files that may be open at once, and whatever the order of the rows: every row is in the file whose name is the template
with the values of the row, in no other file, and the rows of a file are in the order in which they were written.  Files of
other names are not touched.  What a file held before (`base`) is kept if the writer was opened for appending; without appending it is discarded,
as long as the number of files is not larger than the number that may be open (otherwise see `C30_violated_stale`). -/
theorem C30_dispatch (env : Env) (hmd5 : env.Md5Ok) (o : Order) (T : UTable) (hT : T.AnyRowsOk env) (cols : List WCol)
    (hcols : ColsOf T cols) (ps : List Part) (tail : Str) (hps : ps ≠ []) (hpart : ∀ p ∈ ps, p.Ok env T) (htail : chOpen ∉ tail)
    (hdist : ∀ i < T.rows, ∀ j < T.rows, nameOf ps tail i = nameOf ps tail j → ∀ p ∈ ps, p.col.vals.label i = p.col.vals.label j)
    (max cap : Nat) (hmax : 0 < max) (hcap : 0 < cap) (append : Bool) (d : Disk) :
    ∃ d' : Disk, dispatchRows env o cols (tmplOf ps tail) max cap append d
        ((List.range T.rows).map (rowAt (T.cols.map (InCol.data env)))) = .ok d' ∧
      ∃ base : Str → List Byte,
        (∀ (nm : Str) (is : List Nat), is = (List.range T.rows).filter (fun i => decide (nameOf ps tail i = nm)) →
          (is = [] → d' nm = d nm) ∧
          (is ≠ [] → ∃ fs : List (List Byte), d' nm = some (base nm ++ fs.flatten) ∧ ((∀ f ∈ fs, f.length ≤ 2147483647) →
            ∀ (junk : Junk) (fuel : Nat), is.length + 1 < fuel →
              ∃ views : List RowView, readRows env junk fs.flatten fuel = (views, none) ∧ Match (IsRow env T) is views))) ∧
        (append = true → ∀ nm, base nm = (d nm).getD []) ∧
        (∀ nm, d nm = none → base nm = []) ∧
        (append = false → (∀ ns : List Str, ns.Nodup → (∀ n ∈ ns, ∃ i < T.rows, nameOf ps tail i = n) → ns.length ≤ max) →
          ∀ nm, base nm = []) := by
  have hcols' := hcols
  obtain ⟨cks, hck, hcw⟩ := hcols
  have hclen : cks.length = T.cols.length := by have := congrArg List.length hcw; simpa using this
  have hnames : cols.map WCol.name = T.cols.map InCol.name := by
    rw [hck]
    apply List.ext_getElem?
    intro q
    simp only [List.getElem?_map, List.getElem?_zipWith]
    by_cases hq : q < T.cols.length
    · rw [List.getElem?_eq_getElem hq, List.getElem?_eq_getElem (by omega)]; rfl
    · rw [List.getElem?_eq_none (by omega)]; rfl
  have htys : ∀ (q : Nat) (c : InCol), T.cols[q]? = some c → (cols.map WCol.ty)[q]? = some c.vals.ty := by
    intro q c hq
    rw [hck]
    have hlt := (List.getElem?_eq_some_iff.mp hq).1
    simp only [List.getElem?_map, List.getElem?_zipWith, hq]
    rw [List.getElem?_eq_getElem (by omega)]; rfl
  obtain ⟨ks, hkl, hks⟩ := exists_list (fun (p : Part) (k : Nat) => T.cols[k]? = some p.col ∧ Means p.query p.col.name ∧
    (∀ (k' : Nat) (c' : InCol), T.cols[k']? = some c' → Means p.query c'.name → k' = k) ∧
    ∀ (k' : Nat) (c' : InCol), k' < k → T.cols[k']? = some c' → c'.vals.words = 1) ps (fun p hp => (hpart p hp).col)
  have hkey : ∀ (q : Nat) (p : Part) (k : Nat), ps[q]? = some p → ks[q]? = some k → ∀ i < T.rows,
      (rowAt (T.cols.map (InCol.data env)) i).flatten[k]? = some (p.col.vals.keyWord env i) := by
    intro q p k hp hk i hi
    obtain ⟨a1, _, _, a4⟩ := hks q p k hp hk
    exact key_at env T hT.rows k p.col a1 (Labels.words (hpart p (List.mem_of_getElem? hp)).labels) a4 i hi
  have hrowsP : ∀ p ∈ ps, p.col.vals.rows = T.rows ∧ p.col.vals.Ok env := by
    intro p hp
    obtain ⟨k, hk, _⟩ := (hpart p hp).col
    exact ⟨hT.rows _ (List.mem_of_getElem? hk), hT.vals _ (List.mem_of_getElem? hk)⟩
  have hparse : parseTemplate (cols.map WCol.name) (tmplOf ps tail) = .ok (paramsOf 0 ps ks) := by
    unfold parseTemplate
    have := parseFrom_ok (cols.map WCol.name) ps tail ks hkl (fun p hp => (hpart p hp).text) (fun p hp => (hpart p hp).query) htail
      (by
        intro q p k hp hk
        obtain ⟨a1, a2, a3, _⟩ := hks q p k hp hk
        rw [hnames]
        refine ((C24_column_index _ _).1 k).mpr ⟨⟨p.col.name, by simp [a1], a2⟩, ?_⟩
        intro k' n' h1 h2
        simp only [List.getElem?_map, Option.map_eq_some_iff] at h1
        obtain ⟨c', h1, rfl⟩ := h1
        exact a3 k' c' h1 h2)
      [] 0 (Nat.zero_le _) (by simp) ((tmplOf ps tail).length + 1) (by have := parts_le ps tail; omega)
    rw [List.nil_append, List.length_nil] at this
    rw [this]
    cases ps with
    | nil => exact absurd rfl hps
    | cons p ps =>
      cases ks with
      | nil => simp at hkl
      | cons k ks => rfl
  have hkeyOf : ∀ i < T.rows, (paramsOf 0 ps ks).map (fun p => (rowAt (T.cols.map (InCol.data env)) i).flatten.getD p.col 0) =
      ps.map (fun p => p.col.vals.keyWord env i) := by
    intro i hi
    have : (paramsOf 0 ps ks).map (fun p => (rowAt (T.cols.map (InCol.data env)) i).flatten.getD p.col 0) =
        ((paramsOf 0 ps ks).map TParam.col).map (fun k => (rowAt (T.cols.map (InCol.data env)) i).flatten.getD k 0) := by
      rw [List.map_map]; rfl
    rw [this, paramsOf_col 0 ps ks hkl]
    apply List.ext_getElem?
    intro q
    simp only [List.getElem?_map]
    by_cases hq : q < ps.length
    · have h1 : ps[q]? = some ps[q] := List.getElem?_eq_getElem hq
      have h2 : ks[q]? = some (ks[q]'(by omega)) := List.getElem?_eq_getElem (by omega)
      rw [h1, h2]
      simp only [Option.map_some, List.getD_eq_getElem?_getD]
      rw [hkey q _ _ h1 h2 i hi]
      rfl
    · rw [List.getElem?_eq_none (by omega), List.getElem?_eq_none (by omega)]; rfl
  let C : DCtx := ⟨env, o, fun _ => cols, tmplOf ps tail, fun _ => paramsOf 0 ps ks, fun _ => 0, 0, max, cap, append, d,
    rowAt (T.cols.map (InCol.data env)), List.range T.rows, nameOf ps tail,
    fun _ js w => ∃ w0, startWriter env cap cols = .ok w0 ∧ w0.writeRows env o (js.map (rowAt (T.cols.map (InCol.data env)))) = .ok w,
    RowsIn env (fun i => (T, i))⟩
  have hmem : ∀ i ∈ C.is, i < T.rows := fun i hi => by simpa [C] using hi
  have hC : C.Ok := by
    have hsess : ∀ js : List Nat, js.Sublist C.is → _ := fun js hjs =>
      session_ok env hmd5 o cap hcap T hT cols hcols' js (fun j hj => hmem j (hjs.subset hj)) (by
        have h1 := hjs.length_le
        have h2 := hT.big
        simp only [C, List.length_range] at h1
        omega)
    refine ⟨hmax, fun _ _ => ?_, ?_, ?_, ?_, ?_, ?_, fun _ _ _ _ h => absurd h (by simp [C]), ?_⟩
    · show paramsOf 0 ps ks ≠ []
      cases ps with
      | nil => exact absurd rfl hps
      | cons p ps => exact paramsOf_ne 0 p ps ks hkl
    · intro i hi
      show ((paramsOf 0 ps ks).map (fun p => (rowAt (T.cols.map (InCol.data env)) i).flatten.getD p.col 0)).any isNaN = false
      rw [hkeyOf i (hmem i hi), List.any_eq_false]
      intro w hw
      obtain ⟨p, hp, rfl⟩ := List.mem_map.mp hw
      rw [label_nan (hrowsP p hp).2 (hpart p hp).labels i (by rw [(hrowsP p hp).1]; exact hmem i hi)]
      simp
    · intro i hi
      have := replaceAll_ok (cols.map WCol.ty) ps tail ks hkl (rowAt (T.cols.map (InCol.data env)) i).flatten
        (fun p => p.col.vals.label i) (by
          intro q p k hp hk
          have hpm := List.mem_of_getElem? hp
          exact ⟨_, _, htys k p.col (hks q p k hp hk).1, hkey q p k hp hk i (hmem i hi),
            label_text (hrowsP p hpm).2 (hpart p hpm).labels i (by rw [(hrowsP p hpm).1]; exact hmem i hi)⟩) [] []
      simpa [fileName, C, nameOf] using this
    · intro i hi j hj
      show nameOf ps tail i = nameOf ps tail j ↔ _
      have e : keyEq (C.key i) (C.key j) = true ↔ ∀ p ∈ ps, p.col.vals.label i = p.col.vals.label j := by
        have e1 : C.key i = ps.map (fun p => p.col.vals.keyWord env i) := hkeyOf i (hmem i hi)
        have e2 : C.key j = ps.map (fun p => p.col.vals.keyWord env j) := hkeyOf j (hmem j hj)
        rw [e1, e2, keyEq_map]
        constructor
        · intro h p hp
          exact (label_key (hrowsP p hp).2 (hpart p hp).labels i j (by rw [(hrowsP p hp).1]; exact hmem i hi)
            (by rw [(hrowsP p hp).1]; exact hmem j hj)).mpr (h p hp)
        · intro h p hp
          exact (label_key (hrowsP p hp).2 (hpart p hp).labels i j (by rw [(hrowsP p hp).1]; exact hmem i hi)
            (by rw [(hrowsP p hp).1]; exact hmem j hj)).mp (h p hp)
      rw [e]
      constructor
      · exact hdist i (hmem i hi) j (hmem j hj)
      · intro h
        unfold nameOf
        congr 1
        rw [List.flatMap_congr]
        intro p hp
        rw [h p hp]
    · intro g _
      obtain ⟨w0, w, w', Gs, b1, b2, b3, b4, b5⟩ := hsess [] (List.nil_sublist _)
      exact ⟨w0, b1, w0, b1, rfl⟩
    · rintro g js w i ⟨w0, h1, h2⟩ _ hsub
      obtain ⟨w0', w', _, Gs, b1, b2, b3, b4, b5⟩ := hsess (js ++ [i]) hsub
      rw [h1] at b1
      simp only [Except.ok.injEq] at b1
      subst b1
      refine ⟨w', ?_, w0, h1, b2⟩
      rw [List.map_append, List.map_cons, List.map_nil, writeRows_snoc h2] at b2
      exact b2
    · rintro g js w ⟨w0, h1, h2⟩ hsub
      obtain ⟨w0', w1, w', Gs, b1, b2, b3, b4, b5⟩ := hsess js hsub
      rw [h1] at b1
      simp only [Except.ok.injEq] at b1
      subst b1
      rw [h2] at b2
      simp only [Except.ok.injEq] at b2
      subst b2
      refine ⟨w', b3, Gs, by rw [b4], ?_⟩
      intro hsz
      obtain ⟨c1, c2, _, c4⟩ := b5 hsz
      refine ⟨c1, ?_⟩
      have : Match (IsRow env T) js (fileViews Gs) := Match.of_get js _ c2.symm (fun r j v hj hv => c4 r v j hv hj)
      rw [match_pairs, fileViews_pairs] at this
      exact this
  obtain ⟨d', a1, base, a2, a3, a4, a5⟩ := dispatch_files C hC hparse (fun _ _ => rfl)
  refine ⟨d', a1, base, ?_, a3, a4, fun happ hfew => a5 ?_ happ⟩
  · rintro nm is rfl
    obtain ⟨gs, g1, g2, hfin, g3⟩ := a2 nm
    have hpick : C.pick C.is nm = (List.range T.rows).filter (fun i => decide (nameOf ps tail i = nm)) := rfl
    rw [hpick] at g1 g2 g3
    refine ⟨fun h => by rw [g3, if_pos h], fun hne => ?_⟩
    rw [if_neg hne] at g3
    obtain ⟨Fs, f1, f2⟩ := sessions_ok gs hfin
    refine ⟨Fs.map RFrame.bytes, by rw [g3, f1], ?_⟩
    intro hsz junk fuel hfuel
    obtain ⟨h1, h2⟩ := f2 hsz
    rw [g1] at h2
    have hcount := h2.length
    rw [rowPairs_length] at hcount
    refine ⟨fileViews Fs, readRows_file env junk Fs h1 fuel (by omega), ?_⟩
    rw [match_pairs, fileViews_pairs]
    exact h2
  · intro ns h1 h2
    apply hfew ns h1
    intro n hn
    obtain ⟨i, hi, he⟩ := h2 n hn
    exact ⟨i, hmem i hi, he⟩

/-- Names differ whenever the values do, if what follows a value in the template begins with a byte that is in none of the values. -/
theorem C30_names (T : UTable) (ps : List Part) (tail : Str) (h : Separated T.rows ps) :
    ∀ i < T.rows, ∀ j < T.rows, nameOf ps tail i = nameOf ps tail j → ∀ p ∈ ps, p.col.vals.label i = p.col.vals.label j :=
  fun i hi j hj => names_distinct T.rows ps tail h i j hi hj

/-! ### A case that meets the hypotheses -/

/-- The columns as declared by a user: the default codec of each type, with the width of the column. -/
def declCols (env : Env) : List InCol → Except Err (List WCol)
  | [] => .ok []
  | c :: cs =>
    match resetCodec env c.vals.ty c.vals.words with
    | .error e => .error e
    | .ok k =>
      match declCols env cs with
      | .error e => .error e
      | .ok ws => .ok (wcol c k :: ws)

theorem declCols_ok (env : Env) (T : UTable) : ∃ cols, declCols env T.cols = .ok cols ∧ ColsOf T cols := by
  have key : ∀ cs : List InCol, ∃ ks : List Codec, declCols env cs = .ok (List.zipWith wcol cs ks) ∧
      ks.map Codec.width = cs.map (fun c => c.vals.words) := by
    intro cs
    induction cs with
    | nil => exact ⟨[], rfl, rfl⟩
    | cons c cs ih =>
      obtain ⟨ks, h1, h2⟩ := ih
      obtain ⟨k, hk⟩ := start_none env c.vals
      refine ⟨k :: ks, ?_, by simp [h2, (startCodec_pres hk).1]⟩
      unfold declCols
      rw [resetCodec_start hk, h1]
      rfl
  obtain ⟨ks, h1, h2⟩ := key T.cols
  exact ⟨_, h1, ks, rfl, h2⟩

/-- Five rows: type of observation, station, value, remark. -/
def obsTable : UTable :=
  { rows := 5
    props := []
    cols := [⟨lit "obstype@hdr", .ints [1, 2, 1, -3, 1]⟩, ⟨lit "station@hdr", .strings 1 [lit "ab", lit "c d", lit "ab", lit "ab", lit "x"]⟩,
      ⟨lit "value@body", .doubles [ofInt 1, ofInt 2, ofInt 3, ofInt 4, ofInt 5]⟩,
      ⟨lit "text@body", .strings 2 [lit "first remark", lit "a", lit "bb", lit "ccc", lit "d"]⟩] }

/-- Sample: a template with two keys. -/
def obsParts : List Part :=
  [⟨lit "out.", lit "obstype", ⟨lit "obstype@hdr", .ints [1, 2, 1, -3, 1]⟩⟩,
    ⟨lit ".", lit "station@hdr", ⟨lit "station@hdr", .strings 1 [lit "ab", lit "c d", lit "ab", lit "ab", lit "x"]⟩⟩]

example : tmplOf obsParts (lit ".odb") = lit "out.{obstype}.{station@hdr}.odb" := by decide +kernel
example : (List.range 5).map (nameOf obsParts (lit ".odb")) =
    [lit "out.1.ab.odb", lit "out.2.c d.odb", lit "out.1.ab.odb", lit "out.-3.ab.odb", lit "out.1.x.odb"] := by decide +kernel

theorem obsTable_ok : obsTable.AnyRowsOk dblEnv where
  few := by decide +kernel
  rows := by
    intro c hc
    simp only [obsTable, List.mem_cons, List.not_mem_nil, or_false] at hc
    rcases hc with rfl | rfl | rfl | rfl <;> rfl
  lens := by
    intro c hc
    simp only [obsTable, List.mem_cons, List.not_mem_nil, or_false] at hc
    rcases hc with rfl | rfl | rfl | rfl <;> exact ⟨by decide +kernel, by decide +kernel, by simp [Vals.members]⟩
  big := by decide
  vals := by
    intro c hc
    simp only [obsTable, List.mem_cons, List.not_mem_nil, or_false] at hc
    rcases hc with rfl | rfl | rfl | rfl
    · exact ball (P := InI32) (by decide +kernel)
    · refine ⟨by decide, by decide, ?_, fun ds h1 h2 => few_distinct _ _ h1 h2 (by decide), (by intro h; cases h), ball (by decide +kernel)⟩
      intro s hs
      simp only [List.mem_cons, List.not_mem_nil, or_false] at hs
      rcases hs with rfl | rfl | rfl | rfl | rfl <;> exact ⟨by decide +kernel, nulFree_of (by decide +kernel)⟩
    · exact ⟨ball (by decide +kernel), ball (by decide +kernel), by decide +kernel, fun h => absurd h (by decide +kernel)⟩
    · refine ⟨by decide, by decide, ?_, fun ds h1 h2 => few_distinct _ _ h1 h2 (by decide), (by intro h; cases h), ball (by decide +kernel)⟩
      intro s hs
      simp only [List.mem_cons, List.not_mem_nil, or_false] at hs
      rcases hs with rfl | rfl | rfl | rfl | rfl <;> exact ⟨by decide +kernel, nulFree_of (by decide +kernel)⟩
  noEmpty := by intro h; cases h

theorem goodText_of {s : Str} (h : (s.all (fun b => decide (32 ≤ b.toNat) && decide (b.toNat ≤ 126) && decide (b ≠ chSlash)) &&
    decide (s.head? ≠ some chSpace) && decide (s.getLast? ≠ some chSpace)) = true) : GoodText s := by
  simp only [Bool.and_eq_true, List.all_eq_true, decide_eq_true_eq] at h
  exact ⟨fun b hb => (h.1.1 b hb).1, fun hs => (h.1.1 _ hs).2 rfl, h.1.2, h.2⟩

theorem obsParts_ok : ∀ p ∈ obsParts, p.Ok dblEnv obsTable := by
  have hlook : ∀ (q : Str) (k : Nat), columnIndex (obsTable.cols.map InCol.name) q = .ok k →
      ∀ (k' : Nat) (c' : InCol), obsTable.cols[k']? = some c' → Means q c'.name → k' = k := by
    intro q k h k' c' h1 h2
    exact (((C24_column_index _ q).1 k).mp h).2 k' c'.name (by rw [List.getElem?_map, h1]; rfl) h2
  intro p hp
  simp only [obsParts, List.mem_cons, List.not_mem_nil, or_false] at hp
  rcases hp with rfl | rfl
  · exact ⟨by decide +kernel, by decide +kernel, rfl, 0, rfl, (columnNameMatches_iff _ _).mp (by decide +kernel), hlook _ _ (by decide +kernel),
      fun k' c' h => absurd h (by omega)⟩
  · refine ⟨by decide +kernel, by decide +kernel, ⟨rfl, ?_⟩, 1, rfl, (columnNameMatches_iff _ _).mp (by decide +kernel), hlook _ _ (by decide +kernel), ?_⟩
    · intro s hs
      simp only [List.mem_cons, List.not_mem_nil, or_false] at hs
      rcases hs with rfl | rfl | rfl | rfl | rfl <;> exact goodText_of (by decide +kernel)
    · intro k' c' h hk
      have : k' = 0 := by omega
      subst this
      simp only [obsTable, List.getElem?_cons_zero, Option.some.injEq] at hk
      subst hk
      rfl

theorem obsParts_separated : Separated obsTable.rows obsParts := by
  refine ⟨⟨0x2e, [], by decide +kernel, ?_⟩, trivial⟩
  have h : ((List.range obsTable.rows).all (fun i => decide ((0x2e : Byte) ∉ (Vals.ints [1, 2, 1, -3, 1]).label i))) = true := by
    decide +kernel
  intro i hi
  have := List.all_eq_true.mp h i (by simpa using hi)
  simpa using this

/-- All the hypotheses of C30 together, with two open files for four names. -/
example : ∃ cols d', declCols dblEnv obsTable.cols = .ok cols ∧
    dispatchRows dblEnv .same cols (lit "out.{obstype}.{station@hdr}.odb") 2 10 false (fun _ => none)
      ((List.range obsTable.rows).map (rowAt (obsTable.cols.map (InCol.data dblEnv)))) = .ok d' := by
  obtain ⟨cols, h1, h2⟩ := declCols_ok dblEnv obsTable
  obtain ⟨d', h3, _⟩ := C30_dispatch dblEnv sampleEnv_md5 .same obsTable obsTable_ok cols h2 obsParts (lit ".odb") (by simp [obsParts])
    obsParts_ok (by decide +kernel) (C30_names obsTable obsParts _ obsParts_separated) 2 10 (by decide) (by decide) false (fun _ => none)
  rw [show tmplOf obsParts (lit ".odb") = lit "out.{obstype}.{station@hdr}.odb" by decide +kernel] at h3
  exact ⟨cols, d', h1, h3⟩

/-! ### What goes wrong outside these hypotheses -/

/-- Rows of a table through a dispatcher; the values read back from a file. -/
def tryDispatch (env : Env) (T : UTable) (tmpl : Str) (max cap : Nat) (append : Bool) (d : Disk) (nm : Str) : Option (List (List Cell) × Bool) :=
  match declCols env T.cols with
  | .error _ => none
  | .ok cols =>
    match dispatchRows env .same cols tmpl max cap append d (rowsOf (T.cols.map (InCol.data env)) T.rows) with
    | .error _ => none
    | .ok d =>
      match d nm with
      | none => none
      | some bs => rowsSeen env (.ok [bs]) 20

/-- Sample: a table with a key column and a numbering. -/
def keyed (k : Vals) (n : Nat) : UTable :=
  { rows := n, props := [], cols := [⟨lit "k", k⟩, ⟨lit "v", .ints ((List.range n).map Int.ofNat)⟩] }

/-- **C30 fails for strings that contain a slash**: `"a/b"` and `"a/c"` give one name, two writers are open on this file, and
the second row is overwritten by the third. -/
theorem C30_violated_slash :
    nameOf [⟨lit "o.", lit "k", ⟨lit "k", .strings 1 [lit "a/b", lit "a/c", lit "a/b"]⟩⟩] [] 0 = lit "o.a/b" ∧
    tryDispatch dblEnv (keyed (.strings 1 [lit "a/b", lit "a/c", lit "a/b"]) 3) (lit "o.{k}") 10 1 false (fun _ => none) (lit "o.a__SLASH__") =
      some ([[[wordOfBytes (lit "a/b")], [ofInt 0]], [[wordOfBytes (lit "a/b")], [ofInt 2]]], true) := by
  decide +kernel

/-- **C30 fails for numbers that are not whole**: 1.25 and 1.75 share the file `o.1`, and a row is lost. -/
theorem C30_violated_fraction :
    tryDispatch dblEnv (keyed (.doubles [0x3ff4000000000000, 0x3ffc000000000000, 0x3ff4000000000000]) 3) (lit "o.{k}") 10 1 false (fun _ => none) (lit "o.1") =
      some ([[[0x3ff4000000000000], [ofInt 0]], [[0x3ff4000000000000], [ofInt 2]]], true) := by
  decide +kernel

/-- **C30 fails for integers held as integers**: the rows with 1 and 2 share the file `o.0`, and a row is lost. -/
theorem C30_violated_ints :
    tryDispatch sampleEnv (keyed (.ints [1, 2, 1]) 3) (lit "o.{k}") 10 1 false (fun _ => none) (lit "o.0") =
      some ([[[1], [0]], [[1], [2]]], true) := by
  decide +kernel

/-- **C30: what a file held before survives**, although the writer was not opened for appending, once a file had to be closed and
opened again: the file `o.3` held a frame with `v = 0`; then rows with the keys 1, 2, 1, 3 are written with one open file. -/
theorem C30_violated_stale :
    (match declCols dblEnv (keyed (.ints [3]) 1).cols with
    | .error _ => none
    | .ok cols =>
      match dispatchRows dblEnv .same cols (lit "o.{k}") 1 1 false (fun _ => none) (rowsOf ((keyed (.ints [3]) 1).cols.map (InCol.data dblEnv)) 1) with
      | .error _ => none
      | .ok d => tryDispatch dblEnv (keyed (.ints [1, 2, 1, 3]) 4) (lit "o.{k}") 1 1 false d (lit "o.3")) =
    some ([[[ofInt 3], [ofInt 0]], [[ofInt 3], [ofInt 3]]], true) := by
  decide +kernel

/-- With as many open files as names the old content is discarded. -/
example :
    (match declCols dblEnv (keyed (.ints [3]) 1).cols with
    | .error _ => none
    | .ok cols =>
      match dispatchRows dblEnv .same cols (lit "o.{k}") 1 1 false (fun _ => none) (rowsOf ((keyed (.ints [3]) 1).cols.map (InCol.data dblEnv)) 1) with
      | .error _ => none
      | .ok d => tryDispatch dblEnv (keyed (.ints [1, 2, 1, 3]) 4) (lit "o.{k}") 3 1 false d (lit "o.3")) =
    some ([[[ofInt 3], [ofInt 3]]], true) := by
  decide +kernel

/-- A string of 16 bytes before the column with the key. -/
def wideFirst : UTable :=
  { rows := 2, props := [], cols := [⟨lit "s", .strings 2 [lit "abcdefgh", lit "abcdefgh"]⟩, ⟨lit "k", .ints [1, 2]⟩] }

/-- **C30 fails if a column of more than 8 bytes comes first**: the key is taken from the string, and both rows go to the file `o.0`. -/
theorem C30_violated_wide :
    tryDispatch dblEnv wideFirst (lit "o.{k}") 10 1 false (fun _ => none) (lit "o.0") =
      some ([[wordsOf 1 (lit "abcdefgh"), [ofInt 1]], [wordsOf 1 (lit "abcdefgh"), [ofInt 2]]], true) ∧
    tryDispatch dblEnv wideFirst (lit "o.{k}") 10 1 false (fun _ => none) (lit "o.1") = none := by
  decide +kernel

/-- Only the first eight bytes of a string count: two stations in one file. -/
theorem C30_violated_long :
    tryDispatch dblEnv (keyed (.strings 2 [lit "station_A", lit "station_B"]) 2) (lit "o.{k}") 10 1 false (fun _ => none) (lit "o.station_") =
      some ([[wordsOf 2 (lit "station_A"), [ofInt 0]], [wordsOf 2 (lit "station_B"), [ofInt 1]]], true) := by
  decide +kernel

end Verif
