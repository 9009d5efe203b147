import Verif.DispatchInv
import Verif.PropCompare

/-
The rows in the files written by the dispatcher.
-/

namespace Verif

/-! ### Some rows of a table -/

/-- The values of some rows, in this order. -/
def Vals.pick (js : List Nat) : Vals → Vals
  | .ints vs => .ints (js.map (fun j => vs.getD j 0))
  | .bits ms vs => .bits ms (js.map (fun j => vs.getD j 0))
  | .reals vs => .reals (js.map (fun j => vs.getD j 0))
  | .doubles vs => .doubles (js.map (fun j => vs.getD j 0))
  | .strings w vs => .strings w (js.map (fun j => vs.getD j []))

/-- Some rows of a table, without its properties. -/
def UTable.pickRows (T : UTable) (js : List Nat) : UTable :=
  { rows := js.length, props := [], cols := T.cols.map (fun c => ⟨c.name, c.vals.pick js⟩) }

theorem Vals.pick_ty (js : List Nat) (v : Vals) : (v.pick js).ty = v.ty := by cases v <;> rfl
theorem Vals.pick_words (js : List Nat) (v : Vals) : (v.pick js).words = v.words := by cases v <;> rfl
theorem Vals.pick_members (js : List Nat) (v : Vals) : (v.pick js).members = v.members := by cases v <;> rfl
theorem Vals.pick_rows (js : List Nat) (v : Vals) : (v.pick js).rows = js.length := by cases v <;> simp [Vals.pick, Vals.rows]

theorem getD_map_in {α β : Type} (g : α → β) (l : List α) (j : Nat) (a : α) (b : β) (h : j < l.length) :
    (l.map g).getD j b = g (l.getD j a) := by
  simp [List.getD_eq_getElem?_getD, h]

theorem Vals.pick_cells (env : Env) (js : List Nat) (v : Vals) (h : ∀ j ∈ js, j < v.rows) :
    (v.pick js).cells env = js.map (fun j => (v.cells env).getD j []) := by
  have key : ∀ {α : Type} (vs : List α) (a : α) (g : α → Cell), (∀ j ∈ js, j < vs.length) →
      (js.map (fun j => vs.getD j a)).map g = js.map (fun j => (vs.map g).getD j []) := by
    intro α vs a g hlt
    rw [List.map_map]
    apply List.map_congr_left
    intro j hj
    exact (getD_map_in g vs j a [] (hlt j hj)).symm
  cases v with
  | ints vs => exact key vs 0 _ h
  | bits ms vs => exact key vs 0 _ h
  | reals vs => exact key vs 0 _ h
  | doubles vs => exact key vs 0 _ h
  | strings w vs => exact key vs [] _ h

/-- The values of `a` are among those of `b`. -/
def Vals.Sub : Vals → Vals → Prop
  | .ints a, .ints b => ∀ x ∈ a, x ∈ b
  | .bits m a, .bits m' b => m = m' ∧ ∀ x ∈ a, x ∈ b
  | .reals a, .reals b => ∀ x ∈ a, x ∈ b
  | .doubles a, .doubles b => ∀ x ∈ a, x ∈ b
  | .strings w a, .strings w' b => w = w' ∧ ∀ x ∈ a, x ∈ b
  | _, _ => False

/-- No empty string in a wide column. -/
def Vals.NoEmpty : Vals → Prop
  | .strings w vs => 1 < w → ∀ s ∈ vs, s ≠ []
  | _ => True

theorem Vals.Ok.sub {env : Env} {a b : Vals} (h : a.Sub b) (hb : b.Ok env) (he : env.longEnv = true → b.NoEmpty) : a.Ok env := by
  cases a <;> cases b <;> simp only [Vals.Sub] at h
  · exact fun i hi => hb i (h i hi)
  · obtain ⟨rfl, h⟩ := h
    exact ⟨fun i hi => hb.1 i (h i hi), hb.2⟩
  · exact ⟨fun v hv => hb.nan v (h v hv), fun h1 h2 => hb.zero (h _ h1) (h _ h2),
      fun ⟨d, h1, h2⟩ v hv => hb.withMissing ⟨d, h d h1, h2⟩ v (h v hv), fun v hv => hb.lowest v (h v hv),
      fun ⟨d, h1, h2⟩ v hv => hb.smallest ⟨d, h d h1, h2⟩ v (h v hv)⟩
  · exact ⟨fun v hv => hb.nan v (h v hv), fun v hv => hb.miss v (h v hv), fun h1 h2 => hb.zero (h _ h1) (h _ h2),
      fun h1 v hv => hb.withMissing (h _ h1) v (h v hv)⟩
  · obtain ⟨rfl, h⟩ := h
    obtain ⟨b1, b2, b3, b4, b5, b6⟩ := hb
    refine ⟨b1, b2, fun s hs => b3 s (h s hs), fun ds d1 d2 => b4 ds d1 (fun s hs => h s (d2 s hs)), ?_, fun s hs => b6 s (h s hs)⟩
    intro hl hw hne
    rename_i w vs vs'
    cases vs with
    | nil => exact absurd rfl hne
    | cons s vs => exact ⟨s, by simp, he hl hw s (h s (by simp))⟩

theorem Vals.pick_part_sub (js : List Nat) (v : Vals) (h : ∀ j ∈ js, j < v.rows) (s n : Nat) : ((v.pick js).part s n).Sub v := by
  have key : ∀ {α : Type} (vs : List α) (a : α), (∀ j ∈ js, j < vs.length) →
      ∀ x ∈ ((js.map (fun j => vs.getD j a)).drop s).take n, x ∈ vs := by
    intro α vs a hlt x hx
    have hx' := List.mem_of_mem_drop (List.mem_of_mem_take hx)
    obtain ⟨j, hj, rfl⟩ := List.mem_map.mp hx'
    rw [List.getD_eq_getElem?_getD, List.getElem?_eq_getElem (hlt j hj)]
    exact List.getElem_mem _
  cases v with
  | ints vs => exact key vs 0 h
  | bits ms vs => exact ⟨rfl, key vs 0 h⟩
  | reals vs => exact key vs 0 h
  | doubles vs => exact key vs 0 h
  | strings w vs => exact ⟨rfl, key vs [] h⟩

theorem Vals.pick_one (js : List Nat) (v : Vals) (r j : Nat) (hr : js[r]? = some j) (hj : j < v.rows) :
    (v.pick js).part r 1 = v.part j 1 := by
  have key : ∀ {α : Type} (vs : List α) (a : α), j < vs.length →
      ((js.map (fun j => vs.getD j a)).drop r).take 1 = (vs.drop j).take 1 := by
    intro α vs a hlt
    have h1 : (js.map (fun j => vs.getD j a))[r]? = some vs[j] := by
      rw [List.getElem?_map, hr]
      simp [List.getD_eq_getElem?_getD, hlt]
    obtain ⟨h2, h3⟩ := List.getElem?_eq_some_iff.mp h1
    rw [List.drop_eq_getElem_cons h2, List.drop_eq_getElem_cons hlt, h3]
    rfl
  cases v with
  | ints vs => exact congrArg Vals.ints (key vs 0 hj)
  | bits ms vs => exact congrArg (Vals.bits ms) (key vs 0 hj)
  | reals vs => exact congrArg Vals.reals (key vs 0 hj)
  | doubles vs => exact congrArg Vals.doubles (key vs 0 hj)
  | strings w vs => exact congrArg (Vals.strings w) (key vs [] hj)

/-- What holds of a row of a column holds of it as a column of one row. -/
theorem gives_one {env : Env} {v : Vals} {s n q : Nat} {y : Cell} (h : (v.part s n).Gives env q y) (hq : q < n) :
    (v.part (s + q) 1).Gives env 0 y := by
  have key : ∀ {α : Type} (vs : List α) (x : α), ((vs.drop s).take n)[q]? = some x → ((vs.drop (s + q)).take 1)[0]? = some x := by
    intro α vs x hx
    rw [List.getElem?_take, if_pos hq, List.getElem?_drop] at hx
    rw [List.getElem?_take, if_pos (by omega), List.getElem?_drop]
    exact hx
  cases v with
  | ints vs => obtain ⟨i, h1, h2⟩ := h; exact ⟨i, key vs i h1, h2⟩
  | bits ms vs => obtain ⟨i, h1, h2⟩ := h; exact ⟨i, key vs i h1, h2⟩
  | reals vs =>
    obtain ⟨x, x', h1, h2, h3⟩ := h
    have hk := key vs x h1
    refine ⟨x, x', hk, h2, ?_⟩
    unfold RealOut at h3 ⊢
    split
    · rename_i hf; rw [if_pos hf] at h3; exact h3
    · rename_i hf
      rw [if_neg hf] at h3
      rcases h3 with h3 | ⟨h3, h4⟩
      · exact Or.inl h3
      · refine Or.inr ⟨h3, ?_⟩
        intro w hw _
        have hself := h4 x (List.mem_of_getElem? h1) (by simpa using hf)
        have hw' : w = x := by
          obtain ⟨hl, he⟩ := List.getElem?_eq_some_iff.mp hk
          obtain ⟨m, hm, he2⟩ := List.mem_iff_getElem.mp hw
          have : m = 0 := by simp at hm; omega
          subst this
          rw [← he2, he]
        rw [hw']; exact hself
  | doubles vs => obtain ⟨x, h1, h2⟩ := h; exact ⟨x, key vs x h1, h2⟩
  | strings w vs => obtain ⟨x, w', h1, h2⟩ := h; exact ⟨x, w', key vs x h1, h2⟩

/-! ### Specification -/

/-- A table whose rows can be written through a dispatcher: any selection of them can be written to a file. -/
structure UTable.AnyRowsOk (env : Env) (T : UTable) : Prop where
  few : T.cols.length < 65536
  rows : ∀ c ∈ T.cols, c.vals.rows = T.rows
  lens : ∀ c ∈ T.cols, ColLen c
  big : T.rows < 18446744073709551616
  vals : ∀ c ∈ T.cols, c.vals.Ok env
  noEmpty : env.longEnv = true → ∀ c ∈ T.cols, c.vals.NoEmpty

/-- The columns given to the dispatcher are those of the table: names, types, bitfield members and widths. -/
def ColsOf (T : UTable) (cols : List WCol) : Prop :=
  ∃ ks : List Codec, cols = List.zipWith wcol T.cols ks ∧ ks.map Codec.width = T.cols.map (fun c => c.vals.words)

/-- Row `j` of the table, as the user of the reader sees it: the columns, the values, what `isMissing` says of each, how long
the column says it is, and the missing value the column reports (of a reader that
makes doubles of integers: otherwise columns with the constant codec report the missing value as a double all the same). -/
structure IsRow (env : Env) (T : UTable) (j : Nat) (v : RowView) : Prop where
  ncols : v.cols.length = T.cols.length
  ncells : v.cells.length = T.cols.length
  col : ∀ (p : Nat) (c : InCol), T.cols[p]? = some c →
    ∃ (k : Col) (y : Cell), v.cols[p]? = some k ∧ k.name = c.name ∧ k.ty = c.vals.ty.toInt ∧
      k.bitNames = c.vals.members.map Prod.fst ∧ k.bitSizes = c.vals.members.map Prod.snd ∧
      v.cells[p]? = some y ∧ (c.vals.part j 1).Gives env 0 y
  missing : ∀ (p : Nat) (c : InCol), T.cols[p]? = some c → v.isMissing p = .ok (c.vals.isMissing j)
  wide : ∀ (p : Nat) (k : Col) (y : Cell), v.cols[p]? = some k → v.cells[p]? = some y → k.codec.width = y.length
  mdi : env.asDbl = true → ∀ (p : Nat) (c : InCol) (k : Col), T.cols[p]? = some c → v.cols[p]? = some k → k.codec.missingWord = .ok (c.vals.mdiWord env)

/-! ### One writer -/

theorem wcol_pick (T : UTable) (js : List Nat) (ks : List Codec) :
    List.zipWith wcol (T.pickRows js).cols ks = List.zipWith wcol T.cols ks := by
  unfold UTable.pickRows
  dsimp only
  rw [List.zipWith_map_left]
  congr 1
  funext c k
  simp [wcol, Vals.pick_ty, Vals.pick_members]

theorem Starts.pick {env : Env} {T : UTable} {ms : List (Option Word)} {ks : List Codec} (h : Starts env T.cols ms ks) (js : List Nat) :
    Starts env (T.pickRows js).cols ms ks := by
  refine ⟨by simp [UTable.pickRows, h.1], by simp [UTable.pickRows, h.2.1], ?_⟩
  intro i c m? k h1 h2 h3
  simp only [UTable.pickRows, List.getElem?_map, Option.map_eq_some_iff] at h1
  obtain ⟨c0, h4, rfl⟩ := h1
  dsimp only
  rw [Vals.pick_ty, Vals.pick_words]
  exact h.2.2 i c0 m? k h4 h2 h3

/-- The columns with their codecs reset. -/
theorem resetCols_ok (env : Env) (cols : List InCol) (ks : List Codec) (hw : ks.map Codec.width = cols.map (fun c => c.vals.words)) :
    ∃ starts, Starts env cols (List.replicate cols.length none) starts ∧
      resetCols env (List.zipWith wcol cols ks) = .ok (List.zipWith wcol cols starts) := by
  induction cols generalizing ks with
  | nil => exact ⟨[], ⟨rfl, rfl, by simp⟩, by cases ks <;> rfl⟩
  | cons c cols ih =>
    cases ks with
    | nil => simp at hw
    | cons k ks =>
      simp only [List.map_cons, List.cons.injEq] at hw
      obtain ⟨starts, h1, h2⟩ := ih ks hw.2
      obtain ⟨k0, hk0⟩ := start_none env c.vals
      refine ⟨k0 :: starts, ⟨by simp, by simp [h1.2.1], ?_⟩, ?_⟩
      · intro i c' m' k' a b d
        cases i with
        | zero => simp [List.replicate_succ] at a b d; subst a; subst b; subst d; exact hk0
        | succ i => exact h1.2.2 i c' m' k' (by simpa using a) (by simpa [List.replicate_succ] using b) (by simpa using d)
      · simp only [List.zipWith_cons_cons, resetCols, wcol]
        rw [hw.1, resetCodec_start hk0]
        dsimp only
        rw [h2]

/-- What a writer makes of the rows `js`. -/
theorem session_ok (env : Env) (hmd5 : env.Md5Ok) (o : Order) (cap : Nat) (hcap : 0 < cap) (T : UTable) (hT : T.AnyRowsOk env)
    (cols : List WCol) (hcols : ColsOf T cols) (js : List Nat) (hjs : ∀ j ∈ js, j < T.rows) (hlen : js.length < 18446744073709551616) :
    ∃ w0 w w' Fs, startWriter env cap cols = .ok w0 ∧
      w0.writeRows env o (js.map (rowAt (T.cols.map (InCol.data env)))) = .ok w ∧ w.close env o = .ok w' ∧
      w'.out = Fs.map RFrame.bytes ∧ ((∀ f ∈ Fs.map RFrame.bytes, f.length ≤ 2147483647) →
        (∀ F ∈ Fs, F.Ok env) ∧ (fileViews Fs).length = js.length ∧ rowCount Fs = js.length ∧
        ∀ (r : Nat) (v : RowView) (j : Nat), (fileViews Fs)[r]? = some v → js[r]? = some j → IsRow env T j v) := by
  obtain ⟨ks, rfl, hw⟩ := hcols
  obtain ⟨starts, s1, s2⟩ := resetCols_ok env T.cols ks hw
  have hpc : ∀ c ∈ (T.pickRows js).cols, ∃ c0 ∈ T.cols, c = ⟨c0.name, c0.vals.pick js⟩ := by
    intro c hc
    simp only [UTable.pickRows, List.mem_map] at hc
    obtain ⟨c0, h1, h2⟩ := hc
    exact ⟨c0, h1, h2.symm⟩
  have hWT : WTable env (T.pickRows js) := by
    refine ⟨by simpa [UTable.pickRows] using hT.few, ?_, ?_, List.Pairwise.nil, by show LenOk 0; decide, by simp [UTable.pickRows], hlen⟩
    · intro c hc
      obtain ⟨c0, _, rfl⟩ := hpc c hc
      exact Vals.pick_rows js c0.vals
    · intro c hc
      obtain ⟨c0, h0, rfl⟩ := hpc c hc
      have := hT.lens c0 h0
      exact ⟨this.name, by simpa [Vals.pick_members] using this.nbits, by simpa [Vals.pick_members] using this.bits⟩
  have hcl : (T.pickRows js).cols.length = T.cols.length := by simp [UTable.pickRows]
  have hmiss : ∀ (i : Nat) (c : InCol) (m? : Option Word), (T.pickRows js).cols[i]? = some c →
      (List.replicate T.cols.length (none : Option Word))[i]? = some m? →
      ∃ k w, startCodec c.vals.ty env.asDbl c.vals.words m? = .ok k ∧ k.missingWord = .ok w := by
    intro i c m? _ hm
    have := List.eq_of_mem_replicate (List.mem_of_getElem? hm)
    subst this
    exact start_missing_none env c.vals
  have hval : ∀ c0 ∈ T.cols, ∀ s n, ((c0.vals.pick js).part s n).Ok env := by
    intro c0 h0 s n
    exact Vals.Ok.sub (Vals.pick_part_sub js c0.vals (by rw [hT.rows c0 h0]; exact hjs) s n) (hT.vals c0 h0)
      (fun hl => hT.noEmpty hl c0 h0)
  obtain ⟨w0, a1, a2⟩ := writeHeader_ok env (T.pickRows js) cap (List.replicate T.cols.length none) starts (s1.pick js) hmiss
    (Writer.withCols cap (List.zipWith wcol T.cols starts) (!(List.zipWith wcol T.cols starts).isEmpty))
    (by rw [wcol_pick]; rfl) rfl rfl rfl rfl rfl
  have hparts : PartsOk env (T.pickRows js) cap (List.replicate T.cols.length none) := by
    intro k i c m? _ hc hm
    rw [msAt_none] at hm
    have := List.eq_of_mem_replicate (List.mem_of_getElem? hm)
    subst this
    obtain ⟨c0, h0, rfl⟩ := hpc c (List.mem_of_getElem? hc)
    exact (Vals.OkMiss.none_iff env _).mpr (hval c0 h0 _ _)
  have hfresh : FreshOk env (T.pickRows js) cap (List.replicate T.cols.length none) := by
    intro i c m z hc hm
    have := List.eq_of_mem_replicate (List.mem_of_getElem? hm)
    simp at this
  obtain ⟨w, j, Fs0, b1, b2, b3, b4⟩ := writeRows_ok env hmd5 o (T.pickRows js) hWT cap hcap _ (by simp [hcl]) hparts hfresh
    js.length 0 w0 [] a2 hcap (by simp [UTable.pickRows])
  obtain ⟨w', Fs, c1, c2, c3⟩ := close_ok env hmd5 o (T.pickRows js) hWT cap hcap _ hparts j w Fs0 b2 b3 b4
  have hrows : js.map (rowAt (T.cols.map (InCol.data env))) =
      (List.range' (([] : List RFrame).length * cap + 0) js.length).map (rowAt ((T.pickRows js).cols.map (InCol.data env))) := by
    simp only [List.length_nil, Nat.zero_mul, Nat.add_zero]
    rw [← List.range_eq_range']
    apply List.ext_getElem?
    intro r
    simp only [List.getElem?_map]
    by_cases hr : r < js.length
    · rw [List.getElem?_range hr, List.getElem?_eq_getElem hr]
      simp only [Option.map_some, Option.some.injEq, rowAt, UTable.pickRows, List.map_map]
      apply List.map_congr_left
      intro c hc
      simp only [Function.comp_apply, InCol.data]
      rw [Vals.pick_cells env js c.vals (by rw [hT.rows c hc]; exact hjs)]
      rw [getD_map_in _ js r 0 [] hr, List.getD_eq_getElem?_getD (l := js), List.getElem?_eq_getElem hr]
      rfl
    · rw [List.getElem?_eq_none (by omega), List.getElem?_eq_none (by simp; omega)]
      rfl
  refine ⟨w0, w, w', Fs, ?_, by rw [hrows]; exact b1, c1, c2, ?_⟩
  · unfold startWriter
    rw [s2]
    exact a1
  · intro hsz
    have hFok : ∀ F ∈ Fs, F.Ok env := by
      intro F hF
      obtain ⟨k, hk⟩ := List.mem_iff_getElem?.mp hF
      exact ((c3.good k F hk).2.1 (hsz _ (List.mem_map.mpr ⟨F, hF, rfl⟩))).1
    obtain ⟨views, v1, v2, v3⟩ := written_rows env (T.pickRows js) hWT cap hcap _ (by simp [hcl]) Fs c3 hsz (fun _ _ _ => 0)
      (js.length + rowCount Fs + 2) (by simp [UTable.pickRows]; omega)
    have hv := readRows_file env (fun _ _ _ => 0) Fs hFok (js.length + rowCount Fs + 2) (by omega)
    rw [hv] at v1
    simp only [Prod.mk.injEq, and_true] at v1
    subst v1
    have hrc : rowCount Fs = (fileViews Fs).length := by
      unfold rowCount fileViews
      cases Fs with
      | nil => rfl
      | cons F Fs =>
        simp only [List.map_cons, List.sum_cons, List.length_append, tableViews_length, List.length_flatMap]
    refine ⟨hFok, v2, by rw [hrc]; exact v2, ?_⟩
    intro r v jj hv' hjj
    have hS := v3 r v hv'
    have hr : r < js.length := (List.getElem?_eq_some_iff.mp hjj).1
    have hjlt := hjs jj (List.mem_of_getElem? hjj)
    refine ⟨by rw [hS.ncols, hcl], by rw [hS.ncells, hcl], ?_, ?_, hS.wide, ?_⟩
    on_goal 3 =>
      intro had p c k hp hk
      have := hS.mdi had p ⟨c.name, c.vals.pick js⟩ k (by simp only [UTable.pickRows, List.getElem?_map, hp, Option.map_some]) hk
        (by rw [msAt_none, List.getElem?_replicate, if_pos (List.getElem?_eq_some_iff.mp hp).1]) (hval c (List.mem_of_getElem? hp) _ _)
      rw [this, Vals.mdi_ty env (Vals.pick_ty _ _)]
    rotate_left
    · intro p c hp
      have := hS.missing p ⟨c.name, c.vals.pick js⟩ (by simp only [UTable.pickRows, List.getElem?_map, hp, Option.map_some])
        (by rw [msAt_none, List.getElem?_replicate, if_pos (List.getElem?_eq_some_iff.mp hp).1]) (hval c (List.mem_of_getElem? hp) _ _)
      rw [this, ← Vals.isMissing_one, Vals.pick_one js c.vals r jj hjj (by rw [hT.rows c (List.mem_of_getElem? hp)]; exact hjlt), Vals.isMissing_one]
    intro p c hp
    obtain ⟨k, y, e1, e2, e3, e4, e5, e6, e7⟩ := hS.col p ⟨c.name, c.vals.pick js⟩ (by
      simp only [UTable.pickRows, List.getElem?_map, hp, Option.map_some])
    refine ⟨k, y, e1, e2, by rw [e3]; simp [Vals.pick_ty], by rw [e4]; simp [Vals.pick_members], by rw [e5]; simp [Vals.pick_members], e6, ?_⟩
    have hg := e7 none (by
      rw [msAt_none, List.getElem?_replicate, if_pos (List.getElem?_eq_some_iff.mp hp).1])
    rw [Vals.GivesMiss.none_iff] at hg
    have hmod := Nat.mod_lt r hcap
    have hdm := Nat.div_add_mod r cap
    rw [Nat.mul_comm] at hdm
    have hg1 := gives_one hg (by
      show r % cap < min cap (js.length - r / cap * cap)
      omega)
    rw [hdm] at hg1
    dsimp only at hg1
    rw [Vals.pick_one js c.vals r jj hjj (by rw [hT.rows c (List.mem_of_getElem? hp)]; exact hjlt)] at hg1
    exact hg1

end Verif
