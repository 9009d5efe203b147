import Verif.FrameFilter
import Verif.PropCSession

/-
C59: an SQL query on one frame.
-/

namespace Verif

theorem frameFilter_of {env : Env} {len : List Byte → Nat} {cap : Nat} {junk : Junk} {q : Query} {bytes b : List Byte} {fr : List Tbl} {fuel n : Nat}
    {out : List (List Byte)} (h1 : encodedData (File.known bytes) fr = .ok b) (h2 : filterFile env len cap junk q b fuel = .ok (n, out)) :
    (readAggregated env out.flatten (-1) = ([], none) → frameFilter env len cap junk (some q) bytes fr fuel = .ok none) ∧
    ∀ g, readAggregated env out.flatten (-1) = ([g], none) → frameFilter env len cap junk (some q) bytes fr fuel = .ok (some (out.flatten, g)) := by
  constructor
  · intro h3
    simp only [frameFilter, h1, filterApi, h2, h3]
  · intro g h3
    simp only [frameFilter, h1, filterApi, h2, h3]

/-- **C59.**  `Frame::filter` on a frame (of one table or of several) whose encoded data shows the rows of the tables `Ts`; the answers on them have the same columns,
with distinct titles, and REAL values that are floats.  `cap` is the number of rows to a frame of the default writer.  If no row meets the condition, the result is the
null frame; otherwise, unless there are more than `cap` rows with wide strings, it is one frame that is the answer: its columns, its rows in order, decoded values. -/
theorem C59_frame_filter (env : Env) (hmd5 : env.Md5Ok) (len : List Byte → Nat) (hlen : StrLen len) (cap : Nat) (hcap : 0 < cap) (junk : Junk)
    (bytes b : List Byte) (fr : List Tbl) (henc : encodedData (File.known bytes) fr = .ok b)
    (fuel : Nat) (q : Query) (Ts Rs : List UTable) (vss : List (List RowView))
    (hr : readRows env junk b fuel = (vss.flatten, none)) (hfrom : Match (RowsFrom env) Ts vss)
    (hfresh : ∀ vs ∈ vss.tail, ∀ u, vs.head? = some u → u.fresh = true)
    (hrows : ∀ T ∈ Ts, ∀ c ∈ T.cols, c.vals.rows = T.rows) (hpos : ∀ T ∈ Ts, 0 < T.rows)
    (T0 : UTable) (hT0 : Ts.head? = some T0) (R : UTable) (hans : Match (Answer env q (T0.cols.map InCol.name)) Ts (R :: Rs))
    (hkey : ∀ S ∈ Rs, S.cols.map InCol.key = R.cols.map InCol.key)
    (B : List InCol) (hB : ∀ b ∈ B, b.vals.Ok env ∧ (env.longEnv = true → b.vals.NoEmpty)) (hw : ∀ S ∈ R :: Rs, S.Within B)
    (hf : ∀ S ∈ R :: Rs, ∀ c ∈ S.cols, c.vals.Fits ∧ ColLen c) (hx : ∀ c ∈ (stack R Rs).cols, c.vals.Exact)
    (hne : q.select ≠ []) (hfew : q.select.length < 65536) (htitles : (q.select.map Prod.snd).Nodup)
    (hbig : (stack R Rs).rows < 9223372036854775808) :
    ∃ out, filterFile env len cap junk q b fuel = .ok ((stack R Rs).rows, out) ∧ ((∀ f ∈ out, f.length ≤ 2147483647) →
      ((stack R Rs).rows = 0 → frameFilter env len cap junk (some q) bytes fr fuel = .ok none) ∧
      (0 < (stack R Rs).rows → (stack R Rs).rows ≤ cap ∨ (∀ c ∈ R.cols, c.vals.words = 1) →
        ∃ fr', frameFilter env len cap junk (some q) bytes fr fuel = .ok (some (out.flatten, fr')) ∧ FrameIs env (stack R Rs) out.flatten fr')) := by
  obtain ⟨wss, kz, hm, _, ⟨Rz, hz, l5⟩, hnil, hcons⟩ := filter_selects env len hlen cap junk b fuel q Ts (R :: Rs) vss hr hfrom hfresh hrows hpos T0 hT0
    hans B hB hw (fun S hS c hc => (hf S hS c hc).1)
  have hcols : ∀ S ∈ R :: Rs, S.cols.map InCol.name = q.select.map Prod.snd := by
    intro S hS
    obtain ⟨T, _, hA⟩ := hans.mem_left' hS
    obtain ⟨_, _, _, h3⟩ := hA.ex
    generalize q.rows env T _ = js at h3
    generalize q.select = sl at h3
    generalize S.cols = cs at h3
    clear * - h3
    induction h3 with
    | nil => rfl
    | cons h _ ih =>
      obtain ⟨c, _, h2, _⟩ := h
      simp only [List.map_cons, h2, ih]
  have hany : ∀ S ∈ R :: Rs, UAny B S := by
    intro S hS
    refine ⟨hw S hS, ?_, fun c hc => (hf S hS c hc).2, fun c hc => (hf S hS c hc).1, ?_⟩
    · obtain ⟨T, _, hA⟩ := hans.mem_left' hS
      obtain ⟨cond, _, r2, r3⟩ := hA.ex
      intro c hc
      obtain ⟨s, _, c', _, _, h3⟩ := r3.mem_left' hc
      rw [h3, Vals.pick_rows, r2]
    · have := congrArg List.length (hcols S hS)
      simp only [List.length_map] at this
      omega
  obtain ⟨ws, wss, rfl, hR, hm'⟩ : ∃ ws wss', wss = ws :: wss' ∧ RowsAre env R ws ∧ Match (RowsAre env) Rs wss' := by
    cases hm with
    | cons h1 h2 => exact ⟨_, _, rfl, h1, h2⟩
  obtain ⟨s1, s2, s3, s4⟩ := stack_any R Rs ws wss (hany R (by simp)) (fun S hS => hany S (by simp [hS])) hkey hR hm'
  have hnames : (stack R Rs).cols.map InCol.name = q.select.map Prod.snd := by
    rw [← hcols R (by simp)]
    have := congrArg (List.map Prod.fst) s2
    simpa [List.map_map, Function.comp_def, InCol.key] using this
  have hok := s1.ok hB (by omega)
  have hsne : (stack R Rs).cols ≠ [] := by
    intro h0
    rw [h0] at hnames
    simp at hnames
    exact hne hnames
  have hkz : kz.map Col.key = (stack R Rs).cols.map InCol.key := by
    rw [l5, s2]
    rcases List.mem_cons.mp hz with rfl | hz
    · rfl
    · exact hkey Rz hz
  obtain ⟨Fs, p1, p2⟩ : ∃ Fs, filterFile env len cap junk q b fuel = .ok ((stack R Rs).rows, Fs.map RFrame.bytes) ∧
      WFrames env .same { stack R Rs with props := [] } cap (List.replicate (stack R Rs).cols.length none) Fs := by
    rw [List.flatten_cons] at hnil hcons
    cases hv : ws ++ wss.flatten with
    | nil =>
      rw [hnil hv]
      rw [hv] at s3
      exact pass1_frames env hmd5 cap hcap [] _ s3 hok hsne kz hkz
    | cons v vs =>
      rw [hcons v vs hv]
      rw [hv] at s3
      exact pass1_frames env hmd5 cap hcap (v :: vs) _ s3 hok hsne v.cols (s3.row 0 v rfl).1
  refine ⟨_, p1, ?_⟩
  intro hsz
  obtain ⟨f1, f2⟩ := frames_is env (stack R Rs) cap hcap hok hsne (by rw [hnames]; exact htitles) hx hbig Fs p2 hsz
  obtain ⟨g1, g2⟩ := frameFilter_of henc p1
  refine ⟨fun h => g1 (f1 h), ?_⟩
  intro h0 hor
  obtain ⟨g, h1, h2⟩ := f2 h0 (by
    rcases hor with h | h
    · exact Or.inl h
    · right
      intro c hc
      obtain ⟨p, hp⟩ := List.mem_iff_getElem?.mp hc
      have hl := congrArg List.length s2
      simp only [List.length_map] at hl
      have hlt := (List.getElem?_eq_some_iff.mp hp).1
      have hr : R.cols[p]? = some (R.cols[p]'(by omega)) := List.getElem?_eq_getElem _
      rw [(key_parts (keys_get s2 p c _ hp hr)).2.2.2]
      exact h _ (List.mem_of_getElem? hr))
  exact ⟨g, g2 g h1, h2⟩

/-! ### Files written by `encode` -/

theorem FrameIs.wider {env : Env} {R R' : UTable} {bytes : List Byte} {fr : List Tbl} (h : FrameIs env R' bytes fr) (hr : R'.rows = R.rows)
    (hn : NarrowCols R.cols R'.cols) : FrameIs env R bytes fr := by
  have hl := Match.length hn
  have get : ∀ (p : Nat) (c : InCol), R.cols[p]? = some c → ∃ c', R'.cols[p]? = some c' ∧ c'.name = c.name ∧ c'.vals.Narrow c.vals := by
    intro p c hp
    have hlt := (List.getElem?_eq_some_iff.mp hp).1
    obtain ⟨c', hc'⟩ : ∃ c', R'.cols[p]? = some c' := ⟨_, List.getElem?_eq_getElem (by omega)⟩
    exact ⟨c', hc', Match.get hn p c c' hp hc'⟩
  refine ⟨by rw [h.rows, hr], h.props, fun t ht => by rw [h.width t ht, hl], ?_, ?_⟩
  · intro t ht p c hp
    obtain ⟨c', hc', n1, n2⟩ := get p c hp
    obtain ⟨col, e1, e2, e3, e4, e5, e6, e7⟩ := h.cols t ht p c' hc'
    obtain ⟨m1, m2, _⟩ := n2.parts (env := env)
    refine ⟨col, e1, by rw [e2, n1], by rw [e3, m1], by rw [e4, m2], by rw [e5, m2], e6, ?_⟩
    refine Nat.le_trans e7 ?_
    generalize c'.vals = a at n2
    generalize c.vals = b at n2
    cases a <;> cases b <;> simp only [Vals.Narrow, reduceCtorEq] at n2 <;> simp only [Vals.words, Nat.le_refl]
    exact n2.2.2.1
  · intro req hreq
    obtain ⟨out, d1, d2, d3⟩ := h.decode req (by rw [hr]; exact hreq)
    refine ⟨out, d1, d2, ?_⟩
    intro i nm tg hi
    obtain ⟨m, e1, e2, e3⟩ := d3 i nm tg hi
    refine ⟨m, e1, ?_, by rw [← hr]; exact e3⟩
    intro t ht p c col hp hnm hcol x hx
    obtain ⟨c', hc', n1, n2⟩ := get p c hp
    have hg := e2 t ht p c' col hc' (by rw [n1, hnm]) hcol x (by rw [hr]; exact hx)
    generalize c'.vals = a at n2 hg
    generalize c.vals = b at n2
    cases a <;> cases b <;> simp only [Vals.Narrow, reduceCtorEq] at n2
    case strings.strings w vs w' vs' =>
      obtain ⟨rfl, _⟩ := n2
      exact hg
    all_goals
      rw [← n2]
      exact hg

theorem exact_pick {v : Vals} (h : v.Exact) (js : List Nat) (hj : ∀ j ∈ js, j < v.rows) : (v.pick js).Exact := by
  cases v with
  | reals vs =>
    intro x hx
    obtain ⟨j, hjm, rfl⟩ := List.mem_map.mp hx
    have := hj j hjm
    simp only [Vals.rows] at this
    rw [List.getD_eq_getElem?_getD, List.getElem?_eq_getElem this]
    exact h _ (List.getElem_mem this)
  | _ => trivial

theorem pick_in (v : Vals) (js : List Nat) (hj : ∀ j ∈ js, j < v.rows) : (v.pick js).In v := by
  have key : ∀ {α : Type} (l : List α) (d : α), (∀ j ∈ js, j < l.length) → ∀ x ∈ js.map (fun j => l.getD j d), x ∈ l := by
    intro α l d hl x hx
    obtain ⟨j, hjm, rfl⟩ := List.mem_map.mp hx
    have := hl j hjm
    rw [List.getD_eq_getElem?_getD, List.getElem?_eq_getElem this]
    exact List.getElem_mem this
  cases v with
  | ints vs => exact key vs _ hj
  | bits ms vs => exact ⟨rfl, key vs _ hj⟩
  | reals vs => exact key vs _ hj
  | doubles vs => exact key vs _ hj
  | strings w vs => exact ⟨Nat.le_refl _, key vs _ hj⟩

theorem In.refl (v : Vals) : v.In v := by
  cases v with
  | ints vs => exact fun x hx => hx
  | bits ms vs => exact ⟨rfl, fun x hx => hx⟩
  | reals vs => exact fun x hx => hx
  | doubles vs => exact fun x hx => hx
  | strings w vs => exact ⟨Nat.le_refl _, fun x hx => hx⟩

theorem writeTables_at (env : Env) (Cs : List UTable) (bss : List (List Byte)) (h : writeTables env Cs = .ok bss) (i : Nat)
    (C : UTable) (hC : Cs[i]? = some C) : ∃ b, bss[i]? = some b ∧ C.encode env .same = .ok b := by
  have hl : bss.length = Cs.length := by
    clear hC
    induction Cs generalizing bss with
    | nil => cases h; rfl
    | cons D Cs ih =>
      unfold writeTables at h
      cases hD : D.encode env .same with
      | error e => rw [hD] at h; cases h
      | ok b0 =>
        rw [hD] at h
        dsimp only at h
        cases hw : writeTables env Cs with
        | error e => rw [hw] at h; cases h
        | ok bs =>
          rw [hw] at h
          cases h
          simp [ih bs hw]
  have hi := (List.getElem?_eq_some_iff.mp hC).1
  obtain ⟨b, hb⟩ : ∃ b, bss[i]? = some b := ⟨_, List.getElem?_eq_getElem (by omega)⟩
  obtain ⟨D, h1, h2⟩ := writeTables_get env Cs bss h i b hb
  rw [hC] at h1
  cases h1
  exact ⟨b, hb, h2⟩

/-- **C59**, a frame of a file written by `encode` and read table by table: `Frame::filter` on frame `i`, which is the table `T`; `R` is the answer of the query on it. -/
theorem C59_encoded (env : Env) (hmd5 : env.Md5Ok) (len : List Byte → Nat) (hlen : StrLen len) (cap : Nat) (hcap : 0 < cap) (q : Query) (hq : q.OfText)
    (Ts : List UTable) (hT : ∀ T ∈ Ts, T.Ok env) (i : Nat) (T R : UTable) (hi : Ts[i]? = some T)
    (hv : ∀ c ∈ T.cols, c.vals.Ok env ∧ c.vals.Exact ∧ (env.longEnv = true → c.vals.NoEmpty)) (hpos : 0 < T.rows)
    (hans : Answer env q (T.cols.map InCol.name) T R)
    (hne : q.select ≠ []) (hfew : q.select.length < 65536) (htitle : ∀ s ∈ q.select, LenOk s.2.length) (htitles : (q.select.map Prod.snd).Nodup)
    (hbig : T.rows < 9223372036854775808) :
    ∃ bss, writeTables env Ts = .ok bss ∧ ((∀ b ∈ bss, b.length ≤ 2147483647) →
      ∃ fs fr b, readPlain env bss.flatten = (fs, none) ∧ fs[i]? = some fr ∧ bss[i]? = some b ∧ ∀ (junk : Junk) (fuel : Nat), T.rows + 1 < fuel →
        ∃ out, filterFile env len cap junk q b fuel = .ok (R.rows, out) ∧ ((∀ f ∈ out, f.length ≤ 2147483647) →
          (R.rows = 0 → frameFilter env len cap junk (some q) bss.flatten fr fuel = .ok none) ∧
          (0 < R.rows → R.rows ≤ cap ∨ (∀ c ∈ R.cols, c.vals.words = 1) →
            ∃ fr', frameFilter env len cap junk (some q) bss.flatten fr fuel = .ok (some (out.flatten, fr')) ∧ FrameIs env R out.flatten fr'))) := by
  have hTT := hT T (List.mem_of_getElem? hi)
  have hrows : ∀ c ∈ T.cols, c.vals.rows = T.rows := fun c hc => (hTT.col c hc).2.2
  -- the columns of the answer
  have hcol : ∀ r ∈ R.cols, r.vals.Ok env ∧ (env.longEnv = true → r.vals.NoEmpty) ∧ r.vals.Exact := by
    intro r hr
    obtain ⟨cond, _, _, h3⟩ := hans.ex
    obtain ⟨s, _, c, ⟨_, _, p, hp, _⟩, _, e⟩ := h3.mem_left' hr
    have hc := List.mem_of_getElem? hp
    obtain ⟨v1, v2, v3⟩ := hv c hc
    have hj : ∀ j ∈ q.rows env T cond, j < c.vals.rows := by
      intro j hj
      rw [hrows c hc]
      have := (List.mem_filter.mp hj).1
      simpa using this
    have hin := pick_in c.vals _ hj
    have hfit : (c.vals.pick (q.rows env T cond)).Fits := by
      have := v1.fits
      cases hvc : c.vals with
      | strings w vs =>
        rw [hvc] at this hin
        exact ⟨this.1, fun s hs => this.2 s (hin.2 s hs)⟩
      | _ => trivial
    rw [e]
    obtain ⟨o1, o2⟩ := hin.ok hfit v1 v3
    exact ⟨o1, o2, exact_pick v2 _ hj⟩
  have hrle : R.rows ≤ T.rows := by
    obtain ⟨cond, _, h2, _⟩ := hans.ex
    rw [h2]
    unfold Query.rows
    have := List.length_filter_le (fun j => q.keep (cond.map (fun c => ((c.vals.cells env).getD j [], c.vals.isMissing j)))) (List.range T.rows)
    simpa using this
  obtain ⟨bss, w1, w2⟩ := C12_enumerate env hmd5 Ts hT
  refine ⟨bss, w1, ?_⟩
  intro hsz
  obtain ⟨fs, f1, f2, _, f3⟩ := w2 hsz
  obtain ⟨b, hb, hbe⟩ := writeTables_at env Ts bss w1 i T hi
  have hfi : i < fs.length := by rw [f2]; exact (List.getElem?_eq_some_iff.mp hi).1
  obtain ⟨fr, hfr⟩ : ∃ fr, fs[i]? = some fr := ⟨_, List.getElem?_eq_getElem hfi⟩
  refine ⟨fs, fr, b, f1, hfr, hb, ?_⟩
  intro junk fuel hf
  obtain ⟨hencd, _, _⟩ := f3 i fr b hfr hb
  have hwB : R.Within R.cols := by
    refine Match.of_get _ _ rfl ?_
    intro j c c' h1 h2
    rw [h1] at h2
    cases h2
    exact ⟨rfl, In.refl _⟩
  obtain ⟨bss', a1, a2⟩ := encoded_source env hmd5 q hq [T] [R] (by simpa using hTT) (by simpa using fun c hc => ⟨(hv c hc).1, (hv c hc).2.1⟩)
    (by simpa using hpos) T rfl (.cons hans .nil) R.cols (by simpa using hwB) htitle
  have hb1 : bss' = [b] := by
    simp only [writeTables, hbe, Except.ok.injEq] at a1
    exact a1.symm
  subst hb1
  obtain ⟨Ts', Rs', vss, c1, c2, c3, c4, c5, ⟨T0', c6, c7⟩, c8, c9, c10, _, hnar, _⟩ := a2 (by simpa using hsz b (List.mem_of_getElem? hb)) junk fuel (by simpa using hf)
  obtain ⟨R', rfl, n1, n2⟩ : ∃ R', Rs' = [R'] ∧ R'.rows = R.rows ∧ NarrowCols R.cols R'.cols := by
    cases hnar with
    | cons h1 h2 => cases h2; exact ⟨_, rfl, h1⟩
  obtain ⟨out, o1, o2⟩ := C59_frame_filter env hmd5 len hlen cap hcap junk bss.flatten b fr hencd fuel q Ts' [] vss (by simpa using c1) c2 c3 c4 c5 T0' c6 R' c7
    (by simp) R.cols (fun r hr => ⟨(hcol r hr).1, (hcol r hr).2.1⟩) c8 (fun S hS c hc => ⟨c9 S hS c hc, c10 S hS c hc⟩)
    (by
      intro c' hc'
      obtain ⟨c, hc, _, e2⟩ := Match.mem_left' n2 hc'
      have := (hcol c hc).2.2
      generalize c'.vals = a at e2
      generalize c.vals = d at e2 this
      cases a <;> cases d <;> simp only [Vals.Narrow, reduceCtorEq] at e2 <;> first | trivial | (rw [e2]; exact this))
    hne hfew htitles (by show R'.rows < _; omega)
  refine ⟨out, by rw [← n1]; exact o1, ?_⟩
  intro hsz'
  obtain ⟨g1, g2⟩ := o2 hsz'
  refine ⟨fun h => g1 (by show R'.rows = 0; omega), ?_⟩
  intro h0 hor
  obtain ⟨fr', k1, k2⟩ := g2 (by show 0 < R'.rows; omega) (by
    rcases hor with h | h
    · exact Or.inl (by show R'.rows ≤ cap; omega)
    · right
      intro c' hc'
      obtain ⟨c, hc, _, e2⟩ := Match.mem_left' n2 hc'
      have := h c hc
      generalize c'.vals = a at e2
      generalize c.vals = d at e2 this
      cases a <;> cases d <;> simp only [Vals.Narrow, reduceCtorEq] at e2 <;> simp only [Vals.words] at this ⊢
      omega)
  exact ⟨fr', k1, k2.wider n1 n2⟩

end Verif
