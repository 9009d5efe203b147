import Verif.PropSqlOut

/-!
`odc sql ... -o file`: all tables of the input.
-/

namespace Verif

/-! ### Tables with wider strings -/

/-- Proof device: the table with its strings in columns of these widths. -/
def UTable.pad (R : UTable) (ns : List Nat) : UTable :=
  { rows := R.rows, props := R.props, cols := List.zipWith (fun (c : InCol) n => (⟨c.name, c.vals.rew n⟩ : InCol)) R.cols ns }

theorem pad_get {R : UTable} {ns : List Nat} (p : Nat) (c' : InCol) (h : (R.pad ns).cols[p]? = some c') :
    ∃ (c : InCol) (n : Nat), R.cols[p]? = some c ∧ ns[p]? = some n ∧ c' = ⟨c.name, c.vals.rew n⟩ := by
  simp only [UTable.pad, List.getElem?_zipWith] at h
  cases h1 : R.cols[p]? with
  | none => rw [h1] at h; simp at h
  | some c =>
    cases h2 : ns[p]? with
    | none => rw [h1, h2] at h; simp at h
    | some n => rw [h1, h2] at h; simp at h; exact ⟨c, n, rfl, rfl, h.symm⟩

theorem pad_length {R : UTable} {ns : List Nat} (h : ns.length = R.cols.length) : (R.pad ns).cols.length = R.cols.length := by
  simp [UTable.pad, h]

theorem pad_row {env : Env} {R : UTable} {ns : List Nat} (hl : ns.length = R.cols.length) {r : Nat} {v : RowView} (h : IsRow env (R.pad ns) r v) :
    IsRow env R r v := by
  refine ⟨by rw [h.ncols, pad_length hl], by rw [h.ncells, pad_length hl], ?_, ?_, h.wide, ?_⟩
  on_goal 3 =>
    intro had p c k hp hk
    obtain ⟨n, hn⟩ : ∃ n, ns[p]? = some n := ⟨_, List.getElem?_eq_getElem (by rw [hl]; exact (List.getElem?_eq_some_iff.mp hp).1)⟩
    rw [h.mdi had p ⟨c.name, c.vals.rew n⟩ k (by simp [UTable.pad, List.getElem?_zipWith, hp, hn]) hk]
    exact congrArg Except.ok (Vals.mdi_ty env (rew_ty _ _))
  rotate_left
  · intro p c hp
    obtain ⟨n, hn⟩ : ∃ n, ns[p]? = some n := ⟨_, List.getElem?_eq_getElem (by rw [hl]; exact (List.getElem?_eq_some_iff.mp hp).1)⟩
    rw [h.missing p ⟨c.name, c.vals.rew n⟩ (by simp [UTable.pad, List.getElem?_zipWith, hp, hn])]
    dsimp only
    cases c.vals <;> rfl
  intro p c hp
  obtain ⟨n, hn⟩ : ∃ n, ns[p]? = some n := ⟨_, List.getElem?_eq_getElem (by rw [hl]; exact (List.getElem?_eq_some_iff.mp hp).1)⟩
  obtain ⟨k, y, e1, e2, e3, e4, e5, e6, e7⟩ := h.col p ⟨c.name, c.vals.rew n⟩ (by simp [UTable.pad, List.getElem?_zipWith, hp, hn])
  dsimp only at e3 e4 e5 e7
  rw [rew_ty] at e3
  rw [rew_members] at e4 e5
  have : (c.vals.rew n).part r 1 = (c.vals.part r 1).rew n := by cases c.vals <;> rfl
  rw [this, gives_rew] at e7
  exact ⟨k, y, e1, e2, e3, e4, e5, e6, e7⟩

/-- Proof device: widths that the columns of the table fit in, and that do not exceed those of `B`. -/
structure Between (R : UTable) (ns : List Nat) (B : List InCol) : Prop where
  low : Match (fun (c : InCol) n => c.vals.words ≤ n) R.cols ns
  high : Match (fun (n : Nat) (b : InCol) => n ≤ b.vals.words) ns B

theorem pad_run {R : UTable} {ns : List Nat} {B : List InCol} (h : Between R ns B) (hw : R.Within B) (hrows : ∀ c ∈ R.cols, c.vals.rows = R.rows)
    (hl : ∀ c ∈ R.cols, ColLen c) (hf : ∀ c ∈ R.cols, c.vals.Fits) (hfew : R.cols.length < 65536) (hne : R.cols ≠ []) (hpos : 0 < R.rows) : URun B (R.pad ns) := by
  have hlen := h.low.length
  have hplen := pad_length (R := R) hlen.symm
  have hget : ∀ c' ∈ (R.pad ns).cols, ∃ (p : Nat) (c : InCol) (n : Nat), R.cols[p]? = some c ∧ ns[p]? = some n ∧ c' = ⟨c.name, c.vals.rew n⟩ := by
    intro c' hc'
    obtain ⟨p, hp⟩ := List.getElem?_of_mem hc'
    obtain ⟨c, n, a, b, d⟩ := pad_get p c' hp
    exact ⟨p, c, n, a, b, d⟩
  refine ⟨?_, ?_, ?_, ?_, by rw [hplen]; exact hfew, ?_, hpos⟩
  · apply Match.of_get _ _ (by rw [hplen]; exact Match.length hw)
    intro p c' b hc' hb
    obtain ⟨c, n, a1, a2, rfl⟩ := pad_get p c' hc'
    obtain ⟨w1, w2⟩ := Match.get hw p c b a1 hb
    have hn := h.high.get p n b a2 hb
    refine ⟨w1, ?_⟩
    dsimp only
    cases hv : c.vals with
    | strings w vs =>
      rw [hv] at w2
      cases hb' : b.vals with
      | strings w' vs' =>
        rw [hb'] at w2 hn
        exact ⟨hn, w2.2⟩
      | _ => rw [hb'] at w2; exact absurd w2 (by simp [Vals.In])
    | _ => rw [hv] at w2; exact w2
  · intro c' hc'
    obtain ⟨p, c, n, a1, _, rfl⟩ := hget c' hc'
    have := hrows c (List.mem_of_getElem? a1)
    show (c.vals.rew n).rows = R.rows
    rw [← this]
    cases c.vals <;> rfl
  · intro c' hc'
    obtain ⟨p, c, n, a1, _, rfl⟩ := hget c' hc'
    have := hl c (List.mem_of_getElem? a1)
    obtain ⟨l1, l2, l3⟩ := this
    exact ⟨l1, by dsimp only; rw [rew_members]; exact l2, by dsimp only; rw [rew_members]; exact l3⟩
  · intro c' hc'
    obtain ⟨p, c, n, a1, a2, rfl⟩ := hget c' hc'
    have := hf c (List.mem_of_getElem? a1)
    have hn := h.low.get p c n a1 a2
    show (c.vals.rew n).Fits
    cases hv : c.vals with
    | strings w vs =>
      rw [hv] at this hn
      simp only [Vals.words] at hn
      exact ⟨Nat.le_trans this.1 hn, fun s hs => Nat.le_trans (this.2 s hs) (Nat.mul_le_mul_left 8 hn)⟩
    | _ => trivial
  · intro h0
    apply hne
    rw [← List.length_eq_zero_iff, ← hplen, h0]
    rfl

/-! ### Widths -/

/-- Proof device: the widths of the columns asked for. -/
def widthsOf (q : Query) (cs : List InCol) : List Nat := (cs.take q.select.length).map (fun c => c.vals.words)

theorem decls_of {ts : List Str} {ss : List SqlCol} {cs : List InCol} (hl : ts.length ≤ cs.length) (h : Match TypeOf (cs.take ts.length) (ss.take ts.length)) :
    Decls ts ss ((cs.take ts.length).map (fun c => c.vals.words)) := by
  induction ts generalizing ss cs with
  | nil => simpa using Decls.nil ss
  | cons t ts ih =>
    cases cs with
    | nil => simp at hl
    | cons c cs =>
      cases ss with
      | nil => simp at h; cases h
      | cons s ss =>
        simp only [List.length_cons, List.take_succ_cons, List.map_cons] at *
        cases h with
        | cons g1 g2 =>
          refine .cons c.vals g1.ty ?_ ?_ (ih (by omega) g2)
          · intro hs
            rw [g1.ty] at hs
            cases hv : c.vals with
            | strings w vs => rw [hv] at hs; exact absurd rfl hs
            | _ => rfl
          · intro hs
            rw [g1.ty] at hs
            rw [g1.bitNames, Vals.members_bitfield _ hs]
            rfl

theorem fetch_sizes {env : Env} {T : UTable} {cs : List InCol} {fs : List Fetch} (h : Match (FetchOf env T) cs fs) (n : Nat) :
    (fs.take n).map Fetch.size = (cs.take n).map (fun c => c.vals.words) := by
  induction h generalizing n with
  | nil => simp
  | cons h _ ih =>
    cases n with
    | zero => simp
    | succ n => simp [ih n, h.1]

theorem max_self_right (ns ms : List Nat) : List.zipWith max (List.zipWith max ns ms) ms = List.zipWith max ns ms := by
  induction ns generalizing ms with
  | nil => simp
  | cons n ns ih =>
    cases ms with
    | nil => simp
    | cons m ms =>
      simp only [List.zipWith_cons_cons, ih, List.cons.injEq, and_true]
      omega

theorem max_low {cs : List InCol} {ns : List Nat} (h : ns.length = cs.length) :
    Match (fun (c : InCol) n => c.vals.words ≤ n) cs (List.zipWith max ns (cs.map (fun c => c.vals.words))) := by
  induction cs generalizing ns with
  | nil => simp; exact .nil
  | cons c cs ih =>
    cases ns with
    | nil => simp at h
    | cons n ns => exact .cons (Nat.le_max_right _ _) (ih (by simpa using h))

theorem Wider.trans {a b c : DCol} (h1 : Wider a b) (h2 : Wider b c) : Wider a c := by
  obtain ⟨x1, x2, x3⟩ := h1
  obtain ⟨y1, y2, y3⟩ := h2
  have ht : b.ty = a.ty := by rw [x1]
  refine ⟨?_, Nat.le_trans x2 y2, fun hs => by rw [y3 (by rw [ht]; exact hs), x3 hs]⟩
  rw [y1, x1]

theorem wider_trans {as bs cs : List DCol} (h1 : Match Wider as bs) (h2 : Match Wider bs cs) : Match Wider as cs := by
  induction h1 generalizing cs with
  | nil => cases h2; exact .nil
  | cons h _ ih => cases h2 with | cons g1 g2 => exact .cons (h.trans g1) (ih g2)

theorem wider_self (ds : List DCol) : Match Wider ds ds := by
  induction ds with
  | nil => exact .nil
  | cons d ds ih => exact .cons ⟨rfl, Nat.le_refl _, fun _ => rfl⟩ ih

/-! ### All tables -/

/-- Proof device: a table, the answer, the columns asked for, and the rows in the file. -/
structure Chunk where
  table : UTable
  answer : UTable
  cols : List InCol
  views : List RowView

/-- Proof device: see `FilteredFrom`. -/
structure Chunk.Ok (env : Env) (q : Query) (ss : List SqlCol) (x : Chunk) : Prop where
  asked : AskedIn env q ss x.table x.answer x.cols
  rowsFrom : RowsFrom env x.table x.views
  pos : 0 < x.table.rows

/-- Proof device: the rows of the answer. -/
def Chunk.kept (env : Env) (q : Query) (x : Chunk) : List Nat := (List.range x.table.rows).filter (q.at env x.cols)

/-- Proof device: the rows put out for a table. -/
def Chunk.out (env : Env) (q : Query) (ss : List SqlCol) (ns : List Nat) (x : Chunk) : List RowView :=
  (x.kept env q).map (outView env (q.select.map Prod.snd) ss ns x.cols)

/-- Proof device: the rows put out for all tables, from widths `ns` on, table by table. -/
def outFrom (env : Env) (q : Query) (ss : List SqlCol) : List Nat → List Chunk → List (List RowView)
  | _, [] => []
  | ns, x :: xs => x.out env q ss (List.zipWith max ns (widthsOf q x.cols)) :: outFrom env q ss (List.zipWith max ns (widthsOf q x.cols)) xs

/-- Proof device: the answers, in columns as wide as those of the output at that time. -/
def padFrom (q : Query) : List Nat → List Chunk → List UTable
  | _, [] => []
  | ns, x :: xs => x.answer.pad (List.zipWith max ns (widthsOf q x.cols)) :: padFrom q (List.zipWith max ns (widthsOf q x.cols)) xs

theorem Chunk.Ok.decls {env : Env} {q : Query} {ss : List SqlCol} {x : Chunk} (h : x.Ok env q ss) : Decls (q.select.map Prod.snd) ss (widthsOf q x.cols) := by
  have htl : (q.select.map Prod.snd).length = q.select.length := by simp
  have := decls_of (ts := q.select.map Prod.snd) (by rw [htl]; exact h.asked.len) (by rw [htl]; exact h.asked.ty)
  rw [htl] at this
  exact this

/-- The next row put out is in columns at least as wide. -/
theorem outFrom_head {env : Env} {q : Query} {ss : List SqlCol} (xs : List Chunk) (hx : ∀ x ∈ xs, x.Ok env q ss) (ns : List Nat)
    (hd : Decls (q.select.map Prod.snd) ss ns) (v : RowView) (hv : (outFrom env q ss ns xs).flatten.head? = some v) :
    v.fresh = true ∧ ∃ ms, v.cols.map Col.key = (dcols (q.select.map Prod.snd) ss ms).map DCol.key ∧ Decls (q.select.map Prod.snd) ss ms ∧
      Match Wider (dcols (q.select.map Prod.snd) ss ns) (dcols (q.select.map Prod.snd) ss ms) := by
  induction xs generalizing ns with
  | nil => simp [outFrom] at hv
  | cons x xs ih =>
    obtain ⟨d1, d2⟩ := hd.max (hx x (by simp)).decls
    simp only [outFrom, List.flatten_cons] at hv
    cases ho : x.out env q ss (List.zipWith max ns (widthsOf q x.cols)) with
    | nil =>
      rw [ho, List.nil_append] at hv
      obtain ⟨a1, ms, a2, a3, a4⟩ := ih (fun x h => hx x (by simp [h])) _ d1 hv
      exact ⟨a1, ms, a2, a3, wider_trans d2 a4⟩
    | cons u us =>
      rw [ho] at hv
      simp at hv
      subst hv
      have hm : u ∈ x.out env q ss (List.zipWith max ns (widthsOf q x.cols)) := by rw [ho]; simp
      obtain ⟨r, _, rfl⟩ := List.mem_map.mp hm
      exact ⟨rfl, _, col_keys d1.ok, d1, d2⟩

theorem odaLoop_table {env : Env} {cap : Nat} {len : List Byte → Nat} (hlen : StrLen len) (q : Query) (ss : List SqlCol) (x : Chunk) (hx : x.Ok env q ss)
    {ns : List Nat} (hns : Match (fun (c : InCol) n => c.vals.words ≤ n) (x.cols.take q.select.length) ns) (hmax : List.zipWith max ns (widthsOf q x.cols) = ns)
    {ks : List Col} {fs : List Fetch} (hks : ∀ v ∈ x.views, v.cols = ks) (hfs : fetchCols ks (ss.map SqlCol.name) = .ok fs)
    (hfetch : Match (FetchOf env x.table) x.cols fs) (s : OdaOut) (views : List RowView) (wend : Writer)
    (h : OdaReady env cap (q.select.map Prod.snd) ss ns s (x.out env q ss ns ++ views) wend) (rest : List RowView) :
    ∃ s', OdaReady env cap (q.select.map Prod.snd) ss ns s' views wend ∧ s'.count = s.count + x.answer.rows ∧
      odaLoop env len q ss fs s (x.views ++ rest) = odaLoop env len q ss fs s' rest := by
  have hvl := hx.rowsFrom.are.len
  have hsz := fetch_sizes hfetch q.select.length
  obtain ⟨s', a1, a2, a3⟩ := odaLoop_rows (env := env) (cap := cap) hlen q (ns := ns) hx.asked.rows hx.asked.len hx.asked.ty hx.asked.one hns hfs hfetch
    (by rw [hsz]; exact hx.decls) (by rw [hsz]; exact hmax) x.views 0 (by omega)
    (by
      intro t u hu
      exact ⟨hks u (List.mem_of_getElem? hu), by rw [Nat.zero_add]; exact (hx.rowsFrom.are.row t u hu).2⟩)
    (by intro r _ hr; exact hx.asked.text r (by omega)) s views wend
    (by rw [hvl, ← List.range_eq_range']; exact h) rest
  refine ⟨s', a1, ?_, a3⟩
  rw [a2, hvl, ← List.range_eq_range', hx.asked.count]

theorem odaLoop_chunks {env : Env} {cap : Nat} {len : List Byte → Nat} (hlen : StrLen len) (q : Query) (ss : List SqlCol) (hu : Unambiguous (q.select.map Prod.snd))
    (xs : List Chunk) (hx : ∀ x ∈ xs, x.Ok env q ss) (hfr : ∀ x ∈ xs, ∀ u, x.views.head? = some u → u.fresh = true)
    (fs : List Fetch) (s : OdaOut) (ns : List Nat) (wend : Writer)
    (h : OdaReady env cap (q.select.map Prod.snd) ss ns s (outFrom env q ss ns xs).flatten wend) :
    ∃ s' ns', odaLoop env len q ss fs s (xs.map Chunk.views).flatten = .ok s' ∧ OdaReady env cap (q.select.map Prod.snd) ss ns' s' [] wend ∧
      s'.count = s.count + (xs.map (fun x => x.answer.rows)).sum := by
  have htl : (q.select.map Prod.snd).length = q.select.length := by simp
  induction xs generalizing fs s ns with
  | nil => exact ⟨s, ns, rfl, h, rfl⟩
  | cons x xs ih =>
    have hok := hx x (by simp)
    have hpos := hok.pos
    have hvl := hok.rowsFrom.are.len
    obtain ⟨u, us, hvs⟩ : ∃ u us, x.views = u :: us := by
      cases hv : x.views with
      | nil => rw [hv] at hvl; simp at hvl; omega
      | cons u us => exact ⟨u, us, rfl⟩
    obtain ⟨ks, k1, k2⟩ := hok.rowsFrom.src
    have hkey : ks.map Col.key = x.table.cols.map InCol.key := by
      have := (hok.rowsFrom.are.row 0 u (by rw [hvs]; rfl)).1
      rwa [k2 u (by rw [hvs]; simp)] at this
    obtain ⟨fs', f1, f2⟩ := fetchCols_ok hok.asked.rows hkey k1 hok.asked.one
    have hsz := fetch_sizes f2 q.select.length
    obtain ⟨d1, d2⟩ := h.decls.max hok.decls
    have hhead := outFrom_head (x :: xs) hx ns h.decls
    -- the columns of this table
    obtain ⟨s1, a1, a2, a3⟩ := update_ok (env := env) (fs := fs') h hu (by rw [htl, hsz]; exact hok.decls) (by
      intro v hv
      rw [htl, hsz]
      simp only [outFrom, List.flatten_cons] at hv
      cases ho : x.out env q ss (List.zipWith max ns (widthsOf q x.cols)) with
      | nil =>
        rw [ho, List.nil_append] at hv
        exact outFrom_head xs (fun x h => hx x (by simp [h])) _ d1 v hv
      | cons z zs =>
        rw [ho] at hv
        simp at hv
        subst hv
        have hm : z ∈ x.out env q ss (List.zipWith max ns (widthsOf q x.cols)) := by rw [ho]; simp
        obtain ⟨r, _, rfl⟩ := List.mem_map.mp hm
        exact ⟨rfl, _, col_keys d1.ok, d1, wider_self _⟩)
    rw [htl, hsz] at a2
    change OdaReady env cap (q.select.map Prod.snd) ss (List.zipWith max ns (widthsOf q x.cols)) s1 _ wend at a2
    have hentry : odaLoop env len q ss fs s ((x :: xs).map Chunk.views).flatten = odaLoop env len q ss fs' s1 ((x :: xs).map Chunk.views).flatten := by
      have e1 : odaEnter env (q.select.map Prod.snd) ss fs s u = .ok (fs', s1) := by
        unfold odaEnter
        rw [hfr x (by simp) u (by rw [hvs]; rfl), if_pos rfl, k2 u (by rw [hvs]; simp), f1]
        dsimp only
        rw [a1]
      have e2 : odaEnter env (q.select.map Prod.snd) ss fs' s1 u = .ok (fs', s1) := by
        unfold odaEnter
        rw [hfr x (by simp) u (by rw [hvs]; rfl), if_pos rfl, k2 u (by rw [hvs]; simp), f1]
        dsimp only
        rw [update_again a2 (by rw [htl, hsz]; exact hok.decls) (by rw [htl, hsz]; exact max_self_right _ _)]
      simp only [List.map_cons, List.flatten_cons, hvs, List.cons_append, odaLoop, e1, e2]
    rw [hentry, List.map_cons, List.flatten_cons]
    obtain ⟨s2, b1, b2, b3⟩ := odaLoop_table hlen q ss x hok (max_low (by
        have := h.decls.lens.1
        have := hok.asked.len
        simp only [List.length_take]
        omega)) (max_self_right _ _) k2 f1 f2 s1 _ wend a2 (xs.map Chunk.views).flatten
    rw [b3]
    obtain ⟨s', ns', c1, c2, c3⟩ := ih (fun x h => hx x (by simp [h])) (fun x h => hfr x (by simp [h])) fs' s2 _ b1
    refine ⟨s', ns', c1, c2, ?_⟩
    rw [c3, b2, a3, List.map_cons, List.sum_cons]
    omega

/-! ### The rows of the output -/

theorem answer_low {env : Env} {q : Query} {ss : List SqlCol} {x : Chunk} (h : x.Ok env q ss) {ns : List Nat}
    (hns : Match (fun (c : InCol) n => c.vals.words ≤ n) (x.cols.take q.select.length) ns) :
    Match (fun (c : InCol) n => c.vals.words ≤ n) x.answer.cols ns := by
  have hlen := h.asked.len
  have hl := hns.length
  rw [List.length_take, Nat.min_eq_left hlen] at hl
  apply Match.of_get _ _ (by rw [h.asked.cols]; simp; omega)
  intro p c n hc hn
  rw [h.asked.cols, List.getElem?_zipWith] at hc
  have hp : p < q.select.length := by rw [hl]; exact (List.getElem?_eq_some_iff.mp hn).1
  have e1 : (q.select.map Prod.snd)[p]? = some (q.select[p].2) := by simp [hp]
  obtain ⟨d, hd⟩ : ∃ d, x.cols[p]? = some d := ⟨_, List.getElem?_eq_getElem (by omega)⟩
  rw [e1, hd] at hc
  simp only [Option.some.injEq] at hc
  rw [← hc]
  show (d.vals.pick _).words ≤ n
  rw [Vals.pick_words]
  exact hns.get p d n (by rw [List.getElem?_take, if_pos hp]; exact hd) hn

theorem Decls.get {ts : List Str} {ss : List SqlCol} {ns : List Nat} (h : Decls ts ss ns) (p : Nat) {t : Str} {s : SqlCol} {n : Nat} (ht : ts[p]? = some t)
    (hs : ss[p]? = some s) (hn : ns[p]? = some n) : (dcols ts ss ns)[p]? = some ⟨t, s.ty, s.bitNames.zip s.bitSizes, n⟩ ∧ NumOne s.ty n := by
  induction h generalizing p with
  | nil ss => simp at ht
  | cons v h h1 hb _ ih =>
    cases p with
    | zero =>
      simp at ht hs hn
      subst ht hs hn
      exact ⟨rfl, h1⟩
    | succ p => exact ih p (by simpa using ht) (by simpa using hs) (by simpa using hn)

/-- The rows put out for a table are those of the answer, in wider columns. -/
theorem chunk_rows {env : Env} {q : Query} {ss : List SqlCol} {x : Chunk} (h : x.Ok env q ss) {ns : List Nat} (hd : Decls (q.select.map Prod.snd) ss ns)
    (hns : Match (fun (c : InCol) n => c.vals.words ≤ n) (x.cols.take q.select.length) ns) : RowsAre env (x.answer.pad ns) (x.out env q ss ns) := by
  have hA := h.asked
  have hlen := hA.len
  have hl := hns.length
  rw [List.length_take, Nat.min_eq_left hlen] at hl
  have htl : (q.select.map Prod.snd).length = q.select.length := by simp
  have hacols : x.answer.cols.length = ns.length := (answer_low h hns).length
  refine ⟨by rw [show (x.answer.pad ns).rows = x.answer.rows from rfl, hA.count]; simp [Chunk.out, Chunk.kept], ?_⟩
  intro j v hv
  simp only [Chunk.out, List.getElem?_map, Option.map_eq_some_iff] at hv
  obtain ⟨r, hr, rfl⟩ := hv
  have hget : ∀ (p : Nat), p < q.select.length → ∃ (c : InCol) (s : SqlCol) (n : Nat), x.cols[p]? = some c ∧ ss[p]? = some s ∧ ns[p]? = some n ∧ TypeOf c s ∧
      (x.answer.pad ns).cols[p]? = some ⟨q.select.map Prod.snd |>.getD p [], (c.vals.pick (x.kept env q)).rew n⟩ := by
    intro p hp
    obtain ⟨c, hc⟩ : ∃ c, x.cols[p]? = some c := ⟨_, List.getElem?_eq_getElem (by omega)⟩
    obtain ⟨n, hn⟩ : ∃ n, ns[p]? = some n := ⟨_, List.getElem?_eq_getElem (by omega)⟩
    have hsl := hd.lens.2.1
    obtain ⟨s, hs⟩ : ∃ s, ss[p]? = some s := ⟨_, List.getElem?_eq_getElem (by omega)⟩
    have hty := hA.ty.get p c s (by rw [List.getElem?_take, if_pos hp]; exact hc) (by rw [List.getElem?_take, if_pos hp]; exact hs)
    have e1 : (q.select.map Prod.snd)[p]? = some (q.select[p].2) := by simp [hp]
    refine ⟨c, s, n, hc, hs, hn, hty, ?_⟩
    rw [List.getD_eq_getElem?_getD, e1]
    simp only [UTable.pad, List.getElem?_zipWith, hA.cols, e1, hc, hn, Option.getD_some]
    rfl
  have hplen : (x.answer.pad ns).cols.length = q.select.length := by rw [pad_length hacols.symm, hacols]; omega
  constructor
  · show ((dcols _ ss ns).map (DCol.col env)).map Col.key = _
    rw [col_keys hd.ok]
    apply List.ext_getElem?
    intro p
    by_cases hp : p < q.select.length
    · obtain ⟨c, s, n, g1, g2, g3, g4, g5⟩ := hget p hp
      have e1 : (q.select.map Prod.snd)[p]? = some ((q.select.map Prod.snd).getD p []) := by
        rw [List.getD_eq_getElem?_getD]
        simp [hp]
      obtain ⟨k1, k2⟩ := hd.get p e1 g2 g3
      rw [List.getElem?_map, List.getElem?_map, k1, g5]
      simp only [Option.map_some, Option.some.injEq, DCol.key, InCol.key, rew_ty, rew_members, Vals.pick_ty, Vals.pick_members, g4.ty, g4.bitNames, g4.bitSizes,
        zip_fst_snd]
      have : n = ((c.vals.pick (x.kept env q)).rew n).words := by
        by_cases hstr : s.ty = .string
        · rw [g4.ty] at hstr
          cases hv : c.vals with
          | strings w vs => rfl
          | _ => rw [hv] at hstr; simp [Vals.ty] at hstr
        · rw [k2 hstr]
          rw [g4.ty] at hstr
          cases hv : c.vals with
          | strings w vs => rw [hv] at hstr; exact absurd rfl hstr
          | _ => rfl
      rw [← this]
    · rw [List.getElem?_eq_none (by rw [List.length_map, hd.lens.2.2.2.2.1]; omega), List.getElem?_eq_none (by rw [List.length_map, hplen]; omega)]
  · show outCells env _ ns r = _
    apply List.ext_getElem?
    intro p
    unfold rowAt outCells
    by_cases hp : p < q.select.length
    · obtain ⟨c, s, n, g1, g2, g3, g4, g5⟩ := hget p hp
      have hlt : ∀ i ∈ x.kept env q, i < c.vals.rows := by
        intro i hi
        obtain ⟨m, _, p', hp', _⟩ := hA.one.mem_left' (List.mem_of_getElem? g1)
        rw [hA.rows c (List.mem_of_getElem? hp')]
        simpa using (List.mem_filter.mp hi).1
      rw [List.getElem?_map, List.getElem?_map, g5, List.getElem?_zipWith, List.getElem?_take, htl, if_pos hp, g1, g3]
      simp only [Option.map_some, InCol.data]
      have hcomm : (c.vals.pick (x.kept env q)).rew n = (c.vals.rew n).pick (x.kept env q) := by cases c.vals <;> rfl
      have hlt' : ∀ i ∈ x.kept env q, i < (c.vals.rew n).rows := by
        intro i hi
        have := hlt i hi
        revert this
        cases c.vals <;> exact id
      rw [hcomm, Vals.pick_cells env _ _ hlt']
      congr 1
      rw [List.getD_eq_getElem?_getD (l := List.map _ _), List.getElem?_map, hr]
      rfl
    · rw [List.getElem?_eq_none (by simp; omega), List.getElem?_eq_none (by rw [List.length_map, List.length_map, hplen]; omega)]

theorem max_high {ns ms : List Nat} {B : List InCol} (h : Match (fun (n : Nat) (b : InCol) => n ≤ b.vals.words) ns B)
    (h' : Match (fun (n : Nat) (b : InCol) => n ≤ b.vals.words) ms B) : Match (fun (n : Nat) (b : InCol) => n ≤ b.vals.words) (List.zipWith max ns ms) B := by
  induction h generalizing ms with
  | nil => cases h'; exact .nil
  | cons h _ ih =>
    cases h' with
    | cons g1 g2 => exact .cons (Nat.max_le.mpr ⟨h, g1⟩) (ih g2)

theorem widths_high {env : Env} {q : Query} {ss : List SqlCol} {x : Chunk} (h : x.Ok env q ss) {B : List InCol} (hw : x.answer.Within B) :
    Match (fun (n : Nat) (b : InCol) => n ≤ b.vals.words) (widthsOf q x.cols) B := by
  have hlen := h.asked.len
  have hl : x.answer.cols.length = q.select.length := by rw [h.asked.cols]; simp; omega
  apply Match.of_get _ _ (by rw [← Match.length hw, hl]; simp [widthsOf]; omega)
  intro p n b hn hb
  have hp : p < q.select.length := by
    rw [← hl, Match.length hw]
    exact (List.getElem?_eq_some_iff.mp hb).1
  obtain ⟨d, hd⟩ : ∃ d, x.cols[p]? = some d := ⟨_, List.getElem?_eq_getElem (by omega)⟩
  have e1 : (q.select.map Prod.snd)[p]? = some (q.select[p].2) := by simp [hp]
  unfold widthsOf at hn
  rw [List.getElem?_map, List.getElem?_take, if_pos hp, hd] at hn
  simp only [Option.map_some, Option.some.injEq] at hn
  subst hn
  have := (Match.get hw p ⟨q.select[p].2, d.vals.pick ((List.range x.table.rows).filter (q.at env x.cols))⟩ b
    (by rw [h.asked.cols, List.getElem?_zipWith, e1, hd]) hb).2
  dsimp only at this
  revert this
  cases d.vals <;> cases b.vals <;> simp [Vals.pick, Vals.In, Vals.words]
  intro h _
  exact h

/-- All that is needed of the padded answers. -/
theorem padFrom_ok {env : Env} {q : Query} {ss : List SqlCol} {B : List InCol} (xs : List Chunk) (hx : ∀ x ∈ xs, x.Ok env q ss) (hw : ∀ x ∈ xs, x.answer.Within B)
    (ns : List Nat) (hd : Decls (q.select.map Prod.snd) ss ns) (hn : Match (fun (n : Nat) (b : InCol) => n ≤ b.vals.words) ns B) :
    Match (RowsAre env) (padFrom q ns xs) (outFrom env q ss ns xs) ∧
      Match (fun (x : Chunk) (P : UTable) => ∃ ms, P = x.answer.pad ms ∧ Between x.answer ms B ∧ ms.length = x.answer.cols.length) xs (padFrom q ns xs) ∧
      (∀ vs ∈ outFrom env q ss ns xs, ∀ u, vs.head? = some u → u.fresh = true) := by
  induction xs generalizing ns with
  | nil => exact ⟨.nil, .nil, by simp [outFrom]⟩
  | cons x xs ih =>
    have hok := hx x (by simp)
    obtain ⟨d1, d2⟩ := hd.max hok.decls
    have hhigh := max_high hn (widths_high hok (hw x (by simp)))
    have hlow : Match (fun (c : InCol) n => c.vals.words ≤ n) (x.cols.take q.select.length) (List.zipWith max ns (widthsOf q x.cols)) := max_low (by
      have := hd.lens.1
      have := hok.asked.len
      simp only [List.length_map] at *
      simp only [List.length_take]
      omega)
    obtain ⟨a1, a2, a3⟩ := ih (fun x h => hx x (by simp [h])) (fun x h => hw x (by simp [h])) _ d1 hhigh
    refine ⟨.cons (chunk_rows hok d1 hlow) a1, .cons ⟨_, rfl, ⟨answer_low hok hlow, hhigh⟩, (answer_low hok hlow).length.symm⟩ a2, ?_⟩
    intro vs hvs u hu
    rcases List.mem_cons.mp hvs with rfl | hvs
    · have hm : u ∈ x.out env q ss (List.zipWith max ns (widthsOf q x.cols)) := List.mem_of_mem_head? hu
      obtain ⟨r, _, rfl⟩ := List.mem_map.mp hm
      rfl
    · exact a3 vs hvs u hu

theorem pad_rows {env : Env} {xs : List Chunk} {Ps : List UTable}
    (h : Match (fun (x : Chunk) (P : UTable) => ∃ ms, P = x.answer.pad ms ∧ ms.length = x.answer.cols.length) xs Ps) {views : List RowView}
    (hm : Match (IsRowAt env) (allRows Ps) views) : Match (IsRowAt env) (allRows (xs.map Chunk.answer)) views := by
  induction h generalizing views with
  | nil => exact hm
  | @cons x P xs Ps h _ ih =>
    obtain ⟨ms, rfl, hl⟩ := h
    simp only [allRows, List.flatMap_cons, List.map_cons] at hm ih ⊢
    obtain ⟨v1, v2, rfl, m1, m2⟩ := hm.append_left
    refine Match.append ?_ (ih m2)
    apply Match.of_get _ _ (by simpa [UTable.pad] using m1.length)
    intro i a v ha hv
    simp only [List.getElem?_map, Option.map_eq_some_iff] at ha
    obtain ⟨r, hr, rfl⟩ := ha
    have := m1.get i (x.answer.pad ms, r) v (by
      rw [List.getElem?_map]
      show Option.map _ (List.range x.answer.rows)[i]? = _
      rw [hr]
      rfl) hv
    exact pad_row hl this

end Verif
