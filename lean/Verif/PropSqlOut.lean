import Verif.SqlWriter

/-!
`odc sql ... -o file`: the file written has the rows of the answer.
-/

namespace Verif

/-! ### The columns of the output -/

/-- Proof device: the word that stands for a missing value. -/
def missOf (env : Env) (ty : ColType) : Word :=
  if ty = .integer ∨ ty = .bitfield then intWord env.asDbl 2147483647 else realMDI

/-- Proof device: numbers are one double. -/
def NumOne (ty : ColType) (n : Nat) : Prop := ty ≠ .string → n = 1

theorem dcol_ok (env : Env) (d : DCol) (v : Vals) (h : d.ty = v.ty) (h1 : NumOne d.ty d.words) :
    d.Ok env ∧ (d.start env).missingWord = .ok (missOf env d.ty) := by
  have key : ∀ k, startCodec d.ty env.asDbl d.words none = .ok k → k.missingWord = .ok (missOf env d.ty) →
      d.Ok env ∧ (d.start env).missingWord = .ok (missOf env d.ty) := by
    intro k h1 h2
    have : d.start env = k := by unfold DCol.start; rw [h1]
    exact ⟨⟨by rw [this]; exact h1, ⟨_, by rw [this]; exact h2⟩, by rw [h]; cases v <;> simp [Vals.ty]⟩, by rw [this]; exact h2⟩
  cases v with
  | ints vs =>
    have ht : d.ty = .integer := h
    have hw : d.words = 1 := h1 (by rw [ht]; simp)
    obtain ⟨k, k1, k2, k3, k4, _⟩ := startCodec_int .integer (Or.inl rfl) env.asDbl 2147483647 (by decide) none (Or.inr ⟨rfl, rfl⟩)
    refine key k (by rw [ht, hw]; exact k1) ?_
    rw [ht]
    exact int_missingWord (by decide) k3 k4 (by rw [k2]; simp [Kind.isInt])
  | bits ms vs =>
    have ht : d.ty = .bitfield := h
    have hw : d.words = 1 := h1 (by rw [ht]; simp)
    obtain ⟨k, k1, k2, k3, k4, _⟩ := startCodec_int .bitfield (Or.inr rfl) env.asDbl 2147483647 (by decide) none (Or.inr ⟨rfl, rfl⟩)
    refine key k (by rw [ht, hw]; exact k1) ?_
    rw [ht]
    exact int_missingWord (by decide) k3 k4 (by rw [k2]; simp [Kind.isInt])
  | reals vs =>
    have ht : d.ty = .real := h
    have hw : d.words = 1 := h1 (by rw [ht]; simp)
    obtain ⟨k, k1, k2, k3, k4, _⟩ := startCodec_real .real (Or.inl rfl) env.asDbl realMDI none (Or.inr ⟨rfl, rfl⟩)
    refine key k (by rw [ht, hw]; exact k1) ?_
    rw [ht]
    unfold Codec.missingWord
    rw [if_neg (by rw [k2]; simp [Kind.isInt]), k4]
    rfl
  | doubles vs =>
    have ht : d.ty = .double := h
    have hw : d.words = 1 := h1 (by rw [ht]; simp)
    obtain ⟨k, k1, k2, k3, k4, _⟩ := startCodec_real .double (Or.inr rfl) env.asDbl realMDI none (Or.inr ⟨rfl, rfl⟩)
    refine key k (by rw [ht, hw]; exact k1) ?_
    rw [ht]
    unfold Codec.missingWord
    rw [if_neg (by rw [k2]; simp [Kind.isInt]), k4]
    rfl
  | strings w vs =>
    have ht : d.ty = .string := h
    obtain ⟨k, k1, k2, k3, _⟩ := startCodec_str env.asDbl d.words
    refine key k (by rw [ht]; exact k1) ?_
    rw [ht]
    unfold Codec.missingWord
    rw [if_neg (by rw [k2]; simp [Kind.isInt]), k3]
    rfl

/-- Proof device: the columns declared with these titles, types and widths. -/
def dcols : List Str → List SqlCol → List Nat → List DCol
  | t :: ts, s :: ss, n :: ns => ⟨t, s.ty, s.bitNames.zip s.bitSizes, n⟩ :: dcols ts ss ns
  | _, _, _ => []

/-- Proof device: titles, columns and widths that go together. -/
inductive Decls : List Str → List SqlCol → List Nat → Prop
  | nil (ss : List SqlCol) : Decls [] ss []
  | cons {t : Str} {s : SqlCol} {n : Nat} {ts : List Str} {ss : List SqlCol} {ns : List Nat} (v : Vals) (h : s.ty = v.ty) (h1 : NumOne s.ty n)
      (hb : s.ty ≠ .bitfield → s.bitNames.zip s.bitSizes = []) (hr : Decls ts ss ns) : Decls (t :: ts) (s :: ss) (n :: ns)

theorem Decls.ok {env : Env} {ts : List Str} {ss : List SqlCol} {ns : List Nat} (h : Decls ts ss ns) : ∀ d ∈ dcols ts ss ns, d.Ok env := by
  induction h with
  | nil ss => intro d hd; cases ss <;> simp [dcols] at hd
  | cons v h h1 hb _ ih =>
    intro d hd
    rcases List.mem_cons.mp hd with rfl | hd
    · exact (dcol_ok env _ v h h1).1
    · exact ih d hd

theorem Decls.lens {ts : List Str} {ss : List SqlCol} {ns : List Nat} (h : Decls ts ss ns) :
    ns.length = ts.length ∧ ts.length ≤ ss.length ∧ (dcols ts ss ns).map DCol.name = ts ∧ (dcols ts ss ns).map DCol.words = ns ∧
    (dcols ts ss ns).length = ts.length ∧ (dcols ts ss ns).map DCol.ty = (ss.take ts.length).map SqlCol.ty := by
  induction h with
  | nil ss => cases ss <;> simp [dcols]
  | cons v h h1 hb _ ih =>
    obtain ⟨a1, a2, a3, a4, a5, a6⟩ := ih
    refine ⟨by simp [a1], by simpa using a2, by simp [dcols, a3], by simp [dcols, a4], by simp [dcols, a5], by simp [dcols, a6]⟩

/-! ### `prepare` -/

theorem odaSetColumn_ok (env : Env) (w : Writer) (pre : List DCol) (rest : List WCol) (t : Str) (s : SqlCol) (f : Fetch) (v : Vals) (h : s.ty = v.ty)
    (h1 : NumOne s.ty f.size) (hb : s.ty ≠ .bitfield → s.bitNames.zip s.bitSizes = [])
    (hw : w.cols = pre.map (DCol.fresh env) ++ blankCol :: rest) (hpre : ∀ d ∈ pre, d.name ≠ t) (hrest : ∀ x ∈ rest, x.name ≠ t) :
    odaSetColumn env w pre.length s f t =
      .ok { w with cols := pre.map (DCol.fresh env) ++ DCol.fresh env ⟨t, s.ty, s.bitNames.zip s.bitSizes, f.size⟩ :: rest } := by
  have hst := (dcol_ok env ⟨t, s.ty, s.bitNames.zip s.bitSizes, f.size⟩ v h h1).1.start
  obtain ⟨c0, c1, g0, g1, g2⟩ := startCodec_split hst
  simp only [Except.ok.injEq] at g2
  dsimp only at g0 g1 g2
  have hlen : pre.length = (pre.map (DCol.fresh env)).length := by simp
  generalize hP : pre.map (DCol.fresh env) = P at hw hlen ⊢
  have hn1 : ∀ x ∈ P, x.name ≠ t := by
    intro x hx
    rw [← hP] at hx
    obtain ⟨d, hd, rfl⟩ := List.mem_map.mp hx
    exact hpre d hd
  have hdup : (List.range w.cols.length).any (fun j => decide (j ≠ P.length) && decide ((w.cols[j]?.map WCol.name) = some t)) = false := by
    rw [List.any_eq_false]
    intro j _
    simp only [Bool.and_eq_true, decide_eq_true_eq, not_and]
    intro hj
    rw [hw]
    rcases Nat.lt_trichotomy j P.length with h | h | h
    · rw [List.getElem?_append_left h, List.getElem?_eq_getElem h]
      simp only [Option.map_some, Option.some.injEq]
      exact hn1 _ (List.getElem_mem h)
    · exact absurd h hj
    · rw [List.getElem?_append_right (by omega)]
      obtain ⟨d, hd⟩ : ∃ d, j - P.length = d + 1 := ⟨j - P.length - 1, by omega⟩
      rw [hd, List.getElem?_cons_succ]
      cases hp : rest[d]? with
      | none => simp
      | some x =>
        simp only [Option.map_some, Option.some.injEq]
        exact hrest x (List.mem_of_getElem? hp)
  unfold odaSetColumn
  rw [hlen]
  simp only [DCol.fresh]
  rw [← g2]
  have hsame : s.ty ≠ .string → c1 = c0 := by
    intro hne
    have hs1 := h1 hne
    rw [hs1] at g1
    unfold Codec.setWidth at g1
    split at g1
    · rename_i hk
      simp only [Except.ok.injEq] at g1
      rw [← g1]
      have := defaultCodec_width g0
      cases c0
      simp at this
      subst this
      rfl
    · simp only [if_true, Except.ok.injEq] at g1
      exact g1.symm
  split
  · rename_i hbit
    unfold Writer.setBitfieldColumn
    rw [hw, get_append_cons]
    rw [hbit] at g0
    simp only [g0, set_append_cons]
    rw [hbit, hsame (by rw [hbit]; simp)]
  · rename_i hbit
    unfold Writer.setColumn
    rw [hdup, hw, get_append_cons]
    simp only [g0, set_append_cons, blankCol, Bool.false_eq_true, if_false, hb hbit]
    by_cases hs : s.ty = .string
    · rw [if_pos hs]
      unfold Writer.setWidth
      simp only [get_append_cons, g1, set_append_cons]
    · rw [if_neg hs, hsame hs]

theorem odaDeclare_ok (env : Env) (pre : List DCol) (w : Writer) (ts : List Str) (ss : List SqlCol) (fs : List Fetch)
    (hd : Decls ts ss ((fs.take ts.length).map Fetch.size)) (hw : w.cols = pre.map (DCol.fresh env) ++ List.replicate ts.length blankCol)
    (hnd : ts.Nodup) (hne : ∀ t ∈ ts, t ≠ []) (hpre : ∀ d ∈ pre, ∀ t ∈ ts, d.name ≠ t) :
    odaDeclare env w pre.length ss fs ts = .ok ({ w with cols := (pre ++ dcols ts ss ((fs.take ts.length).map Fetch.size)).map (DCol.fresh env) },
      (dcols ts ss ((fs.take ts.length).map Fetch.size)).map (fun d => (d.words, missOf env d.ty))) := by
  induction ts generalizing pre w ss fs with
  | nil =>
    have hw' : w.cols = pre.map (DCol.fresh env) := by simpa using hw
    cases ss <;> cases fs <;> simp [odaDeclare, dcols, ← hw']
  | cons t ts ih =>
    cases fs with
    | nil => simp at hd; cases hd
    | cons f fs =>
      simp only [List.length_cons, List.take_succ_cons, List.map_cons] at hd ⊢
      cases hd with
      | @cons _ s _ _ ss _ v h h1 hb hr =>
        simp only [List.nodup_cons] at hnd
        have hd0 := dcol_ok env ⟨t, s.ty, s.bitNames.zip s.bitSizes, f.size⟩ v h h1
        have hset := odaSetColumn_ok env w pre (List.replicate ts.length blankCol) t s f v h h1 hb (by simpa [List.replicate_succ] using hw)
          (fun d hd => hpre d hd t (by simp)) (by
            intro x hx
            rw [List.eq_of_mem_replicate hx]
            exact fun h => hne t (by simp) h.symm)
        simp only [odaDeclare, hset]
        have hmiss : ({ w with cols := pre.map (DCol.fresh env) ++ DCol.fresh env ⟨t, s.ty, s.bitNames.zip s.bitSizes, f.size⟩ :: List.replicate ts.length blankCol } :
            Writer).missingAt pre.length = .ok (missOf env s.ty) := by
          unfold Writer.missingAt
          have : pre.length = (pre.map (DCol.fresh env)).length := by simp
          dsimp only
          rw [this, get_append_cons]
          exact hd0.2
        rw [hmiss]
        dsimp only
        have := ih (pre ++ [⟨t, s.ty, s.bitNames.zip s.bitSizes, f.size⟩])
          { w with cols := pre.map (DCol.fresh env) ++ DCol.fresh env ⟨t, s.ty, s.bitNames.zip s.bitSizes, f.size⟩ :: List.replicate ts.length blankCol }
          ss fs hr (by simp) hnd.2 (fun t ht => hne t (by simp [ht])) (by
            intro x hx y hy
            rcases List.mem_append.mp hx with hx | hx
            · exact hpre x hx y (by simp [hy])
            · simp only [List.mem_singleton] at hx
              subst hx
              rintro rfl
              exact hnd.1 hy)
        simp only [List.length_append, List.length_singleton] at this
        rw [this]
        have hsz : (if s.ty = .string then f.size else 1) = f.size := by
          split
          · rfl
          · rename_i hs; exact (h1 hs).symm
        simp only [dcols, hsz]
        simp

/-! ### `updateTypes` -/

theorem odaGrown_ok (env : Env) {ts : List Str} {ss : List SqlCol} {ns : List Nat} (hd : Decls ts ss ns) (fs : List Fetch)
    (hf : Decls ts ss ((fs.take ts.length).map Fetch.size)) (cols : List WCol) (hc : cols.map WCol.decl = (dcols ts ss ns).map DCol.decl) :
    odaGrown cols ss fs ts ns = .ok (List.zipWith max ns ((fs.take ts.length).map Fetch.size),
      grownOf (dcols ts ss ns) (dcols ts ss (List.zipWith max ns ((fs.take ts.length).map Fetch.size)))) := by
  induction hd generalizing fs cols with
  | nil ss =>
    cases cols with
    | nil => cases ss <;> cases fs <;> simp [odaGrown, dcols, grownOf]
    | cons _ _ => cases ss <;> simp [dcols] at hc
  | @cons t s n ts ss ns v h h1 hb hr ih =>
    cases fs with
    | nil => simp at hf; cases hf
    | cons f fs =>
      simp only [List.length_cons, List.take_succ_cons, List.map_cons] at hf ⊢
      cases hf with
      | cons v' h' h1' hb' hr' =>
        cases cols with
        | nil => simp [dcols] at hc
        | cons k cols =>
          simp only [dcols, List.map_cons, List.cons.injEq, WCol.decl, DCol.decl, Prod.mk.injEq] at hc
          obtain ⟨⟨c1, c2, c3, c4⟩, c5⟩ := hc
          cases hk : k.codec with
          | none => rw [hk] at c4; simp at c4
          | some d =>
            rw [hk] at c4
            simp only [Option.map_some, Option.some.injEq] at c4
            simp only [odaGrown, hk]
            rw [if_neg (by rw [c1, c2]; simp)]
            rw [if_neg (by
              rintro ⟨g1, g2⟩
              exact g2 (by rw [c4]; exact h1 g1))]
            rw [ih fs hr' cols c5]
            simp only [List.zipWith_cons_cons, dcols, grownOf]
            rw [c4]
            by_cases hlt : n < f.size
            · have ht : s.ty = .string := by
                by_contra hne
                have := h1 hne
                have := h1' hne
                omega
              rw [if_pos ⟨ht, hlt⟩, Nat.max_eq_right (by omega), if_pos hlt]
            · rw [if_neg (by rintro ⟨_, g⟩; exact hlt g), Nat.max_eq_left (by omega), if_neg (by omega)]

theorem Decls.max {ts : List Str} {ss : List SqlCol} {ns ms : List Nat} (h : Decls ts ss ns) (h' : Decls ts ss ms) :
    Decls ts ss (List.zipWith max ns ms) ∧ Match Wider (dcols ts ss ns) (dcols ts ss (List.zipWith Max.max ns ms)) := by
  induction h generalizing ms with
  | nil ss =>
    cases h'
    exact ⟨.nil ss, by cases ss <;> exact .nil⟩
  | @cons t s n ts ss ns v h h1 hb hr ih =>
    cases h' with
    | @cons _ _ m _ _ ms v' g g1 gb gr =>
      obtain ⟨a1, a2⟩ := ih gr
      refine ⟨.cons v h (fun hs => by rw [h1 hs, g1 hs]; rfl) hb a1, .cons ⟨rfl, Nat.le_max_left _ _, ?_⟩ a2⟩
      intro hs
      show Max.max n m = n
      rw [h1 hs, g1 hs]
      rfl

/-- Proof device: the output before the rows `views`. -/
structure OdaReady (env : Env) (cap : Nat) (ts : List Str) (ss : List SqlCol) (ns : List Nat) (s : OdaOut) (views : List RowView) (wend : Writer) : Prop where
  decls : Decls ts ss ns
  follows : Follows env cap (dcols ts ss ns) s.w views wend
  sizes : s.sizes = ns
  missing : s.missing = (dcols ts ss ns).map (fun d => missOf env d.ty)

theorem Unambiguous.nodup {ts : List Str} (h : Unambiguous ts) : ts.Nodup := by
  rw [List.nodup_iff_getElem?_ne_getElem?]
  intro i j hij hj he
  obtain ⟨t, ht⟩ : ∃ t, ts[i]? = some t := ⟨_, List.getElem?_eq_getElem (by omega)⟩
  have := h i j t t ht (he ▸ ht) (Or.inl rfl)
  omega

theorem prepare_ok {env : Env} {cap : Nat} {ts : List Str} {ss : List SqlCol} {fs : List Fetch} (hd : Decls ts ss ((fs.take ts.length).map Fetch.size))
    (hu : Unambiguous ts) (hne : ∀ t ∈ ts, t ≠ []) {views : List RowView} {wend : Writer} (hs : StartsOn env (Writer.new cap) views wend) :
    ∃ o, odaPrepare env cap ss fs ts = .ok o ∧ OdaReady env cap ts ss ((fs.take ts.length).map Fetch.size) o views wend ∧ o.count = 0 := by
  have h1 := odaDeclare_ok env [] ((Writer.new cap).setSize ts.length) ts ss fs hd (by simp [Writer.setSize, Writer.new, blankCol]) hu.nodup hne (by simp)
  simp only [List.length_nil, List.nil_append] at h1
  unfold odaPrepare
  rw [h1]
  dsimp only
  obtain ⟨w', a1, a2, a3, _⟩ := writeHeader_open (w := { (Writer.new cap).setSize ts.length with
    cols := (dcols ts ss ((fs.take ts.length).map Fetch.size)).map (DCol.fresh env) }) (cap := cap) hd.ok rfl rfl rfl (by intro a ha; simp [Writer.setSize, Writer.new] at ha) rfl
  rw [a1]
  refine ⟨_, rfl, ⟨hd, ⟨a3, a2.inited, ?_, Or.inr ⟨Writer.new cap, a2, rfl, rfl, hs⟩⟩, ?_, ?_⟩, rfl⟩
  · rw [a2.cols]; exact fresh_decl hd.ok
  · dsimp only
    rw [List.map_map]
    exact hd.lens.2.2.2.1
  · dsimp only
    rw [List.map_map]
    rfl

theorem grown_self (ds : List DCol) : grownOf ds ds = [] := by
  induction ds with
  | nil => rfl
  | cons d ds ih => simp [grownOf, ih]

theorem update_ok {env : Env} {cap : Nat} {ts : List Str} {ss : List SqlCol} {ns : List Nat} {s : OdaOut} {views : List RowView} {wend : Writer}
    (h : OdaReady env cap ts ss ns s views wend) (hu : Unambiguous ts) {fs : List Fetch} (hf : Decls ts ss ((fs.take ts.length).map Fetch.size))
    (hv : ∀ v, views.head? = some v → v.fresh = true ∧ ∃ ms, v.cols.map Col.key = (dcols ts ss ms).map DCol.key ∧ Decls ts ss ms ∧
      Match Wider (dcols ts ss (List.zipWith max ns ((fs.take ts.length).map Fetch.size))) (dcols ts ss ms)) :
    ∃ s', s.update env ss fs ts = .ok s' ∧ OdaReady env cap ts ss (List.zipWith max ns ((fs.take ts.length).map Fetch.size)) s' views wend ∧
      s'.count = s.count := by
  obtain ⟨hd', hw⟩ := h.decls.max hf
  unfold OdaOut.update
  rw [h.sizes, odaGrown_ok env h.decls fs hf s.w.cols h.follows.cols]
  dsimp only
  have hmiss : s.missing = (dcols ts ss (List.zipWith max ns ((fs.take ts.length).map Fetch.size))).map (fun d => missOf env d.ty) := by
    rw [h.missing]
    have e1 := h.decls.lens.2.2.2.2.2
    have e2 := hd'.lens.2.2.2.2.2
    have : ∀ ds : List DCol, ds.map (fun d => missOf env d.ty) = (ds.map DCol.ty).map (missOf env) := by intro ds; rw [List.map_map]; rfl
    rw [this, this, e1, e2]
  split
  · rename_i hnil
    have heq := (grown_words hw).2.1 hnil
    refine ⟨_, rfl, ⟨hd', ?_, rfl, hmiss⟩, rfl⟩
    rw [heq]
    exact h.follows
  · rename_i hne
    obtain ⟨w2, a1, a2⟩ := h.follows.grow hw h.decls.ok hd'.ok (by rw [h.decls.lens.2.2.1]; exact hu) hne (by
      intro v hv'
      obtain ⟨v1, ms, v2, v3, v4⟩ := hv v hv'
      exact ⟨v1, _, v2, v4, v3.ok⟩)
    rw [a1]
    exact ⟨_, rfl, ⟨hd', a2, rfl, hmiss⟩, rfl⟩

theorem update_again {env : Env} {cap : Nat} {ts : List Str} {ss : List SqlCol} {ns : List Nat} {s : OdaOut} {views : List RowView} {wend : Writer}
    (h : OdaReady env cap ts ss ns s views wend) {fs : List Fetch} (hf : Decls ts ss ((fs.take ts.length).map Fetch.size))
    (hle : List.zipWith max ns ((fs.take ts.length).map Fetch.size) = ns) : s.update env ss fs ts = .ok s := by
  unfold OdaOut.update
  rw [h.sizes, odaGrown_ok env h.decls fs hf s.w.cols h.follows.cols, hle, grown_self]
  dsimp only
  rw [if_pos rfl]
  congr 1
  rw [← h.sizes]

/-! ### One row -/

theorem rew_cells_one (env : Env) (v : Vals) (n : Nat) (h : v.ty ≠ .string) : v.rew n = v := by
  cases v <;> simp_all [Vals.rew, Vals.ty]

theorem odaCell_ok {env : Env} {len : List Byte → Nat} (hlen : StrLen len) (v : Vals) (r n : Nat) (hr : r < v.rows) (ht : v.Texts r) (hn : v.words ≤ n) :
    odaCell len v.ty n (missOf env v.ty) ((v.cells env).getD r [], v.isMissing r) = .ok (((v.rew n).cells env).getD r []) := by
  have hnum : ∀ (hd : Word), (v.cells env).getD r [] = [hd] → (v.isMissing r = true → hd = missOf env v.ty) →
      (Except.ok [if v.isMissing r = true then missOf env v.ty else cellWord ((v.cells env).getD r [])] : Except Err Cell) = .ok ((v.cells env).getD r []) := by
    intro hd he hm
    rw [he]
    by_cases h : v.isMissing r = true
    · rw [if_pos h, hm h]
    · rw [if_neg h]; rfl
  unfold odaCell
  dsimp only
  cases v with
  | strings w vs =>
    obtain ⟨s, hs, hl, hz⟩ := ht
    have hc : ((Vals.strings w vs).cells env).getD r [] = wordsOf w s := by simp [Vals.cells, hs]
    have hc' : (((Vals.strings w vs).rew n).cells env).getD r [] = wordsOf n s := by simp [Vals.rew, Vals.cells, hs]
    rw [if_pos (by rfl), hc, hc', cellBytes_wordsOf w s hl]
    obtain ⟨l1, l2⟩ := hlen s (8 * w - s.length) hz
    rw [if_neg (by simp only [Vals.words] at hn; omega), if_neg (by simp [Vals.isMissing]), wordsOf_text _ _ _ _ l1]
  | ints vs =>
    rw [if_neg (by simp [Vals.ty])]
    have hr' : r < vs.length := hr
    refine hnum (intWord env.asDbl vs[r]) (by rw [List.getD_eq_getElem?_getD, Vals.cells, List.getElem?_map, List.getElem?_eq_getElem hr']; rfl) ?_
    intro hm
    simp only [Vals.isMissing, decide_eq_true_eq, List.getElem?_eq_getElem hr', Option.some.injEq] at hm
    rw [hm]
    rfl
  | bits ms vs =>
    rw [if_neg (by simp [Vals.ty])]
    have hr' : r < vs.length := hr
    refine hnum (intWord env.asDbl vs[r]) (by rw [List.getD_eq_getElem?_getD, Vals.cells, List.getElem?_map, List.getElem?_eq_getElem hr']; rfl) ?_
    intro hm
    simp only [Vals.isMissing, decide_eq_true_eq, List.getElem?_eq_getElem hr', Option.some.injEq] at hm
    rw [hm]
    rfl
  | reals vs =>
    rw [if_neg (by simp [Vals.ty])]
    have hr' : r < vs.length := hr
    refine hnum _ (by rw [List.getD_eq_getElem?_getD, Vals.cells, List.getElem?_map, List.getElem?_eq_getElem hr']; rfl) ?_
    intro hm
    simp only [Vals.isMissing, decide_eq_true_eq, List.getElem?_eq_getElem hr', Option.some.injEq] at hm
    rw [hm]
    rfl
  | doubles vs =>
    rw [if_neg (by simp [Vals.ty])]
    have hr' : r < vs.length := hr
    refine hnum _ (by rw [List.getD_eq_getElem?_getD, Vals.cells, List.getElem?_map, List.getElem?_eq_getElem hr']; rfl) ?_
    intro hm
    simp only [Vals.isMissing, decide_eq_true_eq, List.getElem?_eq_getElem hr', Option.some.injEq] at hm
    rw [hm]
    rfl

/-- Proof device: the cells put out for row `r`, strings in as many doubles as the column has. -/
def outCells (env : Env) (cs : List InCol) (ns : List Nat) (r : Nat) : List Cell :=
  List.zipWith (fun (c : InCol) n => ((c.vals.rew n).cells env).getD r []) cs ns

theorem odaCells_ok {env : Env} {len : List Byte → Nat} (hlen : StrLen len) (r : Nat) {ts : List Str} {ss : List SqlCol} {ns : List Nat} (hd : Decls ts ss ns)
    (cs : List InCol) (hl : ts.length ≤ cs.length) (hty : Match TypeOf (cs.take ts.length) (ss.take ts.length))
    (hr : ∀ c ∈ cs.take ts.length, r < c.vals.rows) (ht : ∀ c ∈ cs.take ts.length, c.vals.Texts r)
    (hle : Match (fun (c : InCol) n => c.vals.words ≤ n) (cs.take ts.length) ns)
    (pre : List Cell) (w : Writer) (rest : List Cell) (hi : w.inited = true) (hc : w.cur = pre ++ rest) (hrest : rest.length = ts.length)
    (hcols : w.cols.length = pre.length + ts.length) :
    odaCells len w pre.length (ss.map SqlCol.ty) ns ((dcols ts ss ns).map (fun d => missOf env d.ty))
      ((cs.map (fun c => ((c.vals.cells env).getD r [], c.vals.isMissing r))).take ts.length) = .ok { w with cur := pre ++ outCells env (cs.take ts.length) ns r } := by
  induction hd generalizing cs pre w rest with
  | nil ss =>
    have : rest = [] := List.length_eq_zero_iff.mp (by simpa using hrest)
    subst this
    cases ss <;> simp [odaCells, outCells, dcols, ← hc]
  | @cons t s n ts ss ns v h h1 hb hd ih =>
    cases cs with
    | nil => simp at hl
    | cons c cs =>
      cases rest with
      | nil => simp at hrest
      | cons z rest =>
        simp only [List.length_cons, List.take_succ_cons, List.map_cons] at *
        cases hty with
        | cons g1 g2 =>
          cases hle with
          | cons k1 k2 =>
            have h0 := odaCell_ok (env := env) hlen c.vals r n (hr c (by simp)) (ht c (by simp)) k1
            simp only [odaCells, dcols, List.map_cons]
            rw [g1.ty, h0]
            dsimp only
            unfold Writer.setData
            rw [if_neg (by simp [hi]), if_pos (by omega)]
            dsimp only
            have := ih cs (by omega) g2 (fun c hc => hr c (by simp [hc])) (fun c hc => ht c (by simp [hc])) k2 (pre ++ [((c.vals.rew n).cells env).getD r []])
              { w with cur := w.cur.set pre.length (((c.vals.rew n).cells env).getD r []) } rest hi
              (by show w.cur.set _ _ = _; rw [hc, set_append_cons]; simp) (by omega) (by simp; omega)
            simp only [List.length_append, List.length_singleton] at this
            rw [this]
            simp [outCells]

/-- Proof device: a declared column as the reader would show it. -/
def DCol.col (env : Env) (d : DCol) : Col := ⟨d.name, d.ty.toInt, d.bits.map Prod.fst, d.bits.map Prod.snd, d.start env⟩

theorem col_keys {env : Env} {ds : List DCol} (h : ∀ d ∈ ds, d.Ok env) : (ds.map (DCol.col env)).map Col.key = ds.map DCol.key := by
  rw [List.map_map]
  apply List.map_congr_left
  intro d hd
  simp [Col.key, DCol.col, DCol.key, (h d hd).width]

/-- Proof device: row `r` of the answer, in columns of widths `ns`. -/
def outView (env : Env) (ts : List Str) (ss : List SqlCol) (ns : List Nat) (cs : List InCol) (r : Nat) : RowView :=
  { cols := (dcols ts ss ns).map (DCol.col env), cells := outCells env (cs.take ts.length) ns r, fresh := true }

theorem putOut_ok {env : Env} {cap : Nat} {len : List Byte → Nat} (hlen : StrLen len) (r : Nat) {ts : List Str} {ss : List SqlCol} {ns : List Nat}
    (cs : List InCol) (hl : ts.length ≤ cs.length) (hty : Match TypeOf (cs.take ts.length) (ss.take ts.length))
    (hr : ∀ c ∈ cs.take ts.length, r < c.vals.rows) (ht : ∀ c ∈ cs.take ts.length, c.vals.Texts r)
    (hle : Match (fun (c : InCol) n => c.vals.words ≤ n) (cs.take ts.length) ns) {s : OdaOut} {views : List RowView} {wend : Writer}
    (h : OdaReady env cap ts ss ns s (outView env ts ss ns cs r :: views) wend) :
    ∃ s', s.output env len (ss.map SqlCol.ty) ((cs.map (fun c => ((c.vals.cells env).getD r [], c.vals.isMissing r))).take ts.length) = .ok s' ∧
      OdaReady env cap ts ss ns s' views wend ∧ s'.count = s.count + 1 := by
  have hlens := h.decls.lens
  have hcl : s.w.cols.length = ts.length := by
    have := congrArg List.length h.follows.cols
    simp only [List.length_map] at this
    rw [this, hlens.2.2.2.2.1]
  have h1 := odaCells_ok (env := env) hlen r h.decls cs hl hty hr ht hle [] s.w s.w.cur h.follows.inited rfl
    (by rw [h.follows.cur, hlens.2.2.2.2.1]) (by simpa using hcl)
  simp only [List.length_nil, List.nil_append] at h1
  unfold OdaOut.output
  rw [h.sizes, h.missing, h1]
  dsimp only
  have hx : (outCells env (cs.take ts.length) ns r).length = (dcols ts ss ns).length := by
    rw [hlens.2.2.2.2.1]
    unfold outCells
    rw [List.length_zipWith, hlens.1, List.length_take]
    omega
  obtain ⟨w2, a1, a2⟩ := h.follows.row h.decls.ok (by exact col_keys h.decls.ok) hx
  unfold Writer.next
  dsimp only
  rw [show ({ s.w with cur := outCells env (cs.take ts.length) ns r } : Writer).writeRow env .same (outCells env (cs.take ts.length) ns r) = .ok w2 from a1]
  exact ⟨_, rfl, ⟨h.decls, a2, rfl, rfl⟩, rfl⟩

/-! ### The rows of one table -/

theorem odaLoop_rows {env : Env} {cap : Nat} {T : UTable} {len : List Byte → Nat} (hlen : StrLen len) (q : Query) {cs : List InCol} {ss : List SqlCol} {ns : List Nat}
    (hrows : ∀ c ∈ T.cols, c.vals.rows = T.rows) (hl : q.select.length ≤ cs.length)
    (hty : Match TypeOf (cs.take q.select.length) (ss.take q.select.length)) (hone : Match (TheOne T) (ss.map SqlCol.name) cs)
    (hle : Match (fun (c : InCol) n => c.vals.words ≤ n) (cs.take q.select.length) ns)
    {ks : List Col} {fs : List Fetch} (hfs : fetchCols ks (ss.map SqlCol.name) = .ok fs) (hfetch : Match (FetchOf env T) cs fs)
    (hdf : Decls (q.select.map Prod.snd) ss ((fs.take q.select.length).map Fetch.size))
    (hmax : List.zipWith max ns ((fs.take q.select.length).map Fetch.size) = ns)
    (us : List RowView) (i : Nat) (hi : i + us.length ≤ T.rows)
    (hus : ∀ (t : Nat) (u : RowView), us[t]? = some u → u.cols = ks ∧ u.cells = rowAt (T.cols.map (InCol.data env)) (i + t))
    (htext : ∀ r, i ≤ r → r < i + us.length → q.at env cs r = true → ∀ c ∈ cs.take q.select.length, c.vals.Texts r)
    (s : OdaOut) (views : List RowView) (wend : Writer)
    (hready : OdaReady env cap (q.select.map Prod.snd) ss ns s
      (((List.range' i us.length).filter (q.at env cs)).map (outView env (q.select.map Prod.snd) ss ns cs) ++ views) wend)
    (rest : List RowView) :
    ∃ s', OdaReady env cap (q.select.map Prod.snd) ss ns s' views wend ∧
      s'.count = s.count + ((List.range' i us.length).filter (q.at env cs)).length ∧
      odaLoop env len q ss fs s (us ++ rest) = odaLoop env len q ss fs s' rest := by
  have htl : (q.select.map Prod.snd).length = q.select.length := by simp
  have hcr : ∀ c ∈ cs, c.vals.rows = T.rows := by
    intro c hc
    obtain ⟨n, _, p, hp, _⟩ := hone.mem_left' hc
    exact hrows c (List.mem_of_getElem? hp)
  induction us generalizing i s with
  | nil => exact ⟨s, by simpa using hready, by simp, rfl⟩
  | cons u us ih =>
    simp only [List.length_cons] at hi
    obtain ⟨u1, u2⟩ := hus 0 u rfl
    have henter : odaEnter env (q.select.map Prod.snd) ss fs s u = .ok (fs, s) := by
      unfold odaEnter
      split
      · rw [u1, hfs]
        dsimp only
        rw [update_again hready (by rw [htl]; exact hdf) (by rw [htl]; exact hmax)]
      · rfl
    have hfe := fetched hfetch i (by omega)
    have hus' : ∀ (t : Nat) (u' : RowView), us[t]? = some u' → u'.cols = ks ∧ u'.cells = rowAt (T.cols.map (InCol.data env)) (i + 1 + t) := by
      intro t u' ht
      have := hus (t + 1) u' ht
      rwa [show i + (t + 1) = i + 1 + t by omega] at this
    simp only [List.cons_append, odaLoop, henter]
    rw [u2, Nat.add_zero, hfe, ← List.map_drop]
    rw [List.length_cons, List.range'_succ, List.filter_cons] at hready ⊢
    by_cases hkeep : q.at env cs i = true
    · rw [if_pos (show q.keep _ = true from hkeep)]
      rw [if_pos hkeep, List.map_cons, List.cons_append] at hready
      rw [if_pos hkeep]
      obtain ⟨s1, o1, o2, o3⟩ := putOut_ok hlen i cs (by rw [htl]; exact hl) (by rw [htl]; exact hty)
        (by intro c hc; rw [hcr c (List.mem_of_mem_take hc)]; omega)
        (by rw [htl]; exact htext i (by omega) (by simp) hkeep) (by rw [htl]; exact hle) hready
      rw [htl] at o1
      rw [o1]
      dsimp only
      obtain ⟨s', a1, a2, a3⟩ := ih (i + 1) (by omega) hus' (fun r h1 h2 => htext r (by omega) (by simp; omega)) s1 o2
      refine ⟨s', a1, ?_, a3⟩
      rw [a2, o3, List.length_cons]
      omega
    · rw [if_neg (show ¬ q.keep _ = true from hkeep)]
      rw [if_neg hkeep] at hready ⊢
      exact ih (i + 1) (by omega) hus' (fun r h1 h2 => htext r (by omega) (by simp; omega)) s hready

end Verif
