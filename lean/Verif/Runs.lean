import Verif.Pass1

/-
Consecutive tables with the same columns are copied as one.
-/

namespace Verif

/-! ### Tables on top of each other -/

/-- Specification: values of the same kind one after the other. -/
def Vals.append : Vals → Vals → Vals
  | .ints a, .ints b => .ints (a ++ b)
  | .bits m a, .bits _ b => .bits m (a ++ b)
  | .reals a, .reals b => .reals (a ++ b)
  | .doubles a, .doubles b => .doubles (a ++ b)
  | .strings w a, .strings _ b => .strings w (a ++ b)
  | a, _ => a

/-- Specification: the rows of two columns one after the other. -/
def InCol.append (a b : InCol) : InCol := ⟨a.name, a.vals.append b.vals⟩

/-- Specification: the rows of two tables one after the other. -/
def UTable.append (S T : UTable) : UTable :=
  { rows := S.rows + T.rows, props := [], cols := List.zipWith InCol.append S.cols T.cols }

/-- The values of a column are among those of `b`; strings may be in a narrower column. -/
def Vals.In : Vals → Vals → Prop
  | .ints a, .ints b => ∀ x ∈ a, x ∈ b
  | .bits m a, .bits m' b => m = m' ∧ ∀ x ∈ a, x ∈ b
  | .reals a, .reals b => ∀ x ∈ a, x ∈ b
  | .doubles a, .doubles b => ∀ x ∈ a, x ∈ b
  | .strings w a, .strings w' b => w ≤ w' ∧ ∀ x ∈ a, x ∈ b
  | _, _ => False

/-- Specification: strings fit the width of their column. -/
def Vals.Fits : Vals → Prop
  | .strings w vs => 1 ≤ w ∧ ∀ s ∈ vs, s.length ≤ 8 * w
  | _ => True

/-- The columns of the table are those of `B` (names, types, bitfield members), its values are among those of `B`. -/
def UTable.Within (T : UTable) (B : List InCol) : Prop := Match (fun c b => c.name = b.name ∧ c.vals.In b.vals) T.cols B

theorem Vals.In.ok {env : Env} {a b : Vals} (h : a.In b) (hf : a.Fits) (hb : b.Ok env) (he : env.longEnv = true → b.NoEmpty) :
    a.Ok env ∧ (env.longEnv = true → a.NoEmpty) := by
  cases a <;> cases b <;> simp only [Vals.In] at h
  case ints.ints => exact ⟨Vals.Ok.sub (b := .ints _) h hb he, fun _ => trivial⟩
  case bits.bits => exact ⟨Vals.Ok.sub (b := .bits _ _) h hb he, fun _ => trivial⟩
  case reals.reals => exact ⟨Vals.Ok.sub (b := .reals _) h hb he, fun _ => trivial⟩
  case doubles.doubles => exact ⟨Vals.Ok.sub (b := .doubles _) h hb he, fun _ => trivial⟩
  case strings.strings w vs w' vs' =>
    obtain ⟨hw, h⟩ := h
    obtain ⟨f1, f2⟩ := hf
    obtain ⟨b1, b2, b3, b4, b5, b6⟩ := hb
    have hn : env.longEnv = true → Vals.NoEmpty (.strings w vs) := fun hl h1 s hs => he hl (by omega) s (h s hs)
    refine ⟨⟨f1, by omega, fun s hs => ⟨f2 s hs, (b3 s (h s hs)).2⟩, fun ds d1 d2 => b4 ds d1 (fun s hs => h s (d2 s hs)), ?_,
      fun s hs => b6 s (h s hs)⟩, hn⟩
    intro hl h1 hne
    cases vs with
    | nil => exact absurd rfl hne
    | cons s vs => exact ⟨s, by simp, hn hl h1 s (by simp)⟩

/-- What a run of tables satisfies. -/
structure URun (B : List InCol) (U : UTable) : Prop where
  within : U.Within B
  rows : ∀ c ∈ U.cols, c.vals.rows = U.rows
  lens : ∀ c ∈ U.cols, ColLen c
  fits : ∀ c ∈ U.cols, c.vals.Fits
  few : U.cols.length < 65536
  ne : U.cols ≠ []
  pos : 0 < U.rows

theorem Match.mem_right' {α β : Type} {R : α → β → Prop} {as : List α} {bs : List β} (h : Match R as bs) {a : α} (ha : a ∈ as) :
    ∃ b ∈ bs, R a b := by
  induction h with
  | nil => simp at ha
  | cons h1 _ ih =>
    rcases List.mem_cons.mp ha with rfl | ha
    · exact ⟨_, by simp, h1⟩
    · obtain ⟨b, hb, h⟩ := ih ha
      exact ⟨b, by simp [hb], h⟩

theorem URun.ok {env : Env} {B : List InCol} {U : UTable} (h : URun B U)
    (hB : ∀ b ∈ B, b.vals.Ok env ∧ (env.longEnv = true → b.vals.NoEmpty)) (hbig : U.rows < 18446744073709551616) : U.AnyRowsOk env := by
  have key : ∀ c ∈ U.cols, c.vals.Ok env ∧ (env.longEnv = true → c.vals.NoEmpty) := by
    intro c hc
    obtain ⟨b, hb, _, h2⟩ := h.within.mem_right' hc
    exact h2.ok (h.fits c hc) (hB b hb).1 (hB b hb).2
  exact ⟨h.few, h.rows, h.lens, hbig, fun c hc => (key c hc).1, fun hl c hc => (key c hc).2 hl⟩

theorem key_parts {a b : InCol} (h : a.key = b.key) :
    a.name = b.name ∧ a.vals.ty = b.vals.ty ∧ a.vals.members = b.vals.members ∧ a.vals.words = b.vals.words := by
  simp only [InCol.key, Prod.mk.injEq] at h
  obtain ⟨h1, h2, h3, h4, h5⟩ := h
  refine ⟨h1, toInt_inj h2, ?_, h5⟩
  exact List.ext_getElem (by simpa using congrArg List.length h3) (fun i h1 h2 => Prod.ext
    (by have := congrArg (fun l => l[i]?) h3; simpa [h1, h2] using this)
    (by have := congrArg (fun l => l[i]?) h4; simpa [h1, h2] using this))

/-- Columns with the same key, put together. -/
theorem append_col (env : Env) {a b : InCol} (h : a.key = b.key) :
    (a.append b).key = a.key ∧ (a.append b).vals.rows = a.vals.rows + b.vals.rows ∧
    (a.append b).vals.cells env = a.vals.cells env ++ b.vals.cells env ∧
    (a.vals.Fits → b.vals.Fits → (a.append b).vals.Fits) ∧
    (∀ v, a.vals.In v → b.vals.In v → (a.append b).vals.In v) := by
  obtain ⟨h1, h2, h3, h4⟩ := key_parts h
  obtain ⟨an, av⟩ := a
  obtain ⟨bn, bv⟩ := b
  cases av <;> cases bv <;> simp only [Vals.ty, reduceCtorEq] at h2
  case ints.ints =>
    refine ⟨rfl, by simp [InCol.append, Vals.append, Vals.rows], by simp [InCol.append, Vals.append, Vals.cells], fun _ _ => trivial, ?_⟩
    intro v h1 h2
    cases v <;> simp only [Vals.In] at h1 h2
    intro x hx
    exact (List.mem_append.mp hx).elim (h1 x) (h2 x)
  case bits.bits =>
    refine ⟨rfl, by simp [InCol.append, Vals.append, Vals.rows], by simp [InCol.append, Vals.append, Vals.cells], fun _ _ => trivial, ?_⟩
    intro v h1 h2
    cases v <;> simp only [Vals.In] at h1 h2
    refine ⟨h1.1, ?_⟩
    intro x hx
    exact (List.mem_append.mp hx).elim (h1.2 x) (h2.2 x)
  case reals.reals =>
    refine ⟨rfl, by simp [InCol.append, Vals.append, Vals.rows], by simp [InCol.append, Vals.append, Vals.cells], fun _ _ => trivial, ?_⟩
    intro v h1 h2
    cases v <;> simp only [Vals.In] at h1 h2
    intro x hx
    exact (List.mem_append.mp hx).elim (h1 x) (h2 x)
  case doubles.doubles =>
    refine ⟨rfl, by simp [InCol.append, Vals.append, Vals.rows], by simp [InCol.append, Vals.append, Vals.cells], fun _ _ => trivial, ?_⟩
    intro v h1 h2
    cases v <;> simp only [Vals.In] at h1 h2
    intro x hx
    exact (List.mem_append.mp hx).elim (h1 x) (h2 x)
  case strings.strings w a w' b =>
    simp only [Vals.words] at h4
    subst h4
    refine ⟨rfl, by simp [InCol.append, Vals.append, Vals.rows], by simp [InCol.append, Vals.append, Vals.cells], ?_, ?_⟩
    · intro h1 h2
      exact ⟨h1.1, fun s hs => (List.mem_append.mp hs).elim (h1.2 s) (h2.2 s)⟩
    · intro v h1 h2
      cases v <;> simp only [Vals.In] at h1 h2
      refine ⟨h1.1, ?_⟩
      intro x hx
      exact (List.mem_append.mp hx).elim (h1.2 x) (h2.2 x)

theorem keys_get {as bs : List InCol} (h : as.map InCol.key = bs.map InCol.key) (p : Nat) (a b : InCol) (ha : as[p]? = some a)
    (hb : bs[p]? = some b) : a.key = b.key := by
  have := congrArg (fun l => l[p]?) h
  simpa [ha, hb] using this

theorem append_get {S T : UTable} (h : S.cols.map InCol.key = T.cols.map InCol.key) (p : Nat) (c : InCol)
    (hc : (S.append T).cols[p]? = some c) :
    ∃ a b, S.cols[p]? = some a ∧ T.cols[p]? = some b ∧ a.key = b.key ∧ c = a.append b := by
  simp only [UTable.append, List.getElem?_zipWith] at hc
  cases ha : S.cols[p]? with
  | none => simp [ha] at hc
  | some a =>
    cases hb : T.cols[p]? with
    | none => simp [ha, hb] at hc
    | some b =>
      simp only [ha, hb, Option.some.injEq] at hc
      exact ⟨a, b, rfl, rfl, keys_get h p a b ha hb, hc.symm⟩

theorem append_length {S T : UTable} (h : S.cols.map InCol.key = T.cols.map InCol.key) : (S.append T).cols.length = S.cols.length := by
  have := congrArg List.length h
  simp [UTable.append] at this ⊢
  omega

theorem append_key {S T : UTable} (h : S.cols.map InCol.key = T.cols.map InCol.key) :
    (S.append T).cols.map InCol.key = S.cols.map InCol.key := by
  apply List.ext_getElem?
  intro p
  simp only [List.getElem?_map]
  cases hc : (S.append T).cols[p]? with
  | none =>
    rw [List.getElem?_eq_none_iff, append_length h] at hc
    rw [List.getElem?_eq_none hc]
  | some c =>
    obtain ⟨a, b, h1, h2, h3, rfl⟩ := append_get h p c hc
    rw [h1]
    simp only [Option.map_some, Option.some.injEq]
    exact (append_col ⟨false, false, fun _ => [], []⟩ h3).1

theorem URun.append {B : List InCol} {S T : UTable} (hS : URun B S) (hT : URun B T) (h : S.cols.map InCol.key = T.cols.map InCol.key) :
    URun B (S.append T) := by
  have env : Env := ⟨false, false, fun _ => [], []⟩
  have hl := append_length h
  refine ⟨?_, ?_, ?_, ?_, by rw [hl]; exact hS.few, ?_, by have := hS.pos; simp [UTable.append]; omega⟩
  · apply Match.of_get _ _ (by rw [hl]; exact hS.within.length)
    intro p c b hc hb
    obtain ⟨x, y, h1, h2, h3, rfl⟩ := append_get h p c hc
    obtain ⟨e1, e2⟩ := hS.within.get p x b h1 hb
    obtain ⟨_, f2⟩ := hT.within.get p y b h2 hb
    exact ⟨e1, (append_col env h3).2.2.2.2 _ e2 f2⟩
  · intro c hc
    obtain ⟨p, hp⟩ := List.mem_iff_getElem?.mp hc
    obtain ⟨x, y, h1, h2, h3, rfl⟩ := append_get h p c hp
    rw [(append_col env h3).2.1, hS.rows x (List.mem_of_getElem? h1), hT.rows y (List.mem_of_getElem? h2)]
    rfl
  · intro c hc
    obtain ⟨p, hp⟩ := List.mem_iff_getElem?.mp hc
    obtain ⟨x, y, h1, h2, h3, rfl⟩ := append_get h p c hp
    obtain ⟨k1, _, k3, _⟩ := key_parts (append_col env h3).1
    have := hS.lens x (List.mem_of_getElem? h1)
    exact ⟨by rw [k1]; exact this.name, by rw [k3]; exact this.nbits, by rw [k3]; exact this.bits⟩
  · intro c hc
    obtain ⟨p, hp⟩ := List.mem_iff_getElem?.mp hc
    obtain ⟨x, y, h1, h2, h3, rfl⟩ := append_get h p c hp
    exact (append_col env h3).2.2.2.1 (hS.fits x (List.mem_of_getElem? h1)) (hT.fits y (List.mem_of_getElem? h2))
  · intro h0
    rw [h0] at hl
    exact hS.ne (List.length_eq_zero_iff.mp hl.symm)

theorem RowsAre.stack {env : Env} {S T : UTable} (hS : ∀ c ∈ S.cols, c.vals.rows = S.rows)
    (h : S.cols.map InCol.key = T.cols.map InCol.key) {vs us : List RowView} (hv : RowsAre env S vs) (hu : RowsAre env T us) :
    RowsAre env (S.append T) (vs ++ us) := by
  have hl := append_length h
  have hl2 : S.cols.length = T.cols.length := by simpa using congrArg List.length h
  have hcell : ∀ (r p : Nat) (a b : InCol), S.cols[p]? = some a → T.cols[p]? = some b → a.key = b.key →
      ((a.append b).vals.cells env).getD r [] =
        if r < S.rows then (a.vals.cells env).getD r [] else (b.vals.cells env).getD (r - S.rows) [] := by
    intro r p a b ha hb hk
    have hal : (a.vals.cells env).length = S.rows := by rw [Vals.cells_length, hS a (List.mem_of_getElem? ha)]
    rw [(append_col env hk).2.2.1]
    simp only [List.getD_eq_getElem?_getD]
    split
    · rw [List.getElem?_append_left (by omega)]
    · rw [List.getElem?_append_right (by omega), hal]
  have hrow : ∀ r, rowAt ((S.append T).cols.map (InCol.data env)) r =
      if r < S.rows then rowAt (S.cols.map (InCol.data env)) r else rowAt (T.cols.map (InCol.data env)) (r - S.rows) := by
    intro r
    apply List.ext_getElem?
    intro p
    by_cases hp : p < S.cols.length
    · have ha : S.cols[p]? = some S.cols[p] := List.getElem?_eq_getElem hp
      have hb : T.cols[p]? = some (T.cols[p]'(by omega)) := List.getElem?_eq_getElem _
      have hc : (S.append T).cols[p]? = some ((S.append T).cols[p]'(by omega)) := List.getElem?_eq_getElem _
      obtain ⟨a, b, h1, h2, h3, h4⟩ := append_get h p _ hc
      have hd := hcell r p a b h1 h2 h3
      split
      · rename_i hr
        rw [if_pos hr] at hd
        simp only [rowAt, List.getElem?_map, hc, h1, Option.map_some, h4, InCol.data, hd]
      · rename_i hr
        rw [if_neg hr] at hd
        simp only [rowAt, List.getElem?_map, hc, h2, Option.map_some, h4, InCol.data, hd]
    · rw [List.getElem?_eq_none (by simp [rowAt]; omega)]
      split <;> rw [List.getElem?_eq_none (by simp [rowAt]; omega)]
  refine ⟨by simp [UTable.append, hv.len, hu.len], ?_⟩
  intro r v hrv
  rw [append_key h, hrow]
  by_cases hr : r < S.rows
  · rw [if_pos hr]
    rw [List.getElem?_append_left (by rw [hv.len]; exact hr)] at hrv
    exact hv.row r v hrv
  · rw [if_neg hr]
    rw [List.getElem?_append_right (by rw [hv.len]; omega), hv.len] at hrv
    rw [h]
    exact hu.row _ v hrv

theorem RowsAre.append {env : Env} {B : List InCol} {S T : UTable} (hS : URun B S) (_hT : URun B T)
    (h : S.cols.map InCol.key = T.cols.map InCol.key) {vs us : List RowView} (hv : RowsAre env S vs) (hu : RowsAre env T us) :
    RowsAre env (S.append T) (vs ++ us) := hv.stack hS.rows h hu

/-- One row of the whole is a row of a part. -/
theorem append_gives (env : Env) {a b : InCol} (h : a.key = b.key) (r : Nat) (y : Cell)
    (hg : ((a.append b).vals.part r 1).Gives env 0 y) :
    if r < a.vals.rows then (a.vals.part r 1).Gives env 0 y else (b.vals.part (r - a.vals.rows) 1).Gives env 0 y := by
  obtain ⟨h1, h2, h3, h4⟩ := key_parts h
  obtain ⟨an, av⟩ := a
  obtain ⟨bn, bv⟩ := b
  have key : ∀ {α : Type} (x y : List α), ((x ++ y).drop r).take 1 = if r < x.length then (x.drop r).take 1 else (y.drop (r - x.length)).take 1 := by
    intro α x y
    split
    · rename_i hr
      rw [List.drop_append_of_le_length (by omega), List.take_append_of_le_length (by simp; omega)]
    · rename_i hr
      rw [List.drop_append, List.drop_eq_nil_of_le (by omega), List.nil_append]
  by_cases hr : r < av.rows
  all_goals
    first | rw [if_pos hr] | rw [if_neg hr]
    cases av <;> cases bv <;> simp only [Vals.ty, reduceCtorEq] at h2
    all_goals
      simp only [Vals.rows] at hr
      simp only [InCol.append, Vals.append, Vals.part, key, hr, if_true, if_false] at hg
      exact hg

theorem append_missing {a b : InCol} (h : a.key = b.key) (r : Nat) :
    (a.append b).vals.isMissing r = if r < a.vals.rows then a.vals.isMissing r else b.vals.isMissing (r - a.vals.rows) := by
  obtain ⟨h1, h2, h3, h4⟩ := key_parts h
  obtain ⟨an, av⟩ := a
  obtain ⟨bn, bv⟩ := b
  by_cases hr : r < av.rows
  all_goals
    first | rw [if_pos hr] | rw [if_neg hr]
    cases av <;> cases bv <;> simp only [Vals.ty, reduceCtorEq] at h2
    all_goals
      simp only [Vals.rows] at hr
      simp only [InCol.append, Vals.append, Vals.isMissing, Vals.rows]
      try first | (rw [List.getElem?_append_left hr]; done) | (rw [List.getElem?_append_right (by omega)]; done) | (rw [List.getElem?_append_left hr]; rfl) | (rw [List.getElem?_append_right (by omega)]; rfl)

theorem IsRow.append {env : Env} {B : List InCol} {S T : UTable} (hS : URun B S)
    (h : S.cols.map InCol.key = T.cols.map InCol.key) {r : Nat} {v : RowView} (hv : IsRow env (S.append T) r v) :
    if r < S.rows then IsRow env S r v else IsRow env T (r - S.rows) v := by
  have hl := append_length h
  have hl2 : S.cols.length = T.cols.length := by simpa using congrArg List.length h
  have get : ∀ (p : Nat), p < S.cols.length → ∃ a b, S.cols[p]? = some a ∧ T.cols[p]? = some b ∧ a.key = b.key ∧
      (S.append T).cols[p]? = some (a.append b) := by
    intro p hp
    have hc : (S.append T).cols[p]? = some ((S.append T).cols[p]'(by omega)) := List.getElem?_eq_getElem _
    obtain ⟨a, b, h1, h2, h3, h4⟩ := append_get h p _ hc
    exact ⟨a, b, h1, h2, h3, by rw [hc, h4]⟩
  split
  · rename_i hr
    refine ⟨by rw [hv.ncols, hl], by rw [hv.ncells, hl], ?_, ?_, hv.wide, ?_⟩
    on_goal 3 =>
      intro had p c k hp hk
      obtain ⟨a, b, h1, h2, h3, h4⟩ := get p (List.getElem?_eq_some_iff.mp hp).1
      rw [h1] at hp
      simp only [Option.some.injEq] at hp
      subst hp
      obtain ⟨_, k2, _⟩ := key_parts (append_col env h3).1
      rw [hv.mdi had p _ k h4 hk, Vals.mdi_ty env k2]
    rotate_left
    · intro p c hp
      obtain ⟨a, b, h1, h2, h3, h4⟩ := get p (List.getElem?_eq_some_iff.mp hp).1
      rw [h1] at hp
      simp only [Option.some.injEq] at hp
      subst hp
      rw [hv.missing p _ h4, append_missing h3 r, hS.rows a (List.mem_of_getElem? h1), if_pos hr]
    intro p c hp
    obtain ⟨a, b, h1, h2, h3, h4⟩ := get p (List.getElem?_eq_some_iff.mp hp).1
    rw [h1] at hp
    simp only [Option.some.injEq] at hp
    subst hp
    obtain ⟨k, y, e1, e2, e3, e4, e5, e6, e7⟩ := hv.col p _ h4
    obtain ⟨k1, k2, k3, _⟩ := key_parts (append_col env h3).1
    have := append_gives env h3 r y e7
    rw [hS.rows a (List.mem_of_getElem? h1), if_pos hr] at this
    exact ⟨k, y, e1, by rw [e2, k1], by rw [e3, k2], by rw [e4, k3], by rw [e5, k3], e6, this⟩
  · rename_i hr
    refine ⟨by rw [hv.ncols, hl, hl2], by rw [hv.ncells, hl, hl2], ?_, ?_, hv.wide, ?_⟩
    on_goal 3 =>
      intro had p c k hp hk
      have hlt := (List.getElem?_eq_some_iff.mp hp).1
      obtain ⟨a, b, h1, h2, h3, h4⟩ := get p (by omega)
      rw [h2] at hp
      simp only [Option.some.injEq] at hp
      subst hp
      obtain ⟨_, k2, _⟩ := key_parts ((append_col env h3).1.trans h3)
      rw [hv.mdi had p _ k h4 hk, Vals.mdi_ty env k2]
    rotate_left
    · intro p c hp
      have hlt := (List.getElem?_eq_some_iff.mp hp).1
      obtain ⟨a, b, h1, h2, h3, h4⟩ := get p (by omega)
      rw [h2] at hp
      simp only [Option.some.injEq] at hp
      subst hp
      rw [hv.missing p _ h4, append_missing h3 r, hS.rows a (List.mem_of_getElem? h1), if_neg hr]
    intro p c hp
    have hlt := (List.getElem?_eq_some_iff.mp hp).1
    obtain ⟨a, b, h1, h2, h3, h4⟩ := get p (by omega)
    rw [h2] at hp
    simp only [Option.some.injEq] at hp
    subst hp
    obtain ⟨k, y, e1, e2, e3, e4, e5, e6, e7⟩ := hv.col p _ h4
    obtain ⟨k1, k2, k3, _⟩ := key_parts ((append_col env h3).1.trans h3)
    have := append_gives env h3 r y e7
    rw [hS.rows a (List.mem_of_getElem? h1), if_neg hr] at this
    exact ⟨k, y, e1, by rw [e2, k1], by rw [e3, k2], by rw [e4, k3], by rw [e5, k3], e6, this⟩

/-! ### Runs -/

/-- Names and types of columns. -/
def nameTypes (cs : List InCol) : List (Str × ColType) := cs.map (fun c => (c.name, c.vals.ty))

/-- Consecutive tables either belong together or differ in the names or types of their columns. -/
def Grouped : List (List InCol × UTable) → Prop
  | [] => True
  | [_] => True
  | p :: q :: ps => (p.1 = q.1 ∨ nameTypes p.1 ≠ nameTypes q.1) ∧ Grouped (q :: ps)

theorem Vals.In.ty {a b : Vals} (h : a.In b) : a.ty = b.ty ∧ a.members = b.members := by
  cases a <;> cases b <;> simp_all [Vals.In, Vals.ty, Vals.members]

theorem UTable.Within.nameTypes {T : UTable} {B : List InCol} (h : T.Within B) : nameTypes T.cols = nameTypes B := by
  unfold UTable.Within at h
  unfold Verif.nameTypes
  generalize T.cols = cs at h
  induction h with
  | nil => rfl
  | cons h _ ih => simp only [List.map_cons, ih, h.1, h.2.ty.1]

theorem other_of_types {S T : UTable} (h : nameTypes S.cols ≠ nameTypes T.cols) : S.OtherShape T := by
  intro h'
  apply h
  have := congrArg (List.map (fun t : Str × ColType × Nat => (t.1, t.2.1))) h'
  simpa [nameTypes, Function.comp_def] using this

/-- Two tables of a group have the same columns or differ in a width. -/
theorem same_or_other {B : List InCol} {S T : UTable} (hS : S.Within B) (hT : T.Within B) :
    S.cols.map InCol.key = T.cols.map InCol.key ∨ S.OtherShape T := by
  by_cases h : S.cols.map (fun c => (c.name, c.vals.ty, c.vals.words)) = T.cols.map (fun c => (c.name, c.vals.ty, c.vals.words))
  · left
    apply List.ext_getElem?
    intro p
    have hlS := hS.length
    have hlT := hT.length
    by_cases hp : p < S.cols.length
    · have ha : S.cols[p]? = some S.cols[p] := List.getElem?_eq_getElem hp
      have hb : T.cols[p]? = some (T.cols[p]'(by omega)) := List.getElem?_eq_getElem _
      have hB : B[p]? = some (B[p]'(by omega)) := List.getElem?_eq_getElem _
      generalize S.cols[p] = a at ha
      generalize T.cols[p]'(by omega) = b at hb
      obtain ⟨e1, e2⟩ := hS.get p _ _ ha hB
      obtain ⟨f1, f2⟩ := hT.get p _ _ hb hB
      have hw := congrArg (fun l => l[p]?) h
      simp only [List.getElem?_map, ha, hb, Option.map_some, Option.some.injEq, Prod.mk.injEq] at hw
      simp only [List.getElem?_map, ha, hb, Option.map_some, Option.some.injEq, InCol.key, Prod.mk.injEq]
      refine ⟨hw.1, by rw [hw.2.1], ?_, ?_, hw.2.2⟩
      · rw [e2.ty.2, f2.ty.2]
      · rw [e2.ty.2, f2.ty.2]
    · rw [List.getElem?_eq_none (by simp; omega), List.getElem?_eq_none (by simp; omega)]
  · exact Or.inr h

theorem key_other {S U T : UTable} (h : S.cols.map InCol.key = U.cols.map InCol.key) (ho : U.OtherShape T) : S.OtherShape T := by
  intro h'
  apply ho
  rw [← h']
  apply List.ext_getElem?
  intro p
  have hl : S.cols.length = U.cols.length := by simpa using congrArg List.length h
  simp only [List.getElem?_map]
  by_cases hp : p < S.cols.length
  · have ha : S.cols[p]? = some S.cols[p] := List.getElem?_eq_getElem hp
    have hb : U.cols[p]? = some (U.cols[p]'(by omega)) := List.getElem?_eq_getElem _
    obtain ⟨k1, k2, _, k4⟩ := key_parts (keys_get h p _ _ ha hb)
    rw [ha, hb]
    simp [k1, k2, k4]
  · rw [List.getElem?_eq_none (by omega), List.getElem?_eq_none (by omega)]

theorem RowsOfTables.prepend {env : Env} {B : List InCol} {S U : UTable} (hS : URun B S) (hU : URun B U)
    (hk : S.cols.map InCol.key = U.cols.map InCol.key) {vs : List RowView} (hv : RowsAre env S vs) {Us : List UTable}
    {us : List RowView} (h : RowsOfTables env (U :: Us) us) : RowsOfTables env (S.append U :: Us) (vs ++ us) := by
  generalize hX : U :: Us = X at h
  cases h with
  | last h =>
    simp only [List.cons.injEq] at hX
    obtain ⟨rfl, rfl⟩ := hX
    exact .last (RowsAre.append hS hU hk hv h)
  | more h ho hf hr =>
    simp only [List.cons.injEq] at hX
    obtain ⟨rfl, rfl⟩ := hX
    rw [← List.append_assoc]
    exact .more (RowsAre.append hS hU hk hv h) (key_other (append_key hk |>.trans hk) ho) hf hr

/-- The rows of a table on top of another. -/
theorem rows_append {env : Env} {B : List InCol} {S U : UTable} (hS : URun B S) (hk : S.cols.map InCol.key = U.cols.map InCol.key)
    {Us : List UTable} {views : List RowView} (h : Match (IsRowAt env) (allRows (S.append U :: Us)) views) :
    Match (IsRowAt env) (allRows (S :: U :: Us)) views := by
  have e1 : allRows (S.append U :: Us) = (List.range (S.rows + U.rows)).map (fun j => (S.append U, j)) ++ allRows Us := by simp [allRows, UTable.append]
  have e2 : allRows (S :: U :: Us) = ((List.range S.rows).map (fun j => (S, j)) ++ (List.range U.rows).map (fun j => (U, j))) ++ allRows Us := by
    simp [allRows]
  have hlen := h.length
  apply Match.of_get
  · rw [e1] at hlen
    rw [e2, ← hlen]
    simp; omega
  · intro i x v hx hv
    have hi : i < (allRows (S.append U :: Us)).length := by
      rw [hlen]; exact (List.getElem?_eq_some_iff.mp hv).1
    have hR := h.get i _ v (List.getElem?_eq_getElem hi) hv
    have hz : (allRows (S.append U :: Us))[i]? = some (allRows (S.append U :: Us))[i] := List.getElem?_eq_getElem hi
    generalize (allRows (S.append U :: Us))[i] = z at hR hz
    rw [e1] at hz
    rw [e2] at hx
    by_cases h1 : i < S.rows + U.rows
    · rw [List.getElem?_append_left (by simpa using h1)] at hz hx
      · rw [List.getElem?_map, List.getElem?_range h1] at hz
        simp only [Option.map_some, Option.some.injEq] at hz
        subst hz
        have := IsRow.append hS hk hR
        by_cases h2 : i < S.rows
        · rw [if_pos h2] at this
          rw [List.getElem?_append_left (by simpa using h2), List.getElem?_map, List.getElem?_range h2] at hx
          simp only [Option.map_some, Option.some.injEq] at hx
          subst hx
          exact this
        · rw [if_neg h2] at this
          rw [List.getElem?_append_right (by simp; omega), List.getElem?_map, List.length_map, List.length_range,
            List.getElem?_range (by omega)] at hx
          simp only [Option.map_some, Option.some.injEq] at hx
          subst hx
          exact this
    · rw [List.getElem?_append_right (by simp; omega)] at hz hx
      simp only [List.length_append, List.length_map, List.length_range] at hz hx
      rw [hz] at hx
      simp only [Option.some.injEq] at hx
      subst hx
      exact hR

theorem rows_split {env : Env} {S : UTable} {Us : List UTable} {views : List RowView} (h : Match (IsRowAt env) (allRows (S :: Us)) views) :
    ∃ va vb, views = va ++ vb ∧ Match (IsRowAt env) (allRows [S]) va ∧ Match (IsRowAt env) (allRows Us) vb := by
  rw [show allRows (S :: Us) = allRows [S] ++ allRows Us by simp [allRows]] at h
  generalize allRows [S] = xs at h
  induction xs generalizing views with
  | nil => exact ⟨[], views, rfl, .nil, h⟩
  | cons x xs ih =>
    cases h with
    | cons h1 h2 =>
      obtain ⟨va, vb, rfl, a, b⟩ := ih h2
      exact ⟨_ :: va, vb, rfl, .cons h1 a, b⟩

/-- The tables as the writer sees them: consecutive tables with the same columns count as one. -/
theorem runs (env : Env) (Ps : List (List InCol × UTable)) (vss : List (List RowView)) (hne : Ps ≠ [])
    (hm : Match (fun p vs => RowsAre env p.2 vs) Ps vss) (hrun : ∀ p ∈ Ps, URun p.1 p.2) (hg : Grouped Ps)
    (hfr : ∀ vs ∈ vss.tail, ∀ u, vs.head? = some u → u.fresh = true) :
    ∃ U Us, RowsOfTables env (U :: Us) vss.flatten ∧
      (∀ p, Ps.head? = some p → URun p.1 U ∧ U.cols.map InCol.key = p.2.cols.map InCol.key) ∧
      (∀ V ∈ U :: Us, ∃ p ∈ Ps, URun p.1 V ∧ V.rows ≤ (Ps.map (fun p => p.2.rows)).sum) ∧
      ∀ (views : List RowView), Match (IsRowAt env) (allRows (U :: Us)) views → Match (IsRowAt env) (allRows (Ps.map Prod.snd)) views := by
  induction hm with
  | nil => exact absurd rfl hne
  | @cons p vs Ps vss h hm ih =>
    have hp := hrun p (by simp)
    cases Ps with
    | nil =>
      cases hm
      refine ⟨p.2, [], by simpa using RowsOfTables.last h, ?_, ?_, ?_⟩
      · intro q hq
        simp only [List.head?_cons, Option.some.injEq] at hq
        subst hq
        exact ⟨hp, rfl⟩
      · intro V hV
        simp only [List.mem_singleton] at hV
        subst hV
        exact ⟨p, by simp, hp, by simp⟩
      · intro views hv
        simpa using hv
    | cons q Ps =>
      cases hm with
      | @cons _ us _ uss hu hm =>
      obtain ⟨U, Us, a1, a2, a3, a4⟩ := ih (by simp) (fun p hp => hrun p (List.mem_cons_of_mem _ hp)) hg.2
        (fun vs hvs => hfr vs (by simp; exact Or.inr (by simpa using hvs)))
      obtain ⟨b1, b2⟩ := a2 q rfl
      have hother : p.2.cols.map InCol.key = U.cols.map InCol.key ∧ p.1 = q.1 ∨ p.2.OtherShape U := by
        rcases hg.1 with h1 | h1
        · have hU : URun p.1 U := by rw [h1]; exact b1
          rcases same_or_other hp.within hU.within with h2 | h2
          · exact Or.inl ⟨h2, h1⟩
          · exact Or.inr h2
        · right
          apply other_of_types
          rw [hp.within.nameTypes, b1.within.nameTypes]
          exact h1
      have hq := (hrun q (by simp)).pos
      rcases hother with ⟨hk, hB⟩ | ho
      · -- the same columns
        have hU : URun p.1 U := by rw [hB]; exact b1
        refine ⟨p.2.append U, Us, ?_, ?_, ?_, ?_⟩
        · rw [List.flatten_cons]
          exact a1.prepend hp hU hk h
        · intro q' hq'
          simp only [List.head?_cons, Option.some.injEq] at hq'
          subst hq'
          exact ⟨hp.append hU hk, append_key hk⟩
        · intro V hV
          rcases List.mem_cons.mp hV with rfl | hV
          · obtain ⟨p', _, _, hr⟩ := a3 U (by simp)
            exact ⟨p, by simp, hp.append hU hk, by simp only [List.map_cons, List.sum_cons, UTable.append] at hr ⊢; omega⟩
          · obtain ⟨p', h1, h2, h3⟩ := a3 V (by simp [hV])
            exact ⟨p', List.mem_cons_of_mem _ h1, h2, by rw [List.map_cons, List.sum_cons]; omega⟩
        · intro views hv
          obtain ⟨va, vb, rfl, m1, m2⟩ := rows_split (Us := U :: Us) (rows_append hp hk hv)
          rw [List.map_cons, show allRows (p.2 :: (q :: Ps).map Prod.snd) = allRows [p.2] ++ allRows ((q :: Ps).map Prod.snd) by simp [allRows]]
          exact m1.append (a4 vb m2)
      · refine ⟨p.2, U :: Us, ?_, ?_, ?_, ?_⟩
        · rw [List.flatten_cons]
          apply RowsOfTables.more h ho _ a1
          intro u huu
          apply hfr us (by simp) u
          obtain ⟨x, xs, rfl, _⟩ := RowsAre.head hu hq
          simpa using huu
        · intro q' hq'
          simp only [List.head?_cons, Option.some.injEq] at hq'
          subst hq'
          exact ⟨hp, rfl⟩
        · intro V hV
          rcases List.mem_cons.mp hV with rfl | hV
          · exact ⟨p, by simp, hp, by rw [List.map_cons, List.sum_cons]; omega⟩
          · obtain ⟨p', h1, h2, h3⟩ := a3 V hV
            exact ⟨p', List.mem_cons_of_mem _ h1, h2, by rw [List.map_cons, List.sum_cons]; omega⟩
        · intro views hv
          obtain ⟨va, vb, rfl, m1, m2⟩ := rows_split (Us := U :: Us) hv
          rw [List.map_cons, show allRows (p.2 :: (q :: Ps).map Prod.snd) = allRows [p.2] ++ allRows ((q :: Ps).map Prod.snd) by simp [allRows]]
          exact m1.append (a4 vb m2)

end Verif
