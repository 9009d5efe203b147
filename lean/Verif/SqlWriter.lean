import Verif.SqlOut

/-!
The writer behind `odc sql -o file`: a writer that is told of wider strings writes the same frames as `pass1` on rows with the wider columns.
-/

namespace Verif

/-! ### Columns as they are declared -/

/-- Proof device: what is declared of a column. -/
structure DCol where
  name : Str
  ty : ColType
  bits : List (Str × Int)
  words : Nat

/-- Proof device: the codec a declared column starts with. -/
def DCol.start (env : Env) (d : DCol) : Codec :=
  match startCodec d.ty env.asDbl d.words none with
  | .ok k => k
  | .error _ => Verif.fresh .chars 3 true

/-- Proof device: the column before the first row. -/
def DCol.fresh (env : Env) (d : DCol) : WCol := ⟨d.name, d.ty, d.bits, some (d.start env)⟩

/-- Proof device: a column that can be declared. -/
structure DCol.Ok (env : Env) (d : DCol) : Prop where
  start : startCodec d.ty env.asDbl d.words none = .ok (d.start env)
  missing : ∃ m, (d.start env).missingWord = .ok m
  ne : d.ty ≠ .ignore

/-- Proof device: what is declared of a column of the writer. -/
def WCol.decl (c : WCol) : Str × ColType × List (Str × Int) × Option Nat := (c.name, c.ty, c.bits, c.codec.map Codec.width)

/-- Proof device: the same of a declared column. -/
def DCol.decl (d : DCol) : Str × ColType × List (Str × Int) × Option Nat := (d.name, d.ty, d.bits, some d.words)

/-- Proof device: what is compared of a column. -/
def DCol.key (d : DCol) : Str × Int × List Str × List Int × Nat := (d.name, d.ty.toInt, d.bits.map Prod.fst, d.bits.map Prod.snd, d.words)

/-- Proof device: doubles per row. -/
def wordsIn (ds : List DCol) : Nat := (ds.map DCol.words).sum

theorem DCol.Ok.width {env : Env} {d : DCol} (h : d.Ok env) : (d.start env).width = d.words := (startCodec_pres h.start).1

theorem DCol.Ok.one {env : Env} {d : DCol} (h : d.Ok env) (ht : d.ty ≠ .string) : d.words = 1 := (startCodec_pres h.start).2.1 ht

theorem fresh_decl {env : Env} {ds : List DCol} (h : ∀ d ∈ ds, d.Ok env) : (ds.map (DCol.fresh env)).map WCol.decl = ds.map DCol.decl := by
  rw [List.map_map]
  apply List.map_congr_left
  intro d hd
  simp [WCol.decl, DCol.fresh, DCol.decl, (h d hd).width]

theorem decl_shape {env : Env} {cols : List WCol} {ds : List DCol} (h : cols.map WCol.decl = ds.map DCol.decl) (hd : ∀ d ∈ ds, d.Ok env) :
    ColShape (ds.map DCol.words) cols := by
  induction ds generalizing cols with
  | nil => cases cols with
    | nil => exact .nil
    | cons _ _ => simp at h
  | cons d ds ih =>
    cases cols with
    | nil => simp at h
    | cons c cols =>
      simp only [List.map_cons, List.cons.injEq, WCol.decl, DCol.decl, Prod.mk.injEq] at h
      obtain ⟨⟨h1, h2, h3, h4⟩, h5⟩ := h
      have hok := hd d (by simp)
      refine .cons ?_ (ih h5 (fun d hd' => hd d (by simp [hd'])))
      cases hc : c.codec with
      | none => rw [hc] at h4; simp at h4
      | some k =>
        rw [hc] at h4
        simp only [Option.map_some, Option.some.injEq] at h4
        exact ⟨k, rfl, h4, by rw [h2]; exact hok.ne, fun ht => hok.one (by rw [← h2]; exact ht)⟩

theorem decl_set {cols : List WCol} {ds : List DCol} (h : cols.map WCol.decl = ds.map DCol.decl) (cs : List Codec)
    (hc : cs.map Codec.width = ds.map DCol.words) : (setCoders cols cs).map WCol.decl = ds.map DCol.decl := by
  induction ds generalizing cols cs with
  | nil => cases cols with
    | nil => simp [setCoders]
    | cons _ _ => simp at h
  | cons d ds ih =>
    cases cols with
    | nil => simp at h
    | cons c cols =>
      cases cs with
      | nil => simp at hc
      | cons k cs =>
        simp only [List.map_cons, List.cons.injEq, WCol.decl, DCol.decl, Prod.mk.injEq] at h hc
        obtain ⟨⟨h1, h2, h3, h4⟩, h5⟩ := h
        simp only [setCoders, List.zipWith_cons_cons, List.map_cons, List.cons.injEq]
        refine ⟨by simp [WCol.decl, DCol.decl, h1, h2, h3, hc.1], ih h5 cs hc.2⟩

theorem set_fresh {env : Env} {cols : List WCol} {ds : List DCol} (h : cols.map WCol.decl = ds.map DCol.decl) :
    setCoders cols (ds.map (DCol.start env)) = ds.map (DCol.fresh env) := by
  induction ds generalizing cols with
  | nil => simp [setCoders]
  | cons d ds ih =>
    cases cols with
    | nil => simp at h
    | cons c cols =>
      simp only [List.map_cons, List.cons.injEq, WCol.decl, DCol.decl, Prod.mk.injEq] at h
      obtain ⟨⟨h1, h2, h3, h4⟩, h5⟩ := h
      simp only [setCoders, List.map_cons, List.zipWith_cons_cons, List.cons.injEq]
      refine ⟨by simp [DCol.fresh, h1, h2, h3], ih h5⟩

theorem resetAll_fresh {env : Env} {cols : List WCol} {ds : List DCol} (h : cols.map WCol.decl = ds.map DCol.decl) (hd : ∀ d ∈ ds, d.Ok env)
    {opt : List Codec} (ho : opt.map Codec.width = ds.map DCol.words) : resetAll env cols opt = .ok (ds.map (DCol.start env)) := by
  induction ds generalizing cols opt with
  | nil =>
    cases cols with
    | nil => rfl
    | cons _ _ => simp at h
  | cons d ds ih =>
    cases cols with
    | nil => simp at h
    | cons c cols =>
      cases opt with
      | nil => simp at ho
      | cons k opt =>
        simp only [List.map_cons, List.cons.injEq, WCol.decl, DCol.decl, Prod.mk.injEq] at h ho
        obtain ⟨⟨h1, h2, h3, h4⟩, h5⟩ := h
        simp only [resetAll, List.map_cons]
        rw [h2, ho.1, resetCodec_start (hd d (by simp)).start]
        dsimp only
        rw [ih h5 (fun d hd' => hd d (by simp [hd'])) ho.2]

theorem fresh_coders (env : Env) (ds : List DCol) : coders (ds.map (DCol.fresh env)) = some (ds.map (DCol.start env)) := by
  induction ds with
  | nil => rfl
  | cons d ds ih => simp [coders, ih, DCol.fresh]

theorem fresh_words {env : Env} {ds : List DCol} (hd : ∀ d ∈ ds, d.Ok env) : rowWords (ds.map (DCol.start env)) = wordsIn ds := by
  unfold rowWords wordsIn
  rw [List.map_map]
  congr 1
  apply List.map_congr_left
  intro d h
  exact (hd d h).width

theorem fresh_row {env : Env} {ds : List DCol} (hd : ∀ d ∈ ds, d.Ok env) : ∃ l, initRow (ds.map (DCol.start env)) = .ok l ∧ l.length = ds.length := by
  induction ds with
  | nil => exact ⟨[], rfl, rfl⟩
  | cons d ds ih =>
    obtain ⟨l, h1, h2⟩ := ih (fun d hd' => hd d (by simp [hd']))
    obtain ⟨m, hm⟩ := (hd d (by simp)).missing
    refine ⟨(m :: List.replicate ((d.start env).width - 1) 0) :: l, ?_, by simp [h2]⟩
    simp only [List.map_cons, initRow, initCell, hm, h1]

theorem fresh_reset {env : Env} {ds : List DCol} (hd : ∀ d ∈ ds, d.Ok env) :
    setCoders (ds.map (DCol.fresh env)) ((ds.map (DCol.start env)).map Codec.resetStats) = ds.map (DCol.fresh env) := by
  have : (ds.map (DCol.start env)).map Codec.resetStats = ds.map (DCol.start env) := by
    rw [List.map_map]
    apply List.map_congr_left
    intro d h
    exact startCodec_reset (hd d h).start
  rw [this]
  exact set_fresh (fresh_decl hd)

/-! ### States of the writer -/

/-- Proof device: a writer in use. -/
structure Mid (env : Env) (cap : Nat) (ds : List DCol) (w : Writer) : Prop where
  decl : w.cols.map WCol.decl = ds.map DCol.decl
  inited : w.inited = true
  cap : w.cap = cap
  props : w.props = []
  alloc : w.alloc = some (wordsIn ds)
  none : w.rows = [] → w.cols = ds.map (DCol.fresh env)

theorem flush_mid {env : Env} {cap : Nat} {ds : List DCol} (hd : ∀ d ∈ ds, d.Ok env) {w w' : Writer} {o : Order} (hm : w.cols.map WCol.decl = ds.map DCol.decl)
    (hi : w.inited = true) (hc : w.cap = cap) (hp : w.props = []) (ha : w.alloc = some (wordsIn ds)) (hr : w.rows ≠ []) (hf : w.flush env o = .ok w') :
    Mid env cap ds w' ∧ w'.rows = [] ∧ w'.cols = ds.map (DCol.fresh env) ∧ w'.cur.length = ds.length ∧
      ∀ x, ({ w with cur := x } : Writer).flush env o = .ok w' := by
  have hs := decl_shape hm hd
  obtain ⟨cs, c1, c2, c3⟩ := hs.coders
  unfold Writer.flush at hf ⊢
  dsimp only
  rw [if_neg (by simp [hi]), ha] at hf
  dsimp only at hf
  rw [if_neg hr, c1] at hf
  dsimp only at hf
  cases ho : optimiseAll env w.cols cs with
  | error e => rw [ho] at hf; simp at hf
  | ok opt =>
    rw [ho] at hf
    dsimp only at hf
    have hwid := optimiseAll_widths hs c2 ho
    cases he : encRows o opt (some w.last) w.rows with
    | error e => rw [he] at hf; simp at hf
    | ok bs =>
      rw [he] at hf
      dsimp only at hf
      split at hf
      · simp at hf
      rename_i hb
      rw [resetAll_fresh hm hd hwid] at hf
      cases hl : initRow opt with
      | error e => rw [hl] at hf; simp at hf
      | ok l =>
        rw [hl] at hf
        simp only [Except.ok.injEq] at hf
        have hcols : w'.cols = ds.map (DCol.fresh env) := by rw [← hf]; exact set_fresh hm
        have hlen : l.length = ds.length := by
          have := (initRow_shape hl).length
          rw [hwid] at this
          simpa using this
        refine ⟨⟨by rw [hcols]; exact fresh_decl hd, by subst hf; exact hi, by subst hf; exact hc, by subst hf; exact hp, by subst hf; rfl, fun _ => hcols⟩,
          by subst hf; rfl, hcols, by subst hf; exact hlen, ?_⟩
        intro x
        rw [if_neg (by simp [hi]), ha]
        dsimp only
        rw [if_neg hr, c1]
        dsimp only
        rw [ho]
        dsimp only
        rw [he]
        dsimp only
        rw [if_neg hb, hl, resetAll_fresh hm hd hwid, ← hf]

theorem flush_idle {env : Env} {o : Order} {w : Writer} (hi : w.inited = true) (hr : w.rows = []) : w.flush env o = .ok w := by
  unfold Writer.flush
  rw [if_neg (by simp [hi])]
  cases w.alloc with
  | none => rfl
  | some a => exact if_pos hr

/-- Writing a row does not depend on the row being filled in, nor on whether the buffer has been allocated. -/
theorem writeRow_mid {env : Env} {cap : Nat} {ds : List DCol} (hd : ∀ d ∈ ds, d.Ok env) {w w' : Writer} (hm : Mid env cap ds w) {o : Order} {row : List Cell}
    (hw : w.writeRow env o row = .ok w') {v : Writer} (hv : v = { w with cur := v.cur, alloc := v.alloc }) (ha : v.alloc = none ∨ v.alloc = w.alloc)
    (hl : v.cur.length = ds.length) :
    Mid env cap ds w' ∧ ∃ v', v.writeRow env o row = .ok v' ∧ v' = { w' with cur := v'.cur } ∧ v'.cur.length = ds.length := by
  have hs := decl_shape hm.decl hd
  obtain ⟨cs, c1, c2, c3⟩ := hs.coders
  have hrw : rowWords cs = wordsIn ds := by unfold rowWords wordsIn; rw [c2]
  have hal : v.alloc.getD (rowWords cs) = wordsIn ds := by
    rcases ha with h | h
    · rw [h, hrw]; rfl
    · rw [h, hm.alloc]; rfl
  unfold Writer.writeRow at hw ⊢
  rw [hv]
  dsimp only
  split at hw
  · simp at hw
  rename_i h1
  rw [if_neg h1]
  rw [if_neg (by simp [hm.inited]), c1] at hw
  rw [if_neg (by simp [hm.inited]), c1]
  dsimp only at hw ⊢
  split at hw
  · simp at hw
  rename_i h3
  rw [if_neg h3]
  rw [hm.alloc] at hw
  simp only [Option.getD_some] at hw
  rw [if_neg (by omega)] at hw
  rw [hal, if_neg (by omega)]
  have hlen : row.length = cs.length := by
    have : row.map List.length = cs.map Codec.width := by
      by_contra hne; exact h3 (.inl hne)
    simpa using congrArg List.length this
  have hdecl := decl_set hm.decl (List.zipWith Codec.gather cs row) (by rw [gather_widths cs row hlen, c2])
  split at hw
  · rename_i h5
    rw [if_pos h5]
    obtain ⟨a1, a2, a3, a4, a5⟩ := flush_mid (w := { w with
      alloc := some (wordsIn ds), cols := setCoders w.cols (List.zipWith Codec.gather cs row), rows := w.rows ++ [row] }) hd hdecl hm.inited hm.cap hm.props rfl
      (by simp) hw
    exact ⟨a1, w', a5 v.cur, rfl, a4⟩
  · rename_i h5
    rw [if_neg h5]
    simp only [Except.ok.injEq] at hw
    subst hw
    exact ⟨⟨hdecl, hm.inited, hm.cap, hm.props, rfl, fun h => by simp at h⟩, _, rfl, rfl, hl⟩

/-- Proof device: a writer that has been told its columns, and no rows since. -/
structure Opened (env : Env) (cap : Nat) (ds : List DCol) (x : List (List Byte)) (w : Writer) : Prop where
  cols : w.cols = ds.map (DCol.fresh env)
  inited : w.inited = true
  cap : w.cap = cap
  props : w.props = []
  alloc : w.alloc = none ∨ w.alloc = some (wordsIn ds)
  rows : w.rows = []
  last : initRow (ds.map (DCol.start env)) = .ok w.last
  out : w.out = x

theorem Opened.mid {env : Env} {cap : Nat} {ds : List DCol} (hd : ∀ d ∈ ds, d.Ok env) {x : List (List Byte)} {w : Writer} (h : Opened env cap ds x w)
    (ha : w.alloc = some (wordsIn ds)) : Mid env cap ds w :=
  ⟨by rw [h.cols]; exact fresh_decl hd, h.inited, h.cap, h.props, ha, fun _ => h.cols⟩

theorem writeHeader_open {env : Env} {cap : Nat} {ds : List DCol} (hd : ∀ d ∈ ds, d.Ok env) {w : Writer} (h1 : w.cols = ds.map (DCol.fresh env))
    (h2 : w.cap = cap) (h3 : w.props = []) (h4 : ∀ a, w.alloc = some a → a ≤ wordsIn ds) (h5 : w.rows = []) :
    ∃ w', w.writeHeader = .ok w' ∧ Opened env cap ds w.out w' ∧ w'.cur.length = ds.length ∧
      (w.alloc = some (wordsIn ds) → w'.alloc = some (wordsIn ds)) := by
  obtain ⟨l, l1, l2⟩ := fresh_row hd
  unfold Writer.writeHeader
  rw [h1, fresh_coders]
  dsimp only
  rw [l1]
  dsimp only
  rw [fresh_words hd]
  cases ha : w.alloc with
  | none => exact ⟨_, rfl, ⟨fresh_reset hd, rfl, h2, h3, Or.inl rfl, h5, l1, rfl⟩, l2, by simp⟩
  | some a =>
    have := h4 a ha
    dsimp only
    by_cases hlt : a < wordsIn ds
    · rw [if_pos hlt]
      refine ⟨_, rfl, ⟨fresh_reset hd, rfl, h2, h3, Or.inl rfl, rfl, l1, rfl⟩, l2, ?_⟩
      intro h
      simp only [Option.some.injEq] at h
      omega
    · rw [if_neg hlt]
      have : a = wordsIn ds := by omega
      subst this
      exact ⟨_, rfl, ⟨fresh_reset hd, rfl, h2, h3, Or.inr rfl, h5, l1, rfl⟩, l2, fun _ => rfl⟩

theorem mergeColList_fresh {env : Env} {ds : List DCol} (hd : ∀ d ∈ ds, d.Ok env) {ks : List Col} (hk : ks.map Col.key = ds.map DCol.key) :
    mergeColList env ks = .ok (ds.map (DCol.fresh env)) := by
  induction ds generalizing ks with
  | nil => cases ks with
    | nil => rfl
    | cons _ _ => simp at hk
  | cons d ds ih =>
    cases ks with
    | nil => simp at hk
    | cons k ks =>
      simp only [List.map_cons, List.cons.injEq, Col.key, DCol.key, Prod.mk.injEq] at hk
      obtain ⟨⟨e1, e2, e3, e4, e5⟩, e6⟩ := hk
      simp only [mergeColList, mergeCol, e2, ColType.ofInt_toInt, e5, resetCodec_start (hd d (by simp)).start, List.map_cons,
        ih (fun d hd' => hd d (by simp [hd'])) e6]
      rw [e3, e4, zip_fst_snd, e1]
      rfl

theorem pass1start_open {env : Env} {cap : Nat} {ds : List DCol} (hd : ∀ d ∈ ds, d.Ok env) {w w' : Writer} {ks : List Col} (hk : ks.map Col.key = ds.map DCol.key)
    (h2 : w.cap = cap) (h3 : w.props = []) (h : w.pass1start env ks = .ok w') :
    Opened env cap ds w.out w' ∧ w'.alloc = some (wordsIn ds) := by
  unfold Writer.pass1start Writer.pass1init at h
  rw [mergeColList_fresh hd hk] at h
  dsimp only at h
  rw [fresh_coders] at h
  dsimp only at h
  split at h
  · simp at h
  rename_i w1 hw1
  split at hw1
  · simp at hw1
  simp only [Except.ok.injEq] at hw1
  subst hw1
  obtain ⟨w2, a1, a2, _, a4⟩ := writeHeader_open (w := { w with
    cols := ds.map (DCol.fresh env), inited := true, alloc := some (rowWords (ds.map (DCol.start env))), rows := [] }) hd rfl h2 h3
    (by intro a ha; simp only [Option.some.injEq] at ha; rw [← ha, fresh_words hd]) rfl
  rw [h] at a1
  simp only [Except.ok.injEq] at a1
  subst a1
  exact ⟨a2, a4 (by rw [fresh_words hd])⟩

/-! ### Wider strings -/

/-- Specification: no title means a column of another title (it is neither the same nor the part before an '@'). -/
def Unambiguous (titles : List Str) : Prop :=
  ∀ (p p' : Nat) (t t' : Str), titles[p]? = some t → titles[p']? = some t' → Means t t' → p' = p

/-- Proof device: the same column, perhaps wider. -/
def Wider (d d' : DCol) : Prop := d' = { d with words := d'.words } ∧ d.words ≤ d'.words ∧ (d.ty ≠ .string → d'.words = d.words)

/-- Proof device: the columns that are wider. -/
def grownOf : List DCol → List DCol → List (Str × Nat)
  | d :: ds, d' :: ds' => if d.words < d'.words then (d.name, d'.words) :: grownOf ds ds' else grownOf ds ds'
  | _, _ => []

theorem setWidth_fresh {env : Env} {pre ds : List DCol} {d d' : DCol} (hd : d.Ok env) (hd' : d'.Ok env) (hw : Wider d d') (hlt : d.words < d'.words) {w : Writer}
    (hc : w.cols = (pre ++ d :: ds).map (DCol.fresh env)) :
    w.setWidth pre.length d'.words = .ok { w with cols := (pre ++ d' :: ds).map (DCol.fresh env) } := by
  obtain ⟨h1, h2, h3⟩ := hw
  have ht : d.ty = .string := by
    by_contra hne
    have := h3 hne
    omega
  have s1 := hd.start
  have s2 := hd'.start
  rw [ht, start_str, Except.ok.injEq] at s1
  have ht' : d'.ty = .string := by rw [h1]; exact ht
  rw [ht', start_str, Except.ok.injEq] at s2
  unfold Writer.setWidth
  rw [hc]
  have hget : ((pre ++ d :: ds).map (DCol.fresh env))[pre.length]? = some (d.fresh env) := by simp
  rw [hget]
  simp only [DCol.fresh]
  rw [← s1]
  unfold Codec.setWidth
  rw [if_pos (by rfl)]
  dsimp only
  congr 2
  rw [List.map_append, List.map_append, List.map_cons, List.map_cons]
  have : pre.length = (pre.map (DCol.fresh env)).length := by simp
  rw [this, List.set_append_right _ _ (Nat.le_refl _), Nat.sub_self, List.set_cons_zero]
  congr 2
  rw [h1]
  simp only [DCol.fresh]
  rw [h1] at s2
  rw [← s2]

theorem widths_fresh {env : Env} {ds ds' : List DCol} (pre : List DCol) (hm : Match Wider ds ds') (hd : ∀ d ∈ ds, d.Ok env) (hd' : ∀ d ∈ ds', d.Ok env)
    (hu : Unambiguous ((pre ++ ds).map DCol.name)) {w : Writer} (hc : w.cols = (pre ++ ds).map (DCol.fresh env)) :
    (grownOf ds ds').foldlM (fun (w : Writer) (kv : Str × Nat) => do
        let i ← columnIndex (w.cols.map WCol.name) kv.1
        w.setWidth i kv.2) w = Except.ok { w with cols := (pre ++ ds').map (DCol.fresh env) } := by
  induction hm generalizing pre w with
  | nil =>
    simp only [grownOf, List.foldlM_nil]
    rw [← hc]
    rfl
  | @cons d d' ds ds' hw hm ih =>
    have hn : d'.name = d.name := by rw [hw.1]
    have hsplit : ∀ e : DCol, pre ++ e :: ds = (pre ++ [e]) ++ ds := by intro e; simp
    have hsplit' : ∀ e : DCol, pre ++ e :: ds' = (pre ++ [e]) ++ ds' := by intro e; simp
    have hu' : ∀ e : DCol, e.name = d.name → Unambiguous (((pre ++ [e]) ++ ds).map DCol.name) := by
      intro e he
      have : ((pre ++ [e]) ++ ds).map DCol.name = (pre ++ d :: ds).map DCol.name := by simp [he]
      rw [this]
      exact hu
    by_cases hlt : d.words < d'.words
    · rw [grownOf, if_pos hlt, List.foldlM_cons]
      have hidx : columnIndex (w.cols.map WCol.name) d.name = .ok pre.length := by
        have hnames : w.cols.map WCol.name = (pre ++ d :: ds).map DCol.name := by rw [hc, List.map_map]; rfl
        have hget : ((pre ++ d :: ds).map DCol.name)[pre.length]? = some d.name := by simp
        rw [((C24_column_index _ d.name).1 pre.length), hnames]
        exact ⟨⟨d.name, hget, Or.inl rfl⟩, fun p' n' h1 h2 => hu _ p' _ n' hget h1 h2⟩
      simp only [bind, Except.bind, hidx]
      rw [setWidth_fresh (hd d (by simp)) (hd' d' (by simp)) hw hlt hc]
      dsimp only
      have := ih (pre ++ [d']) (fun e he => hd e (by simp [he])) (fun e he => hd' e (by simp [he])) (hu' d' hn)
        (w := { w with cols := (pre ++ d' :: ds).map (DCol.fresh env) }) (by rw [hsplit])
      rw [hsplit']
      exact this
    · rw [grownOf, if_neg hlt]
      have hdd : d' = d := by
        rw [hw.1, show d'.words = d.words from by have := hw.2.1; omega]
      rw [hdd, hsplit']
      exact ih (pre ++ [d]) (fun e he => hd e (by simp [he])) (fun e he => hd' e (by simp [he])) (hu' d rfl) (by rw [hc, hsplit])

theorem grown_words {ds ds' : List DCol} (hm : Match Wider ds ds') : wordsIn ds ≤ wordsIn ds' ∧ (grownOf ds ds' = [] → ds' = ds) ∧
    (grownOf ds ds' ≠ [] → wordsIn ds < wordsIn ds') := by
  induction hm with
  | nil => exact ⟨Nat.le_refl _, fun _ => rfl, fun h => absurd rfl h⟩
  | @cons d d' ds ds' hw _ ih =>
    obtain ⟨i1, i2, i3⟩ := ih
    have hle := hw.2.1
    simp only [wordsIn, List.map_cons, List.sum_cons, grownOf] at i1 i3 ⊢
    refine ⟨by omega, ?_, ?_⟩
    · intro h
      split at h
      · simp at h
      rename_i hlt
      rw [i2 h, hw.1, show d'.words = d.words by omega]
    · intro h
      split at h
      · omega
      · have := i3 h
        omega

/-- The writer told of wider strings, when it holds no rows. -/
theorem widen_open {env : Env} {cap : Nat} {ds ds' : List DCol} (hm : Match Wider ds ds') (hd : ∀ d ∈ ds, d.Ok env) (hd' : ∀ d ∈ ds', d.Ok env)
    (hu : Unambiguous (ds.map DCol.name)) {w : Writer} (h1 : w.cols = ds.map (DCol.fresh env))
    (h2 : w.cap = cap) (h3 : w.props = []) (h4 : w.alloc = none ∨ w.alloc = some (wordsIn ds)) (h5 : w.rows = []) (hi : w.inited = true) :
    ∃ w', w.resize env .same (grownOf ds ds') = .ok w' ∧ Opened env cap ds' w.out w' ∧ w'.cur.length = ds'.length := by
  unfold Writer.resize
  rw [flush_idle hi h5]
  have := widths_fresh [] hm hd hd' (by simpa using hu) (w := w) (by simpa using h1)
  simp only [bind, Except.bind] at this ⊢
  rw [this]
  dsimp only
  obtain ⟨w', a1, a2, a3, _⟩ := writeHeader_open (w := { w with cols := ([] ++ ds').map (DCol.fresh env) }) (cap := cap) hd' (by simp) h2 h3
    (by
      intro a ha
      have hle := (grown_words hm).1
      rcases h4 with h | h
      · rw [show w.alloc = some a from ha] at h; simp at h
      · rw [show w.alloc = some a from ha] at h; simp at h; omega) h5
  exact ⟨w', a1, a2, a3⟩

/-! ### The simulation -/

/-- Proof device: `pass1` from the state `w` on. -/
def RunsOn (env : Env) (w : Writer) (views : List RowView) (wend : Writer) : Prop :=
  ∃ wl, w.pass1Loop env .same views = .ok wl ∧ wl.flush env .same = .ok wend

/-- Proof device: `pass1` when the columns of the next row are different. -/
def StartsOn (env : Env) (w : Writer) (views : List RowView) (wend : Writer) : Prop :=
  match views with
  | [] => wend.out = w.out
  | v :: vs => ∃ w', w.pass1start env v.cols = .ok w' ∧ RunsOn env w' (v :: vs) wend

/-- Proof device: the writer `w`, with the columns `ds`, before the rows `views`, when `pass1` ends in `wend`. -/
structure Follows (env : Env) (cap : Nat) (ds : List DCol) (w : Writer) (views : List RowView) (wend : Writer) : Prop where
  cur : w.cur.length = ds.length
  inited : w.inited = true
  cols : w.cols.map WCol.decl = ds.map DCol.decl
  run : (∃ w', w = { w' with cur := w.cur } ∧ Mid env cap ds w' ∧ RunsOn env w' views wend) ∨
    (∃ w1 : Writer, Opened env cap ds w1.out w ∧ w1.cap = cap ∧ w1.props = [] ∧ StartsOn env w1 views wend)

theorem keyed_same {env : Env} {ds : List DCol} {ks : List Col} {cols : List WCol} (hk : ks.map Col.key = ds.map DCol.key)
    (hc : cols.map WCol.decl = ds.map DCol.decl) : sameShape ks cols = true := by
  unfold sameShape
  rw [decide_eq_true_eq]
  have h1 := congrArg (List.map (fun t : Str × Int × List Str × List Int × Nat => (t.1, t.2.1, some t.2.2.2.2))) hk
  have h2 := congrArg (List.map (fun t : Str × ColType × List (Str × Int) × Option Nat => (t.1, t.2.1.toInt, t.2.2.2))) hc
  simp only [List.map_map, Function.comp_def, Col.key, DCol.key, WCol.decl, DCol.decl] at h1 h2
  rw [h1]
  unfold WCol.shape
  rw [h2]

theorem keyed_other {ds ds' : List DCol} {ks : List Col} {cols : List WCol} (hk : ks.map Col.key = ds'.map DCol.key)
    (hc : cols.map WCol.decl = ds.map DCol.decl) (hne : ds.map DCol.words ≠ ds'.map DCol.words) : sameShape ks cols = false := by
  unfold sameShape
  rw [decide_eq_false_iff_not]
  intro h
  have h1 := congrArg (List.map (fun t : Str × Int × List Str × List Int × Nat => (t.1, t.2.1, some t.2.2.2.2))) hk
  have h2 := congrArg (List.map (fun t : Str × ColType × List (Str × Int) × Option Nat => (t.1, t.2.1.toInt, t.2.2.2))) hc
  simp only [List.map_map, Function.comp_def, Col.key, DCol.key, WCol.decl, DCol.decl] at h1 h2
  rw [h1] at h
  unfold WCol.shape at h
  rw [h2] at h
  have h3 := congrArg (List.map (fun t : Str × Int × Option Nat => t.2.2.getD 0)) h
  simp only [List.map_map, Function.comp_def, Option.getD_some] at h3
  exact hne h3.symm

theorem Follows.row {env : Env} {cap : Nat} {ds : List DCol} (hd : ∀ d ∈ ds, d.Ok env) {w : Writer} {v : RowView} {views : List RowView} {wend : Writer}
    (h : Follows env cap ds w (v :: views) wend) (hk : v.cols.map Col.key = ds.map DCol.key) {x : List Cell} (hx : x.length = ds.length) :
    ∃ w2, ({ w with cur := x } : Writer).writeRow env .same v.cells = .ok w2 ∧ Follows env cap ds w2 views wend := by
  have step : ∀ (w' : Writer), Mid env cap ds w' → RunsOn env w' (v :: views) wend → ∀ u : Writer, u = { w' with cur := u.cur, alloc := u.alloc } →
      (u.alloc = none ∨ u.alloc = w'.alloc) → u.cur.length = ds.length →
      ∃ w2, u.writeRow env .same v.cells = .ok w2 ∧ Follows env cap ds w2 views wend := by
    intro w' hm hr u hu ha hl
    obtain ⟨wl, r1, r2⟩ := hr
    unfold Writer.pass1Loop at r1
    rw [if_neg (by rw [keyed_same (env := env) hk hm.decl]; simp)] at r1
    dsimp only at r1
    cases hw : w'.writeRow env .same v.cells with
    | error e => rw [hw] at r1; simp at r1
    | ok w3 =>
      rw [hw] at r1
      dsimp only at r1
      obtain ⟨m3, v', a1, a2, a3⟩ := writeRow_mid hd hm hw hu ha hl
      exact ⟨v', a1, a3, by rw [a2]; exact m3.inited, by rw [a2]; exact m3.decl, Or.inl ⟨w3, a2, m3, wl, r1, r2⟩⟩
  rcases h.run with ⟨w', e1, m, r⟩ | ⟨w1, op, c1, p1, r⟩
  · exact step w' m r _ (by rw [e1]) (Or.inr (by rw [e1])) hx
  · obtain ⟨w', s1, s2⟩ := r
    obtain ⟨o1, o2⟩ := pass1start_open hd hk c1 p1 s1
    refine step w' (o1.mid hd o2) s2 _ ?_ ?_ hx
    · have e1 := op.cols.trans o1.cols.symm
      have e2 := op.inited.trans o1.inited.symm
      have e3 := op.cap.trans o1.cap.symm
      have e4 := op.props.trans o1.props.symm
      have e5 := op.rows.trans o1.rows.symm
      have e6 : w.last = w'.last := by
        have := op.last.symm.trans o1.last
        simpa using this
      have e7 := op.out.trans o1.out.symm
      cases w
      cases w'
      simp only at e1 e2 e3 e4 e5 e6 e7
      subst e1 e2 e3 e4 e5 e6 e7
      rfl
    · rw [o2]
      exact op.alloc

theorem Follows.grow {env : Env} {cap : Nat} {ds ds' : List DCol} (hm : Match Wider ds ds') (hd : ∀ d ∈ ds, d.Ok env) (hd' : ∀ d ∈ ds', d.Ok env)
    (hu : Unambiguous (ds.map DCol.name)) (hne : grownOf ds ds' ≠ []) {w : Writer} {views : List RowView} {wend : Writer} (h : Follows env cap ds w views wend)
    (hv : ∀ v, views.head? = some v → v.fresh = true ∧ ∃ es, v.cols.map Col.key = es.map DCol.key ∧ Match Wider ds' es ∧ ∀ d ∈ es, d.Ok env) :
    ∃ w2, w.resize env .same (grownOf ds ds') = .ok w2 ∧ Follows env cap ds' w2 views wend := by
  rcases h.run with ⟨w', e1, m, wl, r1, r2⟩ | ⟨w1, op, c1, p1, r⟩
  · -- `pass1` flushes here too
    obtain ⟨w3, f1, f2⟩ : ∃ w3, w'.flush env .same = .ok w3 ∧ StartsOn env w3 views wend := by
      cases views with
      | nil =>
        simp only [Writer.pass1Loop, Except.ok.injEq] at r1
        subst r1
        exact ⟨wend, r2, rfl⟩
      | cons v vs =>
        obtain ⟨v1, es, v2, v3, v4⟩ := hv v rfl
        have hns : sameShape v.cols w'.cols = false := by
          refine keyed_other v2 m.decl ?_
          intro heq
          have g1 := (grown_words hm).2.2 hne
          have g2 := (grown_words v3).1
          have : wordsIn ds = wordsIn es := by unfold wordsIn; rw [heq]
          omega
        unfold Writer.pass1Loop at r1
        rw [if_pos (by rw [v1, hns]; rfl)] at r1
        cases hf : w'.flush env .same with
        | error e => rw [hf] at r1; simp at r1
        | ok w3 =>
          rw [hf] at r1
          dsimp only at r1
          cases hs : w3.pass1start env v.cols with
          | error e => rw [hs] at r1; simp at r1
          | ok w4 =>
            refine ⟨w3, rfl, w4, hs, wl, ?_, r2⟩
            rw [hs] at r1
            dsimp only at r1
            obtain ⟨k1, k2, _⟩ := flush_keeps env .same w' w3 hf (Or.inl (by rw [m.alloc]; simp))
            have hs4 : sameShape v.cols w4.cols = true := by
              obtain ⟨o1, _⟩ := pass1start_open v4 v2 (k1.trans m.cap) (k2.trans m.props) hs
              exact keyed_same (env := env) v2 (by rw [o1.cols]; exact fresh_decl v4)
            unfold Writer.pass1Loop
            rw [if_neg (by simp [hs4])]
            exact r1
    obtain ⟨u, u1, u2, u3, u4, u5, u6, u7, u8⟩ : ∃ u : Writer, w.flush env .same = .ok u ∧ u.cols = ds.map (DCol.fresh env) ∧ u.cap = cap ∧ u.props = [] ∧
        u.alloc = some (wordsIn ds) ∧ u.rows = [] ∧ u.inited = true ∧ u.out = w3.out := by
      by_cases hr : w'.rows = []
      · rw [flush_idle m.inited hr, Except.ok.injEq] at f1
        subst f1
        refine ⟨w, flush_idle h.inited (by rw [e1]; exact hr), ?_, ?_, ?_, ?_, ?_, h.inited, ?_⟩
        · rw [e1]; exact m.none hr
        · rw [e1]; exact m.cap
        · rw [e1]; exact m.props
        · rw [e1]; exact m.alloc
        · rw [e1]; exact hr
        · rw [e1]
      · obtain ⟨g1, g2, g3, _, g5⟩ := flush_mid hd m.decl m.inited m.cap m.props m.alloc hr f1
        exact ⟨w3, by rw [e1]; exact g5 w.cur, g3, g1.cap, g1.props, g1.alloc, g2, g1.inited, rfl⟩
    obtain ⟨w2, a1, a2, a3⟩ := widen_open hm hd hd' hu u2 u3 u4 (Or.inr u5) u6 u7
    obtain ⟨k1, k2, _⟩ := flush_keeps env .same w' w3 f1 (Or.inl (by rw [m.alloc]; simp))
    refine ⟨w2, ?_, a3, a2.inited, by rw [a2.cols]; exact fresh_decl hd', Or.inr ⟨w3, by rw [← u8]; exact a2, k1.trans m.cap, k2.trans m.props, f2⟩⟩
    rw [← a1]
    unfold Writer.resize
    rw [u1, flush_idle u7 u6]
  · obtain ⟨w2, a1, a2, a3⟩ := widen_open hm hd hd' hu op.cols op.cap op.props op.alloc op.rows op.inited
    exact ⟨w2, a1, a3, a2.inited, by rw [a2.cols]; exact fresh_decl hd', Or.inr ⟨w1, by rw [← op.out]; exact a2, c1, p1, r⟩⟩

theorem Follows.done {env : Env} {cap : Nat} {ds : List DCol} (hd : ∀ d ∈ ds, d.Ok env) {w wend : Writer} (h : Follows env cap ds w [] wend) :
    ∃ w2, w.close env .same = .ok w2 ∧ w2.out = wend.out := by
  unfold Writer.close
  rw [if_pos h.inited]
  rcases h.run with ⟨w', e1, m, wl, r1, r2⟩ | ⟨w1, op, c1, p1, r⟩
  · simp only [Writer.pass1Loop, Except.ok.injEq] at r1
    subst r1
    by_cases hr : w'.rows = []
    · rw [flush_idle m.inited hr, Except.ok.injEq] at r2
      subst r2
      exact ⟨w, flush_idle h.inited (by rw [e1]; exact hr), by rw [e1]⟩
    · obtain ⟨_, _, _, _, g5⟩ := flush_mid hd m.decl m.inited m.cap m.props m.alloc hr r2
      exact ⟨wend, by rw [e1]; exact g5 w.cur, rfl⟩
  · exact ⟨w, flush_idle op.inited op.rows, by rw [op.out]; exact r.symm⟩

end Verif
