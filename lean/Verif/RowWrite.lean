import Verif.RowFrame
import Verif.CEncode

/-
What the row writer writes.
-/

namespace Verif

/-- A declared column. -/
def wcol (c : InCol) (k : Codec) : WCol := ⟨c.name, c.vals.ty, c.vals.members, some k⟩

/-- A column before `setColumn`, WriterBufferingIterator.cc l.272-293. -/
def blankCol : WCol := ⟨[], .ignore, [], none⟩

theorem startCodec_split {ty : ColType} {asDbl : Bool} {w : Nat} {m? : Option Word} {c : Codec}
    (h : startCodec ty asDbl w m? = .ok c) :
    ∃ c0 c1, defaultCodec ty asDbl = .ok c0 ∧ c0.setWidth w = .ok c1 ∧
      (match m? with | none => Except.ok c1 | some m => c1.setMissing m) = .ok c := by
  unfold startCodec at h
  split at h
  · simp at h
  rename_i c0 h0
  split at h
  · simp at h
  rename_i c1 h1
  exact ⟨c0, c1, h0, h1, h⟩

theorem set_append_cons {α : Type} (pre post : List α) (a b : α) : (pre ++ a :: post).set pre.length b = pre ++ b :: post := by
  induction pre with
  | nil => rfl
  | cons x pre ih => simp [ih]

theorem get_append_cons {α : Type} (pre post : List α) (a : α) : (pre ++ a :: post)[pre.length]? = some a := by
  simp

/-- One column is declared. -/
theorem declare_one (env : Env) (w : Writer) (pre post : List WCol) (c : InCol) (m? : Option Word) (k : Codec)
    (hw : w.cols = pre ++ blankCol :: post) (hk : startCodec c.vals.ty env.asDbl c.vals.words m? = .ok k)
    (hn1 : ∀ x ∈ pre, x.name ≠ c.name) (hn2 : ∀ x ∈ post, x.name ≠ c.name) (rest : List (InCol × Option Word)) :
    w.declare env pre.length ((c, m?) :: rest) =
      ({ w with cols := pre ++ wcol c k :: post } : Writer).declare env (pre.length + 1) rest := by
  obtain ⟨c0, c1, h0, h1, h2⟩ := startCodec_split hk
  have hdup : (List.range w.cols.length).any (fun j => decide (j ≠ pre.length) &&
      decide ((w.cols[j]?.map WCol.name) = some c.name)) = false := by
    rw [List.any_eq_false]
    intro j _
    simp only [Bool.and_eq_true, decide_eq_true_eq, not_and]
    intro hj
    rw [hw]
    rcases Nat.lt_trichotomy j pre.length with h | h | h
    · rw [List.getElem?_append_left h, List.getElem?_eq_getElem h]
      simp only [Option.map_some, Option.some.injEq]
      exact hn1 _ (List.getElem_mem h)
    · exact absurd h hj
    · rw [List.getElem?_append_right (by omega)]
      obtain ⟨d, hd⟩ : ∃ d, j - pre.length = d + 1 := ⟨j - pre.length - 1, by omega⟩
      rw [hd, List.getElem?_cons_succ]
      cases hp : post[d]? with
      | none => simp
      | some x =>
        simp only [Option.map_some, Option.some.injEq]
        exact hn2 x (List.mem_of_getElem? hp)
  have hfirst : (if c.vals.ty = .bitfield then w.setBitfieldColumn env pre.length c.name .bitfield c.vals.members
      else w.setColumn env pre.length c.name c.vals.ty) = .ok { w with cols := pre ++ wcol c c0 :: post } := by
    split
    · rename_i hb
      unfold Writer.setBitfieldColumn
      rw [hw, get_append_cons]
      rw [hb] at h0
      simp only [h0, set_append_cons, wcol, hb]
    · rename_i hb
      unfold Writer.setColumn
      rw [hdup, hw, get_append_cons]
      simp only [h0, set_append_cons, wcol, blankCol, Bool.false_eq_true, if_false, Vals.members_bitfield _ hb]
  have hsecond : ({ w with cols := pre ++ wcol c c0 :: post } : Writer).setWidth pre.length c.vals.words =
      .ok { w with cols := pre ++ wcol c c1 :: post } := by
    unfold Writer.setWidth
    simp only [get_append_cons, wcol, h1, set_append_cons]
  have hthird : (match m? with
      | none => Except.ok ({ w with cols := pre ++ wcol c c1 :: post } : Writer)
      | some m => ({ w with cols := pre ++ wcol c c1 :: post } : Writer).setMissing pre.length m) =
      .ok { w with cols := pre ++ wcol c k :: post } := by
    cases m? with
    | none => simp only [Except.ok.injEq] at h2; rw [h2]
    | some m =>
      simp only at h2
      unfold Writer.setMissing
      simp only [get_append_cons, wcol, h2, set_append_cons]
  simp only [Writer.declare, bind, Except.bind]
  cases m? with
  | none =>
    dsimp only at hthird ⊢
    simp only [Except.ok.injEq] at hthird
    split at hfirst
    · rename_i hb; rw [if_pos hb]; rw [hfirst]; dsimp only; rw [hsecond]; dsimp only; rw [hthird]
    · rename_i hb; rw [if_neg hb]; rw [hfirst]; dsimp only; rw [hsecond]; dsimp only; rw [hthird]
  | some m =>
    dsimp only at hthird ⊢
    split at hfirst
    · rename_i hb; rw [if_pos hb]; rw [hfirst]; dsimp only; rw [hsecond]; dsimp only; rw [hthird]
    · rename_i hb; rw [if_neg hb]; rw [hfirst]; dsimp only; rw [hsecond]; dsimp only; rw [hthird]

theorem declare_all (env : Env) (w : Writer) (pre : List WCol) (cs : List (InCol × Option Word)) (ks : List Codec)
    (hl : ks.length = cs.length) (hw : w.cols = pre ++ List.replicate cs.length blankCol)
    (hk : ∀ (i : Nat) (c : InCol) (m? : Option Word) (k : Codec), cs[i]? = some (c, m?) → ks[i]? = some k →
      startCodec c.vals.ty env.asDbl c.vals.words m? = .ok k)
    (hnd : (cs.map (fun c => c.1.name)).Nodup) (hne : ∀ c ∈ cs, c.1.name ≠ [])
    (hpre : ∀ x ∈ pre, ∀ c ∈ cs, x.name ≠ c.1.name) :
    w.declare env pre.length cs = .ok { w with cols := pre ++ List.zipWith wcol (cs.map Prod.fst) ks } := by
  induction cs generalizing w pre ks with
  | nil =>
    simp only [Writer.declare, List.map_nil, List.zipWith_nil_left, List.append_nil]
    simp only [List.length_nil, List.replicate_zero, List.append_nil] at hw
    rw [← hw]
  | cons cm cs ih =>
    obtain ⟨c, m?⟩ := cm
    cases ks with
    | nil => simp at hl
    | cons k ks =>
      simp only [List.map_cons, List.nodup_cons] at hnd
      rw [declare_one env w pre (List.replicate cs.length blankCol) c m? k (by simpa [List.replicate_succ] using hw)
        (hk 0 c m? k rfl rfl) (fun x hx => hpre x hx (c, m?) (by simp)) (by
          intro x hx
          rw [List.eq_of_mem_replicate hx]
          exact fun h => hne (c, m?) (by simp) h.symm)]
      have := ih ({ w with cols := pre ++ wcol c k :: List.replicate cs.length blankCol }) (pre ++ [wcol c k]) ks
        (by simpa using hl) (by simp)
        (fun i c' m' k' h1 h2 => hk (i + 1) c' m' k' (by simpa using h1) (by simpa using h2)) hnd.2
        (fun x hx => hne x (by simp [hx])) (by
          intro x hx y hy
          rcases List.mem_append.mp hx with hx | hx
          · exact hpre x hx y (by simp [hy])
          · simp only [List.mem_singleton] at hx
            subst hx
            intro he
            apply hnd.1
            rw [List.mem_map]
            exact ⟨y, hy, he.symm⟩)
      simp only [List.length_append, List.length_singleton] at this
      rw [this]
      simp

/-! ### Lists of columns -/

theorem coders_zip (cs : List InCol) (ks : List Codec) (h : ks.length = cs.length) :
    coders (List.zipWith wcol cs ks) = some ks := by
  induction cs generalizing ks with
  | nil => cases ks with
    | nil => rfl
    | cons k ks => simp at h
  | cons c cs ih =>
    cases ks with
    | nil => simp at h
    | cons k ks => simp [coders, wcol, ih ks (by simpa using h)]

theorem setCoders_zip (cs : List InCol) (ks ks' : List Codec) (h : ks.length = cs.length) (h' : ks'.length = cs.length) :
    setCoders (List.zipWith wcol cs ks) ks' = List.zipWith wcol cs ks' := by
  induction cs generalizing ks ks' with
  | nil => simp [setCoders]
  | cons c cs ih =>
    cases ks with
    | nil => simp at h
    | cons k ks =>
      cases ks' with
      | nil => simp at h'
      | cons k' ks' =>
        have := ih ks ks' (by simpa using h) (by simpa using h')
        simp only [setCoders] at this
        simp [setCoders, wcol, this]

/-- The statistics of rows `s` to `s + j`. -/
def gathered (env : Env) (cols : List InCol) (starts : List Codec) (s j : Nat) : List Codec :=
  List.zipWith (fun c k => k.gatherAll (((c.vals.cells env).drop s).take j)) cols starts

theorem gathered_zero (env : Env) (cols : List InCol) (starts : List Codec) (s : Nat) (h : starts.length = cols.length) :
    gathered env cols starts s 0 = starts := by
  unfold gathered
  induction cols generalizing starts with
  | nil => cases starts with
    | nil => rfl
    | cons k ks => simp at h
  | cons c cols ih =>
    cases starts with
    | nil => simp at h
    | cons k ks =>
      simp only [List.zipWith_cons_cons, List.take_zero]
      have := ih ks (by simpa using h)
      simp only [List.take_zero] at this
      rw [this]
      rfl

theorem gathered_step (env : Env) (cols : List InCol) (starts : List Codec) (s j n : Nat)
    (hc : ∀ c ∈ cols, c.vals.rows = n) (hn : s + j < n) :
    List.zipWith Codec.gather (gathered env cols starts s j) (rowAt (cols.map (InCol.data env)) (s + j)) =
      gathered env cols starts s (j + 1) := by
  unfold gathered rowAt
  induction cols generalizing starts with
  | nil => simp
  | cons c cols ih =>
    cases starts with
    | nil => simp
    | cons k ks =>
      simp only [List.zipWith_cons_cons, List.map_cons, List.cons.injEq]
      refine ⟨?_, ih ks (fun x hx => hc x (by simp [hx]))⟩
      have hlen : s + j < (c.vals.cells env).length := by rw [Vals.cells_length, hc c (by simp)]; exact hn
      have ht : ((c.vals.cells env).drop s).take (j + 1) = ((c.vals.cells env).drop s).take j ++ [(c.vals.cells env)[s + j]] := by
        rw [List.take_succ, List.getElem?_drop, List.getElem?_eq_getElem hlen]; rfl
      rw [ht]
      simp only [Codec.gatherAll, List.foldl_append, List.foldl_cons, List.foldl_nil, InCol.data]
      rw [List.getD_eq_getElem?_getD, List.getElem?_eq_getElem hlen]
      rfl

theorem gathered_length (env : Env) (cols : List InCol) (starts : List Codec) (s j : Nat) (h : starts.length = cols.length) :
    (gathered env cols starts s j).length = cols.length := by simp [gathered, h]

/-- The start codecs of the columns. -/
def Starts (env : Env) (cols : List InCol) (ms : List (Option Word)) (starts : List Codec) : Prop :=
  ms.length = cols.length ∧ starts.length = cols.length ∧
    ∀ (i : Nat) (c : InCol) (m? : Option Word) (k : Codec), cols[i]? = some c → ms[i]? = some m? → starts[i]? = some k →
      startCodec c.vals.ty env.asDbl c.vals.words m? = .ok k

theorem Starts.tail {env : Env} {c : InCol} {cols : List InCol} {m? : Option Word} {ms : List (Option Word)} {k : Codec}
    {ks : List Codec} (h : Starts env (c :: cols) (m? :: ms) (k :: ks)) :
    startCodec c.vals.ty env.asDbl c.vals.words m? = .ok k ∧ Starts env cols ms ks := by
  obtain ⟨h1, h2, h3⟩ := h
  refine ⟨h3 0 c m? k rfl rfl rfl, by simpa using h1, by simpa using h2, ?_⟩
  intro i c' m' k' a b d
  exact h3 (i + 1) c' m' k' (by simpa using a) (by simpa using b) (by simpa using d)

/-- Induction over the three lists. -/
theorem Starts.rec' {env : Env} {P : List InCol → List (Option Word) → List Codec → Prop} (h0 : P [] [] [])
    (h1 : ∀ c cols m? ms k ks, startCodec c.vals.ty env.asDbl c.vals.words m? = .ok k → Starts env cols ms ks → P cols ms ks →
      P (c :: cols) (m? :: ms) (k :: ks)) (cols : List InCol) (ms : List (Option Word)) (ks : List Codec)
    (h : Starts env cols ms ks) : P cols ms ks := by
  induction cols generalizing ms ks with
  | nil =>
    obtain ⟨a, b, _⟩ := h
    have ha : ms = [] := List.length_eq_zero_iff.mp (by simpa using a)
    have hb : ks = [] := List.length_eq_zero_iff.mp (by simpa using b)
    subst ha; subst hb; exact h0
  | cons c cols ih =>
    cases ms with
    | nil => have := h.1; simp at this
    | cons m? ms =>
      cases ks with
      | nil => have := h.2.1; simp at this
      | cons k ks => exact h1 c cols m? ms k ks h.tail.1 h.tail.2 (ih ms ks h.tail.2)

theorem Starts.exists {env : Env} (cols : List InCol) (ms : List (Option Word)) (hl : ms.length = cols.length)
    (h : ∀ (i : Nat) (c : InCol) (m? : Option Word), cols[i]? = some c → ms[i]? = some m? →
      ∃ k, startCodec c.vals.ty env.asDbl c.vals.words m? = .ok k) : ∃ ks, Starts env cols ms ks := by
  induction cols generalizing ms with
  | nil => exact ⟨[], by simpa using hl, rfl, by simp⟩
  | cons c cols ih =>
    cases ms with
    | nil => simp at hl
    | cons m? ms =>
      obtain ⟨k, hk⟩ := h 0 c m? rfl rfl
      obtain ⟨ks, h1, h2, h3⟩ := ih ms (by simpa using hl) (fun i c' m' a b => h (i + 1) c' m' (by simpa using a) (by simpa using b))
      refine ⟨k :: ks, by simp [h1], by simp [h2], ?_⟩
      intro i c' m' k' a b d
      cases i with
      | zero => simp at a b d; subst a; subst b; subst d; exact hk
      | succ i => exact h3 i c' m' k' (by simpa using a) (by simpa using b) (by simpa using d)

theorem Starts.reset {env : Env} {cols : List InCol} {ms : List (Option Word)} {ks : List Codec} (h : Starts env cols ms ks) :
    ks.map Codec.resetStats = ks := by
  refine Starts.rec' (P := fun _ _ ks => ks.map Codec.resetStats = ks) rfl ?_ cols ms ks h
  intro c cols m? ms k ks hk _ ih
  simp [startCodec_reset hk, ih]

theorem Starts.widths {env : Env} {cols : List InCol} {ms : List (Option Word)} {ks : List Codec} (h : Starts env cols ms ks)
    (s j : Nat) : (gathered env cols ks s j).map Codec.width = cols.map (fun c => c.vals.words) := by
  refine Starts.rec' (P := fun cols _ ks => (gathered env cols ks s j).map Codec.width = cols.map (fun c => c.vals.words))
    rfl ?_ cols ms ks h
  intro c cols m? ms k ks hk _ ih
  simp only [gathered, List.zipWith_cons_cons, List.map_cons] at ih ⊢
  rw [ih, (gatherAll_pres k _).2.2.1, (startCodec_pres hk).1]

/-- What every column starts with: zeros behind the missing value. -/
def StartRow (env : Env) (cols : List InCol) (ms : List (Option Word)) (l : List Cell) : Prop :=
  l.length = cols.length ∧ ∀ (i : Nat) (c : InCol) (m? : Option Word) (z : Cell), cols[i]? = some c → ms[i]? = some m? →
    l[i]? = some z → StartCell env c.vals m? z

/-- Proof device: `LaterCell` column by column. -/
def LaterRow (env : Env) (cols : List InCol) (ms : List (Option Word)) (l : List Cell) : Prop :=
  l.length = cols.length ∧ ∀ (i : Nat) (c : InCol) (m? : Option Word) (z : Cell), cols[i]? = some c → ms[i]? = some m? →
    l[i]? = some z → LaterCell env c.vals m? z

theorem start_missing {env : Env} {v : Vals} {m? : Option Word} (h : v.OkMiss env m?) :
    ∃ k w, startCodec v.ty env.asDbl v.words m? = .ok k ∧ k.missingWord = .ok w := by
  have hmiss : (m? = none ∨ ∃ m, InI32 m ∧ m? = some (ofInt m)) →
      ∃ m, InI32 m ∧ (m? = some (ofInt m) ∨ (m? = none ∧ m = 2147483647)) := by
    intro h
    rcases h with h | ⟨m, h1, h2⟩
    · exact ⟨2147483647, by decide, Or.inr ⟨h, rfl⟩⟩
    · exact ⟨m, h1, Or.inl h2⟩
  have hget : m? = some (m?.getD realMDI) ∨ (m? = none ∧ m?.getD realMDI = realMDI) := by
    cases m? <;> simp
  cases v with
  | ints vs =>
    obtain ⟨m, hm, hm?⟩ := hmiss h.1
    obtain ⟨k, k1, k2, k3, k4, _⟩ := startCodec_int .integer (Or.inl rfl) env.asDbl m hm m? hm?
    exact ⟨k, _, k1, int_missingWord hm k3 k4 (by rw [k2]; simp [Kind.isInt])⟩
  | bits ms vs =>
    obtain ⟨m, hm, hm?⟩ := hmiss h.1
    obtain ⟨k, k1, k2, k3, k4, _⟩ := startCodec_int .bitfield (Or.inr rfl) env.asDbl m hm m? hm?
    exact ⟨k, _, k1, int_missingWord hm k3 k4 (by rw [k2]; simp [Kind.isInt])⟩
  | reals vs =>
    obtain ⟨k, k1, k2, _⟩ := startCodec_real .real (Or.inl rfl) env.asDbl (m?.getD realMDI) m? hget
    exact ⟨k, _, k1, real_missingWord (by rw [k2]; rfl)⟩
  | doubles vs =>
    obtain ⟨k, k1, k2, _⟩ := startCodec_real .double (Or.inr rfl) env.asDbl (m?.getD realMDI) m? hget
    exact ⟨k, _, k1, real_missingWord (by rw [k2]; rfl)⟩
  | strings w vs =>
    obtain ⟨rfl, _⟩ := h
    obtain ⟨k, k1, k2, k3, _⟩ := startCodec_str env.asDbl w
    refine ⟨k, realMDI, k1, ?_⟩
    unfold Codec.missingWord
    rw [k2, k3]; rfl

theorem initRow_ok {cs : List Codec} (h : ∀ c ∈ cs, ∃ w, c.missingWord = .ok w) :
    ∃ l, initRow cs = .ok l ∧ l.length = cs.length ∧
      ∀ (i : Nat) (c : Codec) (z : Cell), cs[i]? = some c → l[i]? = some z → initCell c = .ok z := by
  induction cs with
  | nil => exact ⟨[], rfl, rfl, by simp⟩
  | cons c cs ih =>
    obtain ⟨w, hw⟩ := h c (by simp)
    obtain ⟨l, l1, l2, l3⟩ := ih (fun x hx => h x (by simp [hx]))
    have hc : initCell c = .ok (w :: List.replicate (c.width - 1) 0) := by unfold initCell; rw [hw]
    refine ⟨(w :: List.replicate (c.width - 1) 0) :: l, by simp only [initRow, hc, l1], by simp [l2], ?_⟩
    intro i c' z h1 h2
    cases i with
    | zero => simp at h1 h2; subst h1; subst h2; exact hc
    | succ i => exact l3 i c' z (by simpa using h1) (by simpa using h2)

end Verif
