import Verif.TripAny

/-
Columns as the user of `encode` sees them: values of the five column types, what they must satisfy, and
what is read back.
-/

namespace Verif

/-- The values of one column. Doubles are given by their bit patterns; strings by their bytes, in
elements of `words` 8-byte words. -/
inductive Vals
  | ints (vs : List Int)
  | bits (members : List (Str × Int)) (vs : List Int)
  | reals (vs : List Word)
  | doubles (vs : List Word)
  | strings (words : Nat) (vs : List Str)

/-- One column of the table to encode. -/
structure InCol where
  name : Str
  vals : Vals

/-- Specification: the number of rows of a column of values. -/
def Vals.rows : Vals → Nat
  | .ints vs => vs.length
  | .bits _ vs => vs.length
  | .reals vs => vs.length
  | .doubles vs => vs.length
  | .strings _ vs => vs.length

/-- Specification: the ODB type of a column of values. -/
def Vals.ty : Vals → ColType
  | .ints _ => .integer
  | .bits _ _ => .bitfield
  | .reals _ => .real
  | .doubles _ => .double
  | .strings _ _ => .string

/-- Words per element. -/
def Vals.words : Vals → Nat
  | .strings w _ => w
  | _ => 1

/-- The elements in memory: integers as `int64_t` or `double` according to the setting, strings padded
with zeros. -/
def Vals.cells (env : Env) : Vals → List Cell
  | .ints vs => vs.map (fun i => [intWord env.asDbl i])
  | .bits _ vs => vs.map (fun i => [intWord env.asDbl i])
  | .reals vs => vs.map (fun v => [v])
  | .doubles vs => vs.map (fun v => [v])
  | .strings w vs => vs.map (wordsOf w)

/-- Specification: the members of a bitfield, name and size; no other column has any. -/
def Vals.members : Vals → List (Str × Int)
  | .bits ms _ => ms
  | _ => []

/-- The `ColumnInfo` passed to `encode`. -/
def InCol.info (c : InCol) : ColumnInfo :=
  ⟨c.name, c.vals.ty, 8 * c.vals.words, c.vals.members⟩

/-- The strided data passed to `encode`. -/
def InCol.data (env : Env) (c : InCol) : ColData := ⟨c.vals.words, c.vals.cells env⟩

/-- The domain on which values are preserved. -/
def Vals.Ok (env : Env) : Vals → Prop
  | .ints vs => ∀ i ∈ vs, InI32 i
  | .bits ms vs => (∀ i ∈ vs, InI32 i) ∧ LenOk ms.length ∧ ∀ b ∈ ms, LenOk b.1.length ∧ InI32 b.2
  | .reals vs => RealsOk realMDI vs
  | .doubles vs => DoublesOk realMDI vs
  | .strings w vs =>
    1 ≤ w ∧ w ≤ 268435455 ∧ (∀ s ∈ vs, s.length ≤ 8 * w ∧ NulFree s) ∧
    (∀ ds : List Str, ds.Nodup → (∀ s ∈ ds, s ∈ vs) → ds.length < 65536) ∧
    (env.longEnv = true → 1 < w → vs ≠ [] → ∃ s ∈ vs, s ≠ []) ∧
    (∀ s ∈ vs, isNaN (wordOfBytes (s.take 8)) = false)

/-- The column on its own: choose the codec, encode each cell, decode each cell. -/
def Vals.alone (env : Env) (v : Vals) : Except Err (List Cell) :=
  colTrip .same v.ty env.asDbl env.longEnv v.words none (v.cells env)

/-- What the format can carry, faithfully or not: for numeric columns, all that can be encoded and decoded
at all on its own; strings as in `Vals.Ok`. -/
def Vals.Codable (env : Env) (v : Vals) : Prop :=
  match v with
  | .ints _ => ∃ ys, v.alone env = .ok ys
  | .bits ms _ => (∃ ys, v.alone env = .ok ys) ∧ LenOk ms.length ∧ ∀ b ∈ ms, LenOk b.1.length ∧ InI32 b.2
  | .reals _ => ∃ ys, v.alone env = .ok ys
  | .doubles _ => ∃ ys, v.alone env = .ok ys
  | .strings _ _ => v.Ok env

/-- What comes back in row `r` when the column is encoded and decoded on its own. -/
def Vals.Back (env : Env) (v : Vals) (r : Nat) (y : Cell) : Prop := ∃ ys, v.alone env = .ok ys ∧ ys[r]? = some y

/-- What a decoded element of row `r` must be, in a column of faithful values. -/
def Vals.Gives (env : Env) (v : Vals) (r : Nat) (y : Cell) : Prop :=
  match v with
  | .ints vs => ∃ i, vs[r]? = some i ∧ y = [intWord env.asDbl i]
  | .bits _ vs => ∃ i, vs[r]? = some i ∧ y = [intWord env.asDbl i]
  | .reals vs => ∃ x x', vs[r]? = some x ∧ y = [x'] ∧ RealOut realMDI vs x x'
  | .doubles vs => ∃ x, vs[r]? = some x ∧ y = [x]
  | .strings _ vs => ∃ s w', vs[r]? = some s ∧ s.length ≤ 8 * w' ∧ y = wordsOf w' s

theorem wordsOf_take (w' w : Nat) (s : List Byte) (h : w' ≤ w) : (wordsOf w s).take w' = wordsOf w' s := by
  induction w' generalizing w s with
  | zero => rfl
  | succ w' ih =>
    cases w with
    | zero => omega
    | succ w => simp [wordsOf, ih w (s.drop 8) (by omega)]

theorem str_column_nil (asDbl longEnv : Bool) (w : Nat) :
    ∃ c, chosenCodec .string asDbl longEnv w none [] = .ok c ∧ SaveOk asDbl ColType.string.toInt c ∧
      (reload asDbl ColType.string.toInt c).width = 1 := by
  obtain ⟨c0, h0, hk, h1, h2, h3, h4, h5, h6⟩ := startCodec_str asDbl w
  obtain ⟨c, e1, e2, e3, e4, e5, e6, e7, e8⟩ := rebuild_str .int8String (by simp) asDbl c0
  refine ⟨{ c with strings := [], width := w }, ?_, ⟨?_, by show LenOk 0; decide, by simp, ?_⟩, ?_⟩
  · unfold chosenCodec
    rw [h0]
    simp only [Codec.gatherAll, List.foldl_nil, optimise, h5, strKind, List.length_nil]
    simp [e1, h6]
  · show InI32 c.hasMissing; rw [e6]; split <;> decide
  · simp only [e2]; simp [Kind.isInt]
  · unfold reload; simp only [e2]; rfl

/-- Copying a table clones its codecs: string columns must not start like a NaN. -/
theorem str_clone (asDbl longEnv : Bool) (w : Nat) (ss : List Str) (c : Codec)
    (hfit : ∀ s ∈ ss, s.length ≤ 8 * w ∧ NulFree s)
    (hnan : ∀ s ∈ ss, isNaN (wordOfBytes (s.take 8)) = false)
    (h : chosenCodec .string asDbl longEnv w none (ss.map (wordsOf w)) = .ok c) :
    (reload asDbl ColType.string.toInt c).clone = .ok (reload asDbl ColType.string.toInt c) := by
  obtain ⟨c0, h0, hk, h1, h2, h3, h4, h5, h6⟩ := startCodec_str asDbl w
  obtain ⟨g1, g2, g3, g4, g5, g6, g7, g8, g9⟩ := str_stats w ss hfit c0 hk h6 (by rw [h5]; simp)
  generalize hg : c0.gatherAll (ss.map (wordsOf w)) = g at *
  have hmin : isNaN g.min = false := by
    rw [g9]
    cases hl : ss.getLast? with
    | none => simp only [h2]; exact realMDI_nan
    | some s => exact hnan s (List.mem_of_getLast? hl)
  have hmax : isNaN g.max = false := by rw [g5, h3]; exact realMDI_nan
  have hcc : c.min = g.min ∧ c.max = g.max := by
    unfold chosenCodec at h
    rw [h0] at h
    simp only [hg] at h
    unfold optimise at h
    simp only at h
    split at h
    · split at h
      · rename_i c1 hc1
        have hr : c1.min = g.min ∧ c1.max = g.max := by
          unfold rebuild at hc1
          split at hc1
          · simp only [Except.ok.injEq] at hc1; rw [← hc1]; exact ⟨rfl, rfl⟩
          · simp at hc1
        split at h
        · simp only [Except.ok.injEq] at h; rw [← h]; exact hr
        · simp only [Except.ok.injEq] at h; rw [← h]; exact hr
      · simp at h
    · simp at h
  have hrr : (reload asDbl ColType.string.toInt c).min = c.min ∧ (reload asDbl ColType.string.toInt c).max = c.max := by
    unfold reload; split <;> exact ⟨rfl, rfl⟩
  unfold Codec.clone
  rw [hrr.1, hrr.2, hcc.1, hcc.2, feq_self hmin, feq_self hmax]
  simp

theorem encSize_le (c : Codec) (h : c.kind ≠ .chars) : c.encSize ≤ 8 := by
  unfold Codec.encSize
  cases hk : c.kind <;> simp_all

theorem clone_numeric (c : Codec) (h : c.kind.isChars = false) : c.clone = .ok c := by
  simp [Codec.clone, h]

theorem reload_kind (asDbl : Bool) (ty : Int) (c : Codec) : (reload asDbl ty c).kind = c.kind := by
  unfold reload; split <;> rfl

theorem reload_width_numeric (asDbl : Bool) (ty : Int) (c : Codec) (h : c.kind.isChars = false) :
    (reload asDbl ty c).width = 1 := by
  unfold reload
  cases hk : c.kind <;> rw [hk] at h <;> simp_all [Kind.isChars, fresh]

theorem rebuild_kind {k : Kind} {t : ColType} {asDbl : Bool} {c0 c1 : Codec} (hr : rebuild k t asDbl c0 = .ok c1) :
    c1.kind = k := by
  unfold rebuild at hr
  split at hr
  · rename_i c' hc'
    simp only [Except.ok.injEq] at hr
    rw [← hr]
    unfold Codec.setMissing at hc'
    split at hc'
    · split at hc'
      · split at hc'
        · simp only [Except.ok.injEq] at hc'; rw [← hc']; rfl
        · simp at hc'
      · simp only [Except.ok.injEq] at hc'; rw [← hc']; rfl
    · simp at hc'
  · simp at hr

/-- Only string columns get string codecs. -/
theorem chosen_numeric {ty : ColType} {asDbl longEnv : Bool} {w : Nat} {m? : Option Word} {cells : List Cell}
    {c : Codec} (hty : ty ≠ .string) (h : chosenCodec ty asDbl longEnv w m? cells = .ok c) :
    c.kind.isChars = false := by
  unfold chosenCodec at h
  split at h
  · simp at h
  rename_i c0 h0
  unfold optimise at h
  cases ty <;> simp only at h
  · simp [startCodec, defaultCodec] at h0
  · split at h
    · rw [rebuild_kind h]
      unfold intKind; split <;> split <;> (try rfl) <;> split <;> (try rfl) <;> split <;> rfl
    · simp at h
  · split at h
    · split at h
      · rename_i k hk
        rw [rebuild_kind h]
        unfold realKind at hk
        split at hk
        · simp only [Except.ok.injEq] at hk; rw [← hk]; split <;> rfl
        · split at hk
          · split at hk
            · simp at hk
            · simp only [Except.ok.injEq] at hk; rw [← hk]; rfl
          · split at hk <;> (simp only [Except.ok.injEq] at hk; rw [← hk]; rfl)
      · simp at h
    · simp at h
  · exact absurd rfl hty
  · split at h
    · rw [rebuild_kind h]
      unfold intKind; split <;> split <;> (try rfl) <;> split <;> (try rfl) <;> split <;> rfl
    · simp at h
  · rw [rebuild_kind h]; split
    · split <;> rfl
    · rfl

/-- What the encoder does with one column of faithful values. -/
structure SentOk (env : Env) (n : Nat) (c : InCol) (e : EncCol) : Prop where
  ok : e.Ok env n
  info : e.info = c.info
  data : e.data = c.data env
  back : ∀ r, r < n → c.vals.Gives env r (e.back (e.data.cells.getD r []))
  clone : (reload env.asDbl c.vals.ty.toInt e.codec).clone = .ok (reload env.asDbl c.vals.ty.toInt e.codec)
  width : 1 ≤ (reload env.asDbl c.vals.ty.toInt e.codec).width ∧
    (reload env.asDbl c.vals.ty.toInt e.codec).width ≤ c.vals.words
  exact : ∀ r, r < n → (e.back (e.data.cells.getD r [])).length = (reload env.asDbl c.vals.ty.toInt e.codec).width

theorem getD_map_lt {α β : Type} (f : α → β) (l : List α) (r : Nat) (d : β) (h : r < l.length) :
    (l.map f).getD r d = f l[r] := by
  rw [List.getD_eq_getElem?_getD, List.getElem?_map, List.getElem?_eq_getElem h]; rfl

theorem InCol.sentOk (env : Env) (c : InCol) (hname : LenOk c.name.length) (hok : c.vals.Ok env) :
    ∃ e, SentOk env c.vals.rows c e := by
  obtain ⟨name, vals⟩ := c
  have hsize : ∀ k, (8 * k) % 8 = 0 := fun k => by omega
  have hdiv : ∀ k, 8 * k / 8 = k := fun k => by omega
  cases vals with
  | ints vs =>
    obtain ⟨c, h1, h2, h3, _, _, h6⟩ := int_column .integer (Or.inl rfl) env.asDbl env.longEnv 2147483647 (by decide)
      none (Or.inr ⟨rfl, rfl⟩) vs hok
    have hnum := chosen_numeric (by simp) h1
    refine ⟨⟨InCol.info ⟨name, .ints vs⟩, InCol.data env ⟨name, .ints vs⟩, c, id⟩,
      ⟨⟨by simp [InCol.data, Vals.cells, Vals.rows], by simp [InCol.info, InCol.data],
        ⟨by simp [InCol.info], by simpa [InCol.info, InCol.data, Vals.ty, Vals.words, Vals.cells] using h1, h2, ?_, ?_⟩,
        hname, by simp [InCol.info, Vals.members]; decide, by simp [InCol.info, Vals.members],
        by simp [InCol.info, Vals.members]⟩, rfl, rfl, ?_, ?_, ?_, ?_⟩⟩
    · intro o x hx
      simp only [InCol.data, Vals.cells, List.mem_map] at hx
      obtain ⟨i, hi, rfl⟩ := hx
      exact h6 o i hi
    · intro _; have := encSize_le c (chosenCodec_kind h1); simpa [InCol.info, Vals.words] using this
    · intro r hr
      simp only [Vals.rows] at hr
      refine ⟨vs[r], List.getElem?_eq_getElem hr, ?_⟩
      simp only [InCol.data, Vals.cells, id]
      rw [getD_map_lt _ _ _ _ hr]
    · exact clone_numeric _ (by rw [reload_kind]; exact hnum)
    · simp [reload_width_numeric _ _ _ hnum, Vals.words]
    · intro r hr
      simp only [Vals.rows] at hr
      simp only [InCol.data, Vals.cells, id]
      rw [getD_map_lt _ _ _ _ hr, reload_width_numeric _ _ _ hnum]; rfl
  | bits ms vs =>
    obtain ⟨hv, hm1, hm2⟩ := hok
    obtain ⟨c, h1, h2, h3, _, _, h6⟩ := int_column .bitfield (Or.inr rfl) env.asDbl env.longEnv 2147483647 (by decide)
      none (Or.inr ⟨rfl, rfl⟩) vs hv
    have hnum := chosen_numeric (by simp) h1
    refine ⟨⟨InCol.info ⟨name, .bits ms vs⟩, InCol.data env ⟨name, .bits ms vs⟩, c, id⟩,
      ⟨⟨by simp [InCol.data, Vals.cells, Vals.rows], by simp [InCol.info, InCol.data],
        ⟨by simp [InCol.info], by simpa [InCol.info, InCol.data, Vals.ty, Vals.words, Vals.cells] using h1, h2, ?_, ?_⟩,
        hname, hm1, hm2,
        by simp [InCol.info, Vals.ty]⟩, rfl, rfl, ?_, ?_, ?_, ?_⟩⟩
    · intro o x hx
      simp only [InCol.data, Vals.cells, List.mem_map] at hx
      obtain ⟨i, hi, rfl⟩ := hx
      exact h6 o i hi
    · intro _; have := encSize_le c (chosenCodec_kind h1); simpa [InCol.info, Vals.words] using this
    · intro r hr
      simp only [Vals.rows] at hr
      refine ⟨vs[r], List.getElem?_eq_getElem hr, ?_⟩
      simp only [InCol.data, Vals.cells, id]
      rw [getD_map_lt _ _ _ _ hr]
    · exact clone_numeric _ (by rw [reload_kind]; exact hnum)
    · simp [reload_width_numeric _ _ _ hnum, Vals.words]
    · intro r hr
      simp only [Vals.rows] at hr
      simp only [InCol.data, Vals.cells, id]
      rw [getD_map_lt _ _ _ _ hr, reload_width_numeric _ _ _ hnum]; rfl
  | reals vs =>
    obtain ⟨c, h1, h2, h3, _, f, hf, h6⟩ := real_column env.asDbl env.longEnv realMDI realMDI_nan none
      (Or.inr ⟨rfl, rfl⟩) vs hok
    have hnum := chosen_numeric (by simp) h1
    refine ⟨⟨InCol.info ⟨name, .reals vs⟩, InCol.data env ⟨name, .reals vs⟩, c, fun x => [f (cellWord x)]⟩,
      ⟨⟨by simp [InCol.data, Vals.cells, Vals.rows], by simp [InCol.info, InCol.data],
        ⟨by simp [InCol.info], by simpa [InCol.info, InCol.data, Vals.ty, Vals.words, Vals.cells] using h1, h2, ?_, ?_⟩,
        hname, by simp [InCol.info, Vals.members]; decide, by simp [InCol.info, Vals.members],
        by simp [InCol.info, Vals.members]⟩, rfl, rfl, ?_, ?_, ?_, ?_⟩⟩
    · intro o x hx
      simp only [InCol.data, Vals.cells, List.mem_map] at hx
      obtain ⟨i, hi, rfl⟩ := hx
      exact h6 o i hi
    · intro _; have := encSize_le c (chosenCodec_kind h1); simpa [InCol.info, Vals.words] using this
    · intro r hr
      simp only [Vals.rows] at hr
      refine ⟨vs[r], f vs[r], List.getElem?_eq_getElem hr, ?_, hf _ (List.getElem_mem hr)⟩
      simp only [InCol.data, Vals.cells]
      rw [getD_map_lt _ _ _ _ hr]; rfl
    · exact clone_numeric _ (by rw [reload_kind]; exact hnum)
    · simp [reload_width_numeric _ _ _ hnum, Vals.words]
    · intro r hr
      rw [reload_width_numeric _ _ _ hnum]; rfl
  | doubles vs =>
    obtain ⟨c, h1, h2, h3, _, _, h6⟩ := double_column env.asDbl env.longEnv realMDI realMDI_nan none
      (Or.inr ⟨rfl, rfl⟩) vs hok
    have hnum := chosen_numeric (by simp) h1
    refine ⟨⟨InCol.info ⟨name, .doubles vs⟩, InCol.data env ⟨name, .doubles vs⟩, c, id⟩,
      ⟨⟨by simp [InCol.data, Vals.cells, Vals.rows], by simp [InCol.info, InCol.data],
        ⟨by simp [InCol.info], by simpa [InCol.info, InCol.data, Vals.ty, Vals.words, Vals.cells] using h1, h2, ?_, ?_⟩,
        hname, by simp [InCol.info, Vals.members]; decide, by simp [InCol.info, Vals.members],
        by simp [InCol.info, Vals.members]⟩, rfl, rfl, ?_, ?_, ?_, ?_⟩⟩
    · intro o x hx
      simp only [InCol.data, Vals.cells, List.mem_map] at hx
      obtain ⟨i, hi, rfl⟩ := hx
      exact h6 o i hi
    · intro _; have := encSize_le c (chosenCodec_kind h1); simpa [InCol.info, Vals.words] using this
    · intro r hr
      simp only [Vals.rows] at hr
      refine ⟨vs[r], List.getElem?_eq_getElem hr, ?_⟩
      simp only [InCol.data, Vals.cells, id]
      rw [getD_map_lt _ _ _ _ hr]
    · exact clone_numeric _ (by rw [reload_kind]; exact hnum)
    · simp [reload_width_numeric _ _ _ hnum, Vals.words]
    · intro r hr
      simp only [Vals.rows] at hr
      simp only [InCol.data, Vals.cells, id]
      rw [getD_map_lt _ _ _ _ hr, reload_width_numeric _ _ _ hnum]; rfl
  | strings w vs =>
    obtain ⟨hw, hlim, hfit, hfew, hemp, hnan⟩ := hok
    by_cases hne : vs = []
    · subst hne
      obtain ⟨c, h1, h2, h3⟩ := str_column_nil env.asDbl env.longEnv w
      refine ⟨⟨InCol.info ⟨name, .strings w []⟩, InCol.data env ⟨name, .strings w []⟩, c, id⟩,
        ⟨⟨by simp [InCol.data, Vals.cells, Vals.rows], by simp [InCol.info, InCol.data],
          ⟨by simp [InCol.info], by simpa [InCol.info, InCol.data, Vals.ty, Vals.words, Vals.cells] using h1, h2,
            by simp [InCol.data, Vals.cells], by simp [InCol.data, Vals.cells]⟩,
          hname, by simp [InCol.info, Vals.members]; decide, by simp [InCol.info, Vals.members],
          by simp [InCol.info, Vals.members]⟩, rfl, rfl, ?_, ?_, ?_, ?_⟩⟩
      · intro r hr; simp [Vals.rows] at hr
      · exact str_clone env.asDbl env.longEnv w [] c (by simp) (by simp) (by simpa using h1)
      · show 1 ≤ (reload env.asDbl ColType.string.toInt c).width ∧ (reload env.asDbl ColType.string.toInt c).width ≤ w
        rw [h3]; omega
      · intro r hr; simp [Vals.rows] at hr
    · obtain ⟨c, w', h1, h2, h3, h4, h5, h6, h7, h8⟩ := str_column env.asDbl env.longEnv w vs
        ⟨hw, hlim, hfit, hfew, fun a b => hemp a b hne⟩ hne
      refine ⟨⟨InCol.info ⟨name, .strings w vs⟩, InCol.data env ⟨name, .strings w vs⟩, c, fun x => x.take w'⟩,
        ⟨⟨by simp [InCol.data, Vals.cells, Vals.rows], by simp [InCol.info, InCol.data],
          ⟨by simp [InCol.info], by simpa [InCol.info, InCol.data, Vals.ty, Vals.words, Vals.cells] using h1, h2,
            ?_, ?_⟩,
          hname, by simp [InCol.info, Vals.members]; decide, by simp [InCol.info, Vals.members],
          by simp [InCol.info, Vals.members]⟩, rfl, rfl, ?_, ?_, ?_, ?_⟩⟩
      · intro o x hx
        simp only [InCol.data, Vals.cells, List.mem_map] at hx
        obtain ⟨s, hs, rfl⟩ := hx
        simp only [wordsOf_take w' w s h4]
        exact h8 o s hs
      · intro _
        have := encSize_le c (chosenCodec_kind h1)
        simp only [InCol.info, Vals.words, hdiv]
        omega
      · intro r hr
        simp only [Vals.rows] at hr
        refine ⟨vs[r], w', List.getElem?_eq_getElem hr, h7 _ (List.getElem_mem hr), ?_⟩
        simp only [InCol.data, Vals.cells]
        rw [getD_map_lt _ _ _ _ hr, wordsOf_take w' w _ h4]
      · exact str_clone env.asDbl env.longEnv w vs c hfit hnan h1
      · show 1 ≤ (reload env.asDbl ColType.string.toInt c).width ∧ (reload env.asDbl ColType.string.toInt c).width ≤ w
        rw [h6]; exact ⟨h3, h4⟩
      · intro r hr
        simp only [Vals.rows] at hr
        show _ = (reload env.asDbl ColType.string.toInt c).width
        simp only [InCol.data, Vals.cells]
        rw [getD_map_lt _ _ _ _ hr, wordsOf_take w' w _ h4, wordsOf_length, h6]

/-! ### Any column that can be coded -/

/-- What the encoder does with one column of the user. -/
structure Sent (env : Env) (n : Nat) (c : InCol) (e : EncCol) : Prop where
  ok : e.Ok env n
  info : e.info = c.info
  data : e.data = c.data env
  back : ∀ r, r < n → c.vals.Back env r (e.back (e.data.cells.getD r []))
  clone : (reload env.asDbl c.vals.ty.toInt e.codec).clone = .ok (reload env.asDbl c.vals.ty.toInt e.codec)
  width : 1 ≤ (reload env.asDbl c.vals.ty.toInt e.codec).width ∧
    (reload env.asDbl c.vals.ty.toInt e.codec).width ≤ c.vals.words
  exact : ∀ r, r < n → (e.back (e.data.cells.getD r [])).length = (reload env.asDbl c.vals.ty.toInt e.codec).width

theorem EncCol.Ok.alone {env : Env} {n : Nat} {c : InCol} {e : EncCol} (h : e.Ok env n) (hi : e.info = c.info)
    (hd : e.data = c.data env) : c.vals.alone env = .ok (e.data.cells.map e.back) := by
  have h1 := h.travels.chosen
  have hc : e.data.cells = c.vals.cells env := by rw [hd]; rfl
  have h8 : 8 * c.vals.words / 8 = c.vals.words := by omega
  simp only [hi, InCol.info, h8, hc] at h1
  unfold Vals.alone colTrip
  rw [h1, hc]
  apply mapM_ok
  intro x hx
  have := (h.travels.trip .same x (by rw [hc]; exact hx)).eq
  rw [hi] at this
  exact this

theorem SentOk.alone {env : Env} {n : Nat} {c : InCol} {e : EncCol} (h : SentOk env n c e) :
    c.vals.alone env = .ok (e.data.cells.map e.back) := h.ok.alone h.info h.data

theorem getD_map_get {α β : Type} {f : α → β} {l : List α} {r : Nat} {d : α} (h : r < l.length) :
    (l.map f)[r]? = some (f (l.getD r d)) := by
  rw [List.getElem?_map, List.getElem?_eq_getElem h, List.getD_eq_getElem?_getD, List.getElem?_eq_getElem h]; rfl

theorem SentOk.sent {env : Env} {n : Nat} {c : InCol} {e : EncCol} (h : SentOk env n c e) : Sent env n c e :=
  ⟨h.ok, h.info, h.data, fun r hr => ⟨_, h.alone, getD_map_get (by rw [h.ok.rows]; exact hr)⟩, h.clone, h.width, h.exact⟩

/-- Faithful columns can be coded. -/
theorem Vals.Ok.codable {env : Env} {v : Vals} (h : v.Ok env) : v.Codable env := by
  have hs : ∃ ys, v.alone env = .ok ys := by
    obtain ⟨e, he⟩ := InCol.sentOk env ⟨[], v⟩ (by show LenOk 0; decide) h
    exact ⟨_, he.alone⟩
  cases v with
  | ints vs => exact hs
  | bits ms vs => exact ⟨hs, h.2⟩
  | reals vs => exact hs
  | doubles vs => exact hs
  | strings w vs => exact h

/-- What comes back of faithful values. -/
theorem Vals.Back.gives {env : Env} {v : Vals} (h : v.Ok env) {r : Nat} {y : Cell} (hb : v.Back env r y) :
    v.Gives env r y := by
  obtain ⟨e, he⟩ := InCol.sentOk env ⟨[], v⟩ (by show LenOk 0; decide) h
  obtain ⟨ys, h1, h2⟩ := hb
  have h3 := he.alone
  simp only at h3
  rw [h1] at h3
  cases h3
  have hr : r < e.data.cells.length := by simpa using (List.getElem?_eq_some_iff.mp h2).1
  rw [getD_map_get (d := []) hr, Option.some.injEq] at h2
  rw [← h2]
  exact he.back r (by rw [← he.ok.rows]; exact hr)

theorem rebuild_save {k : Kind} {ty : ColType} {asDbl : Bool} {c0 c1 : Codec} (hr : rebuild k ty asDbl c0 = .ok c1) :
    SaveOk asDbl ty.toInt c1 := by
  have hk := rebuild_kind hr
  unfold rebuild at hr
  split at hr
  · rename_i c' hc'
    simp only [Except.ok.injEq] at hr
    unfold Codec.setMissing at hc'
    split at hc'
    · have hs : c'.strings = [] ∧ c'.missing = c0.missing ∧
          (k.isInt = true → ∃ w, toVT (vtOf k ty.toInt asDbl) c0.missing = .ok w) := by
        have hki : (fresh k ty.toInt asDbl).kind = k := rfl
        have hvt : (fresh k ty.toInt asDbl).vt = vtOf k ty.toInt asDbl := rfl
        rw [hki, hvt] at hc'
        split at hc'
        · split at hc'
          · rename_i w hw
            simp only [Except.ok.injEq] at hc'; rw [← hc']; exact ⟨rfl, rfl, fun _ => ⟨w, hw⟩⟩
          · simp at hc'
        · rename_i hn
          simp only [Except.ok.injEq] at hc'; rw [← hc']; exact ⟨rfl, rfl, fun h => absurd h hn⟩
      rw [← hr] at hk ⊢
      simp only at hk
      refine ⟨?_, ?_, ?_, ?_⟩
      · simp only; split <;> decide
      · simp only [hs.1]; decide
      · simp [hs.1]
      · simp only [hk, hs.2.1]; exact hs.2.2
    · simp at hc'
  · simp at hr

/-- Numeric columns get a rebuilt codec. -/
theorem chosen_rebuild {ty : ColType} {asDbl longEnv : Bool} {w : Nat} {m? : Option Word} {cells : List Cell}
    {c : Codec} (hty : ty ≠ .string) (h : chosenCodec ty asDbl longEnv w m? cells = .ok c) :
    ∃ k c0, rebuild k ty asDbl c0 = .ok c := by
  unfold chosenCodec at h
  split at h
  · simp at h
  rename_i c0 h0
  unfold optimise at h
  cases ty <;> simp only at h
  · simp [startCodec, defaultCodec] at h0
  · split at h
    · exact ⟨_, _, h⟩
    · simp at h
  · split at h
    · split at h
      · exact ⟨_, _, h⟩
      · simp at h
    · simp at h
  · exact absurd rfl hty
  · split at h
    · exact ⟨_, _, h⟩
    · simp at h
  · exact ⟨_, _, h⟩

theorem mapM_mem {α β : Type} (f : α → Except Err β) (l : List α) (ys : List β) (h : l.mapM f = .ok ys) :
    ∀ x ∈ l, ∃ y, f x = .ok y := by
  induction l generalizing ys with
  | nil => simp
  | cons a l ih =>
    rw [List.mapM_cons] at h
    cases ha : f a with
    | error e => rw [ha] at h; simp [bind, Except.bind] at h
    | ok y =>
      rw [ha] at h
      cases hl : l.mapM f with
      | error e => rw [hl] at h; simp [bind, Except.bind] at h
      | ok zs =>
        intro x hx
        rcases List.mem_cons.mp hx with rfl | hx
        · exact ⟨y, ha⟩
        · exact ih zs hl x hx

theorem InCol.sent_numeric (env : Env) (c : InCol) (hname : LenOk c.name.length) (hty : c.vals.ty ≠ .string)
    (hw : c.vals.words = 1) (hrows : (c.vals.cells env).length = c.vals.rows)
    (hm : LenOk c.vals.members.length ∧ ∀ b ∈ c.vals.members, LenOk b.1.length ∧ InI32 b.2)
    (hmem : c.vals.ty ≠ .bitfield → c.vals.members = []) (hys : ∃ ys, c.vals.alone env = .ok ys) :
    ∃ e, Sent env c.vals.rows c e := by
  obtain ⟨ys, hys⟩ := hys
  unfold Vals.alone colTrip at hys
  split at hys
  · simp at hys
  rename_i k hk
  have hnum := chosen_numeric hty hk
  obtain ⟨kk, c0, hreb⟩ := chosen_rebuild hty hk
  have hcell := mapM_mem _ _ _ hys
  let f : Cell → Cell := fun x => match cellTrip .same env.asDbl c.vals.ty.toInt k x with | .ok y => y | .error _ => [0]
  have hf : ∀ x ∈ c.vals.cells env, cellTrip .same env.asDbl c.vals.ty.toInt k x = .ok (f x) := by
    intro x hx
    obtain ⟨y, hy⟩ := hcell x hx
    simp only [f, hy]
  have htrip : ∀ o, ∀ x ∈ c.vals.cells env, CellTrip o env.asDbl c.vals.ty.toInt k x (f x) :=
    fun o x hx => cellTrip_trip _ _ _ _ _ hnum (hf x hx) o
  have hok : EncCol.Ok env c.vals.rows ⟨c.info, c.data env, k, f⟩ := by
    refine ⟨hrows, by simp [InCol.info, InCol.data], ⟨by simp [InCol.info], ?_, rebuild_save hreb, htrip, ?_⟩, hname, hm.1,
      hm.2, hmem⟩
    · have h8 : 8 * c.vals.words / 8 = c.vals.words := by omega
      simp only [InCol.info, h8]
      exact hk
    · intro _; have := encSize_le k (chosenCodec_kind hk); simpa [InCol.info, hw] using this
  refine ⟨⟨c.info, c.data env, k, f⟩, hok, rfl, rfl, ?_, ?_, ?_, ?_⟩
  · intro r hr
    exact ⟨_, hok.alone rfl rfl, getD_map_get (by rw [hok.rows]; exact hr)⟩
  · exact clone_numeric _ (by rw [reload_kind]; exact hnum)
  · simp [reload_width_numeric _ _ _ hnum, hw]
  · intro r hr
    have hr' : r < (c.vals.cells env).length := by rw [hrows]; exact hr
    have hx : (c.vals.cells env).getD r [] ∈ c.vals.cells env := by
      rw [List.getD_eq_getElem?_getD, List.getElem?_eq_getElem hr']; exact List.getElem_mem hr'
    rw [reload_width_numeric _ _ _ hnum]
    refine Eq.trans (hok.decWidth ((c.vals.cells env).getD r []) hx).symm ?_
    have hkk : (reload env.asDbl c.vals.ty.toInt k).kind.isChars = false := by rw [reload_kind]; exact hnum
    show Codec.decWidth (reload env.asDbl c.vals.ty.toInt k) = 1
    unfold Codec.decWidth
    cases hq : (reload env.asDbl c.vals.ty.toInt k).kind <;> rw [hq] at hkk <;> simp_all [Kind.isChars]

theorem InCol.sent (env : Env) (c : InCol) (hname : LenOk c.name.length) (hok : c.vals.Codable env) :
    ∃ e, Sent env c.vals.rows c e := by
  obtain ⟨name, vals⟩ := c
  cases vals with
  | ints vs =>
    exact InCol.sent_numeric env ⟨name, .ints vs⟩ hname (by simp [Vals.ty]) rfl (by simp [Vals.cells, Vals.rows])
      ⟨by simp [Vals.members]; decide, by simp [Vals.members]⟩ (fun _ => rfl) hok
  | bits ms vs =>
    exact InCol.sent_numeric env ⟨name, .bits ms vs⟩ hname (by simp [Vals.ty]) rfl (by simp [Vals.cells, Vals.rows])
      hok.2 (fun h => absurd rfl h) hok.1
  | reals vs =>
    exact InCol.sent_numeric env ⟨name, .reals vs⟩ hname (by simp [Vals.ty]) rfl (by simp [Vals.cells, Vals.rows])
      ⟨by simp [Vals.members]; decide, by simp [Vals.members]⟩ (fun _ => rfl) hok
  | doubles vs =>
    exact InCol.sent_numeric env ⟨name, .doubles vs⟩ hname (by simp [Vals.ty]) rfl (by simp [Vals.cells, Vals.rows])
      ⟨by simp [Vals.members]; decide, by simp [Vals.members]⟩ (fun _ => rfl) hok
  | strings w vs =>
    obtain ⟨e, he⟩ := InCol.sentOk env ⟨name, .strings w vs⟩ hname hok
    exact ⟨e, he.sent⟩

end Verif
