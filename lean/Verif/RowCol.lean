import Verif.RowRef
import Verif.PropStats

/-
One column on its way through the row writer and the row reader.
-/

namespace Verif

theorem gatherBase_pres (c : Codec) (v : Word) :
    (c.gatherBase v).kind = c.kind ∧ (c.gatherBase v).missing = c.missing ∧ (c.gatherBase v).width = c.width ∧
      (c.gatherBase v).vt = c.vt := by
  unfold Codec.gatherBase; split <;> exact ⟨rfl, rfl, rfl, rfl⟩

theorem gather_pres (c : Codec) (x : Cell) :
    (c.gather x).kind = c.kind ∧ (c.gather x).missing = c.missing ∧ (c.gather x).width = c.width ∧
      (c.gather x).vt = c.vt := by
  unfold Codec.gather
  split
  · exact gatherBase_pres c _
  all_goals first
    | exact ⟨rfl, rfl, rfl, rfl⟩
    | exact gatherBase_pres c _

theorem gatherAll_pres (c : Codec) (xs : List Cell) :
    (c.gatherAll xs).kind = c.kind ∧ (c.gatherAll xs).missing = c.missing ∧ (c.gatherAll xs).width = c.width ∧
      (c.gatherAll xs).vt = c.vt := by
  induction xs generalizing c with
  | nil => exact ⟨rfl, rfl, rfl, rfl⟩
  | cons x xs ih =>
    have h1 := ih (c.gather x)
    have h2 := gather_pres c x
    simp only [Codec.gatherAll, List.foldl_cons] at h1 ⊢
    rw [h1.1, h1.2.1, h1.2.2.1, h1.2.2.2]
    exact h2

theorem setMissing_pres {c c' : Codec} {v : Word} (h : c.setMissing v = .ok c') :
    c'.kind = c.kind ∧ c'.missing = v ∧ c'.width = c.width ∧ c'.vt = c.vt ∧ c'.min = v ∧ c'.max = v ∧
      c'.hasMissing = c.hasMissing := by
  unfold Codec.setMissing at h
  split at h
  · split at h
    · split at h
      · simp only [Except.ok.injEq] at h; subst h; exact ⟨rfl, rfl, rfl, rfl, rfl, rfl, rfl⟩
      · simp at h
    · simp only [Except.ok.injEq] at h; subst h; exact ⟨rfl, rfl, rfl, rfl, rfl, rfl, rfl⟩
  · simp at h

theorem rebuild_pres {k : Kind} {ty : ColType} {asDbl : Bool} {c c' : Codec} (h : rebuild k ty asDbl c = .ok c') :
    c'.kind = k ∧ c'.missing = c.missing ∧ c'.width = 1 ∧ c'.vt = vtOf k ty.toInt asDbl := by
  unfold rebuild at h
  split at h
  · rename_i c1 h1
    simp only [Except.ok.injEq] at h
    subst h
    obtain ⟨a, b, d, e, _⟩ := setMissing_pres h1
    exact ⟨a, b, d, e⟩
  · simp at h

/-- What a column starts with: the width asked for, and nothing seen yet. -/
theorem startCodec_pres {ty : ColType} {asDbl : Bool} {w : Nat} {m? : Option Word} {c : Codec}
    (h : startCodec ty asDbl w m? = .ok c) :
    c.width = w ∧ (ty ≠ .string → w = 1) ∧ c.min = c.missing ∧ c.max = c.missing ∧ c.hasMissing = 0 := by
  unfold startCodec at h
  have hd : ∀ c0, defaultCodec ty asDbl = .ok c0 → c0.width = 1 ∧ (ty ≠ .string → c0.kind.isChars = false) ∧
      c0.min = c0.missing ∧ c0.max = c0.missing ∧ c0.hasMissing = 0 := by
    intro c0 h0
    unfold defaultCodec at h0
    cases ty <;> simp only [Except.ok.injEq, reduceCtorEq] at h0
    · subst h0; exact ⟨rfl, fun _ => rfl, rfl, rfl, rfl⟩
    · subst h0; exact ⟨rfl, fun _ => rfl, rfl, rfl, rfl⟩
    · subst h0; exact ⟨rfl, fun h => absurd rfl h, rfl, rfl, rfl⟩
    · obtain ⟨a, b, d, e, f, g, i⟩ := setMissing_pres h0
      exact ⟨d, fun _ => by rw [a]; rfl, by rw [f, b], by rw [g, b], by rw [i]; rfl⟩
    · subst h0; exact ⟨rfl, fun _ => rfl, rfl, rfl, rfl⟩
  split at h
  · simp at h
  rename_i c0 h0
  obtain ⟨d1, d2, d3, d4, d5⟩ := hd c0 h0
  split at h
  · simp at h
  rename_i c1 h1
  have h1' : c1.width = w ∧ (ty ≠ .string → w = 1) ∧ c1.min = c1.missing ∧ c1.max = c1.missing ∧ c1.hasMissing = 0 := by
    unfold Codec.setWidth at h1
    split at h1
    · rename_i hc
      simp only [Except.ok.injEq] at h1; subst h1
      exact ⟨rfl, fun ht => absurd hc (by rw [d2 ht]; simp), d3, d4, d5⟩
    · split at h1
      · rename_i hw
        simp only [Except.ok.injEq] at h1; subst h1
        exact ⟨by rw [d1, hw], fun _ => hw, d3, d4, d5⟩
      · simp at h1
  cases m? with
  | none => simp only [Except.ok.injEq] at h; subst h; exact h1'
  | some m =>
    obtain ⟨a, b, d, e, f, g, i⟩ := setMissing_pres h
    exact ⟨by rw [d]; exact h1'.1, h1'.2.1, by rw [f, b], by rw [g, b], by rw [i]; exact h1'.2.2.2.2⟩

theorem startCodec_reset {ty : ColType} {asDbl : Bool} {w : Nat} {m? : Option Word} {c : Codec}
    (h : startCodec ty asDbl w m? = .ok c) : c.resetStats = c := by
  obtain ⟨_, _, h3, h4, h5⟩ := startCodec_pres h
  unfold Codec.resetStats
  cases c
  simp_all

/-- What the choice of a codec keeps. -/
theorem optimise_pres {ty : ColType} {asDbl longEnv : Bool} {c c' : Codec}
    (h : optimise ty asDbl longEnv c = .ok c') (hi : ty ≠ .ignore) :
    c'.missing = c.missing ∧ c'.vt = vtOf c'.kind ty.toInt asDbl ∧ (ty ≠ .string → c'.width = 1) ∧
      (ty = .string → c'.width = c.width) := by
  unfold optimise at h
  cases ty <;> simp only at h
  · exact absurd rfl hi
  · split at h
    · obtain ⟨a, b, d, e⟩ := rebuild_pres h
      exact ⟨b, by rw [e, a], fun _ => d, by simp⟩
    · simp at h
  · split at h
    · split at h
      · obtain ⟨a, b, d, e⟩ := rebuild_pres h
        exact ⟨b, by rw [e, a], fun _ => d, by simp⟩
      · simp at h
    · simp at h
  · split at h
    · split at h
      · rename_i c1 h1
        obtain ⟨a, b, d, e⟩ := rebuild_pres h1
        split at h
        · rename_i hk
          simp only [Except.ok.injEq] at h
          subst h
          refine ⟨b, by rw [e, a], by simp, fun _ => ?_⟩
          have : c.width = 1 := by
            unfold strKind at hk
            split at hk
            · rename_i hh; exact hh.2
            · split at hk
              · simp at hk
              · split at hk <;> simp at hk
          rw [d, this]
        · simp only [Except.ok.injEq] at h
          subst h
          exact ⟨b, by show c1.vt = vtOf c1.kind _ _; rw [e, a], by simp, fun _ => rfl⟩
      · simp at h
    · simp at h
  · split at h
    · obtain ⟨a, b, d, e⟩ := rebuild_pres h
      exact ⟨b, by rw [e, a], fun _ => d, by simp⟩
    · simp at h
  · obtain ⟨a, b, d, e⟩ := rebuild_pres h
    exact ⟨b, by rw [e, a], fun _ => d, by simp⟩

theorem chosen_pres {ty : ColType} {asDbl longEnv : Bool} {w : Nat} {m? : Option Word} {cells : List Cell} {c c0 : Codec}
    (hi : ty ≠ .ignore) (h0 : startCodec ty asDbl w m? = .ok c0) (h : chosenCodec ty asDbl longEnv w m? cells = .ok c) :
    c.missing = c0.missing ∧ c.width = w ∧ c.vt = vtOf c.kind ty.toInt asDbl := by
  unfold chosenCodec at h
  rw [h0] at h
  obtain ⟨a, b, d, e⟩ := optimise_pres h hi
  obtain ⟨_, g2, g3, _⟩ := gatherAll_pres c0 cells
  obtain ⟨s1, s2, _⟩ := startCodec_pres h0
  refine ⟨by rw [a, g2], ?_, b⟩
  by_cases ht : ty = .string
  · rw [e ht, g3, s1]
  · rw [d ht, s2 ht]

theorem reload_missing (asDbl : Bool) (ty : Int) (c : Codec) :
    (reload asDbl ty c).missing = c.missing ∧ (reload asDbl ty c).vt = vtOf c.kind ty asDbl := by
  unfold reload
  cases h : c.kind <;> exact ⟨rfl, rfl⟩

/-- The reader's missing value is the writer's. -/
theorem reload_missingWord {asDbl : Bool} {ty : Int} {c : Codec} (h : c.vt = vtOf c.kind ty asDbl) :
    (reload asDbl ty c).missingWord = c.missingWord := by
  unfold Codec.missingWord
  rw [reload_kind, (reload_missing asDbl ty c).1, (reload_missing asDbl ty c).2, h]

/-! ### Columns with an optional missing value set by the user -/

/-- Values that are preserved, when the user has set missing value `m?` (none: the default). -/
def Vals.OkMiss (env : Env) (m? : Option Word) : Vals → Prop
  | .ints vs => (m? = none ∨ ∃ m, InI32 m ∧ m? = some (ofInt m)) ∧ Vals.Ok env (.ints vs)
  | .bits ms vs => (m? = none ∨ ∃ m, InI32 m ∧ m? = some (ofInt m)) ∧ Vals.Ok env (.bits ms vs)
  | .reals vs => isNaN (m?.getD realMDI) = false ∧ RealsOk (m?.getD realMDI) vs
  | .doubles vs => isNaN (m?.getD realMDI) = false ∧ DoublesOk (m?.getD realMDI) vs
  | .strings w vs => m? = none ∧ Vals.Ok env (.strings w vs)

/-- What row `r` of the column is read as. -/
def Vals.GivesMiss (env : Env) (m? : Option Word) (r : Nat) (y : Cell) : Vals → Prop
  | .reals vs => ∃ x x', vs[r]? = some x ∧ y = [x'] ∧ RealOut (m?.getD realMDI) vs x x'
  | v => v.Gives env r y

theorem Vals.OkMiss.none_iff (env : Env) (v : Vals) : v.OkMiss env none ↔ v.Ok env := by
  cases v <;> simp [Vals.OkMiss, Vals.Ok, realMDI_nan]

theorem Vals.GivesMiss.none_iff (env : Env) (v : Vals) (r : Nat) (y : Cell) :
    v.GivesMiss env none r y ↔ v.Gives env r y := by
  cases v <;> rfl

/-- The column travels: the codec chosen for it, what comes back. -/
structure ColSent (env : Env) (v : Vals) (m? : Option Word) (c : Codec) (back : Cell → Cell) : Prop where
  chosen : chosenCodec v.ty env.asDbl env.longEnv v.words m? (v.cells env) = .ok c
  save : SaveOk env.asDbl v.ty.toInt c
  trip : ∀ o, ∀ x ∈ v.cells env, CellTrip o env.asDbl v.ty.toInt c x (back x)
  size : c.encSize ≤ 8 * v.words
  exact : ∀ x ∈ v.cells env, (back x).length = (reload env.asDbl v.ty.toInt c).width
  pos : 1 ≤ (reload env.asDbl v.ty.toInt c).width
  le : (reload env.asDbl v.ty.toInt c).width ≤ v.words
  gives : ∀ (r : Nat) (x : Cell), (v.cells env)[r]? = some x → v.GivesMiss env m? r (back x)

theorem Vals.ty_ne (v : Vals) : v.ty ≠ .ignore := by cases v <;> simp [Vals.ty]

theorem Vals.sentMiss (env : Env) (v : Vals) (m? : Option Word) (h : v.OkMiss env m?) (hne : v.rows ≠ 0) :
    ∃ c back, ColSent env v m? c back := by
  have hmiss : ∀ m? : Option Word, (m? = none ∨ ∃ m, InI32 m ∧ m? = some (ofInt m)) →
      ∃ m, InI32 m ∧ (m? = some (ofInt m) ∨ (m? = none ∧ m = 2147483647)) := by
    intro m? h
    rcases h with h | ⟨m, h1, h2⟩
    · exact ⟨2147483647, by decide, Or.inr ⟨h, rfl⟩⟩
    · exact ⟨m, h1, Or.inl h2⟩
  have hget : ∀ m? : Option Word, m? = some (m?.getD realMDI) ∨ (m? = none ∧ m?.getD realMDI = realMDI) := by
    intro m?; cases m? <;> simp
  cases v with
  | ints vs =>
    obtain ⟨h1, h2⟩ := h
    obtain ⟨m, hm, hm?⟩ := hmiss m? h1
    obtain ⟨c, e1, e2, e3, _, _, e6⟩ := int_column .integer (Or.inl rfl) env.asDbl env.longEnv m hm m? hm? vs h2
    have hnum := chosen_numeric (by simp) e1
    refine ⟨c, id, e1, e2, ?_, ?_, ?_, ?_, by rw [reload_width_numeric _ _ _ hnum]; exact Nat.le_refl 1, ?_⟩
    · intro o x hx
      simp only [Vals.cells, List.mem_map] at hx
      obtain ⟨i, hi, rfl⟩ := hx
      exact e6 o i hi
    · have := encSize_le c (chosenCodec_kind e1); simpa [Vals.words] using this
    · intro x hx
      simp only [Vals.cells, List.mem_map] at hx
      obtain ⟨i, hi, rfl⟩ := hx
      rw [reload_width_numeric _ _ _ hnum]; rfl
    · rw [reload_width_numeric _ _ _ hnum]
    · intro r x hx
      simp only [Vals.cells, List.getElem?_map, Option.map_eq_some_iff] at hx
      obtain ⟨i, hi, rfl⟩ := hx
      exact ⟨i, hi, rfl⟩
  | bits ms vs =>
    obtain ⟨h1, h2⟩ := h
    obtain ⟨m, hm, hm?⟩ := hmiss m? h1
    obtain ⟨c, e1, e2, e3, _, _, e6⟩ := int_column .bitfield (Or.inr rfl) env.asDbl env.longEnv m hm m? hm? vs h2.1
    have hnum := chosen_numeric (by simp) e1
    refine ⟨c, id, e1, e2, ?_, ?_, ?_, ?_, by rw [reload_width_numeric _ _ _ hnum]; exact Nat.le_refl 1, ?_⟩
    · intro o x hx
      simp only [Vals.cells, List.mem_map] at hx
      obtain ⟨i, hi, rfl⟩ := hx
      exact e6 o i hi
    · have := encSize_le c (chosenCodec_kind e1); simpa [Vals.words] using this
    · intro x hx
      simp only [Vals.cells, List.mem_map] at hx
      obtain ⟨i, hi, rfl⟩ := hx
      rw [reload_width_numeric _ _ _ hnum]; rfl
    · rw [reload_width_numeric _ _ _ hnum]
    · intro r x hx
      simp only [Vals.cells, List.getElem?_map, Option.map_eq_some_iff] at hx
      obtain ⟨i, hi, rfl⟩ := hx
      exact ⟨i, hi, rfl⟩
  | reals vs =>
    obtain ⟨h1, h2⟩ := h
    obtain ⟨c, e1, e2, e3, _, f, hf, e6⟩ := real_column env.asDbl env.longEnv _ h1 m? (hget m?) vs h2
    have hnum := chosen_numeric (by simp) e1
    refine ⟨c, fun x => [f (cellWord x)], e1, e2, ?_, ?_, ?_, ?_, by rw [reload_width_numeric _ _ _ hnum]; exact Nat.le_refl 1, ?_⟩
    · intro o x hx
      simp only [Vals.cells, List.mem_map] at hx
      obtain ⟨i, hi, rfl⟩ := hx
      exact e6 o i hi
    · have := encSize_le c (chosenCodec_kind e1); simpa [Vals.words] using this
    · intro x hx
      rw [reload_width_numeric _ _ _ hnum]; rfl
    · rw [reload_width_numeric _ _ _ hnum]
    · intro r x hx
      simp only [Vals.cells, List.getElem?_map, Option.map_eq_some_iff] at hx
      obtain ⟨i, hi, rfl⟩ := hx
      exact ⟨i, f i, hi, rfl, hf i (List.mem_of_getElem? hi)⟩
  | doubles vs =>
    obtain ⟨h1, h2⟩ := h
    obtain ⟨c, e1, e2, e3, _, _, e6⟩ := double_column env.asDbl env.longEnv _ h1 m? (hget m?) vs h2
    have hnum := chosen_numeric (by simp) e1
    refine ⟨c, id, e1, e2, ?_, ?_, ?_, ?_, by rw [reload_width_numeric _ _ _ hnum]; exact Nat.le_refl 1, ?_⟩
    · intro o x hx
      simp only [Vals.cells, List.mem_map] at hx
      obtain ⟨i, hi, rfl⟩ := hx
      exact e6 o i hi
    · have := encSize_le c (chosenCodec_kind e1); simpa [Vals.words] using this
    · intro x hx
      simp only [Vals.cells, List.mem_map] at hx
      obtain ⟨i, hi, rfl⟩ := hx
      rw [reload_width_numeric _ _ _ hnum]; rfl
    · rw [reload_width_numeric _ _ _ hnum]
    · intro r x hx
      simp only [Vals.cells, List.getElem?_map, Option.map_eq_some_iff] at hx
      obtain ⟨i, hi, rfl⟩ := hx
      exact ⟨i, hi, rfl⟩
  | strings w vs =>
    obtain ⟨rfl, hw, hlim, hfit, hfew, hemp, hnan⟩ := h
    have hvs : vs ≠ [] := by intro h; rw [h] at hne; exact hne rfl
    obtain ⟨c, w', h1, h2, h3, h4, h5, h6, h7, h8⟩ := str_column env.asDbl env.longEnv w vs
      ⟨hw, hlim, hfit, hfew, fun a b => hemp a b hvs⟩ hvs
    refine ⟨c, fun x => x.take w', h1, h2, ?_, ?_, ?_, by show 1 ≤ (reload _ ColType.string.toInt c).width; rw [h6]; exact h3,
      by show (reload _ ColType.string.toInt c).width ≤ w; rw [h6]; exact h4, ?_⟩
    · intro o x hx
      simp only [Vals.cells, List.mem_map] at hx
      obtain ⟨s, hs, rfl⟩ := hx
      simp only [wordsOf_take w' w s h4]
      exact h8 o s hs
    · have := encSize_le c (chosenCodec_kind h1)
      simp only [Vals.words]; omega
    · intro x hx
      simp only [Vals.cells, List.mem_map] at hx
      obtain ⟨s, hs, rfl⟩ := hx
      show _ = (reload _ ColType.string.toInt c).width
      rw [wordsOf_take w' w s h4, wordsOf_length, h6]
    · intro r x hx
      simp only [Vals.cells, List.getElem?_map, Option.map_eq_some_iff] at hx
      obtain ⟨s, hs, rfl⟩ := hx
      exact ⟨s, w', hs, h7 s (List.mem_of_getElem? hs), by rw [wordsOf_take w' w s h4]⟩

/-! ### Cells that are not written because they equal what both sides start with -/

/-- What the writer starts the first frame with. -/
def StartCell (env : Env) (v : Vals) (m? : Option Word) (z : Cell) : Prop :=
  ∃ c, startCodec v.ty env.asDbl v.words m? = .ok c ∧ initCell c = .ok z

/-- What the writer starts a later frame with: the missing value of a codec chosen before. -/
def LaterCell (env : Env) (v : Vals) (m? : Option Word) (z : Cell) : Prop :=
  ∃ cells c, chosenCodec v.ty env.asDbl env.longEnv v.words m? cells = .ok c ∧ initCell c = .ok z

theorem intWord_inj (asDbl : Bool) (i j : Int) (hi : InI32 i) (hj : InI32 j) (h : intWord asDbl i = intWord asDbl j) :
    i = j := by
  have h1 := toDbl_intWord asDbl i hi
  rw [h, toDbl_intWord asDbl j hj] at h1
  have h2 := fcast_ofInt (-9223372036854775808) 9223372036854775807 i hi.small (by have := hi.1; omega) (by have := hi.2; omega)
  have h3 := fcast_ofInt (-9223372036854775808) 9223372036854775807 j hj.small (by have := hj.1; omega) (by have := hj.2; omega)
  rw [← h1, h3] at h2
  simpa using h2.symm

theorem str_not_missing (w : Nat) (s : Str) (hw : 1 ≤ w) (hs : NulFree s) (l : List Word) :
    wordsOf w s ≠ realMDI :: l := by
  intro h
  cases w with
  | zero => omega
  | succ w =>
    simp only [wordsOf, List.cons.injEq] at h
    have h1 := h.1
    have hb : wordBytes (wordOfBytes (s.take 8)) = wordBytes realMDI := by rw [h1]
    rw [wordBytes_wordOfBytes_pad _ (by simp)] at hb
    have hm : wordBytes realMDI = [0, 0, 0xc0, 0xff, 0xff, 0xff, 0xdf, 0xc1] := by
      unfold realMDI; decide +kernel
    rw [hm] at hb
    cases s with
    | nil => simp at hb
    | cons b s =>
      simp only [List.take_succ_cons, List.cons_append, List.cons.injEq] at hb
      exact hs b (by simp) hb.1

theorem initCell_word {c : Codec} {z : Cell} (h : initCell c = .ok z) :
    ∃ w, c.missingWord = .ok w ∧ z = w :: List.replicate (c.width - 1) 0 := by
  unfold initCell at h
  split at h
  · simp at h
  · rename_i m hm; simp only [Except.ok.injEq] at h; exact ⟨m, hm, h.symm⟩

/-- Missing word of an integer codec. -/
theorem int_missingWord {asDbl : Bool} {m : Int} (hm : InI32 m) {c : Codec} (hvt : c.vt = vtI asDbl)
    (hms : c.missing = ofInt m) (hk : c.kind.isInt = true ∧ c.kind ≠ .realConstOrMissing) :
    c.missingWord = .ok (intWord asDbl m) := by
  unfold Codec.missingWord
  rw [if_pos (by simp [hk.1, hk.2]), hms, hvt, toVT_ofInt asDbl m hm]

theorem intKind_hasMissing (n : Int) : (intKind true n).isInt = true ∧ intKind true n ≠ .realConstOrMissing := by
  unfold intKind; simp only [if_true]
  split <;> (try split) <;> (try split) <;> simp [Kind.isInt]

theorem real_missingWord {c : Codec} (hk : c.kind.isRealKind = true) : c.missingWord = .ok c.missing := by
  unfold Codec.missingWord
  cases h : c.kind <;> simp_all [Kind.isRealKind, Kind.isInt]

theorem realKind_isReal {c : Codec} {k : Kind} (h : realKind c = .ok k) : k.isRealKind = true := by
  unfold realKind at h
  split at h
  · simp only [Except.ok.injEq] at h; subst h; split <;> rfl
  · split at h
    · split at h
      · simp at h
      · simp only [Except.ok.injEq] at h; subst h; rfl
    · split at h <;> (simp only [Except.ok.injEq] at h; subst h; rfl)

theorem chosen_isReal {ty : ColType} (hty : ty = .real ∨ ty = .double) {asDbl longEnv : Bool} {w : Nat} {m? : Option Word}
    {cells : List Cell} {c : Codec} (h : chosenCodec ty asDbl longEnv w m? cells = .ok c) : c.kind.isRealKind = true := by
  unfold chosenCodec at h
  split at h
  · simp at h
  rename_i c0 h0
  unfold optimise at h
  rcases hty with rfl | rfl
  · simp only at h
    split at h
    · split at h
      · rename_i k hk
        rw [rebuild_kind h]; exact realKind_isReal hk
      · simp at h
    · simp at h
  · simp only at h
    rw [rebuild_kind h]
    split
    · split <;> rfl
    · rfl

/-- The reader's first cell for a column, if one word wide. -/
theorem firstCell_one {junk : Junk} {t p : Nat} {c : Codec} {w : Word} (hm : c.missingWord = .ok w) (hw : c.width = 1)
    (hb : ¬ c.Blank) : firstCell junk t p c = .ok [w] := by
  unfold firstCell
  rw [hm]
  dsimp only
  rw [if_neg hb]
  simp [hw]

theorem firstCell_ok {junk : Junk} {t p : Nat} {c : Codec} {w : Word} (hm : c.missingWord = .ok w) (hw : 1 ≤ c.width)
    (hb : ¬ c.Blank) : ∃ z, firstCell junk t p c = .ok z ∧ z.length = c.width := by
  unfold firstCell
  rw [hm]
  dsimp only
  rw [if_neg hb]
  refine ⟨_, rfl, ?_⟩
  simp; omega

theorem notBlank_numeric (asDbl : Bool) (ty : Int) (c : Codec) (h : c.kind.isChars = false) : ¬ (reload asDbl ty c).Blank := by
  rintro ⟨h1, _⟩
  rw [reload_kind] at h1
  rw [h1] at h
  cases h

/-- A column with rows is not stored as an empty long constant string. -/
theorem ColSent.notBlank {env : Env} {v : Vals} {m? : Option Word} {c : Codec} {back : Cell → Cell}
    (h : ColSent env v m? c back) (hne : v.rows ≠ 0) : ¬ (reload env.asDbl v.ty.toInt c).Blank := by
  intro hb
  obtain ⟨x, hx⟩ : ∃ x, x ∈ v.cells env := by
    cases hc : v.cells env with
    | nil => have := v.cells_length env; rw [hc] at this; simp at this; omega
    | cons x xs => exact ⟨x, by simp⟩
  obtain ⟨bs, _, _, h3⟩ := h.trip .same x hx
  have h4 := h3 []
  obtain ⟨_, _, h5⟩ := dec_consumes .same _ _ _ _ h4
  have h6 := h.exact x hx
  have h7 := h.pos
  obtain ⟨b1, b2⟩ := hb
  have h8 : (reload env.asDbl v.ty.toInt c).decWidth = 0 := by
    unfold Codec.decWidth
    rw [b1]
    dsimp only
    cases hs : (reload env.asDbl v.ty.toInt c).strings with
    | nil => rfl
    | cons s ss => rw [hs] at b2; simp at b2; simp [b2]
  omega

/-- Every chosen codec has a missing value the reader can represent. -/
theorem ColSent.missing {env : Env} {v : Vals} {m? : Option Word} {c : Codec} {back : Cell → Cell}
    (h : ColSent env v m? c back) : ∃ w, (reload env.asDbl v.ty.toInt c).missingWord = .ok w ∧ c.missingWord = .ok w := by
  have hst : ∃ c0, startCodec v.ty env.asDbl v.words m? = .ok c0 := by
    have := h.chosen
    unfold chosenCodec at this
    split at this
    · simp at this
    · rename_i c0 h0; exact ⟨c0, h0⟩
  obtain ⟨c0, h0⟩ := hst
  obtain ⟨p1, p2, p3⟩ := chosen_pres v.ty_ne h0 h.chosen
  have hsave := h.save.cast
  rw [reload_missingWord p3]
  unfold Codec.missingWord
  by_cases hk : (c.kind.isInt && c.kind != .realConstOrMissing) = true
  · rw [if_pos hk]
    simp only [Bool.and_eq_true] at hk
    obtain ⟨w, hw⟩ := hsave hk.1
    rw [p3]
    exact ⟨w, hw, hw⟩
  · rw [if_neg hk]; exact ⟨_, rfl, rfl⟩

/-- Strings are never what the writer starts with. -/
theorem string_not_skipped {env : Env} {w : Nat} {vs : List Str} {m? : Option Word} (hok : (Vals.strings w vs).OkMiss env m?) (z : Cell)
    (hz : StartCell env (.strings w vs) m? z ∨ (m? = none ∧ LaterCell env (.strings w vs) none z)) (r : Nat)
    (hr : ((Vals.strings w vs).cells env)[r]? = some z) : False := by
  obtain ⟨rfl, hw, hlim, hfit, _⟩ := hok
  simp only [Vals.cells, List.getElem?_map, Option.map_eq_some_iff] at hr
  obtain ⟨s, s1, s2⟩ := hr
  have hnf := (hfit s (List.mem_of_getElem? s1)).2
  have hz' : ∃ l, z = realMDI :: l := by
    obtain ⟨c2, t1, t2, t3, _⟩ := startCodec_str env.asDbl w
    rcases hz with ⟨c1, z1, z2⟩ | ⟨hn, cells, c1, z1, z2⟩
    · simp only [Vals.ty, Vals.words] at z1
      rw [t1] at z1
      simp only [Except.ok.injEq] at z1
      subst z1
      obtain ⟨w', r1, r2⟩ := initCell_word z2
      unfold Codec.missingWord at r1
      rw [t2, t3] at r1
      simp [Kind.isInt] at r1
      exact ⟨_, by rw [r2, ← r1]⟩
    · simp only [Vals.ty, Vals.words] at z1
      obtain ⟨q1, q2, _⟩ := chosen_pres (by simp) t1 z1
      obtain ⟨w', r1, r2⟩ := initCell_word z2
      unfold Codec.missingWord at r1
      have hk : c1.kind.isInt = false := by
        unfold chosenCodec at z1
        rw [t1] at z1
        unfold optimise at z1
        simp only at z1
        split at z1
        · split at z1
          · rename_i c3 h3
            have hk3 := rebuild_kind h3
            have hsk : ∀ n w, (strKind env.longEnv n w).isInt = false := by
              intro n w; unfold strKind; split <;> (try rfl); split <;> (try rfl); split <;> rfl
            split at z1
            · simp only [Except.ok.injEq] at z1; rw [← z1, hk3]; exact hsk _ _
            · simp only [Except.ok.injEq] at z1; rw [← z1]; show c3.kind.isInt = false; rw [hk3]; exact hsk _ _
          · simp at z1
        · simp at z1
      rw [hk, q1, t3] at r1
      simp at r1
      exact ⟨_, by rw [r2, ← r1]⟩
  obtain ⟨l, hl⟩ := hz'
  rw [hl] at s2
  exact str_not_missing w s hw hnf l s2

/-- A cell equal to what the writer starts with is what the reader starts with: same missing value. -/
theorem ColSent.skip {env : Env} {v : Vals} {m? : Option Word} {c : Codec} {back : Cell → Cell}
    (h : ColSent env v m? c back) (hok : v.OkMiss env m?) (z : Cell)
    (hz : StartCell env v m? z ∨ (m? = none ∧ LaterCell env v none z)) (r : Nat) (hr : (v.cells env)[r]? = some z)
    (junk : Junk) (t p : Nat) :
    firstCell junk t p (reload env.asDbl v.ty.toInt c) = .ok (back z) := by
  have hst : ∃ c0, startCodec v.ty env.asDbl v.words m? = .ok c0 := by
    have := h.chosen
    unfold chosenCodec at this
    split at this
    · simp at this
    · rename_i c0 h0; exact ⟨c0, h0⟩
  obtain ⟨c0, h0⟩ := hst
  obtain ⟨p1, p2, p3⟩ := chosen_pres v.ty_ne h0 h.chosen
  have hmw := reload_missingWord (ty := v.ty.toInt) p3
  have hmdi : InI32 2147483647 := by decide
  have hmiss : ∀ m? : Option Word, (m? = none ∨ ∃ m, InI32 m ∧ m? = some (ofInt m)) →
      ∃ m, InI32 m ∧ (m? = some (ofInt m) ∨ (m? = none ∧ m = 2147483647)) := by
    intro m? h
    rcases h with h | ⟨m, h1, h2⟩
    · exact ⟨2147483647, by decide, Or.inr ⟨h, rfl⟩⟩
    · exact ⟨m, h1, Or.inl h2⟩
  have hget : ∀ m? : Option Word, m? = some (m?.getD realMDI) ∨ (m? = none ∧ m?.getD realMDI = realMDI) := by
    intro m?; cases m? <;> simp
  -- integers
  have hint : ∀ (ty : ColType) (hty : ty = .integer ∨ ty = .bitfield) (is : List Int) (hvty : v.ty = ty)
      (hw1 : v.words = 1) (hcells : v.cells env = is.map (fun i => [intWord env.asDbl i]))
      (hm? : m? = none ∨ ∃ m, InI32 m ∧ m? = some (ofInt m)) (his : ∀ i ∈ is, InI32 i)
      (hg : ∀ y, v.GivesMiss env m? r y → ∃ i, is[r]? = some i ∧ y = [intWord env.asDbl i]),
      firstCell junk t p (reload env.asDbl v.ty.toInt c) = .ok (back z) := by
    intro ty hty is hvty hw1 hcells hm? his hg
    obtain ⟨m, hm, hmm⟩ := hmiss m? hm?
    obtain ⟨c', e1, e2, e3, e4, ⟨lo, hi, _, _, _, e5, _⟩, _⟩ := int_column ty hty env.asDbl env.longEnv m hm m? hmm is his
    have hcc := h.chosen
    rw [hvty, hw1, hcells, e1] at hcc
    simp only [Except.ok.injEq] at hcc
    subst hcc
    rw [hcells, List.getElem?_map, Option.map_eq_some_iff] at hr
    obtain ⟨i, hi1, rfl⟩ := hr
    have hii := his i (List.mem_of_getElem? hi1)
    have him : i = m := by
      rcases hz with ⟨c1, z1, z2⟩ | ⟨hn, cells, c1, z1, z2⟩
      · rw [hvty, hw1] at z1
        obtain ⟨c2, s1, s2, s3, s4, _⟩ := startCodec_int ty hty env.asDbl m hm m? hmm
        rw [s1] at z1
        simp only [Except.ok.injEq] at z1
        subst z1
        obtain ⟨w, q1, q2⟩ := initCell_word z2
        rw [int_missingWord hm s3 s4 (by rw [s2]; simp [Kind.isInt])] at q1
        simp only [Except.ok.injEq] at q1
        simp only [List.cons.injEq] at q2
        rw [← q1] at q2
        exact intWord_inj _ _ _ hii hm q2.1
      · have hm2 : m = 2147483647 := by
          rcases hmm with h | h
          · rw [hn] at h; simp at h
          · exact h.2
        subst hm2
        rw [hvty, hw1] at z1
        obtain ⟨c2, s1, s2, s3, s4, _⟩ := startCodec_int ty hty env.asDbl _ hm none (Or.inr ⟨rfl, rfl⟩)
        obtain ⟨q1, _, q3⟩ := chosen_pres (by rcases hty with rfl | rfl <;> simp) s1 z1
        obtain ⟨w, r1, r2⟩ := initCell_word z2
        simp only [List.cons.injEq] at r2
        unfold Codec.missingWord at r1
        have hkv : c1.kind.hasVT = true := by
          unfold chosenCodec at z1
          rw [s1] at z1
          unfold optimise at z1
          have hk2 : ∀ b n, (intKind b n).hasVT = true := by
            intro b n
            unfold intKind; split <;> split <;> (try rfl) <;> split <;> (try rfl) <;> split <;> rfl
          rcases hty with rfl | rfl <;> simp only at z1 <;> split at z1
          · rw [rebuild_kind z1]; exact hk2 _ _
          · simp at z1
          · rw [rebuild_kind z1]; exact hk2 _ _
          · simp at z1
        rw [q1, s4, q3, vtOf_int _ hkv ty hty] at r1
        split at r1
        · rw [toVT_ofInt env.asDbl _ hm] at r1
          simp only [Except.ok.injEq] at r1
          rw [← r1] at r2
          exact intWord_inj _ _ _ hii hm r2.1
        · simp only [Except.ok.injEq] at r1
          rw [← r1] at r2
          cases hd : env.asDbl with
          | true =>
            rw [hd] at r2
            have r3 := r2.1
            unfold intWord at r3
            rw [if_pos rfl] at r3
            apply intWord_inj true _ _ hii hm
            unfold intWord
            rw [if_pos rfl, if_pos rfl]
            exact r3
          | false =>
            rw [hd] at r2
            have h1 : (BitVec.ofInt 64 i) = ofInt 2147483647 := r2.1
            have h2 : ¬ (ofInt 2147483647).toInt < 2147483648 := by decide +kernel
            have h3 : (BitVec.ofInt 64 i).toInt = i := by
              rw [BitVec.toInt_ofInt]
              have := hii.1; have := hii.2
              rw [Int.bmod_eq_of_le] <;> omega
            rw [h1] at h3
            have := hii.2
            omega
    subst him
    have hmem : i ∈ is := List.mem_of_getElem? hi1
    have hk := intKind_hasMissing (hi - lo)
    rw [show (decide (i ∈ is)) = true by simpa using hmem] at e5
    rw [← e5] at hk
    have hvt : c'.vt = vtI env.asDbl := by
      rw [p3, hvty]
      apply vtOf_int _ _ ty hty
      rw [e5]; unfold intKind; split <;> split <;> (try rfl) <;> split <;> (try rfl) <;> split <;> rfl
    rw [firstCell_one (w := intWord env.asDbl i) (by rw [hmw]; exact int_missingWord hm hvt e4 hk)]
    · obtain ⟨j, j1, j2⟩ := hg _ (h.gives r _ (by rw [hcells, List.getElem?_map, hi1]; rfl))
      rw [hi1] at j1
      simp only [Option.some.injEq] at j1
      subst j1
      rw [j2]
    · exact reload_width_numeric _ _ _ (chosen_numeric (by rw [hvty]; rcases hty with rfl | rfl <;> simp) h.chosen)
    · exact (notBlank_numeric _ _ _ (chosen_numeric (by rw [hvty]; rcases hty with rfl | rfl <;> simp) h.chosen))
  -- reals
  have hreal : ∀ (ty : ColType) (hty : ty = .real ∨ ty = .double) (hvty : v.ty = ty) (hw1 : v.words = 1)
      (hback : z = [m?.getD realMDI] → back z = z),
      firstCell junk t p (reload env.asDbl v.ty.toInt c) = .ok (back z) := by
    intro ty hty hvty hw1 hback
    have hk := chosen_isReal hty (by rw [← hvty]; exact h.chosen)
    obtain ⟨c2, s1, s2, s3, s4, _⟩ := startCodec_real ty hty env.asDbl (m?.getD realMDI) m? (hget m?)
    have hcm : c.missing = m?.getD realMDI := by
      rw [hvty, hw1, s1] at h0
      simp only [Except.ok.injEq] at h0
      subst h0
      rw [p1, s4]
    have hzz : z = [m?.getD realMDI] := by
      rcases hz with ⟨c1, z1, z2⟩ | ⟨hn, cells, c1, z1, z2⟩
      · rw [hvty, hw1, s1] at z1
        simp only [Except.ok.injEq] at z1
        subst z1
        obtain ⟨w, r1, r2⟩ := initCell_word z2
        rw [real_missingWord (by rw [s2]; rfl), s4] at r1
        simp only [Except.ok.injEq] at r1
        have hw2 : c2.width = 1 := (startCodec_pres s1).1
        rw [r2, hw2, ← r1]; rfl
      · subst hn
        rw [hvty, hw1] at z1
        obtain ⟨q1, q2, _⟩ := chosen_pres (by rcases hty with rfl | rfl <;> simp) s1 z1
        obtain ⟨w, r1, r2⟩ := initCell_word z2
        rw [real_missingWord (chosen_isReal hty z1), q1, s4] at r1
        simp only [Except.ok.injEq] at r1
        rw [r2, q2, ← r1]; rfl
    rw [firstCell_one (w := m?.getD realMDI) (by rw [hmw, real_missingWord hk, hcm]), hback hzz, hzz]
    · exact reload_width_numeric _ _ _ (chosen_numeric (by rw [hvty]; rcases hty with rfl | rfl <;> simp) h.chosen)
    · exact (notBlank_numeric _ _ _ (chosen_numeric (by rw [hvty]; rcases hty with rfl | rfl <;> simp) h.chosen))
  cases hv : v with
  | ints vs =>
    rw [← hv]
    rw [hv] at hok
    exact hint .integer (Or.inl rfl) vs (by rw [hv]; rfl) (by rw [hv]; rfl) (by rw [hv]; rfl) hok.1 hok.2
      (by intro y hy; rw [hv] at hy; exact hy)
  | bits ms vs =>
    rw [← hv]
    rw [hv] at hok
    exact hint .bitfield (Or.inr rfl) vs (by rw [hv]; rfl) (by rw [hv]; rfl) (by rw [hv]; rfl) hok.1 hok.2.1
      (by intro y hy; rw [hv] at hy; exact hy)
  | reals vs =>
    rw [← hv]
    have hgz := h.gives r z hr
    rw [hv] at hok hgz hr
    refine hreal .real (Or.inl rfl) (by rw [hv]; rfl) (by rw [hv]; rfl) ?_
    intro hzz
    obtain ⟨x, x', a, b, d⟩ := hgz
    simp only [Vals.cells, List.getElem?_map, Option.map_eq_some_iff] at hr
    obtain ⟨y, y1, y2⟩ := hr
    rw [a] at y1
    simp only [Option.some.injEq] at y1
    subst y1
    rw [← y2] at hzz
    simp only [List.cons.injEq, and_true] at hzz
    rw [b, ← y2]
    unfold RealOut at d
    rw [hzz, if_pos (feq_self hok.1)] at d
    rw [d, hzz]
  | doubles vs =>
    rw [← hv]
    have hgz := h.gives r z hr
    rw [hv] at hok hgz hr
    refine hreal .double (Or.inr rfl) (by rw [hv]; rfl) (by rw [hv]; rfl) ?_
    intro _
    obtain ⟨x, a, b⟩ := hgz
    simp only [Vals.cells, List.getElem?_map, Option.map_eq_some_iff] at hr
    obtain ⟨y, y1, y2⟩ := hr
    rw [a] at y1
    simp only [Option.some.injEq] at y1
    subst y1
    rw [b, y2]
  | strings w vs =>
    rw [hv] at hok hr hz
    exact (string_not_skipped hok z hz r hr).elim

end Verif
