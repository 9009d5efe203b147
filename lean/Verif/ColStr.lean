import Verif.ColReal

/-
Correctness of STRING columns.
-/

namespace Verif

/-- No NUL byte: what can be represented as a C string. -/
def NulFree (s : Str) : Prop := ∀ b ∈ s, b ≠ 0

theorem ofLe_append_zeros (bs : List Byte) (n : Nat) : ofLe (bs ++ List.replicate n 0) = ofLe bs := by
  induction bs with
  | nil =>
    induction n with
    | zero => rfl
    | succ n ih => simp [List.replicate_succ, ofLe] at *; exact ih
  | cons b bs ih => rw [List.cons_append]; unfold ofLe; rw [ih]

theorem wordBytes_wordOfBytes_pad (bs : List Byte) (h : bs.length ≤ 8) :
    wordBytes (wordOfBytes bs) = bs ++ List.replicate (8 - bs.length) 0 := by
  have : wordOfBytes bs = wordOfBytes (bs ++ List.replicate (8 - bs.length) 0) := by
    unfold wordOfBytes; rw [ofLe_append_zeros]
  rw [this]
  apply wordBytes_wordOfBytes
  simp; omega

theorem cellBytes_wordsOf (w : Nat) (s : List Byte) (h : s.length ≤ 8 * w) :
    cellBytes (wordsOf w s) = s ++ List.replicate (8 * w - s.length) 0 := by
  induction w generalizing s with
  | zero =>
    have : s = [] := List.length_eq_zero_iff.mp (by omega)
    subst this; rfl
  | succ w ih =>
    have h1 := wordBytes_wordOfBytes_pad (s.take 8) (by simp)
    have h2 := ih (s.drop 8) (by simp; omega)
    unfold wordsOf
    show wordBytes (wordOfBytes (s.take 8)) ++ cellBytes (wordsOf w (s.drop 8)) = _
    rw [h1, h2]
    rcases Nat.lt_or_ge s.length 8 with hlt | hge
    · rw [List.drop_eq_nil_of_le (by omega), List.take_of_length_le (by omega)]
      simp only [List.nil_append, List.length_nil, List.append_assoc, List.replicate_append_replicate]
      congr 2; omega
    · have hl : (s.take 8).length = 8 := by simp; omega
      rw [hl, Nat.sub_self, List.replicate_zero, List.append_nil, ← List.append_assoc, List.take_append_drop]
      congr 2; simp; omega

theorem cellBytes_length (c : Cell) : (cellBytes c).length = 8 * c.length := by
  induction c with
  | nil => rfl
  | cons a c ih =>
    show (wordBytes a ++ cellBytes c).length = _
    rw [List.length_append, ih]; simp; omega

@[simp] theorem wordsOf_length (w : Nat) (s : List Byte) : (wordsOf w s).length = w := by
  induction w generalizing s with
  | zero => rfl
  | succ w ih => simp [wordsOf, ih]

theorem takeWhile_nulfree (s : Str) (h : NulFree s) (n : Nat) :
    (s ++ List.replicate n 0).takeWhile (fun b => decide (b ≠ 0)) = s := by
  induction s with
  | nil => cases n <;> simp [List.replicate_succ]
  | cons b s ih =>
    have hb : b ≠ 0 := h b (by simp)
    have := ih (fun x hx => h x (by simp [hx]))
    simp only [List.cons_append, List.takeWhile_cons, hb, ne_eq, not_false_eq_true, decide_true, if_true]
    simpa using this

/-- The string of a padded cell is the string. -/
theorem cellStr_wordsOf (w : Nat) (s : Str) (h : s.length ≤ 8 * w) (hn : NulFree s) :
    cellStr w (wordsOf w s) = s := by
  unfold cellStr
  rw [cellBytes_wordsOf w s h, List.take_of_length_le (by simp; omega)]
  exact takeWhile_nulfree s hn _

theorem wordsOf_cellBytes (c : Cell) : wordsOf c.length (cellBytes c) = c := by
  induction c with
  | nil => rfl
  | cons a c ih =>
    show wordOfBytes ((wordBytes a ++ cellBytes c).take 8) :: wordsOf c.length ((wordBytes a ++ cellBytes c).drop 8) = _
    rw [List.take_append_of_le_length (by simp), List.take_of_length_le (by simp), wordOfBytes_wordBytes,
      List.drop_append_of_le_length (by simp), List.drop_eq_nil_of_le (by simp), List.nil_append, ih]

/-- Statistics of a string column. -/
theorem str_stats (w : Nat) (ss : List Str) (hs : ∀ s ∈ ss, s.length ≤ 8 * w ∧ NulFree s) (c : Codec)
    (hk : c.kind = .chars) (hw : c.width = w) (hst : c.strings.Nodup) :
    let c' := c.gatherAll (ss.map (wordsOf w))
    c'.kind = .chars ∧ c'.width = w ∧ c'.vt = c.vt ∧ c'.missing = c.missing ∧ c'.max = c.max ∧
    c'.hasMissing = c.hasMissing ∧ c'.strings.Nodup ∧ (∀ s, s ∈ c'.strings ↔ s ∈ c.strings ∨ s ∈ ss) ∧
    c'.min = (match ss.getLast? with | some s => wordOfBytes (s.take 8) | none => c.min) := by
  induction ss generalizing c with
  | nil => simp [Codec.gatherAll, hk, hw, hst]
  | cons s ss ih =>
    have hcs := cellStr_wordsOf w s (hs s (by simp)).1 (hs s (by simp)).2
    have hg : c.gather (wordsOf w s) =
        { c with strings := if s ∈ c.strings then c.strings else c.strings ++ [s],
                 min := wordOfBytes (s.take 8) } := by
      unfold Codec.gather; rw [hk]; simp only [Codec.gatherChars, hw, hcs, hk]
    have hnd : (c.gather (wordsOf w s)).strings.Nodup := by
      rw [hg]
      split
      · exact hst
      · rename_i hni
        rw [List.nodup_append]
        refine ⟨hst, by simp, ?_⟩
        intro a ha b hb hab
        simp at hb
        subst hb; subst hab; exact hni ha
    have := ih (fun t ht => hs t (by simp [ht])) (c.gather (wordsOf w s)) (by rw [hg]; exact hk)
      (by rw [hg]; exact hw) hnd
    obtain ⟨a1, a2, a3, a4, a5, a6, a7, a8, a9⟩ := this
    refine ⟨a1, a2, ?_, ?_, ?_, ?_, a7, ?_, ?_⟩
    · rw [List.map_cons]; show ((c.gather (wordsOf w s)).gatherAll _).vt = _; rw [a3, hg]
    · rw [List.map_cons]; show ((c.gather (wordsOf w s)).gatherAll _).missing = _; rw [a4, hg]
    · rw [List.map_cons]; show ((c.gather (wordsOf w s)).gatherAll _).max = _; rw [a5, hg]
    · rw [List.map_cons]; show ((c.gather (wordsOf w s)).gatherAll _).hasMissing = _; rw [a6, hg]
    · intro t
      rw [List.map_cons]; show t ∈ ((c.gather (wordsOf w s)).gatherAll _).strings ↔ _
      rw [a8, hg]
      have : t ∈ (if s ∈ c.strings then c.strings else c.strings ++ [s]) ↔ t ∈ c.strings ∨ t = s := by
        split
        · rename_i hin
          constructor
          · intro h; exact Or.inl h
          · rintro (h | h)
            · exact h
            · subst h; exact hin
        · simp
      simp only [this, List.mem_cons]
      grind
    · rw [List.map_cons]; show ((c.gather (wordsOf w s)).gatherAll _).min = _
      rw [a9, hg]
      cases hl : ss.getLast? with
      | none =>
        have : ss = [] := by simpa using hl
        subst this; simp
      | some x => rw [List.getLast?_cons, hl]; simp

theorem wordsFor_bounds (n : Nat) (h : 0 < n) : n ≤ 8 * wordsFor n ∧ (∀ w, 1 ≤ w → n ≤ 8 * w → wordsFor n ≤ w) ∧ 1 ≤ wordsFor n := by
  unfold wordsFor
  rw [if_neg (by omega)]
  refine ⟨by omega, ?_, by omega⟩
  intro w h1 h2; omega

theorem tableWidth_ge (ss : List Str) (w : Nat) : w ≤ tableWidth ss w := by
  induction ss generalizing w with
  | nil => exact Nat.le_refl _
  | cons s ss ih =>
    unfold tableWidth
    refine Nat.le_trans ?_ (ih _)
    split <;> omega

theorem tableWidth_le (ss : List Str) (w W : Nat) (hw : w ≤ W) (hW : 1 ≤ W) (h : ∀ s ∈ ss, s.length ≤ 8 * W) :
    tableWidth ss w ≤ W := by
  induction ss generalizing w with
  | nil => exact hw
  | cons s ss ih =>
    unfold tableWidth
    apply ih
    · split
      · have := (wordsFor_bounds s.length (by omega)).2.1 W hW (h s (by simp))
        omega
      · exact hw
    · intro t ht; exact h t (by simp [ht])

theorem tableWidth_fits (ss : List Str) (w : Nat) (s : Str) (hs : s ∈ ss) : s.length ≤ 8 * tableWidth ss w := by
  induction ss generalizing w with
  | nil => simp at hs
  | cons t ss ih =>
    unfold tableWidth
    rcases List.mem_cons.mp hs with h | h
    · subst h
      rcases Nat.eq_zero_or_pos s.length with h0 | h0
      · omega
      · have h1 := (wordsFor_bounds s.length h0).1
        have h2 := tableWidth_ge ss (if s.length ≠ 0 then max w (wordsFor s.length) else w)
        rw [if_pos (by omega)] at h2 ⊢
        omega
    · exact ih _ h

theorem startCodec_str (asDbl : Bool) (w : Nat) :
    ∃ c, startCodec .string asDbl w none = .ok c ∧ c.kind = .chars ∧ c.missing = realMDI ∧
      c.min = realMDI ∧ c.max = realMDI ∧ c.hasMissing = 0 ∧ c.strings = [] ∧ c.width = w := by
  unfold startCodec
  simp only [defaultCodec, Codec.setWidth, fresh, Kind.isChars, if_true]
  exact ⟨_, rfl, rfl, rfl, rfl, rfl, rfl, rfl, rfl⟩

theorem rebuild_str (k : Kind) (hk : k = .constantString ∨ k = .longConstantString ∨ k = .int8String ∨ k = .int16String)
    (asDbl : Bool) (c : Codec) :
    ∃ c', rebuild k .string asDbl c = .ok c' ∧ c'.kind = k ∧ c'.missing = c.missing ∧
      c'.min = c.min ∧ c'.max = c.max ∧ c'.hasMissing = (if c.hasMissing ≠ 0 then 1 else 0) ∧
      c'.strings = [] ∧ c'.width = 1 := by
  have hn2 : feq realMDI realMDI = true := feq_self realMDI_nan
  have hn1 : feq integerMDI integerMDI = true := feq_self integerMDI_nan
  unfold rebuild Codec.setMissing fresh
  rcases hk with h | h | h | h <;> subst h <;> simp [hn2, hn1, Kind.isInt]

theorem findIdx?_nodup (l : List Str) (s : Str) (h : s ∈ l) :
    ∃ i, l.findIdx? (fun t => decide (t = s)) = some i ∧ l[i]? = some s ∧ i < l.length := by
  induction l with
  | nil => simp at h
  | cons t l ih =>
    rw [List.findIdx?_cons]
    by_cases ht : t = s
    · subst ht; exact ⟨0, by simp⟩
    · have := ih (by rcases List.mem_cons.mp h with h' | h'
                     · exact absurd h'.symm ht
                     · exact h')
      obtain ⟨i, h1, h2, h3⟩ := this
      exact ⟨i + 1, by simp [ht, h1], by simpa using h2, by simp; omega⟩

/-- One cell through an indexed string codec. -/
theorem trip_strIdx (o : Order) (asDbl : Bool) (c : Codec) (k : Kind) (hk : c.kind = k)
    (hks : k = .int8String ∨ k = .int16String) (s : Str) (hs : s ∈ c.strings) (hn : NulFree s)
    (hw : s.length ≤ 8 * c.width) (hlen : c.strings.length ≤ 256 ^ c.encSize) :
    CellTrip o asDbl 3 c (wordsOf c.width s) (wordsOf (tableWidth c.strings 1) s) := by
  obtain ⟨i, h1, h2, h3⟩ := findIdx?_nodup c.strings s hs
  have hrel : (reload asDbl 3 c).kind = k ∧ (reload asDbl 3 c).strings = c.strings ∧
      (reload asDbl 3 c).width = tableWidth c.strings 1 := by
    unfold reload; rw [hk]; rcases hks with h | h <;> subst h <;> simp [fresh]
  obtain ⟨r1, r2, r3⟩ := hrel
  have henc : c.enc o (wordsOf c.width s) = encStrIdx o c c.encSize (wordsOf c.width s) := by
    unfold Codec.enc Codec.encSize; rw [hk]; rcases hks with h | h <;> subst h <;> rfl
  have hdec : (reload asDbl 3 c).dec o = decStrIdx o (reload asDbl 3 c) c.encSize := by
    unfold Codec.dec Codec.encSize; rw [r1, hk]; rcases hks with h | h <;> subst h <;> rfl
  unfold CellTrip
  rw [henc, hdec]
  unfold encStrIdx
  rw [cellStr_wordsOf c.width s hw hn, h1]
  refine ⟨_, rfl, by simp, ?_⟩
  intro r
  have hfit := tableWidth_fits c.strings 1 s hs
  simp only [decStrIdx, P.bind_apply, readN_putN, Nat.mod_eq_of_lt (Nat.lt_of_lt_of_le h3 hlen), r2, h2, r3,
    List.take_of_length_le hfit]
  rfl

/-- What a STRING column must satisfy. -/
structure StringsOk (longEnv : Bool) (w : Nat) (ss : List Str) : Prop where
  width : 1 ≤ w
  /-- lengths fit the 32-bit length fields of the file format -/
  lim : w ≤ 268435455
  fit : ∀ s ∈ ss, s.length ≤ 8 * w ∧ NulFree s
  /-- fewer than 65536 distinct strings -/
  few : ∀ ds : List Str, ds.Nodup → (∀ s ∈ ds, s ∈ ss) → ds.length < 65536
  /-- with the long string codec enabled, no column consisting of empty strings only -/
  nonempty : longEnv = true → 1 < w → ∃ s ∈ ss, s ≠ []

theorem str_column (asDbl longEnv : Bool) (w : Nat) (ss : List Str) (hok : StringsOk longEnv w ss)
    (hne : ss ≠ []) :
    ∃ c w', chosenCodec .string asDbl longEnv w none (ss.map (wordsOf w)) = .ok c ∧
      SaveOk asDbl ColType.string.toInt c ∧ 1 ≤ w' ∧ w' ≤ w ∧ c.width = w ∧
      (reload asDbl ColType.string.toInt c).width = w' ∧ (∀ s ∈ ss, s.length ≤ 8 * w') ∧
      ∀ o, ∀ s ∈ ss, CellTrip o asDbl ColType.string.toInt c (wordsOf w s) (wordsOf w' s) := by
  obtain ⟨c0, h0, hk, h1, h2, h3, h4, h5, h6⟩ := startCodec_str asDbl w
  obtain ⟨g1, g2, g3, g4, g5, g6, g7, g8, g9⟩ := str_stats w ss hok.fit c0 hk h6 (by rw [h5]; simp)
  generalize hg : c0.gatherAll (ss.map (wordsOf w)) = g at *
  have hmem : ∀ s, s ∈ g.strings ↔ s ∈ ss := by intro s; rw [g8, h5]; simp
  have hcount : g.strings.length < 65536 := hok.few g.strings g7 (fun s hs => (hmem s).mp hs)
  have hpos : 0 < g.strings.length := by
    obtain ⟨s, hs⟩ := List.exists_mem_of_ne_nil ss hne
    exact List.length_pos_of_mem ((hmem s).mpr hs)
  have hkk : strKind longEnv g.strings.length w = .constantString ∨
      strKind longEnv g.strings.length w = .longConstantString ∨
      strKind longEnv g.strings.length w = .int8String ∨ strKind longEnv g.strings.length w = .int16String := by
    unfold strKind; split
    · simp
    · split
      · simp
      · split <;> simp
  obtain ⟨c, e1, e2, e3, e4, e5, e6, e7, e8⟩ := rebuild_str _ hkk asDbl g
  have hchosen : chosenCodec .string asDbl longEnv w none (ss.map (wordsOf w)) =
      (if strKind longEnv g.strings.length w = .constantString then .ok c
       else .ok { c with strings := g.strings, width := g.width }) := by
    unfold chosenCodec; rw [h0]; simp only [hg]; unfold optimise
    simp only [hcount, if_true, g2, e1]
  have hlens : ∀ s ∈ ss, LenOk s.length := by
    intro s hs
    have := (hok.fit s hs).1; have := hok.lim; unfold LenOk; omega
  have hhm : InI32 c.hasMissing := by rw [e6]; split <;> decide
  rw [hchosen]
  unfold strKind
  by_cases hc1 : g.strings.length = 1 ∧ w = 1
  · have hstr : strKind longEnv g.strings.length w = .constantString := by unfold strKind; rw [if_pos hc1]
    rw [hstr] at e2
    simp only [if_pos hc1, if_true]
    have hw1 := hc1.2
    subst hw1
    refine ⟨c, 1, rfl, ⟨hhm, by rw [e7]; decide, by rw [e7]; simp, by rw [e2]; simp [Kind.isInt]⟩,
      Nat.le_refl _, Nat.le_refl _, e8, ?_, fun s hs => (hok.fit s hs).1, ?_⟩
    · unfold reload; rw [e2]; rfl
    · intro o s hs
      obtain ⟨x, hx⟩ := List.length_eq_one_iff.mp hc1.1
      have hall : ∀ t ∈ ss, t = x := by
        intro t ht; have := (hmem t).mpr ht; rw [hx] at this; simpa using this
      have hmin : c.min = wordOfBytes (s.take 8) := by
        rw [e4, g9]
        cases hl : ss.getLast? with
        | none => simp at hl; exact absurd hl hne
        | some y =>
          have hy := List.mem_of_getLast? hl
          simp only [hall y hy, hall s hs]
      refine ⟨[], ?_, ?_, ?_⟩
      · unfold Codec.enc; rw [e2]
      · unfold Codec.encSize; rw [e2]; rfl
      · intro r
        have hr : (reload asDbl ColType.string.toInt c).kind = .constantString ∧
            (reload asDbl ColType.string.toInt c).min = c.min := by
          unfold reload; rw [e2]; simp [fresh]
        unfold Codec.dec; rw [hr.1]; simp only [hr.2, hmin]
        rfl
  · by_cases hc2 : g.strings.length = 1 ∧ longEnv = true
    · have hstr : strKind longEnv g.strings.length w = .longConstantString := by
        unfold strKind; rw [if_neg hc1, if_pos hc2]
      rw [hstr] at e2
      simp only [if_neg hc1, if_pos hc2]
      obtain ⟨x, hx⟩ := List.length_eq_one_iff.mp hc2.1
      have hall : ∀ t ∈ ss, t = x := by
        intro t ht; have := (hmem t).mpr ht; rw [hx] at this; simpa using this
      have hw1 : 1 < w := by have := hok.width; have := hc2.1; omega
      obtain ⟨y, hy, hy0⟩ := hok.nonempty hc2.2 hw1
      have hx0 : x ≠ [] := by rw [← hall y hy]; exact hy0
      have hxin : x ∈ ss := by rw [← hall y hy]; exact hy
      have hxl : 0 < x.length := List.length_pos_iff.mpr hx0
      obtain ⟨b1, b2, b3⟩ := wordsFor_bounds x.length hxl
      have hwle := b2 w hok.width (hok.fit x hxin).1
      refine ⟨{ c with strings := g.strings, width := g.width }, wordsFor x.length, rfl, ⟨hhm, ?_, ?_, ?_⟩, b3, hwle, g2, ?_, ?_, ?_⟩
      · rw [hx]; show LenOk 1; decide
      · intro s hs; exact hlens s ((hmem s).mp hs)
      · rw [e2]; simp [Kind.isInt]
      · unfold reload; simp only [e2, hx]; rfl
      · intro s hs; rw [hall s hs]; exact b1
      · intro o s hs
        rw [hall s hs]
        refine ⟨[], ?_, ?_, ?_⟩
        · unfold Codec.enc; simp only [e2]
        · unfold Codec.encSize; simp only [e2]; rfl
        · intro r
          unfold Codec.dec reload
          simp only [e2, hx, List.headD_cons, List.head?_cons, hx0, if_false, fresh,
            List.take_of_length_le b1]
          rfl
    · have hbig : (if g.strings.length < 256 then Kind.int8String else Kind.int16String) ≠ .constantString := by
        split <;> simp
      have hstr : strKind longEnv g.strings.length w =
          (if g.strings.length < 256 then Kind.int8String else Kind.int16String) := by
        unfold strKind; rw [if_neg hc1, if_neg hc2]
      rw [hstr] at e2
      simp only [if_neg hc1, if_neg hc2, hbig, if_false]
      have hks : (if g.strings.length < 256 then Kind.int8String else Kind.int16String) = .int8String ∨
          (if g.strings.length < 256 then Kind.int8String else Kind.int16String) = .int16String := by
        split <;> simp
      have hfit : ∀ s ∈ g.strings, s.length ≤ 8 * w := fun s hs => (hok.fit s ((hmem s).mp hs)).1
      refine ⟨_, tableWidth g.strings 1, rfl, ⟨hhm, ?_, ?_, ?_⟩, tableWidth_ge _ _,
        tableWidth_le _ _ _ hok.width hok.width hfit, g2, ?_, ?_, ?_⟩
      · show LenOk g.strings.length; unfold LenOk; omega
      · intro s hs; exact hlens s ((hmem s).mp hs)
      · simp only [e2]; split <;> simp [Kind.isInt]
      · unfold reload; simp only [e2]; rcases hks with h | h <;> rw [h]
      · intro s hs; exact tableWidth_fits _ _ s ((hmem s).mpr hs)
      · intro o s hs
        have := trip_strIdx o asDbl { c with strings := g.strings, width := g.width } _ e2 hks s
          ((hmem s).mpr hs) (hok.fit s hs).2 (by show _ ≤ 8 * g.width; rw [g2]; exact (hok.fit s hs).1)
          (by show g.strings.length ≤ _
              unfold Codec.encSize
              simp only [e2]
              split <;> simp_all <;> omega)
        simp only [g2] at this ⊢
        exact this

end Verif
