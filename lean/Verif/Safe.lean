import Verif.AnyFile
import Verif.DecLocal

/-
Decoding arbitrary bytes: what `Table::decode` does with a data section that was not written by the encoder.

Models nothing new: facts about `decodeTable` (Verif.Frame, src/odc/core/Table.cc l.165-243) for every byte string.
-/

namespace Verif

/-! ### Specification: how the rows lie in a data section -/

/-- The row markers of a data section, found by walking over it: a row is a two-byte big-endian marker `m` followed
by the encoded cells of the columns from `m` on; `sizes` are the encoded sizes of the columns.  The walk stops
where the data does. -/
def rowMarkers (sizes : List Nat) : Nat → List Byte → List Nat
  | 0, _ => []
  | n + 1, b0 :: b1 :: rest =>
    (b0.toNat * 256 + b1.toNat) :: rowMarkers sizes n (rest.drop (sizes.drop (b0.toNat * 256 + b1.toNat)).sum)
  | _, _ => []

/-- Bytes taken by `n` rows. -/
def rowsSize (sizes : List Nat) : Nat → List Byte → Nat
  | 0, _ => 0
  | n + 1, b0 :: b1 :: rest =>
    2 + (sizes.drop (b0.toNat * 256 + b1.toNat)).sum +
      rowsSize sizes n (rest.drop (sizes.drop (b0.toNat * 256 + b1.toNat)).sum)
  | _, _ => 0

/-- No marker beyond the number of columns is followed by a smaller one. -/
def MarkersOk (ncols : Nat) (ms : List Nat) : Prop :=
  ∀ (i a b : Nat), ms[i]? = some a → ms[i + 1]? = some b → b < a → a ≤ ncols

/-- The values the codec of a column can produce are representable: the casts to a 64-bit integer are defined
(always so when integers are passed as doubles), and a constant string is there. -/
def Codec.Sane (c : Codec) : Prop :=
  (∀ n : Nat, n < 65536 → ∃ w, toVT c.vt (fadd (ofInt n) c.min) = .ok w) ∧ (∃ w, toVT c.vt c.missing = .ok w) ∧
    (∃ w, toVT c.vt c.min = .ok w) ∧ (c.kind = .longConstantString → c.strings ≠ [])

theorem Codec.sane_dbl (c : Codec) (h : c.vt = .dbl) (hs : c.kind = .longConstantString → c.strings ≠ []) : c.Sane := by
  refine ⟨fun n _ => ?_, ?_, ?_, hs⟩ <;> rw [h] <;> exact ⟨_, rfl⟩

theorem Codec.sane_int (c : Codec) (i j : Int) (hi : InI32 i) (hj : InI32 j) (h1 : c.min = ofInt i) (h2 : c.missing = ofInt j)
    (hs : c.kind = .longConstantString → c.strings ≠ []) : c.Sane := by
  obtain ⟨a1, a2⟩ := hi
  obtain ⟨b1, b2⟩ := hj
  have hc : ∀ x : Int, -2147483648 ≤ x → x ≤ 4294967295 → ∃ w, toVT c.vt (ofInt x) = .ok w := by
    intro x x1 x2
    cases hv : c.vt with
    | dbl => exact ⟨_, rfl⟩
    | i64 =>
      simp only [toVT]
      rw [fcast_ofInt _ _ x (by constructor <;> omega) (by omega) (by omega)]
      exact ⟨_, rfl⟩
  refine ⟨fun n hn => ?_, ?_, ?_, hs⟩
  · rw [h1, fadd_ofInt _ _ (by constructor <;> omega) (by constructor <;> omega)]
    exact hc _ (by omega) (by omega)
  · rw [h2]; exact hc _ (by omega) (by omega)
  · rw [h1]; exact hc _ (by omega) (by omega)

/-! ### Outcomes without undefined behaviour -/

/-- The result is fine, or an error was reported. -/
def SafeE {α : Type} (R : α → Prop) : Except Err α → Prop
  | .ok a => R a
  | .error e => e ≠ .ub

theorem SafeE.both {α : Type} {R : α → Prop} {x : Except Err α} (h : SafeE R x) :
    (∃ e, x = .error e ∧ e ≠ .ub) ∨ ∃ a, x = .ok a ∧ R a := by
  cases x with
  | error e => left; exact ⟨e, rfl, h⟩
  | ok a => right; exact ⟨a, rfl, h⟩

theorem readN_bound {o : Order} {k n : Nat} {s r : List Byte} (h : readN o k s = .ok (n, r)) : n < 256 ^ k := by
  unfold readN at h
  split at h
  · rename_i bs r' hb
    simp only [Except.ok.injEq, Prod.mk.injEq] at h
    obtain ⟨h1, _, h3⟩ := readBytes_ok hb
    have := ofLe_lt (swapBytes o bs)
    rw [← h.1]
    have hl : (swapBytes o bs).length = k := by rw [h1]; cases o <;> simp [swapBytes] <;> omega
    rwa [hl] at this
  · simp at h

theorem readBytes_err {n : Nat} {s : List Byte} {e : Err} (h : readBytes n s = .error e) : e = .endOfStream ∧ s.length < n := by
  unfold readBytes at h
  split at h
  · simp at h
  · simp only [Except.error.injEq] at h; exact ⟨h.symm, by omega⟩

theorem readN_err {o : Order} {k : Nat} {s : List Byte} {e : Err} (h : readN o k s = .error e) :
    e = .endOfStream ∧ s.length < k := by
  unfold readN at h
  split at h
  · simp at h
  · simp only [Except.error.injEq] at h; subst h; exact readBytes_err (by assumption)

/-- Decoding a cell of a sane column never leaves the defined behaviour of C++. -/
theorem dec_safe (o : Order) (c : Codec) (hc : c.Sane) (s : List Byte) : c.dec o s ≠ .error .ub := by
  obtain ⟨h1, ⟨wm, h2⟩, ⟨w0, h3⟩, h4⟩ := hc
  have hoff : ∀ k, k ≤ 2 → decOffset o c k s ≠ .error .ub := by
    intro k hk h
    unfold decOffset at h
    rw [P.bind_apply] at h
    split at h
    · rename_i n r hn
      have := readN_bound hn
      have hp : 256 ^ k ≤ 256 ^ 2 := Nat.pow_le_pow_right (by decide) hk
      obtain ⟨w, hw⟩ := h1 n (by omega)
      rw [hw] at h
      simp [P.pure_apply] at h
    · rename_i e he
      rw [(readN_err he).1] at h
      simp at h
  have hmis : ∀ k m, k ≤ 2 → decMissing o c k m s ≠ .error .ub := by
    intro k m hk h
    unfold decMissing at h
    rw [P.bind_apply] at h
    split at h
    · rename_i n r hn
      have := readN_bound hn
      have hp : 256 ^ k ≤ 256 ^ 2 := Nat.pow_le_pow_right (by decide) hk
      obtain ⟨w, hw⟩ := h1 n (by omega)
      by_cases hm : n = m
      · rw [if_pos hm, h2] at h; simp [P.pure_apply] at h
      · rw [if_neg hm, hw] at h; simp [P.pure_apply] at h
    · rename_i e he
      rw [(readN_err he).1] at h
      simp at h
  have hidx : ∀ k, decStrIdx o c k s ≠ .error .ub := by
    intro k h
    unfold decStrIdx at h
    rw [P.bind_apply] at h
    split at h
    · rename_i n r hn
      cases hs : c.strings[n]? <;> rw [hs] at h <;> simp [P.pure_apply, P.fail] at h
    · rename_i e he
      rw [(readN_err he).1] at h
      simp at h
  have hshort : ∀ m, decShort o c m s ≠ .error .ub := by
    intro m h
    unfold decShort at h
    rw [P.bind_apply] at h
    split at h
    · simp [P.pure_apply] at h
    · rename_i e he
      rw [(readN_err he).1] at h
      simp at h
  unfold Codec.dec
  cases hk : c.kind <;> dsimp only
  case int8 => exact hoff 1 (by decide)
  case int16 => exact hoff 2 (by decide)
  case int8Missing => exact hmis 1 _ (by decide)
  case int16Missing => exact hmis 2 _ (by decide)
  case constOrMissing => exact hmis 1 _ (by decide)
  case realConstOrMissing => exact hmis 1 _ (by decide)
  case int8String => exact hidx 1
  case int16String => exact hidx 2
  case shortReal => exact hshort _
  case shortReal2 => exact hshort _
  · intro h
    unfold decDirect at h
    rw [P.bind_apply] at h
    split at h
    · cases hv : c.vt <;> rw [hv] at h <;> simp [P.pure_apply] at h
    · rename_i e he
      unfold readI32 at he
      split at he
      · simp at he
      · rename_i e' he'
        rw [(readN_err he').1] at he
        simp only [Except.error.injEq] at he
        rw [← he] at h; simp at h
  · intro h
    rw [P.bind_apply] at h
    split at h
    · simp [P.pure_apply] at h
    · rename_i e he
      unfold readWord at he
      split at he
      · simp at he
      · rename_i e' he'
        rw [(readN_err he').1] at he
        simp only [Except.error.injEq] at he
        rw [← he] at h; simp at h
  · rw [h3]; simp [P.pure_apply]
  · simp [P.pure_apply]
  · intro h
    cases hs : c.strings with
    | nil => exact h4 hk hs
    | cons a l =>
      rw [hs] at h
      simp only [List.head?_cons] at h
      by_cases ha : a = []
      · rw [if_pos ha] at h; simp [P.pure_apply] at h
      · rw [if_neg ha] at h; simp [P.pure_apply] at h
  · intro h
    rw [P.bind_apply] at h
    split at h
    · simp [P.pure_apply] at h
    · rename_i e he
      rw [(readBytes_err he).1] at h; simp at h

/-- A wanted column has a sane codec and a target element that is wide enough. -/
structure SlotSafe (s : Slot) : Prop where
  sane : s.visit = true → s.codec.Sane
  wide : s.visit = true → s.codec.decWidth ≤ s.elem ∧ 1 ≤ s.elem
  first : s.visit = true → s.first ≠ .error .ub

/-- Proof device: `SlotSafe` for every column. -/
def AllSafe (ss : List Slot) : Prop := ∀ s ∈ ss, SlotSafe s

/-- Proof device: the encoded sizes of the columns. -/
def encSizes (ss : List Slot) : List Nat := ss.map (fun s => s.codec.encSize)

theorem SlotSafe.store {s : Slot} (h : SlotSafe s) (row : Nat) (d : Cell) (hd : d.length ≤ s.elem) :
    ∃ s', s.store row d = .ok s' ∧ SlotSafe s' ∧ s'.codec = s.codec := by
  unfold Slot.store
  rw [if_pos hd]
  exact ⟨_, rfl, ⟨h.sane, h.wide, h.first⟩, rfl⟩

theorem SlotSafe.fill {s : Slot} (h : SlotSafe s) (final : Nat) :
    SafeE (fun s' => SlotSafe s' ∧ s'.codec = s.codec) (s.fill final) := by
  unfold Slot.fill
  split
  · split
    · exact ⟨⟨h.sane, h.wide, h.first⟩, rfl⟩
    · simp [SafeE]
  · exact ⟨h, rfl⟩

theorem SlotSafe.init {s : Slot} (h : SlotSafe s) :
    SafeE (fun s' => SlotSafe s' ∧ s'.codec = s.codec) s.init := by
  unfold Slot.init
  split
  · rename_i hv
    split
    · obtain ⟨s', h1, h2, h3⟩ := h.store 0 _ (show ([_] : Cell).length ≤ s.elem from (h.wide hv).2)
      rw [h1]; exact ⟨h2, h3⟩
    · rename_i e he
      intro hu
      exact h.first hv (by rw [he, hu])
  · exact ⟨h, rfl⟩

theorem AllSafe.initAll {ss : List Slot} (h : AllSafe ss) :
    SafeE (fun ss' => AllSafe ss' ∧ encSizes ss' = encSizes ss) (initAll ss) := by
  induction ss with
  | nil => exact ⟨h, rfl⟩
  | cons s ss ih =>
    unfold Verif.initAll
    rcases (h s (by simp)).init.both with ⟨e, h1, h2⟩ | ⟨s', h1, h2, h3⟩
    · rw [h1]; exact h2
    rw [h1]
    rcases (ih (fun x hx => h x (by simp [hx]))).both with ⟨e, g1, g2⟩ | ⟨ss', g1, g2, g3⟩
    · rw [g1]; exact g2
    rw [g1]
    refine ⟨?_, ?_⟩
    · intro x hx
      rcases List.mem_cons.mp hx with rfl | hx
      · exact h2
      · exact g2 x hx
    · simp only [encSizes, List.map_cons] at g3 ⊢; rw [h3, g3]

theorem AllSafe.fillAll {ss : List Slot} (h : AllSafe ss) (final : Nat) :
    SafeE (fun ss' => AllSafe ss' ∧ encSizes ss' = encSizes ss) (fillAll final ss) := by
  induction ss with
  | nil => exact ⟨h, rfl⟩
  | cons s ss ih =>
    unfold Verif.fillAll
    rcases ((h s (by simp)).fill final).both with ⟨e, h1, h2⟩ | ⟨s', h1, h2, h3⟩
    · rw [h1]; exact h2
    rw [h1]
    rcases (ih (fun x hx => h x (by simp [hx]))).both with ⟨e, g1, g2⟩ | ⟨ss', g1, g2, g3⟩
    · rw [g1]; exact g2
    rw [g1]
    refine ⟨?_, ?_⟩
    · intro x hx
      rcases List.mem_cons.mp hx with rfl | hx
      · exact h2
      · exact g2 x hx
    · simp only [encSizes, List.map_cons] at g3 ⊢; rw [h3, g3]

theorem AllSafe.finish {ss : List Slot} (h : AllSafe ss) (nrows : Nat) : finish nrows ss ≠ .error .ub := by
  induction ss with
  | nil => simp [Verif.finish]
  | cons s ss ih =>
    unfold Verif.finish
    split
    · rcases ((h s (by simp)).fill (nrows - 1)).both with ⟨e, h1, h2⟩ | ⟨s', h1, h2, h3⟩
      · rw [h1]; simpa using h2
      rw [h1]
      have := ih (fun x hx => h x (by simp [hx]))
      cases hf : Verif.finish nrows ss with
      | error e => rw [hf] at this; simpa using this
      | ok _ => simp
    · simp

theorem fillAll_sizes {ss ss' : List Slot} {final : Nat} (h : fillAll final ss = .ok ss') : encSizes ss' = encSizes ss := by
  induction ss generalizing ss' with
  | nil => simp [fillAll] at h; rw [← h]
  | cons s ss ih =>
    unfold fillAll at h
    split at h
    · simp at h
    rename_i s' hs
    split at h
    · simp at h
    rename_i ss'' hss
    simp only [Except.ok.injEq] at h
    subst h
    have : s'.codec = s.codec := by
      unfold Slot.fill at hs
      split at hs
      · split at hs
        · simp only [Except.ok.injEq] at hs; rw [← hs]
        · simp at hs
      · simp only [Except.ok.injEq] at hs; rw [← hs]
    have := ih hss
    simp only [encSizes, List.map_cons] at this ⊢
    rw [this, ‹s'.codec = s.codec›]

theorem encSizes_split (a : Nat) (ss : List Slot) : encSizes (ss.take a) ++ encSizes (ss.drop a) = encSizes ss := by
  unfold encSizes; rw [← List.map_append, List.take_append_drop]

theorem fillRange_sizes {ss ss' : List Slot} {a b row : Nat} (h : fillRange a b row ss = .ok ss') :
    encSizes ss' = encSizes ss := by
  unfold fillRange at h
  split at h
  · split at h
    · split at h
      · simp at h
      rename_i m hm
      simp only [Except.ok.injEq] at h
      subst h
      have hab : a ≤ b := by omega
      have h1 := fillAll_sizes hm
      have h2 : encSizes (ss.take a ++ ((ss.take b).drop a ++ ss.drop b)) = encSizes ss := by
        congr 1
        rw [← List.append_assoc]
        have : ss.take a = (ss.take b).take a := by rw [List.take_take, Nat.min_eq_left hab]
        rw [this, List.take_append_drop, List.take_append_drop]
      rw [← h2]
      simp only [encSizes, List.map_append] at h1 ⊢
      rw [h1]
    · simp at h
  · simp only [Except.ok.injEq] at h; rw [← h]

theorem AllSafe.fillRange {ss : List Slot} (h : AllSafe ss) (a b row : Nat) (hb : a < b → b ≤ ss.length) :
    SafeE AllSafe (fillRange a b row ss) := by
  unfold Verif.fillRange
  split
  · rename_i hab
    rw [if_pos (hb hab)]
    rcases (AllSafe.fillAll (ss := (ss.take b).drop a)
      (fun x hx => h x (List.mem_of_mem_take (List.mem_of_mem_drop hx))) (row - 1)).both with ⟨e, h1, h2⟩ | ⟨m, h1, h2, _⟩
    · rw [h1]; exact h2
    rw [h1]
    intro x hx
    rcases List.mem_append.mp hx with hx | hx
    · exact h x (List.mem_of_mem_take hx)
    rcases List.mem_append.mp hx with hx | hx
    · exact h2 x hx
    · exact h x (List.mem_of_mem_drop hx)
  · exact h

theorem decSlot_sizes {o : Order} {row : Nat} {s s' : Slot} {d r : List Byte} (h : decSlot o row s d = .ok (s', r)) :
    s'.codec = s.codec ∧ r = d.drop s.codec.encSize ∧ s.codec.encSize ≤ d.length := by
  unfold decSlot at h
  split at h
  · rw [P.bind_apply] at h
    split at h
    · rename_i x r1 hx
      obtain ⟨c1, c2, _⟩ := dec_consumes _ _ _ _ _ hx
      rw [P.bind_apply] at h
      unfold P.lift at h
      split at h
      · rename_i y r2 hy
        split at hy
        · rename_i s2 hs2
          simp only [Except.ok.injEq, Prod.mk.injEq] at hy
          obtain ⟨rfl, rfl⟩ := hy
          simp only [P.pure_apply, Except.ok.injEq, Prod.mk.injEq] at h
          obtain ⟨rfl, rfl⟩ := h
          unfold Slot.store at hs2
          split at hs2
          · simp only [Except.ok.injEq] at hs2
            subst hs2
            exact ⟨rfl, c1, c2⟩
          · simp at hs2
        · simp at hy
      · simp at h
    · simp at h
  · rw [P.bind_apply] at h
    split at h
    · rename_i x r1 hx
      simp only [P.pure_apply, Except.ok.injEq, Prod.mk.injEq] at h
      obtain ⟨rfl, rfl⟩ := h
      unfold Codec.skip advance at hx
      split at hx
      · simp only [Except.ok.injEq, Prod.mk.injEq] at hx
        exact ⟨rfl, hx.2.symm, by assumption⟩
      · simp at hx
    · simp at h

theorem decSlots_sizes {o : Order} {row : Nat} {ss ss' : List Slot} {d r : List Byte}
    (h : decSlots o row ss d = .ok (ss', r)) :
    encSizes ss' = encSizes ss ∧ r = d.drop (encSizes ss).sum ∧ (encSizes ss).sum ≤ d.length := by
  induction ss generalizing ss' d r with
  | nil => simp only [decSlots, P.pure_apply, Except.ok.injEq, Prod.mk.injEq] at h; simp [encSizes, ← h.1, ← h.2]
  | cons s ss ih =>
    unfold decSlots at h
    rw [P.bind_apply] at h
    split at h
    · rename_i s1 r1 h1
      rw [P.bind_apply] at h
      split at h
      · rename_i ss1 r2 h2
        simp only [P.pure_apply, Except.ok.injEq, Prod.mk.injEq] at h
        obtain ⟨rfl, rfl⟩ := h
        obtain ⟨a1, a2, a3⟩ := decSlot_sizes h1
        obtain ⟨b1, b2, b3⟩ := ih h2
        refine ⟨?_, ?_, ?_⟩
        · simp only [encSizes, List.map_cons] at b1 ⊢; rw [a1, b1]
        · rw [b2, a2, List.drop_drop]; simp [encSizes]
        · rw [a2, List.length_drop] at b3; simp only [encSizes, List.map_cons, List.sum_cons] at b3 ⊢; omega
      · simp at h
    · simp at h

theorem decSlot_safe (o : Order) (row : Nat) (s : Slot) (h : SlotSafe s) (d : List Byte) :
    SafeE (fun x => SlotSafe x.1) (decSlot o row s d) := by
  unfold decSlot
  split
  · rename_i hv
    rw [P.bind_apply]
    cases hd : s.codec.dec o d with
    | error e => intro hu; exact dec_safe o _ (h.sane hv) d (by rw [hd, hu])
    | ok x =>
      obtain ⟨x, r⟩ := x
      dsimp only
      obtain ⟨_, _, hw⟩ := dec_consumes _ _ _ _ _ hd
      obtain ⟨s', h1, h2, h3⟩ := h.store row x (by rw [hw]; exact (h.wide hv).1)
      rw [P.bind_apply]
      unfold P.lift
      rw [h1]
      exact ⟨h2.sane, h2.wide, h2.first⟩
  · rw [P.bind_apply]
    unfold Codec.skip advance
    split
    · rename_i hx
      split at hx
      · exact h
      · simp at hx
    · rename_i hx
      split at hx
      · simp at hx
      · simp only [Except.error.injEq] at hx; rw [← hx]; simp [SafeE]

theorem decSlots_safe (o : Order) (row : Nat) (ss : List Slot) (h : AllSafe ss) (d : List Byte) :
    SafeE (fun x => AllSafe x.1) (decSlots o row ss d) := by
  induction ss generalizing d with
  | nil => exact h
  | cons s ss ih =>
    unfold decSlots
    rw [P.bind_apply]
    rcases (decSlot_safe o row s (h s (by simp)) d).both with ⟨e, h1, h2⟩ | ⟨⟨s', r⟩, h1, h2⟩
    · rw [h1]; exact h2
    rw [h1]
    dsimp only
    rw [P.bind_apply]
    rcases (ih (fun x hx => h x (by simp [hx])) r).both with ⟨e, g1, g2⟩ | ⟨⟨ss', r'⟩, g1, g2⟩
    · rw [g1]; exact g2
    rw [g1]
    intro x hx
    rcases List.mem_cons.mp hx with rfl | hx
    · exact h2
    · exact g2 x hx

theorem rowMarkers_read {n : Nat} {d m r : List Byte} (sizes : List Nat) (h : readBytes 2 d = .ok (m, r)) :
    rowMarkers sizes (n + 1) d = markerStart m :: rowMarkers sizes n (r.drop (sizes.drop (markerStart m)).sum) ∧
      rowsSize sizes (n + 1) d = 2 + (sizes.drop (markerStart m)).sum +
        rowsSize sizes n (r.drop (sizes.drop (markerStart m)).sum) := by
  obtain ⟨h1, h2, h3⟩ := readBytes_ok h
  match d, h3 with
  | b0 :: b1 :: rest, _ =>
    subst h1 h2
    exact ⟨rfl, rfl⟩

theorem MarkersOk.tail {n a : Nat} {ms : List Nat} (h : MarkersOk n (a :: ms)) : MarkersOk n ms := by
  intro i x y hx hy hxy
  exact h (i + 1) x y (by simpa using hx) (by simpa using hy) hxy

theorem decRows_safe (o : Order) (k row last : Nat) (ss : List Slot) (h : AllSafe ss) (d : List Byte)
    (hm : MarkersOk ss.length (last :: rowMarkers (encSizes ss) k d)) :
    SafeE (fun x => AllSafe x.1) (decRows o k row last ss d) := by
  induction k generalizing row last ss d with
  | zero => exact h
  | succ k ih =>
    unfold decRows
    rw [P.bind_apply]
    cases hr : readBytes 2 d with
    | error e => rw [(readBytes_err hr).1]; simp [SafeE]
    | ok x =>
      obtain ⟨m, r⟩ := x
      dsimp only
      obtain ⟨hm1, _⟩ := rowMarkers_read (n := k) (encSizes ss) hr
      rw [hm1] at hm
      rw [P.bind_apply]
      unfold P.lift
      rcases (h.fillRange (markerStart m) last row (fun hab => hm 0 last (markerStart m) (by simp) (by simp) hab)).both with
        ⟨e, h1, h2⟩ | ⟨ss1, h1, h2⟩
      · rw [h1]; exact h2
      rw [h1]
      dsimp only
      have hs1 := fillRange_sizes h1
      rw [P.bind_apply]
      rcases (decSlots_safe o row (ss1.drop (markerStart m)) (fun x hx => h2 x (List.mem_of_mem_drop hx)) r).both with
        ⟨e, g1, g2⟩ | ⟨⟨ss2, r2⟩, g1, g2⟩
      · rw [g1]; exact g2
      rw [g1]
      obtain ⟨c1, c2, c3⟩ := decSlots_sizes g1
      have hsz : encSizes (ss1.take (markerStart m) ++ ss2) = encSizes ss := by
        rw [← hs1, ← encSizes_split (markerStart m) ss1, ← c1]; simp [encSizes]
      apply ih
      · intro x hx
        rcases List.mem_append.mp hx with hx | hx
        · exact h2 x (List.mem_of_mem_take hx)
        · exact g2 x hx
      · have hlen := congrArg List.length hsz
        simp only [encSizes, List.length_map] at hlen
        rw [hlen, hsz, c2]
        have : encSizes (ss1.drop (markerStart m)) = (encSizes ss).drop (markerStart m) := by
          rw [← hs1]; simp [encSizes, List.map_drop]
        rw [this]
        exact hm.tail

/-- A successful decode used a data section without a fatal marker, and exactly the bytes of its rows. -/
theorem decRows_markers (o : Order) (k row last : Nat) (ss ss' : List Slot) (d r : List Byte)
    (h : decRows o k row last ss d = .ok (ss', r)) :
    MarkersOk ss.length (last :: rowMarkers (encSizes ss) k d) ∧ (rowMarkers (encSizes ss) k d).length = k ∧
      r = d.drop (rowsSize (encSizes ss) k d) ∧ rowsSize (encSizes ss) k d ≤ d.length := by
  induction k generalizing row last ss d with
  | zero =>
    simp only [decRows, P.pure_apply, Except.ok.injEq, Prod.mk.injEq] at h
    refine ⟨?_, rfl, by simp [rowsSize, h.2], by simp [rowsSize]⟩
    intro i a b h1 h2
    simp [rowMarkers] at h2
  | succ k ih =>
    unfold decRows at h
    rw [P.bind_apply] at h
    split at h
    · rename_i m r1 hr
      rw [P.bind_apply] at h
      unfold P.lift at h
      split at h
      · rename_i ss1 r1' hf
        split at hf
        · rename_i ss1' hf'
          simp only [Except.ok.injEq, Prod.mk.injEq] at hf
          obtain ⟨rfl, rfl⟩ := hf
          rw [P.bind_apply] at h
          split at h
          · rename_i ss2 r2 hd
            obtain ⟨c1, c2, c3⟩ := decSlots_sizes hd
            have hs1 := fillRange_sizes hf'
            have hsz : encSizes (ss1'.take (markerStart m) ++ ss2) = encSizes ss := by
              rw [← hs1, ← encSizes_split (markerStart m) ss1', ← c1]; simp [encSizes]
            have hlen := congrArg List.length hsz
            simp only [encSizes, List.length_map] at hlen
            obtain ⟨i1, i2, i3, i4⟩ := ih _ _ _ _ h
            rw [hlen, hsz] at i1
            rw [hsz] at i2 i3 i4
            have hdr : encSizes (ss1'.drop (markerStart m)) = (encSizes ss).drop (markerStart m) := by
              rw [← hs1]; simp [encSizes, List.map_drop]
            rw [hdr] at c2 c3
            obtain ⟨hm1, hm2⟩ := rowMarkers_read (n := k) (encSizes ss) hr
            obtain ⟨q1, q2, q3⟩ := readBytes_ok hr
            rw [hm1, hm2, ← c2]
            rw [q2, List.length_drop] at c3
            refine ⟨?_, by simp [i2], ?_, ?_⟩
            · intro i a b ha hb hab
              cases i with
              | zero =>
                simp only [List.getElem?_cons_zero, Option.some.injEq, Nat.zero_add, List.getElem?_cons_succ] at ha hb
                subst ha hb
                unfold fillRange at hf'
                rw [if_pos hab] at hf'
                by_contra hgt
                rw [if_neg hgt] at hf'
                simp at hf'
              | succ i => exact i1 i a b (by simpa using ha) (by simpa using hb) hab
            · rw [i3, c2, q2, List.drop_drop, List.drop_drop]; congr 1; omega
            · have : r2.length = d.length - (2 + ((encSizes ss).drop (markerStart m)).sum) := by
                rw [c2, q2, List.length_drop, List.length_drop]; omega
              omega
          · simp at h
        · simp at hf
      · simp at h
    · simp at h

end Verif
