import Verif.Safe

/-
Decoding uses exactly the bytes of the rows: nothing behind them matters, and fewer bytes are an error.
-/

namespace Verif

/-- A parser that looks only at the bytes it consumes, and reports an error when some of them are missing. -/
def OnlyUses {α : Type} (p : P α) : Prop :=
  ∀ s a r, p s = .ok (a, r) → ∃ k, k ≤ s.length ∧ r = s.drop k ∧
    (∀ s', s'.take k = s.take k → k ≤ s'.length → p s' = .ok (a, s'.drop k)) ∧
    ∀ j, j < k → ∃ e, p (s.take j) = .error e ∧ (e = .endOfStream ∨ e = .assertFailed)

theorem OnlyUses.pure {α : Type} (a : α) : OnlyUses (Pure.pure a : P α) := by
  intro s a' r h
  simp only [P.pure_apply, Except.ok.injEq, Prod.mk.injEq] at h
  obtain ⟨rfl, rfl⟩ := h
  exact ⟨0, by simp, by simp, fun s' _ _ => by simp [P.pure_apply], fun j hj => by omega⟩

theorem OnlyUses.fail {α : Type} (e : Err) : OnlyUses (P.fail e : P α) := by
  intro s a r h; simp [P.fail] at h

theorem OnlyUses.lift {α : Type} (x : Except Err α) : OnlyUses (P.lift x) := by
  intro s a r h
  unfold P.lift at h
  cases x with
  | error e => simp at h
  | ok b =>
    simp only [Except.ok.injEq, Prod.mk.injEq] at h
    obtain ⟨rfl, rfl⟩ := h
    exact ⟨0, by simp, by simp, fun s' _ _ => by simp [P.lift], fun j hj => by omega⟩

theorem take_of_take {a b : List Byte} {k n : Nat} (h : a.take k = b.take k) (hn : n ≤ k) : a.take n = b.take n := by
  have := congrArg (List.take n) h
  rwa [List.take_take, List.take_take, Nat.min_eq_left hn] at this

theorem OnlyUses.bind {α β : Type} {p : P α} {f : α → P β} (hp : OnlyUses p) (hf : ∀ a, OnlyUses (f a)) : OnlyUses (p >>= f) := by
  intro s b r h
  rw [P.bind_apply] at h
  split at h
  · rename_i a r1 h1
    obtain ⟨k1, l1, rfl, e1, c1⟩ := hp s a r1 h1
    obtain ⟨k2, l2, rfl, e2, c2⟩ := hf a _ b r h
    rw [List.length_drop] at l2
    refine ⟨k1 + k2, by omega, by rw [List.drop_drop], ?_, ?_⟩
    · intro s' ht hl
      rw [P.bind_apply, e1 s' (take_of_take ht (by omega)) (by omega)]
      dsimp only
      rw [e2 (s'.drop k1) ?_ (by rw [List.length_drop]; omega), List.drop_drop]
      have := congrArg (List.drop k1) ht
      rw [List.drop_take, List.drop_take, Nat.add_sub_cancel_left] at this
      exact this
    · intro j hj
      rw [P.bind_apply]
      by_cases hj1 : j < k1
      · obtain ⟨e, h1, h2⟩ := c1 j hj1
        rw [h1]; exact ⟨e, rfl, h2⟩
      · rw [e1 (s.take j) (by rw [List.take_take, Nat.min_eq_left (by omega)]) (by rw [List.length_take]; omega)]
        dsimp only
        rw [List.drop_take]
        exact c2 (j - k1) (by omega)
  · simp at h

theorem OnlyUses.readBytes (n : Nat) : OnlyUses (readBytes n) := by
  intro s a r h
  obtain ⟨rfl, rfl, h3⟩ := readBytes_ok h
  refine ⟨n, h3, rfl, ?_, ?_⟩
  · intro s' ht hl
    unfold Verif.readBytes
    rw [if_pos hl, ht]
  · intro j hj
    refine ⟨.endOfStream, ?_, Or.inl rfl⟩
    unfold Verif.readBytes
    rw [if_neg (by rw [List.length_take]; omega)]

theorem OnlyUses.advance (n : Nat) : OnlyUses (advance n) := by
  intro s a r h
  unfold Verif.advance at h
  split at h
  · rename_i hn
    simp only [Except.ok.injEq, Prod.mk.injEq] at h
    refine ⟨n, hn, h.2.symm, ?_, ?_⟩
    · intro s' ht hl
      unfold Verif.advance
      rw [if_pos hl]
    · intro j hj
      refine ⟨.assertFailed, ?_, Or.inr rfl⟩
      unfold Verif.advance
      rw [if_neg (by rw [List.length_take]; omega)]
  · simp at h

theorem OnlyUses.congr {α : Type} {p q : P α} (h : OnlyUses p) (e : ∀ s, q s = p s) : OnlyUses q := by
  have : q = p := funext e
  rw [this]; exact h

theorem OnlyUses.readN (o : Order) (k : Nat) : OnlyUses (readN o k) :=
  ((OnlyUses.readBytes k).bind (f := fun bs => Pure.pure (ofLe (swapBytes o bs))) (fun _ => .pure _)).congr (fun s => by
    rw [P.bind_apply]; unfold Verif.readN; cases Verif.readBytes k s <;> rfl)

theorem OnlyUses.readI32 (o : Order) : OnlyUses (readI32 o) :=
  ((OnlyUses.readN o 4).bind (f := fun n => Pure.pure (BitVec.ofNat 32 n).toInt) (fun _ => .pure _)).congr (fun s => by
    rw [P.bind_apply]; unfold Verif.readI32; cases Verif.readN o 4 s <;> rfl)

theorem OnlyUses.readWord (o : Order) : OnlyUses (readWord o) :=
  ((OnlyUses.readN o 8).bind (f := fun n => Pure.pure (BitVec.ofNat 64 n)) (fun _ => .pure _)).congr (fun s => by
    rw [P.bind_apply]; unfold Verif.readWord; cases Verif.readN o 8 s <;> rfl)

theorem OnlyUses.dec (o : Order) (c : Codec) : OnlyUses (c.dec o) := by
  have hoff : ∀ k, OnlyUses (decOffset o c k) := by
    intro k
    unfold decOffset
    refine (OnlyUses.readN o k).bind fun n => ?_
    cases toVT c.vt (fadd (ofInt n) c.min)
    · exact .fail _
    · exact .pure _
  have hmis : ∀ k m, OnlyUses (decMissing o c k m) := by
    intro k m
    unfold decMissing
    refine (OnlyUses.readN o k).bind fun n => ?_
    cases toVT c.vt (if n = m then c.missing else fadd (ofInt n) c.min)
    · exact .fail _
    · exact .pure _
  have hidx : ∀ k, OnlyUses (decStrIdx o c k) := by
    intro k
    unfold decStrIdx
    refine (OnlyUses.readN o k).bind fun n => ?_
    cases c.strings[n]?
    · exact .fail _
    · exact .pure _
  have hshort : ∀ m, OnlyUses (decShort o c m) := by
    intro m
    unfold decShort
    exact (OnlyUses.readN o 4).bind fun n => .pure _
  unfold Codec.dec
  cases c.kind <;> dsimp only
  case int8 => exact hoff 1
  case int16 => exact hoff 2
  case int8Missing => exact hmis 1 _
  case int16Missing => exact hmis 2 _
  case constOrMissing => exact hmis 1 _
  case realConstOrMissing => exact hmis 1 _
  case int8String => exact hidx 1
  case int16String => exact hidx 2
  case shortReal => exact hshort _
  case shortReal2 => exact hshort _
  case int32 =>
    unfold decDirect
    refine (OnlyUses.readI32 o).bind fun n => ?_
    cases c.vt <;> exact .pure _
  case longReal => exact (OnlyUses.readWord o).bind fun n => .pure _
  case constant =>
    cases toVT c.vt c.min
    · exact .fail _
    · exact .pure _
  case constantString => exact .pure _
  case longConstantString =>
    cases c.strings.head? with
    | none => exact .fail _
    | some a =>
      dsimp only
      split
      · exact .pure _
      · exact .pure _
  case chars => exact (OnlyUses.readBytes _).bind fun n => .pure _

theorem OnlyUses.decSlot (o : Order) (row : Nat) (s : Slot) : OnlyUses (decSlot o row s) := by
  unfold Verif.decSlot
  split
  · exact (OnlyUses.dec o _).bind fun d => (OnlyUses.lift _).bind fun s' => .pure _
  · exact (OnlyUses.advance _).bind fun _ => .pure _

theorem OnlyUses.decSlots (o : Order) (row : Nat) (ss : List Slot) : OnlyUses (decSlots o row ss) := by
  induction ss with
  | nil => exact .pure _
  | cons s ss ih => exact (OnlyUses.decSlot o row s).bind fun s' => ih.bind fun ss' => .pure _

theorem OnlyUses.decRows (o : Order) (k row last : Nat) (ss : List Slot) : OnlyUses (decRows o k row last ss) := by
  induction k generalizing row last ss with
  | zero => exact .pure _
  | succ k ih =>
    exact (OnlyUses.readBytes 2).bind fun m => (OnlyUses.lift _).bind fun ss1 => (OnlyUses.decSlots o row _).bind fun tail => ih _ _ _

theorem initAll_sizes {ss ss1 : List Slot} (hi : initAll ss = .ok ss1) : encSizes ss1 = encSizes ss := by
  induction ss generalizing ss1 with
  | nil => simp [initAll] at hi; rw [← hi]
  | cons s ss ih =>
    unfold initAll at hi
    split at hi
    · simp at hi
    rename_i s' hs'
    split at hi
    · simp at hi
    rename_i ss2 hss2
    simp only [Except.ok.injEq] at hi
    subst hi
    have hc : s'.codec = s.codec := by
      unfold Slot.init at hs'
      split at hs'
      · split at hs'
        · unfold Slot.store at hs'
          split at hs'
          · simp only [Except.ok.injEq] at hs'; rw [← hs']
          · simp at hs'
        · simp at hs'
      · simp only [Except.ok.injEq] at hs'; rw [← hs']
    have := ih hss2
    simp only [encSizes, List.map_cons] at this ⊢
    rw [this, hc]

/-- **A decode that succeeds used the bytes of its rows and nothing else**: any data with the same first bytes gives
the same values, and with fewer of them decoding ends in an error. -/
theorem decodeTable_exact (o : Order) (nrows : Nat) (ss ss' : List Slot) (data : List Byte)
    (h : decodeTable o nrows ss data = .ok ss') :
    rowsSize (encSizes ss) nrows data ≤ data.length ∧
      (∀ data', data'.take (rowsSize (encSizes ss) nrows data) = data.take (rowsSize (encSizes ss) nrows data) →
        rowsSize (encSizes ss) nrows data ≤ data'.length → decodeTable o nrows ss data' = .ok ss') ∧
      ∀ j, j < rowsSize (encSizes ss) nrows data → ∃ e, decodeTable o nrows ss (data.take j) = .error e ∧
        (e = .endOfStream ∨ e = .assertFailed) := by
  unfold decodeTable at h ⊢
  split at h
  · rename_i h0
    subst h0
    simp only [Except.ok.injEq] at h
    refine ⟨by simp [rowsSize], fun d' _ _ => by simp [h], fun j hj => by simp [rowsSize] at hj⟩
  rename_i h0
  cases hi : initAll ss with
  | error e => rw [hi] at h; simp at h
  | ok ss1 =>
    rw [hi] at h
    dsimp only at h
    have hsz : encSizes ss1 = encSizes ss := initAll_sizes hi
    cases hd : decRows o nrows 0 0 ss1 data with
    | error e => rw [hd] at h; simp at h
    | ok x =>
      obtain ⟨ss2, r⟩ := x
      rw [hd] at h
      dsimp only at h
      obtain ⟨_, _, m3, m4⟩ := decRows_markers o nrows 0 0 ss1 ss2 data r hd
      rw [hsz] at m3 m4
      obtain ⟨k, k1, k2, k3, k4⟩ := OnlyUses.decRows o nrows 0 0 ss1 data ss2 r hd
      have hk : k = rowsSize (encSizes ss) nrows data := by
        have := congrArg List.length (m3.symm.trans k2)
        rw [List.length_drop, List.length_drop] at this
        omega
      subst hk
      refine ⟨m4, ?_, ?_⟩
      · intro d' t1 t2
        rw [if_neg h0]
        dsimp only
        rw [k3 d' t1 t2]
        exact h
      · intro j hj
        obtain ⟨e, e1, e2⟩ := k4 j hj
        rw [if_neg h0]
        dsimp only
        rw [e1]
        exact ⟨e, rfl, e2⟩

end Verif
