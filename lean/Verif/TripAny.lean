import Verif.RoundTrip
namespace Verif

/-- One cell through any codec that is not a table of strings: byte order does not matter, and what follows
in the stream does not matter. -/
theorem cellTrip_trip (asDbl : Bool) (ty : Int) (c : Codec) (x y : Cell) (hn : c.kind.isChars = false)
    (h : cellTrip .same asDbl ty c x = .ok y) (o : Order) : CellTrip o asDbl ty c x y := by
  have hk : (reload asDbl ty c).kind = c.kind := by unfold reload; split <;> rfl
  have key : ∀ (k v : Nat) (f : Nat → Except Err Cell),
      (∀ o', c.enc o' x = .ok (putN o' k v)) → c.encSize = k →
      (∀ o' s, (reload asDbl ty c).dec o' s = (do let n ← readN o' k; match f n with | .ok z => pure z | .error e => P.fail e : P Cell) s) →
      CellTrip o asDbl ty c x y := by
    intro k v f h1 h2 h3
    refine ⟨_, h1 o, by simp [h2], ?_⟩
    unfold cellTrip at h
    rw [h1 .same] at h
    simp only [h3, P.bind_apply] at h
    have e0 := readN_putN .same k v []
    rw [List.append_nil] at e0
    rw [e0] at h
    intro r
    rw [h3, P.bind_apply, readN_putN]
    cases hf : f (v % 256 ^ k) with
    | error e => simp [hf, P.fail] at h
    | ok z => simp [hf] at h ⊢; exact h
  have henc : ∀ e, c.enc .same x = .error e → CellTrip o asDbl ty c x y := by
    intro e he
    unfold cellTrip at h
    rw [he] at h
    simp at h
  generalize hd : reload asDbl ty c = d at *
  have off : ∀ k, (∀ o', c.enc o' x = encOffset o' c k (cellWord x)) → c.encSize = k →
      (∀ o', d.dec o' = decOffset o' d k) → CellTrip o asDbl ty c x y := by
    intro k h1 h2 h3
    cases hf : fcast 0 18446744073709551615 (fsub (toDbl c.vt (cellWord x)) c.min) with
    | error e => exact henc e (by rw [h1]; simp [encOffset, hf])
    | ok i =>
      apply key k i.toNat (fun n => match toVT d.vt (fadd (ofInt n) d.min) with | .ok w => .ok [w] | .error e => .error e)
      · intro o'; rw [h1]; simp [encOffset, hf]
      · exact h2
      · intro o' s
        rw [h3]
        unfold decOffset
        simp only [P.bind_apply]
        cases readN o' k s with
        | error e => rfl
        | ok r =>
          obtain ⟨n, r⟩ := r
          simp only
          cases toVT d.vt (fadd (ofInt n) d.min) <;> rfl
  have mis : ∀ k mk, (∀ o', c.enc o' x = encMissing o' c k mk (cellWord x)) → c.encSize = k →
      (∀ o', d.dec o' = decMissing o' d k mk) → CellTrip o asDbl ty c x y := by
    intro k mk h1 h2 h3
    have fin : ∀ v, (∀ o', c.enc o' x = .ok (putN o' k v)) → CellTrip o asDbl ty c x y := by
      intro v hv
      apply key k v (fun n => match toVT d.vt (if n = mk then d.missing else fadd (ofInt n) d.min) with
        | .ok w => .ok [w] | .error e => .error e) hv h2
      intro o' s
      rw [h3]
      unfold decMissing
      simp only [P.bind_apply]
      cases readN o' k s with
      | error e => rfl
      | ok r =>
        obtain ⟨n, r⟩ := r
        simp only
        cases toVT d.vt (if n = mk then d.missing else fadd (ofInt n) d.min) <;> rfl
    by_cases hm : feq (toDbl c.vt (cellWord x)) c.missing = true
    · exact fin mk (fun o' => by rw [h1]; simp [encMissing, hm])
    · cases hf : fcast 0 (256 ^ k - 1) (fsub (toDbl c.vt (cellWord x)) c.min) with
      | error e => exact henc e (by rw [h1]; simp [encMissing, hm, hf])
      | ok i =>
        by_cases hi : i.toNat = mk
        · exact henc .assertFailed (by rw [h1]; simp [encMissing, hm, hf, hi])
        · exact fin i.toNat (fun o' => by rw [h1]; simp [encMissing, hm, hf, hi])
  have sho : ∀ mk, (∀ o', c.enc o' x = encShort o' c mk (cellWord x)) → c.encSize = 4 →
      (∀ o', d.dec o' = decShort o' d mk) → CellTrip o asDbl ty c x y := by
    intro mk h1 h2 h3
    have fin : ∀ v, (∀ o', c.enc o' x = .ok (putN o' 4 v)) → CellTrip o asDbl ty c x y := by
      intro v hv
      apply key 4 v (fun n => .ok [if geq (BitVec.ofNat 32 n) mk then d.missing else widen (BitVec.ofNat 32 n)]) hv h2
      intro o' s
      rw [h3]
      unfold decShort
      simp only [P.bind_apply]
    by_cases hm : feq (cellWord x) c.missing = true
    · exact fin mk.toNat (fun o' => by rw [h1]; simp [encShort, hm])
    · by_cases hg : geq (narrow (cellWord x)) mk = true
      · exact henc .assertFailed (by rw [h1]; simp [encShort, hm, hg])
      · exact fin (narrow (cellWord x)).toNat (fun o' => by rw [h1]; simp [encShort, hm, hg])
  have nil : (∀ o', c.enc o' x = .ok []) → c.encSize = 0 → (∃ q : Except Err Cell, ∀ o',
      d.dec o' = (match q with | .ok z => pure z | .error e => P.fail e : P Cell)) → CellTrip o asDbl ty c x y := by
    rintro h1 h2 ⟨q, h3⟩
    refine ⟨[], h1 o, by simp [h2], ?_⟩
    unfold cellTrip at h
    rw [h1, hd] at h
    simp only [h3] at h
    intro r
    rw [hd, h3]
    cases q with
    | error e => simp [P.fail] at h
    | ok z => simp at h ⊢; exact h
  cases hc : c.kind <;> rw [hc] at hk hn
  case int8 => exact off 1 (fun o' => by simp [Codec.enc, hc]) (by simp [Codec.encSize, hc]) (fun o' => by simp [Codec.dec, hk])
  case int16 => exact off 2 (fun o' => by simp [Codec.enc, hc]) (by simp [Codec.encSize, hc]) (fun o' => by simp [Codec.dec, hk])
  case int32 =>
    have fin : ∀ v, (∀ o', c.enc o' x = .ok (putN o' 4 v)) → CellTrip o asDbl ty c x y := by
      intro v hv
      apply key 4 v (fun n => .ok [match d.vt with
        | .i64 => BitVec.ofInt 64 (BitVec.ofNat 32 n).toInt | .dbl => ofInt (BitVec.ofNat 32 n).toInt]) hv
        (by simp [Codec.encSize, hc])
      intro o' s
      simp only [Codec.dec, hk, decDirect, P.bind_apply, readI32]
      cases readN o' 4 s with
      | error e => rfl
      | ok r => cases d.vt <;> rfl
    cases hv : c.vt with
    | i64 => exact fin ((cellWord x).toNat % 2 ^ 32) (fun o' => by simp only [Codec.enc, hc, encDirect, hv])
    | dbl =>
      cases hf : fcast (-2147483648) 2147483647 (cellWord x) with
      | error e => exact henc e (by simp [Codec.enc, hc, encDirect, hv, hf])
      | ok i => exact fin (BitVec.ofInt 32 i).toNat (fun o' => by simp [Codec.enc, hc, encDirect, hv, hf, putI32])
  case int8Missing => exact mis 1 0xff (fun o' => by simp [Codec.enc, hc]) (by simp [Codec.encSize, hc]) (fun o' => by simp [Codec.dec, hk])
  case int16Missing => exact mis 2 0xffff (fun o' => by simp [Codec.enc, hc]) (by simp [Codec.encSize, hc]) (fun o' => by simp [Codec.dec, hk])
  case constOrMissing => exact mis 1 0xff (fun o' => by simp [Codec.enc, hc]) (by simp [Codec.encSize, hc]) (fun o' => by simp [Codec.dec, hk])
  case realConstOrMissing => exact mis 1 0xff (fun o' => by simp [Codec.enc, hc]) (by simp [Codec.encSize, hc]) (fun o' => by simp [Codec.dec, hk])
  case shortReal => exact sho minFloat (fun o' => by simp [Codec.enc, hc]) (by simp [Codec.encSize, hc]) (fun o' => by simp [Codec.dec, hk])
  case shortReal2 => exact sho real2Missing (fun o' => by simp [Codec.enc, hc]) (by simp [Codec.encSize, hc]) (fun o' => by simp [Codec.dec, hk])
  case longReal =>
    refine ⟨putWord o (cellWord x), by simp [Codec.enc, hc], by simp [Codec.encSize, hc], ?_⟩
    unfold cellTrip at h
    rw [hd] at h
    simp only [Codec.enc, hc] at h
    have e0 := readWord_putWord .same (cellWord x) []
    rw [List.append_nil] at e0
    simp only [Codec.dec, hk, P.bind_apply, e0, P.pure_apply, Except.ok.injEq] at h
    intro r
    rw [hd]
    simp only [Codec.dec, hk, P.bind_apply, readWord_putWord, P.pure_apply, h]
  case constant =>
    apply nil (fun o' => by simp [Codec.enc, hc]) (by simp [Codec.encSize, hc])
    refine ⟨match toVT d.vt d.min with | .ok w => .ok [w] | .error e => .error e, fun o' => ?_⟩
    simp only [Codec.dec, hk]
    cases toVT d.vt d.min <;> rfl
  case constantString =>
    apply nil (fun o' => by simp [Codec.enc, hc]) (by simp [Codec.encSize, hc])
    exact ⟨.ok [d.min], fun o' => by simp [Codec.dec, hk]⟩
  all_goals simp [Kind.isChars] at hn

end Verif
