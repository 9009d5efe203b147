import Verif.PropAny2
import Verif.PropRowsApi

/-
The row reader and the table decoder on the same bytes.
-/

namespace Verif

/-! ### More bytes after the ones read change nothing -/

/-- Proof device: what follows the bytes a parser takes does not matter. -/
def Ext {α : Type} (p : P α) : Prop := ∀ s a s' r, p s = .ok (a, s') → p (s ++ r) = .ok (a, s' ++ r)

theorem Ext.pure {α : Type} (a : α) : Ext (Pure.pure a : P α) := by
  intro s a' s' r h
  simp only [P.pure_apply, Except.ok.injEq, Prod.mk.injEq] at h ⊢
  exact ⟨h.1, by rw [h.2]⟩

theorem Ext.fail {α : Type} (e : Err) : Ext (P.fail e : P α) := by
  intro s a' s' r h; simp [P.fail] at h

theorem Ext.bind {α β : Type} {p : P α} {q : α → P β} (hp : Ext p) (hq : ∀ a, Ext (q a)) : Ext (p >>= q) := by
  intro s b s' r h
  rw [P.bind_apply] at h ⊢
  cases hx : p s with
  | error e => rw [hx] at h; simp at h
  | ok x =>
    obtain ⟨a, s1⟩ := x
    rw [hx] at h
    rw [hp s a s1 r hx]
    exact hq a s1 b s' r h

theorem Ext.ite {α : Type} {c : Prop} [Decidable c] {p q : P α} (hp : Ext p) (hq : Ext q) : Ext (if c then p else q) := by
  split
  · exact hp
  · exact hq

theorem Ext.readBytes (n : Nat) : Ext (readBytes n) := by
  intro s a s' r h
  obtain ⟨h1, h2, h3⟩ := readBytes_ok h
  unfold Verif.readBytes
  rw [if_pos (by simp; omega), List.take_append_of_le_length h3, List.drop_append_of_le_length h3, h1, h2]

theorem Ext.readN (o : Order) (k : Nat) : Ext (readN o k) := by
  intro s a s' r h
  unfold Verif.readN at h ⊢
  cases hx : Verif.readBytes k s with
  | error e => rw [hx] at h; simp at h
  | ok x =>
    obtain ⟨bs, s1⟩ := x
    rw [hx] at h
    rw [Ext.readBytes k s bs s1 r hx]
    simp only [Except.ok.injEq, Prod.mk.injEq] at h ⊢
    exact ⟨h.1, by rw [h.2]⟩

theorem Ext.readI32 (o : Order) : Ext (readI32 o) := by
  intro s a s' r h
  unfold Verif.readI32 at h ⊢
  cases hx : Verif.readN o 4 s with
  | error e => rw [hx] at h; simp at h
  | ok x =>
    obtain ⟨bs, s1⟩ := x
    rw [hx] at h
    rw [Ext.readN o 4 s bs s1 r hx]
    simp only [Except.ok.injEq, Prod.mk.injEq] at h ⊢
    exact ⟨h.1, by rw [h.2]⟩

theorem Ext.readWord (o : Order) : Ext (readWord o) := by
  intro s a s' r h
  unfold Verif.readWord at h ⊢
  cases hx : Verif.readN o 8 s with
  | error e => rw [hx] at h; simp at h
  | ok x =>
    obtain ⟨bs, s1⟩ := x
    rw [hx] at h
    rw [Ext.readN o 8 s bs s1 r hx]
    simp only [Except.ok.injEq, Prod.mk.injEq] at h ⊢
    exact ⟨h.1, by rw [h.2]⟩

theorem Ext.dec (o : Order) (c : Codec) : Ext (c.dec o) := by
  have hvt : ∀ w, Ext (match toVT c.vt w with | .ok w => (Pure.pure [w] : P Cell) | .error e => P.fail e) := by
    intro w
    cases toVT c.vt w with
    | ok w => exact Ext.pure _
    | error e => exact Ext.fail _
  have hoff : ∀ k, Ext (decOffset o c k) := fun k => Ext.bind (Ext.readN o k) (fun n => hvt _)
  have hmis : ∀ k m, Ext (decMissing o c k m) := fun k m => Ext.bind (Ext.readN o k) (fun n => hvt _)
  have hsh : ∀ m, Ext (decShort o c m) := fun m => Ext.bind (Ext.readN o 4) (fun n => Ext.pure _)
  have hst : ∀ k, Ext (decStrIdx o c k) := by
    intro k
    refine Ext.bind (Ext.readN o k) (fun n => ?_)
    cases c.strings[n]? with
    | some s => exact Ext.pure _
    | none => exact Ext.fail _
  unfold Codec.dec
  cases hk : c.kind <;> dsimp only
  case int8 => exact hoff 1
  case int16 => exact hoff 2
  case int32 =>
    refine Ext.bind (Ext.readI32 o) (fun n => ?_)
    cases c.vt <;> exact Ext.pure _
  case int8Missing => exact hmis 1 _
  case constOrMissing => exact hmis 1 _
  case realConstOrMissing => exact hmis 1 _
  case int16Missing => exact hmis 2 _
  case shortReal => exact hsh _
  case shortReal2 => exact hsh _
  case longReal => exact Ext.bind (Ext.readWord o) (fun n => Ext.pure _)
  case constant => exact hvt _
  case constantString => exact Ext.pure _
  case longConstantString =>
    cases c.strings.head? with
    | none => exact Ext.fail _
    | some s => exact Ext.ite (Ext.pure _) (Ext.pure _)
  case chars => exact Ext.bind (Ext.readBytes _) (fun n => Ext.pure _)
  case int8String => exact hst 1
  case int16String => exact hst 2

theorem Ext.decRow (o : Order) (cs : List Codec) (xs : List Cell) : Ext (decRow o cs xs) := by
  induction cs generalizing xs with
  | nil => exact Ext.pure _
  | cons c cs ih =>
    cases xs with
    | nil => exact Ext.pure _
    | cons x xs =>
      exact Ext.bind (Ext.dec o c) (fun d => Ext.ite (Ext.fail _) (Ext.bind (ih xs) (fun r => Ext.pure _)))

theorem Ext.itRows (o : Order) (cs : List Codec) (n : Nat) (cur : List Cell) : Ext (itRows o cs n cur) := by
  induction n generalizing cur with
  | zero => exact Ext.pure _
  | succ n ih =>
    refine Ext.bind ?_ (fun row => Ext.bind (ih row) (fun r => Ext.pure _))
    exact Ext.bind (Ext.readBytes 2) (fun m => Ext.bind (Ext.decRow o _ _) (fun t => Ext.pure _))

/-! ### Codecs read from a file -/

/-- Proof device: what every loaded codec satisfies. -/
def Codec.Loaded (c : Codec) : Prop :=
  (∃ w, c.missingWord = .ok w) ∧ (¬ c.Blank → c.decWidth = c.width ∧ 1 ≤ c.width)

theorem post_entries (o : Order) (num k : Nat) (ss : List Str) (w : Nat) (hw : 1 ≤ w) :
    PostP (fun x : List Str × Nat => 1 ≤ x.2) (readEntries o num k ss w) := by
  induction k generalizing ss w with
  | zero => exact PostP.pure hw
  | succ k ih =>
    unfold readEntries
    refine PostP.bind (PostP.triv _) _ (fun s _ => PostP.bind (PostP.triv _) _ (fun _ _ => PostP.bind (PostP.triv _) _ (fun idx _ =>
      PostP.ite PostP.fail (PostP.ite PostP.fail (ih _ _ ?_)))))
    split <;> omega

theorem post_base' (o : Order) (c : Codec) :
    PostP (fun c' : Codec => c'.kind = c.kind ∧ c'.vt = c.vt ∧ c'.strings = c.strings ∧ c'.width = c.width) (loadBase o c) := by
  unfold loadBase
  exact PostP.bind (PostP.triv _) _ (fun _ _ => PostP.bind (PostP.triv _) _ (fun _ _ => PostP.bind (PostP.triv _) _ (fun _ _ =>
    PostP.bind (PostP.triv _) _ (fun _ _ => PostP.pure ⟨rfl, rfl, rfl, rfl⟩))))

theorem post_loaded (o : Order) (k : Kind) (ty : Int) (asDbl : Bool) : PostP Codec.Loaded ((fresh k ty asDbl).load o) := by
  unfold Codec.load
  refine PostP.bind (post_base' o _) _ (fun c' hc' => ?_)
  obtain ⟨h1, h2, h3, h4⟩ := hc'
  have hk : c'.kind = k := h1
  have hs : c'.strings = [] := h3
  have hw : c'.width = 1 := h4
  have plain : c'.kind.isInt = false → c'.decWidth = 1 → c'.Loaded := by
    intro hi hd
    refine ⟨⟨c'.missing, by simp [Codec.missingWord, hi]⟩, fun _ => ⟨by rw [hd, hw], by rw [hw]⟩⟩
  have ints : (∃ w, toVT c'.vt c'.missing = .ok w) → c'.decWidth = 1 → c'.Loaded := by
    intro ⟨w, hi⟩ hd
    refine ⟨?_, fun _ => ⟨by rw [hd, hw], by rw [hw]⟩⟩
    unfold Codec.missingWord
    split
    · exact ⟨w, hi⟩
    · exact ⟨_, rfl⟩
  split
  · rename_i hk
    refine PostP.pure ⟨⟨c'.missing, by simp [Codec.missingWord, hk, Kind.isInt]⟩, fun _ => ?_⟩
    simp [Codec.decWidth, hk, hw]
  · rename_i hk
    refine PostP.bind (PostP.triv _) _ (fun s _ => PostP.pure ⟨⟨c'.missing, by simp [Codec.missingWord, hk, Kind.isInt]⟩, fun hb => ?_⟩)
    have hsn : s ≠ [] := by
      intro he
      apply hb
      exact ⟨hk, by simp [hs, he]⟩
    simp only [Codec.decWidth, hk, hs, List.nil_append, List.head?_cons, if_neg hsn, wordsFor]
    exact ⟨trivial, by omega⟩
  · rename_i hk
    refine PostP.bind (PostP.triv _) _ (fun n _ => PostP.ite (PostP.pure ?_) PostP.fail)
    refine ⟨⟨c'.missing, by simp [Codec.missingWord, hk, Kind.isInt]⟩, fun _ => ?_⟩
    simp [Codec.decWidth, hk, hw]
  · rename_i hk
    refine PostP.bind (PostP.triv _) _ (fun n _ => PostP.ite PostP.fail (PostP.bind (post_entries o _ _ _ 1 (Nat.le_refl 1)) _
      (fun x hx => PostP.pure ?_)))
    refine ⟨⟨c'.missing, by simp [Codec.missingWord, hk, Kind.isInt]⟩, fun _ => ?_⟩
    simp [Codec.decWidth, hk, hx]
  · rename_i hk
    refine PostP.bind (PostP.triv _) _ (fun n _ => PostP.ite PostP.fail (PostP.bind (post_entries o _ _ _ 1 (Nat.le_refl 1)) _
      (fun x hx => PostP.pure ?_)))
    refine ⟨⟨c'.missing, by simp [Codec.missingWord, hk, Kind.isInt]⟩, fun _ => ?_⟩
    simp [Codec.decWidth, hk, hx]
  · rename_i n1 n2 n3 n4 n5
    have hd : c'.decWidth = 1 := by
      unfold Codec.decWidth
      split
      · rename_i hh; exact absurd hh n3
      · rename_i hh; exact absurd hh n4
      · rename_i hh; exact absurd hh n5
      · rename_i hh; exact absurd hh n2
      · rfl
    split
    · cases hv : toVT c'.vt c'.missing with
      | ok w => exact PostP.pure (ints ⟨w, hv⟩ hd)
      | error e => exact PostP.fail
    · rename_i hi
      exact PostP.pure (plain (by simpa using hi) hd)

theorem post_loadedCodec (o : Order) (asDbl : Bool) (ty : Int) : PostP Codec.Loaded (loadCodec o asDbl ty) := by
  unfold loadCodec
  refine PostP.bind (PostP.triv _) _ (fun nm _ => ?_)
  cases Kind.ofName nm with
  | none => exact PostP.fail
  | some k => exact post_loaded o k ty asDbl

theorem post_loadedCol (o : Order) (asDbl : Bool) : PostP (fun c : Col => c.codec.Loaded) (readCol o asDbl) := by
  unfold readCol
  refine PostP.bind (PostP.triv _) _ (fun _ _ => PostP.bind (PostP.triv _) _ (fun ty _ => PostP.ite ?_ ?_))
  · exact PostP.bind (PostP.triv _) _ (fun _ _ => PostP.bind (PostP.triv _) _ (fun _ _ =>
      PostP.ite PostP.fail (PostP.bind (post_loadedCodec o asDbl ty) _ (fun _ h => PostP.pure h))))
  · exact PostP.bind (post_loadedCodec o asDbl ty) _ (fun _ h => PostP.pure h)

theorem post_readN8 (o : Order) : PostP (fun n : Nat => n < 18446744073709551616) (readN o 8) := by
  intro s
  cases hx : readN o 8 s with
  | error e => trivial
  | ok x =>
    obtain ⟨n, r⟩ := x
    exact readN_bound hx

theorem post_loadedVar (o : Order) (asDbl : Bool) :
    PostP (fun h : HeaderInfo => (∀ c ∈ h.cols, c.codec.Loaded) ∧ h.dataSize < 18446744073709551616 ∧
      h.nrows < 18446744073709551616) (readVar o asDbl) := by
  unfold readVar
  refine PostP.bind (post_readN8 o) _ (fun _ h1 => PostP.bind (PostP.triv _) _ (fun _ _ => PostP.ite PostP.fail ?_))
  refine PostP.bind (post_readN8 o) _ (fun _ h2 => PostP.bind (PostP.triv _) _ (fun _ _ =>
    PostP.bind (PostP.triv _) _ (fun _ _ => PostP.bind (PostP.triv _) _ (fun _ _ => PostP.ite PostP.fail ?_))))
  exact PostP.bind (post_many (post_loadedCol o asDbl) _) _ (fun _ h => PostP.pure ⟨h, h1, h2⟩)

theorem parse_loaded {md5 : List Byte → Str} {asDbl : Bool} {s r : List Byte} {h : HeaderInfo} {o : Order}
    (hp : parseHeader md5 asDbl s = .ok (some (h, o, r))) :
    (∀ c ∈ h.cols, c.codec.Loaded) ∧ h.dataSize < 18446744073709551616 ∧ h.nrows < 18446744073709551616 := by
  obtain ⟨bo, basic, var, digest, _, _, _, _, _, _, ⟨r, hv⟩⟩ := parseHeader_ok _ _ _ _ _ _ hp
  have := post_loadedVar o asDbl var
  rw [hv] at this
  exact this

end Verif
