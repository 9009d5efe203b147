import Verif.Codec

/-
Lemmas: saving and loading codec parameters are inverse (up to the members that are not stored).
-/

namespace Verif

@[simp] theorem swapWord_swapWord (o : Order) (w : Word) : swapWord o (swapWord o w) = w := by
  unfold swapWord
  rw [wordBytes_wordOfBytes _ (by simp)]
  simp

theorem Kind.ofName_name (k : Kind) : Kind.ofName k.name = some k := by
  cases k <;> decide

theorem Kind.name_len (k : Kind) : LenOk k.name.length := by
  cases k <;> decide

/-- Width recovered from the string table: String.h l.153-188. -/
def tableWidth : List Str → Nat → Nat
  | [], w => w
  | s :: ss, w => tableWidth ss (if s.length ≠ 0 then max w (wordsFor s.length) else w)

/-- The codec object obtained by saving `c` and loading it for column type `ty`: statistics are kept,
the string table is kept for the codecs that store one, and the width is recomputed. -/
def reload (asDbl : Bool) (ty : Int) (c : Codec) : Codec :=
  let b : Codec := { fresh c.kind ty asDbl with
    hasMissing := c.hasMissing, min := c.min, max := c.max, missing := c.missing }
  match c.kind with
  | .longConstantString =>
    { b with strings := [c.strings.headD []], width := wordsFor (c.strings.headD []).length }
  | .int8String | .int16String => { b with strings := c.strings, width := tableWidth c.strings 1 }
  | _ => b

/-- What must hold for `save` to be faithful: sizes within the 32-bit length fields of the format, and
an integer codec's missing value convertible to the in-memory integer type. -/
structure SaveOk (asDbl : Bool) (ty : Int) (c : Codec) : Prop where
  hm : InI32 c.hasMissing
  nstr : LenOk c.strings.length
  slen : ∀ s ∈ c.strings, LenOk s.length
  cast : c.kind.isInt = true → ∃ w, toVT (vtOf c.kind ty asDbl) c.missing = .ok w

theorem reads_loadBase (o : Order) (c0 : Codec) (hm : Int) (mn mx ms : Word) (h : InI32 hm) :
    Reads (loadBase o c0) (saveBase o hm mn mx ms)
      { c0 with hasMissing := hm, min := mn, max := mx, missing := ms } := by
  unfold loadBase saveBase
  refine Reads.bind (reads_i32 o hm h) ?_
  refine Reads.bind (reads_word o mn) ?_
  refine Reads.bind (reads_word o mx) ?_
  exact Reads.bind_pure (reads_word o ms) (fun s => rfl)

theorem set_append_replicate (done : List Str) (s : Str) (n : Nat) :
    (done ++ List.replicate (n + 1) []).set done.length s = (done ++ [s]) ++ List.replicate n [] := by
  simp [List.replicate_succ]

theorem reads_entries (o : Order) (num : Nat) (ss done : List Str) (w : Nat)
    (hnum : num = done.length + ss.length) (hok : LenOk num) (hs : ∀ s ∈ ss, LenOk s.length) :
    Reads (readEntries o num ss.length (done ++ List.replicate ss.length []) w)
      (putEntries o ss done.length) (done ++ ss, tableWidth ss w) := by
  induction ss generalizing done w with
  | nil => simpa [readEntries, putEntries, tableWidth] using Reads.pure (done, w)
  | cons s ss ih =>
    simp only [List.length_cons, readEntries, putEntries, putEntry, tableWidth, List.append_assoc]
    have hl : LenOk done.length := by simp only [LenOk, List.length_cons] at *; omega
    refine Reads.bind (reads_str o s (hs s (by simp))) ?_
    refine Reads.bind (reads_i32 o 0 (by decide)) ?_
    refine Reads.bind (reads_i32 o _ hl.inI32) ?_
    have h1 : ¬ ((num : Int) ≤ (done.length : Int)) := by simp only [List.length_cons] at hnum; omega
    have h2 : ¬ ((done.length : Int) < 0) := by omega
    rw [if_neg h1, if_neg h2, Int.toNat_natCast, set_append_replicate]
    have := ih (done ++ [s]) (if s.length ≠ 0 then max w (wordsFor s.length) else w)
      (by simp at *; omega) (fun t ht => hs t (by simp [ht]))
    simpa using this

theorem reads_codec_body (o : Order) (asDbl : Bool) (ty : Int) (c : Codec) (h : SaveOk asDbl ty c) :
    Reads ((fresh c.kind ty asDbl).load o) (c.save o) (reload asDbl ty c) := by
  have hb := fun c0 mn mx => reads_loadBase o c0 c.hasMissing mn mx c.missing h.hm
  unfold Codec.load Codec.save reload
  have hcast : c.kind.isInt = true → ∃ w, toVT (fresh c.kind ty asDbl).vt c.missing = .ok w := by
    intro hki
    obtain ⟨w, hw⟩ := h.cast hki
    exact ⟨w, hw⟩
  cases hk : c.kind with
  | int8 =>
    refine Reads.bind_pure (hb _ _ _) (fun s => ?_)
    obtain ⟨w, hw⟩ := hcast (by rw [hk]; rfl)
    rw [hk] at hw
    simp only [fresh] at hw ⊢
    simp [Kind.isInt, hw]
  | int16 =>
    refine Reads.bind_pure (hb _ _ _) (fun s => ?_)
    obtain ⟨w, hw⟩ := hcast (by rw [hk]; rfl)
    rw [hk] at hw
    simp only [fresh] at hw ⊢
    simp [Kind.isInt, hw]
  | int32 =>
    refine Reads.bind_pure (hb _ _ _) (fun s => ?_)
    obtain ⟨w, hw⟩ := hcast (by rw [hk]; rfl)
    rw [hk] at hw
    simp only [fresh] at hw ⊢
    simp [Kind.isInt, hw]
  | int8Missing =>
    refine Reads.bind_pure (hb _ _ _) (fun s => ?_)
    obtain ⟨w, hw⟩ := hcast (by rw [hk]; rfl)
    rw [hk] at hw
    simp only [fresh] at hw ⊢
    simp [Kind.isInt, hw]
  | int16Missing =>
    refine Reads.bind_pure (hb _ _ _) (fun s => ?_)
    obtain ⟨w, hw⟩ := hcast (by rw [hk]; rfl)
    rw [hk] at hw
    simp only [fresh] at hw ⊢
    simp [Kind.isInt, hw]
  | constOrMissing =>
    refine Reads.bind_pure (hb _ _ _) (fun s => ?_)
    obtain ⟨w, hw⟩ := hcast (by rw [hk]; rfl)
    rw [hk] at hw
    simp only [fresh] at hw ⊢
    simp [Kind.isInt, hw]
  | realConstOrMissing =>
    refine Reads.bind_pure (hb _ _ _) (fun s => ?_)
    obtain ⟨w, hw⟩ := hcast (by rw [hk]; rfl)
    rw [hk] at hw
    simp only [fresh] at hw ⊢
    simp [Kind.isInt, hw]
  | shortReal => exact Reads.bind_pure (hb _ _ _) (fun s => rfl)
  | shortReal2 => exact Reads.bind_pure (hb _ _ _) (fun s => rfl)
  | longReal => exact Reads.bind_pure (hb _ _ _) (fun s => rfl)
  | constant => exact Reads.bind_pure (hb _ _ _) (fun s => rfl)
  | constantString =>
    refine Reads.bind_pure (hb _ _ _) ?_
    intro s
    simp [fresh]
  | longConstantString =>
    refine Reads.bind (hb _ _ _) ?_
    simp only [fresh]
    refine Reads.bind_pure (reads_str o (c.strings.headD []) ?_) (fun s => rfl)
    cases hs : c.strings with
    | nil => decide
    | cons a as => exact h.slen a (by simp [hs])
  | chars =>
    refine Reads.bind (hb _ _ _) ?_
    simp only [fresh]
    exact Reads.bind_pure (reads_i32 o 0 (by decide)) (fun s => rfl)
  | int8String =>
    refine Reads.bind (hb _ _ _) ?_
    simp only [fresh]
    refine Reads.bind (reads_i32 o _ h.nstr.inI32) ?_
    have h2 : ¬ ((c.strings.length : Int) < 0) := by omega
    rw [if_neg h2, Int.toNat_natCast]
    refine Reads.bind_pure (a := (c.strings, tableWidth c.strings 1)) ?_ (fun s => rfl)
    simpa using reads_entries o c.strings.length c.strings [] 1 (by simp) h.nstr h.slen
  | int16String =>
    refine Reads.bind (hb _ _ _) ?_
    simp only [fresh]
    refine Reads.bind (reads_i32 o _ h.nstr.inI32) ?_
    have h2 : ¬ ((c.strings.length : Int) < 0) := by omega
    rw [if_neg h2, Int.toNat_natCast]
    refine Reads.bind_pure (a := (c.strings, tableWidth c.strings 1)) ?_ (fun s => rfl)
    simpa using reads_entries o c.strings.length c.strings [] 1 (by simp) h.nstr h.slen

/-- **Codec parameters round trip**, for every codec and both byte orders. -/
theorem reads_codec (o : Order) (asDbl : Bool) (ty : Int) (c : Codec) (h : SaveOk asDbl ty c) :
    Reads (loadCodec o asDbl ty) (saveCodec o c) (reload asDbl ty c) := by
  unfold loadCodec saveCodec
  refine Reads.bind (reads_str o _ c.kind.name_len) ?_
  rw [Kind.ofName_name]
  exact reads_codec_body o asDbl ty c h

end Verif
