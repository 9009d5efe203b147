import Verif.Arbitrary

/-
C45: reading arbitrary bytes is defined, and it ends.
-/

namespace Verif

/-! ### No undefined behaviour while reading -/

theorem parse_safe (md5 : List Byte → Str) (d : Bool) (s : List Byte) (h : parseHeader md5 d s = .error .ub) : Bad d s := by
  unfold parseHeader at h
  split at h
  · simp at h
  split at h
  · simp at h
  split at h
  · simp at h
  unfold loadAfterMagic at h
  generalize hs1 : s.drop 5 = s1 at h
  have es : s = s.take 5 ++ s1 := by rw [← hs1, List.take_append_drop]
  suffices hb : Bad d s1 by rw [es]; exact hb.prepend _
  by_cases h4 : s1.length < 4
  · rw [if_pos h4] at h; simp at h
  rw [if_neg h4] at h
  generalize hs2 : s1.drop 4 = s2 at h
  have es1 : s1 = s1.take 4 ++ s2 := by rw [← hs2, List.take_append_drop]
  suffices hb : Bad d s2 by rw [es1]; exact hb.prepend _
  generalize orderOf (s1.take 4) = o at h
  cases hl : loadHeader md5 d o s2 with
  | ok x => rw [hl] at h; simp at h
  | error e =>
    rw [hl] at h
    simp only [Except.error.injEq] at h
    subst h
    unfold loadHeader at hl
    split at hl
    · simp at hl
    have es2 : s2 = s2.take 48 ++ s2.drop 48 := by rw [List.take_append_drop]
    cases hb : readBasic o (s2.take 48) with
    | error e =>
      rw [hb] at hl
      simp only [Except.error.injEq] at hl
      subst hl
      rw [es2]
      exact ((tame_readBasic o).ub _ hb).append _
    | ok x =>
      obtain ⟨⟨digest, size⟩, r⟩ := x
      rw [hb] at hl
      dsimp only at hl
      split at hl
      · simp at hl
      split at hl
      · simp at hl
      split at hl
      · simp at hl
      cases hv : readVar o d ((s2.drop 48).take size.toNat) with
      | ok y => rw [hv] at hl; simp at hl
      | error e =>
        rw [hv] at hl
        simp only [Except.error.injEq] at hl
        subst hl
        have h3 := ((tame_readVar o d).ub _ hv).append ((s2.drop 48).drop size.toNat)
        rw [List.take_append_drop] at h3
        rw [es2]
        exact h3.prepend _

theorem readTable_safe (env : Env) (f : File) (hb : ¬ Bad env.asDbl f.bytes) (pos : Int) : readTable env f pos ≠ .error .ub := by
  intro h
  unfold readTable at h
  split at h
  · simp at h
  split at h
  · rename_i e he
    simp only [Except.error.injEq] at h
    subst h
    apply hb
    have := (parse_safe _ _ _ he).prepend (f.bytes.take pos.toNat)
    rwa [List.take_append_drop] at this
  · simp at h
  · dsimp only at h
    split at h <;> simp at h

theorem ensure_safe (env : Env) (f : File) (hb : ¬ Bad env.asDbl f.bytes) (ts : List Tbl) (i : Int) :
    ensureTable env f ts i ≠ .error .ub := by
  intro h
  unfold ensureTable at h
  split at h
  · simp at h
  split at h
  · simp at h
  split at h
  · split at h
    · simp at h
    · split at h
      · rename_i e he
        simp only [Except.error.injEq] at h
        subst h
        exact readTable_safe env f hb _ he
      · simp at h
      · simp at h
  · simp at h

theorem itIncr_safe (env : Env) (f : File) (hb : ¬ Bad env.asDbl f.bytes) (ts : List Tbl) (pos : Int) :
    (itIncr env f ts pos).2.2 ≠ some .ub := by
  unfold itIncr
  cases h : ensureTable env f ts (pos + 1) with
  | error e => 
    dsimp only
    intro he
    simp only [Option.some.injEq] at he
    subst he
    exact ensure_safe env f hb _ _ h
  | ok x => obtain ⟨ts', b⟩ := x; cases b <;> simp

theorem itGet_safe (ts : List Tbl) (pos : Int) : itGet ts pos ≠ .error .ub := by
  unfold itGet
  split
  · simp
  · split <;> simp

theorem cloneCols_safe (cs : List Col) : cloneCols cs ≠ .error .ub := by
  induction cs with
  | nil => simp [cloneCols]
  | cons c cs ih =>
    unfold cloneCols Codec.clone
    by_cases h : (c.codec.kind.isChars && !(feq c.codec.min c.codec.min && feq c.codec.max c.codec.max)) = true
    · rw [if_pos h]; simp
    · rw [if_neg h]
      dsimp only
      cases hc : cloneCols cs with
      | ok x => simp
      | error e =>
        intro he
        simp only [Except.error.injEq] at he
        subst he
        exact ih hc

theorem copy_safe (t : Tbl) : t.copy ≠ .error .ub := by
  unfold Tbl.copy
  cases h : cloneCols t.info.cols with
  | ok x => simp
  | error e =>
    intro he
    simp only [Except.error.injEq] at he
    subst he
    exact cloneCols_safe _ h

theorem aggLoop_safe (env : Env) (f : File) (hb : ¬ Bad env.asDbl f.bytes) (limit : Int) (fuel : Nat) (ts : List Tbl)
    (pos : Int) (acc : List Tbl) (nrows : Int) (hacc : acc ≠ []) : (aggLoop env f limit fuel ts pos acc nrows).2 ≠ .error .ub := by
  induction fuel generalizing ts pos acc nrows with
  | zero => simp [aggLoop]
  | succ fuel ih =>
    unfold aggLoop
    have h1 := itIncr_safe env f hb ts pos
    cases e1 : itIncr env f ts pos with
    | mk ts1 x =>
      obtain ⟨p1, oe⟩ := x
      rw [e1] at h1
      cases oe with
      | some e =>
        dsimp only at h1 ⊢
        intro he
        simp only [Except.error.injEq] at he
        subst he
        exact h1 rfl
      | none =>
        dsimp only
        split
        · simp
        · obtain ⟨front, rest, rfl⟩ := List.exists_cons_of_ne_nil hacc
          cases hg : itGet ts1 p1 with
          | error e =>
            dsimp only [List.head?_cons]
            intro he
            simp only [Except.error.injEq] at he
            subst he
            exact itGet_safe _ _ hg
          | ok t =>
            dsimp only [List.head?_cons]
            split
            · simp
            split
            · simp
            have h2 := itIncr_safe env f hb ts1 pos
            cases e2 : itIncr env f ts1 pos with
            | mk ts2 y =>
              obtain ⟨p2, oe2⟩ := y
              rw [e2] at h2
              cases oe2 with
              | some e =>
                dsimp only at h2 ⊢
                intro he
                simp only [Except.error.injEq] at he
                subst he
                exact h2 rfl
              | none =>
                dsimp only
                cases hg2 : itGet ts2 p2 with
                | error e =>
                  dsimp only
                  intro he
                  simp only [Except.error.injEq] at he
                  subst he
                  exact itGet_safe _ _ hg2
                | ok t2 =>
                  dsimp only
                  cases hcp : t2.copy with
                  | error e =>
                    dsimp only
                    intro he
                    simp only [Except.error.injEq] at he
                    subst he
                    exact copy_safe _ hcp
                  | ok t3 =>
                    dsimp only
                    exact ih _ _ _ _ (by simp)

theorem take_safe (env : Env) (f : File) (hb : ¬ Bad env.asDbl f.bytes) (agg : Bool) (limit : Int) (fuel : Nat)
    (ts : List Tbl) (pos : Int) : (Rd.take env f agg limit fuel ts pos).2 ≠ .error .ub := by
  unfold Rd.take
  cases hg : itGet ts pos with
  | error e =>
    dsimp only
    intro he
    simp only [Except.error.injEq] at he
    subst he
    exact itGet_safe _ _ hg
  | ok t =>
    dsimp only
    cases hcp : t.copy with
    | error e =>
      dsimp only
      intro he
      simp only [Except.error.injEq] at he
      subst he
      exact copy_safe _ hcp
    | ok t' =>
      dsimp only
      have hx : (if agg then aggLoop env f limit fuel ts pos [t'] t'.rows else ((ts, pos), .ok ([t'], t'.rows))).2 ≠ .error .ub := by
        split
        · exact aggLoop_safe env f hb limit fuel ts pos [t'] _ (by simp)
        · simp
      cases hy : (if agg then aggLoop env f limit fuel ts pos [t'] t'.rows else ((ts, pos), .ok ([t'], t'.rows))) with
      | mk a r =>
        obtain ⟨ts', pos'⟩ := a
        rw [hy] at hx
        cases r with
        | error e =>
          dsimp only at hx ⊢
          intro he
          simp only [Except.error.injEq] at he
          subst he
          exact hx rfl
        | ok z =>
          dsimp only
          split <;> simp

/-- **C45**, reading: whatever the bytes are and whatever was done before, opening a reader on them and taking the next
frame give a frame, the end, or an error that is reported: the behaviour is never undefined, unless the bytes contain a
string dictionary with a negative index (or, with integers not passed as doubles, an integer column whose missing value
is no 64-bit integer). -/
theorem C45_reading_defined (env : Env) (f : File) (hidx : ¬ NegativeIndex f.bytes)
    (hms : env.asDbl = true ∨ ¬ NoIntegerMissing f.bytes) :
    Rd.open env f ≠ .error .ub ∧
      ∀ (agg : Bool) (limit : Int) (fuel : Nat) (r : Rd), (r.next env f agg limit fuel).2 ≠ .error .ub := by
  have hb : ¬ Bad env.asDbl f.bytes := by
    rintro (h | ⟨h1, h2⟩)
    · exact hidx h
    · rcases hms with h | h
      · rw [h] at h1; cases h1
      · exact h h2
  refine ⟨?_, fun agg limit fuel r => ?_⟩
  · unfold Rd.open
    cases h : ensureTable env f [] 0 with
    | error e =>
      dsimp only
      intro he
      simp only [Except.error.injEq] at he
      subst he
      exact ensure_safe env f hb _ _ h
    | ok x => obtain ⟨ts, b⟩ := x; cases b <;> simp
  · unfold Rd.next
    split
    · simp
    split
    · exact take_safe env f hb _ _ _ _ _
    · have h1 := itIncr_safe env f hb r.tables r.pos
      cases e1 : itIncr env f r.tables r.pos with
      | mk ts1 x =>
        obtain ⟨p1, oe⟩ := x
        rw [e1] at h1
        cases oe with
        | some e =>
          dsimp only at h1 ⊢
          intro he
          simp only [Except.error.injEq] at he
          subst he
          exact h1 rfl
        | none =>
          dsimp only
          split
          · simp
          · exact take_safe env f hb _ _ _ _ _

/-! ### Reading ends -/

/-- Proof device: a parser all of whose loops are bounded. -/
def Finite {α : Type} (p : P α) : Prop := ∀ s, p s ≠ .error .diverges

theorem Finite.bind {α β : Type} {p : P α} {f : α → P β} (hp : Finite p) (hf : ∀ a, Finite (f a)) : Finite (p >>= f) := by
  intro s h
  rw [P.bind_apply] at h
  cases hps : p s with
  | error e => rw [hps] at h; simp only [Except.error.injEq] at h; subst h; exact hp s hps
  | ok x => obtain ⟨a, s1⟩ := x; rw [hps] at h; exact hf a s1 h

theorem Finite.pure {α : Type} (a : α) : Finite (Pure.pure a : P α) := by intro s h; simp at h

theorem Finite.fail {α : Type} {e : Err} (he : e ≠ .diverges) : Finite (P.fail e : P α) := by
  intro s h; simp only [P.fail, Except.error.injEq] at h; exact he h

theorem Finite.ite {α : Type} {c : Prop} [Decidable c] {p q : P α} (hp : Finite p) (hq : Finite q) : Finite (if c then p else q) := by
  by_cases h : c
  · rw [if_pos h]; exact hp
  · rw [if_neg h]; exact hq

theorem ends_readBytes (n : Nat) : Finite (readBytes n) := by
  intro s h
  have := (readBytes_err h).1
  cases this

theorem ends_readN (o : Order) (k : Nat) : Finite (readN o k) := by
  intro s h
  have := (readN_err h).1
  cases this

theorem ends_readI32 (o : Order) : Finite (readI32 o) := by
  intro s h
  unfold readI32 at h
  split at h
  · simp at h
  · rename_i e he
    simp only [Except.error.injEq] at h
    subst h
    exact ends_readN o 4 s he

theorem ends_readWord (o : Order) : Finite (readWord o) := by
  intro s h
  unfold readWord at h
  split at h
  · simp at h
  · rename_i e he
    simp only [Except.error.injEq] at h
    subst h
    exact ends_readN o 8 s he

theorem ends_readStr (o : Order) : Finite (readStr o) := by
  unfold readStr
  exact Finite.bind (ends_readI32 o) (fun _ => Finite.ite (Finite.fail (by simp)) (ends_readBytes _))

theorem ends_readMany {α : Type} {p : P α} (hp : Finite p) (n : Nat) : Finite (readMany p n) := by
  induction n with
  | zero => exact Finite.pure _
  | succ n ih =>
    unfold readMany
    exact Finite.bind hp (fun _ => Finite.bind ih (fun _ => Finite.pure _))

theorem ends_readVec {α : Type} {p : P α} (o : Order) (hp : Finite p) : Finite (readVec o p) := by
  unfold readVec
  exact Finite.bind (ends_readI32 o) (fun _ => Finite.ite (Finite.fail (by simp)) (ends_readMany hp _))

theorem ends_readMap (o : Order) : Finite (readMap o) := by
  unfold readMap
  exact Finite.bind (ends_readI32 o) (fun _ => Finite.bind (ends_readMany (Finite.bind (ends_readStr o) (fun _ =>
    Finite.bind (ends_readStr o) (fun _ => Finite.pure _))) _) (fun _ => Finite.pure _))

theorem ends_loadBase (o : Order) (c : Codec) : Finite (loadBase o c) := by
  unfold loadBase
  exact Finite.bind (ends_readI32 o) (fun _ => Finite.bind (ends_readWord o) (fun _ => Finite.bind (ends_readWord o) (fun _ =>
    Finite.bind (ends_readWord o) (fun _ => Finite.pure _))))

theorem ends_readEntries (o : Order) (num k : Nat) (ss : List Str) (w : Nat) : Finite (readEntries o num k ss w) := by
  induction k generalizing ss w with
  | zero => exact Finite.pure _
  | succ k ih =>
    simp only [readEntries]
    exact Finite.bind (ends_readStr o) (fun _ => Finite.bind (ends_readI32 o) (fun _ => Finite.bind (ends_readI32 o) (fun _ =>
      Finite.ite (Finite.fail (by simp)) (Finite.ite (Finite.fail (by simp)) (ih _ _)))))

theorem toVT_err {vt : VT} {w : Word} {e : Err} (h : toVT vt w = .error e) : e = .ub := by
  cases vt with
  | dbl => simp [toVT] at h
  | i64 =>
    unfold toVT fcast at h
    dsimp only at h
    split at h
    · simp at h
    · rename_i e' he
      simp only [Except.error.injEq] at h
      subst h
      split at he
      · split at he
        · simp at he
        · simpa using he.symm
      · simpa using he.symm

theorem ends_load (o : Order) (c : Codec) : Finite (c.load o) := by
  unfold Codec.load
  refine Finite.bind (ends_loadBase o c) (fun c => ?_)
  have hint : Finite (match toVT c.vt c.missing with | .ok _ => (Pure.pure c : P Codec) | .error e => P.fail e) := by
    cases h : toVT c.vt c.missing with
    | ok w => exact Finite.pure _
    | error e => rw [toVT_err h]; exact Finite.fail (by simp)
  split
  · exact Finite.pure _
  · exact Finite.bind (ends_readStr o) (fun _ => Finite.pure _)
  · exact Finite.bind (ends_readI32 o) (fun _ => Finite.ite (Finite.pure _) (Finite.fail (by simp)))
  · exact Finite.bind (ends_readI32 o) (fun _ => Finite.ite (Finite.fail (by simp)) (Finite.bind (ends_readEntries _ _ _ _ _) (fun _ => Finite.pure _)))
  · exact Finite.bind (ends_readI32 o) (fun _ => Finite.ite (Finite.fail (by simp)) (Finite.bind (ends_readEntries _ _ _ _ _) (fun _ => Finite.pure _)))
  · exact Finite.ite hint (Finite.pure _)

theorem ends_loadCodec (o : Order) (d : Bool) (ty : Int) : Finite (loadCodec o d ty) := by
  unfold loadCodec
  refine Finite.bind (ends_readStr o) (fun nm => ?_)
  cases Kind.ofName nm with
  | none => exact Finite.fail (by simp)
  | some k => exact ends_load o _

theorem ends_readCol (o : Order) (d : Bool) : Finite (readCol o d) := by
  unfold readCol
  refine Finite.bind (ends_readStr o) (fun _ => Finite.bind (ends_readI32 o) (fun ty => Finite.ite ?_ ?_))
  · exact Finite.bind (ends_readVec o (ends_readStr o)) (fun _ => Finite.bind (ends_readVec o (ends_readI32 o)) (fun _ =>
      Finite.ite (Finite.fail (by simp)) (Finite.bind (ends_loadCodec o d ty) (fun _ => Finite.pure _))))
  · exact Finite.bind (ends_loadCodec o d ty) (fun _ => Finite.pure _)

theorem ends_readVar (o : Order) (d : Bool) : Finite (readVar o d) := by
  unfold readVar
  refine Finite.bind (ends_readN o 8) (fun _ => Finite.bind (ends_readN o 8) (fun _ => Finite.ite (Finite.fail (by simp)) ?_))
  refine Finite.bind (ends_readN o 8) (fun _ => Finite.bind (ends_readVec o (ends_readWord o)) (fun _ =>
    Finite.bind (ends_readMap o) (fun _ => Finite.bind (ends_readI32 o) (fun _ => Finite.ite (Finite.fail (by simp)) ?_))))
  exact Finite.bind (ends_readMany (ends_readCol o d) _) (fun _ => Finite.pure _)

theorem ends_readBasic (o : Order) : Finite (readBasic o) := by
  unfold readBasic
  refine Finite.bind (ends_readI32 o) (fun _ => Finite.ite (Finite.fail (by simp)) ?_)
  refine Finite.bind (ends_readI32 o) (fun _ => Finite.ite (Finite.fail (by simp)) ?_)
  exact Finite.bind (ends_readStr o) (fun _ => Finite.bind (ends_readI32 o) (fun _ => Finite.pure _))

theorem parse_ends (md5 : List Byte → Str) (d : Bool) (s : List Byte) : parseHeader md5 d s ≠ .error .diverges := by
  intro h
  unfold parseHeader at h
  split at h
  · simp at h
  split at h
  · simp at h
  split at h
  · simp at h
  split at h
  · rename_i e hl
    simp only [Except.error.injEq] at h
    subst h
    unfold loadAfterMagic at hl
    split at hl
    · simp at hl
    split at hl
    · rename_i e hl'
      simp only [Except.error.injEq] at hl
      subst hl
      unfold loadHeader at hl'
      split at hl'
      · simp at hl'
      split at hl'
      · rename_i e hb
        simp only [Except.error.injEq] at hl'
        subst hl'
        exact ends_readBasic _ _ hb
      · split at hl'
        · simp at hl'
        split at hl'
        · simp at hl'
        split at hl'
        · simp at hl'
        split at hl'
        · rename_i e hv
          simp only [Except.error.injEq] at hl'
          subst hl'
          exact ends_readVar _ _ _ hv
        · simp at hl'
    · simp at hl
  · simp at h

/-- A frame found at a position starts there, its header has at least 57 bytes and lies in the file. -/
theorem readTable_place {env : Env} {f : File} {pos : Int} {t : Tbl} (h : readTable env f pos = .ok (some t)) :
    0 ≤ pos ∧ pos + 57 ≤ t.dataPos ∧ t.dataPos ≤ f.bytes.length ∧ t.next = t.dataPos + toI64 t.info.dataSize := by
  unfold readTable at h
  split at h
  · simp at h
  rename_i hpos
  split at h
  · simp at h
  · simp at h
  · rename_i hd o rest hp
    dsimp only at h
    split at h
    · simp at h
    simp only [Except.ok.injEq, Option.some.injEq] at h
    obtain ⟨bo, basic, var, digest, e, hbo, hba, _⟩ := parseHeader_ok _ _ _ _ _ _ hp
    have hl : (f.bytes.drop pos.toNat).length = 57 + var.length + rest.length := by
      rw [e]; simp only [List.length_append, magic_length, hbo, hba]; omega
    rw [← h]
    dsimp only
    have hl2 : (f.bytes.drop pos.toNat).length = f.bytes.length - pos.toNat := List.length_drop
    refine ⟨by omega, by omega, by omega, rfl⟩

/-- Specification: no frame header that is reached from the start of the file has a negative data size. -/
def Forward (env : Env) (f : File) : Prop :=
  ∀ ts : List Tbl, Chain env f 0 ts → ∀ t ∈ ts, 0 ≤ toI64 t.info.dataSize

theorem chain_count {env : Env} {f : File} {pos : Int} {ts : List Tbl} (h : Chain env f pos ts)
    (hs : ∀ t ∈ ts, 0 ≤ toI64 t.info.dataSize) : ts = [] ∨ pos + 57 * ts.length ≤ f.bytes.length := by
  induction ts generalizing pos with
  | nil => exact Or.inl rfl
  | cons t ts ih =>
    right
    obtain ⟨h1, h2⟩ := h
    obtain ⟨a1, a2, a3, a4⟩ := readTable_place h1
    have := hs t (by simp)
    rcases ih h2 (fun x hx => hs x (by simp [hx])) with rfl | hr
    · simp; omega
    · simp only [List.length_cons]; push_cast; omega

theorem chain_few {env : Env} {f : File} (hf : Forward env f) {ts : List Tbl} (h : Chain env f 0 ts) :
    57 * ts.length ≤ f.bytes.length := by
  rcases chain_count h (hf ts h) with rfl | hr
  · simp
  · omega

/-- A file whose frames do not go backwards has finitely many, and then reading ends or fails. -/
theorem scan_exists (env : Env) (f : File) (hf : Forward env f) : ∃ ts fin, Scan env f ts fin ∧ fin ≠ some .diverges := by
  have key : ∀ (n : Nat) (ts : List Tbl), Chain env f 0 ts → f.bytes.length ≤ n + 57 * ts.length →
      ∃ ts fin, Scan env f ts fin ∧ fin ≠ some .diverges := by
    intro n
    induction n using Nat.strong_induction_on with
    | _ n ih =>
      intro ts hc hn
      cases hr : readTable env f (endPos 0 ts) with
      | error e =>
        refine ⟨ts, some e, ⟨hc, hr⟩, ?_⟩
        intro he
        simp only [Option.some.injEq] at he
        subst he
        unfold readTable at hr
        split at hr
        · simp at hr
        split at hr
        · rename_i e' he'
          simp only [Except.error.injEq] at hr
          subst hr
          exact parse_ends _ _ _ he'
        · simp at hr
        · dsimp only at hr
          split at hr <;> simp at hr
      | ok x =>
        cases x with
        | none => exact ⟨ts, none, ⟨hc, hr⟩, by simp⟩
        | some t =>
          have hc' : Chain env f 0 (ts ++ [t]) := Chain.append.mpr ⟨hc, hr, trivial⟩
          have := chain_few hf hc'
          simp only [List.length_append, List.length_singleton] at this
          refine ih (n - 57) (by omega) (ts ++ [t]) hc' ?_
          simp only [List.length_append, List.length_singleton]
          omega
  exact key f.bytes.length [] trivial (by simp)

theorem readTable_ends (env : Env) (f : File) (pos : Int) : readTable env f pos ≠ .error .diverges := by
  intro hr
  unfold readTable at hr
  split at hr
  · simp at hr
  split at hr
  · rename_i e' he'
    simp only [Except.error.injEq] at hr
    subst hr
    exact parse_ends _ _ _ he'
  · simp at hr
  · dsimp only at hr
    split at hr <;> simp at hr

/-- Proof device: an iterator on a table of the file. -/
structure Live (env : Env) (f : File) (ts : List Tbl) (pos : Int) : Prop where
  chain : Chain env f 0 ts
  ge : 0 ≤ pos
  lt : pos < ts.length

theorem incr_live {env : Env} {f : File} {ts ts' : List Tbl} {pos p : Int} {oe : Option Err} (hc : Chain env f 0 ts)
    (h : itIncr env f ts pos = (ts', p, oe)) :
    oe ≠ some .diverges ∧ (oe = none → p = -1 ∨ (p = pos + 1 ∧ Live env f ts' p)) ∧ (oe = none → Chain env f 0 ts') := by
  unfold itIncr at h
  cases he : ensureTable env f ts (pos + 1) with
  | error e =>
    rw [he] at h
    simp only [Prod.mk.injEq] at h
    obtain ⟨rfl, rfl, rfl⟩ := h
    refine ⟨?_, by simp, by simp⟩
    intro hd
    simp only [Option.some.injEq] at hd
    subst hd
    unfold ensureTable at he
    split at he
    · simp at he
    split at he
    · simp at he
    split at he
    · split at he
      · simp at he
      · split at he
        · rename_i e' he'
          simp only [Except.error.injEq] at he
          subst he
          exact readTable_ends _ _ _ he'
        · simp at he
        · simp at he
    · simp at he
  | ok x =>
    obtain ⟨ts1, b⟩ := x
    rw [he] at h
    unfold ensureTable at he
    split at he
    · simp at he
    rename_i hneg
    split at he
    · simp at he
    rename_i hlen
    split at he
    · rename_i heq
      split at he
      · simp at he
      · split at he
        · simp at he
        · simp only [Except.ok.injEq, Prod.mk.injEq] at he
          obtain ⟨rfl, rfl⟩ := he
          simp only [Prod.mk.injEq] at h
          obtain ⟨rfl, rfl, rfl⟩ := h
          exact ⟨by simp, fun _ => Or.inl rfl, fun _ => hc⟩
        · rename_i t ht
          simp only [Except.ok.injEq, Prod.mk.injEq] at he
          obtain ⟨rfl, rfl⟩ := he
          simp only [Prod.mk.injEq] at h
          obtain ⟨rfl, rfl, rfl⟩ := h
          rw [posAfter_eq] at ht
          have hc' : Chain env f 0 (ts ++ [t]) := Chain.append.mpr ⟨hc, ht, trivial⟩
          refine ⟨by simp, fun _ => Or.inr ⟨rfl, hc', by omega, ?_⟩, fun _ => hc'⟩
          simp only [List.length_append, List.length_singleton]; push_cast; omega
    · rename_i hne
      simp only [Except.ok.injEq, Prod.mk.injEq] at he
      obtain ⟨rfl, rfl⟩ := he
      simp only [Prod.mk.injEq] at h
      obtain ⟨rfl, rfl, rfl⟩ := h
      exact ⟨by simp, fun _ => Or.inr ⟨rfl, hc, by omega, by omega⟩, fun _ => hc⟩

theorem itGet_ends (ts : List Tbl) (pos : Int) : itGet ts pos ≠ .error .diverges := by
  unfold itGet
  split
  · simp
  · split <;> simp

theorem cloneCols_ends (cs : List Col) : cloneCols cs ≠ .error .diverges := by
  induction cs with
  | nil => simp [cloneCols]
  | cons c cs ih =>
    unfold cloneCols Codec.clone
    by_cases h : (c.codec.kind.isChars && !(feq c.codec.min c.codec.min && feq c.codec.max c.codec.max)) = true
    · rw [if_pos h]; simp
    · rw [if_neg h]
      dsimp only
      cases hc : cloneCols cs with
      | ok x => simp
      | error e =>
        intro he
        simp only [Except.error.injEq] at he
        subst he
        exact ih hc

theorem copy_ends (t : Tbl) : t.copy ≠ .error .diverges := by
  unfold Tbl.copy
  cases h : cloneCols t.info.cols with
  | ok x => simp
  | error e =>
    intro he
    simp only [Except.error.injEq] at he
    subst he
    exact cloneCols_ends _ h

theorem aggLoop_ends {env : Env} {f : File} {B : Nat} (hB : ∀ ts : List Tbl, Chain env f 0 ts → ts.length ≤ B) (limit : Int)
    (fuel : Nat) (ts : List Tbl) (pos : Int) (acc : List Tbl) (nrows : Int) (hl : Live env f ts pos)
    (hfuel : (B : Int) ≤ fuel + pos) (ts' : List Tbl) (pos' : Int) (res : Except Err (List Tbl × Int))
    (h : aggLoop env f limit fuel ts pos acc nrows = ((ts', pos'), res)) :
    res ≠ .error .diverges ∧ (∀ acc' n, res = .ok (acc', n) → Live env f ts' pos' ∧ (acc'.length : Int) + pos = acc.length + pos') := by
  induction fuel generalizing ts pos acc nrows with
  | zero =>
    have := hB ts hl.chain
    have := hl.lt
    omega
  | succ fuel ih =>
    unfold aggLoop at h
    cases e1 : itIncr env f ts pos with
    | mk ts1 x =>
      obtain ⟨p1, oe⟩ := x
      obtain ⟨i1, i2, i3⟩ := incr_live hl.chain e1
      rw [e1] at h
      cases oe with
      | some e =>
        simp only [Prod.mk.injEq] at h
        obtain ⟨_, rfl⟩ := h
        refine ⟨?_, by simp⟩
        intro he
        simp only [Except.error.injEq] at he
        subst he
        exact i1 rfl
      | none =>
        dsimp only at h
        have hl1 : Live env f ts1 pos := by
          refine ⟨i3 rfl, hl.ge, ?_⟩
          rcases i2 rfl with rfl | ⟨h1, h2⟩
          · unfold itIncr at e1
            cases he : ensureTable env f ts (pos + 1) with
            | error e => rw [he] at e1; simp at e1
            | ok y =>
              obtain ⟨ts2, b⟩ := y
              rw [he] at e1
              cases b with
              | true => simp only [Prod.mk.injEq] at e1; have := hl.ge; omega
              | false =>
                simp only [Prod.mk.injEq] at e1
                obtain ⟨rfl, _⟩ := e1
                unfold ensureTable at he
                split at he
                · simp at he
                split at he
                · simp at he
                split at he
                · split at he
                  · simp at he
                  · split at he
                    · simp at he
                    · simp only [Except.ok.injEq, Prod.mk.injEq] at he
                      rw [← he.1]; exact hl.lt
                    · simp at he
                · simp at he
          · have := h2.lt; omega
        split at h
        · simp only [Prod.mk.injEq] at h
          obtain ⟨⟨rfl, rfl⟩, rfl⟩ := h
          refine ⟨by simp, ?_⟩
          intro acc' n he
          simp only [Except.ok.injEq, Prod.mk.injEq] at he
          rw [← he.1]
          exact ⟨hl1, rfl⟩
        · cases hg : itGet ts1 p1 with
          | error e =>
            rw [hg] at h
            simp only [Prod.mk.injEq] at h
            obtain ⟨_, rfl⟩ := h
            refine ⟨?_, by simp⟩
            intro he
            simp only [Except.error.injEq] at he
            subst he
            exact itGet_ends _ _ hg
          | ok t =>
            rw [hg] at h
            cases hhd : acc.head? with
            | none =>
              rw [hhd] at h
              simp only [Prod.mk.injEq] at h
              obtain ⟨_, rfl⟩ := h
              exact ⟨by simp, by simp⟩
            | some front =>
              rw [hhd] at h
              dsimp only at h
              split at h
              · simp only [Prod.mk.injEq] at h
                obtain ⟨⟨rfl, rfl⟩, rfl⟩ := h
                refine ⟨by simp, ?_⟩
                intro acc' n he
                simp only [Except.ok.injEq, Prod.mk.injEq] at he
                rw [← he.1]
                exact ⟨hl1, rfl⟩
              split at h
              · simp only [Prod.mk.injEq] at h
                obtain ⟨⟨rfl, rfl⟩, rfl⟩ := h
                refine ⟨by simp, ?_⟩
                intro acc' n he
                simp only [Except.ok.injEq, Prod.mk.injEq] at he
                rw [← he.1]
                exact ⟨hl1, rfl⟩
              cases e2 : itIncr env f ts1 pos with
              | mk ts2 y =>
                obtain ⟨p2, oe2⟩ := y
                obtain ⟨j1, j2, j3⟩ := incr_live hl1.chain e2
                rw [e2] at h
                cases oe2 with
                | some e =>
                  simp only [Prod.mk.injEq] at h
                  obtain ⟨_, rfl⟩ := h
                  refine ⟨?_, by simp⟩
                  intro he
                  simp only [Except.error.injEq] at he
                  subst he
                  exact j1 rfl
                | none =>
                  dsimp only at h
                  cases hg2 : itGet ts2 p2 with
                  | error e =>
                    rw [hg2] at h
                    simp only [Prod.mk.injEq] at h
                    obtain ⟨_, rfl⟩ := h
                    refine ⟨?_, by simp⟩
                    intro he
                    simp only [Except.error.injEq] at he
                    subst he
                    exact itGet_ends _ _ hg2
                  | ok t2 =>
                    rw [hg2] at h
                    dsimp only at h
                    cases hcp : t2.copy with
                    | error e =>
                      rw [hcp] at h
                      simp only [Prod.mk.injEq] at h
                      obtain ⟨_, rfl⟩ := h
                      refine ⟨?_, by simp⟩
                      intro he
                      simp only [Except.error.injEq] at he
                      subst he
                      exact copy_ends _ hcp
                    | ok t3 =>
                      rw [hcp] at h
                      dsimp only at h
                      rcases j2 rfl with rfl | ⟨k1, k2⟩
                      · unfold itGet at hg2
                        rw [if_pos (by omega)] at hg2
                        simp at hg2
                      · obtain ⟨r1, r2⟩ := ih ts2 p2 (acc ++ [t3]) _ k2 (by push_cast at hfuel; omega) h
                        refine ⟨r1, fun acc' n he => ?_⟩
                        obtain ⟨s1, s2⟩ := r2 acc' n he
                        refine ⟨s1, ?_⟩
                        simp only [List.length_append, List.length_singleton] at s2
                        push_cast at s2
                        omega

theorem take_ends {env : Env} {f : File} {B : Nat} (hB : ∀ ts : List Tbl, Chain env f 0 ts → ts.length ≤ B) (agg : Bool)
    (limit : Int) (fuel : Nat) (ts : List Tbl) (pos : Int) (hl : Live env f ts pos) (hfuel : B ≤ fuel) (r' : Rd)
    (res : Except Err (Option (List Tbl))) (h : Rd.take env f agg limit fuel ts pos = (r', res)) :
    res ≠ .error .diverges ∧ res ≠ .ok none ∧
      (∀ fr, res = .ok (some fr) → Live env f r'.tables r'.pos ∧ r'.first = false ∧ (fr.length : Int) + pos = 1 + r'.pos) := by
  unfold Rd.take at h
  cases hg : itGet ts pos with
  | error e =>
    rw [hg] at h
    simp only [Prod.mk.injEq] at h
    obtain ⟨_, rfl⟩ := h
    refine ⟨?_, by simp, by simp⟩
    intro he
    simp only [Except.error.injEq] at he
    subst he
    exact itGet_ends _ _ hg
  | ok t =>
    rw [hg] at h
    dsimp only at h
    cases hcp : t.copy with
    | error e =>
      rw [hcp] at h
      simp only [Prod.mk.injEq] at h
      obtain ⟨_, rfl⟩ := h
      refine ⟨?_, by simp, by simp⟩
      intro he
      simp only [Except.error.injEq] at he
      subst he
      exact copy_ends _ hcp
    | ok t' =>
      rw [hcp] at h
      dsimp only at h
      have hx : ∀ ts' pos' r, (if agg then aggLoop env f limit fuel ts pos [t'] t'.rows else ((ts, pos), .ok ([t'], t'.rows))) = ((ts', pos'), r) →
          r ≠ .error .diverges ∧ (∀ acc' n, r = .ok (acc', n) → Live env f ts' pos' ∧ (acc'.length : Int) + pos = 1 + pos') := by
        intro ts' pos' r hy
        cases agg with
        | true =>
          rw [if_pos rfl] at hy
          have := aggLoop_ends hB limit fuel ts pos [t'] _ hl (by have := hl.ge; omega) ts' pos' r hy
          simpa using this
        | false =>
          rw [if_neg (by simp)] at hy
          simp only [Prod.mk.injEq] at hy
          obtain ⟨⟨rfl, rfl⟩, rfl⟩ := hy
          refine ⟨by simp, ?_⟩
          intro acc' n he
          simp only [Except.ok.injEq, Prod.mk.injEq] at he
          rw [← he.1]
          exact ⟨hl, by simp⟩
      cases hy : (if agg then aggLoop env f limit fuel ts pos [t'] t'.rows else ((ts, pos), .ok ([t'], t'.rows))) with
      | mk a r =>
        obtain ⟨ts', pos'⟩ := a
        obtain ⟨h1, h2⟩ := hx ts' pos' r hy
        rw [hy] at h
        cases r with
        | error e =>
          simp only [Prod.mk.injEq] at h
          obtain ⟨_, rfl⟩ := h
          refine ⟨?_, by simp, by simp⟩
          intro he
          simp only [Except.error.injEq] at he
          subst he
          exact h1 rfl
        | ok z =>
          obtain ⟨acc, n⟩ := z
          dsimp only at h
          split at h
          · simp only [Prod.mk.injEq] at h
            obtain ⟨rfl, rfl⟩ := h
            refine ⟨by simp, by simp, ?_⟩
            intro fr he
            simp only [Except.ok.injEq, Option.some.injEq] at he
            subst he
            obtain ⟨s1, s2⟩ := h2 acc n rfl
            exact ⟨s1, rfl, s2⟩
          · simp only [Prod.mk.injEq] at h
            obtain ⟨_, rfl⟩ := h
            exact ⟨by simp, by simp, by simp⟩

/-- Proof device: how many tables the reader has delivered. -/
def Rd.done (r : Rd) : Int := if r.first then 0 else r.pos + 1

theorem loop_ends {env : Env} {f : File} {B : Nat} (hB : ∀ ts : List Tbl, Chain env f 0 ts → ts.length ≤ B) (agg : Bool)
    (limit : Int) (fuel : Nat) (hfuel : B ≤ fuel) (k : Nat) (r : Rd)
    (hr : r.pos = -1 ∨ (Live env f r.tables r.pos ∧ (r.first = true → r.pos = 0))) (hk : (B : Int) + 1 ≤ k + r.done) :
    (readLoop env f agg limit fuel k r).2 ≠ some .diverges ∧
      (r.pos ≠ -1 → ((readLoop env f agg limit fuel k r).1.flatten.length : Int) + r.done ≤ B) ∧
      (r.pos = -1 → (readLoop env f agg limit fuel k r).1 = []) := by
  induction k generalizing r with
  | zero =>
    exfalso
    unfold Rd.done at hk
    rcases hr with h | ⟨h1, h2⟩
    · split at hk <;> omega
    · have := hB _ h1.chain
      have := h1.lt
      split at hk <;> omega
  | succ k ih =>
    unfold readLoop
    cases hn : r.next env f agg limit fuel with
    | mk r' res =>
      unfold Rd.next at hn
      split at hn
      · rename_i hp
        simp only [Prod.mk.injEq] at hn
        obtain ⟨_, rfl⟩ := hn
        exact ⟨by simp, fun h => absurd hp h, fun _ => rfl⟩
      rename_i hp
      rcases hr with h | ⟨hl, hfst⟩
      · exact absurd h hp
      have hdone : r.done ≤ B := by
        unfold Rd.done
        have := hB _ hl.chain
        have := hl.lt
        split <;> omega
      have hfin : ∀ (ts1 : List Tbl) (p1 : Int), Live env f ts1 p1 → p1 = r.done →
          Rd.take env f agg limit fuel ts1 p1 = (r', res) →
          (match (r', res) with
            | (_, .error e) => (([] : List (List Tbl)), some e)
            | (_, .ok none) => ([], none)
            | (r', .ok (some fr)) =>
              match readLoop env f agg limit fuel k r' with
              | (frs, fin) => (fr :: frs, fin)).2 ≠ some .diverges ∧
          (r.pos ≠ -1 → ((match (r', res) with
            | (_, .error e) => (([] : List (List Tbl)), some e)
            | (_, .ok none) => ([], none)
            | (r', .ok (some fr)) =>
              match readLoop env f agg limit fuel k r' with
              | (frs, fin) => (fr :: frs, fin)).1.flatten.length : Int) + r.done ≤ B) := by
        intro ts1 p1 hl1 hpd htk
        obtain ⟨t1, t2, t3⟩ := take_ends hB agg limit fuel ts1 p1 hl1 hfuel r' res htk
        cases res with
        | error e =>
          refine ⟨?_, fun _ => by simpa using hdone⟩
          intro he
          simp only [Option.some.injEq] at he
          subst he
          exact t1 rfl
        | ok x =>
          cases x with
          | none => exact absurd rfl t2
          | some fr =>
            obtain ⟨u1, u2, u3⟩ := t3 fr rfl
            have hd' : r'.done = r'.pos + 1 := by unfold Rd.done; rw [u2]; simp
            obtain ⟨v1, v2, _⟩ := ih r' (Or.inr ⟨u1, by rw [u2]; simp⟩) (by
              rw [hd']
              have := hl1.lt
              push_cast at hk
              have h1 : (1 : Int) ≤ fr.length := by
                by_contra hcon
                have h0 : fr.length = 0 := by omega
                have hpos : r'.pos = p1 - 1 := by omega
                exact absurd htk (by
                  intro htk
                  unfold Rd.take at htk
                  cases hg : itGet ts1 p1 with
                  | error e => rw [hg] at htk; simp at htk
                  | ok t =>
                    rw [hg] at htk
                    dsimp only at htk
                    cases hcp : t.copy with
                    | error e => rw [hcp] at htk; simp at htk
                    | ok t' =>
                      rw [hcp] at htk
                      dsimp only at htk
                      have hge : ∀ (fu : Nat) (ts : List Tbl) (pos : Int) (acc : List Tbl) (nr : Int) (x : List Tbl × Int) (acc' : List Tbl) (n' : Int),
                          aggLoop env f limit fu ts pos acc nr = (x, .ok (acc', n')) → acc.length ≤ acc'.length := by
                        intro fu
                        induction fu with
                        | zero => intro ts pos acc nr x acc' n' h; simp [aggLoop] at h
                        | succ fu ihf =>
                          intro ts pos acc nr x acc' n' h
                          unfold aggLoop at h
                          split at h
                          · simp at h
                          · split at h
                            · simp only [Prod.mk.injEq, Except.ok.injEq] at h
                              rw [h.2.1]
                            · split at h
                              · split at h
                                · simp only [Prod.mk.injEq, Except.ok.injEq] at h
                                  rw [h.2.1]
                                split at h
                                · simp only [Prod.mk.injEq, Except.ok.injEq] at h
                                  rw [h.2.1]
                                split at h
                                · simp at h
                                · split at h
                                  · simp at h
                                  · split at h
                                    · simp at h
                                    · have := ihf _ _ _ _ _ _ _ h
                                      simp only [List.length_append, List.length_singleton] at this
                                      omega
                              · simp at h
                              · simp at h
                      cases agg with
                      | true =>
                        rw [if_pos rfl] at htk
                        cases hag : aggLoop env f limit fuel ts1 p1 [t'] t'.rows with
                        | mk a rr =>
                          obtain ⟨a1, a2⟩ := a
                          rw [hag] at htk
                          cases rr with
                          | error e => simp at htk
                          | ok z =>
                            obtain ⟨z1, z2⟩ := z
                            dsimp only at htk
                            have := hge _ _ _ _ _ _ _ _ hag
                            simp only [List.length_singleton] at this
                            split at htk
                            · simp only [Prod.mk.injEq, Except.ok.injEq, Option.some.injEq] at htk
                              rw [htk.2] at this
                              omega
                            · simp at htk
                      | false =>
                        rw [if_neg (by simp)] at htk
                        dsimp only at htk
                        split at htk
                        · simp only [Prod.mk.injEq, Except.ok.injEq, Option.some.injEq] at htk
                          rw [← htk.2] at h0
                          simp at h0
                        · simp at htk)
              omega)
            dsimp only
            refine ⟨v1, fun _ => ?_⟩
            have := v2 (by have := u1.ge; omega)
            simp only [List.flatten_cons, List.length_append]
            push_cast
            omega
      split at hn
      · rename_i hf
        obtain ⟨w1, w2⟩ := hfin r.tables r.pos hl (by unfold Rd.done; rw [if_pos hf]; exact hfst hf) hn
        exact ⟨w1, w2, fun h => absurd h hp⟩
      · rename_i hf
        have hf' : r.first = false := by simpa using hf
        cases e1 : itIncr env f r.tables r.pos with
        | mk ts1 x =>
          obtain ⟨p1, oe⟩ := x
          obtain ⟨i1, i2, i3⟩ := incr_live hl.chain e1
          rw [e1] at hn
          cases oe with
          | some e =>
            simp only [Prod.mk.injEq] at hn
            obtain ⟨_, rfl⟩ := hn
            refine ⟨?_, fun _ => by simpa using hdone, fun h => absurd h hp⟩
            intro he
            simp only [Option.some.injEq] at he
            subst he
            exact i1 rfl
          | none =>
            dsimp only at hn
            split at hn
            · simp only [Prod.mk.injEq] at hn
              obtain ⟨_, rfl⟩ := hn
              exact ⟨by simp, fun _ => by simpa using hdone, fun h => absurd h hp⟩
            · rename_i hp1
              rcases i2 rfl with h | ⟨h1, h2⟩
              · exact absurd h hp1
              · obtain ⟨w1, w2⟩ := hfin ts1 p1 h2 (by unfold Rd.done; rw [hf']; simpa using h1) hn
                exact ⟨w1, w2, fun h => absurd h hp⟩

/-- **C45**, termination: whatever the bytes are, the loop `while (frame = reader.next())`, with or without aggregation,
ends, and it delivers at most one table per 57 bytes — unless a frame header has a negative data size. -/
theorem C45_reading_ends (env : Env) (f : File) (hf : Forward env f) (agg : Bool) (limit : Int) :
    (readFrames env f agg limit).2 ≠ some .diverges ∧
      57 * (readFrames env f agg limit).1.flatten.length ≤ f.bytes.length := by
  have hB : ∀ ts : List Tbl, Chain env f 0 ts → ts.length ≤ f.bytes.length / 57 := by
    intro ts hc
    have := chain_few hf hc
    omega
  unfold readFrames
  have key : ∀ r : Rd, (r.pos = -1 ∨ (Live env f r.tables r.pos ∧ (r.first = true → r.pos = 0))) → r.first = true →
      (readLoop env f agg limit (f.bytes.length + 2) (f.bytes.length + 2) r).2 ≠ some .diverges ∧
        57 * (readLoop env f agg limit (f.bytes.length + 2) (f.bytes.length + 2) r).1.flatten.length ≤ f.bytes.length := by
    intro r hr h1
    have hd : r.done = 0 := by unfold Rd.done; rw [h1]; rfl
    obtain ⟨a, b, c⟩ := loop_ends hB agg limit (f.bytes.length + 2) (by omega) (f.bytes.length + 2) r hr (by rw [hd]; push_cast; omega)
    refine ⟨a, ?_⟩
    by_cases hp : r.pos = -1
    · rw [c hp]; simp
    · have := b hp
      rw [hd] at this
      omega
  unfold Rd.open
  cases he : ensureTable env f [] 0 with
  | error e =>
    dsimp only
    refine ⟨?_, by simp⟩
    intro hd
    simp only [Option.some.injEq] at hd
    subst hd
    exact (incr_live (pos := -1) (ts' := []) (p := 0) (oe := some .diverges) (env := env) (f := f) (ts := []) trivial (by
      unfold itIncr; rw [show (-1 : Int) + 1 = 0 from rfl, he])).1 rfl
  | ok x =>
    obtain ⟨ts, b⟩ := x
    cases b with
    | true =>
      have h2 := (incr_live (pos := -1) (ts' := ts) (p := 0) (oe := none) (env := env) (f := f) (ts := []) trivial (by
        unfold itIncr; rw [show (-1 : Int) + 1 = 0 from rfl, he])).2.1 rfl
      rcases h2 with h | ⟨_, h⟩
      · cases h
      · exact key _ (Or.inr ⟨h, fun _ => rfl⟩) rfl
    | false => exact key _ (Or.inl rfl) rfl

end Verif
