import Verif.PropSafe

/-
Reading bytes that nobody promised to be an ODB file: what the header parser and the frame reader can do.

Models nothing new: facts about `parseHeader` (Verif.Header) and `Rd` (Verif.Reader) for every byte string.
-/

namespace Verif

/-! ### Specification: the two things in a header that the parser does not check -/

/-- Specification: the bytes contain, written in some byte order, the parameters of a column stored with a string
dictionary in which an entry has a negative index: the name of the codec, its four common parameters, the number of
entries, some entries, then a string, a count and a negative index. -/
def NegativeIndex (b : List Byte) : Prop :=
  ∃ (o : Order) (pre : List Byte) (k : Kind) (hm : Int) (mn mx ms : Word) (n : Int) (es : List (Str × Int × Int))
    (s : Str) (cnt i : Int) (post : List Byte),
    (k = .int8String ∨ k = .int16String) ∧ InI32 i ∧ i < 0 ∧ InI32 n ∧ (es.length : Int) < n ∧ LenOk s.length ∧
    b = pre ++ (putStr o k.name ++ (putI32 o hm ++ (putWord o mn ++ (putWord o mx ++ (putWord o ms ++ (putI32 o n ++
      (es.flatMap (fun e => putStr o e.1 ++ (putI32 o e.2.1 ++ putI32 o e.2.2)) ++
        (putStr o s ++ (putI32 o cnt ++ (putI32 o i ++ post))))))))))

/-- Specification: the bytes contain the parameters of an integer codec whose missing value is no 64-bit integer. -/
def NoIntegerMissing (b : List Byte) : Prop :=
  ∃ (o : Order) (pre : List Byte) (k : Kind) (hm : Int) (mn mx ms : Word) (post : List Byte),
    k.isInt = true ∧ (∀ i : Int, ftrunc ms = some i → ¬ InI64 i) ∧
    b = pre ++ (putStr o k.name ++ (putI32 o hm ++ (putWord o mn ++ (putWord o mx ++ (putWord o ms ++ post)))))

/-- Proof device: what undefined behaviour of the header parser implies. -/
def Bad (asDbl : Bool) (b : List Byte) : Prop := NegativeIndex b ∨ (asDbl = false ∧ NoIntegerMissing b)

theorem Bad.prepend {asDbl : Bool} {b : List Byte} (h : Bad asDbl b) (p : List Byte) : Bad asDbl (p ++ b) := by
  rcases h with ⟨o, pre, k, hm, mn, mx, ms, n, es, s, cnt, i, post, h1, h2, h3, h4, h5, h6, rfl⟩ | ⟨ha, o, pre, k, hm, mn, mx, ms, post, h1, h2, rfl⟩
  · left
    exact ⟨o, p ++ pre, k, hm, mn, mx, ms, n, es, s, cnt, i, post, h1, h2, h3, h4, h5, h6, by simp⟩
  · right
    exact ⟨ha, o, p ++ pre, k, hm, mn, mx, ms, post, h1, h2, by simp⟩

theorem Bad.append {asDbl : Bool} {b : List Byte} (h : Bad asDbl b) (p : List Byte) : Bad asDbl (b ++ p) := by
  rcases h with ⟨o, pre, k, hm, mn, mx, ms, n, es, s, cnt, i, post, h1, h2, h3, h4, h5, h6, rfl⟩ | ⟨ha, o, pre, k, hm, mn, mx, ms, post, h1, h2, rfl⟩
  · left
    exact ⟨o, pre, k, hm, mn, mx, ms, n, es, s, cnt, i, post ++ p, h1, h2, h3, h4, h5, h6, by simp⟩
  · right
    exact ⟨ha, o, pre, k, hm, mn, mx, ms, post ++ p, h1, h2, by simp⟩

/-! ### The parsers take a prefix, and what they took is what was written -/

theorem readN_took {o : Order} {k : Nat} {s r : List Byte} {n : Nat} (h : readN o k s = .ok (n, r)) :
    s = putN o k n ++ r ∧ n < 256 ^ k := by
  refine ⟨?_, readN_bound h⟩
  unfold readN at h
  split at h
  · rename_i bs r' hb
    simp only [Except.ok.injEq, Prod.mk.injEq] at h
    obtain ⟨h1, h2⟩ := h
    obtain ⟨e1, e2, e3⟩ := readBytes_ok hb
    have hl : bs.length = k := by rw [e1]; simp; omega
    rw [← h1, ← h2, putN]
    have : leBytes k (ofLe (swapBytes o bs)) = swapBytes o bs := by
      have h := leBytes_ofLe (swapBytes o bs)
      rwa [swapBytes_length, hl] at h
    rw [this, swapBytes_swapBytes, e1, e2, List.take_append_drop]
  · simp at h

theorem readI32_took {o : Order} {s r : List Byte} {i : Int} (h : readI32 o s = .ok (i, r)) :
    s = putI32 o i ++ r ∧ InI32 i := by
  unfold readI32 at h
  split at h
  · rename_i n r' hn
    simp only [Except.ok.injEq, Prod.mk.injEq] at h
    obtain ⟨h1, h2⟩ := h
    obtain ⟨e, hb⟩ := readN_took hn
    subst h1 h2
    refine ⟨?_, ?_⟩
    · rw [putI32, BitVec.ofInt_toInt, BitVec.toNat_ofNat, Nat.mod_eq_of_lt (by simpa using hb)]; exact e
    · have := BitVec.toInt_lt (x := BitVec.ofNat 32 n)
      have := BitVec.le_toInt (x := BitVec.ofNat 32 n)
      constructor <;> omega
  · simp at h

theorem readWord_took {o : Order} {s r : List Byte} {w : Word} (h : readWord o s = .ok (w, r)) : s = putWord o w ++ r := by
  unfold readWord at h
  split at h
  · rename_i n r' hn
    simp only [Except.ok.injEq, Prod.mk.injEq] at h
    obtain ⟨h1, h2⟩ := h
    obtain ⟨e, hb⟩ := readN_took hn
    subst h1 h2
    rw [putWord, BitVec.toNat_ofNat, Nat.mod_eq_of_lt (by simpa using hb)]; exact e
  · simp at h

theorem readStr_took {o : Order} {s r : List Byte} {x : Str} (h : readStr o s = .ok (x, r)) :
    s = putStr o x ++ r ∧ LenOk x.length := by
  unfold readStr at h
  rw [P.bind_apply] at h
  cases hi : readI32 o s with
  | error e => rw [hi] at h; simp at h
  | ok p =>
    obtain ⟨i, s1⟩ := p
    rw [hi] at h
    dsimp only at h
    obtain ⟨e, hb⟩ := readI32_took hi
    split at h
    · simp [P.fail] at h
    · obtain ⟨e1, e2, e3⟩ := readBytes_ok h
      have hl : x.length = i.toNat := by rw [e1]; simp; omega
      refine ⟨?_, ?_⟩
      · rw [putStr, hl, Int.toNat_of_nonneg (by omega), e, List.append_assoc, e1, e2, List.take_append_drop]
      · unfold LenOk; rw [hl]; have := hb.2; omega

/-- Proof device: a parser that takes a prefix of its input, and is defined unless the input is bad. -/
structure Tame {α : Type} (asDbl : Bool) (p : P α) : Prop where
  suf : ∀ s a r, p s = .ok (a, r) → ∃ pre, s = pre ++ r
  ub : ∀ s, p s = .error .ub → Bad asDbl s

theorem Tame.bind {α β : Type} {d : Bool} {p : P α} {f : α → P β} (hp : Tame d p) (hf : ∀ a, Tame d (f a)) :
    Tame d (p >>= f) := by
  constructor
  · intro s b r h
    rw [P.bind_apply] at h
    cases hps : p s with
    | error e => rw [hps] at h; simp at h
    | ok x =>
      obtain ⟨a, s1⟩ := x
      rw [hps] at h
      dsimp only at h
      obtain ⟨p1, e1⟩ := hp.suf s a s1 hps
      obtain ⟨p2, e2⟩ := (hf a).suf s1 b r h
      exact ⟨p1 ++ p2, by rw [e1, e2, List.append_assoc]⟩
  · intro s h
    rw [P.bind_apply] at h
    cases hps : p s with
    | error e => rw [hps] at h; simp only [Except.error.injEq] at h; subst h; exact hp.ub s hps
    | ok x =>
      obtain ⟨a, s1⟩ := x
      rw [hps] at h
      dsimp only at h
      obtain ⟨p1, e1⟩ := hp.suf s a s1 hps
      rw [e1]
      exact ((hf a).ub s1 h).prepend p1

theorem Tame.pure {α : Type} {d : Bool} (a : α) : Tame d (Pure.pure a : P α) := by
  constructor
  · intro s b r h
    simp only [P.pure_apply, Except.ok.injEq, Prod.mk.injEq] at h
    exact ⟨[], by simp [h.2]⟩
  · intro s h; simp at h

theorem Tame.fail {α : Type} {d : Bool} {e : Err} (he : e ≠ .ub) : Tame d (P.fail e : P α) := by
  constructor
  · intro s b r h; simp [P.fail] at h
  · intro s h; simp only [P.fail, Except.error.injEq] at h; exact absurd h he

theorem Tame.ite {α : Type} {d : Bool} {c : Prop} [Decidable c] {p q : P α} (hp : Tame d p) (hq : Tame d q) :
    Tame d (if c then p else q) := by
  by_cases h : c
  · rw [if_pos h]; exact hp
  · rw [if_neg h]; exact hq

theorem tame_readBytes {d : Bool} (n : Nat) : Tame d (readBytes n) := by
  constructor
  · intro s a r h
    obtain ⟨e1, e2, _⟩ := readBytes_ok h
    exact ⟨s.take n, by rw [e2, List.take_append_drop]⟩
  · intro s h
    have := (readBytes_err h).1
    cases this

theorem tame_readN {d : Bool} (o : Order) (k : Nat) : Tame d (readN o k) := by
  constructor
  · intro s a r h; exact ⟨_, (readN_took h).1⟩
  · intro s h
    have := (readN_err h).1
    cases this

theorem tame_readI32 {d : Bool} (o : Order) : Tame d (readI32 o) := by
  constructor
  · intro s a r h; exact ⟨_, (readI32_took h).1⟩
  · intro s h
    unfold readI32 at h
    split at h
    · simp at h
    · rename_i e he
      simp only [Except.error.injEq] at h
      subst h
      exact (tame_readN (d := d) o 4).ub s he

theorem tame_readWord {d : Bool} (o : Order) : Tame d (readWord o) := by
  constructor
  · intro s a r h; exact ⟨_, readWord_took h⟩
  · intro s h
    unfold readWord at h
    split at h
    · simp at h
    · rename_i e he
      simp only [Except.error.injEq] at h
      subst h
      exact (tame_readN (d := d) o 8).ub s he

theorem tame_readStr {d : Bool} (o : Order) : Tame d (readStr o) := by
  unfold readStr
  exact Tame.bind (tame_readI32 o) (fun _ => Tame.ite (Tame.fail (by simp)) (tame_readBytes _))

theorem tame_readMany {α : Type} {d : Bool} {p : P α} (hp : Tame d p) (n : Nat) : Tame d (readMany p n) := by
  induction n with
  | zero => exact Tame.pure _
  | succ n ih =>
    unfold readMany
    exact Tame.bind hp (fun _ => Tame.bind ih (fun _ => Tame.pure _))

theorem tame_readVec {α : Type} {d : Bool} {p : P α} (o : Order) (hp : Tame d p) : Tame d (readVec o p) := by
  unfold readVec
  exact Tame.bind (tame_readI32 o) (fun _ => Tame.ite (Tame.fail (by simp)) (tame_readMany hp _))

theorem tame_readMap {d : Bool} (o : Order) : Tame d (readMap o) := by
  unfold readMap
  exact Tame.bind (tame_readI32 o) (fun _ => Tame.bind (tame_readMany (Tame.bind (tame_readStr o) (fun _ =>
    Tame.bind (tame_readStr o) (fun _ => Tame.pure _))) _) (fun _ => Tame.pure _))

theorem tame_loadBase {d : Bool} (o : Order) (c : Codec) : Tame d (loadBase o c) := by
  unfold loadBase
  exact Tame.bind (tame_readI32 o) (fun _ => Tame.bind (tame_readWord o) (fun _ => Tame.bind (tame_readWord o) (fun _ =>
    Tame.bind (tame_readWord o) (fun _ => Tame.pure _))))

theorem loadBase_took {o : Order} {c c' : Codec} {s r : List Byte} (h : loadBase o c s = .ok (c', r)) :
    s = putI32 o c'.hasMissing ++ (putWord o c'.min ++ (putWord o c'.max ++ (putWord o c'.missing ++ r))) ∧
      c'.kind = c.kind ∧ c'.vt = c.vt ∧ c'.strings = c.strings := by
  unfold loadBase at h
  rw [P.bind_apply] at h
  cases h1 : readI32 o s with
  | error e => rw [h1] at h; simp at h
  | ok p1 =>
    obtain ⟨hm, s1⟩ := p1
    rw [h1] at h; dsimp only at h; rw [P.bind_apply] at h
    cases h2 : readWord o s1 with
    | error e => rw [h2] at h; simp at h
    | ok p2 =>
      obtain ⟨mn, s2⟩ := p2
      rw [h2] at h; dsimp only at h; rw [P.bind_apply] at h
      cases h3 : readWord o s2 with
      | error e => rw [h3] at h; simp at h
      | ok p3 =>
        obtain ⟨mx, s3⟩ := p3
        rw [h3] at h; dsimp only at h; rw [P.bind_apply] at h
        cases h4 : readWord o s3 with
        | error e => rw [h4] at h; simp at h
        | ok p4 =>
          obtain ⟨ms, s4⟩ := p4
          rw [h4] at h; dsimp only at h
          simp only [P.pure_apply, Except.ok.injEq, Prod.mk.injEq] at h
          obtain ⟨rfl, rfl⟩ := h
          refine ⟨?_, rfl, rfl, rfl⟩
          rw [(readI32_took h1).1, readWord_took h2, readWord_took h3, readWord_took h4]

/-- The entries of a dictionary: a prefix is taken, and undefined behaviour means that a negative index was read. -/
theorem readEntries_tame (o : Order) (num : Nat) (k : Nat) (ss : List Str) (w : Nat) :
    (∀ s x r, readEntries o num k ss w s = .ok (x, r) → ∃ pre, s = pre ++ r) ∧
    (∀ s, readEntries o num k ss w s = .error .ub → ∃ (es : List (Str × Int × Int)) (t : Str) (cnt i : Int) (post : List Byte),
      es.length < k ∧ InI32 i ∧ i < 0 ∧ LenOk t.length ∧
      s = es.flatMap (fun e => putStr o e.1 ++ (putI32 o e.2.1 ++ putI32 o e.2.2)) ++
        (putStr o t ++ (putI32 o cnt ++ (putI32 o i ++ post)))) := by
  induction k generalizing ss w with
  | zero =>
    refine ⟨fun s x r h => (Tame.pure (d := true) (ss, w)).suf s x r h, fun s h => ?_⟩
    unfold readEntries at h
    simp at h
  | succ k ih =>
    have hstep : ∀ s, (∃ e, readEntries o num (k + 1) ss w s = .error e ∧ e ≠ .ub) ∨
        ∃ t cnt i s1, s = putStr o t ++ (putI32 o cnt ++ (putI32 o i ++ s1)) ∧ InI32 i ∧ LenOk t.length ∧
          ((readEntries o num (k + 1) ss w s = .error .ub ∧ i < 0) ∨
            ∃ ss' w', readEntries o num (k + 1) ss w s = readEntries o num k ss' w' s1) := by
      intro s
      simp only [readEntries]
      rw [P.bind_apply]
      cases h1 : readStr o s with
      | error e =>
        left
        refine ⟨e, rfl, ?_⟩
        rintro rfl
        rcases (tame_readStr (d := true) o).ub s h1 with h | h
        · have hne : ∀ s : List Byte, readStr o s ≠ .error .ub := by
            intro s hs
            unfold readStr at hs
            rw [P.bind_apply] at hs
            cases hi : readI32 o s with
            | error e =>
              rw [hi] at hs
              simp only [Except.error.injEq] at hs
              subst hs
              unfold readI32 at hi
              split at hi
              · simp at hi
              · rename_i e he
                simp only [Except.error.injEq] at hi
                subst hi
                have := (readN_err he).1
                cases this
            | ok x =>
              rw [hi] at hs
              dsimp only at hs
              split at hs
              · simp [P.fail] at hs
              · have := (readBytes_err hs).1
                cases this
          exact absurd h1 (hne s)
        · cases h.1
      | ok p1 =>
        obtain ⟨t, s1⟩ := p1
        dsimp only
        rw [P.bind_apply]
        have hi32 : ∀ (s : List Byte) (e : Err), readI32 o s = .error e → e ≠ .ub := by
          intro s e hi he
          subst he
          unfold readI32 at hi
          split at hi
          · simp at hi
          · rename_i e he
            simp only [Except.error.injEq] at hi
            subst hi
            have := (readN_err he).1
            cases this
        cases h2 : readI32 o s1 with
        | error e => exact Or.inl ⟨e, rfl, hi32 _ _ h2⟩
        | ok p2 =>
          obtain ⟨cnt, s2⟩ := p2
          dsimp only
          rw [P.bind_apply]
          cases h3 : readI32 o s2 with
          | error e => exact Or.inl ⟨e, rfl, hi32 _ _ h3⟩
          | ok p3 =>
            obtain ⟨i, s3⟩ := p3
            dsimp only
            by_cases hn : (num : Int) ≤ i
            · left
              rw [if_pos hn]
              exact ⟨_, rfl, by simp⟩
            · right
              obtain ⟨e1, l1⟩ := readStr_took h1
              obtain ⟨e2, l2⟩ := readI32_took h2
              obtain ⟨e3, l3⟩ := readI32_took h3
              refine ⟨t, cnt, i, s3, by rw [e1, e2, e3], l3, l1, ?_⟩
              rw [if_neg hn]
              by_cases hneg : i < 0
              · left
                rw [if_pos hneg]
                exact ⟨rfl, hneg⟩
              · right
                rw [if_neg hneg]
                exact ⟨_, _, rfl⟩
    constructor
    · intro s x r h
      rcases hstep s with ⟨e, he, _⟩ | ⟨t, cnt, i, s1, e, _, _, ⟨hu, _⟩ | ⟨ss', w', hr⟩⟩
      · rw [he] at h; simp at h
      · rw [hu] at h; simp at h
      · rw [hr] at h
        obtain ⟨pre, hp⟩ := (ih ss' w').1 s1 x r h
        exact ⟨putStr o t ++ (putI32 o cnt ++ (putI32 o i ++ pre)), by rw [e, hp]; simp only [List.append_assoc]⟩
    · intro s h
      rcases hstep s with ⟨e, he, hne⟩ | ⟨t, cnt, i, s1, e, l3, l1, ⟨hu, hneg⟩ | ⟨ss', w', hr⟩⟩
      · rw [he] at h; simp only [Except.error.injEq] at h; exact absurd h hne
      · exact ⟨[], t, cnt, i, s1, by simp, l3, hneg, l1, by simpa using e⟩
      · rw [hr] at h
        obtain ⟨es, t', cnt', i', post, h1, h2, h3, h4, h5⟩ := (ih ss' w').2 s1 h
        refine ⟨(t, cnt, i) :: es, t', cnt', i', post, by simp; omega, h2, h3, h4, ?_⟩
        rw [e, h5, List.flatMap_cons]
        simp only [List.append_assoc]

theorem Kind.name_of {nm : Str} {k : Kind} (h : Kind.ofName nm = some k) : k.name = nm := by
  unfold Kind.ofName at h
  simpa using List.find?_some h

/-- Loading the parameters of a codec, its name included. -/
theorem tame_loadCodec (o : Order) (d : Bool) (ty : Int) : Tame d (loadCodec o d ty) := by
  have hbody : ∀ (k : Kind) (s : List Byte),
      (∀ c r, (fresh k ty d).load o s = .ok (c, r) → ∃ pre, s = pre ++ r) ∧
      ((fresh k ty d).load o s = .error .ub → Bad d (putStr o k.name ++ s)) := by
    intro k s
    unfold Codec.load
    rw [P.bind_apply]
    cases hb : loadBase o (fresh k ty d) s with
    | error e =>
      refine ⟨fun c r h => by simp at h, fun h => ?_⟩
      simp only [Except.error.injEq] at h
      subst h
      exact ((tame_loadBase (d := d) o _).ub s hb).prepend _
    | ok p =>
      obtain ⟨c, s1⟩ := p
      obtain ⟨e, hk, hvt, hst⟩ := loadBase_took hb
      dsimp only
      have hk' : c.kind = k := hk
      have hsuf : ∀ {α : Type} (q : P α), Tame d q → (∀ c r, q s1 = .ok (c, r) → ∃ pre, s = pre ++ r) ∧
          (q s1 = .error .ub → Bad d (putStr o k.name ++ s)) := by
        intro α q hq
        refine ⟨fun c' r h => ?_, fun h => ?_⟩
        · obtain ⟨p1, h1⟩ := (tame_loadBase (d := d) o _).suf s c s1 hb
          obtain ⟨p2, h2⟩ := hq.suf s1 c' r h
          exact ⟨p1 ++ p2, by rw [h1, h2, List.append_assoc]⟩
        · obtain ⟨p1, h1⟩ := (tame_loadBase (d := d) o _).suf s c s1 hb
          rw [h1]
          exact ((hq.ub s1 h).prepend p1).prepend _
      have hint : (∀ c' r, (match toVT c.vt c.missing with | .ok _ => (Pure.pure c : P Codec) | .error e => P.fail e) s1 = .ok (c', r) →
            ∃ pre, s = pre ++ r) ∧
          (k.isInt = true → (match toVT c.vt c.missing with | .ok _ => (Pure.pure c : P Codec) | .error e => P.fail e) s1 = .error .ub →
            Bad d (putStr o k.name ++ s)) := by
        cases ht : toVT c.vt c.missing with
        | ok w => 
          refine ⟨(hsuf _ (Tame.pure c)).1, fun _ => (hsuf _ (Tame.pure c)).2⟩
        | error er =>
          refine ⟨fun c' r h => by simp [P.fail] at h, fun hki _ => ?_⟩
          right
          have hv : c.vt = vtOf k ty d := hvt
          have hd : d = false ∧ c.vt = .i64 := by
            rw [hv]
            unfold vtOf
            split
            · rename_i hc
              simp only [Bool.and_eq_true, Bool.not_eq_true'] at hc
              exact ⟨hc.2, rfl⟩
            · rename_i hc
              rw [hv] at ht
              unfold vtOf at ht
              rw [if_neg hc] at ht
              simp [toVT] at ht
          refine ⟨hd.1, o, [], k, c.hasMissing, c.min, c.max, c.missing, s1, hki, ?_, by rw [e]; simp⟩
          intro i hi hin
          rw [hd.2] at ht
          unfold toVT fcast at ht
          rw [hi] at ht
          dsimp only at ht
          rw [if_pos (show _ ∧ _ from hin)] at ht
          simp at ht
      have hstr : (k = .int8String ∨ k = .int16String) → ∀ (f : List Str × Nat → P Codec), (∀ x s, ∃ c' : Codec, f x s = .ok (c', s)) →
          (∀ c' r, (do
            let n ← readI32 o
            if n < 0 then P.fail .assertFailed
            else do
              let x ← readEntries o n.toNat n.toNat (List.replicate n.toNat []) 1
              f x) s1 = .ok (c', r) → ∃ pre, s = pre ++ r) ∧
          ((do
            let n ← readI32 o
            if n < 0 then P.fail .assertFailed
            else do
              let x ← readEntries o n.toNat n.toNat (List.replicate n.toNat []) 1
              f x) s1 = .error .ub → Bad d (putStr o k.name ++ s)) := by
        intro hkk f hf
        rw [P.bind_apply]
        cases hn : readI32 o s1 with
        | error er =>
          refine ⟨fun c' r h => by simp at h, fun h => ?_⟩
          simp only [Except.error.injEq] at h
          subst h
          exact (hsuf _ (tame_readI32 o)).2 hn
        | ok p =>
          obtain ⟨n, s2⟩ := p
          obtain ⟨en, hin⟩ := readI32_took hn
          dsimp only
          by_cases hneg : n < 0
          · rw [if_pos hneg]
            exact ⟨fun c' r h => by simp [P.fail] at h, fun h => by simp [P.fail] at h⟩
          · rw [if_neg hneg, P.bind_apply]
            obtain ⟨t1, t2⟩ := readEntries_tame o n.toNat n.toNat (List.replicate n.toNat []) 1
            cases hr : readEntries o n.toNat n.toNat (List.replicate n.toNat []) 1 s2 with
            | error er =>
              refine ⟨fun c' r h => by simp at h, fun h => ?_⟩
              simp only [Except.error.injEq] at h
              subst h
              obtain ⟨es, t, cnt, i, post, h1, h2, h3, h4, h5⟩ := t2 s2 hr
              left
              exact ⟨o, [], k, c.hasMissing, c.min, c.max, c.missing, n, es, t, cnt, i, post, hkk, h2, h3, hin,
                by omega, h4, by rw [e, en, h5]; simp⟩
            | ok x =>
              obtain ⟨y, s3⟩ := x
              obtain ⟨c2, hc2⟩ := hf y s3
              dsimp only
              rw [hc2]
              refine ⟨fun c' r h => ?_, fun h => by simp at h⟩
              simp only [Except.ok.injEq, Prod.mk.injEq] at h
              obtain ⟨p3, h3⟩ := t1 s2 y s3 hr
              rw [e, en, h3, h.2]
              exact ⟨putI32 o c.hasMissing ++ (putWord o c.min ++ (putWord o c.max ++ (putWord o c.missing ++ (putI32 o n ++ p3)))),
                by simp only [List.append_assoc]⟩
      rw [hk']
      cases k with
      | constantString => exact hsuf _ (Tame.pure _)
      | longConstantString => exact hsuf _ (Tame.bind (tame_readStr o) (fun _ => Tame.pure _))
      | chars => exact hsuf _ (Tame.bind (tame_readI32 o) (fun _ => Tame.ite (Tame.pure _) (Tame.fail (by simp))))
      | int8String => exact hstr (Or.inl rfl) _ (fun x s => ⟨_, rfl⟩)
      | int16String => exact hstr (Or.inr rfl) _ (fun x s => ⟨_, rfl⟩)
      | int8 => exact ⟨hint.1, hint.2 rfl⟩
      | int16 => exact ⟨hint.1, hint.2 rfl⟩
      | int32 => exact ⟨hint.1, hint.2 rfl⟩
      | int8Missing => exact ⟨hint.1, hint.2 rfl⟩
      | int16Missing => exact ⟨hint.1, hint.2 rfl⟩
      | constOrMissing => exact ⟨hint.1, hint.2 rfl⟩
      | realConstOrMissing => exact ⟨hint.1, hint.2 rfl⟩
      | constant => exact hsuf _ (Tame.pure _)
      | shortReal => exact hsuf _ (Tame.pure _)
      | shortReal2 => exact hsuf _ (Tame.pure _)
      | longReal => exact hsuf _ (Tame.pure _)
  constructor
  · intro s a r h
    unfold loadCodec at h
    rw [P.bind_apply] at h
    cases hn : readStr o s with
    | error e => rw [hn] at h; simp at h
    | ok p =>
      obtain ⟨nm, s1⟩ := p
      rw [hn] at h
      dsimp only at h
      obtain ⟨e1, _⟩ := readStr_took hn
      cases hk : Kind.ofName nm with
      | none => rw [hk] at h; simp [P.fail] at h
      | some k =>
        rw [hk] at h
        obtain ⟨pre, hp⟩ := (hbody k s1).1 a r h
        exact ⟨putStr o nm ++ pre, by rw [e1, hp, List.append_assoc]⟩
  · intro s h
    unfold loadCodec at h
    rw [P.bind_apply] at h
    cases hn : readStr o s with
    | error e =>
      rw [hn] at h
      simp only [Except.error.injEq] at h
      subst h
      exact (tame_readStr o).ub s hn
    | ok p =>
      obtain ⟨nm, s1⟩ := p
      rw [hn] at h
      dsimp only at h
      obtain ⟨e1, _⟩ := readStr_took hn
      cases hk : Kind.ofName nm with
      | none => rw [hk] at h; simp [P.fail] at h
      | some k =>
        rw [hk] at h
        have := (hbody k s1).2 h
        rw [Kind.name_of hk] at this
        rw [e1]; exact this

theorem tame_readCol (o : Order) (d : Bool) : Tame d (readCol o d) := by
  unfold readCol
  refine Tame.bind (tame_readStr o) (fun _ => Tame.bind (tame_readI32 o) (fun ty => Tame.ite ?_ ?_))
  · exact Tame.bind (tame_readVec o (tame_readStr o)) (fun _ => Tame.bind (tame_readVec o (tame_readI32 o)) (fun _ =>
      Tame.ite (Tame.fail (by simp)) (Tame.bind (tame_loadCodec o d ty) (fun _ => Tame.pure _))))
  · exact Tame.bind (tame_loadCodec o d ty) (fun _ => Tame.pure _)

theorem tame_readVar (o : Order) (d : Bool) : Tame d (readVar o d) := by
  unfold readVar
  refine Tame.bind (tame_readN o 8) (fun _ => Tame.bind (tame_readN o 8) (fun _ => Tame.ite (Tame.fail (by simp)) ?_))
  refine Tame.bind (tame_readN o 8) (fun _ => Tame.bind (tame_readVec o (tame_readWord o)) (fun _ =>
    Tame.bind (tame_readMap o) (fun _ => Tame.bind (tame_readI32 o) (fun _ => Tame.ite (Tame.fail (by simp)) ?_))))
  exact Tame.bind (tame_readMany (tame_readCol o d) _) (fun _ => Tame.pure _)

theorem tame_readBasic {d : Bool} (o : Order) : Tame d (readBasic o) := by
  unfold readBasic
  refine Tame.bind (tame_readI32 o) (fun _ => Tame.ite (Tame.fail (by simp)) ?_)
  refine Tame.bind (tame_readI32 o) (fun _ => Tame.ite (Tame.fail (by simp)) ?_)
  exact Tame.bind (tame_readStr o) (fun _ => Tame.bind (tame_readI32 o) (fun _ => Tame.pure _))

end Verif
