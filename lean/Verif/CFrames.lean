import Verif.PropC22

/-
The C interface to frames: error codes, iteration, properties.

Models: src/odc/api/odc.cc l.33-49 (`odc_reader_t`, `odc_frame_t`), l.123-163 (`wrapApiFunction`), l.325-386 (frames, `odc_next_frame`,
`odc_next_frame_aggregated`, `odc_copy_frame`), l.453-473 (`odc_frame_property_idx`), src/odc/api/Odb.cc l.511-526 (copying and
moving frames).
-/

namespace Verif

/-! ### Error codes -/

/-- odc.h l.77-86. -/
inductive Code
  | success
  | complete
  | general
  | unknown
  deriving DecidableEq

/-- The numbers of the return codes, api/odc.h l.76 (`OdcErrorValues`). -/
def Code.toInt : Code → Int
  | .success => 0
  | .complete => 1
  | .general => 2
  | .unknown => 3

/-- What a C++ function body can do: return (an `int`, or nothing), or throw something. -/
inductive Outcome
  | returnsInt (c : Code)
  | returnsVoid
  | throwsEckit
  | throwsStd
  | throwsOther
  deriving DecidableEq

/-- `wrapApiFunction`, odc.cc l.123-163: the value returned, and the code the failure handler (if there is one) is called
with.  A handler that does not return is not modelled. -/
def wrapApi (handler : Bool) : Outcome → Code × List Code
  | .returnsInt c => (c, [])
  | .returnsVoid => (.success, [])
  | .throwsEckit => (.general, if handler then [.general] else [])
  | .throwsStd => (.general, if handler then [.general] else [])
  | .throwsOther => (.unknown, if handler then [.unknown] else [])

/-- The exceptions of the model as C++ exceptions; undefined behaviour and endless loops have no outcome. -/
def Err.outcome : Err → Option Outcome
  | .lengthError => some .throwsStd
  | .ub => none
  | .diverges => none
  | _ => some .throwsEckit

/-- **C25**: a call returns success exactly if its body completed (and, for a body with a result, reported success); every
exception gives an error code, distinct from success and from the end of the iteration, and the failure handler is called
once with the same code; otherwise it is not called. -/
theorem C25_codes (handler : Bool) (o : Outcome) :
    ((wrapApi handler o).1 = .success ↔ o = .returnsVoid ∨ o = .returnsInt .success) ∧
    ((o = .throwsEckit ∨ o = .throwsStd ∨ o = .throwsOther) →
      ((wrapApi handler o).1.toInt = 2 ∨ (wrapApi handler o).1.toInt = 3) ∧
      (wrapApi handler o).2 = if handler then [(wrapApi handler o).1] else []) ∧
    ((∀ c, o ≠ .returnsInt c) → (wrapApi handler o).1 ≠ .complete) ∧
    (¬ (o = .throwsEckit ∨ o = .throwsStd ∨ o = .throwsOther) → (wrapApi handler o).2 = []) := by
  cases o <;> cases handler <;> simp [wrapApi, Code.toInt]

/-! ### Frame objects -/

/-- `odc_frame_t`, odc.cc l.40-45: the tables held (with the identity of the `FrameImpl` that owns the properties), and the
memoised iterators into the properties of a `FrameImpl`. -/
structure CFrame where
  impl : Option (Nat × List Tbl)
  memo : Option (Nat × StrMap)

/-- The reader (once created, with its mode), the frame objects by handle (`none`: freed), and the next identity. [`odc_reader_t`, `odc_frame_t`, api/odc.cc l.32-45] -/
structure CState where
  reader : Option (Rd × Bool × Int)
  frames : List (Option CFrame)
  fresh : Nat

/-- Calls, with handles of frame objects. [api/odc.cc l.327-483] -/
inductive COp
  | newFrame
  | free (h : Nat)
  | next (h : Nat)
  | nextAgg (h : Nat) (limit : Int)
  | copy (h : Nat)
  | property (h : Nat) (idx : Int)

/-- Results: a code (nothing if the call does not return properly), what the frame object shows after a call of
`odc_next_frame`, what a property call returned. [api/odc.cc l.327-483] -/
inductive CRes
  | done (c : Code)
  | next (agg : Bool) (limit : Int) (c : Option Code) (shown : Option (List Tbl))
  | prop (kv : Str × Str)
  | undefined

/-- `ReaderImpl::next` through the C interface: odc.cc l.344-351, 365-372.  The mode of the first call stays. -/
def readerNext (env : Env) (f : File) (rd : Option (Rd × Bool × Int)) (agg : Bool) (limit : Int) :
    Option (Rd × Bool × Int) × Except Err (Option (List Tbl)) :=
  match rd with
  | some (r, a, l) =>
    match r.next env f a l (f.bytes.length + 2) with
    | (r', x) => (some (r', a, l), x)
  | none =>
    match Rd.open env f with
    | .error e => (none, .error e)
    | .ok r =>
      match r.next env f agg limit (f.bytes.length + 2) with
      | (r', x) => (some (r', agg, limit), x)

/-- Specification: the code a read should give. -/
def codeOfNext (x : Except Err (Option (List Tbl))) : Option Code :=
  match x with
  | .ok (some _) => some .success
  | .ok none => some .complete
  | .error e => e.outcome.map (fun o => (wrapApi false o).1)

/-- `odc_next_frame` and `odc_next_frame_aggregated`, odc.cc l.341-383.  On success the frame takes over the new frame and
forgets the memoised properties; at the end it holds nothing (and keeps the memoised iterators); after an exception it is as
before. -/
def frameNext (env : Env) (f : File) (s : CState) (h : Nat) (agg : Bool) (limit : Int) : CState × CRes :=
  match s.frames[h]? with
  | some (some fr) =>
    match readerNext env f s.reader agg limit with
    | (rd, .ok (some ts)) =>
      ({ reader := rd, frames := s.frames.set h (some ⟨some (s.fresh, ts), none⟩), fresh := s.fresh + 1 },
        .next agg limit (codeOfNext (.ok (some ts))) (some ts))
    | (rd, .ok none) =>
      ({ s with reader := rd, frames := s.frames.set h (some ⟨none, fr.memo⟩) }, .next agg limit (codeOfNext (.ok none)) none)
    | (rd, .error e) => ({ s with reader := rd }, .next agg limit (codeOfNext (.error e)) (fr.impl.map Prod.snd))
  | _ => (s, .undefined)

/-- Is the `FrameImpl` still owned by a frame object? [The `shared_ptr` of api/Odb.cc l.507-526] -/
def CState.live (s : CState) (id : Nat) : Bool :=
  s.frames.any (fun o => match o with
    | some fr => match fr.impl with
      | some (i, _) => decide (i = id)
      | none => false
    | none => false)

/-- `odc_frame_property_idx`, odc.cc l.453-473.  Iterators into the properties of a frame that no longer exists, and indices
out of range once the iterators are memoised, give undefined behaviour. -/
def frameProperty (s : CState) (h : Nat) (idx : Int) : CState × CRes :=
  match s.frames[h]? with
  | some (some fr) =>
    match fr.memo with
    | some (id, kvs) =>
      if idx < 0 then (s, .undefined)
      else if ¬ s.live id then (s, .undefined)
      else
        match kvs[idx.toNat]? with
        | none => (s, .undefined)
        | some kv => (s, .prop kv)
    | none =>
      match fr.impl with
      | none => (s, .done .general)
      | some (id, ts) =>
        if ts = [] then (s, .done .general)
        else if idx < 0 then (s, .done .general)
        else
          match (frameProps ts)[idx.toNat]? with
          | none => (s, .done .general)
          | some kv => ({ s with frames := s.frames.set h (some { fr with memo := some (id, frameProps ts) }) }, .prop kv)
  | _ => (s, .undefined)

/-- One call. [api/odc.cc l.327-483] -/
def cStep (env : Env) (f : File) (s : CState) : COp → CState × CRes
  | .newFrame => ({ s with frames := s.frames ++ [some ⟨none, none⟩] }, .done .success)
  | .free h =>
    match s.frames[h]? with
    | some (some _) => ({ s with frames := s.frames.set h none }, .done .success)
    | _ => (s, .undefined)
  | .next h => frameNext env f s h false (-1)
  | .nextAgg h limit => frameNext env f s h true limit
  | .copy h =>
    match s.frames[h]? with
    | some (some fr) =>
      match fr.impl with
      | none => (s, .undefined)
      | some (_, ts) =>
        ({ s with frames := s.frames ++ [some ⟨some (s.fresh, ts), fr.memo⟩], fresh := s.fresh + 1 }, .done .success)
    | _ => (s, .undefined)
  | .property h idx => frameProperty s h idx

/-- A history of calls: the state after it and the results. [api/odc.cc l.327-483] -/
def cRun (env : Env) (f : File) : CState → List COp → CState × List CRes
  | s, [] => (s, [])
  | s, op :: ops =>
    match cStep env f s op with
    | (s', r) =>
      match cRun env f s' ops with
      | (s'', rs) => (s'', r :: rs)

/-- Specification: the state of a program before its first call. -/
def CState.start : CState := ⟨none, [], 0⟩

/-- The calls of `odc_next_frame` and `odc_next_frame_aggregated` on existing frame objects, in order: mode asked for, code
returned, what the frame object shows afterwards. -/
def nextCalls (rs : List CRes) : List ((Bool × Int) × Option Code × Option (List Tbl)) :=
  rs.filterMap (fun r => match r with
    | .next agg limit c shown => some ((agg, limit), c, shown)
    | _ => none)

/-! ### Proofs -/

/-- Results of successive calls of `next`. -/
def nextSeq (env : Env) (f : File) : Option (Rd × Bool × Int) → List (Bool × Int) → List (Except Err (Option (List Tbl)))
  | _, [] => []
  | rd, (a, l) :: ms =>
    match readerNext env f rd a l with
    | (rd', x) => x :: nextSeq env f rd' ms

/-- Code and content reported for a result. -/
def Reported (x : Except Err (Option (List Tbl))) (c : Option Code) (shown : Option (List Tbl)) : Prop :=
  c = codeOfNext x ∧ ∀ y, x = .ok y → shown = y

theorem frameNext_spec (env : Env) (f : File) (s : CState) (h : Nat) (a : Bool) (l : Int) :
    ((frameNext env f s h a l).1 = s ∧ (frameNext env f s h a l).2 = .undefined) ∨
    ∃ c shown, (frameNext env f s h a l).2 = .next a l c shown ∧
      (frameNext env f s h a l).1.reader = (readerNext env f s.reader a l).1 ∧
      Reported (readerNext env f s.reader a l).2 c shown := by
  unfold frameNext
  cases hh : s.frames[h]? with
  | none => left; exact ⟨rfl, rfl⟩
  | some o =>
    cases o with
    | none => left; exact ⟨rfl, rfl⟩
    | some fr =>
      right
      dsimp only
      cases hx : readerNext env f s.reader a l with
      | mk rd x =>
        cases x with
        | error e => exact ⟨_, _, rfl, rfl, rfl, fun y hy => by cases hy⟩
        | ok o =>
          cases o with
          | none => exact ⟨_, _, rfl, rfl, rfl, fun y hy => by cases hy; rfl⟩
          | some ts => exact ⟨_, _, rfl, rfl, rfl, fun y hy => by cases hy; rfl⟩

theorem cStep_other (env : Env) (f : File) (s : CState) (op : COp) (h1 : ∀ h, op ≠ .next h) (h2 : ∀ h l, op ≠ .nextAgg h l) :
    (cStep env f s op).1.reader = s.reader ∧ ∀ a l c sh, (cStep env f s op).2 ≠ .next a l c sh := by
  cases op with
  | newFrame => exact ⟨rfl, fun _ _ _ _ hh => by cases hh⟩
  | free h =>
    unfold cStep
    dsimp only
    split
    · exact ⟨rfl, fun _ _ _ _ hh => by cases hh⟩
    · exact ⟨rfl, fun _ _ _ _ hh => by cases hh⟩
  | next h => exact absurd rfl (h1 h)
  | nextAgg h l => exact absurd rfl (h2 h l)
  | copy h =>
    unfold cStep
    dsimp only
    split
    · split
      · exact ⟨rfl, fun _ _ _ _ hh => by cases hh⟩
      · exact ⟨rfl, fun _ _ _ _ hh => by cases hh⟩
    · exact ⟨rfl, fun _ _ _ _ hh => by cases hh⟩
  | property h idx =>
    unfold cStep frameProperty
    dsimp only
    repeat' split
    all_goals exact ⟨rfl, fun _ _ _ _ hh => by cases hh⟩

/-- The calls of `next` in a history give the results of as many calls on the reader. -/
theorem nextCalls_seq (env : Env) (f : File) (ops : List COp) (s : CState) :
    ((nextCalls (cRun env f s ops).2).length = (nextSeq env f s.reader ((nextCalls (cRun env f s ops).2).map Prod.fst)).length) ∧
    ∀ (i : Nat) (n : (Bool × Int) × Option Code × Option (List Tbl)) (x : Except Err (Option (List Tbl))),
      (nextCalls (cRun env f s ops).2)[i]? = some n →
      (nextSeq env f s.reader ((nextCalls (cRun env f s ops).2).map Prod.fst))[i]? = some x → Reported x n.2.1 n.2.2 := by
  induction ops generalizing s with
  | nil => simp [cRun, nextCalls, nextSeq]
  | cons op ops ih =>
    have hrun : (cRun env f s (op :: ops)).2 = (cStep env f s op).2 :: (cRun env f (cStep env f s op).1 ops).2 := rfl
    rw [hrun]
    obtain ⟨ih1, ih2⟩ := ih (cStep env f s op).1
    have hskip : (∀ a l c sh, (cStep env f s op).2 ≠ .next a l c sh) → (cStep env f s op).1.reader = s.reader →
        nextCalls ((cStep env f s op).2 :: (cRun env f (cStep env f s op).1 ops).2) =
          nextCalls (cRun env f (cStep env f s op).1 ops).2 := by
      intro hno _
      unfold nextCalls
      rw [List.filterMap_cons]
      cases hr : (cStep env f s op).2 with
      | next a l c sh => exact absurd hr (hno a l c sh)
      | done c => rfl
      | prop kv => rfl
      | undefined => rfl
    have hnext : ∀ h a l, cStep env f s op = frameNext env f s h a l →
        ((nextCalls ((cStep env f s op).2 :: (cRun env f (cStep env f s op).1 ops).2)).length =
          (nextSeq env f s.reader ((nextCalls ((cStep env f s op).2 :: (cRun env f (cStep env f s op).1 ops).2)).map Prod.fst)).length) ∧
        ∀ (i : Nat) (n : (Bool × Int) × Option Code × Option (List Tbl)) (x : Except Err (Option (List Tbl))),
          (nextCalls ((cStep env f s op).2 :: (cRun env f (cStep env f s op).1 ops).2))[i]? = some n →
          (nextSeq env f s.reader ((nextCalls ((cStep env f s op).2 :: (cRun env f (cStep env f s op).1 ops).2)).map Prod.fst))[i]? =
            some x → Reported x n.2.1 n.2.2 := by
      intro h a l heq
      rcases frameNext_spec env f s h a l with ⟨e1, e2⟩ | ⟨c, sh, e1, e2, e3⟩
      · rw [← heq] at e1 e2
        rw [hskip (by rw [e2]; intro _ _ _ _ hh; cases hh) (by rw [e1])]
        rw [show s.reader = (cStep env f s op).1.reader by rw [e1]]
        exact ⟨ih1, ih2⟩
      · rw [← heq] at e1 e2
        have hc : nextCalls ((cStep env f s op).2 :: (cRun env f (cStep env f s op).1 ops).2) =
            ((a, l), c, sh) :: nextCalls (cRun env f (cStep env f s op).1 ops).2 := by
          rw [e1]; rfl
        rw [hc]
        have hsq : nextSeq env f s.reader ((((a, l), c, sh) :: nextCalls (cRun env f (cStep env f s op).1 ops).2).map Prod.fst) =
            (readerNext env f s.reader a l).2 :: nextSeq env f (cStep env f s op).1.reader
              ((nextCalls (cRun env f (cStep env f s op).1 ops).2).map Prod.fst) := by
          rw [List.map_cons, nextSeq, e2]
        rw [hsq]
        refine ⟨by simp [ih1], ?_⟩
        intro i n x hi hx
        cases i with
        | zero =>
          simp only [List.getElem?_cons_zero, Option.some.injEq] at hi hx
          subst hi
          subst hx
          exact e3
        | succ i => exact ih2 i n x (by simpa using hi) (by simpa using hx)
    have hother : (∀ h, op ≠ .next h) → (∀ h l, op ≠ .nextAgg h l) →
        ((nextCalls ((cStep env f s op).2 :: (cRun env f (cStep env f s op).1 ops).2)).length =
          (nextSeq env f s.reader ((nextCalls ((cStep env f s op).2 :: (cRun env f (cStep env f s op).1 ops).2)).map Prod.fst)).length) ∧
        ∀ (i : Nat) (n : (Bool × Int) × Option Code × Option (List Tbl)) (x : Except Err (Option (List Tbl))),
          (nextCalls ((cStep env f s op).2 :: (cRun env f (cStep env f s op).1 ops).2))[i]? = some n →
          (nextSeq env f s.reader ((nextCalls ((cStep env f s op).2 :: (cRun env f (cStep env f s op).1 ops).2)).map Prod.fst))[i]? =
            some x → Reported x n.2.1 n.2.2 := by
      intro h1 h2
      obtain ⟨e1, e2⟩ := cStep_other env f s op h1 h2
      rw [hskip e2 e1, ← e1]
      exact ⟨ih1, ih2⟩
    cases op with
    | next h => exact hnext h false (-1) rfl
    | nextAgg h l => exact hnext h true l rfl
    | newFrame => exact hother (fun h hh => by cases hh) (fun h l hh => by cases hh)
    | free h => exact hother (fun h hh => by cases hh) (fun h l hh => by cases hh)
    | copy h => exact hother (fun h hh => by cases hh) (fun h l hh => by cases hh)
    | property h idx => exact hother (fun h hh => by cases hh) (fun h l hh => by cases hh)

/-- After the end was reported, it is reported again. -/
theorem next_none (env : Env) (f : File) (a : Bool) (l : Int) (fuel : Nat) (r r' : Rd) (h : r.next env f a l fuel = (r', .ok none)) :
    r'.pos = -1 := by
  have htake : ∀ ts pos, (Rd.take env f a l fuel ts pos).2 ≠ .ok none := by
    intro ts pos
    unfold Rd.take
    repeat' split
    all_goals simp
  unfold Rd.next at h
  by_cases h1 : r.pos = -1
  · rw [if_pos h1] at h; cases h; exact h1
  · rw [if_neg h1] at h
    by_cases h2 : r.first = true
    · rw [if_pos h2] at h
      exact absurd (congrArg Prod.snd h) (htake _ _)
    · rw [if_neg h2] at h
      cases hi : itIncr env f r.tables r.pos with
      | mk ts p =>
        obtain ⟨pos, o⟩ := p
        rw [hi] at h
        cases o with
        | some e => simp at h
        | none =>
          dsimp only at h
          by_cases h3 : pos = -1
          · rw [if_pos h3] at h; cases h; exact h3
          · rw [if_neg h3] at h
            exact absurd (congrArg Prod.snd h) (htake _ _)

theorem nextSeq_done (env : Env) (f : File) (r : Rd) (a : Bool) (l : Int) (hr : r.pos = -1) (ms : List (Bool × Int)) :
    ∀ (i : Nat) (x : Except Err (Option (List Tbl))), (nextSeq env f (some (r, a, l)) ms)[i]? = some x → x = .ok none := by
  induction ms with
  | nil => intro i x h; simp [nextSeq] at h
  | cons m ms ih =>
    obtain ⟨a', l'⟩ := m
    intro i x h
    have : readerNext env f (some (r, a, l)) a' l' = (some (r, a, l), .ok none) := by
      unfold readerNext
      dsimp only
      unfold Rd.next
      rw [if_pos hr]
    rw [nextSeq, this] at h
    dsimp only at h
    cases i with
    | zero => simp only [List.getElem?_cons_zero, Option.some.injEq] at h; exact h.symm
    | succ i => exact ih i x (by simpa using h)

/-- What the `i`-th call must report when the frames are `fs` and then the reading ends as `fin`. -/
def Expected (fs : List (List Tbl)) (fin : Option Err) (i : Nat) (x : Except Err (Option (List Tbl))) : Prop :=
  (∀ fr, fs[i]? = some fr → x = .ok (some fr)) ∧
  (fin = none → fs.length ≤ i → x = .ok none) ∧
  (∀ e, fin = some e → e ≠ .diverges → i = fs.length → x = .error e)

theorem nextSeq_loop (env : Env) (f : File) (a : Bool) (l : Int) (k : Nat) (r : Rd) (ms : List (Bool × Int)) :
    ∀ (i : Nat) (x : Except Err (Option (List Tbl))), (nextSeq env f (some (r, a, l)) ms)[i]? = some x →
      Expected (readLoop env f a l (f.bytes.length + 2) k r).1 (readLoop env f a l (f.bytes.length + 2) k r).2 i x := by
  induction k generalizing r ms with
  | zero =>
    intro i x _
    unfold readLoop
    refine ⟨by simp, by simp, ?_⟩
    intro e he
    cases he
    simp
  | succ k ih =>
    intro i x h
    cases ms with
    | nil => simp [nextSeq] at h
    | cons m ms =>
      obtain ⟨a', l'⟩ := m
      unfold readLoop
      rw [nextSeq] at h
      unfold readerNext at h
      dsimp only at h
      cases hn : r.next env f a l (f.bytes.length + 2) with
      | mk r' y =>
        rw [hn] at h
        cases y with
        | error e =>
          dsimp only at h ⊢
          refine ⟨by simp, by simp, ?_⟩
          intro e' he' _ hi
          simp only [List.length_nil] at hi
          subst hi
          simp only [List.getElem?_cons_zero, Option.some.injEq] at h
          cases he'
          exact h.symm
        | ok o =>
          cases o with
          | none =>
            dsimp only at h ⊢
            refine ⟨by simp, ?_, by simp⟩
            intro _ _
            cases i with
            | zero => simp only [List.getElem?_cons_zero, Option.some.injEq] at h; exact h.symm
            | succ i => exact nextSeq_done env f r' a l (next_none env f a l _ r r' hn) ms i x (by simpa using h)
          | some fr =>
            dsimp only at h ⊢
            cases i with
            | zero =>
              simp only [List.getElem?_cons_zero, Option.some.injEq] at h
              refine ⟨?_, by simp, by simp⟩
              intro fr' hfr'
              simp only [List.getElem?_cons_zero, Option.some.injEq] at hfr'
              rw [← h, hfr']
            | succ i =>
              obtain ⟨b1, b2, b3⟩ := ih r' ms i x (by simpa using h)
              refine ⟨fun fr' hfr' => b1 fr' (by simpa using hfr'), fun he hi => b2 he (by simpa using hi), ?_⟩
              intro e he hne hi
              exact b3 e he hne (by simpa using hi)

/-- **C25 (iteration)**: in every history of calls on any number of frame objects over one reader, the calls of
`odc_next_frame` and `odc_next_frame_aggregated` together deliver the frames of the file one after the other (`fs`, as read
in the mode of the first of these calls), each to the frame object it was called on; then, if the data ends properly, they
report `ODC_ITERATION_COMPLETE`, always, and never before; and if reading fails after the frames `fs`, the next call
returns an error code. -/
theorem C25_iteration (env : Env) (f : File) (ops : List COp) (agg : Bool) (limit : Int) (c0 : Option Code)
    (sh0 : Option (List Tbl)) (rest : List ((Bool × Int) × Option Code × Option (List Tbl)))
    (hfirst : nextCalls (cRun env f .start ops).2 = ((agg, limit), c0, sh0) :: rest) :
    ∀ (i : Nat) (m : Bool × Int) (c : Option Code) (shown : Option (List Tbl)),
      (nextCalls (cRun env f .start ops).2)[i]? = some (m, c, shown) →
      (∀ fr, (readFrames env f agg limit).1[i]? = some fr → c = some .success ∧ shown = some fr) ∧
      ((readFrames env f agg limit).2 = none → (readFrames env f agg limit).1.length ≤ i → c = some .complete ∧ shown = none) ∧
      (∀ e, (readFrames env f agg limit).2 = some e → e ≠ .diverges → e ≠ .ub → i = (readFrames env f agg limit).1.length →
        c = some .general) := by
  intro i m c shown hi
  obtain ⟨hlen, hrep⟩ := nextCalls_seq env f ops .start
  have hil := (List.getElem?_eq_some_iff.mp hi).1
  rw [hlen] at hil
  have hx := List.getElem?_eq_getElem hil
  obtain ⟨r1, r2⟩ := hrep i (m, c, shown) _ hi hx
  dsimp only at r1 r2
  generalize hxx : (nextSeq env f CState.start.reader ((nextCalls (cRun env f .start ops).2).map Prod.fst))[i] = x at *
  have hexp : Expected (readFrames env f agg limit).1 (readFrames env f agg limit).2 i x ∨
      (∃ e, Rd.open env f = .error e) := by
    rw [hfirst] at hx
    rw [List.map_cons] at hx
    have hs : CState.start.reader = none := rfl
    rw [hs, nextSeq] at hx
    unfold readerNext at hx
    cases ho : Rd.open env f with
    | error e => exact .inr ⟨e, rfl⟩
    | ok r =>
      left
      rw [ho] at hx
      dsimp only at hx
      have := nextSeq_loop env f agg limit (f.bytes.length + 2) r ((agg, limit) :: rest.map Prod.fst) i x (by
        rw [nextSeq]
        unfold readerNext
        exact hx)
      unfold readFrames
      rw [ho]
      exact this
  have hgen : ∀ e : Err, e ≠ .diverges → e ≠ .ub → codeOfNext (.error e) = some .general := by
    intro e h1 h2
    unfold codeOfNext Err.outcome
    cases e <;> first | rfl | exact absurd rfl h1 | exact absurd rfl h2
  rcases hexp with hexp | ⟨e, he⟩
  · obtain ⟨e1, e2, e3⟩ := hexp
    refine ⟨?_, ?_, ?_⟩
    · intro fr hfr
      have := e1 fr hfr
      exact ⟨by rw [r1, this]; rfl, r2 _ this⟩
    · intro h1 h2
      have := e2 h1 h2
      exact ⟨by rw [r1, this]; rfl, r2 _ this⟩
    · intro e h1 h2 h3 h4
      rw [r1, e3 e h1 h2 h4, hgen e h2 h3]
  · -- the reader cannot be created: every call tries again
    have hrf : readFrames env f agg limit = ([], some e) := by unfold readFrames; rw [he]
    rw [hrf]
    refine ⟨by simp, by simp, ?_⟩
    intro e' h1 h2 h3 h4
    cases h1
    simp only [List.length_nil] at h4
    subst h4
    rw [hfirst, List.map_cons] at hx
    have hs : CState.start.reader = none := rfl
    rw [hs, nextSeq] at hx
    unfold readerNext at hx
    rw [he] at hx
    simp only [List.getElem?_cons_zero, Option.some.injEq] at hx
    rw [r1, ← hx, hgen e h2 h3]

/-- The results of a history on the sample file: for each call of `next`, the code and the number of tables shown. -/
def sampleHistory (ops : List COp) : Option (List (Option Code × Option Nat)) :=
  match writeTables sampleEnv sampleTables with
  | .ok bss => some ((nextCalls (cRun sampleEnv (File.known bss.flatten) .start ops).2).map (fun n => (n.2.1, n.2.2.map List.length)))
  | .error _ => none

/-- Two frame objects take turns on the file of three tables. -/
example : sampleHistory [.newFrame, .newFrame, .next 0, .next 1, .property 0 0, .next 0, .next 1, .next 0, .next 5] =
    some [(some .success, some 1), (some .success, some 1), (some .success, some 1), (some .complete, none), (some .complete, none)] := by
  decide +kernel

/-- The mode of the first call decides: the row limit and the aggregation asked for later are ignored (here a limit of one
row, and no aggregation: all tables are larger, but frames are delivered; contrast the second history). -/
theorem C25_mode_of_first :
    sampleHistory [.newFrame, .nextAgg 0 (-1), .nextAgg 0 1, .next 0] =
      some [(some .success, some 2), (some .success, some 1), (some .complete, none)] ∧
    sampleHistory [.newFrame, .nextAgg 0 1] = some [(some .general, none)] := by decide +kernel

/-! ### C42: properties by index -/

/-- Memoised iterators belong to the frame held. -/
def MemoInv (s : CState) : Prop :=
  ∀ (h : Nat) (fr : CFrame), s.frames[h]? = some (some fr) → ∀ (id : Nat) (ts : List Tbl), fr.impl = some (id, ts) →
    ∀ (id' : Nat) (kvs : StrMap), fr.memo = some (id', kvs) → id' = id ∧ kvs = frameProps ts

theorem MemoInv.set {s : CState} (hs : MemoInv s) (h : Nat) (o : Option CFrame)
    (ho : ∀ fr, o = some fr → ∀ (id : Nat) (ts : List Tbl), fr.impl = some (id, ts) →
      ∀ (id' : Nat) (kvs : StrMap), fr.memo = some (id', kvs) → id' = id ∧ kvs = frameProps ts) (rd : Option (Rd × Bool × Int)) (n : Nat) :
    MemoInv ⟨rd, s.frames.set h o, n⟩ := by
  intro h' fr hfr
  dsimp only at hfr
  rw [List.getElem?_set] at hfr
  by_cases he : h = h'
  · rw [if_pos he] at hfr
    split at hfr
    · simp only [Option.some.injEq] at hfr; exact ho fr hfr
    · simp at hfr
  · rw [if_neg he] at hfr; exact hs h' fr hfr

theorem MemoInv.push {s : CState} (hs : MemoInv s) (fr0 : CFrame)
    (ho : ∀ (id : Nat) (ts : List Tbl), fr0.impl = some (id, ts) →
      ∀ (id' : Nat) (kvs : StrMap), fr0.memo = some (id', kvs) → id' = id ∧ kvs = frameProps ts) (rd : Option (Rd × Bool × Int)) (n : Nat) :
    MemoInv ⟨rd, s.frames ++ [some fr0], n⟩ := by
  intro h' fr hfr
  dsimp only at hfr
  rcases Nat.lt_trichotomy h' s.frames.length with hl | hl | hl
  · rw [List.getElem?_append_left hl] at hfr; exact hs h' fr hfr
  · subst hl
    simp only [List.getElem?_append_right (Nat.le_refl _), Nat.sub_self, List.getElem?_cons_zero, Option.some.injEq] at hfr
    subst hfr
    exact ho
  · rw [List.getElem?_append_right (by omega)] at hfr
    rw [List.getElem?_eq_none (by simp; omega)] at hfr
    cases hfr

theorem MemoInv.step (env : Env) (f : File) {s : CState} (hs : MemoInv s) (op : COp) (hc : ∀ h, op ≠ .copy h) :
    MemoInv (cStep env f s op).1 := by
  have hnext : ∀ h a l, MemoInv (frameNext env f s h a l).1 := by
    intro h a l
    unfold frameNext
    split
    · rename_i fr hfr
      split
      · exact hs.set h _ (fun fr' e => by cases e; intro id ts _ id' kvs hm; cases hm) _ _
      · exact hs.set h _ (fun fr' e => by cases e; intro id ts hi; cases hi) _ _
      · exact hs
    · exact hs
  cases op with
  | newFrame => exact hs.push ⟨none, none⟩ (fun id ts hi => by cases hi) _ _
  | free h =>
    unfold cStep
    dsimp only
    split
    · exact hs.set h none (fun fr e => by cases e) _ _
    · exact hs
  | next h => exact hnext h _ _
  | nextAgg h l => exact hnext h _ _
  | copy h => exact absurd rfl (hc h)
  | property h idx =>
    unfold cStep frameProperty
    dsimp only
    split
    · rename_i fr hfr
      split
      · repeat' split
        all_goals exact hs
      · split
        · exact hs
        · rename_i id ts hi
          split
          · exact hs
          · split
            · exact hs
            · split
              · exact hs
              · refine hs.set h _ ?_ _ _
                intro fr' e
                cases e
                intro id1 ts1 h1 id2 kvs h2
                dsimp only at h1 h2
                rw [hi] at h1
                cases h1
                cases h2
                exact ⟨rfl, rfl⟩
    · exact hs

theorem MemoInv.run (env : Env) (f : File) (ops : List COp) {s : CState} (hs : MemoInv s) (hc : ∀ op ∈ ops, ∀ h, op ≠ .copy h) :
    MemoInv (cRun env f s ops).1 := by
  induction ops generalizing s with
  | nil => exact hs
  | cons op ops ih =>
    have : (cRun env f s (op :: ops)).1 = (cRun env f (cStep env f s op).1 ops).1 := rfl
    rw [this]
    exact ih (hs.step env f op (hc op (by simp))) (fun o ho => hc o (by simp [ho]))

theorem live_of (s : CState) (h : Nat) (fr : CFrame) (hfr : s.frames[h]? = some (some fr)) (id : Nat) (ts : List Tbl)
    (hi : fr.impl = some (id, ts)) : s.live id = true := by
  unfold CState.live
  rw [List.any_eq_true]
  exact ⟨some fr, List.mem_of_getElem? hfr, by simp [hi]⟩

/-- **C42**: after any history of calls without `odc_copy_frame`, a frame object that holds a frame returns, for every index
below the number of properties, the property at that place of the frame's properties in the order of their keys (C19), the
first time and every time after. -/
theorem C42_property_index (env : Env) (f : File) (ops : List COp) (hc : ∀ op ∈ ops, ∀ h, op ≠ .copy h) (h : Nat) (fr : CFrame)
    (hfr : (cRun env f .start ops).1.frames[h]? = some (some fr)) (id : Nat) (ts : List Tbl) (hi : fr.impl = some (id, ts))
    (hne : ts ≠ []) (idx : Nat) (kv : Str × Str) (hkv : (frameProps ts)[idx]? = some kv) :
    (cStep env f (cRun env f .start ops).1 (.property h idx)).2 = .prop kv := by
  have hinv := MemoInv.run env f ops (s := .start) (by intro h fr hfr; simp [CState.start] at hfr) hc
  generalize (cRun env f .start ops).1 = s at *
  unfold cStep frameProperty
  dsimp only
  rw [hfr]
  dsimp only
  cases hm : fr.memo with
  | none =>
    dsimp only
    rw [hi]
    dsimp only
    rw [if_neg hne, if_neg (by omega), Int.toNat_natCast, hkv]
  | some m =>
    obtain ⟨id', kvs⟩ := m
    obtain ⟨rfl, rfl⟩ := hinv h fr hfr id ts hi id' kvs hm
    dsimp only
    rw [if_neg (by omega), if_neg (by rw [live_of s h fr hfr id' ts hi]; simp), Int.toNat_natCast, hkv]

/-- An index out of range is refused as long as no property was returned. -/
theorem C42_out_of_range (env : Env) (f : File) (s : CState) (h : Nat) (fr : CFrame)
    (hfr : s.frames[h]? = some (some fr)) (hm : fr.memo = none) (idx : Int)
    (hr : ∀ id ts, fr.impl = some (id, ts) → idx < 0 ∨ ((frameProps ts).length : Int) ≤ idx) :
    cStep env f s (.property h idx) = (s, .done .general) := by
  unfold cStep frameProperty
  dsimp only
  rw [hfr]
  dsimp only
  rw [hm]
  dsimp only
  cases hi : fr.impl with
  | none => rfl
  | some x =>
    obtain ⟨id, ts⟩ := x
    dsimp only
    split
    · rfl
    · split
      · rfl
      · rename_i h1
        have := hr id ts hi
        rw [List.getElem?_eq_none (by omega)]

/-- The last result of a history on the sample file is undefined. -/
def sampleUndefined (ops : List COp) : Bool :=
  match writeTables sampleEnv sampleTables with
  | .ok bss =>
    match (cRun sampleEnv (File.known bss.flatten) .start ops).2.getLast? with
    | some .undefined => true
    | _ => false
  | .error _ => false

/-- Sample: the first property after some calls on the sample file. -/
def sampleProp (ops : List COp) : Option (Str × Str) :=
  match writeTables sampleEnv sampleTables with
  | .ok bss =>
    match (cRun sampleEnv (File.known bss.flatten) .start ops).2.getLast? with
    | some (.prop kv) => some kv
    | _ => none
  | .error _ => none

example : sampleProp [.newFrame, .next 0, .property 0 1, .next 0, .property 0 0] = some (lit "a", lit "b") := by decide +kernel

/-- **C42 fails** after a property was returned: an index out of range is then used unchecked. -/
theorem C42_violated_range : sampleUndefined [.newFrame, .next 0, .property 0 0, .property 0 2] = true := by decide +kernel

/-- **C42 fails** after the end of the iteration: the frame object still uses its old iterators. -/
theorem C42_violated_end :
    sampleUndefined [.newFrame, .next 0, .property 0 0, .next 0, .property 0 0, .next 0, .property 0 0, .next 0, .property 0 0] = true := by
  decide +kernel

/-- **C42 fails** for a copy made after a property was returned: it uses the properties of the original, which are gone
once the original moves on. -/
theorem C42_violated_copy : sampleUndefined [.newFrame, .next 0, .property 0 0, .copy 0, .next 0, .property 1 0] = true := by
  decide +kernel

/-- Copying a frame object that holds no frame dereferences a null pointer. -/
theorem C42_violated_copy_empty : sampleUndefined [.newFrame, .copy 0] = true := by decide +kernel

end Verif
