import Verif.ReaderRef

/-
Several users of one file, and several iterators over one reader, in any interleaving.

Models: src/odc/core/ThreadSharedDataHandle.cc, src/odc/core/TablesReader.cc.
-/

namespace Verif

/-! ### `ThreadSharedDataHandle` -/

/-- What a user does with a handle: read at most `n` bytes, seek, or become a copy of another handle.
`moved p` is an action of the owner of the underlying handle (a handle given by reference stays
accessible to the caller), which leaves its position at `p`. [core/ThreadSharedDataHandle.cc] -/
inductive HOp
  | read (n : Nat)
  | seek (p : Nat)
  | copyOf (v : Nat)
  | moved (p : Nat)

/-- The underlying handle: bytes and position.  Every handle remembers its own position
(ThreadSharedDataHandle.h l.64-79). -/
structure Shared where
  bytes : List Byte
  upos : Nat
  pos : Nat → Nat

/-- One operation of user `u`; `read` is atomic (it holds the mutex): ThreadSharedDataHandle.cc
l.92-104 (read), l.121-128 (seek), l.47-63 (copy).  The result is the bytes read. -/
def Shared.op (s : Shared) (u : Nat) : HOp → Shared × List Byte
  | .read n =>
    -- if (position_ != dh_->position()) dh_->seek(position_)
    let upos := if s.pos u ≠ s.upos then s.pos u else s.upos
    -- delta = dh_->read(buffer, length); position_ += delta
    let got := (s.bytes.drop upos).take n
    (⟨s.bytes, upos + got.length, fun v => if v = u then s.pos u + got.length else s.pos v⟩, got)
  | .seek p => (⟨s.bytes, s.upos, fun v => if v = u then p else s.pos v⟩, [])
  | .copyOf w => (⟨s.bytes, s.upos, fun v => if v = u then s.pos w else s.pos v⟩, [])
  | .moved p => (⟨s.bytes, p, s.pos⟩, [])

/-- A history: the result of each operation with the user that did it. -/
def Shared.run : Shared → List (Nat × HOp) → List (Nat × List Byte)
  | _, [] => []
  | s, (u, op) :: ops => (u, (s.op u op).2) :: Shared.run (s.op u op).1 ops

/-- Specification: a user alone with its own file and position. -/
def alone (bytes : List Byte) : Nat → List HOp → List (List Byte)
  | _, [] => []
  | p, .read n :: ops => (bytes.drop p).take n :: alone bytes (p + ((bytes.drop p).take n).length) ops
  | _, .seek q :: ops => [] :: alone bytes q ops
  | p, .copyOf _ :: ops => [] :: alone bytes p ops
  | p, .moved _ :: ops => [] :: alone bytes p ops

/-- Operations of one user in a history. -/
def opsOf (u : Nat) (h : List (Nat × HOp)) : List HOp := (h.filter (fun x => decide (x.1 = u))).map Prod.snd

/-- Results of one user. -/
def resultsOf (u : Nat) (h : List (Nat × List Byte)) : List (List Byte) :=
  (h.filter (fun x => decide (x.1 = u))).map Prod.snd

theorem Shared.run_alone (s : Shared) (u : Nat) (h : List (Nat × HOp)) (hc : ∀ op ∈ opsOf u h, ∀ v, op ≠ .copyOf v) :
    resultsOf u (s.run h) = alone s.bytes (s.pos u) (opsOf u h) := by
  induction h generalizing s with
  | nil => rfl
  | cons x h ih =>
    obtain ⟨v, op⟩ := x
    have hb : (s.op v op).1.bytes = s.bytes := by cases op <;> rfl
    have hc' : ∀ op ∈ opsOf u h, ∀ v, op ≠ .copyOf v := by
      intro o ho
      apply hc o
      by_cases hv : v = u
      · simp only [opsOf, List.filter_cons, hv, decide_true, if_true, List.map_cons, List.mem_cons]
        exact Or.inr ho
      · simp only [opsOf, List.filter_cons, hv, decide_false] at ho ⊢
        exact ho
    have hi := ih (s.op v op).1 hc'
    rw [hb] at hi
    by_cases hv : v = u
    · subst hv
      have h1 : opsOf v ((v, op) :: h) = op :: opsOf v h := by simp [opsOf]
      have h2 : resultsOf v (s.run ((v, op) :: h)) = (s.op v op).2 :: resultsOf v ((s.op v op).1.run h) := by
        simp [resultsOf, Shared.run]
      rw [h1, h2, hi]
      cases op with
      | read n =>
        have e : (if s.pos v ≠ s.upos then s.pos v else s.upos) = s.pos v := by split <;> omega
        simp only [Shared.op, e, alone, if_true]
      | seek p => simp [Shared.op, alone]
      | copyOf w => exact absurd rfl (hc (.copyOf w) (by rw [h1]; simp) w)
      | moved p => simp [Shared.op, alone]
    · have h1 : opsOf u ((v, op) :: h) = opsOf u h := by simp [opsOf, hv]
      have h2 : resultsOf u (s.run ((v, op) :: h)) = resultsOf u ((s.op v op).1.run h) := by
        simp [resultsOf, Shared.run, hv]
      rw [h1, h2, hi]
      congr 1
      have huv : ¬ u = v := fun e => hv e.symm
      cases op <;> simp [Shared.op, huv]

/-! ### Iterators over one `TablesReader` -/

/-- Tables read so far, the positions of the iterators, and the number of tables parsed from the file. [core/ReadTablesIterator.cc, core/TablesReader.cc l.98-125] -/
structure Its where
  tables : List Tbl
  pos : Nat → Int
  parsed : Nat

/-- `++it` for iterator `j` (atomic: `ensureTable` holds the mutex): TablesReader.cc l.40-49, 98-125.  A
table is parsed exactly when the list grows. -/
def Its.incr (env : Env) (f : File) (s : Its) (j : Nat) : Its :=
  let (ts, p, _) := itIncr env f s.tables (s.pos j)
  ⟨ts, fun i => if i = j then p else s.pos i, s.parsed + (ts.length - s.tables.length)⟩

/-- Increments in the given order. [core/TablesReader.cc l.98-125] -/
def Its.run (env : Env) (f : File) (s : Its) (js : List Nat) : Its := js.foldl (fun s j => s.incr env f j) s

/-- What iterator `j` designates after `c` increments from the first table: table `c`, then the end, and
(as the end is position -1) again the first table. -/
def cyclePos (n c : Nat) : Int := if c % (n + 1) = n then -1 else ((c % (n + 1) : Nat) : Int)

/-- Start: the first table has been read by `begin()`. -/
def Its.start (ts : List Tbl) : Its := ⟨ts.take 1, fun _ => if ts = [] then -1 else 0, (ts.take 1).length⟩

theorem cyclePos_lt {n c : Nat} : cyclePos n c = -1 ∨ ∃ k : Nat, k < n ∧ cyclePos n c = k ∧ c % (n + 1) = k := by
  unfold cyclePos
  have : c % (n + 1) < n + 1 := Nat.mod_lt _ (by omega)
  split
  · exact Or.inl rfl
  · exact Or.inr ⟨c % (n + 1), by omega, rfl, rfl⟩

theorem cyclePos_succ (n c : Nat) :
    cyclePos n (c + 1) = if cyclePos n c + 1 < n then cyclePos n c + 1 else -1 := by
  unfold cyclePos
  have hlt : c % (n + 1) < n + 1 := Nat.mod_lt _ (by omega)
  have hadd : (c + 1) % (n + 1) = if c % (n + 1) = n then 0 else c % (n + 1) + 1 := by
    rw [Nat.add_mod]
    by_cases h : c % (n + 1) = n
    · rw [if_pos h, h]
      by_cases hn : n = 0
      · subst hn; rfl
      · rw [Nat.mod_eq_of_lt (show 1 < n + 1 by omega)]; simp
    · rw [if_neg h]
      by_cases hn : n = 0
      · subst hn; omega
      · rw [Nat.mod_eq_of_lt (show 1 < n + 1 by omega), Nat.mod_eq_of_lt (by omega)]
  rw [hadd]
  by_cases h : c % (n + 1) = n
  · rw [if_pos h, if_pos h]
    by_cases hn : n = 0
    · subst hn; simp
    · rw [if_neg (by omega), if_pos (by omega)]; rfl
  · rw [if_neg h, if_neg h]
    by_cases h2 : c % (n + 1) + 1 = n
    · rw [if_pos h2, if_neg (by omega)]
    · rw [if_neg h2, if_pos (by omega)]; push_cast; rfl

/-- Invariant: the list is a prefix reaching beyond every iterator, parsed once each. -/
structure Its.Inv (ts : List Tbl) (cnt : Nat → Nat) (s : Its) : Prop where
  pre : ∃ m, m ≤ ts.length ∧ s.tables = ts.take m ∧ (0 < ts.length → 0 < m) ∧
    ∀ j, s.pos j < m
  pos : ∀ j, s.pos j = cyclePos ts.length (cnt j)
  parsed : s.parsed = s.tables.length

theorem Its.inv_start (ts : List Tbl) : Its.Inv ts (fun _ => 0) (Its.start ts) := by
  refine ⟨⟨min 1 ts.length, Nat.min_le_right _ _, ?_, ?_, ?_⟩, ?_, rfl⟩
  · simp only [Its.start]; rw [List.take_eq_take_min]
  · omega
  · intro j
    simp only [Its.start]
    split
    · omega
    · rename_i h
      have := List.length_pos_iff.mpr h
      omega
  · intro j
    simp only [Its.start, cyclePos]
    by_cases h : ts = []
    · subst h; rfl
    · have := List.length_pos_iff.mpr h
      rw [if_neg h]; simp; omega

theorem Its.inv_incr {env : Env} {f : File} {ts : List Tbl} (h : Scan env f ts none) (cnt : Nat → Nat) (s : Its)
    (hi : Its.Inv ts cnt s) (j : Nat) :
    Its.Inv ts (fun i => if i = j then cnt i + 1 else cnt i) (s.incr env f j) := by
  obtain ⟨⟨m, hm, ht, hpos, hlt⟩, hp, hq⟩ := hi
  have hstep : ∃ m', m ≤ m' ∧ m' ≤ ts.length ∧ ∃ x, itIncr env f (ts.take m) (s.pos j) =
      (ts.take m', cyclePos ts.length (cnt j + 1), x) ∧ cyclePos ts.length (cnt j + 1) < m' := by
    have hlj := hlt j
    rcases cyclePos_lt (n := ts.length) (c := cnt j) with hc | ⟨k, hk, hc, _⟩
    · -- restart at the first table
      have hpj : s.pos j = -1 := by rw [hp j, hc]
      have hs := cyclePos_succ ts.length (cnt j)
      rw [hc] at hs
      have he := ensure_scan h m hm 0 (by omega)
      unfold itIncr
      rw [hpj, show (-1 : Int) + 1 = ((0 : Nat) : Int) by rfl, he]
      by_cases hl : 0 < ts.length
      · have hm0 := hpos hl
        rw [if_pos (by have : (0:Int) < ts.length := by exact_mod_cast hl
                       omega)] at hs
        rw [if_pos hl, show max m (0 + 1) = m by omega, hs]
        exact ⟨m, Nat.le_refl _, hm, none, by rfl, by simp; omega⟩
      · rw [if_neg (by omega)] at hs
        rw [if_neg hl, hs]
        exact ⟨m, Nat.le_refl _, hm, none, rfl, by omega⟩
    · have hpj : s.pos j = k := by rw [hp j, hc]
      have hs := cyclePos_succ ts.length (cnt j)
      rw [hc] at hs
      have he := itIncr_scan h m k hm (by omega)
      rw [hpj, he, hs]
      by_cases hl : k + 1 < ts.length
      · rw [if_pos hl, if_pos (by omega)]
        exact ⟨max m (k + 2), by omega, by omega, none, rfl, by omega⟩
      · rw [if_neg hl, if_neg (by omega)]
        exact ⟨m, Nat.le_refl _, hm, none, rfl, by omega⟩
  obtain ⟨m', h1, h2, x, h3, h4⟩ := hstep
  have hinc : s.incr env f j = ⟨ts.take m', fun i => if i = j then cyclePos ts.length (cnt j + 1) else s.pos i,
      s.parsed + ((ts.take m').length - (ts.take m).length)⟩ := by
    unfold Its.incr
    rw [ht, h3]
  rw [hinc]
  refine ⟨⟨m', h2, rfl, fun hl => by have := hpos hl; omega, ?_⟩, ?_, ?_⟩
  · intro i
    simp only
    split
    · exact h4
    · have := hlt i; omega
  · intro i
    simp only
    by_cases hij : i = j
    · rw [if_pos hij, if_pos hij, hij]
    · rw [if_neg hij, if_neg hij]; exact hp i
  · simp only [hq, ht, List.length_take]; omega

/-- **Any interleaving of iterators**: each is where its own increments have led it. -/
theorem Its.run_inv {env : Env} {f : File} {ts : List Tbl} (h : Scan env f ts none) (js : List Nat) (cnt : Nat → Nat)
    (s : Its) (hi : Its.Inv ts cnt s) :
    Its.Inv ts (fun i => cnt i + (js.filter (fun j => decide (j = i))).length) (s.run env f js) := by
  induction js generalizing cnt s with
  | nil => simpa [Its.run] using hi
  | cons j js ih =>
    have := ih _ _ (Its.inv_incr h cnt s hi j)
    simp only [Its.run, List.foldl_cons] at this ⊢
    refine cast ?_ this
    congr 1
    funext i
    by_cases hij : i = j
    · subst hij; simp; omega
    · have : ¬ j = i := fun e => hij e.symm
      simp [hij, this]

end Verif
