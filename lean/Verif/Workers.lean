import Verif.Bytes

/-
The worker threads of `FrameImpl::decode`, for any number of threads and any interleaving.

Models: src/odc/api/Odb.cc l.376-407.

Memory is abstract: task `k` (decoding table `k`) owns the part `view k`; a program of task `k` is a list
of atomic steps each of which reads and writes that part only.  The instance for tables is in
`Verif.FrameApi`.
-/

namespace Verif

/-- A memory cut in the parts owned by the tasks and a rest owned by nobody. -/
structure Parts (M V W : Type) where
  view : Nat → M → V
  rest : M → W
  ext : ∀ m m', (∀ k, view k m = view k m') → rest m = rest m' → m = m'

/-- The step acts as `g` on the part of task `k` and leaves all the other parts alone. -/
def Acts {M V W : Type} (P : Parts M V W) (k : Nat) (s : M → M) (g : V → V) : Prop :=
  ∀ m, P.view k (s m) = g (P.view k m) ∧ (∀ j, j ≠ k → P.view j (s m) = P.view j m) ∧ P.rest (s m) = P.rest m

/-- The step touches only the part of task `k`. -/
def Local {M V W : Type} (P : Parts M V W) (k : Nat) (s : M → M) : Prop := ∃ g, Acts P k s g

/-- Running a program without interruption. -/
def runAll {M : Type} (p : List (M → M)) (m : M) : M := p.foldl (fun m s => s m) m

/-- What is to be done: number of tasks, their programs, and the exception (if any) a finished task ends
with, which depends on its own part only. [api/Odb.cc l.354-408] -/
structure Job (M V W : Type) (P : Parts M V W) where
  n : Nat
  prog : Nat → List (M → M)
  outcome : V → Option Err
  isLocal : ∀ k, k < n → ∀ s ∈ prog k, Local P k s

/-- A worker thread: between two tasks, in the middle of a task, returned, or terminated by an
exception (kept in its `std::future`). -/
inductive Worker (M : Type)
  | idle
  | busy (k : Nat) (todo : List (M → M))
  | finished
  | failed (k : Nat) (e : Err)

/-- The shared counter, the worker threads, memory, and (for the statement only) the order in which the
tasks were taken. [api/Odb.cc l.354-408] -/
structure Pool (M : Type) where
  next : Nat
  workers : List (Worker M)
  mem : M
  taken : List Nat

variable {M V W : Type} {P : Parts M V W}

/-- One step of one thread, Odb.cc l.383-399: `take` and `stop` are the critical section. -/
inductive Pool.Step (J : Job M V W P) : Pool M → Pool M → Prop
  | take (p : Pool M) (i : Nat) : p.workers[i]? = some .idle → p.next < J.n →
      Pool.Step J p ⟨p.next + 1, p.workers.set i (.busy p.next (J.prog p.next)), p.mem, p.taken ++ [p.next]⟩
  | stop (p : Pool M) (i : Nat) : p.workers[i]? = some .idle → ¬ p.next < J.n →
      Pool.Step J p ⟨p.next, p.workers.set i .finished, p.mem, p.taken⟩
  | work (p : Pool M) (i k : Nat) (s : M → M) (r : List (M → M)) : p.workers[i]? = some (.busy k (s :: r)) →
      Pool.Step J p ⟨p.next, p.workers.set i (.busy k r), s p.mem, p.taken⟩
  | done (p : Pool M) (i k : Nat) : p.workers[i]? = some (.busy k []) → J.outcome (P.view k p.mem) = none →
      Pool.Step J p ⟨p.next, p.workers.set i .idle, p.mem, p.taken⟩
  | fail (p : Pool M) (i k : Nat) (e : Err) : p.workers[i]? = some (.busy k []) → J.outcome (P.view k p.mem) = some e →
      Pool.Step J p ⟨p.next, p.workers.set i (.failed k e), p.mem, p.taken⟩

/-- The start: `nthreads` threads. [api/Odb.cc l.354-408] -/
def Pool.start (nthreads : Nat) (m : M) : Pool M := ⟨0, List.replicate nthreads .idle, m, []⟩

/-- Specification: some steps, taken by any threads in any order. -/
inductive Pool.Reach (J : Job M V W P) : Pool M → Pool M → Prop
  | refl (p) : Pool.Reach J p p
  | step {p q r} : Pool.Reach J p q → Pool.Step J q r → Pool.Reach J p r

/-- All the threads have ended: `thread.get()` returns for each of them. -/
def Pool.Over (p : Pool M) : Prop := ∀ w ∈ p.workers, w = .finished ∨ ∃ k e, w = .failed k e

/-! ### The part of a task after some of its steps -/

theorem Local.other {k : Nat} {s : M → M} (h : Local P k s) (m : M) (j : Nat) (hj : j ≠ k) :
    P.view j (s m) = P.view j m := let ⟨_, hg⟩ := h; (hg m).2.1 j hj

theorem Local.rest {k : Nat} {s : M → M} (h : Local P k s) (m : M) : P.rest (s m) = P.rest m :=
  let ⟨_, hg⟩ := h; (hg m).2.2

theorem Local.congr {k : Nat} {s : M → M} (h : Local P k s) (m m' : M) (he : P.view k m = P.view k m') :
    P.view k (s m) = P.view k (s m') := by
  obtain ⟨g, hg⟩ := h; rw [(hg m).1, (hg m').1, he]

theorem runAll_congr {k : Nat} (p : List (M → M)) (h : ∀ s ∈ p, Local P k s) (m m' : M)
    (he : P.view k m = P.view k m') : P.view k (runAll p m) = P.view k (runAll p m') := by
  induction p generalizing m m' with
  | nil => exact he
  | cons s p ih =>
    exact ih (fun t ht => h t (by simp [ht])) _ _ ((h s (by simp)).congr m m' he)

theorem runAll_other {k : Nat} (p : List (M → M)) (h : ∀ s ∈ p, Local P k s) (m : M) :
    (∀ j, j ≠ k → P.view j (runAll p m) = P.view j m) ∧ P.rest (runAll p m) = P.rest m := by
  induction p generalizing m with
  | nil => exact ⟨fun _ _ => rfl, rfl⟩
  | cons s p ih =>
    have hs := h s (by simp)
    obtain ⟨a, b⟩ := ih (fun t ht => h t (by simp [ht])) (s m)
    exact ⟨fun j hj => (a j hj).trans (hs.other m j hj), b.trans (hs.rest m)⟩

/-- The tasks one after the other. -/
def seqMem (J : Job M V W P) : Nat → M → M
  | 0, m => m
  | k + 1, m => runAll (J.prog k) (seqMem J k m)

theorem seqMem_view (J : Job M V W P) (m : M) (n : Nat) (hn : n ≤ J.n) :
    (∀ k, k < n → P.view k (seqMem J n m) = P.view k (runAll (J.prog k) m)) ∧
    (∀ k, n ≤ k → P.view k (seqMem J n m) = P.view k m) ∧ P.rest (seqMem J n m) = P.rest m := by
  induction n with
  | zero => exact ⟨by simp, fun _ _ => rfl, rfl⟩
  | succ n ih =>
    obtain ⟨h1, h2, h3⟩ := ih (by omega)
    have ho := runAll_other (P := P) (J.prog n) (J.isLocal n (by omega)) (seqMem J n m)
    refine ⟨?_, ?_, ?_⟩
    · intro k hk
      by_cases hkn : k = n
      · subst hkn
        exact runAll_congr _ (J.isLocal k (by omega)) _ _ (h2 k (by omega))
      · rw [seqMem, ho.1 k hkn]; exact h1 k (by omega)
    · intro k hk
      rw [seqMem, ho.1 k (by omega)]; exact h2 k (by omega)
    · rw [seqMem, ho.2]; exact h3

/-! ### Invariant -/

/-- Every task not yet taken is untouched; a task in progress has done the steps it no longer has to do;
any other taken task is complete, without exception unless a thread failed on it. -/
structure Pool.Inv (J : Job M V W P) (m0 : M) (p : Pool M) : Prop where
  next : p.next ≤ J.n
  taken : p.taken = List.range p.next
  rest : P.rest p.mem = P.rest m0
  fresh : ∀ k, p.next ≤ k → P.view k p.mem = P.view k m0
  busyLt : ∀ (i k : Nat) (todo : List (M → M)), p.workers[i]? = some (.busy k todo) → k < p.next ∧ todo <:+ J.prog k
  busy : ∀ (i k : Nat) (todo : List (M → M)), p.workers[i]? = some (.busy k todo) →
    P.view k (runAll todo p.mem) = P.view k (runAll (J.prog k) m0)
  unique : ∀ (i j k : Nat) (t u : List (M → M)), p.workers[i]? = some (.busy k t) →
    p.workers[j]? = some (.busy k u) → i = j
  complete : ∀ k, k < p.next → (∀ (i : Nat) (todo : List (M → M)), p.workers[i]? ≠ some (.busy k todo)) →
    P.view k p.mem = P.view k (runAll (J.prog k) m0) ∧
      (J.outcome (P.view k (runAll (J.prog k) m0)) = none ∨ ∃ (i : Nat) (e : Err), p.workers[i]? = some (.failed k e))
  failed : ∀ (i k : Nat) (e : Err), p.workers[i]? = some (.failed k e) →
    k < p.next ∧ J.outcome (P.view k (runAll (J.prog k) m0)) = some e
  finished : ∀ i : Nat, p.workers[i]? = some .finished → p.next = J.n

theorem set_get {α : Type} (l : List α) (i j : Nat) (a b : α) (hi : (l[i]?).isSome)
    (h : (l.set i a)[j]? = some b) : (j = i ∧ b = a) ∨ (j ≠ i ∧ l[j]? = some b) := by
  rw [List.getElem?_set] at h
  by_cases hj : i = j
  · rw [if_pos hj] at h
    left
    split at h
    · simp at h; exact ⟨hj.symm, h.symm⟩
    · simp at h
  · rw [if_neg hj] at h; exact Or.inr ⟨fun e => hj e.symm, h⟩

theorem set_self {α : Type} (l : List α) (i : Nat) (a b : α) (hi : l[i]? = some b) : (l.set i a)[i]? = some a := by
  obtain ⟨h, _⟩ := List.getElem?_eq_some_iff.mp hi
  simp [h]

theorem set_other {α : Type} (l : List α) (i j : Nat) (a : α) (h : j ≠ i) : (l.set i a)[j]? = l[j]? := by
  rw [List.getElem?_set, if_neg (fun e => h e.symm)]

theorem Pool.inv_start (J : Job M V W P) (nthreads : Nat) (m : M) : Pool.Inv J m (Pool.start nthreads m) := by
  have hw : ∀ (i : Nat) (w : Worker M), (Pool.start nthreads m).workers[i]? = some w → w = .idle := by
    intro i w h
    simp only [Pool.start, List.getElem?_replicate] at h
    split at h <;> simp at h
    exact h.symm
  refine ⟨Nat.zero_le _, rfl, rfl, fun _ _ => rfl, ?_, ?_, ?_, ?_, ?_, ?_⟩
  · intro i k todo h; have := hw _ _ h; simp at this
  · intro i k todo h; have := hw _ _ h; simp at this
  · intro i j k t u h; have := hw _ _ h; simp at this
  · intro k hk; simp [Pool.start] at hk
  · intro i k e h; have := hw _ _ h; simp at this
  · intro i h; have := hw _ _ h; simp at this

theorem Pool.inv_step (J : Job M V W P) (m0 : M) {p q : Pool M} (h : Pool.Inv J m0 p) (hs : Pool.Step J p q) :
    Pool.Inv J m0 q := by
  cases hs with
  | take i hi hn =>
    have hsome : (p.workers[i]?).isSome := by rw [hi]; rfl
    refine ⟨by simp only; omega, by simp only [h.taken, List.range_succ], h.rest, ?_, ?_, ?_, ?_, ?_, ?_, ?_⟩
    · intro k hk; exact h.fresh k (by simp only at hk; omega)
    · intro j k todo hj
      rcases set_get _ _ _ _ _ hsome hj with ⟨_, e⟩ | ⟨_, e⟩
      · simp only [Worker.busy.injEq] at e
        obtain ⟨rfl, rfl⟩ := e
        exact ⟨by simp only; omega, List.suffix_refl _⟩
      · have := h.busyLt j k todo e; exact ⟨by simp only; omega, this.2⟩
    · intro j k todo hj
      rcases set_get _ _ _ _ _ hsome hj with ⟨_, e⟩ | ⟨_, e⟩
      · simp only [Worker.busy.injEq] at e
        obtain ⟨rfl, rfl⟩ := e
        exact runAll_congr _ (J.isLocal _ hn) _ _ (h.fresh _ (Nat.le_refl _))
      · exact h.busy j k todo e
    · intro a b k t u ha hb
      rcases set_get _ _ _ _ _ hsome ha with ⟨ea, e⟩ | ⟨na, e⟩ <;>
        rcases set_get _ _ _ _ _ hsome hb with ⟨eb, e'⟩ | ⟨nb, e'⟩
      · rw [ea, eb]
      · simp only [Worker.busy.injEq] at e
        have := (h.busyLt b k u e').1
        omega
      · simp only [Worker.busy.injEq] at e'
        have := (h.busyLt a k t e).1
        omega
      · exact h.unique a b k t u e e'
    · intro k hk hnb
      by_cases hkn : k = p.next
      · subst hkn
        exact absurd (set_self _ _ _ _ hi) (hnb i _)
      · have hk' : k < p.next := by simp only at hk; omega
        obtain ⟨c1, c2⟩ := h.complete k hk' (by
          intro j todo hj
          by_cases hji : j = i
          · subst hji; rw [hi] at hj; simp at hj
          · exact hnb j todo (by simp only [set_other _ _ _ _ hji]; exact hj))
        refine ⟨c1, c2.imp id ?_⟩
        rintro ⟨j, e, hj⟩
        refine ⟨j, e, ?_⟩
        by_cases hji : j = i
        · subst hji; rw [hi] at hj; simp at hj
        · simp only [set_other _ _ _ _ hji]; exact hj
    · intro j k e hj
      rcases set_get _ _ _ _ _ hsome hj with ⟨_, e'⟩ | ⟨_, e'⟩
      · simp at e'
      · have := h.failed j k e e'; exact ⟨by simp only; omega, this.2⟩
    · intro j hj
      rcases set_get _ _ _ _ _ hsome hj with ⟨_, e'⟩ | ⟨_, e'⟩
      · simp at e'
      · have := h.finished j e'; omega
  | stop i hi hn =>
    have hsome : (p.workers[i]?).isSome := by rw [hi]; rfl
    have hne : ∀ j, j ≠ i → (p.workers.set i Worker.finished)[j]? = p.workers[j]? := fun j hj => set_other _ _ _ _ hj
    refine ⟨h.next, h.taken, h.rest, h.fresh, ?_, ?_, ?_, ?_, ?_, ?_⟩
    · intro j k todo hj
      rcases set_get _ _ _ _ _ hsome hj with ⟨_, e⟩ | ⟨_, e⟩
      · simp at e
      · exact h.busyLt j k todo e
    · intro j k todo hj
      rcases set_get _ _ _ _ _ hsome hj with ⟨_, e⟩ | ⟨_, e⟩
      · simp at e
      · exact h.busy j k todo e
    · intro a b k t u ha hb
      rcases set_get _ _ _ _ _ hsome ha with ⟨ea, e⟩ | ⟨na, e⟩
      · simp at e
      · rcases set_get _ _ _ _ _ hsome hb with ⟨eb, e'⟩ | ⟨nb, e'⟩
        · simp at e'
        · exact h.unique a b k t u e e'
    · intro k hk hnb
      obtain ⟨c1, c2⟩ := h.complete k hk (by
        intro j todo hj
        by_cases hji : j = i
        · subst hji; rw [hi] at hj; simp at hj
        · exact hnb j todo (by simp only [hne j hji]; exact hj))
      refine ⟨c1, c2.imp id ?_⟩
      rintro ⟨j, e, hj⟩
      refine ⟨j, e, ?_⟩
      by_cases hji : j = i
      · subst hji; rw [hi] at hj; simp at hj
      · simp only [hne j hji]; exact hj
    · intro j k e hj
      rcases set_get _ _ _ _ _ hsome hj with ⟨_, e'⟩ | ⟨_, e'⟩
      · simp at e'
      · exact h.failed j k e e'
    · intro j hj
      have := h.next
      simp only; omega
  | work i k s r hi =>
    have hsome : (p.workers[i]?).isSome := by rw [hi]; rfl
    obtain ⟨hk, hsuf⟩ := h.busyLt i k _ hi
    have hkn : k < J.n := by have := h.next; omega
    have hloc : Local P k s := J.isLocal k hkn s (hsuf.subset (by simp))
    have hview : ∀ j, j ≠ k → P.view j (s p.mem) = P.view j p.mem := fun j hj => hloc.other _ j hj
    have hne : ∀ j, j ≠ i → (p.workers.set i (Worker.busy k r))[j]? = p.workers[j]? := fun j hj => set_other _ _ _ _ hj
    refine ⟨h.next, h.taken, (hloc.rest _).trans h.rest, ?_, ?_, ?_, ?_, ?_, ?_, ?_⟩
    · intro j hj
      simp only at hj ⊢
      rw [hview j (by omega)]; exact h.fresh j hj
    · intro j k' todo hj
      rcases set_get _ _ _ _ _ hsome hj with ⟨_, e⟩ | ⟨_, e⟩
      · simp only [Worker.busy.injEq] at e
        obtain ⟨rfl, rfl⟩ := e
        exact ⟨hk, (List.suffix_cons s todo).trans hsuf⟩
      · exact h.busyLt j k' todo e
    · intro j k' todo hj
      rcases set_get _ _ _ _ _ hsome hj with ⟨_, e⟩ | ⟨nj, e⟩
      · simp only [Worker.busy.injEq] at e
        obtain ⟨rfl, rfl⟩ := e
        exact h.busy i _ _ hi
      · have hkk : k' ≠ k := by
          intro hc; subst hc
          exact nj (h.unique j i _ _ _ e hi)
        have hlt := (h.busyLt j k' todo e)
        have hl' : ∀ t ∈ todo, Local P k' t := fun t ht => J.isLocal k' (by have := h.next; omega) t (hlt.2.subset ht)
        have := runAll_congr todo hl' (s p.mem) p.mem (hview k' hkk)
        simp only at this ⊢
        rw [this]; exact h.busy j k' todo e
    · intro a b k' t u ha hb
      have conv : ∀ (a : Nat) (t : List (M → M)), (p.workers.set i (Worker.busy k r))[a]? = some (.busy k' t) →
          ∃ t', p.workers[a]? = some (.busy k' t') := by
        intro a t ha
        rcases set_get _ _ _ _ _ hsome ha with ⟨ea, e⟩ | ⟨na, e⟩
        · simp only [Worker.busy.injEq] at e
          exact ⟨s :: r, by rw [ea, e.1]; exact hi⟩
        · exact ⟨t, e⟩
      obtain ⟨t', ht'⟩ := conv a t ha
      obtain ⟨u', hu'⟩ := conv b u hb
      exact h.unique a b k' t' u' ht' hu'
    · intro k' hk' hnb
      have hkk : k' ≠ k := by
        intro hc; subst hc
        exact hnb i r (set_self _ _ _ _ hi)
      obtain ⟨c1, c2⟩ := h.complete k' hk' (by
        intro j todo hj
        by_cases hji : j = i
        · subst hji; rw [hi] at hj; simp only [Option.some.injEq, Worker.busy.injEq] at hj; exact hkk hj.1.symm
        · exact hnb j todo (by simp only [hne j hji]; exact hj))
      refine ⟨(hview k' hkk).trans c1, c2.imp id ?_⟩
      rintro ⟨j, e, hj⟩
      refine ⟨j, e, ?_⟩
      by_cases hji : j = i
      · subst hji; rw [hi] at hj; simp at hj
      · simp only [hne j hji]; exact hj
    · intro j k' e hj
      rcases set_get _ _ _ _ _ hsome hj with ⟨_, e'⟩ | ⟨_, e'⟩
      · simp at e'
      · exact h.failed j k' e e'
    · intro j hj
      rcases set_get _ _ _ _ _ hsome hj with ⟨_, e'⟩ | ⟨_, e'⟩
      · simp at e'
      · exact h.finished j e'
  | done i k hi hout =>
    have hsome : (p.workers[i]?).isSome := by rw [hi]; rfl
    have hne : ∀ j, j ≠ i → (p.workers.set i Worker.idle)[j]? = p.workers[j]? := fun j hj => set_other _ _ _ _ hj
    have hb := h.busy i k [] hi
    simp only [runAll, List.foldl_nil] at hb
    refine ⟨h.next, h.taken, h.rest, h.fresh, ?_, ?_, ?_, ?_, ?_, ?_⟩
    · intro j k todo hj
      rcases set_get _ _ _ _ _ hsome hj with ⟨_, e⟩ | ⟨_, e⟩
      · simp at e
      · exact h.busyLt j k todo e
    · intro j k todo hj
      rcases set_get _ _ _ _ _ hsome hj with ⟨_, e⟩ | ⟨_, e⟩
      · simp at e
      · exact h.busy j k todo e
    · intro a b k t u ha hb
      rcases set_get _ _ _ _ _ hsome ha with ⟨ea, e⟩ | ⟨na, e⟩
      · simp at e
      · rcases set_get _ _ _ _ _ hsome hb with ⟨eb, e'⟩ | ⟨nb, e'⟩
        · simp at e'
        · exact h.unique a b k t u e e'
    · intro k' hk hnb
      by_cases hkk : k' = k
      · subst hkk
        refine ⟨hb, Or.inl ?_⟩
        have : P.view k' p.mem = P.view k' (runAll (J.prog k') m0) := hb
        rw [← this]; exact hout
      · obtain ⟨c1, c2⟩ := h.complete k' hk (by
          intro j todo hj
          by_cases hji : j = i
          · subst hji; rw [hi] at hj; simp only [Option.some.injEq, Worker.busy.injEq] at hj; exact hkk hj.1.symm
          · exact hnb j todo (by simp only [hne j hji]; exact hj))
        refine ⟨c1, c2.imp id ?_⟩
        rintro ⟨j, e, hj⟩
        refine ⟨j, e, ?_⟩
        by_cases hji : j = i
        · subst hji; rw [hi] at hj; simp at hj
        · simp only [hne j hji]; exact hj
    · intro j k e hj
      rcases set_get _ _ _ _ _ hsome hj with ⟨_, e'⟩ | ⟨_, e'⟩
      · simp at e'
      · exact h.failed j k e e'
    · intro j hj
      rcases set_get _ _ _ _ _ hsome hj with ⟨_, e'⟩ | ⟨_, e'⟩
      · simp at e'
      · exact h.finished j e'
  | fail i k e0 hi hout =>
    have hsome : (p.workers[i]?).isSome := by rw [hi]; rfl
    have hne : ∀ j, j ≠ i → (p.workers.set i (Worker.failed k e0))[j]? = p.workers[j]? := fun j hj => set_other _ _ _ _ hj
    have hb : P.view k p.mem = P.view k (runAll (J.prog k) m0) := by
      have := h.busy i k [] hi
      simpa only [runAll, List.foldl_nil] using this
    have hlt := (h.busyLt i k _ hi).1
    refine ⟨h.next, h.taken, h.rest, h.fresh, ?_, ?_, ?_, ?_, ?_, ?_⟩
    · intro j k todo hj
      rcases set_get _ _ _ _ _ hsome hj with ⟨_, e⟩ | ⟨_, e⟩
      · simp at e
      · exact h.busyLt j k todo e
    · intro j k todo hj
      rcases set_get _ _ _ _ _ hsome hj with ⟨_, e⟩ | ⟨_, e⟩
      · simp at e
      · exact h.busy j k todo e
    · intro a b k t u ha hb
      rcases set_get _ _ _ _ _ hsome ha with ⟨ea, e⟩ | ⟨na, e⟩
      · simp at e
      · rcases set_get _ _ _ _ _ hsome hb with ⟨eb, e'⟩ | ⟨nb, e'⟩
        · simp at e'
        · exact h.unique a b k t u e e'
    · intro k' hk hnb
      by_cases hkk : k' = k
      · subst hkk
        exact ⟨hb, Or.inr ⟨i, e0, set_self _ _ _ _ hi⟩⟩
      · obtain ⟨c1, c2⟩ := h.complete k' hk (by
          intro j todo hj
          by_cases hji : j = i
          · subst hji; rw [hi] at hj; simp only [Option.some.injEq, Worker.busy.injEq] at hj; exact hkk hj.1.symm
          · exact hnb j todo (by simp only [hne j hji]; exact hj))
        refine ⟨c1, c2.imp id ?_⟩
        rintro ⟨j, e, hj⟩
        refine ⟨j, e, ?_⟩
        by_cases hji : j = i
        · subst hji; rw [hi] at hj; simp at hj
        · simp only [hne j hji]; exact hj
    · intro j k' e hj
      rcases set_get _ _ _ _ _ hsome hj with ⟨_, e'⟩ | ⟨_, e'⟩
      · simp only [Worker.failed.injEq] at e'
        obtain ⟨rfl, rfl⟩ := e'
        exact ⟨hlt, by rw [← hb]; exact hout⟩
      · exact h.failed j k' e e'
    · intro j hj
      rcases set_get _ _ _ _ _ hsome hj with ⟨_, e'⟩ | ⟨_, e'⟩
      · simp at e'
      · exact h.finished j e'

theorem Pool.inv_reach (J : Job M V W P) (m0 : M) {p q : Pool M} (h : Pool.Inv J m0 p) (hr : Pool.Reach J p q) :
    Pool.Inv J m0 q := by
  induction hr with
  | refl => exact h
  | step _ hs ih => exact Pool.inv_step J m0 ih hs

theorem Pool.workers_length (J : Job M V W P) {p q : Pool M} (hr : Pool.Reach J p q) :
    q.workers.length = p.workers.length := by
  induction hr with
  | refl => rfl
  | step _ hs ih => cases hs <;> simpa using ih

/-- **All interleavings agree**: when all threads have ended, either some thread holds an exception, that
of a task which also fails when run alone, or memory is that of running the tasks one after the other,
and every task was taken exactly once. -/
theorem Pool.result (J : Job M V W P) (m0 : M) (nthreads : Nat) (hn : 0 < nthreads) (q : Pool M)
    (hr : Pool.Reach J (Pool.start nthreads m0) q) (hq : q.Over) :
    (∃ w ∈ q.workers, ∃ k e, w = .failed k e ∧ k < J.n ∧ J.outcome (P.view k (seqMem J J.n m0)) = some e) ∨
    ((∀ w ∈ q.workers, w = .finished) ∧ q.mem = seqMem J J.n m0 ∧ q.taken = List.range J.n ∧
      ∀ k, k < J.n → J.outcome (P.view k (seqMem J J.n m0)) = none) := by
  have hi := Pool.inv_reach J m0 (Pool.inv_start J nthreads m0) hr
  have hlen := Pool.workers_length J hr
  obtain ⟨s1, s2, s3⟩ := seqMem_view J m0 J.n (Nat.le_refl _)
  by_cases hf : ∃ w ∈ q.workers, ∃ k e, w = .failed k e
  · left
    obtain ⟨w, hw, k, e, rfl⟩ := hf
    obtain ⟨i, hi'⟩ := List.mem_iff_getElem?.mp hw
    obtain ⟨h1, h2⟩ := hi.failed i k e hi'
    have hk : k < J.n := by have := hi.next; omega
    exact ⟨_, hw, k, e, rfl, hk, by rw [s1 k hk]; exact h2⟩
  · right
    have hfin : ∀ w ∈ q.workers, w = .finished := by
      intro w hw
      rcases hq w hw with h | h
      · exact h
      · exact absurd ⟨w, hw, h⟩ hf
    have hnext : q.next = J.n := by
      have h0 : 0 < q.workers.length := by rw [hlen]; simpa [Pool.start] using hn
      exact hi.finished 0 (by rw [List.getElem?_eq_getElem h0, hfin _ (List.getElem_mem h0)])
    have hnb : ∀ k, ∀ (i : Nat) (todo : List (M → M)), q.workers[i]? ≠ some (.busy k todo) := by
      intro k i todo h
      have := hfin _ (List.mem_of_getElem? h)
      simp at this
    have hcomp : ∀ k, k < J.n → P.view k q.mem = P.view k (runAll (J.prog k) m0) ∧
        J.outcome (P.view k (runAll (J.prog k) m0)) = none := by
      intro k hk
      obtain ⟨c1, c2⟩ := hi.complete k (by omega) (hnb k)
      refine ⟨c1, c2.resolve_right ?_⟩
      rintro ⟨i, e, h⟩
      have := hfin _ (List.mem_of_getElem? h)
      simp at this
    refine ⟨hfin, ?_, by rw [hi.taken, hnext], ?_⟩
    · apply P.ext
      · intro k
        by_cases hk : k < J.n
        · rw [(hcomp k hk).1, s1 k hk]
        · rw [hi.fresh k (by omega), s2 k (by omega)]
      · rw [hi.rest, s3]
    · intro k hk; rw [s1 k hk]; exact (hcomp k hk).2

/-- **No deadlock**: unless all threads have ended, some thread can take a step. -/
theorem Pool.progress (J : Job M V W P) (p : Pool M) (h : ¬ p.Over) : ∃ q, Pool.Step J p q := by
  have h' : ∃ w ∈ p.workers, ¬ (w = .finished ∨ ∃ k e, w = .failed k e) := by
    apply Classical.byContradiction
    intro hc
    apply h
    intro w hw
    apply Classical.byContradiction
    intro hw'
    exact hc ⟨w, hw, hw'⟩
  obtain ⟨w, hw, h12⟩ := h'
  have h1 : w ≠ .finished := fun hc => h12 (Or.inl hc)
  have h2 : ∀ k e, w ≠ .failed k e := fun k e hc => h12 (Or.inr ⟨k, e, hc⟩)
  obtain ⟨i, hi⟩ := List.mem_iff_getElem?.mp hw
  cases w with
  | idle =>
    by_cases hn : p.next < J.n
    · exact ⟨_, .take p i hi hn⟩
    · exact ⟨_, .stop p i hi hn⟩
  | busy k todo =>
    cases todo with
    | nil =>
      cases ho : J.outcome (P.view k p.mem) with
      | none => exact ⟨_, .done p i k hi ho⟩
      | some e => exact ⟨_, .fail p i k e hi ho⟩
    | cons s r => exact ⟨_, .work p i k s r hi⟩
  | finished => exact absurd rfl h1
  | failed k e => exact absurd rfl (h2 k e)

/-! ### Termination -/

/-- Work left to one thread. -/
def Worker.left : Worker M → Nat
  | .idle => 1
  | .busy _ todo => todo.length + 2
  | _ => 0

/-- Work left: tasks not taken, and what the threads are doing. -/
def Pool.left (J : Job M V W P) (p : Pool M) : Nat :=
  (((List.range J.n).drop p.next).map (fun k => (J.prog k).length + 2)).sum + (p.workers.map Worker.left).sum

theorem sum_set {α : Type} (f : α → Nat) (l : List α) (i : Nat) (a b : α) (h : l[i]? = some b) :
    ((l.set i a).map f).sum + f b = (l.map f).sum + f a := by
  induction l generalizing i with
  | nil => simp at h
  | cons x l ih =>
    cases i with
    | zero => simp at h; subst h; simp; omega
    | succ i => have := ih i (by simpa using h); simp only [List.set_cons_succ, List.map_cons, List.sum_cons]; omega

/-- **Termination**: every step reduces the work left, whatever the schedule. -/
theorem Pool.step_left (J : Job M V W P) {p q : Pool M} (h : Pool.Step J p q) : Pool.left J q < Pool.left J p := by
  cases h with
  | take i hi hn =>
    have h1 := sum_set Worker.left p.workers i (.busy p.next (J.prog p.next)) _ hi
    have h2 : (List.range J.n).drop p.next = p.next :: (List.range J.n).drop (p.next + 1) := by
      rw [List.drop_eq_getElem_cons (by simpa using hn)]; simp
    unfold Pool.left
    rw [h2]
    simp only [List.map_cons, List.sum_cons, Worker.left] at h1 ⊢
    omega
  | stop i hi hn =>
    have h1 := sum_set Worker.left p.workers i .finished _ hi
    unfold Pool.left
    simp only [Worker.left] at h1 ⊢
    omega
  | work i k s r hi =>
    have h1 := sum_set Worker.left p.workers i (.busy k r) _ hi
    unfold Pool.left
    simp only [Worker.left, List.length_cons] at h1 ⊢
    omega
  | done i k hi _ =>
    have h1 := sum_set Worker.left p.workers i .idle _ hi
    unfold Pool.left
    simp only [Worker.left, List.length_nil] at h1 ⊢
    omega
  | fail i k e hi _ =>
    have h1 := sum_set Worker.left p.workers i (.failed k e) _ hi
    unfold Pool.left
    simp only [Worker.left, List.length_nil] at h1 ⊢
    omega

end Verif
