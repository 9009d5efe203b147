import Verif.PropTile
import Verif.PropAny2
import Verif.SampleFile

/-
Several threads, each with its own iterator over one `TablesReader`.

Models: src/odc/core/TablesReader.cc l.21-50 (iterators), 58-76 (`operator*`), 98-125 (`ensureTable`, which holds a mutex),
128-134 (`getTable`, which does not).

A step is one action of one thread: taking the mutex, the part of `ensureTable` up to `emplace_back`, `emplace_back` together
with the release of the mutex, or the access to the vector in `getTable`.  `emplace_back` lasts from the first of these steps to
the second, so an access to the vector in between is a data race; it is recorded in the state.
-/

namespace Verif

/-- Where a thread is in `for (it = begin(); it != end(); ++it) { … *it … }`, core/TablesReader.cc l.21-50, 98-134: before
`ensureTable(pos)`, in it with the mutex held, inside `emplace_back`, before `getTable(pos)`, or at the end (`none`) or after an
exception. -/
inductive TPc
  | want (pos : Nat)
  | inside (pos : Nat)
  | pushing (pos : Nat) (ts : List Tbl)
  | ready (pos : Nat)
  | ended (fin : Option Err)

/-- A thread and the tables it has been given so far. [core/TablesReader.cc l.58-76] -/
structure TThread where
  pc : TPc
  seen : List Tbl

/-- The reader (`tables_`, the holder of `m_`), the threads, the number of tables parsed, and whether a data race has occurred.
[core/TablesReader.h, core/TablesReader.cc l.98-134] -/
structure TabSys where
  tables : List Tbl
  lock : Option Nat
  threads : List TThread
  parsed : Nat
  raced : Bool

/-- Is the thread inside `emplace_back`? [core/TablesReader.cc l.121] -/
def TThread.isPushing (t : TThread) : Bool :=
  match t.pc with
  | .pushing _ _ => true
  | _ => false

/-- Before the first step: `n` threads about to call `begin()`, core/TablesReader.cc l.21-29, 90-92. -/
def TabSys.start (n : Nat) : TabSys := ⟨[], none, List.replicate n ⟨.want 0, []⟩, 0, false⟩

/-- One step of thread `j`; a thread that waits for the mutex stays where it is.  core/TablesReader.cc l.40-49, 98-125, 128-134. -/
def TabSys.step (env : Env) (f : File) (s : TabSys) (j : Nat) : TabSys :=
  match s.threads[j]? with
  | none => s
  | some t =>
    match t.pc with
    | .want p =>
      if s.lock = none then { s with lock := some j, threads := s.threads.set j { t with pc := .inside p } } else s
    | .inside p =>
      match ensureTable env f s.tables p with
      | .error e => { s with lock := none, threads := s.threads.set j { t with pc := .ended (some e) } }
      | .ok (_, false) => { s with lock := none, threads := s.threads.set j { t with pc := .ended none } }
      | .ok (ts, true) =>
        if ts.length = s.tables.length then { s with lock := none, threads := s.threads.set j { t with pc := .ready p } }
        else { s with parsed := s.parsed + 1, threads := s.threads.set j { t with pc := .pushing p ts } }
    | .pushing p ts => { s with tables := ts, lock := none, threads := s.threads.set j { t with pc := .ready p } }
    | .ready p =>
      if s.threads.any TThread.isPushing then { s with raced := true }
      else
        match itGet s.tables p with
        | .error e => { s with threads := s.threads.set j { t with pc := .ended (some e) } }
        | .ok tb => { s with threads := s.threads.set j { pc := .want (p + 1), seen := t.seen ++ [tb] } }
    | .ended _ => s

/-- The steps of a schedule. [core/TablesReader.cc l.98-134] -/
def TabSys.run (env : Env) (f : File) (s : TabSys) (sched : List Nat) : TabSys := sched.foldl (fun s j => s.step env f j) s

/-! ### Invariant -/

/-- Proof device: what is known about a thread when `m` tables of `ts` are in the vector. -/
def TThread.Inv (ts : List Tbl) (fin : Option Err) (m : Nat) (lock : Option Nat) (j : Nat) (t : TThread) : Prop :=
  match t.pc with
  | .want p => t.seen = ts.take p ∧ p ≤ m ∧ lock ≠ some j
  | .inside p => t.seen = ts.take p ∧ p ≤ m ∧ lock = some j
  | .pushing p us => t.seen = ts.take p ∧ p = m ∧ m < ts.length ∧ us = ts.take (m + 1) ∧ lock = some j
  | .ready p => t.seen = ts.take p ∧ p < m ∧ lock ≠ some j
  | .ended r => t.seen = ts ∧ r = fin ∧ m = ts.length ∧ lock ≠ some j

/-- Proof device: the state reached without a race. -/
structure TabSys.Inv (ts : List Tbl) (fin : Option Err) (s : TabSys) : Prop where
  pre : ∃ m, m ≤ ts.length ∧ s.tables = ts.take m ∧ (∀ (j : Nat) (t : TThread), s.threads[j]? = some t → t.Inv ts fin m s.lock j) ∧
    s.parsed = m + (if s.threads.any TThread.isPushing then 1 else 0)
  held : ∀ j, s.lock = some j → j < s.threads.length

theorem TabSys.inv_start (ts : List Tbl) (fin : Option Err) (n : Nat) : (TabSys.start n).Inv ts fin := by
  refine ⟨⟨0, Nat.zero_le _, rfl, ?_, ?_⟩, ?_⟩
  · intro j t h
    obtain ⟨_, rfl⟩ := List.mem_replicate.mp (List.mem_iff_getElem?.mpr ⟨j, h⟩)
    exact ⟨by simp, Nat.le_refl _, by simp [TabSys.start]⟩
  · simp [TabSys.start, TThread.isPushing]
  · intro j h; simp [TabSys.start] at h

/-- Only the holder of the lock can be pushing. -/
theorem no_push {ts : List Tbl} {fin : Option Err} {m : Nat} {lock : Option Nat} {us : List TThread}
    (h : ∀ (j : Nat) (t : TThread), us[j]? = some t → t.Inv ts fin m lock j) (hn : ∀ (j : Nat) (t : TThread), us[j]? = some t → lock = some j → t.isPushing = false) :
    us.any TThread.isPushing = false := by
  rw [List.any_eq_false]
  intro t ht
  obtain ⟨j, hj⟩ := List.mem_iff_getElem?.mp ht
  have h1 := h j t hj
  have h2 := hn j t hj
  unfold TThread.Inv at h1
  unfold TThread.isPushing at h2 ⊢
  cases hp : t.pc with
  | pushing p xs => rw [hp] at h1 h2; exact absurd (h2 h1.2.2.2.2) (by simp)
  | _ => simp

theorem setAt_get {α : Type} {l : List α} {j i : Nat} {x y : α} (h : (l.set j x)[i]? = some y) :
    (i = j ∧ y = x) ∨ (i ≠ j ∧ l[i]? = some y) := by
  rw [List.getElem?_set] at h
  by_cases hij : j = i
  · rw [if_pos hij] at h
    split at h
    · exact Or.inl ⟨hij.symm, by simpa using h.symm⟩
    · simp at h
  · rw [if_neg hij] at h; exact Or.inr ⟨fun e => hij e.symm, h⟩

/-- Another thread's part is not disturbed when the vector grows or the lock changes hands. -/
theorem TThread.Inv.mono {ts : List Tbl} {fin : Option Err} {m m' : Nat} {lock lock' : Option Nat} {j : Nat} {t : TThread}
    (h : t.Inv ts fin m lock j) (hm : m ≤ m') (hl' : m' ≤ ts.length) (hfree : lock ≠ some j) (hfree' : lock' ≠ some j) :
    t.Inv ts fin m' lock' j := by
  unfold TThread.Inv at h ⊢
  cases hp : t.pc with
  | want p => rw [hp] at h; exact ⟨h.1, by have := h.2.1; omega, hfree'⟩
  | inside p => rw [hp] at h; exact absurd h.2.2 hfree
  | pushing p us => rw [hp] at h; exact absurd h.2.2.2.2 hfree
  | ready p => rw [hp] at h; exact ⟨h.1, by have := h.2.1; omega, hfree'⟩
  | ended r => rw [hp] at h; exact ⟨h.1, h.2.1, by have := h.2.2.1; omega, hfree'⟩

theorem any_set_push {us : List TThread} {j : Nat} {t : TThread} (hj : j < us.length) (h : t.isPushing = true) :
    (us.set j t).any TThread.isPushing = true := by
  rw [List.any_eq_true]
  exact ⟨t, List.mem_iff_getElem?.mpr ⟨j, by rw [List.getElem?_set_self hj]⟩, h⟩

/-- A step that is not a race keeps the invariant. -/
theorem TabSys.inv_step {env : Env} {f : File} {ts : List Tbl} {fin : Option Err} (h : Scan env f ts fin) (s : TabSys)
    (hi : s.Inv ts fin) (j : Nat) : (s.step env f j).Inv ts fin := by
  obtain ⟨⟨m, hm, ht, hth, hpar⟩, hheld⟩ := hi
  unfold TabSys.step
  cases hj : s.threads[j]? with
  | none => exact ⟨⟨m, hm, ht, hth, hpar⟩, hheld⟩
  | some t =>
    have hlt : j < s.threads.length := (List.getElem?_eq_some_iff.mp hj).1
    have htj := hth j t hj
    dsimp only
    unfold TThread.Inv at htj
    cases hpc : t.pc with
    | ended r => exact ⟨⟨m, hm, ht, hth, hpar⟩, hheld⟩
    | want p =>
      rw [hpc] at htj
      dsimp only
      by_cases hl : s.lock = none
      · rw [if_pos hl]
        have hnp : s.threads.any TThread.isPushing = false := no_push hth (fun i u hiu he => by rw [hl] at he; simp at he)
        have hall : ∀ (i : Nat) (u : TThread), (s.threads.set j { t with pc := .inside p })[i]? = some u → u.Inv ts fin m (some j) i := by
          intro i u hiu
          rcases setAt_get hiu with ⟨rfl, rfl⟩ | ⟨hne, hiu⟩
          · exact ⟨htj.1, htj.2.1, rfl⟩
          · exact (hth i u hiu).mono (Nat.le_refl _) hm (by rw [hl]; simp) (by simpa using fun e => hne e.symm)
        refine ⟨⟨m, hm, ht, hall, ?_⟩, ?_⟩
        · rw [hpar, hnp]
          have : (s.threads.set j { t with pc := .inside p }).any TThread.isPushing = false :=
            no_push hall (fun i u hiu he => by
              rcases setAt_get hiu with ⟨rfl, rfl⟩ | ⟨hne, hiu⟩
              · rfl
              · exact absurd (Option.some.inj he).symm hne)
          show m + _ = m + (if (s.threads.set j { t with pc := .inside p }).any TThread.isPushing = true then 1 else 0)
          rw [this]
        · intro i he
          rw [← Option.some.inj he]; simpa using hlt
      · rw [if_neg hl]; exact ⟨⟨m, hm, ht, hth, hpar⟩, hheld⟩
    | inside p =>
      rw [hpc] at htj
      dsimp only
      obtain ⟨hseen, hp, hlock⟩ := htj
      have hnp : s.threads.any TThread.isPushing = false := no_push hth (fun i u hiu he => by
        rw [hlock] at he
        have : j = i := Option.some.inj he
        subst this
        rw [hj] at hiu
        have : t = u := Option.some.inj hiu
        subst this
        simp [TThread.isPushing, hpc])
      have hothers : ∀ (i : Nat) (u : TThread), i ≠ j → s.threads[i]? = some u → u.Inv ts fin m none i := fun i u hne hiu =>
        (hth i u hiu).mono (Nat.le_refl _) hm (by rw [hlock]; simpa using fun e => hne e.symm) (by simp)
      -- the thread leaves the critical section
      have leave : ∀ pc : TPc, TThread.Inv ts fin m none j { t with pc := pc } →
          ({ s with lock := none, threads := s.threads.set j { t with pc := pc } } : TabSys).Inv ts fin := by
        intro pc hpc'
        have hall : ∀ (i : Nat) (u : TThread), (s.threads.set j { t with pc := pc })[i]? = some u → u.Inv ts fin m none i := by
          intro i u hiu
          rcases setAt_get hiu with ⟨rfl, rfl⟩ | ⟨hne, hiu⟩
          · exact hpc'
          · exact hothers i u hne hiu
        refine ⟨⟨m, hm, ht, hall, ?_⟩, by intro i he; simp at he⟩
        show s.parsed = m + (if (s.threads.set j { t with pc := pc }).any TThread.isPushing = true then 1 else 0)
        rw [hpar, hnp, no_push hall (fun i u _ he => by simp at he)]
      rw [ht, ensure_scan h m hm p hp]
      by_cases hpl : p < ts.length
      · rw [if_pos hpl]
        dsimp only
        by_cases hpm : p < m
        · rw [if_pos (by simp; omega)]
          exact (by simpa [ht] using leave (.ready p) ⟨hseen, hpm, by simp⟩)
        · have hpm' : p = m := by omega
          subst hpm'
          rw [if_neg (by simp; omega), show max p (p + 1) = p + 1 by omega]
          have hall : ∀ (i : Nat) (u : TThread), (s.threads.set j { t with pc := .pushing p (ts.take (p + 1)) })[i]? = some u → u.Inv ts fin p s.lock i := by
            intro i u hiu
            rcases setAt_get hiu with ⟨rfl, rfl⟩ | ⟨hne, hiu⟩
            · exact ⟨hseen, rfl, hpl, rfl, hlock⟩
            · exact hth i u hiu
          refine ⟨⟨p, hm, by first | exact ht | rfl, hall, ?_⟩, ?_⟩
          · show s.parsed + 1 = p + (if (s.threads.set j { t with pc := .pushing p (ts.take (p + 1)) }).any TThread.isPushing = true then 1 else 0)
            rw [hpar, hnp, any_set_push hlt rfl]; rfl
          · intro i he; simpa using hheld i he
      · rw [if_neg hpl]
        have hpe : p = ts.length := by omega
        have hme : m = ts.length := by omega
        have hse : t.seen = ts := by rw [hseen, hpe, List.take_length]
        cases fin with
        | none => exact (by simpa [ht] using leave (.ended none) ⟨hse, rfl, hme, by simp⟩)
        | some e => exact (by simpa [ht] using leave (.ended (some e)) ⟨hse, rfl, hme, by simp⟩)
    | pushing p us =>
      rw [hpc] at htj
      dsimp only
      obtain ⟨hseen, hp, hlt', hus, hlock⟩ := htj
      have hall : ∀ (i : Nat) (u : TThread), (s.threads.set j { t with pc := .ready p })[i]? = some u → u.Inv ts fin (m + 1) none i := by
        intro i u hiu
        rcases setAt_get hiu with ⟨rfl, rfl⟩ | ⟨hne, hiu⟩
        · exact ⟨hseen, by omega, by simp⟩
        · exact (hth i u hiu).mono (by omega) (by omega) (by rw [hlock]; simpa using fun e => hne e.symm) (by simp)
      refine ⟨⟨m + 1, by omega, hus, hall, ?_⟩, by intro i he; simp at he⟩
      show s.parsed = m + 1 + (if (s.threads.set j { t with pc := .ready p }).any TThread.isPushing = true then 1 else 0)
      rw [no_push hall (fun i u _ he => by simp at he), hpar]
      have : s.threads.any TThread.isPushing = true :=
        List.any_eq_true.mpr ⟨t, List.mem_iff_getElem?.mpr ⟨j, hj⟩, by simp [TThread.isPushing, hpc]⟩
      rw [this]; rfl
    | ready p =>
      rw [hpc] at htj
      dsimp only
      obtain ⟨hseen, hp, hlock⟩ := htj
      by_cases hany : s.threads.any TThread.isPushing = true
      · rw [if_pos hany]; exact ⟨⟨m, hm, ht, hth, hpar⟩, hheld⟩
      · rw [if_neg hany]
        obtain ⟨tb, htb⟩ : ∃ tb, ts[p]? = some tb := by
          rw [← Option.isSome_iff_exists]; simp; omega
        have hget : itGet s.tables p = .ok tb := by
          unfold itGet
          rw [if_neg (by omega), Int.toNat_natCast, ht, List.getElem?_take, if_pos hp, htb]
        rw [hget]
        dsimp only
        have hall : ∀ (i : Nat) (u : TThread), (s.threads.set j { pc := .want (p + 1), seen := t.seen ++ [tb] })[i]? = some u → u.Inv ts fin m s.lock i := by
          intro i u hiu
          rcases setAt_get hiu with ⟨rfl, rfl⟩ | ⟨hne, hiu⟩
          · refine ⟨?_, by omega, hlock⟩
            show t.seen ++ [tb] = ts.take (p + 1)
            rw [hseen, List.take_add_one, htb]; rfl
          · exact hth i u hiu
        refine ⟨⟨m, hm, ht, hall, ?_⟩, by intro i he; simpa using hheld i he⟩
        show s.parsed = m + (if (s.threads.set j { pc := .want (p + 1), seen := t.seen ++ [tb] }).any TThread.isPushing = true then 1 else 0)
        have h0 : s.threads.any TThread.isPushing = false := by simpa using hany
        have h1 : (s.threads.set j { pc := .want (p + 1), seen := t.seen ++ [tb] }).any TThread.isPushing = false := by
          rw [List.any_eq_false] at h0 ⊢
          intro u hu
          rcases List.mem_or_eq_of_mem_set hu with h | rfl
          · exact h0 u h
          · simp [TThread.isPushing]
        rw [hpar, h0, h1]

theorem TabSys.inv_run {env : Env} {f : File} {ts : List Tbl} {fin : Option Err} (h : Scan env f ts fin) (sched : List Nat) (s : TabSys)
    (hi : s.Inv ts fin) : (s.run env f sched).Inv ts fin := by
  induction sched generalizing s with
  | nil => exact hi
  | cons j js ih => exact ih _ (TabSys.inv_step h s hi j)

/-! ### Ending -/

/-- Proof device: steps a thread has to make at most. -/
def TThread.left (L : Nat) (t : TThread) : Nat :=
  match t.pc with
  | .want p => 4 * (L + 1 - p) + 4
  | .inside p => 4 * (L + 1 - p) + 3
  | .pushing p _ => 4 * (L + 1 - p) + 2
  | .ready p => 4 * (L + 1 - p) + 1
  | .ended _ => 0

/-- Proof device: steps the threads have to make at most. -/
def TabSys.left (L : Nat) (s : TabSys) : Nat := (s.threads.map (TThread.left L)).sum

theorem sum_set_lt {α : Type} (g : α → Nat) (l : List α) (j : Nat) (x y : α) (h : l[j]? = some x) (hlt : g y < g x) :
    ((l.set j y).map g).sum < (l.map g).sum := by
  induction l generalizing j with
  | nil => simp at h
  | cons a l ih =>
    cases j with
    | zero =>
      simp only [List.getElem?_cons_zero, Option.some.injEq] at h
      subst h
      simp only [List.set_cons_zero, List.map_cons, List.sum_cons]; omega
    | succ j =>
      simp only [List.getElem?_cons_succ] at h
      have := ih j h
      simp only [List.set_cons_succ, List.map_cons, List.sum_cons]; omega

theorem left_le {L : Nat} {us : List TThread} {t : TThread} (h : t ∈ us) : t.left L ≤ (us.map (TThread.left L)).sum := by
  induction us with
  | nil => simp at h
  | cons u us ih =>
    simp only [List.map_cons, List.sum_cons]
    rcases List.mem_cons.mp h with rfl | h
    · omega
    · have := ih h; omega

theorem scan_same {env : Env} {f : File} {a b : List Tbl} {x y : Option Err} {pos : Int}
    (ha : Chain env f pos a ∧ readTable env f (endPos pos a) = (match x with | none => .ok none | some e => .error e))
    (hb : Chain env f pos b ∧ readTable env f (endPos pos b) = (match y with | none => .ok none | some e => .error e)) : a = b ∧ x = y := by
  induction a generalizing pos b with
  | nil =>
    cases b with
    | nil =>
      have h1 := ha.2
      rw [hb.2] at h1
      cases x <;> cases y <;> simp at h1 ⊢
      exact h1.symm
    | cons t b =>
      have h1 := ha.2
      have h2 := hb.1.1
      simp only [endPos, List.getLast?_nil] at h1
      rw [h1] at h2
      cases x <;> simp at h2
  | cons s a ih =>
    cases b with
    | nil =>
      have h1 := hb.2
      have h2 := ha.1.1
      simp only [endPos, List.getLast?_nil] at h1
      rw [h1] at h2
      cases y <;> simp at h2
    | cons t b =>
      have h1 := ha.1.1
      have h2 := hb.1.1
      rw [h1] at h2
      simp only [Except.ok.injEq, Option.some.injEq] at h2
      subst h2
      obtain ⟨e1, e2⟩ := ih (pos := s.next) (b := b) ⟨ha.1.2, by rw [← endPos_cons pos s a]; exact ha.2⟩
        ⟨hb.1.2, by rw [← endPos_cons pos s b]; exact hb.2⟩
      exact ⟨by rw [e1], e2⟩

/-- A step of a thread that has not ended and need not wait takes it forward; it is a race only in `getTable`. -/
theorem TabSys.step_left {env : Env} {f : File} {ts : List Tbl} {fin : Option Err} (h : Scan env f ts fin) (s : TabSys)
    (hi : s.Inv ts fin) (j : Nat) (t : TThread) (hj : s.threads[j]? = some t) (hne : ∀ r, t.pc ≠ .ended r)
    (hgo : s.lock = none ∨ s.lock = some j) (hr : s.raced = false) :
    (s.step env f j).left ts.length < s.left ts.length ∧ (s.step env f j).raced = false := by
  obtain ⟨⟨m, hm, ht, hth, hpar⟩, hheld⟩ := hi
  have htj := hth j t hj
  unfold TThread.Inv at htj
  unfold TabSys.step TabSys.left
  rw [hj]
  dsimp only
  cases hpc : t.pc with
  | ended r => exact absurd hpc (hne r)
  | want p =>
    rw [hpc] at htj
    dsimp only
    rw [if_pos (hgo.resolve_right htj.2.2)]
    exact ⟨sum_set_lt _ _ _ t _ hj (by simp [TThread.left, hpc]), hr⟩
  | inside p =>
    rw [hpc] at htj
    dsimp only
    obtain ⟨hseen, hp, hlock⟩ := htj
    rw [ht, ensure_scan h m hm p hp]
    by_cases hpl : p < ts.length
    · rw [if_pos hpl]
      dsimp only
      split
      · exact ⟨sum_set_lt _ _ _ t _ hj (by simp [TThread.left, hpc]), hr⟩
      · exact ⟨sum_set_lt _ _ _ t _ hj (by simp [TThread.left, hpc]), hr⟩
    · rw [if_neg hpl]
      cases fin with
      | none => exact ⟨sum_set_lt _ _ _ t _ hj (by simp [TThread.left, hpc]), hr⟩
      | some e => exact ⟨sum_set_lt _ _ _ t _ hj (by simp [TThread.left, hpc]), hr⟩
  | pushing p us =>
    rw [hpc] at htj
    exact ⟨sum_set_lt _ _ _ t _ hj (by simp [TThread.left, hpc]), hr⟩
  | ready p =>
    rw [hpc] at htj
    dsimp only
    obtain ⟨hseen, hp, hlock⟩ := htj
    have hnp : s.threads.any TThread.isPushing = false := no_push hth (fun i u _ he => by
      rcases hgo with h | h
      · rw [h] at he; simp at he
      · exact absurd h hlock)
    rw [hnp, if_neg (by simp)]
    split
    · exact ⟨sum_set_lt _ _ _ t _ hj (by simp [TThread.left, hpc]), hr⟩
    · exact ⟨sum_set_lt _ _ _ t _ hj (by simp [TThread.left, hpc]; omega), hr⟩

/-- From every state reached without a race the threads can all come to their end without one: nobody waits for ever. -/
theorem TabSys.can_end {env : Env} {f : File} {ts : List Tbl} {fin : Option Err} (h : Scan env f ts fin) (k : Nat) (s : TabSys)
    (hk : s.left ts.length ≤ k) (hi : s.Inv ts fin) (hr : s.raced = false) :
    ∃ sched, (∀ t ∈ (s.run env f sched).threads, ∃ r, t.pc = .ended r) ∧ (s.run env f sched).raced = false := by
  induction k generalizing s with
  | zero =>
    refine ⟨[], fun t ht => ?_, hr⟩
    have : t.left ts.length = 0 := by
      have := left_le (L := ts.length) (show t ∈ s.threads from ht)
      unfold TabSys.left at hk; omega
    unfold TThread.left at this
    cases hp : t.pc with
    | ended r => exact ⟨r, rfl⟩
    | _ => rw [hp] at this; dsimp only at this; omega
  | succ k ih =>
    -- a thread that can go on
    by_cases hall : ∀ t ∈ s.threads, ∃ r, t.pc = .ended r
    · exact ⟨[], hall, hr⟩
    · have hgo : ∃ j t, s.threads[j]? = some t ∧ (∀ r, t.pc ≠ .ended r) ∧ (s.lock = none ∨ s.lock = some j) := by
        cases hl : s.lock with
        | some j =>
          have hlt := hi.held j hl
          obtain ⟨t, ht⟩ : ∃ t, s.threads[j]? = some t := ⟨_, List.getElem?_eq_getElem hlt⟩
          refine ⟨j, t, ht, ?_, Or.inr rfl⟩
          intro r hp
          obtain ⟨m, _, _, hth, _⟩ := hi.pre
          have := hth j t ht
          unfold TThread.Inv at this
          rw [hp] at this
          exact this.2.2.2 hl
        | none =>
          push_neg at hall
          obtain ⟨t, ht, hne⟩ := hall
          obtain ⟨j, hj⟩ := List.mem_iff_getElem?.mp ht
          exact ⟨j, t, hj, hne, Or.inl rfl⟩
      obtain ⟨j, t, hj, hne, hlk⟩ := hgo
      obtain ⟨h1, h2⟩ := TabSys.step_left h s hi j t hj hne hlk hr
      obtain ⟨sched, h3, h4⟩ := ih (s.step env f j) (by omega) (TabSys.inv_step h s hi j) h2
      exact ⟨j :: sched, h3, h4⟩

/-! ### The property -/

/-- **C36**, threads: for every byte string (whose tables do not announce negative sizes, see `C45_violated_loop`) there are a
list of tables and an end (an exception, or none), those of the file if it can be read at all, such that whatever the number of
threads and however they interleave, as long as no data race has occurred: every thread has been given a prefix of that list, one
that has come to the end of its loop has been given all of it and ends like that; what is in the vector is a prefix of it, no
table is parsed twice; and the threads can all be brought to their end without a race, so they do not block one another. -/
theorem C36_threads (env : Env) (bytes : List Byte) (hf : Forward env (File.known bytes)) :
    ∃ (ts : List Tbl) (fin : Option Err), (∀ fs, readPlain env bytes = (fs, none) → ts = fs.flatten ∧ fin = none) ∧
      ∀ (n : Nat) (sched : List Nat),
        let s := (TabSys.start n).run env (File.known bytes) sched
        s.raced = false →
          (∀ t ∈ s.threads, t.seen <+: ts ∧ ∀ r, t.pc = .ended r → t.seen = ts ∧ r = fin) ∧
          s.tables <+: ts ∧ s.tables.length ≤ s.parsed ∧ s.parsed ≤ ts.length ∧
          ∃ more, (∀ t ∈ (s.run env (File.known bytes) more).threads, ∃ r, t.pc = .ended r) ∧
            (s.run env (File.known bytes) more).raced = false := by
  obtain ⟨ts, fin, hs, _⟩ := scan_exists env _ hf
  refine ⟨ts, fin, ?_, ?_⟩
  · intro fs hr
    obtain ⟨us, hu, rfl, _⟩ := readPlain_iff.mp hr
    rw [flatten_singles]
    exact scan_same hs hu
  · intro n sched s hr
    have hi := TabSys.inv_run hs sched _ (TabSys.inv_start ts fin n)
    obtain ⟨m, hm, ht, hth, hpar⟩ := hi.pre
    refine ⟨?_, ?_, ?_, ?_, TabSys.can_end hs _ s (Nat.le_refl _) hi hr⟩
    · intro t htm
      obtain ⟨j, hj⟩ := List.mem_iff_getElem?.mp htm
      have htj := hth j t hj
      unfold TThread.Inv at htj
      cases hp : t.pc with
      | want p => rw [hp] at htj; exact ⟨htj.1 ▸ List.take_prefix _ _, by simp⟩
      | inside p => rw [hp] at htj; exact ⟨htj.1 ▸ List.take_prefix _ _, by simp⟩
      | pushing p us => rw [hp] at htj; exact ⟨htj.1 ▸ List.take_prefix _ _, by simp⟩
      | ready p => rw [hp] at htj; exact ⟨htj.1 ▸ List.take_prefix _ _, by simp⟩
      | ended r =>
        rw [hp] at htj
        refine ⟨htj.1 ▸ List.prefix_rfl, ?_⟩
        intro r' hr'
        rw [← TPc.ended.inj hr']
        exact ⟨htj.1, htj.2.1⟩
    · show (TabSys.run _ _ _ _).tables <+: ts
      rw [ht]; exact List.take_prefix _ _
    · show (TabSys.run _ _ _ _).tables.length ≤ (TabSys.run _ _ _ _).parsed
      rw [ht, hpar]; simp
    · show (TabSys.run _ _ _ _).parsed ≤ ts.length
      rw [hpar]
      split
      · rename_i hany
        obtain ⟨t, htm, hp⟩ := List.any_eq_true.mp hany
        obtain ⟨j, hj⟩ := List.mem_iff_getElem?.mp htm
        have htj := hth j t hj
        unfold TThread.Inv at htj
        unfold TThread.isPushing at hp
        cases hpc : t.pc with
        | pushing p us => rw [hpc] at htj; have := htj.2.2.1; omega
        | _ => rw [hpc] at hp; simp at hp
      · omega

/-- A thread that has ended stays ended. -/
theorem TabSys.ended_step (env : Env) (f : File) (s : TabSys) (i j : Nat) (t : TThread) (r : Option Err)
    (hi : s.threads[i]? = some t) (hr : t.pc = .ended r) : (s.step env f j).threads[i]? = some t := by
  by_cases hij : j = i
  · subst hij
    unfold TabSys.step
    rw [hi]
    dsimp only
    rw [hr]
    exact hi
  · have keep : ∀ u, (s.threads.set j u)[i]? = some t := fun u => by rw [List.getElem?_set_ne hij]; exact hi
    unfold TabSys.step
    cases s.threads[j]? with
    | none => exact hi
    | some u =>
      dsimp only
      cases u.pc with
      | want p => dsimp only; split <;> first | exact keep _ | exact hi
      | inside p => dsimp only; split <;> (try split) <;> first | exact keep _ | exact hi
      | pushing p us => exact keep _
      | ready p => dsimp only; split <;> (try split) <;> first | exact keep _ | exact hi
      | ended q => exact hi

/-- **C36**, no race after one full pass: once one iterator has come to its end without a race, no schedule leads to one. -/
theorem C36_no_race_after_pass (env : Env) (bytes : List Byte) (hf : Forward env (File.known bytes)) (n : Nat) (sched more : List Nat)
    (hr : ((TabSys.start n).run env (File.known bytes) sched).raced = false)
    (t : TThread) (ht : t ∈ ((TabSys.start n).run env (File.known bytes) sched).threads) (r : Option Err) (hp : t.pc = .ended r) :
    (((TabSys.start n).run env (File.known bytes) sched).run env (File.known bytes) more).raced = false := by
  obtain ⟨ts, fin, hs, _⟩ := scan_exists env _ hf
  have hi := TabSys.inv_run hs sched _ (TabSys.inv_start ts fin n)
  generalize (TabSys.start n).run env (File.known bytes) sched = s at *
  obtain ⟨i, hti⟩ := List.mem_iff_getElem?.mp ht
  clear ht
  induction more generalizing s with
  | nil => exact hr
  | cons j more ih =>
    refine ih (s.step env (File.known bytes) j) ?_ (TabSys.inv_step hs s hi j) (TabSys.ended_step env _ s i j t r hti hp)
    obtain ⟨m, hm, htb, hth, hpar⟩ := hi.pre
    have hfull : m = ts.length := by
      have := hth i t hti
      unfold TThread.Inv at this
      rw [hp] at this
      exact this.2.2.1
    have hnp : s.threads.any TThread.isPushing = false := by
      rw [List.any_eq_false]
      intro u hu
      obtain ⟨k, hk⟩ := List.mem_iff_getElem?.mp hu
      have h1 := hth k u hk
      unfold TThread.Inv at h1
      unfold TThread.isPushing
      cases hpc : u.pc with
      | pushing p us => rw [hpc] at h1; have := h1.2.2.1; omega
      | _ => simp
    unfold TabSys.step
    cases s.threads[j]? with
    | none => exact hr
    | some u =>
      dsimp only
      cases u.pc with
      | want p => dsimp only; split <;> exact hr
      | inside p => dsimp only; split <;> (try split) <;> exact hr
      | pushing p us => exact hr
      | ready p => dsimp only; rw [hnp, if_neg (by simp)]; split <;> exact hr
      | ended q => exact hr

/-- **C36 is violated** between threads: on every file with at least two tables two threads can come to a data race, one in
`getTable`, which takes no lock, while the other is in `emplace_back`. -/
theorem C36_violated_race (env : Env) (bytes : List Byte) (fs : List (List Tbl)) (h : readPlain env bytes = (fs, none))
    (h2 : 2 ≤ fs.length) : ∃ sched, ((TabSys.start 2).run env (File.known bytes) sched).raced = true := by
  obtain ⟨ts, hs, rfl, _⟩ := readPlain_iff.mp h
  simp only [List.length_map] at h2
  obtain ⟨a, b, rest, rfl⟩ : ∃ a b rest, ts = a :: b :: rest := by
    match ts, h2 with
    | a :: b :: rest, _ => exact ⟨a, b, rest, rfl⟩
  have e0 := ensure_scan hs 0 (by simp) 0 (Nat.le_refl _)
  have e1 := ensure_scan hs 1 (by simp) 0 (by omega)
  have e2 := ensure_scan hs 1 (by simp) 1 (by omega)
  simp only [List.take_succ_cons, List.take_zero, List.length_cons, Nat.zero_lt_succ, if_true, Nat.max_eq_right, Nat.zero_le,
    Nat.zero_add, Nat.lt_add_left_iff_pos, Nat.le_refl, Nat.max_self, Nat.cast_zero, Nat.cast_one] at e0 e1 e2
  refine ⟨[0, 0, 0, 1, 1, 1, 1, 1, 0], ?_⟩
  simp [TabSys.run, TabSys.start, TabSys.step, e0, e1, e2, itGet, TThread.isPushing, List.replicate]

/-! ### Cases -/

/-- The sample file has three tables: three threads in turn, twenty steps each, all end with three tables. -/
example : onSample (fun b =>
    let s := (TabSys.start 3).run sampleEnv (File.known b) ((List.range 20).flatMap (fun _ => [0, 0, 0]) ++
      (List.range 20).flatMap (fun _ => [1, 2]))
    decide (s.threads.map (fun t => t.seen.length) = [3, 3, 3] ∧ s.raced = false ∧ s.parsed = 3)) = true := by decide +kernel

end Verif
