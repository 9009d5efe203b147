import Verif.Bytes
import Mathlib.Data.List.Perm.Subperm

/-
Iterators shared by several handles: `odc::IteratorProxy`.

Models: src/odc/IteratorProxy.h l.160-213 (constructors, destructor, assignment, `++`, comparison).  The count is an
`int` in the code and an unbounded integer here (it is bounded by the number of handles alive).
-/

namespace Verif

/-- Memory: the iterator objects ever created (`none` once deleted, otherwise `refCount_` and `noMore_`), the handles
alive with the object they point to (`none` for a null pointer), and the objects deleted, in order. [IteratorProxy.h l.161-211] -/
structure World where
  objs : List (Option (Int × Bool))
  handles : List (Nat × Option Nat)
  deleted : List Nat

/-- What a program does with handles.  Names are chosen by the program. [IteratorProxy.h l.171-211] -/
inductive HandleOp
  /-- `IteratorProxy p(new ITERATOR)`; the flag is `noMore_` after construction -/
  | make (p : Nat) (noMore : Bool)
  /-- `IteratorProxy p(0)` (what `end()` returns) -/
  | null (p : Nat)
  /-- `IteratorProxy p(q)` -/
  | copy (p q : Nat)
  /-- `p = q` -/
  | assign (p q : Nat)
  /-- the handle goes out of scope -/
  | drop (p : Nat)
  /-- `++p`, after which the object's `noMore_` is the flag -/
  | incr (p : Nat) (noMore : Bool)
  deriving DecidableEq

/-- The object a handle points to. [`iter_`, IteratorProxy.h l.171-211] -/
def World.target (w : World) (p : Nat) : Option (Option Nat) := (w.handles.find? (fun h => h.1 == p)).map (·.2)

/-- `++iter_->refCount_` (and nothing else) on an object; touching a deleted or null object is undefined. [IteratorProxy.h l.172-173, 177-178, 194] -/
def World.retain (w : World) (o : Nat) : Except Err World :=
  match w.objs[o]? with
  | some (some (n, b)) => .ok { w with objs := w.objs.set o (some (n + 1, b)) }
  | _ => .error .ub

/-- `if (--iter_->refCount_ == 0) delete iter_`, IteratorProxy.h l.182-183, 190-191. -/
def World.release (w : World) (o : Nat) : Except Err World :=
  match w.objs[o]? with
  | some (some (n, b)) =>
    if n - 1 = 0 then .ok { w with objs := w.objs.set o none, deleted := w.deleted ++ [o] }
    else .ok { w with objs := w.objs.set o (some (n - 1, b)) }
  | _ => .error .ub

/-- One operation.  Naming a handle that does not exist, or creating one under a name in use, is not a program:
`userError`. [IteratorProxy.h l.171-211] -/
def World.step (w : World) : HandleOp → Except Err World
  -- IteratorProxy.h l.168-171
  | .make p b =>
    if (w.target p).isSome then .error .userError
    else
      let w1 : World := { w with objs := w.objs ++ [some (0, b)] }
      match w1.retain w.objs.length with
      | .error e => .error e
      | .ok w2 => .ok { w2 with handles := (p, some w.objs.length) :: w2.handles }
  | .null p =>
    if (w.target p).isSome then .error .userError
    else .ok { w with handles := (p, none) :: w.handles }
  -- IteratorProxy.h l.173-176
  | .copy p q =>
    if (w.target p).isSome then .error .userError
    else
      match w.target q with
      | none => .error .userError
      | some none => .ok { w with handles := (p, none) :: w.handles }
      | some (some o) =>
        match w.retain o with
        | .error e => .error e
        | .ok w1 => .ok { w1 with handles := (p, some o) :: w1.handles }
  -- IteratorProxy.h l.183-193
  | .assign p q =>
    match w.target p, w.target q with
    | some tp, some tq =>
      if tp = tq then .ok w
      else
        match (match tp with | some o => w.release o | none => .ok w) with
        | .error e => .error e
        | .ok w1 =>
          let w2 : World := { w1 with handles := w1.handles.map (fun h => if h.1 == p then (p, tq) else h) }
          match tq with
          | none => .error .ub
          | some o => w2.retain o
    | _, _ => .error .userError
  -- IteratorProxy.h l.178-181
  | .drop p =>
    match w.target p with
    | none => .error .userError
    | some t =>
      match (match t with | some o => w.release o | none => .ok w) with
      | .error e => .error e
      | .ok w1 => .ok { w1 with handles := w1.handles.filter (fun h => h.1 != p) }
  -- IteratorProxy.h l.205-208
  | .incr p b =>
    match w.target p with
    | none => .error .userError
    | some none => .error .ub
    | some (some o) =>
      match w.objs[o]? with
      | some (some (n, _)) => .ok { w with objs := w.objs.set o (some (n, b)) }
      | _ => .error .ub

/-- `p != end`, IteratorProxy.h l.205: whatever `end` is. -/
def World.more (w : World) (p : Nat) : Except Err Bool :=
  match w.target p with
  | none => .error .userError
  | some none => .ok false
  | some (some o) =>
    match w.objs[o]? with
    | some (some (_, b)) => .ok (!b)
    | _ => .error .ub

/-- A program. [IteratorProxy.h l.171-211] -/
def World.run (w : World) : List HandleOp → Except Err World
  | [] => .ok w
  | op :: ops =>
    match w.step op with
    | .error e => .error e
    | .ok w1 => w1.run ops

/-- Specification: no iterator and no handle. -/
def World.empty : World := ⟨[], [], []⟩

/-! ### Specification, without counts -/

/-- The program as it is meant: each handle points to an object or nowhere; no counts, no deletion. -/
structure Ideal where
  made : Nat
  handles : List (Nat × Option Nat)

/-- Specification: what a handle refers to. -/
def Ideal.target (w : Ideal) (p : Nat) : Option (Option Nat) := (w.handles.find? (fun h => h.1 == p)).map (·.2)

/-- One operation that is in order: names are right, and neither `++` nor the source of an assignment is a null
handle (an assignment between two null handles is in order). -/
inductive Ideal.Step : Ideal → HandleOp → Ideal → Prop
  | make {w : Ideal} {p : Nat} {b : Bool} : w.target p = none →
      Step w (.make p b) ⟨w.made + 1, (p, some w.made) :: w.handles⟩
  | null {w : Ideal} {p : Nat} : w.target p = none → Step w (.null p) ⟨w.made, (p, none) :: w.handles⟩
  | copy {w : Ideal} {p q : Nat} {t : Option Nat} : w.target p = none → w.target q = some t →
      Step w (.copy p q) ⟨w.made, (p, t) :: w.handles⟩
  | assign {w : Ideal} {p q : Nat} {t t' : Option Nat} : w.target p = some t → w.target q = some t' → (t' = none → t = none) →
      Step w (.assign p q) ⟨w.made, w.handles.map (fun h => if h.1 = p then (p, t') else h)⟩
  | drop {w : Ideal} {p : Nat} {t : Option Nat} : w.target p = some t →
      Step w (.drop p) ⟨w.made, w.handles.filter (fun h => h.1 ≠ p)⟩
  | incr {w : Ideal} {p o : Nat} {b : Bool} : w.target p = some (some o) → Step w (.incr p b) w

/-- Specification: operations in order, one after the other. -/
inductive Ideal.Run : Ideal → List HandleOp → Ideal → Prop
  | nil {w : Ideal} : Run w [] w
  | cons {w w1 w2 : Ideal} {op : HandleOp} {ops : List HandleOp} : Ideal.Step w op w1 → Run w1 ops w2 → Run w (op :: ops) w2

/-! ### Invariant -/

/-- Number of handles to an object. -/
def users (hs : List (Nat × Option Nat)) (o : Nat) : Nat := hs.countP (fun h => h.2 == some o)

/-- The objects agree with a counting of their users. -/
structure Counts (objs : List (Option (Int × Bool))) (deleted : List Nat) (c : Nat → Nat) : Prop where
  count : ∀ (o : Nat) (n : Int) (b : Bool), objs[o]? = some (some (n, b)) → n = c o ∧ 0 < c o
  gone : ∀ o : Nat, objs[o]? = some none → c o = 0
  once : deleted.Nodup
  logged : ∀ o : Nat, o ∈ deleted ↔ objs[o]? = some none

/-- Proof device: the counted world represents the ideal one. -/
structure World.Inv (w : World) (i : Ideal) : Prop where
  made : w.objs.length = i.made
  handles : w.handles = i.handles
  names : (w.handles.map (·.1)).Nodup
  known : ∀ h ∈ w.handles, ∀ o, h.2 = some o → o < w.objs.length
  counts : Counts w.objs w.deleted (users w.handles)

theorem Counts.alive {objs : List (Option (Int × Bool))} {del : List Nat} {c : Nat → Nat} (h : Counts objs del c) {o : Nat}
    (hl : o < objs.length) (hc : 0 < c o) : ∃ b, objs[o]? = some (some ((c o : Int), b)) := by
  cases ho : objs[o] with
  | none =>
    have := h.gone o (by rw [List.getElem?_eq_getElem hl, ho])
    omega
  | some x =>
    obtain ⟨n, b⟩ := x
    have := h.count o n b (by rw [List.getElem?_eq_getElem hl, ho])
    exact ⟨b, by rw [List.getElem?_eq_getElem hl, ho, this.1]⟩

theorem Counts.retain {w : World} {c : Nat → Nat} (h : Counts w.objs w.deleted c) {o : Nat} (hl : o < w.objs.length) (hc : 0 < c o) :
    ∃ w', w.retain o = .ok w' ∧ w'.handles = w.handles ∧ w'.objs.length = w.objs.length ∧
      Counts w'.objs w'.deleted (fun x => c x + if x = o then 1 else 0) := by
  obtain ⟨b, hb⟩ := h.alive hl hc
  unfold World.retain
  rw [hb]
  refine ⟨_, rfl, rfl, by simp, ?_⟩
  constructor
  · intro x n b' hx
    dsimp only at hx
    rw [List.getElem?_set] at hx
    by_cases e : o = x
    · subst e
      rw [if_pos rfl, if_pos hl] at hx
      simp only [Option.some.injEq, Prod.mk.injEq] at hx
      simp only [if_true]
      omega
    · rw [if_neg e] at hx
      have := h.count x n b' hx
      rw [if_neg (fun e' => e e'.symm)]
      exact this
  · intro x hx
    dsimp only at hx
    rw [List.getElem?_set] at hx
    by_cases e : o = x
    · subst e; rw [if_pos rfl, if_pos hl] at hx; simp at hx
    · rw [if_neg e] at hx
      rw [if_neg (fun e' => e e'.symm)]
      exact h.gone x hx
  · exact h.once
  · intro x
    dsimp only
    rw [h.logged, List.getElem?_set]
    by_cases e : o = x
    · subst e; rw [if_pos rfl, if_pos hl, hb]; simp
    · rw [if_neg e]

theorem Counts.release {w : World} {c : Nat → Nat} (h : Counts w.objs w.deleted c) {o : Nat} (hl : o < w.objs.length) (hc : 0 < c o) :
    ∃ w', w.release o = .ok w' ∧ w'.handles = w.handles ∧ w'.objs.length = w.objs.length ∧
      Counts w'.objs w'.deleted (fun x => c x - if x = o then 1 else 0) := by
  obtain ⟨b, hb⟩ := h.alive hl hc
  unfold World.release
  rw [hb]
  dsimp only
  by_cases h1 : (c o : Int) - 1 = 0
  · rw [if_pos h1]
    refine ⟨_, rfl, rfl, by simp, ?_⟩
    constructor
    · intro x n b' hx
      dsimp only at hx
      rw [List.getElem?_set] at hx
      by_cases e : o = x
      · subst e; rw [if_pos rfl, if_pos hl] at hx; simp at hx
      · rw [if_neg e] at hx
        rw [if_neg (fun e' => e e'.symm)]
        exact h.count x n b' hx
    · intro x hx
      dsimp only at hx
      rw [List.getElem?_set] at hx
      by_cases e : o = x
      · subst e; rw [if_pos rfl]; omega
      · rw [if_neg e] at hx
        rw [if_neg (fun e' => e e'.symm)]
        exact h.gone x hx
    · dsimp only
      rw [List.nodup_append]
      refine ⟨h.once, by simp, ?_⟩
      intro a ha b' hb' e
      rw [List.mem_singleton] at hb'
      rw [e, hb', h.logged, hb] at ha
      simp at ha
    · intro x
      dsimp only
      rw [List.mem_append, List.mem_singleton, h.logged, List.getElem?_set]
      by_cases e : o = x
      · subst e; rw [if_pos rfl, if_pos hl]; simp
      · rw [if_neg e]
        constructor
        · rintro (q | q)
          · exact q
          · exact absurd q.symm e
        · exact Or.inl
  · rw [if_neg h1]
    refine ⟨_, rfl, rfl, by simp, ?_⟩
    constructor
    · intro x n b' hx
      dsimp only at hx
      rw [List.getElem?_set] at hx
      by_cases e : o = x
      · subst e
        rw [if_pos rfl, if_pos hl] at hx
        simp only [Option.some.injEq, Prod.mk.injEq] at hx
        simp only [if_true]
        omega
      · rw [if_neg e] at hx
        rw [if_neg (fun e' => e e'.symm)]
        exact h.count x n b' hx
    · intro x hx
      dsimp only at hx
      rw [List.getElem?_set] at hx
      by_cases e : o = x
      · subst e; rw [if_pos rfl, if_pos hl] at hx; simp at hx
      · rw [if_neg e] at hx
        rw [if_neg (fun e' => e e'.symm)]
        exact h.gone x hx
    · exact h.once
    · intro x
      dsimp only
      rw [h.logged, List.getElem?_set]
      by_cases e : o = x
      · subst e; rw [if_pos rfl, if_pos hl, hb]; simp
      · rw [if_neg e]

theorem Counts.congr {objs : List (Option (Int × Bool))} {del : List Nat} {c d : Nat → Nat} (h : Counts objs del c) (e : ∀ x, c x = d x) :
    Counts objs del d := by
  have : c = d := funext e
  exact this ▸ h

theorem target_mem {hs : List (Nat × Option Nat)} {p : Nat} {t : Option Nat}
    (h : (hs.find? (fun h => h.1 == p)).map (·.2) = some t) : (p, t) ∈ hs := by
  rw [Option.map_eq_some_iff] at h
  obtain ⟨⟨a, b⟩, h1, h2⟩ := h
  have := List.find?_some h1
  simp only [beq_iff_eq] at this h2
  subst this h2
  exact List.mem_of_find?_eq_some h1

theorem target_none {hs : List (Nat × Option Nat)} {p : Nat}
    (h : (hs.find? (fun h => h.1 == p)).map (·.2) = none) : p ∉ hs.map (·.1) := by
  rw [Option.map_eq_none_iff, List.find?_eq_none] at h
  intro hp
  obtain ⟨x, hx, rfl⟩ := List.mem_map.mp hp
  exact h x hx (by simp)

theorem users_pos {hs : List (Nat × Option Nat)} {p o : Nat} (h : (p, some o) ∈ hs) : 0 < users hs o := by
  unfold users
  rw [List.countP_pos_iff]
  exact ⟨_, h, by simp⟩

theorem users_cons (p : Nat) (t : Option Nat) (hs : List (Nat × Option Nat)) (o : Nat) :
    users ((p, t) :: hs) o = users hs o + (if t = some o then 1 else 0) := by
  unfold users
  rw [List.countP_cons]
  simp only [beq_iff_eq]

/-- Removing the handle `p`. -/
theorem users_filter {hs : List (Nat × Option Nat)} (hn : (hs.map (·.1)).Nodup) {p : Nat} {t : Option Nat} (ht : (p, t) ∈ hs) (o : Nat) :
    users (hs.filter (fun h => h.1 != p)) o + (if t = some o then 1 else 0) = users hs o := by
  induction hs with
  | nil => simp at ht
  | cons x hs ih =>
    obtain ⟨q, u⟩ := x
    rw [List.map_cons, List.nodup_cons] at hn
    rw [List.filter_cons, users_cons]
    rcases List.mem_cons.mp ht with he | ht
    · cases he
      simp only [bne_self_eq_false, Bool.false_eq_true, if_false]
      congr 2
      refine List.filter_eq_self.mpr ?_
      intro y hy
      simp only [bne_iff_ne, ne_eq]
      intro e
      exact hn.1 (List.mem_map.mpr ⟨y, hy, e⟩)
    · have hne : q ≠ p := by
        intro e; subst e; exact hn.1 (List.mem_map.mpr ⟨_, ht, rfl⟩)
      rw [if_pos (by simpa using hne), users_cons]
      have := ih hn.2 ht
      omega

/-- Redirecting the handle `p`. -/
theorem users_map {hs : List (Nat × Option Nat)} (hn : (hs.map (·.1)).Nodup) {p : Nat} {t : Option Nat} (ht : (p, t) ∈ hs) (t' : Option Nat)
    (o : Nat) : users (hs.map (fun h => if h.1 == p then (p, t') else h)) o + (if t = some o then 1 else 0) =
      users hs o + (if t' = some o then 1 else 0) := by
  induction hs with
  | nil => simp at ht
  | cons x hs ih =>
    obtain ⟨q, u⟩ := x
    rw [List.map_cons] at hn ⊢
    rw [List.nodup_cons] at hn
    rw [users_cons q u]
    rcases List.mem_cons.mp ht with he | ht
    · cases he
      simp only [beq_self_eq_true, if_true]
      rw [users_cons]
      have : hs.map (fun h => if h.1 == p then (p, t') else h) = hs := by
        conv_rhs => rw [← List.map_id hs]
        apply List.map_congr_left
        intro y hy
        rw [if_neg]
        · rfl
        simp only [beq_iff_eq]
        intro e
        exact hn.1 (List.mem_map.mpr ⟨y, hy, e⟩)
      rw [this]
      omega
    · have hne : q ≠ p := by
        intro e; subst e; exact hn.1 (List.mem_map.mpr ⟨_, ht, rfl⟩)
      simp only [beq_iff_eq, hne, if_false]
      rw [users_cons]
      have := ih hn.2 ht
      simp only [beq_iff_eq] at this
      omega

theorem World.Inv.target {w : World} {i : Ideal} (h : w.Inv i) (p : Nat) : w.target p = i.target p := by
  unfold World.target Ideal.target; rw [h.handles]

theorem pair_unique {hs : List (Nat × Option Nat)} (hn : (hs.map (·.1)).Nodup) {x y : Nat × Option Nat} (hx : x ∈ hs) (hy : y ∈ hs)
    (e : x.1 = y.1) : x = y := by
  induction hs with
  | nil => simp at hx
  | cons z hs ih =>
    rw [List.map_cons, List.nodup_cons] at hn
    rcases List.mem_cons.mp hx with rfl | hx' <;> rcases List.mem_cons.mp hy with rfl | hy'
    · rfl
    · exact absurd (List.mem_map.mpr ⟨y, hy', e.symm⟩) hn.1
    · exact absurd (List.mem_map.mpr ⟨x, hx', e⟩) hn.1
    · exact ih hn.2 hx' hy'

theorem map_names (hs : List (Nat × Option Nat)) (p : Nat) (t : Option Nat) :
    (hs.map (fun h => if h.1 == p then (p, t) else h)).map (·.1) = hs.map (·.1) := by
  rw [List.map_map]
  apply List.map_congr_left
  intro x _
  simp only [Function.comp]
  split
  · rename_i e; simpa using (beq_iff_eq.mp e).symm
  · rfl

theorem World.Inv.step {w : World} {i i' : Ideal} {op : HandleOp} (h : w.Inv i) (hs : i.Step op i') :
    ∃ w', w.step op = .ok w' ∧ w'.Inv i' := by
  cases hs with
  | make hp =>
    rename_i p b
    rw [← h.target] at hp
    unfold World.step
    dsimp only
    rw [hp]
    simp only [Option.isSome_none, Bool.false_eq_true, if_false]
    unfold World.retain
    simp only [List.getElem?_append_right (Nat.le_refl _), Nat.sub_self, List.getElem?_cons_zero]
    refine ⟨_, rfl, ?_⟩
    have hnew : users w.handles w.objs.length = 0 := by
      unfold users
      rw [List.countP_eq_zero]
      intro x hx e
      simp only [beq_iff_eq] at e
      have := h.known x hx _ e
      omega
    refine { made := by simp [h.made], handles := ?_, names := ?_, known := ?_, counts := ?_ }
    · dsimp only; rw [h.handles, h.made]
    · dsimp only
      rw [List.map_cons, List.nodup_cons]
      exact ⟨target_none hp, h.names⟩
    · intro x hx o ho
      dsimp only at hx ⊢
      rw [List.length_set, List.length_append, List.length_singleton]
      rcases List.mem_cons.mp hx with rfl | hx
      · simp only [Option.some.injEq] at ho; omega
      · have := h.known x hx o ho; omega
    · dsimp only
      constructor
      · intro o n b' ho
        rw [List.getElem?_set] at ho
        rw [users_cons]
        by_cases e : w.objs.length = o
        · subst e
          rw [if_pos rfl, if_pos (by simp)] at ho
          simp only [Option.some.injEq, Prod.mk.injEq] at ho
          simp only [if_true]
          omega
        · rw [if_neg e] at ho
          have hlt : o < w.objs.length := by
            have := (List.getElem?_eq_some_iff.mp ho).1
            rw [List.length_append, List.length_singleton] at this
            omega
          rw [List.getElem?_append_left hlt] at ho
          have := h.counts.count o n b' ho
          rw [if_neg (by simp only [Option.some.injEq]; exact e)]
          simpa using this
      · intro o ho
        rw [List.getElem?_set] at ho
        rw [users_cons]
        by_cases e : w.objs.length = o
        · subst e; rw [if_pos rfl, if_pos (by simp)] at ho; simp at ho
        · rw [if_neg e] at ho
          have hlt : o < w.objs.length := by
            have := (List.getElem?_eq_some_iff.mp ho).1
            rw [List.length_append, List.length_singleton] at this
            omega
          rw [List.getElem?_append_left hlt] at ho
          rw [if_neg (by simp only [Option.some.injEq]; exact e), h.counts.gone o ho]
      · exact h.counts.once
      · intro o
        rw [h.counts.logged, List.getElem?_set]
        by_cases e : w.objs.length = o
        · subst e; rw [if_pos rfl, if_pos (by simp)]; simp
        · rw [if_neg e]
          by_cases hlt : o < w.objs.length
          · rw [List.getElem?_append_left hlt]
          · rw [List.getElem?_eq_none (by omega), List.getElem?_eq_none (by simp; omega)]
  | null hp =>
    rename_i p
    rw [← h.target] at hp
    unfold World.step
    dsimp only
    rw [hp]
    simp only [Option.isSome_none, Bool.false_eq_true, if_false]
    refine ⟨_, rfl, ?_⟩
    refine { made := h.made, handles := ?_, names := ?_, known := ?_, counts := ?_ }
    · dsimp only; rw [h.handles]
    · dsimp only
      rw [List.map_cons, List.nodup_cons]
      exact ⟨target_none hp, h.names⟩
    · intro x hx o ho
      rcases List.mem_cons.mp hx with rfl | hx
      · simp at ho
      · exact h.known x hx o ho
    · exact h.counts.congr (fun o => by rw [users_cons]; simp)
  | copy hp hq =>
    rename_i p q t
    rw [← h.target] at hp hq
    have hmem := target_mem hq
    unfold World.step
    dsimp only
    rw [hp, hq]
    simp only [Option.isSome_none, Bool.false_eq_true, if_false]
    cases t with
    | none =>
      refine ⟨_, rfl, ?_⟩
      refine { made := h.made, handles := ?_, names := ?_, known := ?_, counts := ?_ }
      · dsimp only; rw [h.handles]
      · dsimp only
        rw [List.map_cons, List.nodup_cons]
        exact ⟨target_none hp, h.names⟩
      · intro x hx o ho
        rcases List.mem_cons.mp hx with rfl | hx
        · simp at ho
        · exact h.known x hx o ho
      · exact h.counts.congr (fun o => by rw [users_cons]; simp)
    | some o =>
      obtain ⟨w1, e1, e2, e3, e4⟩ := h.counts.retain (h.known _ hmem o rfl) (users_pos hmem)
      dsimp only
      rw [e1]
      refine ⟨_, rfl, ?_⟩
      refine { made := by dsimp only; rw [e3, h.made], handles := ?_, names := ?_, known := ?_, counts := ?_ }
      · dsimp only; rw [e2, h.handles]
      · dsimp only
        rw [e2, List.map_cons, List.nodup_cons]
        exact ⟨target_none hp, h.names⟩
      · intro x hx o' ho
        dsimp only at hx ⊢
        rw [e3]
        rw [e2] at hx
        rcases List.mem_cons.mp hx with rfl | hx
        · simp only [Option.some.injEq] at ho; subst ho; exact h.known _ hmem o rfl
        · exact h.known x hx o' ho
      · dsimp only
        rw [e2]
        exact e4.congr (fun x => by rw [users_cons]; simp only [Option.some.injEq, eq_comm])
  | assign hp hq hnull =>
    rename_i p q t t'
    rw [← h.target] at hp hq
    have hmp := target_mem hp
    have hmq := target_mem hq
    have hfun : (fun (x : Nat × Option Nat) => if x.1 == p then (p, t') else x) = (fun x => if x.1 = p then (p, t') else x) := by
      funext x; simp only [beq_iff_eq]
    unfold World.step
    dsimp only
    rw [hp, hq]
    dsimp only
    by_cases e : t = t'
    · rw [if_pos e]
      refine ⟨w, rfl, ?_⟩
      have hsame : w.handles.map (fun h => if h.1 = p then (p, t') else h) = w.handles := by
        conv_rhs => rw [← List.map_id w.handles]
        apply List.map_congr_left
        intro x hx
        by_cases ep : x.1 = p
        · rw [if_pos ep]
          have hnd := h.names
          have hxe : x = (p, t) := by
            by_contra hne
            exact hne (pair_unique hnd hx hmp ep)
          rw [hxe, e]; rfl
        · rw [if_neg ep]; rfl
      exact { made := h.made, handles := by dsimp only; rw [← h.handles, hsame], names := h.names, known := h.known, counts := h.counts }
    · rw [if_neg e]
      cases t' with
      | none => exact absurd (hnull rfl) e
      | some o' =>
        have hl' := h.known _ hmq o' rfl
        have hu' := users_pos hmq
        -- the first half
        have hrel : ∃ w1, (match t with | some o => w.release o | none => .ok w) = .ok w1 ∧ w1.handles = w.handles ∧
            w1.objs.length = w.objs.length ∧
            Counts w1.objs w1.deleted (fun x => users w.handles x - if t = some x then 1 else 0) := by
          cases t with
          | none => exact ⟨w, rfl, rfl, rfl, h.counts.congr (fun x => by simp)⟩
          | some o =>
            obtain ⟨w1, e1, e2, e3, e4⟩ := h.counts.release (h.known _ hmp o rfl) (users_pos hmp)
            exact ⟨w1, e1, e2, e3, e4.congr (fun x => by simp only [Option.some.injEq, eq_comm])⟩
        obtain ⟨w1, e1, e2, e3, e4⟩ := hrel
        rw [e1]
        dsimp only
        have hret := Counts.retain (w := { w1 with handles := w1.handles.map (fun h => if h.1 == p then (p, some o') else h) })
          (c := fun x => users w.handles x - if t = some x then 1 else 0) e4 (o := o') (by dsimp only; rw [e3]; exact hl') (by
            rw [if_neg e]; exact hu')
        obtain ⟨w2, f1, f2, f3, f4⟩ := hret
        rw [f1]
        refine ⟨w2, rfl, ?_⟩
        dsimp only at f2 f3
        refine { made := ?_, handles := ?_, names := ?_, known := ?_, counts := ?_ }
        · rw [f3, e3, h.made]
        · rw [f2, e2, h.handles, hfun]
        · rw [f2, e2, map_names]; exact h.names
        · intro x hx o ho
          rw [f2, e2] at hx
          rw [f3, e3]
          obtain ⟨y, hy, rfl⟩ := List.mem_map.mp hx
          by_cases ep : y.1 = p
          · simp only [ep, beq_self_eq_true, if_true, Option.some.injEq] at ho
            subst ho; exact hl'
          · simp only [beq_iff_eq, ep, if_false] at ho
            exact h.known y hy o ho
        · rw [f2, e2]
          refine f4.congr (fun x => ?_)
          have hm := users_map h.names hmp (some o') x
          have hpos : t = some x → 0 < users w.handles x := by
            intro et; subst et; exact users_pos hmp
          have hx : (if x = o' then 1 else 0) = (if some o' = some x then 1 else 0) := by simp only [Option.some.injEq, eq_comm]
          rw [hx]
          by_cases et : t = some x
          · have := hpos et
            rw [if_pos et] at hm
            simp only [if_pos et]
            omega
          · rw [if_neg et] at hm
            simp only [if_neg et]
            omega
  | drop hp =>
    rename_i p t
    rw [← h.target] at hp
    have hmp := target_mem hp
    have hfun : (fun (x : Nat × Option Nat) => x.1 != p) = (fun x => decide (x.1 ≠ p)) := by
      funext x; by_cases e : x.1 = p <;> simp [e]
    unfold World.step
    dsimp only
    rw [hp]
    dsimp only
    have hrel : ∃ w1, (match t with | some o => w.release o | none => .ok w) = .ok w1 ∧ w1.handles = w.handles ∧
        w1.objs.length = w.objs.length ∧
        Counts w1.objs w1.deleted (fun x => users w.handles x - if t = some x then 1 else 0) := by
      cases t with
      | none => exact ⟨w, rfl, rfl, rfl, h.counts.congr (fun x => by simp)⟩
      | some o =>
        obtain ⟨w1, e1, e2, e3, e4⟩ := h.counts.release (h.known _ hmp o rfl) (users_pos hmp)
        exact ⟨w1, e1, e2, e3, e4.congr (fun x => by simp only [Option.some.injEq, eq_comm])⟩
    obtain ⟨w1, e1, e2, e3, e4⟩ := hrel
    rw [e1]
    refine ⟨_, rfl, ?_⟩
    refine { made := ?_, handles := ?_, names := ?_, known := ?_, counts := ?_ }
    · dsimp only; rw [e3, h.made]
    · dsimp only; rw [e2, h.handles, hfun]
    · dsimp only; rw [e2]; exact (List.filter_sublist.map _).nodup h.names
    · intro x hx o ho
      dsimp only at hx ⊢
      rw [e2] at hx
      rw [e3]
      exact h.known x (List.mem_filter.mp hx).1 o ho
    · dsimp only
      rw [e2]
      refine e4.congr (fun x => ?_)
      have := users_filter h.names hmp x
      omega
  | incr hp =>
    rename_i p o b
    rw [← h.target] at hp
    have hmp := target_mem hp
    have hl := h.known _ hmp o rfl
    obtain ⟨b0, hb⟩ := h.counts.alive hl (users_pos hmp)
    unfold World.step
    dsimp only
    rw [hp]
    dsimp only
    rw [hb]
    refine ⟨_, rfl, ?_⟩
    refine { made := by simp [h.made], handles := h.handles, names := h.names, known := ?_, counts := ?_ }
    · intro x hx o' ho
      dsimp only
      rw [List.length_set]
      exact h.known x hx o' ho
    · dsimp only
      constructor
      · intro x n b' hx
        rw [List.getElem?_set] at hx
        by_cases e : o = x
        · subst e
          rw [if_pos rfl, if_pos hl] at hx
          simp only [Option.some.injEq, Prod.mk.injEq] at hx
          exact ⟨hx.1.symm, users_pos hmp⟩
        · rw [if_neg e] at hx
          exact h.counts.count x n b' hx
      · intro x hx
        rw [List.getElem?_set] at hx
        by_cases e : o = x
        · subst e; rw [if_pos rfl, if_pos hl] at hx; simp at hx
        · rw [if_neg e] at hx
          exact h.counts.gone x hx
      · exact h.counts.once
      · intro x
        rw [h.counts.logged, List.getElem?_set]
        by_cases e : o = x
        · subst e; rw [if_pos rfl, if_pos hl, hb]; simp
        · rw [if_neg e]

theorem World.Inv.run {w : World} {i i' : Ideal} {ops : List HandleOp} (h : w.Inv i) (hr : i.Run ops i') :
    ∃ w', w.run ops = .ok w' ∧ w'.Inv i' := by
  induction hr generalizing w with
  | nil => exact ⟨w, rfl, h⟩
  | cons h1 _ ih =>
    obtain ⟨w1, e1, e2⟩ := h.step h1
    obtain ⟨w2, e3, e4⟩ := ih e2
    refine ⟨w2, ?_, e4⟩
    simp only [World.run, e1]
    exact e3

theorem World.Inv.init : World.empty.Inv ⟨0, []⟩ :=
  { made := rfl, handles := rfl, names := by simp [World.empty], known := by simp [World.empty],
    counts := { count := by simp [World.empty], gone := by simp [World.empty], once := by simp [World.empty], logged := by simp [World.empty] } }

/-- **C40**: a program that only copies, assigns, increments and destroys handles, never incrementing a null handle nor
assigning one to a handle that holds an object, never touches a deleted object; every handle points where the program
meant; no object is deleted twice; an object is deleted if and only if no handle points to it any more; and testing any
handle for the end is safe. -/
theorem C40_lifetime (ops : List HandleOp) (i : Ideal) (h : Ideal.Run ⟨0, []⟩ ops i) :
    ∃ w, World.empty.run ops = .ok w ∧ w.handles = i.handles ∧ w.deleted.Nodup ∧
      (∀ o : Nat, o ∈ w.deleted ↔ o < i.made ∧ ∀ p, (p, some o) ∉ i.handles) ∧
      ∀ p t, i.target p = some t → ∃ b, w.more p = .ok b ∧ (t = none → b = false) := by
  obtain ⟨w, e1, e2⟩ := World.Inv.init.run h
  refine ⟨w, e1, e2.handles, e2.counts.once, ?_, ?_⟩
  rotate_left
  · intro p t ht
    rw [← e2.target] at ht
    unfold World.more
    rw [ht]
    cases t with
    | none => exact ⟨false, rfl, fun _ => rfl⟩
    | some o =>
      have hm := target_mem ht
      obtain ⟨b, hb⟩ := e2.counts.alive (e2.known _ hm o rfl) (users_pos hm)
      dsimp only
      rw [hb]
      exact ⟨!b, rfl, by simp⟩
  intro o
  rw [e2.counts.logged]
  constructor
  · intro ho
    refine ⟨by rw [← e2.made]; exact (List.getElem?_eq_some_iff.mp ho).1, ?_⟩
    intro p hp
    rw [← e2.handles] at hp
    have h1 := users_pos hp
    have h2 := e2.counts.gone o ho
    omega
  · rintro ⟨hl, hn⟩
    rw [← e2.made] at hl
    rw [List.getElem?_eq_getElem hl]
    cases ho : w.objs[o] with
    | none => rfl
    | some x =>
      obtain ⟨n, b⟩ := x
      have := (e2.counts.count o n b (by rw [List.getElem?_eq_getElem hl, ho])).2
      unfold users at this
      rw [List.countP_pos_iff] at this
      obtain ⟨⟨p, t⟩, h1, h2⟩ := this
      simp only [beq_iff_eq] at h2
      subst h2
      rw [e2.handles] at h1
      exact absurd h1 (hn p)

/-- Every prefix of a program in order is in order, so the theorem speaks about every moment of the execution. -/
theorem Ideal.Run.prefix {i i' : Ideal} {a b : List HandleOp} (h : Ideal.Run i (a ++ b) i') : ∃ m, Ideal.Run i a m ∧ Ideal.Run m b i' := by
  induction a generalizing i with
  | nil => exact ⟨i, .nil, h⟩
  | cons op a ih =>
    cases h with
    | cons h1 h2 =>
      obtain ⟨m, q1, q2⟩ := ih h2
      exact ⟨m, .cons h1 q1, q2⟩

/-- A small program and what it leaves. -/
def handleSample : List HandleOp :=
  [.make 1 false, .copy 2 1, .make 3 false, .incr 2 false, .assign 1 3, .assign 2 2, .drop 2, .null 4, .copy 5 4, .assign 5 4, .drop 3, .incr 1 true]

/-- Deleted objects and surviving handles. -/
def outcome (ops : List HandleOp) : Except Err (List Nat × List (Nat × Option Nat)) :=
  match World.empty.run ops with
  | .error e => .error e
  | .ok w => .ok (w.deleted, w.handles)

example : outcome handleSample = .ok ([0], [(5, none), (4, none), (1, some 1)]) := by decide
example : outcome (handleSample ++ [.drop 1]) = .ok ([0, 1], [(5, none), (4, none)]) := by decide

example : ∃ i, Ideal.Run ⟨0, []⟩ handleSample i :=
  ⟨_, .cons (.make rfl) <| .cons (.copy rfl rfl) <| .cons (.make rfl) <| .cons (.incr (o := 0) rfl) <|
    .cons (.assign rfl rfl (by simp)) <| .cons (.assign rfl rfl (by simp)) <| .cons (.drop rfl) <| .cons (.null rfl) <|
    .cons (.copy rfl rfl) <| .cons (.assign rfl rfl (by simp)) <| .cons (.drop rfl) <| .cons (.incr (o := 1) rfl) .nil⟩

/-- **C40**, violated: assigning a null handle (what `end()` returns) to a handle that holds an object dereferences
the null pointer. -/
theorem C40_violated : outcome [.make 1 false, .null 2, .assign 1 2] = .error .ub := by decide

end Verif
