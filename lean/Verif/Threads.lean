import Verif.UserFile
import Verif.DecLocal

/-
Multi-threaded decoding of an aggregated frame: the pool of `Verif.Workers` with the decoding of one table
as a task, in steps of one row.

Models: src/odc/api/Odb.cc l.354-408, src/odc/core/Table.cc l.116-243.
-/

namespace Verif

/-- Progress of the decoding of one table. [core/Table.cc l.120-236, interrupted between rows] -/
inductive TaskSt
  | fresh
  | rows (row last : Nat) (slots : List Slot) (ps : List Nat) (stream : List Byte) (L : Lookup)
  | done (L : Lookup)
  | failed (e : Err)

/-- Memory: element of each requested column and row, and the local state of each task. -/
structure WMem where
  cells : Nat → Nat → Cell
  loc : Nat → TaskSt

/-- What task `k` owns: the rows of its slice, and its local state. -/
abbrev WView := (Nat → Nat → Cell) × TaskSt

/-- Number of rows and first row of table `k` of a frame. -/
def rowsAt (ts : List (Tbl × Lookup)) (k : Nat) : Nat :=
  match ts[k]? with
  | some t => t.1.info.nrows
  | none => 0

/-- Specification: the first row of a table among the rows of the frame. -/
def offAt (ts : List (Tbl × Lookup)) : Nat → Nat
  | 0 => 0
  | k + 1 => offAt ts k + rowsAt ts k

theorem offAt_le (ts : List (Tbl × Lookup)) {a b : Nat} (h : a ≤ b) : offAt ts a ≤ offAt ts b := by
  induction h with
  | refl => exact Nat.le_refl _
  | step _ ih => exact Nat.le_trans ih (Nat.le_add_right _ _)

theorem off_disjoint (ts : List (Tbl × Lookup)) (j k r : Nat) (hj : offAt ts j ≤ r ∧ r < offAt ts j + rowsAt ts j)
    (hk : offAt ts k ≤ r ∧ r < offAt ts k + rowsAt ts k) : j = k := by
  rcases Nat.lt_trichotomy j k with h | h | h
  · have := offAt_le ts (show j + 1 ≤ k by omega)
    simp only [offAt] at this; omega
  · exact h
  · have := offAt_le ts (show k + 1 ≤ j by omega)
    simp only [offAt] at this; omega

theorem off_cover (ts : List (Tbl × Lookup)) (n r : Nat) (h : r < offAt ts n) :
    ∃ k, k < n ∧ offAt ts k ≤ r ∧ r < offAt ts k + rowsAt ts k := by
  induction n with
  | zero => simp [offAt] at h
  | succ n ih =>
    by_cases hr : r < offAt ts n
    · obtain ⟨k, a, b⟩ := ih hr; exact ⟨k, by omega, b⟩
    · exact ⟨n, by omega, by omega, by simpa [offAt] using h⟩

/-- Rows from `n` on blanked out: not part of the slice. -/
def blank (n : Nat) (c : Nat → Nat → Cell) : Nat → Nat → Cell := fun i r => if r < n then c i r else []

/-- Memory cut by tables. [The slices of api/Odb.cc l.354-408] -/
def tableParts (ts : List (Tbl × Lookup)) : Parts WMem WView (Nat → Nat → Cell) where
  view k m := (blank (rowsAt ts k) (fun i r => m.cells i (offAt ts k + r)), m.loc k)
  rest m := fun i r => if r < offAt ts ts.length then [] else m.cells i r
  ext := by
    intro m m' h hr
    obtain ⟨c, l⟩ := m
    obtain ⟨c', l'⟩ := m'
    simp only [Prod.mk.injEq] at h
    have hl : l = l' := funext (fun k => (h k).2)
    have hc : c = c' := by
      funext i r
      by_cases hlt : r < offAt ts ts.length
      · obtain ⟨k, _, a, b⟩ := off_cover ts _ r hlt
        have := congrFun (congrFun (h k).1 i) (r - offAt ts k)
        simp only [blank] at this
        rw [if_pos (by omega), if_pos (by omega), show offAt ts k + (r - offAt ts k) = r by omega] at this
        exact this
      · have := congrFun (congrFun hr i) r
        simp only [if_neg hlt] at this
        exact this
    rw [hl, hc]

/-- A step of task `k`: reads its slice and local state, and writes them back. -/
def lift (ts : List (Tbl × Lookup)) (k : Nat) (g : WView → WView) (m : WMem) : WMem :=
  let v := g ((tableParts ts).view k m)
  ⟨fun i r => if offAt ts k ≤ r ∧ r < offAt ts k + rowsAt ts k then v.1 i (r - offAt ts k) else m.cells i r,
   fun j => if j = k then v.2 else m.loc j⟩

theorem lift_acts (ts : List (Tbl × Lookup)) (k : Nat) (hk : k < ts.length) (g : WView → WView) :
    Acts (tableParts ts) k (lift ts k g) (fun v => (blank (rowsAt ts k) (g v).1, (g v).2)) := by
  intro m
  refine ⟨?_, ?_, ?_⟩
  · unfold lift
    simp only [tableParts, Prod.mk.injEq, if_true, and_true]
    funext i r
    simp only [blank]
    by_cases hr : r < rowsAt ts k
    · rw [if_pos hr, if_pos hr,
        if_pos (show offAt ts k ≤ offAt ts k + r ∧ offAt ts k + r < offAt ts k + rowsAt ts k by omega),
        Nat.add_sub_cancel_left]
    · rw [if_neg hr, if_neg hr]
  · intro j hj
    unfold lift
    simp only [tableParts, Prod.mk.injEq, if_neg hj, and_true]
    funext i r
    simp only [blank]
    by_cases hr : r < rowsAt ts j
    · rw [if_pos hr, if_pos hr, if_neg]
      intro hc
      exact hj (off_disjoint ts j k (offAt ts j + r) (by omega) hc)
    · rw [if_neg hr, if_neg hr]
  · unfold lift
    simp only [tableParts]
    funext i r
    by_cases hr : r < offAt ts ts.length
    · rw [if_pos hr, if_pos hr]
    · rw [if_neg hr, if_neg hr, if_neg]
      have := offAt_le ts (show k + 1 ≤ ts.length by omega)
      simp only [offAt] at this
      omega

/-! ### Decoding one table row by row -/

/-- Targets of one table: the slice of each requested column. [api/Odb.cc l.354-408] -/
def sliceTargets (n : Nat) (req : List (Str × Target)) (c : Nat → Nat → Cell) : List (Str × Target) :=
  req.mapIdx (fun i e => (e.1, ⟨n, e.2.elem, c i⟩))

/-- The elements of the wanted columns as they are in memory. -/
def refresh (ps : List Nat) (c : Nat → Nat → Cell) (ss : List Slot) : List Slot :=
  ss.mapIdx (fun p s => match ps.findIdx? (fun q => decide (q = p)) with
    | some i => { s with mem := c i }
    | none => s)

/-- Memory after the columns have been written. -/
def flush (ps : List Nat) (ss : List Slot) (c : Nat → Nat → Cell) : Nat → Nat → Cell := fun i =>
  match ps[i]? with
  | some p => (match ss[p]? with | some s => s.mem | none => fun _ => [])
  | none => c i

/-- Lookup, resolution of the columns, reading the data, initial values: Table.cc l.120-190. -/
def taskStart (f : File) (t : Tbl) (L : Lookup) (req : List (Str × Target)) (v : WView) : WView :=
  match columnLookup (t.info.cols.map Col.name) L with
  | (_, some e) => (v.1, .failed e)
  | (L', none) =>
    if t.info.cols.length < req.length then (v.1, .failed .assertFailed)
    else
      match resolve L' t.info.nrows (sliceTargets t.info.nrows req v.1) [] with
      | .error e => (v.1, .failed e)
      | .ok ps =>
        match t.data f with
        | .error e => (v.1, .failed e)
        | .ok d =>
          if t.info.nrows = 0 then (v.1, .done L')
          else if t.order = .other ∧ t.info.cols ≠ [] then (v.1, .failed .seriousBug)
          else
            match initAll ((List.range t.info.cols.length).map
                (mkSlot t.info.cols ((sliceTargets t.info.nrows req v.1).map Prod.snd) ps)) with
            | .error e => (v.1, .failed e)
            | .ok ss => (flush ps ss v.1, .rows 0 0 ss ps d L')

/-- One row of the loop, Table.cc l.197-222. -/
def rowStep (o : Order) (row last : Nat) (ss : List Slot) : P (Nat × List Slot) := do
  let m ← readBytes 2
  let ss ← P.lift (fillRange (markerStart m) last row ss)
  let tail ← decSlots o row (ss.drop (markerStart m))
  pure (markerStart m, ss.take (markerStart m) ++ tail)

/-- Proof device: the next row of a task. -/
def taskRow (t : Tbl) (v : WView) : WView :=
  match v.2 with
  | .rows row last ss ps d L =>
    match rowStep t.order row last (refresh ps v.1 ss) d with
    | .error e => (v.1, .failed e)
    | .ok ((m, ss'), d') => (flush ps ss' v.1, .rows (row + 1) m ss' ps d' L)
  | _ => v

/-- The final fill, Table.cc l.224-236. -/
def taskEnd (t : Tbl) (v : WView) : WView :=
  match v.2 with
  | .rows _ _ ss ps _ L =>
    match finish t.info.nrows (refresh ps v.1 ss) with
    | .error e => (v.1, .failed e)
    | .ok ss' => (flush ps ss' v.1, .done L)
  | _ => v

/-- The steps of one table. -/
def taskSteps (f : File) (t : Tbl) (L : Lookup) (req : List (Str × Target)) : List (WView → WView) :=
  taskStart f t L req :: (List.replicate t.info.nrows (taskRow t) ++ [taskEnd t])

/-- How a task ended. -/
def taskOutcome (v : WView) : Option Err :=
  match v.2 with
  | .done _ => none
  | .failed e => some e
  | _ => some .diverges

/-- Running the steps of a task without interruption, blanking what is not in its slice after each. -/
def runTask (n : Nat) : List (WView → WView) → WView → WView
  | [], v => v
  | g :: gs, v => runTask n gs (blank n (g v).1, (g v).2)

/-- Correspondence of a task's end with `Table::decode` on the slice. -/
def TaskOk (f : File) (t : Tbl) (L : Lookup) (req : List (Str × Target)) (c : Nat → Nat → Cell) (v : WView) : Prop :=
  match t.decode f L (sliceTargets t.info.nrows req c) with
  | (L', .ok out) => v.2 = .done L' ∧
      ∀ (i : Nat) (m : Nat → Cell), out[i]? = some m → ∀ r, r < t.info.nrows → v.1 i r = m r
  | (_, .error e) => v.2 = .failed e

theorem rowStep_dec (o : Order) (k row last : Nat) (ss : List Slot) (s : List Byte) :
    decRows o (k + 1) row last ss s = match rowStep o row last ss s with
      | .error e => .error e
      | .ok ((m, ss'), s') => decRows o k (row + 1) m ss' s' := by
  simp only [decRows, rowStep, P.bind_apply, P.pure_apply]
  cases readBytes 2 s with
  | error e => rfl
  | ok a =>
    simp only
    cases P.lift (fillRange (markerStart a.1) last row ss) a.2 with
    | error e => rfl
    | ok b =>
      simp only
      cases decSlots o row (b.1.drop (markerStart a.1)) b.2 with
      | error e => rfl
      | ok c => rfl

theorem RelP.rowStep {n : Nat} (o : Order) (row last : Nat) (hr : row < n) {ss ts : List Slot} (h : SameSlots n ss ts) :
    RelP (fun a b => a.1 = b.1 ∧ SameSlots n a.2 b.2) (rowStep o row last ss) (rowStep o row last ts) := by
  unfold Verif.rowStep
  refine RelP.bind (RelP.refl _) _ _ ?_
  rintro m _ rfl
  refine RelP.bind (RelP.lift (h.fillRange _ _ _)) _ _ ?_
  intro a b hab
  refine RelP.bind ((hab.drop _).dec o row hr) _ _ ?_
  intro c d hcd
  exact RelP.pure ⟨rfl, (hab.take _).append hcd⟩

theorem SameSlots.getp {n : Nat} {ss ts : List Slot} (h : SameSlots n ss ts) (p : Nat) (s t : Slot)
    (hs : ss[p]? = some s) (ht : ts[p]? = some t) : SameSlot n s t := by
  induction h generalizing p with
  | nil => simp at hs
  | cons h1 _ ih =>
    cases p with
    | zero => simp at hs ht; subst hs; subst ht; exact h1
    | succ p => exact ih p (by simpa using hs) (by simpa using ht)

theorem SameSlots.of_get {n : Nat} (ss ts : List Slot) (hl : ss.length = ts.length)
    (h : ∀ (p : Nat) (s t : Slot), ss[p]? = some s → ts[p]? = some t → SameSlot n s t) : SameSlots n ss ts := by
  induction ss generalizing ts with
  | nil => cases ts with
    | nil => exact .nil
    | cons _ _ => simp at hl
  | cons s ss ih => cases ts with
    | nil => simp at hl
    | cons t ts =>
      refine .cons (h 0 s t rfl rfl) (ih ts (by simpa using hl) ?_)
      intro p a b ha hb
      exact h (p + 1) a b (by simpa using ha) (by simpa using hb)

theorem SameSlot.self {n : Nat} {s t : Slot} (h : SameSlot n s t) : SameSlot n s s :=
  ⟨rfl, rfl, rfl, rfl, rfl, h.lt, fun _ _ => rfl⟩

/-- Reading back what was written. -/
theorem refresh_same {n : Nat} (ps : List Nat) (c : Nat → Nat → Cell) {ss ts : List Slot} (h : SameSlots n ss ts) :
    SameSlots n (refresh ps (blank n (flush ps ss c)) ss) ts := by
  refine SameSlots.of_get _ _ (by simp [refresh, h.length]) ?_
  intro p s t hs ht
  simp only [refresh, List.getElem?_mapIdx, Option.map_eq_some_iff] at hs
  obtain ⟨s0, hs0, hs⟩ := hs
  have h0 := h.getp p s0 t hs0 ht
  split at hs
  · rename_i i hi
    rw [← hs]
    refine ⟨h0.codec, h0.first, h0.visit, h0.elem, h0.last, h0.lt, ?_⟩
    intro r hr
    obtain ⟨hil, hpi, _⟩ := List.findIdx?_eq_some_iff_getElem.mp hi
    have hpi' : ps[i] = p := by simpa using hpi
    have hps : ps[i]? = some p := by rw [List.getElem?_eq_getElem hil, hpi']
    simp only [blank, if_pos hr, flush, hps, hs0]
    exact h0.mem r hr
  · rw [← hs]; exact h0

theorem runTask_append (n : Nat) (a b : List (WView → WView)) (v : WView) :
    runTask n (a ++ b) v = runTask n b (runTask n a v) := by
  induction a generalizing v with
  | nil => rfl
  | cons g a ih => simp only [List.cons_append, runTask, ih]

theorem runTask_failed (n : Nat) (t : Tbl) (k : Nat) (c : Nat → Nat → Cell) (e : Err) :
    (runTask n (List.replicate k (taskRow t)) (c, .failed e)).2 = .failed e := by
  induction k generalizing c with
  | zero => rfl
  | succ k ih => rw [List.replicate_succ]; simp only [runTask, taskRow]; exact ih _

theorem runTask_done (n : Nat) (t : Tbl) (k : Nat) (c : Nat → Nat → Cell) (L : Lookup) :
    (runTask n (List.replicate k (taskRow t)) (c, .done L)).2 = .done L := by
  induction k generalizing c with
  | zero => rfl
  | succ k ih => rw [List.replicate_succ]; simp only [runTask, taskRow]; exact ih _

theorem taskEnd_failed (t : Tbl) (v : WView) (e : Err) (h : v.2 = .failed e) : taskEnd t v = v := by
  unfold taskEnd; rw [h]

/-- The rows, step by step, against `decRows` and the final fill. -/
theorem runTask_rows (t : Tbl) (ps : List Nat) (L : Lookup) (hn : 0 < t.info.nrows) (k row last : Nat)
    (hk : row + k ≤ t.info.nrows) (c0 : Nat → Nat → Cell) (ss ts : List Slot) (d : List Byte)
    (h : SameSlots t.info.nrows ss ts) :
    match decRows t.order k row last ts d with
    | .error e => (runTask t.info.nrows (List.replicate k (taskRow t) ++ [taskEnd t])
        (blank t.info.nrows (flush ps ss c0), .rows row last ss ps d L)).2 = .failed e
    | .ok (ts', _) =>
      match finish t.info.nrows ts' with
      | .error e => (runTask t.info.nrows (List.replicate k (taskRow t) ++ [taskEnd t])
          (blank t.info.nrows (flush ps ss c0), .rows row last ss ps d L)).2 = .failed e
      | .ok ts'' => (runTask t.info.nrows (List.replicate k (taskRow t) ++ [taskEnd t])
          (blank t.info.nrows (flush ps ss c0), .rows row last ss ps d L)).2 = .done L ∧
          ∀ (i p : Nat), ps[i]? = some p → ∀ r, r < t.info.nrows →
            (runTask t.info.nrows (List.replicate k (taskRow t) ++ [taskEnd t])
              (blank t.info.nrows (flush ps ss c0), .rows row last ss ps d L)).1 i r =
              (match ts''[p]? with | some s => s.mem | none => fun _ => []) r := by
  induction k generalizing row last c0 ss ts d with
  | zero =>
    simp only [decRows, P.pure_apply, List.replicate_zero, List.nil_append, runTask, taskEnd]
    have hrs := refresh_same ps c0 h
    rcases (hrs.finish t.info.nrows).both with ⟨e, hx, hy⟩ | ⟨a, b, hx, hy, hab⟩
    · simp only [hx, hy]
    · simp only [hx, hy]
      refine ⟨trivial, ?_⟩
      intro i p hip r hr
      simp only [blank, if_pos hr, flush, hip]
      exact hab.get p r hr
  | succ k ih =>
    rw [rowStep_dec, List.replicate_succ]
    simp only [List.cons_append, runTask, taskRow]
    have hrs := refresh_same ps c0 h
    have hstep := RelP.rowStep t.order row last (by omega) hrs d
    rcases hstep.both with ⟨e, hx, hy⟩ | ⟨a, b, hx, hy, hab⟩
    · simp only [hx, hy]
      rw [runTask_append]
      simp only [runTask]
      rw [taskEnd_failed _ _ e (runTask_failed _ t k _ e)]
      exact runTask_failed _ t k _ e
    · obtain ⟨⟨h1, h2⟩, h3⟩ := hab
      obtain ⟨⟨m, ss'⟩, d1⟩ := a
      obtain ⟨⟨m', ts'⟩, d2⟩ := b
      simp only at h1 h2 h3
      subst h1; subst h3
      simp only [hx, hy]
      exact ih (row + 1) m (by omega) _ ss' ts' d1 h2

/-- **A task decodes its table**: running the steps of a table gives what `Table::decode` gives. -/
theorem task_decodes (f : File) (t : Tbl) (L : Lookup) (req : List (Str × Target)) (c : Nat → Nat → Cell) :
    TaskOk f t L req c (runTask t.info.nrows (taskSteps f t L req) (c, .fresh)) := by
  have hlen : (sliceTargets t.info.nrows req c).length = req.length := by simp [sliceTargets]
  unfold TaskOk taskSteps Tbl.decode
  simp only [runTask]
  rw [hlen]
  have fl : ∀ c' e, (runTask t.info.nrows (List.replicate t.info.nrows (taskRow t) ++ [taskEnd t]) (c', .failed e)).2 =
      .failed e := by
    intro c' e
    rw [runTask_append]
    simp only [runTask]
    rw [taskEnd_failed _ _ e (runTask_failed _ t _ _ e)]
    exact runTask_failed _ t _ _ e
  unfold taskStart
  cases hL : columnLookup (t.info.cols.map Col.name) L with
  | mk L' oe =>
  cases oe with
  | some e => simp only; exact fl _ e
  | none =>
  simp only
  by_cases h1 : t.info.cols.length < req.length
  · simp only [if_pos h1]; exact fl _ _
  simp only [if_neg h1]
  cases hres : resolve L' t.info.nrows (sliceTargets t.info.nrows req c) [] with
  | error e => simp only; exact fl _ e
  | ok ps =>
  simp only
  cases hd : t.data f with
  | error e => simp only; exact fl _ e
  | ok d =>
  simp only
  unfold tableDecode
  rw [hlen, if_neg h1, hres]
  simp only
  by_cases hn : t.info.nrows = 0
  · simp only [hn, if_true, List.replicate_zero, List.nil_append, runTask, taskEnd]
    exact ⟨trivial, by omega⟩
  simp only [if_neg hn]
  by_cases ho : t.order = .other ∧ t.info.cols ≠ []
  · simp only [if_pos ho]; exact fl _ _
  simp only [if_neg ho]
  generalize hss : (List.range t.info.cols.length).map
    (mkSlot t.info.cols ((sliceTargets t.info.nrows req c).map Prod.snd) ps) = ss
  unfold decodeTable
  rw [if_neg hn]
  cases hi : initAll ss with
  | error e => simp only; exact fl _ e
  | ok ss1 =>
  simp only
  have hself : SameSlots t.info.nrows ss1 ss1 := by
    have : SameSlots t.info.nrows ss ss := by
      rw [← hss]
      generalize List.range t.info.cols.length = l
      induction l with
      | nil => exact .nil
      | cons p l ih =>
        refine .cons ?_ ih
        have h0 : (mkSlot t.info.cols ((sliceTargets t.info.nrows req c).map Prod.snd) ps p).last = 0 := by
          unfold mkSlot; dsimp only; split <;> rfl
        exact ⟨rfl, rfl, rfl, rfl, rfl, by rw [h0]; omega, fun _ _ => rfl⟩
    have h2 := this.initAll (by omega)
    rw [hi] at h2; exact h2
  have hrun := runTask_rows t ps L' (by omega) t.info.nrows 0 0 (by omega) c ss1 ss1 d hself
  cases hdr : decRows t.order t.info.nrows 0 0 ss1 d with
  | error e => rw [hdr] at hrun; exact hrun
  | ok x =>
    obtain ⟨ts', s'⟩ := x
    rw [hdr] at hrun
    simp only at hrun ⊢
    cases hfin : finish t.info.nrows ts' with
    | error e => rw [hfin] at hrun; exact hrun
    | ok ts'' =>
      rw [hfin] at hrun
      simp only at hrun ⊢
      refine ⟨hrun.1, ?_⟩
      intro i m hm r hr
      simp only [List.getElem?_map, Option.map_eq_some_iff] at hm
      obtain ⟨p, hp, rfl⟩ := hm
      exact hrun.2 i p hp r hr

/-! ### The job of decoding a frame -/

/-- Steps of table `k`. [api/Odb.cc l.354-408] -/
def frameSteps (f : File) (ts : List (Tbl × Lookup)) (req : List (Str × Target)) (k : Nat) : List (WView → WView) :=
  match ts[k]? with
  | some (t, L) => taskSteps f t L req
  | none => []

/-- The worker threads' job: one task per table. [api/Odb.cc l.354-408] -/
def frameJob (f : File) (ts : List (Tbl × Lookup)) (req : List (Str × Target)) :
    Job WMem WView (Nat → Nat → Cell) (tableParts ts) where
  n := ts.length
  prog k := (frameSteps f ts req k).map (lift ts k)
  outcome := taskOutcome
  isLocal := by
    intro k hk s hs
    simp only [List.mem_map] at hs
    obtain ⟨g, _, rfl⟩ := hs
    exact ⟨_, lift_acts ts k hk g⟩

/-- Memory at the start: the targets' elements. [api/Odb.cc l.354-408] -/
def startMem (req : List (Str × Target)) : WMem :=
  ⟨fun i r => match req[i]? with | some e => e.2.mem r | none => [], fun _ => .fresh⟩

theorem runAll_view (ts : List (Tbl × Lookup)) (k : Nat) (hk : k < ts.length) (gs : List (WView → WView)) (m : WMem) :
    (tableParts ts).view k (runAll (gs.map (lift ts k)) m) = runTask (rowsAt ts k) gs ((tableParts ts).view k m) := by
  induction gs generalizing m with
  | nil => rfl
  | cons g gs ih =>
    simp only [List.map_cons, runAll, List.foldl_cons, runTask]
    have h := (lift_acts ts k hk g m).1
    have h2 := ih (lift ts k g m)
    simp only [runAll] at h2
    rw [h2, h]

/-! ### Decoding of a table depends only on the rows of its slice -/

theorem Tbl.decode_local (f : File) (t : Tbl) (L : Lookup) {a b : List (Str × Target)}
    (h : SameReq t.info.nrows a b) :
    (t.decode f L a).1 = (t.decode f L b).1 ∧
      RelE (SameOut t.info.nrows) (t.decode f L a).2 (t.decode f L b).2 := by
  unfold Tbl.decode
  rw [h.length]
  cases columnLookup (t.info.cols.map Col.name) L with
  | mk L' oe =>
  cases oe with
  | some e => exact ⟨rfl, rfl⟩
  | none =>
  simp only
  by_cases h1 : t.info.cols.length < b.length
  · simp only [if_pos h1]; exact ⟨trivial, rfl⟩
  simp only [if_neg h1, h.resolve]
  cases resolve L' t.info.nrows b [] with
  | error e => exact ⟨rfl, rfl⟩
  | ok ps =>
  simp only
  cases t.data f with
  | error e => exact ⟨rfl, rfl⟩
  | ok d => exact ⟨rfl, tableDecode_local _ _ _ _ _ h⟩

/-- The slice of a request, without the checks. -/
def subReq (off n : Nat) (req : List (Str × Target)) : List (Str × Target) :=
  req.map (fun e => (e.1, ⟨n, e.2.elem, fun r => e.2.mem (off + r)⟩))

theorem sliceReq_sub (off n : Nat) (req : List (Str × Target)) (hb : off + n < 18446744073709551616)
    (h : ∀ e ∈ req, off + n ≤ e.2.nelem) : sliceReq off n req = .ok (subReq off n req) := by
  induction req with
  | nil => rfl
  | cons e req ih =>
    obtain ⟨nm, t⟩ := e
    have h1 : off + n ≤ t.nelem := h (nm, t) (by simp)
    have h2 := ih (fun e he => h e (by simp [he]))
    simp only [sliceReq, Target.slice]
    rw [Nat.mod_eq_of_lt hb, if_neg (by omega), if_neg (by omega)]
    simp only [h2, subReq, List.map_cons]

theorem sliceReq_short (off n : Nat) (req : List (Str × Target)) (hb : off + n < 18446744073709551616)
    (h : ∃ e ∈ req, e.2.nelem < off + n) : sliceReq off n req = .error .assertFailed := by
  induction req with
  | nil => simp at h
  | cons e req ih =>
    obtain ⟨nm, t⟩ := e
    simp only [sliceReq, Target.slice, Nat.mod_eq_of_lt hb]
    by_cases h1 : t.nelem < off + n
    · rw [if_pos h1]
    · rw [if_neg h1]
      rw [ih (by
        obtain ⟨e, he, hlt⟩ := h
        rcases List.mem_cons.mp he with rfl | he
        · exact absurd hlt h1
        · exact ⟨e, he, hlt⟩), if_neg h1]

theorem tableDecode_length (o : Order) (cols : List Col) (n : Nat) (data : List Byte) (L : Lookup)
    (req : List (Str × Target)) (out : List (Nat → Cell)) (h : tableDecode o cols n data L req = .ok out) :
    out.length = req.length := by
  unfold tableDecode at h
  split at h
  · cases h
  cases hr : resolve L n req [] with
  | error e => rw [hr] at h; cases h
  | ok ps =>
    have hl := (resolve_ok _ _ _ _ _ hr).1
    rw [hr] at h
    simp only at h
    split at h
    · cases h; simp
    split at h
    · cases h
    · split at h
      · cases h
      · cases h; simp [hl]

theorem Tbl.decode_length (f : File) (t : Tbl) (L L' : Lookup) (req : List (Str × Target)) (out : List (Nat → Cell))
    (h : t.decode f L req = (L', .ok out)) : out.length = req.length := by
  unfold Tbl.decode at h
  split at h
  · cases h
  · split at h
    · cases h
    · split at h
      · cases h
      · split at h
        · cases h
        · simp only [Prod.mk.injEq] at h; exact tableDecode_length _ _ _ _ _ _ _ h.2

/-! ### One thread: each table on its slice of the initial targets -/

/-- What decoding table `k` on its own slice gives. -/
def tblDecode (f : File) (ts : List (Tbl × Lookup)) (req : List (Str × Target)) (k : Nat) :
    Except Err (List (Nat → Cell)) :=
  match ts[k]? with
  | some (t, L) => (t.decode f L (subReq (offAt ts k) t.info.nrows req)).2
  | none => .ok []

theorem SameReq.of_get (n : Nat) (a b : List (Str × Target)) (hl : a.length = b.length)
    (h : ∀ (i : Nat) (e e' : Str × Target), a[i]? = some e → b[i]? = some e' →
      e.1 = e'.1 ∧ e.2.nelem = e'.2.nelem ∧ e.2.elem = e'.2.elem ∧ ∀ r, r < n → e.2.mem r = e'.2.mem r) :
    SameReq n a b := by
  induction a generalizing b with
  | nil => cases b with
    | nil => exact .nil
    | cons _ _ => simp at hl
  | cons x a ih => cases b with
    | nil => simp at hl
    | cons y b =>
      obtain ⟨nm, t⟩ := x
      obtain ⟨nm', u⟩ := y
      obtain ⟨h1, h2, h3, h4⟩ := h 0 _ _ rfl rfl
      simp only at h1 h2 h3 h4
      subst h1
      exact .cons h2 h3 h4 (ih b (by simpa using hl) (fun i e e' he he' =>
        h (i + 1) e e' (by simpa using he) (by simpa using he')))

/-- Same names and sizes, and the same elements from row `off` on. -/
structure AgreeFrom (off : Nat) (a b : List (Str × Target)) : Prop where
  len : a.length = b.length
  at_ : ∀ (i : Nat) (e e' : Str × Target), a[i]? = some e → b[i]? = some e' →
      e.1 = e'.1 ∧ e.2.nelem = e'.2.nelem ∧ e.2.elem = e'.2.elem ∧ ∀ r, off ≤ r → e.2.mem r = e'.2.mem r

theorem AgreeFrom.sub {off : Nat} {a b : List (Str × Target)} (h : AgreeFrom off a b) (n : Nat) :
    SameReq n (subReq off n a) (subReq off n b) := by
  apply SameReq.of_get
  · simp [subReq, h.len]
  · intro i e e' he he'
    simp only [subReq, List.getElem?_map, Option.map_eq_some_iff] at he he'
    obtain ⟨x, hx, rfl⟩ := he
    obtain ⟨y, hy, rfl⟩ := he'
    obtain ⟨h1, h2, h3, h4⟩ := h.at_ i x y hx hy
    exact ⟨h1, rfl, h3, fun r _ => h4 _ (by omega)⟩

theorem AgreeFrom.put {off : Nat} {a b : List (Str × Target)} (h : AgreeFrom off a b) (n : Nat)
    (out : List (Nat → Cell)) (ho : out.length = a.length) : AgreeFrom (off + n) (putBacks off n a out) b := by
  refine ⟨by simp [putBacks, ho, h.len], ?_⟩
  intro i e e' he he'
  simp only [putBacks, List.getElem?_map, Option.map_eq_some_iff] at he
  obtain ⟨x, hx, rfl⟩ := he
  obtain ⟨hx1, hx2⟩ := List.getElem?_zip_eq_some.mp hx
  obtain ⟨h1, h2, h3, h4⟩ := h.at_ i x.1 e' hx1 he'
  refine ⟨h1, h2, h3, ?_⟩
  intro r hr
  simp only [putBack]
  rw [if_neg (by omega)]
  exact h4 r (by omega)

theorem offAt_succ (ts : List (Tbl × Lookup)) (k : Nat) (t : Tbl) (L : Lookup) (h : ts[k]? = some (t, L)) :
    offAt ts (k + 1) = offAt ts k + t.info.nrows := by
  simp only [offAt, rowsAt, h]

theorem frameSeq_tables (f : File) (ts : List (Tbl × Lookup)) (req0 : List (Str × Target))
    (htot : offAt ts ts.length < 18446744073709551616) (hroom : ∀ e ∈ req0, offAt ts ts.length ≤ e.2.nelem)
    (d k : Nat) (hk : k + d = ts.length) (req : List (Str × Target)) (hreq : AgreeFrom (offAt ts k) req req0) :
    match (frameSeq f (ts.drop k) (offAt ts k) req).2 with
    | .error e => ∃ j, k ≤ j ∧ j < ts.length ∧ tblDecode f ts req0 j = .error e
    | .ok out => out.length = req.length ∧
        (∀ j, k ≤ j → j < ts.length → ∃ oj, tblDecode f ts req0 j = .ok oj ∧ oj.length = req.length ∧
          ∀ (i : Nat) (m mj : Nat → Cell), out[i]? = some m → oj[i]? = some mj → ∀ r, r < rowsAt ts j →
            m (offAt ts j + r) = mj r) ∧
        ∀ (i : Nat) (m : Nat → Cell) (e : Str × Target), out[i]? = some m → req[i]? = some e →
          ∀ r, (r < offAt ts k ∨ offAt ts ts.length ≤ r) → m r = e.2.mem r := by
  induction d generalizing k req with
  | zero =>
    have hd : ts.drop k = [] := List.drop_eq_nil_of_le (by omega)
    rw [hd]
    simp only [frameSeq]
    refine ⟨by simp, fun j h1 h2 => by omega, ?_⟩
    intro i m e hm he r _
    rw [List.getElem?_map, he] at hm
    simp at hm; rw [← hm]
  | succ d ih =>
    rcases htl : ts[k]'(by omega) with ⟨t, L⟩
    have hg : ts[k]? = some (t, L) := by rw [List.getElem?_eq_getElem (by omega), htl]
    have hd : ts.drop k = (t, L) :: ts.drop (k + 1) := by rw [List.drop_eq_getElem_cons (by omega), htl]
    have hoff := offAt_succ ts k t L hg
    have hle := offAt_le ts (show k + 1 ≤ ts.length by omega)
    have hle0 := offAt_le ts (show k ≤ ts.length by omega)
    have hrow : rowsAt ts k = t.info.nrows := by simp only [rowsAt, hg]
    rw [hd]
    simp only [frameSeq]
    rw [sliceReq_sub _ _ _ (by omega) (by
      intro e he
      obtain ⟨i, hi⟩ := List.mem_iff_getElem?.mp he
      have hil := (List.getElem?_eq_some_iff.mp hi).1
      have hi0 : req0[i]? = some (req0[i]'(by rw [← hreq.len]; exact hil)) := List.getElem?_eq_getElem _
      have h1 := (hreq.at_ i _ _ hi hi0).2.1
      have h2 := hroom _ (List.mem_of_getElem? hi0)
      omega)]
    simp only
    obtain ⟨l1, l2⟩ := Tbl.decode_local f t L (hreq.sub t.info.nrows)
    have htd : tblDecode f ts req0 k = (t.decode f L (subReq (offAt ts k) t.info.nrows req0)).2 := by
      simp only [tblDecode, hg]
    rcases hA : t.decode f L (subReq (offAt ts k) t.info.nrows req) with ⟨L', rA⟩
    rw [hA] at l1 l2
    rw [← htd] at l2
    rcases l2.both with ⟨e, hx, hy⟩ | ⟨a, b, hx, hy, hab⟩
    · simp only at hx
      subst hx
      simp only
      exact ⟨k, by omega, by omega, hy⟩
    · simp only at hx
      subst hx
      simp only
      have hal : a.length = req.length := by
        have := Tbl.decode_length _ _ _ _ _ _ hA
        simpa [subReq] using this
      rw [← hoff, Nat.mod_eq_of_lt (by omega)]
      have hput : AgreeFrom (offAt ts (k + 1)) (putBacks (offAt ts k) t.info.nrows req a) req0 := by
        rw [hoff]; exact hreq.put _ _ hal
      have := ih (k + 1) (by omega) _ hput
      have hpl : (putBacks (offAt ts k) t.info.nrows req a).length = req.length := by simp [putBacks, hal]
      cases hB : (frameSeq f (ts.drop (k + 1)) (offAt ts (k + 1)) (putBacks (offAt ts k) t.info.nrows req a)).2 with
      | error e =>
        rw [hB] at this
        obtain ⟨j, j1, j2, j3⟩ := this
        exact ⟨j, by omega, j2, j3⟩
      | ok out =>
        rw [hB] at this
        obtain ⟨o1, o2, o3⟩ := this
        have key : ∀ (i : Nat) (m : Nat → Cell), out[i]? = some m → ∃ e ma, req[i]? = some e ∧ a[i]? = some ma ∧
            ∀ r, (r < offAt ts (k + 1) ∨ offAt ts ts.length ≤ r) →
              m r = putBack (offAt ts k) t.info.nrows e.2.mem ma r := by
          intro i m hm
          have hil := (List.getElem?_eq_some_iff.mp hm).1
          have he : req[i]? = some (req[i]'(by omega)) := List.getElem?_eq_getElem _
          have ha : a[i]? = some (a[i]'(by omega)) := List.getElem?_eq_getElem _
          refine ⟨_, _, he, ha, ?_⟩
          intro r hr
          have hz : (req.zip a)[i]? = some (req[i]'(by omega), a[i]'(by omega)) :=
            List.getElem?_zip_eq_some.mpr ⟨he, ha⟩
          exact o3 i m _ hm (by rw [putBacks, List.getElem?_map, hz]; rfl) r hr
        refine ⟨by rw [o1, hpl], ?_, ?_⟩
        · intro j h1 h2
          by_cases hj : j = k
          · subst hj
            refine ⟨b, hy, ?_, ?_⟩
            · have hb := hy
              rw [htd] at hb
              have := Tbl.decode_length f t L (t.decode f L (subReq (offAt ts j) t.info.nrows req0)).1
                (subReq (offAt ts j) t.info.nrows req0) b (by rw [← hb])
              rw [this, subReq, List.length_map, hreq.len]
            · intro i m mj hm hmj r hr
              rw [hrow] at hr
              obtain ⟨e, ma, q1, q2, q3⟩ := key i m hm
              obtain ⟨m', q4, q5⟩ := hab.get i ma q2
              rw [hmj] at q4
              simp only [Option.some.injEq] at q4
              subst q4
              rw [q3 _ (by omega), putBack, if_pos (by omega), Nat.add_sub_cancel_left]
              exact q5 r hr
          · obtain ⟨oj, p1, p2, p3⟩ := o2 j (by omega) h2
            exact ⟨oj, p1, by rw [p2, hpl], p3⟩
        · intro i m e hm he r hr
          obtain ⟨e', ma, q1, q2, q3⟩ := key i m hm
          rw [he] at q1
          simp only [Option.some.injEq] at q1
          subst q1
          rw [q3 r (by omega), putBack, if_neg (by omega)]

/-! ### `Frame::decode` with any number of threads -/

/-- The slices made by the main thread before the threads are started, Odb.cc l.361-373. -/
def sliceAll : List (Tbl × Lookup) → Nat → List (Str × Target) → Option Err
  | [], _, _ => none
  | (t, _) :: ts, off, req =>
    match sliceReq off t.info.nrows req with
    | .error e => some e
    | .ok _ => sliceAll ts ((off + t.info.nrows) % 18446744073709551616) req

/-- The exception rethrown by the first `thread.get()` that throws, Odb.cc l.403-405. -/
def Pool.verdict (q : Pool WMem) : Option Err :=
  q.workers.findSome? (fun w => match w with | .failed _ e => some e | _ => none)

/-- The possible results of `FrameImpl::decode(target, nthreads)`, Odb.cc l.354-408: the content of each
target's memory, or the exception. -/
inductive FrameDecodes (f : File) (ts : List (Tbl × Lookup)) (req : List (Str × Target)) (nthreads : Nat) :
    Except Err (List (Nat → Cell)) → Prop
  | single (t L) : ts = [(t, L)] → FrameDecodes f ts req nthreads (t.decode f L req).2
  | seq : ts.length ≠ 1 → nthreads = 1 → FrameDecodes f ts req nthreads (frameSeq f ts 0 req).2
  | slice (e) : ts.length ≠ 1 → nthreads ≠ 1 → sliceAll ts 0 req = some e → FrameDecodes f ts req nthreads (.error e)
  | nothing : ts.length ≠ 1 → nthreads = 0 → sliceAll ts 0 req = none →
      FrameDecodes f ts req nthreads (.ok (req.map (fun e => e.2.mem)))
  | threads (q : Pool WMem) : ts.length ≠ 1 → 1 < nthreads → sliceAll ts 0 req = none →
      Pool.Reach (frameJob f ts req) (Pool.start nthreads (startMem req)) q → q.Over →
      FrameDecodes f ts req nthreads (match q.verdict with
        | some e => .error e
        | none => .ok ((List.range req.length).map q.mem.cells))

theorem sliceAll_ok (ts0 : List (Tbl × Lookup)) (req : List (Str × Target))
    (htot : offAt ts0 ts0.length < 18446744073709551616) (hroom : ∀ e ∈ req, offAt ts0 ts0.length ≤ e.2.nelem)
    (d k : Nat) (hk : k + d = ts0.length) : sliceAll (ts0.drop k) (offAt ts0 k) req = none := by
  induction d generalizing k with
  | zero => rw [List.drop_eq_nil_of_le (by omega)]; rfl
  | succ d ih =>
    rcases htl : ts0[k]'(by omega) with ⟨t, L⟩
    have hg : ts0[k]? = some (t, L) := by rw [List.getElem?_eq_getElem (by omega), htl]
    rw [show ts0.drop k = (t, L) :: ts0.drop (k + 1) by rw [List.drop_eq_getElem_cons (by omega), htl]]
    have hoff := offAt_succ ts0 k t L hg
    have hle := offAt_le ts0 (show k + 1 ≤ ts0.length by omega)
    simp only [sliceAll]
    rw [sliceReq_sub _ _ _ (by omega) (fun e he => by have := hroom e he; omega)]
    simp only
    rw [← hoff, Nat.mod_eq_of_lt (by omega)]
    exact ih (k + 1) (by omega)

theorem putBacks_nelem (off n : Nat) (req : List (Str × Target)) (out : List (Nat → Cell)) (hl : out.length = req.length) :
    (putBacks off n req out).map (fun e => e.2.nelem) = req.map (fun e => e.2.nelem) := by
  unfold putBacks
  induction req generalizing out with
  | nil => simp
  | cons e req ih =>
    cases out with
    | nil => simp at hl
    | cons o out => simp only [List.zip_cons_cons, List.map_cons, ih out (by simpa using hl)]

theorem sliceReq_nelem (off n : Nat) (a b : List (Str × Target))
    (h : a.map (fun e => e.2.nelem) = b.map (fun e => e.2.nelem)) (e : Err) (he : sliceReq off n a = .error e) :
    sliceReq off n b = .error e := by
  induction a generalizing b with
  | nil => cases he
  | cons x a ih =>
    cases b with
    | nil => simp at h
    | cons y b =>
      obtain ⟨nx, tx⟩ := x
      obtain ⟨ny, ty⟩ := y
      simp only [List.map_cons, List.cons.injEq] at h
      have ih' := ih b h.2
      simp only [sliceReq, Target.slice, h.1] at he ⊢
      by_cases h1 : ty.nelem < (off + n) % 18446744073709551616
      · simp only [if_pos h1] at he ⊢; exact he
      · simp only [if_neg h1] at he ⊢
        by_cases h2 : ty.nelem < off + n
        · simp only [if_pos h2] at he ⊢; exact he
        · simp only [if_neg h2] at he ⊢
          cases hs : sliceReq off n a with
          | error e' =>
            rw [hs] at he
            cases he
            rw [ih' hs]
          | ok sub => rw [hs] at he; cases he

/-- When a target is too short for the tables, decoding with one thread fails as well. -/
theorem frameSeq_short (f : File) (ts : List (Tbl × Lookup)) (off : Nat) (a b : List (Str × Target))
    (h : a.map (fun e => e.2.nelem) = b.map (fun e => e.2.nelem)) (e : Err) (he : sliceAll ts off a = some e) :
    ∃ e', (frameSeq f ts off b).2 = .error e' := by
  induction ts generalizing off b with
  | nil => cases he
  | cons x ts ih =>
    obtain ⟨t, L⟩ := x
    simp only [sliceAll] at he
    simp only [frameSeq]
    cases hb : sliceReq off t.info.nrows b with
    | error e' => exact ⟨e', rfl⟩
    | ok sub =>
      simp only
      rcases hd : t.decode f L sub with ⟨L', r⟩
      cases r with
      | error e' => exact ⟨e', rfl⟩
      | ok out =>
        simp only
        cases ha : sliceReq off t.info.nrows a with
        | error e' =>
          have := sliceReq_nelem _ _ _ _ h e' ha
          rw [hb] at this; cases this
        | ok sub' =>
          rw [ha] at he
          have hl : out.length = b.length := by
            have h1 := Tbl.decode_length _ _ _ _ _ _ hd
            have h2 : sub.length = b.length := by
              clear * - hb
              induction b generalizing sub with
              | nil => cases hb; rfl
              | cons y b ih =>
                obtain ⟨ny, ty⟩ := y
                simp only [sliceReq] at hb
                split at hb
                · cases hb
                · split at hb
                  · cases hb
                  · rename_i hs
                    cases hb
                    simp [ih _ hs]
            omega
          exact ih _ (putBacks off t.info.nrows b out) (by rw [putBacks_nelem _ _ _ _ hl]; exact h) he

theorem sliceAll_room (ts0 : List (Tbl × Lookup)) (req : List (Str × Target))
    (htot : offAt ts0 ts0.length < 18446744073709551616) (d k : Nat) (hk : k + d = ts0.length)
    (h : sliceAll (ts0.drop k) (offAt ts0 k) req = none) (hbase : ∀ e ∈ req, offAt ts0 k ≤ e.2.nelem) :
    ∀ e ∈ req, offAt ts0 ts0.length ≤ e.2.nelem := by
  induction d generalizing k with
  | zero => have : k = ts0.length := by omega
            subst this; exact hbase
  | succ d ih =>
    rcases htl : ts0[k]'(by omega) with ⟨t, L⟩
    have hg : ts0[k]? = some (t, L) := by rw [List.getElem?_eq_getElem (by omega), htl]
    rw [show ts0.drop k = (t, L) :: ts0.drop (k + 1) by rw [List.drop_eq_getElem_cons (by omega), htl]] at h
    have hoff := offAt_succ ts0 k t L hg
    have hle := offAt_le ts0 (show k + 1 ≤ ts0.length by omega)
    have hroom : ∀ e ∈ req, offAt ts0 (k + 1) ≤ e.2.nelem := by
      intro e he
      apply Classical.byContradiction
      intro hc
      simp only [sliceAll] at h
      rw [sliceReq_short _ _ _ (by omega) ⟨e, he, by omega⟩] at h
      cases h
    simp only [sliceAll] at h
    split at h
    · cases h
    · rw [← hoff, Nat.mod_eq_of_lt (by omega)] at h
      exact ih (k + 1) (by omega) h hroom

/-- State of table `k` after its steps, on the initial memory. -/
theorem job_view (f : File) (ts : List (Tbl × Lookup)) (req : List (Str × Target)) (k : Nat) (t : Tbl) (L : Lookup)
    (hg : ts[k]? = some (t, L)) :
    (match tblDecode f ts req k with
      | .error e => taskOutcome ((tableParts ts).view k (seqMem (frameJob f ts req) ts.length (startMem req))) = some e
      | .ok oj => taskOutcome ((tableParts ts).view k (seqMem (frameJob f ts req) ts.length (startMem req))) = none ∧
          ∀ (i : Nat) (m : Nat → Cell), oj[i]? = some m → ∀ r, r < rowsAt ts k →
            (seqMem (frameJob f ts req) ts.length (startMem req)).cells i (offAt ts k + r) = m r) := by
  have hk : k < ts.length := (List.getElem?_eq_some_iff.mp hg).1
  have hrow : rowsAt ts k = t.info.nrows := by simp only [rowsAt, hg]
  have hv := (seqMem_view (frameJob f ts req) (startMem req) ts.length (Nat.le_refl _)).1 k hk
  have hrun := runAll_view ts k hk (frameSteps f ts req k) (startMem req)
  have hsteps : frameSteps f ts req k = taskSteps f t L req := by simp only [frameSteps, hg]
  have hv2 : (tableParts ts).view k (seqMem (frameJob f ts req) ts.length (startMem req)) =
      runTask t.info.nrows (taskSteps f t L req)
        (blank t.info.nrows (fun i r => (startMem req).cells i (offAt ts k + r)), .fresh) := by
    rw [hv]
    show (tableParts ts).view k (runAll ((frameSteps f ts req k).map (lift ts k)) (startMem req)) = _
    rw [hrun, hsteps, hrow]
    simp only [tableParts, hrow, startMem]
  have hok := task_decodes f t L req (blank t.info.nrows (fun i r => (startMem req).cells i (offAt ts k + r)))
  rw [← hv2] at hok
  have hsame : SameReq t.info.nrows
      (sliceTargets t.info.nrows req (blank t.info.nrows (fun i r => (startMem req).cells i (offAt ts k + r))))
      (subReq (offAt ts k) t.info.nrows req) := by
    apply SameReq.of_get
    · simp [sliceTargets, subReq]
    · intro i e e' he he'
      simp only [sliceTargets, subReq, List.getElem?_map, List.getElem?_mapIdx, Option.map_eq_some_iff] at he he'
      obtain ⟨x, hx, rfl⟩ := he
      obtain ⟨y, hy, rfl⟩ := he'
      rw [hx] at hy
      simp only [Option.some.injEq] at hy
      subst hy
      refine ⟨rfl, rfl, rfl, ?_⟩
      intro r hr
      simp only [blank, if_pos hr, startMem, hx]
  obtain ⟨l1, l2⟩ := Tbl.decode_local f t L hsame
  have htd : tblDecode f ts req k = (t.decode f L (subReq (offAt ts k) t.info.nrows req)).2 := by
    simp only [tblDecode, hg]
  rw [← htd] at l2
  unfold TaskOk at hok
  rcases hA : t.decode f L (sliceTargets t.info.nrows req (blank t.info.nrows
    (fun i r => (startMem req).cells i (offAt ts k + r)))) with ⟨L', rA⟩
  rw [hA] at hok l2
  rcases l2.both with ⟨e, hx, hy⟩ | ⟨a, b, hx, hy, hab⟩
  · simp only at hx
    subst hx
    rw [hy]
    simp only at hok ⊢
    unfold taskOutcome
    rw [hok]
  · simp only at hx
    subst hx
    rw [hy]
    simp only at hok ⊢
    obtain ⟨o1, o2⟩ := hok
    refine ⟨by unfold taskOutcome; rw [o1], ?_⟩
    intro i m hm r hr
    rw [hrow] at hr
    have hal : a.length = b.length := by
      clear * - hab
      induction hab with
      | nil => rfl
      | cons _ _ ih => simp [ih]
    have hil := (List.getElem?_eq_some_iff.mp hm).1
    have hai : a[i]? = some (a[i]'(by omega)) := List.getElem?_eq_getElem _
    obtain ⟨m', q1, q2⟩ := hab.get i _ hai
    rw [hm] at q1
    simp only [Option.some.injEq] at q1
    subst q1
    rw [← q2 r hr, ← o2 i _ hai r hr]
    simp only [tableParts, blank, hrow, if_pos hr]

/-- **Any number of threads, any schedule**: whenever decoding with one thread succeeds, decoding with any
positive number of threads succeeds and leaves exactly the same bytes in all the targets; whenever it
fails, decoding with any positive number of threads fails, with the exception of one of the tables (or the
failed check of the targets' size). -/
theorem frame_threads (f : File) (ts : List (Tbl × Lookup)) (req : List (Str × Target))
    (htot : offAt ts ts.length < 18446744073709551616)
    (nthreads : Nat) (hn : 0 < nthreads) (res : Except Err (List (Nat → Cell)))
    (h : FrameDecodes f ts req nthreads res) :
    match (frameDecode f ts req).2 with
    | .ok out => res = .ok out
    | .error _ => ∃ e, res = .error e ∧
        (res = (frameDecode f ts req).2 ∨ sliceAll ts 0 req = some e ∨ ∃ k, k < ts.length ∧ tblDecode f ts req k = .error e) := by
  have hmulti : ts.length ≠ 1 → frameDecode f ts req = frameSeq f ts 0 req := by
    intro h1
    unfold frameDecode
    split
    · simp at h1
    · rfl
  cases h with
  | single t L h1 =>
    subst h1
    have : (frameDecode f [(t, L)] req).2 = (t.decode f L req).2 := rfl
    rw [this]
    cases hd : (t.decode f L req).2 with
    | ok out => rfl
    | error e => exact ⟨e, rfl, Or.inl rfl⟩
  | seq h1 h2 =>
    rw [hmulti h1]
    cases hd : (frameSeq f ts 0 req).2 with
    | ok out => rfl
    | error e => exact ⟨e, rfl, Or.inl rfl⟩
  | slice e h1 h2 h3 =>
    rw [hmulti h1]
    obtain ⟨e', he'⟩ := frameSeq_short f ts 0 req req rfl e h3
    rw [he']
    exact ⟨e, rfl, Or.inr (Or.inl h3)⟩
  | nothing h1 h2 => omega
  | threads q h1 h2 h3 hr hq =>
    rw [hmulti h1]
    have hroom := sliceAll_room ts req htot ts.length 0 (by omega) h3 (fun e _ => Nat.zero_le _)
    have hseq := frameSeq_tables f ts req htot hroom ts.length 0 (by omega) req
      ⟨rfl, fun i e e' he he' => by rw [he] at he'; cases he'; exact ⟨rfl, rfl, rfl, fun _ _ => rfl⟩⟩
    rw [List.drop_zero, show offAt ts 0 = 0 from rfl] at hseq
    have hres := Pool.result (frameJob f ts req) (startMem req) nthreads hn q hr hq
    have hlook : ∀ k, k < ts.length → ∃ t L, ts[k]? = some (t, L) := by
      intro k hk
      exact ⟨(ts[k]).1, (ts[k]).2, by rw [List.getElem?_eq_getElem hk]⟩
    -- a failed thread is failed by its table
    have hbad : ∀ k e, k < ts.length →
        taskOutcome ((tableParts ts).view k (seqMem (frameJob f ts req) ts.length (startMem req))) = some e →
        tblDecode f ts req k = .error e := by
      intro k e hk ho
      obtain ⟨t, L, hg⟩ := hlook k hk
      have hv := job_view f ts req k t L hg
      cases ht : tblDecode f ts req k with
      | error e' =>
        rw [ht] at hv
        rw [hv] at ho
        simp only [Option.some.injEq] at ho
        rw [ho]
      | ok oj =>
        rw [ht] at hv
        rw [hv.1] at ho
        cases ho
    cases hs : (frameSeq f ts 0 req).2 with
    | ok out =>
      rw [hs] at hseq
      obtain ⟨s1, s2, s3⟩ := hseq
      simp only
      rcases hres with ⟨w, hw, k, e, _, hk, ho⟩ | ⟨hfin, hmem, _, _⟩
      · obtain ⟨oj, p1, _⟩ := s2 k (Nat.zero_le _) hk
        have := hbad k e hk ho
        rw [p1] at this
        cases this
      · have hver : q.verdict = none := by
          unfold Pool.verdict
          rw [List.findSome?_eq_none_iff]
          intro w hw
          rw [hfin w hw]
        rw [hver]
        simp only [Except.ok.injEq]
        have hmem' : q.mem = seqMem (frameJob f ts req) ts.length (startMem req) := hmem
        apply List.ext_getElem (by simp [s1])
        intro i hi1 hi2
        simp only [List.getElem_map, List.getElem_range]
        have hir : i < req.length := by omega
        have hoi : out[i]? = some out[i] := List.getElem?_eq_getElem hi2
        have hri : req[i]? = some req[i] := List.getElem?_eq_getElem hir
        funext r
        rw [hmem']
        by_cases hlt : r < offAt ts ts.length
        · obtain ⟨k, k1, k2, k3⟩ := off_cover ts ts.length r hlt
          obtain ⟨t, L, hg⟩ := hlook k k1
          obtain ⟨oj, p1, p2, p3⟩ := s2 k (Nat.zero_le _) k1
          have hv := job_view f ts req k t L hg
          rw [p1] at hv
          have hoj : oj[i]? = some (oj[i]'(by omega)) := List.getElem?_eq_getElem _
          have a1 := hv.2 i _ hoj (r - offAt ts k) (by omega)
          have a2 := p3 i _ _ hoi hoj (r - offAt ts k) (by omega)
          rw [show offAt ts k + (r - offAt ts k) = r by omega] at a1 a2
          rw [a1, a2]
        · rw [s3 i _ _ hoi hri r (by omega)]
          have hrest := (seqMem_view (frameJob f ts req) (startMem req) ts.length (Nat.le_refl _)).2.2
          have := congrFun (congrFun hrest i) r
          simp only [tableParts, if_neg hlt] at this
          exact this.trans (by simp only [startMem, hri])
    | error e =>
      rw [hs] at hseq
      obtain ⟨j, _, j2, j3⟩ := hseq
      simp only
      rcases hres with ⟨w, hw, k, e, hwe, hk, ho⟩ | ⟨_, _, _, hall⟩
      · have hver : ∃ e', q.verdict = some e' := by
          cases hv : q.verdict with
          | some e' => exact ⟨e', rfl⟩
          | none =>
            unfold Pool.verdict at hv
            rw [List.findSome?_eq_none_iff] at hv
            have := hv w hw
            rw [hwe] at this
            cases this
        obtain ⟨e', he'⟩ := hver
        rw [he']
        refine ⟨e', rfl, Or.inr (Or.inr ?_)⟩
        unfold Pool.verdict at he'
        obtain ⟨w', hw', hwe'⟩ := List.exists_of_findSome?_eq_some he'
        have hinv := Pool.inv_reach (frameJob f ts req) (startMem req)
          (Pool.inv_start (frameJob f ts req) nthreads (startMem req)) hr
        cases w' with
        | idle => cases hwe'
        | busy _ _ => cases hwe'
        | finished => cases hwe'
        | failed k' e'' =>
          simp only [Option.some.injEq] at hwe'
          subst hwe'
          obtain ⟨i, hi⟩ := List.mem_iff_getElem?.mp hw'
          obtain ⟨g1, g2⟩ := hinv.failed i k' e'' hi
          have hk' : k' < ts.length := by
            have := hinv.next
            have hn' : (frameJob f ts req).n = ts.length := rfl
            omega
          refine ⟨k', hk', hbad k' e'' hk' ?_⟩
          rw [(seqMem_view (frameJob f ts req) (startMem req) ts.length (Nat.le_refl _)).1 k' hk']
          exact g2
      · obtain ⟨t, L, hg⟩ := hlook j j2
        have hv := job_view f ts req j t L hg
        rw [j3] at hv
        have := hall j j2
        have hv' : taskOutcome ((tableParts ts).view j (seqMem (frameJob f ts req) ts.length (startMem req))) = none := this
        rw [hv] at hv'
        cases hv'

/-- **Decoding with threads always comes to an end**: from every state reached, every schedule is finite and
can be continued until all the threads have ended. -/
theorem pool_ends {M V W : Type} {P : Parts M V W} (J : Job M V W P) (p : Pool M) :
    ∃ q, Pool.Reach J p q ∧ q.Over := by
  induction hn : Pool.left J p using Nat.strongRecOn generalizing p with
  | _ n ih =>
    by_cases h : p.Over
    · exact ⟨p, .refl p, h⟩
    · obtain ⟨p', hp'⟩ := Pool.progress J p h
      obtain ⟨q, q1, q2⟩ := ih _ (by rw [← hn]; exact Pool.step_left J hp') p' rfl
      refine ⟨q, ?_, q2⟩
      have trans : ∀ {a b c : Pool M}, Pool.Reach J a b → Pool.Reach J b c → Pool.Reach J a c := by
        intro a b c h1 h2
        induction h2 with
        | refl => exact h1
        | step _ hs ih => exact .step ih hs
      exact trans (.step (.refl p) hp') q1

/-- `Frame::decode` has a result whatever the number of threads. -/
theorem frame_decodes_total (f : File) (ts : List (Tbl × Lookup)) (req : List (Str × Target)) (nthreads : Nat) :
    ∃ res, FrameDecodes f ts req nthreads res := by
  by_cases h1 : ts.length = 1
  · obtain ⟨x, hx⟩ := List.length_eq_one_iff.mp h1
    exact ⟨_, .single x.1 x.2 hx⟩
  by_cases hn : nthreads = 1
  · exact ⟨_, .seq h1 hn⟩
  cases hs : sliceAll ts 0 req with
  | some e => exact ⟨_, .slice e h1 hn hs⟩
  | none =>
    by_cases h0 : nthreads = 0
    · exact ⟨_, .nothing h1 h0 hs⟩
    · obtain ⟨q, q1, q2⟩ := pool_ends (frameJob f ts req) (Pool.start nthreads (startMem req))
      exact ⟨_, .threads q h1 (by omega) hs q1 q2⟩

/-- With zero threads a frame of several tables is not decoded at all, and no exception is thrown. -/
theorem frame_zero_threads (f : File) (ts : List (Tbl × Lookup)) (req : List (Str × Target)) (h1 : ts.length ≠ 1)
    (hs : sliceAll ts 0 req = none) (res : Except Err (List (Nat → Cell))) (h : FrameDecodes f ts req 0 res) :
    res = .ok (req.map (fun e => e.2.mem)) := by
  cases h with
  | single t L h => rw [h] at h1; simp at h1
  | seq _ h => omega
  | slice e _ _ h => rw [hs] at h; cases h
  | nothing => rfl
  | threads _ _ h => omega

end Verif
