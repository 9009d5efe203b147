import Verif.Frame

/-
The row loop of `Table::decode` refines the reference semantics (each row repeats the leading cells of
the previous one), for arbitrary data.
-/

namespace Verif

/-- `d` is held by the first words of an element. -/
def Holds (elem d : Cell) : Prop := elem.take d.length = d

theorem Holds.eq {e d : Cell} (h : Holds e d) (hl : e.length = d.length) : e = d := by
  unfold Holds at h; rw [← hl, List.take_length] at h; exact h

/-- `fill` without its ASSERT. -/
def Slot.filled (final : Nat) (s : Slot) : Slot :=
  if s.visit then { s with mem := fun r => if s.last < r ∧ r ≤ final then s.mem s.last else s.mem r } else s

/-- `store` without its bound check, plus the update of `lastDecoded`. -/
def Slot.stored (row : Nat) (s : Slot) (d : Cell) : Slot :=
  if s.visit then
    { s with mem := (fun r => if r = row then d ++ (s.mem row).drop d.length else s.mem r), last := row }
  else s

theorem fillAll_ok (final : Nat) (ss : List Slot) (h : ∀ s ∈ ss, s.visit = true → s.last ≤ final) :
    fillAll final ss = .ok (ss.map (Slot.filled final)) := by
  induction ss with
  | nil => rfl
  | cons s ss ih =>
    have h1 : s.fill final = .ok (s.filled final) := by
      unfold Slot.fill Slot.filled
      cases hv : s.visit
      · simp
      · simp [h s (by simp) hv]
    simp only [fillAll, h1, ih (fun t ht => h t (by simp [ht])), List.map_cons]

theorem fillRange_ok (start lastStart row : Nat) (ss : List Slot)
    (hle : start < lastStart → lastStart ≤ ss.length)
    (h : ∀ (i : Nat) (s : Slot), ss[i]? = some s → i < lastStart → s.visit = true → s.last ≤ row - 1) :
    ∃ ss', fillRange start lastStart row ss = .ok ss' ∧ ss'.length = ss.length ∧
      ∀ i : Nat, ss'[i]? = (ss[i]?).map (fun s => if start ≤ i ∧ i < lastStart then s.filled (row - 1) else s) := by
  unfold fillRange
  by_cases hlt : start < lastStart
  · have hl := hle hlt
    rw [if_pos hlt, if_pos hl, fillAll_ok]
    · refine ⟨_, rfl, by simp; omega, ?_⟩
      intro i
      have h1 : (ss.take start).length = start := by simp; omega
      have h2 : (((ss.take lastStart).drop start).map (Slot.filled (row - 1))).length = lastStart - start := by
        simp; omega
      rcases Nat.lt_or_ge i start with hi | hi
      · rw [List.getElem?_append_left (by omega), List.getElem?_take_of_lt hi]
        have : ¬ (start ≤ i ∧ i < lastStart) := by omega
        simp [this]
      · rw [List.getElem?_append_right (by omega), h1]
        rcases Nat.lt_or_ge i lastStart with hi2 | hi2
        · rw [List.getElem?_append_left (by omega), List.getElem?_map, List.getElem?_drop,
            show start + (i - start) = i by omega, List.getElem?_take_of_lt hi2]
          simp [hi, hi2]
        · rw [List.getElem?_append_right (by omega), h2, List.getElem?_drop,
            show lastStart + (i - start - (lastStart - start)) = i by omega]
          have : ¬ (start ≤ i ∧ i < lastStart) := by omega
          simp [this]
    · intro s hs hv
      obtain ⟨j, hj, hjs⟩ := List.mem_iff_getElem.mp hs
      have hj' : j < lastStart - start := by simp at hj; omega
      refine h (start + j) s ?_ (by omega) hv
      have : ((ss.take lastStart).drop start)[j]? = some s := by rw [List.getElem?_eq_getElem hj, hjs]
      rw [List.getElem?_drop, List.getElem?_take_of_lt (by omega)] at this
      exact this
  · rw [if_neg hlt]
    refine ⟨ss, rfl, rfl, ?_⟩
    intro i
    have : ¬ (start ≤ i ∧ i < lastStart) := by omega
    simp [this]

/-- The wanted codecs of a table. -/
def slotCodecs (ss : List Slot) : List (Codec × Bool) := ss.map (fun s => (s.codec, s.visit))

theorem decSlots_ref (o : Order) (row : Nat) (ss : List Slot) (xs : List Cell) (hlen : xs.length = ss.length)
    (hw : ∀ s ∈ ss, s.visit = true → s.codec.decWidth ≤ s.elem) (st : List Byte) :
    match refCols o (slotCodecs ss) xs st with
    | .ok (ys, r) => decSlots o row ss st = .ok (List.zipWith (Slot.stored row) ss ys, r) ∧
        ys.length = ss.length ∧
        (∀ (i : Nat) (s : Slot) (y : Cell), ss[i]? = some s → ys[i]? = some y → s.visit = true → y.length ≤ s.elem)
    | .error e => decSlots o row ss st = .error e := by
  induction ss generalizing xs st with
  | nil => simp [slotCodecs, refCols, decSlots]
  | cons s ss ih =>
    cases xs with
    | nil => simp at hlen
    | cons x xs =>
      have ih' := ih xs (by simpa using hlen) (fun t ht => hw t (by simp [ht]))
      simp only [slotCodecs, List.map_cons, refCols, decSlots, P.bind_apply] at *
      -- one column
      have hone : match (if s.visit = true then s.codec.dec o else do let _ ← s.codec.skip; pure x) st with
          | .ok (y, r) => decSlot o row s st = .ok (s.stored row y, r) ∧ (s.visit = true → y.length ≤ s.elem)
          | .error e => decSlot o row s st = .error e := by
        unfold decSlot Slot.stored
        cases hv : s.visit
        · simp only [Bool.false_eq_true, if_false, P.bind_apply]
          cases hsk : s.codec.skip st with
          | error e => simp
          | ok p => simp [P.pure_apply]
        · simp only [if_true, P.bind_apply]
          cases hd : s.codec.dec o st with
          | error e => simp
          | ok p =>
            obtain ⟨d, r⟩ := p
            have hwd := hw s (by simp) hv
            have := (dec_consumes o s.codec st r d hd).2.2
            have hle : d.length ≤ s.elem := by omega
            simp [P.lift, Slot.store, hle, P.pure_apply, hv]
      cases hy : (if s.visit = true then s.codec.dec o else do let _ ← s.codec.skip; pure x) st with
      | error e =>
        rw [hy] at hone
        simp only at hone ⊢
        rw [hone]
      | ok p =>
        obtain ⟨y, r⟩ := p
        rw [hy] at hone
        simp only at hone ⊢
        rw [hone.1]
        have ihr := ih' r
        cases hys : refCols o (ss.map (fun s => (s.codec, s.visit))) xs r with
        | error e => rw [hys] at ihr; simp only at ihr ⊢; rw [ihr]
        | ok q =>
          obtain ⟨ys, r'⟩ := q
          rw [hys] at ihr
          simp only [P.pure_apply] at ihr ⊢
          rw [ihr.1]
          refine ⟨by simp, by simp [ihr.2.1], ?_⟩
          intro i t z ht hz hv
          cases i with
          | zero => simp at ht hz; subst ht; subst hz; exact hone.2 hv
          | succ i => exact ihr.2.2 i t z (by simpa using ht) (by simpa using hz) hv

/-- Relation between the target memory of column `i` and the rows `hist` produced so far by the
reference semantics, after `n` rows; `mem0` is the initial memory. -/
structure SlotInv (mem0 : Nat → Cell) (n lastStart i : Nat) (hist : Nat → Cell) (cur : Cell) (s : Slot) : Prop where
  le : s.last ≤ n - 1
  zero : n = 0 → Holds (s.mem 0) cur
  curr : 0 < n → hist (n - 1) = cur
  before : ∀ r, r ≤ s.last → r < n → Holds (s.mem r) (hist r)
  gap : ∀ r, s.last < r → r < n → hist r = hist s.last
  decoded : lastStart ≤ i → s.last = n - 1
  notDecoded : i < lastStart → 2 ≤ n → s.last < n - 1
  len : ∀ r, (s.mem r).length = s.elem
  after : ∀ r, n ≤ r → 0 < r → s.mem r = mem0 r

/-- Invariant of all columns. -/
structure TableInv (mem0 : Nat → Nat → Cell) (n lastStart : Nat) (hist : Nat → Nat → Cell) (cur : List Cell)
    (ss : List Slot) : Prop where
  curLen : cur.length = ss.length
  first : n = 0 → lastStart = 0
  slots : ∀ (i : Nat) (s : Slot), ss[i]? = some s → s.visit = true →
    SlotInv (mem0 i) n lastStart i (fun r => hist r i) (cur.getD i []) s
  idle : ∀ (i : Nat) (s : Slot), ss[i]? = some s → s.visit = false → s.last = 0 ∧ s.mem = mem0 i

theorem holds_append_drop (d e : Cell) : Holds (d ++ e.drop d.length) d := by
  unfold Holds; simp

/-- Extending the history with row `n`. -/
def pushHist (hist : Nat → Nat → Cell) (n : Nat) (row : List Cell) : Nat → Nat → Cell :=
  fun r i => if r = n then row.getD i [] else hist r i

/-- One row. -/
theorem row_step (o : Order) (mem0 : Nat → Nat → Cell) (n lastStart start : Nat) (hist : Nat → Nat → Cell)
    (cur : List Cell) (ss : List Slot) (hinv : TableInv mem0 n lastStart hist cur ss)
    (hw : ∀ s ∈ ss, s.visit = true → s.codec.decWidth ≤ s.elem)
    (hub : ¬ (start < lastStart ∧ ss.length < lastStart)) (st : List Byte) :
    ∃ ss1, fillRange start lastStart n ss = .ok ss1 ∧ slotCodecs ss1 = slotCodecs ss ∧
    match refCols o ((slotCodecs ss).drop start) (cur.drop start) st with
    | .ok (ys, r) => ∃ tail, decSlots o n (ss1.drop start) st = .ok (tail, r) ∧
        TableInv mem0 (n + 1) start (pushHist hist n (cur.take start ++ ys)) (cur.take start ++ ys)
          (ss1.take start ++ tail) ∧
        slotCodecs (ss1.take start ++ tail) = slotCodecs ss ∧
        (ss1.take start ++ tail).map Slot.elem = ss.map Slot.elem
    | .error e => decSlots o n (ss1.drop start) st = .error e := by
  obtain ⟨ss1, hf, hl1, hget⟩ := fillRange_ok start lastStart n ss (by omega)
    (fun i s hi hlt hv => (hinv.slots i s hi hv).le)
  have hcodec : slotCodecs ss1 = slotCodecs ss := by
    apply List.ext_getElem?
    intro i
    unfold slotCodecs
    rw [List.getElem?_map, List.getElem?_map, hget]
    cases ss[i]? with
    | none => rfl
    | some s =>
      simp only [Option.map_some]
      split
      · unfold Slot.filled; split <;> rfl
      · rfl
  have helem : ss1.map Slot.elem = ss.map Slot.elem := by
    apply List.ext_getElem?
    intro i
    rw [List.getElem?_map, List.getElem?_map, hget]
    cases ss[i]? with
    | none => rfl
    | some s =>
      simp only [Option.map_some]
      split
      · unfold Slot.filled; split <;> rfl
      · rfl
  refine ⟨ss1, hf, hcodec, ?_⟩
  have hw1 : ∀ s ∈ ss1.drop start, s.visit = true → s.codec.decWidth ≤ s.elem := by
    intro s hs hv
    have hs' := List.mem_of_mem_drop hs
    obtain ⟨i, hi, his⟩ := List.mem_iff_getElem.mp hs'
    have h1 : ss1[i]? = some s := by rw [List.getElem?_eq_getElem hi, his]
    rw [hget] at h1
    have hi2 : i < ss.length := by omega
    rw [List.getElem?_eq_getElem hi2] at h1
    simp only [Option.map_some, Option.some.injEq] at h1
    have hmem := hw ss[i] (List.getElem_mem hi2)
    split at h1
    · unfold Slot.filled at h1
      split at h1
      · rw [← h1]; exact hmem (by assumption)
      · rw [← h1] at hv ⊢; exact hmem hv
    · rw [← h1] at hv ⊢; exact hmem hv
  have hdc : slotCodecs (ss1.drop start) = (slotCodecs ss).drop start := by
    rw [← hcodec]; simp [slotCodecs, List.map_drop]
  have hcl : (cur.drop start).length = (ss1.drop start).length := by
    rw [List.length_drop, List.length_drop, hl1, hinv.curLen]
  have hds := decSlots_ref o n (ss1.drop start) (cur.drop start) hcl hw1 st
  rw [hdc] at hds
  cases hr : refCols o ((slotCodecs ss).drop start) (cur.drop start) st with
  | error e => rw [hr] at hds; exact hds
  | ok p =>
    obtain ⟨ys, r⟩ := p
    rw [hr] at hds
    simp only at hds ⊢
    obtain ⟨d1, d2, d3⟩ := hds
    refine ⟨_, d1, ?_, ?_, ?_⟩
    · have hytl : (List.zipWith (Slot.stored n) (ss1.drop start) ys).length = ss1.length - start := by
        simp [d2]
      have hnew : ∀ (i : Nat) (s' : Slot), (ss1.take start ++ List.zipWith (Slot.stored n) (ss1.drop start) ys)[i]? = some s' →
          ∃ s, ss[i]? = some s ∧
            (i < start → s' = s ∧ (cur.take start ++ ys).getD i [] = cur.getD i []) ∧
            (start ≤ i → ∃ y, (cur.take start ++ ys).getD i [] = y ∧ (s.visit = true → y.length ≤ s.elem) ∧
              s' = Slot.stored n (if i < lastStart then s.filled (n - 1) else s) y) := by
        intro i s' hi
        rcases Nat.lt_or_ge i start with hlt | hge
        · rcases Nat.lt_or_ge i ss1.length with hb | hb
          · rw [List.getElem?_append_left (by simp; omega), List.getElem?_take_of_lt hlt, hget] at hi
            have : ¬ (start ≤ i ∧ i < lastStart) := by omega
            simp only [this, if_false, Option.map_id_fun', id_eq] at hi
            refine ⟨s', hi, fun _ => ⟨rfl, ?_⟩, fun h => by omega⟩
            have hcb : i < (cur.take start).length := by rw [List.length_take, hinv.curLen]; omega
            rw [List.getD_eq_getElem?_getD, List.getElem?_append_left hcb, List.getElem?_take_of_lt hlt,
              List.getD_eq_getElem?_getD]
          · rw [List.getElem?_eq_none (by simp [d2]; omega)] at hi
            simp at hi
        · rcases Nat.lt_or_ge i ss1.length with hb | hb
          · have htl : (ss1.take start).length = start := by simp; omega
            rw [List.getElem?_append_right (by omega), htl, List.getElem?_zipWith, List.getElem?_drop,
              show start + (i - start) = i by omega, hget] at hi
            have hib : i < ss.length := by omega
            rw [List.getElem?_eq_getElem hib] at hi
            have hyb : i - start < ys.length := by rw [d2, List.length_drop]; omega
            rw [List.getElem?_eq_getElem hyb] at hi
            simp only [Option.map_some, hge, true_and, Option.some.injEq] at hi
            refine ⟨ss[i], List.getElem?_eq_getElem hib, fun h => by omega, fun _ => ⟨ys[i - start], ?_, ?_, hi.symm⟩⟩
            · have hctl : (cur.take start).length = start := by
                rw [List.length_take, hinv.curLen]; omega
              rw [List.getD_eq_getElem?_getD, List.getElem?_append_right (by omega), hctl,
                List.getElem?_eq_getElem hyb]; rfl
            · intro hv
              have h1 : (ss1.drop start)[i - start]? =
                  some (if i < lastStart then ss[i].filled (n - 1) else ss[i]) := by
                rw [List.getElem?_drop, show start + (i - start) = i by omega, hget,
                  List.getElem?_eq_getElem hib]
                simp [hge]
              have := d3 (i - start) _ ys[i - start] h1 (List.getElem?_eq_getElem hyb) (by
                split
                · unfold Slot.filled; split <;> simp_all
                · exact hv)
              have he : (if i < lastStart then ss[i].filled (n - 1) else ss[i]).elem = ss[i].elem := by
                split
                · unfold Slot.filled; split <;> rfl
                · rfl
              rw [he] at this
              exact this
          · rw [List.getElem?_eq_none (by simp [d2]; omega)] at hi
            simp at hi
      constructor
      · simp only [List.length_append, List.length_take, List.length_zipWith, List.length_drop, d2, hinv.curLen]
        omega
      · intro h; omega
      · intro i s' hi hv'
        obtain ⟨s, hs, hA, hB⟩ := hnew i s' hi
        rcases Nat.lt_or_ge i start with hlt | hge
        · obtain ⟨e1, e2⟩ := hA hlt
          subst e1
          have I := hinv.slots i s' hs hv'
          rw [e2]
          constructor
          · have := I.le; omega
          · intro h; omega
          · intro _; simp only [pushHist]; rw [if_pos (by omega)]; exact e2
          · intro r h1 h2
            unfold pushHist
            by_cases hrn : r = n
            · rw [if_pos hrn]
              have hn0 : n = 0 := by have := I.le; omega
              rw [e2, hrn, hn0]; exact I.zero hn0
            · rw [if_neg hrn]; exact I.before r h1 (by omega)
          · intro r h1 h2
            unfold pushHist
            by_cases hrn : r = n
            · rw [if_pos hrn]
              have : s'.last ≠ n := by omega
              rw [if_neg this, e2]
              by_cases hl : s'.last = n - 1
              · rw [hl]; exact (I.curr (by omega)).symm
              · have hg := I.gap (n - 1) (by have := I.le; omega) (by omega)
                rw [← hg]; exact (I.curr (by omega)).symm
            · have : s'.last ≠ n := by omega
              rw [if_neg hrn, if_neg this]; exact I.gap r h1 (by omega)
          · intro h; omega
          · intro _ h2; have := I.le; omega
          · exact I.len
          · intro r h1 h2; exact I.after r (by omega) h2
        · obtain ⟨y, e1, e2, e3⟩ := hB hge
          have hvis : s.visit = true := by
            rw [e3] at hv'
            unfold Slot.stored Slot.filled at hv'
            cases hsv : s.visit
            · simp [hsv] at hv'
            · rfl
          have I := hinv.slots i s hs hvis
          have hle := e2 hvis
          -- the slot after the fill
          have hfill : ∃ s1 : Slot, s1 = (if i < lastStart then s.filled (n - 1) else s) ∧ s1.visit = true ∧
              s1.elem = s.elem ∧ (∀ r, (s1.mem r).length = s.elem) ∧
              (∀ r, n ≤ r → 0 < r → s1.mem r = mem0 i r) ∧
              (∀ r, r < n → Holds (s1.mem r) (hist r i)) := by
            refine ⟨_, rfl, ?_⟩
            split
            · rename_i hil
              unfold Slot.filled
              rw [if_pos hvis]
              refine ⟨hvis, rfl, ?_, ?_, ?_⟩
              · intro r; simp only; split <;> exact I.len _
              · intro r h1 h2
                simp only
                rw [if_neg (by omega)]; exact I.after r h1 h2
              · intro r hr
                simp only
                split
                · rename_i hc
                  have hg := I.gap r hc.1 hr
                  rw [hg]; exact I.before s.last (Nat.le_refl _) (by omega)
                · exact I.before r (by omega) hr
            · rename_i hil
              refine ⟨hvis, rfl, I.len, I.after, ?_⟩
              intro r hr
              have := I.decoded (by omega)
              exact I.before r (by omega) hr
          obtain ⟨s1, hs1, f1, f2, f3, f4, f5⟩ := hfill
          rw [← hs1] at e3
          have e3' : s' = { s1 with
              mem := (fun r => if r = n then y ++ (s1.mem n).drop y.length else s1.mem r), last := n } := by
            rw [e3]; unfold Slot.stored; rw [if_pos f1]
          subst e3'
          constructor
          · show n ≤ n + 1 - 1; omega
          · intro h; omega
          · intro _; simp [pushHist]
          · intro r h1 h2
            simp only [pushHist]
            by_cases hrn : r = n
            · rw [if_pos hrn, if_pos hrn, e1]; exact holds_append_drop y _
            · rw [if_neg hrn, if_neg hrn]; exact f5 r (by omega)
          · intro r h1 h2; simp only at h1; omega
          · intro _; simp
          · intro h; omega
          · intro r
            show (if r = n then y ++ (s1.mem n).drop y.length else s1.mem r).length = s1.elem
            split
            · rw [List.length_append, List.length_drop, f3, f2]; omega
            · rw [f3, f2]
          · intro r h1 h2
            show (if r = n then y ++ (s1.mem n).drop y.length else s1.mem r) = mem0 i r
            rw [if_neg (by omega)]; exact f4 r (by omega) h2
      · intro i s' hi hv'
        obtain ⟨s, hs, hA, hB⟩ := hnew i s' hi
        rcases Nat.lt_or_ge i start with hlt | hge
        · obtain ⟨e1, _⟩ := hA hlt
          subst e1; exact hinv.idle i s' hs hv'
        · obtain ⟨y, _, _, e3⟩ := hB hge
          have hvis : s.visit = false := by
            rw [e3] at hv'
            unfold Slot.stored Slot.filled at hv'
            cases hsv : s.visit
            · rfl
            · simp only [hsv, if_true] at hv'; split at hv' <;> simp_all
          have : s' = s := by rw [e3]; unfold Slot.stored Slot.filled; simp [hvis]
          rw [this]; exact hinv.idle i s hs hvis
    · rw [← hcodec]
      conv => rhs; rw [← List.take_append_drop start ss1]
      simp only [slotCodecs, List.map_append]
      congr 1
      apply List.ext_getElem?
      intro i
      rw [List.getElem?_map, List.getElem?_map, List.getElem?_zipWith]
      rcases Nat.lt_or_ge i (ss1.drop start).length with hb | hb
      · rw [List.getElem?_eq_getElem hb, List.getElem?_eq_getElem (by omega : i < ys.length)]
        simp only [Option.map_some]
        congr 1
        unfold Slot.stored; split <;> rfl
      · rw [List.getElem?_eq_none hb]; try rfl
    · rw [← helem]
      conv => rhs; rw [← List.take_append_drop start ss1]
      simp only [List.map_append]
      congr 1
      apply List.ext_getElem?
      intro i
      rw [List.getElem?_map, List.getElem?_map, List.getElem?_zipWith]
      rcases Nat.lt_or_ge i (ss1.drop start).length with hb | hb
      · rw [List.getElem?_eq_getElem hb, List.getElem?_eq_getElem (by omega : i < ys.length)]
        simp only [Option.map_some]
        congr 1
        unfold Slot.stored; split <;> rfl
      · rw [List.getElem?_eq_none hb]; try rfl

theorem SlotInv.congr {mem0 : Nat → Cell} {n l i : Nat} {h h' : Nat → Cell} {cur : Cell} {s : Slot}
    (I : SlotInv mem0 n l i h cur s) (he : ∀ r, r < n → h' r = h r) : SlotInv mem0 n l i h' cur s where
  le := I.le
  zero := I.zero
  curr := fun hn => by rw [he _ (by omega)]; exact I.curr hn
  before := fun r h1 h2 => by rw [he r h2]; exact I.before r h1 h2
  gap := fun r h1 h2 => by rw [he r h2, he s.last (by omega)]; exact I.gap r h1 h2
  decoded := I.decoded
  notDecoded := I.notDecoded
  len := I.len
  after := I.after

theorem TableInv.congr {mem0 : Nat → Nat → Cell} {n l : Nat} {h h' : Nat → Nat → Cell} {cur : List Cell}
    {ss : List Slot} (I : TableInv mem0 n l h cur ss) (he : ∀ r, r < n → h' r = h r) :
    TableInv mem0 n l h' cur ss where
  curLen := I.curLen
  first := I.first
  slots := fun i s h1 h2 => (I.slots i s h1 h2).congr (fun r hr => by rw [he r hr])
  idle := I.idle

/-- History extended by a list of rows. -/
def extHist (hist : Nat → Nat → Cell) (n : Nat) (rows : List (List Cell)) : Nat → Nat → Cell :=
  fun r i => if r < n then hist r i else (rows.getD (r - n) []).getD i []

/-- The row loop computes the reference rows, or fails with the same error. -/
theorem decRows_ref (o : Order) (mem0 : Nat → Nat → Cell) (k n lastStart : Nat) (hist : Nat → Nat → Cell)
    (cur : List Cell) (ss : List Slot) (hinv : TableInv mem0 n lastStart hist cur ss)
    (hw : ∀ s ∈ ss, s.visit = true → s.codec.decWidth ≤ s.elem) (st : List Byte) :
    match refRows o (slotCodecs ss) k lastStart cur st with
    | .ok (rows, r) => ∃ ss' ls' cur', decRows o k n lastStart ss st = .ok (ss', r) ∧ rows.length = k ∧
        TableInv mem0 (n + k) ls' (extHist hist n rows) cur' ss' ∧ slotCodecs ss' = slotCodecs ss ∧
        ss'.map Slot.elem = ss.map Slot.elem
    | .error e => decRows o k n lastStart ss st = .error e := by
  induction k generalizing n lastStart hist cur ss st with
  | zero =>
    simp only [refRows, P.pure_apply, decRows]
    refine ⟨ss, lastStart, cur, rfl, rfl, ?_, rfl, rfl⟩
    refine TableInv.congr hinv ?_
    intro r hr
    funext i
    simp only [extHist]; rw [if_pos (by omega)]
  | succ k ih =>
    simp only [refRows, decRows, P.bind_apply]
    cases hm : readBytes 2 st with
    | error e => simp
    | ok p =>
      obtain ⟨m, st1⟩ := p
      simp only
      generalize markerStart m = start
      have hlen : (slotCodecs ss).length = ss.length := by simp [slotCodecs]
      by_cases hub : start < lastStart ∧ ss.length < lastStart
      · rw [if_pos (by rw [hlen]; exact hub)]
        simp only [P.fail, P.lift, fillRange, if_pos hub.1, if_neg (show ¬ lastStart ≤ ss.length by omega)]
      · rw [if_neg (by rw [hlen]; exact hub)]
        obtain ⟨ss1, hf, hc1, hstep⟩ := row_step o mem0 n lastStart start hist cur ss hinv hw hub st1
        simp only [P.lift, hf, P.bind_apply]
        cases hr : refCols o ((slotCodecs ss).drop start) (cur.drop start) st1 with
        | error e => rw [hr] at hstep; simp only at hstep ⊢; rw [hstep]
        | ok q =>
          obtain ⟨ys, st2⟩ := q
          rw [hr] at hstep
          simp only at hstep ⊢
          obtain ⟨tail, ht, hI, hcs, hes⟩ := hstep
          rw [ht]
          simp only
          have hw' : ∀ s ∈ ss1.take start ++ tail, s.visit = true → s.codec.decWidth ≤ s.elem := by
            intro s hs hv
            obtain ⟨i, hi, his⟩ := List.mem_iff_getElem.mp hs
            have a1 : (slotCodecs (ss1.take start ++ tail))[i]? = some (s.codec, s.visit) := by
              simp only [slotCodecs, List.getElem?_map, List.getElem?_eq_getElem hi, his, Option.map_some]
            have a2 : ((ss1.take start ++ tail).map Slot.elem)[i]? = some s.elem := by
              simp only [List.getElem?_map, List.getElem?_eq_getElem hi, his, Option.map_some]
            rw [hcs] at a1
            rw [hes] at a2
            simp only [slotCodecs, List.getElem?_map, Option.map_eq_some_iff] at a1 a2
            obtain ⟨t, t1, t2⟩ := a1
            obtain ⟨t', t1', t2'⟩ := a2
            rw [t1] at t1'
            cases t1'
            simp only [Prod.mk.injEq] at t2
            have := hw t (List.mem_of_getElem? t1) (by rw [t2.2]; exact hv)
            rw [← t2.1, ← t2']; exact this
          have hrec := ih (n + 1) start (pushHist hist n (cur.take start ++ ys)) (cur.take start ++ ys)
            (ss1.take start ++ tail) hI hw' st2
          rw [hcs] at hrec
          cases hrr : refRows o (slotCodecs ss) k start (cur.take start ++ ys) st2 with
          | error e => rw [hrr] at hrec; simp only at hrec ⊢; exact hrec
          | ok q =>
            obtain ⟨rows, st3⟩ := q
            rw [hrr] at hrec
            simp only [P.pure_apply] at hrec ⊢
            obtain ⟨ss', ls', cur', h1, h2, h3, h4, h5⟩ := hrec
            refine ⟨ss', ls', cur', h1, by simp [h2], ?_, h4, by rw [h5, hes]⟩
            rw [show n + (k + 1) = n + 1 + k by omega]
            refine TableInv.congr h3 ?_
            intro r hr
            funext i
            simp only [extHist, pushHist]
            by_cases h : r < n
            · rw [if_pos h, if_pos (by omega), if_neg (by omega)]
            · rw [if_neg h]
              by_cases he : r = n
              · rw [if_pos (by omega), if_pos he, he]; simp
              · rw [if_neg (by omega), show r - n = (r - (n + 1)) + 1 by omega]; simp

/-- The final fill completes every wanted column. -/
theorem finish_ref (mem0 : Nat → Nat → Cell) (nrows ls : Nat) (hist : Nat → Nat → Cell) (cur : List Cell)
    (ss : List Slot) (hn : 0 < nrows) (hinv : TableInv mem0 nrows ls hist cur ss) :
    ∃ ss', finish nrows ss = .ok ss' ∧ ss'.length = ss.length ∧
      ∀ (i : Nat) (s : Slot), ss[i]? = some s → ∃ s', ss'[i]? = some s' ∧
        (s.visit = true → (∀ r, r < nrows → Holds (s'.mem r) (hist r i)) ∧
          (∀ r, (s'.mem r).length = s.elem) ∧ ∀ r, nrows ≤ r → s'.mem r = mem0 i r) ∧
        (s.visit = false → s'.mem = mem0 i) := by
  -- generalised over a suffix of the columns
  suffices H : ∀ (k : Nat) (ts : List Slot), (∀ i : Nat, ts[i]? = ss[k + i]?) →
      ∃ ss', finish nrows ts = .ok ss' ∧ ss'.length = ts.length ∧
      ∀ (i : Nat) (s : Slot), ts[i]? = some s → ∃ s', ss'[i]? = some s' ∧
        (s.visit = true → (∀ r, r < nrows → Holds (s'.mem r) (hist r (k + i))) ∧
          (∀ r, (s'.mem r).length = s.elem) ∧ ∀ r, nrows ≤ r → s'.mem r = mem0 (k + i) r) ∧
        (s.visit = false → s'.mem = mem0 (k + i)) by
    have := H 0 ss (by simp)
    simpa using this
  intro k ts
  induction ts generalizing k with
  | nil => intro _; exact ⟨[], rfl, rfl, by simp⟩
  | cons s ts ih =>
    intro hts
    have hs : ss[k]? = some s := by have := hts 0; simpa using this.symm
    have done : ∀ (j : Nat) (t : Slot), ss[j]? = some t → t.visit = true → t.last = nrows - 1 →
        (∀ r, r < nrows → Holds (t.mem r) (hist r j)) ∧ (∀ r, (t.mem r).length = t.elem) ∧
          ∀ r, nrows ≤ r → t.mem r = mem0 j r := by
      intro j t hj hv hl
      have I := hinv.slots j t hj hv
      exact ⟨fun r hr => I.before r (by omega) hr, I.len, fun r hr => I.after r hr (by omega)⟩
    by_cases hl : s.last < nrows - 1
    · obtain ⟨ss', e1, e2, e3⟩ := ih (k + 1) (fun i => by
        have := hts (i + 1)
        simp only [List.getElem?_cons_succ] at this
        rw [this]; congr 1; omega)
      have hfill : s.fill (nrows - 1) = .ok (s.filled (nrows - 1)) := by
        unfold Slot.fill Slot.filled
        cases hv : s.visit
        · simp
        · have : s.last ≤ nrows - 1 := by omega
          simp [this]
      refine ⟨s.filled (nrows - 1) :: ss', ?_, by simp [e2], ?_⟩
      · simp only [finish, if_pos hl, hfill, e1]
      · intro i t ht
        cases i with
        | zero =>
          simp only [List.getElem?_cons_zero, Option.some.injEq] at ht
          subst ht
          refine ⟨_, rfl, ?_, ?_⟩
          · intro hv
            have I := hinv.slots k s hs hv
            simp only [Slot.filled, if_pos hv, Nat.add_zero]
            refine ⟨?_, ?_, ?_⟩
            · intro r hr
              by_cases hc : s.last < r ∧ r ≤ nrows - 1
              · rw [if_pos hc]
                have hg := I.gap r hc.1 hr
                rw [hg]; exact I.before s.last (Nat.le_refl _) (by omega)
              · rw [if_neg hc]; exact I.before r (by omega) hr
            · intro r; split <;> exact I.len _
            · intro r hr; rw [if_neg (by omega)]; exact I.after r hr (by omega)
          · intro hv
            simp only [Slot.filled, hv, Nat.add_zero]
            exact (hinv.idle k s hs hv).2
        | succ i =>
          simp only [List.getElem?_cons_succ] at ht ⊢
          have := e3 i t ht
          rw [show k + 1 + i = k + (i + 1) by omega] at this
          exact this
    · refine ⟨s :: ts, by simp only [finish, if_neg hl], rfl, ?_⟩
      intro i t ht
      have ht' : ss[k + i]? = some t := by rw [← hts i]; exact ht
      refine ⟨t, ht, ?_, fun hv => (hinv.idle (k + i) t ht' hv).2⟩
      intro hv
      apply done (k + i) t ht' hv
      have It := hinv.slots (k + i) t ht' hv
      by_cases h2 : 2 ≤ nrows
      · have hsv : s.visit = true := by
          cases hv0 : s.visit
          · have := (hinv.idle k s hs hv0).1; omega
          · rfl
        have Is := hinv.slots k s hs hsv
        have : ¬ k < ls := fun hk => hl (Is.notDecoded hk h2)
        exact It.decoded (by omega)
      · have := It.le; omega

/-- Cells of the first row before anything is decoded: the missing value in the wanted columns
(the others are never looked at). -/
def initCells : List Slot → Except Err (List Cell)
  | [] => .ok []
  | s :: ss =>
    match (if s.visit then s.first.map (fun w => [w]) else .ok []) with
    | .error e => .error e
    | .ok x =>
      match initCells ss with
      | .error e => .error e
      | .ok xs => .ok (x :: xs)

/-- A table being decoded before the first row. -/
theorem initAll_ref (ss : List Slot) (hel : ∀ s ∈ ss, s.visit = true → 1 ≤ s.elem)
    (hl0 : ∀ s ∈ ss, s.last = 0) (hmem : ∀ s ∈ ss, ∀ r, (s.mem r).length = s.elem)
    (mem0 : Nat → Nat → Cell) (h0 : ∀ (i : Nat) (s : Slot), ss[i]? = some s → s.mem = mem0 i) :
    match initCells ss with
    | .ok cur => ∃ ss', initAll ss = .ok ss' ∧ TableInv mem0 0 0 (fun _ _ => []) cur ss' ∧
        slotCodecs ss' = slotCodecs ss ∧ ss'.map Slot.elem = ss.map Slot.elem
    | .error e => initAll ss = .error e := by
  induction ss generalizing mem0 with
  | nil =>
    simp only [initCells, initAll]
    exact ⟨[], rfl, ⟨rfl, fun _ => rfl, by simp, by simp⟩, rfl, rfl⟩
  | cons s ss ih =>
    have ih' := ih (fun t ht => hel t (by simp [ht])) (fun t ht => hl0 t (by simp [ht]))
      (fun t ht => hmem t (by simp [ht])) (fun i => mem0 (i + 1))
      (fun i t ht => h0 (i + 1) t (by simpa using ht))
    have hm0 : s.mem = mem0 0 := h0 0 s (by simp)
    have hone : match (if s.visit = true then s.first.map (fun w => [w]) else .ok ([] : Cell)) with
        | .ok x => ∃ s', s.init = .ok s' ∧ s'.codec = s.codec ∧ s'.visit = s.visit ∧ s'.elem = s.elem ∧
            (s.visit = true → SlotInv (mem0 0) 0 0 0 (fun _ => []) x s') ∧
            (s.visit = false → s'.last = 0 ∧ s'.mem = mem0 0)
        | .error e => s.init = .error e := by
      unfold Slot.init
      cases hv : s.visit
      · simp only [Bool.false_eq_true, if_false]
        exact ⟨s, rfl, rfl, hv, rfl, by simp, fun _ => ⟨hl0 s (by simp), hm0⟩⟩
      · simp only [if_true]
        cases hw : s.first with
        | error e => simp [Except.map]
        | ok w =>
          have h1 := hel s (by simp) hv
          simp only [Except.map, Slot.store, List.length_singleton, if_pos h1]
          refine ⟨_, rfl, rfl, hv, rfl, fun _ => ?_, by simp⟩
          have hl := hl0 s (by simp)
          constructor
          · simp [hl]
          · intro _; simp only [if_pos]; exact holds_append_drop [w] _
          · intro h; omega
          · intro r _ h; omega
          · intro r _ h; omega
          · intro _; simpa using hl
          · intro h; omega
          · intro r
            simp only
            split
            · simp only [List.length_append, List.length_singleton, List.length_drop, hmem s (by simp)]
              omega
            · exact hmem s (by simp) r
          · intro r _ hr; simp only; rw [if_neg (by omega), hm0]
    simp only [initCells, initAll]
    generalize hg : (if s.visit = true then s.first.map (fun w => [w]) else .ok ([] : Cell)) = X at hone
    cases X with
    | error e => simp only at hone ⊢; rw [hone]
    | ok x =>
      simp only at hone ⊢
      obtain ⟨s', a1, a2, a3, a4, a5, a6⟩ := hone
      rw [a1]
      cases hc : initCells ss with
      | error e => rw [hc] at ih'; simp only at ih' ⊢; rw [ih']
      | ok xs =>
        rw [hc] at ih'
        simp only at ih' ⊢
        obtain ⟨ss', b1, b2, b3, b4⟩ := ih'
        rw [b1]
        refine ⟨s' :: ss', rfl, ⟨by simp [b2.curLen], fun _ => rfl, ?_, ?_⟩, ?_, ?_⟩
        · intro i t ht hv
          cases i with
          | zero =>
            simp only [List.getElem?_cons_zero, Option.some.injEq] at ht
            subst ht
            have := a5 (by rw [← a3]; exact hv)
            simpa using this
          | succ i =>
            have I := b2.slots i t (by simpa using ht) hv
            simp only [List.getD_cons_succ]
            exact ⟨I.le, I.zero, I.curr, I.before, I.gap, fun _ => I.decoded (by omega), fun h => by omega, I.len, I.after⟩
        · intro i t ht hv
          cases i with
          | zero =>
            simp only [List.getElem?_cons_zero, Option.some.injEq] at ht
            subst ht
            exact a6 (by rw [← a3]; exact hv)
          | succ i => exact b2.idle i t (by simpa using ht) hv
        · simp only [slotCodecs, List.map_cons, a2, a3] at b3 ⊢; rw [b3]
        · simp only [List.map_cons, a4, b4]

/-- `Table::decode` on arbitrary data, against the reference semantics: it fails exactly when the
reference does, with the same error; otherwise, in every wanted column, the element of each row starts
with the reference cell, the rows beyond the table are untouched, and the other columns are untouched. -/
theorem decodeTable_ref (o : Order) (nrows : Nat) (ss : List Slot) (data : List Byte) (hn : 0 < nrows)
    (hw : ∀ s ∈ ss, s.visit = true → s.codec.decWidth ≤ s.elem)
    (hel : ∀ s ∈ ss, s.visit = true → 1 ≤ s.elem) (hl0 : ∀ s ∈ ss, s.last = 0)
    (hmem : ∀ s ∈ ss, ∀ r, (s.mem r).length = s.elem) :
    match initCells ss with
    | .error e => decodeTable o nrows ss data = .error e
    | .ok cur =>
      match refRows o (slotCodecs ss) nrows 0 cur data with
      | .error e => decodeTable o nrows ss data = .error e
      | .ok (rows, _) => rows.length = nrows ∧ ∃ ss', decodeTable o nrows ss data = .ok ss' ∧
          ss'.length = ss.length ∧
          ∀ (i : Nat) (s : Slot), ss[i]? = some s → ∃ s', ss'[i]? = some s' ∧
            (s.visit = true → (∀ r, r < nrows → Holds (s'.mem r) ((rows.getD r []).getD i [])) ∧
              (∀ r, (s'.mem r).length = s.elem) ∧ ∀ r, nrows ≤ r → s'.mem r = s.mem r) ∧
            (s.visit = false → s'.mem = s.mem) := by
  have hi := initAll_ref ss hel hl0 hmem (fun i => match ss[i]? with | some s => s.mem | none => fun _ => [])
    (fun i s hs => by simp only [hs])
  unfold decodeTable
  rw [if_neg (by omega)]
  cases hc : initCells ss with
  | error e => rw [hc] at hi; simp only at hi ⊢; rw [hi]
  | ok cur =>
    rw [hc] at hi
    simp only at hi ⊢
    obtain ⟨ss1, h1, h2, h3, h4⟩ := hi
    rw [h1]
    have hw1 : ∀ s ∈ ss1, s.visit = true → s.codec.decWidth ≤ s.elem := by
      intro s hs hv
      obtain ⟨i, hi, his⟩ := List.mem_iff_getElem.mp hs
      have a1 : (slotCodecs ss1)[i]? = some (s.codec, s.visit) := by
        simp only [slotCodecs, List.getElem?_map, List.getElem?_eq_getElem hi, his, Option.map_some]
      have a2 : (ss1.map Slot.elem)[i]? = some s.elem := by
        simp only [List.getElem?_map, List.getElem?_eq_getElem hi, his, Option.map_some]
      rw [h3] at a1
      rw [h4] at a2
      simp only [slotCodecs, List.getElem?_map, Option.map_eq_some_iff] at a1 a2
      obtain ⟨t, t1, t2⟩ := a1
      obtain ⟨t', t1', t2'⟩ := a2
      rw [t1] at t1'
      cases t1'
      simp only [Prod.mk.injEq] at t2
      have := hw t (List.mem_of_getElem? t1) (by rw [t2.2]; exact hv)
      rw [← t2.1, ← t2']; exact this
    have hd := decRows_ref o _ nrows 0 0 _ cur ss1 h2 hw1 data
    rw [h3] at hd
    cases hr : refRows o (slotCodecs ss) nrows 0 cur data with
    | error e => rw [hr] at hd; simp only at hd ⊢; rw [hd]
    | ok p =>
      obtain ⟨rows, rest⟩ := p
      rw [hr] at hd
      simp only at hd ⊢
      obtain ⟨ss2, ls, cur', d1, d2, d3, d4, d5⟩ := hd
      rw [d1]
      simp only
      obtain ⟨ss3, f1, f2, f3⟩ := finish_ref _ (0 + nrows) ls _ cur' ss2 (by omega) d3
      simp only [Nat.zero_add] at f1 f3
      have hlen : ss2.length = ss.length := by
        have := congrArg List.length d5; have h4' := congrArg List.length h4
        simp only [List.length_map] at this h4'; omega
      refine ⟨d2, ss3, f1, by rw [f2, hlen], ?_⟩
      intro i s hs
      have hib : i < ss2.length := by
        rw [hlen]; exact (List.getElem?_eq_some_iff.mp hs).1
      obtain ⟨s3, g1, g2, g3⟩ := f3 i ss2[i] (List.getElem?_eq_getElem hib)
      have a1 : (ss2[i].codec, ss2[i].visit) = (s.codec, s.visit) := by
        have := congrArg (fun l => l[i]?) d4
        simp only [slotCodecs, List.getElem?_map, List.getElem?_eq_getElem hib, hs, Option.map_some,
          Option.some.injEq] at this
        exact this
      have a2 : ss2[i].elem = s.elem := by
        have := congrArg (fun l => l[i]?) (d5.trans h4)
        simp only [List.getElem?_map, List.getElem?_eq_getElem hib, hs, Option.map_some,
          Option.some.injEq] at this
        exact this
      simp only [Prod.mk.injEq] at a1
      refine ⟨s3, g1, ?_, ?_⟩
      · intro hv
        obtain ⟨k1, k2, k3⟩ := g2 (by rw [a1.2]; exact hv)
        refine ⟨?_, ?_, ?_⟩
        · intro r hr
          have := k1 r hr
          simp only [extHist, Nat.not_lt_zero, if_false, Nat.sub_zero] at this
          exact this
        · intro r; rw [k2 r, a2]
        · intro r hr
          have := k3 r hr
          simp only [hs] at this
          exact this
      · intro hv
        have := g3 (by rw [a1.2]; exact hv)
        simp only [hs] at this
        exact this

end Verif
