import Verif.Reader

/-
`Reader::next` against the list of tables of the file.
-/

namespace Verif

theorem cloneCols_ok {cs ds : List Col} (h : cloneCols cs = .ok ds) : ds = cs := by
  induction cs generalizing ds with
  | nil => simp [cloneCols] at h; exact h
  | cons c cs ih =>
    simp only [cloneCols] at h
    split at h
    · simp at h
    · rename_i k hk
      split at h
      · simp at h
      · rename_i cs' hcs
        simp only [Except.ok.injEq] at h
        have : k = c.codec := by
          unfold Codec.clone at hk
          split at hk
          · simp at hk
          · simpa using hk.symm
        rw [← h, ih hcs, this]

/-- A copied table has the same contents. -/
theorem Tbl.copy_ok {t t' : Tbl} (h : t.copy = .ok t') : t' = t := by
  unfold Tbl.copy at h
  split at h
  · simp at h
  · rename_i cs hcs
    simp only [Except.ok.injEq] at h
    rw [← h, cloneCols_ok hcs]

/-- The next call of `next` starts at table `i`. -/
def Rd.At (ts : List Tbl) (r : Rd) (i : Nat) : Prop :=
  ∃ m, m ≤ ts.length ∧ r.tables = ts.take m ∧
    ((r.first = true ∧ r.pos = 0 ∧ i = 0 ∧ 0 < m) ∨ (r.first = false ∧ 0 < i ∧ r.pos = (i : Int) - 1 ∧ i ≤ m))

/-- The reader is past the end. -/
def Rd.Ended (r : Rd) : Prop := r.pos = -1

/-- The reader has passed over an error: its iterator is beyond the tables read. -/
def Rd.Broken (r : Rd) : Prop := r.first = false ∧ (r.tables.length : Int) ≤ r.pos

theorem itGet_take (ts : List Tbl) (m i : Nat) (hi : i < m) (hm : m ≤ ts.length) :
    itGet (ts.take m) (i : Int) = .ok (ts[i]'(by omega)) := by
  unfold itGet
  rw [if_neg (by omega)]
  simp only [Int.toNat_natCast]
  rw [List.getElem?_take, if_pos hi, List.getElem?_eq_getElem (by omega)]

theorem itIncr_scan {env : Env} {f : File} {ts : List Tbl} {fin : Option Err} (h : Scan env f ts fin) (m p : Nat)
    (hm : m ≤ ts.length) (hp : p < m) :
    itIncr env f (ts.take m) (p : Int) =
      if p + 1 < ts.length then (ts.take (max m (p + 2)), (p : Int) + 1, none)
      else match fin with
        | none => (ts.take m, -1, none)
        | some e => (ts.take m, (p : Int) + 1, some e) := by
  unfold itIncr
  have := ensure_scan h m hm (p + 1) (by omega)
  rw [show ((p + 1 : Nat) : Int) = (p : Int) + 1 by omega] at this
  rw [this]
  split
  · rename_i e hh
    split at hh
    · simp at hh
    · rename_i hn
      rw [if_neg hn]
      cases fin <;> simp_all
  · rename_i ts' hh
    split at hh
    · rename_i hl; rw [if_pos hl]; simp only [Except.ok.injEq, Prod.mk.injEq, and_true] at hh; rw [← hh]
    · cases fin <;> simp at hh
  · rename_i ts' hh
    split at hh
    · simp at hh
    · rename_i hn
      rw [if_neg hn]
      cases fin <;> simp_all

/-- How many of the following tables join a frame. -/
def grow (limit : Int) (front : Tbl) : Int → List Tbl → Nat
  | _, [] => 0
  | n, t :: ts =>
    if limit ≥ 0 ∧ addRows n t.rows > limit then 0
    else if ¬ compatible front.info.cols t.info.cols then 0
    else grow limit front (addRows n t.rows) ts + 1

/-- Rows of a frame. -/
def sumRows (n : Int) (ts : List Tbl) : Int := ts.foldl (fun a t => addRows a t.rows) n

theorem grow_le (limit : Int) (front : Tbl) (n : Int) (ts : List Tbl) : grow limit front n ts ≤ ts.length := by
  induction ts generalizing n with
  | nil => simp [grow]
  | cons t ts ih =>
    simp only [grow]
    split
    · omega
    · split
      · omega
      · have := ih (addRows n t.rows); simp; omega

theorem aggLoop_scan {env : Env} {f : File} {ts : List Tbl} {fin : Option Err} (h : Scan env f ts fin)
    (hc : ∀ t ∈ ts, t.copy = .ok t) (limit : Int) (fuel m p : Nat) (hm : m ≤ ts.length) (hp : p < m)
    (hf : ts.length < fuel + p + 1) (acc : List Tbl) (front : Tbl) (hacc : acc.head? = some front) (n : Int) :
    ∃ m', p + grow limit front n (ts.drop (p + 1)) < m' ∧ m' ≤ ts.length ∧
      aggLoop env f limit fuel (ts.take m) p acc n =
        ((ts.take m', ((p + grow limit front n (ts.drop (p + 1)) : Nat) : Int)),
          match (if p + 1 + grow limit front n (ts.drop (p + 1)) = ts.length then fin else none) with
          | some e => .error e
          | none => .ok (acc ++ (ts.drop (p + 1)).take (grow limit front n (ts.drop (p + 1))),
              sumRows n ((ts.drop (p + 1)).take (grow limit front n (ts.drop (p + 1)))))) := by
  induction fuel generalizing m p acc n with
  | zero => omega
  | succ fuel ih =>
    unfold aggLoop
    rw [itIncr_scan h m p hm hp]
    by_cases hl : p + 1 < ts.length
    · rw [if_pos hl]
      simp only
      rw [if_neg (by omega)]
      have hm2 : max m (p + 2) ≤ ts.length := by omega
      have hget := itGet_take ts (max m (p + 2)) (p + 1) (by omega) hm2
      rw [show ((p + 1 : Nat) : Int) = (p : Int) + 1 by omega] at hget
      rw [hget, hacc]
      simp only
      have hd : ts.drop (p + 1) = ts[p + 1] :: ts.drop (p + 2) := by
        rw [List.drop_eq_getElem_cons hl]
      rw [hd]
      by_cases h1 : limit ≥ 0 ∧ addRows n ts[p + 1].rows > limit
      · have hg : grow limit front n (ts[p + 1] :: ts.drop (p + 2)) = 0 := by simp only [grow, if_pos h1]
        rw [hg, if_pos h1]
        refine ⟨max m (p + 2), by omega, hm2, ?_⟩
        rw [if_neg (by omega)]
        simp [sumRows]
      · rw [if_neg h1]
        by_cases h2 : compatible front.info.cols ts[p + 1].info.cols = true
        · have hg : grow limit front n (ts[p + 1] :: ts.drop (p + 2)) =
              grow limit front (addRows n ts[p + 1].rows) (ts.drop (p + 2)) + 1 := by
            simp only [grow, if_neg h1, h2]; simp
          rw [hg, if_neg (by simpa using h2)]
          rw [itIncr_scan h (max m (p + 2)) p hm2 (by omega), if_pos hl]
          simp only
          rw [show max (max m (p + 2)) (p + 2) = max m (p + 2) by omega, hget]
          simp only
          rw [hc _ (List.getElem_mem hl)]
          simp only
          obtain ⟨m', g1, g2, g3⟩ := ih (max m (p + 2)) (p + 1) hm2 (by omega) (by omega) (acc ++ [ts[p + 1]])
            (by cases acc with
              | nil => simp at hacc
              | cons a as => simpa using hacc) (addRows n ts[p + 1].rows)
          rw [show ((p + 1 : Nat) : Int) = (p : Int) + 1 by omega] at g3
          simp only [show p + 1 + 1 = p + 2 by omega] at g1 g3
          refine ⟨m', by omega, g2, ?_⟩
          rw [g3]
          rw [show p + 1 + (grow limit front (addRows n ts[p + 1].rows) (ts.drop (p + 2)) + 1) =
            p + 1 + 1 + grow limit front (addRows n ts[p + 1].rows) (ts.drop (p + 2)) by omega]
          rw [show p + 1 + grow limit front (addRows n ts[p + 1].rows) (ts.drop (p + 2)) =
            p + (grow limit front (addRows n ts[p + 1].rows) (ts.drop (p + 2)) + 1) by omega]
          simp only [List.take_succ_cons, sumRows, List.foldl_cons, List.append_assoc, List.singleton_append,
            show p + 1 + 1 = p + 2 by omega]
        · have hg : grow limit front n (ts[p + 1] :: ts.drop (p + 2)) = 0 := by
            simp only [grow, if_neg h1]; simp [h2]
          rw [hg, if_pos (by simpa using h2)]
          refine ⟨max m (p + 2), by omega, hm2, ?_⟩
          rw [if_neg (by omega)]
          simp [sumRows]
    · rw [if_neg hl]
      have hd : ts.drop (p + 1) = [] := List.drop_eq_nil_of_le (by omega)
      rw [hd]
      simp only [grow, List.take_nil, List.append_nil, Nat.add_zero, sumRows, List.foldl_nil]
      refine ⟨m, hp, hm, ?_⟩
      have hpl : p + 1 = ts.length := by omega
      simp only [hpl, if_true]
      cases fin <;> simp

/-- Number of tables of the frame starting at table `i`. -/
def frameLen (agg : Bool) (limit : Int) (ts : List Tbl) (i : Nat) : Nat :=
  match ts.drop i with
  | [] => 0
  | t :: rest => if agg then grow limit t t.rows rest + 1 else 1

theorem frameLen_pos (agg : Bool) (limit : Int) (ts : List Tbl) (i : Nat) (h : i < ts.length) :
    0 < frameLen agg limit ts i ∧ i + frameLen agg limit ts i ≤ ts.length := by
  unfold frameLen
  rw [List.drop_eq_getElem_cons h]
  simp only
  have := grow_le limit ts[i] ts[i].rows (ts.drop (i + 1))
  simp only [List.length_drop] at this
  split <;> omega

theorem addRows_zero_rows (t : Tbl) : addRows 0 t.rows = t.rows := by
  unfold addRows Tbl.rows toI64
  rw [Int.zero_add, BitVec.ofInt_toInt]

/-- What `next` returns for the frame of tables `fr`. -/
def frameResult (limit : Int) (fr : List Tbl) : Except Err (Option (List Tbl)) :=
  if limit < 0 ∨ sumRows 0 fr ≤ limit then .ok (some fr) else .error .assertFailed

theorem Rd.take_scan {env : Env} {f : File} {ts : List Tbl} {fin : Option Err} (h : Scan env f ts fin)
    (hc : ∀ t ∈ ts, t.copy = .ok t) (agg : Bool) (limit : Int) (fuel : Nat) (hf : ts.length < fuel) (m i : Nat)
    (hm : m ≤ ts.length) (hi : i < m) :
    ∃ r', Rd.take env f agg limit fuel (ts.take m) i =
        (r', match (if agg = true ∧ i + frameLen agg limit ts i = ts.length then fin else none) with
          | some e => .error e
          | none => frameResult limit ((ts.drop i).take (frameLen agg limit ts i))) ∧
      r'.At ts (i + frameLen agg limit ts i) := by
  have hil : i < ts.length := by omega
  have hd : ts.drop i = ts[i] :: ts.drop (i + 1) := List.drop_eq_getElem_cons hil
  have hfl : frameLen agg limit ts i = if agg then grow limit ts[i] ts[i].rows (ts.drop (i + 1)) + 1 else 1 := by
    unfold frameLen; rw [hd]
  unfold Rd.take
  rw [itGet_take ts m i hi hm]
  simp only
  rw [hc _ (List.getElem_mem hil)]
  simp only
  cases agg with
  | false =>
    rw [hfl]
    simp only [Bool.false_eq_true, if_false, false_and]
    have hres : frameResult limit ((ts.drop i).take 1) =
        if limit < 0 ∨ ts[i].rows ≤ limit then .ok (some [ts[i]]) else .error .assertFailed := by
      rw [hd]; simp only [frameResult, sumRows, List.take_succ_cons, List.take_zero, List.foldl_cons, List.foldl_nil, addRows_zero_rows]; try rfl
    rw [hres]
    split
    · exact ⟨_, rfl, m, hm, rfl, Or.inr ⟨rfl, by omega, by simp, by omega⟩⟩
    · exact ⟨_, rfl, m, hm, rfl, Or.inr ⟨rfl, by omega, by simp, by omega⟩⟩
  | true =>
    rw [hfl]
    simp only [if_true, true_and]
    obtain ⟨m', g1, g2, g3⟩ := aggLoop_scan h hc limit fuel m i hm hi (by omega) [ts[i]] ts[i] rfl ts[i].rows
    rw [g3]
    generalize hk : grow limit ts[i] ts[i].rows (ts.drop (i + 1)) = k at *
    have hres : frameResult limit ((ts.drop i).take (k + 1)) =
        if limit < 0 ∨ sumRows ts[i].rows ((ts.drop (i + 1)).take k) ≤ limit
        then .ok (some (ts[i] :: (ts.drop (i + 1)).take k)) else .error .assertFailed := by
      rw [hd]; simp only [frameResult, sumRows, List.take_succ_cons, List.take_zero, List.foldl_cons, List.foldl_nil, addRows_zero_rows]; try rfl
    rw [hres, show i + (k + 1) = i + 1 + k by omega]
    have hat : ∀ r' : Rd, r'.tables = ts.take m' → r'.pos = ((i + k : Nat) : Int) → r'.first = false →
        r'.At ts (i + 1 + k) := by
      intro r' a b c
      refine ⟨m', g2, a, Or.inr ⟨c, by omega, by rw [b]; omega, by omega⟩⟩
    cases hfin : (if i + 1 + k = ts.length then fin else none) with
    | some e => exact ⟨_, rfl, hat _ rfl rfl rfl⟩
    | none =>
      simp only [List.singleton_append]
      split
      · exact ⟨_, rfl, hat _ rfl rfl rfl⟩
      · exact ⟨_, rfl, hat _ rfl rfl rfl⟩

/-- One call of `next` where a table remains. -/
theorem Rd.next_frame {env : Env} {f : File} {ts : List Tbl} {fin : Option Err} (h : Scan env f ts fin)
    (hc : ∀ t ∈ ts, t.copy = .ok t) (agg : Bool) (limit : Int) (fuel : Nat) (hf : ts.length < fuel) (r : Rd) (i : Nat)
    (hr : r.At ts i) (hi : i < ts.length) :
    ∃ r', r.next env f agg limit fuel =
        (r', match (if agg = true ∧ i + frameLen agg limit ts i = ts.length then fin else none) with
          | some e => .error e
          | none => frameResult limit ((ts.drop i).take (frameLen agg limit ts i))) ∧
      r'.At ts (i + frameLen agg limit ts i) := by
  obtain ⟨m, hm, ht, hcase⟩ := hr
  unfold Rd.next
  rcases hcase with ⟨a, b, rfl, d⟩ | ⟨a, b, c, d⟩
  · rw [if_neg (by omega), if_pos a, ht, b]
    have := Rd.take_scan h hc agg limit fuel hf m 0 hm d
    simpa using this
  · rw [if_neg (by omega), if_neg (by simp [a]), ht, c]
    have h2 := itIncr_scan h m (i - 1) hm (by omega)
    rw [show ((i - 1 : Nat) : Int) = (i : Int) - 1 by omega, if_pos (by omega)] at h2
    rw [h2]
    simp only
    rw [if_neg (by omega), show (i : Int) - 1 + 1 = i by omega]
    exact Rd.take_scan h hc agg limit fuel hf _ i (by omega) (by omega)

/-- One call of `next` where no table remains: the end. -/
theorem Rd.next_end {env : Env} {f : File} {ts : List Tbl} (h : Scan env f ts none)
    (agg : Bool) (limit : Int) (fuel : Nat) (r : Rd) (hr : r.At ts ts.length) :
    ∃ r', r.next env f agg limit fuel = (r', .ok none) ∧ r'.Ended := by
  obtain ⟨m, hm, ht, hcase⟩ := hr
  unfold Rd.next
  rcases hcase with ⟨a, b, c, d⟩ | ⟨a, b, c, d⟩
  · omega
  · rw [if_neg (by omega), if_neg (by simp [a]), ht, c]
    have h2 := itIncr_scan h m (ts.length - 1) hm (by omega)
    rw [show ((ts.length - 1 : Nat) : Int) = (ts.length : Int) - 1 by omega, if_neg (by omega)] at h2
    rw [h2]
    exact ⟨_, rfl, rfl⟩

/-- One call of `next` where no table remains: the error of the file. -/
theorem Rd.next_error {env : Env} {f : File} {ts : List Tbl} {e : Err} (h : Scan env f ts (some e))
    (agg : Bool) (limit : Int) (fuel : Nat) (r : Rd) (hr : r.At ts ts.length) :
    ∃ r', r.next env f agg limit fuel = (r', .error e) ∧ r'.Broken := by
  obtain ⟨m, hm, ht, hcase⟩ := hr
  unfold Rd.next
  rcases hcase with ⟨a, b, c, d⟩ | ⟨a, b, c, d⟩
  · omega
  · rw [if_neg (by omega), if_neg (by simp [a]), ht, c]
    have h2 := itIncr_scan h m (ts.length - 1) hm (by omega)
    rw [show ((ts.length - 1 : Nat) : Int) = (ts.length : Int) - 1 by omega, if_neg (by omega)] at h2
    rw [h2]
    refine ⟨_, rfl, a, ?_⟩
    simp

theorem Rd.next_ended {env : Env} {f : File} (agg : Bool) (limit : Int) (fuel : Nat) (r : Rd) (hr : r.Ended) :
    r.next env f agg limit fuel = (r, .ok none) := by
  unfold Rd.next; rw [if_pos (by exact hr)]

/-- After an error every further call fails. -/
theorem Rd.next_broken {env : Env} {f : File} (agg : Bool) (limit : Int) (fuel : Nat) (r : Rd) (hr : r.Broken) :
    ∃ r', r.next env f agg limit fuel = (r', .error .assertFailed) ∧ r'.Broken := by
  obtain ⟨a, b⟩ := hr
  unfold Rd.next
  rw [if_neg (by omega), if_neg (by simp [a])]
  have : itIncr env f r.tables r.pos = (r.tables, r.pos + 1, some .assertFailed) := by
    unfold itIncr ensureTable
    rw [if_neg (by omega), if_pos (by omega)]
  rw [this]
  exact ⟨_, rfl, a, by simp; omega⟩

/-- Opening a file. -/
theorem Rd.open_scan {env : Env} {f : File} {ts : List Tbl} {fin : Option Err} (h : Scan env f ts fin) :
    match ts, fin with
    | [], some e => Rd.open env f = .error e
    | [], none => ∃ r, Rd.open env f = .ok r ∧ r.Ended
    | _ :: _, _ => ∃ r, Rd.open env f = .ok r ∧ r.At ts 0 := by
  have h2 := ensure_scan h 0 (by omega) 0 (by omega)
  unfold Rd.open
  simp only [List.take_zero] at h2
  rw [show ((0 : Nat) : Int) = 0 by rfl] at h2
  rw [h2]
  cases ts with
  | nil => cases fin <;> simp [Rd.Ended]
  | cons t ts =>
    simp only [List.length_cons]
    rw [if_pos (by omega)]
    exact ⟨_, rfl, 1, by simp, by simp, Or.inl ⟨rfl, rfl, rfl, by omega⟩⟩

/-! ### All frames of a file -/

/-- The groups of tables that the frames of a file consist of, from table `i` on. -/
def groups (agg : Bool) (limit : Int) (ts : List Tbl) : Nat → Nat → List (List Tbl)
  | 0, _ => []
  | k + 1, i =>
    if i < ts.length then
      (ts.drop i).take (frameLen agg limit ts i) :: groups agg limit ts k (i + frameLen agg limit ts i)
    else []

/-- The results of calling `next` until the end, when all goes well. -/
theorem Rd.calls_frames {env : Env} {f : File} {ts : List Tbl} (h : Scan env f ts none)
    (hc : ∀ t ∈ ts, t.copy = .ok t) (agg : Bool) (limit : Int) (fuel : Nat) (hf : ts.length < fuel)
    (k i : Nat) (r : Rd) (hr : r.At ts i) (hi : i ≤ ts.length) (hk : ts.length ≤ i + k) :
    r.calls env f agg limit fuel ((groups agg limit ts k i).length + 1) =
      (groups agg limit ts k i).map (frameResult limit) ++ [.ok none] := by
  induction k generalizing i r with
  | zero =>
    have : i = ts.length := by omega
    subst this
    obtain ⟨r', h1, _⟩ := Rd.next_end h agg limit fuel r hr
    simp [groups, Rd.calls, h1]
  | succ k ih =>
    by_cases hl : i < ts.length
    · obtain ⟨r', h1, h2⟩ := Rd.next_frame h hc agg limit fuel hf r i hr hl
      have hp := frameLen_pos agg limit ts i hl
      simp only [groups, if_pos hl, List.length_cons, List.map_cons, List.cons_append]
      rw [Rd.calls, h1]
      simp only [ite_self]
      rw [ih (i + frameLen agg limit ts i) r' h2 hp.2 (by omega)]
    · have : i = ts.length := by omega
      subst this
      obtain ⟨r', h1, _⟩ := Rd.next_end h agg limit fuel r hr
      simp [groups, Rd.calls, h1]

end Verif
