import Verif.FrameRef2

/-
Reading a whole file frame by frame, as a user does with `api::Reader::next`, with and without aggregation.
-/

namespace Verif

/-- The user's loop `while (frame = reader.next())`: the frames obtained, and how it ended (`none`: the
end of the data was reported). -/
def readLoop (env : Env) (f : File) (agg : Bool) (limit : Int) (fuel : Nat) :
    Nat → Rd → List (List Tbl) × Option Err
  | 0, _ => ([], some .diverges)
  | k + 1, r =>
    match r.next env f agg limit fuel with
    | (_, .error e) => ([], some e)
    | (_, .ok none) => ([], none)
    | (r', .ok (some fr)) =>
      match readLoop env f agg limit fuel k r' with
      | (frs, fin) => (fr :: frs, fin)

/-- Open a reader on a file and take all frames.  The bound on the number of rounds exceeds the number of
frames a file of that size can hold. -/
def readFrames (env : Env) (f : File) (agg : Bool) (limit : Int) : List (List Tbl) × Option Err :=
  match Rd.open env f with
  | .error e => ([], some e)
  | .ok r => readLoop env f agg limit (f.bytes.length + 2) (f.bytes.length + 2) r

/-! ### Without aggregation -/

theorem readLoop_plain {env : Env} {f : File} {ts : List Tbl} {fin : Option Err} (h : Scan env f ts fin)
    (hc : ∀ t ∈ ts, t.copy = .ok t) (limit : Int) (hlim : ∀ t ∈ ts, limit < 0 ∨ t.rows ≤ limit) (fuel : Nat)
    (hf : ts.length < fuel) (k i : Nat) (r : Rd) (hr : r.At ts i) (hi : i ≤ ts.length) (hk : ts.length < i + k) :
    readLoop env f false limit fuel k r = ((ts.drop i).map (fun t => [t]), fin) := by
  induction k generalizing i r with
  | zero => omega
  | succ k ih =>
    unfold readLoop
    by_cases hl : i < ts.length
    · obtain ⟨r', h1, h2⟩ := Rd.next_frame h hc false limit fuel hf r i hr hl
      have hd : ts.drop i = ts[i] :: ts.drop (i + 1) := List.drop_eq_getElem_cons hl
      have hfl : frameLen false limit ts i = 1 := by unfold frameLen; rw [hd]; rfl
      rw [hfl] at h1 h2
      have hres : frameResult limit ((ts.drop i).take 1) = .ok (some [ts[i]]) := by
        have h4 : (ts.drop i).take 1 = [ts[i]] := by rw [hd]; rfl
        rw [h4]
        unfold frameResult
        have h3 : sumRows 0 [ts[i]] = ts[i].rows := by simp [sumRows, addRows_zero_rows]
        rw [h3, if_pos (hlim _ (List.getElem_mem hl))]
      rw [h1]
      simp only [Bool.false_eq_true, false_and, if_false, hres]
      rw [ih (i + 1) r' h2 (by omega) (by omega), hd]
      rfl
    · have : i = ts.length := by omega
      subst this
      rw [List.drop_length]
      cases fin with
      | none => obtain ⟨r', h1, _⟩ := Rd.next_end h false limit fuel r hr; rw [h1]; rfl
      | some e => obtain ⟨r', h1, _⟩ := Rd.next_error h false limit fuel r hr; rw [h1]; rfl

/-- **All frames of a file**, one table each, in file order, then how the file ends. -/
theorem readFrames_plain {env : Env} {f : File} {ts : List Tbl} {fin : Option Err} (h : Scan env f ts fin)
    (hc : ∀ t ∈ ts, t.copy = .ok t) (limit : Int) (hlim : ∀ t ∈ ts, limit < 0 ∨ t.rows ≤ limit)
    (hlen : ts.length ≤ f.bytes.length) :
    readFrames env f false limit = (ts.map (fun t => [t]), fin) := by
  unfold readFrames
  have ho := Rd.open_scan h
  cases ts with
  | nil =>
    cases fin with
    | none =>
      obtain ⟨r, h1, h2⟩ := ho
      rw [h1]
      simp only [readLoop, Rd.next_ended false limit _ r h2]; rfl
    | some e => simp only at ho; rw [ho]; rfl
  | cons t ts =>
    simp only at ho
    obtain ⟨r, h1, h2⟩ := ho
    rw [h1]
    simp only
    rw [readLoop_plain h hc limit hlim _ (by omega) _ 0 r h2 (by omega) (by omega)]
    rfl

/-! ### With aggregation -/

/-- Unbounded number of rows of a list of tables. -/
def rowSum (ts : List Tbl) : Nat := (ts.map (fun t => t.info.nrows)).sum

theorem rowSum_append (a b : List Tbl) : rowSum (a ++ b) = rowSum a + rowSum b := by simp [rowSum]

theorem rowSum_cons (t : Tbl) (ts : List Tbl) : rowSum (t :: ts) = t.info.nrows + rowSum ts := by simp [rowSum]

theorem rows_small (t : Tbl) (h : t.info.nrows < 9223372036854775808) : t.rows = t.info.nrows := toI64_small _ h

theorem addRows_small (a b : Nat) (h : a + b < 9223372036854775808) : addRows a b = ((a + b : Nat) : Int) := by
  unfold addRows
  rw [show (a : Int) + (b : Int) = ((a + b : Nat) : Int) by push_cast; rfl]
  have : BitVec.ofInt 64 ((a + b : Nat) : Int) = BitVec.ofNat 64 (a + b) := by
    rw [BitVec.ofInt_natCast]
  rw [this]
  exact toI64_small _ h

theorem sumRows_small (n : Nat) (ts : List Tbl) (h : n + rowSum ts < 9223372036854775808) :
    sumRows n ts = ((n + rowSum ts : Nat) : Int) := by
  induction ts generalizing n with
  | nil => simp [sumRows, rowSum]
  | cons t ts ih =>
    rw [rowSum_cons] at h
    have h2 := rows_small t (by omega)
    have h3 := addRows_small n t.info.nrows (by omega)
    simp only [sumRows, List.foldl_cons, h2, h3]
    have h4 := ih (n + t.info.nrows) (by omega)
    simp only [sumRows] at h4
    rw [h4, rowSum_cons]
    congr 1; omega

/-- **Specification of aggregation**: the frames `gs` made of the tables `ts` under a row limit (negative:
no limit). -/
structure Grouping (limit : Int) (ts : List Tbl) (gs : List (List Tbl)) : Prop where
  /-- consecutive groups, nothing lost, duplicated or reordered -/
  all : gs.flatten = ts
  nonempty : ∀ g ∈ gs, g ≠ []
  /-- every table after the first has columns compatible with the first -/
  compat : ∀ g ∈ gs, ∀ (front : Tbl) (rest : List Tbl), g = front :: rest →
    ∀ t ∈ rest, compatible front.info.cols t.info.cols = true
  /-- the limit is respected -/
  bound : 0 ≤ limit → ∀ g ∈ gs, 2 ≤ g.length → (rowSum g : Int) ≤ limit
  /-- groups are as large as possible -/
  maximal : ∀ (i : Nat) (g : List Tbl) (front : Tbl) (rest : List Tbl) (t : Tbl) (rest' : List Tbl),
    gs[i]? = some g → g = front :: rest → gs[i + 1]? = some (t :: rest') →
    compatible front.info.cols t.info.cols = false ∨ (0 ≤ limit ∧ limit < ((rowSum g + t.info.nrows : Nat) : Int))

theorem grow_spec (limit : Int) (front : Tbl) (n : Nat) (ts : List Tbl)
    (h : n + rowSum ts < 9223372036854775808) :
    (∀ t ∈ ts.take (grow limit front n ts), compatible front.info.cols t.info.cols = true) ∧
    (0 ≤ limit → 0 < grow limit front n ts → ((n + rowSum (ts.take (grow limit front n ts)) : Nat) : Int) ≤ limit) ∧
    (∀ t, ts[grow limit front n ts]? = some t → compatible front.info.cols t.info.cols = false ∨
      (0 ≤ limit ∧ limit < ((n + rowSum (ts.take (grow limit front n ts)) + t.info.nrows : Nat) : Int))) := by
  induction ts generalizing n with
  | nil => simp [grow]
  | cons t ts ih =>
    rw [rowSum_cons] at h
    have h2 := rows_small t (by omega)
    have h3 := addRows_small n t.info.nrows (by omega)
    simp only [grow, h2, h3]
    by_cases h4 : limit ≥ 0 ∧ ((n + t.info.nrows : Nat) : Int) > limit
    · rw [if_pos h4]
      refine ⟨by simp, by simp, ?_⟩
      intro t' ht'
      simp only [List.getElem?_cons_zero, Option.some.injEq] at ht'
      subst ht'
      right
      simp only [List.take_zero, rowSum, List.map_nil, List.sum_nil]
      omega
    · rw [if_neg h4]
      by_cases h5 : compatible front.info.cols t.info.cols = true
      · rw [if_neg (by simpa using h5)]
        obtain ⟨i1, i2, i3⟩ := ih (n + t.info.nrows) (by omega)
        generalize grow limit front ((n + t.info.nrows : Nat) : Int) ts = g at *
        refine ⟨?_, ?_, ?_⟩
        · intro x hx
          simp only [List.take_succ_cons, List.mem_cons] at hx
          rcases hx with rfl | hx
          · exact h5
          · exact i1 x hx
        · intro hl _
          simp only [List.take_succ_cons, rowSum_cons]
          by_cases hg : 0 < g
          · have := i2 hl hg
            omega
          · have : g = 0 := by omega
            subst this
            simp only [List.take_zero, rowSum, List.map_nil, List.sum_nil]
            omega
        · intro x hx
          simp only [List.getElem?_cons_succ] at hx
          simp only [List.take_succ_cons, rowSum_cons]
          rcases i3 x hx with h | h
          · exact Or.inl h
          · right; omega
      · rw [if_pos (by simpa using h5)]
        refine ⟨by simp, by simp, ?_⟩
        intro t' ht'
        simp only [List.getElem?_cons_zero, Option.some.injEq] at ht'
        subst ht'
        left; simpa using h5

theorem frameLen_agg (limit : Int) (ts : List Tbl) (i : Nat) (h : i < ts.length) :
    frameLen true limit ts i = grow limit ts[i] ts[i].rows (ts.drop (i + 1)) + 1 := by
  unfold frameLen
  rw [List.drop_eq_getElem_cons h]; rfl

/-- The groups formed by the reader meet the specification. -/
theorem groups_grouping (limit : Int) (ts : List Tbl) (h : rowSum ts < 9223372036854775808) (k i : Nat)
    (hi : i ≤ ts.length) (hk : ts.length ≤ i + k) : Grouping limit (ts.drop i) (groups true limit ts k i) := by
  induction k generalizing i with
  | zero =>
    have : i = ts.length := by omega
    subst this
    simp only [groups, List.drop_length]
    exact ⟨rfl, by simp, by simp, by simp, by simp⟩
  | succ k ih =>
    by_cases hl : i < ts.length
    · have hfl := frameLen_agg limit ts i hl
      have hp := frameLen_pos true limit ts i hl
      have hrec := ih (i + frameLen true limit ts i) hp.2 (by omega)
      simp only [groups, if_pos hl]
      have hd : ts.drop i = ts[i] :: ts.drop (i + 1) := List.drop_eq_getElem_cons hl
      have hsum : ts[i].info.nrows + rowSum (ts.drop (i + 1)) < 9223372036854775808 := by
        have e : rowSum ts = rowSum (ts.take i) + rowSum (ts.drop i) := by
          rw [← rowSum_append, List.take_append_drop]
        rw [hd, rowSum_cons] at e
        omega
      have hr := rows_small ts[i] (by omega)
      rw [hr] at hfl
      have hgs := grow_spec limit ts[i] ts[i].info.nrows (ts.drop (i + 1)) hsum
      generalize hG : grow limit ts[i] (ts[i].info.nrows : Int) (ts.drop (i + 1)) = G at *
      have hgrp : (ts.drop i).take (frameLen true limit ts i) = ts[i] :: (ts.drop (i + 1)).take G := by
        rw [hd, hfl, List.take_succ_cons]
      obtain ⟨g1, g2, g3⟩ := hgs
      constructor
      · simp only [List.flatten_cons, hrec.all]
        rw [← List.drop_drop, List.take_append_drop]
      · intro g hg
        rcases List.mem_cons.mp hg with rfl | hg
        · rw [hgrp]; simp
        · exact hrec.nonempty g hg
      · intro g hg front rest he t ht
        rcases List.mem_cons.mp hg with rfl | hg
        · rw [hgrp] at he
          simp only [List.cons.injEq] at he
          obtain ⟨rfl, rfl⟩ := he
          exact g1 t ht
        · exact hrec.compat g hg front rest he t ht
      · intro hlim g hg h2
        rcases List.mem_cons.mp hg with rfl | hg
        · rw [hgrp] at h2 ⊢
          rw [rowSum_cons]
          apply g2 hlim
          simp only [List.length_cons, List.length_take] at h2
          omega
        · exact hrec.bound hlim g hg h2
      · intro j g front rest t rest' hj he hj'
        cases j with
        | zero =>
          simp only [List.getElem?_cons_zero, Option.some.injEq] at hj
          rw [← hj, hgrp] at he
          simp only [List.cons.injEq] at he
          obtain ⟨rfl, rfl⟩ := he
          simp only [List.getElem?_cons_succ] at hj'
          have ht : (ts.drop (i + 1))[G]? = some t := by
            cases k with
            | zero => simp [groups] at hj'
            | succ k =>
              simp only [groups] at hj'
              split at hj'
              · rename_i hlt
                have hd2 : ts.drop (i + frameLen true limit ts i) = ts[i + frameLen true limit ts i] :: _ :=
                  List.drop_eq_getElem_cons hlt
                have hp2 := frameLen_pos true limit ts _ hlt
                simp only [List.getElem?_cons_zero, Option.some.injEq] at hj'
                rw [hd2] at hj'
                obtain ⟨q, hq⟩ : ∃ q, frameLen true limit ts (i + frameLen true limit ts i) = q + 1 :=
                  ⟨_, (Nat.succ_pred_eq_of_pos hp2.1).symm⟩
                rw [hq, List.take_succ_cons] at hj'
                simp only [List.cons.injEq] at hj'
                rw [List.getElem?_drop, show i + 1 + G = i + frameLen true limit ts i by omega,
                  List.getElem?_eq_getElem hlt, hj'.1]
              · simp at hj'
          rw [← hj, hgrp, rowSum_cons]
          exact g3 t ht
        | succ j =>
          simp only [List.getElem?_cons_succ] at hj hj'
          exact hrec.maximal j g front rest t rest' hj he hj'
    · have : i = ts.length := by omega
      subst this
      simp only [groups, List.drop_length, Nat.lt_irrefl, if_false]
      exact ⟨rfl, by simp, by simp, by simp, by simp⟩

/-- A grouping is unique: the specification leaves the reader no choice. -/
theorem Grouping.unique {limit : Int} {ts : List Tbl} {gs gs' : List (List Tbl)} (h : Grouping limit ts gs)
    (h' : Grouping limit ts gs') (hrow : 0 ≤ limit → ∀ t ∈ ts, (t.info.nrows : Int) ≤ limit) : gs = gs' := by
  induction gs generalizing gs' ts with
  | nil =>
    cases gs' with
    | nil => rfl
    | cons g gs' =>
      have h1 := h.all; have h2 := h'.all
      have h3 := h'.nonempty g (by simp)
      rw [← h1] at h2
      simp only [List.flatten_cons, List.flatten_nil, List.append_eq_nil_iff] at h2
      exact absurd h2.1 h3
  | cons g gs ih =>
    cases gs' with
    | nil =>
      have h1 := h.all; have h2 := h'.all
      have h3 := h.nonempty g (by simp)
      rw [← h2] at h1
      simp only [List.flatten_cons, List.flatten_nil, List.append_eq_nil_iff] at h1
      exact absurd h1.1 h3
    | cons g' gs' =>
      have key : ∀ (A B : List Tbl) (As Bs : List (List Tbl)), Grouping limit ts (A :: As) → Grouping limit ts (B :: Bs) →
          A.length ≤ B.length → A = B := by
        intro A B As Bs hA hB hle
        have hpre : A = B.take A.length := by
          have e := hA.all.trans hB.all.symm
          simp only [List.flatten_cons] at e
          have := congrArg (List.take A.length) e
          rwa [List.take_left, List.take_append_of_le_length hle] at this
        by_contra hne
        have hlt : A.length < B.length := by
          rcases Nat.lt_or_ge A.length B.length with h | h
          · exact h
          · rw [List.take_of_length_le h] at hpre; exact absurd hpre hne
        -- next table after A
        obtain ⟨front, rest, rfl⟩ : ∃ front rest, A = front :: rest := by
          cases A with
          | nil => exact absurd rfl (hA.nonempty [] (by simp))
          | cons a as => exact ⟨a, as, rfl⟩
        obtain ⟨y, ys, hB0⟩ : ∃ y ys, B.drop (front :: rest).length = y :: ys := by
          cases hb : B.drop (front :: rest).length with
          | nil => have := congrArg List.length hb; rw [List.length_drop, List.length_nil] at this; omega
          | cons y ys => exact ⟨y, ys, rfl⟩
        have hBe : B = front :: (rest ++ y :: ys) := by
          conv => lhs; rw [← List.take_append_drop (front :: rest).length B, ← hpre, hB0]
          rfl
        have e := hA.all.trans hB.all.symm
        rw [hBe] at e
        simp only [List.flatten_cons, List.cons_append, List.append_assoc, List.cons.injEq, true_and,
          List.append_cancel_left_eq] at e
        cases As with
        | nil => simp at e
        | cons A2 As =>
          obtain ⟨z, zs, rfl⟩ : ∃ z zs, A2 = z :: zs := by
            cases A2 with
            | nil => exact absurd rfl (hA.nonempty [] (by simp))
            | cons a as => exact ⟨a, as, rfl⟩
          simp only [List.flatten_cons, List.cons_append, List.cons.injEq] at e
          obtain ⟨rfl, _⟩ := e
          rcases hA.maximal 0 _ front rest z zs rfl rfl rfl with h1 | ⟨h1, h2⟩
          · have := hB.compat B (by simp) front _ hBe z (by simp)
            rw [h1] at this; simp at this
          · have := hB.bound h1 B (by simp) (by simp only [List.length_cons] at hlt; omega)
            rw [hBe] at this
            rw [rowSum_cons] at h2 this
            rw [rowSum_append, rowSum_cons] at this
            omega
      have hgg : g = g' := by
        rcases Nat.le_total g.length g'.length with hle | hle
        · exact key g g' gs gs' h h' hle
        · exact (key g' g gs' gs h' h hle).symm
      subst hgg
      congr 1
      have e := h.all.trans h'.all.symm
      simp only [List.flatten_cons, List.append_cancel_left_eq] at e
      have tl : ∀ (X : List (List Tbl)), Grouping limit ts (g :: X) → Grouping limit X.flatten X := by
        intro X hX
        refine ⟨rfl, fun x hx => hX.nonempty x (by simp [hx]), fun x hx => hX.compat x (by simp [hx]),
          fun hl x hx => hX.bound hl x (by simp [hx]), ?_⟩
        intro i a front rest t rest' hi he hi'
        exact hX.maximal (i + 1) a front rest t rest' (by simpa using hi) he (by simpa using hi')
      have hts : ∀ t ∈ gs.flatten, t ∈ ts := by
        intro t ht; rw [← h.all]; simp only [List.flatten_cons, List.mem_append]; exact Or.inr ht
      refine ih (tl gs h) ?_ (fun hl t ht => hrow hl t (hts t ht))
      rw [e]; exact tl gs' h'

theorem readLoop_agg {env : Env} {f : File} {ts : List Tbl} (h : Scan env f ts none)
    (hc : ∀ t ∈ ts, t.copy = .ok t) (limit : Int) (hbig : rowSum ts < 9223372036854775808)
    (hlim : ∀ t ∈ ts, limit < 0 ∨ (t.info.nrows : Int) ≤ limit) (fuel : Nat)
    (hf : ts.length < fuel) (k i : Nat) (r : Rd) (hr : r.At ts i) (hi : i ≤ ts.length) (hk : ts.length < i + k) :
    readLoop env f true limit fuel k r = (groups true limit ts k i, none) := by
  induction k generalizing i r with
  | zero => omega
  | succ k ih =>
    unfold readLoop
    by_cases hl : i < ts.length
    · obtain ⟨r', h1, h2⟩ := Rd.next_frame h hc true limit fuel hf r i hr hl
      have hp := frameLen_pos true limit ts i hl
      have hG := groups_grouping limit ts hbig (ts.length - i + 1) i hi (by omega)
      have hres : frameResult limit ((ts.drop i).take (frameLen true limit ts i)) =
          .ok (some ((ts.drop i).take (frameLen true limit ts i))) := by
        have hmem : (ts.drop i).take (frameLen true limit ts i) ∈ groups true limit ts (ts.length - i + 1) i := by
          simp [groups, if_pos hl]
        have hsum : rowSum ((ts.drop i).take (frameLen true limit ts i)) ≤ rowSum ts := by
          have e1 : rowSum ts = rowSum (ts.take i) + rowSum (ts.drop i) := by
            rw [← rowSum_append, List.take_append_drop]
          have e2 : rowSum (ts.drop i) = rowSum ((ts.drop i).take (frameLen true limit ts i)) +
              rowSum ((ts.drop i).drop (frameLen true limit ts i)) := by
            rw [← rowSum_append, List.take_append_drop]
          omega
        have hs := sumRows_small 0 ((ts.drop i).take (frameLen true limit ts i)) (by omega)
        simp only [Nat.zero_add] at hs
        unfold frameResult
        rw [show (0 : Int) = ((0 : Nat) : Int) from rfl] at *
        rw [hs, if_pos]
        by_cases hneg : limit < 0
        · exact Or.inl hneg
        · right
          by_cases h2 : 2 ≤ ((ts.drop i).take (frameLen true limit ts i)).length
          · exact hG.bound (by omega) _ hmem h2
          · have hd : ts.drop i = ts[i] :: ts.drop (i + 1) := List.drop_eq_getElem_cons hl
            have hone : (ts.drop i).take (frameLen true limit ts i) = [ts[i]] := by
              obtain ⟨q, hq⟩ : ∃ q, frameLen true limit ts i = q + 1 := ⟨_, (Nat.succ_pred_eq_of_pos hp.1).symm⟩
              rw [hd, hq, List.take_succ_cons] at h2 ⊢
              have : (ts.drop (i + 1)).take q = [] := by
                cases hx : (ts.drop (i + 1)).take q with
                | nil => rfl
                | cons a b => rw [hx] at h2; simp at h2
              rw [this]
            rw [hone, rowSum_cons]
            rcases hlim _ (List.getElem_mem hl) with h3 | h3
            · omega
            · simp only [rowSum, List.map_nil, List.sum_nil]; omega
      rw [h1]
      simp only [ite_self, hres]
      rw [ih _ r' h2 hp.2 (by omega)]
      simp only [groups, if_pos hl]
    · have : i = ts.length := by omega
      subst this
      obtain ⟨r', h1, _⟩ := Rd.next_end h true limit fuel r hr
      rw [h1]
      simp [groups]

/-- **All frames of a file, aggregated**: the grouping of its tables. -/
theorem readFrames_agg {env : Env} {f : File} {ts : List Tbl} (h : Scan env f ts none)
    (hc : ∀ t ∈ ts, t.copy = .ok t) (limit : Int) (hbig : rowSum ts < 9223372036854775808)
    (hlim : ∀ t ∈ ts, limit < 0 ∨ (t.info.nrows : Int) ≤ limit) (hlen : ts.length ≤ f.bytes.length) :
    ∃ gs, readFrames env f true limit = (gs, none) ∧ Grouping limit ts gs := by
  unfold readFrames
  have ho := Rd.open_scan h
  cases ts with
  | nil =>
    obtain ⟨r, h1, h2⟩ := ho
    rw [h1]
    refine ⟨[], ?_, rfl, by simp, by simp, by simp, by simp⟩
    simp only [readLoop, Rd.next_ended true limit _ r h2]
  | cons t ts =>
    simp only at ho
    obtain ⟨r, h1, h2⟩ := ho
    rw [h1]
    simp only
    rw [readLoop_agg h hc limit hbig hlim _ (by omega) _ 0 r h2 (by omega) (by omega)]
    refine ⟨_, rfl, ?_⟩
    have := groups_grouping limit (t :: ts) hbig (f.bytes.length + 2) 0 (by omega) (by omega)
    simpa using this

end Verif
