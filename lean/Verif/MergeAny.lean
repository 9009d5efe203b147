import Verif.Merge

/-
Merging arbitrary inputs: what a successful merge says about them.

About: src/odc/tools/MergeTool.cc l.77-127 (model in `Merge`), on inputs that may be damaged or change their columns.
-/

namespace Verif

/-- Proof device: an input before and after a round of the loop in which it gave a row. -/
def Gave (env : Env) (m m' : MergeIn) : Prop :=
  m.it.noMore = false ∧ m'.junk = m.junk ∧ ∃ x, m.it.next env m.junk = .ok (m'.it, x)

/-- Proof device: the rows an input has still to give, and how it ends. -/
def MergeIn.rest (env : Env) (F : Nat) (m : MergeIn) : List RowView × Option Err := m.it.all env m.junk F

theorem gave_rest {env : Env} {m m' : MergeIn} (h : Gave env m m') (F : Nat) :
    m.rest env (F + 1) = (⟨m.it.cols, m.it.last, m.it.newData⟩ :: (m'.rest env F).1, (m'.rest env F).2) := by
  obtain ⟨h1, h2, x, h3⟩ := h
  unfold MergeIn.rest
  rw [RowIt.all, h1, h3, h2]
  rfl

/-- An input that shows no row has come to its end without an exception. -/
theorem rest_empty {env : Env} {m : MergeIn} {F : Nat} (h : (m.rest env (F + 1)).1.length = 0) : (m.rest env (F + 1)).2 = none := by
  unfold MergeIn.rest at h ⊢
  rw [RowIt.all] at h ⊢
  cases hn : m.it.noMore with
  | true => rfl
  | false =>
    rw [hn] at h
    cases hx : m.it.next env m.junk with
    | error e => rw [hx] at h; simp at h
    | ok p => rw [hx] at h; simp at h

theorem setFirst_same {w w' : Writer} {i : Nat} {x : Word} (h : w.setFirst i x = .ok w') : SameBut w w' := by
  unfold Writer.setFirst at h
  repeat' split at h
  all_goals first | (simp at h; done) | (simp only [Except.ok.injEq] at h; subst h; rfl)

theorem fill_same {xs : List Word} {w w' : Writer} {i : Nat} (h : w.fill i xs = .ok w') : SameBut w w' := by
  induction xs generalizing w i with
  | nil => simp only [Writer.fill, Except.ok.injEq] at h; subst h; rfl
  | cons x xs ih =>
    simp only [Writer.fill] at h
    cases hs : w.setFirst i x with
    | error e => rw [hs] at h; simp at h
    | ok w1 =>
      rw [hs] at h
      have h1 := setFirst_same hs
      have h2 := ih h
      unfold SameBut at h1 h2 ⊢
      rw [h2, h1]

/-- A round of the loop that succeeds. -/
theorem mergeRound_true {env : Env} {ms ms' : List MergeIn} {w w' : Writer} {i : Nat} (h : mergeRound env w i ms = .ok (w', ms', true)) :
    Match (Gave env) ms ms' ∧ w.fill i (ms.flatMap (fun m => firstWords m.it.last)) = .ok w' := by
  induction ms generalizing w i ms' with
  | nil =>
    simp only [mergeRound, Except.ok.injEq, Prod.mk.injEq, and_true] at h
    obtain ⟨rfl, rfl⟩ := h
    exact ⟨.nil, rfl⟩
  | cons m ms ih =>
    simp only [mergeRound] at h
    cases hn : m.it.noMore with
    | true => rw [hn] at h; simp at h
    | false =>
      rw [hn] at h
      simp only [Bool.false_eq_true, if_false] at h
      cases hf : w.fill i (firstWords m.it.last) with
      | error e => rw [hf] at h; simp at h
      | ok w1 =>
        rw [hf] at h
        cases hx : m.it.next env m.junk with
        | error e => rw [hx] at h; simp at h
        | ok p =>
          obtain ⟨it', x⟩ := p
          rw [hx] at h
          dsimp only at h
          cases hr : mergeRound env w1 (i + m.it.last.length) ms with
          | error e => rw [hr] at h; simp at h
          | ok q =>
            obtain ⟨w2, ms2, b⟩ := q
            rw [hr] at h
            simp only [Except.ok.injEq, Prod.mk.injEq] at h
            obtain ⟨rfl, rfl, rfl⟩ := h
            obtain ⟨h1, h2⟩ := ih hr
            refine ⟨.cons ⟨hn, rfl, x, hx⟩ h1, ?_⟩
            rw [List.flatMap_cons, fill_append, hf]
            simpa [firstWords] using h2

/-- A round that ends the loop: an input has no more rows. -/
theorem mergeRound_false {env : Env} {ms ms' : List MergeIn} {w w' : Writer} {i : Nat} (h : mergeRound env w i ms = .ok (w', ms', false)) :
    (∃ m ∈ ms, m.it.noMore = true) ∧ SameBut w w' := by
  induction ms generalizing w i ms' with
  | nil => simp [mergeRound] at h
  | cons m ms ih =>
    simp only [mergeRound] at h
    cases hn : m.it.noMore with
    | true =>
      rw [hn] at h
      simp only [if_true, Except.ok.injEq, Prod.mk.injEq, and_true] at h
      obtain ⟨rfl, _⟩ := h
      exact ⟨⟨m, by simp, hn⟩, rfl⟩
    | false =>
      rw [hn] at h
      simp only [Bool.false_eq_true, if_false] at h
      cases hf : w.fill i (firstWords m.it.last) with
      | error e => rw [hf] at h; simp at h
      | ok w1 =>
        rw [hf] at h
        cases hx : m.it.next env m.junk with
        | error e => rw [hx] at h; simp at h
        | ok p =>
          obtain ⟨it', x⟩ := p
          rw [hx] at h
          dsimp only at h
          cases hr : mergeRound env w1 (i + m.it.last.length) ms with
          | error e => rw [hr] at h; simp at h
          | ok q =>
            obtain ⟨w2, ms2, b⟩ := q
            rw [hr] at h
            simp only [Except.ok.injEq, Prod.mk.injEq] at h
            obtain ⟨rfl, _, rfl⟩ := h
            obtain ⟨⟨m', hm', h1⟩, h2⟩ := ih hr
            refine ⟨⟨m', List.mem_cons_of_mem _ hm', h1⟩, ?_⟩
            have h3 := fill_same hf
            unfold SameBut at h2 h3 ⊢
            rw [h2, h3]

/-- Proof device: the conclusions about the inputs, on the iterators. -/
def Joined (env : Env) (k : Nat) (ms : List MergeIn) (F : Nat) : Prop :=
  (∀ m ∈ ms, k ≤ (m.rest env F).1.length ∧ ((m.rest env F).1.length = k → (m.rest env F).2 = none)) ∧
  ∃ m ∈ ms, (m.rest env F).1.length = k

theorem Match.in_left {α β : Type} {R : α → β → Prop} {as : List α} {bs : List β} (h : Match R as bs) {a : α} (ha : a ∈ as) :
    ∃ b ∈ bs, R a b := by
  induction h with
  | nil => simp at ha
  | cons h1 _ ih =>
    rcases List.mem_cons.mp ha with rfl | ha
    · exact ⟨_, by simp, h1⟩
    · obtain ⟨b, hb, hr⟩ := ih ha; exact ⟨b, List.mem_cons_of_mem _ hb, hr⟩

theorem Match.in_right {α β : Type} {R : α → β → Prop} {as : List α} {bs : List β} (h : Match R as bs) {b : β} (hb : b ∈ bs) :
    ∃ a ∈ as, R a b := by
  induction h with
  | nil => simp at hb
  | cons h1 _ ih =>
    rcases List.mem_cons.mp hb with rfl | hb
    · exact ⟨_, by simp, h1⟩
    · obtain ⟨a, ha, hr⟩ := ih hb; exact ⟨a, List.mem_cons_of_mem _ ha, hr⟩

theorem heads_gave {env : Env} {ms ms' : List MergeIn} (h : Match (Gave env) ms ms') (F : Nat) :
    headWords (ms.map (fun m => (m.rest env (F + 1)).1)) = ms.flatMap (fun m => firstWords m.it.last) ∧
    (ms.map (fun m => (m.rest env (F + 1)).1)).map List.tail = ms'.map (fun m => (m.rest env F).1) := by
  induction h with
  | nil => exact ⟨rfl, rfl⟩
  | cons h1 _ ih =>
    obtain ⟨i1, i2⟩ := ih
    unfold headWords at i1 ⊢
    constructor
    · simp only [List.map_cons, List.flatMap_cons, gave_rest h1 F, List.head?_cons, Option.map_some, Option.getD_some]
      rw [i1]
    · simp only [List.map_cons, gave_rest h1 F, List.tail_cons]
      rw [← i2]

theorem mergeLoop_any {env : Env} (fuel : Nat) (w w' : Writer) (ms : List MergeIn) (h : mergeLoop env fuel w ms = .ok w') :
    ∃ k, k < fuel ∧ ∀ F, k < F → Joined env k ms F ∧
      ∃ w1, w.putRows env .same (wordRows k (ms.map (fun m => (m.rest env F).1))) = .ok w1 ∧ SameBut w1 w' := by
  induction fuel generalizing w ms with
  | zero => simp [mergeLoop] at h
  | succ fuel ih =>
    simp only [mergeLoop] at h
    cases hr : mergeRound env w 0 ms with
    | error e => rw [hr] at h; simp at h
    | ok q =>
      obtain ⟨w1, ms1, b⟩ := q
      rw [hr] at h
      cases b with
      | false =>
        simp only [Except.ok.injEq] at h
        subst h
        obtain ⟨⟨m, hm, hn⟩, hsame⟩ := mergeRound_false hr
        refine ⟨0, by omega, ?_⟩
        intro F hF
        obtain ⟨F, rfl⟩ : ∃ G, F = G + 1 := ⟨F - 1, by omega⟩
        refine ⟨⟨fun m' _ => ⟨Nat.zero_le _, fun h0 => rest_empty h0⟩, m, hm, ?_⟩, w, rfl, hsame⟩
        unfold MergeIn.rest
        rw [RowIt.all, hn]; rfl
      | true =>
        dsimp only at h
        obtain ⟨hg, hfill⟩ := mergeRound_true hr
        cases hx : w1.next env .same with
        | error e => rw [hx] at h; simp at h
        | ok w2 =>
          rw [hx] at h
          obtain ⟨k, hk, hrest⟩ := ih w2 ms1 h
          refine ⟨k + 1, by omega, ?_⟩
          intro F hF
          obtain ⟨F, rfl⟩ : ∃ G, F = G + 1 := ⟨F - 1, by omega⟩
          obtain ⟨⟨hj1, m0, hm0, hj2⟩, w3, hp, hsame⟩ := hrest F (by omega)
          obtain ⟨e1, e2⟩ := heads_gave hg F
          refine ⟨⟨?_, ?_⟩, w3, ?_, hsame⟩
          · intro m hm
            obtain ⟨m', hm', hgm⟩ := hg.in_left hm
            have := hj1 m' hm'
            rw [gave_rest hgm F]
            simp only [List.length_cons]
            exact ⟨by omega, fun h => this.2 (by omega)⟩
          · obtain ⟨m, hm, hgm⟩ := hg.in_right hm0
            refine ⟨m, hm, ?_⟩
            rw [gave_rest hgm F]
            simp only [List.length_cons]
            omega
          · simp only [wordRows, Writer.putRows, Writer.putRow]
            rw [e1, hfill]
            dsimp only
            rw [hx]
            dsimp only
            rw [e2]
            exact hp

theorem mergeBegin_any {env : Env} {fs : List (Junk × List Byte)} {ms : List MergeIn} (h : mergeBegin env fs = .ok ms) (F : Nat) :
    Match (fun (f : Junk × List Byte) m => m.rest env F = readRows env f.1 f.2 F) fs ms := by
  induction fs generalizing ms with
  | nil => simp only [mergeBegin, Except.ok.injEq] at h; subst h; exact .nil
  | cons f fs ih =>
    obtain ⟨j, b⟩ := f
    simp only [mergeBegin] at h
    cases hb : RowIt.begin env j b with
    | error e => rw [hb] at h; simp at h
    | ok it =>
      rw [hb] at h
      cases hr : mergeBegin env fs with
      | error e => rw [hr] at h; simp at h
      | ok ms1 =>
        rw [hr] at h
        simp only [Except.ok.injEq] at h
        subst h
        refine .cons ?_ (ih hr)
        unfold MergeIn.rest readRows
        dsimp only
        rw [hb]

theorem match_map_eq {α β γ : Type} {f : α → γ} {g : β → γ} {as : List α} {bs : List β} (h : Match (fun a b => g b = f a) as bs) :
    bs.map g = as.map f := by
  induction h with
  | nil => rfl
  | cons h1 _ ih => rw [List.map_cons, List.map_cons, h1, ih]

/-- **C32**, arbitrary inputs: if the merge of any byte strings reports no error, then there is a number of rows `k` such that
every input gives at least `k` rows, one gives exactly `k`, and every one that gives exactly `k` has been read to its end: no
input that cannot be opened, or breaks off within the rows joined, is taken for a complete one.  What is written is what the row
writer makes of the rows in which row `r` consists of row `r` of each input (`wordsAt`), up to the row that was begun when the
shortest input ended, which is not written. -/
theorem C32_any (env : Env) (cap : Nat) (fs : List (Junk × List Byte)) (fuel : Nat) (out : List (List Byte))
    (h : mergeFiles env cap fs fuel = .ok out) :
    ∃ k, k < fuel ∧ ∀ F, k < F →
      (∀ f ∈ fs, k ≤ (readRows env f.1 f.2 F).1.length ∧ ((readRows env f.1 f.2 F).1.length = k → (readRows env f.1 f.2 F).2 = none)) ∧
      (∃ f ∈ fs, (readRows env f.1 f.2 F).1.length = k) ∧
      ∃ (cols : List WCol) (w0 w1 w2 w3 : Writer), (Writer.withCols cap cols (!cols.isEmpty)).writeHeader = .ok w0 ∧
        w0.putRows env .same ((List.range k).map (wordsAt (fs.map (fun f => (readRows env f.1 f.2 F).1)))) = .ok w1 ∧
        w2 = { w1 with cur := w2.cur } ∧ w2.close env .same = .ok w3 ∧ out = w3.out := by
  unfold mergeFiles at h
  cases hb : mergeBegin env fs with
  | error e => rw [hb] at h; simp at h
  | ok ms =>
    rw [hb] at h
    dsimp only at h
    cases hc : mergeCols env [] (ms.map (fun m => m.it.cols)) with
    | error e => rw [hc] at h; simp at h
    | ok cols =>
      rw [hc] at h
      dsimp only at h
      cases hw : (Writer.withCols cap cols (!cols.isEmpty)).writeHeader with
      | error e => rw [hw] at h; simp at h
      | ok w0 =>
        rw [hw] at h
        dsimp only at h
        cases hl : mergeLoop env fuel w0 ms with
        | error e => rw [hl] at h; simp at h
        | ok w2 =>
          rw [hl] at h
          dsimp only at h
          cases hcl : w2.close env .same with
          | error e => rw [hcl] at h; simp at h
          | ok w3 =>
            rw [hcl] at h
            simp only [Except.ok.injEq] at h
            obtain ⟨k, hk, hall⟩ := mergeLoop_any fuel w0 w2 ms hl
            refine ⟨k, hk, ?_⟩
            intro F hF
            have hm := mergeBegin_any hb F
            obtain ⟨⟨h1, m0, hm0, h2⟩, w1, h3, h4⟩ := hall F hF
            refine ⟨?_, ?_, cols, w0, w1, w2, w3, hw, ?_, h4, hcl, h.symm⟩
            · intro f hf
              obtain ⟨m, hmm, he⟩ := hm.in_left hf
              rw [← he]; exact h1 m hmm
            · obtain ⟨f, hf, he⟩ := hm.in_right hm0
              exact ⟨f, hf, by rw [← he]; exact h2⟩
            · have : ms.map (fun m => (m.rest env F).1) = fs.map (fun f => (readRows env f.1 f.2 F).1) := by
                apply match_map_eq
                clear * - hm
                induction hm with
                | nil => exact .nil
                | cons h1 _ ih => exact .cons (by rw [h1]) ih
              rw [← this, ← wordRows_range]; exact h3

/-- **C32**, arbitrary inputs: an input that cannot be opened makes the merge fail. -/
theorem C32_unreadable (env : Env) (cap : Nat) (fs : List (Junk × List Byte)) (fuel : Nat) (f : Junk × List Byte) (hf : f ∈ fs)
    (hbad : ∀ F, ∃ e, readRows env f.1 f.2 F = ([], some e)) : ∃ e, mergeFiles env cap fs fuel = .error e := by
  cases h : mergeFiles env cap fs fuel with
  | error e => exact ⟨e, rfl⟩
  | ok out =>
    obtain ⟨k, _, hall⟩ := C32_any env cap fs fuel out h
    obtain ⟨h1, _⟩ := hall (k + 1) (Nat.lt_succ_self k)
    obtain ⟨h2, h3⟩ := h1 f hf
    obtain ⟨e, he⟩ := hbad (k + 1)
    rw [he] at h2 h3
    have hk : k = 0 := by simpa using h2
    exact absurd (h3 (by simp [hk])) (by simp)

/-! ### Cases -/

/-- Sample: two inputs, the second of which breaks off. -/
def cutMerge (n : Nat) : Option Err :=
  match (UTable.encode sampleEnv .same ⟨[⟨lit "a", .ints [1, 2]⟩], 2, []⟩), (UTable.encode sampleEnv .same ⟨[⟨lit "d", .ints [7, 8]⟩], 2, []⟩) with
  | .ok a, .ok b =>
    match mergeFiles sampleEnv 10 [((fun _ _ _ => 0), a), ((fun _ _ _ => 0), b.take (b.length - n))] 10 with
    | .ok _ => none
    | .error e => some e
  | _, _ => some .ub

/-- Two whole files are merged; with the last byte of the second missing the merge fails. -/
example : cutMerge 0 = none := by decide +kernel
example : cutMerge 1 ≠ none := by decide +kernel

end Verif
