import Verif.UserTop

/-
Any file that can be read to its end without an error, whoever wrote it.
-/

namespace Verif

/-- State of a reader that does not aggregate: it has just delivered the last table it knows, or it has
loaded the first table and not delivered it. -/
structure Rd.Plain (env : Env) (f : File) (r : Rd) (ts : List Tbl) : Prop where
  chain : Chain env f 0 ts
  tables : r.tables = ts
  ne : ts ≠ []
  pos : r.pos = (ts.length : Int) - 1
  first : r.first = true → ts.length = 1

theorem Chain.snoc {env : Env} {f : File} {ts : List Tbl} {t : Tbl} (h : Chain env f 0 ts)
    (ht : readTable env f (posAfter ts) = .ok (some t)) : Chain env f 0 (ts ++ [t]) := by
  rw [Chain.append]
  refine ⟨h, ?_⟩
  rw [posAfter_eq] at ht
  exact ⟨ht, trivial⟩

theorem itGet_last (ts : List Tbl) (hne : ts ≠ []) : itGet ts ((ts.length : Int) - 1) = .ok (ts.getLast hne) := by
  have hpos : 0 < ts.length := List.length_pos_iff.mpr hne
  unfold itGet
  rw [if_neg (by omega), show ((ts.length : Int) - 1).toNat = ts.length - 1 by omega,
    ← List.getLast?_eq_getElem?, List.getLast?_eq_some_getLast hne]

/-- Delivering one table. -/
theorem Rd.take_plain {env : Env} {f : File} {limit : Int} {fuel : Nat} {ts : List Tbl} (hne : ts ≠ []) {r' : Rd}
    {x : Option (List Tbl)} (h : Rd.take env f false limit fuel ts ((ts.length : Int) - 1) = (r', .ok x)) :
    (ts.getLast hne).copy = .ok (ts.getLast hne) ∧ x = some [ts.getLast hne] ∧
      r' = ⟨ts, (ts.length : Int) - 1, false⟩ := by
  unfold Rd.take at h
  rw [itGet_last ts hne] at h
  simp only at h
  split at h
  · simp at h
  · rename_i t' ht'
    have := Tbl.copy_ok ht'
    subst this
    simp only [Bool.false_eq_true, if_false] at h
    split at h
    · simp only [Prod.mk.injEq, Except.ok.injEq] at h
      exact ⟨ht', h.2.symm, h.1.symm⟩
    · simp at h

/-- Reading on to the end. -/
theorem readLoop_inv {env : Env} {f : File} {limit : Int} {fuel k : Nat} {r : Rd} {ts : List Tbl}
    (hr : r.Plain env f ts) {fs : List (List Tbl)} (h : readLoop env f false limit fuel k r = (fs, none)) :
    ∃ us, Scan env f (ts ++ us) none ∧ fs = ((if r.first then ts else []) ++ us).map (fun t => [t]) ∧
      ∀ t ∈ (if r.first then ts else []) ++ us, t.copy = .ok t := by
  induction k generalizing r ts fs with
  | zero => simp [readLoop] at h
  | succ k ih =>
    have hlen : 0 < ts.length := List.length_pos_iff.mpr hr.ne
    unfold readLoop at h
    split at h
    · simp at h
    · rename_i r' hn
      have hfs : fs = [] := by simpa using h.symm
      unfold Rd.next at hn
      rw [if_neg (by rw [hr.pos]; omega)] at hn
      split at hn
      · rename_i hf
        rw [hr.tables, hr.pos] at hn
        have := (Rd.take_plain hr.ne hn).2.1
        simp at this
      · rename_i hf
        rw [hr.tables, hr.pos] at hn
        have hni : itIncr env f ts ((ts.length : Int) - 1) = (ts, -1, none) → Scan env f ts none := by
          intro hi
          refine ⟨hr.chain, ?_⟩
          unfold itIncr at hi
          split at hi
          · simp at hi
          · rename_i ts' he
            simp only [Prod.mk.injEq] at hi
            omega
          · rename_i ts' he
            unfold ensureTable at he
            rw [if_neg (by omega), if_neg (by omega), if_pos (by omega)] at he
            split at he
            · simp at he
            · split at he
              · simp at he
              · rename_i hh; rw [← posAfter_eq]; exact hh
              · simp at he
        have hshape : ∃ a, itIncr env f ts ((ts.length : Int) - 1) = a := ⟨_, rfl⟩
        obtain ⟨⟨ts1, p1, e1⟩, ha⟩ := hshape
        rw [ha] at hn
        cases e1 with
        | some e => simp at hn
        | none =>
          simp only at hn
          split at hn
          · rename_i hp
            subst hp
            have hts : ts1 = ts := by
              unfold itIncr at ha
              split at ha
              · simp at ha
              · simp only [Prod.mk.injEq] at ha; omega
              · rename_i ts' he
                unfold ensureTable at he
                rw [if_neg (by omega), if_neg (by omega), if_pos (by omega)] at he
                split at he
                · simp at he
                · split at he
                  · simp at he
                  · simp only [Except.ok.injEq, Prod.mk.injEq, and_true] at he
                    simp only [Prod.mk.injEq] at ha
                    rw [← ha.1, ← he]
                  · simp at he
            subst hts
            have hff : r.first = false := by simpa using hf
            refine ⟨[], by simpa using hni ha, by simp [hfs, hff], by simp [hff]⟩
          · -- a table would be delivered
            exfalso
            unfold Rd.take at hn
            split at hn
            · simp at hn
            · split at hn
              · simp at hn
              · simp only [Bool.false_eq_true, if_false] at hn
                split at hn <;> simp at hn
    · rename_i r' fr hn
      split at h
      rename_i gs e hgs
      simp only [Prod.mk.injEq] at h
      obtain ⟨hfs, rfl⟩ := h
      unfold Rd.next at hn
      rw [if_neg (by rw [hr.pos]; omega)] at hn
      split at hn
      · rename_i hf
        rw [hr.tables, hr.pos] at hn
        obtain ⟨c1, c2, c3⟩ := Rd.take_plain hr.ne hn
        have h1 := hr.first hf
        have hts : ts = [ts.getLast hr.ne] := by
          match ts, h1 with
          | [t], _ => rfl
        subst c3
        obtain ⟨us, u1, u2, u3⟩ := ih (r := ⟨ts, (ts.length : Int) - 1, false⟩) (ts := ts)
          ⟨hr.chain, rfl, hr.ne, rfl, by simp⟩ hgs
        simp only [Bool.false_eq_true, if_false, List.nil_append] at u2 u3
        refine ⟨us, u1, ?_, ?_⟩
        · rw [← hfs, hf, u2]
          simp only [Option.some.injEq] at c2
          rw [if_pos rfl, List.map_append, c2]
          generalize ts.getLast hr.ne = a at *
          subst hts
          rfl
        · intro t ht
          rw [hf, if_pos rfl, List.mem_append] at ht
          rcases ht with ht | ht
          · rw [hts, List.mem_singleton] at ht; rw [ht]; exact c1
          · exact u3 t ht
      · rename_i hf
        have hff : r.first = false := by simpa using hf
        rw [hr.tables, hr.pos] at hn
        split at hn
        · simp at hn
        rename_i ts1 p1 ha
        split at hn
        · simp at hn
        rename_i hp
        obtain ⟨t, hrd, rfl, rfl⟩ : ∃ t, readTable env f (posAfter ts) = .ok (some t) ∧ ts1 = ts ++ [t] ∧
            p1 = ((ts ++ [t]).length : Int) - 1 := by
          unfold itIncr at ha
          split at ha
          · simp at ha
          · rename_i ts' he
            unfold ensureTable at he
            rw [if_neg (by omega), if_neg (by omega), if_pos (by omega)] at he
            split at he
            · simp at he
            · split at he
              · simp at he
              · simp at he
              · rename_i t ht
                simp only [Except.ok.injEq, Prod.mk.injEq, and_true] at he
                simp only [Prod.mk.injEq, and_true] at ha
                exact ⟨t, ht, by rw [← ha.1, ← he], by rw [← ha.2]; simp⟩
          · simp only [Prod.mk.injEq] at ha
            exact absurd ha.2.1.symm hp
        obtain ⟨c1, c2, c3⟩ := Rd.take_plain (by simp) hn
        subst c3
        obtain ⟨us, u1, u2, u3⟩ := ih (r := ⟨ts ++ [t], ((ts ++ [t]).length : Int) - 1, false⟩) (ts := ts ++ [t])
          ⟨hr.chain.snoc hrd, rfl, by simp, rfl, by simp⟩ hgs
        simp only [Bool.false_eq_true, if_false, List.nil_append] at u2 u3
        simp only [Option.some.injEq, List.getLast_concat] at c1 c2
        refine ⟨t :: us, by simpa using u1, ?_, ?_⟩
        · rw [← hfs, hff, u2, c2]; rfl
        · intro x hx
          simp only [hff, Bool.false_eq_true, if_false, List.nil_append, List.mem_cons] at hx
          rcases hx with rfl | hx
          · exact c1
          · exact u3 x hx

/-- **Reading to the end determines the tables.** -/
theorem readPlain_scan {env : Env} {bytes : List Byte} {fs : List (List Tbl)} (h : readPlain env bytes = (fs, none)) :
    ∃ ts, Scan env (File.known bytes) ts none ∧ fs = ts.map (fun t => [t]) ∧ ∀ t ∈ ts, t.copy = .ok t := by
  unfold readPlain readFrames at h
  split at h
  · simp at h
  rename_i r hr
  unfold Rd.open at hr
  split at hr
  · simp at hr
  · rename_i ts he
    simp only [Except.ok.injEq] at hr
    obtain ⟨t, ht, rfl⟩ : ∃ t, readTable env (File.known bytes) 0 = .ok (some t) ∧ ts = [t] := by
      unfold ensureTable at he
      rw [if_neg (by omega), if_neg (by simp), if_pos (by simp)] at he
      split at he
      · simp at he
      · split at he
        · simp at he
        · simp at he
        · rename_i t ht
          simp only [Except.ok.injEq, Prod.mk.injEq, and_true] at he
          exact ⟨t, ht, by rw [← he]; rfl⟩
    subst hr
    obtain ⟨us, u1, u2, u3⟩ := readLoop_inv (ts := [t]) ⟨⟨ht, trivial⟩, rfl, by simp, rfl, fun _ => rfl⟩ h
    simp only [if_true] at u2 u3
    exact ⟨[t] ++ us, u1, u2, u3⟩
  · rename_i ts he
    simp only [Except.ok.injEq] at hr
    have h0 : readTable env (File.known bytes) 0 = .ok none := by
      unfold ensureTable at he
      rw [if_neg (by omega), if_neg (by simp), if_pos (by simp)] at he
      split at he
      · simp at he
      · split at he
        · simp at he
        · rename_i hh; exact hh
        · simp at he
    subst hr
    unfold readLoop at h
    rw [Rd.next_ended false (-1) _ ⟨ts, -1, true⟩ (show Rd.Ended ⟨ts, -1, true⟩ from rfl)] at h
    simp only [Prod.mk.injEq, and_true] at h
    exact ⟨[], ⟨trivial, h0⟩, by rw [← h]; rfl, by simp⟩

/-! ### The number of tables -/

/-- Reading from `pos` on gives exactly `ts`, then the end. -/
def Ends (env : Env) (f : File) (pos : Int) (ts : List Tbl) : Prop :=
  Chain env f pos ts ∧ readTable env f (endPos pos ts) = .ok none

theorem Ends.unique {env : Env} {f : File} {pos : Int} {a b : List Tbl} (ha : Ends env f pos a) (hb : Ends env f pos b) :
    a = b := by
  induction a generalizing pos b with
  | nil =>
    cases b with
    | nil => rfl
    | cons t b =>
      have h1 := ha.2
      have h2 := hb.1.1
      simp only [endPos, List.getLast?_nil] at h1
      rw [h1] at h2
      simp at h2
  | cons s a ih =>
    cases b with
    | nil =>
      have h1 := hb.2
      have h2 := ha.1.1
      simp only [endPos, List.getLast?_nil] at h1
      rw [h1] at h2
      simp at h2
    | cons t b =>
      have h1 := ha.1.1
      have h2 := hb.1.1
      rw [h1] at h2
      simp only [Except.ok.injEq, Option.some.injEq] at h2
      subst h2
      rw [ih ⟨ha.1.2, by rw [← endPos_cons]; exact ha.2⟩ ⟨hb.1.2, by rw [← endPos_cons]; exact hb.2⟩]

theorem readTable_start {env : Env} {f : File} {pos : Int} {t : Tbl} (h : readTable env f pos = .ok (some t)) :
    t.start = pos ∧ 0 ≤ pos ∧ pos + 57 ≤ f.bytes.length := by
  unfold readTable at h
  split at h
  · simp at h
  · rename_i hp
    split at h
    · simp at h
    · simp at h
    · rename_i hd o rest hparse
      dsimp only at h
      split at h
      · simp at h
      · have := (parseHeader_rest _ _ _ _ _ _ hparse).1
        simp only [List.length_drop] at this
        simp only [Except.ok.injEq, Option.some.injEq] at h
        refine ⟨by rw [← h], by omega, by omega⟩

theorem Ends.starts {env : Env} {f : File} {pos : Int} {ts : List Tbl} (h : Ends env f pos ts) :
    (ts.map Tbl.start).Nodup ∧ ∀ t ∈ ts, ∃ p : Nat, t.start = p ∧ p < f.bytes.length ∧
      ∃ us, Ends env f p us ∧ us.length ≤ ts.length := by
  induction ts generalizing pos with
  | nil => simp
  | cons t ts ih =>
    have ht := readTable_start h.1.1
    have hrec := ih (pos := t.next) ⟨h.1.2, by rw [← endPos_cons]; exact h.2⟩
    refine ⟨?_, ?_⟩
    · simp only [List.map_cons, List.nodup_cons]
      refine ⟨?_, hrec.1⟩
      intro hm
      simp only [List.mem_map] at hm
      obtain ⟨s, hs, he⟩ := hm
      obtain ⟨p, hp, _, us, hus, hul⟩ := hrec.2 s hs
      have : (t :: ts) = us := by
        refine Ends.unique (pos := pos) h ?_
        rw [← ht.1, ← he, hp]; exact hus
      rw [← this] at hul
      simp at hul
    · intro s hs
      rcases List.mem_cons.mp hs with rfl | hs
      · exact ⟨pos.toNat, by omega, by omega, s :: ts, by rw [Int.toNat_of_nonneg ht.2.1]; exact h, by simp⟩
      · obtain ⟨p, hp, hl, us, hus, hul⟩ := hrec.2 s hs
        exact ⟨p, hp, hl, us, hus, by simp; omega⟩

/-- A file has at most as many tables as bytes. -/
theorem Scan.few {env : Env} {f : File} {ts : List Tbl} (h : Scan env f ts none) : ts.length ≤ f.bytes.length := by
  obtain ⟨h1, h2⟩ := Ends.starts (env := env) (f := f) (pos := 0) (ts := ts) h
  have hsub : (ts.map Tbl.start) ⊆ (List.range f.bytes.length).map (fun (n : Nat) => (n : Int)) := by
    intro x hx
    simp only [List.mem_map] at hx
    obtain ⟨t, ht, rfl⟩ := hx
    obtain ⟨p, hp, hl, _⟩ := h2 t ht
    simp only [List.mem_map, List.mem_range]
    exact ⟨p, hl, hp.symm⟩
  have := (List.Nodup.subperm h1 hsub).length_le
  simpa using this

/-- Scanning and reading are the same thing. -/
theorem readPlain_iff {env : Env} {bytes : List Byte} {fs : List (List Tbl)} : readPlain env bytes = (fs, none) ↔
    ∃ ts, Scan env (File.known bytes) ts none ∧ fs = ts.map (fun t => [t]) ∧ ∀ t ∈ ts, t.copy = .ok t := by
  constructor
  · exact readPlain_scan
  · rintro ⟨ts, h1, rfl, h3⟩
    exact readFrames_plain h1 h3 (-1) (fun t _ => Or.inl (by decide)) h1.few

/-! ### Concatenation -/

/-- The table moved by `n` bytes. -/
def Tbl.shift (n : Nat) (t : Tbl) : Tbl := { t with start := t.start + n, dataPos := t.dataPos + n, next := t.next + n }

theorem readTable_none {env : Env} {f : File} {pos : Int} (h : readTable env f pos = .ok none) :
    0 ≤ pos ∧ (f.bytes.length : Int) ≤ pos := by
  unfold readTable at h
  split at h
  · simp at h
  · rename_i hp
    refine ⟨by omega, ?_⟩
    split at h
    · simp at h
    · rename_i hn
      have : (f.bytes.drop pos.toNat).length = 0 := by
        by_contra hc
        unfold parseHeader at hn
        rw [if_neg hc] at hn
        repeat' split at hn
        all_goals simp at hn
      simp only [List.length_drop] at this
      omega
    · dsimp only at h
      split at h <;> simp at h

theorem Scan.ends {env : Env} {bytes : List Byte} {ts : List Tbl} (h : Scan env (File.known bytes) ts none) :
    endPos 0 ts = bytes.length := by
  have h1 := readTable_none h.2
  have h2 := h.1.end_le
  rw [posAfter_eq] at h2
  simp only [File.known] at h1 h2
  rcases h2 with h2 | h2
  · omega
  · cases ts with
    | nil => simp [endPos, h2]
    | cons t ts =>
      have := readTable_start h.1.1
      simp only [File.known, h2] at this
      omega

theorem readTable_some_iff {env : Env} {f : File} {pos : Int} {t : Tbl} :
    readTable env f pos = .ok (some t) ↔ 0 ≤ pos ∧ ∃ hi o rest,
      parseHeader env.md5 env.asDbl (f.bytes.drop pos.toNat) = .ok (some (hi, o, rest)) ∧
      (pos + ((f.bytes.drop pos.toNat).length - rest.length : Nat) + toI64 hi.dataSize ≤ f.estimate ∨ f.estimate = 0) ∧
      t = ⟨pos, pos + ((f.bytes.drop pos.toNat).length - rest.length : Nat),
        pos + ((f.bytes.drop pos.toNat).length - rest.length : Nat) + toI64 hi.dataSize, hi, o⟩ := by
  constructor
  · intro h
    have hs := readTable_start h
    unfold readTable at h
    rw [if_neg (by omega)] at h
    split at h
    · simp at h
    · simp at h
    · rename_i hi o rest hp
      dsimp only at h
      split at h
      · simp at h
      · rename_i hc
        simp only [Except.ok.injEq, Option.some.injEq] at h
        exact ⟨hs.2.1, hi, o, rest, hp, by omega, h.symm⟩
  · rintro ⟨h0, hi, o, rest, hp, hc, rfl⟩
    unfold readTable
    rw [if_neg (by omega), hp]
    dsimp only
    rw [if_neg (by omega)]

theorem readTable_left {env : Env} {a b : List Byte} {pos : Int} {t : Tbl}
    (h : readTable env (File.known a) pos = .ok (some t)) : readTable env (File.known (a ++ b)) pos = .ok (some t) := by
  have hs := readTable_start h
  rw [readTable_some_iff] at h ⊢
  obtain ⟨h0, hi, o, rest, hp, hc, ht⟩ := h
  simp only [File.known] at hs hp hc ht ⊢
  have hd : (a ++ b).drop pos.toNat = a.drop pos.toNat ++ b := List.drop_append_of_le_length (by omega)
  have hl : (a.drop pos.toNat ++ b).length - (rest ++ b).length = (a.drop pos.toNat).length - rest.length := by
    simp only [List.length_append]; omega
  refine ⟨h0, hi, o, rest ++ b, ?_, ?_, ?_⟩
  · rw [hd]; exact parseHeader_append _ _ _ _ _ _ _ hp
  · rw [hd, hl]; left; simp only [List.length_append]; push_cast; omega
  · rw [hd, hl]; exact ht

theorem Chain.left {env : Env} {a b : List Byte} {pos : Int} {ts : List Tbl} (h : Chain env (File.known a) pos ts) :
    Chain env (File.known (a ++ b)) pos ts := by
  induction ts generalizing pos with
  | nil => trivial
  | cons t ts ih => exact ⟨readTable_left h.1, ih h.2⟩

theorem readTable_right {env : Env} {a b : List Byte} {pos : Int} {t : Tbl}
    (h : readTable env (File.known b) pos = .ok (some t)) :
    readTable env (File.known (a ++ b)) (pos + a.length) = .ok (some (t.shift a.length)) := by
  have hs := readTable_start h
  rw [readTable_some_iff] at h ⊢
  obtain ⟨h0, hi, o, rest, hp, hc, ht⟩ := h
  simp only [File.known] at hs hp hc ht ⊢
  have hd : (a ++ b).drop (pos + a.length).toNat = b.drop pos.toNat := by
    rw [show (pos + (a.length : Int)).toNat = a.length + pos.toNat by omega, ← List.drop_drop, List.drop_left]
  refine ⟨by omega, hi, o, rest, by rw [hd]; exact hp, ?_, ?_⟩
  · rw [hd]; left; simp only [List.length_append]; push_cast; omega
  · rw [hd, ht]
    simp only [Tbl.shift, Tbl.mk.injEq, and_true, true_and]
    constructor <;> omega

theorem Chain.right {env : Env} {a b : List Byte} {pos : Int} {ts : List Tbl} (h : Chain env (File.known b) pos ts) :
    Chain env (File.known (a ++ b)) (pos + a.length) (ts.map (Tbl.shift a.length)) := by
  induction ts generalizing pos with
  | nil => trivial
  | cons t ts ih => exact ⟨readTable_right h.1, ih h.2⟩

theorem endPos_shift (n : Nat) (pos : Int) (ts : List Tbl) :
    endPos (pos + n) (ts.map (Tbl.shift n)) = endPos pos ts + n := by
  unfold endPos
  rw [List.getLast?_map]
  cases ts.getLast? <;> rfl

theorem readTable_atEnd (env : Env) (f : File) (n : Nat) (h : f.bytes.length = n) :
    readTable env f n = .ok none := by
  unfold readTable
  rw [if_neg (by omega), Int.toNat_natCast, List.drop_of_length_le (by omega)]
  simp [parseHeader]

theorem Scan.concat {env : Env} {a b : List Byte} {ts us : List Tbl} (ha : Scan env (File.known a) ts none)
    (hb : Scan env (File.known b) us none) :
    Scan env (File.known (a ++ b)) (ts ++ us.map (Tbl.shift a.length)) none := by
  have h1 := ha.ends
  have h2 := hb.ends
  have hc : Chain env (File.known (a ++ b)) 0 (ts ++ us.map (Tbl.shift a.length)) := by
    rw [Chain.append]
    refine ⟨ha.1.left, ?_⟩
    rw [h1]
    have := hb.1.right (a := a)
    rwa [Int.zero_add] at this
  refine ⟨hc, ?_⟩
  have he : endPos 0 (ts ++ us.map (Tbl.shift a.length)) = ((a ++ b).length : Int) := by
    have h3 := endPos_shift a.length 0 us
    unfold endPos at h1 h2 h3 ⊢
    rw [List.getLast?_append]
    simp only [List.length_append]
    push_cast
    cases hu : (us.map (Tbl.shift a.length)).getLast? with
    | none =>
      rw [hu] at h3
      have : us.getLast? = none := by
        rw [List.getLast?_map] at hu; simpa using hu
      rw [this] at h2
      simp only [Option.none_or]
      simp only at h2
      cases hts : ts.getLast? with
      | none => rw [hts] at h1; simp only at h1 ⊢; omega
      | some t => rw [hts] at h1; simp only at h1 ⊢; omega
    | some t =>
      rw [hu] at h3
      simp only [Option.some_or]
      simp only at h3
      rw [h3, h2]; omega
  rw [he]
  exact readTable_atEnd env _ _ rfl

theorem Tbl.copy_shift (n : Nat) (t : Tbl) (h : t.copy = .ok t) : (t.shift n).copy = .ok (t.shift n) := by
  unfold Tbl.copy at h ⊢
  split at h
  · simp at h
  · rename_i cs hcs
    have hcc := cloneCols_ok hcs
    subst hcc
    simp only [Tbl.shift, hcs]

/-! ### Frames of any file -/

/-- No table announces a negative data size. -/
def Sized (ts : List Tbl) : Prop := ∀ t ∈ ts, 0 ≤ toI64 t.info.dataSize

/-- A well-sized file is a sequence of raw frames. -/
theorem chain_raw {env : Env} {f : File} {pos : Nat} {ts : List Tbl} (h : Chain env f pos ts) (hs : Sized ts)
    (hest : f.estimate = f.bytes.length) (hpos : pos ≤ f.bytes.length) :
    ∃ (rs : List RawFrame) (rest : List Byte), (∀ r ∈ rs, r.Ok env) ∧ ts = layout pos rs ∧
      f.bytes.drop pos = fileOf rs ++ rest := by
  induction ts generalizing pos with
  | nil => exact ⟨[], f.bytes.drop pos, by simp, rfl, by simp [fileOf]⟩
  | cons t ts ih =>
    have hst := readTable_start h.1
    have hle := readTable_next_le h.1
    obtain ⟨_, hi, o, rest, hp, hcc, hr⟩ := readTable_some_iff.mp h.1
    simp only [Int.toNat_natCast] at hp hcc hr
    have hsz := hs t (by simp)
    have hinfo : t.info = hi := by rw [hr]
    have hnext : t.next = (pos : Int) + ((f.bytes.drop pos).length - rest.length : Nat) + toI64 hi.dataSize := by rw [hr]
    have hdp : t.dataPos = (pos : Int) + ((f.bytes.drop pos).length - rest.length : Nat) := by rw [hr]
    have hord : t.order = o := by rw [hr]
    rw [hinfo] at hsz
    obtain ⟨hpl, hpr⟩ := parseHeader_rest _ _ _ _ _ _ hp
    simp only [List.length_drop] at hpl hnext hdp
    generalize hD : (toI64 hi.dataSize).toNat = D at *
    have hD' : toI64 hi.dataSize = (D : Int) := by omega
    rw [hD'] at hnext
    have hle' : t.next ≤ (f.bytes.length : Int) := by
      rcases hle with hle | hle
      · rw [hest] at hle; exact hle
      · rw [hest] at hle; omega
    have hDr : D ≤ rest.length := by omega
    -- bytes of this frame
    let H := f.bytes.length - pos - rest.length
    have hdropH : (f.bytes.drop pos).drop H = rest := by
      have := hpr; simp only [List.length_drop] at this; exact this
    have hsplit : f.bytes.drop pos = (f.bytes.drop pos).take (H + D) ++ (f.bytes.drop pos).drop (H + D) :=
      (List.take_append_drop _ _).symm
    have hparse : parseHeader env.md5 env.asDbl ((f.bytes.drop pos).take (H + D)) = .ok (some (hi, o, rest.take D)) := by
      obtain ⟨bo, basic, var, digest, e, h1, h2, h3, h4, h5, h6⟩ := parseHeader_ok _ _ _ _ _ _ hp
      have hlen : H = (magic ++ (bo ++ (basic ++ var))).length := by
        have := congrArg List.length e
        simp only [List.length_drop, List.length_append] at this ⊢
        simp only [H]; omega
      have e2 : (f.bytes.drop pos).take (H + D) = magic ++ (bo ++ (basic ++ (var ++ rest.take D))) := by
        rw [e, show magic ++ (bo ++ (basic ++ (var ++ rest))) = (magic ++ (bo ++ (basic ++ var))) ++ rest by simp,
          hlen, List.take_append, List.take_of_length_le (by omega), Nat.add_sub_cancel_left]
        simp
      rw [e2]
      exact parseHeader_of _ _ _ _ _ _ _ _ _ h1 h2 h3 h4 h5 h6
    let r : RawFrame := ⟨(f.bytes.drop pos).take (H + D), hi, o, rest.take D⟩
    have hrl : r.bytes.length = H + D := by
      simp only [r, List.length_take, List.length_drop, H]; omega
    have hrd : r.data.length = D := by simp only [r, List.length_take]; omega
    have hrok : r.Ok env := ⟨hparse, by rw [hrd]; exact hD'⟩
    have hnx : t.next = ((pos + r.bytes.length : Nat) : Int) := by rw [hrl, hnext]; push_cast; simp only [H]; omega
    have hch := h.2
    rw [hnx] at hch
    obtain ⟨rs, rest', i1, i2, i3⟩ := ih hch (fun x hx => hs x (by simp [hx])) (by omega)
    refine ⟨r :: rs, rest', ?_, ?_, ?_⟩
    · intro x hx
      rcases List.mem_cons.mp hx with rfl | hx
      · exact hrok
      · exact i1 x hx
    · simp only [layout]
      push_cast at i2
      rw [← i2]
      congr 1
      obtain ⟨s, d, n, i, oo⟩ := t
      simp only at hst hnext hdp hnx hinfo hord
      simp only [RawFrame.tbl, Tbl.mk.injEq]
      refine ⟨hst.1, ?_, by rw [hnx]; push_cast; rfl, hinfo, hord⟩
      rw [hdp, hrl, hrd]
      simp only [H]; omega
    · rw [hsplit]
      simp only [fileOf, List.flatMap_cons, List.append_assoc]
      have e3 : (f.bytes.drop pos).drop (H + D) = f.bytes.drop (pos + r.bytes.length) := by
        rw [List.drop_drop, hrl]
      rw [e3, i3]; rfl

/-- **Any readable, well-sized file is a sequence of frames laid out one after the other.** -/
theorem scan_raw {env : Env} {bytes : List Byte} {ts : List Tbl} (h : Scan env (File.known bytes) ts none)
    (hs : Sized ts) : ∃ rs : List RawFrame, (∀ r ∈ rs, r.Ok env) ∧ ts = layout 0 rs ∧ bytes = fileOf rs := by
  obtain ⟨rs, rest, h1, h2, h3⟩ := chain_raw (pos := 0) (by simpa using h.1) hs rfl (by simp)
  have h4 := h.ends
  simp only [Int.ofNat_eq_natCast, Nat.cast_zero] at h2
  rw [h2, endPos_layout] at h4
  simp only [List.drop_zero, File.known] at h3
  have : rest = [] := by
    have := congrArg List.length h3
    simp only [List.length_append] at this
    exact List.length_eq_zero_iff.mp (by omega)
  exact ⟨rs, h1, h2, by rw [h3, this, List.append_nil]⟩

end Verif
