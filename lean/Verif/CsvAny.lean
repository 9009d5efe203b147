import Verif.PropCsv
import Verif.PropSet

/-
C35 for arbitrary texts: what an import that reports no error says about the text.
-/

namespace Verif

/-! ### Specification -/

/-- Specification: line `k` of a text, the empty line beyond its end. -/
def lineOf : Nat → List Byte → Str
  | 0, t => t.takeWhile (· ≠ 10)
  | k + 1, t => lineOf k ((t.dropWhile (· ≠ 10)).drop 1)

/-- Specification: the text of a member of a bitfield is its name, a colon and its size. -/
def MemberIs (lib : CsvLib) (m : Str × Int) (t : Str) : Prop := ∃ sz, splitAt [58] t = [m.1, sz] ∧ m.2 = lib.atoi sz

/-- Specification: a declaration of a column: a name, a colon and the name of a type, or of a bitfield whose members between the square brackets
have different names and at most 31 bits (counted as a `size_t`). -/
def GoodHead (lib : CsvLib) (c : Str) : Prop :=
  ∃ nm t ts, splitAt [58] c = nm :: t :: ts ∧
    ((∃ ty : ColType, upper (joinWith 58 (t :: ts)) = typeName ty) ∨
      ((upper (joinWith 58 (t :: ts))).take 8 = lit "BITFIELD" ∧ 91 ∈ c ∧ 93 ∈ c ∧
        ∀ pre s post : Str, c = pre ++ 91 :: (s ++ 93 :: post) → 91 ∉ pre → 93 ∉ pre → 93 ∉ s →
          ∃ ms : List (Str × Int), Match (MemberIs lib) ms (splitAt [59] s) ∧ (ms.map Prod.fst).Nodup ∧
            (ms.map Prod.snd).sum % 18446744073709551616 ≤ 31))

/-! ### Proofs -/

theorem bitMembers_sound {lib : CsvLib} {done : List (Str × Int)} {n : Int} {ts : List Str} {ms : List (Str × Int)} {k : Int}
    (h : bitMembers lib done n ts = .ok (ms, k)) (hd : (done.map Prod.fst).Nodup) (hn : 0 ≤ n ∧ n < 18446744073709551616) :
    ∃ new, ms = done ++ new ∧ Match (MemberIs lib) new ts ∧ (ms.map Prod.fst).Nodup ∧
      k = (n + (new.map Prod.snd).sum) % 18446744073709551616 := by
  induction ts generalizing done n with
  | nil =>
    unfold bitMembers at h
    cases h
    exact ⟨[], by simp, .nil, hd, by simp; omega⟩
  | cons t ts ih =>
    unfold bitMembers at h
    split at h
    · rename_i nm sz hs
      by_cases hin : nm ∈ done.map Prod.fst
      · rw [if_pos hin] at h; cases h
      · rw [if_neg hin] at h
        obtain ⟨new, h1, h2, h3, h4⟩ := ih h (by
          rw [List.map_append, List.nodup_append]
          refine ⟨hd, by simp, ?_⟩
          intro a ha b hb
          have : b = nm := by simpa using hb
          subst this
          rintro rfl
          exact hin ha) (by omega)
        refine ⟨(nm, lib.atoi sz) :: new, by rw [h1]; simp, .cons ⟨sz, hs, rfl⟩ h2, h3, ?_⟩
        rw [h4]
        simp only [List.map_cons, List.sum_cons]
        rw [Int.emod_add_emod, Int.add_assoc]
    · cases h

theorem headerCol_sound {lib : CsvLib} {env : Env} {c : Str} {k : Col} (h : headerCol lib env c = .ok k) : GoodHead lib c := by
  unfold headerCol at h
  split at h
  · rename_i nm t ts hs
    refine ⟨nm, t, ts, hs, ?_⟩
    dsimp only at h
    by_cases hb : (upper (joinWith 58 (t :: ts))).take 8 = lit "BITFIELD"
    · rw [if_pos hb] at h
      right
      cases hp : parseBits lib c with
      | error e => rw [hp] at h; cases h
      | ok ms =>
        unfold parseBits at hp
        by_cases hbr : 91 ∈ c ∧ 93 ∈ c
        · rw [if_pos hbr] at hp
          refine ⟨hb, hbr.1, hbr.2, ?_⟩
          intro pre s post hc h1 h2 h3
          have e1 : c.idxOf 91 = pre.length := by rw [hc]; exact idxOf_first _ _ _ h1
          have e2 : c.idxOf 93 = pre.length + 1 + s.length := by
            rw [hc, show pre ++ 91 :: (s ++ 93 :: post) = (pre ++ 91 :: s) ++ 93 :: post by simp, idxOf_first]
            · simp; omega
            · simp only [List.mem_append, List.mem_cons, not_or]
              exact ⟨h2, by decide, h3⟩
          have e3 : (c.drop (pre.length + 1)).take (pre.length + 1 + s.length - pre.length - 1) = s := by
            rw [hc, show pre ++ 91 :: (s ++ 93 :: post) = (pre ++ [91]) ++ (s ++ 93 :: post) by simp,
              show pre.length + 1 + s.length - pre.length - 1 = s.length by omega,
              show pre.length + 1 = (pre ++ ([91] : Str)).length by simp, List.drop_left, List.take_left]
          dsimp only at hp
          rw [e1, e2, if_pos (by omega), e3] at hp
          cases hm : bitMembers lib [] 0 (splitAt [59] s) with
          | error e => rw [hm] at hp; cases hp
          | ok r =>
            obtain ⟨ms', n⟩ := r
            rw [hm] at hp
            dsimp only at hp
            by_cases hn : 31 < n
            · rw [if_pos hn] at hp; cases hp
            · obtain ⟨new, a1, a2, a3, a4⟩ := bitMembers_sound hm (by simp) (by omega)
              refine ⟨new, a2, by simpa [a1] using a3, ?_⟩
              rw [Int.zero_add] at a4
              omega
        · rw [if_neg hbr] at hp; cases hp
    · rw [if_neg hb] at h
      left
      cases ht : typeOfName (upper (joinWith 58 (t :: ts))) with
      | error e => rw [ht] at h; cases h
      | ok ty =>
        unfold typeOfName at ht
        rw [upper_idem] at ht
        repeat' split at ht
        all_goals first
          | (rename_i he; exact ⟨.ignore, he⟩)
          | (rename_i he; exact ⟨.integer, he⟩)
          | (rename_i he; exact ⟨.real, he⟩)
          | (rename_i he; exact ⟨.double, he⟩)
          | (rename_i he; exact ⟨.string, he⟩)
          | (rename_i he; exact ⟨.bitfield, he⟩)
          | cases ht
  · cases h

theorem csvCols_sound {lib : CsvLib} {env : Env} {cs : List Str} {ks : List Col} (h : csvCols lib env cs = .ok ks) :
    ks.length = cs.length ∧ ∀ c ∈ cs, GoodHead lib c := by
  induction cs generalizing ks with
  | nil => cases h; simp
  | cons c cs ih =>
    unfold csvCols at h
    cases hc : headerCol lib env c with
    | error e => rw [hc] at h; cases h
    | ok k =>
      rw [hc] at h
      dsimp only at h
      cases hcs : csvCols lib env cs with
      | error e => rw [hcs] at h; cases h
      | ok ks' =>
        rw [hcs] at h
        cases h
        obtain ⟨a, b⟩ := ih hcs
        refine ⟨by simp [a], ?_⟩
        intro x hx
        rcases List.mem_cons.mp hx with rfl | hx
        · exact headerCol_sound hc
        · exact b x hx

theorem csvCells_length {lib : CsvLib} {junk : Junk} {dk : List Col} {dr : List Cell} {f : Bool} {a : Nat} {ks : List Col} {xs : List Cell}
    {vs : List Str} {ks' : List Col} {xs' : List Cell} {f' : Bool} {a' : Nat}
    (h : csvCells lib junk dk dr f a ks xs vs = .ok (ks', xs', f', a')) : ks'.length = dk.length + ks.length := by
  induction ks generalizing dk dr f a xs vs with
  | nil => unfold csvCells at h; cases h; simp
  | cons k ks ih =>
    cases vs with
    | nil => unfold csvCells at h; cases h
    | cons v vs =>
      unfold csvCells at h
      cases hv : csvValue lib k (xs.headD []) v with
      | error e => rw [hv] at h; cases h
      | ok r =>
        obtain ⟨k', y, b⟩ := r
        rw [hv] at h
        cases b with
        | false => have := ih h; simp at this ⊢; omega
        | true =>
          dsimp only at h
          cases hf : firstCells junk (a + 1) 0 (dk ++ k' :: ks) with
          | error e => rw [hf] at h; cases h
          | ok ys => rw [hf] at h; have := ih h; simp at this ⊢; omega

theorem next_sound {lib : CsvLib} {delim : Str} {junk : Junk} {it it' : CsvIt} (h : it.next lib delim junk = .ok it') (hn : it.noMore = false) :
    it'.cols.length = it.cols.length ∧ it'.rest = (getLine it.rest).2 ∧
      if it'.noMore then splitAt delim (trim (getLine it.rest).1) = []
      else (splitAt delim (trim (getLine it.rest).1)).length = it.cols.length ∧ splitAt delim (trim (getLine it.rest).1) ≠ [] := by
  unfold CsvIt.next at h
  rw [if_neg (by simp [hn])] at h
  cases hs : splitAt delim (trim (getLine it.rest).1) with
  | nil => rw [hs] at h; cases h; exact ⟨rfl, rfl, by simp⟩
  | cons v vs =>
    rw [hs] at h
    dsimp only at h
    by_cases hl : (v :: vs).length = it.cols.length
    · rw [if_pos hl] at h
      cases hc : csvCells lib junk [] [] false it.allocs it.cols it.row (v :: vs) with
      | error e => rw [hc] at h; cases h
      | ok r =>
        obtain ⟨ks, xs, f, a⟩ := r
        rw [hc] at h
        cases h
        exact ⟨by simpa using csvCells_length hc, rfl, by simpa using hl⟩
    · rw [if_neg hl] at h; cases h

theorem all_sound {lib : CsvLib} {delim : Str} {junk : Junk} {fuel : Nat} {it : CsvIt} {views : List RowView}
    (h : it.all lib delim junk fuel = (views, none)) :
    if it.noMore then views = []
    else 0 < views.length ∧ (∀ j, j + 1 < views.length → (splitAt delim (trim (lineOf j it.rest))).length = it.cols.length ∧
        splitAt delim (trim (lineOf j it.rest)) ≠ []) ∧
      splitAt delim (trim (lineOf (views.length - 1) it.rest)) = [] := by
  induction fuel generalizing it views with
  | zero => unfold CsvIt.all at h; cases h
  | succ fuel ih =>
    unfold CsvIt.all at h
    by_cases hn : it.noMore = true
    · rw [if_pos hn] at h; cases h; rw [if_pos hn]
    · rw [if_neg hn] at h
      have hn' : it.noMore = false := by simpa using hn
      rw [if_neg hn]
      cases hx : it.next lib delim junk with
      | error e => rw [hx] at h; cases h
      | ok it' =>
        rw [hx] at h
        dsimp only at h
        obtain ⟨hv, he⟩ := Prod.mk.inj h
        have hr : it'.all lib delim junk fuel = ((it'.all lib delim junk fuel).1, none) := Prod.ext rfl he
        have hi := ih hr
        generalize (it'.all lib delim junk fuel).1 = vs at hi hv
        subst hv
        obtain ⟨c1, c2, c3⟩ := next_sound hx hn'
        by_cases hm : it'.noMore = true
        · rw [if_pos hm] at hi c3
          subst hi
          exact ⟨by simp, by simp, c3⟩
        · rw [if_neg hm] at hi c3
          obtain ⟨d1, d2, d3⟩ := hi
          rw [c1, c2] at d2
          rw [c2] at d3
          refine ⟨by simp, ?_, ?_⟩
          · intro j hj
            cases j with
            | zero => exact c3
            | succ j => exact d2 j (by simpa using hj)
          · cases hvs : vs with
            | nil => rw [hvs] at d1; simp at d1
            | cons y ys => rw [hvs] at d3; exact d3

/-- **C35 (any text).**  If the import of any text reports no error and `n` rows, then the first line declares the columns (`GoodHead`), each of
the `n` lines after it has as many values as there are columns, and the line after these is blank (or the text ends): a text with a bad
declaration or a line of another length before its first blank line is refused. -/
theorem C35_any (lib : CsvLib) (env : Env) (cap : Nat) (junk : Junk) (delim : Str) (text : List Byte) (n : Nat) (out : List (List Byte))
    (h : importCsv lib env cap junk delim text = .ok (n, out)) :
    (∀ c ∈ splitAt delim (lineOf 0 text), GoodHead lib c) ∧
      (∀ j, j < n → (splitAt delim (trim (lineOf (j + 1) text))).length = (splitAt delim (lineOf 0 text)).length) ∧
      splitAt delim (trim (lineOf (n + 1) text)) = [] := by
  unfold importCsv at h
  cases hh : csvHeader lib env delim junk text with
  | error e => rw [hh] at h; cases h
  | ok it =>
    rw [hh] at h
    dsimp only at h
    have hh' : it.cols.length = (splitAt delim (lineOf 0 text)).length ∧ it.rest = (getLine text).2 ∧ it.noMore = false ∧
        ∀ c ∈ splitAt delim (lineOf 0 text), GoodHead lib c := by
      unfold csvHeader at hh
      cases hc : csvCols lib env (splitAt delim (getLine text).1) with
      | error e => rw [hc] at hh; cases hh
      | ok ks =>
        rw [hc] at hh
        dsimp only at hh
        cases hf : firstCells junk 1 0 ks with
        | error e => rw [hf] at hh; cases hh
        | ok xs =>
          rw [hf] at hh
          cases hh
          obtain ⟨a, b⟩ := csvCols_sound hc
          exact ⟨a, rfl, rfl, b⟩
    obtain ⟨a1, a2, a3, a4⟩ := hh'
    refine ⟨a4, ?_⟩
    cases hx : it.next lib delim junk with
    | error e => rw [hx] at h; cases h
    | ok it' =>
      rw [hx] at h
      dsimp only at h
      obtain ⟨c1, c2, c3⟩ := next_sound hx a3
      obtain ⟨p1, p2⟩ := pass1_count h
      have hr : it'.all lib delim junk (text.length + 2) = ((it'.all lib delim junk (text.length + 2)).1, none) := Prod.ext rfl p1
      have hs := all_sound hr
      rw [a2] at c2 c3
      rw [a1] at c1 c3
      generalize (it'.all lib delim junk (text.length + 2)).1 = vs at hs p2
      by_cases hm : it'.noMore = true
      · rw [if_pos hm] at c3 hs
        subst hs
        simp only [List.length_nil] at p2
        subst p2
        exact ⟨by omega, c3⟩
      · rw [if_neg hm] at c3 hs
        rw [← p2, c1, c2] at hs
        obtain ⟨d1, d2, d3⟩ := hs
        refine ⟨?_, ?_⟩
        · intro j hj
          cases j with
          | zero => exact c3.1
          | succ j => exact (d2 j hj).1
        · obtain ⟨k, rfl⟩ : ∃ k, n = k + 1 := ⟨n - 1, by omega⟩
          exact d3

/-- The sample text is imported, so it is as the theorem says. -/
example : ((csvTry dblEnv sampleText).toOption.map Prod.fst) = some csvTable.rows := by decide +kernel

/-- A bitfield of 32 bits and a line of another length are refused. -/
example : ((csvTry dblEnv (lit "a:BITFIELD[x:16;y:16]\n1\n")).toOption.map Prod.fst) = none ∧
    ((csvTry dblEnv (lit "a:BITFIELD[x:16;y:15]\n1\n")).toOption.map Prod.fst) = some 1 ∧
    ((csvTry dblEnv (lit "a:INTEGER,b:REAL\n1,2\n3\n")).toOption.map Prod.fst) = none := by
  refine ⟨?_, ?_, ?_⟩ <;> decide +kernel

end Verif
