import Verif.PropStats

/-
Finding a column by name.

Models: src/odc/core/MetaData.cc l.95-122 and l.305-314, src/odc/core/Table.cc l.89-113.
-/

namespace Verif

/-- `columnNameMatches`, MetaData.cc l.305-314 (`eckit::StringTools::startsWith` is `List.isPrefixOf`). -/
def columnNameMatches (full q : Str) : Bool :=
  q.isPrefixOf full && (decide (full.length = q.length) ||
    (decide (q.length < full.length) && decide (full.getD q.length 0 = 0x40)))

/-- `MetaData::hasColumn`, MetaData.cc l.99-104. -/
def hasColumn (names : List Str) (q : Str) : Bool := names.any (fun n => columnNameMatches n q)

/-- The loop of `MetaData::columnIndex`, MetaData.cc l.110-116: `i` is the position of the first of the remaining
names, `index` the match found so far. -/
def columnIndexLoop (q : Str) : List Str → Nat → Option Nat → Except Err Nat
  | [], _, none => .error .columnNotFound
  | [], _, some p => .ok p
  | n :: ns, i, index =>
    if columnNameMatches n q then
      match index with
      | none => columnIndexLoop q ns (i + 1) (some i)
      | some _ => .error .ambiguousColumn
    else columnIndexLoop q ns (i + 1) index

/-- `MetaData::columnIndex`, MetaData.cc l.106-122. -/
def columnIndex (names : List Str) (q : Str) : Except Err Nat := columnIndexLoop q names 0 none

/-! ### Specification -/

/-- The name `q` means the column called `full`: it is the whole name, or the part before an '@'. -/
def Means (q full : Str) : Prop := full = q ∨ ∃ table, full = q ++ 0x40 :: table

/-! ### Proofs -/

theorem columnNameMatches_iff (full q : Str) : columnNameMatches full q = true ↔ Means q full := by
  unfold columnNameMatches Means
  simp only [Bool.and_eq_true, Bool.or_eq_true, decide_eq_true_eq, List.isPrefixOf_iff_prefix]
  constructor
  · rintro ⟨⟨t, rfl⟩, h⟩
    rcases h with h | ⟨h1, h2⟩
    · left
      rw [List.length_append] at h
      rw [List.length_eq_zero_iff.mp (by omega : t.length = 0), List.append_nil]
    · right
      cases t with
      | nil => simp at h1
      | cons b t =>
        refine ⟨t, ?_⟩
        simp at h2
        rw [h2]; rfl
  · rintro (rfl | ⟨t, rfl⟩)
    · exact ⟨List.prefix_refl _, Or.inl rfl⟩
    · exact ⟨List.prefix_append _ _, Or.inr ⟨by simp, by simp⟩⟩

theorem columnIndexLoop_some (q : Str) (ns : List Str) (i p : Nat) :
    columnIndexLoop q ns i (some p) =
      if ∃ n ∈ ns, columnNameMatches n q = true then .error .ambiguousColumn else .ok p := by
  induction ns generalizing i with
  | nil => simp [columnIndexLoop]
  | cons n ns ih =>
    unfold columnIndexLoop
    by_cases h : columnNameMatches n q = true
    · rw [if_pos h, if_pos ⟨n, by simp, h⟩]
    · rw [if_neg h, ih]
      congr 1
      apply propext
      constructor
      · rintro ⟨m, hm, hq⟩; exact ⟨m, by simp [hm], hq⟩
      · rintro ⟨m, hm, hq⟩
        rcases List.mem_cons.mp hm with rfl | hm
        · exact absurd hq h
        · exact ⟨m, hm, hq⟩

/-- The three outcomes of the loop. -/
theorem columnIndexLoop_spec (q : Str) (ns : List Str) (i : Nat) :
    (columnIndexLoop q ns i none = .error .columnNotFound ∧ ∀ n ∈ ns, columnNameMatches n q = false) ∨
    (∃ p n, columnIndexLoop q ns i none = .ok (i + p) ∧ ns[p]? = some n ∧ columnNameMatches n q = true ∧
      ∀ (p' : Nat) (n' : Str), ns[p']? = some n' → columnNameMatches n' q = true → p' = p) ∨
    (columnIndexLoop q ns i none = .error .ambiguousColumn ∧ ∃ (p p' : Nat) (n n' : Str), p < p' ∧ ns[p]? = some n ∧
      ns[p']? = some n' ∧ columnNameMatches n q = true ∧ columnNameMatches n' q = true) := by
  induction ns generalizing i with
  | nil => left; simp [columnIndexLoop]
  | cons n ns ih =>
    unfold columnIndexLoop
    by_cases h : columnNameMatches n q = true
    · rw [if_pos h]
      dsimp only
      rw [columnIndexLoop_some]
      by_cases hex : ∃ n ∈ ns, columnNameMatches n q = true
      · rw [if_pos hex]
        right; right
        obtain ⟨m, hm, hq⟩ := hex
        obtain ⟨j, hj⟩ := List.mem_iff_getElem?.mp hm
        exact ⟨rfl, 0, j + 1, n, m, by omega, by simp, by simpa using hj, h, hq⟩
      · rw [if_neg hex]
        right; left
        refine ⟨0, n, rfl, by simp, h, ?_⟩
        intro p' n' hp' hq
        cases p' with
        | zero => rfl
        | succ p' => exact absurd ⟨n', List.mem_of_getElem? (by simpa using hp'), hq⟩ hex
    · rw [if_neg h]
      rcases ih (i + 1) with ⟨a, b⟩ | ⟨p, m, a, b, c, d⟩ | ⟨a, p, p', m, m', b⟩
      · left
        refine ⟨a, ?_⟩
        intro m hm
        rcases List.mem_cons.mp hm with rfl | hm
        · simpa using h
        · exact b m hm
      · right; left
        refine ⟨p + 1, m, by rw [a]; congr 1; omega, by simpa using b, c, ?_⟩
        intro p' n' hp' hq
        cases p' with
        | zero => simp at hp'; subst hp'; exact absurd hq h
        | succ p' => rw [d p' n' (by simpa using hp') hq]
      · right; right
        exact ⟨a, p + 1, p' + 1, m, m', by omega, by simpa using b.2.1, by simpa using b.2.2.1, b.2.2.2.1, b.2.2.2.2⟩

/-- **C24** (metadata): looking up a name in the columns of a table gives position `p` exactly if the column there
is the only one the name means; it reports not-found exactly if the name means no column, and ambiguous exactly
if it means two or more; `hasColumn` says whether it means any. -/
theorem C24_column_index (names : List Str) (q : Str) :
    (∀ p : Nat, columnIndex names q = .ok p ↔
      (∃ n, names[p]? = some n ∧ Means q n) ∧ ∀ (p' : Nat) (n' : Str), names[p']? = some n' → Means q n' → p' = p) ∧
    (columnIndex names q = .error .columnNotFound ↔ ∀ n ∈ names, ¬ Means q n) ∧
    (columnIndex names q = .error .ambiguousColumn ↔ ∃ (p p' : Nat) (n n' : Str), p ≠ p' ∧ names[p]? = some n ∧
      names[p']? = some n' ∧ Means q n ∧ Means q n') ∧
    (hasColumn names q = true ↔ ∃ n ∈ names, Means q n) := by
  have hspec := columnIndexLoop_spec q names 0
  simp only [columnNameMatches_iff] at hspec
  have hf : (∀ n ∈ names, columnNameMatches n q = false) ↔ ∀ n ∈ names, ¬ Means q n := by
    constructor
    · intro h n hn hm; have := h n hn; rw [(columnNameMatches_iff n q).mpr hm] at this; simp at this
    · intro h n hn
      cases hc : columnNameMatches n q with
      | false => rfl
      | true => exact absurd ((columnNameMatches_iff n q).mp hc) (h n hn)
  rw [hf] at hspec
  unfold columnIndex
  refine ⟨?_, ?_, ?_, ?_⟩
  · intro p
    constructor
    · intro h
      rcases hspec with ⟨a, _⟩ | ⟨p0, n, a, b, c, d⟩ | ⟨a, _⟩
      · rw [a] at h; cases h
      · rw [a] at h
        simp only [Except.ok.injEq] at h
        have hp : p0 = p := by omega
        subst hp
        exact ⟨⟨n, b, c⟩, d⟩
      · rw [a] at h; cases h
    · rintro ⟨⟨n, hn, hm⟩, huniq⟩
      rcases hspec with ⟨_, b⟩ | ⟨p0, n0, a, b, c, d⟩ | ⟨a, p1, p2, n1, n2, b1, b2, b3, b4, b5⟩
      · exact absurd hm (b n (List.mem_of_getElem? hn))
      · rw [a, d p n hn hm]; simp
      · have := huniq p1 n1 b2 b4
        have := huniq p2 n2 b3 b5
        omega
  · constructor
    · intro h
      rcases hspec with ⟨_, b⟩ | ⟨p0, n, a, _⟩ | ⟨a, _⟩
      · exact b
      · rw [a] at h; cases h
      · rw [a] at h; cases h
    · intro hno
      rcases hspec with ⟨a, _⟩ | ⟨p0, n, _, b, c, _⟩ | ⟨_, p1, _, n1, _, _, b2, _, b4, _⟩
      · exact a
      · exact absurd c (hno n (List.mem_of_getElem? b))
      · exact absurd b4 (hno n1 (List.mem_of_getElem? b2))
  · constructor
    · intro h
      rcases hspec with ⟨a, _⟩ | ⟨p0, n, a, _⟩ | ⟨_, p1, p2, n1, n2, b1, b⟩
      · rw [a] at h; cases h
      · rw [a] at h; cases h
      · exact ⟨p1, p2, n1, n2, by omega, b⟩
    · rintro ⟨p, p', n, n', hne, h1, h2, m1, m2⟩
      rcases hspec with ⟨_, b⟩ | ⟨p0, n0, _, _, _, d⟩ | ⟨a, _⟩
      · exact absurd m1 (b n (List.mem_of_getElem? h1))
      · exact absurd ((d p n h1 m1).trans (d p' n' h2 m2).symm) hne
      · exact a
  · simp only [hasColumn, List.any_eq_true, columnNameMatches_iff]

/-- `Table::columnLookup` keeps for each short name the first column that has it. -/
theorem Lookup.build_simple (ns done : List Str) (hnd : (done ++ ns).Nodup) (S : List (Str × Nat))
    (hS : ∀ k, assoc k S = done.findIdx? (fun n => decide (simpleName n = k))) :
    ∃ S', Lookup.build ns done.length ⟨numbered done 0, S⟩ = (⟨numbered (done ++ ns) 0, S'⟩, none) ∧
      ∀ k, assoc k S' = (done ++ ns).findIdx? (fun n => decide (simpleName n = k)) := by
  induction ns generalizing done S with
  | nil => exact ⟨S, by simp [Lookup.build], by simpa using hS⟩
  | cons n ns ih =>
    have hn : n ∉ done := by
      intro h
      have := List.nodup_append.mp hnd
      exact this.2.2 n h n (by simp) rfl
    have hnone : assoc n (numbered done 0) = none := by
      rw [assoc_none_iff]
      intro e he hen
      rw [numbered_mem] at he
      exact hn (by rw [← hen]; exact List.mem_of_getElem? he.2)
    simp only [Lookup.build, hnone]
    have hS' : ∀ k, assoc k (if (assoc (simpleName n) S).isSome then S else S ++ [(simpleName n, done.length)]) =
        (done ++ [n]).findIdx? (fun n => decide (simpleName n = k)) := by
      intro k
      rw [List.findIdx?_append, ← hS k]
      by_cases hs : (assoc (simpleName n) S).isSome = true
      · rw [if_pos hs]
        cases hk : assoc k S with
        | some v => rfl
        | none =>
          have : simpleName n ≠ k := by intro e; rw [e, hk] at hs; simp at hs
          simp [this]
      · rw [if_neg hs, assoc_append]
        cases hk : assoc k S with
        | some v => rfl
        | none =>
          simp only [assoc, List.find?_cons, List.find?_nil, List.findIdx?_cons, List.findIdx?_nil]
          by_cases he : simpleName n = k <;> simp [he]
    obtain ⟨S', h1, h2⟩ := ih (done ++ [n]) (by simpa using hnd) _ hS'
    refine ⟨S', ?_, by simpa using h2⟩
    simpa [numbered_append, numbered] using h1

/-- **C24** (decoding): when columns are requested for decoding, a name denotes the column with exactly this name;
if there is none, the first column whose name before '@' equals it; if there is none either, it is not found. -/
theorem C24_decode_lookup (names : List Str) (hnd : names.Nodup) :
    ∃ L, columnLookup names Lookup.empty = (L, none) ∧ ∀ q,
      (∀ p : Nat, names[p]? = some q → L.find q = some p) ∧
      (q ∉ names → L.find q = names.findIdx? (fun n => decide (simpleName n = q))) := by
  obtain ⟨S, h1, h2⟩ := Lookup.build_simple names [] (by simpa using hnd) [] (by intro k; simp [assoc])
  rw [List.nil_append] at h2
  refine ⟨⟨numbered names 0, S⟩, by simpa [columnLookup, Lookup.empty, numbered] using h1, ?_⟩
  intro q
  constructor
  · intro p hp
    unfold Lookup.find
    dsimp only
    rw [assoc_numbered names hnd p q hp]
  · intro hq
    unfold Lookup.find
    dsimp only
    have : assoc q (numbered names 0) = none := by
      rw [assoc_none_iff]
      intro e he hen
      rw [numbered_mem] at he
      exact hq (by rw [← hen]; exact List.mem_of_getElem? he.2)
    rw [this]
    exact h2 q

/-- The lookups disagree: a short name two columns share is ambiguous for `columnIndex` (used by `span`), but
decoding silently takes the first; and a column called exactly `a` is ambiguous for `columnIndex` if there is also
`a@t`. -/
theorem C24_violated_ambiguous :
    columnIndex [lit "a@t", lit "a@u"] (lit "a") = .error .ambiguousColumn ∧
    (columnLookup [lit "a@t", lit "a@u"] Lookup.empty).1.find (lit "a") = some 0 ∧
    columnIndex [lit "a", lit "a@t"] (lit "a") = .error .ambiguousColumn := by
  decide +kernel

/-- Concrete lookups. -/
example : columnIndex [lit "b@t", lit "a@t", lit "ab"] (lit "a") = .ok 1 ∧
    columnIndex [lit "b@t", lit "a@t", lit "ab"] (lit "a@t") = .ok 1 ∧
    columnIndex [lit "b@t", lit "a@t", lit "ab"] (lit "c") = .error .columnNotFound := by
  decide +kernel

end Verif
