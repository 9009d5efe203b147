import Verif.PropMdVal
import Verif.PropMdBad
import Verif.PropCsv

/-!
`odc mdset` on a sample file: the theorems of C49 apply, and what the tool does not do.
-/

namespace Verif

/-- Sample: a table with constant columns: a number, a number or missing, a string, and a column without values. -/
def mdSample : UTable :=
  { rows := 3, props := [(lit "a", lit "b")], cols := [⟨lit "n@t", .ints [1, 2, 3]⟩, ⟨lit "k@t", .ints [7, 7, 7]⟩,
      ⟨lit "m@t", .ints [2147483647, 5, 5]⟩, ⟨lit "s@t", .strings 1 [lit "ab", lit "ab", lit "ab"]⟩, ⟨lit "e@t", .ints [2147483647, 2147483647, 2147483647]⟩] }

/-- Sample: the file with `mdSample` twice. -/
def mdFile : List Byte :=
  match mdSample.encode dblEnv .same with
  | .ok b => b ++ b
  | .error _ => []

/-- Sample: the rows of the file after `odc mdset`, and how it ended. -/
def mdTry (updates : Str) : Option (List (List Cell) × Bool) × Option Err :=
  let r := mdset dblEnv sampleLib.toDouble sampleLib.atoi updates mdFile
  (rowsSeen dblEnv (.ok [r.1]) 10, r.2)

/-- Sample: types and members of the columns of the first table after `odc mdset`. -/
def mdTypes (updates : Str) : Option (List (Int × List (List Byte × Int))) :=
  match readPlain dblEnv (mdset dblEnv sampleLib.toDouble sampleLib.atoi updates mdFile).1 with
  | ((t :: _) :: _, none) => Option.some (t.info.cols.map (fun c => (c.ty, c.bitNames.zip c.bitSizes)))
  | _ => none

theorem md_sample : mdTry (lit "k=9,n:REAL,m=6,s='xy'") =
    (let row := fun (a m : Int) => [[ofInt a], [ofInt 9], [ofInt m], [wordOfBytes (lit "      xy")], [ofInt 2147483647]]
     some ([row 1 2147483647, row 2 6, row 3 6, row 1 2147483647, row 2 6, row 3 6], true), none) := by decide +kernel

/-- A type may be changed; the members of a bitfield go with it. -/
example : mdTypes (lit "n:bitfield,k:STRING,e:ignore") = some [(4, []), (3, []), (1, []), (3, []), (0, [])] := by decide +kernel

/-! ### The conditions of the theorems -/

/-- Sample: the conditions of `MdOk`, as a computation. -/
def mdOkB (us : List MdUpdate) (cs : List Col) : Bool :=
  us.all (fun u => (List.range cs.length).any (fun p =>
    match cs[p]? with
    | none => false
    | some c => columnNameMatches c.name u.column && (u.value.isNone || c.codec.kind.saysConstant) &&
        (List.range cs.length).all (fun i => decide (i = p) ||
          match cs[i]? with
          | none => true
          | some c' => !columnNameMatches c'.name u.column)) &&
    (match u.value with | some v => !isNaN v | none => true)) &&
  cs.all (fun c => !(decide (c.codec.kind = .int8String) || decide (c.codec.kind = .int16String)) ||
    decide (c.codec.width = tableWidth c.codec.strings 1))

theorem mdOk_of {us : List MdUpdate} {cs : List Col} (h : mdOkB us cs = true) : MdOk us cs := by
  unfold mdOkB at h
  rw [Bool.and_eq_true, List.all_eq_true, List.all_eq_true] at h
  obtain ⟨h1, h2⟩ := h
  refine ⟨?_, ?_, ?_⟩
  · intro u hu
    have := h1 u hu
    rw [Bool.and_eq_true, List.any_eq_true] at this
    obtain ⟨⟨p, _, hp⟩, _⟩ := this
    cases hc : cs[p]? with
    | none => rw [hc] at hp; cases hp
    | some c =>
      rw [hc] at hp
      dsimp only at hp
      rw [Bool.and_eq_true, Bool.and_eq_true, List.all_eq_true] at hp
      obtain ⟨⟨a1, a2⟩, a3⟩ := hp
      refine ⟨p, c, hc, (columnNameMatches_iff _ _).mp a1, ?_, ?_⟩
      · intro p' c' hc' hm
        have hlt := (List.getElem?_eq_some_iff.mp hc').1
        have := a3 p' (by simpa using hlt)
        rw [hc', Bool.or_eq_true] at this
        rcases this with h | h
        · simpa using h
        · simp only [Bool.not_eq_true'] at h
          rw [(columnNameMatches_iff _ _).mpr hm] at h
          cases h
      · intro hv
        rw [Bool.or_eq_true] at a2
        rcases a2 with h | h
        · cases hu' : u.value with
          | none => exact absurd hu' hv
          | some x => rw [hu'] at h; cases h
        · exact (saysConstant_iff _).mp h
  · intro u hu c hc v hv _ _
    have := h1 u hu
    rw [Bool.and_eq_true, hv] at this
    simpa using this.2
  · intro c hc hk
    have := h2 c hc
    rw [Bool.or_eq_true] at this
    rcases this with h | h
    · exfalso
      rcases hk with hk | hk <;> simp [hk] at h
    · simpa using h

/-- Sample: the words of `k=9,n:REAL,m=6,s='xy'`. -/
def mdSampleWords : List MdWords :=
  [⟨lit "k", none, some (lit "9")⟩, ⟨lit "n", some (lit "REAL"), none⟩, ⟨lit "m", none, some (lit "6")⟩, ⟨lit "s", none, some (lit "'xy'")⟩]

/-- Sample: what they ask for. -/
def mdSampleUpdates : List MdUpdate :=
  [⟨lit "k", none, some (ofInt 9)⟩, ⟨lit "n", some 2, none⟩, ⟨lit "m", none, some (ofInt 6)⟩, ⟨lit "s", none, some (wordOfBytes (lit "      xy"))⟩]

theorem mdSample_words : joinWith 44 (mdSampleWords.map MdWords.text) = lit "k=9,n:REAL,m=6,s='xy'" ∧ (∀ w ∈ mdSampleWords, w.Ok) ∧
    Match (MdWords.Asks sampleLib.toDouble) mdSampleWords mdSampleUpdates := by
  refine ⟨by decide +kernel, ?_, ?_⟩
  · intro w hw
    simp only [mdSampleWords, List.mem_cons, List.not_mem_nil, or_false] at hw
    rcases hw with rfl | rfl | rfl | rfl
    · exact ⟨by decide +kernel, (by intro t h; cases h), by intro v h; cases h; decide +kernel⟩
    · exact ⟨by decide +kernel, by intro t h; cases h; exact ⟨2, by decide +kernel⟩, by intro v h; cases h⟩
    · exact ⟨by decide +kernel, (by intro t h; cases h), by intro v h; cases h; decide +kernel⟩
    · exact ⟨by decide +kernel, (by intro t h; cases h), by intro v h; cases h; decide +kernel⟩
  · refine .cons ⟨rfl, .inl ⟨rfl, rfl⟩, .inr ⟨_, _, rfl, rfl, .number _ _ (by decide +kernel) (by decide +kernel) (by decide +kernel)⟩⟩
      (.cons ⟨rfl, .inr ⟨_, _, rfl, rfl, by decide +kernel⟩, .inl ⟨rfl, rfl⟩⟩
        (.cons ⟨rfl, .inl ⟨rfl, rfl⟩, .inr ⟨_, _, rfl, rfl, .number _ _ (by decide +kernel) (by decide +kernel) (by decide +kernel)⟩⟩
          (.cons ⟨rfl, .inl ⟨rfl, rfl⟩, .inr ⟨_, _, rfl, rfl, ?_⟩⟩ .nil)))
    exact .quoted 39 (lit "xy") (Or.inr rfl) (by decide +kernel)

/-- The file is read to the end, in two frames, and the updates can be made in both. -/
theorem mdSample_ok : (readPlain dblEnv mdFile).2 = none ∧ (readPlain dblEnv mdFile).1.length = 2 ∧
    (readPlain dblEnv mdFile).1.all (fun fr => fr.all (fun t => mdOkB mdSampleUpdates t.info.cols && decide (t.order = .same))) = true ∧
    (readPlain dblEnv mdFile).1.all (fun fr => fr.all (fun t => decide (t.info.dataSize < 2147483648))) = true := by decide +kernel

/-- `C49_mdset` applies. -/
example : ∃ (bss : List (List Byte)) (fs : List (List Tbl)), readPlain dblEnv mdFile = (fs, none) ∧ fs.length = 2 ∧
    mdset dblEnv sampleLib.toDouble sampleLib.atoi (lit "k=9,n:REAL,m=6,s='xy'") mdFile = (bss.flatten, none) ∧ bss.length = 2 ∧
    ((∀ b ∈ bss, b.length ≤ 2147483647) →
      ∃ fs', readPlain dblEnv bss.flatten = (fs', none) ∧ Match (MdFrame mdSampleUpdates mdFile bss.flatten) fs fs') := by
  obtain ⟨h1, h2, h3, h4⟩ := mdSample_ok
  obtain ⟨w1, w2, w3⟩ := mdSample_words
  cases hr : readPlain dblEnv mdFile with
  | mk fs fin =>
    rw [hr] at h1 h2 h3 h4
    dsimp only at h1 h2 h3 h4
    subst h1
    rw [List.all_eq_true] at h3 h4
    obtain ⟨bss, a1, a2, a3⟩ := C49_mdset dblEnv sampleEnv_md5 mdFile fs hr (by
        intro t ht
        obtain ⟨fr, hfr, htf⟩ := List.mem_flatten.mp ht
        have := h4 fr hfr
        rw [List.all_eq_true] at this
        have := of_decide_eq_true (this t htf)
        rw [toI64_small _ (by omega)]
        omega) sampleLib.toDouble sampleLib.atoi mdSampleWords mdSampleUpdates w2 w3 (Or.inl rfl) (by
        intro fr hfr t ht
        have := h3 fr hfr
        rw [List.all_eq_true] at this
        have := this t ht
        rw [Bool.and_eq_true] at this
        exact mdOk_of this.1)
    rw [w1] at a1
    exact ⟨bss, fs, rfl, h2, a1, by rw [a2, h2], a3⟩

/-- Refusals: a column that is not constant, an unknown column, a value that is no number, a type that is no type. -/
example : (mdTry (lit "n=4")).2 = some .userError ∧ (mdTry (lit "x=4")).2 = some .columnNotFound ∧
    (mdTry (lit "k=four")).2.isSome = true ∧ (mdTry (lit "k:FLOAT")).2 = some .assertFailed := by decide +kernel

/-- `C49_refused` applies to the first of them: the column is found, only once, and is not constant. -/
example : (readPlain dblEnv mdFile).1.all (fun fr => fr.all (fun t => match t.info.cols with
    | c :: cs => columnNameMatches c.name (lit "n") && !c.codec.kind.saysConstant && cs.all (fun c => !columnNameMatches c.name (lit "n"))
    | [] => false)) = true := by decide +kernel

/-- A column without values is constant, too: it takes the value, and shows it nowhere. -/
example : (mdTry (lit "e=4")).2 = none ∧ (mdTry (lit "e=4")).1.map (fun x => x.1.map (fun r => r.getD 4 [])) =
    some (List.replicate 6 [ofInt 2147483647]) := by decide +kernel

/-! ### What users cannot rely on -/

/-- **C49 fails** for the definition of a bitfield with more than one member, or with one: it is ignored, without an
exception. -/
theorem C49_violated_bits : mdTypes (lit "n:[x:1;y:2]") = some [(1, []), (1, []), (1, []), (3, []), (1, [])] ∧
    mdTypes (lit "n:[x:1]") = some [(1, []), (1, []), (1, []), (3, []), (1, [])] ∧
    (mdTry (lit "n:[x:1;y:2]")).2 = none := ⟨by decide +kernel, by decide +kernel, by decide +kernel⟩

/-- **C49 fails** for assignments without a column, and for a bitfield member without a size: the tool reads past the end of
a vector. -/
theorem C49_violated_empty : (mdTry (lit "=")).2 = some .ub ∧ (mdTry (lit ":")).2 = some .ub ∧ (mdTry (lit "n:[x]")).2 = some .ub := by
  decide +kernel

/-- Sample: one row with a constant string of ten bytes, in long form. -/
def mdLong : List Byte :=
  match ({ rows := 2, props := [], cols := [⟨lit "s", .strings 2 [lit "0123456789", lit "0123456789"]⟩] } : UTable).encode
      { dblEnv with longEnv := true } .same with
  | .ok b => b
  | .error _ => []

/-- **C49 fails** for long constant strings: the tool accepts a value, writes the file, and the string is the old one. -/
theorem C49_violated_long : (let r := mdset { dblEnv with longEnv := true } sampleLib.toDouble sampleLib.atoi (lit "s='new'") mdLong
    (rowsSeen { dblEnv with longEnv := true } (.ok [r.1]) 5, r.2)) =
    (some ([[wordsOf 2 (lit "0123456789")], [wordsOf 2 (lit "0123456789")]], true), none) := by decide +kernel

end Verif
