import Verif.PropCDecSession
import Verif.PropC22

/-
C60: concrete sessions, and where using a decoder again goes wrong.
-/

namespace Verif

/-- Sample: a session: a column that does not exist yet, an empty array, a null array and a size that is taken back are
among the calls.  In the end the number is in records of 24 bytes at 500, and the string is laid out. -/
def oddDecCalls : List DecCall :=
  [.dataSize 0 24, .addColumn (lit "n"), .rowCount 7, .dataArray (some 90) 0 4 true, .columnData 0 8 8 (some 64),
   .addColumn (lit "s"), .dataSize 1 32, .dataArray none 8 8 false, .columnMajor true, .columnData (-1) 8 8 (some 1),
   .columnData 0 8 24 (some 500), .dataSize 1 0, .columnMajor false, .rowCount 2]

/-- Sample: which of them were accepted. -/
example : ((Dec.new []).calls oddDecCalls).2.map Prod.snd =
    [false, true, true, false, true, true, true, false, true, false, true, true, true, true] := by decide +kernel

/-- Sample: the decoder. -/
example : ((Dec.new []).calls oddDecCalls).1 =
    ⟨2, [(lit "n", ⟨some 500, 8, 24, false⟩), (lit "s", ⟨none, 0, 0, false⟩)], 0, 0, none, false⟩ := by decide +kernel

/-- Sample: what the frame of `smallTable` reports. -/
def smallShown : List ColShown := [⟨lit "s", 3, 16, []⟩, ⟨lit "n", 1, 8, []⟩]

/-- Sample: it is what is reported. -/
example : (match smallTable.encode sampleEnv .same with
    | .error _ => false
    | .ok bytes =>
      match readPlain sampleEnv bytes with
      | ([fr], none) => (match frameInfo fr with
        | .ok xs => decide (xs.map (fun x => (x.name, x.ty, x.bytes)) = smallShown.map (fun x => (x.name, x.ty, x.bytes)))
        | .error _ => false)
      | _ => false) = true := by decide +kernel

/-- Sample: the decoder of the odd calls. -/
def oddDec : Dec := ⟨2, [(lit "n", ⟨some 500, 8, 24, false⟩), (lit "s", ⟨none, 0, 0, false⟩)], 0, 0, none, false⟩

theorem oddDec_log : Log.decoder ((Dec.new []).calls oddDecCalls).2 = oddDec := by decide +kernel

/-- It is ready for the frame of `smallTable`, with an array at 1000. -/
theorem oddDec_ready : oddDec.Ready smallShown 2 1000 := by
  have hs : sizeIn (sizesOf smallShown) (lit "s") = 16 := by decide +kernel
  have hb0 : laidBytes smallShown (lit "n", ⟨some 500, 8, 24, false⟩) = 8 := rfl
  have hb1 : laidBytes smallShown (lit "s", ⟨none, 0, 0, false⟩) = 16 := by decide +kernel
  have hsp0 : ∀ r w, oddDec.spot smallShown 1000 0 r w = 500 + r * 24 + 8 * w := fun r w => rfl
  have hneeds : oddDec.needs smallShown = 16 := by decide +kernel
  have hsp1 : ∀ r w, oddDec.spot smallShown 1000 1 r w = 1000 + r * 16 + 8 * w := by
    intro r w
    have : oddDec.spot smallShown 1000 1 r w = 1000 + r * oddDec.needs smallShown + 0 + 8 * w := rfl
    rw [this, hneeds]; omega
  refine ⟨by decide, by decide, ?_, ?_, ?_, ?_, ?_⟩
  · intro e he
    simp only [oddDec, List.mem_cons, List.not_mem_nil, or_false] at he
    rcases he with rfl | rfl <;> rfl
  · intro e he hd
    simp only [oddDec, List.mem_cons, List.not_mem_nil, or_false] at he
    rcases he with rfl | rfl
    · cases hd
    · rw [hs]; decide
  · intro e he hd
    simp only [oddDec, List.mem_cons, List.not_mem_nil, or_false] at he
    rcases he with rfl | rfl
    · decide
    · exact absurd rfl hd
  · intro h; exact absurd rfl h
  · intro i j e e' r w r' w' hi hj hd hr hr' hw hw' hne
    have hne' : ¬ (i = j ∧ r = r' ∧ w = w') := fun ⟨a, b, c⟩ => hne (by rw [a, b, c])
    match i, j with
    | 0, 0 =>
      simp only [oddDec, List.getElem?_cons_zero, Option.some.injEq] at hi hj
      subst hi; subst hj
      rw [hb0] at hw hw'
      rw [hsp0, hsp0]
      omega
    | 0, 1 =>
      simp only [oddDec, List.getElem?_cons_zero, List.getElem?_cons_succ, Option.some.injEq] at hi hj
      subst hi; subst hj
      rw [hb0] at hw; rw [hb1] at hw'
      rw [hsp0, hsp1]
      omega
    | 1, _ =>
      simp only [oddDec, List.getElem?_cons_zero, List.getElem?_cons_succ, Option.some.injEq] at hi
      subst hi
      exact absurd rfl hd
    | i + 2, _ => simp [oddDec] at hi
    | 0, j + 2 => simp [oddDec] at hj

/-- The values are where they should be: numbers in the records, strings in the array, nothing else. -/
example : tryDecode smallTable oddDec [500, 508, 516, 524, 532] = some [5, 0, 0, 6, 0] ∧
    tryDecode smallTable oddDec [0, 8, 16, 24, 32] = some [w01234567, w89, wabcdefgh, wij, 0] := by
  constructor <;> decide +kernel

/-- Sample: two frames decoded with the same decoder, with calls between them; the words at some places after both, and the
bytes of the array after the first.  All memory is zero before; arrays allocated are at 0 and at 5000. -/
def decodeAgain (d : Dec) (T : UTable) (cs : List DecCall) (T2 : UTable) (at_ : List Nat) : Option (List Word × Nat) :=
  match T.encode sampleEnv .same, T2.encode sampleEnv .same with
  | .ok bytes, .ok bytes2 =>
    match readPlain sampleEnv bytes, readPlain sampleEnv bytes2 with
    | ([fr], none), ([fr2], none) =>
      match odcDecode bytes fr 0 (fun _ _ => []) d (fun _ => 0) with
      | .ok (d', m, _) =>
        match odcDecode bytes2 fr2 5000 (fun _ _ => []) (d'.calls cs).1 m with
        | .ok (_, m', _) => some (at_.map m'.word, d'.width * d'.height)
        | .error _ => none
      | .error _ => none
    | _, _ => none
  | _, _ => none

/-- Sample: a table with one number per row. -/
def numTable (vs : List Int) : UTable := { rows := vs.length, props := [], cols := [⟨lit "n", .ints vs⟩] }

/-- The second frame replaces the first in the same array. -/
example : decodeAgain ((Dec.new [lit "n"]).setRows 3) (numTable [7, 8]) [] (numTable [1, 2, 3]) [0, 8, 16, 24, 5000] =
    some ([1, 2, 3, 0, 0], 24) := by decide +kernel

/-- **C60 fails** for a decoder whose row count is raised after a frame was decoded: the array is not allocated again, and
the rows of the next frame are written beyond its end (here the third row at byte 16 of an array of 16 bytes). -/
theorem C60_violated_rows : decodeAgain ((Dec.new [lit "n"]).setRows 2) (numTable [7, 8]) [.rowCount 3] (numTable [1, 2, 3])
    [0, 8, 16, 24, 5000] = some ([1, 2, 3, 0, 0], 16) := by decide +kernel

/-- **C60 fails** for a decoder that is given another array after a frame was decoded: the next frame still goes to the
first array (which the caller may have freed), and the new one, at 200, stays as it was. -/
theorem C60_violated_array : ∃ d, (Dec.new [lit "n"]).setArray 100 8 2 false = .ok d ∧
    decodeAgain d (numTable [7, 8]) [.dataArray (some 200) 8 2 false] (numTable [3, 4]) [100, 108, 200, 208] =
      some ([3, 4, 0, 0], 16) := ⟨_, rfl, by decide +kernel⟩

end Verif
