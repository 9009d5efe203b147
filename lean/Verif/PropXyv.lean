import Verif.Xyv
import Verif.PropToolPlans

/-!
C68: `odc xyv` writes a line for each row of the statement.
-/

namespace Verif

/-- Specification: the heading of the file, line by line. -/
def xyvHeading : List Str :=
  [lit "#GEO", [], lit "#FORMAT XYV", [], lit "PARAMETER = 12004", [], joinWith 9 [lit "x/long", lit "y/lat", lit "value"], lit "#DATA", []]

/-- Specification: a row of the answer, its latitude, its longitude, the value, and the other words of the value if it is a wide string. -/
structure XyvRow where
  lat : Word
  lon : Word
  value : Word
  more : List Word

/-- Specification: the words of a row. -/
def XyvRow.words (r : XyvRow) : List Word := r.lat :: r.lon :: r.value :: r.more

/-- Specification: the line of a row. -/
def XyvRow.line (num : Word → Str) (r : XyvRow) : Str := joinWith 9 [num r.lat, num r.lon, num r.value]

/-- Specification: lines as text. -/
def asLines (ls : List Str) : Str := ls.flatMap (fun l => l ++ [10])

theorem xyvLoop_lines (num : Word → Str) (rs : List XyvRow) (out : Str) :
    xyvLoop num out (rs.map XyvRow.words) = out ++ asLines (rs.map (XyvRow.line num)) := by
  induction rs generalizing out with
  | nil => simp [xyvLoop, asLines]
  | cons r rs ih =>
    rw [List.map_cons, xyvLoop, ih]
    simp [asLines, XyvRow.words, XyvRow.line, joinWith]

theorem xyvHead_lines : xyvHead = asLines xyvHeading := by decide +kernel

/-- **C68**: `odc xyv` takes a file, a column and the file to write, asks for the latitude, the longitude and the column, and writes the heading and one line for
each row of the answer, in its order; if the statement fails, so does the tool. -/
theorem C68_xyv (num : Word → Str) (select : Str → Except Err (List (List Word))) (args : List Str) (items : List Arg) (hs : Says [] args items) :
    ((Arg.words items).length ≠ 4 → xyvTool num select args = .error .userError) ∧
    ∀ tool inFile column outFile, Arg.words items = [tool, inFile, column, outFile] →
      (∀ rows : List XyvRow, select (lit "select lat, lon, " ++ column ++ lit " from \"" ++ inFile ++ lit "\";") = .ok (rows.map XyvRow.words) →
        xyvTool num select args = .ok (outFile, asLines (xyvHeading ++ rows.map (XyvRow.line num)))) ∧
      (∀ e, select (lit "select lat, lon, " ++ column ++ lit " from \"" ++ inFile ++ lit "\";") = .error e → xyvTool num select args = .error e) := by
  obtain ⟨c', h1, _, _⟩ := (unread_new args).answers hs
  unfold xyvTool xyvPlan
  rw [h1]
  constructor
  · intro hn
    generalize Arg.words items = ws at *
    rcases ws with _ | ⟨a, _ | ⟨b, _ | ⟨c, _ | ⟨d, _ | ⟨e, r⟩⟩⟩⟩⟩ <;> simp at hn ⊢
  · intro tool inFile column outFile hw
    rw [hw]
    dsimp only
    unfold xyvSelect
    constructor
    · intro rows hr
      rw [hr]
      dsimp only
      rw [xyvLoop_lines, xyvHead_lines]
      simp [asLines]
    · intro e he
      rw [he]

/-- Sample: a row, at latitude 1, longitude 2. -/
def xyvSample : XyvRow := ⟨1, 2, 3, []⟩

/-- The hypotheses of `C68_xyv` hold for `odc xyv a.odb t b.txt`. -/
example : xyvTool (fun w => [BitVec.ofNat 8 (48 + w.toNat)]) (fun _ => .ok [xyvSample.words]) [lit "xyv", lit "a.odb", lit "t", lit "b.txt"] =
    .ok (lit "b.txt", asLines (xyvHeading ++ [xyvSample.line (fun w => [BitVec.ofNat 8 (48 + w.toNat)])])) :=
  ((C68_xyv _ _ _ _ (says_words [] [lit "xyv", lit "a.odb", lit "t", lit "b.txt"] (by
    intro a ha
    rw [← dashed_iff]
    simp only [List.mem_cons, List.not_mem_nil, or_false] at ha
    rcases ha with rfl | rfl | rfl | rfl <;> decide +kernel))).2 (lit "xyv") (lit "a.odb") (lit "t") (lit "b.txt") rfl).1 [xyvSample] rfl

/-- **The coordinates written by `odc xyv` stand under the wrong headings**: under `x/long` is the latitude, under `y/lat` the longitude. -/
theorem C68_violated_headings (num : Word → Str) (select : Str → Except Err (List (List Word))) (args : List Str) (items : List Arg) (hs : Says [] args items)
    (tool inFile column outFile : Str) (hw : Arg.words items = [tool, inFile, column, outFile]) (row : XyvRow)
    (hr : select (lit "select lat, lon, " ++ column ++ lit " from \"" ++ inFile ++ lit "\";") = .ok [row.words]) :
    ∃ before, xyvTool num select args = .ok (outFile, before ++ lit "x/long" ++ [9] ++ lit "y/lat" ++ [9] ++ lit "value" ++ [10] ++ lit "#DATA" ++ [10, 10] ++
      num row.lat ++ [9] ++ num row.lon ++ [9] ++ num row.value ++ [10]) := by
  refine ⟨lit "#GEO" ++ [10, 10] ++ lit "#FORMAT XYV" ++ [10, 10] ++ lit "PARAMETER = 12004" ++ [10, 10], ?_⟩
  rw [((C68_xyv num select args items hs).2 tool inFile column outFile hw).1 [row] hr]
  simp [asLines, xyvHeading, XyvRow.line, joinWith]

end Verif
