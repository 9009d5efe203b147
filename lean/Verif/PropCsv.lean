import Verif.CsvSegs

/-
C35: import of comma separated text.
-/

namespace Verif

theorem Lines.count {ls : List Str} {t : List Byte} (h : Lines ls t) (hne : ∀ l ∈ ls, l ≠ []) : ls.length ≤ t.length := by
  induction h with
  | done _ => simp
  | line h1 h2 ih =>
    have := ih (fun l hl => hne l (by simp [hl]))
    simp
    omega
  | last h1 =>
    rename_i l
    have := List.length_pos_iff.mpr (hne l (by simp))
    simp
    omega

theorem joinWith_ne (d : Byte) (ts : List Str) (h : ts ≠ []) (hne : ∀ t ∈ ts, t ≠ []) : joinWith d ts ≠ [] := by
  match ts, h with
  | [s], _ => exact hne s (by simp)
  | s :: t :: r, _ => simp [joinWith]

theorem trim_ne_nil {t : Str} (h : trim t ≠ []) : t ≠ [] := by
  rintro rfl
  exact h rfl

/-- **C35.**  If a text declares the columns of a table in its first line and gives the rows of the table in the following lines, the import
succeeds, reports the number of rows, and writes a file that is read back as the rows of the table in order: same column names, types, bitfield
members and values.  This holds for any number of rows in a frame, any widths of strings, and whatever memory contained. -/
theorem C35_import (lib : CsvLib) (env : Env) (hmd5 : env.Md5Ok) (hd : env.asDbl = true) (cap : Nat) (hcap : 0 < cap) (junk : Junk) (delim : Str)
    (T : UTable) (hT : T.AnyRowsOk env) (hne : T.cols ≠ []) (text : List Byte) (h : CsvText lib delim T text) :
    ∃ out, importCsv lib env cap junk delim text = .ok (T.rows, out) ∧ ((∀ f ∈ out, f.length ≤ 2147483647) →
      ∀ (junk' : Junk) (fuel' : Nat), T.rows + 1 < fuel' →
        ∃ views, readRows env junk' out.flatten fuel' = (views, none) ∧ Match (IsRow env T) (List.range T.rows) views) := by
  obtain ⟨d, heads, rows, h1, h2, h3, h4, h5, h6⟩ := h.ex
  obtain ⟨g1, g2⟩ := h6.next
  have hheads : ∀ t ∈ heads, t ≠ [] := by
    intro t ht
    obtain ⟨c, _, hc⟩ := h2.mem_left' ht
    exact headerText_ne hc
  obtain ⟨ks, k1, k2⟩ := csvCols_ok lib env T.cols heads h2
  have k3 : Match (CsvCol env (fun c => c.vals.upTo 0)) T.cols ks := k2.change (by
    intro c k hk
    obtain ⟨co, c1, c2⟩ := hk
    exact ⟨co, by dsimp only; rw [upTo_zero]; exact c1, c2⟩)
  obtain ⟨xs, x1, x2⟩ := csvFirst_ok junk 1 0 ks (fun k hk => by
    obtain ⟨c, _, hc⟩ := k3.mem_left' hk
    exact csvCol_missing hc)
  have hx : CellsOk T.cols xs := by
    intro i c hc hn
    have e1 := k3.length
    have e2 := x2.length
    have e3 := (List.getElem?_eq_some_iff.mp hc).1
    have hk : ks[i]? = some (ks[i]'(by omega)) := List.getElem?_eq_getElem _
    have hxi : xs[i]? = some (xs[i]'(by omega)) := List.getElem?_eq_getElem _
    rw [List.getD_eq_getElem?_getD, hxi]
    apply x2.get i _ _ hk hxi
    rw [csvCol_width (k3.get i c _ hc hk), upTo_num hn]
  have hhead : csvHeader lib env delim junk text =
      .ok { cols := ks, row := xs, rest := (getLine text).2, fresh := false, noMore := false, allocs := 1 } := by
    unfold csvHeader
    rw [g1, tokens_join delim d h1 heads (fun t ht => ⟨hheads t ht, h3 t ht⟩), k1]
    dsimp only
    rw [x1]
  unfold importCsv
  rw [hhead]
  dsimp only
  cases hrows : T.rows with
  | zero =>
    rw [hrows] at h4
    have hnil := List.eq_nil_of_length_eq_zero h4
    subst hnil
    obtain ⟨it', a1, a2, a3⟩ := next_end lib junk delim { cols := ks, row := xs, rest := (getLine text).2, fresh := false, noMore := false, allocs := 1 }
      g2 rfl
    rw [a1]
    dsimp only
    have hall : it'.all lib delim junk (text.length + 2) = ([], none) := by
      unfold CsvIt.all
      rw [a2]
      rfl
    rw [hall, a3]
    obtain ⟨out, b1, b2⟩ := pass1_tables env hmd5 cap hcap [] (T.seg 0 0) [] (.last ⟨rfl, by simp⟩) (by
      intro S hS
      simp only [List.mem_singleton] at hS
      subst hS
      exact ⟨seg_ok hT 0 0 (by omega), by simpa [UTable.seg] using hne⟩) (by simp) ks (by rw [csv_keys k3, seg_keys])
    refine ⟨out, b1, ?_⟩
    intro hsz junk' fuel' hf
    obtain ⟨views, c1, c2, _⟩ := b2 hsz junk' fuel' (by simpa using hf)
    have := List.eq_nil_of_length_eq_zero c2
    subst this
    exact ⟨[], c1, .nil⟩
  | succ m =>
    rw [hrows] at h4
    have hlt : 0 < rows.length := by omega
    have hr0 : rows = rows[0] :: rows.drop 1 := by
      have := List.drop_eq_getElem_cons hlt
      simpa using this
    have g3 : Lines (joinWith d rows[0] :: (rows.drop 1).map (joinWith d)) (getLine text).2 := by
      have e : rows.map (joinWith d) = joinWith d rows[0] :: (rows.drop 1).map (joinWith d) := by
        conv => lhs; rw [hr0]
        rfl
      rw [← e]
      exact g2
    obtain ⟨it, a1, a2, a3, a4⟩ := next_row lib env hd junk delim d h1 T hne 0 rows[0] (h5 0 _ (List.getElem?_eq_getElem hlt)) _
      { cols := ks, row := xs, rest := (getLine text).2, fresh := false, noMore := false, allocs := 1 } g3 rfl k3 hx
    rw [a1]
    dsimp only
    have hcount : m + 1 + 1 ≤ text.length := by
      have := h6.count (by
        intro l hl
        rcases List.mem_cons.mp hl with rfl | hl
        · refine joinWith_ne d heads ?_ hheads
          intro e
          have := h2.length
          rw [e] at this
          exact hne (List.eq_nil_of_length_eq_zero this)
        · obtain ⟨r, hr, rfl⟩ := List.mem_map.mp hl
          obtain ⟨j, hj⟩ := List.mem_iff_getElem?.mp hr
          have hj := h5 j r hj
          refine joinWith_ne d r ?_ (fun t ht => trim_ne_nil (hj.2 t ht).1)
          intro e
          have := hj.1.length
          rw [e] at this
          exact hne (List.eq_nil_of_length_eq_zero this))
      simp [h4] at this
      omega
    obtain ⟨views, b1, b2, b3⟩ := all_rows lib env hd junk delim d h1 T hne rows h5 m 0 (by omega) it a2 a4 a3 (text.length + 2) (by omega)
    rw [b1]
    obtain ⟨n, ns, p1, p2, p3, p4, p5, _⟩ := segs_exist env T m 0 views b2 (by simpa using b3)
    have hok : ∀ S ∈ segTables T 0 (n :: ns), S.AnyRowsOk env ∧ S.cols ≠ [] := by
      intro S hS
      obtain ⟨s', n', rfl, _, hle⟩ := mem_segTables hS
      exact ⟨seg_ok hT s' n' (by rw [hrows]; simp at hle; omega), by simpa [UTable.seg] using hne⟩
    obtain ⟨out, c1, c2⟩ := pass1_tables env hmd5 cap hcap views (T.seg 0 n) (segTables T (0 + n) ns) p4 hok (by
      intro S hS
      obtain ⟨s', n', rfl, hm, _⟩ := mem_segTables hS
      exact p2 n' hm) it.cols (by
      rw [csv_keys a4.cols, seg_keys]
      apply List.map_congr_left
      intro c hc
      rw [p5 c hc 0 p1])
    refine ⟨out, by rw [c1, b2], ?_⟩
    intro hsz junk' fuel' hf
    obtain ⟨views', d1, d2, d3⟩ := c2 hsz junk' fuel' (by omega)
    refine ⟨views', d1, ?_⟩
    have := rows_of_segs (n :: ns) 0 views' d3
    rw [List.sum_cons, p3] at this
    rwa [List.range_eq_range']

/-! ### An example -/

/-- Decimal numbers. -/
def decimalOf (s : Str) : Except Err Int :=
  match s with
  | [] => .error .userError
  | b :: r =>
    let ds := if b = 45 then r else b :: r
    if ds ≠ [] ∧ ds.all (fun d => 48 ≤ d.toNat && d.toNat ≤ 57) then
      let n : Int := ds.foldl (fun (n : Int) d => 10 * n + (d.toNat - 48)) 0
      .ok (if b = 45 then -n else n)
    else .error .userError

/-- A library that reads whole numbers and strings in single quotes. -/
def sampleLib : CsvLib where
  unQuote := fun s => if 1 < s.length ∧ s.head? = some 39 ∧ s.getLast? = some 39 then (s.drop 1).dropLast else s
  toDouble := fun s => (decimalOf s).map ofInt
  toFloat := fun s => (decimalOf s).map ofInt
  toLong := decimalOf
  atoi := fun s => match decimalOf s with | .ok i => i | .error _ => 0

/-- Sample: a text with a blank line, after which nothing is read. -/
def sampleText : List Byte :=
  lit "a@t:INTEGER, b:Real,s:STRING,f:bitField[x:2;y:6]\n1,2,'hello',3\nNULL, 3 ,'a longer string',4\n-5,null,c,5\n\nnot read\n"

/-- Sample: the import of a text. -/
def csvTry (env : Env) (text : List Byte) : Except Err (Nat × List (List Byte)) := importCsv sampleLib env 10 (fun _ _ _ => 0) (lit ",") text

/-- The table the text stands for. -/
def csvTable : UTable :=
  { rows := 3, props := [], cols := [⟨lit "a@t", .ints [1, 2147483647, -5]⟩, ⟨lit "b", .reals [ofInt 2, ofInt 3, realMDI]⟩,
      ⟨lit "s", .strings 2 [lit "hello", lit "a longer string", lit "c"]⟩, ⟨lit "f", .bits [(lit "x", 2), (lit "y", 6)] [3, 4, 5]⟩] }

theorem csv_sample : copyShape dblEnv (csvTry dblEnv sampleText) = some (3, [1, 2]) := by decide +kernel

theorem csv_values : rowsSeen dblEnv ((csvTry dblEnv sampleText).map Prod.snd) 10 =
    some ([[[ofInt 1], [ofInt 2], wordsOf 1 (lit "hello"), [ofInt 3]], [[ofInt 2147483647], [ofInt 3], wordsOf 2 (lit "a longer string"), [ofInt 4]],
      [[ofInt (-5)], [realMDI], wordsOf 2 (lit "c"), [ofInt 5]]], true) := by decide +kernel

/-- **C35**, violated: a missing string is read back as an empty one, like `''`, not as missing. -/
theorem C35_violated_null :
    rowsSeen dblEnv ((csvTry dblEnv (lit "s:STRING\nabc\nNULL\n''\n")).map Prod.snd) 10 =
      some ([[wordsOf 1 (lit "abc")], [wordsOf 1 []], [wordsOf 1 []]], true) ∧ wordsOf 1 [] ≠ [realMDI] := by
  constructor <;> decide +kernel

/-- **C35**, violated if integers are not held as doubles: the reader writes doubles into the row buffer all the same, and 7 and 8 become 0. -/
theorem C35_violated_ints : rowsSeen sampleEnv ((csvTry sampleEnv (lit "a:INTEGER\n7\n8\n")).map Prod.snd) 10 = some ([[[0]], [[0]]], true) := by
  decide +kernel

/-- **C35**, outside the format: a return at the end of the header, an empty cell, and a separator in quotes are refused; what follows a blank line is
silently dropped. -/
theorem csv_refused :
    errIs (csvTry dblEnv (lit "a:INTEGER\r\n7\r\n")) .assertFailed = true ∧
    errIs (csvTry dblEnv (lit "a:INTEGER,b:STRING\n7,\n8,x\n")) .assertFailed = true ∧
    errIs (csvTry dblEnv (lit "a:INTEGER,b:STRING\n7,'x,y'\n")) .assertFailed = true ∧
    copyShape dblEnv (csvTry dblEnv (lit "a:INTEGER,b:STRING\n7,x\n\n8,x\n")) = some (1, [1]) := by
  refine ⟨?_, ?_, ?_, ?_⟩ <;> decide +kernel

/-! The sample text meets the hypotheses of `C35_import`. -/

theorem HeaderText.of {lib : CsvLib} {c : InCol} {t t' : Str} (e : t = t') (h : HeaderText lib c t') : HeaderText lib c t := e ▸ h

theorem trimmed_of {s : Str} (h : (match s.head?, s.getLast? with | some a, some b => !isBlank a && !isBlank b | _, _ => true) = true) : Trimmed s := by
  constructor
  · intro b hb
    rw [hb] at h
    cases hl : s.getLast? with
    | none =>
      rw [List.getLast?_eq_none_iff] at hl
      subst hl
      simp at hb
    | some a => rw [hl] at h; simp at h; exact h.1
  · intro b hb
    rw [hb] at h
    cases hl : s.head? with
    | none =>
      rw [List.head?_eq_none_iff] at hl
      subst hl
      simp at hb
    | some a => rw [hl] at h; simp at h; exact h.2

theorem blank_nil : Blank [] := by intro b hb; cases hb
theorem blank_one : Blank (lit " ") := ball (by decide +kernel)

theorem csvSample_text : CsvText sampleLib (lit ",") csvTable sampleText where
  ex := by
    refine ⟨44, [lit "a@t:INTEGER", lit " b:Real", lit "s:STRING", lit "f:bitField[x:2;y:6]"],
      [[lit "1", lit "2", lit "'hello'", lit "3"], [lit "NULL", lit " 3 ", lit "'a longer string'", lit "4"], [lit "-5", lit "null", lit "c", lit "5"]],
      by decide +kernel, ?_, ?_, rfl, ?_, ?_⟩
    · refine .cons ?_ (.cons ?_ (.cons ?_ (.cons ?_ .nil)))
      · exact .of (t' := [] ++ (lit "a@t" ++ ([] ++ 58 :: lit "INTEGER"))) (by decide +kernel) (.plain (c := ⟨lit "a@t", .ints _⟩) blank_nil blank_nil
          (by decide +kernel) (trimmed_of (by decide +kernel)) (by decide +kernel) (by simp [Vals.ty]) (by show _ = typeName .integer; decide +kernel))
      · exact .of (t' := lit " " ++ (lit "b" ++ ([] ++ 58 :: lit "Real"))) (by decide +kernel) (.plain (c := ⟨lit "b", .reals _⟩) blank_one blank_nil
          (by decide +kernel) (trimmed_of (by decide +kernel)) (by decide +kernel) (by simp [Vals.ty]) (by show _ = typeName .real; decide +kernel))
      · exact .of (t' := [] ++ (lit "s" ++ ([] ++ 58 :: lit "STRING"))) (by decide +kernel) (.plain (c := ⟨lit "s", .strings _ _⟩) blank_nil blank_nil
          (by decide +kernel) (trimmed_of (by decide +kernel)) (by decide +kernel) (by simp [Vals.ty]) (by show _ = typeName .string; decide +kernel))
      · refine .of (t' := [] ++ (lit "f" ++ ([] ++ 58 :: (lit "bitField" ++ 91 :: (joinWith 59 [lit "x:2", lit "y:6"] ++ [93]))))) (by decide +kernel)
          (.bits blank_nil blank_nil (by decide +kernel) (trimmed_of (by decide +kernel)) (by decide +kernel) (by decide +kernel) (by decide +kernel)
            (by decide +kernel) (.cons ?_ (.cons ?_ .nil)) (by decide +kernel) (ball (by decide +kernel)) (by decide +kernel))
        · exact ⟨lit "2", by decide +kernel, by decide +kernel, by decide +kernel, ball (by decide +kernel), by decide +kernel⟩
        · exact ⟨lit "6", by decide +kernel, by decide +kernel, by decide +kernel, ball (by decide +kernel), by decide +kernel⟩
    · intro t ht
      simp only [List.mem_cons, List.not_mem_nil, or_false] at ht
      rcases ht with rfl | rfl | rfl | rfl <;> exact ball (by decide +kernel)
    · intro j r hj
      match j with
      | 0 =>
        simp only [List.getElem?_cons_zero, Option.some.injEq] at hj
        subst hj
        refine ⟨.cons ⟨1, rfl, Or.inr ⟨?_, ?_⟩⟩ (.cons ⟨ofInt 2, rfl, Or.inr ⟨?_, ?_⟩⟩ (.cons ⟨lit "hello", rfl, ?_, ?_⟩ (.cons ⟨3, rfl, Or.inr ⟨?_, ?_⟩⟩ .nil))), ?_⟩
        all_goals first
          | decide +kernel
          | (unfold IsNull; decide +kernel)
          | (intro t ht
             simp only [List.mem_cons, List.not_mem_nil, or_false] at ht
             rcases ht with rfl | rfl | rfl | rfl <;> exact ⟨by decide +kernel, ball (by decide +kernel)⟩)
      | 1 =>
        simp only [List.getElem?_cons_succ, List.getElem?_cons_zero, Option.some.injEq] at hj
        subst hj
        refine ⟨.cons ⟨2147483647, rfl, Or.inl ⟨?_, rfl⟩⟩ (.cons ⟨ofInt 3, rfl, Or.inr ⟨?_, ?_⟩⟩ (.cons ⟨lit "a longer string", rfl, ?_, ?_⟩
          (.cons ⟨4, rfl, Or.inr ⟨?_, ?_⟩⟩ .nil))), ?_⟩
        all_goals first
          | decide +kernel
          | (unfold IsNull; decide +kernel)
          | (intro t ht
             simp only [List.mem_cons, List.not_mem_nil, or_false] at ht
             rcases ht with rfl | rfl | rfl | rfl <;> exact ⟨by decide +kernel, ball (by decide +kernel)⟩)
      | 2 =>
        simp only [List.getElem?_cons_succ, List.getElem?_cons_zero, Option.some.injEq] at hj
        subst hj
        refine ⟨.cons ⟨-5, rfl, Or.inr ⟨?_, ?_⟩⟩ (.cons ⟨realMDI, rfl, Or.inl ⟨?_, rfl⟩⟩ (.cons ⟨lit "c", rfl, ?_, ?_⟩
          (.cons ⟨5, rfl, Or.inr ⟨?_, ?_⟩⟩ .nil))), ?_⟩
        all_goals first
          | decide +kernel
          | (unfold IsNull; decide +kernel)
          | (intro t ht
             simp only [List.mem_cons, List.not_mem_nil, or_false] at ht
             rcases ht with rfl | rfl | rfl | rfl <;> exact ⟨by decide +kernel, ball (by decide +kernel)⟩)
      | j + 3 => simp at hj
    · have e : sampleText = lit "a@t:INTEGER, b:Real,s:STRING,f:bitField[x:2;y:6]" ++ 10 :: (lit "1,2,'hello',3" ++ 10 ::
          (lit "NULL, 3 ,'a longer string',4" ++ 10 :: (lit "-5,null,c,5" ++ 10 :: (10 :: (lit "not read" ++ [10]))))) := by decide +kernel
      rw [e]
      have e2 : joinWith 44 [lit "a@t:INTEGER", lit " b:Real", lit "s:STRING", lit "f:bitField[x:2;y:6]"] ::
          List.map (joinWith 44) [[lit "1", lit "2", lit "'hello'", lit "3"], [lit "NULL", lit " 3 ", lit "'a longer string'", lit "4"],
            [lit "-5", lit "null", lit "c", lit "5"]] =
          [lit "a@t:INTEGER, b:Real,s:STRING,f:bitField[x:2;y:6]", lit "1,2,'hello',3", lit "NULL, 3 ,'a longer string',4", lit "-5,null,c,5"] := by
        decide +kernel
      rw [e2]
      exact .line (by decide +kernel) (.line (by decide +kernel) (.line (by decide +kernel) (.line (by decide +kernel) (.done (ball (by decide +kernel))))))

theorem csvTable_ok : csvTable.AnyRowsOk dblEnv where
  few := by decide +kernel
  rows := ball (by decide +kernel)
  lens := by
    intro c hc
    simp only [csvTable, List.mem_cons, List.not_mem_nil, or_false] at hc
    rcases hc with rfl | rfl | rfl | rfl <;> exact ⟨by decide +kernel, by decide +kernel, ball (by decide +kernel)⟩
  big := by decide
  vals := by
    intro c hc
    simp only [csvTable, List.mem_cons, List.not_mem_nil, or_false] at hc
    rcases hc with rfl | rfl | rfl | rfl
    · exact ball (P := InI32) (by decide +kernel)
    · exact ⟨ball (by decide +kernel), by decide +kernel, fun _ => ball (by decide +kernel), ball (by decide +kernel),
        fun h => absurd h (by
          rintro ⟨w, hw, he⟩
          exact absurd he (ball (P := fun w => ¬ feq w (widen maxFloat) = true) (by decide +kernel) w hw))⟩
    · refine ⟨by decide, by decide, ?_, ?_, ?_, ?_⟩
      · intro s hs
        simp only [List.mem_cons, List.not_mem_nil, or_false] at hs
        rcases hs with rfl | rfl | rfl <;> exact ⟨by decide +kernel, nulFree_of (by decide +kernel)⟩
      · intro ds h1 h2
        exact few_distinct _ _ h1 h2 (by decide)
      · intro h; cases h
      · exact ball (by decide +kernel)
    · exact ⟨ball (P := InI32) (by decide +kernel), by decide +kernel, ball (by decide +kernel)⟩
  noEmpty := by intro h; cases h

/-- `C35_import` applies. -/
example : ∃ out, importCsv sampleLib dblEnv 2 (fun _ _ _ => 77) (lit ",") sampleText = .ok (3, out) ∧ ((∀ f ∈ out, f.length ≤ 2147483647) →
    ∀ (junk' : Junk) (fuel' : Nat), 3 + 1 < fuel' →
      ∃ views, readRows dblEnv junk' out.flatten fuel' = (views, none) ∧ Match (IsRow dblEnv csvTable) (List.range 3) views) :=
  C35_import sampleLib dblEnv sampleEnv_md5 rfl 2 (by decide) _ _ csvTable csvTable_ok (by simp [csvTable]) _ csvSample_text

end Verif
