import Verif.CEncode

/-
C22, C23: layout theorems, the two layouts compared, and where the properties fail.
-/

namespace Verif

/-- **C22**: whenever `fill_in_decoder` lays out columns that were given neither memory nor a size, among any columns with
memory of the user, all words of the elements of these columns (where `odc_decode` puts them) are inside the array (the
decoder's own one, or the one given), and distinct words do not overlap; for both layouts, any sizes and row counts. -/
theorem C22_layout (alloc : Nat) (info : List (Str × Nat)) (rows : Nat) (d d' : Dec) (hp : d.Plain)
    (hne : ∃ e ∈ d.cols, e.2.data = none) (hr : 0 < d'.nrows) (h : fillIn alloc info rows d = .ok d') :
    (∀ (i : Nat) (e : Str × DecCol) (e' : Str × DecCol), d.cols[i]? = some e → e.2.data = none → d'.cols[i]? = some e' →
      ∀ r w, r < d'.nrows → w < e'.2.elem / 8 → d.ext.getD alloc ≤ e'.2.addr d'.nrows r w ∧
        e'.2.addr d'.nrows r w + 8 ≤ d.ext.getD alloc + d'.width * d'.height) ∧
    ∀ (i j : Nat) (e f e' f' : Str × DecCol), d.cols[i]? = some e → e.2.data = none → d'.cols[i]? = some e' →
      d.cols[j]? = some f → f.2.data = none → d'.cols[j]? = some f' →
      ∀ r w r' w', r < d'.nrows → w < e'.2.elem / 8 → r' < d'.nrows → w' < f'.2.elem / 8 → (i, r, w) ≠ (j, r', w') →
        e'.2.addr d'.nrows r w + 8 ≤ f'.2.addr d'.nrows r' w' ∨ f'.2.addr d'.nrows r' w' + 8 ≤ e'.2.addr d'.nrows r w :=
  placed_disjoint (fillIn_placed alloc info rows d d' hp hne hr h).1

/-- Layouts of a frame with a number and a string of 16 bytes. -/
def info2 : List (Str × Nat) := [(lit "n", 8), (lit "s", 16)]

/-- The addresses of all words. -/
def addrs (x : Except Err Dec) : Option (List (List (List Nat)) × Nat) :=
  match x with
  | .error _ => none
  | .ok d => some (d.cols.map (fun e => (List.range d.nrows).map (fun r => (List.range (e.2.elem / 8)).map (fun w =>
      e.2.addr d.nrows r w))), d.width * d.height)

example : addrs (fillIn 1000 info2 2 ((Dec.new [lit "n", lit "s"]).setRows 2)) =
    some ([[[1000], [1024]], [[1008, 1016], [1032, 1040]]], 48) := by decide +kernel

example : addrs (fillIn 1000 info2 2 (((Dec.new [lit "n", lit "s"]).setRows 2).setMajor true)) =
    some ([[[1000], [1008]], [[1016, 1032], [1024, 1040]]], 48) := by decide +kernel

example : ((Dec.new [lit "n", lit "s"]).setRows 2).Plain ∧ (∃ e ∈ ((Dec.new [lit "n", lit "s"]).setRows 2).cols, e.2.data = none) := by
  unfold Dec.Plain
  decide +kernel

/-- **C22 fails** for a column that was given a size but no memory: it is not counted in the width of the array, and its
words are outside of the array the decoder allocated (here 8 bytes of an array of 8 bytes at 1000, written at 1000 and at
1008 and 1016). -/
theorem C22_violated_size : ∃ d, ((Dec.new [lit "n", lit "s"]).setRows 1).setSize 1 16 = .ok d ∧
    addrs (fillIn 1000 info2 1 d) = some ([[[1000]], [[1008, 1016]]], 8) :=
  ⟨_, rfl, by decide +kernel⟩

/-- **C22 fails** in the row-major layout also between rows: with the size given, the words of one row overlap those of
the next one. -/
theorem C22_violated_overlap : ∃ d, ((Dec.new [lit "n", lit "s"]).setRows 2).setSize 1 16 = .ok d ∧
    addrs (fillIn 1000 info2 2 d) = some ([[[1000], [1008]], [[1008, 1016], [1016, 1024]]], 16) :=
  ⟨_, rfl, by decide +kernel⟩

/-- **C22 fails** for columns with memory of the user, a size, and no stride: if no column asks for automatic layout the
stride is never filled in, and all rows are written to the same place. -/
theorem C22_violated_stride : ∃ d, ((Dec.new [lit "n"]).setRows 3).setColumn 0 8 0 5000 = .ok d ∧
    addrs (fillIn 1000 info2 3 d) = some ([[[5000], [5000], [5000]]], 0) :=
  ⟨_, rfl, by decide +kernel⟩

/-! ### C23 -/

/-- **C23**: decoding the same columns into a row-major array and into a column-major one (whose height is the row count
of the decoder) gives the same words at transposed places: with `j` counting the words of a row, word `j` of row `r` is at
`8 * (r * (width / 8) + j)` in one and at `8 * (r + j * height)` in the other. -/
theorem C23_transposed (env : Env) (hmd5 : env.Md5Ok) (T : UTable) (hT : T.Ok env) (hrows : 0 < T.rows) (bytes : List Byte)
    (henc : T.encode env .same = .ok bytes) (hsz : bytes.length ≤ 2147483647) (names : List Str) (hne : names ≠ [])
    (hnd : names.Nodup) (hsub : ∀ n ∈ names, n ∈ T.cols.map InCol.name) :
    ∃ (fr : List Tbl) (n : Nat), readPlain env bytes = ([fr], none) ∧
      ∀ (d1 d2 : Dec), d1.cols = (Dec.new names).cols → d2.cols = (Dec.new names).cols →
        d1.columnMajor = false → d2.columnMajor = true → T.rows ≤ d1.nrows → T.rows ≤ d2.nrows →
        (d1.ext ≠ none → 8 * n ≤ d1.width ∧ d1.width % 8 = 0 ∧ d1.nrows ≤ d1.height) →
        (d2.ext ≠ none → 8 * n ≤ d2.width ∧ d2.nrows = d2.height) →
        ∀ (a1 a2 : Nat) (j1 j2 : Nat → Nat → Cell) (m1 m2 : Mem),
        ∃ d1' d2' m1' m2', odcDecode bytes fr a1 j1 d1 m1 = .ok (d1', m1', T.rows) ∧
          odcDecode bytes fr a2 j2 d2 m2 = .ok (d2', m2', T.rows) ∧
          ∀ r j, r < T.rows → j < n → m1'.word (d1.ext.getD a1 + 8 * (r * (d1'.width / 8) + j)) =
            m2'.word (d2.ext.getD a2 + 8 * (r + j * d2'.height)) := by
  obtain ⟨fr, sizes, h1, h2, h3, h4⟩ := C23_decode env hmd5 T hT hrows bytes henc hsz names hne hnd hsub
  have hs8 : ∀ s ∈ sizes, s % 8 = 0 := by
    intro s hs
    obtain ⟨i, hi⟩ := List.mem_iff_getElem?.mp hs
    have hil := (List.getElem?_eq_some_iff.mp hi).1
    rw [h2] at hil
    exact (h3 i _ s (List.getElem?_eq_getElem hil) hi).2.1
  have hsum8 : ∀ l : List Nat, (∀ s ∈ l, s % 8 = 0) → l.sum % 8 = 0 := by
    intro l hl
    induction l with
    | nil => rfl
    | cons a l ih =>
      have := ih (fun s hs => hl s (by simp [hs]))
      have := hl a (by simp)
      rw [List.sum_cons]; omega
  have hsum := hsum8 sizes hs8
  -- word j of a row belongs to some column
  have hfind : ∀ (l : List Nat), (∀ s ∈ l, s % 8 = 0) → ∀ j, j < l.sum / 8 →
      ∃ (i s w : Nat), l[i]? = some s ∧ w < s / 8 ∧ 8 * j = (l.take i).sum + 8 * w := by
    intro l hl
    induction l with
    | nil => intro j hj; simp at hj
    | cons a l ih =>
      intro j hj
      rw [List.sum_cons] at hj
      have ha := hl a (by simp)
      by_cases hja : j < a / 8
      · exact ⟨0, a, j, rfl, hja, by simp⟩
      · have hl' := hsum8 l (fun s hs => hl s (by simp [hs]))
        obtain ⟨i, s, w, b1, b2, b3⟩ := ih (fun s hs => hl s (by simp [hs])) (j - a / 8) (by omega)
        exact ⟨i + 1, s, w, by simpa using b1, b2, by rw [List.take_succ_cons, List.sum_cons]; omega⟩
  refine ⟨fr, sizes.sum / 8, h1, ?_⟩
  intro d1 d2 c1 c2 r1 r2 n1 n2 e1 e2 a1 a2 j1 j2 m1 m2
  obtain ⟨d1', m1', p1, p2, p3, p4, p5, _⟩ := h4 a1 j1 m1 d1 c1 n1 (fun h => by have := e1 h; omega)
  obtain ⟨d2', m2', q1, q2, q3, q4, q5, _⟩ := h4 a2 j2 m2 d2 c2 n2 (fun h => by have := e2 h; omega)
  refine ⟨d1', d2', m1', m2', p1, q1, ?_⟩
  intro r j hr hj
  obtain ⟨i, s, w, b1, b2, b3⟩ := hfind sizes hs8 j hj
  have hil := (List.getElem?_eq_some_iff.mp b1).1
  rw [h2] at hil
  have hname := hsub names[i] (List.getElem_mem hil)
  simp only [List.mem_map] at hname
  obtain ⟨c, hc, hcn⟩ := hname
  have hi : names[i]? = some c.name := by rw [hcn]; exact List.getElem?_eq_getElem hil
  obtain ⟨w1, u1, u2, u3⟩ := p5 i c s hc hi b1 r hr
  obtain ⟨w2, v1, v2, v3⟩ := q5 i c s hc hi b1 r hr
  have hww : w1 = w2 := by
    obtain ⟨ys, g1, g2⟩ := u1
    obtain ⟨zs, g3, g4⟩ := v1
    rw [g1] at g3
    cases g3
    rw [g2] at g4
    exact Option.some.inj g4
  subst hww
  have hx : w1[w]? = some w1[w] := List.getElem?_eq_getElem (by omega)
  have x1 := u3 w _ hx
  have x2 := v3 w _ hx
  rw [r1] at x1
  rw [r2] at x2
  simp only [Bool.false_eq_true, if_false, if_true] at x1 x2
  have hh : d2'.height = d2.nrows := by
    rw [q4]
    by_cases he : d2.ext = none
    · rw [if_pos he]
    · rw [if_neg he]; exact (e2 he).2.symm
  have hw8 : d1'.width % 8 = 0 := by
    rw [p3]
    by_cases he : d1.ext = none
    · rw [if_pos he]; exact hsum
    · rw [if_neg he]; exact (e1 he).2.1
  have g1 : 8 * (r * (d1'.width / 8) + j) = r * d1'.width + (sizes.take i).sum + 8 * w := by
    rw [Nat.mul_add, b3, Nat.mul_left_comm, show 8 * (d1'.width / 8) = d1'.width by omega]
    omega
  have g2 : 8 * (r + j * d2'.height) = d2'.height * (sizes.take i).sum + 8 * (r + w * d2.nrows) := by
    rw [hh, Nat.mul_add, Nat.mul_add, ← Nat.mul_assoc, b3, Nat.add_mul, Nat.mul_comm d2.nrows, Nat.mul_assoc]
    omega
  rw [g1, g2, x1, x2]

example : sampleTable.Ok sampleEnv ∧ 0 < sampleTable.rows ∧ ([lit "s@t", lit "i@t"]).Nodup ∧
    (∀ n ∈ [lit "s@t", lit "i@t"], n ∈ sampleTable.cols.map InCol.name) :=
  ⟨sampleTable_ok, by decide, by decide +kernel, by decide +kernel⟩

/-- Decode some columns of a table with a C decoder and look at some words of the memory (all zero before). -/
def tryDecode (T : UTable) (d : Dec) (at_ : List Nat) : Option (List Word) :=
  match T.encode sampleEnv .same with
  | .error _ => none
  | .ok bytes =>
    match readPlain sampleEnv bytes with
    | ([fr], none) =>
      match odcDecode bytes fr 0 (fun _ _ => []) d (fun _ => 0) with
      | .ok (_, m, _) => some (at_.map m.word)
      | .error _ => none
    | _ => none

/-- A string of 16 bytes and a number, two rows. -/
def smallTable : UTable := { rows := 2, props := [], cols := [⟨lit "s", .strings 2 [lit "0123456789", lit "abcdefghij"]⟩,
  ⟨lit "n", .ints [5, 6]⟩] }

/-- Sample: the bytes "01234567". -/
def w01234567 : Word := 0x3736353433323130

/-- Sample: the bytes "89". -/
def w89 : Word := 0x3938

/-- Sample: the bytes "abcdefgh". -/
def wabcdefgh : Word := 0x6867666564636261

/-- Sample: the bytes "ij". -/
def wij : Word := 0x6a69

example : tryDecode smallTable ((Dec.new [lit "s", lit "n"]).setRows 2) [0, 8, 16, 24, 32, 40] =
    some [w01234567, w89, 5, wabcdefgh, wij, 6] := by decide +kernel

example : tryDecode smallTable (((Dec.new [lit "s", lit "n"]).setRows 2).setMajor true) [0, 8, 16, 24, 32, 40] =
    some [w01234567, wabcdefgh, w89, wij, 5, 6] := by decide +kernel

/-- **C23 fails** when the decoder is given a column-major array and then a row count smaller than the height of the array:
the second word of the string is put after `rows` words (at 16) and not after `height` words (at 24). -/
theorem C23_violated_rows : ∃ d, (Dec.new [lit "s", lit "n"]).setArray 0 24 3 true = .ok d ∧
    tryDecode smallTable (d.setRows 2) [0, 8, 16, 24, 32, 40, 48, 56, 64] =
      some [w01234567, wabcdefgh, w89, wij, 0, 0, 5, 6, 0] := ⟨_, rfl, by decide +kernel⟩

/-- With all three rows of the array announced it is right. -/
example : ∃ d, (Dec.new [lit "s", lit "n"]).setArray 0 24 3 true = .ok d ∧
    tryDecode smallTable d [0, 8, 16, 24, 32, 40, 48, 56, 64] =
      some [w01234567, wabcdefgh, 0, w89, wij, 0, 5, 6, 0] := ⟨_, rfl, by decide +kernel⟩

/-- **C23 (decoding)**: a fresh decoder that was not told the row count refuses every frame with rows (although
`fill_in_decoder` could supply it): the check comes first. -/
theorem C23_norows (bytes : List Byte) (fr : List Tbl) (alloc : Nat) (junk : Nat → Nat → Cell) (names : List Str) (m : Mem)
    (xs : List ColShown) (hx : frameInfo fr = .ok xs) (h : 0 < frameRows fr) :
    odcDecode bytes fr alloc junk (Dec.new names) m = .error .assertFailed := by
  unfold odcDecode
  rw [hx]
  dsimp only
  split
  · rfl
  · rw [if_pos (show (Dec.new names).nrows < frameRows fr from h)]

/-! ### Encoding -/

/-- The memory with these words from address 0 on. -/
def memOf (ws : List Word) : Mem := fun a => (ws.flatMap wordBytes).getD a 0

/-- Sample: an encoder with a string and an integer column. -/
def smallEnc (e : Enc) : Enc :=
  (e.addColumn ⟨lit "s", .string, 16, []⟩).addColumn ⟨lit "n", .integer, 0, []⟩

/-- Sample: that encoder run on a memory of given words. -/
def tryEncode (ws : List Word) (width height cm : Nat) : Except Err (List (List Byte)) :=
  match (smallEnc Enc.new).setArray 0 width height cm with
  | .error e => .error e
  | .ok e => odcEncode sampleEnv (memOf ws) e 10

/-- Sample: both succeed with the same frames. -/
def sameOk (x y : Except Err (List (List Byte))) : Bool :=
  match x, y with
  | .ok a, .ok b => decide (a = b)
  | _, _ => false

/-- Both layouts encode as the table itself. -/
example : sameOk (tryEncode [w01234567, w89, 5, wabcdefgh, wij, 6] 24 2 0) (smallTable.encodeLimit sampleEnv 10000 10) = true ∧
    sameOk (tryEncode [w01234567, wabcdefgh, w89, wij, 5, 6] 24 2 8) (smallTable.encodeLimit sampleEnv 10000 10) = true := by
  decide +kernel

/-- Sample: the call throws this. -/
def errorIs {α : Type} (x : Except Err α) (e : Err) : Bool :=
  match x with
  | .error e' => decide (e' = e)
  | .ok _ => false

/-- **C23 fails** for a column-major width that does not divide the size of a column: the copy of the column is too small
(empty here) and is read beyond its end. -/
theorem C23_violated_width : errorIs (tryEncode [w01234567, w89, wabcdefgh, wij, 5, 6] 24 2 16) .ub = true := by decide +kernel

/-! ### C41: using an encoder again -/

theorem sized_sized (ci : ColumnInfo) : sized (sized ci) = sized ci := by
  unfold sized
  by_cases h : ci.decodedSize = 0
  · simp [h]
  · simp [h]

/-- The steps of `fill_in_encoder` depend on the columns only through their sizes. -/
theorem odcEncode_sized (env : Env) (m : Mem) (e : Enc) (fuel : Nat) :
    odcEncode env m { e with cols := e.cols.map (fun c => { c with info := sized c.info }) } fuel = odcEncode env m e fuel := by
  have h1 : (e.cols.map (fun c => ({ c with info := sized c.info } : EncArg))).map (fun c => { c with info := sized c.info }) =
      e.cols.map (fun c => { c with info := sized c.info }) := by
    rw [List.map_map]; apply List.map_congr_left; intro c _; simp [sized_sized]
  have h2 : (e.cols.map (fun c => ({ c with info := sized c.info } : EncArg))).map (fun c => sized c.info) =
      e.cols.map (fun c => sized c.info) := by
    rw [List.map_map]; apply List.map_congr_left; intro c _; simp [sized_sized]
  have h3 : ∀ base off cs, arrayCols m { e with cols := e.cols.map (fun c => { c with info := sized c.info }) } base off cs =
      arrayCols m e base off cs := by
    intro base off cs
    induction cs generalizing off with
    | nil => rfl
    | cons c cs ih =>
      rw [arrayCols, arrayCols]
      have h4 := fun o => ih o
      have h5 : arrayCol m { e with cols := e.cols.map (fun c => { c with info := sized c.info }) } base off c = arrayCol m e base off c := rfl
      have h6 : arrayStep { e with cols := e.cols.map (fun c => { c with info := sized c.info }) } c = arrayStep e c := rfl
      rw [h5, h6, h4]
  unfold odcEncode fillEnc
  dsimp only
  rw [h1, h2]
  simp only [h3]

/-- **C41**: an encoder that has encoded an array and is given another array encodes it like a fresh encoder with the same
columns, properties and settings, and with the row count of the first array. -/
theorem C41_reuse (env : Env) (m : Mem) (e : Enc) (a1 W1 H1 cm1 a2 W2 H2 cm2 fuel : Nat) (e1 : Enc) (hfresh : e.arr = none)
    (hcols : ∀ c ∈ e.cols, c.data = none ∧ c.stride = 0) (hset1 : e.setArray a1 W1 H1 cm1 = .ok e1) (hrows : e1.nrows ≠ 0)
    (h8 : cm2 % 8 = 0) :
    ∃ e2 e3, e1.after.setArray a2 W2 H2 cm2 = .ok e2 ∧ (e.setRows e1.nrows).setArray a2 W2 H2 cm2 = .ok e3 ∧
      odcEncode env m e2 fuel = odcEncode env m e3 fuel := by
  unfold Enc.setArray at hset1
  dsimp only at hset1
  by_cases hc : cm1 % 8 ≠ 0
  · rw [if_pos hc] at hset1; cases hset1
  · rw [if_neg hc, if_neg (show ¬ (e.arr ≠ none) by simp [hfresh])] at hset1
    cases hset1
    simp only at hrows
    unfold Enc.setArray
    simp only [Enc.after, Enc.setRows, ne_eq, reduceCtorEq, not_false_eq_true, if_true, h8, not_true_eq_false, if_false, hfresh]
    refine ⟨_, _, rfl, rfl, ?_⟩
    simp only [if_neg hrows]
    rw [← odcEncode_sized env m { e with cols := e.cols, arr := some a2, width := W2, height := H2, cmWidth := cm2, nrows := _ }]
    congr 2
    rw [List.map_map]
    apply List.map_congr_left
    intro c hc'
    obtain ⟨c1, c2⟩ := hcols c hc'
    simp [c1, c2]

theorem arrayCol_twice (m : Mem) (e : Enc) (base off : Nat) (c : EncArg) (h : c.data ≠ none) :
    arrayCol m e base off c = .error .assertFailed := by
  unfold arrayCol
  rw [if_pos (.inr (.inr (.inl h)))]

/-- **C41**: encoding a second time without giving an array again is refused, and so nothing is written twice. -/
theorem C41_again (env : Env) (m : Mem) (e : Enc) (base fuel : Nat) (bss : List (List Byte)) (harr : e.arr = some base)
    (h : odcEncode env m e fuel = .ok bss) : odcEncode env m e.after fuel = .error .assertFailed := by
  unfold odcEncode at h ⊢
  have hn : e.after.nrows = e.nrows := rfl
  have hl : e.after.limit = e.limit := rfl
  rw [hn, hl]
  by_cases hz : e.nrows = 0 ∨ e.limit = 0
  · rw [if_pos hz] at h; cases h
  · rw [if_neg hz] at h ⊢
    have hsz : (e.after.cols.map (fun c => ({ c with info := sized c.info } : EncArg))).map (fun c => c.info.decodedSize) =
        (e.cols.map (fun c => ({ c with info := sized c.info } : EncArg))).map (fun c => c.info.decodedSize) := by
      simp only [Enc.after, List.map_map]
      apply List.map_congr_left
      intro c _
      simp [sized_sized]
    have key : fillEnc m e.after = .error .assertFailed := by
      unfold fillEnc at h ⊢
      dsimp only at h ⊢
      have hz' : ¬ e.nrows = 0 := fun hh => hz (.inl hh)
      rw [hsz]
      rw [hn, if_neg hz'] at *
      have ha : e.after.arr = some base := harr
      have hh : e.after.height = e.height := rfl
      have hw : e.after.width = e.width := rfl
      rw [harr] at h
      rw [ha, hh, hw]
      dsimp only at h ⊢
      by_cases h1 : e.height < e.nrows
      · rw [if_pos h1] at h; cases h
      · rw [if_neg h1] at h ⊢
        by_cases h2 : e.width < ((e.cols.map (fun c => ({ c with info := sized c.info } : EncArg))).map (fun c => c.info.decodedSize)).sum
        · rw [if_pos h2] at h; cases h
        · rw [if_neg h2] at h ⊢
          cases hcols : e.cols with
          | nil => rw [hcols] at h; simp [arrayCols] at h
          | cons c cs =>
            simp only [Enc.after, hcols, List.map_cons, arrayCols]
            rw [arrayCol_twice _ _ _ _ _ (by simp)]
    rw [key]

/-- **C41 fails** to take over the height of the second array: the row count of the first one stays, so of a second array
with three rows only two are encoded. -/
theorem C41_violated_rows : ∃ e1 e2, (smallEnc Enc.new).setArray 0 24 2 0 = .ok e1 ∧ e1.after.setArray 0 24 3 0 = .ok e2 ∧
    sameOk (odcEncode sampleEnv (memOf [w01234567, w89, 5, wabcdefgh, wij, 6, 0, 0, 7]) e2 10)
      (smallTable.encodeLimit sampleEnv 10000 10) = true := ⟨_, _, rfl, rfl, by decide +kernel⟩

end Verif
