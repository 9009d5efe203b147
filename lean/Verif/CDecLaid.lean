import Verif.CDecSession

/-
The C decoder with any mixture of columns: some with memory of their own, some placed in the array.
-/

namespace Verif

/-- Specification: bytes of an element of a column: as said, or a double for a column with memory, or as the frame reports. -/
def laidBytes (xs : List ColShown) (e : Str × DecCol) : Nat :=
  if e.2.elem ≠ 0 then e.2.elem else if e.2.data ≠ none then 8 else sizeIn (sizesOf xs) e.1

/-- Specification: bytes a column takes in a row of the array. -/
def arrayBytes (xs : List ColShown) (e : Str × DecCol) : Nat := if e.2.data = none then laidBytes xs e else 0

/-- Specification: the width the decoder needs (columns with memory but no size are counted too). -/
def Dec.needs (xs : List ColShown) (d : Dec) : Nat := (d.cols.map (fun e => if e.2.elem = 0 then laidBytes xs e else 0)).sum

/-- Specification: width of the array. -/
def Dec.arrayWidth (xs : List ColShown) (d : Dec) : Nat := if d.ext = none then d.needs xs else d.width

/-- Specification: height of the array. -/
def Dec.arrayHeight (d : Dec) : Nat := if d.ext = none then d.nrows else d.height

/-- Specification: where word `w` of row `r` of column `i` lies: in the column's memory, or in the array behind the columns
before it. -/
def Dec.spot (xs : List ColShown) (alloc : Nat) (d : Dec) (i r w : Nat) : Nat :=
  match d.cols[i]? with
  | none => 0
  | some e =>
    match e.2.data with
    | some p => p + r * (if e.2.stride = 0 then laidBytes xs e else e.2.stride) + 8 * w
    | none => autoAddr d.columnMajor (d.ext.getD alloc) (d.arrayWidth xs) d.arrayHeight d.nrows
        ((d.cols.take i).map (arrayBytes xs)).sum r w

/-- Specification: the columns with the bytes of their elements. -/
def Dec.wants (xs : List ColShown) (d : Dec) : List (Str × Nat) := d.cols.map (fun e => (e.1, laidBytes xs e))

/-- Specification: the decoder can be used on a frame of `rows` rows that reports the columns `xs`. -/
structure Dec.Ready (xs : List ColShown) (rows alloc : Nat) (d : Dec) : Prop where
  few : d.cols.length ≤ xs.length
  room : rows ≤ d.nrows ∧ 0 < d.nrows
  fresh : ∀ e ∈ d.cols, e.2.transpose = false
  /-- columns without memory were not given a size, and the frame has them -/
  auto : ∀ e ∈ d.cols, e.2.data = none → e.2.elem = 0 ∧ 0 < sizeIn (sizesOf xs) e.1 ∧ sizeIn (sizesOf xs) e.1 % 8 = 0
  /-- elements of whole words; a stride, unless there is something to lay out -/
  own : ∀ e ∈ d.cols, e.2.data ≠ none → e.2.elem % 8 = 0 ∧ (e.2.stride ≠ 0 ∨ ∃ e' ∈ d.cols, e'.2.elem = 0)
  /-- an array that was given is large enough -/
  fits : d.ext ≠ none → (∃ e ∈ d.cols, e.2.elem = 0) → d.needs xs ≤ d.width ∧ d.nrows ≤ d.height
  /-- memory of a column overlaps neither that of another column, nor the array, nor itself -/
  apart : ∀ (i j : Nat) (e e' : Str × DecCol) (r w r' w' : Nat), d.cols[i]? = some e → d.cols[j]? = some e' →
    e.2.data ≠ none → r < rows → r' < rows → w < laidBytes xs e / 8 → w' < laidBytes xs e' / 8 → (i, r, w) ≠ (j, r', w') →
    d.spot xs alloc i r w + 8 ≤ d.spot xs alloc j r' w' ∨ d.spot xs alloc j r' w' + 8 ≤ d.spot xs alloc i r w

/-- Specification: `res`, the outcome of `odc_decode`, is that of the C++ decoder for these columns (name and bytes of an
element), each with `n` elements: the same error, or the decoder `d'` and a memory with the decoded words at the places
`at_`, and all else unchanged.  `kept i` says that the C++ decoder works on the memory of column `i` itself. -/
def PutsWords (bytes : List Byte) (fr : List Tbl) (n : Nat) (cols : List (Str × Nat)) (at_ : Nat → Nat → Nat → Nat)
    (kept : Nat → Prop) (m : Mem) (d' : Dec) (res : Except Err (Dec × Mem × Nat)) : Prop :=
  ∃ before : Nat → Nat → Cell,
    (∀ (i : Nat) (nm : Str) (s : Nat), cols[i]? = some (nm, s) → ∀ r, (before i r).length = s / 8 ∧
      (kept i → ∀ w, w < s / 8 → (before i r)[w]? = some (m.word (at_ i r w)))) ∧
    match decodeFrame bytes fr (cols.mapIdx (fun i c => (c.1, ⟨n, c.2 / 8, before i⟩))) with
    | .error e => res = .error e
    | .ok outs => ∃ m', res = .ok (d', m', frameRows fr) ∧
        (∀ (i : Nat) (nm : Str) (s : Nat) (out : Nat → Cell), cols[i]? = some (nm, s) → outs[i]? = some out →
          ∀ r w, r < frameRows fr → w < s / 8 → m'.word (at_ i r w) = (out r).getD w 0) ∧
        ∀ x, (∀ (i : Nat) (nm : Str) (s r w : Nat), cols[i]? = some (nm, s) → r < frameRows fr → w < s / 8 →
          x < at_ i r w ∨ at_ i r w + 8 ≤ x) → m' x = m x

/-! ### Decoding with a decoder that is filled in -/

/-- Proof device: what `fill_in_decoder` leaves can be decoded into. -/
structure Dec.Laid (d' : Dec) (rows : Nat) (cols : List (Str × Nat)) (at_ : Nat → Nat → Nat → Nat) : Prop where
  len : d'.cols.length = cols.length
  col : ∀ (i : Nat) (nm : Str) (s : Nat), cols[i]? = some (nm, s) → ∃ c : DecCol, d'.cols[i]? = some (nm, c) ∧ c.elem = s ∧ 0 < s ∧
    s % 8 = 0 ∧ c.data ≠ none ∧ (c.transpose = true → c.stride = c.elem) ∧ ∀ r w, w < s / 8 → c.addr d'.nrows r w = at_ i r w
  apart : ∀ (i j : Nat) (c c' : Str × Nat) (r w r' w' : Nat), cols[i]? = some c → cols[j]? = some c' → r < rows → r' < rows →
    w < c.2 / 8 → w' < c'.2 / 8 → (i, r, w) ≠ (j, r', w') → at_ i r w + 8 ≤ at_ j r' w' ∨ at_ j r' w' + 8 ≤ at_ i r w

theorem odcDecode_laid (bytes : List Byte) (fr : List Tbl) (xs : List ColShown) (hinfo : frameInfo fr = .ok xs) (alloc : Nat)
    (junk : Nat → Nat → Cell) (d d' : Dec) (m : Mem) (cols : List (Str × Nat)) (at_ : Nat → Nat → Nat → Nat) (hlen : d.cols.length ≤ xs.length)
    (hrows : frameRows fr ≤ d.nrows) (hn : d'.nrows = d.nrows) (hl : d'.Laid (frameRows fr) cols at_)
    (hfill : fillIn alloc (sizesOf xs) (frameRows fr) d = .ok d') :
    PutsWords bytes fr d.nrows cols at_ (fun i => ∀ e, d'.cols[i]? = some e → e.2.transpose = false) m d' (odcDecode bytes fr alloc junk d m) := by
  have hany : ∀ e ∈ d'.cols, ∃ (i : Nat) (s : Nat), d'.cols[i]? = some e ∧ cols[i]? = some (e.1, s) ∧ e.2.elem = s ∧ s % 8 = 0 ∧
      e.2.data ≠ none ∧ (e.2.transpose = true → e.2.stride = e.2.elem) := by
    intro e he
    obtain ⟨i, hi⟩ := List.mem_iff_getElem?.mp he
    have hil := (List.getElem?_eq_some_iff.mp hi).1
    rw [hl.len] at hil
    obtain ⟨c, c1, c2, c3, c4, c5, c6, _⟩ := hl.col i cols[i].1 cols[i].2 (List.getElem?_eq_getElem hil)
    rw [hi] at c1
    cases c1
    exact ⟨i, cols[i].2, hi, List.getElem?_eq_getElem hil, c2, c4, c5, c6⟩
  refine ⟨fun i r => match d'.cols[i]? with | some e => (e.2.target m d.nrows (junk i)).mem r | none => [], ?_, ?_⟩
  · intro i nm s hi r
    obtain ⟨c, c1, c2, c3, c4, c5, c6, c7⟩ := hl.col i nm s hi
    dsimp only
    rw [c1]
    dsimp only [DecCol.target]
    constructor
    · by_cases ht : c.transpose = true
      · rw [if_pos ht]; simp [c2]
      · rw [if_neg ht]; simp [c2]
    · intro hk w hw
      have ht := hk _ rfl
      dsimp only at ht
      rw [if_neg (by simp [ht]), c2, List.getElem?_map, List.getElem?_range (by omega)]
      simp only [Option.map_some]
      rw [← hn, c7 r w hw]
  · have hreq : d'.cols.mapIdx (fun i e => (e.1, e.2.target m d.nrows (junk i))) =
        cols.mapIdx (fun i c => (c.1, ⟨d.nrows, c.2 / 8, fun r =>
          match d'.cols[i]? with | some e => (e.2.target m d.nrows (junk i)).mem r | none => []⟩)) := by
      apply List.ext_getElem?
      intro i
      rw [List.getElem?_mapIdx, List.getElem?_mapIdx]
      cases hi : cols[i]? with
      | none =>
        rw [List.getElem?_eq_none_iff.mpr (by rw [hl.len]; exact List.getElem?_eq_none_iff.mp hi)]
        rfl
      | some p =>
        obtain ⟨nm, s⟩ := p
        obtain ⟨c, c1, c2, _⟩ := hl.col i nm s hi
        rw [c1]
        simp only [Option.map_some, DecCol.target, c2]
    have hrun : odcDecode bytes fr alloc junk d m = (match decodeFrame bytes fr (d'.cols.mapIdx
          (fun i e => (e.1, e.2.target m d.nrows (junk i)))) with
        | .error e => .error e
        | .ok outs => .ok (d', m.puts ((d'.cols.zip outs).flatMap (fun p => p.1.2.writes d.nrows (frameRows fr) p.2)), frameRows fr)) := by
      unfold odcDecode
      rw [hinfo]
      dsimp only
      rw [if_neg (by omega), if_neg (by omega), hfill]
      dsimp only
      rw [if_neg, if_neg, hn]
      · cases decodeFrame bytes fr (d'.cols.mapIdx (fun i e => (e.1, e.2.target m d.nrows (junk i)))) <;> rfl
      · rintro ⟨e, he, hbad⟩
        obtain ⟨i, s, a1, a2, a3, a4, a5, a6⟩ := hany e he
        rcases hbad with hbad | hbad
        · rw [a3] at hbad; exact hbad a4
        · exact a5 hbad
      · rintro ⟨e, he, ht, hbad⟩
        obtain ⟨i, s, a1, a2, a3, a4, a5, a6⟩ := hany e he
        exact hbad ⟨by rw [a3]; exact a4, a6 ht⟩
    rw [hreq] at hrun
    rw [hrun]
    cases hd : decodeFrame bytes fr (cols.mapIdx (fun i c => (c.1, ⟨d.nrows, c.2 / 8, fun r =>
          match d'.cols[i]? with | some e => (e.2.target m d.nrows (junk i)).mem r | none => []⟩))) with
    | error e => rfl
    | ok outs =>
      dsimp only
      let ws := (d'.cols.zip outs).flatMap (fun p => p.1.2.writes d.nrows (frameRows fr) p.2)
      have hws : ∀ p ∈ ws, ∃ (i : Nat) (c : Str × Nat) (out : Nat → Cell) (r w : Nat), cols[i]? = some c ∧ outs[i]? = some out ∧
          r < frameRows fr ∧ w < c.2 / 8 ∧ p = (at_ i r w, (out r).getD w 0) := by
        intro p hp
        simp only [ws, List.mem_flatMap] at hp
        obtain ⟨q, hq, hp⟩ := hp
        obtain ⟨i, hi⟩ := List.mem_iff_getElem?.mp hq
        rw [List.getElem?_zip_eq_some] at hi
        obtain ⟨hi1, hi2⟩ := hi
        have hil := (List.getElem?_eq_some_iff.mp hi1).1
        rw [hl.len] at hil
        obtain ⟨c, c1, c2, c3, c4, c5, c6, c7⟩ := hl.col i cols[i].1 cols[i].2 (List.getElem?_eq_getElem hil)
        rw [hi1] at c1
        have e1 := Option.some.inj c1
        simp only [DecCol.writes, List.mem_flatMap, List.mem_map, List.mem_range] at hp
        obtain ⟨r, hr, w, hw, rfl⟩ := hp
        rw [e1] at hw ⊢
        dsimp only at hw ⊢
        rw [c2] at hw
        refine ⟨i, cols[i], q.2, r, w, List.getElem?_eq_getElem hil, hi2, hr, hw, ?_⟩
        rw [← c7 r w hw, hn]
      refine ⟨m.puts ws, rfl, ?_, ?_⟩
      · intro i nm s out hi ho r w hr hw
        refine Mem.puts_word_of ws m _ _ ?_ ?_
        · obtain ⟨c, c1, c2, c3, c4, c5, c6, c7⟩ := hl.col i nm s hi
          simp only [ws, List.mem_flatMap]
          refine ⟨((nm, c), out), ?_, ?_⟩
          · rw [List.mem_iff_getElem?]
            exact ⟨i, by rw [List.getElem?_zip_eq_some]; exact ⟨c1, ho⟩⟩
          · simp only [DecCol.writes, List.mem_flatMap, List.mem_map, List.mem_range]
            exact ⟨r, hr, w, by rw [c2]; exact hw, by rw [← c7 r w hw, hn]⟩
        · intro p hp
          obtain ⟨j, c', out', r', w', b1, b2, b3, b4, rfl⟩ := hws p hp
          by_cases he : (j, r', w') = (i, r, w)
          · left
            cases he
            rw [ho] at b2
            cases b2
            rfl
          · right
            exact hl.apart j i c' (nm, s) r' w' r w b1 hi b3 hr b4 hw he
      · intro x hx
        apply Mem.puts_outside
        intro p hp
        obtain ⟨j, c', out', r', w', b1, b2, b3, b4, rfl⟩ := hws p hp
        exact hx j c'.1 c'.2 r' w' b1 b3 b4

/-! ### Filling in -/

/-- Proof device: a column with its size. -/
def sizedCol (xs : List ColShown) (e : Str × DecCol) : Str × DecCol := (e.1, ⟨e.2.data, laidBytes xs e, e.2.stride, e.2.transpose⟩)

theorem fillSizes_ready (xs : List ColShown) (cs : List (Str × DecCol))
    (h : ∀ e ∈ cs, e.2.data = none → e.2.elem = 0 ∧ 0 < sizeIn (sizesOf xs) e.1 ∧ sizeIn (sizesOf xs) e.1 % 8 = 0) :
    fillSizes (sizesOf xs) cs = .ok (cs.map (sizedCol xs),
      (cs.map (fun e => if e.2.elem = 0 then laidBytes xs e else 0)).sum) := by
  induction cs with
  | nil => rfl
  | cons e cs ih =>
    obtain ⟨nm, c⟩ := e
    have h1 : fillSize (sizesOf xs) nm c = .ok ({ c with elem := laidBytes xs (nm, c) }, if c.elem = 0 then laidBytes xs (nm, c) else 0) := by
      unfold fillSize laidBytes
      dsimp only
      by_cases he : c.elem = 0
      · rw [if_pos he, if_pos he, if_neg (by simpa using he)]
        cases hd : c.data with
        | some p => simp
        | none =>
          obtain ⟨_, a2, a3⟩ := h (nm, c) (by simp) hd
          dsimp only at a2 a3 ⊢
          unfold sizeIn at a2 a3 ⊢
          cases hf : (sizesOf xs).find? (fun e => decide (e.1 = nm)) with
          | none => rw [hf] at a2; simp at a2
          | some e =>
            rw [hf] at a2 a3
            dsimp only at a2 a3 ⊢
            rw [if_pos ⟨a2, a3⟩]
            simp
      · rw [if_neg he, if_neg he, if_pos (by simpa using he)]
    rw [fillSizes, h1]
    dsimp only
    rw [ih (fun e he => h e (by simp [he]))]
    simp [sizedCol]

theorem autoSum_ready (xs : List ColShown) (cs : List (Str × DecCol)) :
    autoSum (cs.map (sizedCol xs)) = (cs.map (arrayBytes xs)).sum := by
  induction cs with
  | nil => rfl
  | cons e cs ih =>
    rw [List.map_cons, List.map_cons, List.sum_cons, autoSum, ih]
    unfold arrayBytes
    rfl

theorem arrayBytes_le (xs : List ColShown) (cs : List (Str × DecCol)) (h : ∀ e ∈ cs, e.2.data = none → e.2.elem = 0) :
    (cs.map (arrayBytes xs)).sum ≤ (cs.map (fun e => if e.2.elem = 0 then laidBytes xs e else 0)).sum := by
  induction cs with
  | nil => simp
  | cons e cs ih =>
    have := ih (fun e he => h e (by simp [he]))
    have h0 := h e (by simp)
    simp only [List.map_cons, List.sum_cons]
    have : arrayBytes xs e ≤ if e.2.elem = 0 then laidBytes xs e else 0 := by
      unfold arrayBytes
      by_cases hd : e.2.data = none
      · rw [if_pos hd, if_pos (h0 hd)]
      · rw [if_neg hd]; omega
    omega

theorem bytesOf_ok {xs : List ColShown} {rows alloc : Nat} {d : Dec} (h : d.Ready xs rows alloc) (e : Str × DecCol) (he : e ∈ d.cols) :
    0 < laidBytes xs e ∧ laidBytes xs e % 8 = 0 := by
  unfold laidBytes
  by_cases hd : e.2.data = none
  · obtain ⟨a1, a2, a3⟩ := h.auto e he hd
    simp [a1, hd, a2, a3]
  · by_cases h0 : e.2.elem = 0
    · simp [h0, hd]
    · rw [if_pos h0]
      exact ⟨by omega, (h.own e he hd).1⟩

theorem mem_le_sum {l : List Nat} {x : Nat} (h : x ∈ l) : x ≤ l.sum := by
  induction l with
  | nil => simp at h
  | cons a l ih =>
    rw [List.sum_cons]
    rcases List.mem_cons.mp h with rfl | h
    · omega
    · have := ih h; omega

/-- `fill_in_decoder` puts the columns where the specification says. -/
theorem fillIn_ready {xs : List ColShown} {rows alloc : Nat} {d : Dec} (h : d.Ready xs rows alloc) (frows : Nat) :
    ∃ d', fillIn alloc (sizesOf xs) frows d = .ok d' ∧ d'.nrows = d.nrows ∧ d'.ext = d.ext ∧ d'.columnMajor = d.columnMajor ∧
      ((∃ e ∈ d.cols, e.2.elem = 0) → d'.width = d.arrayWidth xs ∧ d'.height = d.arrayHeight) ∧
      d'.Laid rows (d.wants xs) (d.spot xs alloc) ∧
      ∀ (i : Nat) (e e' : Str × DecCol), d.cols[i]? = some e → d'.cols[i]? = some e' →
        (e.2.data ≠ none ∨ d.columnMajor = false ∨ laidBytes xs e = 8) → e'.2.transpose = false := by
  have hn0 : (if d.nrows = 0 then frows else d.nrows) = d.nrows := by have := h.room; split <;> omega
  have hfs := fillSizes_ready xs d.cols h.auto
  -- the columns of the filled decoder
  suffices hcol : ∃ d', fillIn alloc (sizesOf xs) frows d = .ok d' ∧ d'.nrows = d.nrows ∧ d'.ext = d.ext ∧ d'.columnMajor = d.columnMajor ∧
      ((∃ e ∈ d.cols, e.2.elem = 0) → d'.width = d.arrayWidth xs ∧ d'.height = d.arrayHeight) ∧ d'.cols.length = d.cols.length ∧
      ∀ (i : Nat) (e : Str × DecCol), d.cols[i]? = some e → ∃ c : DecCol, d'.cols[i]? = some (e.1, c) ∧ c.elem = laidBytes xs e ∧
        c.data ≠ none ∧ (c.transpose = true → c.stride = c.elem) ∧
        ((e.2.data ≠ none ∨ d.columnMajor = false ∨ laidBytes xs e = 8) → c.transpose = false) ∧
        ∀ r w, w < laidBytes xs e / 8 → c.addr d.nrows r w = d.spot xs alloc i r w by
    obtain ⟨d', f1, f2, f3, f4, f5, f6, f7⟩ := hcol
    refine ⟨d', f1, f2, f3, f4, f5, ⟨by simp [Dec.wants, f6], ?_, ?_⟩, ?_⟩
    · intro i nm s hi
      unfold Dec.wants at hi
      rw [List.getElem?_map, Option.map_eq_some_iff] at hi
      obtain ⟨e, he, hes⟩ := hi
      cases hes
      obtain ⟨c, c1, c2, c3, c4, c5, c6⟩ := f7 i e he
      obtain ⟨b1, b2⟩ := bytesOf_ok h e (List.mem_of_getElem? he)
      exact ⟨c, c1, c2, b1, b2, c3, c4, by rw [f2]; exact c6⟩
    · intro i j c c' r w r' w' hi hj hr hr' hw hw' hne
      unfold Dec.wants at hi hj
      rw [List.getElem?_map, Option.map_eq_some_iff] at hi hj
      obtain ⟨e, he, rfl⟩ := hi
      obtain ⟨e', he', rfl⟩ := hj
      dsimp only at hw hw'
      by_cases hd : e.2.data = none
      · by_cases hd' : e'.2.data = none
        · have hz : ∃ e ∈ d.cols, e.2.elem = 0 := ⟨e, List.mem_of_getElem? he, (h.auto e (List.mem_of_getElem? he) hd).1⟩
          have hwid : ((d.cols.map (arrayBytes xs)).sum ≤ d.arrayWidth xs) ∧ d.nrows ≤ d.arrayHeight := by
            have h1 := arrayBytes_le xs d.cols (fun e he hd => (h.auto e he hd).1)
            unfold Dec.arrayWidth Dec.arrayHeight
            by_cases hx : d.ext = none
            · rw [if_pos hx, if_pos hx]; exact ⟨h1, by omega⟩
            · rw [if_neg hx, if_neg hx]
              obtain ⟨g1, g2⟩ := h.fits hx hz
              unfold Dec.needs at g1
              exact ⟨by omega, g2⟩
          have h8 : ∀ s ∈ d.cols.map (arrayBytes xs), s % 8 = 0 := by
            intro s hs
            rw [List.mem_map] at hs
            obtain ⟨a, ha, rfl⟩ := hs
            unfold arrayBytes
            split
            · exact (bytesOf_ok h a ha).2
            · rfl
          have hs : ∀ (k : Nat) (a : Str × DecCol), d.cols[k]? = some a → a.2.data = none →
              ∀ r w, d.spot xs alloc k r w = autoAddr d.columnMajor (d.ext.getD alloc) (d.arrayWidth xs) d.arrayHeight d.nrows
                ((d.cols.map (arrayBytes xs)).take k).sum r w := by
            intro k a hk ha r w
            unfold Dec.spot
            rw [hk]
            dsimp only
            rw [ha, List.map_take]
          have hsz : ∀ (k : Nat) (a : Str × DecCol), d.cols[k]? = some a → a.2.data = none →
              (d.cols.map (arrayBytes xs))[k]? = some (laidBytes xs a) := by
            intro k a hk ha
            rw [List.getElem?_map, hk, Option.map_some]
            unfold arrayBytes
            rw [if_pos ha]
          rw [hs i e he hd, hs j e' he' hd']
          exact autoAddr_disjoint d.columnMajor _ _ _ d.nrows _ hwid.1 hwid.2 h8 i _ r w j _ r' w' (hsz i e he hd)
            (by have := h.room; omega) hw (hsz j e' he' hd') (by have := h.room; omega) hw' hne
        · exact (h.apart j i e' e r' w' r w he' he hd' hr' hr hw' hw (fun hh => hne hh.symm)).symm
      · exact h.apart i j e e' r w r' w' he he' hd hr hr' hw hw' hne
    · intro i e e' he he' hk
      obtain ⟨c, c1, c2, c3, c4, c5, c6⟩ := f7 i e he
      rw [he'] at c1
      cases c1
      exact c5 hk
  by_cases hz : ∃ e ∈ d.cols, e.2.elem = 0
  · have hneed : d.needs xs ≠ 0 := by
      obtain ⟨e, he, h0⟩ := hz
      have h1 := (bytesOf_ok h e he).1
      have h2 : (if e.2.elem = 0 then laidBytes xs e else 0) ∈ d.cols.map (fun e => if e.2.elem = 0 then laidBytes xs e else 0) :=
        List.mem_map_of_mem (f := fun e : Str × DecCol => if e.2.elem = 0 then laidBytes xs e else 0) he
      have h3 := mem_le_sum h2
      rw [if_pos h0] at h3
      unfold Dec.needs
      omega
    have hpl : ∀ (i : Nat) (e : Str × DecCol), d.cols[i]? = some e → ∃ c : DecCol,
        (place d.columnMajor (d.ext.getD alloc) (d.arrayWidth xs) d.arrayHeight 0
          (d.cols.map (sizedCol xs)))[i]? = some (e.1, c) ∧ c.elem = laidBytes xs e ∧
        c.data ≠ none ∧ (c.transpose = true → c.stride = c.elem) ∧
        ((e.2.data ≠ none ∨ d.columnMajor = false ∨ laidBytes xs e = 8) → c.transpose = false) ∧
        ∀ r w, w < laidBytes xs e / 8 → c.addr d.nrows r w = d.spot xs alloc i r w := by
      intro i e he
      have hf := h.fresh e (List.mem_of_getElem? he)
      obtain ⟨b1, b2⟩ := bytesOf_ok h e (List.mem_of_getElem? he)
      have hp := (place_spec d.columnMajor (d.ext.getD alloc) (d.arrayWidth xs) d.arrayHeight 0
        (d.cols.map (sizedCol xs))).2 i (sizedCol xs e)
        (by rw [List.getElem?_map, he]; rfl)
      have hsc1 : (sizedCol xs e).1 = e.1 := rfl
      have hsc2 : (sizedCol xs e).2 = ⟨e.2.data, laidBytes xs e, e.2.stride, e.2.transpose⟩ := rfl
      rw [hsc1, hsc2] at hp
      dsimp only at hp
      rw [← List.map_take, autoSum_ready] at hp
      cases hd : e.2.data with
      | none =>
        refine ⟨_, hp.1 hd, rfl, by simp, ?_, ?_, ?_⟩
        · intro ht
          dsimp only at ht ⊢
          cases hcm : d.columnMajor with
          | true => simp
          | false => rw [hcm, hf] at ht; simp at ht
        · intro hk
          dsimp only
          rw [if_neg, hf]
          rintro ⟨k1, k2⟩
          rcases hk with hk | hk | hk
          · exact hk rfl
          · rw [hk] at k1; cases k1
          · omega
        · intro r w hw
          unfold DecCol.addr Dec.spot autoAddr
          rw [he]
          dsimp only
          rw [hd, Option.getD_some, Nat.add_zero, hf]
          dsimp only
          cases d.columnMajor with
          | false => simp; omega
          | true =>
            by_cases h8 : 8 < laidBytes xs e
            · simp [h8]
            · have h8' : laidBytes xs e = 8 := by omega
              have hw0 : w = 0 := by omega
              subst hw0
              simp [h8']; omega
      | some p =>
        refine ⟨_, hp.2 (by rw [hd]; simp), rfl, by rw [hd]; simp, ?_, fun _ => by dsimp only; exact hf, ?_⟩
        · intro ht
          dsimp only at ht
          rw [hf] at ht; cases ht
        · intro r w hw
          unfold DecCol.addr Dec.spot
          rw [he]
          dsimp only
          rw [hd, hf]
          simp
    refine ⟨⟨d.nrows, place d.columnMajor (d.ext.getD alloc) (d.arrayWidth xs) d.arrayHeight 0 (d.cols.map (sizedCol xs)),
        d.arrayWidth xs, d.arrayHeight, d.ext, d.columnMajor⟩, ?_, rfl, rfl, rfl, fun _ => ⟨rfl, rfl⟩, by rw [(place_spec _ _ _ _ _ _).1, List.length_map], hpl⟩
    unfold fillIn
    dsimp only
    rw [hfs]
    dsimp only
    rw [hn0, if_pos ⟨hneed, by have := h.room; omega⟩]
    cases hx : d.ext with
    | none =>
      dsimp only
      simp only [Dec.arrayWidth, Dec.arrayHeight, hx, if_true, Option.getD_none]
      rfl
    | some p =>
      have hf := h.fits (by rw [hx]; simp) hz
      dsimp only
      unfold Dec.needs at hf
      rw [if_pos hf]
      simp [Dec.arrayWidth, Dec.arrayHeight, hx]
  · have hall : ∀ e ∈ d.cols, e.2.elem ≠ 0 := fun e he h0 => hz ⟨e, he, h0⟩
    have hsum : (d.cols.map (fun e => if e.2.elem = 0 then laidBytes xs e else 0)).sum = 0 := by
      clear * - hall
      generalize d.cols = cs at hall ⊢
      induction cs with
      | nil => rfl
      | cons e cs ih =>
        rw [List.map_cons, List.sum_cons, if_neg (hall e (by simp)), ih (fun e he => hall e (by simp [he]))]
    have hmap : d.cols.map (sizedCol xs) = d.cols := by
      conv => rhs; rw [← List.map_id d.cols]
      apply List.map_congr_left
      intro e he
      have := hall e he
      simp only [sizedCol, laidBytes, id, ne_eq, this, not_false_eq_true, if_true]
    refine ⟨d, ?_, rfl, rfl, rfl, fun hh => absurd hh hz, rfl, ?_⟩
    · unfold fillIn
      dsimp only
      rw [hfs, hsum, hmap]
      dsimp only
      rw [if_neg (by simp), hn0]
    · intro i e he
      have hem := List.mem_of_getElem? he
      have hf := h.fresh e hem
      have hel := hall e hem
      have hbe : laidBytes xs e = e.2.elem := by unfold laidBytes; rw [if_pos hel]
      have hd : e.2.data ≠ none := fun hd => hel (h.auto e hem hd).1
      have hst : e.2.stride ≠ 0 := by
        rcases (h.own e hem hd).2 with h1 | h1
        · exact h1
        · exact absurd h1 hz
      refine ⟨e.2, he, hbe.symm, hd, (fun ht => by rw [hf] at ht; cases ht), fun _ => hf, ?_⟩
      intro r w hw
      obtain ⟨p, hp⟩ := Option.ne_none_iff_exists'.mp hd
      unfold DecCol.addr Dec.spot
      rw [he]
      dsimp only
      rw [hp, hf, if_neg hst]
      simp

/-- A decoder that is filled in stays as it is. -/
theorem fillIn_laid {d : Dec} {rows : Nat} {cols : List (Str × Nat)} {at_ : Nat → Nat → Nat → Nat} (h : d.Laid rows cols at_)
    (hn : 0 < d.nrows) (alloc : Nat) (info : List (Str × Nat)) (frows : Nat) : fillIn alloc info frows d = .ok d := by
  have hs : ∀ cs : List (Str × DecCol), (∀ e ∈ cs, e.2.elem ≠ 0) → fillSizes info cs = .ok (cs, 0) := by
    intro cs hcs
    induction cs with
    | nil => rfl
    | cons e cs ih =>
      obtain ⟨nm, c⟩ := e
      have h1 : fillSize info nm c = .ok (c, 0) := by
        unfold fillSize
        rw [if_neg (hcs (nm, c) (by simp))]
      rw [fillSizes, h1]
      dsimp only
      rw [ih (fun e he => hcs e (by simp [he]))]
  unfold fillIn
  dsimp only
  rw [hs d.cols ?_]
  · dsimp only
    rw [if_neg (by simp), if_neg (by omega)]
  · intro e he
    obtain ⟨i, hi⟩ := List.mem_iff_getElem?.mp he
    have hil := (List.getElem?_eq_some_iff.mp hi).1
    rw [h.len] at hil
    obtain ⟨c, c1, c2, c3, _⟩ := h.col i cols[i].1 cols[i].2 (List.getElem?_eq_getElem hil)
    rw [hi] at c1
    cases c1
    dsimp only
    omega

end Verif
