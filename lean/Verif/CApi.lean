import Verif.PropSpan

/-
The C decoder: layout of the output array and decoding into it.

Models: src/odc/api/odc.cc l.51-71 (`odc_decoder_t`), l.514-590 (setters), l.630-698 (`fill_in_decoder`), l.701-775
(`odc_decode_threaded`).  Sizes and addresses are natural numbers: the arrays exist in memory, so no sum wraps.
-/

namespace Verif

/-! ### Memory -/

/-- Memory by address. [The caller's arrays of api/odc.cc l.47-91] -/
abbrev Mem := Nat → Byte

/-- The eight bytes at an address as a `double`. -/
def Mem.word (m : Mem) (a : Nat) : Word := wordOfBytes ((List.range 8).map (fun k => m (a + k)))

/-- Write a `double` at an address. -/
def Mem.put (m : Mem) (a : Nat) (w : Word) : Mem :=
  fun x => if a ≤ x ∧ x < a + 8 then (wordBytes w).getD (x - a) 0 else m x

/-- A sequence of writes. -/
def Mem.puts (m : Mem) (ws : List (Nat × Word)) : Mem := ws.foldl (fun m p => m.put p.1 p.2) m

/-! ### `odc_decoder_t` -/

/-- `DecodeColumn`, odc.cc l.49-54. -/
structure DecCol where
  data : Option Nat
  elem : Nat
  stride : Nat
  transpose : Bool
  deriving DecidableEq

/-- `odc_decoder_t`, odc.cc l.47-69.  The owned array is not a member here: `fillIn` takes its address. -/
structure Dec where
  nrows : Nat
  cols : List (Str × DecCol)
  width : Nat
  height : Nat
  ext : Option Nat
  columnMajor : Bool
  deriving DecidableEq

/-- `odc_new_decoder` and `odc_decoder_add_column` for each name, odc.cc l.489-491, 575-582. -/
def Dec.new (names : List Str) : Dec := ⟨0, names.map (fun n => (n, ⟨none, 0, 0, false⟩)), 0, 0, none, false⟩

/-- `odc_decoder_set_row_count`, odc.cc l.522-527. -/
def Dec.setRows (d : Dec) (n : Nat) : Dec := { d with nrows := n }

/-- `odc_decoder_set_column_major`, odc.cc l.515-520. -/
def Dec.setMajor (d : Dec) (b : Bool) : Dec := { d with columnMajor := b }

/-- `odc_decoder_set_data_array`, odc.cc l.537-549. -/
def Dec.setArray (d : Dec) (buffer width height : Nat) (cm : Bool) : Except Err Dec :=
  if 0 < width ∧ 0 < height then
    .ok { d with ext := some buffer, width := width, height := height, columnMajor := cm, nrows := height }
  else .error .assertFailed

/-- `odc_decoder_column_set_data_size`, odc.cc l.592-600. -/
def Dec.setSize (d : Dec) (col size : Nat) : Except Err Dec :=
  match d.cols[col]? with
  | some (n, c) => .ok { d with cols := d.cols.set col (n, { c with elem := size }) }
  | none => .error .assertFailed

/-- `odc_decoder_column_set_data_array`, odc.cc l.602-612. -/
def Dec.setColumn (d : Dec) (col size stride data : Nat) : Except Err Dec :=
  match d.cols[col]? with
  | some (n, c) => .ok { d with cols := d.cols.set col (n, { c with elem := size, stride := stride, data := some data }) }
  | none => .error .assertFailed

/-! ### `fill_in_decoder` -/

/-- Size of one column and what it adds to `width`, odc.cc l.643-657; `info` lists names and sizes of the frame's
columns. -/
def fillSize (info : List (Str × Nat)) (nm : Str) (c : DecCol) : Except Err (DecCol × Nat) :=
  if c.elem = 0 then
    match c.data with
    | some _ => .ok ({ c with elem := 8 }, 8)
    | none =>
      match info.find? (fun e => decide (e.1 = nm)) with
      | none => .error .assertFailed
      | some e => if 0 < e.2 ∧ e.2 % 8 = 0 then .ok ({ c with elem := e.2 }, e.2) else .error .assertFailed
  else .ok (c, 0)

/-- The first loop, odc.cc l.640-658. -/
def fillSizes (info : List (Str × Nat)) : List (Str × DecCol) → Except Err (List (Str × DecCol) × Nat)
  | [] => .ok ([], 0)
  | (nm, c) :: cs =>
    match fillSize info nm c with
    | .error e => .error e
    | .ok (c', w) =>
      match fillSizes info cs with
      | .error e => .error e
      | .ok (cs', ws) => .ok ((nm, c') :: cs', w + ws)

/-- The second loop, odc.cc l.677-696. -/
def place (cm : Bool) (base width height : Nat) : Nat → List (Str × DecCol) → List (Str × DecCol)
  | _, [] => []
  | off, (nm, c) :: cs =>
    match c.data with
    | some _ => (nm, { c with stride := if c.stride = 0 then c.elem else c.stride }) :: place cm base width height off cs
    | none =>
      if cm then
        (nm, { c with data := some (base + off), stride := c.elem, transpose := if 8 < c.elem then true else c.transpose }) ::
          place cm base width height (off + height * c.elem) cs
      else
        (nm, { c with data := some (base + off), stride := width }) :: place cm base width height (off + c.elem) cs

/-- `fill_in_decoder`, odc.cc l.630-698; `alloc` is what `new char[width * height]` returns. -/
def fillIn (alloc : Nat) (info : List (Str × Nat)) (frameRows : Nat) (d : Dec) : Except Err Dec :=
  let nrows := if d.nrows = 0 then frameRows else d.nrows
  match fillSizes info d.cols with
  | .error e => .error e
  | .ok (cs, width) =>
    if width ≠ 0 ∧ nrows ≠ 0 then
      match d.ext with
      | some p =>
        if width ≤ d.width ∧ nrows ≤ d.height then
          .ok { d with nrows := nrows, cols := place d.columnMajor p d.width d.height 0 cs }
        else .error .assertFailed
      | none =>
        .ok { d with nrows := nrows, cols := place d.columnMajor alloc width nrows 0 cs, width := width, height := nrows }
    else .ok { d with nrows := nrows, cols := cs }

/-! ### `odc_decode_threaded` -/

/-- Where word `w` of the element of row `r` ends up: odc.cc l.752-763 for transposed columns, otherwise the decoder
writes through `StridedData`. -/
def DecCol.addr (c : DecCol) (nrows r w : Nat) : Nat :=
  if c.transpose then c.data.getD 0 + 8 * (r + w * nrows) else c.data.getD 0 + r * c.stride + 8 * w

/-- `StridedData` over the column, odc.cc l.728-741: its memory, or (for a transposed column) fresh memory with arbitrary
content `junk`. -/
def DecCol.target (c : DecCol) (m : Mem) (nrows : Nat) (junk : Nat → Cell) : Target :=
  ⟨nrows, c.elem / 8, fun r =>
    if c.transpose then (List.range (c.elem / 8)).map (fun w => (junk r).getD w 0)
    else (List.range (c.elem / 8)).map (fun w => m.word (c.addr nrows r w))⟩

/-- The words of a column and where they go. [api/odc.cc l.728-763] -/
def DecCol.writes (c : DecCol) (nrows rows : Nat) (out : Nat → Cell) : List (Nat × Word) :=
  (List.range rows).flatMap (fun r => (List.range (c.elem / 8)).map (fun w => (c.addr nrows r w, (out r).getD w 0)))

/-- Name and size of the columns of a frame. [api/odc.cc l.640-657] -/
def sizesOf (xs : List ColShown) : List (Str × Nat) := xs.map (fun x => (x.name, x.bytes))

/-- `odc_decode_threaded`, odc.cc l.701-771, on a frame just read, for any number of threads (see C15): the decoder, the
memory and the number of rows.  The data is written column by column here; the order is not observable as long as columns
do not overlap.  Elements that are not a number of doubles, and columns without memory, are not modelled: they give
undefined behaviour. -/
def odcDecode (bytes : List Byte) (fr : List Tbl) (alloc : Nat) (junk : Nat → Nat → Cell) (d : Dec) (m : Mem) :
    Except Err (Dec × Mem × Nat) :=
  match frameInfo fr with
  | .error e => .error e
  | .ok xs =>
    if xs.length < d.cols.length then .error .assertFailed
    else if d.nrows < frameRows fr then .error .assertFailed
    else
      match fillIn alloc (sizesOf xs) (frameRows fr) d with
      | .error e => .error e
      | .ok d' =>
        if ∃ e ∈ d'.cols, e.2.transpose = true ∧ ¬ (e.2.elem % 8 = 0 ∧ e.2.stride = e.2.elem) then .error .assertFailed
        else if ∃ e ∈ d'.cols, e.2.elem % 8 ≠ 0 ∨ e.2.data = none then .error .ub
        else
          match decodeFrame bytes fr (d'.cols.mapIdx (fun i e => (e.1, e.2.target m d'.nrows (junk i)))) with
          | .error e => .error e
          | .ok outs =>
            .ok (d', m.puts ((d'.cols.zip outs).flatMap (fun p => p.1.2.writes d'.nrows (frameRows fr) p.2)), frameRows fr)

/-! ### Writes -/

theorem Mem.word_put (m : Mem) (a : Nat) (w : Word) : (m.put a w).word a = w := by
  unfold Mem.word Mem.put
  have : ((List.range 8).map (fun k => if a ≤ a + k ∧ a + k < a + 8 then (wordBytes w).getD (a + k - a) 0 else m (a + k))) =
      wordBytes w := by
    apply List.ext_getElem (by simp)
    intro i h1 h2
    simp only [List.length_map, List.length_range] at h1
    simp only [List.getElem_map, List.getElem_range]
    rw [if_pos (by omega), show a + i - a = i by omega, List.getD_eq_getElem?_getD, List.getElem?_eq_getElem h2]
    rfl
  rw [this, wordOfBytes_wordBytes]

theorem Mem.word_put_ne (m : Mem) (a b : Nat) (w : Word) (h : a + 8 ≤ b ∨ b + 8 ≤ a) : (m.put a w).word b = m.word b := by
  unfold Mem.word Mem.put
  congr 1
  apply List.map_congr_left
  intro k hk
  have : k < 8 := by simpa using hk
  rw [if_neg (by omega)]

theorem Mem.puts_word_ne (ws : List (Nat × Word)) (m : Mem) (b : Nat) (h : ∀ p ∈ ws, p.1 + 8 ≤ b ∨ b + 8 ≤ p.1) :
    (m.puts ws).word b = m.word b := by
  induction ws generalizing m with
  | nil => rfl
  | cons p ws ih =>
    have := ih (m.put p.1 p.2) (fun q hq => h q (by simp [hq]))
    unfold Mem.puts at this ⊢
    rw [List.foldl_cons, this, Mem.word_put_ne _ _ _ _ (h p (by simp))]

theorem Mem.puts_outside (ws : List (Nat × Word)) (m : Mem) (x : Nat) (h : ∀ p ∈ ws, x < p.1 ∨ p.1 + 8 ≤ x) :
    (m.puts ws) x = m x := by
  induction ws generalizing m with
  | nil => rfl
  | cons p ws ih =>
    have := ih (m.put p.1 p.2) (fun q hq => h q (by simp [hq]))
    unfold Mem.puts at this ⊢
    rw [List.foldl_cons, this]
    unfold Mem.put
    have := h p (by simp)
    rw [if_neg (by omega)]

/-- Writes that do not overlap can all be read back. -/
theorem Mem.puts_word (ws : List (Nat × Word)) (hd : ws.Pairwise (fun p q => p.1 + 8 ≤ q.1 ∨ q.1 + 8 ≤ p.1)) (m : Mem)
    (p : Nat × Word) (hp : p ∈ ws) : (m.puts ws).word p.1 = p.2 := by
  induction ws generalizing m with
  | nil => simp at hp
  | cons q ws ih =>
    rw [List.pairwise_cons] at hd
    rcases List.mem_cons.mp hp with rfl | hp
    · have := Mem.puts_word_ne ws (m.put p.1 p.2) p.1 (fun q hq => by have := hd.1 q hq; omega)
      unfold Mem.puts at this ⊢
      rw [List.foldl_cons, this, Mem.word_put]
    · exact ih hd.2 _ hp

/-! ### Layout -/

/-- Bytes per row of the columns the decoder lays out itself. -/
def autoSum : List (Str × DecCol) → Nat
  | [] => 0
  | e :: cs => (if e.2.data = none then e.2.elem else 0) + autoSum cs

theorem autoSum_append (a b : List (Str × DecCol)) : autoSum (a ++ b) = autoSum a + autoSum b := by
  induction a with
  | nil => simp [autoSum]
  | cons e a ih => simp only [List.cons_append, autoSum, ih]; omega

theorem autoSum_take_le (cs : List (Str × DecCol)) (i : Nat) : autoSum (cs.take i) ≤ autoSum cs := by
  have := autoSum_append (cs.take i) (cs.drop i)
  rw [List.take_append_drop] at this
  omega

theorem autoSum_next (cs : List (Str × DecCol)) (i : Nat) (e : Str × DecCol) (h : cs[i]? = some e) (hd : e.2.data = none) :
    autoSum (cs.take (i + 1)) = autoSum (cs.take i) + e.2.elem := by
  have hl := (List.getElem?_eq_some_iff.mp h)
  obtain ⟨hl, he⟩ := hl
  rw [List.take_succ_eq_append_getElem hl, autoSum_append, he]
  simp [autoSum, hd]

theorem autoSum_before (cs : List (Str × DecCol)) (i j : Nat) (e : Str × DecCol) (h : cs[i]? = some e) (hd : e.2.data = none)
    (hij : i < j) : autoSum (cs.take i) + e.2.elem ≤ autoSum (cs.take j) := by
  rw [← autoSum_next cs i e h hd]
  have := autoSum_take_le (cs.take j) (i + 1)
  rw [List.take_take, Nat.min_eq_left (by omega)] at this
  exact this

theorem fillSizes_spec (info : List (Str × Nat)) (cs cs' : List (Str × DecCol)) (w : Nat)
    (h : fillSizes info cs = .ok (cs', w)) (hauto : ∀ e ∈ cs, e.2.data = none → e.2.elem = 0) :
    cs'.length = cs.length ∧ autoSum cs' ≤ w ∧ ∀ (i : Nat) (e : Str × DecCol), cs[i]? = some e →
      ∃ e', cs'[i]? = some e' ∧ e'.1 = e.1 ∧ e'.2.data = e.2.data ∧ e'.2.transpose = e.2.transpose ∧ e'.2.stride = e.2.stride ∧
        (e.2.data = none → ∃ x, info.find? (fun y => decide (y.1 = e.1)) = some x ∧ e'.2.elem = x.2 ∧ 0 < x.2 ∧ x.2 % 8 = 0) ∧
        (e.2.data ≠ none → e'.2.elem = if e.2.elem = 0 then 8 else e.2.elem) := by
  induction cs generalizing cs' w with
  | nil =>
    simp only [fillSizes, Except.ok.injEq, Prod.mk.injEq] at h
    obtain ⟨rfl, rfl⟩ := h
    simp [autoSum]
  | cons a cs ih =>
    obtain ⟨nm, c⟩ := a
    unfold fillSizes at h
    cases h1 : fillSize info nm c with
    | error e => rw [h1] at h; cases h
    | ok x =>
      obtain ⟨c', w1⟩ := x
      rw [h1] at h
      dsimp only at h
      cases h2 : fillSizes info cs with
      | error e => rw [h2] at h; cases h
      | ok y =>
        obtain ⟨cs2, w2⟩ := y
        rw [h2] at h
        simp only [Except.ok.injEq, Prod.mk.injEq] at h
        obtain ⟨rfl, rfl⟩ := h
        obtain ⟨i1, i2, i3⟩ := ih cs2 w2 h2 (fun e he => hauto e (by simp [he]))
        have key : c'.data = c.data ∧ c'.transpose = c.transpose ∧ c'.stride = c.stride ∧
            (c.data = none → ∃ x, info.find? (fun y => decide (y.1 = nm)) = some x ∧ c'.elem = x.2 ∧ 0 < x.2 ∧ x.2 % 8 = 0 ∧
              w1 = x.2) ∧ (c.data ≠ none → c'.elem = if c.elem = 0 then 8 else c.elem) := by
          unfold fillSize at h1
          by_cases he : c.elem = 0
          · rw [if_pos he] at h1
            cases hd : c.data with
            | some d =>
              rw [hd] at h1
              simp only [Except.ok.injEq, Prod.mk.injEq] at h1
              obtain ⟨rfl, rfl⟩ := h1
              simp [he, hd]
            | none =>
              rw [hd] at h1
              dsimp only at h1
              cases hf : info.find? (fun e => decide (e.1 = nm)) with
              | none => rw [hf] at h1; cases h1
              | some e =>
                rw [hf] at h1
                dsimp only at h1
                by_cases hz : 0 < e.2 ∧ e.2 % 8 = 0
                · rw [if_pos hz] at h1
                  simp only [Except.ok.injEq, Prod.mk.injEq] at h1
                  obtain ⟨rfl, rfl⟩ := h1
                  exact ⟨rfl, rfl, rfl, fun _ => ⟨e, rfl, rfl, hz.1, hz.2, rfl⟩, fun h => absurd rfl h⟩
                · rw [if_neg hz] at h1; cases h1
          · rw [if_neg he] at h1
            simp only [Except.ok.injEq, Prod.mk.injEq] at h1
            obtain ⟨rfl, rfl⟩ := h1
            exact ⟨rfl, rfl, rfl, fun hd => absurd (hauto (nm, c) (by simp) hd) he, fun _ => by rw [if_neg he]⟩
        obtain ⟨k1, k2, k3, k4, k5⟩ := key
        refine ⟨by simp [i1], ?_, ?_⟩
        · simp only [autoSum]
          cases hd : c.data with
          | none =>
            obtain ⟨x, _, x2, _, _, x5⟩ := k4 hd
            rw [k1, hd, if_pos rfl]
            omega
          | some d =>
            rw [k1, hd, if_neg (by simp)]
            omega
        · intro i e hi
          cases i with
          | zero =>
            simp only [List.getElem?_cons_zero, Option.some.injEq] at hi
            subst hi
            refine ⟨(nm, c'), rfl, rfl, k1, k2, k3, ?_, k5⟩
            intro hd
            obtain ⟨x, x1, x2, x3, x4, _⟩ := k4 hd
            exact ⟨x, x1, x2, x3, x4⟩
          | succ i => simpa using i3 i e (by simpa using hi)

theorem place_spec (cm : Bool) (base W H off : Nat) (cs : List (Str × DecCol)) :
    (place cm base W H off cs).length = cs.length ∧ ∀ (i : Nat) (e : Str × DecCol), cs[i]? = some e →
      (e.2.data = none → (place cm base W H off cs)[i]? = some (e.1, ⟨some (base + off + (if cm then H else 1) * autoSum (cs.take i)),
        e.2.elem, if cm then e.2.elem else W, if cm ∧ 8 < e.2.elem then true else e.2.transpose⟩)) ∧
      (e.2.data ≠ none → (place cm base W H off cs)[i]? =
        some (e.1, { e.2 with stride := if e.2.stride = 0 then e.2.elem else e.2.stride })) := by
  induction cs generalizing off with
  | nil => simp [place]
  | cons a cs ih =>
    obtain ⟨nm, c⟩ := a
    unfold place
    cases hd : c.data with
    | some d =>
      dsimp only
      refine ⟨by simp [(ih off).1], ?_⟩
      intro i e hi
      cases i with
      | zero =>
        simp only [List.getElem?_cons_zero, Option.some.injEq] at hi
        subst hi
        refine ⟨fun h => ?_, fun _ => ?_⟩
        · dsimp only at h; rw [hd] at h; cases h
        · simp [hd]
      | succ i =>
        have := (ih off).2 i e (by simpa using hi)
        simpa [autoSum, hd] using this
    | none =>
      cases cm with
      | true =>
        dsimp only
        rw [if_pos rfl]
        refine ⟨by simp [(ih _).1], ?_⟩
        intro i e hi
        cases i with
        | zero =>
          simp only [List.getElem?_cons_zero, Option.some.injEq] at hi
          subst hi
          exact ⟨fun _ => by simp [autoSum], fun h => absurd hd h⟩
        | succ i =>
          have := (ih (off + H * c.elem)).2 i e (by simpa using hi)
          simp only [if_true, List.getElem?_cons_succ, List.take_succ_cons, autoSum, hd] at this ⊢
          rw [Nat.mul_add]
          rw [show base + off + (H * c.elem + H * autoSum (List.take i cs)) =
            base + (off + H * c.elem) + H * autoSum (List.take i cs) by omega]
          exact this
      | false =>
        dsimp only
        rw [if_neg (by decide)]
        refine ⟨by simp [(ih _).1], ?_⟩
        intro i e hi
        cases i with
        | zero =>
          simp only [List.getElem?_cons_zero, Option.some.injEq] at hi
          subst hi
          exact ⟨fun _ => by simp [autoSum], fun h => absurd hd h⟩
        | succ i =>
          have := (ih (off + c.elem)).2 i e (by simpa using hi)
          simp only [Bool.false_eq_true, if_false, List.getElem?_cons_succ, List.take_succ_cons, autoSum, hd, if_true,
            Nat.one_mul, false_and] at this ⊢
          rw [show base + off + (c.elem + autoSum (List.take i cs)) = base + (off + c.elem) + autoSum (List.take i cs) by omega]
          exact this

/-- No column is given a size without memory. -/
def Dec.Plain (d : Dec) : Prop := ∀ e ∈ d.cols, e.2.data = none → e.2.elem = 0 ∧ e.2.transpose = false

/-- Where the columns without memory are put. -/
structure Placed (base : Nat) (info : List (Str × Nat)) (d d' : Dec) : Prop where
  cm : d'.columnMajor = d.columnMajor
  len : d'.cols.length = d.cols.length
  rows : d'.nrows ≤ d'.height
  offs : ∃ S : Nat → Nat, ∀ (i : Nat) (e : Str × DecCol), d.cols[i]? = some e → e.2.data = none → ∃ x c',
    info.find? (fun y => decide (y.1 = e.1)) = some x ∧ 0 < x.2 ∧ x.2 % 8 = 0 ∧ d'.cols[i]? = some (e.1, c') ∧ c'.elem = x.2 ∧
    S i + x.2 ≤ d'.width ∧ (∀ (j : Nat) (e' : Str × DecCol), d.cols[j]? = some e' → e'.2.data = none → i < j → S i + x.2 ≤ S j) ∧
    c'.data = some (base + (if d.columnMajor then d'.height else 1) * S i) ∧
    c'.stride = (if d.columnMajor then x.2 else d'.width) ∧ c'.transpose = (if d.columnMajor ∧ 8 < x.2 then true else false)

theorem fillIn_placed (alloc : Nat) (info : List (Str × Nat)) (rows : Nat) (d d' : Dec) (hp : d.Plain)
    (hne : ∃ e ∈ d.cols, e.2.data = none) (hr : 0 < d'.nrows) (h : fillIn alloc info rows d = .ok d') :
    Placed (d.ext.getD alloc) info d d' ∧ d'.nrows = (if d.nrows = 0 then rows else d.nrows) := by
  unfold fillIn at h
  dsimp only at h
  generalize hn : (if d.nrows = 0 then rows else d.nrows) = n at *
  cases h1 : fillSizes info d.cols with
  | error e => rw [h1] at h; cases h
  | ok x =>
    obtain ⟨cs, w⟩ := x
    rw [h1] at h
    dsimp only at h
    obtain ⟨s1, s2, s3⟩ := fillSizes_spec info d.cols cs w h1 (fun e he hd => (hp e he hd).1)
    have hw : 0 < w := by
      obtain ⟨e, he, hd⟩ := hne
      obtain ⟨i, hi⟩ := List.mem_iff_getElem?.mp he
      obtain ⟨e', a1, a2, a3, _, _, a4, _⟩ := s3 i e hi
      obtain ⟨x, _, b1, b2, _⟩ := a4 hd
      have := autoSum_next cs i e' a1 (by rw [a3, hd])
      have := autoSum_take_le cs (i + 1)
      omega
    have key : ∀ base W H, autoSum cs ≤ W → n ≤ H →
        Placed base info d { d with nrows := n, cols := place d.columnMajor base W H 0 cs, width := W, height := H } := by
      intro base W H hW hH
      obtain ⟨p1, p2⟩ := place_spec d.columnMajor base W H 0 cs
      refine ⟨rfl, by simp [p1, s1], hH, fun i => autoSum (cs.take i), ?_⟩
      intro i e hi hd
      obtain ⟨e', a1, a2, a3, a5, _, a4, _⟩ := s3 i e hi
      obtain ⟨x, x1, x2, x3, x4⟩ := a4 hd
      have hd' : e'.2.data = none := by rw [a3, hd]
      have hpl := (p2 i e' a1).1 hd'
      have htr := (hp e (List.mem_of_getElem? hi) hd).2
      rw [a2] at hpl
      refine ⟨x, ⟨_, _, _, _⟩, x1, x3, x4, hpl, x2, ?_, ?_, by simp, by simp [x2], ?_⟩
      · have := autoSum_next cs i e' a1 hd'
        have := autoSum_take_le cs (i + 1)
        simp only
        omega
      · intro j e2 hj hd2 hij
        have := autoSum_before cs i j e' a1 hd' hij
        simp only
        omega
      · simp only [x2, a5, htr]
    by_cases hc : w ≠ 0 ∧ n ≠ 0
    · rw [if_pos hc] at h
      cases hext : d.ext with
      | some p =>
        rw [hext] at h
        dsimp only at h
        by_cases hle : w ≤ d.width ∧ n ≤ d.height
        · rw [if_pos hle] at h
          cases h
          have hk := key p d.width d.height (by omega) hle.2
          rw [hext] at hk
          exact ⟨hk, rfl⟩
        · rw [if_neg hle] at h; cases h
      | none =>
        rw [hext] at h
        cases h
        have hk := key alloc w n s2 (Nat.le_refl _)
        rw [hext] at hk
        exact ⟨hk, rfl⟩
    · rw [if_neg hc] at h
      cases h
      exact absurd ⟨by omega, by dsimp only at hr; omega⟩ hc

/-- The words of the columns without memory lie in the array and do not overlap. -/
theorem placed_disjoint {base : Nat} {info : List (Str × Nat)} {d d' : Dec} (h : Placed base info d d') :
    (∀ (i : Nat) (e : Str × DecCol) (e' : Str × DecCol), d.cols[i]? = some e → e.2.data = none → d'.cols[i]? = some e' →
      ∀ r w, r < d'.nrows → w < e'.2.elem / 8 →
        base ≤ e'.2.addr d'.nrows r w ∧ e'.2.addr d'.nrows r w + 8 ≤ base + d'.width * d'.height) ∧
    ∀ (i j : Nat) (e f e' f' : Str × DecCol), d.cols[i]? = some e → e.2.data = none → d'.cols[i]? = some e' →
      d.cols[j]? = some f → f.2.data = none → d'.cols[j]? = some f' →
      ∀ r w r' w', r < d'.nrows → w < e'.2.elem / 8 → r' < d'.nrows → w' < f'.2.elem / 8 → (i, r, w) ≠ (j, r', w') →
        e'.2.addr d'.nrows r w + 8 ≤ f'.2.addr d'.nrows r' w' ∨ f'.2.addr d'.nrows r' w' + 8 ≤ e'.2.addr d'.nrows r w := by
  obtain ⟨hcm, hlen, hrows, S, hS⟩ := h
  -- the address in closed form
  have haddr : ∀ (i : Nat) (e e' : Str × DecCol), d.cols[i]? = some e → e.2.data = none → d'.cols[i]? = some e' →
      S i + e'.2.elem ≤ d'.width ∧ e'.2.elem % 8 = 0 ∧
      (∀ (j : Nat) (f : Str × DecCol), d.cols[j]? = some f → f.2.data = none → i < j → S i + e'.2.elem ≤ S j) ∧
      ∀ r w, w < e'.2.elem / 8 → e'.2.addr d'.nrows r w = base +
        (if d.columnMajor then d'.height * S i + 8 * (r + w * d'.nrows) else S i + r * d'.width + 8 * w) := by
    intro i e e' h1 h2 h3
    obtain ⟨x, c', x1, x2, x3, x4, x5, x6, x7, x8, x9, x10⟩ := hS i e h1 h2
    rw [x4] at h3
    cases h3
    refine ⟨by simp only [x5]; exact x6, by simp only [x5]; exact x3, by intro j f a b c; simp only [x5]; exact x7 j f a b c, ?_⟩
    intro r w hw
    simp only [x5] at hw
    simp only [DecCol.addr, x8, x9, x10, Option.getD_some]
    cases d.columnMajor with
    | false => simp; omega
    | true =>
      by_cases h8 : 8 < x.2
      · simp [h8]; omega
      · have : x.2 = 8 := by omega
        have hw0 : w = 0 := by omega
        subst hw0
        simp [this]; omega
  have hin : ∀ (i : Nat) (e e' : Str × DecCol), d.cols[i]? = some e → e.2.data = none → d'.cols[i]? = some e' →
      ∀ r w, r < d'.nrows → w < e'.2.elem / 8 →
        (if d.columnMajor then d'.height * S i + 8 * (r + w * d'.nrows) else S i + r * d'.width + 8 * w) + 8 ≤
          (if d.columnMajor then d'.height * (S i + e'.2.elem) else (r + 1) * d'.width) ∧
        (if d.columnMajor then d'.height * (S i + e'.2.elem) else (r + 1) * d'.width) ≤ d'.width * d'.height := by
    intro i e e' h1 h2 h3 r w hr hw
    obtain ⟨a1, a2, a3, a4⟩ := haddr i e e' h1 h2 h3
    cases d.columnMajor with
    | false =>
      simp only [Bool.false_eq_true, if_false]
      constructor
      · rw [Nat.add_mul]; omega
      · rw [Nat.mul_comm]; exact Nat.mul_le_mul_left _ (by omega)
    | true =>
      simp only [if_true]
      constructor
      · rw [Nat.mul_add d'.height]
        have h1 : (w + 1) * d'.nrows ≤ e'.2.elem / 8 * d'.nrows := Nat.mul_le_mul_right _ (by omega)
        rw [Nat.add_mul, Nat.one_mul] at h1
        have h2 : e'.2.elem / 8 * d'.nrows ≤ e'.2.elem / 8 * d'.height := Nat.mul_le_mul_left _ hrows
        have h3 : d'.height * e'.2.elem = 8 * (e'.2.elem / 8 * d'.height) := by
          have he : e'.2.elem = 8 * (e'.2.elem / 8) := by omega
          rw [show d'.height * e'.2.elem = d'.height * (8 * (e'.2.elem / 8)) by rw [← he]]
          rw [Nat.mul_left_comm, Nat.mul_comm (e'.2.elem / 8)]
        omega
      · rw [Nat.mul_comm]; exact Nat.mul_le_mul_right _ a1
  refine ⟨?_, ?_⟩
  · intro i e e' h1 h2 h3 r w hr hw
    obtain ⟨a1, a2, a3, a4⟩ := haddr i e e' h1 h2 h3
    obtain ⟨b1, b2⟩ := hin i e e' h1 h2 h3 r w hr hw
    rw [a4 r w hw]
    omega
  · intro i j e f e' f' h1 h2 h3 g1 g2 g3 r w r' w' hr hw hr' hw' hne
    obtain ⟨a1, a2, a3, a4⟩ := haddr i e e' h1 h2 h3
    obtain ⟨b1, b2, b3, b4⟩ := haddr j f f' g1 g2 g3
    rw [a4 r w hw, b4 r' w' hw']
    obtain ⟨i1, _⟩ := hin i e e' h1 h2 h3 r w hr hw
    obtain ⟨i2, _⟩ := hin j f f' g1 g2 g3 r' w' hr' hw'
    cases hc : d.columnMajor with
    | false =>
      rw [hc] at i1 i2
      simp only [Bool.false_eq_true, if_false] at i1 i2 ⊢
      rcases Nat.lt_trichotomy r r' with hl | hl | hl
      · left
        have : (r + 1) * d'.width ≤ r' * d'.width := Nat.mul_le_mul_right _ (by omega)
        omega
      · subst hl
        rcases Nat.lt_trichotomy i j with hij | hij | hij
        · left; have := a3 j f g1 g2 hij; omega
        · subst hij
          have : w ≠ w' := fun h => hne (by rw [h])
          omega
        · right; have := b3 i e h1 h2 hij; omega
      · right
        have : (r' + 1) * d'.width ≤ r * d'.width := Nat.mul_le_mul_right _ (by omega)
        omega
    | true =>
      rw [hc] at i1 i2
      simp only [if_true] at i1 i2 ⊢
      rcases Nat.lt_trichotomy i j with hij | hij | hij
      · left
        have : d'.height * (S i + e'.2.elem) ≤ d'.height * S j := Nat.mul_le_mul_left _ (a3 j f g1 g2 hij)
        omega
      · subst hij
        by_cases hww : w = w'
        · subst hww
          have : r ≠ r' := fun h => hne (by rw [h])
          omega
        · rcases Nat.lt_or_gt_of_ne hww with hl | hl
          · have : (w + 1) * d'.nrows ≤ w' * d'.nrows := Nat.mul_le_mul_right _ (by omega)
            rw [Nat.add_mul, Nat.one_mul] at this
            omega
          · have : (w' + 1) * d'.nrows ≤ w * d'.nrows := Nat.mul_le_mul_right _ (by omega)
            rw [Nat.add_mul, Nat.one_mul] at this
            omega
      · right
        have : d'.height * (S j + f'.2.elem) ≤ d'.height * S i := Nat.mul_le_mul_left _ (b3 i e h1 h2 hij)
        omega

end Verif
