import Verif.CDecOwn

/-
Setting up a C decoder: any sequence of calls of `odc_decoder_*`, in any order, with calls that are refused among them.

Models: src/odc/api/odc.cc l.489-628 (the calls; `wrapApiFunction`, l.129-160, turns an exception into a code and leaves the
decoder as it was when the exception was raised).
-/

namespace Verif

/-- The calls that set up a decoder, odc.cc l.497-612.  Columns and the dimensions of the array are `int` and `long`; row
counts, element sizes and strides are taken to be non-negative.  `none` is a null pointer. -/
inductive DecCall where
  /-- `odc_decoder_defaults_from_frame`, odc.cc l.497-513 -/
  | defaults (fr : List Tbl)
  /-- `odc_decoder_set_column_major`, odc.cc l.515-520 -/
  | columnMajor (b : Bool)
  /-- `odc_decoder_set_row_count`, odc.cc l.522-527 -/
  | rowCount (n : Nat)
  /-- `odc_decoder_set_data_array`, odc.cc l.537-549 -/
  | dataArray (buffer : Option Nat) (width height : Int) (cm : Bool)
  /-- `odc_decoder_add_column`, odc.cc l.575-582 -/
  | addColumn (name : Str)
  /-- `odc_decoder_column_set_data_size`, odc.cc l.592-600 -/
  | dataSize (col : Int) (elem : Nat)
  /-- `odc_decoder_column_set_data_array`, odc.cc l.602-612 -/
  | columnData (col : Int) (elem stride : Nat) (data : Option Nat)

/-- `odc_decoder_add_column`, odc.cc l.575-582. -/
def Dec.addColumn (d : Dec) (name : Str) : Dec := { d with cols := d.cols ++ [(name, ⟨none, 0, 0, false⟩)] }

/-- `ASSERT(col >= 0 && size_t(col) < decoder->columnData.size())`, odc.cc l.595, 605. -/
def Dec.column (d : Dec) (col : Int) : Option (Str × DecCol) := if col < 0 then none else d.cols[col.toNat]?

/-- One call, odc.cc l.497-612: the decoder afterwards, and whether it was accepted.  `defaults_from_frame` has set the row
count when listing the frame's columns fails (l.505). -/
def Dec.call (d : Dec) : DecCall → Dec × Bool
  | .defaults fr =>
    match frameInfo fr with
    | .error _ => ({ d with nrows := frameRows fr }, false)
    | .ok xs => (xs.foldl (fun d x => d.addColumn x.name) { d with nrows := frameRows fr }, true)
  | .columnMajor b => (d.setMajor b, true)
  | .rowCount n => (d.setRows n, true)
  | .dataArray buffer width height cm =>
    match buffer with
    | none => (d, false)
    | some p =>
      if 0 < width ∧ 0 < height then
        ({ d with ext := some p, width := width.toNat, height := height.toNat, columnMajor := cm, nrows := height.toNat }, true)
      else (d, false)
  | .addColumn name => (d.addColumn name, true)
  | .dataSize col elem =>
    match d.column col with
    | none => (d, false)
    | some (n, c) => ({ d with cols := d.cols.set col.toNat (n, { c with elem := elem }) }, true)
  | .columnData col elem stride data =>
    match d.column col with
    | none => (d, false)
    | some (n, c) => ({ d with cols := d.cols.set col.toNat (n, { c with elem := elem, stride := stride, data := data }) }, true)

/-- A sequence of calls, whatever each of them reports: the decoder, and the calls with what they reported.
[odc.cc l.129-160, 497-612] -/
def Dec.calls (d : Dec) : List DecCall → Dec × List (DecCall × Bool)
  | [] => (d, [])
  | c :: cs => (((d.call c).1.calls cs).1, (c, (d.call c).2) :: ((d.call c).1.calls cs).2)

/-! ### Specification: what a list of calls says -/

/-- Specification: the calls as made, with whether they were accepted. -/
abbrev Log := List (DecCall × Bool)

/-- Specification: the last of the calls that says something about `f`. -/
def Log.last {α : Type} (f : DecCall × Bool → Option α) (cs : Log) : Option α := (cs.filterMap f).getLast?

/-- Specification: number of rows: given, or the height of an array, or that of the frame the defaults are taken from. -/
def saysRows : DecCall × Bool → Option Nat
  | (.rowCount n, _) => some n
  | (.dataArray _ _ h _, true) => some h.toNat
  | (.defaults fr, _) => some (frameRows fr)
  | _ => none

/-- Specification: layout. -/
def saysMajor : DecCall × Bool → Option Bool
  | (.columnMajor b, _) => some b
  | (.dataArray _ _ _ b, true) => some b
  | _ => none

/-- Specification: address, width and height of the array. -/
def saysArray : DecCall × Bool → Option (Nat × Nat × Nat)
  | (.dataArray (some p) w h _, true) => some (p, w.toNat, h.toNat)
  | _ => none

/-- Specification: the columns a call adds. -/
def saysCols : DecCall × Bool → List Str
  | (.addColumn n, _) => [n]
  | (.defaults fr, true) =>
    match frameInfo fr with
    | .ok xs => xs.map ColShown.name
    | .error _ => []
  | _ => []

/-- Specification: size of the elements of column `i`. -/
def saysSize (i : Nat) : DecCall × Bool → Option Nat
  | (.dataSize col s, true) => if col = i then some s else none
  | (.columnData col s _ _, true) => if col = i then some s else none
  | _ => none

/-- Specification: address and stride of column `i`. -/
def saysData (i : Nat) : DecCall × Bool → Option (Option Nat × Nat)
  | (.columnData col _ stride p, true) => if col = i then some (p, stride) else none
  | _ => none

/-- Specification: the decoder that a list of calls describes: the columns in the order added, each with the memory and
the size said last for it; row count, layout and array as said last. -/
def Log.decoder (cs : Log) : Dec where
  nrows := (cs.last saysRows).getD 0
  cols := (cs.flatMap saysCols).mapIdx (fun i n =>
    (n, ⟨(cs.last (saysData i)).bind Prod.fst, (cs.last (saysSize i)).getD 0, ((cs.last (saysData i)).map Prod.snd).getD 0, false⟩))
  width := ((cs.last saysArray).map (fun a => a.2.1)).getD 0
  height := ((cs.last saysArray).map (fun a => a.2.2)).getD 0
  ext := (cs.last saysArray).map Prod.fst
  columnMajor := (cs.last saysMajor).getD false

/-- Specification: the calls that are refused: an array that is null or empty, a column that was not added before (`n`
columns were), and defaults from a frame whose columns cannot be listed. -/
def DecCall.Refused (n : Nat) : DecCall → Prop
  | .defaults fr => ∃ e, frameInfo fr = .error e
  | .dataArray buffer w h _ => buffer = none ∨ w ≤ 0 ∨ h ≤ 0
  | .dataSize col _ => col < 0 ∨ (n : Int) ≤ col
  | .columnData col _ _ _ => col < 0 ∨ (n : Int) ≤ col
  | _ => False

/-! ### Proofs -/

theorem Log.last_snoc {α : Type} (f : DecCall × Bool → Option α) (cs : Log) (c : DecCall × Bool) :
    Log.last f (cs ++ [c]) = (f c).or (cs.last f) := by
  unfold Log.last
  rw [List.filterMap_append, List.getLast?_append]
  cases h : f c <;> simp [h]

theorem addColumns_eq {α : Type} (g : α → Str) (xs : List α) (d : Dec) :
    xs.foldl (fun d x => d.addColumn (g x)) d = { d with cols := d.cols ++ xs.map (fun x => (g x, ⟨none, 0, 0, false⟩)) } := by
  induction xs generalizing d with
  | nil => simp
  | cons x xs ih => rw [List.foldl_cons, ih]; simp [Dec.addColumn]

/-- Proof device: nothing was said about columns that do not exist. -/
def Log.Quiet (cs : Log) : Prop :=
  ∀ i, (cs.flatMap saysCols).length ≤ i → cs.last (saysSize i) = none ∧ cs.last (saysData i) = none

theorem Log.last_quiet {α : Type} {f : DecCall × Bool → Option α} {cs : Log} {c : DecCall × Bool} (h : f c = none) :
    Log.last f (cs ++ [c]) = cs.last f := by rw [Log.last_snoc, h]; rfl

theorem decoder_len (cs : Log) : cs.decoder.cols.length = (cs.flatMap saysCols).length := by simp [Log.decoder]

/-- A call that says nothing about sizes and memory, and adds the columns `ns`. -/
theorem decoder_adds (cs : Log) (hq : cs.Quiet) (c : DecCall × Bool) (ns : List Str) (hc : saysCols c = ns)
    (h1 : ∀ i, saysSize i c = none) (h2 : ∀ i, saysData i c = none) :
    Log.Quiet (cs ++ [c]) ∧ (Log.decoder (cs ++ [c])).cols = cs.decoder.cols ++ ns.map (fun n => (n, ⟨none, 0, 0, false⟩)) := by
  constructor
  · intro i hi
    rw [List.flatMap_append, List.length_append] at hi
    rw [Log.last_quiet (h1 i), Log.last_quiet (h2 i)]
    exact hq i (by omega)
  · unfold Log.decoder
    dsimp only
    simp only [Log.last_quiet (h1 _), Log.last_quiet (h2 _)]
    rw [List.flatMap_append, List.mapIdx_append]
    congr 1
    rw [List.flatMap_cons, List.flatMap_nil, List.append_nil, hc]
    apply List.ext_getElem?
    intro i
    rw [List.getElem?_mapIdx, List.getElem?_map]
    cases ns[i]? with
    | none => rfl
    | some n =>
      obtain ⟨q1, q2⟩ := hq (i + (cs.flatMap saysCols).length) (by omega)
      simp only [q1, q2, Option.map_some, Option.map_none, Option.bind_none, Option.getD_none]

theorem decoder_sets (cs : Log) (hq : cs.Quiet) (c : DecCall × Bool) (j : Nat) (n : Str) (k k' : DecCol)
    (hj : cs.decoder.cols[j]? = some (n, k)) (hc : saysCols c = [])
    (h1 : ∀ i, i ≠ j → saysSize i c = none ∧ saysData i c = none)
    (hs : k'.elem = (saysSize j c).getD k.elem) (ht : k'.transpose = k.transpose)
    (hd : k'.data = (match saysData j c with | some p => p.1 | none => k.data))
    (hr : k'.stride = ((saysData j c).map Prod.snd).getD k.stride) :
    Log.Quiet (cs ++ [c]) ∧ (Log.decoder (cs ++ [c])).cols = cs.decoder.cols.set j (n, k') := by
  have hjl := (List.getElem?_eq_some_iff.mp hj).1
  rw [decoder_len] at hjl
  constructor
  · intro i hi
    rw [List.flatMap_append, List.length_append] at hi
    have hne : i ≠ j := by omega
    rw [Log.last_quiet (h1 i hne).1, Log.last_quiet (h1 i hne).2]
    exact hq i (by omega)
  · have hflat : (cs ++ [c]).flatMap saysCols = cs.flatMap saysCols := by
      rw [List.flatMap_append, List.flatMap_cons, List.flatMap_nil, List.append_nil, hc, List.append_nil]
    apply List.ext_getElem?
    intro i
    by_cases hij : j = i
    · subst hij
      rw [List.getElem?_set_self (by rw [decoder_len]; exact hjl)]
      unfold Log.decoder at hj ⊢
      dsimp only at hj ⊢
      rw [hflat]
      rw [List.getElem?_mapIdx] at hj ⊢
      cases hn : (cs.flatMap saysCols)[j]? with
      | none => rw [hn] at hj; cases hj
      | some nm =>
        rw [hn] at hj
        simp only [Option.map_some, Option.some.injEq, Prod.mk.injEq] at hj ⊢
        obtain ⟨rfl, rfl⟩ := hj
        refine ⟨rfl, ?_⟩
        dsimp only at hs ht hd hr
        rw [Log.last_snoc, Log.last_snoc]
        cases k' with
        | mk a b e f =>
          dsimp only at hs ht hd hr
          subst hs ht hd hr
          congr 1
          · cases saysData j c <;> simp
          · cases saysSize j c <;> simp
          · cases saysData j c <;> simp
    · rw [List.getElem?_set_ne hij]
      unfold Log.decoder
      dsimp only
      rw [hflat, List.getElem?_mapIdx, List.getElem?_mapIdx]
      have hne : i ≠ j := fun e => hij e.symm
      rw [Log.last_quiet (h1 i hne).1, Log.last_quiet (h1 i hne).2]

theorem decoder_same (cs : Log) (hq : cs.Quiet) (c : DecCall × Bool) (hc : saysCols c = [])
    (h1 : ∀ i, saysSize i c = none) (h2 : ∀ i, saysData i c = none) :
    Log.Quiet (cs ++ [c]) ∧ (Log.decoder (cs ++ [c])).cols = cs.decoder.cols := by
  have := decoder_adds cs hq c [] hc h1 h2
  simpa using this

theorem column_some {d : Dec} {col : Int} {e : Str × DecCol} (h : d.column col = some e) :
    0 ≤ col ∧ d.cols[col.toNat]? = some e := by
  unfold Dec.column at h
  by_cases hc : col < 0
  · rw [if_pos hc] at h; cases h
  · rw [if_neg hc] at h; exact ⟨by omega, h⟩

theorem column_none {d : Dec} {col : Int} : d.column col = none ↔ col < 0 ∨ (d.cols.length : Int) ≤ col := by
  unfold Dec.column
  by_cases hc : col < 0
  · simp [hc]
  · rw [if_neg hc, List.getElem?_eq_none_iff]; omega

theorem Dec.eq_of {d d' : Dec} (h1 : d.nrows = d'.nrows) (h2 : d.cols = d'.cols) (h3 : d.width = d'.width) (h4 : d.height = d'.height)
    (h5 : d.ext = d'.ext) (h6 : d.columnMajor = d'.columnMajor) : d = d' := by
  cases d; cases d'; simp_all

/-- One call. -/
theorem decoder_step (cs : Log) (hq : cs.Quiet) (c : DecCall) :
    Log.Quiet (cs ++ [(c, (cs.decoder.call c).2)]) ∧ (cs.decoder.call c).1 = Log.decoder (cs ++ [(c, (cs.decoder.call c).2)]) := by
  cases c with
  | defaults fr =>
    unfold Dec.call
    cases hi : frameInfo fr with
    | error e =>
      simp only [hi]
      obtain ⟨a1, a2⟩ := decoder_same cs hq (.defaults fr, false) rfl (fun _ => rfl) (fun _ => rfl)
      refine ⟨a1, Dec.eq_of ?_ a2.symm ?_ ?_ ?_ ?_⟩ <;> simp [Log.decoder, Log.last_snoc, saysRows, saysMajor, saysArray]
    | ok xs =>
      simp only [hi]
      obtain ⟨a1, a2⟩ := decoder_adds cs hq (.defaults fr, true) (xs.map ColShown.name) (by simp [saysCols, hi]) (fun _ => rfl) (fun _ => rfl)
      refine ⟨a1, ?_⟩
      rw [addColumns_eq]
      refine Dec.eq_of ?_ (by rw [a2, List.map_map]; rfl) ?_ ?_ ?_ ?_ <;> simp [Log.decoder, Log.last_snoc, saysRows, saysMajor, saysArray]
  | columnMajor b =>
    obtain ⟨a1, a2⟩ := decoder_same cs hq (.columnMajor b, true) rfl (fun _ => rfl) (fun _ => rfl)
    refine ⟨a1, Dec.eq_of ?_ a2.symm ?_ ?_ ?_ ?_⟩ <;>
      simp [Log.decoder, Dec.call, Dec.setMajor, Log.last_snoc, saysRows, saysMajor, saysArray]
  | rowCount n =>
    obtain ⟨a1, a2⟩ := decoder_same cs hq (.rowCount n, true) rfl (fun _ => rfl) (fun _ => rfl)
    refine ⟨a1, Dec.eq_of ?_ a2.symm ?_ ?_ ?_ ?_⟩ <;>
      simp [Log.decoder, Dec.call, Dec.setRows, Log.last_snoc, saysRows, saysMajor, saysArray]
  | dataArray p w h cm =>
    unfold Dec.call
    cases p with
    | none =>
      dsimp only
      obtain ⟨a1, a2⟩ := decoder_same cs hq (.dataArray none w h cm, false) rfl (fun _ => rfl) (fun _ => rfl)
      refine ⟨a1, Dec.eq_of ?_ a2.symm ?_ ?_ ?_ ?_⟩ <;> simp [Log.decoder, Log.last_snoc, saysRows, saysMajor, saysArray]
    | some p =>
      dsimp only
      by_cases hwh : 0 < w ∧ 0 < h
      · rw [if_pos hwh]
        obtain ⟨a1, a2⟩ := decoder_same cs hq (.dataArray (some p) w h cm, true) rfl (fun _ => rfl) (fun _ => rfl)
        refine ⟨a1, Dec.eq_of ?_ a2.symm ?_ ?_ ?_ ?_⟩ <;> simp [Log.decoder, Log.last_snoc, saysRows, saysMajor, saysArray]
      · rw [if_neg hwh]
        obtain ⟨a1, a2⟩ := decoder_same cs hq (.dataArray (some p) w h cm, false) rfl (fun _ => rfl) (fun _ => rfl)
        refine ⟨a1, Dec.eq_of ?_ a2.symm ?_ ?_ ?_ ?_⟩ <;> simp [Log.decoder, Log.last_snoc, saysRows, saysMajor, saysArray]
  | addColumn n =>
    obtain ⟨a1, a2⟩ := decoder_adds cs hq (.addColumn n, true) [n] rfl (fun _ => rfl) (fun _ => rfl)
    refine ⟨a1, Dec.eq_of ?_ a2.symm ?_ ?_ ?_ ?_⟩ <;>
      simp [Log.decoder, Dec.call, Dec.addColumn, Log.last_snoc, saysRows, saysMajor, saysArray]
  | dataSize col s =>
    unfold Dec.call
    cases hc : cs.decoder.column col with
    | none =>
      simp only [hc]
      obtain ⟨a1, a2⟩ := decoder_same cs hq (.dataSize col s, false) rfl (fun _ => rfl) (fun _ => rfl)
      refine ⟨a1, Dec.eq_of ?_ a2.symm ?_ ?_ ?_ ?_⟩ <;> simp [Log.decoder, Log.last_snoc, saysRows, saysMajor, saysArray]
    | some e =>
      obtain ⟨n, k⟩ := e
      obtain ⟨c1, c2⟩ := column_some hc
      simp only [hc]
      have hcol : col = (col.toNat : Int) := by omega
      obtain ⟨a1, a2⟩ := decoder_sets cs hq (.dataSize col s, true) col.toNat n k { k with elem := s } c2 rfl
        (by intro i hi; refine ⟨?_, rfl⟩; simp only [saysSize]; rw [if_neg (by omega)])
        (by simp only [saysSize]; rw [if_pos hcol]; rfl) rfl rfl rfl
      refine ⟨a1, Dec.eq_of ?_ a2.symm ?_ ?_ ?_ ?_⟩ <;> simp [Log.decoder, Log.last_snoc, saysRows, saysMajor, saysArray]
  | columnData col s st p =>
    unfold Dec.call
    cases hc : cs.decoder.column col with
    | none =>
      simp only [hc]
      obtain ⟨a1, a2⟩ := decoder_same cs hq (.columnData col s st p, false) rfl (fun _ => rfl) (fun _ => rfl)
      refine ⟨a1, Dec.eq_of ?_ a2.symm ?_ ?_ ?_ ?_⟩ <;> simp [Log.decoder, Log.last_snoc, saysRows, saysMajor, saysArray]
    | some e =>
      obtain ⟨n, k⟩ := e
      obtain ⟨c1, c2⟩ := column_some hc
      simp only [hc]
      have hcol : col = (col.toNat : Int) := by omega
      obtain ⟨a1, a2⟩ := decoder_sets cs hq (.columnData col s st p, true) col.toNat n k { k with elem := s, stride := st, data := p } c2 rfl
        (by intro i hi; simp only [saysSize, saysData]; rw [if_neg (by omega), if_neg (by omega)]; exact ⟨rfl, rfl⟩)
        (by simp only [saysSize]; rw [if_pos hcol]; rfl) rfl
        (by simp only [saysData]; rw [if_pos hcol])
        (by simp only [saysData]; rw [if_pos hcol]; rfl)
      refine ⟨a1, Dec.eq_of ?_ a2.symm ?_ ?_ ?_ ?_⟩ <;> simp [Log.decoder, Log.last_snoc, saysRows, saysMajor, saysArray]

theorem decoder_calls (cs : List DecCall) (done : Log) (hq : done.Quiet) :
    Log.Quiet (done ++ (done.decoder.calls cs).2) ∧
      (done.decoder.calls cs).1 = Log.decoder (done ++ (done.decoder.calls cs).2) := by
  induction cs generalizing done with
  | nil => simp [Dec.calls, hq]
  | cons c cs ih =>
    obtain ⟨s1, s2⟩ := decoder_step done hq c
    have := ih _ s1
    unfold Dec.calls
    dsimp only
    rw [s2]
    rw [List.append_assoc] at this
    exact this

theorem decoder_nil : (Dec.new []) = Log.decoder [] := rfl

end Verif
