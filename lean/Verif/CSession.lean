import Verif.COwn

/-
Setting up a C encoder: any sequence of calls of `odc_encoder_*`, in any order, with calls that are refused among them.

Models: src/odc/api/odc.cc l.781-882 (the calls; `wrapApiFunction`, l.129-160, turns an exception into a code and leaves the
encoder as it was when the exception was raised).
-/

namespace Verif

/-- The calls that set up an encoder, odc.cc l.789-882.  Columns, element sizes, strides and member sizes are `int`;
counts and the dimensions of the array are taken to be non-negative. -/
inductive EncCall where
  /-- `odc_encoder_add_property`, odc.cc l.789-794 -/
  | property (k v : Str)
  /-- `odc_encoder_set_row_count`, odc.cc l.796-801 -/
  | rowCount (n : Nat)
  /-- `odc_encoder_set_rows_per_frame`, odc.cc l.803-808 -/
  | rowsPerFrame (n : Nat)
  /-- `odc_encoder_set_data_array`, odc.cc l.810-833 -/
  | dataArray (data width height cmWidth : Nat)
  /-- `odc_encoder_add_column`, odc.cc l.835-841 -/
  | addColumn (name : Str) (ty : ColType)
  /-- `odc_encoder_column_set_data_size`, odc.cc l.843-850 -/
  | dataSize (col elem : Int)
  /-- `odc_encoder_column_set_data_array`, odc.cc l.852-862 -/
  | columnData (col elem stride : Int) (data : Nat)
  /-- `odc_encoder_column_add_bitfield`, odc.cc l.864-881 -/
  | bitfield (col : Int) (name : Str) (nbits : Int)

/-- `ASSERT(col >= 0 && size_t(col) < encoder->columnInfo.size())`, odc.cc l.846, 855, 867. -/
def Enc.column (e : Enc) (col : Int) : Option EncArg := if col < 0 then none else e.cols[col.toNat]?

/-- `odc_encoder_column_set_data_size`, odc.cc l.843-850. -/
def Enc.setSize (e : Enc) (col elem : Int) : Except Err Enc :=
  match e.column col with
  | none => .error .assertFailed
  | some c =>
    if 0 ≤ elem ∧ elem % 8 = 0 then
      .ok { e with cols := e.cols.set col.toNat { c with info := { c.info with decodedSize := elem.toNat } } }
    else .error .assertFailed

/-- `odc_encoder_column_set_data_array`, odc.cc l.852-862, with its checks of the signs. -/
def Enc.setData (e : Enc) (col elem stride : Int) (data : Nat) : Except Err Enc :=
  if col < 0 ∨ elem < 0 ∨ stride < 0 then .error .assertFailed else e.setColumn col.toNat elem.toNat stride.toNat data

/-- `odc_encoder_column_add_bitfield`, odc.cc l.864-881.  The offsets kept with the members are the sums of the sizes
before them (`cumulative`; `addBit_any`). -/
def Enc.addMember (e : Enc) (col : Int) (name : Str) (nbits : Int) : Except Err Enc :=
  match e.column col with
  | none => .error .assertFailed
  | some c =>
    match addBit (cumulative 0 c.info.bits) name nbits with
    | .error x => .error x
    | .ok _ => .ok { e with cols := e.cols.set col.toNat { c with info := { c.info with bits := c.info.bits ++ [(name, nbits)] } } }

/-- One call, odc.cc l.789-882: the encoder afterwards, and the error reported if any.  A refused `set_data_array` has
already cleared the columns of an encoder that had an array (l.818-823). -/
def Enc.call (e : Enc) : EncCall → Enc × Option Err
  | .property k v => ({ e with props := mapSet k v e.props }, none)
  | .rowCount n => (e.setRows n, none)
  | .rowsPerFrame n => (e.setLimit n, none)
  | .dataArray data width height cmWidth =>
    match e.setArray data width height cmWidth with
    | .ok e' => (e', none)
    | .error x =>
      ({ e with cols := if e.arr ≠ none then e.cols.map (fun c => { c with data := none, stride := 0 }) else e.cols }, some x)
  | .addColumn name ty => (e.addColumn ⟨name, ty, 0, []⟩, none)
  | .dataSize col elem =>
    match e.setSize col elem with
    | .ok e' => (e', none)
    | .error x => (e, some x)
  | .columnData col elem stride data =>
    match e.setData col elem stride data with
    | .ok e' => (e', none)
    | .error x => (e, some x)
  | .bitfield col name nbits =>
    match e.addMember col name nbits with
    | .ok e' => (e', none)
    | .error x => (e, some x)

/-- A sequence of calls, whatever each of them reports: the encoder, and the calls that reported success.
[odc.cc l.129-160, 789-882] -/
def Enc.calls (e : Enc) : List EncCall → Enc × List EncCall
  | [] => (e, [])
  | c :: cs =>
    match e.call c with
    | (e', none) => ((e'.calls cs).1, c :: (e'.calls cs).2)
    | (e', some _) => e'.calls cs

/-! ### Specification: what a list of calls says -/

/-- Specification: the last of the calls that says something about `f`. -/
def lastSaid {α : Type} (f : EncCall → Option α) (cs : List EncCall) : Option α := (cs.filterMap f).getLast?

/-- Specification: rows per frame. -/
def EncCall.limit? : EncCall → Option Nat
  | .rowsPerFrame n => some n
  | _ => none

/-- Specification: number of rows. -/
def EncCall.rows? : EncCall → Option Nat
  | .rowCount n => some n
  | _ => none

/-- Specification: value of a property. -/
def EncCall.prop? (k : Str) : EncCall → Option Str
  | .property k' v => if k' = k then some v else none
  | _ => none

/-- Specification: a column. -/
def EncCall.col? : EncCall → Option (Str × ColType)
  | .addColumn n t => some (n, t)
  | _ => none

/-- Specification: size of the elements of column `i`. -/
def EncCall.size? (i : Nat) : EncCall → Option Nat
  | .dataSize col s => if col = i then some s.toNat else none
  | .columnData col s _ _ => if col = i then some s.toNat else none
  | _ => none

/-- Specification: a member of the bitfield of column `i`. -/
def EncCall.member? (i : Nat) : EncCall → Option (Str × Int)
  | .bitfield col n k => if col = i then some (n, k) else none
  | _ => none

/-- Specification: address and stride of column `i`. -/
def EncCall.data? (i : Nat) : EncCall → Option (Nat × Nat)
  | .columnData col _ stride p => if col = i then some (p, stride.toNat) else none
  | _ => none

/-- Specification: address, width, height and column-major width of the array. -/
def EncCall.array? : EncCall → Option (Nat × Nat × Nat × Nat)
  | .dataArray a w h cm => some (a, w, h, cm)
  | _ => none

/-- Specification: height of the array, if any rows. -/
def EncCall.height? : EncCall → Option Nat
  | .dataArray _ _ h _ => if h = 0 then none else some h
  | _ => none

/-- Specification: the calls describe the table: its columns in order with types, sizes (8 bytes if nothing or 0 was said)
and bitfield members, its properties, its number of rows (said last and not 0, or else the height of the first array with
rows), and a limit of rows per frame (10000 if nothing was said). -/
structure Described (cs : List EncCall) (T : UTable) (limit : Nat) : Prop where
  names : cs.filterMap EncCall.col? = T.cols.map (fun c => (c.name, c.vals.ty))
  sizes : ∀ (i : Nat) (c : InCol), T.cols[i]? = some c →
    lastSaid (EncCall.size? i) cs = some (8 * c.vals.words) ∨
      ((lastSaid (EncCall.size? i) cs = none ∨ lastSaid (EncCall.size? i) cs = some 0) ∧ c.vals.words = 1)
  members : ∀ (i : Nat) (c : InCol), T.cols[i]? = some c → cs.filterMap (EncCall.member? i) = c.vals.members
  props : ∀ k : Str, lastSaid (EncCall.prop? k) cs = mapGet k T.props
  rows : lastSaid EncCall.rows? cs = some T.rows ∨
    (cs.filterMap EncCall.rows? = [] ∧ (cs.filterMap EncCall.height?).head? = some T.rows)
  perFrame : (lastSaid EncCall.limit? cs).getD 10000 = limit
  pos : 0 < T.rows ∧ 0 < limit

/-! ### Proofs -/

/-- Two maps with the same values are the same. -/
theorem strMap_ext (a b : StrMap) (ha : MapOk a) (hb : MapOk b) (h : ∀ k, mapGet k a = mapGet k b) : a = b := by
  have nil_of : ∀ (m : StrMap), (∀ k, mapGet k m = none) → m = [] := by
    intro m hm
    cases m with
    | nil => rfl
    | cons e m => have := hm e.1; simp [mapGet] at this
  induction a generalizing b with
  | nil => exact (nil_of b (fun k => (h k).symm.trans rfl)).symm
  | cons x a ih =>
    cases b with
    | nil => exact nil_of _ (fun k => (h k).trans rfl)
    | cons y b =>
      simp only [MapOk, List.pairwise_cons] at ha hb
      have notin : ∀ (z : Str × Str) (m : StrMap), (∀ kv ∈ m, strLt z.1 kv.1 = true) → mapGet z.1 m = none := by
        intro z m hm
        unfold mapGet
        rw [List.find?_eq_none.mpr]; · rfl
        intro kv hkv he
        have := hm kv hkv
        have he : kv.1 = z.1 := by simpa using he
        rw [he, strLt_irrefl] at this
        cases this
      have less : ∀ (z : Str × Str) (m : StrMap) (k : Str), (∀ kv ∈ m, strLt z.1 kv.1 = true) → strLt k z.1 = true → mapGet k (z :: m) = none := by
        intro z m k hm hk
        apply notin (k, [])
        intro kv hkv
        rcases List.mem_cons.mp hkv with rfl | hkv
        · exact hk
        · exact strLt_trans hk (hm kv hkv)
      have self : ∀ (z : Str × Str) (m : StrMap), mapGet z.1 (z :: m) = some z.2 := by
        intro z m; simp [mapGet]
      have hk : x.1 = y.1 := by
        apply strLt_total
        · cases hlt : strLt x.1 y.1 with
          | false => rfl
          | true =>
            have := h x.1
            rw [self, less y b x.1 hb.1 hlt] at this
            cases this
        · cases hlt : strLt y.1 x.1 with
          | false => rfl
          | true =>
            have := h y.1
            rw [self, less x a y.1 ha.1 hlt] at this
            cases this
      have hv : x.2 = y.2 := by
        have := h x.1
        rw [self, hk, self] at this
        exact Option.some.inj this
      have hxy : x = y := Prod.ext hk hv
      subst hxy
      rw [ih b ha.2 hb.2]
      intro k
      by_cases hkx : k = x.1
      · subst hkx; rw [notin x a ha.1, notin x b hb.1]
      · have := h k
        unfold mapGet at this ⊢
        rw [List.find?_cons, List.find?_cons, show decide (x.1 = k) = false from by simpa using fun e => hkx e.symm] at this
        exact this

/-- Adding a member of any size: accepted exactly if the members then end between bit 0 and bit 32. -/
theorem addBit_any (ms : List (Str × Int)) (n : Str) (k : Int) (hs : 0 ≤ sizeSum ms) (hs' : sizeSum ms ≤ 32)
    (hk : -2147483648 ≤ k) (hk' : k < 2147483648) :
    addBit (cumulative 0 ms) n k =
      if 0 ≤ sizeSum ms + k ∧ sizeSum ms + k ≤ 32 then .ok (cumulative 0 (ms ++ [(n, k)])) else .error Err.assertFailed := by
  have main : ∀ off : Nat, off = (sizeSum ms).toNat →
      (if (BitVec.ofInt 64 (off + k)).toNat ≤ 32 then Except.ok (cumulative 0 ms ++ [⟨n, k, (BitVec.ofNat 32 off).toInt⟩])
        else .error Err.assertFailed) =
      if 0 ≤ sizeSum ms + k ∧ sizeSum ms + k ≤ 32 then .ok (cumulative 0 (ms ++ [(n, k)])) else .error Err.assertFailed := by
    intro off hoff
    subst hoff
    have e2 : (BitVec.ofNat 32 (sizeSum ms).toNat).toInt = sizeSum ms := by
      rw [BitVec.toInt_ofNat']; unfold Int.bmod; simp; omega
    rw [e2]
    by_cases h : 0 ≤ sizeSum ms + k ∧ sizeSum ms + k ≤ 32
    · have e1 : (BitVec.ofInt 64 (((sizeSum ms).toNat : Int) + k)).toNat = (sizeSum ms + k).toNat := by
        rw [BitVec.toNat_ofInt]; simp; omega
      rw [e1, if_pos (by omega), if_pos h, cumulative_append, Int.zero_add]; rfl
    · rw [if_neg, if_neg h]
      rw [BitVec.toNat_ofInt]; simp; omega
  unfold addBit
  cases hl : (cumulative 0 ms).getLast? with
  | none =>
    cases ms with
    | nil => exact main 0 rfl
    | cons m ms => simp [cumulative] at hl
  | some b =>
    refine main _ ?_
    dsimp only
    rw [cumulative_getLast 0 ms b hl, Int.zero_add]
    simp only [BitVec.toInt_ofInt, BitVec.toNat_ofInt]
    unfold Int.bmod
    simp
    omega

theorem lastSaid_snoc {α : Type} (f : EncCall → Option α) (cs : List EncCall) (c : EncCall) :
    lastSaid f (cs ++ [c]) = (f c).or (lastSaid f cs) := by
  unfold lastSaid
  rw [List.filterMap_append, List.getLast?_append]
  cases h : f c <;> simp [h]

theorem filterMap_snoc {α : Type} (f : EncCall → Option α) (cs : List EncCall) (c : EncCall) :
    (cs ++ [c]).filterMap f = cs.filterMap f ++ (f c).toList := by
  rw [List.filterMap_append]
  cases h : f c <;> simp [h]

theorem lastSaid_quiet {α : Type} {f : EncCall → Option α} {cs : List EncCall} {c : EncCall} (h : f c = none) :
    lastSaid f (cs ++ [c]) = lastSaid f cs := by rw [lastSaid_snoc, h]; rfl

theorem filterMap_quiet {α : Type} {f : EncCall → Option α} {cs : List EncCall} {c : EncCall} (h : f c = none) :
    (cs ++ [c]).filterMap f = cs.filterMap f := by rw [filterMap_snoc, h]; simp

/-- The encoder is what the accepted calls say. -/
structure Enc.Is (e : Enc) (cs : List EncCall) : Prop where
  perFrame : e.limit = (lastSaid EncCall.limit? cs).getD 10000
  mapOk : MapOk e.props
  props : ∀ k, mapGet k e.props = lastSaid (EncCall.prop? k) cs
  names : e.cols.map (fun c => (c.info.name, c.info.ty)) = cs.filterMap EncCall.col?
  sizes : ∀ (i : Nat) (c : EncArg), e.cols[i]? = some c → c.info.decodedSize = (lastSaid (EncCall.size? i) cs).getD 0
  members : ∀ (i : Nat) (c : EncArg), e.cols[i]? = some c → c.info.bits = cs.filterMap (EncCall.member? i)
  unsaid : ∀ i, e.cols.length ≤ i → cs.filterMap (EncCall.size? i) = [] ∧ cs.filterMap (EncCall.member? i) = [] ∧
    cs.filterMap (EncCall.data? i) = []
  rowsSaid : ∀ n, lastSaid EncCall.rows? cs = some n → n ≠ 0 → e.nrows = n
  rowsArr : cs.filterMap EncCall.rows? = [] → e.nrows = ((cs.filterMap EncCall.height?).head?).getD 0
  arr : lastSaid EncCall.array? cs = e.arr.map (fun a => (a, e.width, e.height, e.cmWidth))
  own : cs.filterMap EncCall.array? = [] → ∀ (i : Nat) (c : EncArg), e.cols[i]? = some c →
    c.data = (lastSaid (EncCall.data? i) cs).map Prod.fst ∧ c.stride = ((lastSaid (EncCall.data? i) cs).map Prod.snd).getD 0
  clear : (∀ i, cs.filterMap (EncCall.data? i) = []) → ∀ c ∈ e.cols, c.data = none ∧ c.stride = 0

theorem Enc.is_new : Enc.new.Is [] where
  perFrame := rfl
  mapOk := by simp [Enc.new, MapOk]
  props := fun _ => rfl
  names := rfl
  sizes := by simp [Enc.new]
  members := by simp [Enc.new]
  unsaid := by simp
  rowsSaid := by simp [lastSaid]
  rowsArr := fun _ => rfl
  arr := rfl
  own := by simp [Enc.new]
  clear := by simp [Enc.new]

theorem is_column {e : Enc} {col : Int} {c : EncArg} (h : e.column col = some c) :
    0 ≤ col ∧ e.cols[col.toNat]? = some c ∧ col.toNat < e.cols.length := by
  unfold Enc.column at h
  by_cases hc : col < 0
  · rw [if_pos hc] at h; cases h
  · rw [if_neg hc] at h
    exact ⟨by omega, h, (List.getElem?_eq_some_iff.mp h).1⟩

theorem is_set {e : Enc} {cs : List EncCall} {j : Nat} {c c' : EncArg} {x : EncCall} (h : e.Is cs) (hget : e.cols[j]? = some c)
    (hx : x.limit? = none ∧ (∀ k, x.prop? k = none) ∧ x.col? = none ∧ x.rows? = none ∧ x.height? = none ∧ x.array? = none)
    (hni : c'.info.name = c.info.name ∧ c'.info.ty = c.info.ty)
    (hother : ∀ i, i ≠ j → x.size? i = none ∧ x.member? i = none ∧ x.data? i = none)
    (hsz : c'.info.decodedSize = (x.size? j).getD c.info.decodedSize)
    (hmem : c'.info.bits = c.info.bits ++ (x.member? j).toList)
    (hdat : c'.data = ((x.data? j).map Prod.fst).or c.data ∧ c'.stride = ((x.data? j).map Prod.snd).getD c.stride) :
    Enc.Is { e with cols := e.cols.set j c' } (cs ++ [x]) := by
  have hlt : j < e.cols.length := (List.getElem?_eq_some_iff.mp hget).1
  have hsplit : ∀ (i : Nat) (d : EncArg), (e.cols.set j c')[i]? = some d → (i = j ∧ d = c') ∨ (i ≠ j ∧ e.cols[i]? = some d) := by
    intro i d hd
    rw [List.getElem?_set] at hd
    by_cases hij : j = i
    · subst hij; rw [if_pos rfl, if_pos hlt] at hd; exact Or.inl ⟨rfl, (Option.some.inj hd).symm⟩
    · rw [if_neg hij] at hd; exact Or.inr ⟨fun e => hij e.symm, hd⟩
  refine ⟨?_, h.mapOk, ?_, ?_, ?_, ?_, ?_, ?_, ?_, ?_, ?_, ?_⟩
  · simpa [lastSaid_snoc, hx.1] using h.perFrame
  · simpa [lastSaid_snoc, hx.2.1] using h.props
  · simp only [filterMap_snoc, hx.2.2.1, Option.toList, List.append_nil]
    rw [← h.names, List.map_set, hni.1, hni.2]
    obtain ⟨h1, h2⟩ := List.getElem?_eq_some_iff.mp hget
    apply List.ext_getElem (by simp)
    intro i h3 h4
    rw [List.getElem_set]
    split
    · rename_i hij; subst hij; simp [h2]
    · rfl
  · intro i d hd
    rw [lastSaid_snoc]
    rcases hsplit i d hd with ⟨rfl, rfl⟩ | ⟨hne, hd⟩
    · rw [hsz, h.sizes i c hget]
      cases x.size? i <;> simp
    · rw [(hother i hne).1]; simpa using h.sizes i d hd
  · intro i d hd
    rw [filterMap_snoc]
    rcases hsplit i d hd with ⟨rfl, rfl⟩ | ⟨hne, hd⟩
    · rw [hmem, h.members i c hget]
    · rw [(hother i hne).2.1]; simpa using h.members i d hd
  · intro i hi
    have hi : e.cols.length ≤ i := by simpa using hi
    obtain ⟨h1, h2, h3⟩ := hother i (by omega)
    simp only [filterMap_snoc, h1, h2, h3]
    simpa using h.unsaid i hi
  · simpa [lastSaid_snoc, hx.2.2.2.1] using h.rowsSaid
  · rw [filterMap_quiet hx.2.2.2.1, filterMap_quiet hx.2.2.2.2.1]; exact h.rowsArr
  · simpa [lastSaid_snoc, hx.2.2.2.2.2] using h.arr
  · intro ha i d hd
    have ha : cs.filterMap EncCall.array? = [] := by rw [filterMap_quiet hx.2.2.2.2.2] at ha; exact ha
    rw [lastSaid_snoc]
    rcases hsplit i d hd with ⟨rfl, rfl⟩ | ⟨hne, hd⟩
    · rw [hdat.1, hdat.2, (h.own ha i c hget).1, (h.own ha i c hget).2]
      cases x.data? i <;> simp
    · rw [(hother i hne).2.2]; simpa using h.own ha i d hd
  · intro ha d hd
    have hcs : ∀ i, cs.filterMap (EncCall.data? i) = [] := by
      intro i; have := ha i; rw [filterMap_snoc] at this; exact (List.append_eq_nil_iff.mp this).1
    have hxj : x.data? j = none := by
      have := ha j; rw [filterMap_snoc] at this
      have := (List.append_eq_nil_iff.mp this).2
      cases hh : x.data? j with
      | none => rfl
      | some y => rw [hh] at this; cases this
    rcases List.mem_or_eq_of_mem_set hd with hd | rfl
    · exact h.clear hcs d hd
    · rw [hxj] at hdat
      have := h.clear hcs c (List.mem_of_getElem? hget)
      rw [hdat.1, hdat.2, this.1, this.2]; simp

theorem is_step {e : Enc} {cs : List EncCall} (h : e.Is cs) (x : EncCall) :
    match e.call x with
    | (e', none) => e'.Is (cs ++ [x])
    | (e', some _) => e'.Is cs := by
  cases x with
  | property k v =>
    refine ⟨?_, mapSet_ok k v _ h.mapOk, ?_, ?_, ?_, ?_, ?_, ?_, ?_, ?_, ?_, ?_⟩
    · rw [lastSaid_quiet rfl]; exact h.perFrame
    · intro q
      rw [lastSaid_snoc, mapGet_mapSet k v _ h.mapOk]
      simp only [EncCall.prop?]
      by_cases hq : q = k
      · simp [hq]
      · rw [if_neg hq, if_neg (fun e => hq e.symm)]; simpa using h.props q
    · rw [filterMap_quiet rfl]; exact h.names
    · intro i; rw [lastSaid_quiet rfl]; exact h.sizes i
    · intro i; rw [filterMap_quiet rfl]; exact h.members i
    · intro i; rw [filterMap_quiet rfl, filterMap_quiet rfl, filterMap_quiet rfl]; exact h.unsaid i
    · rw [lastSaid_quiet rfl]; exact h.rowsSaid
    · rw [filterMap_quiet rfl, filterMap_quiet rfl]; exact h.rowsArr
    · rw [lastSaid_quiet rfl]; exact h.arr
    · rw [filterMap_quiet rfl]; intro ha i; rw [lastSaid_quiet rfl]; exact h.own ha i
    · intro ha; exact h.clear (fun i => by have := ha i; rw [filterMap_quiet rfl] at this; exact this)
  | rowCount n =>
    refine ⟨?_, h.mapOk, ?_, ?_, ?_, ?_, ?_, ?_, ?_, ?_, ?_, ?_⟩
    · rw [lastSaid_quiet rfl]; exact h.perFrame
    · intro k; rw [lastSaid_quiet rfl]; exact h.props k
    · rw [filterMap_quiet rfl]; exact h.names
    · intro i; rw [lastSaid_quiet rfl]; exact h.sizes i
    · intro i; rw [filterMap_quiet rfl]; exact h.members i
    · intro i; rw [filterMap_quiet rfl, filterMap_quiet rfl, filterMap_quiet rfl]; exact h.unsaid i
    · simp [lastSaid_snoc, EncCall.rows?, Enc.setRows]
    · intro ha; rw [filterMap_snoc] at ha; simp [EncCall.rows?] at ha
    · rw [lastSaid_quiet rfl]; exact h.arr
    · rw [filterMap_quiet rfl]; intro ha i; rw [lastSaid_quiet rfl]; exact h.own ha i
    · intro ha; exact h.clear (fun i => by have := ha i; rw [filterMap_quiet rfl] at this; exact this)
  | rowsPerFrame n =>
    refine ⟨?_, h.mapOk, ?_, ?_, ?_, ?_, ?_, ?_, ?_, ?_, ?_, ?_⟩
    · simp [lastSaid_snoc, EncCall.limit?, Enc.setLimit]
    · intro k; rw [lastSaid_quiet rfl]; exact h.props k
    · rw [filterMap_quiet rfl]; exact h.names
    · intro i; rw [lastSaid_quiet rfl]; exact h.sizes i
    · intro i; rw [filterMap_quiet rfl]; exact h.members i
    · intro i; rw [filterMap_quiet rfl, filterMap_quiet rfl, filterMap_quiet rfl]; exact h.unsaid i
    · rw [lastSaid_quiet rfl]; exact h.rowsSaid
    · rw [filterMap_quiet rfl, filterMap_quiet rfl]; exact h.rowsArr
    · rw [lastSaid_quiet rfl]; exact h.arr
    · rw [filterMap_quiet rfl]; intro ha i; rw [lastSaid_quiet rfl]; exact h.own ha i
    · intro ha; exact h.clear (fun i => by have := ha i; rw [filterMap_quiet rfl] at this; exact this)
  | addColumn n ty =>
    have hsplit : ∀ (i : Nat) (d : EncArg), (e.cols ++ [⟨⟨n, ty, 0, []⟩, none, 0⟩])[i]? = some d →
        (i = e.cols.length ∧ d = ⟨⟨n, ty, 0, []⟩, none, 0⟩) ∨ e.cols[i]? = some d := by
      intro i d hd
      rw [List.getElem?_append] at hd
      by_cases hi : i < e.cols.length
      · rw [if_pos hi] at hd; exact Or.inr hd
      · rw [if_neg hi] at hd
        have : i - e.cols.length < 1 := by simpa using (List.getElem?_eq_some_iff.mp hd).1
        have hi0 : i - e.cols.length = 0 := by omega
        rw [hi0] at hd
        exact Or.inl ⟨by omega, by simpa using hd.symm⟩
    refine ⟨?_, h.mapOk, ?_, ?_, ?_, ?_, ?_, ?_, ?_, ?_, ?_, ?_⟩
    · rw [lastSaid_quiet rfl]; exact h.perFrame
    · intro k; rw [lastSaid_quiet rfl]; exact h.props k
    · rw [filterMap_snoc, ← h.names]; simp [EncCall.col?, Enc.addColumn]
    · intro i d hd
      simp only [lastSaid_snoc, EncCall.size?, Option.none_or]
      rcases hsplit i d hd with ⟨rfl, rfl⟩ | hd
      · rw [lastSaid, (h.unsaid _ (Nat.le_refl _)).1]; rfl
      · exact h.sizes i d hd
    · intro i d hd
      simp only [filterMap_snoc, EncCall.member?, Option.toList, List.append_nil]
      rcases hsplit i d hd with ⟨rfl, rfl⟩ | hd
      · rw [(h.unsaid _ (Nat.le_refl _)).2.1]
      · exact h.members i d hd
    · intro i hi
      have : e.cols.length + 1 ≤ i := by simpa [Enc.addColumn] using hi
      rw [filterMap_quiet rfl, filterMap_quiet rfl, filterMap_quiet rfl]; exact h.unsaid i (by omega)
    · rw [lastSaid_quiet rfl]; exact h.rowsSaid
    · rw [filterMap_quiet rfl, filterMap_quiet rfl]; exact h.rowsArr
    · rw [lastSaid_quiet rfl]; exact h.arr
    · intro ha i d hd
      have ha : cs.filterMap EncCall.array? = [] := by rw [filterMap_quiet rfl] at ha; exact ha
      simp only [lastSaid_snoc, EncCall.data?, Option.none_or]
      rcases hsplit i d hd with ⟨rfl, rfl⟩ | hd
      · rw [lastSaid, (h.unsaid _ (Nat.le_refl _)).2.2]; exact ⟨rfl, rfl⟩
      · exact h.own ha i d hd
    · intro ha d hd
      have ha : ∀ i, cs.filterMap (EncCall.data? i) = [] := fun i => by have := ha i; rw [filterMap_quiet rfl] at this; exact this
      rcases List.mem_append.mp hd with hd | hd
      · exact h.clear ha d hd
      · have : d = ⟨⟨n, ty, 0, []⟩, none, 0⟩ := by simpa using hd
        subst this; exact ⟨rfl, rfl⟩
  | dataSize col elem =>
    unfold Enc.call
    dsimp only
    unfold Enc.setSize
    cases hcol : e.column col with
    | none => exact h
    | some c =>
      dsimp only
      obtain ⟨h0, hget, hlt⟩ := is_column hcol
      have hcj : col = (col.toNat : Int) := by omega
      by_cases hs : 0 ≤ elem ∧ elem % 8 = 0
      · rw [if_pos hs]
        refine is_set h hget ⟨rfl, fun _ => rfl, rfl, rfl, rfl, rfl⟩ ⟨rfl, rfl⟩ ?_ ?_ ?_ ⟨rfl, rfl⟩
        · intro i hi; simp only [EncCall.size?]; rw [if_neg (by omega)]; exact ⟨rfl, rfl, rfl⟩
        · simp only [EncCall.size?]; rw [if_pos hcj]; rfl
        · simp [EncCall.member?]
      · rw [if_neg hs]; exact h
  | columnData col elem stride data =>
    unfold Enc.call
    dsimp only
    unfold Enc.setData
    by_cases hneg : col < 0 ∨ elem < 0 ∨ stride < 0
    · rw [if_pos hneg]; exact h
    · rw [if_neg hneg]
      unfold Enc.setColumn
      cases hget : e.cols[col.toNat]? with
      | none => exact h
      | some c =>
        dsimp only
        have hcj : col = (col.toNat : Int) := by omega
        by_cases hs : elem.toNat % 8 = 0 ∧ stride.toNat % 8 = 0
        · rw [if_pos hs]
          refine is_set h hget ⟨rfl, fun _ => rfl, rfl, rfl, rfl, rfl⟩ ⟨rfl, rfl⟩ ?_ ?_ ?_ ?_
          · intro i hi; simp only [EncCall.size?, EncCall.data?]; rw [if_neg (by omega), if_neg (by omega)]; exact ⟨rfl, rfl, rfl⟩
          · simp only [EncCall.size?]; rw [if_pos hcj]; rfl
          · simp [EncCall.member?]
          · simp only [EncCall.data?]; rw [if_pos hcj]; exact ⟨rfl, rfl⟩
        · rw [if_neg hs]; exact h
  | bitfield col name nbits =>
    unfold Enc.call
    dsimp only
    unfold Enc.addMember
    cases hcol : e.column col with
    | none => exact h
    | some c =>
      dsimp only
      obtain ⟨h0, hget, hlt⟩ := is_column hcol
      have hcj : col = (col.toNat : Int) := by omega
      cases addBit (cumulative 0 c.info.bits) name nbits with
      | error x => exact h
      | ok b =>
        dsimp only
        refine is_set h hget ⟨rfl, fun _ => rfl, rfl, rfl, rfl, rfl⟩ ⟨rfl, rfl⟩ ?_ ?_ ?_ ⟨rfl, rfl⟩
        · intro i hi; simp only [EncCall.member?]; rw [if_neg (by omega)]; exact ⟨rfl, rfl, rfl⟩
        · rfl
        · simp only [EncCall.member?]; rw [if_pos hcj]; rfl
  | dataArray a w hgt cm =>
    have hcase : ∀ (P : List EncArg → Prop), P e.cols → P (e.cols.map (fun c => { c with data := none, stride := 0 })) →
        P (if e.arr ≠ none then e.cols.map (fun c => { c with data := none, stride := 0 }) else e.cols) := by
      intro P h1 h2; split
      · exact h2
      · exact h1
    have hnames : (if e.arr ≠ none then e.cols.map (fun c => { c with data := none, stride := 0 }) else e.cols).map
        (fun c => (c.info.name, c.info.ty)) = cs.filterMap EncCall.col? := by
      apply hcase (fun l => l.map (fun c => (c.info.name, c.info.ty)) = cs.filterMap EncCall.col?)
      · exact h.names
      · rw [List.map_map]; exact h.names
    have hget : ∀ (i : Nat) (d : EncArg), (if e.arr ≠ none then e.cols.map (fun c => { c with data := none, stride := 0 }) else e.cols)[i]? = some d →
        ∃ c, e.cols[i]? = some c ∧ d.info = c.info ∧ ((d.data = c.data ∧ d.stride = c.stride) ∨ (d.data = none ∧ d.stride = 0)) ∧
          (e.arr = none → d = c) := by
      intro i d
      split
      · rename_i hne
        rw [List.getElem?_map]
        cases hc : e.cols[i]? with
        | none => intro hd; cases hd
        | some c =>
          intro hd
          cases hd
          exact ⟨c, rfl, rfl, Or.inr ⟨rfl, rfl⟩, fun hz => absurd hz hne⟩
      · intro hd; exact ⟨d, hd, rfl, Or.inl ⟨rfl, rfl⟩, fun _ => rfl⟩
    have hlen : (if e.arr ≠ none then e.cols.map (fun c => { c with data := none, stride := 0 }) else e.cols).length = e.cols.length := by
      split <;> simp
    have hclear : (∀ i, cs.filterMap (EncCall.data? i) = []) →
        ∀ d ∈ (if e.arr ≠ none then e.cols.map (fun c => { c with data := none, stride := 0 }) else e.cols), d.data = none ∧ d.stride = 0 := by
      intro ha d hd
      obtain ⟨i, hi⟩ := List.getElem?_of_mem hd
      obtain ⟨c, hc, _, h1, _⟩ := hget i d hi
      rcases h1 with h1 | h1
      · rw [h1.1, h1.2]; exact h.clear ha c (List.mem_of_getElem? hc)
      · exact h1
    unfold Enc.call Enc.setArray
    dsimp only
    by_cases h8 : cm % 8 ≠ 0
    · rw [if_pos h8]
      dsimp only
      refine ⟨h.perFrame, h.mapOk, h.props, hnames, ?_, ?_, ?_, h.rowsSaid, h.rowsArr, h.arr, ?_, hclear⟩
      · intro i d hd; obtain ⟨c, hc, hi, _⟩ := hget i d hd; rw [hi]; exact h.sizes i c hc
      · intro i d hd; obtain ⟨c, hc, hi, _⟩ := hget i d hd; rw [hi]; exact h.members i c hc
      · intro i hi; exact h.unsaid i (by rw [← hlen]; exact hi)
      · intro ha i d hd
        obtain ⟨c, hc, _, _, hi⟩ := hget i d hd
        have hn : e.arr = none := by
          have := h.arr; unfold lastSaid at this; rw [ha] at this
          cases he : e.arr with
          | none => rfl
          | some y => rw [he] at this; cases this
        rw [hi hn]; exact h.own ha i c hc
    · rw [if_neg h8]
      dsimp only
      refine ⟨?_, h.mapOk, ?_, ?_, ?_, ?_, ?_, ?_, ?_, ?_, ?_, ?_⟩
      · rw [lastSaid_quiet rfl]; exact h.perFrame
      · intro k; rw [lastSaid_quiet rfl]; exact h.props k
      · simp only [filterMap_snoc, EncCall.col?, Option.toList, List.append_nil]; exact hnames
      · intro i d hd; obtain ⟨c, hc, hi, _⟩ := hget i d hd; rw [hi, lastSaid_quiet rfl]; exact h.sizes i c hc
      · intro i d hd; obtain ⟨c, hc, hi, _⟩ := hget i d hd; rw [hi, filterMap_quiet rfl]; exact h.members i c hc
      · intro i hi
        have hi : e.cols.length ≤ i := by rw [← hlen]; exact hi
        rw [filterMap_quiet rfl, filterMap_quiet rfl, filterMap_quiet rfl]; exact h.unsaid i hi
      · intro n hn hn0
        have hn : lastSaid EncCall.rows? cs = some n := by rw [lastSaid_quiet rfl] at hn; exact hn
        have := h.rowsSaid n hn hn0
        dsimp only
        rw [if_neg (by omega)]; exact this
      · intro ha
        have ha : cs.filterMap EncCall.rows? = [] := by rw [filterMap_quiet rfl] at ha; exact ha
        have hr := h.rowsArr ha
        rw [filterMap_snoc]
        dsimp only
        rw [hr]
        cases hhs : cs.filterMap EncCall.height? with
        | nil =>
          simp only [EncCall.height?]
          by_cases hz : hgt = 0 <;> simp [hz]
        | cons y ys =>
          have : y ≠ 0 := by
            have hy : y ∈ cs.filterMap EncCall.height? := by rw [hhs]; simp
            obtain ⟨x, _, hx⟩ := List.mem_filterMap.mp hy
            unfold EncCall.height? at hx
            split at hx
            · split at hx
              · cases hx
              · rename_i hne; cases hx; exact hne
            · cases hx
          simp [this]
      · simp [lastSaid_snoc, EncCall.array?]
      · intro ha; rw [filterMap_snoc] at ha; simp [EncCall.array?] at ha
      · intro ha
        have ha : ∀ i, cs.filterMap (EncCall.data? i) = [] := fun i => by have := ha i; rw [filterMap_quiet rfl] at this; exact this
        exact hclear ha

theorem is_calls {e : Enc} {done : List EncCall} (h : e.Is done) (cs : List EncCall) :
    (e.calls cs).1.Is (done ++ (e.calls cs).2) := by
  induction cs generalizing e done with
  | nil => simpa [Enc.calls] using h
  | cons x cs ih =>
    have hs := is_step h x
    unfold Enc.calls
    cases hc : e.call x with
    | mk e' err =>
      rw [hc] at hs
      cases err with
      | none => have := ih hs; simpa using this
      | some y => exact ih hs

end Verif
