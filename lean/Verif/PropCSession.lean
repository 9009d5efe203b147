import Verif.CSession

/-
C56: setting up the C encoder.
-/

namespace Verif

/-! ### Specification: which calls are accepted -/

/-- Specification: after the accepted calls `cs`, the next call is accepted.  Calls about a column need that column, sizes
and strides must be non-negative multiples of 8, and the members of a bitfield must end between bit 0 and bit 32. -/
def Accepts (cs : List EncCall) : EncCall → Prop
  | .dataArray _ _ _ cm => cm % 8 = 0
  | .dataSize col elem => 0 ≤ col ∧ col < (cs.filterMap EncCall.col?).length ∧ 0 ≤ elem ∧ elem % 8 = 0
  | .columnData col elem stride _ =>
    0 ≤ col ∧ col < (cs.filterMap EncCall.col?).length ∧ 0 ≤ elem ∧ elem % 8 = 0 ∧ 0 ≤ stride ∧ stride % 8 = 0
  | .bitfield col _ k => 0 ≤ col ∧ col < (cs.filterMap EncCall.col?).length ∧
      0 ≤ ((cs.filterMap (EncCall.member? col.toNat)).map Prod.snd).sum + k ∧
      ((cs.filterMap (EncCall.member? col.toNat)).map Prod.snd).sum + k ≤ 32
  | _ => True

/-- Specification: sizes of bitfield members are `int`s. -/
def EncCall.Int32 : EncCall → Prop
  | .bitfield _ _ k => -2147483648 ≤ k ∧ k < 2147483648
  | _ => True

/-! ### Proofs -/

/-- The members of each column end between bit 0 and bit 32. -/
def Enc.Members (e : Enc) : Prop := ∀ c ∈ e.cols, 0 ≤ sizeSum c.info.bits ∧ sizeSum c.info.bits ≤ 32

theorem members_step {e : Enc} (h : e.Members) (x : EncCall) (hx : x.Int32) : (e.call x).1.Members := by
  have hset : ∀ (j : Nat) (c' : EncArg), 0 ≤ sizeSum c'.info.bits ∧ sizeSum c'.info.bits ≤ 32 →
      Enc.Members { e with cols := e.cols.set j c' } := by
    intro j c' hc' d hd
    rcases List.mem_or_eq_of_mem_set hd with hd | rfl
    · exact h d hd
    · exact hc'
  have hclr : ∀ d ∈ (if e.arr ≠ none then e.cols.map (fun c => { c with data := none, stride := 0 }) else e.cols),
      0 ≤ sizeSum d.info.bits ∧ sizeSum d.info.bits ≤ 32 := by
    intro d hd
    split at hd
    · obtain ⟨c, hc, rfl⟩ := List.mem_map.mp hd; exact h c hc
    · exact h d hd
  cases x with
  | property k v => exact h
  | rowCount n => exact h
  | rowsPerFrame n => exact h
  | addColumn n ty =>
    intro d hd
    rcases List.mem_append.mp hd with hd | hd
    · exact h d hd
    · have : d = ⟨⟨n, ty, 0, []⟩, none, 0⟩ := by simpa using hd
      subst this; simp [sizeSum]
  | dataArray a w hgt cm =>
    unfold Enc.call Enc.setArray
    dsimp only
    by_cases h8 : cm % 8 ≠ 0
    · rw [if_pos h8]; exact hclr
    · rw [if_neg h8]; exact hclr
  | dataSize col elem =>
    unfold Enc.call Enc.setSize
    dsimp only
    cases hcol : e.column col with
    | none => exact h
    | some c =>
      have hm := h c (List.mem_of_getElem? (is_column hcol).2.1)
      dsimp only
      by_cases hs : 0 ≤ elem ∧ elem % 8 = 0
      · rw [if_pos hs]; exact hset _ _ hm
      · rw [if_neg hs]; exact h
  | columnData col elem stride data =>
    unfold Enc.call Enc.setData Enc.setColumn
    dsimp only
    by_cases hneg : col < 0 ∨ elem < 0 ∨ stride < 0
    · rw [if_pos hneg]; exact h
    · rw [if_neg hneg]
      cases hget : e.cols[col.toNat]? with
      | none => exact h
      | some c =>
        have hm := h c (List.mem_of_getElem? hget)
        dsimp only
        by_cases hs : elem.toNat % 8 = 0 ∧ stride.toNat % 8 = 0
        · rw [if_pos hs]; exact hset _ _ hm
        · rw [if_neg hs]; exact h
  | bitfield col name nbits =>
    unfold Enc.call Enc.addMember
    dsimp only
    cases hcol : e.column col with
    | none => exact h
    | some c =>
      have hm := h c (List.mem_of_getElem? (is_column hcol).2.1)
      dsimp only
      rw [addBit_any c.info.bits name nbits hm.1 hm.2 hx.1 hx.2]
      by_cases hs : 0 ≤ sizeSum c.info.bits + nbits ∧ sizeSum c.info.bits + nbits ≤ 32
      · rw [if_pos hs]
        apply hset
        dsimp only
        rw [sizeSum_append]
        simpa [sizeSum] using hs
      · rw [if_neg hs]; exact h

theorem members_calls {e : Enc} (h : e.Members) (cs : List EncCall) (hx : ∀ x ∈ cs, x.Int32) : (e.calls cs).1.Members := by
  induction cs generalizing e with
  | nil => exact h
  | cons x cs ih =>
    have hs := members_step h x (hx x (by simp))
    have hi := fun e' (he' : Enc.Members e') => ih he' (fun y hy => hx y (by simp [hy]))
    unfold Enc.calls
    cases hc : e.call x with
    | mk e' err =>
      rw [hc] at hs
      cases err with
      | none => exact hi e' hs
      | some y => exact hi e' hs

/-- **C56 (refusals)**: after any calls, in any order and with any arguments, the next call is accepted exactly if the
accepted calls before it allow it (`Accepts`); every refusal is a failed assertion. -/
theorem C56_accepts (cs : List EncCall) (hcs : ∀ x ∈ cs, x.Int32) (x : EncCall) (hx : x.Int32) :
    ((((Enc.new.calls cs).1.call x).2 = none ↔ Accepts (Enc.new.calls cs).2 x)) ∧
      (((Enc.new.calls cs).1.call x).2 = none ∨ ((Enc.new.calls cs).1.call x).2 = some .assertFailed) := by
  have h : (Enc.new.calls cs).1.Is (Enc.new.calls cs).2 := by simpa using is_calls Enc.is_new cs
  have hm := members_calls (e := Enc.new) (by simp [Enc.Members, Enc.new]) cs hcs
  generalize (Enc.new.calls cs).1 = e at h hm ⊢
  generalize (Enc.new.calls cs).2 = acc at h ⊢
  have hlen : (acc.filterMap EncCall.col?).length = e.cols.length := by rw [← h.names]; simp
  have hcolumn : ∀ col : Int, e.column col = none ↔ ¬ (0 ≤ col ∧ col < (acc.filterMap EncCall.col?).length) := by
    intro col
    unfold Enc.column
    rw [hlen]
    by_cases hc : col < 0
    · rw [if_pos hc]; simp; omega
    · rw [if_neg hc, List.getElem?_eq_none_iff]; omega
  cases x with
  | property k v => exact ⟨⟨fun _ => trivial, fun _ => rfl⟩, Or.inl rfl⟩
  | rowCount n => exact ⟨⟨fun _ => trivial, fun _ => rfl⟩, Or.inl rfl⟩
  | rowsPerFrame n => exact ⟨⟨fun _ => trivial, fun _ => rfl⟩, Or.inl rfl⟩
  | addColumn n ty => exact ⟨⟨fun _ => trivial, fun _ => rfl⟩, Or.inl rfl⟩
  | dataArray a w hgt cm =>
    unfold Enc.call Enc.setArray Accepts
    dsimp only
    by_cases h8 : cm % 8 ≠ 0
    · rw [if_pos h8]; simp [h8]
    · rw [if_neg h8]; simp at h8; simp [h8]
  | dataSize col elem =>
    unfold Enc.call Enc.setSize Accepts
    dsimp only
    have hc := hcolumn col
    cases hcol : e.column col with
    | none =>
      have := hc.mp hcol
      simp; omega
    | some c =>
      rw [hcol] at hc
      have hc : 0 ≤ col ∧ col < (acc.filterMap EncCall.col?).length := by
        by_cases hz : 0 ≤ col ∧ col < (acc.filterMap EncCall.col?).length
        · exact hz
        · exact absurd (hc.mpr hz) (by simp)
      dsimp only
      by_cases hs : 0 ≤ elem ∧ elem % 8 = 0
      · rw [if_pos hs]; simp only [true_iff, true_or, and_true]; omega
      · rw [if_neg hs]; simp; omega
  | columnData col elem stride data =>
    unfold Enc.call Enc.setData Enc.setColumn Accepts
    dsimp only
    by_cases hneg : col < 0 ∨ elem < 0 ∨ stride < 0
    · rw [if_pos hneg]; simp; omega
    · rw [if_neg hneg]
      have hc := hcolumn col
      unfold Enc.column at hc
      rw [if_neg (by omega)] at hc
      cases hcol : e.cols[col.toNat]? with
      | none =>
        have := hc.mp hcol
        simp; omega
      | some c =>
        rw [hcol] at hc
        have hc : 0 ≤ col ∧ col < (acc.filterMap EncCall.col?).length := by
          by_cases hz : 0 ≤ col ∧ col < (acc.filterMap EncCall.col?).length
          · exact hz
          · exact absurd (hc.mpr hz) (by simp)
        dsimp only
        by_cases hs : elem.toNat % 8 = 0 ∧ stride.toNat % 8 = 0
        · rw [if_pos hs]; simp only [true_iff, true_or, and_true]; omega
        · rw [if_neg hs]; simp; omega
  | bitfield col name nbits =>
    unfold Enc.call Enc.addMember Accepts
    dsimp only
    have hc := hcolumn col
    cases hcol : e.column col with
    | none =>
      have := hc.mp hcol
      simp; omega
    | some c =>
      have hget := (is_column hcol).2.1
      have hmc := hm c (List.mem_of_getElem? hget)
      rw [hcol] at hc
      have hc : 0 ≤ col ∧ col < (acc.filterMap EncCall.col?).length := by
        by_cases hz : 0 ≤ col ∧ col < (acc.filterMap EncCall.col?).length
        · exact hz
        · exact absurd (hc.mpr hz) (by simp)
      dsimp only
      rw [addBit_any c.info.bits name nbits hmc.1 hmc.2 hx.1 hx.2, ← h.members _ c hget]
      rw [show (c.info.bits.map Prod.snd).sum = sizeSum c.info.bits from rfl]
      by_cases hs : 0 ≤ sizeSum c.info.bits + nbits ∧ sizeSum c.info.bits + nbits ≤ 32
      · rw [if_pos hs]; simp only [true_iff, true_or, and_true]; omega
      · rw [if_neg hs]; simp; omega

/-- The columns, rows, properties and limit of an encoder told about a table. -/
theorem described_enc {e : Enc} {cs : List EncCall} {T : UTable} {limit : Nat} (h : e.Is cs) (hd : Described cs T limit)
    (hp : MapOk T.props) (hword : ∀ c ∈ T.cols, 1 ≤ c.vals.words) :
    e.cols.map (fun c => sized c.info) = T.cols.map InCol.info ∧ e.nrows = T.rows ∧ e.props = T.props ∧ e.limit = limit := by
  refine ⟨?_, ?_, ?_, ?_⟩
  · have hnames := h.names.trans hd.names
    have hlen : e.cols.length = T.cols.length := by simpa using congrArg List.length hnames
    apply List.ext_getElem (by simp [hlen])
    intro i h1 h2
    have hi : i < e.cols.length := by simpa using h1
    have hi' : i < T.cols.length := by omega
    rw [List.getElem_map, List.getElem_map]
    have hn : (e.cols[i].info.name, e.cols[i].info.ty) = (T.cols[i].name, T.cols[i].vals.ty) := by
      have := List.getElem_of_eq hnames (show i < (e.cols.map _).length by simpa using hi)
      simpa using this
    have hs := h.sizes i _ (List.getElem?_eq_getElem hi)
    have hm := h.members i _ (List.getElem?_eq_getElem hi)
    rw [hd.members i _ (List.getElem?_eq_getElem hi')] at hm
    have hs' := hd.sizes i _ (List.getElem?_eq_getElem hi')
    have hsz : (sized e.cols[i].info).decodedSize = 8 * T.cols[i].vals.words := by
      unfold sized
      dsimp only
      rcases hs' with h3 | ⟨h3 | h3, h4⟩
      · rw [h3] at hs; rw [hs]
        simp only [Option.getD_some]
        have := hword _ (List.getElem_mem hi')
        rw [if_neg (by omega)]
      · rw [h3] at hs; rw [hs, h4]; rfl
      · rw [h3] at hs; rw [hs, h4]; rfl
    have hn1 := congrArg Prod.fst hn
    have hn2 := congrArg Prod.snd hn
    dsimp only at hn1 hn2
    unfold InCol.info
    rw [← hsz, ← hn1, ← hn2, ← hm]
    rfl
  · rcases hd.rows with h1 | ⟨h1, h2⟩
    · exact h.rowsSaid _ h1 (by have := hd.pos.1; omega)
    · rw [h.rowsArr h1, h2]; rfl
  · exact strMap_ext _ _ h.mapOk hp (fun k => (h.props k).trans (hd.props k))
  · rw [h.perFrame]; exact hd.perFrame

/-- **C56 (array)**: whatever the order of the calls that set up the encoder, and whatever refused calls came between
them, if the accepted calls describe the table (`Described`), gave no column memory of its own, and the last array given
holds the table in one of the two layouts, then the table is encoded as `encode` does (C01-C08), with the last limit given,
or 10000 rows per frame. -/
theorem C56_array (env : Env) (T : UTable) (hT : T.Ok env) (hword : ∀ c ∈ T.cols, 1 ≤ c.vals.words) (cs : List EncCall)
    (limit : Nat) (hd : Described (Enc.new.calls cs).2 T limit)
    (hnone : ∀ col elem stride data, EncCall.columnData col elem stride data ∉ (Enc.new.calls cs).2)
    (base width height cm : Nat) (harr : lastSaid EncCall.array? (Enc.new.calls cs).2 = some (base, width, height, cm))
    (hh : T.rows ≤ height) (hw : (T.cols.map (fun c => 8 * c.vals.words)).sum ≤ width) (m : Mem)
    (hlay : (cm = 0 ∧ width % 8 = 0 ∧ HoldsTable env m T (fun i r w => base + r * width + T.before i + 8 * w)) ∨
      (0 < cm ∧ cm % 8 = 0 ∧ (∀ c ∈ T.cols, cm ∣ 8 * c.vals.words) ∧
        HoldsTable env m T (fun i r w => base + T.before i * height + (r + 8 * w / cm * height) * cm + 8 * w % cm)))
    (fuel : Nat) :
    odcEncode env m (Enc.new.calls cs).1 fuel = T.encodeLimit env limit fuel := by
  have h : (Enc.new.calls cs).1.Is (Enc.new.calls cs).2 := by simpa using is_calls Enc.is_new cs
  generalize (Enc.new.calls cs).1 = e at h ⊢
  generalize (Enc.new.calls cs).2 = acc at h hd hnone harr
  obtain ⟨h1, h2, h3, h4⟩ := described_enc h hd hT.props hword
  have hclear : ∀ i, acc.filterMap (EncCall.data? i) = [] := by
    intro i
    rw [List.filterMap_eq_nil_iff]
    intro x hx
    cases x with
    | columnData col elem stride data => exact absurd hx (hnone col elem stride data)
    | _ => rfl
  have ha := h.arr
  rw [harr] at ha
  cases he : e.arr with
  | none => rw [he] at ha; cases ha
  | some a =>
    rw [he] at ha
    simp only [Option.map_some, Option.some.injEq, Prod.mk.injEq] at ha
    obtain ⟨a1, a2, a3, a4⟩ := ha
    subst a1; subst a2; subst a3; subst a4
    rw [C23_encode env T hT hd.pos.1 m e ⟨h1, h.clear hclear, h2, h3, by rw [h4]; exact hd.pos.2⟩ base fuel he hh hw hword hlay, h4]

/-- **C56 (columns)**: the same for columns with memory of their own: the last address and stride given for each column
count (an element after the other if the stride is 0), and no array was given. -/
theorem C56_columns (env : Env) (T : UTable) (hT : T.Ok env) (hword : ∀ c ∈ T.cols, 1 ≤ c.vals.words) (cs : List EncCall)
    (limit : Nat) (hd : Described (Enc.new.calls cs).2 T limit)
    (hnone : ∀ a w h cm, EncCall.dataArray a w h cm ∉ (Enc.new.calls cs).2)
    (at_ stride step : Nat → Nat) (m : Mem)
    (hsaid : ∀ (i : Nat) (c : InCol), T.cols[i]? = some c →
      lastSaid (EncCall.data? i) (Enc.new.calls cs).2 = some (at_ i, stride i) ∧
        stride i % 8 = 0 ∧ step i = if stride i = 0 then 8 * c.vals.words else stride i)
    (hold : HoldsTable env m T (fun i r w => at_ i + r * step i + 8 * w)) (fuel : Nat) :
    odcEncode env m (Enc.new.calls cs).1 fuel = T.encodeLimit env limit fuel := by
  have h : (Enc.new.calls cs).1.Is (Enc.new.calls cs).2 := by simpa using is_calls Enc.is_new cs
  generalize (Enc.new.calls cs).1 = e at h ⊢
  generalize (Enc.new.calls cs).2 = acc at h hd hnone hsaid
  obtain ⟨h1, h2, h3, h4⟩ := described_enc h hd hT.props hword
  have hclear : acc.filterMap EncCall.array? = [] := by
    rw [List.filterMap_eq_nil_iff]
    intro x hx
    cases x with
    | dataArray a w h cm => exact absurd hx (hnone a w h cm)
    | _ => rfl
  have ha : e.arr = none := by
    have := h.arr
    unfold lastSaid at this
    rw [hclear] at this
    cases he : e.arr with
    | none => rfl
    | some a => rw [he] at this; cases this
  have hown : ∀ (i : Nat) (c : EncArg) (ic : InCol), e.cols[i]? = some c → T.cols[i]? = some ic →
      c.data = some (at_ i) ∧ c.stride % 8 = 0 ∧ step i = if c.stride = 0 then 8 * ic.vals.words else c.stride := by
    intro i c ic hc hic
    obtain ⟨s1, s2, s3⟩ := hsaid i ic hic
    obtain ⟨o1, o2⟩ := h.own hclear i c hc
    rw [s1] at o1 o2
    have o2 : c.stride = stride i := o2
    rw [o1, o2]
    exact ⟨rfl, s2, s3⟩
  rw [C23_encode_columns env T hT hd.pos.1 m e fuel h1 h2 h3 (by rw [h4]; exact hd.pos.2) ha hword at_ step hown hold, h4]

theorem writeTables_get (env : Env) (Cs : List UTable) (bss : List (List Byte)) (h : writeTables env Cs = .ok bss) (i : Nat)
    (b : List Byte) (hb : bss[i]? = some b) : ∃ C, Cs[i]? = some C ∧ C.encode env .same = .ok b := by
  induction Cs generalizing bss i with
  | nil => cases h; simp at hb
  | cons C Cs ih =>
    unfold writeTables at h
    cases hC : C.encode env .same with
    | error e => rw [hC] at h; cases h
    | ok b0 =>
      rw [hC] at h
      dsimp only at h
      cases hw : writeTables env Cs with
      | error e => rw [hw] at h; cases h
      | ok bs =>
        rw [hw] at h
        cases h
        cases i with
        | zero => simp at hb; subst hb; exact ⟨C, rfl, hC⟩
        | succ i => obtain ⟨D, hD, hE⟩ := ih bs hw i (by simpa using hb); exact ⟨D, by simpa using hD, hE⟩

/-- The whole table is a part of itself. -/
theorem part_whole (T : UTable) (h : ∀ c ∈ T.cols, c.vals.rows = T.rows) : T.part 0 T.rows = T := by
  unfold UTable.part
  obtain ⟨cols, rows, props⟩ := T
  dsimp only at h ⊢
  congr 1
  apply List.ext_getElem (by simp)
  intro i h1 h2
  rw [List.getElem_map]
  have := h _ (List.getElem_mem h2)
  generalize cols[i] = c at this ⊢
  obtain ⟨n, v⟩ := c
  dsimp only at this ⊢
  rw [← this]
  cases v <;> simp [Vals.part, Vals.rows]

/-- **C56 (round trip)**: when the encoder encodes as `encode` does (`C56_array`, `C56_columns`), it writes one frame for
every `limit` rows and one for the rest, and a C decoder of frame `i` in which columns were added by name puts the values of
the rows from `i * limit` on at the places C23 says. -/
theorem C56_round_trip (env : Env) (hmd5 : env.Md5Ok) (T : UTable) (hT : T.Ok env) (m : Mem) (e : Enc) (limit fuel : Nat)
    (henc : odcEncode env m e fuel = T.encodeLimit env limit fuel) (hl : 0 < limit) (hrows : 0 < T.rows)
    (hbig : T.rows ≤ 2147483647) (hf : T.rows ≤ fuel)
    (hparts : ∀ i : Nat, i * limit < T.rows → (T.part (i * limit) (min (T.rows - i * limit) limit)).Ok env) :
    ∃ bss, odcEncode env m e fuel = .ok bss ∧ bss.length = (T.rows + limit - 1) / limit ∧
      ∀ (i : Nat) (bytes : List Byte), bss[i]? = some bytes → bytes.length ≤ 2147483647 → ∀ n, n = min (T.rows - i * limit) limit →
        ∀ names : List Str, names ≠ [] → names.Nodup → (∀ nm ∈ names, nm ∈ T.cols.map InCol.name) →
        0 < n ∧ ∃ (fr : List Tbl) (sizes : List Nat), readPlain env bytes = ([fr], none) ∧ sizes.length = names.length ∧
          ∀ (alloc : Nat) (junk : Nat → Nat → Cell) (mm : Mem) (d : Dec), d.cols = (Dec.new names).cols → n ≤ d.nrows →
            (d.ext ≠ none → sizes.sum ≤ d.width ∧ d.nrows ≤ d.height) →
            ∃ d' m', odcDecode bytes fr alloc junk d mm = .ok (d', m', n) ∧ d'.nrows = d.nrows ∧
              d'.width = (if d.ext = none then sizes.sum else d.width) ∧ d'.height = (if d.ext = none then d.nrows else d.height) ∧
              ∀ (j : Nat) (c : InCol) (s : Nat), c ∈ T.cols → names[j]? = some c.name → sizes[j]? = some s → ∀ r, r < n →
                ∃ ws : Cell, (c.vals.part (i * limit) n).Back env r ws ∧ ws.length = s / 8 ∧ ∀ (w : Nat) (x : Word), ws[w]? = some x →
                  m'.word (d.ext.getD alloc + (if d.columnMajor then d'.height * (sizes.take j).sum + 8 * (r + w * d.nrows)
                    else r * d'.width + (sizes.take j).sum + 8 * w)) = x := by
  have hc : ∀ c ∈ T.cols, c.vals.rows = T.rows := fun c hc => (hT.col c hc).2.2
  obtain ⟨Cs, h1, h2, h3⟩ := encodeLimit_parts env T limit fuel hl hT.ne hc hbig hf
  have hCs : ∀ (i : Nat) (C : UTable), Cs[i]? = some C → i * limit < T.rows ∧ C = T.part (i * limit) (min (T.rows - i * limit) limit) := by
    intro i C hi
    obtain ⟨a, b | ⟨b1, b2⟩⟩ := h3 i C hi
    · obtain ⟨b1, b2, b3⟩ := b
      subst b2
      refine ⟨by omega, ?_⟩
      rw [b3, Nat.zero_mul, Nat.sub_zero, Nat.min_eq_left b1, part_whole T hc]
    · exact ⟨a hrows, b2⟩
  obtain ⟨bss, w1, w2, _⟩ := writeTables_ok env hmd5 Cs (by
    intro C hC
    obtain ⟨i, hi⟩ := List.mem_iff_getElem?.mp hC
    obtain ⟨a, b⟩ := hCs i C hi
    rw [b]; exact hparts i a)
  refine ⟨bss, by rw [henc, h1, w1], ?_, ?_⟩
  · rw [w2, h2]
    unfold frameCount
    split
    · rename_i hle
      symm
      apply Nat.div_eq_of_lt_le <;> omega
    · rfl
  · intro i bytes hb hsz n hn names hne hnd hsub
    obtain ⟨C, hC, hCe⟩ := writeTables_get env Cs bss w1 i bytes hb
    obtain ⟨a, b⟩ := hCs i C hC
    rw [← hn] at b
    have hn0 : 0 < n := by omega
    have hCr : C.rows = n := by rw [b]; rfl
    have hCok : C.Ok env := by rw [b, hn]; exact hparts i a
    have hnm : C.cols.map InCol.name = T.cols.map InCol.name := by
      rw [b]; simp [UTable.part, Function.comp_def]
    obtain ⟨fr, sizes, d1, d2, _, d4⟩ := C23_decode env hmd5 C hCok (by omega) bytes hCe hsz names hne hnd (by rw [hnm]; exact hsub)
    refine ⟨hn0, fr, sizes, d1, d2, ?_⟩
    intro alloc junk mm d hdc hdr hde
    obtain ⟨d', m', e1, e2, e3, e4, e5, _⟩ := d4 alloc junk mm d hdc (by omega) hde
    rw [hCr] at e1 e5
    refine ⟨d', m', e1, e2, e3, e4, ?_⟩
    intro j c s hcm hj hs r hr
    have hcm' : (⟨c.name, c.vals.part (i * limit) n⟩ : InCol) ∈ C.cols := by
      rw [b]; exact List.mem_map.mpr ⟨c, hcm, rfl⟩
    exact e5 j _ s hcm' hj hs r hr

/-! ### A concrete case -/

/-- Sample: calls in an odd order, some of them refused. -/
def oddCalls : List EncCall :=
  [.rowsPerFrame 7, .dataSize 0 16, .dataArray 64 8 9 4, .addColumn (lit "s") .string, .property (lit "k") (lit "old"),
    .bitfield 0 (lit "m") 33, .dataArray 0 24 2 0, .dataSize 0 (-8), .addColumn (lit "n") .integer, .dataSize 0 12, .dataSize 0 16,
    .property (lit "k") (lit "new"), .dataSize 2 8, .rowsPerFrame 1, .columnData (-1) 8 8 0]

/-- Sample: the table they describe. -/
def oddTable : UTable := { smallTable with props := [(lit "k", lit "new")] }

/-- Of the fifteen calls eight were accepted. -/
example : (Enc.new.calls oddCalls).2.length = 8 := by decide +kernel

example : sameOk (odcEncode sampleEnv (memOf [w01234567, w89, 5, wabcdefgh, wij, 6]) (Enc.new.calls oddCalls).1 10)
    (oddTable.encodeLimit sampleEnv 1 10) = true := by decide +kernel

/-- They describe the table. -/
theorem oddCalls_described : Described (Enc.new.calls oddCalls).2 oddTable 1 := by
  have hacc : (Enc.new.calls oddCalls).2 = [.rowsPerFrame 7, .addColumn (lit "s") .string, .property (lit "k") (lit "old"),
    .dataArray 0 24 2 0, .addColumn (lit "n") .integer, .dataSize 0 16, .property (lit "k") (lit "new"), .rowsPerFrame 1] := by rfl
  rw [hacc]
  refine ⟨rfl, ?_, ?_, ?_, Or.inr ⟨rfl, rfl⟩, rfl, by decide⟩
  · intro i c hc
    match i with
    | 0 => cases hc; exact Or.inl rfl
    | 1 => cases hc; exact Or.inr ⟨Or.inl rfl, rfl⟩
    | i + 2 => simp [oddTable, smallTable] at hc
  · intro i c hc
    match i with
    | 0 => cases hc; rfl
    | 1 => cases hc; rfl
    | i + 2 => simp [oddTable, smallTable] at hc
  · intro k
    by_cases hk : lit "k" = k
    · subst hk; rfl
    · simp [lastSaid, EncCall.prop?, hk, oddTable, mapGet]

end Verif
