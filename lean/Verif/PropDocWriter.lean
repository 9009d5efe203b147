import Verif.PropDoc
import Verif.PropRows

/-
C57 for `Writer`: the files written row by row follow the file format document.
-/

namespace Verif

theorem EncSent.fits {env : Env} {n : Nat} {c : InCol} {m? : Option Word} {e : EncCol} (h : EncSent env n c m? e) : e.Fits env where
  save := by rw [h.ty]; exact h.sent.save
  trip := by
    intro o x hx
    rw [h.cells] at hx
    rw [h.ty]
    exact h.sent.trip o x hx
  name := by rw [h.info]; exact h.name
  nbits := by rw [h.info]; exact h.nbits
  bits := by rw [h.info]; exact h.bits
  noBits := by
    intro ht
    rw [h.ty] at ht
    rw [h.info]
    exact Vals.members_bitfield _ ht

/-- A column that the writer leaves out of a first row is one that readers can do without. -/
theorem skip_skippable {env : Env} (hlong : env.longEnv = false) {n : Nat} {c : InCol} {e : EncCol} (h : EncSent env n c none e)
    (hok : c.vals.OkMiss env none) (z : Cell) (hz : StartCell env c.vals none z ∨ LaterCell env c.vals none z) (r : Nat)
    (hr : (c.vals.cells env)[r]? = some z) : e.doc.Skippable env.asDbl := by
  have hz' : StartCell env c.vals none z ∨ ((none : Option Word) = none ∧ LaterCell env c.vals none z) := by
    rcases hz with h | h
    · exact Or.inl h
    · exact Or.inr ⟨rfl, h⟩
  have hskip := h.sent.skip hok z hz' r hr (fun _ _ _ => 0) 0 0
  have hch := h.sent.chosen
  have hgive := h.sent.gives r z hr
  have hint : ∀ (is : List Int) (ty : ColType), (ty = .integer ∨ ty = .bitfield) → c.vals.ty = ty → c.vals.words = 1 →
      c.vals.cells env = is.map (fun i => [intWord env.asDbl i]) → (∀ i ∈ is, InI32 i) →
      (∃ i, is[r]? = some i ∧ e.back z = [intWord env.asDbl i]) → e.doc.Skippable env.asDbl := by
    intro is ty hty hvt hw hcells his hg
    obtain ⟨c', e1, _, _, e4, ⟨lo, hi, _, _, _, e5, _⟩, _⟩ :=
      int_column ty hty env.asDbl env.longEnv 2147483647 (by decide) none (Or.inr ⟨rfl, rfl⟩) is his
    rw [hvt, hw, hcells, e1] at hch
    simp only [Except.ok.injEq] at hch
    subst hch
    show (match (docOf e.codec).which with
      | .constantString | .chars | .int8String | .int16String => False
      | .int8 | .int16 | .int32 | .int8Missing | .int16Missing | .constantOrMissing => (docOf e.codec).missing = ofInt 2147483647
      | .constant => e.doc.integral env.asDbl = false
      | .realConstantOrMissing | .longReal | .shortReal | .shortReal2 => True)
    have hm : (docOf e.codec).missing = ofInt 2147483647 := e4
    have hwh : (docOf e.codec).which = whichOf e.codec.kind := rfl
    have hcon : e.codec.kind = .constant → e.doc.integral env.asDbl = false := by
      intro hk
      rw [Doc.Col.integral_eq]
      cases hd : env.asDbl with
      | true => rfl
      | false =>
        exfalso
        obtain ⟨i, i1, i2⟩ := hg
        have hii := his i (List.mem_of_getElem? i1)
        unfold firstCell Codec.missingWord at hskip
        rw [reload_kind, hk] at hskip
        simp only [Kind.isInt, Bool.false_and, Bool.false_eq_true, if_false] at hskip
        rw [(reload_missing env.asDbl c.vals.ty.toInt e.codec).1, e4, i2] at hskip
        split at hskip
        · simp at hskip
        · simp only [Except.ok.injEq, List.cons.injEq] at hskip
          have h1 := hskip.1
          rw [hd] at h1
          have h2 : ¬ (ofInt 2147483647).toInt < 2147483648 := by decide +kernel
          have h3 : (BitVec.ofInt 64 i).toInt = i := by
            rw [BitVec.toInt_ofInt]
            have := hii.1; have := hii.2
            rw [Int.bmod_eq_of_le] <;> omega
          rw [h1] at h2
          change ¬ (BitVec.ofInt 64 i).toInt < _ at h2
          rw [h3] at h2
          have := hii.2
          omega
    rw [hwh]
    rw [hm]
    have hk : ∀ b n, (intKind b n = .constant ∨ (whichOf (intKind b n)) = .int8 ∨ (whichOf (intKind b n)) = .int16 ∨
        (whichOf (intKind b n)) = .int32 ∨ (whichOf (intKind b n)) = .int8Missing ∨ (whichOf (intKind b n)) = .int16Missing ∨
        (whichOf (intKind b n)) = .constantOrMissing) := by
      intro b n
      unfold intKind
      repeat' split
      all_goals simp [whichOf]
    have hk := hk (decide ((2147483647 : Int) ∈ is)) (hi - lo)
    rw [← e5] at hk
    rcases hk with h | h | h | h | h | h | h
    · have := hcon h
      rw [h]
      exact this
    all_goals rw [h]
  have hreal : ∀ ty : ColType, (ty = .real ∨ ty = .double) → c.vals.ty = ty → e.doc.Skippable env.asDbl := by
    intro ty hty hvt
    have hk := chosen_isReal hty (by rw [← hvt]; exact hch)
    have hi : e.doc.integral env.asDbl = false := by
      rw [Doc.Col.integral_eq]
      have : e.doc.type = c.vals.ty.toInt := congrArg ColType.toInt h.ty
      rw [this, hvt]
      rcases hty with rfl | rfl <;> simp [ColType.toInt]
    show (match whichOf e.codec.kind with
      | .constantString | .chars | .int8String | .int16String => False
      | .int8 | .int16 | .int32 | .int8Missing | .int16Missing | .constantOrMissing => (docOf e.codec).missing = ofInt 2147483647
      | .constant => e.doc.integral env.asDbl = false
      | .realConstantOrMissing | .longReal | .shortReal | .shortReal2 => True)
    rw [hi]
    cases hkk : e.codec.kind <;> rw [hkk] at hk <;> simp_all [Kind.isRealKind, whichOf]
  cases hv : c.vals with
  | ints vs =>
    rw [hv] at hok hgive
    exact hint vs .integer (Or.inl rfl) (by rw [hv]; rfl) (by rw [hv]; rfl) (by rw [hv]; rfl) hok.2 hgive
  | bits ms vs =>
    rw [hv] at hok hgive
    exact hint vs .bitfield (Or.inr rfl) (by rw [hv]; rfl) (by rw [hv]; rfl) (by rw [hv]; rfl) hok.2.1 hgive
  | reals vs => exact hreal .real (Or.inl rfl) (by rw [hv]; rfl)
  | doubles vs => exact hreal .double (Or.inr rfl) (by rw [hv]; rfl)
  | strings w vs =>
    rw [hv] at hok hr hz'
    exact (string_not_skipped hok z hz' r hr).elim

/-- Such a column stands for its missing value. -/
theorem skip_stands {env : Env} (hlong : env.longEnv = false) {n : Nat} {c : InCol} {e : EncCol} (h : EncSent env n c none e)
    (hne : c.vals.rows ≠ 0)
    (hok : c.vals.OkMiss env none) (z : Cell) (hz : StartCell env c.vals none z ∨ LaterCell env c.vals none z) (r : Nat)
    (hr : (c.vals.cells env)[r]? = some z) :
    (Doc.Value.num e.doc.codec.missing).Shown (e.doc.integral env.asDbl) (e.back z) ∧
      (e.doc.codec.which.isText = true ↔ ∃ s, Doc.Value.num e.doc.codec.missing = .text s) ∧
      (e.doc.integral env.asDbl = true → ∀ d, Doc.Value.num e.doc.codec.missing = .num d → Doc.Whole d) := by
  have hs := skip_skippable hlong h hok z hz r hr
  have hz' : StartCell env c.vals none z ∨ ((none : Option Word) = none ∧ LaterCell env c.vals none z) := by
    rcases hz with h | h
    · exact Or.inl h
    · exact Or.inr ⟨rfl, h⟩
  have hskip := h.sent.skip hok z hz' r hr (fun _ _ _ => 0) 0 0
  have hch := h.sent.chosen
  rw [hlong] at hch
  have hl := (chosen_doc hch).1
  obtain ⟨f1, f2⟩ := first_shown env.asDbl e.doc hs
  have hld : (loadedCol env.asDbl e.doc).codec = reload env.asDbl c.vals.ty.toInt e.codec := by
    rw [loadedCol_codec]
    show reload env.asDbl e.info.ty.toInt (ofDoc (docOf e.codec)) = _
    rw [reload_docOf _ _ _ hl, h.ty]
  rw [hld] at f1 f2
  obtain ⟨_, p2, p3⟩ := sent_plain h.sent hok hne (fun _ => rfl)
  unfold firstCell at hskip
  rw [p2] at hskip
  dsimp only at hskip
  rw [if_neg p3, f2] at hskip
  simp only [Nat.sub_self, List.range_zero, List.map_nil, Except.ok.injEq] at hskip
  rw [hskip] at f1
  refine ⟨f1, ?_, ?_⟩
  · constructor
    · intro ht
      unfold Doc.Col.Skippable at hs
      unfold Doc.Which.isText at ht
      cases hw : e.doc.codec.which <;> simp_all
    · rintro ⟨s, hs'⟩
      cases hs'
  · intro hi d hd
    simp only [Doc.Value.num.injEq] at hd
    subst hd
    rw [Doc.Col.integral_eq] at hi
    unfold Doc.Col.Skippable at hs
    rw [Doc.Col.integral_eq] at hs
    have hmdi : Doc.Whole (ofInt 2147483647) := whole_ofInt _ (by unfold Small; omega)
    cases hw : e.doc.codec.which <;> rw [hw] at hs hi <;> simp only [Doc.Which.mayInt, Bool.and_false, Bool.false_eq_true] at hi hs
    all_goals first
      | exact hs.elim
      | (rw [hs]; exact hmdi)
      | (rw [hs] at hi; cases hi)

theorem putHeader_doc (env : Env) (o : Order) (es : List EncCol) (hfit : ∀ e ∈ es, e.Fits env)
    (hkind : ∀ e ∈ es, e.codec.kind ≠ .longConstantString) (props : StrMap)
    (hplen : ∀ kv ∈ props, LenOk kv.1.length ∧ LenOk kv.2.length) (rs : List Doc.Row) (bs : List Byte)
    (hd : Doc.Frame.data (endian o) ⟨[], props, es.map EncCol.doc, rs⟩ = bs) :
    Doc.Frame.bytes env.md5 (endian o) ⟨[], props, es.map EncCol.doc, rs⟩ =
      putHeader env.md5 o { dataSize := bs.length, nrows := rs.length, props := props, cols := es.map EncCol.col } ++ bs := by
  have hcb : (es.map EncCol.doc).flatMap (Doc.Col.bytes (endian o)) = (es.map EncCol.col).flatMap (putCol o) := by
    rw [List.flatMap_map, List.flatMap_map]
    clear * - hfit hkind
    induction es with
    | nil => rfl
    | cons e es ih =>
      rw [List.flatMap_cons, List.flatMap_cons, ih (fun e' h' => hfit e' (by simp [h'])) (fun e' h' => hkind e' (by simp [h'])),
        EncCol.doc_bytes (hfit e (by simp)) (hkind e (by simp))]
  have hpb : props.flatMap (fun p => Doc.string (endian o) p.1 ++ Doc.string (endian o) p.2) =
      props.flatMap (fun kv => putStr o kv.1 ++ putStr o kv.2) := by
    clear * - hplen
    induction props with
    | nil => rfl
    | cons p ps ih =>
      obtain ⟨a, b⟩ := hplen p (by simp)
      rw [List.flatMap_cons, List.flatMap_cons, ih (fun x hx => hplen x (by simp [hx])), string_eq o _ a, string_eq o _ b]
  have hvar : Doc.Frame.variable (endian o) ⟨[], props, es.map EncCol.doc, rs⟩ =
      putVar o { dataSize := bs.length, nrows := rs.length, props := props, cols := es.map EncCol.col } := by
    unfold Doc.Frame.variable putVar
    rw [hd, hcb, hpb]
    simp only [uint_eq, int32_eq, putMap, List.length_map, List.append_assoc, List.flatMap_nil, List.nil_append, List.length_nil]
    rfl
  unfold Doc.Frame.bytes putHeader putFixed
  rw [hvar, hd, ascii_oda]
  unfold Doc.string
  simp only [uint4_any, int32_eq, putStr, List.append_assoc]
  rfl

/-- Specification: the frame `f` holds rows `s` to `s + n` of the table. -/
structure FrameWritten (env : Env) (T : UTable) (s n : Nat) (f : Doc.Frame) : Prop where
  valid : f.Valid env.asDbl
  flags : f.flags = []
  props : f.props = T.props
  rows : f.rows.length = n
  cols : Match ColWritten T.cols f.cols
  table : ∃ vals, f.table = some vals ∧ vals.length = n ∧ ∀ (r : Nat) (row : List Doc.Value) (p : Nat) (c : InCol),
    vals[r]? = some row → T.cols[p]? = some c → ∃ x, row[p]? = some x ∧ Stands (c.vals.part s n) r x

theorem frameMade_doc (env : Env) (hlong : env.longEnv = false) (o : Order) (T : UTable) (hT : WTable env T)
    (hnd : (T.cols.map InCol.name).Nodup) (hbig : T.rows < 9223372036854775808) (s j : Nat) (hj : 0 < j) (hs : s + j ≤ T.rows)
    (hok : ∀ c ∈ T.cols, (c.vals.part s j).Ok env) (F : RFrame)
    (hF : FrameFor env o T (List.replicate T.cols.length none) s j F) :
    ∃ f, FrameWritten env T s j f ∧ f.bytes env.md5 (endian o) = F.bytes := by
  obtain ⟨_, es, hl, hes', _, _, bs, last, hbytes, henc, hlast⟩ := hF
  have hes : ∀ (i : Nat) (c : InCol) (e : EncCol), T.cols[i]? = some c → es[i]? = some e → EncSent env j (partCol s j c) none e := by
    intro i c e hc he
    exact hes' i c none e hc (by rw [List.getElem?_replicate, if_pos (List.getElem?_eq_some_iff.mp hc).1]) he
  have hS : ∀ e ∈ es, ∃ c ∈ T.cols, EncSent env j (partCol s j c) none e := by
    intro e he
    obtain ⟨i, hi, rfl⟩ := List.getElem_of_mem he
    exact ⟨T.cols[i]'(by omega), List.getElem_mem _, hes i _ _ (List.getElem?_eq_getElem (by omega)) (List.getElem?_eq_getElem hi)⟩
  have hfit : ∀ e ∈ es, e.Fits env := fun e he => let ⟨_, _, h⟩ := hS e he; h.fits
  have hkind : ∀ e ∈ es, e.codec.kind ≠ .longConstantString ∧ e.codec.kind ≠ .chars := by
    intro e he
    obtain ⟨c, _, h⟩ := hS e he
    have hch := h.sent.chosen
    rw [hlong] at hch
    exact ⟨(chosen_doc hch).1, chosenCodec_kind hch⟩
  have hrow0 : (rowsOf (es.map EncCol.data) j).head? = some (rowAt (es.map EncCol.data) 0) := by
    unfold rowsOf
    cases j with
    | zero => omega
    | succ j => rw [List.range_succ_eq_map]; rfl
  have hfirst : ∀ (i : Nat) (e : EncCol) (x : Cell), i < sameLead last (rowAt (es.map EncCol.data) 0) → es[i]? = some e →
      (rowAt (es.map EncCol.data) 0)[i]? = some x →
      e.doc.Skippable env.asDbl ∧ (Doc.Value.num e.doc.codec.missing).Shown (e.doc.integral env.asDbl) (e.back x) ∧
      (e.doc.codec.which.isText = true ↔ ∃ s, Doc.Value.num e.doc.codec.missing = .text s) ∧
      (e.doc.integral env.asDbl = true → ∀ d, Doc.Value.num e.doc.codec.missing = .num d → Doc.Whole d) := by
    intro i e x hi he hx
    have hil := (List.getElem?_eq_some_iff.mp he).1
    have hc : T.cols[i]? = some (T.cols[i]'(by omega)) := List.getElem?_eq_getElem _
    generalize T.cols[i]'(by omega) = c at hc
    have hE := hes i c e hc he
    have hrows : (c.vals.part s j).rows = j := hE.rows
    have hcell : ((c.vals.part s j).cells env)[0]? = some x := by
      simp only [rowAt, List.getElem?_map, he, Option.map_some, Option.some.injEq] at hx
      rw [← hx]
      have h1 : e.data.cells = (c.vals.part s j).cells env := hE.cells
      rw [h1, List.getD_eq_getElem?_getD]
      have : 0 < ((c.vals.part s j).cells env).length := by rw [Vals.cells_length, hrows]; exact hj
      rw [List.getElem?_eq_getElem this]
      rfl
    have hlx : last[i]? = some x := by rw [sameLead_take _ _ _ hi]; exact hx
    have hcell' : (c.vals.cells env)[s]? = some x := by
      rw [Vals.part_cells, List.getElem?_take, if_pos hj, List.getElem?_drop] at hcell
      simpa using hcell
    have hz : StartCell env (partCol s j c).vals none x ∨ LaterCell env (partCol s j c).vals none x := by
      rcases hlast i c none x hc (by rw [List.getElem?_replicate, if_pos (by omega)]) hlx hcell' with h | ⟨_, h⟩
      · exact Or.inl (startCell_part.mpr h)
      · exact Or.inr (laterCell_part.mpr h)
    have hcok : (partCol s j c).vals.OkMiss env none := (Vals.OkMiss.none_iff env _).mpr (hok c (List.mem_of_getElem? hc))
    exact ⟨skip_skippable hlong hE hcok x hz 0 hcell,
      skip_stands hlong hE (by show (c.vals.part s j).rows ≠ 0; omega) hcok x hz 0 hcell⟩
  obtain ⟨rs, vals, d1, d2, d3, d4, d5, d6⟩ := encRows_doc env o es (by rw [hl]; exact hT.few) hkind hfit
    (rowsOf (es.map EncCol.data) j) (by
      intro row hrow
      simp only [rowsOf, List.mem_map, List.mem_range] at hrow
      obtain ⟨r, hr, rfl⟩ := hrow
      refine ⟨by simp [rowAt], ?_⟩
      intro i e x he hx
      obtain ⟨c, _, hE⟩ := hS e (List.mem_of_getElem? he)
      have hel : e.data.cells.length = j := by rw [hE.cells, Vals.cells_length, hE.rows]
      simp only [rowAt, List.getElem?_map, he, Option.map_some, Option.some.injEq] at hx
      rw [← hx, List.getD_eq_getElem?_getD, List.getElem?_eq_getElem (by omega)]
      exact List.getElem_mem _) (some last) ((es.map EncCol.doc).map (fun c => .num c.codec.missing))
    (by
      intro p hp row hrow
      simp only [Option.some.injEq] at hp
      subst hp
      rw [hrow0] at hrow
      simp only [Option.some.injEq] at hrow
      subst hrow
      have hrl : (rowAt (es.map EncCol.data) 0).length = es.length := by simp [rowAt]
      rw [docLead_take]
      generalize sameLead last (rowAt (es.map EncCol.data) 0) = q at hfirst
      generalize rowAt (es.map EncCol.data) 0 = row at hfirst hrl
      clear * - hfirst hrl
      induction es generalizing row q with
      | nil =>
        cases row with
        | nil => simpa using RowStands.nil
        | cons x row => simp at hrl
      | cons e es ih =>
        cases row with
        | nil => simp at hrl
        | cons x row =>
          cases q with
          | zero => exact .nil
          | succ q =>
            refine .cons (hfirst 0 e x (by omega) rfl rfl).2 (ih q row ?_ (by simpa using hrl))
            intro i e' x' hi he hx
            exact hfirst (i + 1) e' x' (by omega) he hx)
    bs henc
  have hrl : rs.length = j := by rw [d2]; simp [rowsOf]
  refine ⟨⟨[], T.props, es.map EncCol.doc, rs⟩, ⟨?_, rfl, rfl, hrl, ?_, vals, d5, ?_, ?_⟩, ?_⟩
  · refine { cols := ?_, names := ?_, ncols := ?_, nflags := by simp, nprops := hT.nprops, props := hT.plen, nrows := ?_,
             rows := ?_, codes := ?_, whole := ?_, first := ?_ }
    · intro d hd
      simp only [List.mem_map] at hd
      obtain ⟨e, he, rfl⟩ := hd
      obtain ⟨c, hc, hE⟩ := hS e he
      refine EncCol.doc_valid (hfit e he) (hkind e he).1 ?_
      rw [hE.ty]
      exact (sent_plain hE.sent ((Vals.OkMiss.none_iff env _).mpr (hok c hc)) (by rw [hE.rows]; omega) (fun _ => rfl)).1
    · have : (es.map EncCol.doc).map Doc.Col.name = T.cols.map InCol.name := by
        apply List.ext_getElem (by simp [hl])
        intro i h1 h2
        have hE := hes i _ _ (List.getElem?_eq_getElem (by simpa using h2)) (List.getElem?_eq_getElem (by simpa using h1))
        simp only [List.getElem_map, EncCol.doc, hE.info]
        rfl
      rw [this]
      exact hnd
    · simp only [List.length_map, hl]
      exact hT.few
    · simp only
      omega
    · intro r hr
      have := (d3 r hr).1
      simpa using this
    · intro r hr i c x hc hx
      exact ((d3 r hr).2 i c x hc hx).1
    · intro r hr i c x d hc hx hi hd
      exact ((d3 r hr).2 i c x hc hx).2 d hi hd
    · intro r hr d hd
      have hst := d4 r _ hr hrow0
      obtain ⟨i, hi⟩ := List.mem_iff_getElem?.mp hd
      rw [hst, List.getElem?_take] at hi
      split at hi
      · rename_i hlt
        simp only [List.getElem?_map] at hi
        cases he : es[i]? with
        | none => simp [he] at hi
        | some e =>
          simp only [he, Option.map_some, Option.some.injEq] at hi
          subst hi
          exact (hfirst i e _ hlt he (by simp only [rowAt, List.getElem?_map, he, Option.map_some]; rfl)).1
      · simp at hi
  · refine Match.of_get _ _ (by simp [hl]) ?_
    intro i c d hc hd
    rw [List.getElem?_map] at hd
    cases he : es[i]? with
    | none => simp [he] at hd
    | some e =>
      simp only [he, Option.map_some, Option.some.injEq] at hd
      subst hd
      have hE := hes i c e hc he
      simp only [ColWritten, EncCol.doc, hE.info]
      exact ⟨rfl, Vals.part_ty _ _ _ ▸ rfl, by cases hv : c.vals <;> simp [InCol.info, partCol, hv, Vals.part, Vals.members]⟩
  · rw [← d6.length]
    simp [rowsOf]
  · intro r row p c hr hc
    have hpl := (List.getElem?_eq_some_iff.mp hc).1
    have he : es[p]? = some (es[p]'(by omega)) := List.getElem?_eq_getElem _
    generalize es[p]'(by omega) = e at he
    have hE := hes p c e hc he
    have hrT : r < j := by
      have h1 := (List.getElem?_eq_some_iff.mp hr).1
      rw [← d6.length] at h1
      simpa [rowsOf] using h1
    have hrow := d6.get r _ row (by simp only [rowsOf, List.getElem?_map, List.getElem?_range hrT, Option.map_some]; rfl) hr
    obtain ⟨x, v, x1, x2, x3, x4, x5⟩ := hrow.get p e he
    have hx : x = e.data.cells.getD r [] := by
      simp only [rowAt, List.getElem?_map, he, Option.map_some, Option.some.injEq] at x1
      exact x1.symm
    subst hx
    refine ⟨v, x2, ?_⟩
    have hcell : ((partCol s j c).vals.cells env)[r]? = some (e.data.cells.getD r []) := by
      rw [← hE.cells, List.getD_eq_getElem?_getD]
      have : r < e.data.cells.length := by rw [hE.cells, Vals.cells_length, hE.rows]; exact hrT
      rw [List.getElem?_eq_getElem this]
      rfl
    have hg := hE.sent.gives r _ hcell
    rw [Vals.GivesMiss.none_iff] at hg
    have hch := hE.sent.chosen
    rw [hlong] at hch
    exact stands_of (c := partCol s j c) hE.ty hch (hok c (List.mem_of_getElem? hc)) hg x3 x4 x5
  · rw [putHeader_doc env o es hfit (fun e he => (hkind e he).1) T.props hT.plen rs bs d1.symm, hbytes, hrl]

/-- **C57** for `Writer`: a table written row by row, with any buffer size, gives frames as the document describes
them, on machines of either byte order: `⌈rows / cap⌉` of them, each with the names, types and bitfield members of the
columns and the properties, and the next `cap` rows; the values of these frames, as the document defines them, stand for
those written. -/
theorem C57_written_as_documented (env : Env) (hmd5 : env.Md5Ok) (hlong : env.longEnv = false) (o : Order) (cap : Nat) (hcap : 0 < cap)
    (T : UTable) (hT : T.RowsOk env cap) (hbig : T.rows < 9223372036854775808) :
    ∃ fs : List Doc.Frame, T.write env o cap = .ok (fs.map (Doc.Frame.bytes env.md5 (endian o))) ∧
      fs.length = (T.rows + cap - 1) / cap ∧ ∀ (k : Nat) (f : Doc.Frame), fs[k]? = some f →
        FrameWritten env T (k * cap) (min cap (T.rows - k * cap)) f := by
  obtain ⟨Fs, h1, h2⟩ := writeMiss_ok env hmd5 o T hT.wtable cap hcap (List.replicate T.cols.length none) (by simp) hT.names
    hT.named
    (by
      intro i c m? hc hm
      have := List.eq_of_mem_replicate (List.mem_of_getElem? hm)
      subst this
      exact start_missing_none env c.vals)
    (by
      intro k i c m? hk hc hm
      rw [msAt_none] at hm
      have := List.eq_of_mem_replicate (List.mem_of_getElem? hm)
      subst this
      exact (Vals.OkMiss.none_iff env _).mpr (hT.vals k hk c (List.mem_of_getElem? hc)))
    (by
      intro i c m z hc hm
      have := List.eq_of_mem_replicate (List.mem_of_getElem? hm)
      simp at this)
  have hall : ∀ (k : Nat) (F : RFrame), Fs[k]? = some F → ∃ f, FrameWritten env T (k * cap) (min cap (T.rows - k * cap)) f ∧
      f.bytes env.md5 (endian o) = F.bytes := by
    intro k F hk
    obtain ⟨a, b⟩ := h2.good k F hk
    rw [msAt_none] at b
    exact frameMade_doc env hlong o T hT.wtable hT.names hbig _ _ (by omega) (by omega) (hT.vals k a) F b
  haveI : Nonempty Doc.Frame := ⟨⟨[], [], [], []⟩⟩
  choose! g hg using hall
  refine ⟨Fs.zipIdx.map (fun e => g e.2 e.1), ?_, by simp [h2.count], ?_⟩
  · have : (Fs.zipIdx.map (fun e => g e.2 e.1)).map (Doc.Frame.bytes env.md5 (endian o)) = Fs.map RFrame.bytes := by
      apply List.ext_getElem?
      intro i
      simp only [List.getElem?_map, List.getElem?_zipIdx]
      cases hi : Fs[i]? with
      | none => rfl
      | some F =>
        simp only [Option.map_some, Nat.zero_add]
        rw [(hg i F hi).2]
    rw [this]
    exact h1
  · intro k f hk
    simp only [List.getElem?_map, List.getElem?_zipIdx] at hk
    cases hi : Fs[k]? with
    | none => simp [hi] at hk
    | some F =>
      simp only [hi, Option.map_some, Nat.zero_add, Option.some.injEq] at hk
      subst hk
      exact (hg k F hi).1

/-! ### The hypotheses can be met -/

example := C57_written_as_documented sampleEnv sampleEnv_md5 rfl .other 2 (by decide) sampleTable sampleTable_rowsOk (by decide)

/-- Sample: the first row holds the missing value. -/
def gapTable : UTable := { rows := 2, props := [], cols := [⟨lit "i", .ints [2147483647, 5]⟩, ⟨lit "j", .ints [1, 2]⟩] }

theorem gapTable_rowsOk : gapTable.RowsOk sampleEnv 2 where
  few := by decide +kernel
  names := by decide +kernel
  named := by
    intro c hc
    simp only [gapTable, List.mem_cons, List.not_mem_nil, or_false] at hc
    rcases hc with rfl | rfl <;> decide +kernel
  rows := by
    intro c hc
    simp only [gapTable, List.mem_cons, List.not_mem_nil, or_false] at hc
    rcases hc with rfl | rfl <;> decide +kernel
  lens := by
    intro c hc
    simp only [gapTable, List.mem_cons, List.not_mem_nil, or_false] at hc
    rcases hc with rfl | rfl
    all_goals
      refine ⟨by decide +kernel, by decide +kernel, ?_⟩
      intro b hb
      simp [Vals.members] at hb
  props := List.Pairwise.nil
  nprops := by decide +kernel
  plen := by simp [gapTable]
  big := by decide +kernel
  vals := by
    intro k hk c hc
    have hk3 : k * 2 < 2 := hk
    obtain rfl : k = 0 := by omega
    simp only [gapTable, List.mem_cons, List.not_mem_nil, or_false] at hc
    rcases hc with rfl | rfl
    · exact ball (l := [2147483647, 5]) (P := InI32) (by decide +kernel)
    · exact ball (l := [1, 2]) (P := InI32) (by decide +kernel)

/-- The first row of its frame leaves out the first column: the data are the marker 1 and one code, then the marker 0 and
two codes. -/
example : (match gapTable.write sampleEnv .same 2 with
    | .ok [f] => decide (f.drop (f.length - 7) = [0, 1, 0, 0, 0, 0, 1])
    | _ => false) = true := by decide +kernel

example := C57_written_as_documented sampleEnv sampleEnv_md5 rfl .same 2 (by decide) gapTable gapTable_rowsOk (by decide)

end Verif
