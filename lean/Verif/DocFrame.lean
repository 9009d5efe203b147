import Verif.DocCodec
import Verif.PropSafe

/-
Headers and rows of the model against the file format document.
-/

namespace Verif

/-! ### Columns -/

/-- Proof device: a documented column as the library writes it. -/
def ofDocCol (c : Doc.Col) : Col := ⟨c.name, c.type, c.bits.map Prod.fst, c.bits.map Prod.snd, ofDoc c.codec⟩

/-- Proof device: a documented column as the library holds it after reading. -/
def loadedCol (asDbl : Bool) (c : Doc.Col) : Col := (ofDocCol c).reload asDbl

theorem loadedCol_codec (asDbl : Bool) (c : Doc.Col) : (loadedCol asDbl c).codec = reload asDbl c.type (ofDoc c.codec) := rfl

theorem bytes_ofDocCol (o : Order) (c : Doc.Col) (hname : LenOk c.name.length) (hn : LenOk c.codec.strings.length)
    (hs : ∀ s ∈ c.codec.strings, LenOk s.length) (hb : ∀ b ∈ c.bits, LenOk b.1.length) :
    c.bytes (endian o) = putCol o (ofDocCol c) := by
  have h1 : c.bits.flatMap (fun b => Doc.string (endian o) b.1) = (c.bits.map Prod.fst).flatMap (putStr o) := by
    rw [List.flatMap_map]
    clear hs hn hname
    generalize c.bits = bits at hb ⊢
    induction bits with
    | nil => rfl
    | cons b bs ih =>
      rw [List.flatMap_cons, List.flatMap_cons, ih (fun x hx => hb x (by simp [hx])), string_eq o _ (hb b (by simp))]
  have h2 : c.bits.flatMap (fun b => Doc.int32 (endian o) b.2) = (c.bits.map Prod.snd).flatMap (putI32 o) := by
    rw [List.flatMap_map]
    simp only [int32_eq]
  have hk : LenOk c.codec.which.name.length := by rw [which_name]; exact Kind.name_len _
  unfold Doc.Col.bytes putCol saveCodec
  rw [string_eq o _ hname, int32_eq, h1, h2, string_eq o _ hk, ofDoc_save o _ hn hs, which_name]
  simp only [ofDocCol, putVec, int32_eq, List.length_map, List.append_assoc]
  rfl

theorem colOk_doc {asDbl : Bool} {c : Doc.Col} (h : c.Valid asDbl) : ColOk asDbl (ofDocCol c) where
  name := h.name
  ty := h.type
  bits := by intro ht; simp [ofDocCol, h.bits ht]
  nb := by simp [ofDocCol]
  nbOk := by show LenOk _; simpa [ofDocCol, LenOk] using h.nbits
  bn := by
    intro s hs
    simp only [ofDocCol, List.mem_map] at hs
    obtain ⟨b, hb, rfl⟩ := hs
    exact (h.members b hb).1
  bs := by
    intro s hs
    simp only [ofDocCol, List.mem_map] at hs
    obtain ⟨b, hb, rfl⟩ := hs
    exact (h.members b hb).2
  codec :=
    { hm := h.hasMissing
      nstr := h.nstrings
      slen := h.strings
      cast := by
        intro hk
        have hne : c.codec.which ≠ .constant := by
          intro hc
          simp [ofDocCol, ofDoc, hc, kindOf, Kind.isInt] at hk
        show ∃ w, toVT (vtOf (kindOf c.codec.which) c.type asDbl) c.codec.missing = .ok w
        rw [vt_doc]
        obtain ⟨w, hw, _⟩ := toVT_shown (b := c.integral asDbl) (d := c.codec.missing) (fun hi => h.missing hi hne)
        exact ⟨w, hw⟩ }

/-! ### Header -/

/-- Proof device: the header as the library holds it after reading. -/
def loadedInfo (asDbl : Bool) (o : Order) (f : Doc.Frame) : HeaderInfo :=
  { dataSize := (f.data (endian o)).length, nrows := f.rows.length,
    props := f.props.foldl (fun m kv => mapEmplace strLt kv.1 kv.2 m) [], cols := f.cols.map (loadedCol asDbl) }

theorem reads_var_doc (o : Order) (asDbl : Bool) (f : Doc.Frame) (hf : f.Valid asDbl)
    (hd : (f.data (endian o)).length < 18446744073709551616) :
    Reads (readVar o asDbl) (f.variable (endian o)) (loadedInfo asDbl o f) := by
  have hw : f.flags.flatMap (Doc.double (endian o)) = f.flags.flatMap (putWord o) := by simp only [funext (double_eq o)]
  have hp : f.props.flatMap (fun p => Doc.string (endian o) p.1 ++ Doc.string (endian o) p.2) =
      f.props.flatMap (fun kv => putStr o kv.1 ++ putStr o kv.2) := by
    have := hf.props
    generalize f.props = ps at this ⊢
    clear * - this
    induction ps with
    | nil => rfl
    | cons p ps ih =>
      obtain ⟨a, b⟩ := this p (by simp)
      rw [List.flatMap_cons, List.flatMap_cons, ih (fun x hx => this x (by simp [hx])), string_eq o _ a, string_eq o _ b]
  have hc : f.cols.flatMap (Doc.Col.bytes (endian o)) = f.cols.flatMap (fun c => putCol o (ofDocCol c)) := by
    have := hf.cols
    generalize f.cols = cs at this ⊢
    clear * - this
    induction cs with
    | nil => rfl
    | cons c cs ih =>
      have hv := this c (by simp)
      rw [List.flatMap_cons, List.flatMap_cons, ih (fun x hx => this x (by simp [hx])),
        bytes_ofDocCol o c hv.name hv.nstrings hv.strings (fun b hb => (hv.members b hb).1)]
  have e : f.variable (endian o) = putN o 8 (f.data (endian o)).length ++ (putN o 8 0 ++ (putN o 8 f.rows.length ++
      (putVec o (putWord o) f.flags ++ (putMap o f.props ++ (putI32 o f.cols.length ++
        f.cols.flatMap (fun c => putCol o (ofDocCol c))))))) := by
    unfold Doc.Frame.variable
    rw [hw, hp, hc]
    simp only [uint_eq, int32_eq, putVec, putMap, List.append_assoc]
  rw [e]
  unfold readVar
  refine Reads.bind (reads_N o 8 _ (by simpa using hd)) ?_
  refine Reads.bind (reads_N o 8 0 (by decide)) ?_
  rw [if_neg (by simp)]
  refine Reads.bind (reads_N o 8 _ (by have := hf.nrows; simp; omega)) ?_
  refine Reads.bind (reads_vec o (readWord o) (putWord o) f.flags hf.nflags (fun w _ => reads_word o w)) ?_
  have hm : Reads (readMap o) (putMap o f.props) (f.props.foldl (fun m kv => mapEmplace strLt kv.1 kv.2 m) []) := by
    unfold readMap putMap
    refine Reads.bind (reads_i32 o _ (LenOk.inI32 hf.nprops)) ?_
    refine Reads.bind_pure (a := f.props) ?_ (fun s => rfl)
    simp only [Int.toNat_natCast]
    refine reads_many _ _ f.props ?_
    intro kv hkv
    refine Reads.bind (reads_str o _ (hf.props kv hkv).1) ?_
    exact Reads.bind_pure (reads_str o _ (hf.props kv hkv).2) (fun s => rfl)
  refine Reads.bind hm ?_
  refine Reads.bind (reads_i32 o _ (LenOk.inI32 (n := f.cols.length) (by have := hf.ncols; unfold LenOk; omega))) ?_
  rw [if_neg (by omega), Int.toNat_natCast]
  refine Reads.bind_pure (reads_many' (readCol o asDbl) (fun c => putCol o (ofDocCol c)) (loadedCol asDbl) f.cols
    (fun c hc => reads_col o asDbl (ofDocCol c) (colOk_doc (hf.cols c hc)))) (fun s => rfl)

theorem ascii_oda : ([0xff, 0xff] : List Byte) ++ Doc.ascii "ODA" = magic := by decide

/-- A documented frame is a frame for the reader. -/
def rawDoc (md5 : List Byte → Str) (asDbl : Bool) (o : Order) (f : Doc.Frame) : RawFrame :=
  { bytes := f.bytes md5 (endian o), info := loadedInfo asDbl o f, order := o, data := f.data (endian o) }

theorem rawDoc_ok (env : Env) (hmd5 : env.Md5Ok) (o : Order) (f : Doc.Frame) (hf : f.Valid env.asDbl)
    (hv : (f.variable (endian o)).length ≤ 2147483647) (hd : (f.data (endian o)).length < 9223372036854775808) :
    (rawDoc env.md5 env.asDbl o f).Ok env := by
  refine ⟨?_, ?_⟩
  · have hl : LenOk (env.md5 (f.variable (endian o))).length := by rw [hmd5]; decide
    have e : (rawDoc env.md5 env.asDbl o f).bytes = magic ++ (putI32 o 1 ++ ((putI32 o 0 ++ (putI32 o 5 ++
        (putStr o (env.md5 (f.variable (endian o))) ++ putI32 o (f.variable (endian o)).length))) ++
          (f.variable (endian o) ++ f.data (endian o)))) := by
      show f.bytes env.md5 (endian o) = _
      unfold Doc.Frame.bytes
      rw [ascii_oda, int32_nat o 1 (by decide), int32_nat o _ hv, string_eq o _ hl]
      simp only [int32_eq, List.append_assoc]
      rfl
    rw [e]
    refine parseHeader_of _ _ _ o _ _ _ _ (env.md5 (f.variable (endian o))) (by simp) (by simp [hmd5 _]) (orderOf_put o).symm
      ⟨[], ?_⟩ rfl ⟨[], ?_⟩
    · have := reads_basic o (env.md5 (f.variable (endian o))) _ hl hv []
      rwa [List.append_nil] at this
    · have := reads_var_doc o env.asDbl f hf (by omega) []
      rwa [List.append_nil] at this
  · exact toI64_small _ hd

theorem copy_doc {env : Env} {o : Order} {f : Doc.Frame} (hf : f.Valid env.asDbl) (pos : Int) :
    ((rawDoc env.md5 env.asDbl o f).tbl pos).copy = .ok ((rawDoc env.md5 env.asDbl o f).tbl pos) := by
  have : cloneCols (f.cols.map (loadedCol env.asDbl)) = .ok (f.cols.map (loadedCol env.asDbl)) := by
    have hc := hf.cols
    generalize f.cols = cs at hc ⊢
    clear * - hc
    induction cs with
    | nil => rfl
    | cons c cs ih =>
      have hv := hc c (by simp)
      have h1 : (loadedCol env.asDbl c).codec.clone = .ok (loadedCol env.asDbl c).codec := by
        unfold Codec.clone
        obtain ⟨_, e2, e3, e4, _⟩ := reload_fields env.asDbl c
        rw [loadedCol_codec, e2, e3, e4]
        have hr := hv.range
        cases hw : c.codec.which <;> simp [hw, kindOf, Kind.isChars] at hr ⊢ <;> simp [feq, hr.1, hr.2]
      simp only [List.map_cons, cloneCols, h1, ih (fun x hx => hc x (by simp [hx]))]
  unfold Tbl.copy
  have h2 : ((rawDoc env.md5 env.asDbl o f).tbl pos).info.cols = f.cols.map (loadedCol env.asDbl) := rfl
  rw [h2, this]
  rfl

/-! ### Rows -/

/-- Proof device: the cells of the wanted columns show the values. -/
inductive DocCellsOk (asDbl : Bool) : List (Doc.Col × Bool) → List Doc.Value → List Cell → Prop
  | nil : DocCellsOk asDbl [] [] []
  | cons {c b cs v vs x xs} : (b = true → v.Shown (c.integral asDbl) x ∧ x.length = (loadedCol asDbl c).codec.width) → DocCellsOk asDbl cs vs xs →
      DocCellsOk asDbl ((c, b) :: cs) (v :: vs) (x :: xs)

theorem DocCellsOk.lengths {asDbl : Bool} {cs : List (Doc.Col × Bool)} {vs : List Doc.Value} {xs : List Cell}
    (h : DocCellsOk asDbl cs vs xs) : vs.length = cs.length ∧ xs.length = cs.length := by
  induction h with
  | nil => simp
  | cons _ _ ih => simp [ih.1, ih.2]

theorem DocCellsOk.take {asDbl : Bool} {cs : List (Doc.Col × Bool)} {vs : List Doc.Value} {xs : List Cell}
    (h : DocCellsOk asDbl cs vs xs) (n : Nat) : DocCellsOk asDbl (cs.take n) (vs.take n) (xs.take n) := by
  induction h generalizing n with
  | nil => simpa using DocCellsOk.nil
  | cons a _ ih =>
    cases n with
    | zero => exact .nil
    | succ n => exact .cons a (ih n)

theorem DocCellsOk.append {asDbl : Bool} {cs cs' : List (Doc.Col × Bool)} {vs vs' : List Doc.Value} {xs xs' : List Cell}
    (h : DocCellsOk asDbl cs vs xs) (h' : DocCellsOk asDbl cs' vs' xs') : DocCellsOk asDbl (cs ++ cs') (vs ++ vs') (xs ++ xs') := by
  induction h with
  | nil => exact h'
  | cons a _ ih => exact .cons a ih

theorem DocCellsOk.get {asDbl : Bool} {cs : List (Doc.Col × Bool)} {vs : List Doc.Value} {xs : List Cell}
    (h : DocCellsOk asDbl cs vs xs) (p : Nat) (c : Doc.Col) (hc : cs[p]? = some (c, true)) :
    ∃ v x, vs[p]? = some v ∧ xs[p]? = some x ∧ v.Shown (c.integral asDbl) x ∧
      x.length = (loadedCol asDbl c).codec.width := by
  induction h generalizing p with
  | nil => simp at hc
  | cons a _ ih =>
    cases p with
    | zero =>
      simp only [List.getElem?_cons_zero, Option.some.injEq, Prod.mk.injEq] at hc
      obtain ⟨rfl, rfl⟩ := hc
      exact ⟨_, _, rfl, rfl, a rfl⟩
    | succ p =>
      simp only [List.getElem?_cons_succ] at hc ⊢
      exact ih p hc

theorem loaded_width (asDbl : Bool) (c : Doc.Col) : (loadedCol asDbl c).codec.decWidth = (loadedCol asDbl c).codec.width := by
  rw [loadedCol_codec]
  unfold reload ofDoc Codec.decWidth fresh
  cases c.codec.which <;> rfl

/-- Proof device: the codecs of the loaded columns, with the wanted ones marked. -/
def loadedCodecs (asDbl : Bool) (cb : List (Doc.Col × Bool)) : List (Codec × Bool) :=
  cb.map (fun e => ((loadedCol asDbl e.1).codec, e.2))

theorem refCols_doc (o : Order) (asDbl : Bool) (cb : List (Doc.Col × Bool)) (xs : List Nat) (vs : List Doc.Value)
    (hv : Doc.values (cb.map Prod.fst) xs = some vs)
    (hx : ∀ (i : Nat) (c : Doc.Col) (x : Nat), (cb.map Prod.fst)[i]? = some c → xs[i]? = some x → x < 256 ^ c.codec.which.size)
    (hw : ∀ (i : Nat) (c : Doc.Col) (x : Nat) (d : Word), (cb.map Prod.fst)[i]? = some c → xs[i]? = some x →
      c.integral asDbl = true → c.codec.value x = some (.num d) → Doc.Whole d)
    (cur : List Cell) (hcur : cur.length = cb.length) :
    ∃ cells, Reads (refCols o (loadedCodecs asDbl cb) cur) (Doc.codes (endian o) (cb.map Prod.fst) xs) cells ∧
      DocCellsOk asDbl cb vs cells := by
  induction cb generalizing xs vs cur with
  | nil =>
    cases xs with
    | nil =>
      simp [Doc.values] at hv
      subst hv
      exact ⟨[], Reads.pure _, .nil⟩
    | cons x xs => simp [Doc.values] at hv
  | cons e cb ih =>
    obtain ⟨c, b⟩ := e
    cases cur with
    | nil => simp at hcur
    | cons y ys =>
      cases xs with
      | nil => simp [Doc.values] at hv
      | cons x xs =>
        simp only [List.map_cons, Doc.values] at hv
        cases h1 : c.codec.value x with
        | none => simp [h1] at hv
        | some v =>
          cases h2 : Doc.values (cb.map Prod.fst) xs with
          | none => simp [h1, h2] at hv
          | some vs' =>
            simp only [h1, h2, Option.some.injEq] at hv
            subst hv
            obtain ⟨cells, c1, c2⟩ := ih xs vs' h2 (fun i => hx (i + 1)) (fun i => hw (i + 1)) ys (by simpa using hcur)
            have hx0 := hx 0 c x rfl rfl
            obtain ⟨cell, d1, d2⟩ := dec_doc o asDbl c x hx0 v h1 (by
              intro hi d hd
              subst hd
              exact hw 0 c x d rfl rfl hi h1)
            show ∃ cells, Reads (do
              let y' ← (if b = true then (loadedCol asDbl c).codec.dec o else do (loadedCol asDbl c).codec.skip; pure y)
              let ys' ← refCols o (loadedCodecs asDbl cb) ys
              pure (y' :: ys')) (c.codec.code (endian o) x ++ Doc.codes (endian o) (cb.map Prod.fst) xs) cells ∧ _
            cases b with
            | true =>
              refine ⟨cell :: cells, ?_, .cons (fun _ => ⟨d2, ?_⟩) c2⟩
              rotate_left
              · rw [← loaded_width]
                exact (dec_consumes o _ _ _ _ (d1 [])).2.2
              exact Reads.bind d1 (Reads.bind_pure c1 (fun s => rfl))
            | false =>
              refine ⟨y :: cells, ?_, .cons (fun h => by cases h) c2⟩
              refine Reads.bind (a := y) ?_ (Reads.bind_pure c1 (fun s => rfl))
              intro r
              simp only [Bool.false_eq_true, if_false]
              rw [P.bind_apply, loadedCol_codec]
              unfold Codec.skip advance
              rw [encSize_doc, if_pos (by simp [code_length]), List.drop_left' (code_length _ _ _)]
              rfl

theorem uint_marker (n : Nat) : Doc.uint .big 2 n = markerBytes n := by
  simp [Doc.uint, markerBytes, List.range_succ]

/-- Proof device: the data section, from some row on. -/
theorem refRows_doc (o : Order) (asDbl : Bool) (cb : List (Doc.Col × Bool)) (hn : cb.length < 65536) (rows : List Doc.Row)
    (hst : ∀ r ∈ rows, r.start ≤ cb.length)
    (hx : ∀ r ∈ rows, ∀ (i : Nat) (c : Doc.Col) (x : Nat), ((cb.map Prod.fst).drop r.start)[i]? = some c → r.codes[i]? = some x →
      x < 256 ^ c.codec.which.size)
    (hw : ∀ r ∈ rows, ∀ (i : Nat) (c : Doc.Col) (x : Nat) (d : Word), ((cb.map Prod.fst).drop r.start)[i]? = some c →
      r.codes[i]? = some x → c.integral asDbl = true → c.codec.value x = some (.num d) → Doc.Whole d)
    (before : List Doc.Value) (vals : List (List Doc.Value)) (hv : Doc.rowsFrom (cb.map Prod.fst) before rows = some vals)
    (ls : Nat) (hls : ls ≤ cb.length) (cur : List Cell) (hcur : cur.length = cb.length)
    (hc : ∀ r, rows.head? = some r → DocCellsOk asDbl (cb.take r.start) (before.take r.start) (cur.take r.start)) :
    ∃ out, Reads (refRows o (loadedCodecs asDbl cb) rows.length ls cur)
        (rows.flatMap (fun r => Doc.uint .big 2 r.start ++ Doc.codes (endian o) ((cb.map Prod.fst).drop r.start) r.codes)) out ∧
      Match (DocCellsOk asDbl cb) vals out := by
  induction rows generalizing before vals ls cur with
  | nil =>
    simp [Doc.rowsFrom] at hv
    subst hv
    exact ⟨[], Reads.pure _, .nil⟩
  | cons r rows ih =>
    simp only [Doc.rowsFrom] at hv
    cases h1 : Doc.values ((cb.map Prod.fst).drop r.start) r.codes with
    | none => simp [h1] at hv
    | some vs =>
      simp only [h1] at hv
      cases h2 : Doc.rowsFrom (cb.map Prod.fst) (before.take r.start ++ vs) rows with
      | none => simp [h2] at hv
      | some rest =>
        simp only [h2, Option.some.injEq] at hv
        subst hv
        have hs := hst r (by simp)
        have hdm : (cb.map Prod.fst).drop r.start = (cb.drop r.start).map Prod.fst := by rw [List.map_drop]
        obtain ⟨cells, c1, c2⟩ := refCols_doc o asDbl (cb.drop r.start) r.codes vs (by rw [← hdm]; exact h1)
          (by rw [← hdm]; exact hx r (by simp)) (by rw [← hdm]; exact hw r (by simp)) (cur.drop r.start) (by simp [hcur])
        have hrow : DocCellsOk asDbl cb (before.take r.start ++ vs) (cur.take r.start ++ cells) := by
          have := (hc r rfl).append c2
          rwa [List.take_append_drop] at this
        obtain ⟨out, o1, o2⟩ := ih (fun x hx => hst x (by simp [hx])) (fun x hx' => hx x (by simp [hx']))
          (fun x hx' => hw x (by simp [hx'])) (before.take r.start ++ vs) rest h2 r.start hs (cur.take r.start ++ cells)
          hrow.lengths.2 (fun r' _ => hrow.take _)
        refine ⟨(cur.take r.start ++ cells) :: out, ?_, .cons hrow o2⟩
        simp only [List.length_cons, refRows, List.flatMap_cons, List.append_assoc]
        have hm : markerStart (Doc.uint .big 2 r.start) = r.start := by
          rw [uint_marker, markerStart_markerBytes _ (by omega)]
        refine Reads.bind (a := Doc.uint .big 2 r.start) (by rw [uint_marker]; exact reads_marker _) ?_
        rw [hm, if_neg (by simp [loadedCodecs]; omega)]
        have hld : (loadedCodecs asDbl cb).drop r.start = loadedCodecs asDbl (cb.drop r.start) := by
          simp [loadedCodecs, List.map_drop]
        rw [hld, hdm]
        refine Reads.bind c1 ?_
        exact Reads.bind_pure o1 (fun s => rfl)

end Verif
