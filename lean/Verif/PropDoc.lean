import Verif.DocEnc
import Verif.RowBack
import Verif.HeaderAny

/-
C57, C58: the file format.
-/

namespace Verif

/-! ### C58: reading files that follow the document -/

/-- Specification: a column as the interface reports it. -/
def ColReported (c : Doc.Col) (x : ColShown) : Prop :=
  x.name = c.name ∧ x.ty = c.type ∧ x.bits.map (fun b => (b.name, b.size)) = c.bits ∧ 8 ≤ x.bytes ∧ x.bytes % 8 = 0

/-- Specification: a request for some columns of a frame, with room for the values. -/
structure DocReq (f : Doc.Frame) (xs : List ColShown) (req : List (Str × Target)) : Prop where
  distinct : (req.map Prod.fst).Nodup
  known : ∀ e ∈ req, ∃ x ∈ xs, x.name = e.1 ∧ e.2.Fits f.rows.length (x.bytes / 8)

/-- Specification: what reading the frame gives, through the interface. -/
structure ReadAs (env : Env) (bytes : List Byte) (f : Doc.Frame) (fr : List Tbl) : Prop where
  rows : frameRows fr = f.rows.length
  props : ∀ k : Str, List.lookup k (frameProps fr) = List.lookup k f.props
  table : ∃ xs, frameInfo fr = .ok xs ∧ Match ColReported f.cols xs ∧
    ∀ vals, f.table = some vals → ∀ req, DocReq f xs req → ∃ out, decodeFrame bytes fr req = .ok out ∧ out.length = req.length ∧
      ∀ (i : Nat) (nm : Str) (tg : Target) (p : Nat) (c : Doc.Col) (x : ColShown), req[i]? = some (nm, tg) → f.cols[p]? = some c →
        c.name = nm → xs[p]? = some x → ∃ m : Nat → Cell, out[i]? = some m ∧
          (∀ (r : Nat) (row : List Doc.Value), vals[r]? = some row → ∃ v, row[p]? = some v ∧
            v.Shown (c.integral env.asDbl) ((m r).take (x.bytes / 8))) ∧
          ∀ r, f.rows.length ≤ r → m r = tg.mem r

/-- Proof device: the columns of a frame with the requested positions marked. -/
def docWanted (cols : List Doc.Col) (ps : List Nat) : List (Doc.Col × Bool) :=
  cols.zipIdx.map (fun e => (e.1, decide (e.2 ∈ ps)))

theorem docWanted_get (cols : List Doc.Col) (ps : List Nat) (p : Nat) :
    (docWanted cols ps)[p]? = (cols[p]?).map (fun c => (c, decide (p ∈ ps))) := by
  unfold docWanted
  rw [List.getElem?_map, List.getElem?_zipIdx]
  cases cols[p]? <;> simp

theorem docWanted_fst (cols : List Doc.Col) (ps : List Nat) : (docWanted cols ps).map Prod.fst = cols := by
  apply List.ext_getElem?
  intro p
  rw [List.getElem?_map, docWanted_get]
  cases cols[p]? <;> rfl

theorem docWanted_codecs (asDbl : Bool) (cols : List Doc.Col) (ps : List Nat) :
    loadedCodecs asDbl (docWanted cols ps) = wanted (cols.map (loadedCol asDbl)) ps := by
  apply List.ext_getElem?
  intro p
  rw [wanted_getElem?]
  unfold loadedCodecs
  rw [List.getElem?_map, docWanted_get, List.getElem?_map]
  cases cols[p]? <;> rfl

theorem whole_ofInt (i : Int) (h : Small i) : Doc.Whole (ofInt i) := by
  refine ⟨i, ftrunc_ofInt i h, ?_⟩
  unfold Small at h
  unfold InI64
  omega

/-- What a column shows in the first row if it is left out there. -/
theorem first_shown (asDbl : Bool) (c : Doc.Col) (h : c.Skippable asDbl) :
    (Doc.Value.num c.codec.missing).Shown (c.integral asDbl) [(loadedCol asDbl c).codec.firstWord] ∧
      (loadedCol asDbl c).codec.width = 1 := by
  obtain ⟨e1, e2, _, _, e5⟩ := reload_fields asDbl c
  have hcm := clonedMissing_eq (loadedCol asDbl c).codec
  rw [loadedCol_codec] at hcm ⊢
  generalize (reload asDbl c.type (ofDoc c.codec)).firstWord = w at hcm ⊢
  unfold Codec.clonedMissing at hcm
  rw [e1, e2, e5] at hcm
  have hmdi : Doc.Whole (ofInt 2147483647) := whole_ofInt _ (by unfold Small; omega)
  have hint : (c.codec.missing = ofInt 2147483647) → toVT (if c.integral asDbl = true then VT.i64 else VT.dbl) integerMDI = .ok w →
      (Doc.Value.num c.codec.missing).Shown (c.integral asDbl) [w] := by
    intro hm ht
    obtain ⟨w', h1, h2⟩ := toVT_shown (b := c.integral asDbl) (d := ofInt 2147483647) (fun _ => hmdi)
    unfold integerMDI at ht
    rw [h1] at ht
    simp only [Except.ok.injEq] at ht
    rw [hm, ← ht]
    exact h2
  have hraw : c.integral asDbl = false → (.ok c.codec.missing : Except Err Word) = .ok w →
      (Doc.Value.num c.codec.missing).Shown (c.integral asDbl) [w] := by
    intro hi hw
    simp only [Except.ok.injEq] at hw
    rw [hi, ← hw]
    simp [Doc.Value.Shown]
  unfold Doc.Col.Skippable at h
  constructor
  · cases hw : c.codec.which <;> simp only [hw, kindOf] at h hcm
    all_goals first
      | exact h.elim
      | exact hint h (by simpa [Kind.isInt] using hcm)
      | exact hraw h (by simpa [Kind.isInt] using hcm)
      | exact hraw (by unfold Doc.Col.integral; rw [hw]; simp) (by simpa [Kind.isInt] using hcm)
  · unfold reload ofDoc fresh
    cases hw : c.codec.which <;> simp only [hw, kindOf] at h ⊢ <;> exact h.elim

theorem first_cells (asDbl : Bool) (cols : List Doc.Col) (ps : List Nat) (n : Nat) (h : ∀ c ∈ cols.take n, c.Skippable asDbl) :
    DocCellsOk asDbl ((docWanted cols ps).take n) ((cols.map (fun c => Doc.Value.num c.codec.missing)).take n)
      ((firstRow (loadedCodecs asDbl (docWanted cols ps))).take n) := by
  have : ∀ (cb : List (Doc.Col × Bool)) (n : Nat), (∀ c ∈ (cb.map Prod.fst).take n, c.Skippable asDbl) →
      DocCellsOk asDbl (cb.take n) (((cb.map Prod.fst).map (fun c => Doc.Value.num c.codec.missing)).take n)
        ((firstRow (loadedCodecs asDbl cb)).take n) := by
    intro cb
    induction cb with
    | nil => intro n _; simpa [firstRow, loadedCodecs] using DocCellsOk.nil
    | cons e cb ih =>
      intro n hn
      obtain ⟨c, b⟩ := e
      cases n with
      | zero => exact .nil
      | succ n =>
        simp only [List.map_cons, List.take_succ_cons, List.mem_cons, forall_eq_or_imp] at hn
        have h1 := first_shown asDbl c hn.1
        refine .cons ?_ (ih n hn.2)
        intro hb
        subst hb
        simp only [if_true]
        exact ⟨h1.1, by rw [h1.2]; rfl⟩
  have h2 := this (docWanted cols ps) n
  rw [docWanted_fst] at h2
  exact h2 h

theorem bitInfos_pairs (l : List (Str × Int)) (off : Nat) :
    (bitInfos off (l.map Prod.fst) (l.map Prod.snd)).map (fun b => (b.name, b.size)) = l := by
  induction l generalizing off with
  | nil => rfl
  | cons e l ih => simp [bitInfos, ih]

theorem loaded_pos (asDbl : Bool) (c : Doc.Col) : 1 ≤ (loadedCol asDbl c).codec.width := by
  rw [loadedCol_codec]
  unfold reload ofDoc fresh
  cases c.codec.which <;> simp only [kindOf, Nat.le_refl] <;> exact tableWidth_ge _ 1

theorem read_as (env : Env) (hmd5 : env.Md5Ok) (f : Doc.Frame) (hf : f.Valid env.asDbl)
    (hv : (f.variable .little).length ≤ 2147483647) (hd : (f.data .little).length < 9223372036854775808)
    (bytes : List Byte) (pos : Nat) (rest : List Byte) (hb : bytes.drop pos = f.bytes env.md5 .little ++ rest) :
    ReadAs env bytes f [(rawDoc env.md5 env.asDbl .same f).tbl pos] := by
  have hok := rawDoc_ok env hmd5 .same f hf hv hd
  obtain ⟨hdata, _⟩ := stored_table env (File.known bytes) _ hok pos rest hb
  generalize ht : (rawDoc env.md5 env.asDbl .same f).tbl pos = t at hdata ⊢
  have hinfo : t.info = loadedInfo env.asDbl .same f := by rw [← ht]; rfl
  have hord : t.order = .same := by rw [← ht]; rfl
  have hcols : t.info.cols = f.cols.map (loadedCol env.asDbl) := by rw [hinfo]; rfl
  have hnr : t.info.nrows = f.rows.length := by rw [hinfo]; rfl
  have hnames : t.info.cols.map Col.name = f.cols.map Doc.Col.name := by
    rw [hcols, List.map_map]; rfl
  refine ⟨?_, ?_, ?_⟩
  · have := hf.nrows
    unfold frameRows
    simp only [List.foldl_cons, List.foldl_nil, hnr, Nat.zero_add]
    omega
  · intro k
    rw [lookup_mapGet, lookup_mapGet, C19_first_table]
    simp only [List.findSome?_cons, List.findSome?_nil]
    have : mapGet k t.info.props = mapGet k f.props := by
      rw [hinfo]
      show mapGet k (f.props.foldl (fun m kv => mapEmplace strLt kv.1 kv.2 m) []) = _
      rw [firstWins_foldl _ _ (by simp [MapOk])]
      rfl
    rw [this]
    cases mapGet k f.props <;> rfl
  · refine ⟨f.cols.map (fun c => ⟨c.name, c.type, 8 * (loadedCol env.asDbl c).codec.width,
      bitInfos 0 (c.bits.map Prod.fst) (c.bits.map Prod.snd)⟩), ?_, ?_, ?_⟩
    · show colsShown t.info.cols = _
      rw [colsShown_of, hcols, List.map_map]
      · rfl
      · rw [hcols]
        intro k hk
        simp only [List.mem_map] at hk
        obtain ⟨c, _, rfl⟩ := hk
        simp [loadedCol, Col.reload, ofDocCol]
    · refine Match.of_get _ _ (by simp) ?_
      intro p c x hp hx
      rw [List.getElem?_map, hp] at hx
      simp only [Option.map_some, Option.some.injEq] at hx
      subst hx
      refine ⟨rfl, rfl, bitInfos_pairs _ 0, ?_, by simp⟩
      have := loaded_pos env.asDbl c
      simp only
      omega
    · intro vals hvals req hreq
      have hreq' : ReqOk t req := by
        refine ⟨hreq.distinct, ?_, ?_, ?_⟩
        · intro e he
          obtain ⟨x, hx, hn, hfit⟩ := hreq.known e he
          simp only [List.mem_map] at hx
          obtain ⟨c, hc, rfl⟩ := hx
          refine ⟨loadedCol env.asDbl c, by rw [hcols]; exact List.mem_map_of_mem hc, hn, ?_⟩
          have := hfit.elem
          simpa using this
        · intro e he
          obtain ⟨x, _, _, hfit⟩ := hreq.known e he
          rw [hnr]
          exact hfit.rows
        · intro e he
          obtain ⟨x, _, _, hfit⟩ := hreq.known e he
          exact hfit.mem
      have hnd : (t.info.cols.map Col.name).Nodup := by rw [hnames]; exact hf.names
      obtain ⟨S, hL⟩ := columnLookup_nodup _ hnd
      obtain ⟨ps, r1, r2, r3, r4, r5⟩ := req_resolved t hnd S req hreq'
      have hdec : decodeFrame bytes [t] req =
          tableDecode .same t.info.cols t.info.nrows (f.data .little) ⟨numbered (t.info.cols.map Col.name) 0, S⟩ req := by
        rw [decodeFrame_one]
        unfold Tbl.decode
        rw [hL]
        dsimp only
        rw [if_neg (by omega), r1]
        dsimp only
        rw [hdata, hord]
        rfl
      -- the columns a request names
      have hpos : ∀ (i : Nat) (nm : Str) (tg : Target) (p : Nat) (c : Doc.Col), req[i]? = some (nm, tg) → f.cols[p]? = some c →
          c.name = nm → ps[i]? = some p := by
        intro i nm tg p c hi hp hn
        have hil := (List.getElem?_eq_some_iff.mp hi).1
        have hpi : ps[i]? = some (ps[i]'(by omega)) := List.getElem?_eq_getElem (by omega)
        obtain ⟨k, k1, k2, _⟩ := r5 i _ _ hi hpi
        rw [hpi]
        have h1 : (f.cols.map Doc.Col.name)[ps[i]'(by omega)]? = some nm := by
          rw [← hnames, List.getElem?_map, k1]
          simp [k2]
        have h2 : (f.cols.map Doc.Col.name)[p]? = some nm := by
          rw [List.getElem?_map, hp]
          simp [hn]
        obtain ⟨a1, a2⟩ := List.getElem?_eq_some_iff.mp h1
        obtain ⟨b1, b2⟩ := List.getElem?_eq_some_iff.mp h2
        rw [(List.getElem_inj hf.names).mp (a2.trans b2.symm)]
      rw [hdec]
      by_cases hz : f.rows = []
      · refine ⟨req.map (fun r => r.2.mem), ?_, by simp, ?_⟩
        · unfold tableDecode
          rw [if_neg (by omega), r1]
          dsimp only
          rw [if_pos (by rw [hnr, hz]; rfl)]
        · intro i nm tg p c x hi hp hn hx
          refine ⟨tg.mem, by simp [hi], ?_, fun _ _ => rfl⟩
          intro r row hr
          unfold Doc.Frame.table at hvals
          rw [hz] at hvals
          simp [Doc.rowsFrom] at hvals
          subst hvals
          simp at hr
      · have hn0 : 0 < t.info.nrows := by
          rw [hnr]
          exact List.length_pos_iff.mpr hz
        have href := tableDecode_ref t.info.cols t.info.nrows hn0 (f.data .little)
          ⟨numbered (t.info.cols.map Col.name) 0, S⟩ req ps r4 r1 r3 (by
          intro i nm tg p c hi hp hc
          obtain ⟨k, k1, k2, k3⟩ := r5 i _ _ hi hp
          rw [hc] at k1
          simp only [Option.some.injEq] at k1
          subst k1
          have hmem : c ∈ t.info.cols := List.mem_of_getElem? hc
          rw [hcols] at hmem
          simp only [List.mem_map] at hmem
          obtain ⟨c', _, rfl⟩ := hmem
          have := loaded_pos env.asDbl c'
          simp only at k3
          refine ⟨by rw [loaded_width]; exact k3, by omega, hreq'.mem _ (List.mem_of_getElem? hi)⟩)
        obtain ⟨out, o1, o2⟩ := refRows_doc .same env.asDbl (docWanted f.cols ps)
          (by have := hf.ncols; simpa [docWanted] using this) f.rows
          (by simpa [docWanted] using hf.rows) (by rw [docWanted_fst]; exact hf.codes) (by rw [docWanted_fst]; exact hf.whole)
          (f.cols.map (fun c => .num c.codec.missing)) vals (by rw [docWanted_fst]; exact hvals) 0 (by omega)
          (firstRow (loadedCodecs env.asDbl (docWanted f.cols ps))) (by simp [firstRow, loadedCodecs])
          (fun r hr => first_cells _ _ _ _ (hf.first r hr))
        rw [docWanted_fst, docWanted_codecs, ← hcols] at o1
        rw [hnr] at href
        have h1 := o1 []
        rw [List.append_nil] at h1
        rw [show (f.rows.flatMap (fun r => Doc.uint .big 2 r.start ++ Doc.codes (endian .same) (f.cols.drop r.start) r.codes)) =
          f.data .little from rfl] at h1
        rw [h1] at href
        dsimp only at href
        obtain ⟨hl, res, g1, g2, g3⟩ := href
        rw [hnr]
        refine ⟨res, g1, g2, ?_⟩
        intro i nm tg p c x hi hp hn hx
        have hpi := hpos i nm tg p c hi hp hn
        obtain ⟨m, m1, m2, m3, m4⟩ := g3 i nm tg p hi hpi
        refine ⟨m, m1, ?_, m4⟩
        intro r row hr
        have hrl : r < out.length := by
          rw [← o2.length]
          exact (List.getElem?_eq_some_iff.mp hr).1
        have hrow := o2.get r row _ hr (List.getElem?_eq_getElem hrl)
        have hcb : (docWanted f.cols ps)[p]? = some (c, true) := by
          rw [docWanted_get, hp]
          simp [List.mem_of_getElem? hpi]
        obtain ⟨v, cell, v1, v2, v3, v4⟩ := hrow.get p c hcb
        refine ⟨v, v1, ?_⟩
        have hm := m2 r (by omega)
        have hor : out.getD r [] = out[r] := by
          rw [List.getD_eq_getElem?_getD, List.getElem?_eq_getElem hrl]
          rfl
        rw [hor, List.getD_eq_getElem?_getD, v2] at hm
        simp only [Option.getD_some] at hm
        rw [List.getElem?_map, hp] at hx
        simp only [Option.map_some, Option.some.injEq] at hx
        subst hx
        have hw8 : 8 * (loadedCol env.asDbl c).codec.width / 8 = cell.length := by rw [v4]; omega
        rw [hw8]
        unfold Holds at hm
        rw [hm]
        exact v3

/-- **C58**: any file made of frames that follow the document (in the byte order of the machine), with distinct column
names and all the fields in range, is read: one frame after the other, with the row counts, the columns, the types, the
members of the bitfields and the properties that the headers give, and each column decodes to the values that the
document gives to the codes of its rows, in requests for any of the columns. -/
theorem C58_documented_files_are_read (env : Env) (hmd5 : env.Md5Ok) (fs : List Doc.Frame) (hf : ∀ f ∈ fs, f.Valid env.asDbl)
    (hsize : ∀ f ∈ fs, (f.variable .little).length ≤ 2147483647 ∧ (f.data .little).length < 9223372036854775808) :
    ∃ frs, readPlain env (fs.flatMap (Doc.Frame.bytes env.md5 .little)) = (frs, none) ∧
      Match (ReadAs env (fs.flatMap (Doc.Frame.bytes env.md5 .little))) fs frs := by
  have hfile : fs.flatMap (Doc.Frame.bytes env.md5 .little) = fileOf (fs.map (rawDoc env.md5 env.asDbl .same)) := by
    unfold fileOf
    rw [List.flatMap_map]
    rfl
  have hrs : ∀ r ∈ fs.map (rawDoc env.md5 env.asDbl .same), r.Ok env := by
    intro r hr
    simp only [List.mem_map] at hr
    obtain ⟨f, hm, rfl⟩ := hr
    exact rawDoc_ok env hmd5 .same f (hf f hm) (hsize f hm).1 (hsize f hm).2
  rw [hfile]
  have hscan := scan_fileOf env _ hrs _ (Or.inr rfl)
  refine ⟨_, readFrames_plain hscan ?_ (-1) (fun _ _ => Or.inl (by omega)) ?_, ?_⟩
  · intro t ht
    obtain ⟨i, hi⟩ := List.mem_iff_getElem?.mp ht
    have hil : i < (fs.map (rawDoc env.md5 env.asDbl .same)).length := by
      have := (List.getElem?_eq_some_iff.mp hi).1
      rwa [layout_length] at this
    obtain ⟨a, _⟩ := layout_split ⟨fileOf (fs.map (rawDoc env.md5 env.asDbl .same)), 0⟩ env _ hrs 0 [] (by simp) i _
      (List.getElem?_eq_getElem hil)
    simp only [Nat.cast_zero] at a
    rw [hi] at a
    simp only [Option.some.injEq, List.getElem_map] at a
    rw [a]
    exact copy_doc (hf _ (List.getElem_mem _)) _
  · rw [layout_length]
    exact fileOf_length_ge env _ hrs
  · refine Match.of_get _ _ (by simp [layout_length]) ?_
    intro i f fr hi hfr
    rw [List.getElem?_map] at hfr
    have hri : (fs.map (rawDoc env.md5 env.asDbl .same))[i]? = some (rawDoc env.md5 env.asDbl .same f) := by
      rw [List.getElem?_map, hi]; rfl
    obtain ⟨a, rest, b⟩ := layout_split ⟨fileOf (fs.map (rawDoc env.md5 env.asDbl .same)), 0⟩ env _ hrs 0 [] (by simp) i _ hri
    simp only [Nat.cast_zero] at a
    rw [a] at hfr
    simp only [Option.map_some, Option.some.injEq] at hfr
    subst hfr
    have hm := List.mem_of_getElem? hi
    exact read_as env hmd5 f (hf f hm) (hsize f hm).1 (hsize f hm).2 _ _ rest b

/-! ### C57: what is written follows the document -/

theorem uint4_any (o : Order) (n : Nat) : Doc.uint (endian o) 4 n = putI32 o n := by
  rw [← int32_eq]
  unfold Doc.int32 Doc.uint
  have h : ((n : Int) % 4294967296).toNat = n % 4294967296 := by omega
  rw [h]
  have : (List.range 4).map (fun i => BitVec.ofNat 8 (n / 256 ^ i)) =
      (List.range 4).map (fun i => BitVec.ofNat 8 (n % 4294967296 / 256 ^ i)) := by
    apply List.map_congr_left
    intro i hi
    have hi : i < 4 := by simpa using hi
    apply BitVec.eq_of_toNat_eq
    simp only [BitVec.toNat_ofNat]
    have : i = 0 ∨ i = 1 ∨ i = 2 ∨ i = 3 := by omega
    rcases this with rfl | rfl | rfl | rfl <;> norm_num <;> omega
  simp only [this]

/-- Specification: the column of a table and the column in the file. -/
def ColWritten (c : InCol) (d : Doc.Col) : Prop :=
  d.name = c.name ∧ d.type = c.vals.ty.toInt ∧ d.bits = c.vals.members

/-- Specification: the value in the file stands for the one the user gave in row `r`: the same integer, the same double,
for a REAL column the double that the column gives back, the same characters up to trailing zeros. -/
def Stands (v : Vals) (r : Nat) (x : Doc.Value) : Prop :=
  match v with
  | .ints vs => ∃ i d, vs[r]? = some i ∧ x = .num d ∧ ftrunc d = some i
  | .bits _ vs => ∃ i d, vs[r]? = some i ∧ x = .num d ∧ ftrunc d = some i
  | .reals vs => ∃ a a', vs[r]? = some a ∧ x = .num a' ∧ RealOut realMDI vs a a'
  | .doubles vs => ∃ a, vs[r]? = some a ∧ x = .num a
  | .strings _ vs => ∃ s t m n, vs[r]? = some s ∧ x = .text t ∧ t ++ List.replicate m 0 = s ++ List.replicate n 0

theorem inI32_i64 {i : Int} (h : InI32 i) : InI64 i := by
  unfold InI32 at h
  unfold InI64
  omega

theorem ofInt64_inj {i j : Int} (hi : InI64 i) (hj : InI64 j) (h : BitVec.ofInt 64 i = BitVec.ofInt 64 j) : i = j := by
  have := congrArg BitVec.toInt h
  unfold InI64 at hi hj
  rw [BitVec.toInt_ofInt, BitVec.toInt_ofInt, Int.bmod_eq_of_le (by norm_num; omega) (by norm_num; omega),
    Int.bmod_eq_of_le (by norm_num; omega) (by norm_num; omega)] at this
  exact this

/-- Integers in the file. -/
theorem stands_int {asDbl b : Bool} (hb : b = !asDbl) {x : Doc.Value} {i : Int} (hi : InI32 i)
    (hs : x.Shown b [intWord asDbl i]) (ht : ¬ ∃ s, x = .text s) (hw : b = true → ∀ d, x = .num d → Doc.Whole d) :
    ∃ d, x = .num d ∧ ftrunc d = some i := by
  cases x with
  | text s => exact absurd ⟨s, rfl⟩ ht
  | num d =>
    refine ⟨d, rfl, ?_⟩
    unfold Doc.Value.Shown at hs
    cases asDbl with
    | true =>
      subst hb
      simp only [Bool.not_true, Bool.false_eq_true, if_false, intWord, if_true, List.cons.injEq, and_true] at hs
      rw [← hs]
      exact ftrunc_ofInt i (by unfold InI32 at hi; unfold Small; omega)
    | false =>
      subst hb
      simp only [Bool.not_false, if_true, intWord, Bool.false_eq_true, if_false, List.cons.injEq, and_true] at hs
      obtain ⟨j, h1, h2⟩ := hs
      obtain ⟨j', h3, h4⟩ := hw rfl d rfl
      rw [h1] at h3
      simp only [Option.some.injEq] at h3
      subst h3
      rw [h1, ofInt64_inj (inI32_i64 hi) h4 h2]

/-- What a column gives back decides what its values in the file stand for. -/
theorem stands_of {env : Env} {c : InCol} {e : EncCol} {w r : Nat} {m? : Option Word} {cells : List Cell} {y : Cell} {v : Doc.Value}
    (hty0 : e.info.ty = c.vals.ty) (hch : chosenCodec c.vals.ty env.asDbl false w m? cells = .ok e.codec) (hvok : c.vals.Ok env)
    (hg : c.vals.Gives env r y) (x3 : v.Shown (e.doc.integral env.asDbl) y) (x4 : e.doc.codec.which.isText = true ↔ ∃ s, v = .text s)
    (x5 : e.doc.integral env.asDbl = true → ∀ d, v = .num d → Doc.Whole d) : Stands c.vals r v := by
  have htext : e.doc.codec.which.isText = decide (c.vals.ty = .string) := (chosen_doc hch).2
  have hint : c.vals.ty = .integer ∨ c.vals.ty = .bitfield → e.doc.integral env.asDbl = !env.asDbl := by
    intro hty
    rw [Doc.Col.integral_eq]
    have h1 : e.doc.codec.which.mayInt = true := chosen_mayInt hty hch
    have h2 : e.doc.type = c.vals.ty.toInt := by exact congrArg ColType.toInt hty0
    rw [h1, h2]
    rcases hty with hty | hty <;> rw [hty] <;> simp [ColType.toInt]
  cases hv : c.vals with
  | ints vs => 
    rw [hv] at hg hvok htext
    obtain ⟨i, i1, rfl⟩ := hg
    have hb := hint (by rw [hv]; exact Or.inl rfl)
    have hnt : ¬ ∃ s, v = .text s := by rw [← x4, htext]; simp [Vals.ty]
    obtain ⟨d, d1, d2⟩ := stands_int hb (hvok i (List.mem_of_getElem? i1)) x3 hnt x5
    exact ⟨i, d, i1, d1, d2⟩
  | bits ms vs =>
    rw [hv] at hg hvok htext
    obtain ⟨i, i1, rfl⟩ := hg
    have hb := hint (by rw [hv]; exact Or.inr rfl)
    have hnt : ¬ ∃ s, v = .text s := by rw [← x4, htext]; simp [Vals.ty]
    obtain ⟨d, d1, d2⟩ := stands_int hb (hvok.1 i (List.mem_of_getElem? i1)) x3 hnt x5
    exact ⟨i, d, i1, d1, d2⟩
  | reals vs =>
    rw [hv] at hg htext
    obtain ⟨a, a', a1, rfl, a2⟩ := hg
    have hnt : ¬ ∃ s, v = .text s := by rw [← x4, htext]; simp [Vals.ty]
    have hb : e.doc.integral env.asDbl = false := by
      rw [Doc.Col.integral_eq]
      have h2 : e.doc.type = c.vals.ty.toInt := by exact congrArg ColType.toInt hty0
      rw [h2, hv]
      simp [Vals.ty, ColType.toInt]
    cases v with
    | text s => exact absurd ⟨s, rfl⟩ hnt
    | num d =>
      rw [hb] at x3
      simp only [Doc.Value.Shown, Bool.false_eq_true, if_false, List.cons.injEq, and_true] at x3
      exact ⟨a, a', a1, by rw [x3], a2⟩
  | doubles vs =>
    rw [hv] at hg htext
    obtain ⟨a, a1, rfl⟩ := hg
    have hnt : ¬ ∃ s, v = .text s := by rw [← x4, htext]; simp [Vals.ty]
    have hb : e.doc.integral env.asDbl = false := by
      rw [Doc.Col.integral_eq]
      have h2 : e.doc.type = c.vals.ty.toInt := by exact congrArg ColType.toInt hty0
      rw [h2, hv]
      simp [Vals.ty, ColType.toInt]
    cases v with
    | text s => exact absurd ⟨s, rfl⟩ hnt
    | num d =>
      rw [hb] at x3
      simp only [Doc.Value.Shown, Bool.false_eq_true, if_false, List.cons.injEq, and_true] at x3
      exact ⟨a, a1, by rw [x3]⟩
  | strings w vs =>
    rw [hv] at hg htext
    obtain ⟨s, w', s1, s2, rfl⟩ := hg
    obtain ⟨t, rfl⟩ : ∃ t, v = .text t := by rw [← x4, htext]; simp [Vals.ty]
    obtain ⟨n, hn⟩ := x3
    refine ⟨s, t, n, 8 * w' - s.length, s1, rfl, ?_⟩
    rw [← hn]
    rw [← cellBytes_wordsOf w' s s2]
    unfold cellBytes
    simp only [funext chars8_eq]

/-- **C57**: what `encode` writes for a table is one frame as the document describes it, on machines of either byte
order: with the names, types and bitfield members of the columns, the properties and the program's own one, and one row
for each row; the values of this frame, as the document defines them, are those that the table gives back, and for
values that the format preserves they stand for the values of the table. -/
theorem C57_encoded_as_documented (env : Env) (hlong : env.longEnv = false) (T : UTable) (hT : T.Ok env) (o : Order) :
    ∃ f : Doc.Frame, f.Valid env.asDbl ∧ T.encode env o = .ok (f.bytes env.md5 (endian o)) ∧ f.flags = [] ∧
      f.props = T.stored env ∧ f.rows.length = T.rows ∧ Match ColWritten T.cols f.cols ∧
      ∃ vals, f.table = some vals ∧ vals.length = T.rows ∧
        ∀ (r : Nat) (row : List Doc.Value) (p : Nat) (c : InCol) (d : Doc.Col), vals[r]? = some row → T.cols[p]? = some c →
          f.cols[p]? = some d → ∃ x, row[p]? = some x ∧
            (∃ cell, c.vals.Back env r cell ∧ x.Shown (d.integral env.asDbl) cell) ∧
            (c.vals.Ok env → Stands c.vals r x) := by
  obtain ⟨es, hl, hes⟩ := exists_list (fun c e => Sent env T.rows c e) T.cols (by
    intro c hc
    obtain ⟨h1, h2, h3⟩ := hT.col c hc
    have := c.sent env h1 h2
    rwa [h3] at this)
  have hS : ∀ e ∈ es, ∃ c ∈ T.cols, Sent env T.rows c e := by
    intro e he
    obtain ⟨i, hi, rfl⟩ := List.getElem_of_mem he
    exact ⟨T.cols[i]'(by omega), List.getElem_mem _, hes i _ _ (List.getElem?_eq_getElem (by omega)) (List.getElem?_eq_getElem hi)⟩
  have hinfo : es.map EncCol.info = T.cols.map InCol.info := by
    apply List.ext_getElem (by simp [hl])
    intro i h1 h2
    simp only [List.getElem_map]
    exact (hes i _ _ (List.getElem?_eq_getElem (by simpa using h2)) (List.getElem?_eq_getElem (by simpa using h1))).info
  have hdata : es.map EncCol.data = T.cols.map (InCol.data env) := by
    apply List.ext_getElem (by simp [hl])
    intro i h1 h2
    simp only [List.getElem_map]
    exact (hes i _ _ (List.getElem?_eq_getElem (by simpa using h2)) (List.getElem?_eq_getElem (by simpa using h1))).data
  have hok : ∀ e ∈ es, e.Ok env T.rows := fun e he => let ⟨_, _, s⟩ := hS e he; s.ok
  have hne : es ≠ [] := by
    intro h; rw [h] at hl; exact hT.ne (List.length_eq_zero_iff.mp hl.symm)
  have hkind : ∀ e ∈ es, e.codec.kind ≠ .longConstantString ∧ e.codec.kind ≠ .chars := by
    intro e he
    have hch := (hok e he).travels.chosen
    rw [hlong] at hch
    exact ⟨(chosen_doc hch).1, chosenCodec_kind hch⟩
  obtain ⟨bs, e1, _, _, e4⟩ := encodeFrame_ok env o es T.rows T.props hne (by rw [hl]; exact hT.few) hok
  rw [hinfo, hdata] at e1
  obtain ⟨rs, vals, d1, d2, d3, d4, d5, d6⟩ := encRows_doc env o es (by rw [hl]; exact hT.few) hkind (fun e he => (hok e he).fits)
    (rowsOf (es.map EncCol.data) T.rows) (by
      intro row hrow
      simp only [rowsOf, List.mem_map, List.mem_range] at hrow
      obtain ⟨r, hr, rfl⟩ := hrow
      refine ⟨by simp [rowAt], ?_⟩
      intro i e x he hx
      have hel := (hok e (List.mem_of_getElem? he)).rows
      simp only [rowAt, List.getElem?_map, he, Option.map_some, Option.some.injEq] at hx
      rw [← hx, List.getD_eq_getElem?_getD, List.getElem?_eq_getElem (by omega)]
      exact List.getElem_mem _) none ((es.map EncCol.doc).map (fun c => .num c.codec.missing))
    (by intro p hp; cases hp) bs e4
  have hrl : rs.length = T.rows := by rw [d2]; simp [rowsOf]
  have hlen12 : (lit "odc version ").length = 12 := by decide
  have hcb : (es.map EncCol.doc).flatMap (Doc.Col.bytes (endian o)) = (es.map EncCol.col).flatMap (putCol o) := by
    rw [List.flatMap_map, List.flatMap_map]
    clear * - hok hkind
    induction es with
    | nil => rfl
    | cons e es ih =>
      rw [List.flatMap_cons, List.flatMap_cons, ih (fun e' h' => hok e' (by simp [h'])) (fun e' h' => hkind e' (by simp [h'])),
        EncCol.doc_bytes (hok e (by simp)).fits (hkind e (by simp)).1]
  have hplen : ∀ kv ∈ T.stored env, LenOk kv.1.length ∧ LenOk kv.2.length := by
    intro kv hkv
    rcases mapSet_mem _ _ _ kv hkv with h | h
    · exact hT.plen kv h
    · rw [h]
      refine ⟨by show LenOk (lit "encoder").length; decide, ?_⟩
      have := hT.version
      simp only [LenOk, List.length_append, hlen12]; omega
  have hpb : (T.stored env).flatMap (fun p => Doc.string (endian o) p.1 ++ Doc.string (endian o) p.2) =
      (T.stored env).flatMap (fun kv => putStr o kv.1 ++ putStr o kv.2) := by
    generalize T.stored env = ps at hplen ⊢
    clear * - hplen
    induction ps with
    | nil => rfl
    | cons p ps ih =>
      obtain ⟨a, b⟩ := hplen p (by simp)
      rw [List.flatMap_cons, List.flatMap_cons, ih (fun x hx => hplen x (by simp [hx])), string_eq o _ a, string_eq o _ b]
  refine ⟨⟨[], T.stored env, es.map EncCol.doc, rs⟩, ?_, ?_, rfl, rfl, hrl, ?_, vals, d5, ?_, ?_⟩
  · refine { cols := ?_, names := ?_, ncols := ?_, nflags := by simp, nprops := ?_, props := hplen, nrows := ?_,
             rows := ?_, codes := ?_, whole := ?_, first := ?_ }
    · intro d hd
      simp only [List.mem_map] at hd
      obtain ⟨e, he, rfl⟩ := hd
      obtain ⟨c, _, hs⟩ := hS e he
      refine EncCol.doc_valid (hok e he).fits (hkind e he).1 ?_
      rw [hs.info]
      exact hs.clone
    · have : (es.map EncCol.doc).map Doc.Col.name = T.cols.map InCol.name := by
        have h2 := congrArg (List.map ColumnInfo.name) hinfo
        simpa [List.map_map, Function.comp_def, EncCol.doc, InCol.info] using h2
      rw [this]
      exact hT.names
    · simp only [List.length_map, hl]
      exact hT.few
    · have := mapSet_length (lit "encoder") (lit "odc version " ++ env.version) T.props
      have := hT.nprops
      simp only [UTable.stored]
      omega
    · have := hT.rows
      simp only
      omega
    · intro r hr
      have := (d3 r hr).1
      simpa using this
    · intro r hr i c x hc hx
      exact ((d3 r hr).2 i c x hc hx).1
    · intro r hr i c x d hc hx hi hd
      exact ((d3 r hr).2 i c x hc hx).2 d hi hd
    · intro r hr c hc
      have hs0 : r.start = 0 := by
        have hne' : rowsOf (es.map EncCol.data) T.rows ≠ [] := by
          intro h0
          rw [h0] at d2
          change rs.head? = some r at hr
          rw [List.length_eq_zero_iff.mp d2] at hr
          simp at hr
        exact d4 r _ hr (List.head?_eq_some_head hne')
      rw [hs0] at hc
      simp at hc
  · rw [show T.encode env o = encodeFrame env o (T.cols.map InCol.info) (T.cols.map (InCol.data env)) T.props from rfl, e1]
    have hvar : Doc.Frame.variable (endian o) ⟨[], T.stored env, es.map EncCol.doc, rs⟩ =
        putVar o { dataSize := bs.length, nrows := T.rows, props := T.stored env, cols := es.map EncCol.col } := by
      unfold Doc.Frame.variable putVar
      have hd : Doc.Frame.data (endian o) ⟨[], T.stored env, es.map EncCol.doc, rs⟩ = bs := d1.symm
      rw [hd, hcb, hpb]
      simp only [uint_eq, int32_eq, hrl, putMap, List.length_map, List.append_assoc, List.flatMap_nil, List.nil_append,
        List.length_nil]
      rfl
    unfold Doc.Frame.bytes putHeader putFixed
    rw [hvar, show Doc.Frame.data (endian o) ⟨[], T.stored env, es.map EncCol.doc, rs⟩ = bs from d1.symm, ascii_oda]
    unfold Doc.string
    simp only [uint4_any, int32_eq, putStr, List.append_assoc, UTable.stored]
    rfl
  · refine Match.of_get _ _ (by simp [hl]) ?_
    intro i c d hc hd
    rw [List.getElem?_map] at hd
    cases he : es[i]? with
    | none => simp [he] at hd
    | some e =>
      simp only [he, Option.map_some, Option.some.injEq] at hd
      subst hd
      have hs := hes i c e hc he
      simp only [ColWritten, EncCol.doc, hs.info]
      exact ⟨rfl, rfl, rfl⟩
  · rw [← d6.length]
    simp [rowsOf]
  · intro r row p c d hr hc hd
    rw [List.getElem?_map] at hd
    cases he : es[p]? with
    | none => simp [he] at hd
    | some e =>
      simp only [he, Option.map_some, Option.some.injEq] at hd
      subst hd
      have hs := hes p c e hc he
      have hrT : r < T.rows := by
        have h1 := (List.getElem?_eq_some_iff.mp hr).1
        rw [← d6.length] at h1
        simpa [rowsOf] using h1
      have hrow := d6.get r _ row (by simp only [rowsOf, List.getElem?_map, List.getElem?_range hrT, Option.map_some]; rfl) hr
      obtain ⟨x, v, x1, x2, x3, x4, x5⟩ := hrow.get p e he
      have hx : x = e.data.cells.getD r [] := by
        simp only [rowAt, List.getElem?_map, he, Option.map_some, Option.some.injEq] at x1
        exact x1.symm
      subst hx
      have hback := hs.back r hrT
      refine ⟨v, x2, ⟨_, hback, x3⟩, ?_⟩
      intro hvok
      have hg := hback.gives hvok
      have hch := (hok e (List.mem_of_getElem? he)).travels.chosen
      rw [hlong, hs.info] at hch
      exact stands_of (c := c) (by rw [hs.info]; rfl) hch hvok hg x3 x4 x5

/-! ### The hypotheses can be met -/

/-- Sample: a frame with an integer column, one of doubles, one of strings and a bitfield; the first row leaves out the
first two columns, the third one the first. -/
def sampleDoc : Doc.Frame where
  flags := [0]
  props := [(Doc.ascii "k", Doc.ascii "v"), (Doc.ascii "k", Doc.ascii "w")]
  cols := [
    ⟨Doc.ascii "i", 1, [], ⟨.int8Missing, 1, ofInt 10, ofInt 13, ofInt 2147483647, []⟩⟩,
    ⟨Doc.ascii "x", 5, [], ⟨.longReal, 1, 0, 0, 0xc1dfffffffc00000, []⟩⟩,
    ⟨Doc.ascii "s", 3, [], ⟨.int8String, 0, 0, 0, 0, [Doc.ascii "abc", Doc.ascii "a longer string"]⟩⟩,
    ⟨Doc.ascii "b", 4, [(Doc.ascii "lo", 2), (Doc.ascii "hi", 3)], ⟨.constant, 0, ofInt 5, ofInt 5, 0, []⟩⟩ ]
  rows := [⟨2, [1, 0]⟩, ⟨0, [3, 0x3ff8000000000000, 0, 0]⟩, ⟨1, [0, 1, 0]⟩]

theorem zip_codes {asDbl : Bool} {cols : List Doc.Col} {xs : List Nat}
    (h : ∀ e ∈ cols.zip xs, e.2 < 256 ^ e.1.codec.which.size ∧
      ∀ d, e.1.integral asDbl = true → e.1.codec.value e.2 = some (.num d) → Doc.Whole d) : CodesOk asDbl cols xs := by
  intro i c x hc hx
  exact h (c, x) (List.mem_of_getElem? (i := i) (by rw [List.getElem?_zip_eq_some]; exact ⟨hc, hx⟩))

theorem whole_of {d : Word} (h : (match ftrunc d with | some i => decide (-9223372036854775808 ≤ i ∧ i ≤ 9223372036854775807) | none => false) = true) :
    Doc.Whole d := by
  cases h1 : ftrunc d with
  | none => simp [h1] at h
  | some i => exact ⟨i, h1, by unfold InI64; simpa [h1] using h⟩

theorem whole_mdi : Doc.Whole (ofInt 2147483647) := whole_ofInt 2147483647 (by unfold Small; omega)

theorem sampleDoc_codes : ∀ r ∈ sampleDoc.rows, CodesOk false (sampleDoc.cols.drop r.start) r.codes := by
  have hw : ∀ (c : Doc.Codec) (x : Nat), (match c.value x with
      | some (.num d) => (match ftrunc d with | some i => decide (-9223372036854775808 ≤ i ∧ i ≤ 9223372036854775807) | none => false)
      | _ => true) = true → ∀ d, c.value x = some (.num d) → Doc.Whole d := by
    intro c x h d hd
    rw [hd] at h
    exact whole_of h
  intro r hr
  simp only [sampleDoc, List.mem_cons, List.not_mem_nil, or_false] at hr
  rcases hr with rfl | rfl | rfl <;> refine zip_codes ?_ <;> intro e he <;>
    simp only [sampleDoc, List.drop_succ_cons, List.drop_zero, List.zip_cons_cons, List.zip_nil_right, List.mem_cons,
      List.not_mem_nil, or_false] at he
  · rcases he with rfl | rfl
    · exact ⟨by decide, by intro d h; simp [Doc.Col.integral] at h⟩
    · exact ⟨by decide, fun d _ => hw _ _ (by decide +kernel) d⟩
  · rcases he with rfl | rfl | rfl | rfl
    · exact ⟨by decide, fun d _ => hw _ _ (by decide +kernel) d⟩
    · exact ⟨by decide, by intro d h; simp [Doc.Col.integral] at h⟩
    · exact ⟨by decide, by intro d h; simp [Doc.Col.integral] at h⟩
    · exact ⟨by decide, fun d _ => hw _ _ (by decide +kernel) d⟩
  · rcases he with rfl | rfl | rfl
    · exact ⟨by decide, by intro d h; simp [Doc.Col.integral] at h⟩
    · exact ⟨by decide, by intro d h; simp [Doc.Col.integral] at h⟩
    · exact ⟨by decide, fun d _ => hw _ _ (by decide +kernel) d⟩

theorem sampleDoc_valid : sampleDoc.Valid false where
  cols := by
    intro c hc
    simp only [sampleDoc, List.mem_cons, List.not_mem_nil, or_false] at hc
    rcases hc with rfl | rfl | rfl | rfl
    · exact { name := by decide, type := by decide, bits := by intro _; rfl, nbits := by decide, members := by intro b hb; simp at hb, hasMissing := by decide,
              nstrings := by decide, strings := by intro s hs; simp at hs, noStrings := by intro _ _; rfl, range := by intro h; simp at h,
              missing := by intro _ _; dsimp only; exact whole_mdi }
    · exact { name := by decide, type := by decide, bits := by intro _; rfl, nbits := by decide, members := by intro b hb; simp at hb, hasMissing := by decide,
              nstrings := by decide, strings := by intro s hs; simp at hs, noStrings := by intro _ _; rfl, range := by intro h; simp at h,
              missing := by intro h; simp [Doc.Col.integral] at h }
    · exact { name := by decide, type := by decide, bits := by intro _; rfl, nbits := by decide, members := by intro b hb; simp at hb, hasMissing := by decide,
              nstrings := by decide, strings := by decide, noStrings := by intro h _; exact absurd rfl h,
              range := by intro _; decide, missing := by intro h; simp [Doc.Col.integral] at h }
    · exact { name := by decide, type := by decide, bits := by intro h; exact absurd rfl h, nbits := by decide, members := by decide, hasMissing := by decide,
              nstrings := by decide, strings := by intro s hs; simp at hs, noStrings := by intro _ _; rfl, range := by intro h; simp at h,
              missing := by intro _ h; exact absurd rfl h }
  names := by decide
  ncols := by decide
  nflags := by decide
  nprops := by decide
  props := by decide
  nrows := by decide
  rows := by decide
  codes := fun r hr i c x h1 h2 => (sampleDoc_codes r hr i c x h1 h2).1
  whole := fun r hr i c x d h1 h2 h3 h4 => (sampleDoc_codes r hr i c x h1 h2).2 d h3 h4
  first := by
    intro r hr c hc
    simp only [sampleDoc, List.head?_cons, Option.some.injEq] at hr
    subst hr
    simp only [sampleDoc, List.take_succ_cons, List.take_zero, List.mem_cons, List.not_mem_nil, or_false] at hc
    rcases hc with rfl | rfl
    · simp only [Doc.Col.Skippable]
    · trivial

/-- Sample: the values of `sampleDoc`. -/
def sampleDocVals : List (List Doc.Value) := [
    [.num (ofInt 2147483647), .num 0xc1dfffffffc00000, .text (Doc.ascii "a longer string"), .num (ofInt 5)],
    [.num (ofInt 13), .num 0x3ff8000000000000, .text (Doc.ascii "abc"), .num (ofInt 5)],
    [.num (ofInt 13), .num 0, .text (Doc.ascii "a longer string"), .num (ofInt 5)]]

/-- The sample stands for three rows: the first has missing values in the columns it leaves out, the second and third
share the integer 13 (the code 3 above the minimum 10). -/
theorem sampleDoc_table : sampleDoc.table = some sampleDocVals := by
  decide +kernel

/-- C58 applies to a file of two such frames. -/
example : ∃ frs, readPlain sampleEnv ([sampleDoc, sampleDoc].flatMap (Doc.Frame.bytes sampleEnv.md5 .little)) = (frs, none) ∧
    Match (ReadAs sampleEnv ([sampleDoc, sampleDoc].flatMap (Doc.Frame.bytes sampleEnv.md5 .little))) [sampleDoc, sampleDoc] frs :=
  C58_documented_files_are_read sampleEnv sampleEnv_md5 [sampleDoc, sampleDoc]
    (by intro f hf; simp only [List.mem_cons, List.not_mem_nil, or_false, or_self] at hf; subst hf; exact sampleDoc_valid)
    (by intro f hf; simp only [List.mem_cons, List.not_mem_nil, or_false, or_self] at hf; subst hf; decide +kernel)

/-- C57 applies to the sample table, and the file it gives is the documented one: it starts as the document says. -/
example : ∃ f : Doc.Frame, f.Valid sampleEnv.asDbl ∧ sampleTable.encode sampleEnv .other = .ok (f.bytes sampleEnv.md5 .big) := by
  obtain ⟨f, h1, h2, _⟩ := C57_encoded_as_documented sampleEnv rfl sampleTable sampleTable_ok .other
  exact ⟨f, h1, h2⟩

end Verif
