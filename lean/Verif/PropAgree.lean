import Verif.RowFile
import Verif.PropDup
import Verif.PropMerge

/-
C46: the row interface and the frame interface show the same values.
-/

namespace Verif

/-! ### Before the first row -/

theorem refCols_length (o : Order) (cs : List Codec) (ys zs : List Cell) (h : ys.length = zs.length) :
    refCols o (allOf cs) ys = refCols o (allOf cs) zs := by
  induction cs generalizing ys zs with
  | nil => cases ys <;> cases zs <;> rfl
  | cons c cs ih =>
    cases ys with
    | nil =>
      cases zs with
      | nil => rfl
      | cons z zs => simp at h
    | cons y ys =>
      cases zs with
      | nil => simp at h
      | cons z zs =>
        have := ih ys zs (by simpa using h)
        simp only [allOf, List.map_cons, refCols, if_true] at this ⊢
        rw [this]

/-- Only the columns before the first marker keep what was there. -/
theorem refRows_first (o : Order) (cs : List Codec) (k ls : Nat) (ys zs : List Cell) (s : List Byte)
    (hl : ys.length = zs.length) (ht : ys.take (firstMarker s) = zs.take (firstMarker s)) :
    refRows o (allOf cs) k ls ys s = refRows o (allOf cs) k ls zs s := by
  cases k with
  | zero => rfl
  | succ k =>
    simp only [refRows, P.bind_apply]
    cases hm : readBytes 2 s with
    | error e => rfl
    | ok v =>
      obtain ⟨m, s1⟩ := v
      have hmk : markerStart m = firstMarker s := by rw [(readBytes_ok hm).1]; rfl
      dsimp only
      split
      · rfl
      · have h1 : refCols o (List.drop (markerStart m) (allOf cs)) (ys.drop (markerStart m)) =
            refCols o (List.drop (markerStart m) (allOf cs)) (zs.drop (markerStart m)) := by
          have hd : (allOf cs).drop (markerStart m) = allOf (cs.drop (markerStart m)) := by simp [allOf]
          rw [hd]
          exact refCols_length o _ _ _ (by simp [hl])
        rw [h1, hmk, ht]

/-- Specification: the missing value of an integer column is the one integer columns have by default. -/
def Codec.StdMissing (c : Codec) : Prop := c.kind.isInt = true → c.missing = integerMDI

theorem std_word (c : Codec) (h : c.StdMissing) : c.missingWord = .ok c.firstWord := by
  rw [← clonedMissing_eq]
  unfold Codec.missingWord Codec.clonedMissing
  split
  · rename_i hk
    simp only [Bool.and_eq_true] at hk
    rw [h hk.1]
  · rfl

/-- The row buffer before the first row. -/
theorem firstCells_any (junk : Junk) (t p : Nat) (cols : List Col) (hl : ∀ c ∈ cols, c.codec.Loaded)
    (hb : ∀ c ∈ cols, ¬ c.codec.Blank) :
    ∃ l ys, firstCells junk t p cols = .ok l ∧ Like (cols.map Col.codec) l ys ∧
      ∀ (i : Nat) (c : Col) (y : Cell), cols[i]? = some c → ys[i]? = some y → c.codec.StdMissing → y = [c.codec.firstWord] := by
  induction cols generalizing p with
  | nil => exact ⟨[], [], rfl, .nil, by simp⟩
  | cons c cols ih =>
    obtain ⟨l, ys, h1, h2, h3⟩ := ih (p + 1) (fun x hx => hl x (by simp [hx])) (fun x hx => hb x (by simp [hx]))
    obtain ⟨⟨w, hw⟩, hwid⟩ := hl c (by simp)
    obtain ⟨w1, w2⟩ := hwid (hb c (by simp))
    refine ⟨(w :: (List.range (c.codec.width - 1)).map (junk t p)) :: l, [w] :: ys, ?_, ?_, ?_⟩
    · simp [firstCells, firstCell, hw, h1, hb c (by simp)]
    · refine .cons w1 w2 (by simp; omega) (by simp [Holds]) (by simp) h2
    · intro i d y hd hy hs
      cases i with
      | zero =>
        simp at hd hy
        subst hd; subst hy
        have := std_word c.codec hs
        rw [hw] at this
        simp only [Except.ok.injEq] at this
        rw [this]
      | succ i => exact h3 i d y (by simpa using hd) (by simpa using hy) hs

/-! ### A table -/

/-- Specification: all columns of the table are decoded, in order, into targets wide enough. -/
structure DecodesAll (bytes : List Byte) (t : Tbl) (req : List (Str × Target)) (out : List (Nat → Cell)) : Prop where
  names : req.map Prod.fst = t.info.cols.map Col.name
  wide : ∀ (p : Nat) (c : Col) (nm : Str) (tg : Target), t.info.cols[p]? = some c → req[p]? = some (nm, tg) →
    c.codec.width ≤ tg.elem ∧ ∀ r, (tg.mem r).length = tg.elem
  ok : decodeFrame bytes [t] req = .ok out

/-- Specification: what the row interface asks of a table: columns, data exactly if there are rows, no empty constant
string, and the default missing value in the integer columns that the first row leaves out. -/
structure RowTable (bytes : List Byte) (t : Tbl) : Prop where
  cols : t.info.cols ≠ []
  rows : t.info.nrows = 0 ↔ t.info.dataSize = 0
  strings : ∀ c ∈ t.info.cols, ¬ c.codec.Blank
  missing : ∀ (p : Nat) (c : Col), p < firstMarker (t.bytesIn bytes) → t.info.cols[p]? = some c → c.codec.StdMissing

/-- Specification: the cell of the row interface and the element the decoder wrote.  A column the first row leaves out
is only known in its first word. -/
def SameCell (bytes : List Byte) (t : Tbl) (p : Nat) (c : Col) (x m : Cell) : Prop :=
  x.length = c.codec.width ∧ 1 ≤ c.codec.width ∧ x.take 1 = m.take 1 ∧
    (firstMarker (t.bytesIn bytes) ≤ p → x = m.take c.codec.width)

theorem resolve_all {cols : List Col} (hnd : (cols.map Col.name).Nodup) {L : Lookup} (S : List (Str × Nat))
    (hL : L = ⟨numbered (cols.map Col.name) 0, S⟩) {n : Nat} {req : List (Str × Target)} {ps : List Nat}
    (hn : req.map Prod.fst = cols.map Col.name) (hr : resolve L n req [] = .ok ps) : ps = List.range cols.length := by
  obtain ⟨h1, _, _, h4⟩ := resolve_ok _ _ _ _ _ hr
  have hlen : req.length = cols.length := by simpa using congrArg List.length hn
  refine List.ext_getElem? ?_
  intro i
  rcases Nat.lt_or_ge i cols.length with hi | hi
  · rw [List.getElem?_range hi]
    rcases hq : req[i]'(by omega) with ⟨nm, tg⟩
    have hq' : req[i]? = some (nm, tg) := by rw [List.getElem?_eq_getElem (by omega), hq]
    rw [← (h4 i nm tg hq').1]
    have hnm : (cols.map Col.name)[i]? = some nm := by rw [← hn, List.getElem?_map, hq']; rfl
    subst hL
    unfold Lookup.find
    rw [assoc_numbered _ hnd i nm hnm]
  · rw [List.getElem?_eq_none (by omega), List.getElem?_eq_none (by simpa using hi)]

theorem wanted_all (cols : List Col) : wanted cols (List.range cols.length) = allOf (cols.map Col.codec) := by
  refine List.ext_getElem? ?_
  intro i
  rw [wanted_getElem?]
  simp only [allOf, List.map_map, List.getElem?_map]
  cases h : cols[i]? with
  | none => rfl
  | some c =>
    have := (List.getElem?_eq_some_iff.mp h).1
    simp [this]

theorem toI64_inj {n k : Nat} (h : toI64 n = k) (hn : n < 18446744073709551616) : n = k := by
  unfold toI64 at h
  rw [BitVec.toInt_eq_toNat_cond, BitVec.toNat_ofNat, Nat.mod_eq_of_lt (by omega)] at h
  split at h <;> omega

/-- A table whose columns the frame interface decodes is read by the row interface, with the same values. -/
theorem table_agrees (env : Env) (junk : Junk) (k : Nat) (bytes : List Byte) (r : RawFrame) (hr : r.Ok env) (pos : Nat)
    (rest : List Byte) (hf : bytes.drop pos = r.bytes ++ rest) (req : List (Str × Target)) (out : List (Nat → Cell))
    (hd : DecodesAll bytes (r.tbl pos) req out) (ht : RowTable bytes (r.tbl pos)) :
    ∃ F : RFrame, F.bytes = r.bytes ∧ F.cols = r.info.cols ∧ F.rows.length = r.info.nrows ∧ F.At env junk k ∧
      ∀ (i : Nat) (row : List Cell), F.rows[i]? = some row → row.length = r.info.cols.length ∧
        ∀ (p : Nat) (c : Col), r.info.cols[p]? = some c →
        ∃ (x : Cell) (m : Nat → Cell), row[p]? = some x ∧ out[p]? = some m ∧ SameCell bytes (r.tbl pos) p c x (m i) := by
  obtain ⟨l1, l2, l3⟩ := parse_loaded hr.1
  have hsz : r.info.dataSize = r.data.length := toI64_inj hr.2 l2
  have hcols : (r.tbl pos).info.cols = r.info.cols := rfl
  have hinfo : (r.tbl pos).info = r.info := rfl
  have hord : (r.tbl pos).order = r.order := rfl
  obtain ⟨c1, c2, c3, c4⟩ := ht
  rw [hinfo] at c1 c2 c3 c4
  have hbytes : r.bytes ≠ [] := by
    intro h0
    have := hr.size
    rw [h0] at this
    simp at this
  have hparse : ∀ x, parseHeader env.md5 env.asDbl (r.bytes ++ x) = .ok (some (r.info, r.order, r.data ++ x)) :=
    fun x => parseHeader_append _ _ _ _ _ _ _ hr.1
  obtain ⟨l, ys, f1, f2, f3⟩ := firstCells_any junk k 0 r.info.cols l1 c3
  have hstored := (stored_table env (File.known bytes) r hr pos rest hf).1
  have hbi : (r.tbl pos).bytesIn bytes = r.data := by
    have hs := hr.size
    have hlen := congrArg List.length hf
    simp only [List.length_drop, List.length_append] at hlen
    have h0 : (r.tbl pos).dataPos = pos + (r.bytes.length - r.data.length : Nat) := rfl
    have := data_ok bytes (r.tbl pos) (by rw [h0]; omega) (by rw [hinfo, hr.2]; omega)
      (by rw [h0, hinfo, hr.2]; omega)
    rw [this] at hstored
    simpa using hstored
  rw [hbi] at c4
  rcases Nat.eq_zero_or_pos r.info.nrows with hz | hpos
  · have hdz : r.data = [] := by
      have := c2.mp hz
      exact List.length_eq_zero_iff.mp (by omega)
    refine ⟨⟨r.bytes, r.info.cols, []⟩, rfl, rfl, by simp [hz], ⟨hbytes, r.info, r.order, r.data, l, hparse, rfl, hsz, by simp [hz], f1,
      Or.inl ⟨rfl, hdz⟩⟩, by simp⟩
  · have hok := hd.ok
    rw [decodeFrame_one] at hok
    unfold Tbl.decode at hok
    rw [hinfo] at hok
    have hnd : (r.info.cols.map Col.name).Nodup := by
      by_contra hn
      obtain ⟨L, hL⟩ := lookup_dup _ hn
      rw [hL] at hok
      simp at hok
    obtain ⟨S, hL⟩ := columnLookup_nodup _ hnd
    have hnames := hd.names
    rw [hinfo] at hnames
    have hlen : req.length = r.info.cols.length := by simpa using congrArg List.length hnames
    rw [hL] at hok
    dsimp only at hok
    rw [if_neg (by omega)] at hok
    cases hres : resolve ⟨numbered (r.info.cols.map Col.name) 0, S⟩ r.info.nrows req [] with
    | error e => rw [hres] at hok; simp at hok
    | ok ps =>
      rw [hres, hstored] at hok
      dsimp only at hok
      have hps := resolve_all hnd S rfl hnames hres
      have hsame : r.order = .same := by
        unfold tableDecode at hok
        rw [if_neg (by omega), hres] at hok
        dsimp only at hok
        rw [if_neg (by omega), hord] at hok
        cases ho : r.order with
        | same => rfl
        | other => rw [ho, if_pos ⟨rfl, c1⟩] at hok; simp at hok
      have href := tableDecode_ref r.info.cols r.info.nrows hpos r.data ⟨numbered (r.info.cols.map Col.name) 0, S⟩ req ps (by omega) hres
        (by intro p hp; rw [hps] at hp; simpa using hp)
        (by
          intro i nm tg p c hq hp hc
          have hip : i = p := by
            rw [hps] at hp
            obtain ⟨hb, hb'⟩ := List.getElem?_eq_some_iff.mp hp
            simpa using hb'
          subst hip
          obtain ⟨w1, w2⟩ := hd.wide i c nm tg hc hq
          have hcm := List.mem_of_getElem? hc
          obtain ⟨v1, v2⟩ := (l1 c hcm).2 (c3 c hcm)
          exact ⟨by omega, by omega, w2⟩)
      rw [hord, hsame] at hok
      rw [hps, wanted_all] at href
      cases hrr : refRows .same (allOf (r.info.cols.map Col.codec)) r.info.nrows 0 (firstRow (allOf (r.info.cols.map Col.codec))) r.data with
      | error e =>
        rw [hrr] at href
        dsimp only at href
        rw [href] at hok
        simp at hok
      | ok v =>
        obtain ⟨rows, s'⟩ := v
        rw [hrr] at href
        dsimp only at href
        obtain ⟨g1, out', g2, g3, g4⟩ := href
        rw [g2] at hok
        simp only [Except.ok.injEq] at hok
        subst hok
        -- the same from the contents of the row buffer
        obtain ⟨y1, y2⟩ := f2.lengths
        have hfr : (firstRow (allOf (r.info.cols.map Col.codec))).length = ys.length := by
          simp [firstRow, allOf, y2]
        have hst : (firstRow (allOf (r.info.cols.map Col.codec))).take (firstMarker r.data) = ys.take (firstMarker r.data) := by
          refine List.ext_getElem? ?_
          intro i
          rw [List.getElem?_take, List.getElem?_take]
          split
          · rename_i hi
            rcases Nat.lt_or_ge i ys.length with hiy | hiy
            · have hic : i < r.info.cols.length := by simp at y2; omega
              have hy := List.getElem?_eq_getElem hiy
              have hc := List.getElem?_eq_getElem hic
              have := f3 i _ _ hc hy (c4 i _ hi hc)
              rw [hy, this]
              simp [firstRow, allOf]
              exact ⟨_, hc, rfl⟩
            · rw [List.getElem?_eq_none hiy, List.getElem?_eq_none (by omega)]
          · rfl
        rw [refRows_first _ _ _ _ _ ys _ hfr hst] at hrr
        obtain ⟨rows', i1, i2⟩ := rows_alike_first r.info.nrows l ys f2 r.data rows s' hrr
        have hlen' : rows'.length = r.info.nrows := by rw [i2.len, g1]
        have h2 : 2 ≤ r.data.length := by
          obtain ⟨m, hm⟩ : ∃ m, r.info.nrows = m + 1 := ⟨r.info.nrows - 1, by omega⟩
          rw [hm] at i1
          simp only [itRows, itStep, P.bind_apply] at i1
          cases hb : readBytes 2 r.data with
          | error e => rw [hb] at i1; simp at i1
          | ok v => exact (readBytes_ok hb).2.2
        refine ⟨⟨r.bytes, r.info.cols, rows'⟩, rfl, rfl, hlen', ⟨hbytes, r.info, r.order, r.data, l, hparse, rfl, hsz, hlen'.symm, f1,
          Or.inr ⟨?_, h2, ?_⟩⟩, ?_⟩
        · intro h0
          dsimp only at h0
          rw [h0] at hlen'
          simp at hlen'
          omega
        · intro x
          dsimp only
          rw [hlen', hsame]
          exact ⟨_, Ext.itRows _ _ _ _ _ _ _ x i1⟩
        · intro i row hrow
          dsimp only at hrow
          have hil : i < r.info.nrows := by rw [← hlen']; exact (List.getElem?_eq_some_iff.mp hrow).1
          have hb := List.getElem?_eq_getElem (show i < rows.length by omega)
          obtain ⟨b1, b2⟩ := i2.row i row _ hrow hb
          refine ⟨by simpa using b1.lengths.1, ?_⟩
          intro p c hc
          obtain ⟨x, y, x1, x2, x3, x4, x5, x6, x7⟩ := b1.get p c.codec (by rw [List.getElem?_map, hc]; rfl)
          have hpl : p < r.info.cols.length := (List.getElem?_eq_some_iff.mp hc).1
          rcases hq : req[p]'(by omega) with ⟨nm, tg⟩
          have hq' : req[p]? = some (nm, tg) := by rw [List.getElem?_eq_getElem (by omega), hq]
          obtain ⟨m, m1, m2, m3, _⟩ := g4 p nm tg p hq' (List.getElem?_range hpl)
          refine ⟨x, m, x1, m1, x5, x4, ?_, ?_⟩
          · have hh := m2 i hil
            have hrow' : (rows.getD i []).getD p [] = y := by
              rw [List.getD_eq_getElem?_getD, List.getD_eq_getElem?_getD, hb]
              simp [x2]
            rw [hrow'] at hh
            obtain ⟨w, ws, rfl⟩ := List.exists_cons_of_ne_nil x7
            unfold Holds at hh x6
            have e1 := congrArg (List.take 1) hh
            have e2 := congrArg (List.take 1) x6
            rw [List.take_take] at e1 e2
            simp only [List.length_cons] at e1 e2
            rw [show min 1 (ws.length + 1) = 1 by omega] at e1 e2
            rw [e1, e2]
          · intro hfm
            rw [hbi] at hfm
            have hh := m2 i hil
            have hrow' : (rows.getD i []).getD p [] = y := by
              rw [List.getD_eq_getElem?_getD, List.getD_eq_getElem?_getD, hb]
              simp [x2]
            rw [hrow'] at hh
            have hyl := b2 p c.codec y hfm (by rw [List.getElem?_map, hc]; rfl) x2
            have hxy : x = y := x6.eq (by omega)
            unfold Holds at hh
            rw [hyl] at hh
            rw [hxy, hh]

/-! ### Positions of rows -/

/-- Specification: the rows of the tables before table `k`. -/
def rowsAhead (ts : List Tbl) (k : Nat) : Nat := ((ts.take k).map (fun t => t.info.nrows)).sum

theorem flatViews_get (Fs : List RFrame) (k r : Nat) (F : RFrame) (row : List Cell) (hF : Fs[k]? = some F) (hr : F.rows[r]? = some row) :
    (Fs.flatMap (tableViews true))[rowCount (Fs.take k) + r]? = some ⟨F.cols, row, decide (r = 0)⟩ := by
  induction Fs generalizing k with
  | nil => simp at hF
  | cons G Fs ih =>
    rw [List.flatMap_cons]
    cases k with
    | zero =>
      simp at hF
      subst hF
      have hlt := (List.getElem?_eq_some_iff.mp hr).1
      rw [List.getElem?_append_left (by simp [rowCount, tableViews_length]; exact hlt)]
      simp only [List.take_zero, rowCount, List.map_nil, List.sum_nil, Nat.zero_add]
      rw [tableViews_get, hr]
      simp
    | succ k =>
      have := ih k (by simpa using hF)
      rw [List.getElem?_append_right (by simp [rowCount, tableViews_length]; omega), ← this, tableViews_length]
      congr 1
      simp [rowCount]
      omega

theorem fileViews_first (Gs : List RFrame) (h : ∀ G ∈ Gs, G.rows ≠ []) (i : Nat) :
    (fileViews Gs)[i]? = (Gs.flatMap (tableViews true))[i]?.map (fun v => { v with fresh := decide (i ≠ 0) && v.fresh }) := by
  cases Gs with
  | nil => simp [fileViews]
  | cons G Gs =>
    obtain ⟨r, rs, hr⟩ := List.exists_cons_of_ne_nil (h G (by simp))
    cases i with
    | zero => simp [fileViews, tableViews, hr]
    | succ i =>
      simp only [fileViews, List.flatMap_cons, tableViews, hr, List.cons_append, List.getElem?_cons_succ]
      cases ((rs.map (fun r => (⟨G.cols, r, false⟩ : RowView)) ++ Gs.flatMap (fun F => match F.rows with
        | [] => [] | r :: rs => (⟨F.cols, r, true⟩ : RowView) :: rs.map (fun r => ⟨F.cols, r, false⟩)))[i]?) <;> simp

theorem withRows_ne (Fs : List RFrame) : ∀ G ∈ withRows Fs, G.rows ≠ [] := by
  intro G hG h0
  simp [withRows, h0] at hG

/-- **C46**: if the frame interface reads a file and decodes every column of every table, the row interface reads it
without exception too and shows exactly the rows of the tables in order, with the same columns and the same values,
whatever memory held before; only a row that begins a table after others have been seen is announced as new.
Conditions of the row interface: `RowTable`. -/
theorem C46_same_rows (env : Env) (bytes : List Byte) (ts : List Tbl) (h : readPlain env bytes = (ts.map (fun t => [t]), none))
    (hs : SizedFrames (ts.map (fun t => [t]))) (req : Nat → List (Str × Target)) (out : Nat → List (Nat → Cell))
    (hd : ∀ (k : Nat) (t : Tbl), ts[k]? = some t → DecodesAll bytes t (req k) (out k)) (ht : ∀ t ∈ ts, RowTable bytes t)
    (junk : Junk) (fuel : Nat) (hf : (ts.map (fun t => t.info.nrows)).sum + 1 < fuel) :
    ∃ views, readRows env junk bytes fuel = (views, none) ∧ views.length = (ts.map (fun t => t.info.nrows)).sum ∧
      ∀ (k : Nat) (t : Tbl) (r : Nat), ts[k]? = some t → r < t.info.nrows →
        ∃ v : RowView, views[rowsAhead ts k + r]? = some v ∧ v.cols = t.info.cols ∧ v.cells.length = t.info.cols.length ∧
          v.fresh = decide (r = 0 ∧ 0 < rowsAhead ts k) ∧
          ∀ (p : Nat) (c : Col), t.info.cols[p]? = some c → ∃ (x : Cell) (m : Nat → Cell), v.cells[p]? = some x ∧ (out k)[p]? = some m ∧
            SameCell bytes t p c x (m r) := by
  obtain ⟨ts', hsc, he, hcp⟩ := readPlain_iff.mp h
  have hts : ts = ts' := by
    have := congrArg List.flatten he
    simpa [flatten_singles] using this
  subst hts
  have hs' : Sized ts := by simpa [SizedFrames, flatten_singles] using hs
  obtain ⟨rs, hrs, h1, h2⟩ := scan_raw hsc hs'
  have hat : ∀ (k : Nat) (r : RawFrame), rs[k]? = some r →
      ts[k]? = some (r.tbl ((fileOf (rs.take k)).length : Nat)) ∧
        ∃ rest', bytes.drop (fileOf (rs.take k)).length = r.bytes ++ rest' := by
    intro k r hk
    have := layout_split (File.known bytes) env rs hrs 0 [] (by simp [File.known, h2]) k r hk
    simpa [h1, File.known] using this
  have hlen : ts.length = rs.length := by rw [h1, layout_length]
  -- the frames as the row interface reads them
  have hall : ∀ k : Nat, k < rs.length → ∃ F : RFrame, ∃ t, ts[k]? = some t ∧ rs[k]?.map RawFrame.bytes = some F.bytes ∧ F.cols = t.info.cols ∧
      F.rows.length = t.info.nrows ∧ F.At env junk (k + 1) ∧
      ∀ (i : Nat) (row : List Cell), F.rows[i]? = some row → row.length = t.info.cols.length ∧
        ∀ (p : Nat) (c : Col), t.info.cols[p]? = some c →
        ∃ (x : Cell) (m : Nat → Cell), row[p]? = some x ∧ (out k)[p]? = some m ∧ SameCell bytes t p c x (m i) := by
    intro k hk
    have hr := List.getElem?_eq_getElem hk
    obtain ⟨a1, rest', a2⟩ := hat k _ hr
    obtain ⟨F, g1, g2, g3, g4, g5⟩ := table_agrees env junk (k + 1) bytes rs[k] (hrs _ (List.getElem_mem hk)) _ rest' a2 (req k) (out k)
      (hd k _ a1) (ht _ (List.mem_of_getElem? a1))
    exact ⟨F, _, a1, by rw [hr, g1]; rfl, g2, g3, g4, g5⟩
  obtain ⟨Fs, hFl, hFs'⟩ := exists_list _ (List.range rs.length) (fun k hk => hall k (by simpa using hk))
  simp only [List.length_range] at hFl
  have hFs := fun (k : Nat) (F : RFrame) (hk : Fs[k]? = some F) =>
    hFs' k k F (List.getElem?_range (by rw [← hFl]; exact (List.getElem?_eq_some_iff.mp hk).1)) hk
  have hbytes : (Fs.map RFrame.bytes).flatten = bytes := by
    have : Fs.map RFrame.bytes = rs.map RawFrame.bytes := by
      refine List.ext_getElem? ?_
      intro k
      rcases Nat.lt_or_ge k rs.length with hk | hk
      · have hF := List.getElem?_eq_getElem (show k < Fs.length by omega)
        obtain ⟨t, _, b2, _⟩ := hFs k _ hF
        rw [List.getElem?_map, List.getElem?_map, hF, b2]
        rfl
      · rw [List.getElem?_eq_none (by simp; omega), List.getElem?_eq_none (by simp; omega)]
    rw [this, h2, fileOf, List.flatMap_def]
  have hcount : ∀ k, rowCount (Fs.take k) = rowsAhead ts k := by
    intro k
    unfold rowCount rowsAhead
    congr 1
    rw [List.map_take, List.map_take]
    congr 1
    refine List.ext_getElem? ?_
    intro j
    rcases Nat.lt_or_ge j rs.length with hk | hk
    · have hF := List.getElem?_eq_getElem (show j < Fs.length by omega)
      obtain ⟨t, b1, _, _, b4, _⟩ := hFs j _ hF
      rw [List.getElem?_map, List.getElem?_map, hF, b1]
      simp [b4]
    · rw [List.getElem?_eq_none (by simp; omega), List.getElem?_eq_none (by simp; omega)]
  have htot : rowCount Fs = (ts.map (fun t => t.info.nrows)).sum := by
    have := hcount rs.length
    rwa [List.take_of_length_le (by omega), rowsAhead, List.take_of_length_le (by omega)] at this
  have hfiles : FilesAt env junk 0 Fs := by
    have : ∀ (Gs : List RFrame) (n : Nat), (∀ (k : Nat) (G : RFrame), Gs[k]? = some G → G.At env junk (n + k + 1)) → FilesAt env junk n Gs := by
      intro Gs
      induction Gs with
      | nil => intro n _; trivial
      | cons G Gs ih =>
        intro n hn
        refine ⟨hn 0 G rfl, ih (n + 1) ?_⟩
        intro k H hk
        have := hn (k + 1) H (by simpa using hk)
        rwa [show n + (k + 1) + 1 = n + 1 + k + 1 by omega] at this
    refine this Fs 0 ?_
    intro k F hk
    obtain ⟨t, _, _, _, _, b5, _⟩ := hFs k F hk
    simpa using b5
  have hrd := readRows_any env junk Fs hfiles fuel (by omega)
  rw [hbytes] at hrd
  refine ⟨_, hrd, ?_, ?_⟩
  · have e1 : (fileViews (withRows Fs)).length = ((withRows Fs).flatMap (tableViews true)).length := by
      cases withRows Fs with
      | nil => rfl
      | cons G Gs => simp [fileViews, tableViews_length]
    rw [e1, withRows_flatMap, ← htot]
    simp [List.length_flatMap, tableViews_length, rowCount]
  · intro k t r hk hr
    have hkl := (List.getElem?_eq_some_iff.mp hk).1
    have hF := List.getElem?_eq_getElem (show k < Fs.length by omega)
    obtain ⟨t', b1, _, b3, b4, _, b6⟩ := hFs k _ hF
    rw [hk] at b1
    simp only [Option.some.injEq] at b1
    subst b1
    have hrow := List.getElem?_eq_getElem (show r < (Fs[k]'(by omega)).rows.length by omega)
    obtain ⟨d1, d2⟩ := b6 r _ hrow
    have hv := flatViews_get Fs k r _ _ hF hrow
    rw [hcount] at hv
    refine ⟨⟨t.info.cols, (Fs[k]'(by omega)).rows[r]'(by omega), decide (r = 0 ∧ 0 < rowsAhead ts k)⟩, ?_, rfl, d1, rfl, d2⟩
    rw [fileViews_first _ (withRows_ne Fs), withRows_flatMap, hv, b3]
    simp
    by_cases h0 : r = 0
    · subst h0
      by_cases h1 : rowsAhead ts k = 0 <;> simp [h1] <;> omega
    · simp [h0]

/-! ### The conditions are met -/

/-- Specification: targets for all columns of a table. -/
def Tbl.allReq (t : Tbl) : List (Str × Target) :=
  t.info.cols.map (fun c => (c.name, ⟨t.info.nrows, c.codec.width, fun _ => List.replicate c.codec.width 0⟩))

/-- Proof device: the conditions of `C46_same_rows` on a table, as a program. -/
def tableAgrees (bytes : List Byte) (t : Tbl) : Bool :=
  decide (0 ≤ toI64 t.info.dataSize) && decide (t.info.cols ≠ []) && decide (t.info.nrows = 0 ↔ t.info.dataSize = 0) &&
    t.info.cols.all (fun c => decide (¬ (c.codec.kind = .longConstantString ∧ c.codec.strings.headD [] = []))) &&
    (List.range t.info.cols.length).all (fun p => decide (firstMarker (t.bytesIn bytes) ≤ p) ||
      (t.info.cols[p]?.all (fun c => !c.codec.kind.isInt || decide (c.codec.missing = integerMDI)))) &&
    (match decodeFrame bytes [t] t.allReq with | .ok _ => true | .error _ => false)

/-- Proof device: the conditions of `C46_same_rows`, as a program. -/
def fileAgrees (env : Env) (bytes : List Byte) : Bool :=
  (readPlain env bytes).2.isNone && (readPlain env bytes).1.flatten.all (tableAgrees bytes)

theorem agrees_of (env : Env) (bytes : List Byte) (h : fileAgrees env bytes = true) :
    ∃ (ts : List Tbl) (req : Nat → List (Str × Target)) (out : Nat → List (Nat → Cell)),
      readPlain env bytes = (ts.map (fun t => [t]), none) ∧ SizedFrames (ts.map (fun t => [t])) ∧
      (∀ (k : Nat) (t : Tbl), ts[k]? = some t → DecodesAll bytes t (req k) (out k)) ∧ ∀ t ∈ ts, RowTable bytes t := by
  unfold fileAgrees at h
  rw [Bool.and_eq_true] at h
  obtain ⟨h1, h2⟩ := h
  have hp : readPlain env bytes = ((readPlain env bytes).1, none) := by
    rw [Option.isNone_iff_eq_none] at h1
    rw [← h1]
  obtain ⟨ts, _, he, _⟩ := readPlain_iff.mp hp
  rw [he, flatten_singles, List.all_eq_true] at h2
  have hall : ∀ t ∈ ts, 0 ≤ toI64 t.info.dataSize ∧ RowTable bytes t ∧ ∃ out, decodeFrame bytes [t] t.allReq = .ok out := by
    intro t ht
    have := h2 t ht
    simp only [tableAgrees, Bool.and_eq_true, decide_eq_true_eq] at this
    obtain ⟨⟨⟨⟨⟨a1, a2⟩, a3⟩, a4⟩, a5⟩, a6⟩ := this
    refine ⟨a1, ⟨a2, a3, ?_, ?_⟩, ?_⟩
    · intro c hc
      have := List.all_eq_true.mp a4 c hc
      rw [decide_eq_true_eq] at this
      exact this
    · intro p c hp hc
      have hpl := (List.getElem?_eq_some_iff.mp hc).1
      have := List.all_eq_true.mp a5 p (by simpa using hpl)
      rw [hc] at this
      simp only [Option.all_some, Bool.or_eq_true, decide_eq_true_eq, Bool.not_eq_true'] at this
      intro hk
      rcases this with h | h | h
      · omega
      · rw [hk] at h; simp at h
      · exact h
    · cases hd : decodeFrame bytes [t] t.allReq with
      | error e => rw [hd] at a6; simp at a6
      | ok out => exact ⟨out, rfl⟩
  refine ⟨ts, fun k => (ts[k]?.map Tbl.allReq).getD [], fun k => match ts[k]? with
    | some t => (match decodeFrame bytes [t] t.allReq with | .ok out => out | .error _ => [])
    | none => [], by rw [← he]; exact hp, ?_, ?_, fun t ht => (hall t ht).2.1⟩
  · intro t ht
    rw [flatten_singles] at ht
    exact (hall t ht).1
  · intro k t hk
    obtain ⟨_, _, out, ho⟩ := hall t (List.mem_of_getElem? hk)
    simp only [hk, Option.map_some, Option.getD_some, ho]
    refine ⟨by simp [Tbl.allReq], ?_, ho⟩
    intro p c nm tg hc hq
    simp only [Tbl.allReq, List.getElem?_map, hc, Option.map_some, Option.some.injEq, Prod.mk.injEq] at hq
    obtain ⟨_, rfl⟩ := hq
    exact ⟨Nat.le_refl _, by simp⟩

/-- Sample: a file, with its header and data changed. -/
def patched (T : UTable) (f : HeaderInfo → HeaderInfo) (g : List Byte → List Byte) : List Byte :=
  match T.encode sampleEnv .same with
  | .error _ => []
  | .ok b =>
    match parseHeader sampleEnv.md5 sampleEnv.asDbl b with
    | .ok (some (h, o, d)) => putHeader sampleEnv.md5 o (f h) ++ g d
    | _ => []

/-- Sample: the bytes of what a writer wrote. -/
def bytesOf (r : Except Err (List (List Byte))) : List Byte :=
  match r with
  | .ok bs => bs.flatten
  | .error _ => []

/-- Sample: the elements of the columns of each frame as decoded through the frame interface. -/
def framesSeen (env : Env) (bytes : List Byte) : List (Except Err (List (List Cell))) :=
  (readPlain env bytes).1.flatten.map (fun t => match decodeFrame bytes [t] t.allReq with
    | .ok out => .ok (out.map (fun m => (List.range t.info.nrows).map m))
    | .error e => .error e)

/-- Sample: comparing outcomes. -/
def sameSeen : List (Except Err (List (List Cell))) → List (Except Err (List (List Cell))) → Bool
  | [], [] => true
  | .ok a :: as, .ok b :: bs => decide (a = b) && sameSeen as bs
  | .error a :: as, .error b :: bs => decide (a = b) && sameSeen as bs
  | _, _ => false

/-- The file of three tables of `SampleFile` meets the conditions of C46. -/
example : onSample (fileAgrees sampleEnv) = true := by decide +kernel

/-- Sample: rows written one by one, the first of which begins with missing values, a table without rows, another
table. -/
def mixedFile : List Byte :=
  bytesOf ((oneCol 2 (.ints [2147483647, 7])).write sampleEnv .same 4) ++
    (patched sampleTable2 (fun h => { h with nrows := 0, dataSize := 0 }) (fun _ => []) ++ patched sampleTable2 id id)

example : fileAgrees sampleEnv mixedFile = true := by decide +kernel
example : ((readPlain sampleEnv mixedFile).1.flatten.map (fun t => firstMarker (t.bytesIn mixedFile)),
    (readPlain sampleEnv mixedFile).1.flatten.map (fun t => t.info.nrows)) = ([1, 0, 0], [2, 0, 2]) := by decide +kernel
example : ((readRows sampleEnv (fun _ _ _ => 9) mixedFile 9).1.map RowView.cells, (readRows sampleEnv (fun _ _ _ => 9) mixedFile 9).2) =
    ([[[2147483647]], [[7]], [[1]], [[2]]], none) := by decide +kernel
example : sameSeen (framesSeen sampleEnv mixedFile) [.ok [[[2147483647], [7]]], .ok [[]], .ok [[[1], [2]]]] = true := by decide +kernel

/-! ### Where the interfaces differ -/

/-- **C46 fails** for an integer column with a missing value of its own that begins with it: the frame interface shows
another number than the row interface, because copies of codecs forget the missing value. -/
theorem C46_violated_missing :
    rowsSeen sampleEnv ((oneCol 2 (.ints [-1, 7])).writeMiss sampleEnv .same 4 [some (ofInt (-1))]) 9 = some ([[[-1]], [[7]]], true) ∧
    sameSeen (framesSeen sampleEnv (bytesOf ((oneCol 2 (.ints [-1, 7])).writeMiss sampleEnv .same 4 [some (ofInt (-1))])))
      [.ok [[[2147483647], [7]]]] = true := ⟨by decide +kernel, by decide +kernel⟩

/-- Sample: a table of three rows, and one that says it has three rows but has data for two. -/
def staleFile : List Byte := patched intsTable id id ++ patched sampleTable2 (fun h => { h with nrows := 3 }) id

/-- **C46 fails** for a table with too little data: the frame interface refuses it, the row interface goes on with what
an earlier table left in the buffer. -/
theorem C46_violated_stale :
    sameSeen (framesSeen sampleEnv staleFile) [.ok [[[1], [2], [3]]], .error .endOfStream] = true ∧
    ((readRows sampleEnv (fun _ _ _ => 0) staleFile 9).1.map RowView.cells, (readRows sampleEnv (fun _ _ _ => 0) staleFile 9).2) =
      ([[[1]], [[2]], [[3]], [[1]], [[2]], [[3]]], none) := ⟨by decide +kernel, by decide +kernel⟩

/-- **C46 fails** for a table with data but without rows: the frame interface accepts it, the row interface does not. -/
theorem C46_violated_norows :
    sameSeen (framesSeen sampleEnv (patched sampleTable2 (fun h => { h with nrows := 0 }) id)) [.ok [[]]] = true ∧
    (readRows sampleEnv (fun _ _ _ => 0) (patched sampleTable2 (fun h => { h with nrows := 0 }) id) 9).2 = some .assertFailed :=
  ⟨by decide +kernel, by decide +kernel⟩

end Verif
