import Verif.PropDoc
import Verif.PropAgree
import Verif.PropDispatch

/-
C58 for the row interface: documented files of either byte order.
-/

namespace Verif

/-! ### Specification -/

/-- Specification: a column as the row interface reports it. -/
def ColSeen (c : Doc.Col) (k : Col) : Prop :=
  k.name = c.name ∧ k.ty = c.type ∧ k.bitNames.zip k.bitSizes = c.bits

/-- Specification: the rows of the documented frames one after the other, each with its frame and its number there. -/
def docRowsOf (fs : List (Doc.Endian × Doc.Frame × List (List Doc.Value))) : List (Doc.Frame × Nat × List Doc.Value) :=
  fs.flatMap (fun e => e.2.2.zipIdx.map (fun x => (e.2.1, x.2, x.1)))

/-- Specification: what the row interface shows for the row number `n` of the file, which is row `i` of its frame. -/
structure RowSeen (asDbl : Bool) (n : Nat) (f : Doc.Frame) (i : Nat) (row : List Doc.Value) (v : RowView) : Prop where
  cols : Match ColSeen f.cols v.cols
  cells : v.cells.length = f.cols.length
  value : ∀ (p : Nat) (c : Doc.Col), f.cols[p]? = some c → ∃ x cell, row[p]? = some x ∧ v.cells[p]? = some cell ∧
    x.Shown (c.integral asDbl) cell
  fresh : v.fresh = decide (i = 0 ∧ 0 < n)

/-! ### Proofs -/

/-- Proof device: all columns wanted. -/
def allDoc (cols : List Doc.Col) : List (Doc.Col × Bool) := cols.map (fun c => (c, true))

theorem allDoc_fst (cols : List Doc.Col) : (allDoc cols).map Prod.fst = cols := by
  unfold allDoc
  rw [List.map_map]
  induction cols with
  | nil => rfl
  | cons c cs ih => simp only [List.map_cons, ih]; rfl

/-- Proof device: the row buffer has room for the columns. -/
def RoomFor (asDbl : Bool) (cols : List Doc.Col) (cur : List Cell) : Prop :=
  Match (fun c (x : Cell) => x.length = (loadedCol asDbl c).codec.width) cols cur

theorem RoomFor.of_ok {asDbl : Bool} {cols : List Doc.Col} {vs : List Doc.Value} {cells : List Cell}
    (h : DocCellsOk asDbl (allDoc cols) vs cells) : RoomFor asDbl cols cells := by
  induction cols generalizing vs cells with
  | nil => cases h; exact .nil
  | cons c cs ih =>
    cases h with
    | cons a b => exact .cons (a rfl).2 (ih b)

theorem RoomFor.drop {asDbl : Bool} {cols : List Doc.Col} {cur : List Cell} (h : RoomFor asDbl cols cur) (n : Nat) :
    RoomFor asDbl (cols.drop n) (cur.drop n) := by
  unfold RoomFor at h ⊢
  induction h generalizing n with
  | nil => simpa using Match.nil
  | cons a b ih =>
    cases n with
    | zero => exact .cons a b
    | succ n => exact ih n

theorem decRow_doc (o : Order) (asDbl : Bool) (cols : List Doc.Col) (xs : List Nat) (vs : List Doc.Value)
    (hv : Doc.values cols xs = some vs)
    (hx : ∀ (i : Nat) (c : Doc.Col) (x : Nat), cols[i]? = some c → xs[i]? = some x → x < 256 ^ c.codec.which.size)
    (hw : ∀ (i : Nat) (c : Doc.Col) (x : Nat) (d : Word), cols[i]? = some c → xs[i]? = some x →
      c.integral asDbl = true → c.codec.value x = some (.num d) → Doc.Whole d)
    (cur : List Cell) (hcur : RoomFor asDbl cols cur) :
    ∃ cells, Reads (decRow o ((cols.map (loadedCol asDbl)).map Col.codec) cur) (Doc.codes (endian o) cols xs) cells ∧
      DocCellsOk asDbl (allDoc cols) vs cells := by
  induction cols generalizing xs vs cur with
  | nil =>
    cases xs with
    | nil =>
      simp [Doc.values] at hv
      subst hv
      exact ⟨[], Reads.pure _, .nil⟩
    | cons x xs => simp [Doc.values] at hv
  | cons c cols ih =>
    cases hcur with
    | @cons _ y _ ys hy hys =>
      cases xs with
      | nil => simp [Doc.values] at hv
      | cons x xs =>
        simp only [Doc.values] at hv
        cases h1 : c.codec.value x with
        | none => simp [h1] at hv
        | some v =>
          cases h2 : Doc.values cols xs with
          | none => simp [h1, h2] at hv
          | some vs' =>
            simp only [h1, h2, Option.some.injEq] at hv
            subst hv
            obtain ⟨cells, c1, c2⟩ := ih xs vs' h2 (fun i => hx (i + 1)) (fun i => hw (i + 1)) ys hys
            have hx0 := hx 0 c x rfl rfl
            obtain ⟨cell, d1, d2⟩ := dec_doc o asDbl c x hx0 v h1 (by
              intro hi d hd
              subst hd
              exact hw 0 c x d rfl rfl hi h1)
            have hl : cell.length = (loadedCol asDbl c).codec.width := by
              rw [← loaded_width]
              exact (dec_consumes o _ _ _ _ (d1 [])).2.2
            refine ⟨cell :: cells, ?_, .cons (fun _ => ⟨d2, hl⟩) c2⟩
            show Reads (do
              let d ← (loadedCol asDbl c).codec.dec o
              if y.length < d.length then P.fail .ub
              else do
                let r ← decRow o ((cols.map (loadedCol asDbl)).map Col.codec) ys
                pure ((d ++ y.drop d.length) :: r)) (c.codec.code (endian o) x ++ Doc.codes (endian o) cols xs) (cell :: cells)
            refine Reads.bind d1 ?_
            rw [if_neg (by omega)]
            have hd : y.drop cell.length = [] := by rw [List.drop_eq_nil_iff]; omega
            rw [hd, List.append_nil]
            exact Reads.bind_pure c1 (fun s => rfl)

theorem itRows_doc (o : Order) (asDbl : Bool) (cols : List Doc.Col) (hn : cols.length < 65536) (rows : List Doc.Row)
    (hst : ∀ r ∈ rows, r.start ≤ cols.length)
    (hx : ∀ r ∈ rows, ∀ (i : Nat) (c : Doc.Col) (x : Nat), (cols.drop r.start)[i]? = some c → r.codes[i]? = some x →
      x < 256 ^ c.codec.which.size)
    (hw : ∀ r ∈ rows, ∀ (i : Nat) (c : Doc.Col) (x : Nat) (d : Word), (cols.drop r.start)[i]? = some c →
      r.codes[i]? = some x → c.integral asDbl = true → c.codec.value x = some (.num d) → Doc.Whole d)
    (before : List Doc.Value) (vals : List (List Doc.Value)) (hv : Doc.rowsFrom cols before rows = some vals)
    (cur : List Cell) (hcur : RoomFor asDbl cols cur)
    (hc : ∀ r, rows.head? = some r → DocCellsOk asDbl ((allDoc cols).take r.start) (before.take r.start) (cur.take r.start)) :
    ∃ out, Reads (itRows o ((cols.map (loadedCol asDbl)).map Col.codec) rows.length cur)
        (rows.flatMap (fun r => Doc.uint .big 2 r.start ++ Doc.codes (endian o) (cols.drop r.start) r.codes)) out ∧
      Match (DocCellsOk asDbl (allDoc cols)) vals out := by
  induction rows generalizing before vals cur with
  | nil =>
    simp [Doc.rowsFrom] at hv
    subst hv
    exact ⟨[], Reads.pure _, .nil⟩
  | cons r rows ih =>
    simp only [Doc.rowsFrom] at hv
    cases h1 : Doc.values (cols.drop r.start) r.codes with
    | none => simp [h1] at hv
    | some vs =>
      simp only [h1] at hv
      cases h2 : Doc.rowsFrom cols (before.take r.start ++ vs) rows with
      | none => simp [h2] at hv
      | some rest =>
        simp only [h2, Option.some.injEq] at hv
        subst hv
        have hs := hst r (by simp)
        obtain ⟨cells, c1, c2⟩ := decRow_doc o asDbl (cols.drop r.start) r.codes vs h1 (hx r (by simp)) (hw r (by simp))
          (cur.drop r.start) (hcur.drop _)
        have hrow : DocCellsOk asDbl (allDoc cols) (before.take r.start ++ vs) (cur.take r.start ++ cells) := by
          have := (hc r rfl).append c2
          have he : allDoc (cols.drop r.start) = (allDoc cols).drop r.start := by simp [allDoc, List.map_drop]
          rwa [he, List.take_append_drop] at this
        obtain ⟨out, o1, o2⟩ := ih (fun x hx => hst x (by simp [hx])) (fun x hx' => hx x (by simp [hx']))
          (fun x hx' => hw x (by simp [hx'])) (before.take r.start ++ vs) rest h2 (cur.take r.start ++ cells)
          (RoomFor.of_ok hrow) (fun r' _ => hrow.take _)
        refine ⟨(cur.take r.start ++ cells) :: out, ?_, .cons hrow o2⟩
        simp only [List.length_cons, itRows, List.flatMap_cons]
        have hm : markerStart (Doc.uint .big 2 r.start) = r.start := by
          rw [uint_marker, markerStart_markerBytes _ (by omega)]
        refine Reads.bind (a := cur.take r.start ++ cells) ?_ (Reads.bind_pure o1 (fun s => rfl))
        unfold itStep
        refine Reads.bind (a := Doc.uint .big 2 r.start) (by rw [uint_marker]; exact reads_marker _) ?_
        rw [hm, ← List.map_drop, ← List.map_drop]
        exact Reads.bind_pure c1 (fun s => rfl)

/-- The row buffer before the first row. -/
theorem firstCells_doc (asDbl : Bool) (junk : Junk) (k : Nat) (cols : List Doc.Col) (hv : ∀ c ∈ cols, c.Valid asDbl) (p : Nat) :
    ∃ l, firstCells junk k p (cols.map (loadedCol asDbl)) = .ok l ∧ RoomFor asDbl cols l ∧
      ∀ n, (∀ c ∈ cols.take n, c.Skippable asDbl) →
        DocCellsOk asDbl ((allDoc cols).take n) ((cols.map (fun c => Doc.Value.num c.codec.missing)).take n) (l.take n) := by
  induction cols generalizing p with
  | nil => exact ⟨[], rfl, .nil, fun n _ => by simpa [allDoc] using DocCellsOk.nil⟩
  | cons c cols ih =>
    obtain ⟨l, l1, l2, l3⟩ := ih (fun x hx => hv x (by simp [hx])) (p + 1)
    obtain ⟨e1, e2, _, _, e5⟩ := reload_fields asDbl c
    have hc := hv c (by simp)
    have hmw : ∃ m, (loadedCol asDbl c).codec.missingWord = .ok m ∧
        (c.Skippable asDbl → (Doc.Value.num c.codec.missing).Shown (c.integral asDbl) [m]) := by
      unfold Codec.missingWord
      rw [loadedCol_codec, e1, e2, e5]
      by_cases hcond : (kindOf c.codec.which).isInt && kindOf c.codec.which != .realConstOrMissing
      · rw [if_pos hcond]
        obtain ⟨w, w1, w2⟩ := toVT_shown (b := c.integral asDbl) (d := c.codec.missing) (fun h => hc.missing h (by
          intro hw; rw [hw] at hcond; simp [kindOf, Kind.isInt] at hcond))
        exact ⟨w, w1, fun _ => w2⟩
      · rw [if_neg hcond]
        refine ⟨_, rfl, ?_⟩
        intro hs
        have hi : c.integral asDbl = false := by
          unfold Doc.Col.Skippable at hs
          cases hw : c.codec.which <;> simp only [hw, kindOf] at hs hcond
          all_goals first
            | exact hs
            | exact absurd rfl hcond
            | (unfold Doc.Col.integral; rw [hw]; simp)
        rw [hi]
        simp [Doc.Value.Shown]
    obtain ⟨m, m1, m2⟩ := hmw
    have hnb : ¬ (loadedCol asDbl c).codec.Blank := by
      unfold Codec.Blank
      rw [loadedCol_codec, e2]
      cases c.codec.which <;> simp [kindOf]
    have hpos := loaded_pos asDbl c
    refine ⟨(m :: (List.range ((loadedCol asDbl c).codec.width - 1)).map (junk k p)) :: l, ?_, ?_, ?_⟩
    · simp only [List.map_cons, firstCells, firstCell, m1, if_neg hnb, l1]
    · refine .cons ?_ l2
      simp
      omega
    · intro n hn
      cases n with
      | zero => exact .nil
      | succ n =>
        simp only [List.take_succ_cons, List.mem_cons, forall_eq_or_imp] at hn
        refine .cons ?_ (l3 n hn.2)
        intro _
        have hw := (first_shown asDbl c hn.1).2
        rw [hw]
        exact ⟨m2 hn.1, by simp⟩

/-- Proof device: the order of a documented byte order, on a little-endian machine. -/
def orderFor : Doc.Endian → Order
  | .little => .same
  | .big => .other

theorem endian_orderFor (e : Doc.Endian) : endian (orderFor e) = e := by cases e <;> rfl

theorem rowsFrom_count {cols : List Doc.Col} {before : List Doc.Value} {rows : List Doc.Row} {vals : List (List Doc.Value)}
    (h : Doc.rowsFrom cols before rows = some vals) : vals.length = rows.length := by
  induction rows generalizing before vals with
  | nil => simp [Doc.rowsFrom] at h; subst h; rfl
  | cons r rows ih =>
    simp only [Doc.rowsFrom] at h
    split at h
    · simp at h
    · split at h
      · simp at h
      · rename_i hr
        simp only [Option.some.injEq] at h
        subst h
        simp [ih hr]

/-- A documented frame, wherever it stands in a file, is read row by row as documented. -/
theorem at_doc (env : Env) (hmd5 : env.Md5Ok) (junk : Junk) (k : Nat) (e : Doc.Endian) (f : Doc.Frame) (hf : f.Valid env.asDbl)
    (hv : (f.variable e).length ≤ 2147483647) (hd : (f.data e).length < 9223372036854775808) (vals : List (List Doc.Value))
    (ht : f.table = some vals) :
    ∃ F : RFrame, F.bytes = f.bytes env.md5 e ∧ F.cols = f.cols.map (loadedCol env.asDbl) ∧ F.At env junk k ∧
      Match (DocCellsOk env.asDbl (allDoc f.cols)) vals F.rows := by
  have hok := rawDoc_ok env hmd5 (orderFor e) f hf (by rw [endian_orderFor]; exact hv) (by rw [endian_orderFor]; exact hd)
  obtain ⟨_, l2, _⟩ := parse_loaded hok.1
  have hsz := toI64_inj hok.2 l2
  have hparse : ∀ x, parseHeader env.md5 env.asDbl ((rawDoc env.md5 env.asDbl (orderFor e) f).bytes ++ x) =
      .ok (some ((rawDoc env.md5 env.asDbl (orderFor e) f).info, (rawDoc env.md5 env.asDbl (orderFor e) f).order,
        (rawDoc env.md5 env.asDbl (orderFor e) f).data ++ x)) :=
    fun x => parseHeader_append _ _ _ _ _ _ _ hok.1
  have hbytes : (rawDoc env.md5 env.asDbl (orderFor e) f).bytes ≠ [] := by
    intro h0
    have := hok.size
    rw [h0] at this
    simp at this
  obtain ⟨l, f1, f2, f3⟩ := firstCells_doc env.asDbl junk k f.cols hf.cols 0
  obtain ⟨out, o1, o2⟩ := itRows_doc (orderFor e) env.asDbl f.cols hf.ncols f.rows hf.rows hf.codes hf.whole _ vals ht l f2 (by
    intro r hr
    exact f3 r.start (hf.first r hr))
  have hlen : out.length = f.rows.length := by
    rw [← o2.length]
    exact rowsFrom_count ht
  refine ⟨⟨f.bytes env.md5 e, f.cols.map (loadedCol env.asDbl), out⟩, rfl, rfl, ⟨?_, (rawDoc env.md5 env.asDbl (orderFor e) f).info,
    (rawDoc env.md5 env.asDbl (orderFor e) f).order, (rawDoc env.md5 env.asDbl (orderFor e) f).data, l, ?_, rfl, hsz, hlen.symm, f1, ?_⟩, o2⟩
  · have : (rawDoc env.md5 env.asDbl (orderFor e) f).bytes = f.bytes env.md5 e := by
      show f.bytes env.md5 (endian (orderFor e)) = _
      rw [endian_orderFor]
    rwa [this] at hbytes
  · have : (rawDoc env.md5 env.asDbl (orderFor e) f).bytes = f.bytes env.md5 e := by
      show f.bytes env.md5 (endian (orderFor e)) = _
      rw [endian_orderFor]
    rwa [this] at hparse
  · dsimp only
    cases hr : f.rows with
    | nil =>
      left
      refine ⟨List.length_eq_zero_iff.mp (by rw [hlen, hr]; rfl), ?_⟩
      show f.data _ = []
      unfold Doc.Frame.data
      rw [hr]
      rfl
    | cons r rs =>
      right
      have h2 : 2 ≤ (f.data (endian (orderFor e))).length := by
        unfold Doc.Frame.data
        rw [hr]
        simp only [List.flatMap_cons, List.length_append, uint_marker]
        simp [markerBytes]
        omega
      refine ⟨?_, h2, ?_⟩
      · intro h0
        rw [h0, hr] at hlen
        simp at hlen
      · intro x
        rw [hlen]
        exact ⟨x, o1 x⟩

theorem files_doc (env : Env) (hmd5 : env.Md5Ok) (junk : Junk) (fs : List (Doc.Endian × Doc.Frame × List (List Doc.Value)))
    (hf : ∀ x ∈ fs, x.2.1.Valid env.asDbl ∧ x.2.1.table = some x.2.2 ∧ (x.2.1.variable x.1).length ≤ 2147483647 ∧
      (x.2.1.data x.1).length < 9223372036854775808) (n : Nat) :
    ∃ Fs : List RFrame, FilesAt env junk n Fs ∧ (Fs.map RFrame.bytes).flatten = fs.flatMap (fun x => x.2.1.bytes env.md5 x.1) ∧
      Match (fun x F => F.cols = x.2.1.cols.map (loadedCol env.asDbl) ∧ Match (DocCellsOk env.asDbl (allDoc x.2.1.cols)) x.2.2 F.rows) fs Fs := by
  induction fs generalizing n with
  | nil => exact ⟨[], trivial, rfl, .nil⟩
  | cons x fs ih =>
    obtain ⟨Fs, g1, g2, g3⟩ := ih (fun y hy => hf y (by simp [hy])) (n + 1)
    obtain ⟨h1, h2, h3, h4⟩ := hf x (by simp)
    obtain ⟨F, a1, a2, a3, a4⟩ := at_doc env hmd5 junk (n + 1) x.1 x.2.1 h1 h3 h4 x.2.2 h2
    refine ⟨F :: Fs, ⟨a3, g1⟩, ?_, .cons ⟨a2, a4⟩ g3⟩
    simp only [List.map_cons, List.flatten_cons, List.flatMap_cons, a1, g2]

/-- Proof device: `RowSeen` but for the flag. -/
def RowSeen0 (asDbl : Bool) (x : Doc.Frame × Nat × List Doc.Value) (v : RowView) : Prop :=
  v.cols = x.1.cols.map (loadedCol asDbl) ∧ DocCellsOk asDbl (allDoc x.1.cols) x.2.2 v.cells ∧ v.fresh = decide (x.2.1 = 0)

theorem views_doc (asDbl : Bool) (fs : List (Doc.Endian × Doc.Frame × List (List Doc.Value))) (Fs : List RFrame)
    (h : Match (fun x F => F.cols = x.2.1.cols.map (loadedCol asDbl) ∧ Match (DocCellsOk asDbl (allDoc x.2.1.cols)) x.2.2 F.rows) fs Fs) :
    Match (RowSeen0 asDbl) (docRowsOf fs) (Fs.flatMap (tableViews true)) := by
  induction h with
  | nil => exact .nil
  | @cons x F fs Fs h0 _ ih =>
    unfold docRowsOf
    rw [List.flatMap_cons, List.flatMap_cons]
    refine Match.append ?_ ih
    obtain ⟨h1, h2⟩ := h0
    refine Match.of_get _ _ ?_ ?_
    · rw [tableViews_length]
      simpa using h2.length
    · intro i a b ha hb
      rw [tableViews_get] at hb
      rw [List.getElem?_map, List.getElem?_zipIdx] at ha
      cases hr : F.rows[i]? with
      | none => rw [hr] at hb; simp at hb
      | some row =>
        cases hx : x.2.2[i]? with
        | none => rw [hx] at ha; simp at ha
        | some vs =>
          rw [hr] at hb
          rw [hx] at ha
          simp only [Option.map_some, Option.some.injEq, Nat.zero_add] at ha hb
          subst ha hb
          exact ⟨h1, h2.get i _ _ hx hr, by simp⟩

theorem seen_cols (asDbl : Bool) (cols : List Doc.Col) : Match ColSeen cols (cols.map (loadedCol asDbl)) := by
  induction cols with
  | nil => exact .nil
  | cons c cs ih =>
    refine .cons ⟨rfl, rfl, ?_⟩ ih
    show (c.bits.map Prod.fst).zip (c.bits.map Prod.snd) = c.bits
    generalize c.bits = l
    induction l with
    | nil => rfl
    | cons e l ih => simp [ih]

theorem allDoc_get {cols : List Doc.Col} {p : Nat} {c : Doc.Col} (h : cols[p]? = some c) : (allDoc cols)[p]? = some (c, true) := by
  unfold allDoc
  rw [List.getElem?_map, h]
  rfl

/-- **C58** for the row interface: any file made of documented frames, each in either byte order, is read row by row
without an error: the rows of the frames in order and nothing else, with the columns of their frames and the values that
the document gives to the codes, whatever memory held before; the first row of a frame after the first row of the file
is announced as new. -/
theorem C58_documented_rows (env : Env) (hmd5 : env.Md5Ok) (junk : Junk) (fs : List (Doc.Endian × Doc.Frame × List (List Doc.Value)))
    (hf : ∀ x ∈ fs, x.2.1.Valid env.asDbl ∧ x.2.1.table = some x.2.2)
    (hsize : ∀ x ∈ fs, (x.2.1.variable x.1).length ≤ 2147483647 ∧ (x.2.1.data x.1).length < 9223372036854775808)
    (fuel : Nat) (hfuel : (docRowsOf fs).length + 1 < fuel) :
    ∃ views, readRows env junk (fs.flatMap (fun x => x.2.1.bytes env.md5 x.1)) fuel = (views, none) ∧
      views.length = (docRowsOf fs).length ∧
      ∀ (n : Nat) (f : Doc.Frame) (i : Nat) (row : List Doc.Value) (v : RowView), (docRowsOf fs)[n]? = some (f, i, row) →
        views[n]? = some v → RowSeen env.asDbl n f i row v := by
  obtain ⟨Fs, g1, g2, g3⟩ := files_doc env hmd5 junk fs (fun x hx => ⟨(hf x hx).1, (hf x hx).2, hsize x hx⟩) 0
  have hv := views_doc env.asDbl fs Fs g3
  have hlen : (Fs.flatMap (tableViews true)).length = rowCount Fs := by
    simp [List.length_flatMap, tableViews_length, rowCount]
  have hrd := readRows_any env junk Fs g1 fuel (by rw [← hlen, ← hv.length]; exact hfuel)
  rw [g2] at hrd
  refine ⟨_, hrd, ?_, ?_⟩
  · rw [hv.length]
    have e1 : (fileViews (withRows Fs)).length = ((withRows Fs).flatMap (tableViews true)).length := by
      cases withRows Fs with
      | nil => rfl
      | cons G Gs => simp [fileViews, tableViews_length]
    rw [e1, withRows_flatMap]
  · intro n f i row v hn hvn
    rw [fileViews_first _ (withRows_ne Fs), withRows_flatMap] at hvn
    cases hw : (Fs.flatMap (tableViews true))[n]? with
    | none => rw [hw] at hvn; simp at hvn
    | some w =>
      rw [hw] at hvn
      simp only [Option.map_some, Option.some.injEq] at hvn
      subst hvn
      obtain ⟨s1, s2, s3⟩ := hv.get n _ _ hn hw
      dsimp only at s1 s2 s3
      refine ⟨?_, ?_, ?_, ?_⟩
      · dsimp only
        rw [s1]
        exact seen_cols _ _
      · simpa [allDoc] using s2.lengths.2
      · intro p c hp
        obtain ⟨x, cell, x1, x2, x3, _⟩ := s2.get p c (allDoc_get hp)
        exact ⟨x, cell, x1, x2, x3⟩
      · dsimp only
        rw [s3]
        by_cases h0 : n = 0 <;> by_cases hi : i = 0 <;> simp [h0, hi]
        omega

/-! ### The hypotheses can be met -/

/-- A file of two frames in different byte orders. -/
example (junk : Junk) : ∃ vals, sampleDoc.table = some vals ∧
    ∃ views, readRows sampleEnv junk ([(Doc.Endian.little, sampleDoc, vals), (Doc.Endian.big, sampleDoc, vals)].flatMap
      (fun x => x.2.1.bytes sampleEnv.md5 x.1)) 10 = (views, none) ∧ views.length = 6 := by
  refine ⟨_, sampleDoc_table, ?_⟩
  have hv := sampleDoc_table
  generalize sampleDocVals = vals at hv ⊢
  have h3 : vals.length = 3 := rowsFrom_count hv
  have hl : (docRowsOf [(Doc.Endian.little, sampleDoc, vals), (Doc.Endian.big, sampleDoc, vals)]).length = 6 := by
    simp [docRowsOf, h3]
  obtain ⟨views, v1, v2, _⟩ := C58_documented_rows sampleEnv sampleEnv_md5 junk
    [(.little, sampleDoc, vals), (.big, sampleDoc, vals)]
    (by intro x hx; simp only [List.mem_cons, List.not_mem_nil, or_false] at hx; rcases hx with rfl | rfl <;> exact ⟨sampleDoc_valid, hv⟩)
    (by intro x hx; simp only [List.mem_cons, List.not_mem_nil, or_false] at hx; rcases hx with rfl | rfl <;> dsimp only <;> decide +kernel)
    10 (by omega)
  exact ⟨views, v1, by omega⟩

end Verif
