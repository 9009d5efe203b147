import Verif.HeaderTool
import Verif.PropListing
import Verif.SampleFile

/-!
C65: what `odc header` prints.
-/

namespace Verif

/-! ### Specification -/

/-- Specification: a line for each table: where it begins, how many bytes, rows and columns it has. -/
def offsetLines : Nat → List (UTable × Nat) → Str
  | _, [] => []
  | pos, (T, n) :: Ts =>
    decimal pos ++ lit " " ++ decimal n ++ lit " " ++ decimal T.rows ++ lit " " ++ decimal T.cols.length ++ lit "\n" ++ offsetLines (pos + n) Ts

/-- Specification: the same in words, numbered, with the columns; a table, its number of bytes and its columns as the reader reports them. -/
def verboseLines (shown : List Col → Str) : Nat → Nat → List (UTable × Nat × List Col) → Str
  | _, _, [] => []
  | i, pos, (T, n, ks) :: Ts =>
    lit "\nHeader " ++ decimal (i + 1 : Nat) ++ lit ". Begin offset: " ++ decimal pos ++ lit ", end offset: " ++ decimal (pos + n : Nat) ++
      lit ", number of rows in block: " ++ decimal T.rows ++ lit ", byteOrder: same\n" ++ shown ks ++ verboseLines shown (i + 1) (pos + n) Ts

/-- Specification: the name of a column without `@` and the name of the table at its end. -/
def bareName (table name : Str) : Str := if (lit "@" ++ table) <:+ name then name.take (name.length - (table.length + 1)) else name

/-- Specification: the name of the type of a bitfield column. -/
def bitfieldType (table name : Str) : Str := bareName table name ++ lit "_at_" ++ table ++ lit "_t"

/-- Specification: the definition of the type of a bitfield column. -/
def InCol.typeDef (table : Str) (c : InCol) : Str :=
  match c.vals with
  | .bits ms _ => lit "CREATE TYPE " ++ bitfieldType table c.name ++ lit " AS (" ++ (lit ", ").intercalate (ms.map (fun m => m.1 ++ lit " bit" ++ decimal m.2)) ++ lit ");\n"
  | _ => []

/-- Specification: the type of a column. -/
def InCol.typeText (table : Str) (c : InCol) : Str :=
  match c.vals with
  | .ints _ => lit "INTEGER"
  | .bits _ _ => bitfieldType table c.name
  | .reals _ => lit "REAL"
  | .doubles _ => lit "DOUBLE"
  | .strings _ _ => lit "STRING"

/-- Specification: the definition of a table. -/
def UTable.ddl (table path : Str) (T : UTable) : Str :=
  T.cols.flatMap (InCol.typeDef table) ++ lit "CREATE TABLE " ++ table ++ lit " AS (\n" ++
    T.cols.flatMap (fun c => lit "  " ++ bareName table c.name ++ lit " " ++ c.typeText table ++ lit ",\n") ++ lit ") ON '" ++ path ++ lit "';\n"

/-- Specification: the definitions of tables of these shapes, those left out that have the shape of the table before. -/
def ddlTexts (table path : Str) : Option Shape → List (UTable × Shape) → Str
  | _, [] => []
  | prev, (T, s) :: Ts => (if prev = some s then [] else T.ddl table path) ++ ddlTexts table path (some s) Ts

/-! ### The loop -/

/-- Proof device: the loop over a list of tables. -/
def hdAll (shown : List Col → Str) (m : HdMode) : List Tbl → HdState → Str × Except Err HdState
  | [], s => ([], .ok s)
  | t :: ts, s =>
    match hdPrint shown m s t with
    | .error e => ([], .error e)
    | .ok (s, text) => (text ++ (hdAll shown m ts s).1, (hdAll shown m ts s).2)

/-- Proof device: the result of the loop if the file ends like this. -/
def hdEnd (fin : Option Err) : Except Err HdState → Except Err HdState
  | .error e => .error e
  | .ok s => match fin with | none => .ok s | some e => .error e

theorem hdLoop_scan {env : Env} {f : File} {ts : List Tbl} {fin : Option Err} (h : Scan env f ts fin) (shown : List Col → Str) (m : HdMode) (fuel p : Nat)
    (hp : p < ts.length) (hf : ts.length - p < fuel) (s : HdState) :
    hdLoop shown m env f fuel (ts.take (p + 1)) p s = ((hdAll shown m (ts.drop p) s).1, hdEnd fin (hdAll shown m (ts.drop p) s).2) := by
  induction fuel generalizing p s with
  | zero => omega
  | succ fuel ih =>
    have hd : ts.drop p = ts[p] :: ts.drop (p + 1) := List.drop_eq_getElem_cons hp
    simp only [hdLoop]
    rw [if_neg (by omega), itGet_take ts (p + 1) p (by omega) (by omega), itIncr_scan h (p + 1) p (by omega) (by omega), hd]
    dsimp only
    cases hpr : hdPrint shown m s ts[p] with
    | error e => simp only [hdAll, hpr, hdEnd]
    | ok r =>
      obtain ⟨s', text⟩ := r
      simp only [hdAll, hpr]
      by_cases h1 : p + 1 < ts.length
      · rw [if_pos h1]
        dsimp only
        have := ih (p + 1) h1 (by omega) s'
        rw [show max (p + 1) (p + 2) = p + 1 + 1 by omega, show (p : Int) + 1 = ((p + 1 : Nat) : Int) by omega, this]
      · rw [if_neg h1]
        have : ts.drop (p + 1) = [] := List.drop_eq_nil_of_le (by omega)
        rw [this]
        cases fin with
        | some e => simp [hdAll, hdEnd]
        | none =>
          dsimp only
          cases fuel with
          | zero => omega
          | succ fuel => simp [hdLoop, hdAll, hdEnd]

/-- `odc header` on a file whose tables are known. -/
theorem hdFile_fin {env : Env} {bytes : List Byte} {ts : List Tbl} {fin : Option Err} (h : Scan env (File.known bytes) ts fin) (hl : ts.length ≤ bytes.length)
    (shown : List Col → Str) (m : HdMode) (table path : Str) (text : Str) (s : HdState) (ha : hdAll shown m ts ⟨0, []⟩ = (text, .ok s)) :
    hdFile shown m table path env bytes =
      fin.elim (text ++ (hdSummary table path s.md).1, (hdSummary table path s.md).2) (fun e => (text, some e)) := by
  have h2 := ensure_scan h 0 (by omega) 0 (by omega)
  simp only [List.take_zero] at h2
  rw [show ((0 : Nat) : Int) = 0 by rfl] at h2
  unfold hdFile
  dsimp only
  rw [h2]
  by_cases h0 : 0 < ts.length
  · rw [if_pos h0]
    dsimp only
    have := hdLoop_scan h shown m (bytes.length + 1) 0 h0 (by omega) ⟨0, []⟩
    rw [show max 0 (0 + 1) = 0 + 1 by omega]
    rw [show ((0 : Nat) : Int) = 0 by rfl, List.drop_zero, ha] at this
    simp only [if_true]
    rw [this]
    cases fin <;> rfl
  · rw [if_neg h0]
    have : ts = [] := List.length_eq_zero_iff.mp (by omega)
    subst this
    simp only [hdAll, Prod.mk.injEq, Except.ok.injEq] at ha
    obtain ⟨rfl, rfl⟩ := ha
    cases fin with
    | none => simp [hdLoop, hdSummary]
    | some e => rfl

theorem hdFile_scan {env : Env} {bytes : List Byte} {ts : List Tbl} (h : Scan env (File.known bytes) ts none) (hl : ts.length ≤ bytes.length)
    (shown : List Col → Str) (m : HdMode) (table path : Str) (text : Str) (s : HdState) (ha : hdAll shown m ts ⟨0, []⟩ = (text, .ok s)) :
    hdFile shown m table path env bytes = (text ++ (hdSummary table path s.md).1, (hdSummary table path s.md).2) :=
  hdFile_fin h hl shown m table path text s ha

/-- Proof device: the frame carries the table. -/
structure HeadOf (r : RawFrame) (T : UTable) : Prop where
  order : r.order = .same
  nrows : r.info.nrows = T.rows
  ncols : r.info.cols.length = T.cols.length
  copy : cloneCols r.info.cols = .ok r.info.cols
  col : ∀ (p : Nat) (c : InCol) (k : Col), T.cols[p]? = some c → r.info.cols[p]? = some k →
    k.name = c.name ∧ k.ty = c.vals.ty.toInt ∧ k.bitNames = c.vals.members.map Prod.fst ∧ k.bitSizes = c.vals.members.map Prod.snd

theorem hdAll_offsets (shown : List Col → Str) (rs : List RawFrame) (Ts : List UTable) (h : Match HeadOf rs Ts) (pos : Nat) (s : HdState) :
    hdAll shown .offsets (layout pos rs) s = (offsetLines pos (Ts.zip (rs.map (fun r => r.bytes.length))), .ok s) := by
  induction h generalizing pos with
  | nil => rfl
  | cons h1 _ ih =>
    rename_i r T rs Ts _
    have e32 : lit " " = [32] := by decide +kernel
    have e10 : lit "\n" = [10] := by decide +kernel
    have := ih (pos + r.bytes.length)
    push_cast at this
    simp only [layout, hdAll, hdPrint, this, hdOffsets, RawFrame.tbl, h1.nrows, h1.ncols, List.map_cons, List.zip_cons_cons, offsetLines, e32, e10,
      add_sub_cancel_left, List.append_assoc]

theorem hdAll_verbose (shown : List Col → Str) (rs : List RawFrame) (Ts : List UTable) (h : Match HeadOf rs Ts) (pos : Nat) (s : HdState) :
    hdAll shown .verbose (layout pos rs) s =
      (verboseLines shown s.count pos (Ts.zip ((rs.map (fun r => r.bytes.length)).zip (rs.map (fun r => r.info.cols)))), .ok ⟨s.count + rs.length, s.md⟩) := by
  induction h generalizing pos s with
  | nil => rfl
  | cons h1 _ ih =>
    rename_i r T rs Ts _
    have e10 : lit ", byteOrder: " ++ (lit "same" ++ [10]) = lit ", byteOrder: same\n" := by decide +kernel
    have := ih (pos + r.bytes.length) ⟨s.count + 1, s.md⟩
    push_cast at this
    simp only [layout, hdAll, hdPrint, this, hdVerbose, RawFrame.tbl, h1.nrows, h1.order, List.map_cons, List.zip_cons_cons, verboseLines,
      List.append_assoc, ← e10, List.length_cons]
    simp [Nat.add_comm, Nat.add_left_comm]

/-! ### The definitions -/

theorem stripAt_eq (table name : Str) : stripAt table name = bareName table name := by
  have e : lit "@" = [64] := by decide +kernel
  unfold stripAt bareName
  dsimp only
  rw [e]
  have : ((64 :: table).length ≤ name.length ∧ name.drop (name.length - (64 :: table).length) = 64 :: table) ↔ [64] ++ table <:+ name := by
    rw [List.suffix_iff_eq_drop]
    constructor
    · rintro ⟨_, h⟩; exact h.symm
    · intro h
      refine ⟨?_, h.symm⟩
      have := congrArg List.length h
      simp only [List.length_drop, List.length_append, List.length_cons, List.length_nil] at this ⊢
      omega
  simp only [List.length_cons] at this ⊢
  simp only [this]

theorem ddlFields_eq (ms : List (Str × Int)) :
    ddlFields (ms.map Prod.fst) (ms.map Prod.snd) = .ok ((lit ", ").intercalate (ms.map (fun m => m.1 ++ lit " bit" ++ decimal m.2))) := by
  induction ms with
  | nil => rfl
  | cons m ms ih =>
    simp only [List.map_cons, ddlFields, ih]
    cases ms with
    | nil => simp [List.intercalate]
    | cons m' ms => simp [List.intercalate]

theorem ddlType_eq (table : Str) {c : InCol} {k : Col} (h : k.name = c.name ∧ k.ty = c.vals.ty.toInt ∧ k.bitNames = c.vals.members.map Prod.fst ∧
    k.bitSizes = c.vals.members.map Prod.snd) : ddlType table k = .ok (c.typeDef table, c.typeText table) := by
  obtain ⟨h1, h2, h3, h4⟩ := h
  unfold ddlType ddlTypeName InCol.typeDef InCol.typeText
  rw [h1, h2, h3, h4, ddlFields_eq, stripAt_eq]
  cases hv : c.vals <;> simp [Vals.ty, ColType.toInt, Vals.members, bitfieldType]

theorem ddlTable_eq (table path : Str) {r : RawFrame} {T : UTable} (h : HeadOf r T) : ddlTable table path r.info.cols = .ok (T.ddl table path) := by
  have key : ∀ (ks : List Col) (cs : List InCol), ks.length = cs.length → (∀ (p : Nat) (c : InCol) (k : Col), cs[p]? = some c → ks[p]? = some k →
      k.name = c.name ∧ k.ty = c.vals.ty.toInt ∧ k.bitNames = c.vals.members.map Prod.fst ∧ k.bitSizes = c.vals.members.map Prod.snd) →
      ddlCols table ks = .ok (cs.flatMap (InCol.typeDef table), cs.flatMap (fun c => lit "  " ++ bareName table c.name ++ lit " " ++ c.typeText table ++ lit ",\n")) := by
    have e32 : lit " " = [32] := by decide +kernel
    intro ks
    induction ks with
    | nil => intro cs hl _; cases cs with
      | nil => rfl
      | cons c cs => simp at hl
    | cons k ks ih =>
      intro cs hl hc
      cases cs with
      | nil => simp at hl
      | cons c cs =>
        have h0 := hc 0 c k rfl rfl
        simp only [ddlCols, ddlType_eq table h0, ih cs (by simpa using hl) (fun p c' k' a b => hc (p + 1) c' k' (by simpa using a) (by simpa using b)),
          List.flatMap_cons, stripAt_eq, h0.1, e32, List.append_assoc]
  unfold ddlTable UTable.ddl
  rw [key _ T.cols h.ncols h.col]

theorem hdSummary_append (table path : Str) (a b : List (List Col)) (text : Str) (h : hdSummary table path a = (text, none)) :
    hdSummary table path (a ++ b) = (text ++ (hdSummary table path b).1, (hdSummary table path b).2) := by
  induction a generalizing text with
  | nil => simp only [hdSummary, Prod.mk.injEq, and_true] at h; subst h; rfl
  | cons ks a ih =>
    simp only [hdSummary, List.cons_append] at h ⊢
    cases hd : ddlTable table path ks with
    | error e => simp [hd] at h
    | ok s =>
      simp only [hd, Prod.mk.injEq] at h ⊢
      rw [ih _ (Prod.ext rfl h.2), ← h.1]
      simp

/-- The printer of definitions over the tables of the file. -/
theorem hdAll_ddl (shown : List Col → Str) (table path : Str) (rs : List RawFrame) (Ts : List UTable) (h : Match HeadOf rs Ts) (pos : Int) (s : HdState)
    (text : Str) (hs : hdSummary table path s.md = (text, none)) :
    ∃ s', hdAll shown .ddl (layout pos rs) s = ([], .ok s') ∧ hdSummary table path s'.md =
      (text ++ ddlTexts table path (s.md.getLast?.map (fun b => b.map Col.shape)) (Ts.zip (rs.map (fun r => r.info.cols.map Col.shape))), none) := by
  induction h generalizing pos s text with
  | nil => exact ⟨s, rfl, by simp [ddlTexts, hs]⟩
  | cons h1 _ ih =>
    rename_i r T rs Ts _
    by_cases hl : s.md.getLast?.map (fun b => b.map Col.shape) = some (r.info.cols.map Col.shape)
    · obtain ⟨s', a1, a2⟩ := ih (pos + r.bytes.length) s text hs
      obtain ⟨b, hb, hbs⟩ := Option.map_eq_some_iff.mp hl
      refine ⟨s', ?_, ?_⟩
      · simp only [layout, hdAll, hdPrint, RawFrame.tbl, hb, hbs, if_true, a1, List.append_nil]
      · rw [a2]
        simp only [List.map_cons, List.zip_cons_cons, ddlTexts, hl, if_true, List.nil_append]
    · have hp : hdPrint shown .ddl s (r.tbl pos) = .ok ({ s with md := s.md ++ [r.info.cols] }, []) := by
        simp only [hdPrint, RawFrame.tbl, h1.copy]
        cases hg : s.md.getLast? with
        | none => rfl
        | some b =>
          rw [hg] at hl
          simp only [Option.map_some, Option.some.injEq] at hl
          simp only [if_neg hl]
      obtain ⟨s', a1, a2⟩ := ih (pos + r.bytes.length) { s with md := s.md ++ [r.info.cols] } (text ++ T.ddl table path) (by
        rw [hdSummary_append table path _ _ text hs]
        simp [hdSummary, ddlTable_eq table path h1])
      refine ⟨s', ?_, ?_⟩
      · simp only [layout, hdAll, hp, a1, List.append_nil]
      · rw [a2]
        simp only [List.map_cons, List.zip_cons_cons, ddlTexts, if_neg hl, List.getLast?_append, List.getLast?_singleton, Option.some_or, Option.map_some, List.append_assoc]

theorem hdSummary_none (table path : Str) : hdSummary table path [] = ([], none) := rfl

/-! ### The theorem -/

/-- **C65.**  `odc header` on a file written by `encode`: with `-offsets` a line for each table with its position, its numbers of bytes, rows and columns; without
options the same in words with the columns as the reader reports them; with `-ddl` the definitions of the tables, those left out that have the columns (by name,
type and width, as the reader reports them) of the table before. -/
theorem C65_header (shown : List Col → Str) (env : Env) (hmd5 : env.Md5Ok) (Ts : List UTable) (hT : ∀ T ∈ Ts, T.Ok env) :
    ∃ bss, writeTables env Ts = .ok bss ∧ ((∀ b ∈ bss, b.length ≤ 2147483647) →
      ∃ kss : List (List Col), Match UTable.HasShape Ts (kss.map (fun ks => ks.map Col.shape)) ∧
        (∃ fs, readPlain env bss.flatten = (fs, none) ∧ fs.flatten.map (fun t => t.info.cols) = kss) ∧
        ∀ (table path : Str),
          hdFile shown .offsets table path env bss.flatten = (offsetLines 0 (Ts.zip (bss.map List.length)), none) ∧
          hdFile shown .verbose table path env bss.flatten = (verboseLines shown 0 0 (Ts.zip ((bss.map List.length).zip kss)), none) ∧
          hdFile shown .ddl table path env bss.flatten = (ddlTexts table path none (Ts.zip (kss.map (fun ks => ks.map Col.shape))), none)) := by
  obtain ⟨bss, h1, h2, h3⟩ := writeTables_ok env hmd5 Ts hT
  refine ⟨bss, h1, ?_⟩
  intro hlen
  obtain ⟨rs, r1, r2, r3⟩ := h3 hlen
  have hfile : bss.flatten = fileOf rs := by rw [← r1]; rfl
  have hl : rs.length = Ts.length := by rw [← h2, ← r1]; simp
  have hscan : Scan env (File.known bss.flatten) (layout 0 rs) none := by
    rw [hfile]
    exact scan_fileOf env rs (fun r hr => (r2 r hr).1) _ (Or.inr rfl)
  have hle : (layout 0 rs).length ≤ bss.flatten.length := by
    rw [layout_length, hfile]
    exact fileOf_length_ge env rs (fun r hr => (r2 r hr).1)
  have hm : Match HeadOf rs Ts := by
    refine Match.of_get _ _ hl ?_
    intro i r T a b
    obtain ⟨c, _⟩ := r3 i r T a b
    exact ⟨c.order, c.nrows, c.ncols, c.copy, fun p cc k x y => by
      obtain ⟨c1, c2, c3, c4, _⟩ := c.col p cc k x y
      exact ⟨c1, c2, c3, c4⟩⟩
  have hcols : ∀ (pos : Int) (rs : List RawFrame), (layout pos rs).map (fun t => t.info.cols) = rs.map (fun r => r.info.cols) := by
    intro pos rs
    induction rs generalizing pos with
    | nil => rfl
    | cons r rs ih => simp [layout, ih, RawFrame.tbl]
  have hshape : ∀ {r : RawFrame} {T : UTable}, HeadOf r T → T.HasShape (r.info.cols.map Col.shape) := by
    intro r T h
    unfold UTable.HasShape
    apply List.ext_getElem?
    intro p
    simp only [List.getElem?_map]
    cases hp : T.cols[p]? with
    | none => rw [List.getElem?_eq_none (by rw [h.ncols]; exact List.getElem?_eq_none_iff.mp hp)]; rfl
    | some c =>
      obtain ⟨k, hk⟩ : ∃ k, r.info.cols[p]? = some k := ⟨_, List.getElem?_eq_getElem (by rw [h.ncols]; exact (List.getElem?_eq_some_iff.mp hp).1)⟩
      obtain ⟨k1, k2, _⟩ := h.col p c k hp hk
      rw [hk]
      simp [Col.shape, k1, k2]
  have hbl : bss.map List.length = rs.map (fun r => r.bytes.length) := by rw [← r1, List.map_map]; rfl
  refine ⟨rs.map (fun r => r.info.cols), ?_, ⟨(layout 0 rs).map (fun t => [t]), ?_, ?_⟩, ?_⟩
  · refine Match.of_get _ _ (by simp [hl]) ?_
    intro i T s a b
    rw [List.map_map, List.getElem?_map, Option.map_eq_some_iff] at b
    obtain ⟨r, hr, rfl⟩ := b
    exact hshape (hm.get i r T hr a)
  · apply readFrames_plain hscan _ _ _ (by simpa [File.known] using hle)
    · intro t ht
      obtain ⟨r, hr, hi, _⟩ := layout_mem 0 rs t ht
      exact Tbl.copy_of t (by rw [hi]; exact (r2 r hr).2.2)
    · intro t _; left; decide
  · rw [flatten_singles, hcols]
  · intro table path
    have z : ((0 : Nat) : Int) = 0 := rfl
    refine ⟨?_, ?_, ?_⟩
    · have := hdAll_offsets shown rs Ts hm 0 ⟨0, []⟩
      rw [z] at this
      rw [hdFile_scan hscan hle shown .offsets table path _ _ this, hbl]
      simp [hdSummary]
    · have := hdAll_verbose shown rs Ts hm 0 ⟨0, []⟩
      rw [z] at this
      rw [hdFile_scan hscan hle shown .verbose table path _ _ this, hbl]
      simp [hdSummary]
    · obtain ⟨s', a1, a2⟩ := hdAll_ddl shown table path rs Ts hm 0 ⟨0, []⟩ [] rfl
      rw [hdFile_scan hscan hle shown .ddl table path _ _ a1, a2]
      simp [Function.comp_def]

/-- A file cut after `k` bytes: `odc header -offsets` prints the lines of the tables that are there whole and then fails, unless the cut is at the end of a
table; with `-ddl` it prints nothing before it fails. -/
theorem C65_cut (shown : List Col → Str) (env : Env) (hmd5 : env.Md5Ok) (Ts : List UTable) (hT : ∀ T ∈ Ts, T.Ok env) :
    ∃ bss, writeTables env Ts = .ok bss ∧ bss.length = Ts.length ∧ ((∀ b ∈ bss, b.length ≤ 2147483647) →
      ∀ k, k ≤ bss.flatten.length → ∃ j, j ≤ Ts.length ∧ (bss.take j).flatten.length ≤ k ∧ (j < Ts.length → k < (bss.take (j + 1)).flatten.length) ∧
        ∀ (table path : Str),
          hdFile shown .offsets table path env (bss.flatten.take k) =
            (offsetLines 0 ((Ts.take j).zip ((bss.take j).map List.length)), if k = (bss.take j).flatten.length then none else some .incomplete) ∧
          (k ≠ (bss.take j).flatten.length → hdFile shown .ddl table path env (bss.flatten.take k) = ([], some .incomplete))) := by
  obtain ⟨bss, h1, h2, h3⟩ := writeTables_ok env hmd5 Ts hT
  refine ⟨bss, h1, h2, ?_⟩
  intro hlen k hk
  obtain ⟨rs, r1, r2, r3⟩ := h3 hlen
  have hfile : ∀ i, (bss.take i).flatten = fileOf (rs.take i) := by intro i; rw [← r1, ← List.map_take]; rfl
  have hwhole : bss.flatten = fileOf rs := by rw [← r1]; rfl
  have hl : rs.length = Ts.length := by rw [← h2, ← r1]; simp
  obtain ⟨j, j1, j2, j3, hscan⟩ := scan_truncated env rs (fun r hr => (r2 r hr).1) k (by rw [← hwhole]; exact hk)
  refine ⟨j, by omega, by rw [hfile]; exact j2, fun h => by rw [hfile]; exact j3 (by omega), ?_⟩
  have hle : (layout 0 (rs.take j)).length ≤ ((fileOf rs).take k).length := by
    rw [layout_length]
    have := fileOf_length_ge env (rs.take j) (fun r hr => (r2 r (List.mem_of_mem_take hr)).1)
    rw [hwhole] at hk
    have hlk : ((fileOf rs).take k).length = k := by rw [List.length_take]; omega
    omega
  have hm : Match HeadOf (rs.take j) (Ts.take j) := by
    refine Match.of_get _ _ (by simp [hl]) ?_
    intro i r T a b
    rw [List.getElem?_take] at a b
    by_cases hi : i < j
    · rw [if_pos hi] at a b
      obtain ⟨c, _⟩ := r3 i r T a b
      exact ⟨c.order, c.nrows, c.ncols, c.copy, fun p cc k x y => by
        obtain ⟨c1, c2, c3, c4, _⟩ := c.col p cc k x y
        exact ⟨c1, c2, c3, c4⟩⟩
    · rw [if_neg hi] at a; cases a
  have hbl : (bss.take j).map List.length = (rs.take j).map (fun r => r.bytes.length) := by rw [← r1, ← List.map_take, List.map_map]; rfl
  intro table path
  have z : ((0 : Nat) : Int) = 0 := rfl
  rw [hwhole, hfile]
  constructor
  · have := hdAll_offsets shown (rs.take j) (Ts.take j) hm 0 ⟨0, []⟩
    rw [z] at this
    rw [hdFile_fin hscan hle shown .offsets table path _ _ this, hbl]
    by_cases he : k = (fileOf (rs.take j)).length
    · rw [if_pos he]
      simp [hdSummary]
    · rw [if_neg he]
      rfl
  · intro he
    obtain ⟨s', a1, a2⟩ := hdAll_ddl shown table path (rs.take j) (Ts.take j) hm 0 ⟨0, []⟩ [] rfl
    rw [hdFile_fin hscan hle shown .ddl table path _ _ a1, if_neg he]
    rfl

/-- `C65_cut` applies to the sample file. -/
example := C65_cut (fun _ => []) sampleEnv sampleEnv_md5 sampleTables sampleTables_ok

/-! ### The arguments -/

/-- Specification: the option `odc header` gives an argument to. -/
def headerOptions : List Str := [lit "-table"]

/-- Specification: what the command line asks for; `-offsets` counts before `-ddl`. -/
def askedMode (items : List Arg) : HdMode := if Arg.Given (lit "-offsets") items then .offsets else if Arg.Given (lit "-ddl") items then .ddl else .verbose

/-- `odc header` takes one file; the name of the table is `foo` unless `-table` says otherwise. -/
theorem C65_args (args : List Str) :
    (CutShort headerOptions args → hdPlan args = .error .userError) ∧
    ∀ items, Says headerOptions args items →
      ((Arg.words items).length ≠ 2 → hdPlan args = .error .userError) ∧
      (∀ tool db, Arg.words items = [tool, db] → hdPlan args = .ok (db, askedMode items, (Arg.value (lit "-table") items).getD (lit "foo"))) := by
  have hu : Unread ((Clp.new args).register (lit "-table")) headerOptions args :=
    ⟨rfl, rfl, fun o => by simp [Clp.register, Clp.new, headerOptions], rfl, rfl, rfl⟩
  constructor
  · intro hc
    have hfail := hu.cut hc
    unfold hdPlan
    dsimp only
    generalize Clp.parameters ((Clp.new args).register (lit "-table")) = r at hfail ⊢
    obtain ⟨c, r⟩ := r
    dsimp only at hfail
    rw [hfail]
  · intro items hs
    obtain ⟨c', p1, p2⟩ := hu.parse hs
    have hpar : Clp.parameters ((Clp.new args).register (lit "-table")) = (c', .ok (Arg.words items)) := by
      unfold Clp.parameters
      rw [p1]
      dsimp only
      rw [p2.params]
    have hpar2 : c'.parameter 1 = (c', match (Arg.words items)[1]? with | some p => .ok p | none => .error .ub) := by
      unfold Clp.parameter Clp.parameters
      rw [p2.parse]
      dsimp only
      rw [p2.params]
      rfl
    have hset : ∀ o, c'.optionIsSet o = (c', .ok (decide (Arg.Given o items))) := by
      intro o
      unfold Clp.optionIsSet
      rw [p2.parse]
      dsimp only
      rw [p2.contains]
    have harg : c'.optionArgument (fun s => Except.ok s) (lit "-table") (lit "foo") = (c', .ok ((Arg.value (lit "-table") items).getD (lit "foo"))) := by
      unfold Clp.optionArgument
      rw [p2.parse, ← p2.value (lit "-table")]
      dsimp only
      cases c'.withArg.find? (fun p => decide (p.1 = lit "-table")) <;> rfl
    unfold hdPlan
    dsimp only
    rw [hpar]
    dsimp only
    constructor
    · intro h
      rw [if_pos h]
    · intro tool db hw
      rw [if_neg (by rw [hw]; simp), hpar2, hw]
      simp only [List.getElem?_cons_succ, List.getElem?_cons_zero, harg, hset, askedMode]
      by_cases ho : Arg.Given (lit "-offsets") items
      · simp [ho]
      · by_cases hd : Arg.Given (lit "-ddl") items <;> simp [ho, hd, hset]

/-- `C65_args` on some command lines. -/
example : hdPlan [lit "header", lit "-ddl", lit "-table", lit "hdr", lit "f.odb"] = .ok (lit "f.odb", .ddl, lit "hdr") ∧
    hdPlan [lit "header", lit "f.odb", lit "-ddl", lit "-offsets"] = .ok (lit "f.odb", .offsets, lit "foo") ∧ hdPlan [lit "header", lit "-ddl"] = .error .userError := by
  decide +kernel

/-! ### Samples -/

/-- Sample: what `odc header` prints for a file of these tables. -/
def tryHeader (m : HdMode) (table : Str) (Ts : List UTable) : Str × Option Err := hdFile (fun _ => lit "…\n") m table (lit "f.odb") dblEnv (compactFileOf dblEnv Ts)

/-- `C65_header` applies to the three tables of the sample file. -/
example := C65_header (fun _ => []) sampleEnv sampleEnv_md5 sampleTables sampleTables_ok

/-- The definitions of the tables of `lsCase`: one for the first two. -/
example : tryHeader .ddl (lit "t") lsCase =
    (lit "CREATE TABLE t AS (\n  a INTEGER,\n) ON 'f.odb';\nCREATE TABLE t AS (\n  b INTEGER,\n) ON 'f.odb';\n", none) := by decide +kernel

/-- A bitfield. -/
example : tryHeader .ddl (lit "hdr") [⟨[⟨lit "st@hdr", .bits [(lit "x", 1), (lit "y", 2)] [3]⟩, ⟨lit "z@b", .doubles [0]⟩], 1, []⟩] =
    (lit "CREATE TYPE st_at_hdr_t AS (x bit1, y bit2);\nCREATE TABLE hdr AS (\n  st st_at_hdr_t,\n  z@b DOUBLE,\n) ON 'f.odb';\n", none) := by decide +kernel

/-! ### What goes wrong -/

/-- **The definitions do not tell the members of bitfields**: a table that differs from the one before in nothing but the members of a bitfield is left out. -/
theorem C65_violated_members :
    tryHeader .ddl (lit "t") [⟨[⟨lit "a", .bits [(lit "x", 1)] [3]⟩], 1, []⟩, ⟨[⟨lit "a", .bits [(lit "y", 2)] [3]⟩], 1, []⟩] =
      (lit "CREATE TYPE a_at_t_t AS (x bit1);\nCREATE TABLE t AS (\n  a a_at_t_t,\n) ON 'f.odb';\n", none) := by
  decide +kernel

end Verif
