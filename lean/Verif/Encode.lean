import Verif.EncRef

/-
`core::encodeFrame` and `api::encode`.

Models: src/odc/core/Encoder.cc, src/odc/api/Odb.cc l.660-687, src/odc/api/ColumnInfo.h,
src/odc/api/StridedData.h.
-/

namespace Verif

/-- Process-wide settings the code depends on: how integers are held in memory
(`ODBAPISettings::integersAsDoubles`), the environment variable enabling the long string codec, the
digest function (eckit `MD5`, kept abstract) and the library version string. -/
structure Env where
  asDbl : Bool
  longEnv : Bool
  md5 : List Byte → Str
  version : Str

/-- `api::ColumnInfo`, api/ColumnInfo.h l.28-49 (`decodedSize` in bytes, bits as name and size). -/
structure ColumnInfo where
  name : Str
  ty : ColType
  decodedSize : Nat
  bits : List (Str × Int)

/-- `api::ConstStridedData`, api/StridedData.h l.30-150: the elements of a column, each of `elem` words.
The stride (address arithmetic) is abstracted; `dataSize` is taken to be a multiple of 8. -/
structure ColData where
  elem : Nat
  cells : List Cell

/-- `m[k] = v` on a `std::map`. -/
def mapSet (k v : Str) : StrMap → StrMap
  | [] => [(k, v)]
  | (k', v') :: m =>
    if strLt k k' then (k, v) :: (k', v') :: m
    else if strLt k' k then (k', v') :: mapSet k v m
    else (k', v) :: m

/-- `m.find(k)`. -/
def mapGet (k : Str) (m : StrMap) : Option Str := (m.find? (fun kv => decide (kv.1 = k))).map Prod.snd

/-- A column of the metadata being built, Encoder.cc l.37-51 and the optimised codec l.57-69: name,
type, default codec, data size, bitfield definition, statistics, then the chosen codec.  Codecs read
`decodedSize` bytes of each element, so smaller elements are undefined behaviour. -/
def buildCol (env : Env) (ci : ColumnInfo) (d : ColData) : Except Err Col :=
  if ci.decodedSize % 8 ≠ 0 then .error .assertFailed
  else if d.elem < ci.decodedSize / 8 ∧ d.cells ≠ [] then .error .ub
  else
    match chosenCodec ci.ty env.asDbl env.longEnv (ci.decodedSize / 8) none d.cells with
    | .error e => .error e
    | .ok c => .ok ⟨ci.name, ci.ty.toInt, ci.bits.map Prod.fst, ci.bits.map Prod.snd, c⟩

/-- All columns, core/Encoder.cc l.37-51; see `buildCol`. -/
def buildCols (env : Env) : List (ColumnInfo × ColData) → Except Err (List Col)
  | [] => .ok []
  | (ci, d) :: cs =>
    match buildCol env ci d with
    | .error e => .error e
    | .ok c =>
      match buildCols env cs with
      | .error e => .error e
      | .ok cs' => .ok (c :: cs')

/-- Row `i` across the columns. [core/Encoder.cc l.103-105] -/
def rowAt (data : List ColData) (i : Nat) : List Cell := data.map (fun d => d.cells.getD i [])

/-- All rows, core/Encoder.cc l.87-107 (the rows read through the strides). -/
def rowsOf (data : List ColData) (n : Nat) : List (List Cell) := (List.range n).map (rowAt data)

/-- Size of the encode buffer, Encoder.cc l.55, 64, 84. -/
def encBuffer (data : List ColData) (n : Nat) : Nat := (2 + (data.map (fun d => 8 * d.elem)).sum) * n

/-- `core::encodeFrame`, Encoder.cc l.25-119: the bytes written to `out`.  Columns are written with raw
pointers, so exceeding the buffer is undefined behaviour.  A `DataHandle` that accepts every write is
assumed (l.115-116 assert it).  `serializeHeader` is `putHeader` (see `Verif.HeaderSer` for its loop).
The code writes in the byte order of its own machine; `o` is that order relative to the machine of the
reader (`same` for a file read where it was written). -/
def encodeFrame (env : Env) (o : Order) (cols : List ColumnInfo) (data : List ColData) (props : StrMap) :
    Except Err (List Byte) :=
  if cols.length ≠ data.length then .error .assertFailed
  else
    match data.head? with
    | none => .error .assertFailed
    | some d0 =>
      if ¬ (∀ d ∈ data, d.cells.length = d0.cells.length) then .error .assertFailed
      else
        match buildCols env (cols.zip data) with
        | .error e => .error e
        | .ok cs =>
          match encRows o (cs.map Col.codec) none (rowsOf data d0.cells.length) with
          | .error e => .error e
          | .ok bs =>
            if encBuffer data d0.cells.length < bs.length then .error .ub
            else
              .ok (putHeader env.md5 o
                    { dataSize := bs.length, nrows := d0.cells.length,
                      props := mapSet (lit "encoder") (lit "odc version " ++ env.version) props,
                      cols := cs } ++ bs)

/-! ### Encoding succeeds and is read back -/

/-- The cells of one column travel through the file: the encoder chooses codec `c`, and each cell `x` is
read back as `f x`. -/
structure Travels (env : Env) (ci : ColumnInfo) (cells : List Cell) (c : Codec) (f : Cell → Cell) : Prop where
  size8 : ci.decodedSize % 8 = 0
  chosen : chosenCodec ci.ty env.asDbl env.longEnv (ci.decodedSize / 8) none cells = .ok c
  save : SaveOk env.asDbl ci.ty.toInt c
  trip : ∀ o, ∀ x ∈ cells, CellTrip o env.asDbl ci.ty.toInt c x (f x)
  small : cells ≠ [] → c.encSize ≤ 8 * (ci.decodedSize / 8)

/-- One column of an encoding request. -/
structure EncCol where
  info : ColumnInfo
  data : ColData
  codec : Codec
  back : Cell → Cell

/-- Limits of the format, and the column travels. -/
structure EncCol.Ok (env : Env) (n : Nat) (e : EncCol) : Prop where
  rows : e.data.cells.length = n
  elem : e.info.decodedSize / 8 ≤ e.data.elem
  travels : Travels env e.info e.data.cells e.codec e.back
  name : LenOk e.info.name.length
  nbits : LenOk e.info.bits.length
  bits : ∀ b ∈ e.info.bits, LenOk b.1.length ∧ InI32 b.2
  noBits : e.info.ty ≠ .bitfield → e.info.bits = []

/-- Specification: the column as the header describes it. -/
def EncCol.col (e : EncCol) : Col :=
  ⟨e.info.name, e.info.ty.toInt, e.info.bits.map Prod.fst, e.info.bits.map Prod.snd, e.codec⟩

theorem buildCols_ok (env : Env) (n : Nat) (es : List EncCol) (h : ∀ e ∈ es, e.Ok env n) :
    buildCols env ((es.map EncCol.info).zip (es.map EncCol.data)) = .ok (es.map EncCol.col) := by
  induction es with
  | nil => rfl
  | cons e es ih =>
    have he := h e (by simp)
    simp only [List.map_cons, List.zip_cons_cons, buildCols, buildCol]
    rw [if_neg (by simp [he.travels.size8]), if_neg (by have := he.elem; omega), he.travels.chosen,
      ih (fun x hx => h x (by simp [hx]))]
    rfl

theorem ColType.toInt_inI32 (t : ColType) : InI32 t.toInt := by cases t <;> decide

theorem ColType.toInt_four (t : ColType) : t.toInt = 4 ↔ t = .bitfield := by cases t <;> decide

theorem EncCol.Ok.colOk {env : Env} {n : Nat} {e : EncCol} (h : e.Ok env n) : ColOk env.asDbl e.col := by
  constructor
  · exact h.name
  · exact ColType.toInt_inI32 _
  · intro ht
    have : e.info.ty ≠ .bitfield := fun hb => ht ((ColType.toInt_four _).mpr hb)
    simp [EncCol.col, h.noBits this]
  · simp [EncCol.col]
  · simpa [EncCol.col] using h.nbits
  · intro s hs
    simp only [EncCol.col, List.mem_map] at hs
    obtain ⟨b, hb, rfl⟩ := hs
    exact (h.bits b hb).1
  · intro i hi
    simp only [EncCol.col, List.mem_map] at hi
    obtain ⟨b, hb, rfl⟩ := hi
    exact (h.bits b hb).2
  · exact h.travels.save

/-- The column as a traveller: wanted or not. -/
def EncCol.tr (env : Env) (e : EncCol) (v : Bool) : Tr :=
  { c := e.codec, d := reload env.asDbl e.info.ty.toInt e.codec, v := v,
    g := fun x => if v then e.back x else [] }

theorem reload_encSize (asDbl : Bool) (ty : Int) (c : Codec) (hk : c.kind ≠ .chars) :
    (reload asDbl ty c).encSize = c.encSize := by
  unfold Codec.encSize
  have : (reload asDbl ty c).kind = c.kind := by unfold reload; split <;> rfl
  rw [this]
  cases h : c.kind <;> simp_all

/-- The encoder never chooses the plain `chars` codec. -/
theorem chosenCodec_kind {ty : ColType} {asDbl longEnv : Bool} {w : Nat} {m? : Option Word} {cells : List Cell}
    {c : Codec} (h : chosenCodec ty asDbl longEnv w m? cells = .ok c) : c.kind ≠ .chars := by
  have hreb : ∀ k (t : ColType) c0 c1, rebuild k t asDbl c0 = .ok c1 → c1.kind = k := by
    intro k t c0 c1 hr
    unfold rebuild at hr
    split at hr
    · rename_i c' hc'
      simp only [Except.ok.injEq] at hr
      rw [← hr]
      unfold Codec.setMissing at hc'
      split at hc'
      · split at hc'
        · split at hc'
          · simp only [Except.ok.injEq] at hc'; rw [← hc']; rfl
          · simp at hc'
        · simp only [Except.ok.injEq] at hc'; rw [← hc']; rfl
      · simp at hc'
    · simp at hr
  unfold chosenCodec at h
  split at h
  · simp at h
  rename_i c0 h0
  unfold optimise at h
  cases ty <;> simp only at h
  · -- ignore
    simp [startCodec, defaultCodec] at h0
  · split at h
    · rename_i n _
      rw [hreb _ _ _ _ h]
      unfold intKind; split <;> split <;> (try simp) <;> split <;> (try simp) <;> split <;> simp
    · simp at h
  · split at h
    · split at h
      · rename_i k hk
        rw [hreb _ _ _ _ h]
        unfold realKind at hk
        split at hk
        · simp only [Except.ok.injEq] at hk; rw [← hk]; split <;> simp
        · split at hk
          · split at hk
            · simp at hk
            · simp only [Except.ok.injEq] at hk; rw [← hk]; simp
          · split at hk <;> (simp only [Except.ok.injEq] at hk; rw [← hk]; simp)
      · simp at h
    · simp at h
  · split at h
    · split at h
      · rename_i c1 h1
        have := hreb _ _ _ _ h1
        have hk : ∀ n w, strKind longEnv n w ≠ .chars := by
          intro n w; unfold strKind; split <;> (try simp); split <;> (try simp); split <;> simp
        split at h
        · simp only [Except.ok.injEq] at h; rw [← h, this]; exact hk _ _
        · simp only [Except.ok.injEq] at h; rw [← h]; show c1.kind ≠ _; rw [this]; exact hk _ _
      · simp at h
    · simp at h
  · split at h
    · rename_i n _
      rw [hreb _ _ _ _ h]
      unfold intKind; split <;> split <;> (try simp) <;> split <;> (try simp) <;> split <;> simp
    · simp at h
  · rw [hreb _ _ _ _ h]; split
    · split <;> simp
    · simp

theorem EncCol.Ok.trOk {env : Env} {n : Nat} {e : EncCol} (h : e.Ok env n) (o : Order) (v : Bool) (x : Cell)
    (hx : x ∈ e.data.cells) : TrOk o (e.tr env v) x := by
  obtain ⟨bs, h1, h2, h3⟩ := h.travels.trip o x hx
  refine ⟨bs, h1, ?_⟩
  cases v
  · simp only [EncCol.tr, Bool.false_eq_true, if_false, and_true]
    rw [reload_encSize _ _ _ (chosenCodec_kind h.travels.chosen)]; exact h2
  · simpa [EncCol.tr] using h3

theorem mem_getD {α : Type} (l : List α) (i : Nat) (d : α) (h : i < l.length) : l.getD i d ∈ l := by
  rw [List.getD_eq_getElem?_getD, List.getElem?_eq_getElem h]; exact List.getElem_mem h

theorem rowOk_of (env : Env) (n : Nat) (o : Order) (es : List (EncCol × Bool)) (h : ∀ e ∈ es, e.1.Ok env n)
    (i : Nat) (hi : i < n) :
    RowOk o (es.map (fun e => e.1.tr env e.2)) (rowAt (es.map (fun e => e.1.data)) i) := by
  induction es with
  | nil => exact .nil
  | cons e es ih =>
    have he := h e (by simp)
    exact .cons (he.trOk o e.2 _ (mem_getD _ _ _ (by rw [he.rows]; exact hi))) (ih (fun x hx => h x (by simp [hx])))

/-- Bytes produced for one row never exceed the row budget. -/
theorem encCols_length (env : Env) (n : Nat) (o : Order) (es : List EncCol) (h : ∀ e ∈ es, e.Ok env n)
    (i : Nat) (hi : i < n) (bs : List Byte)
    (hb : encCols o (es.map EncCol.codec) (rowAt (es.map EncCol.data) i) = .ok bs) :
    bs.length ≤ ((es.map EncCol.data).map (fun d => 8 * d.elem)).sum := by
  induction es generalizing bs with
  | nil => simp [encCols] at hb; subst hb; simp
  | cons e es ih =>
    have he := h e (by simp)
    simp only [rowAt, List.map_cons, encCols] at hb
    split at hb
    · simp at hb
    rename_i b1 h1
    split at hb
    · simp at hb
    rename_i b2 h2
    simp only [Except.ok.injEq] at hb
    subst hb
    have a2 := ih (fun x hx => h x (by simp [hx])) b2 h2
    have hmem : e.data.cells.getD i [] ∈ e.data.cells := mem_getD _ _ _ (by rw [he.rows]; exact hi)
    obtain ⟨b, t1, t2, _⟩ := he.travels.trip o _ hmem
    rw [t1] at h1
    simp only [Except.ok.injEq] at h1
    subst h1
    have a3 := he.travels.small (List.ne_nil_of_mem hmem)
    have a4 := he.elem
    simp only [List.map_cons, List.sum_cons, List.length_append]
    have : 8 * (e.info.decodedSize / 8) ≤ 8 * e.data.elem := Nat.mul_le_mul_left 8 a4
    omega

theorem sum_drop_le (l : List Nat) (k : Nat) : (l.drop k).sum ≤ l.sum := by
  induction l generalizing k with
  | nil => simp
  | cons a l ih =>
    cases k with
    | zero => simp
    | succ k => have := ih k; simp only [List.drop_succ_cons, List.sum_cons]; omega

theorem encRows_length (env : Env) (n : Nat) (o : Order) (es : List EncCol) (h : ∀ e ∈ es, e.Ok env n)
    (is : List Nat) (his : ∀ i ∈ is, i < n) (prev : Option (List Cell)) (bs : List Byte)
    (hb : encRows o (es.map EncCol.codec) prev (is.map (rowAt (es.map EncCol.data))) = .ok bs) :
    bs.length ≤ (2 + ((es.map EncCol.data).map (fun d => 8 * d.elem)).sum) * is.length := by
  induction is generalizing prev bs with
  | nil => simp [encRows] at hb; subst hb; simp
  | cons i is ih =>
    simp only [List.map_cons, encRows] at hb
    split at hb
    · simp at hb
    rename_i b1 h1
    split at hb
    · simp at hb
    rename_i b2 h2
    simp only [Except.ok.injEq] at hb
    subst hb
    have a2 := ih (fun j hj => his j (by simp [hj])) _ b2 h2
    unfold encRow at h1
    generalize startOf prev (rowAt (es.map EncCol.data) i) = start at h1
    split at h1
    · simp at h1
    rename_i b3 h3
    simp only [Except.ok.injEq] at h1
    subst h1
    have hd : (rowAt (es.map EncCol.data) i).drop start = rowAt ((es.drop start).map EncCol.data) i := by
      simp [rowAt, List.map_drop]
    rw [← List.map_drop, hd] at h3
    have a3 := encCols_length env n o (es.drop start) (fun e he => h e (List.mem_of_mem_drop he)) i
      (his i (by simp)) b3 h3
    have a4 := sum_drop_le ((es.map EncCol.data).map (fun d => 8 * d.elem)) start
    rw [← List.map_drop, ← List.map_drop] at a4
    have hl : (markerBytes start).length = 2 := rfl
    simp only [List.length_append, List.length_cons, Nat.mul_succ, hl]
    omega

/-- Encoding succeeds; the bytes are a header followed by data that the reference semantics reads back,
whatever the byte order of the writer and for every choice `vs` of wanted columns. -/
theorem encodeFrame_ok (env : Env) (o : Order) (es : List EncCol) (n : Nat) (props : StrMap) (hne : es ≠ [])
    (hcols : es.length < 65536) (h : ∀ e ∈ es, e.Ok env n) :
    ∃ bs, encodeFrame env o (es.map EncCol.info) (es.map EncCol.data) props =
        .ok (putHeader env.md5 o
          { dataSize := bs.length, nrows := n,
            props := mapSet (lit "encoder") (lit "odc version " ++ env.version) props,
            cols := es.map EncCol.col } ++ bs) ∧
      bs.length ≤ encBuffer (es.map EncCol.data) n ∧
      (∀ vs : List Bool, vs.length = es.length → ∀ cur,
        CurOk ((es.zip vs).map (fun e => e.1.tr env e.2)) cur →
        Reads (refRows o ((es.zip vs).map (fun e => (e.1.tr env e.2).dec)) n 0 cur) bs
          ((List.range n).map (fun i =>
            outRow ((es.zip vs).map (fun e => e.1.tr env e.2)) (rowAt (es.map EncCol.data) i)))) ∧
      encRows o (es.map EncCol.codec) none (rowsOf (es.map EncCol.data) n) = .ok bs := by
  obtain ⟨e0, es', rfl⟩ := List.exists_cons_of_ne_nil hne
  generalize hes : e0 :: es' = es at *
  have hhead : (es.map EncCol.data).head? = some e0.data := by rw [← hes]; rfl
  have hn0 : e0.data.cells.length = n := (h e0 (by rw [← hes]; simp)).rows
  -- the encoding does not depend on the wanted columns
  have key : ∀ vs : List Bool, vs.length = es.length →
      ∃ bs, encRows o (es.map EncCol.codec) none (rowsOf (es.map EncCol.data) n) = .ok bs ∧
        ∀ cur, CurOk ((es.zip vs).map (fun e => e.1.tr env e.2)) cur →
        Reads (refRows o ((es.zip vs).map (fun e => (e.1.tr env e.2).dec)) n 0 cur) bs
          ((List.range n).map (fun i =>
            outRow ((es.zip vs).map (fun e => e.1.tr env e.2)) (rowAt (es.map EncCol.data) i))) := by
    intro vs hvs
    have hz1 : (es.zip vs).map (fun e => e.1.data) = es.map EncCol.data := by
      have := congrArg (List.map EncCol.data) (List.map_fst_zip (l₁ := es) (l₂ := vs) (by omega))
      simpa [List.map_map, Function.comp_def] using this
    have hz2 : ((es.zip vs).map (fun e => e.1.tr env e.2)).map Tr.c = es.map EncCol.codec := by
      have := congrArg (List.map EncCol.codec) (List.map_fst_zip (l₁ := es) (l₂ := vs) (by omega))
      simpa [List.map_map, Function.comp_def, EncCol.tr] using this
    obtain ⟨bs, e1, e2⟩ := encRows_ref o ((es.zip vs).map (fun e => e.1.tr env e.2))
      (by simp; omega) (rowsOf (es.map EncCol.data) n) (by
        intro row hrow
        simp only [rowsOf, List.mem_map, List.mem_range] at hrow
        obtain ⟨i, hi, rfl⟩ := hrow
        have := rowOk_of env n o (es.zip vs) (fun e he => h e.1 (List.of_mem_zip he).1) i hi
        rw [hz1] at this
        exact this)
    rw [hz2] at e1
    refine ⟨bs, e1, ?_⟩
    intro cur hc
    have := e2 cur hc
    simpa [rowsOf, List.map_map, Function.comp_def] using this
  obtain ⟨bs, e1, _⟩ := key (es.map (fun _ => true)) (by simp)
  have hlen : bs.length ≤ encBuffer (es.map EncCol.data) n := by
    have := encRows_length env n o es h (List.range n) (fun i hi => List.mem_range.mp hi) none bs e1
    simpa [encBuffer] using this
  refine ⟨bs, ?_, hlen, ?_, e1⟩
  · unfold encodeFrame
    rw [if_neg (by simp), hhead]
    simp only
    rw [if_neg, buildCols_ok env n es h, hn0]
    · have hcc : (es.map EncCol.col).map Col.codec = es.map EncCol.codec := by
        simp [List.map_map, Function.comp_def, EncCol.col]
      simp only [hcc, e1]
      rw [if_neg (by omega)]
    · simp only [not_not, List.mem_map]
      rintro d ⟨e, he, rfl⟩
      rw [(h e he).rows, hn0]
  · intro vs hvs cur hc
    obtain ⟨bs', f1, f2⟩ := key vs hvs
    rw [e1] at f1
    simp only [Except.ok.injEq] at f1
    rw [f1]
    exact f2 cur hc

end Verif
