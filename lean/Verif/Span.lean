import Verif.Names

/-
`Frame::span`: the values found in some columns.

Models: src/odc/core/Span.{h,cc}, src/odc/core/Table.cc l.238-430, src/odc/core/Column.cc l.90-94,
src/odc/core/MetaData.cc l.95-97, src/odc/api/Odb.cc l.485-495.
-/

namespace Verif

/-! ### `core::Span` -/

/-- The values of one column: `integerValues_`, `realValues_` or `stringValues_` (Span.h).  A `std::set` is a list
here, in order of insertion; only membership matters. -/
inductive ColSpan
  | ints (vs : List Int)
  | reals (vs : List Word)
  | strs (vs : List Str)
  deriving DecidableEq

/-- `core::Span`, Span.h.  The three maps are one association list: the ASSERTs of Span.cc l.48-101 keep a column from
being in two of them. -/
structure Span where
  start : Int
  length : Int
  vals : List (Str × ColSpan)
  deriving DecidableEq

/-- Insertion into a `std::set`. -/
def insertNew {α : Type} [DecidableEq α] (l : List α) (x : α) : List α := if x ∈ l then l else l ++ [x]

/-- Insertion into a `std::set<double>`: values that compare equal are the same element.  A NaN breaks the strict weak
order the set needs, which is undefined behaviour. -/
def insertReal (l : List Word) (x : Word) : Except Err (List Word) :=
  if isNaN x then .error .ub
  else if l.any (fun y => feq y x) then .ok l
  else .ok (l ++ [x])

/-- All values, core/Span.cc l.48-79; see `insertReal`. -/
def insertReals (l : List Word) : List Word → Except Err (List Word)
  | [] => .ok l
  | x :: xs =>
    match insertReal l x with
    | .error e => .error e
    | .ok l' => insertReals l' xs

/-- Insert the values of the second into the first; columns of different kinds fail an ASSERT (Span.cc l.82-101). -/
def ColSpan.merge : ColSpan → ColSpan → Except Err ColSpan
  | .ints a, .ints b => .ok (.ints (b.foldl insertNew a))
  | .strs a, .strs b => .ok (.strs (b.foldl insertNew a))
  | .reals a, .reals b =>
    match insertReals a b with
    | .ok l => .ok (.reals l)
    | .error e => .error e
  | _, _ => .error .assertFailed

/-- The empty set of the same kind. [core/Span.cc l.30-42] -/
def ColSpan.none : ColSpan → ColSpan
  | .ints _ => .ints []
  | .reals _ => .reals []
  | .strs _ => .strs []

/-- The values recorded for a column, `getIntegerValues` etc., Span.cc l.108-130. -/
def spanGet (nm : Str) : List (Str × ColSpan) → Option ColSpan
  | [] => none
  | e :: es => if e.1 = nm then some e.2 else spanGet nm es

/-- `Span::addValues`, Span.cc l.82-101. -/
def spanAdd (nm : Str) (v : ColSpan) : List (Str × ColSpan) → Except Err (List (Str × ColSpan))
  | [] =>
    match v.none.merge v with
    | .ok v' => .ok [(nm, v')]
    | .error e => .error e
  | e :: es =>
    if e.1 = nm then
      match e.2.merge v with
      | .ok v' => .ok ((nm, v') :: es)
      | .error err => .error err
    else
      match spanAdd nm v es with
      | .ok es' => .ok (e :: es')
      | .error err => .error err

/-- The loops of `Span::extend`, Span.cc l.36-41. -/
def spanAddAll (l : List (Str × ColSpan)) : List (Str × ColSpan) → Except Err (List (Str × ColSpan))
  | [] => .ok l
  | e :: es =>
    match spanAdd e.1 e.2 l with
    | .ok l' => spanAddAll l' es
    | .error err => .error err

/-- `Span::extend(const Span&)`, Span.cc l.30-42. -/
def Span.extend (s t : Span) : Except Err Span :=
  match spanAddAll s.vals t.vals with
  | .ok l => .ok ⟨s.start, if s.start = t.start then s.length else s.length + t.length, l⟩
  | .error e => .error e

/-- The value `Span::addValue` inserts, Span.cc l.48-80. -/
def constValue (ty : Int) (val : Word) : Except Err ColSpan :=
  if ty = 1 ∨ ty = 4 then
    match fcast (-9223372036854775808) 9223372036854775807 val with
    | .ok i => .ok (.ints [i])
    | .error e => .error e
  else if ty = 2 ∨ ty = 5 then .ok (.reals [val])
  else if ty = 3 then .ok (.strs [cellStr 1 [val]])
  else .error .seriousBug

/-! ### `Table::span` -/

/-- `Column::isConstant`, Column.cc l.90-94. -/
def Kind.isConstant : Kind → Bool
  | .constant | .constantString | .longConstantString => true
  | _ => false

/-- The loop over the columns, Table.cc l.245-258: the values of constant columns and the names of the others. -/
def spanConsts (cols : List Col) : List Str → Except Err (List (Str × ColSpan) × List Str)
  | [] => .ok ([], [])
  | q :: qs =>
    match columnIndex (cols.map Col.name) q with
    | .error e => .error e
    | .ok p =>
      match cols[p]? with
      | none => .error .ub
      | some k =>
        if k.codec.kind.isConstant then
          match constValue k.ty k.codec.min with
          | .error e => .error e
          | .ok v =>
            match spanConsts cols qs with
            | .error e => .error e
            | .ok (vs, ns) => .ok ((q, v) :: vs, ns)
        else
          match spanConsts cols qs with
          | .error e => .error e
          | .ok (vs, ns) => .ok (vs, q :: ns)

/-- The loop over the columns of `decodeSpan`, Table.cc l.342-381: `columnValues`, one place per column of the table;
a later name replaces an earlier one for the same column. -/
def spanVisit (L : Lookup) (cols : List Col) : List Str → List (Option Str) → Except Err (List (Option Str))
  | [], own => .ok own
  | q :: qs, own =>
    match L.find q with
    | none => .error .decodeError
    | some p =>
      match cols[p]? with
      | none => .error .ub
      | some k =>
        if 1 ≤ k.ty ∧ k.ty ≤ 5 then spanVisit L cols qs (own.set p (some q)) else .error .seriousBug

/-- Size of the decode buffer in doubles, Table.cc l.337, 376, 400-401. -/
def spanBuffer : List (Col × Option Str) → Nat
  | [] => 1
  | (k, o) :: cs => if o.isSome ∧ k.ty = 3 then max k.codec.width (spanBuffer cs) else spanBuffer cs

/-- The columns of a row from the start column on, Table.cc l.409-417.  The decoded cells are kept in order; `addValue`
is applied to them afterwards (`columnValue`).  Decoding more than the buffer holds is undefined behaviour. -/
def spanCols (o : Order) (buf : Nat) : List (Codec × Bool) → List (List Cell) → P (List (List Cell))
  | (c, true) :: cs, v :: vs => do
    let x ← c.dec o
    if buf < x.length then P.fail .ub
    let rest ← spanCols o buf cs vs
    pure ((v ++ [x]) :: rest)
  | (c, false) :: cs, v :: vs => do
    c.skip
    let rest ← spanCols o buf cs vs
    pure (v :: rest)
  | _, _ => pure []

/-- All rows, Table.cc l.403-418. -/
def spanRows (o : Order) (buf : Nat) (cs : List (Codec × Bool)) : Nat → List (List Cell) → P (List (List Cell))
  | 0, vs => pure vs
  | n + 1, vs => do
    let m ← readBytes 2
    let rest ← spanCols o buf (cs.drop (markerStart m)) (vs.drop (markerStart m))
    spanRows o buf cs n (vs.take (markerStart m) ++ rest)

/-- The value `ColumnValues::addValue` inserts, Table.cc l.295-321. -/
def cellValue (asDbl : Bool) (k : Col) (x : Cell) : Except Err ColSpan :=
  if k.ty = 1 ∨ k.ty = 4 then
    if asDbl then
      match fcast (-9223372036854775808) 9223372036854775807 (cellWord x) with
      | .ok i => .ok (.ints [i])
      | .error e => .error e
    else .ok (.ints [(cellWord x).toInt])
  else if k.ty = 2 ∨ k.ty = 5 then .ok (.reals [cellWord x])
  else if k.ty = 3 then .ok (.strs [cellStr k.codec.width x])
  else .error .seriousBug

/-- Set of a column's kind with nothing in it, Table.cc l.359-380. -/
def emptyValue (ty : Int) : ColSpan :=
  if ty = 1 ∨ ty = 4 then .ints [] else if ty = 2 ∨ ty = 5 then .reals [] else .strs []

/-- All values of a column, Table.cc l.295-321. -/
def columnValue (asDbl : Bool) (k : Col) : List Cell → ColSpan → Except Err ColSpan
  | [], acc => .ok acc
  | x :: xs, acc =>
    match cellValue asDbl k x with
    | .error e => .error e
    | .ok v =>
      match acc.merge v with
      | .error e => .error e
      | .ok acc' => columnValue asDbl k xs acc'

/-- `updateSpan` for each wanted column, Table.cc l.422-427. -/
def spanUpdate (asDbl : Bool) : List (Col × Option Str) → List (List Cell) → Except Err (List (Str × ColSpan))
  | (k, some nm) :: cs, v :: vs =>
    match columnValue asDbl k v (emptyValue k.ty) with
    | .error e => .error e
    | .ok val =>
      match spanUpdate asDbl cs vs with
      | .error e => .error e
      | .ok r => .ok ((nm, val) :: r)
  | (_, none) :: cs, _ :: vs => spanUpdate asDbl cs vs
  | _, _ => .ok []

/-- `Table::decodeSpan` after the lookup, Table.cc l.332-430, on a copied table, whose codecs only accept streams of the
machine's byte order (Codec.cc l.43-58). -/
def Tbl.decodeSpan (env : Env) (f : File) (t : Tbl) (L : Lookup) (qs : List Str) : Except Err Span :=
  match spanVisit L t.info.cols qs (t.info.cols.map (fun _ => none)) with
  | .error e => .error e
  | .ok own =>
    match t.data f with
    | .error e => .error e
    | .ok d =>
      if t.order = .other ∧ t.info.cols ≠ [] then .error .seriousBug
      else
        match spanRows t.order (spanBuffer (t.info.cols.zip own))
            ((t.info.cols.zip own).map (fun e => (e.1.codec, e.2.isSome))) t.info.nrows
            (t.info.cols.map (fun _ => [])) d with
        | .error e => .error e
        | .ok (vs, _) =>
          match spanUpdate env.asDbl (t.info.cols.zip own) vs with
          | .error e => .error e
          | .ok upd =>
            match spanAddAll [] upd with
            | .error e => .error e
            | .ok l => .ok ⟨t.start, t.next - t.start, l⟩

/-- `Table::span`, Table.cc l.238-272. -/
def Tbl.span (env : Env) (f : File) (t : Tbl) (L : Lookup) (qs : List Str) (onlyConst : Bool) :
    Lookup × Except Err Span :=
  match spanConsts t.info.cols qs with
  | .error e => (L, .error e)
  | .ok (vs, ns) =>
    match spanAddAll [] vs with
    | .error e => (L, .error e)
    | .ok l =>
      let s : Span := ⟨t.start, t.next - t.start, l⟩
      if ns ≠ [] ∧ onlyConst then (L, .error .userError)
      else if ns ≠ [] then
        match columnLookup (t.info.cols.map Col.name) L with
        | (L', some e) => (L', .error e)
        | (L', none) =>
          match t.decodeSpan env f L' ns with
          | .error e => (L', .error e)
          | .ok s' => (L', s.extend s')
      else (L, .ok s)

/-- The loop of `FrameImpl::span`, Odb.cc l.489-491. -/
def spanTables (env : Env) (f : File) (qs : List Str) (onlyConst : Bool) : List (Tbl × Lookup) → Span → Except Err Span
  | [], s => .ok s
  | (t, L) :: ts, s =>
    match (t.span env f L qs onlyConst).2 with
    | .error e => .error e
    | .ok s' =>
      match s.extend s' with
      | .error e => .error e
      | .ok s'' => spanTables env f qs onlyConst ts s''

/-- `FrameImpl::span`, Odb.cc l.485-495 (`tables_.front()` of a frame without tables is undefined behaviour). -/
def frameSpan (env : Env) (f : File) (ts : List (Tbl × Lookup)) (qs : List Str) (onlyConst : Bool) : Except Err Span :=
  match ts with
  | [] => .error .ub
  | (t, L) :: ts =>
    match (t.span env f L qs onlyConst).2 with
    | .error e => .error e
    | .ok s => spanTables env f qs onlyConst ts s

/-! ### Collecting cells -/

theorem spanCols_ref (o : Order) (buf : Nat) (ts : List Tr) (xs : List Cell) (h : RowOk o ts xs)
    (hb : ∀ (i : Nat) (t : Tr) (x : Cell), ts[i]? = some t → xs[i]? = some x → t.v = true → (t.g x).length ≤ buf)
    (vs : List (List Cell)) (hv : vs.length = ts.length) :
    ∃ bs vs', encCols o (ts.map Tr.c) xs = .ok bs ∧ Reads (spanCols o buf (ts.map Tr.dec) vs) bs vs' ∧
      vs'.length = ts.length ∧
      ∀ (i : Nat) (t : Tr) (x : Cell) (v : List Cell), ts[i]? = some t → xs[i]? = some x → vs[i]? = some v →
        vs'[i]? = some (if t.v then v ++ [t.g x] else v) := by
  induction h generalizing vs with
  | nil => exact ⟨[], [], rfl, by cases vs <;> exact Reads.pure _, rfl, by simp⟩
  | @cons t ts x xs ht _ ih =>
    cases vs with
    | nil => simp at hv
    | cons v vs =>
      obtain ⟨bs, h1, h2⟩ := ht
      obtain ⟨bs', vs', h3, h4, h5, h6⟩ := ih (fun i t x a b c => hb (i + 1) t x (by simpa using a) (by simpa using b) c)
        vs (by simpa using hv)
      have hb0 := hb 0 t x rfl rfl
      refine ⟨bs ++ bs', (if t.v then v ++ [t.g x] else v) :: vs', by simp [encCols, h1, h3], ?_, by simp [h5], ?_⟩
      · cases hvv : t.v with
        | false =>
          rw [hvv] at h2
          simp only [List.map_cons, Tr.dec, hvv, spanCols, Bool.false_eq_true, if_false] at h2 ⊢
          refine Reads.bind (a := ()) ?_ (Reads.bind_pure h4 (fun s => rfl))
          intro r
          unfold Codec.skip advance
          rw [if_pos (by rw [← h2.1]; simp), ← h2.1, List.drop_left]
        | true =>
          rw [hvv] at h2
          simp only [List.map_cons, Tr.dec, hvv, spanCols, if_true] at h2 ⊢
          refine Reads.bind h2 ?_
          have := hb0 hvv
          rw [if_neg (by omega)]
          exact Reads.bind_pure h4 (fun s => rfl)
      · intro i t' x' v' a b c
        cases i with
        | zero => simp at a b c; subst a; subst b; subst c; simp
        | succ i => simpa using h6 i t' x' v' (by simpa using a) (by simpa using b) (by simpa using c)

/-- What is collected for wanted columns. -/
def Collected (ts : List Tr) (vs vs' : List (List Cell)) (rows : List (List Cell)) : Prop :=
  vs'.length = ts.length ∧ ∀ (i : Nat) (t : Tr) (v : List Cell), ts[i]? = some t → vs[i]? = some v → t.v = true →
    ∃ v', vs'[i]? = some v' ∧ ∀ y, y ∈ v' ↔ y ∈ v ∨ ∃ row ∈ rows, ∃ x, row[i]? = some x ∧ y = t.g x

theorem sameLead_take (p row : List Cell) (i : Nat) (h : i < sameLead p row) : p[i]? = row[i]? := by
  induction p generalizing row i with
  | nil => simp [sameLead] at h
  | cons x p ih =>
    cases row with
    | nil => simp [sameLead] at h
    | cons y row =>
      simp only [sameLead] at h
      split at h
      · rename_i he
        subst he
        cases i with
        | zero => rfl
        | succ i => simpa using ih row i (by omega)
      · omega

theorem spanRows_some (o : Order) (buf : Nat) (ts : List Tr) (hn : ts.length < 65536) (rows : List (List Cell))
    (hrows : ∀ row ∈ rows, RowOk o ts row)
    (hb : ∀ row ∈ rows, ∀ (i : Nat) (t : Tr) (x : Cell), ts[i]? = some t → row[i]? = some x → t.v = true → (t.g x).length ≤ buf)
    (p : List Cell) (hp : RowOk o ts p) (vs : List (List Cell)) (hv : vs.length = ts.length)
    (hin : ∀ (i : Nat) (t : Tr) (x : Cell) (v : List Cell), ts[i]? = some t → p[i]? = some x → vs[i]? = some v → t.v = true →
      t.g x ∈ v) :
    ∃ bs vs', encRows o (ts.map Tr.c) (some p) rows = .ok bs ∧
      Reads (spanRows o buf (ts.map Tr.dec) rows.length vs) bs vs' ∧ Collected ts vs vs' rows := by
  induction rows generalizing p vs with
  | nil =>
    refine ⟨[], vs, rfl, Reads.pure _, hv, ?_⟩
    intro i t v _ hvi _
    exact ⟨v, hvi, by simp⟩
  | cons row rows ih =>
    have hr := hrows row (by simp)
    have hle : sameLead p row ≤ ts.length := by rw [← hr.length]; exact sameLead_le p row
    generalize hs : sameLead p row = s at *
    obtain ⟨bs1, rest, e1, e2, e3, e4⟩ := spanCols_ref o buf _ _ (hr.drop s)
      (fun i t x a b c => hb row (by simp) (s + i) t x (by simpa using a) (by simpa using b) c) (vs.drop s) (by simp [hv])
    have hmidlen : (vs.take s ++ rest).length = ts.length := by
      rw [List.length_append, e3, List.length_take, List.length_drop]; omega
    -- the middle state
    have hmid : ∀ (i : Nat) (t : Tr) (x : Cell) (v : List Cell), ts[i]? = some t → row[i]? = some x → vs[i]? = some v →
        t.v = true → ∃ v', (vs.take s ++ rest)[i]? = some v' ∧ ∀ y, y ∈ v' ↔ y ∈ v ∨ y = t.g x := by
      intro i t x v a b c d
      by_cases hi : i < s
      · refine ⟨v, ?_, ?_⟩
        · rw [List.getElem?_append_left (by rw [List.length_take]; omega), List.getElem?_take_of_lt hi, c]
        · have hpx : p[i]? = some x := by rw [sameLead_take p row i (by omega), b]
          have := hin i t x v a hpx c d
          intro y
          constructor
          · exact Or.inl
          · rintro (h | rfl)
            · exact h
            · exact this
      · refine ⟨v ++ [t.g x], ?_, by simp⟩
        have := e4 (i - s) t x v (by rw [List.getElem?_drop, show s + (i - s) = i by omega, a])
          (by rw [List.getElem?_drop, show s + (i - s) = i by omega, b])
          (by rw [List.getElem?_drop, show s + (i - s) = i by omega, c])
        rw [d, if_pos rfl] at this
        rw [List.getElem?_append_right (by rw [List.length_take]; omega), List.length_take, Nat.min_eq_left (by omega), this]
    have hvi : ∀ (i : Nat) (t : Tr), ts[i]? = some t → ∃ v x, vs[i]? = some v ∧ row[i]? = some x := by
      intro i t a
      have hlt := (List.getElem?_eq_some_iff.mp a).1
      exact ⟨_, _, List.getElem?_eq_getElem (by omega), List.getElem?_eq_getElem (by rw [hr.length]; omega)⟩
    obtain ⟨bs2, vs', e5, e6, e7⟩ := ih (fun r h => hrows r (by simp [h])) (fun r h => hb r (by simp [h])) row hr
      (vs.take s ++ rest) hmidlen (by
        intro i t x v a b c d
        obtain ⟨v0, x0, h0, h1⟩ := hvi i t a
        rw [b] at h1
        cases h1
        obtain ⟨v', h2, h3⟩ := hmid i t x v0 a b h0 d
        rw [c] at h2
        cases h2
        exact (h3 _).mpr (Or.inr rfl))
    refine ⟨(markerBytes s ++ bs1) ++ bs2, vs', ?_, ?_, e7.1, ?_⟩
    · simp only [encRows, encRow, startOf, hs]
      rw [← List.map_drop, e1]
      simp only [e5]
    · rw [List.append_assoc]
      simp only [List.length_cons, spanRows]
      refine Reads.bind (reads_marker _) ?_
      rw [markerStart_markerBytes _ (by omega), ← List.map_drop]
      exact Reads.bind e2 e6
    · intro i t v a b c
      obtain ⟨v0, x0, h0, h1⟩ := hvi i t a
      rw [b] at h0
      cases h0
      obtain ⟨v1, h2, h3⟩ := hmid i t x0 v a h1 b c
      obtain ⟨v2, h4, h5⟩ := e7.2 i t v1 a h2 c
      refine ⟨v2, h4, ?_⟩
      intro y
      rw [h5, h3]
      constructor
      · rintro ((h | h) | ⟨r, hr, x, hx⟩)
        · exact Or.inl h
        · exact Or.inr ⟨row, by simp, x0, h1, h⟩
        · exact Or.inr ⟨r, by simp [hr], x, hx⟩
      · rintro (h | ⟨r, hr', x, hx, hy⟩)
        · exact Or.inl (Or.inl h)
        · rcases List.mem_cons.mp hr' with rfl | hr'
          · rw [h1] at hx; cases hx; exact Or.inl (Or.inr hy)
          · exact Or.inr ⟨r, hr', x, hx, hy⟩

/-- All rows: exactly the cells of the rows are collected. -/
theorem spanRows_ref (o : Order) (buf : Nat) (ts : List Tr) (hn : ts.length < 65536) (rows : List (List Cell))
    (hrows : ∀ row ∈ rows, RowOk o ts row)
    (hb : ∀ row ∈ rows, ∀ (i : Nat) (t : Tr) (x : Cell), ts[i]? = some t → row[i]? = some x → t.v = true → (t.g x).length ≤ buf)
    (vs : List (List Cell)) (hv : vs.length = ts.length) :
    ∃ bs vs', encRows o (ts.map Tr.c) none rows = .ok bs ∧
      Reads (spanRows o buf (ts.map Tr.dec) rows.length vs) bs vs' ∧ Collected ts vs vs' rows := by
  cases rows with
  | nil =>
    refine ⟨[], vs, rfl, Reads.pure _, hv, ?_⟩
    intro i t v _ hvi _
    exact ⟨v, hvi, by simp⟩
  | cons row rows =>
    have hr := hrows row (by simp)
    obtain ⟨bs1, rest, e1, e2, e3, e4⟩ := spanCols_ref o buf ts row hr (hb row (by simp)) vs hv
    have hvi : ∀ (i : Nat) (t : Tr), ts[i]? = some t → ∃ v x, vs[i]? = some v ∧ row[i]? = some x := by
      intro i t a
      have hlt := (List.getElem?_eq_some_iff.mp a).1
      exact ⟨_, _, List.getElem?_eq_getElem (by omega), List.getElem?_eq_getElem (by rw [hr.length]; omega)⟩
    obtain ⟨bs2, vs', e5, e6, e7⟩ := spanRows_some o buf ts hn rows (fun r h => hrows r (by simp [h]))
      (fun r h => hb r (by simp [h])) row hr rest e3 (by
        intro i t x v a b c d
        obtain ⟨v0, x0, h0, h1⟩ := hvi i t a
        rw [b] at h1
        cases h1
        have := e4 i t x v0 a b h0
        rw [c, d, if_pos rfl] at this
        cases this
        simp)
    refine ⟨(markerBytes 0 ++ bs1) ++ bs2, vs', ?_, ?_, e7.1, ?_⟩
    · simp only [encRows, encRow, startOf, List.drop_zero, e1, e5]
    · rw [List.append_assoc]
      simp only [List.length_cons, spanRows]
      refine Reads.bind (reads_marker _) ?_
      rw [markerStart_markerBytes 0 (by omega)]
      simp only [List.drop_zero, List.take_zero, List.nil_append]
      exact Reads.bind e2 e6
    · intro i t v a b c
      obtain ⟨v0, x0, h0, h1⟩ := hvi i t a
      rw [b] at h0
      cases h0
      have h2 := e4 i t x0 v a h1 b
      rw [c, if_pos rfl] at h2
      obtain ⟨v2, h4, h5⟩ := e7.2 i t _ a h2 c
      refine ⟨v2, h4, ?_⟩
      intro y
      rw [h5]
      constructor
      · rintro (h | ⟨r, hr, x, hx⟩)
        · rcases List.mem_append.mp h with h | h
          · exact Or.inl h
          · exact Or.inr ⟨row, by simp, x0, h1, by simpa using h⟩
        · exact Or.inr ⟨r, by simp [hr], x, hx⟩
      · rintro (h | ⟨r, hr', x, hx, hy⟩)
        · exact Or.inl (by simp [h])
        · rcases List.mem_cons.mp hr' with rfl | hr'
          · rw [h1] at hx; cases hx; exact Or.inl (by simp [hy])
          · exact Or.inr ⟨r, hr', x, hx, hy⟩

end Verif
