import Verif.ApiCol

/-
Reading files: `core::Table::readTable`, `core::TablesReader`, `api::Reader`.

Models: src/odc/core/Table.cc l.432-460, src/odc/core/TablesReader.{h,cc}, src/odc/core/MetaData.cc
l.232-268, src/odc/core/Column.cc l.100-114, src/odc/api/Odb.cc l.114-163.
-/

namespace Verif

/-- `core::Table` (Table.h l.77-88) as found in a file.  `Offset` is a signed 64-bit number; positions
are unbounded integers here (files are far smaller than 2^63 bytes). -/
structure Tbl where
  start : Int
  dataPos : Int
  next : Int
  info : HeaderInfo
  order : Order
  deriving DecidableEq

/-- An `int64_t` read from eight bytes. [core/Header.cc l.93-121] -/
def toI64 (n : Nat) : Int := (BitVec.ofNat 64 n).toInt

/-- `rowCount()` as a `long` (Odb.cc l.140, 149). -/
def Tbl.rows (t : Tbl) : Int := toI64 t.info.nrows

/-- A data handle opened for reading: its bytes and what `estimate()` answers (0 if unknown). [core/ReadTablesIterator, core/TablesReader.cc l.98-125] -/
structure File where
  bytes : List Byte
  estimate : Nat

/-- A file whose size is known. -/
def File.known (bs : List Byte) : File := ⟨bs, bs.length⟩

/-- `Table::readTable` at a position, Table.cc l.432-460 (seeking to a negative position is a system
error; past the end nothing is read). -/
def readTable (env : Env) (f : File) (pos : Int) : Except Err (Option Tbl) :=
  if pos < 0 then .error .ioError
  else
    match parseHeader env.md5 env.asDbl (f.bytes.drop pos.toNat) with
    | .error e => .error e
    | .ok none => .ok none
    | .ok (some (h, o, rest)) =>
      let dataPos : Int := pos + ((f.bytes.drop pos.toNat).length - rest.length : Nat)
      let next : Int := dataPos + toI64 h.dataSize
      if next > f.estimate ∧ f.estimate ≠ 0 then .error .incomplete
      else .ok (some ⟨pos, dataPos, next, h, o⟩)

/-- Position following the tables read so far, TablesReader.cc l.110. -/
def posAfter (ts : List Tbl) : Int :=
  match ts.getLast? with
  | none => 0
  | some t => t.next

/-- `TablesReader::ensureTable`, TablesReader.cc l.98-125, on the list of tables read so far; on an
exception the list is unchanged. -/
def ensureTable (env : Env) (f : File) (ts : List Tbl) (idx : Int) : Except Err (List Tbl × Bool) :=
  if idx < 0 then .error .assertFailed
  else if (ts.length : Int) < idx then .error .assertFailed
  else if idx = ts.length then
    if ¬ (posAfter ts ≤ f.estimate ∨ f.estimate = 0) then .error .assertFailed
    else
      match readTable env f (posAfter ts) with
      | .error e => .error e
      | .ok none => .ok (ts, false)
      | .ok (some t) => .ok (ts ++ [t], true)
  else .ok (ts, true)

/-- `ReadTablesIterator::operator++`, TablesReader.cc l.40-49: the tables, the new position (-1 at the
end) and the exception if any; the position is incremented before the exception. -/
def itIncr (env : Env) (f : File) (ts : List Tbl) (pos : Int) : List Tbl × Int × Option Err :=
  match ensureTable env f ts (pos + 1) with
  | .error e => (ts, pos + 1, some e)
  | .ok (ts', true) => (ts', pos + 1, none)
  | .ok (ts', false) => (ts', -1, none)

/-- `operator*`, TablesReader.cc l.58-76, 128-134. -/
def itGet (ts : List Tbl) (pos : Int) : Except Err Tbl :=
  if pos < 0 then .error .assertFailed
  else
    match ts[pos.toNat]? with
    | some t => .ok t
    | none => .error .assertFailed

/-! ### Compatible columns -/

/-- `Column::operator==`, Column.cc l.99-115: name, type and data size. -/
def Col.same (a b : Col) : Bool :=
  decide (a.name = b.name) && decide (a.ty = b.ty) && decide (a.codec.width = b.codec.width)

/-- `MetaData::compatible`, MetaData.cc l.232-266: pointwise equal, or every column of the other found
(first column of that name) and equal. -/
def compatible (a b : List Col) : Bool :=
  decide (a.length = b.length) &&
    ((a.zip b).all (fun p => p.1.same p.2) ||
      b.all (fun c =>
        match a.find? (fun d => decide (d.name = c.name)) with
        | some d => d.same c
        | none => false))

/-! ### `api::Reader` -/

/-- `ReaderImpl`, Odb.cc l.86-112: tables read so far, position of `it_`, `first_`. -/
structure Rd where
  tables : List Tbl
  pos : Int
  first : Bool

/-- `ReaderImpl` constructor, Odb.cc l.111-118: `begin()` loads the first table. -/
def Rd.open (env : Env) (f : File) : Except Err Rd :=
  match ensureTable env f [] 0 with
  | .error e => .error e
  | .ok (ts, true) => .ok ⟨ts, 0, true⟩
  | .ok (ts, false) => .ok ⟨ts, -1, true⟩

/-- Copying a table into the frame (`emplace_back(*it_)`). [api/Odb.cc l.114-163] -/
def Tbl.copy (t : Tbl) : Except Err Tbl :=
  match cloneCols t.info.cols with
  | .error e => .error e
  | .ok cs => .ok { t with info := { t.info with cols := cs } }

/-- 64-bit addition of row counts (unsigned addition converted to `long`), Odb.cc l.149. -/
def addRows (a b : Int) : Int := (BitVec.ofInt 64 (a + b)).toInt

/-- The aggregation loop, Odb.cc l.143-158.  `fuel` bounds the number of rounds. -/
def aggLoop (env : Env) (f : File) (limit : Int) : Nat → List Tbl → Int → List Tbl → Int →
    (List Tbl × Int) × Except Err (List Tbl × Int)
  | 0, ts, pos, _, _ => ((ts, pos), .error .diverges)
  | fuel + 1, ts, pos, acc, nrows =>
    match itIncr env f ts pos with
    | (ts1, _, some e) => ((ts1, pos), .error e)
    | (ts1, p1, none) =>
      if p1 = -1 then ((ts1, pos), .ok (acc, nrows))
      else
        match itGet ts1 p1, acc.head? with
        | .ok t, some front =>
          if limit ≥ 0 ∧ addRows nrows t.rows > limit then ((ts1, pos), .ok (acc, nrows))
          else if ¬ compatible front.info.cols t.info.cols then ((ts1, pos), .ok (acc, nrows))
          else
            match itIncr env f ts1 pos with
            | (ts2, p2, some e) => ((ts2, p2), .error e)
            | (ts2, p2, none) =>
              match itGet ts2 p2 with
              | .error e => ((ts2, p2), .error e)
              | .ok t2 =>
                match t2.copy with
                | .error e => ((ts2, p2), .error e)
                | .ok t3 => aggLoop env f limit fuel ts2 p2 (acc ++ [t3]) (addRows nrows t.rows)
        | .error e, _ => ((ts1, pos), .error e)
        | _, none => ((ts1, pos), .error .ub)

/-- The body of `ReaderImpl::next` once `it_` designates a table, Odb.cc l.138-162. -/
def Rd.take (env : Env) (f : File) (agg : Bool) (limit : Int) (fuel : Nat) (ts : List Tbl) (pos : Int) :
    Rd × Except Err (Option (List Tbl)) :=
  match itGet ts pos with
  | .error e => (⟨ts, pos, false⟩, .error e)
  | .ok t =>
    match t.copy with
    | .error e => (⟨ts, pos, false⟩, .error e)
    | .ok t' =>
      match (if agg then aggLoop env f limit fuel ts pos [t'] t'.rows else ((ts, pos), .ok ([t'], t'.rows))) with
      | ((ts', pos'), .error e) => (⟨ts', pos', false⟩, .error e)
      | ((ts', pos'), .ok (acc, nrows)) =>
        if limit < 0 ∨ nrows ≤ limit then (⟨ts', pos', false⟩, .ok (some acc))
        else (⟨ts', pos', false⟩, .error .assertFailed)

/-- `ReaderImpl::next`, Odb.cc l.125-163: the frame (its tables), `none` at the end, or an exception. -/
def Rd.next (env : Env) (f : File) (agg : Bool) (limit : Int) (fuel : Nat) (r : Rd) :
    Rd × Except Err (Option (List Tbl)) :=
  if r.pos = -1 then (r, .ok none)
  else if r.first then Rd.take env f agg limit fuel r.tables r.pos
  else
    match itIncr env f r.tables r.pos with
    | (ts, pos, some e) => (⟨ts, pos, r.first⟩, .error e)
    | (ts, pos, none) =>
      if pos = -1 then (⟨ts, pos, r.first⟩, .ok none)
      else Rd.take env f agg limit fuel ts pos

/-- The results of `k` successive calls of `next`. [api/Odb.cc l.114-163] -/
def Rd.calls (env : Env) (f : File) (agg : Bool) (limit : Int) (fuel : Nat) :
    Nat → Rd → List (Except Err (Option (List Tbl)))
  | 0, _ => []
  | k + 1, r =>
    let (r', x) := r.next env f agg limit fuel
    x :: Rd.calls env f agg limit fuel k r'

/-! ### The tables of a file -/

/-- Tables read from position `pos` on. -/
def Chain (env : Env) (f : File) : Int → List Tbl → Prop
  | _, [] => True
  | pos, t :: ts => readTable env f pos = .ok (some t) ∧ Chain env f t.next ts

/-- Position after reading `ts` from `pos`. -/
def endPos (pos : Int) (ts : List Tbl) : Int :=
  match ts.getLast? with
  | none => pos
  | some t => t.next

/-- The tables of a file read from its start are exactly `ts`, and then reading ends (`none`) or fails. -/
def Scan (env : Env) (f : File) (ts : List Tbl) (fin : Option Err) : Prop :=
  Chain env f 0 ts ∧
    readTable env f (endPos 0 ts) = (match fin with | none => .ok none | some e => .error e)

theorem posAfter_eq (ts : List Tbl) : posAfter ts = endPos 0 ts := by
  unfold posAfter endPos; cases ts.getLast? <;> rfl

theorem endPos_cons (pos : Int) (t : Tbl) (ts : List Tbl) : endPos pos (t :: ts) = endPos t.next ts := by
  unfold endPos
  cases ts with
  | nil => rfl
  | cons a as => rw [List.getLast?_cons_cons, List.getLast?_eq_some_getLast (by simp)]

theorem Chain.append {env : Env} {f : File} {pos : Int} {a b : List Tbl} :
    Chain env f pos (a ++ b) ↔ Chain env f pos a ∧ Chain env f (endPos pos a) b := by
  induction a generalizing pos with
  | nil => simp [Chain, endPos]
  | cons t a ih => simp only [List.cons_append, Chain, ih, endPos_cons, and_assoc]

theorem readTable_next_le {env : Env} {f : File} {pos : Int} {t : Tbl} (h : readTable env f pos = .ok (some t)) :
    t.next ≤ f.estimate ∨ f.estimate = 0 := by
  unfold readTable at h
  split at h
  · simp at h
  · split at h
    · simp at h
    · simp at h
    · dsimp only at h
      split at h
      · simp at h
      · rename_i hc
        simp only [Except.ok.injEq, Option.some.injEq] at h
        rw [← h]
        simp only at hc ⊢
        omega

theorem Chain.end_le {env : Env} {f : File} {ts : List Tbl} (h : Chain env f 0 ts) :
    posAfter ts ≤ f.estimate ∨ f.estimate = 0 := by
  rcases List.eq_nil_or_concat ts with rfl | ⟨ts', t, rfl⟩
  · left; simp [posAfter]
  · rw [List.concat_eq_append, Chain.append] at h
    have := h.2
    simp only [Chain, and_true] at this
    unfold posAfter
    rw [List.concat_eq_append, List.getLast?_append]
    simpa using readTable_next_le this

/-- The table at index `i` of the file. -/
theorem Chain.at {env : Env} {f : File} {ts : List Tbl} (h : Chain env f 0 ts) (i : Nat) (hi : i < ts.length) :
    readTable env f (posAfter (ts.take i)) = .ok (some ts[i]) := by
  have e : ts = ts.take i ++ ts[i] :: ts.drop (i + 1) := by
    rw [List.getElem_cons_drop, List.take_append_drop]
  rw [e, Chain.append] at h
  rw [posAfter_eq]
  exact h.2.1

theorem Chain.take {env : Env} {f : File} {ts : List Tbl} {pos : Int} (h : Chain env f pos ts) (i : Nat) :
    Chain env f pos (ts.take i) := by
  rw [← List.take_append_drop i ts, Chain.append] at h; exact h.1

/-- `ensureTable` on a file whose tables are known. -/
theorem ensure_scan {env : Env} {f : File} {ts : List Tbl} {fin : Option Err} (h : Scan env f ts fin) (m : Nat)
    (hm : m ≤ ts.length) (i : Nat) (hi : i ≤ m) :
    ensureTable env f (ts.take m) i =
      if i < ts.length then .ok (ts.take (max m (i + 1)), true)
      else match fin with
        | none => .ok (ts.take m, false)
        | some e => .error e := by
  have hl : (ts.take m).length = m := by simp; omega
  unfold ensureTable
  rw [if_neg (by omega), hl, if_neg (by omega)]
  by_cases him : i = m
  · subst him
    rw [if_pos rfl, if_neg (by have := (h.1.take i).end_le; omega)]
    by_cases hlt : i < ts.length
    · rw [h.1.at i hlt, if_pos hlt]
      simp only [Except.ok.injEq, Prod.mk.injEq, and_true]
      rw [show max i (i + 1) = i + 1 by omega, List.take_succ, List.getElem?_eq_getElem hlt]; rfl
    · have : i = ts.length := by omega
      subst this
      rw [List.take_length, posAfter_eq, h.2, if_neg hlt]
      cases fin <;> rfl
  · rw [if_neg (by omega), if_pos (by omega)]
    rw [show max m (i + 1) = m by omega]

end Verif
