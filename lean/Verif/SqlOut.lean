import Verif.PropDone

/-!
`odc sql ... -o file` (and `SELECT ... INTO 'file'`): the rows of a query written to a file while it runs.

Models: src/odc/sql/ODAOutput.cc with a `Writer<>` (no template in the file name).  As in SqlFilter.lean the engine is a parameter.
-/

namespace Verif

/-- State of the output, sql/ODAOutput.h l.46-55: the iterator over the file written, `columnSizes_` (here in words), `missingValues_`, `count_`. -/
structure OdaOut where
  w : Writer
  sizes : List Nat
  missing : List Word
  count : Nat

/-- `columns()[i]->missingValue()`, IteratorProxy.h l.128. -/
def Writer.missingAt (w : Writer) (i : Nat) : Except Err Word :=
  match w.cols[i]? with
  | none => .error .ub
  | some col =>
    match col.codec with
    | none => .error .ub
    | some c => c.missingWord

/-- One column, sql/ODAOutput.cc l.99-114. -/
def odaSetColumn (env : Env) (w : Writer) (i : Nat) (c : SqlCol) (f : Fetch) (t : Str) : Except Err Writer :=
  if c.ty = .bitfield then w.setBitfieldColumn env i t .bitfield (c.bitNames.zip c.bitSizes)
  else
    match w.setColumn env i t c.ty with
    | .error e => .error e
    | .ok w => if c.ty = .string then w.setWidth i f.size else .ok w

/-- The loop of `initUpdateTypes` the first time, sql/ODAOutput.cc l.97-116: the columns are declared; sizes and missing values are noted. -/
def odaDeclare (env : Env) : Writer → Nat → List SqlCol → List Fetch → List Str → Except Err (Writer × List (Nat × Word))
  | w, i, c :: cs, f :: fs, t :: ts =>
    match odaSetColumn env w i c f t with
    | .error e => .error e
    | .ok w =>
      match w.missingAt i with
      | .error e => .error e
      | .ok m =>
        match odaDeclare env w (i + 1) cs fs ts with
        | .error e => .error e
        | .ok (w, l) => .ok (w, (if c.ty = .string then f.size else 1, m) :: l)
  | w, _, _, _, _ => .ok (w, [])

/-- `prepare`, sql/ODAOutput.cc l.76-79, 86-121. -/
def odaPrepare (env : Env) (cap : Nat) (cs : List SqlCol) (fs : List Fetch) (titles : List Str) : Except Err OdaOut :=
  match odaDeclare env ((Writer.new cap).setSize titles.length) 0 cs fs titles with
  | .error e => .error e
  | .ok (w, l) =>
    match w.writeHeader with
    | .error e => .error e
    | .ok w => .ok ⟨w, l.map Prod.fst, l.map Prod.snd, 0⟩

/-- The loop of `initUpdateTypes` later on, sql/ODAOutput.cc l.126-146: the new sizes, and the strings that have become wider, by title (in a `std::map`, whose order
decides only which of several errors is reported). -/
def odaGrown : List WCol → List SqlCol → List Fetch → List Str → List Nat → Except Err (List Nat × List (Str × Nat))
  | k :: ks, c :: cs, f :: fs, t :: ts, n :: ns =>
    if c.ty ≠ k.ty ∨ t ≠ k.name then .error .assertFailed
    else
      match k.codec with
      | none => .error .ub
      | some d =>
        if c.ty ≠ .string ∧ d.width ≠ 1 then .error .assertFailed
        else
          match odaGrown ks cs fs ts ns with
          | .error e => .error e
          | .ok (ns, l) =>
            if c.ty = .string ∧ d.width < f.size then .ok (f.size :: ns, (t, f.size) :: l) else .ok (n :: ns, l)
  | _, _, _, _, ns => .ok (ns, [])

/-- `updateTypes`, sql/ODAOutput.cc l.81-84, 122-153. -/
def OdaOut.update (env : Env) (s : OdaOut) (cs : List SqlCol) (fs : List Fetch) (titles : List Str) : Except Err OdaOut :=
  match odaGrown s.w.cols cs fs titles s.sizes with
  | .error e => .error e
  | .ok (ns, l) =>
    if l = [] then .ok { s with sizes := ns }
    else
      match s.w.resize env .same l with
      | .error e => .error e
      | .ok w => .ok { s with w := w, sizes := ns }

/-- `outputNumber` and `outputString`, sql/ODAOutput.cc l.158-189: one value, stored at its place in the writer's row. -/
def odaCell (len : List Byte → Nat) (ty : ColType) (n : Nat) (m : Word) (x : Cell × Bool) : Except Err Cell :=
  if ty = .string then
    let l := len (cellBytes x.1)
    if 8 * n < l then .error .assertFailed
    else .ok (wordsOf n (if x.2 then [] else (cellBytes x.1).take l))
  else .ok [if x.2 then m else cellWord x.1]

/-- The loop of `output`, sql/ODAOutput.cc l.63-66, from column `i` on. -/
def odaCells (len : List Byte → Nat) : Writer → Nat → List ColType → List Nat → List Word → List (Cell × Bool) → Except Err Writer
  | w, i, ty :: tys, n :: ns, m :: ms, x :: xs =>
    match odaCell len ty n m x with
    | .error e => .error e
    | .ok y =>
      match w.setData i y with
      | .error e => .error e
      | .ok w => odaCells len w (i + 1) tys ns ms xs
  | w, _, _, _, _, _ => .ok w

/-- `output`, sql/ODAOutput.cc l.61-71. -/
def OdaOut.output (env : Env) (len : List Byte → Nat) (s : OdaOut) (tys : List ColType) (xs : List (Cell × Bool)) : Except Err OdaOut :=
  match odaCells len s.w 0 tys s.sizes s.missing xs with
  | .error e => .error e
  | .ok w =>
    match w.next env .same with
    | .error e => .error e
    | .ok w => .ok { s with w := w, count := s.count + 1 }

/-- `TODATableIterator::next` for one row, sql/TODATableIterator.cc l.77-100, with this output. -/
def odaEnter (env : Env) (titles : List Str) (cs : List SqlCol) (fs : List Fetch) (s : OdaOut) (v : RowView) : Except Err (List Fetch × OdaOut) :=
  if v.fresh then
    match fetchCols v.cols (cs.map SqlCol.name) with
    | .error e => .error e
    | .ok fs =>
      match s.update env cs fs titles with
      | .error e => .error e
      | .ok s => .ok (fs, s)
  else .ok (fs, s)

/-- The execution of the statement: the rows of the table one by one, those that meet the condition are put out.  [Not in odc: `SQLSelect::execute`] -/
def odaLoop (env : Env) (len : List Byte → Nat) (q : Query) (cs : List SqlCol) : List Fetch → OdaOut → List RowView → Except Err OdaOut
  | _, s, [] => .ok s
  | fs, s, v :: vs =>
    match odaEnter env (q.select.map Prod.snd) cs fs s v with
    | .error e => .error e
    | .ok (fs, s) =>
      let xs := fs.map (Fetch.get v.cells.flatten)
      if q.keep (xs.drop q.select.length) then
        match s.output env len (cs.map SqlCol.ty) (xs.take q.select.length) with
        | .error e => .error e
        | .ok s => odaLoop env len q cs fs s vs
      else odaLoop env len q cs fs s vs

/-- `odc sql 'select ...' -i input -o output`, tools/SQLTool.cc l.85-143, sql/SQLOutputConfig.cc l.47-70: number of rows and frames written.  The writer is closed by its
destructor. -/
def sqlToFile (env : Env) (len : List Byte → Nat) (cap : Nat) (junk : Junk) (q : Query) (bytes : List Byte) (fuel : Nat) :
    Except Err (Nat × List (List Byte)) :=
  match RowIt.begin env junk bytes with
  | .error e => .error e
  | .ok it =>
    match populate it.cols with
    | .error e => .error e
    | .ok table =>
      match sqlColumns table q.names with
      | .error e => .error e
      | .ok cs =>
        match selBegin it.cols cs it.noMore (cs.map SqlCol.name) with
        | .error e => .error e
        | .ok fs =>
          match odaPrepare env cap cs fs (q.select.map Prod.snd) with
          | .error e => .error e
          | .ok o =>
            let rows := it.all env junk fuel
            match odaLoop env len q cs fs o rows.1 with
            | .error e => .error e
            | .ok o =>
              match rows.2 with
              | some e => .error e
              | none =>
                match o.w.close env .same with
                | .error e => .error e
                | .ok w => .ok (o.count, w.out)

end Verif
