import Verif.UserTable
import Mathlib.Data.List.Perm.Subperm
import Verif.Workers

/-
`api::Frame`: decoding, encoded data, properties, column information.

Models: src/odc/api/Odb.cc l.165-193, 295-408, src/odc/core/Table.cc l.66-82, 116-163,
src/odc/core/DecodeTarget.cc l.36-47, src/odc/api/StridedData.h l.74-84.
-/

namespace Verif

/-- Seek and read a range of the file.  A negative length makes the allocation of the buffer fail; a
short read goes unnoticed and leaves uninitialised memory in the buffer (undefined behaviour when used). [core/Table.cc l.73-87] -/
def readRange (f : File) (start len : Int) : Except Err (List Byte) :=
  if len < 0 then .error .lengthError
  else if start < 0 then .error .ioError
  else if (f.bytes.length : Int) < start + len then .error .ub
  else .ok ((f.bytes.drop start.toNat).take len.toNat)

/-- `readEncodedData(false)`, Table.cc l.73-87. -/
def Tbl.data (f : File) (t : Tbl) : Except Err (List Byte) := readRange f t.dataPos (toI64 t.info.dataSize)

/-- `readEncodedData(true)`, Table.cc l.73-87. -/
def Tbl.encoded (f : File) (t : Tbl) : Except Err (List Byte) := readRange f t.start (t.next - t.start)

/-- `Table::decode` including lookup and reading the data, Table.cc l.120-236. -/
def Tbl.decode (f : File) (t : Tbl) (L : Lookup) (req : List (Str × Target)) :
    Lookup × Except Err (List (Nat → Cell)) :=
  match columnLookup (t.info.cols.map Col.name) L with
  | (L', some e) => (L', .error e)
  | (L', none) =>
    if t.info.cols.length < req.length then (L', .error .assertFailed)
    else
      match resolve L' t.info.nrows req [] with
      | .error e => (L', .error e)
      | .ok _ =>
        match t.data f with
        | .error e => (L', .error e)
        | .ok d => (L', tableDecode t.order t.info.cols t.info.nrows d L' req)

/-- `StridedDataT::slice`, StridedData.h l.72-75; the sum is a 64-bit one, so a wrapped sum would pass
and the access be out of bounds. -/
def Target.slice (t : Target) (off rows : Nat) : Except Err Target :=
  if t.nelem < (off + rows) % 18446744073709551616 then .error .assertFailed
  else if t.nelem < off + rows then .error .ub
  else .ok ⟨rows, t.elem, fun r => t.mem (off + r)⟩

/-- `DecodeTarget::slice`, DecodeTarget.cc l.35-44. -/
def sliceReq (off rows : Nat) : List (Str × Target) → Except Err (List (Str × Target))
  | [] => .ok []
  | (nm, t) :: req =>
    match t.slice off rows with
    | .error e => .error e
    | .ok t' =>
      match sliceReq off rows req with
      | .error e => .error e
      | .ok req' => .ok ((nm, t') :: req')

/-- Memory of a target after its slice was written. [api/Odb.cc l.354-408] -/
def putBack (off rows : Nat) (old new : Nat → Cell) : Nat → Cell :=
  fun r => if off ≤ r ∧ r < off + rows then new (r - off) else old r

/-- The targets with the slices written. [api/Odb.cc l.354-408] -/
def putBacks (off rows : Nat) (req : List (Str × Target)) (out : List (Nat → Cell)) : List (Str × Target) :=
  (req.zip out).map (fun e => (e.1.1, { e.1.2 with mem := putBack off rows e.1.2.mem e.2 }))

/-- `FrameImpl::decode` with several tables and one thread, Odb.cc l.359-374.  `Ls` are the memoised
lookups of the tables. -/
def frameSeq (f : File) : List (Tbl × Lookup) → Nat → List (Str × Target) →
    List Lookup × Except Err (List (Nat → Cell))
  | [], _, req => ([], .ok (req.map (fun e => e.2.mem)))
  | (t, L) :: ts, off, req =>
    match sliceReq off t.info.nrows req with
    | .error e => (L :: ts.map Prod.snd, .error e)
    | .ok sub =>
      match t.decode f L sub with
      | (L', .error e) => (L' :: ts.map Prod.snd, .error e)
      | (L', .ok out) =>
        match frameSeq f ts ((off + t.info.nrows) % 18446744073709551616) (putBacks off t.info.nrows req out) with
        | (Ls, r) => (L' :: Ls, r)

/-- `FrameImpl::decode` with one thread, Odb.cc l.354-374. -/
def frameDecode (f : File) (ts : List (Tbl × Lookup)) (req : List (Str × Target)) :
    List Lookup × Except Err (List (Nat → Cell)) :=
  match ts with
  | [(t, L)] => let (L', r) := t.decode f L req; ([L'], r)
  | _ => frameSeq f ts 0 req

/-- `FrameImpl::encodedData`, Odb.cc l.165-175. -/
def encodedData (f : File) : List Tbl → Except Err (List Byte)
  | [] => .ok []
  | t :: ts =>
    match t.encoded f with
    | .error e => .error e
    | .ok b =>
      match encodedData f ts with
      | .error e => .error e
      | .ok bs => .ok (b ++ bs)

/-- `map.insert(range)`: keys already present keep their value. [api/Odb.cc l.177-193] -/
def mapMerge (m : StrMap) : StrMap → StrMap
  | [] => m
  | kv :: kvs => mapMerge (mapEmplace strLt kv.1 kv.2 m) kvs

/-- `FrameImpl::properties`, Odb.cc l.177-193 (asserts that there are tables). -/
def frameProps (ts : List Tbl) : StrMap := ts.foldl (fun m t => mapMerge m t.info.props) []

/-- `FrameImpl::rowCount`, Odb.cc l.342-347: a 64-bit sum. -/
def frameRows (ts : List Tbl) : Nat := ts.foldl (fun n t => (n + t.info.nrows) % 18446744073709551616) 0

/-! ### Lookups of tables with distinct names -/

/-- The lookup memo is either empty or complete. -/
def MemoOk (names : List Str) (L : Lookup) : Prop :=
  L = Lookup.empty ∨ columnLookup names Lookup.empty = (L, none)

theorem memo_lookup (names : List Str) (hnd : names.Nodup) (L : Lookup) (h : MemoOk names L) :
    ∃ S, columnLookup names L = (⟨numbered names 0, S⟩, none) ∧
      columnLookup names Lookup.empty = (⟨numbered names 0, S⟩, none) := by
  obtain ⟨S, hS⟩ := columnLookup_nodup names hnd
  rcases h with rfl | h
  · exact ⟨S, hS, hS⟩
  · rw [hS] at h
    simp only [Prod.mk.injEq, and_true] at h
    subst h
    refine ⟨S, ?_, hS⟩
    unfold columnLookup
    split
    · rename_i he
      simp only at he
      have hn : names = [] := by
        cases names with
        | nil => rfl
        | cons n ns => simp [numbered] at he
      subst hn
      simp [Lookup.build]
    · rfl

/-! ### Tables holding a user's table -/

/-- Table `t` of file `f` holds the user's table `T`. -/
structure Shows (env : Env) (f : File) (t : Tbl) (T : UTable) : Prop where
  carries : ∃ r : RawFrame, Carries env .same r T ∧ t.info = r.info ∧ t.order = r.order ∧ t.data f = .ok r.data
  names : (T.cols.map InCol.name).Nodup

theorem Shows.colNames {env : Env} {f : File} {t : Tbl} {T : UTable} (h : Shows env f t T) :
    t.info.cols.map Col.name = T.cols.map InCol.name := by
  obtain ⟨⟨r, hc, hi, _⟩, _⟩ := h
  rw [hi]
  apply List.ext_getElem (by simp [hc.ncols])
  intro i h1 h2
  simp only [List.getElem_map]
  exact (hc.col i _ _ (List.getElem?_eq_getElem (by simpa using h2)) (List.getElem?_eq_getElem (by simpa using h1))).1

theorem Shows.nrows {env : Env} {f : File} {t : Tbl} {T : UTable} (h : Shows env f t T) : t.info.nrows = T.rows := by
  obtain ⟨⟨r, hc, hi, _⟩, _⟩ := h; rw [hi, hc.nrows]

/-- A request: distinct names, each a column of the table, targets with enough elements, each wide enough
for the column. -/
structure ReqOk (t : Tbl) (req : List (Str × Target)) : Prop where
  distinct : (req.map Prod.fst).Nodup
  known : ∀ e ∈ req, ∃ k ∈ t.info.cols, k.name = e.1 ∧ k.codec.width ≤ e.2.elem
  room : ∀ e ∈ req, t.info.nrows ≤ e.2.nelem
  mem : ∀ e ∈ req, ∀ x, (e.2.mem x).length = e.2.elem

/-- One decoded column of one table: what the memory `m` of a target holds from row `off` on. -/
def HoldsCol (env : Env) (t : Tbl) (T : UTable) (nm : Str) (off : Nat) (m : Nat → Cell) : Prop :=
  ∀ (c : InCol) (k : Col), c ∈ T.cols → c.name = nm → k ∈ t.info.cols → k.name = nm →
    ∀ x, x < T.rows → c.vals.Back env x ((m (off + x)).take k.codec.width)

theorem mem_same {α β : Type} (f : α → β) (l : List α) (h : (l.map f).Nodup) (a b : α) (ha : a ∈ l) (hb : b ∈ l)
    (hf : f a = f b) : a = b := by
  induction l with
  | nil => simp at ha
  | cons x l ih =>
    simp only [List.map_cons, List.nodup_cons, List.mem_map, not_exists, not_and] at h
    rcases List.mem_cons.mp ha with ha | ha <;> rcases List.mem_cons.mp hb with hb | hb
    · rw [ha, hb]
    · rw [ha] at hf; exact absurd hf.symm (h.1 b hb)
    · rw [hb] at hf; exact absurd hf (h.1 a ha)
    · exact ih h.2 ha hb

theorem Shows.col_names_nodup {env : Env} {f : File} {t : Tbl} {T : UTable} (h : Shows env f t T) :
    (t.info.cols.map Col.name).Nodup := by rw [h.colNames]; exact h.names

/-- **Decoding one table by name.** -/
theorem Shows.decode {env : Env} {f : File} {t : Tbl} {T : UTable} (h : Shows env f t T) (L : Lookup)
    (hL : MemoOk (t.info.cols.map Col.name) L) (req : List (Str × Target)) (hreq : ReqOk t req) :
    ∃ L' out, t.decode f L req = (L', .ok out) ∧ MemoOk (t.info.cols.map Col.name) L' ∧ out.length = req.length ∧
      ∀ (i : Nat) (nm : Str) (tg : Target), req[i]? = some (nm, tg) → ∃ m : Nat → Cell, out[i]? = some m ∧
        HoldsCol env t T nm 0 m ∧ (∀ x, (m x).length = tg.elem) ∧ ∀ x, T.rows ≤ x → m x = tg.mem x := by
  have hnames := h.colNames
  have hnd := h.col_names_nodup
  have hnr := h.nrows
  obtain ⟨⟨r, hc, hi, ho, hd⟩, _⟩ := h
  obtain ⟨S, hl1, hl2⟩ := memo_lookup _ hnd L hL
  -- positions of the requested columns
  obtain ⟨ps, hpl, hps⟩ := exists_list (fun (e : Str × Target) (p : Nat) =>
      ∃ k, t.info.cols[p]? = some k ∧ k.name = e.1 ∧ k.codec.width ≤ e.2.elem) req (by
    intro e he
    obtain ⟨k, hk, h1, h2⟩ := hreq.known e he
    obtain ⟨p, hp⟩ := List.mem_iff_getElem?.mp hk
    exact ⟨p, k, hp, h1, h2⟩)
  have hfind : ∀ (i : Nat) (nm : Str) (tg : Target), req[i]? = some (nm, tg) →
      Lookup.find ⟨numbered (t.info.cols.map Col.name) 0, S⟩ nm = ps[i]? ∧ T.rows ≤ tg.nelem := by
    intro i nm tg hit
    obtain ⟨hil, _⟩ := List.getElem?_eq_some_iff.mp hit
    have hpi : ps[i]? = some (ps[i]'(by omega)) := List.getElem?_eq_getElem (by omega)
    obtain ⟨k, hk, hkn, _⟩ := hps i _ _ hit hpi
    refine ⟨?_, ?_⟩
    · rw [hpi]
      unfold Lookup.find
      rw [assoc_numbered _ hnd _ nm (by rw [List.getElem?_map, hk]; simp [hkn])]
    · have := hreq.room _ (List.mem_of_getElem? hit)
      rw [← hnr]; exact this
  have hpnd : ps.Nodup := by
    rw [List.Nodup, List.pairwise_iff_getElem]
    intro a b ha hb hab heq
    have hpa : ps[a]? = some ps[a] := List.getElem?_eq_getElem ha
    have hpb : ps[b]? = some ps[b] := List.getElem?_eq_getElem hb
    obtain ⟨k1, q1, q2, _⟩ := hps a _ _ (List.getElem?_eq_getElem (by omega)) hpa
    obtain ⟨k2, q3, q4, _⟩ := hps b _ _ (List.getElem?_eq_getElem (by omega)) hpb
    rw [heq, q3] at q1
    simp only [Option.some.injEq] at q1
    subst q1
    have hd' := hreq.distinct
    rw [List.Nodup, List.pairwise_iff_getElem] at hd'
    apply hd' a b (by simp; omega) (by simp; omega) hab
    simp only [List.getElem_map]
    rw [← q2, ← q4]
  have hpb : ∀ p ∈ ps, p < T.cols.length := by
    intro p hp
    obtain ⟨i, hi', rfl⟩ := List.getElem_of_mem hp
    obtain ⟨k, hk, _⟩ := hps i _ _ (List.getElem?_eq_getElem (by omega)) (List.getElem?_eq_getElem hi')
    have := (List.getElem?_eq_some_iff.mp hk).1
    rw [hi, hc.ncols] at this; exact this
  have hreqlen : req.length ≤ T.cols.length := by
    rw [← hpl]
    have hsub : ps ⊆ List.range T.cols.length := fun p hp => List.mem_range.mpr (hpb p hp)
    have := (List.Nodup.subperm hpnd hsub).length_le
    simpa using this
  have hres : resolve ⟨numbered (t.info.cols.map Col.name) 0, S⟩ T.rows req [] = .ok ps :=
    resolve_of _ _ _ _ _ hpl hpnd (by simp) hfind
  obtain ⟨out, o1, o2, o3⟩ := hc.decode ⟨numbered (t.info.cols.map Col.name) 0, S⟩ req ps rfl hreqlen hres hpb (by
    intro i nm tg p k hi1 hp1 hk1
    obtain ⟨k', q1, _, q3⟩ := hps i _ _ hi1 hp1
    rw [hi, hk1] at q1
    simp only [Option.some.injEq] at q1
    subst q1
    exact ⟨q3, hreq.mem _ (List.mem_of_getElem? hi1)⟩)
  refine ⟨⟨numbered (t.info.cols.map Col.name) 0, S⟩, out, ?_, Or.inr hl2, o2, ?_⟩
  · unfold Tbl.decode
    rw [hl1]
    simp only
    rw [if_neg (by rw [hi, hc.ncols]; omega), hnr, hres, hd, ho, hc.order]
    simp only
    rw [← o1, hi]
  · intro i nm tg hit
    obtain ⟨hil, _⟩ := List.getElem?_eq_some_iff.mp hit
    have hpi : ps[i]? = some (ps[i]'(by omega)) := List.getElem?_eq_getElem (by omega)
    obtain ⟨k, hk, hkn, _⟩ := hps i _ _ hit hpi
    have hpb' : ps[i]'(by omega) < T.cols.length := hpb _ (List.getElem_mem _)
    have hcc : T.cols[ps[i]'(by omega)]? = some (T.cols[ps[i]'(by omega)]'hpb') := List.getElem?_eq_getElem hpb'
    have hkr := hk
    rw [hi] at hkr
    obtain ⟨m, m1, m2, m3, m4⟩ := o3 i nm tg _ _ k hit hpi hcc hkr
    refine ⟨m, m1, ?_, m3, m4⟩
    intro c k' hcm hcn hkm hkn' x hx
    have e1 : k' = k := mem_same Col.name _ hnd k' k hkm (List.mem_of_getElem? hk) (by rw [hkn', hkn])
    have e2 : c = T.cols[ps[i]'(by omega)]'hpb' := by
      apply mem_same InCol.name _ (by rw [← hnames]; exact hnd) c _ hcm (List.getElem_mem _)
      rw [hcn, ← (hc.col _ _ k hcc hkr).1, hkn]
    rw [e1, Nat.zero_add, e2]
    exact m2 x hx

end Verif
