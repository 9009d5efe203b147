import Verif.Encode

/-
`core::Table`: copying, column lookup and decoding by column name.

Models: src/odc/core/Table.{h,cc}, src/odc/core/Column.cc l.26-48, src/odc/core/Codec.cc l.32-39,
src/odc/codec/String.h l.94-103, 296-307, src/odc/core/DecodeTarget.cc.
-/

namespace Verif

/-! ### Copying a table -/

/-- `Codec::clone`, Codec.cc l.32-39, String.h l.94-102 and 296-307.  The copy is built for the byte order
of the machine; for the string codecs the copy asserts that min and max compare equal to themselves,
which fails when they are a NaN. -/
def Codec.clone (c : Codec) : Except Err Codec :=
  if c.kind.isChars && !(feq c.min c.min && feq c.max c.max) then .error .assertFailed else .ok c

/-- What `missingValue()` returns on a clone: `castedMissingValue_` is not copied (Codec.cc l.32-39), so
integer codecs answer the default integer missing value (Integer.h l.38-44, 55-59). -/
def Codec.clonedMissing (c : Codec) : Except Err Word :=
  if c.kind.isInt && c.kind != .realConstOrMissing then toVT c.vt integerMDI else .ok c.missing

/-- Copy of the columns of a table (`Column::operator=`, Column.cc l.32-48). -/
def cloneCols : List Col → Except Err (List Col)
  | [] => .ok []
  | c :: cs =>
    match c.codec.clone with
    | .error e => .error e
    | .ok k =>
      match cloneCols cs with
      | .error e => .error e
      | .ok cs' => .ok ({ c with codec := k } :: cs')

/-! ### Column lookup -/

/-- Name up to the first '@' (Table.cc l.103). -/
def simpleName (s : Str) : Str := s.takeWhile (fun b => decide (b ≠ 0x40))

/-- `columnLookup_` and `simpleColumnLookup_` (Table.h l.91-92), as association lists. -/
structure Lookup where
  exact : List (Str × Nat)
  simple : List (Str × Nat)
  deriving DecidableEq

/-- The two maps of a new table, core/Table.h (`columnLookup_`, `simpleColumnLookup_`): empty. -/
def Lookup.empty : Lookup := ⟨[], []⟩

/-- `std::map::find`, core/Table.cc l.141-148. -/
def assoc (k : Str) (m : List (Str × Nat)) : Option Nat := (m.find? (fun e => decide (e.1 = k))).map Prod.snd

/-- The loop of `Table::columnLookup`, Table.cc l.96-104; the maps built so far survive an exception. -/
def Lookup.build : List Str → Nat → Lookup → Lookup × Option Err
  | [], _, L => (L, none)
  | nm :: nms, i, L =>
    if (assoc nm L.exact).isSome then (L, some .decodeError)
    else
      Lookup.build nms (i + 1)
        ⟨L.exact ++ [(nm, i)],
         if (assoc (simpleName nm) L.simple).isSome then L.simple else L.simple ++ [(simpleName nm, i)]⟩

/-- `Table::columnLookup`, memoised: Table.cc l.89-117. -/
def columnLookup (names : List Str) (L : Lookup) : Lookup × Option Err :=
  if L.exact = [] then Lookup.build names 0 L else (L, none)

/-- Position of a requested column, Table.cc l.141-148. -/
def Lookup.find (L : Lookup) (nm : Str) : Option Nat :=
  match assoc nm L.exact with
  | some p => some p
  | none => assoc nm L.simple

/-! ### Decoding by name -/

/-- `api::StridedData` as a target: number of elements, words per element and memory. [api/StridedData.h l.30-150] -/
structure Target where
  nelem : Nat
  elem : Nat
  mem : Nat → Cell

/-- The loop over the requested columns, Table.cc l.138-160: positions, rejecting unknown and repeated
columns and targets with too few elements. -/
def resolve (L : Lookup) (nrows : Nat) : List (Str × Target) → List Nat → Except Err (List Nat)
  | [], _ => .ok []
  | (nm, t) :: ts, seen =>
    match L.find nm with
    | none => .error .decodeError
    | some p =>
      if p ∈ seen then .error .decodeError
      else if t.nelem < nrows then .error .assertFailed
      else
        match resolve L nrows ts (seen ++ [p]) with
        | .error e => .error e
        | .ok ps => .ok (p :: ps)

/-- Decoding state of column `p`: its target if it was requested. [core/Table.cc l.130-160] -/
def mkSlot (cols : List Col) (targets : List Target) (ps : List Nat) (p : Nat) : Slot :=
  let c := match cols[p]? with
    | some c => c.codec
    | none => fresh .int32 1 true
  match (ps.zip targets).find? (fun e => decide (e.1 = p)) with
  | some (_, t) => ⟨c, c.clonedMissing, true, t.elem, 0, t.mem⟩
  | none => ⟨c, c.clonedMissing, false, 0, 0, fun _ => []⟩

/-- `Table::decode` on a copied table, Table.cc l.120-236: the memory of each target after decoding.
Codecs of a copied table only accept streams of the machine's byte order (Codec.cc l.43-58). -/
def tableDecode (o : Order) (cols : List Col) (nrows : Nat) (data : List Byte) (L : Lookup)
    (req : List (Str × Target)) : Except Err (List (Nat → Cell)) :=
  if cols.length < req.length then .error .assertFailed
  else
    match resolve L nrows req [] with
    | .error e => .error e
    | .ok ps =>
      if nrows = 0 then .ok (req.map (fun r => r.2.mem))
      else if o = .other ∧ cols ≠ [] then .error .seriousBug
      else
        match decodeTable o nrows ((List.range cols.length).map (mkSlot cols (req.map Prod.snd) ps)) data with
        | .error e => .error e
        | .ok ss => .ok (ps.map (fun p => match ss[p]? with
            | some s => s.mem
            | none => fun _ => []))

/-- Decoding as the caller sees it: lookup, then decode. [core/Table.cc l.120-236] -/
def decodeByName (o : Order) (cols : List Col) (nrows : Nat) (data : List Byte) (L : Lookup)
    (req : List (Str × Target)) : Lookup × Except Err (List (Nat → Cell)) :=
  match columnLookup (cols.map Col.name) L with
  | (L', some e) => (L', .error e)
  | (L', none) => (L', tableDecode o cols nrows data L' req)

/-! ### Lookup facts -/

theorem assoc_append (k : Str) (m m' : List (Str × Nat)) :
    assoc k (m ++ m') = match assoc k m with | some v => some v | none => assoc k m' := by
  unfold assoc
  rw [List.find?_append]
  cases m.find? (fun e => decide (e.1 = k)) <;> simp

theorem assoc_none_iff (k : Str) (m : List (Str × Nat)) : assoc k m = none ↔ ∀ e ∈ m, e.1 ≠ k := by
  unfold assoc; simp

/-- Names in order with their positions, starting at `i`. -/
def numbered : List Str → Nat → List (Str × Nat)
  | [], _ => []
  | n :: ns, i => (n, i) :: numbered ns (i + 1)

theorem numbered_mem (ns : List Str) (i : Nat) (e : Str × Nat) :
    e ∈ numbered ns i ↔ i ≤ e.2 ∧ ns[e.2 - i]? = some e.1 := by
  induction ns generalizing i with
  | nil => simp [numbered]
  | cons n ns ih =>
    obtain ⟨k, p⟩ := e
    simp only [numbered, List.mem_cons, Prod.mk.injEq, ih]
    constructor
    · rintro (⟨rfl, rfl⟩ | ⟨h1, h2⟩)
      · simp
      · refine ⟨by omega, ?_⟩
        rw [show p - i = (p - (i + 1)) + 1 by omega]; simpa using h2
    · rintro ⟨h1, h2⟩
      by_cases hp : p = i
      · subst hp; simp at h2; exact Or.inl ⟨h2.symm, rfl⟩
      · right
        refine ⟨by omega, ?_⟩
        rw [show p - i = (p - (i + 1)) + 1 by omega] at h2; simpa using h2

theorem numbered_append (a b : List Str) (i : Nat) :
    numbered (a ++ b) i = numbered a i ++ numbered b (i + a.length) := by
  induction a generalizing i with
  | nil => simp [numbered]
  | cons x a ih => simp [numbered, ih, Nat.add_assoc, Nat.add_comm 1]

/-- Without duplicate names the lookup succeeds and maps each name to its position. -/
theorem Lookup.build_nodup (ns done : List Str) (hnd : (done ++ ns).Nodup) (S : List (Str × Nat)) :
    ∃ S', Lookup.build ns done.length ⟨numbered done 0, S⟩ = (⟨numbered (done ++ ns) 0, S'⟩, none) := by
  induction ns generalizing done S with
  | nil => exact ⟨S, by simp [Lookup.build]⟩
  | cons n ns ih =>
    have hn : n ∉ done := by
      intro h
      have := List.nodup_append.mp hnd
      exact this.2.2 n h n (by simp) rfl
    have hnone : assoc n (numbered done 0) = none := by
      rw [assoc_none_iff]
      intro e he hen
      rw [numbered_mem] at he
      exact hn (by rw [← hen]; exact List.mem_of_getElem? he.2)
    simp only [Lookup.build, hnone]
    have h2 := ih (done ++ [n]) (by simpa using hnd)
      (if (assoc (simpleName n) S).isSome then S else S ++ [(simpleName n, done.length)])
    simpa [numbered_append, numbered] using h2

theorem columnLookup_nodup (ns : List Str) (hnd : ns.Nodup) :
    ∃ S, columnLookup ns Lookup.empty = (⟨numbered ns 0, S⟩, none) := by
  have := Lookup.build_nodup ns [] (by simpa using hnd) []
  simpa [columnLookup, Lookup.empty, numbered] using this

theorem assoc_numbered (ns : List Str) (hnd : ns.Nodup) (p : Nat) (n : Str) (h : ns[p]? = some n) :
    assoc n (numbered ns 0) = some p := by
  have hmem : (n, p) ∈ numbered ns 0 := by rw [numbered_mem]; simpa using h
  cases ha : assoc n (numbered ns 0) with
  | none => rw [assoc_none_iff] at ha; exact absurd rfl (ha _ hmem)
  | some q =>
    unfold assoc at ha
    rw [Option.map_eq_some_iff] at ha
    obtain ⟨e, he, rfl⟩ := ha
    have h1 := List.mem_of_find?_eq_some he
    have h2 : e.1 = n := by simpa using List.find?_some he
    rw [numbered_mem] at h1
    simp only [Nat.sub_zero] at h1
    have h3 : ns[e.2]? = some n := by rw [h1.2, h2]
    obtain ⟨hp, hp'⟩ := List.getElem?_eq_some_iff.mp h
    obtain ⟨hq, hq'⟩ := List.getElem?_eq_some_iff.mp h3
    rw [(List.getElem_inj hnd).mp (hq'.trans hp'.symm)]

/-! ### Resolution facts -/

theorem resolve_ok (L : Lookup) (nrows : Nat) (req : List (Str × Target)) (seen ps : List Nat)
    (h : resolve L nrows req seen = .ok ps) :
    ps.length = req.length ∧ ps.Nodup ∧ (∀ p ∈ ps, p ∉ seen) ∧
      (∀ (i : Nat) (nm : Str) (t : Target), req[i]? = some (nm, t) → L.find nm = ps[i]? ∧ nrows ≤ t.nelem) := by
  induction req generalizing seen ps with
  | nil => simp [resolve] at h; subst h; simp
  | cons r req ih =>
    obtain ⟨nm, t⟩ := r
    simp only [resolve] at h
    split at h
    · simp at h
    rename_i p hp
    split at h
    · simp at h
    rename_i hseen
    split at h
    · simp at h
    rename_i hel
    split at h
    · simp at h
    rename_i ps' hps
    simp only [Except.ok.injEq] at h
    subst h
    obtain ⟨h1, h2, h3, h4⟩ := ih (seen ++ [p]) ps' hps
    refine ⟨by simp [h1], ?_, ?_, ?_⟩
    · rw [List.nodup_cons]; exact ⟨fun hm => h3 p hm (by simp), h2⟩
    · intro q hq
      rcases List.mem_cons.mp hq with rfl | hq
      · exact hseen
      · intro hs; exact h3 q hq (by simp [hs])
    · intro i nm' t' hi
      cases i with
      | zero =>
        simp only [List.getElem?_cons_zero, Option.some.injEq, Prod.mk.injEq] at hi
        obtain ⟨rfl, rfl⟩ := hi
        exact ⟨by simp [hp], by omega⟩
      | succ i => exact h4 i nm' t' (by simpa using hi)

/-- The converse: distinct known columns and large enough targets resolve. -/
theorem resolve_of (L : Lookup) (nrows : Nat) (req : List (Str × Target)) (ps seen : List Nat)
    (hl : ps.length = req.length) (hnd : ps.Nodup) (hs : ∀ p ∈ ps, p ∉ seen)
    (h : ∀ (i : Nat) nm t, req[i]? = some (nm, t) → L.find nm = ps[i]? ∧ nrows ≤ t.nelem) :
    resolve L nrows req seen = .ok ps := by
  induction req generalizing ps seen with
  | nil => simp at hl; subst hl; rfl
  | cons r req ih =>
    obtain ⟨nm, t⟩ := r
    cases ps with
    | nil => simp at hl
    | cons p ps =>
      obtain ⟨a1, a2⟩ := h 0 nm t (by simp)
      simp only [List.getElem?_cons_zero] at a1
      have hnd' := List.nodup_cons.mp hnd
      simp only [resolve, a1]
      rw [if_neg (hs p (by simp)), if_neg (by omega), ih ps (seen ++ [p]) (by simpa using hl) hnd'.2]
      · intro q hq hm
        rcases List.mem_append.mp hm with hm | hm
        · exact hs q (by simp [hq]) hm
        · simp at hm; subst hm; exact hnd'.1 hq
      · intro i nm' t' hi
        have := h (i + 1) nm' t' (by simpa using hi)
        simpa using this

/-! ### Projection: skipping columns does not change the others -/

/-- Two choices of wanted columns over the same codecs, the second choice contained in the first, and
rows agreeing on the columns of the second choice. -/
inductive Proj : List (Codec × Bool) → List (Codec × Bool) → List Cell → List Cell → Prop
  | nil : Proj [] [] [] []
  | cons {c v1 v2 x y a b xs ys} : (v2 = true → v1 = true ∧ y = x) → Proj a b xs ys →
      Proj ((c, v1) :: a) ((c, v2) :: b) (x :: xs) (y :: ys)

theorem Proj.drop {a b : List (Codec × Bool)} {xs ys : List Cell} (h : Proj a b xs ys) (n : Nat) :
    Proj (a.drop n) (b.drop n) (xs.drop n) (ys.drop n) := by
  induction n generalizing a b xs ys with
  | zero => simpa using h
  | succ n ih =>
    cases h with
    | nil => exact .nil
    | cons _ h' => exact ih h'

theorem Proj.length {a b : List (Codec × Bool)} {xs ys : List Cell} (h : Proj a b xs ys) :
    b.length = a.length := by
  induction h with
  | nil => rfl
  | cons _ _ ih => simp [ih]

theorem Proj.take_append {a b : List (Codec × Bool)} {xs ys xs' ys' : List Cell} (h : Proj a b xs ys) (n : Nat)
    (h' : Proj (a.drop n) (b.drop n) xs' ys') : Proj a b (xs.take n ++ xs') (ys.take n ++ ys') := by
  induction n generalizing a b xs ys with
  | zero => simpa using h'
  | succ n ih =>
    cases h with
    | nil => simpa using h'
    | cons h1 h2 => exact .cons h1 (ih h2 h')

theorem refCols_proj (o : Order) {a b : List (Codec × Bool)} {xs ys : List Cell} (h : Proj a b xs ys)
    (s r : List Byte) (zs : List Cell) (hz : refCols o a xs s = .ok (zs, r)) :
    ∃ ws, refCols o b ys s = .ok (ws, r) ∧ Proj a b zs ws := by
  induction h generalizing s zs with
  | nil => simp [refCols, P.pure_apply] at hz ⊢; exact ⟨hz.2, by rw [hz.1]; exact .nil⟩
  | @cons c v1 v2 x y a b xs ys h1 _ ih =>
    simp only [refCols, P.bind_apply] at hz
    split at hz
    · rename_i z s1 hz1
      split at hz
      · rename_i zs' s2 hz2
        simp only [P.pure_apply, Except.ok.injEq, Prod.mk.injEq] at hz
        obtain ⟨rfl, rfl⟩ := hz
        obtain ⟨ws, hw1, hw2⟩ := ih s1 zs' hz2
        have hskip : c.skip s = .ok ((), s1) := by
          cases hv : v1
          · rw [hv] at hz1
            simp only [Bool.false_eq_true, if_false, P.bind_apply] at hz1
            split at hz1
            · rename_i u s' hs'
              simp only [P.pure_apply, Except.ok.injEq, Prod.mk.injEq] at hz1
              rw [hs', hz1.2]
            · simp at hz1
          · rw [hv] at hz1
            exact skip_of_dec o c s s1 z hz1
        cases hv2 : v2
        · refine ⟨y :: ws, ?_, .cons (by simp) hw2⟩
          simp only [refCols, P.bind_apply, Bool.false_eq_true, if_false, hskip, P.pure_apply, hw1]
        · obtain ⟨e1, _⟩ := h1 hv2
          rw [e1] at hz1
          simp only [if_true] at hz1
          refine ⟨z :: ws, ?_, .cons (fun _ => ⟨e1, rfl⟩) hw2⟩
          simp only [refCols, P.bind_apply, if_true, hz1, hw1, P.pure_apply]
      · simp at hz
    · simp at hz

/-- Proof device: `Proj` row by row. -/
inductive ProjRows (a b : List (Codec × Bool)) : List (List Cell) → List (List Cell) → Prop
  | nil : ProjRows a b [] []
  | cons {x y xs ys} : Proj a b x y → ProjRows a b xs ys → ProjRows a b (x :: xs) (y :: ys)

theorem refRows_proj (o : Order) (a b : List (Codec × Bool)) (k ls : Nat) (cur cur' : List Cell)
    (h : Proj a b cur cur') (s r : List Byte) (rows : List (List Cell))
    (hr : refRows o a k ls cur s = .ok (rows, r)) :
    ∃ rows', refRows o b k ls cur' s = .ok (rows', r) ∧ ProjRows a b rows rows' := by
  induction k generalizing ls cur cur' s rows with
  | zero =>
    simp only [refRows, P.pure_apply, Except.ok.injEq, Prod.mk.injEq] at hr ⊢
    obtain ⟨rfl, rfl⟩ := hr
    exact ⟨[], ⟨rfl, rfl⟩, .nil⟩
  | succ k ih =>
    simp only [refRows, P.bind_apply] at hr ⊢
    split at hr
    · rename_i m s1 hm
      rw [h.length]
      split at hr
      · simp [P.fail] at hr
      · rename_i hub
        rw [if_neg hub]
        simp only [P.bind_apply] at hr ⊢
        split at hr
        · rename_i zs s2 hz
          split at hr
          · rename_i rows1 s3 hrr
            simp only [P.pure_apply, Except.ok.injEq, Prod.mk.injEq] at hr
            obtain ⟨rfl, rfl⟩ := hr
            obtain ⟨ws, hw1, hw2⟩ := refCols_proj o (h.drop _) s1 s2 zs hz
            have hp := h.take_append _ hw2
            obtain ⟨rows', g1, g2⟩ := ih _ _ _ hp s2 rows1 hrr
            refine ⟨(cur'.take (markerStart m) ++ ws) :: rows', ?_, .cons hp g2⟩
            simp only [hw1, g1, P.pure_apply]
          · simp at hr
        · simp at hr
    · simp at hr

theorem Proj.getD {a b : List (Codec × Bool)} {xs ys : List Cell} (h : Proj a b xs ys) (j : Nat) (c : Codec)
    (hj : b[j]? = some (c, true)) : ys.getD j [] = xs.getD j [] := by
  induction h generalizing j with
  | nil => simp at hj
  | cons h1 _ ih =>
    cases j with
    | zero =>
      simp only [List.getElem?_cons_zero, Option.some.injEq, Prod.mk.injEq] at hj
      simp [(h1 hj.2).2]
    | succ j => simpa using ih j (by simpa using hj)

theorem ProjRows.getD {a b : List (Codec × Bool)} {xs ys : List (List Cell)} (h : ProjRows a b xs ys) (r : Nat) :
    (r < xs.length → Proj a b (xs.getD r []) (ys.getD r [])) ∧ ys.length = xs.length := by
  induction h generalizing r with
  | nil => simp
  | cons h1 _ ih =>
    refine ⟨?_, by simp [(ih 0).2]⟩
    intro hr
    cases r with
    | zero => simpa using h1
    | succ r => simpa using (ih r).1 (by simpa using hr)

end Verif
