import Verif.PropValues
import Verif.UserTop

/-
C39: names of columns that occur twice.  `encode` does not look at the names (core/Encoder.cc l.24-118); decoding
builds the lookup of names first (core/Table.cc l.89-113, 116-124).
-/

namespace Verif

theorem build_dup (ns : List Str) (i : Nat) (L : Lookup) (h : ¬ (L.exact.map Prod.fst ++ ns).Nodup) (hL : (L.exact.map Prod.fst).Nodup) :
    ∃ L', Lookup.build ns i L = (L', some .decodeError) := by
  induction ns generalizing i L with
  | nil => rw [List.append_nil] at h; exact absurd hL h
  | cons n ns ih =>
    unfold Lookup.build
    by_cases hn : (assoc n L.exact).isSome = true
    · rw [if_pos hn]; exact ⟨_, rfl⟩
    · rw [if_neg hn]
      have hnone : assoc n L.exact = none := by simpa using hn
      rw [assoc_none_iff] at hnone
      have hnm : n ∉ L.exact.map Prod.fst := by
        intro hm
        rw [List.mem_map] at hm
        obtain ⟨e, he, he'⟩ := hm
        exact hnone e he he'
      apply ih
      · simp only [List.map_append, List.map_cons, List.map_nil, List.append_assoc, List.singleton_append]
        exact h
      · simp only [List.map_append, List.map_cons, List.map_nil]
        rw [List.nodup_append]
        refine ⟨hL, by simp, ?_⟩
        intro a ha b hb
        simp only [List.mem_singleton] at hb
        subst hb
        exact fun e => hnm (e ▸ ha)

theorem lookup_dup (ns : List Str) (h : ¬ ns.Nodup) : ∃ L, columnLookup ns Lookup.empty = (L, some .decodeError) := by
  unfold columnLookup
  rw [if_pos (show Lookup.empty.exact = [] from rfl)]
  exact build_dup ns 0 Lookup.empty (by simpa [Lookup.empty] using h) (by simp [Lookup.empty])

/-- A frame carrying a table, read on its own. -/
theorem read_carried {env : Env} {r : RawFrame} {T : UTable} (h : Carries env .same r T) :
    ∃ t, readPlain env r.bytes = ([[t]], none) ∧ t.info.cols.map Col.name = T.cols.map InCol.name := by
  have hs := scan_fileOf env [r] (by intro x hx; simp at hx; subst hx; exact h.ok) _ (Or.inr rfl)
  have hb : fileOf [r] = r.bytes := by simp [fileOf]
  rw [hb] at hs
  refine ⟨r.tbl 0, ?_, ?_⟩
  · have := readFrames_plain hs (by
      intro t ht
      simp only [layout, List.mem_singleton] at ht
      subst ht
      exact Tbl.copy_of _ h.copy) (-1) (by intro t _; left; decide) (by
      have := fileOf_length_ge env [r] (by intro x hx; simp at hx; subst hx; exact h.ok)
      rw [hb] at this
      simpa [layout, File.known] using this)
    simpa [readPlain, layout, File.known] using this
  · show r.info.cols.map Col.name = _
    apply List.ext_getElem (by simp [h.ncols])
    intro i h1 h2
    simp only [List.getElem_map]
    exact (h.col i _ _ (List.getElem?_eq_getElem (by simpa using h2)) (List.getElem?_eq_getElem (by simpa using h1))).1

/-- **C39** (what holds): `encode` takes any table a frame can carry, whatever the names of its columns.  If two columns
have the same name, the file is read without an error and shows the names, but every attempt to decode it - whichever
columns are asked for, even none - raises `ODBDecodeError`. -/
theorem C39_duplicates (env : Env) (hmd5 : env.Md5Ok) (T : UTable) (hT : T.Fit env) :
    ∃ bytes, T.encode env .same = .ok bytes ∧ (bytes.length ≤ 2147483647 →
      ∃ t, readPlain env bytes = ([[t]], none) ∧ t.info.cols.map Col.name = T.cols.map InCol.name ∧
        (¬ (T.cols.map InCol.name).Nodup → ∀ req, decodeFrame bytes [t] req = .error .decodeError)) := by
  obtain ⟨bytes, h1, h2⟩ := T.encode_fit env hmd5 hT .same
  refine ⟨bytes, h1, ?_⟩
  intro hsz
  obtain ⟨r, rfl, hr⟩ := h2 hsz
  obtain ⟨t, a1, a2⟩ := read_carried hr
  refine ⟨t, a1, a2, ?_⟩
  intro hnd req
  obtain ⟨L, hL⟩ := lookup_dup _ hnd
  unfold decodeFrame frameDecode
  simp only [List.map_cons, List.map_nil]
  unfold Tbl.decode
  rw [a2, hL]

/-- **C39** as an equivalence: a table a frame can carry, once encoded, can be decoded - any column, into any target large
enough - exactly if the names of its columns are distinct. -/
theorem C39_iff (env : Env) (hmd5 : env.Md5Ok) (T : UTable) (hT : T.Fit env) (bytes : List Byte)
    (he : T.encode env .same = .ok bytes) (hsz : bytes.length ≤ 2147483647) :
    ∃ t, readPlain env bytes = ([[t]], none) ∧
      ((∀ c ∈ T.cols, ∀ tg : Target, tg.Fits T.rows c.vals.words → ∃ m, decodeCol bytes [t] c.name tg = .ok m) ↔
        (T.cols.map InCol.name).Nodup) := by
  obtain ⟨bytes', e1, e2⟩ := C39_duplicates env hmd5 T hT
  rw [he] at e1
  simp only [Except.ok.injEq] at e1
  subst e1
  obtain ⟨t, a1, a2, a3⟩ := e2 hsz
  refine ⟨t, a1, ?_⟩
  constructor
  · intro h
    refine Classical.byContradiction ?_
    intro hnd
    obtain ⟨c, hc⟩ := List.exists_mem_of_ne_nil _ hT.ne
    obtain ⟨m, hm⟩ := h c hc ⟨T.rows, c.vals.words, fun _ => List.replicate c.vals.words 0⟩
      ⟨Nat.le_refl _, Nat.le_refl _, by simp⟩
    unfold decodeCol at hm
    rw [a3 hnd] at hm
    simp at hm
  · intro hnd c hc tg htg
    obtain ⟨t', b1, b2⟩ := plain_table env hmd5 T ⟨hT, hnd⟩ bytes he hsz
    rw [a1] at b1
    simp only [Prod.mk.injEq, List.cons.injEq, and_true] at b1
    subst b1
    obtain ⟨_, m, _, _, _, h, _⟩ := decode_col b2 c hc tg htg
    exact ⟨m, h⟩

/-! ### Concrete cases -/

/-- Two columns "x" and a column "y". -/
def twiceTable : UTable :=
  { rows := 2, props := [], cols := [⟨lit "y", .ints [9, 9]⟩, ⟨lit "x", .ints [1, 2]⟩, ⟨lit "x", .ints [3, 4]⟩] }

theorem twiceTable_fit : twiceTable.Fit sampleEnv where
  ne := by decide
  few := by decide
  col := by
    intro c hc
    simp only [twiceTable, List.mem_cons, List.not_mem_nil, or_false] at hc
    rcases hc with rfl | rfl | rfl <;>
    exact ⟨by decide +kernel, Vals.Ok.codable (ball (P := InI32) (by decide +kernel)), rfl⟩
  props := List.Pairwise.nil
  nprops := by decide
  plen := by simp [twiceTable]
  version := by decide +kernel
  rows := by decide

/-- What decoding "x" of the table written gives, and what it gives when tried again on the same frame. -/
def decodeTwice (T : UTable) (nm : Str) : Option (Except Err (List Cell) × Except Err (List Cell)) :=
  match T.encode sampleEnv .same with
  | .error _ => none
  | .ok bytes =>
    match (readPlain sampleEnv bytes).1 with
    | [[t]] =>
      let one := fun L => t.decode (File.known bytes) L [(nm, ⟨T.rows, 1, fun _ => [0]⟩)]
      let show' := fun (r : Except Err (List (Nat → Cell))) => match r with
        | .ok (m :: _) => Except.ok ((List.range T.rows).map m)
        | .ok [] => .error .ub
        | .error e => .error e
      some (show' (one Lookup.empty).2, show' (one (one Lookup.empty).1).2)
    | _ => none

/-- Sample: the call throws a decoding error. -/
def isErr (x : Except Err (List Cell)) : Bool := match x with | .ok _ => false | .error e => decide (e = .decodeError)

/-- Sample: the call gives this. -/
def isOk (x : Except Err (List Cell)) (v : List Cell) : Bool := match x with | .ok y => decide (y = v) | .error _ => false

/-- **C39**, violated: a table with two columns of one name is encoded, and cannot be decoded: not even the column "y". -/
theorem C39_violated :
    (match decodeTwice twiceTable (lit "y") with | some (a, _) => isErr a | none => false) = true := by decide +kernel

/-- Worse, the same request made again succeeds: the lookup that was left half built is taken for complete. -/
theorem C39_violated_retry :
    (match decodeTwice twiceTable (lit "x") with
      | some (a, b) => isErr a && isOk b [[intWord false 1], [intWord false 2]]
      | none => false) = true := by decide +kernel

end Verif
