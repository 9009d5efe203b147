import Verif.SpanTop

/-
C17.
-/

namespace Verif

/-! ### Constant columns -/

theorem fcast_range {lo hi : Int} {w : Word} {i : Int} (h : fcast lo hi w = .ok i) : lo ≤ i ∧ i ≤ hi := by
  unfold fcast at h
  split at h
  · split at h
    · rename_i hh; cases h; exact hh
    · cases h
  · cases h

theorem dedup_exists (ss : List Str) : ∃ ds : List Str, ds.Nodup ∧ ∀ s, s ∈ ds ↔ s ∈ ss := by
  induction ss with
  | nil => exact ⟨[], by simp, by simp⟩
  | cons s ss ih =>
    obtain ⟨ds, h1, h2⟩ := ih
    by_cases h : s ∈ ds
    · refine ⟨ds, h1, ?_⟩
      intro x
      rw [h2, List.mem_cons]
      constructor
      · exact Or.inr
      · rintro (rfl | hx)
        · exact (h2 _).mp h
        · exact hx
    · exact ⟨s :: ds, by simp [h, h1], by simp [h2]⟩

theorem strKind_false (n w : Nat) : strKind false n w ≠ .longConstantString ∧ strKind false n w ≠ .constant := by
  unfold strKind
  constructor <;> split <;> simp <;> split <;> simp

theorem intKind_not (b : Bool) (n : Int) : intKind b n ≠ .constantString ∧ intKind b n ≠ .longConstantString := by
  unfold intKind
  constructor <;> (repeat' split) <;> simp

/-- A constant column has one value, the one in its header. -/
theorem const_value {env : Env} (hlong : env.longEnv = false) {v : Vals} {n : Nat} {nm : Str} {e : EncCol}
    (hok : v.Ok env) (hs : Sent env n ⟨nm, v⟩ e) (hn : 0 < n) (hrows : v.rows = n) (k : Col)
    (hty : k.ty = v.ty.toInt) (hk : k.codec = reload env.asDbl v.ty.toInt e.codec)
    (hc : k.codec.kind.isConstant = true) :
    ∃ V, constValue k.ty k.codec.min = .ok V ∧ SpanOk env v.sort (fun u => u = v) V ∧
      (V.sort = .int → ∃ i, V = .ints [i]) ∧ (V.sort = .real → ∃ x, V = .reals [x]) ∧
      (V.sort = .str → ∃ s, V = .strs [s]) := by
  have hcells : e.data.cells = v.cells env := by rw [hs.data]; rfl
  have hlen : e.data.cells.length = n := hs.ok.rows
  have hch := hs.ok.travels.chosen
  have h8 : 8 * v.words / 8 = v.words := by omega
  simp only [hs.info, InCol.info, h8, hcells] at hch
  have hkind : (reload env.asDbl v.ty.toInt e.codec).kind = e.codec.kind := (reload_spec _ _ _).1
  have hmin : (reload env.asDbl v.ty.toInt e.codec).min = e.codec.min := (reload_spec _ _ _).2.1
  have hvt : ∀ kk, e.codec.kind = kk → kk ≠ .longConstantString → kk ≠ .int8String → kk ≠ .int16String →
      (reload env.asDbl v.ty.toInt e.codec).vt = vtOf kk v.ty.toInt env.asDbl := by
    intro kk h1 h2 h3 h4
    unfold reload
    subst h1
    cases hx : e.codec.kind <;> rw [hx] at h2 h3 h4 <;> first | rfl | exact absurd rfl h2 | exact absurd rfl h3 | exact absurd rfl h4
  rw [hk, hkind] at hc
  -- the decoded cell does not depend on the row
  have hback : ∀ r, r < n → ∃ bs, Reads ((reload env.asDbl v.ty.toInt e.codec).dec .same) bs (e.back (e.data.cells.getD r [])) := by
    intro r hr
    obtain ⟨bs, _, _, h⟩ := hs.ok.travels.trip .same _ (mem_getD e.data.cells r [] (by omega))
    rw [hs.info] at h
    exact ⟨bs, h⟩
  have hdet : ∀ r y, v.Back env r y → r < n ∧ y = e.back (e.data.cells.getD r []) := by
    intro r y hy
    have hlt : r < n := by
      have hg := hy.gives hok
      rw [← hrows]
      cases v with
      | ints vs => obtain ⟨i, a, _⟩ := hg; exact (List.getElem?_eq_some_iff.mp a).1
      | bits ms vs => obtain ⟨i, a, _⟩ := hg; exact (List.getElem?_eq_some_iff.mp a).1
      | reals vs => obtain ⟨i, _, a, _⟩ := hg; exact (List.getElem?_eq_some_iff.mp a).1
      | doubles vs => obtain ⟨i, a, _⟩ := hg; exact (List.getElem?_eq_some_iff.mp a).1
      | strings w vs => obtain ⟨s, w', a, _⟩ := hg; exact (List.getElem?_eq_some_iff.mp a).1
    obtain ⟨ys, a, b⟩ := hy
    obtain ⟨ys', a', b'⟩ := hs.back r hlt
    dsimp only at a'
    rw [a] at a'
    cases a'
    rw [b] at b'
    cases b'
    exact ⟨hlt, rfl⟩
  have hrow0 := hs.back 0 hn
  dsimp only at hrow0
  -- integers
  have hint : ∀ vs : List Int, (v.ty.toInt = 1 ∨ v.ty.toInt = 4) → e.codec.kind = .constant → v.sort = .int → vs.length = n →
      (∀ i, v.HasInt i ↔ i ∈ vs) →
      (∀ (r : Nat) (y : Cell), v.Back env r y → ∃ i, vs[r]? = some i ∧ InI32 i ∧ y = [intWord env.asDbl i]) →
      ∃ i, constValue k.ty k.codec.min = .ok (.ints [i]) ∧ SpanOk env v.sort (fun u => u = v) (.ints [i]) := by
    intro vs ht hkc hsort hvl hhas hcell
    obtain ⟨i, a, hi, b⟩ := hcell 0 _ hrow0
    have hall : ∀ r, r < n → e.back (e.data.cells.getD r []) = [intWord env.asDbl i] ∧
        fcast (-9223372036854775808) 9223372036854775807 e.codec.min = .ok i := by
      intro r hr
      have key : ∀ r, r < n → ∀ j, InI32 j → e.back (e.data.cells.getD r []) = [intWord env.asDbl j] →
          fcast (-9223372036854775808) 9223372036854775807 e.codec.min = .ok j := by
        intro r hr j hj hb
        obtain ⟨bs, h⟩ := hback r hr
        have h := h []
        rw [hb] at h
        unfold Codec.dec at h
        rw [hkind, hkc, hvt .constant hkc (by simp) (by simp) (by simp), hmin] at h
        dsimp only at h
        have hv : vtOf .constant v.ty.toInt env.asDbl = vtI env.asDbl := by
          unfold vtOf vtI
          rcases ht with ht | ht <;> rw [ht] <;> cases env.asDbl <;> rfl
        rw [hv] at h
        obtain ⟨h1, h2⟩ := hj
        cases hd : env.asDbl
        · rw [hd] at h
          simp only [vtI, Bool.false_eq_true, if_false, toVT, intWord] at h
          cases hf : fcast (-9223372036854775808) 9223372036854775807 e.codec.min with
          | error e' => rw [hf] at h; cases h
          | ok j' =>
            rw [hf] at h
            simp only [P.pure_apply, Except.ok.injEq, Prod.mk.injEq, List.cons.injEq, and_true] at h
            obtain ⟨r1, r2⟩ := fcast_range hf
            have := congrArg BitVec.toInt h.1
            rw [toInt_ofInt64 j' ⟨by omega, by omega⟩, toInt_ofInt64 j (by unfold InI64; omega)] at this
            rw [this]
        · rw [hd] at h
          simp only [vtI, if_true, toVT, intWord, P.pure_apply, Except.ok.injEq, Prod.mk.injEq, List.cons.injEq, and_true] at h
          rw [h.1]
          exact fcast_ofInt _ _ j (InI32.small ⟨h1, h2⟩) (by omega) (by omega)
      have hb := hs.back r hr
      dsimp only at hb
      obtain ⟨j, a', hj, b'⟩ := hcell r _ hb
      have h0 := key 0 hn i hi b
      have h1 := key r hr j hj b'
      rw [h0] at h1
      cases h1
      exact ⟨b', h0⟩
    refine ⟨i, ?_, ?_⟩
    · unfold constValue
      rw [if_pos (by rw [hty]; exact ht), hk, hmin, (hall 0 hn).2]
    · refine ⟨hsort.symm, ?_, trivial⟩
      intro j
      simp only [List.mem_singleton, exists_eq_left]
      rw [hhas]
      constructor
      · rintro rfl; exact List.mem_of_getElem? a
      · intro hj
        obtain ⟨r, hr⟩ := List.mem_iff_getElem?.mp hj
        have hrn : r < n := by rw [← hvl]; exact (List.getElem?_eq_some_iff.mp hr).1
        have hb := hs.back r hrn
        dsimp only at hb
        obtain ⟨j', c1, c2, c3⟩ := hcell r _ hb
        rw [hr] at c1
        cases c1
        have h1 := intWord_cast env.asDbl j c2
        have h2 := intWord_cast env.asDbl i hi
        rw [(hall r hrn).1] at c3
        have hww : intWord env.asDbl i = intWord env.asDbl j := by simpa using c3
        rw [← hww, h2] at h1
        cases h1
        rfl
  -- reals
  have hreal : (v.ty.toInt = 2 ∨ v.ty.toInt = 5) → e.codec.kind ≠ .longConstantString → v.sort = .real →
      ∃ x, constValue k.ty k.codec.min = .ok (.reals [x]) ∧ SpanOk env v.sort (fun u => u = v) (.reals [x]) := by
    intro ht hkc hsort
    have hdec : ∀ r, r < n → e.back (e.data.cells.getD r []) = [e.codec.min] := by
      intro r hr
      obtain ⟨bs, h⟩ := hback r hr
      have h := h []
      unfold Codec.dec at h
      rw [hkind, hmin] at h
      cases hkk : e.codec.kind <;> rw [hkk] at hc hkc <;> simp [Kind.isConstant] at hc hkc
      · rw [hkk, hvt .constant hkk (by simp) (by simp) (by simp)] at h
        have : vtOf .constant v.ty.toInt env.asDbl = .dbl := by
          unfold vtOf; rcases ht with ht | ht <;> rw [ht] <;> cases env.asDbl <;> rfl
        rw [this] at h
        simp only [toVT, P.pure_apply, Except.ok.injEq, Prod.mk.injEq] at h
        exact h.1.symm
      · rw [hkk] at h
        simp only [P.pure_apply, Except.ok.injEq, Prod.mk.injEq] at h
        exact h.1.symm
    have hnan : isNaN e.codec.min = false := by
      have hr0 := hrow0
      rw [hdec 0 hn] at hr0
      have h0 := cell_value hok hr0
      cases v with
      | reals vs => obtain ⟨x, a, b⟩ := h0; cases a; exact b
      | doubles vs => obtain ⟨x, a, b⟩ := h0; cases a; exact b
      | ints vs => cases hsort
      | bits ms vs => cases hsort
      | strings w vs => cases hsort
    refine ⟨e.codec.min, ?_, hsort.symm, ⟨?_, ?_⟩, ?_⟩
    · unfold constValue
      rw [if_neg (by rw [hty]; omega), if_pos (by rw [hty]; exact ht), hk, hmin]
    · intro y hy
      simp only [List.mem_singleton] at hy
      subst hy
      refine ⟨v, rfl, 0, ?_⟩
      rw [← hdec 0 hn]; exact hrow0
    · rintro u rfl y ⟨r, hy⟩
      obtain ⟨h1, h2⟩ := hdet r _ hy
      rw [hdec r h1] at h2
      cases h2
      exact ⟨_, by simp, feq_self hnan⟩
    · intro y hy
      simp only [List.mem_singleton] at hy
      subst hy
      exact hnan
  cases v with
  | ints vs =>
    obtain ⟨_, m, _, hm⟩ := chosen_int (Or.inl rfl) (fun i hi => (hok i hi).small) hch
    have hkc : e.codec.kind = .constant := by
      have := intKind_not (decide (e.codec.hasMissing ≠ 0)) m
      rw [← hm] at this
      cases hkk : e.codec.kind <;> rw [hkk] at hc this <;> simp [Kind.isConstant] at hc this ⊢
    obtain ⟨i, a, b⟩ := hint vs (Or.inl rfl) hkc rfl hrows (fun i => Iff.rfl) (fun r y hb => cell_value hok hb)
    exact ⟨_, a, b, fun _ => ⟨i, rfl⟩, nofun, nofun⟩
  | bits ms vs =>
    obtain ⟨_, m, _, hm⟩ := chosen_int (Or.inr rfl) (fun i hi => (hok.1 i hi).small) hch
    have hkc : e.codec.kind = .constant := by
      have := intKind_not (decide (e.codec.hasMissing ≠ 0)) m
      rw [← hm] at this
      cases hkk : e.codec.kind <;> rw [hkk] at hc this <;> simp [Kind.isConstant] at hc this ⊢
    obtain ⟨i, a, b⟩ := hint vs (Or.inr rfl) hkc rfl hrows (fun i => Iff.rfl) (fun r y hb => cell_value hok hb)
    exact ⟨_, a, b, fun _ => ⟨i, rfl⟩, nofun, nofun⟩
  | reals vs =>
    obtain ⟨_, hm⟩ := chosen_real (Or.inl rfl) hok.nan hch
    obtain ⟨x, a, b⟩ := hreal (Or.inl rfl) (by
      rw [hm]; split
      · split <;> simp
      · split
        · simp
        · split <;> simp) rfl
    exact ⟨_, a, b, nofun, fun _ => ⟨x, rfl⟩, nofun⟩
  | doubles vs =>
    obtain ⟨_, hm⟩ := chosen_real (Or.inr rfl) hok.nan hch
    obtain ⟨x, a, b⟩ := hreal (Or.inr rfl) (by
      rw [hm]; split
      · split <;> simp
      · split
        · simp
        · split <;> simp) rfl
    exact ⟨_, a, b, nofun, fun _ => ⟨x, rfl⟩, nofun⟩
  | strings w vs =>
    obtain ⟨ds, d1, d2⟩ := dedup_exists vs
    have hm := chosen_str (fun s hs => hok.2.2.1 s hs) hch ds d1 d2
    rw [hlong] at hm
    have hnot := strKind_false ds.length w
    rw [← hm] at hnot
    have hkc : e.codec.kind = .constantString := by
      cases hkk : e.codec.kind <;> rw [hkk] at hc hnot <;> simp [Kind.isConstant] at hc hnot ⊢
    have hdec : ∀ r, r < n → e.back (e.data.cells.getD r []) = [e.codec.min] := by
      intro r hr
      obtain ⟨bs, h⟩ := hback r hr
      have h := h []
      unfold Codec.dec at h
      rw [hkind, hmin, hkc] at h
      simp only [P.pure_apply, Except.ok.injEq, Prod.mk.injEq] at h
      exact h.1.symm
    have hrow : ∀ r, r < n → vs[r]? = some (cellStr 1 [e.codec.min]) := by
      intro r hr
      have hb := hs.back r hr
      dsimp only at hb
      obtain ⟨s, w', a, b, c, d⟩ := cell_value hok hb
      rw [hdec r hr] at b
      have hw : w' = 1 := by have := congrArg List.length b; rw [wordsOf_length] at this; simpa using this.symm
      subst hw
      rw [a, b, cellStr_wordsOf 1 s c d]
    refine ⟨.strs [cellStr 1 [e.codec.min]], ?_, ⟨rfl, ?_, trivial⟩, nofun, nofun, fun _ => ⟨_, rfl⟩⟩
    · unfold constValue
      have : k.ty = 3 := hty
      rw [if_neg (by omega), if_neg (by omega), if_pos this, hk, hmin]
    · intro s
      simp only [List.mem_singleton, exists_eq_left, Vals.HasStr]
      constructor
      · rintro rfl; exact List.mem_of_getElem? (hrow 0 hn)
      · intro hs'
        obtain ⟨r, hr⟩ := List.mem_iff_getElem?.mp hs'
        have hlt : r < n := by rw [← hrows]; exact (List.getElem?_eq_some_iff.mp hr).1
        rw [hrow r hlt] at hr
        exact (Option.some.inj hr).symm

/-! ### One table -/

/-- The name `q` designates column `p` and no other: it is its full name, or (if it has no '@') the part of its name
before an '@'. -/
structure Asks (names : List Str) (q : Str) (p : Nat) : Prop where
  name : ∃ n, names[p]? = some n ∧ (n = q ∨ ((0x40 : Byte) ∉ q ∧ ∃ t, n = q ++ 0x40 :: t))
  only : ∀ (p' : Nat) (n' : Str), names[p']? = some n' → Means q n' → p' = p

theorem Asks.unique {names : List Str} {q : Str} {p p' : Nat} (h : Asks names q p) (h' : Asks names q p') : p = p' := by
  obtain ⟨n, a, b⟩ := h.name
  refine h'.only p n a ?_
  rcases b with b | ⟨_, b⟩
  · exact Or.inl b
  · exact Or.inr b

theorem Asks.index {names : List Str} {q : Str} {p : Nat} (h : Asks names q p) : columnIndex names q = .ok p := by
  rw [(C24_column_index names q).1 p]
  obtain ⟨n, a, b⟩ := h.name
  refine ⟨⟨n, a, ?_⟩, h.only⟩
  rcases b with b | ⟨_, b⟩
  · exact Or.inl b
  · exact Or.inr b

theorem simpleName_split (q t : Str) (hq : (0x40 : Byte) ∉ q) : simpleName (q ++ 0x40 :: t) = q := by
  unfold simpleName
  induction q with
  | nil => simp
  | cons b q ih =>
    simp only [List.mem_cons, not_or] at hq
    simp only [List.cons_append, List.takeWhile_cons]
    rw [if_pos (by simpa using fun h => hq.1 h.symm), ih hq.2]

theorem simpleName_means (n : Str) : n = simpleName n ∨ ∃ t, n = simpleName n ++ 0x40 :: t := by
  unfold simpleName
  induction n with
  | nil => exact Or.inl rfl
  | cons b n ih =>
    rw [List.takeWhile_cons]
    by_cases h : b = 0x40
    · right; exact ⟨n, by simp [h]⟩
    · rw [if_pos (by simpa using h)]
      rcases ih with ih | ⟨t, ih⟩
      · left; rw [← ih]
      · right; exact ⟨t, by rw [List.cons_append, ← ih]⟩

theorem Asks.find {names : List Str} (hnd : names.Nodup) {L : Lookup} (hL : columnLookup names Lookup.empty = (L, none))
    {q : Str} {p : Nat} (h : Asks names q p) : L.find q = some p := by
  obtain ⟨L', h1, h2⟩ := C24_decode_lookup names hnd
  rw [hL] at h1
  cases h1
  obtain ⟨n, a, b⟩ := h.name
  rcases b with rfl | ⟨hq, t, rfl⟩
  · exact (h2 n).1 p a
  · have hno : q ∉ names := by
      intro hm
      obtain ⟨p', hp'⟩ := List.mem_iff_getElem?.mp hm
      have := h.only p' q hp' (Or.inl rfl)
      subst this
      rw [hp'] at a
      have := congrArg List.length (Option.some.inj a)
      simp at this
    rw [(h2 q).2 hno, List.findIdx?_eq_some_iff_getElem]
    obtain ⟨hlt, hget⟩ := List.getElem?_eq_some_iff.mp a
    refine ⟨hlt, by rw [hget]; simpa using simpleName_split q t hq, ?_⟩
    intro j hj
    simp only [decide_eq_true_eq]
    intro hs
    have := h.only j names[j] (List.getElem?_eq_getElem (by omega)) (by
      unfold Means
      rw [← hs]
      exact simpleName_means _)
    omega

/-- Column values of table `T` the name `q` designates. -/
def Asked (T : UTable) (q : Str) (v : Vals) : Prop :=
  ∃ p c, Asks (T.cols.map InCol.name) q p ∧ T.cols[p]? = some c ∧ v = c.vals

/-- A request for the span of columns of a table. -/
structure SpanReq (env : Env) (K : Str → Sort3) (T : UTable) (qs : List Str) : Prop where
  known : ∀ q ∈ qs, ∃ p c, Asks (T.cols.map InCol.name) q p ∧ T.cols[p]? = some c ∧ c.vals.Ok env ∧ c.vals.sort = K q
  distinct : ∀ q ∈ qs, ∀ q' ∈ qs, ∀ p, Asks (T.cols.map InCol.name) q p → Asks (T.cols.map InCol.name) q' p → q = q'

/-- What the model knows about one column of a table in a file. -/
structure ColFacts (env : Env) (t : Tbl) (T : UTable) (q : Str) (p : Nat) (c : InCol) (k : Col) (e : EncCol) : Prop where
  asks : Asks (T.cols.map InCol.name) q p
  col : T.cols[p]? = some c
  stored : t.info.cols[p]? = some k
  ok : c.vals.Ok env
  sent : Sent env T.rows c e
  ty : k.ty = c.vals.ty.toInt
  codec : k.codec = reload env.asDbl c.vals.ty.toInt e.codec
  rows : c.vals.rows = T.rows

theorem spanConsts_ok {env : Env} (hlong : env.longEnv = false) {K : Str → Sort3} {t : Tbl} {T : UTable}
    (hnames : t.info.cols.map Col.name = T.cols.map InCol.name) (hn : 0 < T.rows) (qs : List Str)
    (h : ∀ q ∈ qs, ∃ p c k e, ColFacts env t T q p c k e ∧ c.vals.sort = K q) :
    ∃ vs ns, spanConsts t.info.cols qs = .ok (vs, ns) ∧
      (∀ e ∈ vs, e.1 ∈ qs ∧ SpanOk env (K e.1) (Asked T e.1) e.2 ∧
        (e.2.sort = .int → ∃ i, e.2 = .ints [i]) ∧ (e.2.sort = .real → ∃ x, e.2 = .reals [x]) ∧
        (e.2.sort = .str → ∃ s, e.2 = .strs [s])) ∧
      (∀ q ∈ ns, q ∈ qs) ∧ ∀ q ∈ qs, q ∈ vs.map Prod.fst ∨ q ∈ ns := by
  induction qs with
  | nil => exact ⟨[], [], rfl, by simp, by simp, by simp⟩
  | cons q qs ih =>
    obtain ⟨vs, ns, h1, h2, h3, h4⟩ := ih (fun q hq => h q (by simp [hq]))
    obtain ⟨p, c, k, e, hf, hs⟩ := h q (by simp)
    have hidx : columnIndex (t.info.cols.map Col.name) q = .ok p := by rw [hnames]; exact hf.asks.index
    have hasked : ∀ v, v = c.vals ↔ Asked T q v := by
      intro v
      constructor
      · intro hv; exact ⟨p, c, hf.asks, hf.col, hv⟩
      · rintro ⟨p', c', a, b, d⟩
        have := a.unique hf.asks
        subst this
        rw [hf.col] at b
        cases b
        exact d
    by_cases hc : k.codec.kind.isConstant = true
    · obtain ⟨V, v1, v2, v3, v4, v5⟩ := const_value (nm := c.name) hlong hf.ok hf.sent hn hf.rows k hf.ty hf.codec hc
      refine ⟨(q, V) :: vs, ns, by simp [spanConsts, hidx, hf.stored, hc, v1, h1], ?_, fun x hx => by simp [h3 x hx], ?_⟩
      · intro e' he'
        rcases List.mem_cons.mp he' with rfl | he'
        · exact ⟨by simp, by rw [← hs]; exact v2.congr hasked, v3, v4, v5⟩
        · obtain ⟨a, b⟩ := h2 e' he'
          exact ⟨by simp [a], b⟩
      · intro x hx
        rcases List.mem_cons.mp hx with rfl | hx
        · left; simp
        · rcases h4 x hx with h | h
          · left; simp only [List.map_cons, List.mem_cons]; exact Or.inr h
          · exact Or.inr h
    · refine ⟨vs, q :: ns, by simp [spanConsts, hidx, hf.stored, hc, h1], ?_, ?_, ?_⟩
      · intro e' he'
        obtain ⟨a, b⟩ := h2 e' he'
        exact ⟨by simp [a], b⟩
      · intro x hx
        rcases List.mem_cons.mp hx with rfl | hx
        · simp
        · simp [h3 x hx]
      · intro x hx
        rcases List.mem_cons.mp hx with rfl | hx
        · right; simp
        · rcases h4 x hx with h | h
          · exact Or.inl h
          · right; simp [h]

theorem spanVisit_ok (L : Lookup) (cols : List Col) (qs : List Str)
    (hq : ∀ q ∈ qs, ∃ p k, L.find q = some p ∧ cols[p]? = some k ∧ 1 ≤ k.ty ∧ k.ty ≤ 5)
    (S : List Str) (hinj : ∀ q ∈ S ++ qs, ∀ q' ∈ S ++ qs, ∀ p, L.find q = some p → L.find q' = some p → q = q')
    (own : List (Option Str)) (hown : own.length = cols.length)
    (hS : ∀ (p : Nat) (q : Str), own[p]? = some (some q) ↔ q ∈ S ∧ L.find q = some p) :
    ∃ own', spanVisit L cols qs own = .ok own' ∧ own'.length = cols.length ∧
      ∀ (p : Nat) (q : Str), own'[p]? = some (some q) ↔ q ∈ S ++ qs ∧ L.find q = some p := by
  induction qs generalizing S own with
  | nil => exact ⟨own, rfl, hown, by simpa using hS⟩
  | cons q qs ih =>
    obtain ⟨p, k, h1, h2, h3⟩ := hq q (by simp)
    have hp : p < own.length := by rw [hown]; exact (List.getElem?_eq_some_iff.mp h2).1
    obtain ⟨own', a1, a2, a3⟩ := ih (fun q hq' => hq q (by simp [hq'])) (S ++ [q]) (by simpa using hinj)
      (own.set p (some q)) (by simpa using hown) (by
        intro p' q'
        rw [List.getElem?_set]
        by_cases hpp : p = p'
        · subst hpp
          rw [if_pos rfl, if_pos hp]
          simp only [Option.some.injEq, List.mem_append, List.mem_singleton]
          constructor
          · rintro rfl; exact ⟨Or.inr rfl, h1⟩
          · rintro ⟨hm, hf⟩
            refine (hinj q' ?_ q (by simp) p hf h1).symm
            rcases hm with hm | hm <;> simp [hm]
        · rw [if_neg hpp, hS]
          simp only [List.mem_append, List.mem_singleton]
          constructor
          · rintro ⟨a, b⟩; exact ⟨Or.inl a, b⟩
          · rintro ⟨a | a, b⟩
            · exact ⟨a, b⟩
            · subst a; rw [h1] at b; exact absurd (Option.some.inj b) hpp)
    refine ⟨own', by simp only [spanVisit, h1, h2, if_pos h3, a1], a2, ?_⟩
    intro p' q'
    rw [a3]
    simp [or_assoc]

theorem spanBuffer_ge (cs : List (Col × Option Str)) : 1 ≤ spanBuffer cs ∧
    ∀ e ∈ cs, e.2.isSome = true → e.1.ty = 3 → e.1.codec.width ≤ spanBuffer cs := by
  induction cs with
  | nil => exact ⟨Nat.le_refl 1, by simp⟩
  | cons e cs ih =>
    obtain ⟨k, o⟩ := e
    obtain ⟨h1, h2⟩ := ih
    constructor
    · simp only [spanBuffer]; split
      · exact Nat.le_trans h1 (Nat.le_max_right _ _)
      · exact h1
    · intro e he ho ht
      rcases List.mem_cons.mp he with rfl | he
      · simp only at ho ht ⊢
        simp only [spanBuffer]
        rw [if_pos ⟨ho, ht⟩]
        exact Nat.le_max_left _ _
      · have := h2 e he ho ht
        simp only [spanBuffer]; split
        · exact Nat.le_trans this (Nat.le_max_right _ _)
        · exact this

theorem spanUpdate_ok (asDbl : Bool) (Q : Str → ColSpan → Prop) (cs : List (Col × Option Str)) (vs : List (List Cell))
    (hl : vs.length = cs.length)
    (h : ∀ (i : Nat) (k : Col) (q : Str) (v : List Cell), cs[i]? = some (k, some q) → vs[i]? = some v →
      ∃ V, columnValue asDbl k v (emptyValue k.ty) = .ok V ∧ Q q V) :
    ∃ upd, spanUpdate asDbl cs vs = .ok upd ∧ (∀ e ∈ upd, Q e.1 e.2) ∧
      ∀ q, q ∈ upd.map Prod.fst ↔ ∃ (i : Nat) (k : Col), cs[i]? = some (k, some q) := by
  induction cs generalizing vs with
  | nil => exact ⟨[], by cases vs <;> rfl, by simp, by simp⟩
  | cons c cs ih =>
    cases vs with
    | nil => simp at hl
    | cons v vs =>
      obtain ⟨upd, h1, h2, h3⟩ := ih vs (by simpa using hl) (fun i k q v a b => h (i + 1) k q v (by simpa using a) (by simpa using b))
      obtain ⟨k, o⟩ := c
      cases o with
      | none =>
        refine ⟨upd, by simpa [spanUpdate] using h1, h2, ?_⟩
        intro q
        rw [h3]
        constructor
        · rintro ⟨i, k', hi⟩; exact ⟨i + 1, k', by simpa using hi⟩
        · rintro ⟨i, k', hi⟩
          cases i with
          | zero => simp at hi
          | succ i => exact ⟨i, k', by simpa using hi⟩
      | some q =>
        obtain ⟨V, a, b⟩ := h 0 k q v rfl rfl
        refine ⟨(q, V) :: upd, by simp [spanUpdate, a, h1], ?_, ?_⟩
        · intro e he
          rcases List.mem_cons.mp he with rfl | he
          · exact b
          · exact h2 e he
        · intro q'
          simp only [List.map_cons, List.mem_cons, h3]
          constructor
          · rintro (rfl | ⟨i, k', hi⟩)
            · exact ⟨0, k, rfl⟩
            · exact ⟨i + 1, k', by simpa using hi⟩
          · rintro ⟨i, k', hi⟩
            cases i with
            | zero => simp at hi; exact Or.inl hi.2.symm
            | succ i => exact Or.inr ⟨i, k', by simpa using hi⟩

theorem getElem?_zip {α β : Type} (l : List α) (m : List β) (i : Nat) (a : α) (b : β) :
    (l.zip m)[i]? = some (a, b) ↔ l[i]? = some a ∧ m[i]? = some b := by
  simp only [List.zip, List.getElem?_zipWith]
  cases l[i]? <;> cases m[i]? <;> simp

/-- The rows of a table in a file, seen by `decodeSpan`. -/
theorem decodeSpan_ok {env : Env} {f : File} {K : Str → Sort3} {t : Tbl} {T : UTable} (hT : Holds1 env f t T) (hn : 0 < T.rows)
    (es : List EncCol) (hel : es.length = T.cols.length)
    (hes : ∀ (i : Nat) (c : InCol) (e : EncCol), T.cols[i]? = some c → es[i]? = some e → Sent env T.rows c e)
    (hcols : t.info.cols = readCols env es) (hord : t.order = .same) (d : List Byte) (hd : t.data f = .ok d)
    (henc : encRows .same (es.map EncCol.codec) none (rowsOf (es.map EncCol.data) T.rows) = .ok d)
    (L : Lookup) (hL : columnLookup (t.info.cols.map Col.name) Lookup.empty = (L, none)) (ns : List Str)
    (hns : SpanReq env K T ns) :
    ∃ s, t.decodeSpan env f L ns = .ok s ∧ s.start = t.start ∧ s.length = t.next - t.start ∧
      (s.vals.map Prod.fst).Nodup ∧ (∀ q, q ∈ s.vals.map Prod.fst ↔ q ∈ ns) ∧
      Good env K s.vals (fun q v => q ∈ ns ∧ Asked T q v) := by
  have hnames := hT.shows.colNames
  have hnd : (T.cols.map InCol.name).Nodup := hT.tok.names
  have hL' : columnLookup (T.cols.map InCol.name) Lookup.empty = (L, none) := by rw [← hnames]; exact hL
  have hfind : ∀ q ∈ ns, ∃ p c k e, ColFacts env t T q p c k e ∧ c.vals.sort = K q ∧ L.find q = some p ∧ es[p]? = some e := by
    intro q hq
    obtain ⟨p, c, h1, h2, h3, h4⟩ := hns.known q hq
    have hp : p < es.length := by rw [hel]; exact (List.getElem?_eq_some_iff.mp h2).1
    have hep : es[p]? = some es[p] := List.getElem?_eq_getElem hp
    have hs := hes p c _ h2 hep
    refine ⟨p, c, es[p].col.reload env.asDbl, es[p], ⟨h1, h2, ?_, h3, hs, ?_, ?_, ?_⟩, h4, h1.find hnd hL', hep⟩
    · rw [hcols]; simp [readCols, hep]
    · simp [Col.reload, EncCol.col, hs.info, InCol.info]
    · simp [Col.reload, EncCol.col, hs.info, InCol.info]
    · exact (hT.tok.col c (List.mem_of_getElem? h2)).2.2
  have hclen : t.info.cols.length = es.length := by rw [hcols]; simp [readCols]
  obtain ⟨own, o1, o2, o3⟩ := spanVisit_ok L t.info.cols ns (by
      intro q hq
      obtain ⟨p, c, k, e, hf, _, hfi, _⟩ := hfind q hq
      refine ⟨p, k, hfi, hf.stored, ?_⟩
      rw [hf.ty]
      cases c.vals <;> (constructor <;> simp [Vals.ty, ColType.toInt])) [] (by
      intro q hq q' hq' p h1 h2
      simp only [List.nil_append] at hq hq'
      obtain ⟨p1, _, _, _, f1, _, g1, _⟩ := hfind q hq
      obtain ⟨p2, _, _, _, f2, _, g2, _⟩ := hfind q' hq'
      rw [h1] at g1
      rw [h2] at g2
      cases g1
      cases g2
      exact hns.distinct q hq q' hq' p f1.asks f2.asks)
    (t.info.cols.map (fun _ => none)) (by simp) (by
      intro p q
      simp only [List.getElem?_map, List.not_mem_nil, false_and, iff_false]
      cases t.info.cols[p]? <;> simp)
  simp only [List.nil_append] at o3
  generalize hvis : own.map Option.isSome = vis
  have hvl : vis.length = es.length := by rw [← hvis, List.length_map, o2, hclen]
  generalize htr : (es.zip vis).map (fun e => e.1.tr env e.2) = ts
  have htl : ts.length = es.length := by rw [← htr, List.length_map, List.length_zip, hvl, Nat.min_self]
  have hts : ∀ (i : Nat) (tr : Tr), ts[i]? = some tr ↔ ∃ e o, es[i]? = some e ∧ own[i]? = some o ∧ tr = e.tr env o.isSome := by
    intro i tr
    rw [← htr, List.getElem?_map, Option.map_eq_some_iff]
    constructor
    · rintro ⟨⟨e, b⟩, h1, rfl⟩
      rw [getElem?_zip, ← hvis, List.getElem?_map, Option.map_eq_some_iff] at h1
      obtain ⟨h1, o, h2, rfl⟩ := h1
      exact ⟨e, o, h1, h2, rfl⟩
    · rintro ⟨e, o, h1, h2, rfl⟩
      refine ⟨(e, o.isSome), ?_, rfl⟩
      rw [getElem?_zip, ← hvis, List.getElem?_map, h2]
      exact ⟨h1, rfl⟩
  have hdecs : (t.info.cols.zip own).map (fun e => (e.1.codec, e.2.isSome)) = ts.map Tr.dec := by
    apply List.ext_getElem?
    intro i
    rcases Nat.lt_or_ge i es.length with hi | hi
    · have h1 : es[i]? = some es[i] := List.getElem?_eq_getElem hi
      have h2 : own[i]? = some own[i] := List.getElem?_eq_getElem (by rw [o2, hclen]; exact hi)
      rw [List.getElem?_map, List.getElem?_map, (hts i _).mpr ⟨_, _, h1, h2, rfl⟩,
        (getElem?_zip t.info.cols own i (es[i].col.reload env.asDbl) own[i]).mpr ⟨by rw [hcols]; simp [readCols, h1], h2⟩]
      simp [Tr.dec, EncCol.tr, Col.reload, EncCol.col]
    · rw [List.getElem?_eq_none (by simp [o2, hclen]; omega), List.getElem?_eq_none (by simp [htl]; exact hi)]
  have hcs : ts.map Tr.c = es.map EncCol.codec := by
    apply List.ext_getElem?
    intro i
    rcases Nat.lt_or_ge i es.length with hi | hi
    · have h1 : es[i]? = some es[i] := List.getElem?_eq_getElem hi
      have h2 : own[i]? = some own[i] := List.getElem?_eq_getElem (by rw [o2, hclen]; exact hi)
      rw [List.getElem?_map, List.getElem?_map, (hts i _).mpr ⟨_, _, h1, h2, rfl⟩, h1]
      simp [EncCol.tr]
    · rw [List.getElem?_eq_none (by simp [htl]; exact hi), List.getElem?_eq_none (by simp; exact hi)]
  have hesok : ∀ e ∈ es, e.Ok env T.rows := by
    intro e he
    obtain ⟨i, hi⟩ := List.mem_iff_getElem?.mp he
    have hlt : i < T.cols.length := by rw [← hel]; exact (List.getElem?_eq_some_iff.mp hi).1
    exact (hes i _ e (List.getElem?_eq_getElem hlt) hi).ok
  have hzipdata : (es.zip vis).map (fun e => e.1.data) = es.map EncCol.data := by
    rw [← List.map_fst_zip (l₁ := es) (l₂ := vis) (by omega), List.map_map]
    rw [List.map_fst_zip (by omega)]
    rfl
  have hrowok : ∀ row ∈ rowsOf (es.map EncCol.data) T.rows, RowOk .same ts row := by
    intro row hrow
    simp only [rowsOf, List.mem_map, List.mem_range] at hrow
    obtain ⟨i, hi, rfl⟩ := hrow
    have := rowOk_of env T.rows .same (es.zip vis) (fun e he => hesok e.1 (List.of_mem_zip he).1) i hi
    rw [htr, hzipdata] at this
    exact this
  have hrowget : ∀ row ∈ rowsOf (es.map EncCol.data) T.rows, ∀ (i : Nat) (e : EncCol) (x : Cell), es[i]? = some e →
      row[i]? = some x → ∃ r, r < T.rows ∧ x = e.data.cells.getD r [] := by
    intro row hrow i e x he hx
    simp only [rowsOf, List.mem_map, List.mem_range] at hrow
    obtain ⟨r, hr, rfl⟩ := hrow
    refine ⟨r, hr, ?_⟩
    simp only [rowAt, List.getElem?_map, he, Option.map_some, Option.some.injEq] at hx
    exact hx.symm
  have hcolat : ∀ (i : Nat) (e : EncCol), es[i]? = some e → ∃ c, T.cols[i]? = some c ∧ Sent env T.rows c e := by
    intro i e he
    have hlt : i < T.cols.length := by rw [← hel]; exact (List.getElem?_eq_some_iff.mp he).1
    exact ⟨_, List.getElem?_eq_getElem hlt, hes i _ e (List.getElem?_eq_getElem hlt) he⟩
  have hbuf : ∀ row ∈ rowsOf (es.map EncCol.data) T.rows, ∀ (i : Nat) (tr : Tr) (x : Cell), ts[i]? = some tr →
      row[i]? = some x → tr.v = true → (tr.g x).length ≤ spanBuffer (t.info.cols.zip own) := by
    intro row hrow i tr x ht hx hv
    obtain ⟨e, o, h1, h2, rfl⟩ := (hts i tr).mp ht
    obtain ⟨r, hr, rfl⟩ := hrowget row hrow i e x h1 hx
    simp only [EncCol.tr] at hv
    simp only [EncCol.tr, hv, if_true]
    obtain ⟨c, hc, hs⟩ := hcolat i e h1
    rw [hs.exact r hr]
    obtain ⟨b1, b2⟩ := spanBuffer_ge (t.info.cols.zip own)
    by_cases hstr : c.vals.ty = .string
    · have hmem : (e.col.reload env.asDbl, o) ∈ t.info.cols.zip own :=
        List.mem_of_getElem? ((getElem?_zip _ _ i _ _).mpr ⟨by rw [hcols]; simp [readCols, h1], h2⟩)
      have := b2 _ hmem hv (by simp [Col.reload, EncCol.col, hs.info, InCol.info, hstr, ColType.toInt])
      simpa [Col.reload, EncCol.col, hs.info, InCol.info] using this
    · have hw := hs.width.2
      have : c.vals.words = 1 := by
        cases hvv : c.vals with
        | strings w vs => rw [hvv] at hstr; exact absurd rfl hstr
        | ints vs => rfl
        | bits ms vs => rfl
        | reals vs => rfl
        | doubles vs => rfl
      omega
  obtain ⟨bs, vs', r1, r2, r3⟩ := spanRows_ref .same (spanBuffer (t.info.cols.zip own)) ts
    (by rw [htl, hel]; exact hT.tok.few) (rowsOf (es.map EncCol.data) T.rows) hrowok hbuf (t.info.cols.map (fun _ => []))
    (by rw [List.length_map, hclen, htl])
  rw [hcs, henc] at r1
  cases r1
  have hrl : (rowsOf (es.map EncCol.data) T.rows).length = T.rows := by simp [rowsOf]
  have hread := r2 []
  rw [List.append_nil, hrl, ← hdecs] at hread
  -- values
  have hzl : (t.info.cols.zip own).length = es.length := by rw [List.length_zip, o2, hclen, Nat.min_self]
  obtain ⟨upd, u1, u2, u3⟩ := spanUpdate_ok env.asDbl (fun q V => q ∈ ns ∧ SpanOk env (K q) (Asked T q) V)
    (t.info.cols.zip own) vs' (by rw [r3.1, htl, hzl]) (by
      intro i k q v hk hv
      rw [getElem?_zip] at hk
      obtain ⟨hk1, hk2⟩ := hk
      obtain ⟨hq, hfi⟩ := (o3 i q).mp hk2
      obtain ⟨p, c, k', e, hf, hsort, hfi', hep⟩ := hfind q hq
      rw [hfi] at hfi'
      cases hfi'
      rw [hf.stored] at hk1
      cases hk1
      have htr' := (hts i (e.tr env true)).mpr ⟨e, some q, hep, hk2, rfl⟩
      obtain ⟨v2, w1, w2⟩ := r3.2 i _ [] htr' (by
        rw [List.getElem?_map, hf.stored]; rfl) rfl
      rw [hv] at w1
      cases w1
      have hcv := columnValue_ok hf.ok k hf.ty T.rows hf.rows (by
          intro r y hb
          have hlt : r < T.rows := by
            have hg := hb.gives hf.ok
            rw [← hf.rows]
            cases hvv : c.vals with
            | ints vs => rw [hvv] at hg; obtain ⟨i, a, _⟩ := hg; exact (List.getElem?_eq_some_iff.mp a).1
            | bits ms vs => rw [hvv] at hg; obtain ⟨i, a, _⟩ := hg; exact (List.getElem?_eq_some_iff.mp a).1
            | reals vs => rw [hvv] at hg; obtain ⟨i, _, a, _⟩ := hg; exact (List.getElem?_eq_some_iff.mp a).1
            | doubles vs => rw [hvv] at hg; obtain ⟨i, a, _⟩ := hg; exact (List.getElem?_eq_some_iff.mp a).1
            | strings w vs => rw [hvv] at hg; obtain ⟨s, w', a, _⟩ := hg; exact (List.getElem?_eq_some_iff.mp a).1
          obtain ⟨ys, a, b⟩ := hb
          obtain ⟨ys', a', b'⟩ := hf.sent.back r hlt
          rw [a] at a'
          cases a'
          rw [b] at b'
          cases b'
          rw [hf.sent.exact r hlt, hf.codec]) v (by
          intro y
          rw [w2]
          simp only [List.not_mem_nil, false_or, EncCol.tr, if_true]
          constructor
          · rintro ⟨row, hrow, x, hx, rfl⟩
            obtain ⟨r, hr, rfl⟩ := hrowget row hrow i e x hep hx
            exact ⟨r, hr, hf.sent.back r hr⟩
          · rintro ⟨r, hr, hb⟩
            refine ⟨rowAt (es.map EncCol.data) r, by simp only [rowsOf, List.mem_map, List.mem_range]; exact ⟨r, hr, rfl⟩,
              e.data.cells.getD r [], by simp [rowAt, hep], ?_⟩
            obtain ⟨ys, a, b⟩ := hb
            obtain ⟨ys', a', b'⟩ := hf.sent.back r hr
            rw [a] at a'
            cases a'
            rw [b] at b'
            cases b'
            rfl) (fun r hr => ⟨_, hf.sent.back r hr⟩)
      obtain ⟨V, v1, v2⟩ := hcv
      refine ⟨V, v1, hq, ?_⟩
      rw [← hsort]
      apply v2.congr
      intro u
      constructor
      · intro hu; exact ⟨i, c, hf.asks, hf.col, hu⟩
      · rintro ⟨p', c', a, b, dd⟩
        have := a.unique hf.asks
        subst this
        rw [hf.col] at b
        cases b
        exact dd)
  obtain ⟨l, l1, l2, l3, l4⟩ := spanAddAll_good (env := env) (K := K) upd [] (fun _ _ => False) (Asked T) (by simp)
    ⟨by simp, by simp⟩ (fun e he => (u2 e he).2)
  have hkeys : ∀ q, q ∈ upd.map Prod.fst ↔ q ∈ ns := by
    intro q
    rw [u3]
    constructor
    · rintro ⟨i, k, hi⟩
      rw [getElem?_zip] at hi
      exact ((o3 i q).mp hi.2).1
    · intro hq
      obtain ⟨p, c, k, e, hf, _, hfi, _⟩ := hfind q hq
      exact ⟨p, k, (getElem?_zip _ _ _ _ _).mpr ⟨hf.stored, (o3 p q).mpr ⟨hq, hfi⟩⟩⟩
  refine ⟨⟨t.start, t.next - t.start, l⟩, ?_, rfl, rfl, l2, ?_, ?_⟩
  · unfold Tbl.decodeSpan
    rw [o1]
    dsimp only
    rw [hd]
    dsimp only
    rw [if_neg (by rw [hord]; simp), hord, hT.shows.nrows, hread]
    dsimp only
    rw [u1]
    dsimp only
    rw [l1]
  · intro q
    rw [l4, hkeys]; simp
  · refine ⟨fun e he => (l3.entry e he).congr (by simp [hkeys]), ?_⟩
    intro nm v hv
    exact l3.all nm v (by simpa [hkeys] using hv)

/-- The column has two different values. -/
def Vals.Varies (env : Env) (v : Vals) : Prop :=
  (v.sort = .int ∧ ∃ i j, v.HasInt i ∧ v.HasInt j ∧ i ≠ j) ∨
  (v.sort = .str ∧ ∃ s s', v.HasStr s ∧ v.HasStr s' ∧ s ≠ s') ∨
  (v.sort = .real ∧ ∃ x y, v.HasReal env x ∧ v.HasReal env y ∧ feq x y = false)

/-- The span of one table. -/
structure TblSpan (env : Env) (K : Str → Sort3) (T : UTable) (qs : List Str) (vals : List (Str × ColSpan)) : Prop where
  nodup : (vals.map Prod.fst).Nodup
  keys : ∀ q, q ∈ vals.map Prod.fst ↔ q ∈ qs
  good : Good env K vals (fun q v => q ∈ qs ∧ Asked T q v)

/-- `Table::span` of a table in a file. -/
theorem table_span {env : Env} (hlong : env.longEnv = false) {f : File} {K : Str → Sort3} {t : Tbl} {T : UTable}
    (hT : Holds1 env f t T) (hn : 0 < T.rows) (qs : List Str) (hqs : SpanReq env K T qs) (only : Bool) :
    (only = true ∧ (t.span env f Lookup.empty qs only).2 = .error .userError) ∨
    (¬ (only = true ∧ ∃ q ∈ qs, ∃ v, Asked T q v ∧ v.Varies env) ∧
    ∃ s, (t.span env f Lookup.empty qs only).2 = .ok s ∧ s.start = t.start ∧ s.length = t.next - t.start ∧
      TblSpan env K T qs s.vals) := by
  obtain ⟨⟨r, hcar, hi, ho, hd⟩, _⟩ := hT.shows
  obtain ⟨es, e1, e2, e3, e4⟩ := hcar.enc
  have hcols : t.info.cols = readCols env es := by rw [hi]; exact e3
  have hord : t.order = .same := by rw [ho]; exact hcar.order
  have hnames := hT.shows.colNames
  obtain ⟨vs, ns, h1, h2, h3, h4⟩ := spanConsts_ok (K := K) hlong hnames hn qs (by
    intro q hq
    obtain ⟨p, c, a1, a2, a3, a4⟩ := hqs.known q hq
    have hp : p < es.length := by rw [e1]; exact (List.getElem?_eq_some_iff.mp a2).1
    have hep : es[p]? = some es[p] := List.getElem?_eq_getElem hp
    have hs := e2 p c _ a2 hep
    refine ⟨p, c, es[p].col.reload env.asDbl, es[p], ⟨a1, a2, ?_, a3, hs, ?_, ?_, ?_⟩, a4⟩
    · rw [hcols]; simp [readCols, hep]
    · simp [Col.reload, EncCol.col, hs.info, InCol.info]
    · simp [Col.reload, EncCol.col, hs.info, InCol.info]
    · exact (hT.tok.col c (List.mem_of_getElem? a2)).2.2)
  obtain ⟨l, l1, l2, l3, l4⟩ := spanAddAll_good (env := env) (K := K) vs [] (fun _ _ => False) (Asked T) (by simp)
    ⟨by simp, by simp⟩ (fun e he => (h2 e he).2.1)
  simp only [List.map_nil, List.not_mem_nil, false_or] at l4
  have hvary : ∀ q ∈ vs.map Prod.fst, ∀ v, Asked T q v → ¬ v.Varies env := by
    intro q hq v hv hvar
    simp only [List.mem_map] at hq
    obtain ⟨e, he, rfl⟩ := hq
    obtain ⟨hq, a, b1, b2, b3⟩ := h2 e he
    obtain ⟨p, c, c1, c2, _, c4⟩ := hqs.known e.1 hq
    obtain ⟨p', c', d1, d2, d3⟩ := hv
    have := d1.unique c1
    subst this
    rw [c2] at d2
    cases d2
    have hsort : e.2.sort = v.sort := by rw [a.sort, ← c4, d3]
    have hasked : Asked T e.1 v := ⟨p', c, c1, c2, d3⟩
    rcases hvar with ⟨hs, i, j, x, y, z⟩ | ⟨hs, x, y, z⟩ | ⟨hs, x1, y1, x, y, z⟩
    · obtain ⟨w, hw⟩ := b1 (by rw [hsort, hs])
      have his := a.is
      rw [hw] at his
      have hi := (his i).mpr ⟨v, hasked, x⟩
      have hj := (his j).mpr ⟨v, hasked, y⟩
      simp only [List.mem_singleton] at hi hj
      exact z (hi.trans hj.symm)
    · obtain ⟨w, hw⟩ := b3 (by rw [hsort, hs])
      have his := a.is
      rw [hw] at his
      have hi := (his x).mpr ⟨v, hasked, z.1⟩
      have hj := (his y).mpr ⟨v, hasked, z.2.1⟩
      simp only [List.mem_singleton] at hi hj
      exact z.2.2 (hi.trans hj.symm)
    · obtain ⟨w, hw⟩ := b2 (by rw [hsort, hs])
      have his := a.is
      rw [hw] at his
      obtain ⟨y', k1, k2⟩ := his.2 v hasked x1 x
      obtain ⟨y'', k3, k4⟩ := his.2 v hasked y1 y
      simp only [List.mem_singleton] at k1 k3
      subst k1
      subst k3
      have := feq_trans (by rw [feq_comm]; exact k2) k4
      rw [z] at this
      cases this
  have hvk : ∀ q ∈ vs.map Prod.fst, q ∈ qs := by
    intro q h
    simp only [List.mem_map] at h
    obtain ⟨e, he, rfl⟩ := h
    exact (h2 e he).1
  by_cases hns : ns = []
  · right
    have hk : ∀ q, q ∈ vs.map Prod.fst ↔ q ∈ qs := by
      intro q
      constructor
      · exact hvk q
      · intro h
        rcases h4 q h with h | h
        · exact h
        · rw [hns] at h; simp at h
    refine ⟨?_, ⟨t.start, t.next - t.start, l⟩, ?_, rfl, rfl, l2, ?_, ?_⟩
    · rintro ⟨_, q, hq, v, hv, hvar⟩
      exact hvary q ((hk q).mpr hq) v hv hvar
    · unfold Tbl.span
      rw [h1]
      dsimp only
      rw [l1]
      dsimp only
      rw [if_neg (by simp [hns]), if_neg (by simp [hns])]
    · intro q
      rw [l4, hk]
    · refine ⟨fun e he => (l3.entry e he).congr (by intro v; simp [hk]), ?_⟩
      intro nm v hv
      exact l3.all nm v (by simpa [hk] using hv)
  by_cases honly : only = true
  · left
    refine ⟨honly, ?_⟩
    unfold Tbl.span
    rw [h1]
    dsimp only
    rw [l1]
    dsimp only
    rw [if_pos ⟨hns, honly⟩]
  · right
    refine ⟨fun h => honly h.1, ?_⟩
    obtain ⟨S, hS⟩ := columnLookup_nodup (t.info.cols.map Col.name) (by rw [hnames]; exact hT.tok.names)
    obtain ⟨s', s1, s2, s3, s4, s6, s5⟩ := decodeSpan_ok (K := K) hT hn es e1 e2 hcols hord r.data hd e4 _ hS ns
      ⟨fun q hq => hqs.known q (h3 q hq), fun q hq q' hq' => hqs.distinct q (h3 q hq) q' (h3 q' hq')⟩
    obtain ⟨m, m1, m2, m3, m4⟩ := spanAddAll_good (env := env) (K := K) s'.vals l _ (fun q v => q ∈ ns ∧ Asked T q v) l2 l3 s5.entry
    have hk : ∀ q, q ∈ vs.map Prod.fst ∨ q ∈ ns ↔ q ∈ qs := by
      intro q
      constructor
      · rintro (h | h)
        · exact hvk q h
        · exact h3 q h
      · exact h4 q
    have hiff : ∀ q v, ((False ∨ q ∈ vs.map Prod.fst ∧ Asked T q v) ∨ q ∈ s'.vals.map Prod.fst ∧ q ∈ ns ∧ Asked T q v) ↔
        q ∈ qs ∧ Asked T q v := by
      intro q v
      rw [s6, ← hk]
      constructor
      · rintro ((h | ⟨h, h'⟩) | ⟨h, _, h'⟩)
        · exact h.elim
        · exact ⟨Or.inl h, h'⟩
        · exact ⟨Or.inr h, h'⟩
      · rintro ⟨h | h, h'⟩
        · exact Or.inl (Or.inr ⟨h, h'⟩)
        · exact Or.inr ⟨h, h, h'⟩
    refine ⟨⟨t.start, t.next - t.start, m⟩, ?_, rfl, rfl, m2, ?_, ?_⟩
    · unfold Tbl.span
      rw [h1]
      dsimp only
      rw [l1]
      dsimp only
      rw [if_neg (fun h => honly h.2), if_pos hns, hS]
      dsimp only
      rw [s1]
      dsimp only
      unfold Span.extend
      dsimp only
      rw [m1]
      dsimp only
      rw [if_pos s2.symm]
    · intro q
      rw [m4, l4, s6]
      exact hk q
    · exact ⟨fun e he => (m3.entry e he).congr (hiff e.1), fun nm v hv => m3.all nm v ((hiff nm v).mpr hv)⟩

/-! ### Frames -/

/-- Tables one after the other. -/
def Contig : Int → List Tbl → Int → Prop
  | p, [], e => p = e
  | p, t :: ts, e => t.start = p ∧ p < t.next ∧ Contig t.next ts e

theorem Contig.le {p e : Int} {ts : List Tbl} (h : Contig p ts e) : p ≤ e ∧ ∀ t ∈ ts, p ≤ t.start := by
  induction ts generalizing p with
  | nil => exact ⟨Int.le_of_eq h, by simp⟩
  | cons t ts ih =>
    obtain ⟨h1, h2, h3⟩ := h
    obtain ⟨a, b⟩ := ih h3
    refine ⟨by omega, ?_⟩
    intro x hx
    rcases List.mem_cons.mp hx with rfl | hx
    · omega
    · have := b x hx; omega

theorem Contig.split {p e : Int} {ts us : List Tbl} (h : Contig p (ts ++ us) e) : ∃ m, Contig p ts m ∧ Contig m us e := by
  induction ts generalizing p with
  | nil => exact ⟨p, rfl, h⟩
  | cons t ts ih =>
    obtain ⟨h1, h2, h3⟩ := h
    obtain ⟨m, a, b⟩ := ih h3
    exact ⟨m, ⟨h1, h2, a⟩, b⟩

theorem contig_layout {env : Env} (pos : Int) (rs : List RawFrame) (h : ∀ r ∈ rs, r.Ok env) :
    ∃ e, Contig pos (layout pos rs) e := by
  induction rs generalizing pos with
  | nil => exact ⟨pos, rfl⟩
  | cons r rs ih =>
    obtain ⟨e, he⟩ := ih (pos + r.bytes.length) (fun r hr => h r (by simp [hr]))
    have := (h r (by simp)).size
    exact ⟨e, rfl, by simp only [RawFrame.tbl]; omega, he⟩

theorem Contig.length {p e : Int} {t : Tbl} {ts : List Tbl} (h : Contig p (t :: ts) e) :
    frameOffset (t :: ts) = p ∧ frameLength (t :: ts) = e - p := by
  have hl : ∀ (ts : List Tbl) (t : Tbl) (p : Int), Contig p (t :: ts) e → ∃ z, (t :: ts).getLast? = some z ∧ z.next = e := by
    intro ts
    induction ts with
    | nil =>
      intro t p h
      exact ⟨t, rfl, h.2.2⟩
    | cons u ts ih =>
      intro t p h
      obtain ⟨z, a, b⟩ := ih u _ h.2.2
      exact ⟨z, by rw [List.getLast?_cons_cons]; exact a, b⟩
  obtain ⟨z, a, b⟩ := hl ts t p h
  obtain ⟨h1, _⟩ := h
  refine ⟨by simp [frameOffset, h1], ?_⟩
  unfold frameLength
  rw [a]
  simp only [List.head?_cons]
  omega

/-- `Frame::span` of a frame just read. -/
def spanOf (env : Env) (bytes : List Byte) (fr : List Tbl) (qs : List Str) (only : Bool) : Except Err Span :=
  frameSpan env (File.known bytes) (fr.map (fun t => (t, Lookup.empty))) qs only

/-- What is expected of the span of a frame holding tables `Us`. -/
def SpanRight (env : Env) (bytes : List Byte) (fr : List Tbl) (Us : List UTable) : Prop :=
  ∀ (K : Str → Sort3) (qs : List Str), (∀ T ∈ Us, 0 < T.rows ∧ SpanReq env K T qs) →
    (∃ s, spanOf env bytes fr qs false = .ok s ∧ s.start = frameOffset fr ∧ s.length = frameLength fr ∧
      (∀ q, q ∉ qs → spanGet q s.vals = none) ∧
      ∀ q ∈ qs, ∃ V, spanGet q s.vals = some V ∧ V.sort = K q ∧ SpanIs env (fun v => ∃ T ∈ Us, Asked T q v) V) ∧
    ((∃ T ∈ Us, ∃ q ∈ qs, ∃ v, Asked T q v ∧ v.Varies env) → spanOf env bytes fr qs true = .error .userError) ∧
    ∀ s, spanOf env bytes fr qs true = .ok s → spanOf env bytes fr qs false = .ok s

theorem span_only {env : Env} {f : File} {t : Tbl} {L : Lookup} {qs : List Str} {s : Span}
    (h : (t.span env f L qs true).2 = .ok s) : (t.span env f L qs false).2 = .ok s := by
  unfold Tbl.span at h ⊢
  cases h1 : spanConsts t.info.cols qs with
  | error e => rw [h1] at h; cases h
  | ok x =>
    obtain ⟨vs, ns⟩ := x
    rw [h1] at h
    dsimp only at h ⊢
    cases h2 : spanAddAll [] vs with
    | error e => rw [h2] at h; cases h
    | ok l =>
      rw [h2] at h
      dsimp only at h ⊢
      by_cases hn : ns = []
      · rw [if_neg (by simp [hn]), if_neg (by simp [hn])] at h ⊢
        exact h
      · rw [if_pos ⟨hn, rfl⟩] at h; cases h

theorem spanTables_only {env : Env} {f : File} {qs : List Str} {s : Span} (ts : List (Tbl × Lookup)) (s0 : Span)
    (h : spanTables env f qs true ts s0 = .ok s) : spanTables env f qs false ts s0 = .ok s := by
  induction ts generalizing s0 with
  | nil => exact h
  | cons e ts ih =>
    obtain ⟨t, L⟩ := e
    unfold spanTables at h ⊢
    cases h1 : (t.span env f L qs true).2 with
    | error e => rw [h1] at h; cases h
    | ok s1 =>
      rw [h1] at h
      rw [span_only h1]
      dsimp only at h ⊢
      cases h2 : s0.extend s1 with
      | error e => rw [h2] at h; cases h
      | ok s2 =>
        rw [h2] at h
        exact ih _ h

theorem spanTables_ok {env : Env} (hlong : env.longEnv = false) {f : File} {K : Str → Sort3} (qs : List Str) (only : Bool)
    {ts : List Tbl} {Us : List UTable} (hm : Match (Holds1 env f) ts Us) (hU : ∀ T ∈ Us, 0 < T.rows ∧ SpanReq env K T qs)
    (p e : Int) (hc : Contig p ts e) (s : Span) (hs : s.start < p) (F : Str → Vals → Prop) (hnd : (s.vals.map Prod.fst).Nodup)
    (hk : ∀ q, q ∈ s.vals.map Prod.fst ↔ q ∈ qs) (hg : Good env K s.vals F) :
    (only = true ∧ spanTables env f qs only (ts.map (fun t => (t, Lookup.empty))) s = .error .userError) ∨
    (¬ (only = true ∧ ∃ T ∈ Us, ∃ q ∈ qs, ∃ v, Asked T q v ∧ v.Varies env) ∧
      ∃ s', spanTables env f qs only (ts.map (fun t => (t, Lookup.empty))) s = .ok s' ∧ s'.start = s.start ∧
        s'.length = s.length + (e - p) ∧ (∀ q, q ∈ s'.vals.map Prod.fst ↔ q ∈ qs) ∧
        Good env K s'.vals (fun q v => F q v ∨ ∃ T ∈ Us, q ∈ qs ∧ Asked T q v)) := by
  induction hm generalizing p s F with
  | nil =>
    right
    have : p = e := hc
    exact ⟨by simp, s, rfl, rfl, by omega, hk, ⟨fun x hx => (hg.entry x hx).congr (by simp),
      fun nm v hv => hg.all nm v (by simpa using hv)⟩⟩
  | @cons t T ts Us h1 _ ih =>
    obtain ⟨c1, c2, c3⟩ := hc
    obtain ⟨hT0, hT1⟩ := hU T (by simp)
    simp only [List.map_cons, spanTables]
    rcases table_span hlong h1 hT0 qs hT1 only with ⟨a, b⟩ | ⟨a, s1, b1, b2, b3, b4⟩
    · left
      rw [b]
      exact ⟨a, rfl⟩
    · rw [b1]
      obtain ⟨m, m1, m2, m3, m4⟩ := spanAddAll_good (env := env) (K := K) s1.vals s.vals F
        (fun q v => q ∈ qs ∧ Asked T q v) hnd hg b4.good.entry
      have hext : s.extend s1 = .ok ⟨s.start, s.length + s1.length, m⟩ := by
        unfold Span.extend
        rw [m1]
        dsimp only
        rw [if_neg (by omega)]
      dsimp only
      rw [hext]
      dsimp only
      have hiff : ∀ q v, (F q v ∨ q ∈ s1.vals.map Prod.fst ∧ q ∈ qs ∧ Asked T q v) ↔ F q v ∨ q ∈ qs ∧ Asked T q v := by
        intro q v
        rw [b4.keys]
        tauto
      rcases ih (fun T hT => hU T (by simp [hT])) t.next c3 ⟨s.start, s.length + s1.length, m⟩ (by dsimp only; omega)
          (fun q v => F q v ∨ q ∈ qs ∧ Asked T q v) m2 (by intro q; rw [m4, hk, b4.keys]; simp)
          ⟨fun x hx => (m3.entry x hx).congr (hiff x.1), fun nm v hv => m3.all nm v ((hiff nm v).mpr hv)⟩ with
        ⟨d1, d2⟩ | ⟨d1, s', d2, d3, d4, d5, d6⟩
      · left; exact ⟨d1, d2⟩
      · right
        have hi2 : ∀ q v, ((F q v ∨ q ∈ qs ∧ Asked T q v) ∨ ∃ T ∈ Us, q ∈ qs ∧ Asked T q v) ↔
            (F q v ∨ ∃ T' ∈ T :: Us, q ∈ qs ∧ Asked T' q v) := by
          intro q v
          simp only [List.mem_cons, exists_eq_or_imp, or_assoc]
        refine ⟨?_, s', d2, d3, ?_, d5, ⟨fun x hx => (d6.entry x hx).congr (hi2 x.1),
          fun nm v hv => d6.all nm v ((hi2 nm v).mpr hv)⟩⟩
        · rintro ⟨h, T', hT', rest⟩
          rcases List.mem_cons.mp hT' with rfl | hT'
          · exact a ⟨h, rest⟩
          · exact d1 ⟨h, T', hT', rest⟩
        · rw [d4]; dsimp only; omega

theorem spanGet_none (nm : Str) (l : List (Str × ColSpan)) (h : nm ∉ l.map Prod.fst) : spanGet nm l = none := by
  induction l with
  | nil => rfl
  | cons e l ih =>
    simp only [List.map_cons, List.mem_cons, not_or] at h
    rw [spanGet, if_neg (fun hc => h.1 hc.symm)]
    exact ih h.2

theorem frame_span {env : Env} (hlong : env.longEnv = false) {bytes : List Byte} (t : Tbl) (ts : List Tbl) {Us : List UTable}
    (hm : Match (Holds1 env (File.known bytes)) (t :: ts) Us) (p e : Int) (hc : Contig p (t :: ts) e) :
    SpanRight env bytes (t :: ts) Us := by
  intro K qs hU
  cases hm with
  | @cons _ T _ Us h1 hm =>
  obtain ⟨f1, f2⟩ := hc.length
  obtain ⟨c1, c2, c3⟩ := hc
  obtain ⟨hT0, hT1⟩ := hU T (by simp)
  have key : ∀ only, (only = true ∧ spanOf env bytes (t :: ts) qs only = .error .userError) ∨
      (¬ (only = true ∧ ∃ T' ∈ T :: Us, ∃ q ∈ qs, ∃ v, Asked T' q v ∧ v.Varies env) ∧
      ∃ s, spanOf env bytes (t :: ts) qs only = .ok s ∧ s.start = p ∧ s.length = e - p ∧
        (∀ q, q ∈ s.vals.map Prod.fst ↔ q ∈ qs) ∧
        Good env K s.vals (fun q v => (q ∈ qs ∧ Asked T q v) ∨ ∃ T ∈ Us, q ∈ qs ∧ Asked T q v)) := by
    intro only
    unfold spanOf frameSpan
    rw [List.map_cons]
    dsimp only
    rcases table_span hlong h1 hT0 qs hT1 only with ⟨a, b⟩ | ⟨a, s1, b1, b2, b3, b4⟩
    · rw [b]; exact Or.inl ⟨a, rfl⟩
    · rw [b1]
      dsimp only
      rcases spanTables_ok (K := K) hlong qs only hm (fun T hT => hU T (by simp [hT])) t.next e c3 s1 (by omega) _ b4.nodup b4.keys
        b4.good with ⟨d1, d2⟩ | ⟨d1, s', d2, d3, d4, d5, d6⟩
      · exact Or.inl ⟨d1, d2⟩
      · right
        refine ⟨?_, s', d2, by omega, by omega, d5, d6⟩
        rintro ⟨h, T', hT', rest⟩
        rcases List.mem_cons.mp hT' with rfl | hT'
        · exact a ⟨h, rest⟩
        · exact d1 ⟨h, T', hT', rest⟩
  refine ⟨?_, ?_, ?_⟩
  · rcases key false with ⟨h, _⟩ | ⟨_, s, k1, k2, k3, k4, k5⟩
    · cases h
    · refine ⟨s, k1, by rw [k2, f1], by rw [k3, f2], ?_, ?_⟩
      · intro q hq
        exact spanGet_none q _ (fun h => hq ((k4 q).mp h))
      · intro q hq
        obtain ⟨p', c', a1, a2, a3, a4⟩ := hT1.known q hq
        obtain ⟨V, v1, v2⟩ := spanGet_of k5 q c'.vals (Or.inl ⟨hq, p', c', a1, a2, rfl⟩)
        refine ⟨V, v1, v2.sort, ?_⟩
        refine (v2.congr (Q := fun v => ∃ T' ∈ T :: Us, Asked T' q v) ?_).is
        intro v
        simp only [List.mem_cons, exists_eq_or_imp, hq, true_and]
  · intro h
    rcases key true with ⟨_, h'⟩ | ⟨h', _⟩
    · exact h'
    · exact absurd ⟨rfl, h⟩ h'
  · intro s h
    unfold spanOf frameSpan at h ⊢
    rw [List.map_cons] at h ⊢
    dsimp only at h ⊢
    cases hh : (t.span env (File.known bytes) Lookup.empty qs true).2 with
    | error e => rw [hh] at h; cases h
    | ok s1 =>
      rw [hh] at h
      rw [span_only hh]
      exact spanTables_only _ _ h

/-- **C17**: take a file of tables, read it as it is or aggregated, and ask a frame for its span over columns of those
tables, each known by its full name or, if no other column has it, by its simple name.  The span's offset and length are
the frame's, and for each column it gives exactly the values found in the rows of the frame's tables, including the
missing value if a row has it.  Asked only for constants it either says the same or fails, and it fails if one of the
tables has two different values in one of the columns. -/
theorem C17_span (env : Env) (hlong : env.longEnv = false) (hmd5 : env.Md5Ok) (Ts : List UTable)
    (hT : ∀ T ∈ Ts, T.Ok env) (bss : List (List Byte)) (hw : writeTables env Ts = .ok bss)
    (hsz : ∀ b ∈ bss, b.length ≤ 2147483647) (hbig : (Ts.map UTable.rows).sum < 9223372036854775808)
    (gs : List (List Tbl)) (hg : FramesOf env bss.flatten gs) :
    ∃ Uss : List (List UTable), Uss.flatten = Ts ∧ Match (SpanRight env bss.flatten) gs Uss := by
  obtain ⟨bss', h1, h2, h3⟩ := file_scan env hmd5 Ts hT
  rw [hw] at h1
  cases h1
  clear h2
  obtain ⟨rs, _, hok, hs, hl, hm⟩ := h3 hsz
  have hp : readPlain env bss.flatten = ((layout 0 rs).map (fun t => [t]), none) := by
    apply readFrames_plain hs _ _ _ hl
    · intro t ht
      obtain ⟨T, _, h⟩ := hm.mem_left t ht
      exact h.copy
    · intro t _; left; decide
  have hrows : rowSum (layout 0 rs) = (Ts.map UTable.rows).sum := by
    clear hs hl hp hok h3 hbig hT hw
    generalize layout 0 rs = ls at hm
    induction hm with
    | nil => rfl
    | cons a _ ih => rw [rowSum_cons, ih, a.shows.nrows]; simp
  obtain ⟨g1, g2⟩ := framesOf_tables hp (by rw [flatten_singles, hrows]; exact hbig) hg
  rw [flatten_singles] at g1
  obtain ⟨e, hc⟩ := contig_layout 0 rs hok
  rw [← g1] at hm hc
  obtain ⟨Uss, u1, u2⟩ := Match.flatten gs hm
  refine ⟨Uss, u1, ?_⟩
  clear hg g1 hm u1
  generalize (0 : Int) = p at hc
  induction u2 generalizing p with
  | nil => exact .nil
  | @cons g U gs Us a _ ih =>
    rw [List.flatten_cons] at hc
    obtain ⟨m, b1, b2⟩ := hc.split
    refine .cons ?_ (ih (fun g hg => g2 g (by simp [hg])) m b2)
    cases g with
    | nil => exact absurd rfl (g2 [] (by simp))
    | cons t ts => exact frame_span hlong t ts a p m b1

/-! ### Examples and violations -/

/-- Span of the first frame of the sample file. -/
def sampleSpan (limit : Int) (qs : List Str) (only : Bool) (p : Except Err Span → Bool) : Bool :=
  onSample (fun b =>
    match (readAggregated sampleEnv b limit).1 with
    | fr :: _ => p (spanOf sampleEnv b fr qs only)
    | [] => false)

example : sampleSpan 3 [lit "i", lit "s@t"] false (fun r =>
    match r with
    | .ok s => decide (spanGet (lit "i") s.vals = some (.ints [5, 2147483647, -7]) ∧
        spanGet (lit "s@t") s.vals = some (.strs [lit "x", lit "longer string", []]))
    | .error _ => false) = true := by decide +kernel

example : sampleSpan 3 [lit "i"] true (fun r => decide (r = .error .userError)) = true := by decide +kernel

/-- The sample table meets the requirements on requests. -/
example : SpanReq sampleEnv (fun q => if q = lit "i" then .int else .str) sampleTable [lit "i", lit "s@t"] := by
  have h0 : Asks (sampleTable.cols.map InCol.name) (lit "i") 0 :=
    ⟨⟨lit "i@t", by decide +kernel, Or.inr ⟨by decide +kernel, lit "t", by decide +kernel⟩⟩, by
      intro p' n' h hm
      match p' with
      | 0 => rfl
      | 1 | 2 | 3 | 4 =>
        simp [sampleTable] at h
        subst h
        rw [← columnNameMatches_iff] at hm
        exact absurd hm (by decide +kernel)
      | n + 5 => simp [sampleTable] at h⟩
  have h3 : Asks (sampleTable.cols.map InCol.name) (lit "s@t") 3 :=
    ⟨⟨lit "s@t", by decide +kernel, Or.inl rfl⟩, by
      intro p' n' h hm
      match p' with
      | 3 => rfl
      | 0 | 1 | 2 | 4 =>
        simp [sampleTable] at h
        subst h
        rw [← columnNameMatches_iff] at hm
        exact absurd hm (by decide +kernel)
      | n + 5 => simp [sampleTable] at h⟩
  constructor
  · intro q hq
    simp only [List.mem_cons, List.not_mem_nil, or_false] at hq
    rcases hq with rfl | rfl
    · exact ⟨0, _, h0, rfl, by exact ball (P := InI32) (by decide +kernel), by decide +kernel⟩
    · exact ⟨3, _, h3, rfl, sampleTable_vals _ (by simp [sampleTable]), by decide +kernel⟩
  · intro q hq q' hq' p a b
    simp only [List.mem_cons, List.not_mem_nil, or_false] at hq hq'
    rcases hq with rfl | rfl <;> rcases hq' with rfl | rfl
    · rfl
    · have := a.unique h0; have := b.unique h3; omega
    · have := a.unique h3; have := b.unique h0; omega
    · rfl

/-- Span of the one frame of a table. -/
def spanOne (env : Env) (T : UTable) (qs : List Str) (only : Bool) (p : Except Err Span → Bool) : Bool :=
  match writeTables env [T] with
  | .ok bss =>
    match (readPlain env bss.flatten).1 with
    | fr :: _ => p (spanOf env bss.flatten fr qs only)
    | [] => false
  | .error _ => false

/-- A table without rows whose column has a "value", the missing one. -/
theorem C17_violated_empty : spanOne sampleEnv { rows := 0, props := [], cols := [⟨lit "a", .ints []⟩] } [lit "a"] false (fun r =>
    match r with
    | .ok s => decide (spanGet (lit "a") s.vals = some (.ints [2147483647]))
    | .error _ => false) = true := by decide +kernel

/-- A constant string of more than 8 bytes loses its tail if long constant strings are enabled. -/
theorem C17_violated_long : spanOne { sampleEnv with longEnv := true } { rows := 1, props := [], cols := [⟨lit "a", .strings 2 [lit "longer string"]⟩] }
    [lit "a"] false (fun r =>
    match r with
    | .ok s => decide (spanGet (lit "a") s.vals = some (.strs [lit "longer s"]))
    | .error _ => false) = true := by decide +kernel

/-- A varying column asked for by two names is given under one of them only. -/
theorem C17_violated_twice : spanOne sampleEnv { rows := 2, props := [], cols := [⟨lit "a@t", .ints [1, 2]⟩] } [lit "a@t", lit "a"] false (fun r =>
    match r with
    | .ok s => decide (spanGet (lit "a@t") s.vals = none ∧ spanGet (lit "a") s.vals = some (.ints [1, 2]))
    | .error _ => false) = true := by decide +kernel

/-- A column of missing values only is not taken for a constant. -/
theorem C17_violated_missing : spanOne sampleEnv { rows := 2, props := [], cols := [⟨lit "a@t", .ints [2147483647, 2147483647]⟩] } [lit "a@t"] true (fun r =>
    decide (r = .error .userError)) = true := by decide +kernel

end Verif
