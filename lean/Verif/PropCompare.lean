import Verif.Compare

/-
C34: what comparison of files establishes, and where it does not.
-/

namespace Verif

/-- **C34 (numbers)**: for finite numbers the comparison of values is a comparison with a tolerance: numbers compare the
same if they differ by at most 1/1000000001 of the scale (`scale`: the larger magnitude, or one if a number is tiny)
and differ by less than 1/999999999 of it if they compare the same. -/
theorem C34_tolerance (A B : Word) (hA : isFin A = true) (hB : isFin B = true) :
    ((fval A - fval B).natAbs * 1000000001 ≤ scale A B → same A B = true) ∧
    (same A B = true → (fval A - fval B).natAbs * 999999999 < scale A B) :=
  ⟨close_same hA hB, same_close hA hB⟩

example : isFin (ofInt 7) = true ∧ isFin 0x3ff8000000000000 = true := by decide +kernel

/-- **C34 (integers)**: whole numbers below 10^9 in magnitude compare the same exactly if they are equal. -/
theorem C34_integers (i j : Int) (hi : -999999999 ≤ i ∧ i ≤ 999999999) (hj : -999999999 ≤ j ∧ j ≤ 999999999) :
    same (ofInt i) (ofInt j) = true ↔ i = j := same_ints hi hj

/-! ### A file and itself -/

theorem all_head {env : Env} {junk : Junk} {fuel : Nat} {it : RowIt} {v : RowView} {vs : List RowView} {e : Option Err}
    (h : it.all env junk fuel = (v :: vs, e)) : it.cols = v.cols := by
  cases fuel with
  | zero => simp [RowIt.all] at h
  | succ fuel =>
    unfold RowIt.all at h
    split at h
    · simp at h
    · split at h
      · simp only [Prod.mk.injEq, List.cons.injEq] at h
        rw [← h.1.1]
      · split at h
        simp only [Prod.mk.injEq, List.cons.injEq] at h
        rw [← h.1.1]

theorem firstCols_head {env : Env} {junk : Junk} {bytes : List Byte} {fuel : Nat} {v : RowView} {vs : List RowView} {e : Option Err}
    (h : readRows env junk bytes fuel = (v :: vs, e)) : firstCols env junk bytes = .ok v.cols := by
  unfold readRows at h
  unfold firstCols
  cases hb : RowIt.begin env junk bytes with
  | error e => rw [hb] at h; simp at h
  | ok it =>
    rw [hb] at h
    simp only [all_head h]

theorem firstCols_nil {env : Env} {junk : Junk} : firstCols env junk [] = .ok [] := by
  unfold firstCols RowIt.begin
  rw [load_end env junk _ _ rfl rfl rfl]
  rfl

theorem Match.self {α : Type} {R : α → α → Prop} {l : List α} (h : ∀ x ∈ l, R x x) : Match R l l := by
  induction l with
  | nil => exact .nil
  | cons x l ih => exact .cons (h x (by simp)) (ih (fun y hy => h y (by simp [hy])))

theorem ColAgree.refl (o : CmpOpts) (c : Col) : ColAgree o c c :=
  ⟨rfl, fun _ => ⟨fun _ => ⟨rfl, fun _ => ⟨rfl, rfl⟩⟩, fun _ => rfl⟩⟩

/-- A cell the comparator finds the same as itself: of a known type, and a finite number, a string or missing. -/
def SelfCell (o : CmpOpts) (c : Col) (x : Cell) : Prop :=
  MissingDefined o c ∧
  (ShownMissing o c x ∨ c.ty = 3 ∨ ((c.ty = 1 ∨ c.ty = 4 ∨ c.ty = 5) ∧ isFin (cellWord x) = true) ∨
    (c.ty = 2 ∧ isFin (widen (narrow (cellWord x))) = true) ∨
    ((c.ty = 1 ∨ c.ty = 2 ∨ c.ty = 4 ∨ c.ty = 5) ∧ o.nanOk = true ∧ isNaN (cellWord x) = true))

theorem SelfCell.agree {o : CmpOpts} {c : Col} {x : Cell} (h : SelfCell o c x) : CellAgree o c c x x := by
  refine ⟨h.1, h.1, ?_⟩
  by_cases hm : ShownMissing o c x
  · exact .inl ⟨hm, hm⟩
  · refine .inr ⟨hm, hm, ?_⟩
    rcases h.2 with h | h | ⟨h, f⟩ | ⟨h, f⟩ | ⟨h, n, f⟩
    · exact absurd h hm
    · exact .inl ⟨h, rfl⟩
    · exact .inr (.inl ⟨h, .inl (same_self f)⟩)
    · exact .inr (.inr ⟨h, .inl (same_self f)⟩)
    · rcases h with h | h | h | h
      · exact .inr (.inl ⟨.inl h, .inr ⟨n, f, f⟩⟩)
      · exact .inr (.inr ⟨h, .inr ⟨n, f, f⟩⟩)
      · exact .inr (.inl ⟨.inr (.inl h), .inr ⟨n, f, f⟩⟩)
      · exact .inr (.inl ⟨.inr (.inr h), .inr ⟨n, f, f⟩⟩)

/-- A file that reads the same each time, and whose cells compare the same as themselves, compares equal with itself. -/
theorem compare_self (env : Env) (j1 j2 : Junk) (o : CmpOpts) (bytes : List Byte) (fuel : Nat) (vs : List RowView)
    (h1 : readRows env j1 bytes fuel = (vs, none)) (h2 : readRows env j2 bytes fuel = (vs, none)) (hne : vs = [] → bytes = [])
    (hv : ∀ v ∈ vs, ∀ (p : Nat) (c : Col), v.cols[p]? = some c → ∃ x, v.cells[p]? = some x ∧ SelfCell o c x) :
    compareFiles env j1 j2 o bytes bytes fuel = .ok true := by
  rw [C34_compare]
  constructor
  · cases vs with
    | nil =>
      rw [hne rfl]
      exact ⟨[], [], firstCols_nil, firstCols_nil, .nil⟩
    | cons v vs =>
      exact ⟨_, _, firstCols_head h1, firstCols_head h2, Match.self (fun c _ => ColAgree.refl o c)⟩
  · refine ⟨vs, vs, h1, h2, Match.self ?_⟩
    intro v hmem
    refine ⟨Match.self (fun c _ => ColAgree.refl o c), ?_⟩
    intro j c1 c2 e1 e2 _
    rw [e1] at e2
    simp only [Option.some.injEq] at e2
    subst e2
    obtain ⟨x, hx, hs⟩ := hv v hmem j c1 e1
    exact ⟨x, x, hx, hx, hs.agree⟩

/-! ### Files written by `encode` -/

/-- Values the comparator can tell to be the same as themselves: finite numbers (REAL: as single precision); integers
if held as doubles or not negative. -/
def Vals.Finite (env : Env) : Vals → Prop
  | .ints vs => env.asDbl = true ∨ ∀ i ∈ vs, 0 ≤ i
  | .bits _ vs => env.asDbl = true ∨ ∀ i ∈ vs, 0 ≤ i
  | .reals vs => ∀ x ∈ vs, isFin (widen (narrow x)) = true
  | .doubles vs => ∀ x ∈ vs, isFin x = true
  | .strings _ _ => True

theorem intWord_fin {env : Env} {i : Int} (hi : InI32 i) (h : env.asDbl = true ∨ 0 ≤ i) : isFin (intWord env.asDbl i) = true := by
  unfold intWord
  cases ha : env.asDbl with
  | true => exact ofInt_fin i hi.small
  | false =>
    have h0 : 0 ≤ i := by
      rcases h with h | h
      · rw [ha] at h; simp at h
      · exact h
    obtain ⟨n, rfl⟩ := Int.eq_ofNat_of_zero_le h0
    have hn : n < 2147483648 := by have := hi.2; omega
    have ht : (BitVec.ofInt 64 (n : Int)).toNat = n := by
      rw [BitVec.ofInt_natCast, BitVec.toNat_ofNat]; omega
    have hi : inf64 = 0x7ff0000000000000 := by decide
    simp only [Bool.false_eq_true, if_false, isFin, fmag, decide_eq_true_eq]
    rw [show ((n : Int)) = (n : Int) from rfl] at ht
    show (BitVec.ofInt 64 (n : Int)).toNat % _ < _
    rw [ht]
    omega

/-- Single precision numbers stay what they are. -/
theorem narrow_widen (f : BitVec 32) (h : gisFin f = true) (hn : gisNaN f = false) : narrow (widen f) = f := by
  obtain ⟨w1, w2, w3⟩ := fval_widen f h hn
  have hf : isFin (widen f) = true := by simpa [isFin] using w1
  have hg : gmag f < inf32 := by simpa [gisFin] using h
  unfold narrow
  rw [if_neg (by simp [isFin_not_nan hf]), if_pos hf, w2, w3, rnd_dec', Nat.min_eq_left (by omega)]
  apply BitVec.eq_of_toNat_eq
  unfold gmag at hg ⊢
  unfold gneg mk32
  have := f.isLt
  have hinf : inf32 = 0x7f800000 := by decide
  rw [BitVec.toNat_ofNat]
  by_cases hs : 2 ^ 31 ≤ f.toNat
  · simp only [hs, decide_true, if_true]; omega
  · simp only [hs, decide_false, Bool.false_eq_true, if_false]; omega

theorem widen_fin {f : BitVec 32} (h : isFin (widen f) = true) : gisFin f = true ∧ gisNaN f = false := by
  have hb : ∀ (s : Bool) (m : Nat), m < 2 ^ 63 → inf64 ≤ m → isFin (mk64 s m) = false := by
    intro s m h1 h2
    simp only [isFin, fmag_mk64 s m h1, decide_eq_false_iff_not]; omega
  have h0 := h
  unfold widen at h
  by_cases hn : gisNaN f = true
  · rw [if_pos hn] at h
    have hlt : 0x7ff8000000000000 ||| (gmag f % 2 ^ 23) * 2 ^ 29 < 2 ^ 63 := by
      apply Nat.or_lt_two_pow (by decide)
      have : gmag f % 2 ^ 23 < 2 ^ 23 := Nat.mod_lt _ (by decide)
      have : (gmag f % 2 ^ 23) * 2 ^ 29 < 2 ^ 23 * 2 ^ 29 := Nat.mul_lt_mul_of_pos_right this (by decide)
      omega
    have hge : inf64 ≤ 0x7ff8000000000000 ||| (gmag f % 2 ^ 23) * 2 ^ 29 := by
      have := @Nat.left_le_or 0x7ff8000000000000 ((gmag f % 2 ^ 23) * 2 ^ 29)
      have hi : inf64 = 0x7ff0000000000000 := by decide
      omega
    rw [hb _ _ hlt hge] at h
    simp at h
  · rw [if_neg hn] at h
    by_cases hf : gisFin f = true
    · exact ⟨hf, by simpa using hn⟩
    · rw [if_neg hf, hb _ _ (by decide) (by decide)] at h
      simp at h

theorem Vals.Finite.self {env : Env} {v : Vals} (hv : v.Ok env) (hf : v.Finite env) {r : Nat} {y : Cell} (hg : v.Gives env r y)
    {o : CmpOpts} {k : Col} (hty : k.ty = v.ty.toInt) (hm : ∃ m, k.codec.missingWord = .ok m) : SelfCell o k y := by
  refine ⟨fun _ => hm, ?_⟩
  cases v with
  | ints vs =>
    obtain ⟨i, h1, rfl⟩ := hg
    have hmem := List.mem_of_getElem? h1
    refine .inr (.inr (.inl ⟨.inl (by rw [hty]; rfl), intWord_fin (hv i hmem) ?_⟩))
    exact hf.imp id (fun h => h i hmem)
  | bits ms vs =>
    obtain ⟨i, h1, rfl⟩ := hg
    have hmem := List.mem_of_getElem? h1
    refine .inr (.inr (.inl ⟨.inr (.inl (by rw [hty]; rfl)), intWord_fin (hv.1 i hmem) ?_⟩))
    exact hf.imp id (fun h => h i hmem)
  | doubles vs =>
    obtain ⟨x, h1, rfl⟩ := hg
    exact .inr (.inr (.inl ⟨.inr (.inr (by rw [hty]; rfl)), hf x (List.mem_of_getElem? h1)⟩))
  | strings w vs => exact .inr (.inl (by rw [hty]; rfl))
  | reals vs =>
    obtain ⟨x, x', h1, rfl, h2⟩ := hg
    have hx := hf x (List.mem_of_getElem? h1)
    refine .inr (.inr (.inr (.inl ⟨by rw [hty]; rfl, ?_⟩)))
    show isFin (widen (narrow x')) = true
    unfold RealOut at h2
    split at h2
    · rw [h2]; decide +kernel
    · rcases h2 with h2 | h2
      · obtain ⟨g1, g2⟩ := widen_fin hx
        rw [h2, narrow_widen _ g1 g2]; exact hx
      · rw [h2.1]; exact hx

theorem RowsOfAll.get {env : Env} {Ts : List UTable} {vs : List RowView} (h : RowsOfAll env Ts vs) :
    ∀ v ∈ vs, ∃ T ∈ Ts, ∃ r, RowOf env T r v := by
  induction Ts generalizing vs with
  | nil => intro v hv; rw [show vs = [] from h] at hv; simp at hv
  | cons T Ts ih =>
    obtain ⟨h1, h2, h3⟩ := h
    intro v hv
    rw [← List.take_append_drop T.rows vs, List.mem_append] at hv
    rcases hv with hv | hv
    · obtain ⟨r, hr⟩ := List.mem_iff_getElem?.mp hv
      rw [List.getElem?_take] at hr
      split at hr
      · rename_i hlt
        exact ⟨T, by simp, r, h1 r v hlt hr⟩
      · simp at hr
    · obtain ⟨U, hU, r, hr⟩ := ih h3 v hv
      exact ⟨U, by simp [hU], r, hr⟩

/-- **C34 (reflexivity)**: a file written by `encode` from tables of finite numbers and strings compares equal with
itself, whatever the options. -/
theorem C34_self (env : Env) (hmd5 : env.Md5Ok) (Ts : List UTable) (hT : ∀ T ∈ Ts, T.Ok env)
    (hv : ∀ T ∈ Ts, ∀ c ∈ T.cols, c.vals.Ok env) (hpos : ∀ T ∈ Ts, 0 < T.rows)
    (hfin : ∀ T ∈ Ts, ∀ c ∈ T.cols, c.vals.Finite env) (o : CmpOpts) :
    ∃ bss, writeTables env Ts = .ok bss ∧ ((∀ b ∈ bss, b.length ≤ 2147483647) →
      ∀ (j1 j2 : Junk) (fuel : Nat), (Ts.map UTable.rows).sum + 1 < fuel →
        compareFiles env j1 j2 o bss.flatten bss.flatten fuel = .ok true) := by
  obtain ⟨bss, hw, hread⟩ := C43_encode_rows env hmd5 Ts hT hv hpos
  refine ⟨bss, hw, ?_⟩
  intro hs j1 j2 fuel hf
  obtain ⟨vs, hvs⟩ := hread hs fuel hf
  obtain ⟨h1, h2, h3⟩ := hvs
  refine compare_self env j1 j2 o _ fuel vs (h1 j1) (h1 j2) ?_ ?_
  · rintro rfl
    have hsum : (Ts.map UTable.rows).sum = 0 := by simpa using h2.symm
    cases Ts with
    | nil => simp only [writeTables, Except.ok.injEq] at hw; subst hw; rfl
    | cons T Ts =>
      have := hpos T (by simp)
      simp only [List.map_cons, List.sum_cons] at hsum
      omega
  · intro v hmem p k hk
    obtain ⟨T, hTm, r, hr⟩ := h3.get v hmem
    have hlt := (List.getElem?_eq_some_iff.mp hk).1
    have hlc : p < T.cols.length := by rw [← hr.ncols]; exact hlt
    obtain ⟨k', y, e1, _, e3, e4, e5⟩ := hr.col p T.cols[p] (List.getElem?_eq_getElem hlc)
    rw [hk] at e1
    simp only [Option.some.injEq] at e1
    subst e1
    have hc : T.cols[p] ∈ T.cols := List.getElem_mem _
    exact ⟨y, e4, (hfin T hTm _ hc).self (hv T hTm _ hc) e5 e3 (hr.miss k (List.mem_of_getElem? hk))⟩

/-- The hypotheses are met: integers, a REAL column, strings and a bitfield, in two tables. -/
def finiteTable : UTable :=
  { rows := 3
    props := [(lit "a", lit "b")]
    cols := [
      ⟨lit "i@t", .ints [5, 2147483647, 7]⟩,
      ⟨lit "r@t", .reals [0x3ff8000000000000, ofInt (-2147483647), 0x3fb999999999999a]⟩,
      ⟨lit "s@t", .strings 2 [lit "x", lit "longer string", []]⟩,
      ⟨lit "b@t", .bits [(lit "lo", 2), (lit "hi", 3)] [31, 0, 1]⟩ ] }

/-- Writing two tables, each to a file of its own, and comparing the files, by evaluation. -/
def tryCompare (env : Env) (o : CmpOpts) (T U : UTable) : Except Err Bool :=
  match T.encode env .same, U.encode env .same with
  | .ok a, .ok b => compareFiles env (fun _ _ _ => 0) (fun _ _ _ => 0) o a b (T.rows + U.rows + 2)
  | _, _ => .error .ub

/-- Sample: the comparison found no difference. -/
def saysSame (x : Except Err Bool) : Bool := match x with | .ok b => b | .error _ => false

/-- Sample: the comparison found a difference. -/
def saysDiffer (x : Except Err Bool) : Bool := match x with | .ok b => !b | .error _ => false

/-- Sample: the comparison ended with a failed assertion. -/
def refuses (x : Except Err Bool) : Bool := match x with | .ok _ => false | .error e => decide (e = .assertFailed)

/-- Values held as doubles, as by default. -/
def dblEnv : Env := ⟨true, false, sampleEnv.md5, lit "1.0"⟩

theorem finiteTable_vals : ∀ c ∈ finiteTable.cols, c.vals.Ok dblEnv := by
  intro c hc
  simp only [finiteTable, List.mem_cons, List.not_mem_nil, or_false] at hc
  rcases hc with rfl | rfl | rfl | rfl
  · exact ball (P := InI32) (by decide +kernel)
  · exact sampleReals_ok
  · refine ⟨by decide, by decide, ?_, ?_, ?_, ?_⟩
    · intro s hs
      simp only [List.mem_cons, List.not_mem_nil, or_false] at hs
      rcases hs with rfl | rfl | rfl <;> exact ⟨by decide +kernel, nulFree_of (by decide +kernel)⟩
    · intro ds h1 h2
      exact few_distinct _ _ h1 h2 (by decide)
    · intro h; cases h
    · exact ball (by decide +kernel)
  · refine ⟨ball (P := InI32) (by decide +kernel), by decide +kernel, ?_⟩
    intro b hb
    simp only [List.mem_cons, List.not_mem_nil, or_false] at hb
    rcases hb with rfl | rfl <;> exact ⟨by decide +kernel, by decide +kernel⟩

theorem finiteTable_ok : finiteTable.Ok dblEnv where
  ne := by decide +kernel
  few := by decide +kernel
  names := by decide +kernel
  col := by
    intro c hc
    refine ⟨?_, (finiteTable_vals c hc).codable, ?_⟩ <;>
    · simp only [finiteTable, List.mem_cons, List.not_mem_nil, or_false] at hc
      rcases hc with rfl | rfl | rfl | rfl <;> decide +kernel
  props := List.pairwise_singleton _ _
  nprops := by decide +kernel
  plen := by
    intro kv hkv
    simp only [finiteTable, List.mem_singleton] at hkv
    subst hkv
    exact ⟨by decide +kernel, by decide +kernel⟩
  version := by decide +kernel
  rows := by decide +kernel

theorem finiteTable_fin : ∀ c ∈ finiteTable.cols, c.vals.Finite dblEnv := by
  intro c hc
  simp only [finiteTable, List.mem_cons, List.not_mem_nil, or_false] at hc
  rcases hc with rfl | rfl | rfl | rfl
  · exact .inl rfl
  · exact ball (P := fun x => isFin (widen (narrow x)) = true) (by decide +kernel)
  · exact trivial
  · exact .inl rfl

example (o : CmpOpts) : ∃ bss, writeTables dblEnv [finiteTable, finiteTable] = .ok bss ∧ ((∀ b ∈ bss, b.length ≤ 2147483647) →
    ∀ (j1 j2 : Junk) (fuel : Nat), 3 + (3 + 0) + 1 < fuel →
      compareFiles dblEnv j1 j2 o bss.flatten bss.flatten fuel = .ok true) :=
  C34_self dblEnv sampleEnv_md5 _ (by intro T h; simp at h; subst h; exact finiteTable_ok)
    (by intro T h; simp at h; subst h; exact finiteTable_vals) (by intro T h; simp at h; subst h; decide)
    (by intro T h; simp at h; subst h; exact finiteTable_fin) o

example : saysSame (tryCompare dblEnv .strict finiteTable finiteTable) = true := by decide +kernel
-- a changed value, a changed name, a missing row are found
example : saysDiffer (tryCompare dblEnv .strict (oneCol 2 (.ints [1, 2])) (oneCol 2 (.ints [1, 3]))) = true := by decide +kernel
example : saysDiffer (tryCompare dblEnv .strict (oneCol 2 (.strings 1 [lit "a", lit "b"])) (oneCol 2 (.strings 1 [lit "a", lit "c"]))) = true := by
  decide +kernel
example : refuses (tryCompare dblEnv .strict (oneCol 2 (.ints [1, 2])) (oneCol 3 (.ints [1, 2, 2]))) = true := by decide +kernel
example : refuses (tryCompare dblEnv .strict ⟨[⟨lit "c", .ints [1]⟩], 1, []⟩ ⟨[⟨lit "d", .ints [1]⟩], 1, []⟩) = true := by decide +kernel

/-- **C34 fails for large integers**: files whose only value is 2147483645 in one and 2147483646 in the other compare
equal. -/
theorem C34_violated_large :
    saysSame (tryCompare dblEnv .strict (oneCol 1 (.ints [2147483645])) (oneCol 1 (.ints [2147483646]))) = true := by decide +kernel

/-- **C34 fails for infinities**: a file with an infinite value differs from itself. -/
theorem C34_violated_inf :
    saysDiffer (tryCompare dblEnv .strict (oneCol 1 (.doubles [0x7ff0000000000000])) (oneCol 1 (.doubles [0x7ff0000000000000]))) = true := by
  decide +kernel

/-- **C34 fails for integers not held as doubles** (`treatIntegersAsDoubles(false)`): different numbers compare equal, a
file with a negative number differs from itself. -/
theorem C34_violated_i64 :
    saysSame (tryCompare sampleEnv .strict (oneCol 1 (.ints [1])) (oneCol 1 (.ints [1000]))) = true ∧
    saysDiffer (tryCompare sampleEnv .strict (oneCol 1 (.ints [-1])) (oneCol 1 (.ints [-1]))) = true := by decide +kernel

end Verif
