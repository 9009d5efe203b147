import Verif.DispatchRows

/-
The names of the files of the dispatcher.
-/

namespace Verif

/-! ### Specification -/

/-- A piece `text{query}` of a template; `col` is the column meant. -/
structure Part where
  text : Str
  query : Str
  col : InCol

/-- The template `text₁{query₁}text₂{query₂}…tail`. -/
def tmplOf (ps : List Part) (tail : Str) : Str := ps.flatMap (fun p => p.text ++ chOpen :: (p.query ++ [chClose])) ++ tail

/-- What stands for row `i` of a column in the name of a file: the decimal number or the string. -/
def Vals.label (i : Nat) : Vals → Str
  | .ints vs => decimal (vs.getD i 0)
  | .bits _ vs => decimal (vs.getD i 0)
  | .reals vs => decimal ((ftrunc (vs.getD i 0)).getD 0)
  | .doubles vs => decimal ((ftrunc (vs.getD i 0)).getD 0)
  | .strings _ vs => vs.getD i []

/-- The name of the file for row `i`: the template with every `{query}` replaced by the value of the column. -/
def nameOf (ps : List Part) (tail : Str) (i : Nat) : Str := ps.flatMap (fun p => p.text ++ p.col.vals.label i) ++ tail

/-- Printable, no slash, no space at either end. -/
structure GoodText (s : Str) : Prop where
  print : ∀ b ∈ s, 32 ≤ b.toNat ∧ b.toNat ≤ 126
  slash : chSlash ∉ s
  front : s.head? ≠ some chSpace
  back : s.getLast? ≠ some chSpace

/-- Columns whose values can appear in names: whole numbers that fit in an `int`, or short printable strings. -/
def Vals.Labels (env : Env) : Vals → Prop
  | .ints _ => env.asDbl = true
  | .bits _ _ => env.asDbl = true
  | .reals vs => ∀ v ∈ vs, ∃ i, InI32 i ∧ v = ofInt i
  | .doubles vs => ∀ v ∈ vs, ∃ i, InI32 i ∧ v = ofInt i
  | .strings w vs => w = 1 ∧ ∀ s ∈ vs, GoodText s

/-- A piece that names one column of the table, with usable values, before any column of more than 8 bytes. -/
structure Part.Ok (env : Env) (T : UTable) (p : Part) : Prop where
  text : chOpen ∉ p.text
  query : chClose ∉ p.query
  labels : p.col.vals.Labels env
  col : ∃ k : Nat, T.cols[k]? = some p.col ∧ Means p.query p.col.name ∧
    (∀ (k' : Nat) (c' : InCol), T.cols[k']? = some c' → Means p.query c'.name → k' = k) ∧
    ∀ (k' : Nat) (c' : InCol), k' < k → T.cols[k']? = some c' → c'.vals.words = 1

/-- What follows a value in the template cannot be taken for a part of it. -/
def Separated (n : Nat) : List Part → Prop
  | p :: q :: ps => (∃ b r, q.text = b :: r ∧ ∀ i < n, b ∉ p.col.vals.label i) ∧ Separated n (q :: ps)
  | _ => True

/-! ### Parsing -/

theorem findFrom_skip (c : Byte) (pre rest : Str) (start : Nat) (hs : start ≤ pre.length) (h : c ∉ pre.drop start) :
    findFrom c (pre ++ c :: rest) start = some pre.length := by
  unfold findFrom
  rw [List.drop_append_of_le_length hs]
  have : (pre.drop start ++ c :: rest).findIdx? (fun b => decide (b = c)) = some (pre.length - start) := by
    rw [List.findIdx?_append]
    have h1 : (pre.drop start).findIdx? (fun b => decide (b = c)) = none := by
      rw [List.findIdx?_eq_none_iff]
      intro x hx
      simp only [decide_eq_false_iff_not]
      rintro rfl
      exact h hx
    rw [h1]
    simp [List.findIdx?_cons]
  rw [this]
  simp only [Option.some.injEq]
  omega

theorem findFrom_none (c : Byte) (t : Str) (start : Nat) (h : c ∉ t.drop start) : findFrom c t start = none := by
  unfold findFrom
  have h1 : (t.drop start).findIdx? (fun b => decide (b = c)) = none := by
    rw [List.findIdx?_eq_none_iff]
    intro x hx
    simp only [decide_eq_false_iff_not]
    rintro rfl
    exact h hx
  rw [h1]

/-- The parameters of a template. -/
def paramsOf : Nat → List Part → List Nat → List TParam
  | off, p :: ps, k :: ks =>
    ⟨off + p.text.length, off + p.text.length + p.query.length + 1, k⟩ ::
      paramsOf (off + p.text.length + p.query.length + 2) ps ks
  | _, _, _ => []

theorem paramsOf_col (off : Nat) (ps : List Part) (ks : List Nat) (h : ks.length = ps.length) :
    (paramsOf off ps ks).map TParam.col = ks := by
  induction ps generalizing off ks with
  | nil => cases ks with
    | nil => rfl
    | cons k ks => simp at h
  | cons p ps ih =>
    cases ks with
    | nil => simp at h
    | cons k ks =>
      simp only [paramsOf, List.map_cons, List.cons.injEq, true_and]
      exact ih _ ks (by simpa using h)

theorem tmplOf_cons (p : Part) (ps : List Part) (tail : Str) :
    tmplOf (p :: ps) tail = p.text ++ chOpen :: (p.query ++ chClose :: tmplOf ps tail) := by
  simp [tmplOf]

theorem parseFrom_ok (names : List Str) (ps : List Part) (tail : Str) (ks : List Nat) (hk : ks.length = ps.length)
    (htext : ∀ p ∈ ps, chOpen ∉ p.text) (hquery : ∀ p ∈ ps, chClose ∉ p.query) (htail : chOpen ∉ tail)
    (hcol : ∀ (i : Nat) (p : Part) (k : Nat), ps[i]? = some p → ks[i]? = some k → columnIndex names p.query = .ok k)
    (pre : Str) (start : Nat) (hs : start ≤ pre.length) (hpre : chOpen ∉ pre.drop start) (fuel : Nat) (hf : ps.length < fuel) :
    parseFrom names (pre ++ tmplOf ps tail) fuel start = .ok (paramsOf pre.length ps ks) := by
  induction ps generalizing ks pre start fuel with
  | nil =>
    cases fuel with
    | zero => simp at hf
    | succ fuel =>
      unfold parseFrom
      rw [findFrom_none]
      · rfl
      · rw [List.drop_append_of_le_length hs]
        simp only [List.mem_append, not_or, tmplOf, List.flatMap_nil, List.nil_append]
        exact ⟨hpre, htail⟩
  | cons p ps ih =>
    cases ks with
    | nil => simp at hk
    | cons k ks =>
    cases fuel with
    | zero => simp at hf
    | succ fuel =>
      have ht : pre ++ tmplOf (p :: ps) tail = (pre ++ p.text) ++ chOpen :: (p.query ++ chClose :: tmplOf ps tail) := by
        rw [tmplOf_cons]; simp
      have ht2 : pre ++ tmplOf (p :: ps) tail = (pre ++ p.text ++ chOpen :: p.query) ++ chClose :: tmplOf ps tail := by
        rw [tmplOf_cons]; simp
      have ht3 : pre ++ tmplOf (p :: ps) tail = (pre ++ p.text ++ chOpen :: p.query ++ [chClose]) ++ tmplOf ps tail := by
        rw [tmplOf_cons]; simp
      unfold parseFrom
      rw [show findFrom chOpen (pre ++ tmplOf (p :: ps) tail) start = some (pre.length + p.text.length) by
        rw [ht, findFrom_skip _ _ _ _ (by simp only [List.length_append]; omega)]
        · simp
        · rw [List.drop_append_of_le_length hs]
          simp only [List.mem_append, not_or]
          exact ⟨hpre, htext p (by simp)⟩]
      dsimp only
      rw [show findFrom chClose (pre ++ tmplOf (p :: ps) tail) (pre.length + p.text.length) =
          some (pre.length + p.text.length + p.query.length + 1) by
        rw [ht2, findFrom_skip _ _ _ _ (by simp)]
        · simp; omega
        · rw [show pre.length + p.text.length = (pre ++ p.text).length by simp, List.drop_left]
          simp only [List.mem_cons, not_or]
          exact ⟨by decide, hquery p (by simp)⟩]
      dsimp only
      rw [show ((pre ++ tmplOf (p :: ps) tail).drop (pre.length + p.text.length + 1)).take
          (pre.length + p.text.length + p.query.length + 1 - (pre.length + p.text.length) - 1) = p.query by
        rw [show pre ++ tmplOf (p :: ps) tail = (pre ++ p.text ++ [chOpen]) ++ (p.query ++ chClose :: tmplOf ps tail) by rw [ht]; simp]
        rw [show pre.length + p.text.length + 1 = (pre ++ p.text ++ [chOpen]).length by simp; omega, List.drop_left]
        rw [List.take_append_of_le_length (by omega)]
        apply List.take_of_length_le
        omega]
      rw [hcol 0 p k rfl rfl]
      dsimp only
      rw [ht3, ih ks (by simpa using hk) (fun q hq => htext q (by simp [hq])) (fun q hq => hquery q (by simp [hq]))
        (fun i q k' h1 h2 => hcol (i + 1) q k' (by simpa using h1) (by simpa using h2)) _ _ (by simp; omega) ?_ fuel (by simpa using hf)]
      · simp only [paramsOf, List.length_append, List.length_cons, List.length_nil]
        rw [show pre.length + p.text.length + (p.query.length + 1) + (0 + 1) = pre.length + p.text.length + p.query.length + 2 by omega]
      · rw [show pre.length + p.text.length + p.query.length + 1 = (pre ++ p.text ++ chOpen :: p.query).length by simp; omega, List.drop_left]
        decide

theorem paramsOf_ne (off : Nat) (p : Part) (ps : List Part) (ks : List Nat) (hk : ks.length = (p :: ps).length) :
    paramsOf off (p :: ps) ks ≠ [] := by
  cases ks with
  | nil => simp at hk
  | cons k ks => simp [paramsOf]

theorem parts_le (ps : List Part) (tail : Str) : ps.length ≤ (tmplOf ps tail).length := by
  induction ps with
  | nil => simp
  | cons p ps ih => rw [tmplOf_cons]; simp; omega

/-! ### Replacing -/

theorem replaceAll_ok (tys : List ColType) (ps : List Part) (tail : Str) (ks : List Nat) (hk : ks.length = ps.length)
    (vals : List Word) (label : Part → Str)
    (htxt : ∀ (i : Nat) (p : Part) (k : Nat), ps[i]? = some p → ks[i]? = some k →
      ∃ ty d, tys[k]? = some ty ∧ vals[k]? = some d ∧ paramText ty d = .ok (label p))
    (pre done : Str) :
    replaceAll tys (pre ++ tmplOf ps tail) vals (done ++ tmplOf ps tail) (paramsOf pre.length ps ks) =
      .ok (done ++ (ps.flatMap (fun p => p.text ++ label p) ++ tail)) := by
  induction ps generalizing ks pre done with
  | nil => simp [paramsOf, replaceAll, tmplOf]
  | cons p ps ih =>
    cases ks with
    | nil => simp at hk
    | cons k ks =>
      obtain ⟨ty, d, h1, h2, h3⟩ := htxt 0 p k rfl rfl
      unfold paramsOf replaceAll
      simp only [h1, h2, h3]
      have hat : ((pre.length + p.text.length : Nat) : Int) - (((pre ++ tmplOf (p :: ps) tail).length : Int) - ((done ++ tmplOf (p :: ps) tail).length : Int)) =
          ((done.length + p.text.length : Nat) : Int) := by
        simp only [List.length_append]; omega
      rw [hat]
      rw [if_neg (by
        rw [tmplOf_cons]; simp only [List.length_append]; omega)]
      have e1 : (done ++ tmplOf (p :: ps) tail).take (done.length + p.text.length) = done ++ p.text := by
        rw [tmplOf_cons, ← List.append_assoc, show done.length + p.text.length = (done ++ p.text).length by simp, List.take_left]
      have e2 : (done ++ tmplOf (p :: ps) tail).drop (done.length + p.text.length +
          (pre.length + p.text.length + p.query.length + 1 - (pre.length + p.text.length) + 1)) = tmplOf ps tail := by
        rw [show done ++ tmplOf (p :: ps) tail = (done ++ p.text ++ chOpen :: p.query ++ [chClose]) ++ tmplOf ps tail by
          rw [tmplOf_cons]; simp]
        rw [show done.length + p.text.length + (pre.length + p.text.length + p.query.length + 1 - (pre.length + p.text.length) + 1) =
          (done ++ p.text ++ chOpen :: p.query ++ [chClose]).length by simp; omega, List.drop_left]
      rw [Int.toNat_natCast, e1, e2]
      have e3 : pre ++ tmplOf (p :: ps) tail = (pre ++ p.text ++ chOpen :: p.query ++ [chClose]) ++ tmplOf ps tail := by
        rw [tmplOf_cons]; simp
      have := ih ks (by simpa using hk) (fun i q k' a b => htxt (i + 1) q k' (by simpa using a) (by simpa using b))
        (pre ++ p.text ++ chOpen :: p.query ++ [chClose]) (done ++ p.text ++ label p)
      rw [e3]
      rw [show (pre ++ p.text ++ chOpen :: p.query ++ [chClose]).length = pre.length + p.text.length + p.query.length + 2 by
        simp; omega] at this
      rw [this]
      simp

/-! ### Numbers and strings -/

theorem digits_digit (n : Nat) : ∀ b ∈ digits n, 48 ≤ b.toNat ∧ b.toNat ≤ 57 := by
  induction n using Nat.strongRecOn with
  | _ n ih =>
    unfold digits
    split
    · intro b hb
      simp only [List.mem_singleton] at hb
      subst hb
      simp only [BitVec.toNat_ofNat]
      omega
    · intro b hb
      simp only [List.mem_append, List.mem_singleton] at hb
      rcases hb with hb | rfl
      · exact ih (n / 10) (by omega) b hb
      · simp only [BitVec.toNat_ofNat]
        omega

theorem digits_ne (n : Nat) : digits n ≠ [] := by
  unfold digits
  split <;> simp

theorem digits_inj (m n : Nat) (h : digits m = digits n) : m = n := by
  have key : ∀ a : Nat, a < 10 → ∀ b : Nat, b < 10 → BitVec.ofNat 8 (48 + a) = BitVec.ofNat 8 (48 + b) → a = b := by
    intro a ha b hb hab
    have := congrArg BitVec.toNat hab
    simp only [BitVec.toNat_ofNat] at this
    omega
  induction m using Nat.strongRecOn generalizing n with
  | _ m ih =>
    rw [digits] at h
    conv at h => rhs; rw [digits]
    split at h <;> split at h
    · simp only [List.cons.injEq, and_true] at h
      exact key m (by omega) n (by omega) h
    · have := congrArg List.length h
      have h1 := List.length_pos_iff.mpr (digits_ne (n / 10))
      simp only [List.length_append, List.length_cons, List.length_nil] at this; omega
    · have := congrArg List.length h
      have h1 := List.length_pos_iff.mpr (digits_ne (m / 10))
      simp only [List.length_append, List.length_cons, List.length_nil] at this; omega
    · obtain ⟨h1, h2⟩ := List.append_inj' h rfl
      have h3 := ih (m / 10) (by omega) (n / 10) h1
      have h4 := key (m % 10) (by omega) (n % 10) (by omega) (by simpa using h2)
      omega

theorem decimal_inj (i j : Int) (h : decimal i = decimal j) : i = j := by
  have hd : ∀ (n : Nat) (r : Str), digits n ≠ 45 :: r := by
    intro n r hr
    have := digits_digit n 45 (by rw [hr]; simp)
    revert this; decide
  unfold decimal at h
  split at h <;> split at h
  · have := digits_inj _ _ (List.cons.inj h).2
    omega
  · exact absurd h.symm (hd _ _)
  · exact absurd h (hd _ _)
  · have := digits_inj _ _ h
    omega

theorem trim_ok (s : Str) (h8 : s.length ≤ 8) (h : GoodText s) : trimWord (wordOfBytes s) = s := by
  unfold trimWord
  rw [wordBytes_wordOfBytes_pad s h8]
  have h1 : (s ++ List.replicate (8 - s.length) (0 : Byte)).takeWhile isPrint = s := by
    rw [List.takeWhile_append_of_pos (fun b hb => by simpa [isPrint] using h.print b hb)]
    cases 8 - s.length with
    | zero => simp
    | succ n =>
      rw [List.replicate_succ, List.takeWhile_cons]
      simp [isPrint]
  rw [h1]
  have h2 : s.reverse.dropWhile (fun b => decide (b = chSpace)) = s.reverse := by
    cases hs : s.reverse with
    | nil => rfl
    | cons b r =>
      rw [List.dropWhile_cons, if_neg]
      simp only [decide_eq_true_eq]
      rintro rfl
      have : s.getLast? = some chSpace := by rw [List.getLast?_eq_head?_reverse, hs]; rfl
      exact h.back this
  dsimp only
  rw [h2, List.reverse_reverse]
  cases s with
  | nil => rfl
  | cons b r =>
    rw [List.dropWhile_cons, if_neg]
    simp only [decide_eq_true_eq]
    rintro rfl
    exact h.front rfl

theorem unslash_ok (n : Nat) (s : Str) (h : chSlash ∉ s) : unslash n s = s := by
  cases n with
  | zero => rfl
  | succ n =>
    unfold unslash
    rw [findFrom_none _ _ _ (by simpa using h)]

/-! ### Keys -/

/-- The double of row `i` in the key. -/
def Vals.keyWord (env : Env) (v : Vals) (i : Nat) : Word := ((v.cells env).getD i []).headD 0

theorem getD_mem {α : Type} (l : List α) (i : Nat) (a : α) (h : i < l.length) : l.getD i a ∈ l := by
  rw [List.getD_eq_getElem?_getD, List.getElem?_eq_getElem h]; exact List.getElem_mem _

theorem text_ne_negZero (s : Str) (h8 : s.length ≤ 8) (h : GoodText s) : wordOfBytes s ≠ negZero := by
  intro he
  have h1 := wordBytes_wordOfBytes_pad s h8
  rw [he] at h1
  cases s with
  | nil => exact absurd h1 (by decide)
  | cons b r =>
    have h2 : (wordBytes negZero).head? = some b := by rw [h1]; rfl
    have h3 : (wordBytes negZero).head? = some 0 := by decide
    rw [h3] at h2
    have h4 := h.print b (by simp)
    simp only [Option.some.injEq] at h2
    subst h2
    revert h4; decide

theorem keyWord_int {env : Env} (h : env.asDbl = true) (vs : List Int) (i : Nat) (hi : i < vs.length) :
    (Vals.ints vs).keyWord env i = ofInt (vs.getD i 0) := by
  unfold Vals.keyWord Vals.cells
  rw [getD_map_in _ vs i 0 [] hi]
  simp [intWord, h]

theorem keyWord_bits {env : Env} (h : env.asDbl = true) (ms : List (Str × Int)) (vs : List Int) (i : Nat) (hi : i < vs.length) :
    (Vals.bits ms vs).keyWord env i = ofInt (vs.getD i 0) := by
  unfold Vals.keyWord Vals.cells
  rw [getD_map_in _ vs i 0 [] hi]
  simp [intWord, h]

theorem keyWord_real (env : Env) (vs : List Word) (i : Nat) (hi : i < vs.length) :
    (Vals.reals vs).keyWord env i = vs.getD i 0 := by
  unfold Vals.keyWord Vals.cells
  rw [getD_map_in _ vs i 0 [] hi]
  rfl

theorem keyWord_double (env : Env) (vs : List Word) (i : Nat) (hi : i < vs.length) :
    (Vals.doubles vs).keyWord env i = vs.getD i 0 := by
  unfold Vals.keyWord Vals.cells
  rw [getD_map_in _ vs i 0 [] hi]
  rfl

theorem keyWord_str (env : Env) (vs : List Str) (i : Nat) (hi : i < vs.length) (h8 : ∀ s ∈ vs, s.length ≤ 8) :
    (Vals.strings 1 vs).keyWord env i = wordOfBytes (vs.getD i []) := by
  unfold Vals.keyWord Vals.cells
  rw [getD_map_in _ vs i [] [] hi]
  simp only [wordsOf, List.headD_cons]
  rw [List.take_of_length_le (h8 _ (getD_mem vs i [] hi))]

theorem label_text {env : Env} {v : Vals} (hv : v.Ok env) (hl : v.Labels env) (i : Nat) (hi : i < v.rows) :
    paramText v.ty (v.keyWord env i) = .ok (v.label i) := by
  have num : ∀ (ty : ColType) (n : Int), ty ≠ .string → InI32 n → paramText ty (ofInt n) = .ok (decimal n) := by
    intro ty n hty hn
    unfold paramText
    rw [if_neg hty, fcast_ofInt _ _ _ hn.small hn.1 hn.2]
  cases v with
  | ints vs =>
    rw [keyWord_int hl vs i hi]
    exact num _ _ (by simp [Vals.ty]) (hv _ (getD_mem vs i 0 hi))
  | bits ms vs =>
    rw [keyWord_bits hl ms vs i hi]
    exact num _ _ (by simp [Vals.ty]) (hv.1 _ (getD_mem vs i 0 hi))
  | reals vs =>
    rw [keyWord_real env vs i hi]
    obtain ⟨n, hn, he⟩ := hl _ (getD_mem vs i 0 hi)
    simp only [Vals.label]
    rw [he, ftrunc_ofInt n hn.small]
    exact num _ _ (by simp [Vals.ty]) hn
  | doubles vs =>
    rw [keyWord_double env vs i hi]
    obtain ⟨n, hn, he⟩ := hl _ (getD_mem vs i 0 hi)
    simp only [Vals.label]
    rw [he, ftrunc_ofInt n hn.small]
    exact num _ _ (by simp [Vals.ty]) hn
  | strings w vs =>
    obtain ⟨rfl, hg⟩ := hl
    have h8 : ∀ s ∈ vs, s.length ≤ 8 := fun s hs => by simpa using (hv.2.2.1 s hs).1
    rw [keyWord_str env vs i hi h8]
    have hm := getD_mem vs i [] hi
    unfold paramText
    rw [if_pos (show (Vals.strings 1 vs).ty = ColType.string from rfl), trim_ok _ (h8 _ hm) (hg _ hm), unslash_ok _ _ (hg _ hm).slash]
    rfl

theorem label_nan {env : Env} {v : Vals} (hv : v.Ok env) (hl : v.Labels env) (i : Nat) (hi : i < v.rows) :
    isNaN (v.keyWord env i) = false := by
  cases v with
  | ints vs =>
    rw [keyWord_int hl vs i hi]
    exact ofInt_nan _ (hv _ (getD_mem vs i 0 hi)).small
  | bits ms vs =>
    rw [keyWord_bits hl ms vs i hi]
    exact ofInt_nan _ (hv.1 _ (getD_mem vs i 0 hi)).small
  | reals vs =>
    rw [keyWord_real env vs i hi]
    obtain ⟨n, hn, he⟩ := hl _ (getD_mem vs i 0 hi)
    rw [he]
    exact ofInt_nan _ hn.small
  | doubles vs =>
    rw [keyWord_double env vs i hi]
    obtain ⟨n, hn, he⟩ := hl _ (getD_mem vs i 0 hi)
    rw [he]
    exact ofInt_nan _ hn.small
  | strings w vs =>
    obtain ⟨rfl, hg⟩ := hl
    have h8 : ∀ s ∈ vs, s.length ≤ 8 := fun s hs => by simpa using (hv.2.2.1 s hs).1
    rw [keyWord_str env vs i hi h8]
    have hm := getD_mem vs i [] hi
    have := hv.2.2.2.2.2 _ hm
    rwa [List.take_of_length_le (h8 _ hm)] at this

theorem label_key {env : Env} {v : Vals} (hv : v.Ok env) (hl : v.Labels env) (i j : Nat) (hi : i < v.rows) (hj : j < v.rows) :
    v.label i = v.label j ↔ feq (v.keyWord env i) (v.keyWord env j) = true := by
  have num : ∀ (m n : Int), InI32 m → InI32 n → (decimal m = decimal n ↔ feq (ofInt m) (ofInt n) = true) := by
    intro m n hm hn
    rw [feq_ofInt m n hm.small hn.small, decide_eq_true_eq]
    exact ⟨decimal_inj m n, fun h => by rw [h]⟩
  cases v with
  | ints vs =>
    rw [keyWord_int hl vs i hi, keyWord_int hl vs j hj]
    exact num _ _ (hv _ (getD_mem vs i 0 hi)) (hv _ (getD_mem vs j 0 hj))
  | bits ms vs =>
    rw [keyWord_bits hl ms vs i hi, keyWord_bits hl ms vs j hj]
    exact num _ _ (hv.1 _ (getD_mem vs i 0 hi)) (hv.1 _ (getD_mem vs j 0 hj))
  | reals vs =>
    rw [keyWord_real env vs i hi, keyWord_real env vs j hj]
    obtain ⟨n, hn, he⟩ := hl _ (getD_mem vs i 0 hi)
    obtain ⟨m, hm, he'⟩ := hl _ (getD_mem vs j 0 hj)
    simp only [Vals.label]
    rw [he, he', ftrunc_ofInt n hn.small, ftrunc_ofInt m hm.small]
    exact num _ _ hn hm
  | doubles vs =>
    rw [keyWord_double env vs i hi, keyWord_double env vs j hj]
    obtain ⟨n, hn, he⟩ := hl _ (getD_mem vs i 0 hi)
    obtain ⟨m, hm, he'⟩ := hl _ (getD_mem vs j 0 hj)
    simp only [Vals.label]
    rw [he, he', ftrunc_ofInt n hn.small, ftrunc_ofInt m hm.small]
    exact num _ _ hn hm
  | strings w vs =>
    have hn := label_nan hv hl i hi
    obtain ⟨rfl, hg⟩ := hl
    have h8 : ∀ s ∈ vs, s.length ≤ 8 := fun s hs => by simpa using (hv.2.2.1 s hs).1
    rw [keyWord_str env vs i hi h8] at hn ⊢
    rw [keyWord_str env vs j hj h8]
    have hm := getD_mem vs i [] hi
    have hm' := getD_mem vs j [] hj
    simp only [Vals.label]
    constructor
    · intro h; rw [← h]; exact feq_self hn
    · intro h
      have he := eq_of_feq h ⟨fun _ => text_ne_negZero _ (h8 _ hm') (hg _ hm'), fun hc => absurd hc (text_ne_negZero _ (h8 _ hm) (hg _ hm))⟩
      have := congrArg trimWord he
      rwa [trim_ok _ (h8 _ hm) (hg _ hm), trim_ok _ (h8 _ hm') (hg _ hm')] at this

/-- Values that can be told apart give names that can be told apart. -/
theorem names_distinct (n : Nat) (ps : List Part) (tail : Str) (h : Separated n ps) (i j : Nat) (hi : i < n) (hj : j < n)
    (hn : nameOf ps tail i = nameOf ps tail j) : ∀ p ∈ ps, p.col.vals.label i = p.col.vals.label j := by
  have cut : ∀ (b : Byte) (s s' r r' : Str), b ∉ s → b ∉ s' → s ++ b :: r = s' ++ b :: r' → s = s' := by
    intro b s
    induction s with
    | nil =>
      intro s' r r' _ h2 h3
      cases s' with
      | nil => rfl
      | cons c s' => simp only [List.nil_append, List.cons_append, List.cons.injEq] at h3; simp [h3.1] at h2
    | cons a s ih =>
      intro s' r r' h1 h2 h3
      cases s' with
      | nil => simp only [List.nil_append, List.cons_append, List.cons.injEq] at h3; simp [h3.1] at h1
      | cons c s' =>
        simp only [List.cons_append, List.cons.injEq] at h3
        rw [h3.1, ih s' r r' (fun hc => h1 (by simp [hc])) (fun hc => h2 (by simp [hc])) h3.2]
  induction ps with
  | nil => simp
  | cons p ps ih =>
    have e : ∀ i, nameOf (p :: ps) tail i = p.text ++ (p.col.vals.label i ++ nameOf ps tail i) := by intro i; simp [nameOf]
    rw [e, e] at hn
    have hn := List.append_cancel_left hn
    cases ps with
    | nil =>
      simp only [nameOf, List.flatMap_nil, List.nil_append] at hn
      intro q hq
      simp only [List.mem_singleton] at hq
      subst hq
      exact List.append_cancel_right hn
    | cons q ps =>
      obtain ⟨⟨b, r, hb, hnb⟩, h2⟩ := h
      have e2 : ∀ i, nameOf (q :: ps) tail i = b :: (r ++ (q.col.vals.label i ++ nameOf ps tail i)) := by intro i; simp [nameOf, hb]
      have h3 : p.col.vals.label i = p.col.vals.label j := by
        rw [e2, e2] at hn
        exact cut b _ _ _ _ (hnb i hi) (hnb j hj) hn
      rw [h3] at hn
      have h4 := ih h2 (List.append_cancel_left hn)
      intro x hx
      rcases List.mem_cons.mp hx with rfl | hx
      · exact h3
      · exact h4 x hx

end Verif
