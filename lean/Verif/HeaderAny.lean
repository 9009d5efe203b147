import Verif.RowAny

/-!
Headers read from arbitrary bytes can be written again: they are within the limits of the format, and loading the codec
again gives the same codec.
-/

namespace Verif

theorem post_i32 (o : Order) : PostP InI32 (readI32 o) := by
  intro s
  cases hx : readI32 o s with
  | error e => trivial
  | ok x => exact (readI32_took hx).2

theorem post_str (o : Order) : PostP (fun s : Str => LenOk s.length) (readStr o) := by
  intro s
  cases hx : readStr o s with
  | error e => trivial
  | ok x => exact (readStr_took hx).2

theorem post_many' {α : Type} {R : α → Prop} {p : P α} (h : PostP R p) (n : Nat) :
    PostP (fun l => (∀ a ∈ l, R a) ∧ l.length = n) (readMany p n) := by
  induction n with
  | zero => exact PostP.pure (by simp)
  | succ n ih =>
    unfold readMany
    refine PostP.bind h _ (fun a ha => PostP.bind ih _ (fun l hl => PostP.pure ?_))
    refine ⟨?_, by simp [hl.2]⟩
    intro x hx
    rcases List.mem_cons.mp hx with rfl | hx
    · exact ha
    · exact hl.1 x hx

theorem post_vec {α : Type} {R : α → Prop} {p : P α} (o : Order) (h : PostP R p) :
    PostP (fun l => (∀ a ∈ l, R a) ∧ LenOk l.length) (readVec o p) := by
  unfold readVec
  refine PostP.bind (post_i32 o) _ (fun n hn => PostP.ite PostP.fail ?_)
  intro s
  have := post_many' h n.toNat s
  cases hx : readMany p n.toNat s with
  | error e => trivial
  | ok x =>
    rw [hx] at this
    refine ⟨this.1, ?_⟩
    have h1 := this.2
    unfold InI32 at hn
    unfold LenOk
    omega

theorem mapEmplace_length (k v : Str) (m : StrMap) : (mapEmplace strLt k v m).length ≤ m.length + 1 := by
  induction m with
  | nil => simp [mapEmplace]
  | cons kv m ih =>
    simp only [mapEmplace]
    split
    · simp
    split
    · simp only [List.length_cons]; omega
    · simp

theorem foldl_emplace (R : Str × Str → Prop) (l acc : StrMap) (hl : ∀ x ∈ l, R x) (ha : ∀ x ∈ acc, R x) (hok : MapOk acc) :
    MapOk (l.foldl (fun m kv => mapEmplace strLt kv.1 kv.2 m) acc) ∧
      (∀ x ∈ l.foldl (fun m kv => mapEmplace strLt kv.1 kv.2 m) acc, R x) ∧
      (l.foldl (fun m kv => mapEmplace strLt kv.1 kv.2 m) acc).length ≤ acc.length + l.length := by
  induction l generalizing acc with
  | nil => exact ⟨hok, ha, by simp⟩
  | cons kv l ih =>
    simp only [List.foldl_cons]
    obtain ⟨i1, i2, i3⟩ := ih (mapEmplace strLt kv.1 kv.2 acc) (fun x hx => hl x (by simp [hx]))
      (fun x hx => by
        rcases mapEmplace_mem _ _ _ _ hx with hx | rfl
        · exact ha x hx
        · exact hl _ (by simp)) (mapEmplace_ok _ _ _ hok)
    refine ⟨i1, i2, ?_⟩
    have := mapEmplace_length kv.1 kv.2 acc
    simp only [List.length_cons]
    omega

theorem post_map (o : Order) : PostP (fun m : StrMap => MapOk m ∧ LenOk m.length ∧ ∀ kv ∈ m, LenOk kv.1.length ∧ LenOk kv.2.length)
    (readMap o) := by
  unfold readMap
  refine PostP.bind (post_i32 o) _ (fun n hn => ?_)
  refine PostP.bind (post_many' (R := fun kv : Str × Str => LenOk kv.1.length ∧ LenOk kv.2.length)
    (PostP.bind (post_str o) _ (fun k hk => PostP.bind (post_str o) _ (fun v hv => PostP.pure ⟨hk, hv⟩))) n.toNat) _ (fun l hl => PostP.pure ?_)
  obtain ⟨f1, f2, f3⟩ := foldl_emplace (fun kv => LenOk kv.1.length ∧ LenOk kv.2.length) l [] hl.1 (by simp) (by simp [MapOk])
  refine ⟨f1, ?_, f2⟩
  have hl2 := hl.2
  rw [List.length_nil, hl2] at f3
  unfold InI32 at hn
  unfold LenOk
  refine Nat.le_trans f3 ?_
  omega

/-- Proof device: the codec is within the limits of the format, and reading it again from what `save` writes gives it
back; the width of a string table is computed again. -/
structure Codec.Again (asDbl : Bool) (ty : Int) (c : Codec) : Prop where
  save : SaveOk asDbl ty c
  reload : reload asDbl ty c = { c with width := if c.kind = .int8String ∨ c.kind = .int16String then tableWidth c.strings 1 else c.width }

theorem post_entries' (o : Order) (num k : Nat) (ss : List Str) (w : Nat) (hs : ∀ s ∈ ss, LenOk s.length) :
    PostP (fun x : List Str × Nat => (∀ s ∈ x.1, LenOk s.length) ∧ x.1.length = ss.length) (readEntries o num k ss w) := by
  induction k generalizing ss w with
  | zero => exact PostP.pure ⟨hs, rfl⟩
  | succ k ih =>
    unfold readEntries
    refine PostP.bind (post_str o) _ (fun s h1 => PostP.bind (PostP.triv _) _ (fun _ _ => PostP.bind (PostP.triv _) _ (fun idx _ =>
      PostP.ite PostP.fail (PostP.ite PostP.fail ?_))))
    have := ih (ss.set idx.toNat s) (if s.length ≠ 0 then max w (wordsFor s.length) else w) (by
      intro x hx
      rcases List.mem_or_eq_of_mem_set hx with hx | rfl
      · exact hs x hx
      · exact h1)
    rw [List.length_set] at this
    exact this

theorem post_base2 (o : Order) (c : Codec) :
    PostP (fun c' : Codec => InI32 c'.hasMissing ∧ c' = { c with hasMissing := c'.hasMissing, min := c'.min, max := c'.max, missing := c'.missing })
      (loadBase o c) := by
  unfold loadBase
  exact PostP.bind (post_i32 o) _ (fun _ h1 => PostP.bind (PostP.triv _) _ (fun _ _ => PostP.bind (PostP.triv _) _ (fun _ _ =>
    PostP.bind (PostP.triv _) _ (fun _ _ => PostP.pure ⟨h1, rfl⟩))))

theorem post_again (o : Order) (k : Kind) (ty : Int) (asDbl : Bool) :
    PostP (fun c : Codec => c.Again asDbl ty) ((fresh k ty asDbl).load o) := by
  unfold Codec.load
  refine PostP.bind (post_base2 o _) _ (fun c' hc' => ?_)
  obtain ⟨h1, h2⟩ := hc'
  have hk : c'.kind = k := by rw [h2]; rfl
  have hs : c'.strings = [] := by rw [h2]; rfl
  have hv : c'.vt = vtOf k ty asDbl := by rw [h2]; rfl
  have hw : c'.width = 1 := by rw [h2]; rfl
  have hsr : c'.srFlag = false := by rw [h2]; rfl
  have hsr2 : c'.sr2Flag = false := by rw [h2]; rfl
  obtain ⟨ck, cv, chm, cms, cmn, cmx, csr, csr2, cst, cw⟩ := c'
  simp only at hk hs hv hw hsr hsr2 h1
  subst hk hs hv hw hsr hsr2
  have zero : LenOk 0 := by decide
  split
  · rename_i hk
    simp only at hk
    subst hk
    exact PostP.pure ⟨⟨h1, zero, by simp, by simp [Kind.isInt]⟩, by simp [Verif.reload, fresh]⟩
  · rename_i hk
    simp only at hk
    subst hk
    refine PostP.bind (post_str o) _ (fun s hl => PostP.pure ⟨⟨h1, by simp; decide, by simpa using hl, by simp [Kind.isInt]⟩, ?_⟩)
    simp [Verif.reload, fresh]
  · rename_i hk
    simp only at hk
    subst hk
    exact PostP.bind (PostP.triv _) _ (fun n _ => PostP.ite (PostP.pure ⟨⟨h1, zero, by simp, by simp [Kind.isInt]⟩, by simp [Verif.reload, fresh]⟩) PostP.fail)
  · rename_i hk
    simp only at hk
    subst hk
    refine PostP.bind (post_i32 o) _ (fun n hn => PostP.ite PostP.fail (PostP.bind (post_entries' o _ _ _ 1 (by simp [LenOk])) _
      (fun x hx => PostP.pure ⟨⟨h1, ?_, hx.1, by simp [Kind.isInt]⟩, by simp [Verif.reload, fresh]⟩)))
    have := hx.2
    simp only [List.length_replicate] at this
    unfold InI32 at hn
    simp only [LenOk]
    omega
  · rename_i hk
    simp only at hk
    subst hk
    refine PostP.bind (post_i32 o) _ (fun n hn => PostP.ite PostP.fail (PostP.bind (post_entries' o _ _ _ 1 (by simp [LenOk])) _
      (fun x hx => PostP.pure ⟨⟨h1, ?_, hx.1, by simp [Kind.isInt]⟩, by simp [Verif.reload, fresh]⟩)))
    have := hx.2
    simp only [List.length_replicate] at this
    unfold InI32 at hn
    simp only [LenOk]
    omega
  · rename_i n1 n2 n3 n4 n5
    have hr : Verif.reload asDbl ty ⟨ck, vtOf ck ty asDbl, chm, cms, cmn, cmx, false, false, [], 1⟩ =
        ⟨ck, vtOf ck ty asDbl, chm, cms, cmn, cmx, false, false, [], 1⟩ := by
      clear h2
      cases ck <;> simp_all [Verif.reload, fresh]
    have hr' : Verif.reload asDbl ty ⟨ck, vtOf ck ty asDbl, chm, cms, cmn, cmx, false, false, [], 1⟩ =
        { (⟨ck, vtOf ck ty asDbl, chm, cms, cmn, cmx, false, false, [], 1⟩ : Codec) with width := if ck = .int8String ∨ ck = .int16String then tableWidth [] 1 else 1 } := by
      rw [hr, if_neg]
      rintro (rfl | rfl)
      · exact n4 rfl
      · exact n5 rfl
    split
    · cases hv : toVT (vtOf ck ty asDbl) cms with
      | ok w => exact PostP.pure ⟨⟨h1, zero, by simp, fun _ => ⟨w, hv⟩⟩, hr'⟩
      | error e => exact PostP.fail
    · rename_i hi
      exact PostP.pure ⟨⟨h1, zero, by simp, fun h => absurd h hi⟩, hr'⟩

theorem post_againCol (o : Order) (asDbl : Bool) :
    PostP (fun c : Col => ColOk asDbl c ∧ c.codec.Again asDbl c.ty) (readCol o asDbl) := by
  have hc : ∀ ty, PostP (fun c : Codec => c.Again asDbl ty) (loadCodec o asDbl ty) := by
    intro ty
    unfold loadCodec
    refine PostP.bind (PostP.triv _) _ (fun nm _ => ?_)
    cases Kind.ofName nm with
    | none => exact PostP.fail
    | some k => exact post_again o k ty asDbl
  unfold readCol
  refine PostP.bind (post_str o) _ (fun nm h1 => PostP.bind (post_i32 o) _ (fun ty h2 => ?_))
  by_cases h4 : ty = 4
  · rw [if_pos h4]
    refine PostP.bind (post_vec o (post_str o)) _ (fun bn hbn => PostP.bind (post_vec o (post_i32 o)) _ (fun bs hbs => ?_))
    by_cases hl : bn.length ≠ bs.length
    · rw [if_pos hl]; exact PostP.fail
    · rw [if_neg hl]
      exact PostP.bind (hc ty) _ (fun c h => PostP.pure ⟨⟨h1, h2, fun h => absurd h4 h, by simpa using hl, hbn.2, hbn.1, hbs.1, h.save⟩, h⟩)
  · rw [if_neg h4]
    exact PostP.bind (hc ty) _ (fun c h => PostP.pure ⟨⟨h1, h2, by simp, rfl, by simp [LenOk], by simp, by simp, h.save⟩, h⟩)

/-- A header that was read, from whatever bytes, is within the limits of the format. -/
theorem parse_headerOk {md5 : List Byte → Str} {asDbl : Bool} {s r : List Byte} {h : HeaderInfo} {o : Order}
    (hp : parseHeader md5 asDbl s = .ok (some (h, o, r))) : HeaderOk asDbl h ∧ ∀ c ∈ h.cols, c.codec.Again asDbl c.ty := by
  obtain ⟨bo, basic, var, digest, _, _, _, _, _, _, ⟨r, hv⟩⟩ := parseHeader_ok _ _ _ _ _ _ hp
  have key : PostP (fun h : HeaderInfo => HeaderOk asDbl h ∧ ∀ c ∈ h.cols, c.codec.Again asDbl c.ty) (readVar o asDbl) := by
    unfold readVar
    refine PostP.bind (post_readN8 o) _ (fun _ h1 => PostP.bind (PostP.triv _) _ (fun _ _ => PostP.ite PostP.fail ?_))
    refine PostP.bind (post_readN8 o) _ (fun _ h2 => PostP.bind (PostP.triv _) _ (fun _ _ =>
      PostP.bind (post_map o) _ (fun _ h3 => PostP.bind (post_i32 o) _ (fun nc h4 => PostP.ite PostP.fail ?_))))
    refine PostP.bind (post_many' (post_againCol o asDbl) nc.toNat) _ (fun cs h5 => PostP.pure ⟨⟨h1, h2, h3.2.1, h3.1, h3.2.2, ?_, ?_⟩, ?_⟩)
    · have := h5.2
      unfold InI32 at h4
      simp only [LenOk]
      omega
    · exact fun c hc => (h5.1 c hc).1
    · exact fun c hc => (h5.1 c hc).2
  have := key var
  rw [hv] at this
  exact this

/-! ### What a header must look like -/

/-- Proof device: the bytes a parser takes are described by `T`. -/
def Took {α : Type} (T : α → List Byte → Prop) (p : P α) : Prop :=
  ∀ s a r, p s = .ok (a, r) → ∃ pre, s = pre ++ r ∧ T a pre

theorem Took.bind {α β : Type} {T : α → List Byte → Prop} {U : β → List Byte → Prop} {p : P α} {f : α → P β} (hp : Took T p)
    (hf : ∀ a pre, T a pre → Took (fun b bs => U b (pre ++ bs)) (f a)) : Took U (p >>= f) := by
  intro s b r h
  rw [P.bind_apply] at h
  cases h1 : p s with
  | error e => rw [h1] at h; simp at h
  | ok x =>
    obtain ⟨a, s1⟩ := x
    rw [h1] at h
    dsimp only at h
    obtain ⟨pre, rfl, ht⟩ := hp s a s1 h1
    obtain ⟨bs, rfl, hu⟩ := hf a pre ht s1 b r h
    exact ⟨pre ++ bs, by rw [List.append_assoc], hu⟩

theorem Took.pure {α : Type} {T : α → List Byte → Prop} {a : α} (h : T a []) : Took T (Pure.pure a : P α) := by
  intro s b r hs
  simp only [P.pure_apply, Except.ok.injEq, Prod.mk.injEq] at hs
  obtain ⟨rfl, rfl⟩ := hs
  exact ⟨[], rfl, h⟩

theorem Took.fail {α : Type} {T : α → List Byte → Prop} {e : Err} : Took T (P.fail e : P α) := by
  intro s b r hs
  simp [P.fail] at hs

theorem Took.ite {α : Type} {T : α → List Byte → Prop} {c : Prop} [Decidable c] {p q : P α} (hp : c → Took T p) (hq : ¬ c → Took T q) :
    Took T (if c then p else q) := by
  by_cases h : c
  · rw [if_pos h]; exact hp h
  · rw [if_neg h]; exact hq h

theorem Took.mono {α : Type} {T U : α → List Byte → Prop} {p : P α} (hp : Took T p) (h : ∀ a bs, T a bs → U a bs) : Took U p := by
  intro s a r hs
  obtain ⟨pre, e, ht⟩ := hp s a r hs
  exact ⟨pre, e, h _ _ ht⟩

theorem took_n (o : Order) (k : Nat) : Took (fun n bs => bs = putN o k n) (readN o k) := fun _ _ _ h => ⟨_, (readN_took h).1, rfl⟩

theorem took_i32 (o : Order) : Took (fun i bs => bs = putI32 o i) (readI32 o) := fun _ _ _ h => ⟨_, (readI32_took h).1, rfl⟩

theorem took_word (o : Order) : Took (fun w bs => bs = putWord o w) (readWord o) := fun _ _ _ h => ⟨_, readWord_took h, rfl⟩

theorem took_str (o : Order) : Took (fun x bs => bs = putStr o x) (readStr o) := fun _ _ _ h => ⟨_, (readStr_took h).1, rfl⟩

theorem took_many {α : Type} {T : α → List Byte → Prop} {p : P α} (hp : Took T p) (n : Nat) :
    Took (fun l bs => l.length = n ∧ ∃ parts, bs = parts.flatten ∧ Match T l parts) (readMany p n) := by
  induction n with
  | zero => exact Took.pure ⟨rfl, [], rfl, .nil⟩
  | succ n ih =>
    unfold readMany
    refine Took.bind hp (fun a pre ha => Took.bind ih (fun l bs hl => Took.pure ?_))
    obtain ⟨h1, parts, rfl, hm⟩ := hl
    exact ⟨by simp [h1], pre :: parts, by simp, .cons ha hm⟩

theorem match_flat {α : Type} {f : α → List Byte} {l : List α} {parts : List (List Byte)} (h : Match (fun a bs => bs = f a) l parts) :
    parts.flatten = l.flatMap f := by
  induction h with
  | nil => rfl
  | cons h _ ih => rw [List.flatten_cons, ih, h, List.flatMap_cons]

theorem took_vec {α : Type} {f : α → List Byte} {p : P α} (o : Order) (hp : Took (fun a bs => bs = f a) p) :
    Took (fun l bs => bs = putVec o f l) (readVec o p) := by
  unfold readVec
  refine Took.bind (took_i32 o) (fun n pre hn => Took.ite (fun _ => Took.fail) (fun h0 => ?_))
  refine Took.mono (took_many hp n.toNat) ?_
  rintro l bs ⟨h1, parts, rfl, hm⟩
  rw [hn, match_flat hm]
  unfold putVec
  rw [show (n : Int) = (l.length : Int) by omega]

/-- Specification: key and value, as in the properties of a header. -/
def putPair (o : Order) (kv : Str × Str) : List Byte := putStr o kv.1 ++ putStr o kv.2

/-- Specification: the value of a key is that of the first entry with this key. -/
def FirstWins (kvs : List (Str × Str)) (m : StrMap) : Prop := ∀ k : Str, List.lookup k m = List.lookup k kvs

theorem lookup_mapGet (k : Str) (m : List (Str × Str)) : List.lookup k m = mapGet k m := by
  induction m with
  | nil => rfl
  | cons a m ih =>
    obtain ⟨x, y⟩ := a
    rw [List.lookup_cons]
    unfold mapGet at ih ⊢
    rw [List.find?_cons]
    by_cases h : k = x
    · subst h; simp
    · have : ¬ x = k := fun e => h e.symm
      have h' : (k == x) = false := beq_eq_false_iff_ne.mpr h
      rw [h']
      simp [this, ih]

theorem firstWins_foldl (l acc : List (Str × Str)) (hok : MapOk acc) (q : Str) :
    mapGet q (l.foldl (fun m kv => mapEmplace strLt kv.1 kv.2 m) acc) = (mapGet q acc).or (mapGet q l) := by
  induction l generalizing acc with
  | nil => simp [mapGet]
  | cons kv l ih =>
    rw [List.foldl_cons, ih _ (mapEmplace_ok _ _ _ hok), mapGet_emplace _ _ _ hok]
    have : mapGet q (kv :: l) = (if q = kv.1 then some kv.2 else none).or (mapGet q l) := by
      unfold mapGet
      rw [List.find?_cons]
      by_cases h : kv.1 = q
      · subst h; simp
      · have : ¬ q = kv.1 := fun e => h e.symm
        simp [h, this]
    rw [this, Option.or_assoc]

theorem took_map (o : Order) : Took (fun m bs => ∃ (n : Int) (kvs : List (Str × Str)), bs = putI32 o n ++ kvs.flatMap (putPair o) ∧
    kvs.length = n.toNat ∧ FirstWins kvs m) (readMap o) := by
  unfold readMap
  refine Took.bind (took_i32 o) (fun n pre hn => ?_)
  refine Took.bind (took_many (T := fun kv bs => bs = putPair o kv) (Took.bind (took_str o) (fun k p1 h1 => Took.bind (took_str o)
    (fun v p2 h2 => Took.pure ?_))) n.toNat) (fun l bs hl => Took.pure ?_)
  · rw [h1, h2]; simp [putPair]
  · obtain ⟨e1, parts, rfl, hm⟩ := hl
    refine ⟨n, l, by rw [hn, match_flat hm]; simp, e1, ?_⟩
    intro k
    rw [lookup_mapGet, lookup_mapGet, firstWins_foldl _ _ (by simp [MapOk])]
    simp [mapGet]

/-- Specification: an entry of the dictionary of a string column: a text, a count nobody uses, the position of the text. -/
abbrev DictEntry := Str × Int × Int

/-- Specification: the bytes of an entry. -/
def putDictEntry (o : Order) (e : DictEntry) : List Byte := putStr o e.1 ++ putI32 o e.2.1 ++ putI32 o e.2.2

/-- Specification: what the codec itself adds to the parameters every codec has: the text of a long constant string; a
zero for plain strings; the number of texts and the entries for a dictionary, the last entry for a position being the one that counts;
nothing for the others. -/
def OwnBytes (o : Order) (c : Codec) (own : List Byte) : Prop :=
  match c.kind with
  | .longConstantString => ∃ text : Str, own = putStr o text ∧ c.strings = [text]
  | .chars => own = putI32 o 0
  | .int8String | .int16String => ∃ entries : List DictEntry, own = putI32 o c.strings.length ++ entries.flatMap (putDictEntry o) ∧
      entries.length = c.strings.length ∧ (∀ e ∈ entries, 0 ≤ e.2.2 ∧ e.2.2 < c.strings.length) ∧
      ∀ i : Nat, c.strings.getD i [] = ((entries.reverse.find? (fun e => decide (e.2.2 = (i : Int)))).map (fun e => e.1)).getD []
  | _ => own = []

/-- Specification: the bytes of a column in a header: its name, its type, the members if it is a bitfield, the name of the
codec, the parameters every codec has, and those of the codec. -/
def ColBytes (o : Order) (c : Col) (bs : List Byte) : Prop :=
  ∃ (minimum maximum : Word) (own : List Byte), bs = putStr o c.name ++ putI32 o c.ty ++
    (if c.ty = 4 then putVec o (putStr o) c.bitNames ++ putVec o (putI32 o) c.bitSizes else []) ++ putStr o c.codec.kind.name ++
    putI32 o c.codec.hasMissing ++ putWord o minimum ++ putWord o maximum ++ putWord o c.codec.missing ++ own ∧
    c.bitNames.length = c.bitSizes.length ∧ (c.codec.kind ≠ .constantString → minimum = c.codec.min ∧ maximum = c.codec.max) ∧
    OwnBytes o c.codec own

/-- Proof device: `ColBytes` for the codec. -/
def CodecBytes (o : Order) (c : Codec) (bs : List Byte) : Prop :=
  ∃ (minimum maximum : Word) (own : List Byte), bs = putStr o c.kind.name ++ (putI32 o c.hasMissing ++ (putWord o minimum ++
    (putWord o maximum ++ (putWord o c.missing ++ own)))) ∧ (c.kind ≠ .constantString → minimum = c.min ∧ maximum = c.max) ∧
    OwnBytes o c own

theorem took_entries (o : Order) (num k : Nat) (ss : List Str) (w : Nat) (hs : ss.length = num) :
    Took (fun (x : List Str × Nat) bs => x.1.length = num ∧ ∃ es : List DictEntry, bs = es.flatMap (putDictEntry o) ∧ es.length = k ∧
      (∀ e ∈ es, 0 ≤ e.2.2 ∧ e.2.2 < num) ∧
      ∀ i : Nat, x.1.getD i [] = ((es.reverse.find? (fun e => decide (e.2.2 = (i : Int)))).map (fun e => e.1)).getD (ss.getD i []))
      (readEntries o num k ss w) := by
  induction k generalizing ss w with
  | zero => exact Took.pure ⟨hs, [], by simp⟩
  | succ k ih =>
    unfold readEntries
    refine Took.bind (took_str o) (fun s p1 h1 => Took.bind (took_i32 o) (fun cnt p2 h2 => Took.bind (took_i32 o) (fun idx p3 h3 =>
        Took.ite (fun _ => Took.fail) (fun hlt => Took.ite (fun _ => Took.fail) (fun hge => ?_)))))
    refine Took.mono (ih (ss.set idx.toNat s) _ (by simpa using hs)) ?_
    rintro x bs ⟨q0, es, q1, q2, q3, q4⟩
    refine ⟨q0, (s, cnt, idx) :: es, ?_, by simp [q2], ?_, ?_⟩
    · rw [q1, h1, h2, h3]; simp [putDictEntry]
    · intro e he
      rcases List.mem_cons.mp he with rfl | he
      · constructor <;> dsimp only <;> omega
      · exact q3 e he
    · intro i
      rw [q4, List.reverse_cons, List.find?_append]
      cases hf : es.reverse.find? (fun e => decide (e.2.2 = (i : Int))) with
      | some e => rfl
      | none =>
        simp only [Option.none_or, Option.map_none, Option.getD_none, List.find?_cons, List.find?_nil]
        by_cases hi : idx = (i : Int)
        · subst hi
          have : i < ss.length := by omega
          simp [List.getD_eq_getElem?_getD, this]
        · have hne : idx.toNat ≠ i := by omega
          simp [hi, List.getD_eq_getElem?_getD, List.getElem?_set, hne]

theorem took_codec (o : Order) (asDbl : Bool) (ty : Int) : Took (CodecBytes o) (loadCodec o asDbl ty) := by
  unfold loadCodec
  refine Took.bind (took_str o) (fun nm pre hpre => ?_)
  cases hk : Kind.ofName nm with
  | none => exact Took.fail
  | some k =>
    have hkn := Kind.name_of hk
    subst hkn
    have body : Took (fun c bs => c.kind = k ∧ ∃ (minimum maximum : Word) (own : List Byte), bs = putI32 o c.hasMissing ++ (putWord o minimum ++
        (putWord o maximum ++ (putWord o c.missing ++ own))) ∧ (c.kind ≠ .constantString → minimum = c.min ∧ maximum = c.max) ∧
        OwnBytes o c own)
        ((fresh k ty asDbl).load o) := by
      unfold Codec.load
      refine Took.bind (T := fun c' bs => c'.kind = k ∧ c'.strings = [] ∧ bs = putI32 o c'.hasMissing ++ (putWord o c'.min ++ (putWord o c'.max ++ putWord o c'.missing)))
        ?_ (fun c' pre hc' => ?_)
      · intro s c' r h
        obtain ⟨e, h1, _, h2⟩ := loadBase_took h
        exact ⟨putI32 o c'.hasMissing ++ (putWord o c'.min ++ (putWord o c'.max ++ putWord o c'.missing)), by rw [e]; simp, h1, h2, rfl⟩
      · obtain ⟨hk', hs', hb⟩ := hc'
        have any : ∀ (c2 : Codec) (bs : List Byte), c2.kind = c'.kind → c2.hasMissing = c'.hasMissing → c2.min = c'.min → c2.max = c'.max →
            c2.missing = c'.missing → OwnBytes o c2 bs → (c2.kind = k ∧ ∃ (minimum maximum : Word) (own : List Byte), pre ++ bs = putI32 o c2.hasMissing ++
              (putWord o minimum ++ (putWord o maximum ++ (putWord o c2.missing ++ own))) ∧
              (c2.kind ≠ .constantString → minimum = c2.min ∧ maximum = c2.max) ∧ OwnBytes o c2 own) := by
          intro c2 bs a1 a2 a3 a4 a5 a6
          exact ⟨by rw [a1, hk'], c'.min, c'.max, bs, by rw [hb, a2, a5]; simp, fun _ => ⟨a3.symm, a4.symm⟩, a6⟩
        split
        · rename_i hc
          exact Took.pure ⟨hk', c'.min, c'.max, [], by rw [hb]; simp, fun h => absurd hc h, by unfold OwnBytes; dsimp only; rw [hc]⟩
        · rename_i hc
          exact Took.bind (took_str o) (fun s p1 h1 => Took.pure (any _ _ rfl rfl rfl rfl rfl (by
            unfold OwnBytes; dsimp only; rw [hc]; exact ⟨s, by rw [h1]; simp, by simp [hs']⟩)))
        · rename_i hc
          exact Took.bind (took_i32 o) (fun n p1 h1 => Took.ite (fun hn => Took.pure (any _ _ rfl rfl rfl rfl rfl (by
            unfold OwnBytes; rw [hc]; dsimp only; rw [h1, hn]; simp))) (fun _ => Took.fail))
        · rename_i hc
          exact Took.bind (took_i32 o) (fun n p1 h1 => Took.ite (fun _ => Took.fail) (fun hn =>
            Took.bind (took_entries o n.toNat n.toNat _ 1 (by simp)) (fun x p2 h2 => Took.pure (any _ _ rfl rfl rfl rfl rfl (by
              obtain ⟨g0, es, g1, g2, g3, g4⟩ := h2
              unfold OwnBytes; dsimp only; rw [hc]; dsimp only
              refine ⟨es, ?_, by rw [g2, g0], by rw [g0]; exact g3, ?_⟩
              · rw [h1, g1, g0]; simp [show ((n.toNat : Nat) : Int) = n by omega]
              · intro i; rw [g4]; congr 1; simp [List.getD_eq_getElem?_getD, List.getElem?_replicate]; split <;> rfl)))))
        · rename_i hc
          exact Took.bind (took_i32 o) (fun n p1 h1 => Took.ite (fun _ => Took.fail) (fun hn =>
            Took.bind (took_entries o n.toNat n.toNat _ 1 (by simp)) (fun x p2 h2 => Took.pure (any _ _ rfl rfl rfl rfl rfl (by
              obtain ⟨g0, es, g1, g2, g3, g4⟩ := h2
              unfold OwnBytes; dsimp only; rw [hc]; dsimp only
              refine ⟨es, ?_, by rw [g2, g0], by rw [g0]; exact g3, ?_⟩
              · rw [h1, g1, g0]; simp [show ((n.toNat : Nat) : Int) = n by omega]
              · intro i; rw [g4]; congr 1; simp [List.getD_eq_getElem?_getD, List.getElem?_replicate]; split <;> rfl)))))
        · rename_i a1 a2 a3 a4 a5
          have hn : OwnBytes o c' [] := by
            unfold OwnBytes
            cases hkk : c'.kind <;> first | rfl | (exfalso; simp_all)
          refine Took.ite (fun _ => ?_) (fun _ => Took.pure (any _ _ rfl rfl rfl rfl rfl hn))
          cases toVT c'.vt c'.missing with
          | ok w => exact Took.pure (any _ _ rfl rfl rfl rfl rfl hn)
          | error e => exact Took.fail
    refine Took.mono body ?_
    rintro c bs ⟨h1, mn, mx, own, h2, h3, h4⟩
    exact ⟨mn, mx, own, by rw [hpre, h2, h1], h3, h4⟩

theorem took_col (o : Order) (asDbl : Bool) : Took (ColBytes o) (readCol o asDbl) := by
  unfold readCol
  refine Took.bind (took_str o) (fun nm p1 h1 => Took.bind (took_i32 o) (fun ty p2 h2 => Took.ite (fun h4 => ?_) (fun h4 => ?_)))
  · refine Took.bind (took_vec o (took_str o)) (fun bn p3 h3 => Took.bind (took_vec o (took_i32 o)) (fun bs p5 h5 => Took.ite
      (fun _ => Took.fail) (fun hl => Took.bind (took_codec o asDbl ty) (fun c p6 h6 => Took.pure ?_))))
    obtain ⟨mn, mx, own, e, h7⟩ := h6
    refine ⟨mn, mx, own, ?_, by simpa using hl, h7⟩
    rw [e, h1, h2, h3, h5]
    simp [h4]
  · refine Took.bind (took_codec o asDbl ty) (fun c p6 h6 => Took.pure ?_)
    obtain ⟨mn, mx, own, e, h7⟩ := h6
    refine ⟨mn, mx, own, ?_, rfl, h7⟩
    rw [e, h1, h2]
    simp [h4]

/-- **C45 (what a header must look like)**: a header is accepted only if its variable part is, in the byte order of the
header: the size of the data, a zero, the number of rows, a sequence of flags, the properties, the number of columns, and as
many columns, whose name, type, members, codec, missing value, range and texts are those reported.  Bytes may follow. -/
theorem C45_header_accepted {md5 : List Byte → Str} {asDbl : Bool} {s r : List Byte} {h : HeaderInfo} {o : Order}
    (hp : parseHeader md5 asDbl s = .ok (some (h, o, r))) :
    ∃ (before rest : List Byte) (flags : List Word) (nprops : Int) (kvs : List (Str × Str)) (cols : List (List Byte)),
      s = before ++ (putN o 8 h.dataSize ++ putN o 8 0 ++ putN o 8 h.nrows ++ putVec o (putWord o) flags ++
        putI32 o nprops ++ kvs.flatMap (putPair o) ++ putI32 o h.cols.length ++ cols.flatten ++ rest) ++ r ∧
      kvs.length = nprops.toNat ∧ FirstWins kvs h.props ∧ Match (ColBytes o) h.cols cols := by
  obtain ⟨bo, basic, var, digest, e, _, _, _, _, _, ⟨r', hv⟩⟩ := parseHeader_ok _ _ _ _ _ _ hp
  have key : Took (fun h bs => ∃ (flags : List Word) (nprops : Int) (kvs : List (Str × Str)) (cols : List (List Byte)),
      bs = putN o 8 h.dataSize ++ putN o 8 0 ++ putN o 8 h.nrows ++ putVec o (putWord o) flags ++
        putI32 o nprops ++ kvs.flatMap (putPair o) ++ putI32 o h.cols.length ++ cols.flatten ∧
      kvs.length = nprops.toNat ∧ FirstWins kvs h.props ∧ Match (ColBytes o) h.cols cols) (readVar o asDbl) := by
    unfold readVar
    refine Took.bind (took_n o 8) (fun ds p1 h1 => Took.bind (took_n o 8) (fun prev p2 h2 => Took.ite (fun _ => Took.fail) (fun h0 => ?_)))
    refine Took.bind (took_n o 8) (fun nr p3 h3 => Took.bind (took_vec o (took_word o)) (fun fl p4 h4 => Took.bind (took_map o) (fun m p5 h5 =>
      Took.bind (took_i32 o) (fun nc p6 h6 => Took.ite (fun _ => Took.fail) (fun hn => ?_)))))
    refine Took.bind (took_many (took_col o asDbl) nc.toNat) (fun cs p7 h7 => Took.pure ?_)
    obtain ⟨n, kvs, e5, e6, e7⟩ := h5
    obtain ⟨e8, parts, e9, e10⟩ := h7
    have h0' : prev = 0 := by simpa using h0
    refine ⟨fl, n, kvs, parts, ?_, e6, e7, e10⟩
    dsimp only
    rw [show ((cs.length : Nat) : Int) = nc by omega, h1, h2, h3, h4, e5, h6, e9, h0']
    simp
  obtain ⟨pre, e2, fl, n, kvs, cols, e3, e4, e5, e6⟩ := key var h r' hv
  refine ⟨magic ++ (bo ++ basic), r', fl, n, kvs, cols, ?_, e4, e5, e6⟩
  rw [e, e2, e3]
  simp

end Verif
