import Verif.CsvText

/-
The header of a comma separated text.
-/

namespace Verif

/-! ### Specification -/

/-- Specification: the name of a column type in a header line. -/
def typeName : ColType → Str
  | .ignore => lit "IGNORE"
  | .integer => lit "INTEGER"
  | .real => lit "REAL"
  | .double => lit "DOUBLE"
  | .string => lit "STRING"
  | .bitfield => lit "BITFIELD"

/-- Only blanks. -/
def Blank (w : Str) : Prop := ∀ b ∈ w, isBlank b = true

/-- A member of a bitfield: its name, a colon, its size. -/
def MemberText (lib : CsvLib) (m : Str × Int) (t : Str) : Prop :=
  ∃ sz, t = m.1 ++ 58 :: sz ∧ m.1 ≠ [] ∧ sz ≠ [] ∧ (∀ b ∈ m.1 ++ sz, b ≠ 58 ∧ b ≠ 59 ∧ b ≠ 93) ∧ lib.atoi sz = m.2

/-- The declaration of a column: its name, possibly with blanks around it, a colon, its type in any case; for a bitfield, the members in
square brackets, separated by semicolons. -/
inductive HeaderText (lib : CsvLib) : InCol → Str → Prop
  | plain {c : InCol} {w1 w2 ty : Str} : Blank w1 → Blank w2 → c.name ≠ [] → Trimmed c.name → 58 ∉ c.name → c.vals.ty ≠ .bitfield →
      upper ty = typeName c.vals.ty → HeaderText lib c (w1 ++ (c.name ++ (w2 ++ 58 :: ty)))
  | bits {nm : Str} {ms : List (Str × Int)} {vs : List Int} {w1 w2 bf : Str} {mts : List Str} : Blank w1 → Blank w2 → nm ≠ [] → Trimmed nm →
      58 ∉ nm → 91 ∉ nm → 93 ∉ nm → upper bf = lit "BITFIELD" → Match (MemberText lib) ms mts → (ms.map Prod.fst).Nodup →
      (∀ m ∈ ms, 0 ≤ m.2) → (ms.map Prod.snd).sum ≤ 31 →
      HeaderText lib ⟨nm, .bits ms vs⟩ (w1 ++ (nm ++ (w2 ++ 58 :: (bf ++ 91 :: (joinWith 59 mts ++ [93])))))

/-! ### Proofs -/

/-- A column as the header declares it, strings of `w` words. -/
def CsvCol (env : Env) (w : InCol → Nat) (c : InCol) (k : Col) : Prop :=
  ∃ co, startCodec c.vals.ty env.asDbl (w c) none = .ok co ∧
    k = ⟨c.name, c.vals.ty.toInt, c.vals.members.map Prod.fst, c.vals.members.map Prod.snd, co⟩

theorem default_start {ty : ColType} {asDbl : Bool} {co : Codec} (h : defaultCodec ty asDbl = .ok co) : startCodec ty asDbl 1 none = .ok co := by
  unfold startCodec
  rw [h]
  dsimp only
  cases ty with
  | string =>
    simp only [defaultCodec, Except.ok.injEq] at h
    subst h
    rfl
  | bitfield =>
    have : co.kind.isChars = false := by
      simp only [defaultCodec, Codec.setMissing] at h
      repeat' split at h
      all_goals first | (simp only [Except.ok.injEq] at h; subst h; rfl) | simp at h
    simp [Codec.setWidth, this]
  | ignore => simp [defaultCodec] at h
  | integer => simp only [defaultCodec, Except.ok.injEq] at h; subst h; rfl
  | real => simp only [defaultCodec, Except.ok.injEq] at h; subst h; rfl
  | double => simp only [defaultCodec, Except.ok.injEq] at h; subst h; rfl

theorem start_default {ty : ColType} {asDbl : Bool} {co : Codec} (h : startCodec ty asDbl 1 none = .ok co) : defaultCodec ty asDbl = .ok co := by
  obtain ⟨c0, c1, h1, h2, h3⟩ := startCodec_split h
  have := default_start h1
  rw [this] at h
  rw [h1, ← h]

theorem upper_inv {t : Str} {x y : Byte} (h : upperByte x = y) (hy : y ≠ 58 ∧ y ≠ 91) : x ≠ 58 ∧ x ≠ 91 := by
  constructor <;> rintro rfl
  · apply hy.1; rw [← h]; decide
  · apply hy.2; rw [← h]; decide

theorem upper_no {t u : Str} (h : upper t = u) (hu : ∀ b ∈ u, b ≠ 58 ∧ b ≠ 91 ∧ b ≠ 93) : ∀ b ∈ t, b ≠ 58 ∧ b ≠ 91 ∧ b ≠ 93 := by
  intro b hb
  have hm : upperByte b ∈ u := by rw [← h]; exact List.mem_map.mpr ⟨b, hb, rfl⟩
  have := hu _ hm
  refine ⟨?_, ?_, ?_⟩ <;> rintro rfl
  · exact this.1 (by decide)
  · exact this.2.1 (by decide)
  · exact this.2.2 (by decide)

theorem upperByte_idem (b : Byte) : upperByte (upperByte b) = upperByte b := by
  revert b; decide +kernel

theorem upper_idem (s : Str) : upper (upper s) = upper s := by
  simp [upper, upperByte_idem]

theorem blank_no {w : Str} (h : Blank w) : ∀ b ∈ w, b ≠ 58 ∧ b ≠ 91 ∧ b ≠ 93 := by
  intro b hb
  have := h b hb
  refine ⟨?_, ?_, ?_⟩ <;> rintro rfl <;> revert this <;> decide

theorem typeName_no (ty : ColType) : ∀ b ∈ typeName ty, b ≠ 58 ∧ b ≠ 91 ∧ b ≠ 93 := by
  cases ty <;> exact ball (by decide +kernel)

theorem typeName_ne (ty : ColType) : typeName ty ≠ [] := by cases ty <;> decide +kernel

theorem typeName_take (ty : ColType) (h : ty ≠ .bitfield) : (typeName ty).take 8 ≠ lit "BITFIELD" := by
  cases ty <;> first | exact absurd rfl h | decide +kernel

theorem typeOf_typeName (ty : ColType) : typeOfName (typeName ty) = .ok ty := by
  cases ty <;> decide +kernel

theorem split_name (a t : Str) (ha : a ≠ []) (h : 58 ∉ a) : splitAt [58] (a ++ 58 :: t) = a :: splitAt [58] t := by
  unfold splitAt
  rw [tokens_token [58] [] a (by intro b hb; simp; rintro rfl; exact h hb), List.nil_append, tokens, if_pos (by simp), if_neg ha]

theorem split_one (seps a : Str) (ha : a ≠ []) (h : ∀ b ∈ a, b ∉ seps) : splitAt seps a = [a] := by
  have := tokens_token seps [] a h []
  unfold splitAt
  rw [List.append_nil, List.nil_append] at this
  rw [this, tokens, if_neg ha]

theorem bitMembers_ok (lib : CsvLib) (done ms : List (Str × Int)) (mts : List Str) (h : Match (MemberText lib) ms mts)
    (hn : ((done ++ ms).map Prod.fst).Nodup) (hp : ∀ m ∈ ms, 0 ≤ m.2) (n : Int) (h0 : 0 ≤ n) (hs : n + (ms.map Prod.snd).sum ≤ 31) :
    bitMembers lib done n mts = .ok (done ++ ms, n + (ms.map Prod.snd).sum) := by
  induction h generalizing done n with
  | nil => simp [bitMembers]
  | @cons m t ms mts hm h ih =>
    obtain ⟨sz, rfl, h1, h2, h3, h4⟩ := hm
    have hsum : 0 ≤ (ms.map Prod.snd).sum := by
      clear ih h hs hn
      induction ms with
      | nil => simp
      | cons m' ms ih =>
        have a := hp m' (by simp)
        have b := ih (by
          intro x hx
          rcases List.mem_cons.mp hx with rfl | hx
          · exact hp _ (by simp)
          · exact hp _ (by simp [hx]))
        simp
        omega
    have hm2 := hp m (by simp)
    simp only [List.map_cons, List.sum_cons] at hs
    unfold bitMembers
    rw [split_name _ _ h1 (fun hb => (h3 58 (List.mem_append_left _ hb)).1 rfl), split_one [58] sz h2 (by
      intro b hb
      have := (h3 b (by simp [hb])).1
      simpa using this)]
    dsimp only
    rw [if_neg, h4]
    · rw [ih (done ++ [(m.1, m.2)]) (by simpa using hn) (fun x hx => hp x (by simp [hx])) ((n + m.2) % 18446744073709551616) (by omega)
        (by rw [Int.emod_eq_of_lt (by omega) (by omega)]; omega)]
      rw [Int.emod_eq_of_lt (by omega) (by omega)]
      simp
      omega
    · intro hin
      rw [List.map_append, List.nodup_append] at hn
      exact hn.2.2 _ hin _ (by simp) rfl

theorem memberText_spec {lib : CsvLib} {m : Str × Int} {t : Str} (h : MemberText lib m t) : t ≠ [] ∧ ∀ b ∈ t, b ≠ 59 ∧ b ≠ 93 := by
  obtain ⟨sz, rfl, h1, h2, h3, h4⟩ := h
  refine ⟨by simp, ?_⟩
  intro b hb
  rw [List.mem_append, List.mem_cons] at hb
  rcases hb with hb | rfl | hb
  · exact (h3 b (by simp [hb])).2
  · decide
  · exact (h3 b (by simp [hb])).2

theorem join_no (d : Byte) (ts : List Str) (x : Byte) (hx : x ≠ d) (h : ∀ t ∈ ts, x ∉ t) : x ∉ joinWith d ts := by
  induction ts with
  | nil => simp [joinWith]
  | cons t ts ih =>
    cases ts with
    | nil => exact h t (by simp)
    | cons u r =>
      rw [joinWith]
      simp only [List.mem_append, List.mem_cons, not_or]
      exact ⟨h t (by simp), hx, ih (fun a ha => h a (by simp [ha]))⟩

theorem idxOf_first (a t : Str) (x : Byte) (h : x ∉ a) : (a ++ x :: t).idxOf x = a.length := by
  rw [List.idxOf_append_of_notMem h]
  simp

theorem parseBits_ok (lib : CsvLib) (pre : Str) (ms : List (Str × Int)) (mts : List Str) (hp1 : 91 ∉ pre) (hp2 : 93 ∉ pre)
    (h : Match (MemberText lib) ms mts) (hn : (ms.map Prod.fst).Nodup) (hp : ∀ m ∈ ms, 0 ≤ m.2) (hs : (ms.map Prod.snd).sum ≤ 31) :
    parseBits lib (pre ++ 91 :: (joinWith 59 mts ++ [93])) = .ok ms := by
  have hm : ∀ t ∈ mts, t ≠ [] ∧ ∀ b ∈ t, b ≠ 59 ∧ b ≠ 93 := by
    intro t ht
    clear hn hp hs
    induction h with
    | nil => simp at ht
    | cons h1 _ ih =>
      rcases List.mem_cons.mp ht with rfl | ht
      · exact memberText_spec h1
      · exact ih ht
  have hj : (93 : Byte) ∉ joinWith 59 mts := join_no _ _ _ (by decide) (fun t ht hb => ((hm t ht).2 _ hb).2 rfl)
  unfold parseBits
  rw [if_pos (by simp)]
  have e1 : (pre ++ 91 :: (joinWith 59 mts ++ [93])).idxOf 91 = pre.length := idxOf_first _ _ _ hp1
  have e2 : (pre ++ 91 :: (joinWith 59 mts ++ [93])).idxOf 93 = pre.length + 1 + (joinWith 59 mts).length := by
    rw [show pre ++ 91 :: (joinWith 59 mts ++ [93]) = (pre ++ 91 :: joinWith 59 mts) ++ 93 :: [] by simp, idxOf_first]
    · simp; omega
    · simp only [List.mem_append, List.mem_cons, not_or]
      exact ⟨hp2, by decide, hj⟩
  dsimp only
  rw [e1, e2, if_pos (by omega)]
  have e3 : ((pre ++ 91 :: (joinWith 59 mts ++ [93])).drop (pre.length + 1)).take (pre.length + 1 + (joinWith 59 mts).length - pre.length - 1) =
      joinWith 59 mts := by
    rw [show pre ++ 91 :: (joinWith 59 mts ++ [93]) = (pre ++ [91]) ++ (joinWith 59 mts ++ [93]) by simp,
      show pre.length + 1 + (joinWith 59 mts).length - pre.length - 1 = (joinWith 59 mts).length by omega,
      show pre.length + 1 = (pre ++ ([91] : Str)).length by simp, List.drop_left, List.take_left]
  rw [e3, tokens_join [59] 59 (by simp) mts (fun t ht => ⟨(hm t ht).1, fun b hb => by simpa using ((hm t ht).2 b hb).1⟩),
    bitMembers_ok lib [] ms mts h (by simpa using hn) hp 0 (by omega) (by omega)]
  dsimp only
  rw [if_neg (by omega)]
  simp

theorem tokens_ne (seps cur s : Str) (h : cur ≠ []) : ∃ r ts, tokens seps cur s = (cur ++ r) :: ts := by
  induction s generalizing cur with
  | nil => exact ⟨[], [], by rw [tokens, if_neg h]; simp⟩
  | cons b s ih =>
    rw [tokens]
    split
    · first | rw [if_neg h] | skip
      exact ⟨[], tokens seps [] s, by simp⟩
    · obtain ⟨r, ts, e⟩ := ih (cur ++ [b]) (by simp)
      exact ⟨b :: r, ts, by rw [e]; simp⟩

/-- A declaration is read. -/
theorem headerCol_ok (lib : CsvLib) (env : Env) {c : InCol} {t : Str} (h : HeaderText lib c t) :
    ∃ k, headerCol lib env t = .ok k ∧ CsvCol env (fun _ => 1) c k := by
  cases h with
  | @plain _ w1 w2 ty h1 h2 h3 h4 h5 h6 h7 =>
    obtain ⟨co, hco⟩ := start_none env (match c.vals with | .strings _ vs => .strings 1 vs | v => v)
    have hco' : startCodec c.vals.ty env.asDbl 1 none = .ok co := by
      cases hv : c.vals <;> rw [hv] at hco <;> exact hco
    refine ⟨⟨c.name, c.vals.ty.toInt, c.vals.members.map Prod.fst, c.vals.members.map Prod.snd, co⟩, ?_, co, hco', rfl⟩
    have hty := upper_no h7 (typeName_no _)
    have htyne : ty ≠ [] := by
      rintro rfl
      exact typeName_ne _ h7.symm
    unfold headerCol
    rw [show w1 ++ (c.name ++ (w2 ++ 58 :: ty)) = (w1 ++ (c.name ++ w2)) ++ 58 :: ty by simp, split_name _ _ (by simp [h3]) (by
      simp only [List.mem_append, not_or]
      exact ⟨fun hb => (blank_no h1 _ hb).1 rfl, h5, fun hb => (blank_no h2 _ hb).1 rfl⟩),
      split_one [58] ty htyne (by intro b hb; simpa using (hty b hb).1)]
    dsimp only
    rw [joinWith, h7, if_neg (typeName_take _ h6), typeOf_typeName]
    dsimp only
    rw [start_default hco']
    dsimp only
    rw [trim_padded _ _ _ h1 h2 h4]
    cases hv : c.vals <;> first | rfl | (rw [hv] at h6; exact absurd rfl h6)
  | @bits nm ms vs w1 w2 bf mts h1 h2 h3 h4 h5 h6 h7 h8 h9 h10 h11 h12 =>
    obtain ⟨co, hco⟩ := start_none env (.bits ms vs)
    refine ⟨⟨nm, ColType.bitfield.toInt, ms.map Prod.fst, ms.map Prod.snd, co⟩, ?_, co, hco, rfl⟩
    have hbf := upper_no h8 (typeName_no .bitfield)
    have hbfne : bf ≠ [] := by
      rintro rfl
      exact typeName_ne .bitfield h8.symm
    have hlen : bf.length = 8 := by
      have := congrArg List.length h8
      simp only [upper, List.length_map] at this
      rw [this]
      decide +kernel
    unfold headerCol
    rw [show w1 ++ (nm ++ (w2 ++ 58 :: (bf ++ 91 :: (joinWith 59 mts ++ [93])))) = (w1 ++ (nm ++ w2)) ++ 58 :: (bf ++ 91 :: (joinWith 59 mts ++ [93])) by
      simp, split_name _ _ (by simp [h3]) (by
      simp only [List.mem_append, not_or]
      exact ⟨fun hb => (blank_no h1 _ hb).1 rfl, h5, fun hb => (blank_no h2 _ hb).1 rfl⟩)]
    obtain ⟨r, ts, e⟩ := tokens_ne [58] bf (91 :: (joinWith 59 mts ++ [93])) hbfne
    have e' : splitAt [58] (bf ++ 91 :: (joinWith 59 mts ++ [93])) = (bf ++ r) :: ts := by
      unfold splitAt
      rw [tokens_token [58] [] bf (by intro b hb; simpa using (hbf b hb).1), List.nil_append, e]
    rw [e']
    dsimp only
    have hj : ∃ q, joinWith 58 ((bf ++ r) :: ts) = bf ++ q := by
      cases ts with
      | nil => exact ⟨r, rfl⟩
      | cons u us => exact ⟨r ++ 58 :: joinWith 58 (u :: us), by simp [joinWith]⟩
    obtain ⟨q, hq⟩ := hj
    rw [hq, if_pos (by
      unfold upper at h8 ⊢
      rw [List.map_append, List.take_append_of_le_length (by simp [hlen]), List.take_of_length_le (by simp [hlen]), h8])]
    have hpb := parseBits_ok lib ((w1 ++ (nm ++ w2)) ++ 58 :: bf) ms mts (by
      simp only [List.mem_append, List.mem_cons, not_or]
      exact ⟨⟨fun hb => (blank_no h1 _ hb).2.1 rfl, h6, fun hb => (blank_no h2 _ hb).2.1 rfl⟩, by decide, fun hb => (hbf _ hb).2.1 rfl⟩) (by
      simp only [List.mem_append, List.mem_cons, not_or]
      exact ⟨⟨fun hb => (blank_no h1 _ hb).2.2 rfl, h7, fun hb => (blank_no h2 _ hb).2.2 rfl⟩, by decide, fun hb => (hbf _ hb).2.2 rfl⟩) h9 h10 h11 h12
    rw [show (w1 ++ (nm ++ w2)) ++ 58 :: (bf ++ 91 :: (joinWith 59 mts ++ [93])) = ((w1 ++ (nm ++ w2)) ++ 58 :: bf) ++ 91 :: (joinWith 59 mts ++ [93]) by
      simp, hpb]
    dsimp only
    rw [start_default (ty := .bitfield) hco]
    dsimp only
    rw [trim_padded _ _ _ h1 h2 h4]

theorem csvCols_ok (lib : CsvLib) (env : Env) (cs : List InCol) (ts : List Str) (h : Match (HeaderText lib) cs ts) :
    ∃ ks, csvCols lib env ts = .ok ks ∧ Match (CsvCol env (fun _ => 1)) cs ks := by
  induction h with
  | nil => exact ⟨[], rfl, .nil⟩
  | cons h1 _ ih =>
    obtain ⟨k, a1, a2⟩ := headerCol_ok lib env h1
    obtain ⟨ks, b1, b2⟩ := ih
    exact ⟨k :: ks, by simp only [csvCols, a1, b1], .cons a2 b2⟩

theorem headerText_ne {lib : CsvLib} {c : InCol} {t : Str} (h : HeaderText lib c t) : t ≠ [] := by
  cases h <;> simp

end Verif
