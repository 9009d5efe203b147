import Verif.MdSet
import Verif.HeaderAny
import Verif.Count
import Verif.Split
import Verif.CsvRows

/-!
`odc mdset`: proofs (C49).
-/

namespace Verif

/-! ### The command line -/

/-- Specification: one assignment of the command line, in words: the column, the type if one is given, the value if one is
given. -/
structure MdWords where
  column : Str
  type : Option Str
  value : Option Str

/-- Specification: `<column>[:<type>][=<value>]`. -/
def MdWords.text (w : MdWords) : Str :=
  w.column ++ (w.type.elim [] (fun t => 58 :: t) ++ w.value.elim [] (fun v => 61 :: v))

/-- Specification: the words of an assignment do not contain the separators (a value may contain a colon), the type is one of
the six types, in upper or lower case, and the value is not the word NONE, which the tool takes for no value. -/
structure MdWords.Ok (w : MdWords) : Prop where
  column : w.column ≠ [] ∧ ∀ b ∈ w.column, b ≠ 44 ∧ b ≠ 58 ∧ b ≠ 61
  type : ∀ t, w.type = some t → ∃ k, typeCode t = .ok k
  value : ∀ v, w.value = some v → v ≠ [] ∧ v ≠ lit "NONE" ∧ ∀ b ∈ v, b ≠ 44 ∧ b ≠ 61

/-- Proof device: what `parseUpdateList` makes of an assignment. -/
def MdWords.entry (w : MdWords) : MdEntry := ⟨w.column, w.type.getD (lit "NONE"), w.value.getD (lit "NONE"), []⟩

/-- Letters stay letters, and the separators are none. -/
theorem upperByte_sep (b : Byte) (h : b = 44 ∨ b = 58 ∨ b = 61 ∨ b = 91) : upperByte b = b := by
  rcases h with rfl | rfl | rfl | rfl <;> decide

theorem typeCode_cases {t : Str} {k : Int} (h : typeCode t = .ok k) : upper t ∈ [lit "IGNORE", lit "INTEGER", lit "REAL", lit "DOUBLE", lit "STRING", lit "BITFIELD"] := by
  unfold typeCode at h
  simp only [List.mem_cons]
  by_cases h0 : upper t = lit "IGNORE"
  · exact Or.inl h0
  by_cases h1 : upper t = lit "INTEGER"
  · exact Or.inr (Or.inl h1)
  by_cases h2 : upper t = lit "REAL"
  · exact Or.inr (Or.inr (Or.inl h2))
  by_cases h3 : upper t = lit "DOUBLE"
  · exact Or.inr (Or.inr (Or.inr (Or.inl h3)))
  by_cases h4 : upper t = lit "STRING"
  · exact Or.inr (Or.inr (Or.inr (Or.inr (Or.inl h4))))
  by_cases h5 : upper t = lit "BITFIELD"
  · exact Or.inr (Or.inr (Or.inr (Or.inr (Or.inr (Or.inl h5)))))
  · rw [if_neg h0, if_neg h1, if_neg h2, if_neg h3, if_neg h4, if_neg h5] at h
    cases h

theorem typeCode_plain {t : Str} {k : Int} (h : typeCode t = .ok k) :
    t ≠ [] ∧ t ≠ lit "NONE" ∧ t.head? ≠ some 91 ∧ ∀ b ∈ t, b ≠ 44 ∧ b ≠ 58 ∧ b ≠ 61 := by
  have hu := typeCode_cases h
  have hne : ∀ b : Byte, (b = 44 ∨ b = 58 ∨ b = 61 ∨ b = 91) → b ∉ t := by
    intro b hb hm
    have : b ∈ upper t := List.mem_map.mpr ⟨b, hm, upperByte_sep b hb⟩
    have key : ∀ s ∈ [lit "IGNORE", lit "INTEGER", lit "REAL", lit "DOUBLE", lit "STRING", lit "BITFIELD"],
        (44 : Byte) ∉ s ∧ (58 : Byte) ∉ s ∧ (61 : Byte) ∉ s ∧ (91 : Byte) ∉ s := by decide +kernel
    obtain ⟨k1, k2, k3, k4⟩ := key _ hu
    rcases hb with rfl | rfl | rfl | rfl
    · exact k1 this
    · exact k2 this
    · exact k3 this
    · exact k4 this
  refine ⟨?_, ?_, ?_, ?_⟩
  · rintro rfl
    revert hu; decide +kernel
  · rintro rfl
    revert hu; decide +kernel
  · intro hh
    exact hne 91 (by simp) (List.mem_of_mem_head? hh)
  · intro b hb
    refine ⟨?_, ?_, ?_⟩ <;> (rintro rfl; exact hne _ (by simp) hb)

theorem MdWords.Ok.text_plain {w : MdWords} (h : w.Ok) : w.text ≠ [] ∧ ∀ b ∈ w.text, b ∉ ([44] : Str) := by
  constructor
  · intro he
    unfold MdWords.text at he
    exact h.column.1 (List.append_eq_nil_iff.mp he).1
  · intro b hb
    unfold MdWords.text at hb
    simp only [List.mem_append] at hb
    rw [List.mem_singleton]
    rcases hb with hb | hb | hb
    · exact (h.column.2 b hb).1
    · cases ht : w.type with
      | none => rw [ht] at hb; simp at hb
      | some t =>
        rw [ht] at hb
        obtain ⟨k, hk⟩ := h.type t ht
        rcases List.mem_cons.mp hb with rfl | hb
        · decide
        · exact ((typeCode_plain hk).2.2.2 b hb).1
    · cases hv : w.value with
      | none => rw [hv] at hb; simp at hb
      | some v =>
        rw [hv] at hb
        rcases List.mem_cons.mp hb with rfl | hb
        · decide
        · exact ((h.value v hv).2.2 b hb).1

theorem split_sole (d : Byte) (a : Str) (ha : a ≠ []) (h : ∀ b ∈ a, b ≠ d) : splitAt [d] a = [a] := by
  have := tokens_join [d] d (by simp) [a] (by simpa using ⟨ha, h⟩)
  simpa [joinWith] using this

theorem split_pair (d : Byte) (a c : Str) (ha : a ≠ []) (hc : c ≠ []) (h : ∀ b ∈ a, b ≠ d) (h' : ∀ b ∈ c, b ≠ d) :
    splitAt [d] (a ++ d :: c) = [a, c] := by
  have := tokens_join [d] d (by simp) [a, c] (by simpa using ⟨⟨ha, h⟩, hc, h'⟩)
  simpa [joinWith] using this

theorem mdEntry_text (atoi : Str → Int) (w : MdWords) (h : w.Ok) : mdEntry atoi w.text = .ok w.entry := by
  obtain ⟨column, type, value⟩ := w
  obtain ⟨⟨hc1, hc2⟩, ht, hv⟩ := h
  simp only at hc1 hc2 ht hv
  have hleft : column ++ type.elim [] (fun t => 58 :: t) ≠ [] := by simp [hc1]
  have hno : ∀ b ∈ column ++ type.elim [] (fun t => (58 : Byte) :: t), b ≠ 61 := by
    intro b hb
    rcases List.mem_append.mp hb with hb | hb
    · exact (hc2 b hb).2.2
    · cases type with
      | none => simp at hb
      | some t =>
        obtain ⟨k, hk⟩ := ht t rfl
        rcases List.mem_cons.mp hb with rfl | hb
        · decide
        · exact ((typeCode_plain hk).2.2.2 b hb).2.2
  have hsplit : splitAt [61] (MdWords.text ⟨column, type, value⟩) =
      (column ++ type.elim [] (fun t => 58 :: t)) :: value.elim [] (fun v => [v]) := by
    unfold MdWords.text
    dsimp only
    rw [← List.append_assoc]
    cases value with
    | none => simpa using split_sole 61 _ hleft hno
    | some v => simpa using split_pair 61 _ v hleft (hv v rfl).1 hno (fun b hb => ((hv v rfl).2.2 b hb).2)
  have hcol : splitAt [58] (column ++ type.elim [] (fun t => 58 :: t)) = column :: type.elim [] (fun t => [t]) := by
    cases type with
    | none => simpa using split_sole 58 column hc1 (fun b hb => (hc2 b hb).2.1)
    | some t =>
      obtain ⟨k, hk⟩ := ht t rfl
      simpa using split_pair 58 column t hc1 (typeCode_plain hk).1 (fun b hb => (hc2 b hb).2.1)
        (fun b hb => ((typeCode_plain hk).2.2.2 b hb).2.1)
  unfold mdEntry
  rw [hsplit]
  dsimp only
  rw [hcol]
  dsimp only
  have hn : (lit "NONE").head? ≠ some 91 := by decide +kernel
  cases type with
  | none =>
    cases value with
    | none => exact (if_neg (fun x => hn x.1)).trans rfl
    | some v => exact (if_neg (fun x => hn x.1)).trans rfl
  | some t =>
    obtain ⟨k, hk⟩ := ht t rfl
    have := (typeCode_plain hk).2.2.1
    cases value with
    | none => exact (if_neg (fun x => this x.1)).trans rfl
    | some v => exact (if_neg (fun x => this x.1)).trans rfl

/-- A well-formed command line is understood. -/
theorem mdParse_text (atoi : Str → Int) (ws : List MdWords) (h : ∀ w ∈ ws, w.Ok) :
    mdParse atoi (joinWith 44 (ws.map MdWords.text)) = .ok (ws.map MdWords.entry) := by
  unfold mdParse
  rw [tokens_join [44] 44 (by simp) _ (by
    intro a ha
    obtain ⟨w, hw, rfl⟩ := List.mem_map.mp ha
    exact (h w hw).text_plain)]
  induction ws with
  | nil => rfl
  | cons w ws ih =>
    simp only [List.map_cons, mdEntries]
    rw [mdEntry_text atoi w (h w (by simp)), ih (fun x hx => h x (by simp [hx]))]

/-- Tokens are not empty and contain no separator. -/
theorem tokens_clean (seps : Str) (cur s : Str) (hc : ∀ b ∈ cur, b ∉ seps) :
    ∀ a ∈ tokens seps cur s, a ≠ [] ∧ ∀ b ∈ a, b ∉ seps ∧ (b ∈ cur ∨ b ∈ s) := by
  induction s generalizing cur with
  | nil =>
    intro a ha
    unfold tokens at ha
    by_cases h : cur = []
    · rw [if_pos h] at ha; simp at ha
    · rw [if_neg h, List.mem_singleton] at ha
      subst ha
      exact ⟨h, fun b hb => ⟨hc b hb, Or.inl hb⟩⟩
  | cons d s ih =>
    intro a ha
    simp only [tokens] at ha
    by_cases hd : d ∈ seps
    · rw [if_pos hd] at ha
      have key := ih [] (by simp)
      by_cases h : cur = []
      · rw [if_pos h] at ha
        obtain ⟨k1, k2⟩ := key a ha
        exact ⟨k1, fun b hb => ⟨(k2 b hb).1, Or.inr (List.mem_cons_of_mem _ ((k2 b hb).2.resolve_left (by simp)))⟩⟩
      · rw [if_neg h] at ha
        rcases List.mem_cons.mp ha with rfl | ha
        · exact ⟨h, fun b hb => ⟨hc b hb, Or.inl hb⟩⟩
        · obtain ⟨k1, k2⟩ := key a ha
          exact ⟨k1, fun b hb => ⟨(k2 b hb).1, Or.inr (List.mem_cons_of_mem _ ((k2 b hb).2.resolve_left (by simp)))⟩⟩
    · rw [if_neg hd] at ha
      obtain ⟨k1, k2⟩ := ih (cur ++ [d]) (by
        intro b hb
        rcases List.mem_append.mp hb with hb | hb
        · exact hc b hb
        · rw [List.mem_singleton] at hb; subst hb; exact hd) a ha
      refine ⟨k1, fun b hb => ⟨(k2 b hb).1, ?_⟩⟩
      rcases (k2 b hb).2 with h | h
      · rcases List.mem_append.mp h with h | h
        · exact Or.inl h
        · rw [List.mem_singleton] at h; subst h; exact Or.inr (by simp)
      · exact Or.inr (by simp [h])

/-- Whatever the command line, no member of a bitfield reaches the header: the members are split off with the type. -/
theorem mdEntry_bits {atoi : Str → Int} {s : Str} {x : MdEntry} (h : mdEntry atoi s = .ok x) : x.bits = [] := by
  unfold mdEntry at h
  cases h1 : splitAt [61] s with
  | nil => rw [h1] at h; cases h
  | cons a0 rest =>
    rw [h1] at h
    dsimp only at h
    cases h2 : splitAt [58] a0 with
    | nil => rw [h2] at h; cases h
    | cons column more =>
      rw [h2] at h
      dsimp only at h
      generalize hv : mdSecond rest = value at h
      generalize ht : mdSecond more = type at h
      have hno : (58 : Byte) ∉ type := by
        rw [← ht]
        have := tokens_clean [58] [] a0 (by simp)
        rw [show tokens [58] [] a0 = column :: more from h2] at this
        cases more with
        | nil => decide +kernel
        | cons t more =>
          cases more with
          | cons _ _ => exact (by decide +kernel : (58 : Byte) ∉ lit "NONE")
          | nil =>
            intro hm
            exact ((this t (by simp)).2 58 hm).1 (by simp)
      by_cases hb : type.head? = some 91 ∧ type.getLast? = some 93
      · rw [if_pos hb] at h
        have hp := tokens_clean [59] [] ((type.drop 1).take (type.length - 2)) (by simp)
        cases h3 : splitAt [59] ((type.drop 1).take (type.length - 2)) with
        | nil =>
          rw [h3] at h
          simp only [mdBits, Except.ok.injEq] at h
          rw [← h]
        | cons p ps =>
          exfalso
          rw [show tokens [59] [] ((type.drop 1).take (type.length - 2)) = p :: ps from h3] at hp
          obtain ⟨p1, p2⟩ := hp p (by simp)
          have hsp : splitAt [58] p = [p] := split_sole 58 p p1 (by
            intro b hb' he
            subst he
            rcases (p2 _ hb').2 with h | h
            · simp at h
            · exact hno (List.mem_of_mem_drop (List.mem_of_mem_take h)))
          rw [h3] at h
          simp only [mdBits, hsp] at h
          cases h
      · rw [if_neg hb, Except.ok.injEq] at h
        rw [← h]

/-! ### The updates -/

/-- Specification: the word a value text stands for: a number, or a string in quotes, of at most eight bytes, to which blanks
are added on the left. -/
inductive ValueText (toDouble : Str → Except Err Word) : Str → Word → Prop
  | number (s : Str) (w : Word) : s.head? ≠ some 34 → s.head? ≠ some 39 → toDouble s = .ok w → ValueText toDouble s w
  | quoted (q : Byte) (s : Str) : q = 34 ∨ q = 39 → s.length ≤ 8 →
      ValueText toDouble (q :: (s ++ [q])) (wordOfBytes (List.replicate (8 - s.length) 32 ++ s))

theorem translate_text {toDouble : Str → Except Err Word} {s : Str} {w : Word} (h : ValueText toDouble s w) :
    translate toDouble s = .ok w := by
  cases h with
  | number _ _ h1 h2 h3 =>
    unfold translate
    have : isInQuotes s = false := by
      unfold isInQuotes
      rw [decide_eq_false_iff_not]
      rintro ⟨_, ⟨h, _⟩ | ⟨h, _⟩⟩
      · exact h1 h
      · exact h2 h
    rw [this]
    exact h3
  | quoted q t hq hl =>
    unfold translate
    have hlast : (q :: (t ++ [q])).getLast? = some q := by
      rw [← List.cons_append, List.getLast?_append]; rfl
    have : isInQuotes (q :: (t ++ [q])) = true := by
      unfold isInQuotes
      rw [decide_eq_true_eq, hlast]
      refine ⟨by simp, ?_⟩
      rcases hq with rfl | rfl
      · exact Or.inl ⟨rfl, rfl⟩
      · exact Or.inr ⟨rfl, rfl⟩
    rw [this]
    have e : ((q :: (t ++ [q])).drop 1).take ((q :: (t ++ [q])).length - 2) = t := by
      simp
    rw [e]
    unfold castAsDouble
    rw [if_pos hl]
    rfl

/-- Specification: an update of the headers: a column, its new type if one is given, its new value if one is given. -/
structure MdUpdate where
  column : Str
  ty : Option Int
  value : Option Word

/-- Specification: the assignment asks for the update. -/
structure MdWords.Asks (toDouble : Str → Except Err Word) (w : MdWords) (u : MdUpdate) : Prop where
  column : u.column = w.column
  ty : (w.type = none ∧ u.ty = none) ∨ ∃ t k, w.type = some t ∧ u.ty = some k ∧ typeCode t = .ok k
  value : (w.value = none ∧ u.value = none) ∨ ∃ s v, w.value = some s ∧ u.value = some v ∧ ValueText toDouble s v

/-- Specification: the column after an update: the type, and the value as minimum and maximum of the column. -/
def MdUpdate.on (u : MdUpdate) (c : Col) : Col :=
  { c with ty := u.ty.getD c.ty,
           codec := { c.codec with min := u.value.getD c.codec.min, max := u.value.getD c.codec.max } }

/-- Specification: the column after all the updates whose name means it, in order. -/
inductive Updated : List MdUpdate → Col → Col → Prop
  | done (c : Col) : Updated [] c c
  | hit (u : MdUpdate) (us : List MdUpdate) (c c' : Col) : Means u.column c.name → Updated us (u.on c) c' → Updated (u :: us) c c'
  | miss (u : MdUpdate) (us : List MdUpdate) (c c' : Col) : ¬ Means u.column c.name → Updated us c c' → Updated (u :: us) c c'

/-- Specification: the codecs of constant columns. -/
def Kind.IsConstant (k : Kind) : Prop :=
  k = .constant ∨ k = .constOrMissing ∨ k = .realConstOrMissing ∨ k = .constantString ∨ k = .longConstantString

theorem saysConstant_iff (k : Kind) : k.saysConstant = true ↔ k.IsConstant := by
  unfold Kind.IsConstant
  cases k <;> decide +kernel

/-- Specification: the update can be made: its name means exactly one of the columns, which is constant if a value is given. -/
def MdUpdate.Allowed (u : MdUpdate) (cs : List Col) : Prop :=
  ∃ (p : Nat) (c : Col), cs[p]? = some c ∧ Means u.column c.name ∧
    (∀ (p' : Nat) (c' : Col), cs[p']? = some c' → Means u.column c'.name → p' = p) ∧
    (u.value ≠ none → c.codec.kind.IsConstant)

theorem Updated.name {us : List MdUpdate} {c c' : Col} (h : Updated us c c') : c'.name = c.name := by
  induction h with
  | done => rfl
  | hit u us c c' _ _ ih => rw [ih]; rfl
  | miss u us c c' _ _ ih => exact ih

theorem Updated.kind {us : List MdUpdate} {c c' : Col} (h : Updated us c c') : c'.codec.kind = c.codec.kind := by
  induction h with
  | done => rfl
  | hit u us c c' _ _ ih => rw [ih]; rfl
  | miss u us c c' _ _ ih => exact ih

theorem mdCol_asks {toDouble : Str → Except Err Word} {w : MdWords} {u : MdUpdate} (hw : w.Ok) (h : w.Asks toDouble u) (c : Col) :
    mdCol toDouble w.entry c =
      if u.value ≠ none ∧ c.codec.kind.saysConstant = false then .error .userError else .ok (u.on c) := by
  have hnone : ¬ (lit "NONE" ≠ [] ∧ lit "NONE" ≠ lit "NONE") := fun x => x.2 rfl
  have h1 : mdType w.entry c = .ok { c with ty := u.ty.getD c.ty } := by
    unfold mdType MdWords.entry
    dsimp only
    rcases h.ty with ⟨e1, e2⟩ | ⟨t, k, e1, e2, e3⟩
    · rw [e1, e2, Option.getD_none, if_neg hnone]
      rfl
    · rw [e1, e2]
      simp only [Option.getD_some]
      rw [if_pos ⟨(typeCode_plain e3).1, (typeCode_plain e3).2.1⟩, e3]
  unfold mdCol
  rw [h1]
  dsimp only
  have h2 : ∀ d, mdBitfield w.entry d = d := fun d => if_neg (fun x => x rfl)
  rw [h2]
  unfold mdValue MdWords.entry
  dsimp only
  rcases h.value with ⟨e1, e2⟩ | ⟨s, v, e1, e2, e3⟩
  · rw [e1, e2, Option.getD_none, if_neg hnone, if_neg (by simp)]
    unfold MdUpdate.on
    rw [e2]
    rfl
  · rw [e1, e2]
    simp only [Option.getD_some]
    obtain ⟨v1, v2, _⟩ := hw.value s e1
    rw [if_pos ⟨v1, v2⟩, translate_text e3]
    cases c.codec.kind.saysConstant with
    | false => simp
    | true =>
      simp only [if_true, ne_eq, reduceCtorEq, not_false_eq_true, true_and, Bool.true_eq_false, if_false, MdUpdate.on, e2,
        Option.getD_some]

theorem Match.set {α β : Type} {R : α → β → Prop} {as : List α} {bs : List β} (h : Match R as bs) (p : Nat) (a : α) (b : β)
    (hr : R a b) : Match R (as.set p a) (bs.set p b) := by
  induction h generalizing p with
  | nil => exact Match.nil
  | cons h1 h2 ih =>
    cases p with
    | zero => exact Match.cons hr h2
    | succ p => exact Match.cons h1 (ih p)

theorem columnIndex_of {cs : List Col} {q : Str} {p : Nat} {c : Col} (hc : cs[p]? = some c) (hm : Means q c.name)
    (hu : ∀ (p' : Nat) (c' : Col), cs[p']? = some c' → Means q c'.name → p' = p) :
    columnIndex (cs.map Col.name) q = .ok p := by
  refine ((C24_column_index _ _).1 p).mpr ⟨⟨c.name, by rw [List.getElem?_map, hc]; rfl, hm⟩, ?_⟩
  intro p' n' hn hm'
  rw [List.getElem?_map, Option.map_eq_some_iff] at hn
  obtain ⟨c', hc', rfl⟩ := hn
  exact hu p' c' hc' hm'

theorem Allowed.after {u u1 : MdUpdate} {cs : List Col} {p : Nat} {c : Col} (hc : cs[p]? = some c) (h : u.Allowed cs) :
    u.Allowed (cs.set p (u1.on c)) := by
  obtain ⟨q, d, h1, h2, h3, h4⟩ := h
  have hp : p < cs.length := (List.getElem?_eq_some_iff.mp hc).1
  have key : ∀ (p' : Nat) (c' : Col), (cs.set p (u1.on c))[p']? = some c' →
      ∃ c0, cs[p']? = some c0 ∧ c'.name = c0.name ∧ c'.codec.kind = c0.codec.kind := by
    intro p' c' h
    rw [List.getElem?_set] at h
    by_cases he : p = p'
    · rw [if_pos he, if_pos hp] at h
      subst he
      refine ⟨c, hc, ?_, ?_⟩ <;> (rw [← Option.some.inj h]; rfl)
    · rw [if_neg he] at h
      exact ⟨c', h, rfl, rfl⟩
  obtain ⟨d', hd'⟩ : ∃ d', (cs.set p (u1.on c))[q]? = some d' := by
    have : q < (cs.set p (u1.on c)).length := by
      rw [List.length_set]; exact (List.getElem?_eq_some_iff.mp h1).1
    exact ⟨_, List.getElem?_eq_getElem this⟩
  obtain ⟨d0, k1, k2, k3⟩ := key q d' hd'
  rw [h1] at k1
  obtain rfl : d = d0 := Option.some.inj k1
  refine ⟨q, d', hd', by rw [k2]; exact h2, ?_, fun hv => by rw [k3]; exact h4 hv⟩
  intro p' c' hc' hm
  obtain ⟨c0, k1, k2, _⟩ := key p' c' hc'
  exact h3 p' c0 k1 (by rw [← k2]; exact hm)

theorem mdCols_asks {toDouble : Str → Except Err Word} {ws : List MdWords} {us : List MdUpdate} (hw : ∀ w ∈ ws, w.Ok)
    (h : Match (MdWords.Asks toDouble) ws us) (cs : List Col) (ha : ∀ u ∈ us, u.Allowed cs) :
    ∃ cs', mdCols toDouble (ws.map MdWords.entry) cs = .ok cs' ∧ Match (Updated us) cs cs' := by
  induction h generalizing cs with
  | nil => exact ⟨cs, rfl, Match.self (fun c _ => Updated.done c)⟩
  | @cons w u ws us hwu hrest ih =>
    obtain ⟨p, c, h1, h2, h3, h4⟩ := ha u (by simp)
    have hi : columnIndex (cs.map Col.name) w.entry.column = .ok p := by
      have := columnIndex_of h1 h2 h3
      rw [hwu.column] at this
      exact this
    have hp : p < cs.length := (List.getElem?_eq_some_iff.mp h1).1
    obtain ⟨cs', e1, e2⟩ := ih (fun x hx => hw x (by simp [hx])) (cs.set p (u.on c)) (fun v hv => Allowed.after h1 (ha v (by simp [hv])))
    refine ⟨cs', ?_, ?_⟩
    · simp only [List.map_cons, mdCols]
      rw [hi]
      dsimp only
      rw [h1]
      dsimp only
      rw [mdCol_asks (hw w (by simp)) hwu, if_neg (by
        rintro ⟨hv, hk⟩
        have := (saysConstant_iff _).mpr (h4 hv)
        rw [this] at hk
        cases hk)]
      exact e1
    · refine Match.of_get _ _ ?_ ?_
      · have := e2.length; rwa [List.length_set] at this
      · intro i a b hia hib
        by_cases he : p = i
        · subst he
          rw [h1] at hia
          obtain rfl := Option.some.inj hia
          exact Updated.hit u us _ _ h2 (e2.get p _ _ (by rw [List.getElem?_set, if_pos rfl, if_pos hp]) hib)
        · refine Updated.miss u us _ _ (fun hm => he (h3 i a hia hm).symm) (e2.get i _ _ ?_ hib)
          rw [List.getElem?_set, if_neg he]
          exact hia

/-! ### The headers -/

/-- Specification: a column of a table and the column in its place after the updates; the members of a bitfield are only
stored with columns of type bitfield. -/
def MdColumn (us : List MdUpdate) (c c' : Col) : Prop :=
  ∃ d, Updated us c d ∧
    c' = { d with bitNames := if d.ty = 4 then d.bitNames else [], bitSizes := if d.ty = 4 then d.bitSizes else [] }

/-- What the updates leave alone. -/
theorem Updated.frame {us : List MdUpdate} {c d : Col} (h : Updated us c d) :
    d = { c with ty := d.ty, codec := { c.codec with min := d.codec.min, max := d.codec.max } } := by
  induction h with
  | done => rfl
  | hit u us c c' _ _ ih => rw [ih]; rfl
  | miss u us c c' _ _ ih => exact ih

theorem Updated.type {us : List MdUpdate} {c d : Col} (h : Updated us c d) :
    d.ty = c.ty ∨ ∃ u ∈ us, u.ty = some d.ty := by
  induction h with
  | done => exact Or.inl rfl
  | hit u us c c' _ _ ih =>
    rcases ih with e | ⟨v, hv, e⟩
    · cases hu : u.ty with
      | none =>
        left; rw [e]; simp [MdUpdate.on, hu]
      | some k =>
        right; refine ⟨u, by simp, ?_⟩
        rw [e, hu]; simp [MdUpdate.on, hu]
    · exact Or.inr ⟨v, by simp [hv], e⟩
  | miss u us c c' _ _ ih =>
    rcases ih with e | ⟨v, hv, e⟩
    · exact Or.inl e
    · exact Or.inr ⟨v, by simp [hv], e⟩

theorem Updated.value {us : List MdUpdate} {c d : Col} (h : Updated us c d) :
    (d.codec.min = c.codec.min ∧ d.codec.max = c.codec.max) ∨
      ∃ u ∈ us, ∃ v, u.value = some v ∧ Means u.column c.name ∧ d.codec.min = v ∧ d.codec.max = v := by
  induction h with
  | done => exact Or.inl ⟨rfl, rfl⟩
  | hit u us c c' hm _ ih =>
    rcases ih with ⟨e1, e2⟩ | ⟨x, hx, v, e⟩
    · cases hu : u.value with
      | none => left; rw [e1, e2]; simp [MdUpdate.on, hu]
      | some v => right; refine ⟨u, by simp, v, hu, hm, ?_, ?_⟩ <;> simp [e1, e2, MdUpdate.on, hu]
    · exact Or.inr ⟨x, by simp [hx], v, e⟩
  | miss u us c c' _ _ ih =>
    rcases ih with e | ⟨v, hv, e⟩
    · exact Or.inl e
    · exact Or.inr ⟨v, by simp [hv], e⟩

/-- Specification: the table of the strings of the column has no entry given twice (the width of the column is that of the
longest of the strings). -/
def Col.Tidy (c : Col) : Prop :=
  c.codec.kind = .int8String ∨ c.codec.kind = .int16String → c.codec.width = tableWidth c.codec.strings 1

theorem reload_minmax (asDbl : Bool) (ty : Int) (c : Codec) (a b : Word) :
    reload asDbl ty { c with min := a, max := b } = { reload asDbl ty c with min := a, max := b } := by
  unfold reload
  cases hk : c.kind <;> rfl

theorem reload_ty (ty ty' : Int) (c : Codec) : reload true ty c = reload true ty' c := by
  have : ∀ k, fresh k ty true = fresh k ty' true := by intro k; simp [fresh, vtOf]
  unfold reload
  rw [this]

theorem md_reads {asDbl : Bool} {us : List MdUpdate} {c d : Col} (hc : ColOk asDbl c) (ha : c.codec.Again asDbl c.ty)
    (ht : c.Tidy) (hty : ∀ u ∈ us, ∀ k, u.ty = some k → InI32 k) (hd : asDbl = true ∨ ∀ u ∈ us, u.ty = none)
    (h : Updated us c d) :
    let e : Col := { d with bitNames := if d.ty = 4 then d.bitNames else [], bitSizes := if d.ty = 4 then d.bitSizes else [] }
    saveColOk d = true ∧ (∀ o, putCol o d = putCol o e) ∧ ColOk asDbl e ∧ e.reload asDbl = e := by
  intro e
  have hf := h.frame
  have hn : d.name = c.name := h.name
  have hbn : d.bitNames = c.bitNames := by rw [hf]
  have hbs : d.bitSizes = c.bitSizes := by rw [hf]
  have hcd : d.codec = { c.codec with min := d.codec.min, max := d.codec.max } := by
    have := congrArg Col.codec hf; exact this
  generalize d.codec.min = mn at hcd
  generalize d.codec.max = mx at hcd
  have hrel : reload asDbl d.ty d.codec = d.codec := by
    have h0 : reload asDbl d.ty c.codec = c.codec := by
      have : reload asDbl d.ty c.codec = reload asDbl c.ty c.codec := by
        rcases hd with rfl | hd
        · exact reload_ty _ _ _
        · rcases h.type with e | ⟨u, hu, e⟩
          · rw [e]
          · rw [hd u hu] at e; cases e
      rw [this, ha.reload]
      by_cases hk : c.codec.kind = .int8String ∨ c.codec.kind = .int16String
      · rw [if_pos hk, ← ht hk]
      · rw [if_neg hk]
    rw [hcd, reload_minmax, h0]
  have hcast : c.codec.kind.isInt = true → ∃ w, toVT (vtOf c.codec.kind d.ty asDbl) c.codec.missing = .ok w := by
    intro hk
    rcases hd with rfl | hd
    · exact ⟨c.codec.missing, by simp [vtOf_dbl, toVT]⟩
    · rcases h.type with e | ⟨u, hu, e⟩
      · rw [e]; exact ha.save.cast hk
      · rw [hd u hu] at e; cases e
  have hity : InI32 d.ty := by
    rcases h.type with e | ⟨u, hu, e⟩
    · rw [e]; exact hc.ty
    · exact hty u hu _ e
  refine ⟨?_, ?_, ?_, ?_⟩
  · unfold saveColOk
    rw [decide_eq_true_eq, hbn, hbs]
    exact fun _ => hc.nb
  · intro o
    show putCol o d = putCol o e
    unfold putCol
    show _ = putStr o d.name ++ (putI32 o d.ty ++ ((if d.ty = 4 then _ else []) ++ saveCodec o d.codec))
    by_cases h4 : d.ty = 4
    · rw [if_pos h4, if_pos h4]
      show _ = putStr o d.name ++ (putI32 o d.ty ++ (putVec o (putStr o) (if d.ty = 4 then d.bitNames else []) ++
        putVec o (putI32 o) (if d.ty = 4 then d.bitSizes else []) ++ saveCodec o d.codec))
      rw [if_pos h4, if_pos h4]
    · rw [if_neg h4, if_neg h4]
  · refine ⟨by show LenOk d.name.length; rw [hn]; exact hc.name, hity, ?_, ?_, ?_, ?_, ?_, ?_⟩
    · intro h4
      exact ⟨if_neg h4, if_neg h4⟩
    · show (if d.ty = 4 then d.bitNames else []).length = (if d.ty = 4 then d.bitSizes else []).length
      rw [hbn, hbs]
      split
      · exact hc.nb
      · rfl
    · show LenOk (if d.ty = 4 then d.bitNames else []).length
      rw [hbn]
      split
      · exact hc.nbOk
      · decide
    · show ∀ s ∈ (if d.ty = 4 then d.bitNames else []), LenOk s.length
      rw [hbn]
      split
      · exact hc.bn
      · simp
    · show ∀ s ∈ (if d.ty = 4 then d.bitSizes else []), InI32 s
      rw [hbs]
      split
      · exact hc.bs
      · simp
    · show SaveOk asDbl d.ty d.codec
      rw [hcd]
      exact ⟨ha.save.hm, ha.save.nstr, ha.save.slen, hcast⟩
  · show { e with codec := reload asDbl d.ty d.codec } = e
    rw [hrel]

theorem putVar_cols (o : Order) (h : HeaderInfo) (ds es : List Col) (hl : Match (fun d e => putCol o d = putCol o e) ds es) :
    putVar o { h with cols := ds } = putVar o { h with cols := es } := by
  unfold putVar
  dsimp only
  rw [hl.length]
  have : ds.flatMap (putCol o) = es.flatMap (putCol o) := by
    induction hl with
    | nil => rfl
    | cons h1 _ ih => rw [List.flatMap_cons, List.flatMap_cons, h1, ih]
  rw [this]

/-- Specification: the updates can be made in a table with these columns: `Allowed`, string columns do not get a NaN, and the
string tables are tidy. -/
structure MdOk (us : List MdUpdate) (cs : List Col) : Prop where
  allowed : ∀ u ∈ us, u.Allowed cs
  nan : ∀ u ∈ us, ∀ c ∈ cs, ∀ v, u.value = some v → Means u.column c.name → c.codec.kind.isChars = true → isNaN v = false
  tidy : ∀ c ∈ cs, c.Tidy

/-- Proof device: the frame that is written in place of another. -/
structure MdRaw (env : Env) (us : List MdUpdate) (r r' : RawFrame) : Prop where
  ok : r'.Ok env
  order : r'.order = r.order
  nrows : r'.info.nrows = r.info.nrows
  size : r'.info.dataSize = r.info.dataSize
  props : r'.info.props = r.info.props
  cols : Match (MdColumn us) r.info.cols r'.info.cols
  data : r'.data = r.data
  copy : cloneCols r'.info.cols = .ok r'.info.cols

theorem clone_ok_of (cs : List Col) (h : cloneCols cs = .ok cs) : ∀ c ∈ cs, c.codec.clone = .ok c.codec := by
  induction cs with
  | nil => simp
  | cons c cs ih =>
    unfold cloneCols at h
    cases hk : c.codec.clone with
    | error e => rw [hk] at h; cases h
    | ok k =>
      rw [hk] at h
      dsimp only at h
      cases hcs : cloneCols cs with
      | error e => rw [hcs] at h; cases h
      | ok cs' =>
        rw [hcs] at h
        simp only [Except.ok.injEq, List.cons.injEq] at h
        obtain ⟨h1, h2⟩ := h
        subst h2
        intro x hx
        rcases List.mem_cons.mp hx with rfl | hx
        · rw [hk, ← congrArg Col.codec h1]
        · exact ih hcs x hx

/-- What is written for one table. -/
theorem mdTable_raw (env : Env) (hmd5 : env.Md5Ok) {toDouble : Str → Except Err Word} {ws : List MdWords} {us : List MdUpdate}
    (hw : ∀ w ∈ ws, w.Ok) (ha : Match (MdWords.Asks toDouble) ws us) (hd : env.asDbl = true ∨ ∀ u ∈ us, u.ty = none)
    (f : File) (t : Tbl) (r : RawFrame) (hr : r.Ok env) (hi : t.info = r.info) (ho : t.order = r.order)
    (hdat : t.data f = .ok r.data) (hm : MdOk us t.info.cols) :
    ∃ b, mdTable env toDouble f (ws.map MdWords.entry) t = .ok b ∧ r.data.length ≤ b.length ∧
      (t.copy = .ok t → b.length ≤ 2147483647 → ∃ r' : RawFrame, r'.bytes = b ∧ MdRaw env us r r') := by
  obtain ⟨ds, h1, h2⟩ := mdCols_asks hw ha t.info.cols hm.allowed
  obtain ⟨hok, hag⟩ := parse_headerOk hr.1
  have hty : ∀ u ∈ us, ∀ k, u.ty = some k → InI32 k := by
    intro u hu k hk
    obtain ⟨w, hw', hwu⟩ := ha.mem_left' hu
    rcases hwu.ty with ⟨_, e⟩ | ⟨s, k', _, e2, e3⟩
    · rw [hk] at e; cases e
    · rw [hk] at e2
      obtain rfl := Option.some.inj e2
      unfold typeCode at e3
      have : k = 0 ∨ k = 1 ∨ k = 2 ∨ k = 5 ∨ k = 3 ∨ k = 4 := by
        revert e3
        split
        · intro e; cases e; simp
        · split
          · intro e; cases e; simp
          · split
            · intro e; cases e; simp
            · split
              · intro e; cases e; simp
              · split
                · intro e; cases e; simp
                · split
                  · intro e; cases e; simp
                  · intro e; cases e
      unfold InI32
      omega
  let drop : Col → Col := fun d => { d with bitNames := if d.ty = 4 then d.bitNames else [], bitSizes := if d.ty = 4 then d.bitSizes else [] }
  have key : ∀ (i : Nat) (c d : Col), t.info.cols[i]? = some c → ds[i]? = some d →
      saveColOk d = true ∧ (∀ o, putCol o d = putCol o (drop d)) ∧ ColOk env.asDbl (drop d) ∧ (drop d).reload env.asDbl = drop d := by
    intro i c d hc hd'
    have hmem : c ∈ t.info.cols := List.mem_of_getElem? hc
    rw [hi] at hmem
    exact md_reads (hok.cols c hmem) (hag c hmem) (hm.tidy c (by rw [hi]; exact hmem)) hty hd (h2.get i c d hc hd')
  have hds : ∀ d ∈ ds, saveColOk d = true ∧ (∀ o, putCol o d = putCol o (drop d)) ∧ ColOk env.asDbl (drop d) ∧ (drop d).reload env.asDbl = drop d := by
    intro d hd'
    obtain ⟨i, hil, rfl⟩ := List.mem_iff_getElem.mp hd'
    have : i < t.info.cols.length := by rw [h2.length]; exact hil
    exact key i _ _ (List.getElem?_eq_getElem this) (List.getElem?_eq_getElem hil)
  refine ⟨putHeader env.md5 t.order { t.info with cols := ds } ++ r.data, ?_, by simp, ?_⟩
  · unfold mdTable
    rw [h1]
    dsimp only
    rw [hdat]
    dsimp only
    rw [if_pos (List.all_eq_true.mpr (fun d hd' => (hds d hd').1))]
  · intro hcopy hsz
    have hput : putHeader env.md5 t.order { t.info with cols := ds } = putHeader env.md5 t.order { r.info with cols := ds.map drop } := by
      unfold putHeader
      have := putVar_cols t.order t.info ds (ds.map drop) (Match.of_get _ _ (by simp) (by
        intro i a b h1 h2
        rw [List.getElem?_map, h1] at h2
        obtain rfl := Option.some.inj h2
        exact (hds a (List.mem_of_getElem? h1)).2.1 _))
      rw [this, hi]
    have hmem : ∀ e ∈ ds.map drop, ∃ d ∈ ds, e = drop d := by
      intro e he
      obtain ⟨d, hd', rfl⟩ := List.mem_map.mp he
      exact ⟨d, hd', rfl⟩
    have hinfo : HeaderOk env.asDbl { r.info with cols := ds.map drop } := by
      refine ⟨hok.ds, hok.nr, hok.np, hok.sorted, hok.pk, ?_, ?_⟩
      · show LenOk (ds.map drop).length
        rw [List.length_map, ← h2.length, hi]
        exact hok.nc
      · intro e he
        obtain ⟨d, hd', rfl⟩ := hmem e he
        exact (hds d hd').2.2.1
    have hrel : HeaderInfo.reload env.asDbl { r.info with cols := ds.map drop } = { r.info with cols := ds.map drop } := by
      unfold HeaderInfo.reload
      congr 1
      show (ds.map drop).map (Col.reload env.asDbl) = ds.map drop
      rw [List.map_map]
      apply List.map_congr_left
      intro d hd'
      exact (hds d hd').2.2.2
    have hlen : LenOk (putVar t.order { r.info with cols := ds.map drop }).length := by
      rw [hput] at hsz
      unfold putHeader at hsz
      simp only [List.length_append] at hsz
      refine Nat.le_trans ?_ hsz
      show (putVar t.order (HeaderInfo.mk r.info.dataSize r.info.nrows r.info.props (ds.map drop))).length ≤ _
      omega
    have hparse := parseHeader_put env.md5 hmd5 env.asDbl t.order _ hinfo hlen r.data
    rw [hrel] at hparse
    refine ⟨⟨_, { r.info with cols := ds.map drop }, t.order, r.data⟩, rfl, ⟨⟨?_, hr.2⟩, ho, rfl, rfl, rfl, ?_, rfl, ?_⟩⟩
    · show parseHeader _ _ (putHeader env.md5 t.order { t.info with cols := ds } ++ r.data) = _
      rw [hput]
      exact hparse
    · show Match (MdColumn us) r.info.cols (ds.map drop)
      rw [← hi]
      refine Match.of_get _ _ (by rw [List.length_map, h2.length]) ?_
      intro i c e hc he
      rw [List.getElem?_map, Option.map_eq_some_iff] at he
      obtain ⟨d, hd', rfl⟩ := he
      exact ⟨d, h2.get i c d hc hd', rfl⟩
    · show cloneCols (ds.map drop) = .ok (ds.map drop)
      have hcl : cloneCols t.info.cols = .ok t.info.cols := by
        unfold Tbl.copy at hcopy
        cases hx : cloneCols t.info.cols with
        | error e => rw [hx] at hcopy; cases hcopy
        | ok cs =>
          rw [hx] at hcopy
          simp only [Except.ok.injEq] at hcopy
          have := congrArg (fun t : Tbl => t.info.cols) hcopy
          dsimp only at this
          rw [this]
      have hold := clone_ok_of _ hcl
      apply cloneCols_of
      intro e he
      obtain ⟨i, hil, rfl⟩ := List.mem_iff_getElem.mp he
      simp only [List.length_map] at hil
      rw [List.getElem_map]
      have hic : i < t.info.cols.length := by rw [h2.length]; exact hil
      have hu := h2.get i _ _ (List.getElem?_eq_getElem hic) (List.getElem?_eq_getElem hil)
      have hc0 := hold _ (List.getElem_mem hic)
      show (ds[i].codec).clone = .ok ds[i].codec
      unfold Codec.clone at hc0 ⊢
      rw [hu.kind]
      cases hch : (t.info.cols[i]).codec.kind.isChars with
      | false => simp
      | true =>
        rw [hch] at hc0
        have hfe : feq ds[i].codec.min ds[i].codec.min = true ∧ feq ds[i].codec.max ds[i].codec.max = true := by
          rcases hu.value with ⟨e1, e2⟩ | ⟨u, hu', v, e1, e2, e3, e4⟩
          · rw [e1, e2]
            simp only [Bool.true_and] at hc0
            split at hc0
            · cases hc0
            · rename_i hx
              simpa using hx
          · rw [e3, e4]
            have := feq_self (hm.nan u hu' _ (List.getElem_mem hic) v e1 e2 hch)
            exact ⟨this, this⟩
        rw [hfe.1, hfe.2]
        rfl

/-! ### The file -/

/-- Proof device: what is written for the tables of a file that ends with `fin`. -/
def mdAll (env : Env) (toDouble : Str → Except Err Word) (f : File) (xs : List MdEntry) (fin : Option Err) : List Tbl → List Byte × Option Err
  | [] => ([], fin)
  | t :: ts =>
    match mdTable env toDouble f xs t with
    | .error e => ([], some e)
    | .ok b => (b ++ (mdAll env toDouble f xs fin ts).1, (mdAll env toDouble f xs fin ts).2)

theorem mdLoop_scan {env : Env} {toDouble : Str → Except Err Word} {f : File} {xs : List MdEntry} {ts : List Tbl} {fin : Option Err}
    (h : Scan env f ts fin) (fuel p : Nat) (out : List Byte) (hp : p < ts.length) (hf : ts.length - p < fuel) :
    mdLoop env toDouble f xs fuel (ts.take (p + 1)) p out =
      (out ++ (mdAll env toDouble f xs fin (ts.drop p)).1, (mdAll env toDouble f xs fin (ts.drop p)).2) := by
  induction fuel generalizing p out with
  | zero => omega
  | succ fuel ih =>
    have hd : ts.drop p = ts[p] :: ts.drop (p + 1) := List.drop_eq_getElem_cons hp
    simp only [mdLoop]
    rw [if_neg (by omega), itGet_take ts (p + 1) p (by omega) (by omega), hd]
    dsimp only [mdAll]
    cases hm : mdTable env toDouble f xs ts[p] with
    | error e => simp
    | ok b =>
      dsimp only
      rw [itIncr_scan h (p + 1) p (by omega) (by omega)]
      by_cases h1 : p + 1 < ts.length
      · rw [if_pos h1]
        dsimp only
        have := ih (p + 1) (out ++ b) h1 (by omega)
        rw [show max (p + 1) (p + 2) = p + 1 + 1 by omega, show (p : Int) + 1 = ((p + 1 : Nat) : Int) by omega, this]
        simp [List.append_assoc]
      · rw [if_neg h1]
        have hnil : ts.drop (p + 1) = [] := List.drop_eq_nil_of_le (by omega)
        rw [hnil]
        cases fin with
        | some e => simp [mdAll]
        | none =>
          dsimp only
          cases fuel with
          | zero => omega
          | succ fuel => simp [mdLoop, mdAll]

/-- `mdset` on a file whose tables are known. -/
theorem mdset_scan {env : Env} {toDouble : Str → Except Err Word} {atoi : Str → Int} {updates : Str} {xs : List MdEntry}
    {bytes : List Byte} {ts : List Tbl} {fin : Option Err} (hx : mdParse atoi updates = .ok xs)
    (h : Scan env (File.known bytes) ts fin) (hl : ts.length ≤ bytes.length) :
    mdset env toDouble atoi updates bytes = mdAll env toDouble (File.known bytes) xs fin ts := by
  have h2 := ensure_scan h 0 (by omega) 0 (by omega)
  simp only [List.take_zero] at h2
  rw [show ((0 : Nat) : Int) = 0 by rfl] at h2
  unfold mdset
  rw [hx]
  dsimp only
  rw [h2]
  by_cases h0 : 0 < ts.length
  · rw [if_pos h0]
    dsimp only
    have := mdLoop_scan (toDouble := toDouble) (xs := xs) h (bytes.length + 1) 0 [] h0 (by omega)
    rw [show max 0 (0 + 1) = 0 + 1 by omega]
    rw [show ((0 : Nat) : Int) = 0 by rfl] at this
    rw [this]
    simp
  · rw [if_neg h0]
    have : ts = [] := List.length_eq_zero_iff.mp (by omega)
    subst this
    cases fin with
    | some e => rfl
    | none => simp [mdLoop, mdAll]

/-- Specification: the frame of the new file in place of a frame of the old one: same byte order, number of rows, properties
and data; the columns changed as asked. -/
def MdFrame (us : List MdUpdate) (old new : List Byte) (fr fr' : List Tbl) : Prop :=
  ∃ (t t' : Tbl) (d : List Byte), fr = [t] ∧ fr' = [t'] ∧ t'.order = t.order ∧ t'.info.nrows = t.info.nrows ∧
    t'.info.props = t.info.props ∧ t'.info.dataSize = t.info.dataSize ∧ Match (MdColumn us) t.info.cols t'.info.cols ∧
    t.data (File.known old) = .ok d ∧ t'.data (File.known new) = .ok d

theorem mdAll_raw (env : Env) (hmd5 : env.Md5Ok) {toDouble : Str → Except Err Word} {ws : List MdWords} {us : List MdUpdate}
    (hw : ∀ w ∈ ws, w.Ok) (ha : Match (MdWords.Asks toDouble) ws us) (hd : env.asDbl = true ∨ ∀ u ∈ us, u.ty = none)
    (f : File) (fin : Option Err) (ts : List Tbl) (rs : List RawFrame)
    (hts : Match (fun t r => r.Ok env ∧ t.info = r.info ∧ t.order = r.order ∧ t.data f = .ok r.data ∧ t.copy = .ok t ∧ MdOk us t.info.cols) ts rs) :
    ∃ bss : List (List Byte), mdAll env toDouble f (ws.map MdWords.entry) fin ts = (bss.flatten, fin) ∧ bss.length = ts.length ∧
      ((∀ b ∈ bss, b.length ≤ 2147483647) → ∃ rs', rs'.map RawFrame.bytes = bss ∧ Match (MdRaw env us) rs rs') := by
  induction hts with
  | nil => exact ⟨[], rfl, rfl, fun _ => ⟨[], rfl, Match.nil⟩⟩
  | @cons t r ts rs h _ ih =>
    obtain ⟨bss, e1, e2, e3⟩ := ih
    obtain ⟨b, b1, b2, b3⟩ := mdTable_raw env hmd5 hw ha hd f t r h.1 h.2.1 h.2.2.1 h.2.2.2.1 h.2.2.2.2.2
    refine ⟨b :: bss, ?_, by simp [e2], ?_⟩
    · simp only [mdAll]
      rw [b1, e1]
      rfl
    · intro hs
      obtain ⟨rs', k1, k2⟩ := e3 (fun x hx => hs x (by simp [hx]))
      obtain ⟨r', m1, m2⟩ := b3 h.2.2.2.2.1 (hs b (by simp))
      exact ⟨r' :: rs', by simp [k1, m1], Match.cons m2 k2⟩

theorem fileOf_bytes (rs : List RawFrame) : fileOf rs = (rs.map RawFrame.bytes).flatten := by
  unfold fileOf; rw [List.flatMap_def]

/-- **C49**: on every file that the frame interface reads to the end, whoever wrote it and in whichever byte order: if each
update names one column of every frame, which is constant if a value is given, `odc mdset` writes a file that is read to the
end, frame by frame with the rows, the properties, the data and the columns of the old one, except for the types and the
values (minimum and maximum of constant columns) that were asked for. -/
theorem C49_mdset (env : Env) (hmd5 : env.Md5Ok) (bytes : List Byte) (fs : List (List Tbl)) (h : readPlain env bytes = (fs, none))
    (hs : SizedFrames fs) (toDouble : Str → Except Err Word) (atoi : Str → Int) (ws : List MdWords) (us : List MdUpdate)
    (hw : ∀ w ∈ ws, w.Ok) (ha : Match (MdWords.Asks toDouble) ws us) (hd : env.asDbl = true ∨ ∀ u ∈ us, u.ty = none)
    (hok : ∀ fr ∈ fs, ∀ t ∈ fr, MdOk us t.info.cols) :
    ∃ bss : List (List Byte), mdset env toDouble atoi (joinWith 44 (ws.map MdWords.text)) bytes = (bss.flatten, none) ∧
      bss.length = fs.length ∧
      ((∀ b ∈ bss, b.length ≤ 2147483647) →
        ∃ fs', readPlain env bss.flatten = (fs', none) ∧ Match (MdFrame us bytes bss.flatten) fs fs') := by
  obtain ⟨ts, h1, rfl, h2⟩ := readPlain_iff.mp h
  have hsz : Sized ts := by
    unfold SizedFrames at hs
    rwa [flatten_singles] at hs
  obtain ⟨rs, r1, r2, r3⟩ := scan_raw h1 hsz
  have hts : Match (fun t r => r.Ok env ∧ t.info = r.info ∧ t.order = r.order ∧ t.data (File.known bytes) = .ok r.data ∧
      t.copy = .ok t ∧ MdOk us t.info.cols) ts rs := by
    refine Match.of_get _ _ (by rw [r2, layout_length]) ?_
    intro i t r hi hr
    obtain ⟨a, rest, b⟩ := layout_split (File.known bytes) env rs r1 0 [] (by simp [File.known, r3]) i r hr
    rw [show ((0 : Nat) : Int) = 0 from rfl, ← r2, hi] at a
    obtain rfl := Option.some.inj a
    have hmem := List.mem_of_getElem? hi
    exact ⟨r1 r (List.mem_of_getElem? hr), rfl, rfl, (stored_table env _ r (r1 r (List.mem_of_getElem? hr)) _ rest b).1,
      h2 _ hmem, hok _ (List.mem_map.mpr ⟨_, hmem, rfl⟩) _ (by simp)⟩
  obtain ⟨bss, e1, e2, e3⟩ := mdAll_raw env hmd5 hw ha hd (File.known bytes) none ts rs hts
  refine ⟨bss, ?_, by simp [e2], ?_⟩
  · rw [mdset_scan (mdParse_text atoi ws hw) h1 h1.few, e1]
  · intro hb
    obtain ⟨rs', k1, k2⟩ := e3 hb
    have hf : bss.flatten = fileOf rs' := by rw [fileOf_bytes, k1]
    have hall : ∀ r' ∈ rs', r'.Ok env := by
      intro r' hr'
      obtain ⟨r, _, hrr⟩ := k2.mem_left' hr'
      exact hrr.ok
    have hsc : Scan env (File.known bss.flatten) (layout 0 rs') none := by
      rw [hf]
      exact scan_fileOf env rs' hall _ (Or.inr rfl)
    refine ⟨(layout 0 rs').map (fun t => [t]), readPlain_iff.mpr ⟨_, hsc, rfl, ?_⟩, ?_⟩
    · intro t ht
      obtain ⟨r', hr', hri⟩ := layout_infos 0 rs' t ht
      obtain ⟨r, _, hrr⟩ := k2.mem_left' hr'
      exact Tbl.copy_of t (by rw [hri]; exact hrr.copy)
    · refine Match.of_get _ _ (by simp [layout_length, r2, k2.length]) ?_
      intro i fr fr' hi hi'
      rw [List.getElem?_map, Option.map_eq_some_iff] at hi hi'
      obtain ⟨t, ht, rfl⟩ := hi
      obtain ⟨t', ht', rfl⟩ := hi'
      have hil : i < ts.length := (List.getElem?_eq_some_iff.mp ht).1
      have hir : i < rs.length := by rwa [r2, layout_length] at hil
      have hir' : i < rs'.length := by rw [← k2.length]; exact hir
      have hrr := k2.get i _ _ (List.getElem?_eq_getElem hir) (List.getElem?_eq_getElem hir')
      have htr := hts.get i _ _ ht (List.getElem?_eq_getElem hir)
      obtain ⟨a, rest, b⟩ := layout_split (File.known bss.flatten) env rs' hall 0 [] (by simp [File.known, hf]) i _
        (List.getElem?_eq_getElem hir')
      rw [show ((0 : Nat) : Int) = 0 from rfl, ht'] at a
      obtain rfl := Option.some.inj a
      refine ⟨t, _, rs[i].data, rfl, rfl, ?_, ?_, ?_, ?_, ?_, htr.2.2.2.1, ?_⟩
      · rw [htr.2.2.1]; exact hrr.order
      · rw [htr.2.1]; exact hrr.nrows
      · rw [htr.2.1]; exact hrr.props
      · rw [htr.2.1]; exact hrr.size
      · rw [htr.2.1]; exact hrr.cols
      · rw [(stored_table env _ _ (hall _ (List.getElem_mem hir')) _ rest b).1, hrr.data]

end Verif
