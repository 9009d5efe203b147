import Verif.DocFrame
import Verif.UserTable

/-
What the encoder writes, as described by the file format document.
-/

namespace Verif

/-! ### Which codecs are chosen -/

/-- Proof device: codecs of text. -/
def Doc.Which.isText : Doc.Which → Bool
  | .constantString | .chars | .int8String | .int16String => true
  | _ => false

theorem intKind_doc (b : Bool) (n : Int) : (whichOf (intKind b n)).isText = false ∧ intKind b n ≠ .longConstantString := by
  unfold intKind
  repeat' split
  all_goals exact ⟨rfl, by simp⟩

/-- Proof device: codecs of numbers that are passed as integers if the column is one of integers. -/
def Doc.Which.mayInt : Doc.Which → Bool
  | .int8 | .int16 | .int32 | .int8Missing | .int16Missing | .constantOrMissing | .constant => true
  | _ => false

theorem Doc.Col.integral_eq (asDbl : Bool) (c : Doc.Col) :
    c.integral asDbl = (!asDbl && (c.type == 1 || c.type == 4) && c.codec.which.mayInt) := by
  unfold Doc.Col.integral Doc.Which.mayInt
  cases c.codec.which <;> rfl

theorem chosen_mayInt {ty : ColType} {asDbl b : Bool} {w : Nat} {m? : Option Word} {cells : List Cell} {c : Codec}
    (hty : ty = .integer ∨ ty = .bitfield) (h : chosenCodec ty asDbl b w m? cells = .ok c) : (whichOf c.kind).mayInt = true := by
  have hk : ∀ b n, (whichOf (intKind b n)).mayInt = true := by
    intro b n
    unfold intKind
    repeat' split
    all_goals rfl
  unfold chosenCodec at h
  split at h
  · simp at h
  rename_i c0 h0
  unfold optimise at h
  rcases hty with rfl | rfl
  · simp only at h
    split at h
    · rw [rebuild_kind h]
      exact hk _ _
    · simp at h
  · simp only at h
    split at h
    · rw [rebuild_kind h]
      exact hk _ _
    · simp at h

/-- Unless long constant strings are enabled, the encoder chooses documented codecs, those of text for text only. -/
theorem chosen_doc {ty : ColType} {asDbl : Bool} {w : Nat} {m? : Option Word} {cells : List Cell} {c : Codec}
    (h : chosenCodec ty asDbl false w m? cells = .ok c) :
    c.kind ≠ .longConstantString ∧ (whichOf c.kind).isText = decide (ty = .string) := by
  unfold chosenCodec at h
  split at h
  · simp at h
  rename_i c0 h0
  unfold optimise at h
  cases ty <;> simp only at h
  · simp [startCodec, defaultCodec] at h0
  · split at h
    · rw [rebuild_kind h]
      exact ⟨(intKind_doc _ _).2, (intKind_doc _ _).1⟩
    · simp at h
  · split at h
    · split at h
      · rename_i k hk
        rw [rebuild_kind h]
        unfold realKind at hk
        repeat' split at hk
        all_goals first
          | (simp only [Except.ok.injEq] at hk; subst hk; (try split) <;> exact ⟨by simp, rfl⟩)
          | simp at hk
      · simp at h
    · simp at h
  · split at h
    · cases hr : rebuild (strKind false (c0.gatherAll cells).strings.length (c0.gatherAll cells).width) ColType.string asDbl
        (c0.gatherAll cells) with
      | error e => simp [hr] at h
      | ok c' =>
        simp only [hr] at h
        have hk : c.kind = strKind false (c0.gatherAll cells).strings.length (c0.gatherAll cells).width := by
          rw [← rebuild_kind hr]
          split at h
          · simp only [Except.ok.injEq] at h
            rw [h]
          · simp only [Except.ok.injEq] at h
            rw [← h]
        rw [hk]
        unfold strKind
        simp only [Bool.false_eq_true, and_false, if_false]
        repeat' split
        all_goals exact ⟨by simp, rfl⟩
    · simp at h
  · split at h
    · rw [rebuild_kind h]
      exact ⟨(intKind_doc _ _).2, (intKind_doc _ _).1⟩
    · simp at h
  · rw [rebuild_kind h]
    repeat' split
    all_goals exact ⟨by simp, rfl⟩

/-! ### Columns -/

/-- Proof device: the column the encoder writes, as documented. -/
def EncCol.doc (e : EncCol) : Doc.Col := ⟨e.info.name, e.info.ty.toInt, e.info.bits, docOf e.codec⟩

/-- Proof device: what is needed of a column that was written. -/
structure EncCol.Fits (env : Env) (e : EncCol) : Prop where
  save : SaveOk env.asDbl e.info.ty.toInt e.codec
  trip : ∀ o, ∀ x ∈ e.data.cells, CellTrip o env.asDbl e.info.ty.toInt e.codec x (e.back x)
  name : LenOk e.info.name.length
  nbits : LenOk e.info.bits.length
  bits : ∀ b ∈ e.info.bits, LenOk b.1.length ∧ InI32 b.2
  noBits : e.info.ty ≠ .bitfield → e.info.bits = []

theorem EncCol.Ok.fits {env : Env} {n : Nat} {e : EncCol} (h : e.Ok env n) : e.Fits env :=
  ⟨h.travels.save, h.travels.trip, h.name, h.nbits, h.bits, h.noBits⟩

theorem EncCol.doc_bytes {env : Env} {e : EncCol} (h : e.Fits env) (hl : e.codec.kind ≠ .longConstantString) (o : Order) :
    e.doc.bytes (endian o) = putCol o e.col := by
  have h1 : e.info.bits.flatMap (fun b => Doc.string (endian o) b.1) = (e.info.bits.map Prod.fst).flatMap (putStr o) := by
    rw [List.flatMap_map]
    have hb : ∀ b ∈ e.info.bits, LenOk b.1.length := fun b hb => (h.bits b hb).1
    generalize e.info.bits = bits at hb ⊢
    clear * - hb
    induction bits with
    | nil => rfl
    | cons b bs ih =>
      rw [List.flatMap_cons, List.flatMap_cons, ih (fun x hx => hb x (by simp [hx])), string_eq o _ (hb b (by simp))]
  have h2 : e.info.bits.flatMap (fun b => Doc.int32 (endian o) b.2) = (e.info.bits.map Prod.snd).flatMap (putI32 o) := by
    rw [List.flatMap_map]
    simp only [int32_eq]
  have hk : LenOk (docOf e.codec).which.name.length := by rw [which_name]; exact Kind.name_len _
  unfold Doc.Col.bytes putCol saveCodec
  show Doc.string (endian o) e.info.name ++ Doc.int32 (endian o) e.info.ty.toInt ++
    (if e.info.ty.toInt = 4 then Doc.int32 (endian o) e.info.bits.length ++ e.info.bits.flatMap (fun b => Doc.string (endian o) b.1) ++
      Doc.int32 (endian o) e.info.bits.length ++ e.info.bits.flatMap (fun b => Doc.int32 (endian o) b.2) else []) ++
    Doc.string (endian o) (docOf e.codec).which.name ++ (docOf e.codec).bytes (endian o) = _
  rw [string_eq o _ h.name, int32_eq, h1, h2, string_eq o _ hk, docOf_save o _ hl h.save.nstr h.save.slen, which_name]
  have hkn : kindOf (docOf e.codec).which = e.codec.kind := kindOf_whichOf _ hl
  rw [hkn]
  simp only [EncCol.col, putVec, int32_eq, List.length_map, List.append_assoc]

theorem EncCol.doc_valid {env : Env} {e : EncCol} (h : e.Fits env) (hl : e.codec.kind ≠ .longConstantString)
    (hc : (reload env.asDbl e.info.ty.toInt e.codec).clone = .ok (reload env.asDbl e.info.ty.toInt e.codec)) :
    e.doc.Valid env.asDbl where
  name := h.name
  type := ColType.toInt_inI32 _
  bits := by
    intro ht
    exact h.noBits (fun hb => ht ((ColType.toInt_four _).mpr hb))
  nbits := h.nbits
  members := h.bits
  hasMissing := h.save.hm
  nstrings := by
    show (docOf e.codec).strings.length ≤ _
    unfold docOf
    split
    · exact h.save.nstr
    · simp
  strings := by
    intro s hs
    change s ∈ (docOf e.codec).strings at hs
    unfold docOf at hs
    split at hs
    · exact h.save.slen s hs
    · simp at hs
  noStrings := by
    intro h8 h16
    change (docOf e.codec).strings = []
    change whichOf e.codec.kind ≠ _ at h8
    change whichOf e.codec.kind ≠ _ at h16
    unfold docOf
    dsimp only
    rw [if_neg]
    rintro (hk | hk)
    · rw [hk] at h8; exact h8 rfl
    · rw [hk] at h16; exact h16 rfl
  range := by
    intro hw
    have hk : (reload env.asDbl e.info.ty.toInt e.codec).kind.isChars = true := by
      rw [reload_kind, ← kindOf_whichOf _ hl]
      change whichOf e.codec.kind = _ ∨ whichOf e.codec.kind = _ ∨ whichOf e.codec.kind = _ at hw
      rcases hw with hw | hw | hw <;> rw [hw] <;> rfl
    unfold Codec.clone at hc
    obtain ⟨_, _, e3, e4, _⟩ := reload_fields env.asDbl e.doc
    change (reload env.asDbl e.info.ty.toInt (ofDoc (docOf e.codec))).min = e.codec.min at e3
    change (reload env.asDbl e.info.ty.toInt (ofDoc (docOf e.codec))).max = e.codec.max at e4
    rw [reload_docOf _ _ _ hl] at e3 e4
    rw [hk, e3, e4] at hc
    by_cases hn : feq e.codec.min e.codec.min && feq e.codec.max e.codec.max
    · simp only [feq, Bool.and_eq_true, Bool.not_eq_true', decide_eq_true_eq] at hn
      show isNaN e.codec.min = false ∧ isNaN e.codec.max = false
      tauto
    · simp [hn] at hc
  missing := by
    intro hi hne
    have hv := vt_doc env.asDbl e.doc
    rw [hi] at hv
    simp only [if_true] at hv
    change vtOf (kindOf (whichOf e.codec.kind)) e.info.ty.toInt env.asDbl = _ at hv
    rw [kindOf_whichOf _ hl] at hv
    have hint : e.codec.kind.isInt = true := by
      change whichOf e.codec.kind ≠ _ at hne
      unfold Doc.Col.integral at hi
      simp only [Bool.and_eq_true] at hi
      have h2 := hi.2
      change (match whichOf e.codec.kind with
        | .int8 | .int16 | .int32 | .int8Missing | .int16Missing | .constantOrMissing | .constant => true
        | _ => false) = true at h2
      cases hk : e.codec.kind <;> rw [hk] at h2 hne <;> simp_all [whichOf, Kind.isInt]
    obtain ⟨w, hw⟩ := h.save.cast hint
    rw [hv] at hw
    exact whole_toVT hw

/-! ### Rows -/

/-- Proof device: the values stand for the cells of the row. -/
inductive RowStands (asDbl : Bool) : List EncCol → List Cell → List Doc.Value → Prop
  | nil : RowStands asDbl [] [] []
  | cons {e es x xs v vs} : v.Shown (e.doc.integral asDbl) (e.back x) ∧ (e.doc.codec.which.isText = true ↔ ∃ s, v = .text s) ∧
      (e.doc.integral asDbl = true → ∀ d, v = .num d → Doc.Whole d) →
      RowStands asDbl es xs vs → RowStands asDbl (e :: es) (x :: xs) (v :: vs)

theorem RowStands.append {asDbl : Bool} {es es' : List EncCol} {xs xs' : List Cell} {vs vs' : List Doc.Value}
    (h : RowStands asDbl es xs vs) (h' : RowStands asDbl es' xs' vs') : RowStands asDbl (es ++ es') (xs ++ xs') (vs ++ vs') := by
  induction h with
  | nil => exact h'
  | cons a _ ih => exact .cons a ih

theorem RowStands.take {asDbl : Bool} {es : List EncCol} {xs : List Cell} {vs : List Doc.Value}
    (h : RowStands asDbl es xs vs) (n : Nat) : RowStands asDbl (es.take n) (xs.take n) (vs.take n) := by
  induction h generalizing n with
  | nil => simpa using RowStands.nil
  | cons a _ ih =>
    cases n with
    | zero => exact .nil
    | succ n => exact .cons a (ih n)

theorem RowStands.get {asDbl : Bool} {es : List EncCol} {xs : List Cell} {vs : List Doc.Value}
    (h : RowStands asDbl es xs vs) (p : Nat) (e : EncCol) (he : es[p]? = some e) :
    ∃ x v, xs[p]? = some x ∧ vs[p]? = some v ∧ v.Shown (e.doc.integral asDbl) (e.back x) ∧
      (e.doc.codec.which.isText = true ↔ ∃ s, v = .text s) ∧ (e.doc.integral asDbl = true → ∀ d, v = .num d → Doc.Whole d) := by
  induction h generalizing p with
  | nil => simp at he
  | cons a _ ih =>
    cases p with
    | zero =>
      simp only [List.getElem?_cons_zero, Option.some.injEq] at he
      subst he
      exact ⟨_, _, rfl, rfl, a.1, a.2.1, a.2.2⟩
    | succ p =>
      simp only [List.getElem?_cons_succ] at he ⊢
      exact ih p he

theorem value_text {c : Doc.Codec} {x : Nat} {v : Doc.Value} (h : c.value x = some v) :
    c.which.isText = true ↔ ∃ s, v = .text s := by
  unfold Doc.Codec.value at h
  cases hw : c.which <;> simp only [hw] at h <;> simp only [Doc.Which.isText]
  all_goals first
    | (simp only [Option.some.injEq] at h; subst h; simp)
    | (rw [Option.map_eq_some_iff] at h; obtain ⟨a, _, rfl⟩ := h; simp)

/-- Proof device: codes that fit and whose values are integers where integers are passed. -/
def CodesOk (asDbl : Bool) (cols : List Doc.Col) (xs : List Nat) : Prop :=
  ∀ (i : Nat) (c : Doc.Col) (x : Nat), cols[i]? = some c → xs[i]? = some x → x < 256 ^ c.codec.which.size ∧
    (∀ d, c.integral asDbl = true → c.codec.value x = some (.num d) → Doc.Whole d)

theorem encCols_doc (env : Env) (o : Order) (es : List EncCol) (row : List Cell) (hlen : row.length = es.length)
    (hk : ∀ e ∈ es, e.codec.kind ≠ .longConstantString ∧ e.codec.kind ≠ .chars) (he : ∀ e ∈ es, e.Fits env)
    (hrow : ∀ (i : Nat) (e : EncCol) (x : Cell), es[i]? = some e → row[i]? = some x → x ∈ e.data.cells)
    (bs : List Byte) (h : encCols o (es.map EncCol.codec) row = .ok bs) :
    ∃ xs vs, bs = Doc.codes (endian o) (es.map EncCol.doc) xs ∧ Doc.values (es.map EncCol.doc) xs = some vs ∧
      CodesOk env.asDbl (es.map EncCol.doc) xs ∧ RowStands env.asDbl es row vs := by
  induction es generalizing row bs with
  | nil =>
    cases row with
    | nil =>
      simp [encCols] at h
      exact ⟨[], [], by simp [Doc.codes, h], rfl, by intro i c x hc; simp at hc, .nil⟩
    | cons x row => simp at hlen
  | cons e es ih =>
    cases row with
    | nil => simp at hlen
    | cons x row =>
      have hek := hk e (by simp)
      obtain ⟨bs1, b1, b2, b3⟩ := (he e (by simp)).trip o x (hrow 0 e x rfl rfl)
      simp only [List.map_cons, encCols, b1] at h
      cases hr : encCols o (es.map EncCol.codec) row with
      | error err => simp [hr] at h
      | ok bs2 =>
        simp only [hr, Except.ok.injEq] at h
        subst h
        obtain ⟨xs, vs, c1, c2, c3, c4⟩ := ih row (by simpa using hlen) (fun e' h' => hk e' (by simp [h'])) (fun e' h' => he e' (by simp [h']))
          (fun i => hrow (i + 1)) bs2 hr
        have hsz : bs1.length = e.doc.codec.which.size := by
          rw [b2, ← reload_encSize env.asDbl e.info.ty.toInt _ hek.2, ← reload_docOf _ _ _ hek.1, encSize_doc]
          rfl
        obtain ⟨y, y1, y2⟩ := code_of_bytes o e.doc.codec bs1 hsz
        have hrd : Reads ((reload env.asDbl e.doc.type (ofDoc e.doc.codec)).dec o) (e.doc.codec.code (endian o) y) (e.back x) := by
          rw [y2]
          show Reads ((reload env.asDbl e.info.ty.toInt (ofDoc (docOf e.codec))).dec o) bs1 (e.back x)
          rw [reload_docOf _ _ _ hek.1]
          exact b3
        obtain ⟨v, v1, v2, v3⟩ := value_of_dec o env.asDbl e.doc y y1 (e.back x) hrd
        refine ⟨y :: xs, v :: vs, ?_, ?_, ?_,   .cons ⟨v2, value_text v1, v3⟩ c4⟩
        · simp only [List.map_cons, Doc.codes, y2, c1]
        · simp only [List.map_cons, Doc.values, v1, c2]
        · intro i c z hc hz
          cases i with
          | zero =>
            simp only [List.map_cons, List.getElem?_cons_zero, Option.some.injEq] at hc hz
            subst hc
            subst hz
            refine ⟨y1, ?_⟩
            intro d hi hd
            rw [v1] at hd
            simp only [Option.some.injEq] at hd
            exact v3 hi d hd
          | succ i =>
            simp only [List.map_cons, List.getElem?_cons_succ] at hc hz
            exact c3 i c z hc hz

theorem docLead_take (p row : List Cell) : p.take (sameLead p row) = row.take (sameLead p row) := by
  induction p generalizing row with
  | nil => cases row <;> simp [sameLead]
  | cons x p ih =>
    cases row with
    | nil => simp [sameLead]
    | cons y row =>
      simp only [sameLead]
      split
      · rename_i h
        subst h
        simp [ih row]
      · simp

theorem encRows_doc (env : Env) (o : Order) (es : List EncCol) (hn : es.length < 65536)
    (hk : ∀ e ∈ es, e.codec.kind ≠ .longConstantString ∧ e.codec.kind ≠ .chars) (he : ∀ e ∈ es, e.Fits env)
    (rows : List (List Cell)) (hrows : ∀ row ∈ rows, row.length = es.length ∧
      ∀ (i : Nat) (e : EncCol) (x : Cell), es[i]? = some e → row[i]? = some x → x ∈ e.data.cells)
    (prev : Option (List Cell)) (before : List Doc.Value)
    (hp : ∀ p, prev = some p → ∀ row, rows.head? = some row →
      RowStands env.asDbl (es.take (sameLead p row)) (p.take (sameLead p row)) (before.take (sameLead p row)))
    (bs : List Byte) (h : encRows o (es.map EncCol.codec) prev rows = .ok bs) :
    ∃ (rs : List Doc.Row) (vals : List (List Doc.Value)),
      bs = rs.flatMap (fun r => Doc.uint .big 2 r.start ++ Doc.codes (endian o) ((es.map EncCol.doc).drop r.start) r.codes) ∧
      rs.length = rows.length ∧ (∀ r ∈ rs, r.start ≤ es.length ∧ CodesOk env.asDbl ((es.map EncCol.doc).drop r.start) r.codes) ∧
      (∀ r row, rs.head? = some r → rows.head? = some row → r.start = startOf prev row) ∧
      Doc.rowsFrom (es.map EncCol.doc) before rs = some vals ∧ Match (RowStands env.asDbl es) rows vals := by
  induction rows generalizing prev before bs with
  | nil =>
    simp [encRows] at h
    exact ⟨[], [], by simp [h], rfl, by simp, by simp, rfl, .nil⟩
  | cons row rows ih =>
    obtain ⟨hl, hx⟩ := hrows row (by simp)
    simp only [encRows, encRow] at h
    generalize hs : startOf prev row = s at h
    have hsl : s ≤ es.length := by
      rw [← hs, ← hl]
      cases prev with
      | none => exact Nat.zero_le _
      | some p => exact sameLead_le p row
    cases hc : encCols o ((es.map EncCol.codec).drop s) (row.drop s) with
    | error e => simp [hc] at h
    | ok b1 =>
      simp only [hc] at h
      cases hr : encRows o (es.map EncCol.codec) (some row) rows with
      | error e => simp [hr] at h
      | ok b2 =>
        simp only [hr, Except.ok.injEq] at h
        subst h
        rw [← List.map_drop] at hc
        obtain ⟨xs, vs, c1, c2, c3, c4⟩ := encCols_doc env o (es.drop s) (row.drop s) (by simp [hl])
          (fun e h' => hk e (List.mem_of_mem_drop h')) (fun e h' => he e (List.mem_of_mem_drop h'))
          (by
            intro i e x h1 h2
            rw [List.getElem?_drop] at h1 h2
            exact hx _ e x h1 h2) b1 hc
        have hrow : RowStands env.asDbl es row (before.take s ++ vs) := by
          have h1 : RowStands env.asDbl (es.take s) (row.take s) (before.take s) := by
            cases prev with
            | none =>
              have : s = 0 := hs.symm
              subst this
              exact .nil
            | some p =>
              have h2 := hp p rfl row rfl
              rw [docLead_take] at h2
              rwa [show sameLead p row = s from hs] at h2
          have := h1.append c4
          rwa [List.take_append_drop, List.take_append_drop] at this
        obtain ⟨rs, vals, d1, d2, d3, d4, d5, d6⟩ := ih (fun r' h' => hrows r' (by simp [h'])) (some row) (before.take s ++ vs)
          (fun p hp' row' _ => by simp only [Option.some.injEq] at hp'; subst hp'; exact hrow.take _) b2 hr
        refine ⟨⟨s, xs⟩ :: rs, (before.take s ++ vs) :: vals, ?_, by simp [d2], ?_, ?_, ?_, .cons hrow d6⟩
        · rw [List.flatMap_cons, ← d1, c1, List.map_drop, uint_marker]
        · intro r hr'
          rcases List.mem_cons.mp hr' with rfl | hr'
          · exact ⟨hsl, by rw [← List.map_drop]; exact c3⟩
          · exact d3 r hr'
        · intro r row' hr' hrow'
          simp only [List.head?_cons, Option.some.injEq] at hr' hrow'
          subst hr'
          subst hrow'
          exact hs.symm
        · simp only [Doc.rowsFrom, ← List.map_drop, c2, d5]

end Verif
