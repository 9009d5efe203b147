import Verif.HeaderAny
import Verif.CsvRows
import Verif.PropDispatch

/-!
C50: the row reader on arbitrary bytes: what it never does, and that it ends.
-/

namespace Verif

/-- Specification: the bytes contain the parameters of a long constant string that is empty. -/
def EmptyLongString (b : List Byte) : Prop :=
  ∃ (o : Order) (pre : List Byte) (hm : Int) (mn mx ms : Word) (post : List Byte),
    b = pre ++ (putStr o (lit "long_constant_string") ++ (putI32 o hm ++ (putWord o mn ++ (putWord o mx ++ (putWord o ms ++
      (putStr o [] ++ post))))))

theorem EmptyLongString.part {b : List Byte} (h : EmptyLongString b) (p q : List Byte) : EmptyLongString (p ++ (b ++ q)) := by
  obtain ⟨o, pre, hm, mn, mx, ms, post, rfl⟩ := h
  exact ⟨o, p ++ pre, hm, mn, mx, ms, post ++ q, by simp⟩

theorem NegativeIndex.prepend {b : List Byte} (h : NegativeIndex b) (p : List Byte) : NegativeIndex (p ++ b) := by
  obtain ⟨o, pre, k, hm, mn, mx, ms, n, es, s, cnt, i, post, h1, h2, h3, h4, h5, h6, rfl⟩ := h
  exact ⟨o, p ++ pre, k, hm, mn, mx, ms, n, es, s, cnt, i, post, h1, h2, h3, h4, h5, h6, by simp⟩

theorem match_part {o : Order} {cs : List Col} {parts : List (List Byte)} (h : Match (ColBytes o) cs parts) {c : Col} (hc : c ∈ cs) :
    ∃ (p b q : List Byte), ColBytes o c b ∧ parts.flatten = p ++ (b ++ q) := by
  induction h with
  | nil => cases hc
  | @cons a b as bs h1 h2 ih =>
    rcases List.mem_cons.mp hc with rfl | hc
    · exact ⟨[], b, bs.flatten, h1, by simp⟩
    · obtain ⟨p, b', q, e1, e2⟩ := ih hc
      exact ⟨b ++ p, b', q, e1, by simp [e2]⟩

/-- An empty long constant string among the columns is there in the bytes. -/
theorem blank_in {md5 : List Byte → Str} {asDbl : Bool} {s r : List Byte} {h : HeaderInfo} {o : Order}
    (hp : parseHeader md5 asDbl s = .ok (some (h, o, r))) {c : Col} (hc : c ∈ h.cols) (hb : c.codec.Blank) : EmptyLongString s := by
  obtain ⟨before, rest, flags, np, kvs, cols, e, _, _, hm⟩ := C45_header_accepted hp
  obtain ⟨p, b, q, e1, e2⟩ := match_part hm hc
  obtain ⟨mn, mx, own, e3, _, _, e4⟩ := e1
  obtain ⟨b1, b2⟩ := hb
  unfold OwnBytes at e4
  rw [b1] at e4
  obtain ⟨text, e5, e6⟩ := e4
  rw [e6] at b2
  simp only [List.headD_cons] at b2
  subst b2
  have hb' : EmptyLongString b := by
    refine ⟨o, putStr o c.name ++ putI32 o c.ty ++
      (if c.ty = 4 then putVec o (putStr o) c.bitNames ++ putVec o (putI32 o) c.bitSizes else []), c.codec.hasMissing, mn, mx,
      c.codec.missing, [], ?_⟩
    rw [e3, e5, b1]
    simp [Kind.name]
  have := EmptyLongString.part hb' (before ++ (putN o 8 h.dataSize ++ putN o 8 0 ++ putN o 8 h.nrows ++ putVec o (putWord o) flags ++
        putI32 o np ++ kvs.flatMap (putPair o) ++ putI32 o h.cols.length ++ p)) (q ++ rest ++ r)
  rw [e, e2]
  simpa using this

theorem parse_sane {md5 : List Byte → Str} {s r : List Byte} {h : HeaderInfo} {o : Order}
    (hp : parseHeader md5 true s = .ok (some (h, o, r))) : ∀ c ∈ h.cols, c.codec.Sane := by
  obtain ⟨bo, basic, var, digest, _, _, _, _, _, _, ⟨r, hv⟩⟩ := parseHeader_ok _ _ _ _ _ _ hp
  have := post_readVar o var
  rw [hv] at this
  exact this

theorem Match.take {α β : Type} {R : α → β → Prop} {as : List α} {bs : List β} (h : Match R as bs) (n : Nat) :
    Match R (as.take n) (bs.take n) := by
  induction h generalizing n with
  | nil => simp; exact .nil
  | cons h1 _ ih =>
    cases n with
    | zero => exact .nil
    | succ n => exact .cons h1 (ih n)

/-- Proof device: the cells of a row: one for each column, of the size of the column. -/
def CellsFit (cs : List Codec) (xs : List Cell) : Prop := Match (fun (c : Codec) (x : Cell) => x.length = c.width) cs xs

/-- Proof device: the columns of the current table have been checked. -/
def ColsFine (cols : List Col) : Prop := ∀ c ∈ cols, c.codec.Sane ∧ c.codec.decWidth = c.codec.width

theorem firstCells_fit (junk : Junk) (t p : Nat) (cols : List Col) (hl : ∀ c ∈ cols, c.codec.Loaded) (hb : ∀ c ∈ cols, ¬ c.codec.Blank) :
    ∃ l, firstCells junk t p cols = .ok l ∧ CellsFit (cols.map Col.codec) l := by
  induction cols generalizing p with
  | nil => exact ⟨[], rfl, .nil⟩
  | cons c cols ih =>
    obtain ⟨l, h1, h2⟩ := ih (p + 1) (fun x hx => hl x (by simp [hx])) (fun x hx => hb x (by simp [hx]))
    obtain ⟨⟨w, hw⟩, hwid⟩ := hl c (by simp)
    obtain ⟨w1, w2⟩ := hwid (hb c (by simp))
    obtain ⟨z, z1, z2⟩ := firstCell_ok (junk := junk) (t := t) (p := p) hw w2 (hb c (by simp))
    exact ⟨z :: l, by simp [firstCells, z1, h1], .cons z2 h2⟩

theorem decRow_fine (o : Order) (cs : List Codec) (hc : ∀ c ∈ cs, c.Sane ∧ c.decWidth = c.width) (xs : List Cell) (hx : CellsFit cs xs)
    (s : List Byte) : SafeE (fun (y : List Cell × List Byte) => CellsFit cs y.1 ∧ y.2.length ≤ s.length) (decRow o cs xs s) := by
  induction hx generalizing s with
  | nil => exact ⟨.nil, Nat.le_refl _⟩
  | @cons c x cs xs h1 h2 ih =>
    simp only [decRow]
    rw [P.bind_apply]
    obtain ⟨q1, q2⟩ := hc c (by simp)
    cases hd : c.dec o s with
    | error e => intro he; subst he; exact dec_safe o c q1 s hd
    | ok y =>
      obtain ⟨d, r⟩ := y
      obtain ⟨e1, e2, e3⟩ := dec_consumes o c s r d hd
      dsimp only
      have hlen : ¬ x.length < d.length := by rw [h1, e3, q2]; omega
      rw [if_neg hlen, P.bind_apply]
      have h4 := ih (fun c hc' => hc c (by simp [hc'])) r
      rcases h4.both with ⟨e, he, hne⟩ | ⟨y, hy, hy2⟩
      · rw [he]; exact hne
      · obtain ⟨ys, r'⟩ := y
        rw [hy]
        refine ⟨.cons ?_ hy2.1, ?_⟩
        · simp; omega
        · have := hy2.2
          dsimp only at this ⊢
          rw [e1] at this
          simp at this
          omega

theorem itStep_fine (o : Order) (cs : List Codec) (hc : ∀ c ∈ cs, c.Sane ∧ c.decWidth = c.width) (xs : List Cell) (hx : CellsFit cs xs)
    (s : List Byte) : SafeE (fun (y : List Cell × List Byte) => CellsFit cs y.1) (itStep o cs xs s) := by
  unfold itStep
  rw [P.bind_apply]
  cases hr : readBytes 2 s with
  | error e => have := (readBytes_err hr).1; rw [this]; intro h; cases h
  | ok y =>
    obtain ⟨m, r⟩ := y
    dsimp only
    rw [P.bind_apply]
    have h4 := decRow_fine o (cs.drop (markerStart m)) (fun c hc' => hc c (List.mem_of_mem_drop hc')) (xs.drop (markerStart m)) (Match.drop hx _) r
    rcases h4.both with ⟨e, he, hne⟩ | ⟨y, hy, hy2⟩
    · rw [he]; exact hne
    · obtain ⟨ys, r'⟩ := y
      rw [hy]
      have : Match (fun (c : Codec) (x : Cell) => x.length = c.width) (cs.take (markerStart m) ++ cs.drop (markerStart m))
          (xs.take (markerStart m) ++ ys) := (hx.take _).append hy2.1
      rw [List.take_append_drop] at this
      exact this

/-- Proof device: bytes the reader can deal with. -/
def Plain (b : List Byte) : Prop := ¬ NegativeIndex b ∧ ¬ EmptyLongString b

theorem Plain.drop {b : List Byte} (h : Plain b) (n : Nat) : Plain (b.drop n) := by
  constructor
  · intro hn; apply h.1; rw [← List.take_append_drop n b]; exact hn.prepend _
  · intro hn; apply h.2; rw [← List.take_append_drop n b]
    have := hn.part (b.take n) []
    simpa using this

/-- Proof device: the state of the reader between two calls. -/
structure RowIt.Fine (it : RowIt) : Prop where
  plain : Plain it.rest
  cols : ColsFine it.cols
  cells : CellsFit (it.cols.map Col.codec) it.last

theorem load_fine (env : Env) (hd : env.asDbl = true) (junk : Junk) (fuel : Nat) (it : RowIt) (h : it.Fine) :
    SafeE (fun (y : RowIt × Bool) => y.1.Fine) (it.load env junk fuel) := by
  induction fuel generalizing it with
  | zero => intro h; cases h
  | succ fuel ih =>
    simp only [RowIt.load]
    split
    · exact h
    split
    · intro h; cases h
    cases hp : parseHeader env.md5 env.asDbl it.rest with
    | error e =>
      intro he; subst he
      rcases parse_safe _ _ _ hp with hb | ⟨hb, _⟩
      · exact h.plain.1 hb
      · rw [hd] at hb; cases hb
    | ok x =>
      cases x with
      | none => exact ⟨h.plain, h.cols, h.cells⟩
      | some x =>
        obtain ⟨hh, o, r⟩ := x
        dsimp only
        obtain ⟨l1, _, _⟩ := parse_loaded hp
        have hb : ∀ c ∈ hh.cols, ¬ c.codec.Blank := fun c hc hb => h.plain.2 (blank_in hp hc hb)
        have hs : ∀ c ∈ hh.cols, c.codec.Sane := by rw [hd] at hp; exact parse_sane hp
        obtain ⟨l, f1, f2⟩ := firstCells_fit junk (it.tables + 1) 0 hh.cols l1 hb
        have hr : Plain r := by
          have := (parseHeader_rest _ _ _ _ _ _ hp).2
          rw [← this]; exact h.plain.drop _
        have hcols : ColsFine hh.cols := fun c hc => ⟨hs c hc, ((l1 c hc).2 (hb c hc)).1⟩
        rw [f1]
        dsimp only
        split
        · split
          · exact ih _ ⟨hr, hcols, f2⟩
          · intro h; cases h
        · split
          · intro h; cases h
          split
          · intro h; cases h
          split
          · intro h; cases h
          split
          · intro h; cases h
          · exact ⟨hr.drop _, hcols, f2⟩

theorem next_fine (env : Env) (hd : env.asDbl = true) (junk : Junk) (it : RowIt) (h : it.Fine) :
    SafeE (fun (y : RowIt × Bool) => y.1.Fine) (it.next env junk) := by
  have hstep : ∀ it : RowIt, it.Fine → SafeE (fun (y : RowIt × Bool) => y.1.Fine)
      (match itStep it.order (it.cols.map Col.codec) it.last it.stream with
      | .error e => .error e
      | .ok (row, r) =>
        .ok ({ it with last := row, stream := r, remaining := it.remaining - 1 }, decide (it.cols.length ≠ 0))) := by
    intro it h
    have hc : ∀ c ∈ it.cols.map Col.codec, c.Sane ∧ c.decWidth = c.width := by
      intro c hc
      obtain ⟨k, hk, rfl⟩ := List.mem_map.mp hc
      exact h.cols k hk
    rcases (itStep_fine it.order _ hc it.last h.cells it.stream).both with ⟨e, he, hne⟩ | ⟨y, hy, hy2⟩
    · rw [he]; exact hne
    · obtain ⟨row, r⟩ := y
      rw [hy]
      exact ⟨h.plain, h.cols, hy2⟩
  unfold RowIt.next
  dsimp only
  split
  · exact ⟨h.plain, h.cols, h.cells⟩
  have h' : ({ it with newData := false } : RowIt).Fine := ⟨h.plain, h.cols, h.cells⟩
  split
  · rename_i e he
    split at he
    · have := load_fine env hd junk (it.rest.length + 1) _ h'
      rw [he] at this
      exact this
    · cases he
  · rename_i it2 he
    split at he
    · have := load_fine env hd junk (it.rest.length + 1) _ h'
      rw [he] at this
      exact this
    · cases he
  · rename_i it2 he
    split at he
    · have := load_fine env hd junk (it.rest.length + 1) _ h'
      rw [he] at this
      exact hstep it2 this
    · simp only [Except.ok.injEq, Prod.mk.injEq, and_true] at he
      subst he
      exact hstep _ h'

theorem all_fine (env : Env) (hd : env.asDbl = true) (junk : Junk) (fuel : Nat) (it : RowIt) (h : it.Fine) :
    (it.all env junk fuel).2 ≠ some .ub ∧ ∀ v ∈ (it.all env junk fuel).1, CellsFit (v.cols.map Col.codec) v.cells := by
  induction fuel generalizing it with
  | zero => exact ⟨by simp [RowIt.all], by simp [RowIt.all]⟩
  | succ fuel ih =>
    simp only [RowIt.all]
    split
    · exact ⟨by simp, by simp⟩
    rcases (next_fine env hd junk it h).both with ⟨e, he, hne⟩ | ⟨y, hy, hy2⟩
    · rw [he]
      refine ⟨by simpa using hne, ?_⟩
      intro v hv
      simp only [List.mem_singleton] at hv
      subst hv
      exact h.cells
    · obtain ⟨it2, b⟩ := y
      rw [hy]
      obtain ⟨a1, a2⟩ := ih it2 hy2
      refine ⟨a1, ?_⟩
      intro v hv
      rcases List.mem_cons.mp hv with rfl | hv
      · exact h.cells
      · exact a2 v hv

/-- **C50 (nothing undefined)**: reading any bytes row by row, whatever the uninitialised memory holds, does nothing undefined,
provided that no dictionary in them has a negative index and none of them is an empty long constant string; and every row
shown has a cell for each column, as large as the column. -/
theorem C50_rows_defined (env : Env) (hd : env.asDbl = true) (bytes : List Byte) (hidx : ¬ NegativeIndex bytes)
    (hstr : ¬ EmptyLongString bytes) (junk : Junk) (fuel : Nat) :
    (readRows env junk bytes fuel).2 ≠ some .ub ∧
      ∀ v ∈ (readRows env junk bytes fuel).1, v.cells.length = v.cols.length ∧
        ∀ (i : Nat) (c : Col) (x : Cell), v.cols[i]? = some c → v.cells[i]? = some x → x.length = c.codec.width := by
  have key : (readRows env junk bytes fuel).2 ≠ some .ub ∧
      ∀ v ∈ (readRows env junk bytes fuel).1, CellsFit (v.cols.map Col.codec) v.cells := by
    unfold readRows RowIt.begin
    have h0 : (RowIt.new bytes).Fine := ⟨⟨hidx, hstr⟩, (by intro c hc; cases hc), .nil⟩
    rcases (load_fine env hd junk (bytes.length + 1) _ h0).both with ⟨e, he, hne⟩ | ⟨y, hy, hy2⟩
    · rw [he]; exact ⟨by simpa using hne, by simp⟩
    obtain ⟨it, b⟩ := y
    rw [hy]
    dsimp only
    rcases (next_fine env hd junk it hy2).both with ⟨e, he, hne⟩ | ⟨y, hz, hz2⟩
    · rw [he]; exact ⟨by simpa using hne, by simp⟩
    obtain ⟨it2, b2⟩ := y
    rw [hz]
    exact all_fine env hd junk fuel it2 hz2
  refine ⟨key.1, fun v hv => ?_⟩
  have := key.2 v hv
  refine ⟨by have := this.length; simpa using this.symm, ?_⟩
  intro i c x hc hx
  exact Match.get this i _ _ (by rw [List.getElem?_map, hc]; rfl) hx

/-! ### The reader ends -/

theorem dec_ends (o : Order) (c : Codec) : Finite (c.dec o) := by
  have hvt : ∀ w : Word, Finite (match toVT c.vt w with | .ok w => (Pure.pure [w] : P Cell) | .error e => P.fail e) := by
    intro w
    cases h : toVT c.vt w with
    | ok w => exact Finite.pure _
    | error e => rw [toVT_err h]; exact Finite.fail (by simp)
  have hoff : ∀ k, Finite (decOffset o c k) := fun k => Finite.bind (ends_readN o k) (fun n => hvt _)
  have hmis : ∀ k m, Finite (decMissing o c k m) := fun k m => Finite.bind (ends_readN o k) (fun n => hvt _)
  have hidx : ∀ k, Finite (decStrIdx o c k) := by
    intro k
    refine Finite.bind (ends_readN o k) (fun n => ?_)
    cases c.strings[n]? with
    | some s => exact Finite.pure _
    | none => exact Finite.fail (by simp)
  have hshort : ∀ m, Finite (decShort o c m) := fun m => Finite.bind (ends_readN o 4) (fun n => Finite.pure _)
  unfold Codec.dec
  split
  · exact hoff 1
  · exact hoff 2
  · refine Finite.bind (ends_readI32 o) (fun n => ?_)
    cases c.vt <;> exact Finite.pure _
  · exact hmis 1 0xff
  · exact hmis 1 0xff
  · exact hmis 1 0xff
  · exact hmis 2 0xffff
  · exact hshort _
  · exact hshort _
  · exact Finite.bind (ends_readWord o) (fun _ => Finite.pure _)
  · exact hvt _
  · exact Finite.pure _
  · cases c.strings.head? with
    | some s => exact Finite.ite (Finite.pure _) (Finite.pure _)
    | none => exact Finite.fail (by simp)
  · exact Finite.bind (ends_readBytes _) (fun _ => Finite.pure _)
  · exact hidx 1
  · exact hidx 2

theorem firstCells_ends (junk : Junk) (t p : Nat) (cols : List Col) : firstCells junk t p cols ≠ .error .diverges := by
  induction cols generalizing p with
  | nil => simp [firstCells]
  | cons c cols ih =>
    intro h
    simp only [firstCells, firstCell] at h
    cases hm : c.codec.missingWord with
    | error e =>
      rw [hm] at h
      simp only [Except.error.injEq] at h
      subst h
      unfold Codec.missingWord at hm
      split at hm
      · cases toVT_err hm
      · cases hm
    | ok w =>
      rw [hm] at h
      dsimp only at h
      split at h
      · rename_i e he
        split at he
        · simp only [Except.error.injEq] at he h; subst he; cases h
        · cases he
      · cases hc : firstCells junk t (p + 1) cols with
        | error e =>
          rw [hc] at h
          simp only [Except.error.injEq] at h
          subst h
          exact ih _ hc
        | ok l => rw [hc] at h; cases h

theorem decRow_ends (o : Order) (cs : List Codec) (xs : List Cell) : Finite (decRow o cs xs) := by
  induction cs generalizing xs with
  | nil => exact Finite.pure _
  | cons c cs ih =>
    cases xs with
    | nil => exact Finite.pure _
    | cons x xs =>
      unfold decRow
      exact Finite.bind (dec_ends o c) (fun d => Finite.ite (Finite.fail (by simp)) (Finite.bind (ih xs) (fun r => Finite.pure _)))

theorem itStep_ends (o : Order) (cs : List Codec) (cur : List Cell) : Finite (itStep o cs cur) :=
  Finite.bind (ends_readBytes 2) (fun m => Finite.bind (decRow_ends o _ _) (fun t => Finite.pure _))

theorem decRow_shrinks (o : Order) (cs : List Codec) (xs ys : List Cell) (s r : List Byte) (h : decRow o cs xs s = .ok (ys, r)) :
    r.length ≤ s.length := by
  induction cs generalizing xs ys s r with
  | nil => simp only [decRow, P.pure_apply, Except.ok.injEq, Prod.mk.injEq] at h; rw [h.2]
  | cons c cs ih =>
    cases xs with
    | nil => simp only [decRow, P.pure_apply, Except.ok.injEq, Prod.mk.injEq] at h; rw [h.2]
    | cons x xs =>
      simp only [decRow] at h
      rw [P.bind_apply] at h
      cases hd : c.dec o s with
      | error e => rw [hd] at h; cases h
      | ok y =>
        obtain ⟨d, r1⟩ := y
        obtain ⟨e1, e2, e3⟩ := dec_consumes o c s r1 d hd
        rw [hd] at h
        dsimp only at h
        split at h
        · cases h
        rw [P.bind_apply] at h
        cases hr : decRow o cs xs r1 with
        | error e => rw [hr] at h; cases h
        | ok y =>
          obtain ⟨t, r2⟩ := y
          rw [hr] at h
          simp only [P.pure_apply, Except.ok.injEq, Prod.mk.injEq] at h
          have := ih xs t r1 r2 hr
          rw [h.2, e1] at this
          simp at this
          omega

theorem itStep_shrinks {o : Order} {cs : List Codec} {cur row : List Cell} {s r : List Byte} (h : itStep o cs cur s = .ok (row, r)) :
    r.length + 2 ≤ s.length := by
  unfold itStep at h
  rw [P.bind_apply] at h
  cases hr : readBytes 2 s with
  | error e => rw [hr] at h; cases h
  | ok y =>
    obtain ⟨m, r1⟩ := y
    obtain ⟨_, e1, e2⟩ := readBytes_ok hr
    rw [hr] at h
    dsimp only at h
    rw [P.bind_apply] at h
    cases hd : decRow o (cs.drop (markerStart m)) (cur.drop (markerStart m)) r1 with
    | error e => rw [hd] at h; cases h
    | ok y =>
      obtain ⟨t, r2⟩ := y
      rw [hd] at h
      simp only [P.pure_apply, Except.ok.injEq, Prod.mk.injEq] at h
      have := decRow_shrinks _ _ _ _ _ _ hd
      rw [h.2, e1] at this
      simp at this
      omega

/-- Proof device: an upper bound of the rows still to come: those of the data at hand, and those of as many tables as the
rest of the file has room for. -/
def RowIt.ahead (N : Nat) (it : RowIt) : Nat := it.stream.length / 2 + it.rest.length / 57 * (N / 2)

theorem load_ends (env : Env) (junk : Junk) (N fuel : Nat) (it : RowIt) (hf : it.rest.length < fuel) (hr : it.rest.length ≤ N)
    (hb : it.buf.length ≤ N) (hn : it.noMore = false) :
    it.load env junk fuel ≠ .error .diverges ∧
      ∀ it2 ok, it.load env junk fuel = .ok (it2, ok) → it2.noMore = !ok ∧ (ok = true → it2.remaining ≠ 0 ∧ it2.buf.length ≤ N ∧
        it2.rest.length ≤ N ∧ it2.ahead N ≤ it.rest.length / 57 * (N / 2)) := by
  induction fuel generalizing it with
  | zero => omega
  | succ fuel ih =>
    simp only [RowIt.load, hn, Bool.false_eq_true, if_false]
    split
    · exact ⟨by simp, by simp⟩
    cases hp : parseHeader env.md5 env.asDbl it.rest with
    | error e =>
      refine ⟨fun h => ?_, by simp⟩
      simp only [Except.error.injEq] at h
      subst h
      exact parse_ends _ _ _ hp
    | ok x =>
      cases x with
      | none =>
        refine ⟨by simp, ?_⟩
        intro it2 ok h
        simp only [Except.ok.injEq, Prod.mk.injEq] at h
        obtain ⟨rfl, rfl⟩ := h
        exact ⟨rfl, by simp⟩
      | some x =>
        obtain ⟨hh, o, r⟩ := x
        have hlen := (parseHeader_rest _ _ _ _ _ _ hp).1
        have hmul : (r.length / 57 + 1) * (N / 2) ≤ it.rest.length / 57 * (N / 2) := Nat.mul_le_mul_right _ (by omega)
        rw [Nat.add_mul, Nat.one_mul] at hmul
        dsimp only
        cases hc : firstCells junk (it.tables + 1) 0 hh.cols with
        | error e =>
          refine ⟨fun h => ?_, by simp⟩
          simp only [Except.error.injEq] at h
          subst h
          exact firstCells_ends _ _ _ _ hc
        | ok l =>
          dsimp only
          split
          · split
            · obtain ⟨a1, a2⟩ := ih { it with rest := r, cols := hh.cols, props := hh.props, order := o, last := l, noMore := false, tables := it.tables + 1 }
                (by dsimp only; omega) (by dsimp only; omega) hb rfl
              refine ⟨a1, ?_⟩
              intro it2 ok h
              obtain ⟨b1, b2⟩ := a2 it2 ok h
              refine ⟨b1, fun hok => ?_⟩
              obtain ⟨c1, c2, c3, c4⟩ := b2 hok
              refine ⟨c1, c2, c3, ?_⟩
              dsimp only at c4
              omega
            · exact ⟨by simp, by simp⟩
          · split
            · exact ⟨by simp, by simp⟩
            split
            · exact ⟨by simp, by simp⟩
            split
            · exact ⟨by simp, by simp⟩
            split
            · exact ⟨by simp, by simp⟩
            · rename_i z1 z2 z3 z4 z5
              refine ⟨by simp, ?_⟩
              intro it2 ok h
              simp only [Except.ok.injEq, Prod.mk.injEq] at h
              obtain ⟨rfl, rfl⟩ := h
              have hbl : (r.take hh.dataSize ++ it.buf.drop hh.dataSize).length ≤ N := by simp; omega
              refine ⟨rfl, fun _ => ⟨z2, hbl, by simp; omega, ?_⟩⟩
              unfold RowIt.ahead
              dsimp only
              have h1 : (r.take hh.dataSize ++ it.buf.drop hh.dataSize).length / 2 ≤ N / 2 := Nat.div_le_div_right hbl
              have h2 : (r.drop hh.dataSize).length / 57 * (N / 2) ≤ r.length / 57 * (N / 2) :=
                Nat.mul_le_mul_right _ (Nat.div_le_div_right (by simp))
              omega

/-- Proof device: where the reader is between two rows. -/
structure RowIt.Within (N : Nat) (it : RowIt) : Prop where
  rest : it.rest.length ≤ N
  buf : it.buf.length ≤ N

theorem next_ends (env : Env) (junk : Junk) (N : Nat) (it : RowIt) (h : it.Within N) :
    it.next env junk ≠ .error .diverges ∧
      ∀ it2 ok, it.next env junk = .ok (it2, ok) → it2.noMore = true ∨ (it2.Within N ∧ it2.ahead N + 1 ≤ it.ahead N) := by
  unfold RowIt.next
  dsimp only
  by_cases hn : it.noMore = true
  · rw [if_pos hn]
    refine ⟨by simp, ?_⟩
    intro it2 ok hok
    simp only [Except.ok.injEq, Prod.mk.injEq] at hok
    obtain ⟨rfl, rfl⟩ := hok
    exact Or.inl hn
  rw [if_neg hn]
  have hn' : it.noMore = false := by simpa using hn
  have hstep : ∀ it1 : RowIt, it1.Within N → it1.ahead N ≤ it.ahead N →
      (match itStep it1.order (it1.cols.map Col.codec) it1.last it1.stream with
        | .error e => (.error e : Except Err (RowIt × Bool))
        | .ok (row, r) =>
          .ok ({ it1 with last := row, stream := r, remaining := it1.remaining - 1 }, decide (it1.cols.length ≠ 0))) ≠ .error .diverges ∧
      ∀ it2 ok, (match itStep it1.order (it1.cols.map Col.codec) it1.last it1.stream with
        | .error e => (.error e : Except Err (RowIt × Bool))
        | .ok (row, r) =>
          .ok ({ it1 with last := row, stream := r, remaining := it1.remaining - 1 }, decide (it1.cols.length ≠ 0))) = .ok (it2, ok) →
        it2.noMore = true ∨ (it2.Within N ∧ it2.ahead N + 1 ≤ it.ahead N) := by
    intro it1 hw ha
    cases hs : itStep it1.order (it1.cols.map Col.codec) it1.last it1.stream with
    | error e =>
      refine ⟨fun h => ?_, by simp⟩
      simp only [Except.error.injEq] at h
      subst h
      exact itStep_ends _ _ _ _ hs
    | ok y =>
      obtain ⟨row, r⟩ := y
      refine ⟨by simp, ?_⟩
      intro it2 ok hok
      simp only [Except.ok.injEq, Prod.mk.injEq] at hok
      obtain ⟨rfl, rfl⟩ := hok
      right
      refine ⟨⟨hw.rest, hw.buf⟩, ?_⟩
      have := itStep_shrinks hs
      unfold RowIt.ahead at ha ⊢
      dsimp only
      omega
  by_cases hrem : it.remaining = 0
  · rw [if_pos hrem]
    obtain ⟨a1, a2⟩ := load_ends env junk N (it.rest.length + 1) { it with newData := false } (by dsimp only; omega) h.rest h.buf hn'
    cases hl : RowIt.load env junk (it.rest.length + 1) { it with newData := false } with
    | error e =>
      refine ⟨fun h => ?_, by simp⟩
      simp only [Except.error.injEq] at h
      subst h
      exact a1 hl
    | ok y =>
      obtain ⟨it1, b⟩ := y
      obtain ⟨b1, b2⟩ := a2 it1 b hl
      cases b with
      | false =>
        refine ⟨by simp, ?_⟩
        intro it2 ok hok
        simp only [Except.ok.injEq, Prod.mk.injEq] at hok
        obtain ⟨rfl, rfl⟩ := hok
        exact Or.inl b1
      | true =>
        obtain ⟨_, c2, c3, c4⟩ := b2 rfl
        exact hstep it1 ⟨c3, c2⟩ (Nat.le_trans c4 (by unfold RowIt.ahead; dsimp only; omega))
  · rw [if_neg hrem]
    exact hstep { it with newData := false } ⟨h.rest, h.buf⟩ (Nat.le_refl _)

theorem all_ends (env : Env) (junk : Junk) (N fuel : Nat) (it : RowIt) (h : it.noMore = true ∨ it.Within N ∧ it.ahead N + 2 ≤ fuel)
    (hf : 1 ≤ fuel) :
    (it.all env junk fuel).2 ≠ some .diverges ∧ ((it.all env junk fuel).1.length ≤ if it.noMore then 0 else it.ahead N + 1) := by
  induction fuel generalizing it with
  | zero => omega
  | succ fuel ih =>
    simp only [RowIt.all]
    by_cases hn : it.noMore = true
    · simp [hn]
    rw [if_neg hn, if_neg hn]
    rcases h with h | ⟨hw, ha⟩
    · exact absurd h hn
    obtain ⟨a1, a2⟩ := next_ends env junk N it hw
    cases hx : it.next env junk with
    | error e =>
      refine ⟨fun h => ?_, by simp⟩
      simp only [Option.some.injEq] at h
      subst h
      exact a1 hx
    | ok y =>
      obtain ⟨it2, b⟩ := y
      dsimp only
      have h2 := a2 it2 b hx
      obtain ⟨c1, c2⟩ := ih it2 (by
        rcases h2 with h2 | ⟨h2, h3⟩
        · exact Or.inl h2
        · exact Or.inr ⟨h2, by omega⟩) (by omega)
      refine ⟨c1, ?_⟩
      simp only [List.length_cons]
      split at c2
      · omega
      · rcases h2 with h2 | ⟨h2, h3⟩
        · rename_i hf2; exact absurd h2 hf2
        · omega

/-- **C50 (it ends)**: reading any bytes row by row comes to an end, of the file or with an exception: a file of `N` bytes shows
at most `(N / 57) * (N / 2)` rows. -/
theorem C50_rows_end (env : Env) (bytes : List Byte) (junk : Junk) (fuel : Nat)
    (hf : bytes.length / 57 * (bytes.length / 2) + 1 ≤ fuel) :
    (readRows env junk bytes fuel).2 ≠ some .diverges ∧
      (readRows env junk bytes fuel).1.length ≤ bytes.length / 57 * (bytes.length / 2) := by
  unfold readRows RowIt.begin
  obtain ⟨a1, a2⟩ := load_ends env junk bytes.length (bytes.length + 1) (RowIt.new bytes) (by simp [RowIt.new]) (Nat.le_refl _)
    (by simp [RowIt.new]) rfl
  cases hl : RowIt.load env junk (bytes.length + 1) (RowIt.new bytes) with
  | error e =>
    refine ⟨fun h => ?_, by simp⟩
    simp only [Option.some.injEq] at h
    subst h
    exact a1 hl
  | ok y =>
    obtain ⟨it, b⟩ := y
    dsimp only
    obtain ⟨b1, b2⟩ := a2 it b hl
    have hnm : it.noMore = true → it.next env junk = .ok ({ it with newData := false }, false) := by
      intro h
      unfold RowIt.next
      dsimp only
      rw [if_pos h]
    cases b with
    | false =>
      rw [hnm b1]
      dsimp only
      obtain ⟨c1, c2⟩ := all_ends env junk bytes.length fuel { it with newData := false } (Or.inl b1) (by omega)
      refine ⟨c1, ?_⟩
      rw [if_pos (show it.noMore = true from b1)] at c2
      omega
    | true =>
      obtain ⟨_, c2, c3, c4⟩ := b2 rfl
      obtain ⟨d1, d2⟩ := next_ends env junk bytes.length it ⟨c3, c2⟩
      cases hx : it.next env junk with
      | error e =>
        refine ⟨fun h => ?_, by simp⟩
        simp only [Option.some.injEq] at h
        subst h
        exact d1 hx
      | ok y =>
        obtain ⟨it2, b'⟩ := y
        dsimp only
        have h2 := d2 it2 b' hx
        have c4' : it.ahead bytes.length ≤ bytes.length / 57 * (bytes.length / 2) := c4
        obtain ⟨e1, e2⟩ := all_ends env junk bytes.length fuel it2 (by
          rcases h2 with h2 | ⟨h2, h3⟩
          · exact Or.inl h2
          · exact Or.inr ⟨h2, by omega⟩) (by omega)
        refine ⟨e1, ?_⟩
        split at e2
        · omega
        · rcases h2 with h2 | ⟨h2, h3⟩
          · rename_i hf2; exact absurd h2 hf2
          · omega

/-! ### Samples -/

theorem no_long {b : List Byte} (h : ¬ lit "long_constant_string" <:+: b) : ¬ EmptyLongString b := by
  rintro ⟨o, pre, hm, mn, mx, ms, post, e⟩
  have e2 : b = (pre ++ putI32 o (lit "long_constant_string").length) ++ (lit "long_constant_string" ++ (putI32 o hm ++ (putWord o mn ++
      (putWord o mx ++ (putWord o ms ++ (putStr o [] ++ post)))))) := by
    rw [e]; simp [putStr]
  exact h (infix_of e2)

/-- The garbled file meets the hypotheses of `C50_rows_defined`: its rows are shown, then reading fails. -/
example : ¬ NegativeIndex garbled ∧ ¬ EmptyLongString garbled :=
  ⟨no_dictionary _ (by decide +kernel) (by decide +kernel), no_long (by decide +kernel)⟩
example : ((readRows dblEnv (fun _ _ _ => 0) garbled 5).1.length, (readRows dblEnv (fun _ _ _ => 0) garbled 5).2) = (2, some .incomplete) := by
  decide +kernel

/-- Sample: writing long constant strings is enabled (environment variable `ODC_ENABLE_WRITING_LONG_STRING_CODEC`). -/
def longEnv : Env := { dblEnv with longEnv := true }

/-- Sample: a string column, of a width of two words. -/
def emptyStrings (s : Str) : UTable := { rows := 2, props := [], cols := [⟨lit "s", .strings 2 [s, s]⟩] }

/-- Sample: encoding that table and reading the file row by row. -/
def tryStrings (s : Str) : Nat × Option Err :=
  match (emptyStrings s).encode longEnv .same with
  | .ok b => ((readRows longEnv (fun _ _ _ => 0) b 5).1.length, (readRows longEnv (fun _ _ _ => 0) b 5).2)
  | .error e => (0, some e)

example : tryStrings (lit "abcdefghi") = (2, none) := by decide +kernel

/-- **C50 fails** for a column of strings that are all empty, written with the codec for long constant strings enabled: the size
of the row is miscounted. -/
theorem C50_violated_empty : tryStrings [] = (0, some .ub) := by decide +kernel

end Verif
