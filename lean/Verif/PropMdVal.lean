import Verif.PropMdSet
import Verif.PropDup

/-!
`odc mdset`: the values (C49).
-/

namespace Verif

/-- Specification: the codecs whose decoded values are computed from the minimum kept in the header. -/
def Kind.TakesValue (k : Kind) : Prop := k = .constant ∨ k = .constantString ∨ k = .constOrMissing ∨ k = .realConstOrMissing

instance (k : Kind) : Decidable k.TakesValue := by unfold Kind.TakesValue; infer_instance

/-- Specification: a value of a column and the value in its place after the updates.  Either it is the same, and then the
column has not been given a value, or cannot be given one, or the value was missing; or the old value of a constant column
becomes the new one (`k` is 0 in a file that an encoder of the library wrote). -/
def MdCell (c c' : Codec) (x x' : Cell) : Prop :=
  (x' = x ∧ (c'.min = c.min ∨ ¬ c.kind.TakesValue ∨ x = [c.missing] ∨ x = [c.firstWord])) ∨
  ((c.kind = .constant ∨ c.kind = .constantString) ∧ x = [c.min] ∧ x' = [c'.min]) ∨
  ((c.kind = .constOrMissing ∨ c.kind = .realConstOrMissing) ∧
    ∃ k : Nat, k < 255 ∧ x = [fadd (ofInt k) c.min] ∧ x' = [fadd (ofInt k) c'.min])

/-- Proof device: the codec before and after the updates. -/
structure MdCodec (c c' : Codec) : Prop where
  vt : c.vt = .dbl
  same : c' = { c with min := c'.min, max := c'.max }
  only : c'.min = c.min ∨ c.kind.IsConstant

theorem MdCodec.dec {c c' : Codec} (h : MdCodec c c') (o : Order) : RelP (MdCell c c') (c.dec o) (c'.dec o) := by
  have hs := h.same
  generalize hmn : c'.min = mn at hs
  generalize c'.max = mx at hs
  by_cases hm : mn = c.min
  · have hd : c'.dec o = c.dec o := by
      rw [hs, hm]
      unfold Codec.dec
      cases hk : c.kind <;> rfl
    rw [hd]
    intro st
    cases hx : c.dec o st with
    | error e => rfl
    | ok r => exact ⟨Or.inl ⟨rfl, Or.inl (by rw [hmn, hm])⟩, rfl⟩
  · have hc : c.kind.IsConstant := by
      rcases h.only with e | e
      · rw [hmn] at e; exact absurd e hm
      · exact e
    have hk' : c'.kind = c.kind := by rw [hs]
    have hv' : c'.vt = .dbl := by rw [hs]; exact h.vt
    have hms : c'.missing = c.missing := by rw [hs]
    have hst : c'.strings = c.strings := by rw [hs]
    have hwd : c'.width = c.width := by rw [hs]
    unfold Codec.dec
    rw [hk']
    have miss : c.kind = .constOrMissing ∨ c.kind = .realConstOrMissing →
        RelP (MdCell c c') (decMissing o c 1 0xff) (decMissing o c' 1 0xff) := by
      intro hk
      unfold decMissing
      have hlt : ∀ st n r, readN o 1 st = .ok (n, r) → n < 256 := by
        intro st n r hr
        have := readN_bound hr
        simpa using this
      intro st
      simp only [P.bind_apply]
      cases hr : readN o 1 st with
      | error e => rfl
      | ok x =>
        obtain ⟨n, r⟩ := x
        dsimp only
        rw [h.vt, hv', hms]
        have hn := hlt st n r hr
        by_cases h255 : n = 0xff
        · rw [if_pos h255, if_pos h255]
          exact ⟨Or.inl ⟨rfl, Or.inr (Or.inr (Or.inl rfl))⟩, rfl⟩
        · rw [if_neg h255, if_neg h255]
          exact ⟨Or.inr (Or.inr ⟨hk, n, by omega, rfl, rfl⟩), rfl⟩
    rcases hc with hk | hk | hk | hk | hk
    · rw [hk]
      dsimp only
      rw [h.vt, hv']
      exact RelP.pure (Or.inr (Or.inl ⟨Or.inl hk, rfl, rfl⟩))
    · rw [hk]; exact miss (Or.inl hk)
    · rw [hk]; exact miss (Or.inr hk)
    · rw [hk]
      exact RelP.pure (Or.inr (Or.inl ⟨Or.inr hk, rfl, rfl⟩))
    · rw [hk]
      dsimp only
      rw [hst, hwd]
      have hn : ¬ c.kind.TakesValue := by rw [hk]; decide
      cases c.strings.head? with
      | none => intro st; rfl
      | some s =>
        dsimp only
        split
        · exact RelP.pure (Or.inl ⟨rfl, Or.inr (Or.inl hn)⟩)
        · exact RelP.pure (Or.inl ⟨rfl, Or.inr (Or.inl hn)⟩)

theorem MdCodec.size {c c' : Codec} (h : MdCodec c c') : c'.encSize = c.encSize := by
  have hs := h.same
  generalize c'.min = mn at hs
  generalize c'.max = mx at hs
  rw [hs]; rfl

theorem MdCodec.first {c c' : Codec} (h : MdCodec c c') : c'.firstWord = c.firstWord := by
  have hs := h.same
  generalize c'.min = mn at hs
  generalize c'.max = mx at hs
  rw [hs]; rfl

/-- Specification: the cells `x` and `x'` a user finds, of the width of the column (before the first stored value of a column
there is one missing word). -/
def MdSeen (c c' : Codec) (x x' : Cell) : Prop := MdCell c c' x x' ∧ (x.length = c.decWidth ∨ x = [c.firstWord])

theorem MdCodec.seen {c c' : Codec} (h : MdCodec c c') (o : Order) : RelP (MdSeen c c') (c.dec o) (c'.dec o) := by
  intro st
  have := h.dec o st
  cases hx : c.dec o st with
  | error e => rw [hx] at this; cases hy : c'.dec o st <;> rw [hy] at this <;> exact this
  | ok a =>
    rw [hx] at this
    cases hy : c'.dec o st with
    | error e => rw [hy] at this; exact this
    | ok b =>
      rw [hy] at this
      exact ⟨⟨this.1, Or.inl (dec_consumes o c st a.2 a.1 hx).2.2⟩, this.2⟩

/-- Proof device: rows before and after the updates. -/
inductive RowAlike : List (Codec × Codec × Bool) → List Cell → List Cell → Prop
  | nil : RowAlike [] [] []
  | cons {c c' : Codec} {v : Bool} {es : List (Codec × Codec × Bool)} {x x' : Cell} {xs xs' : List Cell} : (v = true → MdSeen c c' x x') → RowAlike es xs xs' →
      RowAlike ((c, c', v) :: es) (x :: xs) (x' :: xs')

theorem RowAlike.drop {es : List (Codec × Codec × Bool)} {xs xs' : List Cell} (h : RowAlike es xs xs') (n : Nat) :
    RowAlike (es.drop n) (xs.drop n) (xs'.drop n) := by
  induction h generalizing n with
  | nil => simpa using RowAlike.nil
  | cons h1 h2 ih =>
    cases n with
    | zero => exact RowAlike.cons h1 h2
    | succ n => exact ih n

theorem RowAlike.splice {es : List (Codec × Codec × Bool)} {xs xs' : List Cell} (h : RowAlike es xs xs') (n : Nat) {ys ys' : List Cell}
    (ht : RowAlike (es.drop n) ys ys') : RowAlike es (xs.take n ++ ys) (xs'.take n ++ ys') := by
  induction h generalizing n with
  | nil => simpa using ht
  | cons h1 h2 ih =>
    cases n with
    | zero => exact ht
    | succ n => exact RowAlike.cons h1 (ih n ht)

theorem RowAlike.get {es : List (Codec × Codec × Bool)} {xs xs' : List Cell} (h : RowAlike es xs xs') (p : Nat) (c c' : Codec)
    (he : es[p]? = some (c, c', true)) : MdSeen c c' (xs.getD p []) (xs'.getD p []) := by
  induction h generalizing p with
  | nil => simp at he
  | cons h1 h2 ih =>
    cases p with
    | zero =>
      simp only [List.getElem?_cons_zero, Option.some.injEq, Prod.mk.injEq] at he
      obtain ⟨rfl, rfl, rfl⟩ := he
      simpa using h1 rfl
    | succ p => simpa using ih p (by simpa using he)

/-- Proof device: the columns before the updates. -/
def oldOf (es : List (Codec × Codec × Bool)) : List (Codec × Bool) := es.map (fun e => (e.1, e.2.2))

/-- Proof device: the columns after the updates. -/
def newOf (es : List (Codec × Codec × Bool)) : List (Codec × Bool) := es.map (fun e => (e.2.1, e.2.2))

theorem refCols_md (o : Order) {es : List (Codec × Codec × Bool)} (hes : ∀ e ∈ es, MdCodec e.1 e.2.1) {xs xs' : List Cell}
    (h : RowAlike es xs xs') : RelP (RowAlike es) (refCols o (oldOf es) xs) (refCols o (newOf es) xs') := by
  induction h with
  | nil => exact RelP.pure RowAlike.nil
  | @cons c c' v es x x' xs xs' h1 h2 ih =>
    have hc := hes _ List.mem_cons_self
    simp only [oldOf, newOf, List.map_cons, refCols]
    refine RelP.bind (R := fun y y' => v = true → MdSeen c c' y y') ?_ _ _ ?_
    · cases v with
      | true =>
        rw [if_pos rfl, if_pos rfl]
        intro st
        have := hc.seen o st
        revert this
        dsimp only
        cases c.dec o st <;> cases c'.dec o st <;> intro h
        · exact h
        · exact h
        · exact h
        · exact ⟨fun _ => h.1, h.2⟩
      | false =>
        rw [if_neg (by decide), if_neg (by decide)]
        unfold Codec.skip
        rw [hc.size]
        refine RelP.bind (RelP.refl _) _ _ ?_
        intro a b _
        exact RelP.pure h1
    · intro y y' hy
      refine RelP.bind (ih (fun e he => hes e (List.mem_cons_of_mem _ he))) _ _ ?_
      intro ys ys' hys
      exact RelP.pure (RowAlike.cons hy hys)

theorem refRows_md (o : Order) {es : List (Codec × Codec × Bool)} (hes : ∀ e ∈ es, MdCodec e.1 e.2.1) (k last : Nat) {xs xs' : List Cell}
    (h : RowAlike es xs xs') : RelP (Match (RowAlike es)) (refRows o (oldOf es) k last xs) (refRows o (newOf es) k last xs') := by
  induction k generalizing last xs xs' with
  | zero => exact RelP.pure Match.nil
  | succ k ih =>
    simp only [refRows]
    refine RelP.bind (RelP.refl _) _ _ ?_
    rintro m _ rfl
    have hl : (newOf es).length = (oldOf es).length := by simp [oldOf, newOf]
    rw [hl]
    by_cases hc : markerStart m < last ∧ (oldOf es).length < last
    · rw [if_pos hc, if_pos hc]; intro st; rfl
    · rw [if_neg hc, if_neg hc]
      have := refCols_md o (es := es.drop (markerStart m)) (fun e he => hes e (List.mem_of_mem_drop he)) (h.drop (markerStart m))
      simp only [oldOf, newOf, List.map_drop] at this
      refine RelP.bind this _ _ ?_
      intro ys ys' hys
      have hsp := h.splice (markerStart m) hys
      refine RelP.bind (ih (markerStart m) hsp) _ _ ?_
      intro rows rows' hr
      exact RelP.pure (Match.cons hsp hr)

/-- Proof device: the columns of a table and of the table in its place. -/
def pairsOf (cs cs' : List Col) (ps : List Nat) : List (Codec × Codec × Bool) :=
  (List.range cs.length).map (fun p =>
    ((match cs[p]? with | some c => c.codec | none => fresh .int32 1 true),
     (match cs'[p]? with | some c => c.codec | none => fresh .int32 1 true), decide (p ∈ ps)))

theorem old_pairs (cs cs' : List Col) (ps : List Nat) : oldOf (pairsOf cs cs' ps) = wanted cs ps := by
  unfold oldOf pairsOf wanted
  rw [List.map_map]
  rfl

theorem new_pairs (cs cs' : List Col) (ps : List Nat) (hl : cs.length = cs'.length) : newOf (pairsOf cs cs' ps) = wanted cs' ps := by
  unfold newOf pairsOf wanted
  rw [List.map_map, hl]
  rfl

theorem pairs_get (cs cs' : List Col) (ps : List Nat) (p : Nat) (c c' : Col) (h : cs[p]? = some c) (h' : cs'[p]? = some c') (hp : p ∈ ps) :
    (pairsOf cs cs' ps)[p]? = some (c.codec, c'.codec, true) := by
  unfold pairsOf
  have hl : p < cs.length := (List.getElem?_eq_some_iff.mp h).1
  rw [List.getElem?_map, List.getElem?_range hl, Option.map_some, h, h']
  simp [hp]

theorem pairs_first {es : List (Codec × Codec × Bool)} (hes : ∀ e ∈ es, MdCodec e.1 e.2.1) :
    RowAlike es (firstRow (oldOf es)) (firstRow (newOf es)) := by
  induction es with
  | nil => exact RowAlike.nil
  | cons e es ih =>
    obtain ⟨c, c', v⟩ := e
    simp only [oldOf, newOf, firstRow, List.map_cons]
    refine RowAlike.cons ?_ (ih (fun e he => hes e (List.mem_cons_of_mem _ he)))
    intro hv
    rw [if_pos hv, if_pos hv, (hes _ List.mem_cons_self).first]
    exact ⟨Or.inl ⟨rfl, Or.inr (Or.inr (Or.inr rfl))⟩, Or.inr rfl⟩

theorem Match.getD {α β : Type} {R : List α → List β → Prop} {as : List (List α)} {bs : List (List β)} (h : Match R as bs) (r : Nat) (hr : r < as.length) :
    R (as.getD r []) (bs.getD r []) := by
  have hr' : r < bs.length := by rw [← h.length]; exact hr
  rw [List.getD_eq_getElem?_getD, List.getD_eq_getElem?_getD, List.getElem?_eq_getElem hr, List.getElem?_eq_getElem hr']
  exact h.get r _ _ (List.getElem?_eq_getElem hr) (List.getElem?_eq_getElem hr')

/-- Decoding the same data with the columns before and after the updates. -/
theorem tableDecode_md (cs cs' : List Col) (hl : cs.length = cs'.length)
    (hc : ∀ (p : Nat) (c c' : Col), cs[p]? = some c → cs'[p]? = some c' → MdCodec c.codec c'.codec)
    (nrows : Nat) (hn : 0 < nrows) (data : List Byte) (L : Lookup) (req : List (Str × Target)) (ps : List Nat)
    (hlen : req.length ≤ cs.length) (hres : resolve L nrows req [] = .ok ps) (hps : ∀ p ∈ ps, p < cs.length)
    (hel : ∀ (i : Nat) (nm : Str) (t : Target) (p : Nat) (c : Col), req[i]? = some (nm, t) → ps[i]? = some p → cs[p]? = some c →
      c.codec.width ≤ t.elem ∧ 1 ≤ t.elem ∧ ∀ r, (t.mem r).length = t.elem) :
    (∃ e, tableDecode .same cs nrows data L req = .error e ∧ tableDecode .same cs' nrows data L req = .error e) ∨
    ∃ out out', tableDecode .same cs nrows data L req = .ok out ∧ tableDecode .same cs' nrows data L req = .ok out' ∧
      out.length = req.length ∧ out'.length = req.length ∧
      ∀ (i : Nat) (nm : Str) (t : Target) (p : Nat) (c c' : Col), req[i]? = some (nm, t) → ps[i]? = some p → cs[p]? = some c →
        cs'[p]? = some c' → ∃ m m' : Nat → Cell, out[i]? = some m ∧ out'[i]? = some m' ∧
          (∀ r, r < nrows → ∃ x x', Holds (m r) x ∧ Holds (m' r) x' ∧ MdSeen c.codec c'.codec x x') ∧
          ∀ r, nrows ≤ r → m' r = m r := by
  have hes : ∀ e ∈ pairsOf cs cs' ps, MdCodec e.1 e.2.1 := by
    intro e he
    unfold pairsOf at he
    obtain ⟨p, hp, rfl⟩ := List.mem_map.mp he
    have hp1 : p < cs.length := by simpa using hp
    have hp2 : p < cs'.length := by omega
    rw [List.getElem?_eq_getElem hp1, List.getElem?_eq_getElem hp2]
    exact hc p _ _ (List.getElem?_eq_getElem hp1) (List.getElem?_eq_getElem hp2)
  have hrel := refRows_md .same hes nrows 0 (pairs_first hes) data
  rw [old_pairs, new_pairs _ _ _ hl] at hrel
  have a := tableDecode_ref cs nrows hn data L req ps hlen hres hps (fun i nm t p c h1 h2 h3 =>
    ⟨decWidth_le _ _ (hel i nm t p c h1 h2 h3).1 (hel i nm t p c h1 h2 h3).2.1, (hel i nm t p c h1 h2 h3).2⟩)
  have b := tableDecode_ref cs' nrows hn data L req ps (by omega) hres (fun p hp => by rw [← hl]; exact hps p hp)
    (fun i nm t p c' h1 h2 h3 => by
      have hp : p < cs.length := hps p (List.mem_of_getElem? h2)
      have h4 := List.getElem?_eq_getElem hp
      obtain ⟨k1, k2, k3⟩ := hel i nm t p _ h1 h2 h4
      have hw : c'.codec.width = (cs[p]).codec.width := by
        rw [(hc p _ _ h4 h3).same]
      exact ⟨decWidth_le _ _ (by rw [hw]; exact k1) k2, k2, k3⟩)
  rcases hrel.both with ⟨e, e1, e2⟩ | ⟨x, y, e1, e2, e3, _⟩
  · rw [e1] at a
    rw [e2] at b
    exact Or.inl ⟨e, a, b⟩
  · obtain ⟨rows, s1⟩ := x
    obtain ⟨rows', s2⟩ := y
    rw [e1] at a
    rw [e2] at b
    dsimp only at a b e3
    obtain ⟨a0, out, a1, a2, a3⟩ := a
    obtain ⟨b0, out', b1, b2, b3⟩ := b
    refine Or.inr ⟨out, out', a1, b1, a2, b2, ?_⟩
    intro i nm t p c c' hi hp hcp hcp'
    obtain ⟨m, m1, m2, m3, m4⟩ := a3 i nm t p hi hp
    obtain ⟨m', n1, n2, n3, n4⟩ := b3 i nm t p hi hp
    refine ⟨m, m', m1, n1, ?_, fun r hr => by rw [m4 r hr, n4 r hr]⟩
    intro r hr
    have hal := e3.getD r (by omega)
    exact ⟨_, _, m2 r hr, n2 r hr, hal.get p _ _ (pairs_get cs cs' ps p c c' hcp hcp' (List.mem_of_getElem? hp))⟩

/-- With integers kept as doubles every column of a file that was read holds doubles. -/
theorem read_doubles {env : Env} (hd : env.asDbl = true) {bytes : List Byte} {fs : List (List Tbl)} (h : readPlain env bytes = (fs, none)) :
    ∀ fr ∈ fs, ∀ t ∈ fr, ∀ c ∈ t.info.cols, c.codec.vt = .dbl := by
  obtain ⟨ts, h1, rfl, _⟩ := readPlain_iff.mp h
  intro fr hfr t ht c hc
  obtain ⟨t', ht', rfl⟩ := List.mem_map.mp hfr
  rw [List.mem_singleton] at ht
  subst ht
  obtain ⟨p, hp⟩ := h1.1.mem_read t ht'
  obtain ⟨_, hi, o, rest, hpar, _, hr⟩ := readTable_some_iff.mp hp
  have hag := (parse_headerOk hpar).2 c (by rw [hr] at hc; exact hc)
  have := congrArg Codec.vt hag.reload
  rw [hd] at this
  have e : (reload true c.ty c.codec).vt = .dbl := by
    rw [(reload_vt true c.ty c.codec).1]; exact vtOf_dbl _ _
  rw [e] at this
  exact this.symm

/-- **C49**, the values: for every request on a frame of the old file (in the byte order of the machine), the frame in its
place in the new file decodes, or fails, alike; the values of every requested column are those of the old file, except
that in a constant column that was given a value the old value is replaced by the new one. -/
theorem C49_values (env : Env) (hd : env.asDbl = true) (old new : List Byte) (fs : List (List Tbl)) (h : readPlain env old = (fs, none))
    (us : List MdUpdate) (fr fr' : List Tbl) (hfr : fr ∈ fs) (hm : MdFrame us old new fr fr')
    (hok : ∀ t ∈ fr, MdOk us t.info.cols) (ho : ∀ t ∈ fr, t.order = .same)
    (req : List (Str × Target)) (hw : ∀ t ∈ fr, WideReq t.info.cols req) (hmem : ∀ x ∈ req, ∀ r, (x.2.mem r).length = x.2.elem) :
    (∃ e, decodeFrame old fr req = .error e ∧ decodeFrame new fr' req = .error e) ∨
    ∃ out out', decodeFrame old fr req = .ok out ∧ decodeFrame new fr' req = .ok out' ∧ out.length = req.length ∧ out'.length = req.length ∧
      ∀ t ∈ fr, ∀ t' ∈ fr', ∀ (i p : Nat) (c c' : Col) (tg : Target), req[i]? = some (c.name, tg) → t.info.cols[p]? = some c →
        t'.info.cols[p]? = some c' → ∃ m m' : Nat → Cell, out[i]? = some m ∧ out'[i]? = some m' ∧
          (∀ r, r < t.info.nrows → ∃ x x', Holds (m r) x ∧ Holds (m' r) x' ∧ MdSeen c.codec c'.codec x x') ∧
          ∀ r, t.info.nrows ≤ r → m' r = m r := by
  have hvt := read_doubles hd h fr hfr
  obtain ⟨t, t', d, rfl, rfl, h1, h2, _, _, h5, h6, h7⟩ := hm
  have hok := hok t (by simp)
  have ho := ho t (by simp)
  have hw := hw t (by simp)
  have hvt := hvt t (by simp)
  rw [decodeFrame_one, decodeFrame_one]
  have hnames : t'.info.cols.map Col.name = t.info.cols.map Col.name := by
    clear hvt hw hok h6 h7
    generalize t.info.cols = a at h5
    generalize t'.info.cols = b at h5
    induction h5 with
    | nil => rfl
    | cons hc _ ih =>
      obtain ⟨dd, u1, rfl⟩ := hc
      simp only [List.map_cons, ih, u1.name]
  have hcod : ∀ (p : Nat) (c c' : Col), t.info.cols[p]? = some c → t'.info.cols[p]? = some c' → MdCodec c.codec c'.codec := by
    intro p c c' hc hc'
    obtain ⟨dd, u1, rfl⟩ := h5.get p c c' hc hc'
    refine ⟨hvt c (List.mem_of_getElem? hc), ?_, ?_⟩
    · have := congrArg Col.codec u1.frame
      exact this
    · rcases u1.value with ⟨e, _⟩ | ⟨u, hu, v, e1, e2, _, _⟩
      · exact Or.inl e
      · right
        obtain ⟨q, cq, q1, q2, q3, q4⟩ := hok.allowed u hu
        have : p = q := q3 p c hc e2
        subst this
        rw [q1] at hc
        obtain rfl := Option.some.inj hc
        exact q4 (by rw [e1]; simp)
  unfold Tbl.decode
  rw [hnames]
  cases hL : columnLookup (t.info.cols.map Col.name) Lookup.empty with
  | mk L oe =>
    cases oe with
    | some e => exact Or.inl ⟨e, rfl, rfl⟩
    | none =>
      dsimp only
      rw [← h5.length, h2]
      by_cases hlen : t.info.cols.length < req.length
      · rw [if_pos hlen, if_pos hlen]; exact Or.inl ⟨_, rfl, rfl⟩
      rw [if_neg hlen, if_neg hlen]
      cases hres : resolve L t.info.nrows req [] with
      | error e => exact Or.inl ⟨e, rfl, rfl⟩
      | ok ps =>
        dsimp only
        rw [h6, h7]
        dsimp only
        rw [h1, ho]
        obtain ⟨r1, _, _, r4⟩ := resolve_ok _ _ _ _ _ hres
        have hwithin : L.Within t.info.cols.length := by
          have := columnLookup_within (t.info.cols.map Col.name) Lookup.empty (Lookup.empty_within _)
          rw [hL, List.length_map] at this
          exact this
        have hnm : ∀ (i : Nat) (nm : Str) (tg : Target) (p : Nat) (c : Col), req[i]? = some (nm, tg) → ps[i]? = some p →
            t.info.cols[p]? = some c → nm = c.name ∨ nm = simpleName c.name := by
          intro i nm tg p c hi hp hc
          obtain ⟨n, k1, k2⟩ := lookup_names _ L hL nm p ((r4 i nm tg hi).1.trans hp)
          rw [List.getElem?_map, hc] at k1
          obtain rfl := Option.some.inj k1
          exact k2
        have hfind : ∀ (i p : Nat) (c : Col) (tg : Target), req[i]? = some (c.name, tg) → t.info.cols[p]? = some c → ps[i]? = some p := by
          intro i p c tg hi hc
          have hnd : (t.info.cols.map Col.name).Nodup := by
            by_contra hx
            obtain ⟨L', hL'⟩ := lookup_dup _ hx
            rw [hL] at hL'
            cases hL'
          obtain ⟨L', l1, l2⟩ := C24_decode_lookup _ hnd
          rw [hL] at l1
          obtain rfl := (Prod.mk.injEq _ _ _ _ ▸ l1).1
          rw [← (r4 i _ tg hi).1]
          exact (l2 c.name).1 p (by rw [List.getElem?_map, hc]; rfl)
        by_cases hn : t.info.nrows = 0
        · unfold tableDecode
          rw [← h5.length, if_neg hlen, if_neg hlen, hres]
          dsimp only
          rw [if_pos hn, if_pos hn]
          refine Or.inr ⟨_, _, rfl, rfl, by simp, by simp, ?_⟩
          intro t1 ht1 t1' ht1' i p c c' tg hi hc hc'
          rw [List.mem_singleton] at ht1
          subst ht1
          refine ⟨tg.mem, tg.mem, by rw [List.getElem?_map, hi]; rfl, by rw [List.getElem?_map, hi]; rfl, fun r hr => ?_, fun _ _ => rfl⟩
          omega
        · rcases tableDecode_md t.info.cols t'.info.cols h5.length hcod t.info.nrows (by omega) d L req ps (by omega) hres
            (resolve_within hwithin hres) (fun i nm tg p c hi hp hc => by
              have := hw c (List.mem_of_getElem? hc) nm tg (List.mem_of_getElem? hi) (hnm i nm tg p c hi hp hc)
              exact ⟨this.1, this.2, hmem _ (List.mem_of_getElem? hi)⟩) with e | ⟨out, out', o1, o2, o3, o4, o5⟩
          · exact Or.inl e
          · refine Or.inr ⟨out, out', o1, o2, o3, o4, ?_⟩
            intro t1 ht1 t1' ht1' i p c c' tg hi hc hc'
            rw [List.mem_singleton] at ht1 ht1'
            subst ht1 ht1'
            exact o5 i _ tg p c c' hi (hfind i p c tg hi hc) hc hc'

end Verif
