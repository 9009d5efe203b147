import Verif.PropAgree
import Verif.PropRows

/-
C47: what the row writer wrote is read by the frame interface.
-/

namespace Verif

/-! ### Rows -/

/-- If the row reader accepts the rows, the decoder does, and stores the same. -/
theorem it_alike {o : Order} {cs : List Codec} (k : Nat) (ls q : Nat) (hls : ls ≤ cs.length) (xs ys : List Cell) (h : Like cs xs ys)
    (hq : FullFrom q cs ys) (s : List Byte) (rows' : List (List Cell)) (s' : List Byte)
    (hr : itRowsB o cs k xs s = .ok (rows', s')) :
    ∃ rows, refRows o (allOf cs) k ls ys s = .ok (rows, s') ∧ RowsLike q cs rows' rows := by
  induction k generalizing ls xs ys s rows' s' with
  | zero =>
    simp only [itRowsB, P.pure_apply, Except.ok.injEq, Prod.mk.injEq] at hr
    obtain ⟨rfl, rfl⟩ := hr
    exact ⟨[], rfl, ⟨rfl, by simp⟩⟩
  | succ k ih =>
    simp only [itRowsB, P.bind_apply] at hr
    simp only [refRows, P.bind_apply]
    cases hm : readBytes 2 s with
    | error e => rw [hm] at hr; simp at hr
    | ok v =>
      obtain ⟨m, s1⟩ := v
      rw [hm] at hr
      dsimp only at hr ⊢
      split at hr
      · simp [P.fail] at hr
      rename_i hmc
      rw [if_neg (by simp only [allOf, List.length_map]; omega)]
      rw [P.bind_apply] at hr ⊢
      obtain ⟨c1, c2⟩ := cols_alike (o := o) (h.drop (markerStart m)) s1
      have hdrop : (allOf cs).drop (markerStart m) = allOf (cs.drop (markerStart m)) := by simp [allOf]
      rw [hdrop, ← c1]
      cases ht : decRow o (cs.drop (markerStart m)) (xs.drop (markerStart m)) s1 with
      | error e => rw [ht] at hr; simp at hr
      | ok v =>
        obtain ⟨t, s2⟩ := v
        rw [ht] at hr
        dsimp only at hr ⊢
        obtain ⟨d1, d2⟩ := c2 t s2 ht
        rw [P.bind_apply] at hr ⊢
        cases hrr : itRowsB o cs k (xs.take (markerStart m) ++ t) s2 with
        | error e => rw [hrr] at hr; simp at hr
        | ok v =>
          obtain ⟨rows1, s3⟩ := v
          rw [hrr] at hr
          simp only [P.pure_apply, Except.ok.injEq, Prod.mk.injEq] at hr
          obtain ⟨rfl, rfl⟩ := hr
          have hL := h.step (markerStart m) d1
          have hF : FullFrom q cs (ys.take (markerStart m) ++ t) := by
            have := full_step (markerStart m) q h.lengths.2 hq d2
            intro i c y hi; exact this i c y (by omega)
          obtain ⟨rows2, e1, e2⟩ := ih (markerStart m) (by omega) _ _ hL hF s2 rows1 s3 hrr
          refine ⟨(ys.take (markerStart m) ++ t) :: rows2, by simp only [P.pure_apply, e1], ?_⟩
          refine ⟨by simp [e2.len], ?_⟩
          intro r a b ha hb
          cases r with
          | zero => simp at ha hb; subst ha; subst hb; exact ⟨hL, hF⟩
          | succ r => exact e2.row r a b (by simpa using ha) (by simpa using hb)

/-- Columns the first row leaves out keep what was in the buffer. -/
theorem it_first {o : Order} {cs : List Codec} (k : Nat) (xs : List Cell) (s : List Byte) (row : List Cell) (rows : List (List Cell))
    (s' : List Byte) (hr : itRowsB o cs k xs s = .ok (row :: rows, s')) (p : Nat) (hp : p < firstMarker s) (hpl : p < xs.length) :
    row[p]? = xs[p]? := by
  cases k with
  | zero => simp [itRowsB, P.pure_apply] at hr
  | succ k =>
    simp only [itRowsB, P.bind_apply] at hr
    cases hm : readBytes 2 s with
    | error e => rw [hm] at hr; simp at hr
    | ok v =>
      obtain ⟨m, s1⟩ := v
      have hmk : markerStart m = firstMarker s := by rw [(readBytes_ok hm).1]; rfl
      rw [hm] at hr
      dsimp only at hr
      split at hr
      · simp [P.fail] at hr
      rw [P.bind_apply] at hr
      cases ht : decRow o (cs.drop (markerStart m)) (xs.drop (markerStart m)) s1 with
      | error e => rw [ht] at hr; simp at hr
      | ok v =>
        obtain ⟨t, s2⟩ := v
        rw [ht] at hr
        dsimp only at hr
        rw [P.bind_apply] at hr
        cases hrr : itRowsB o cs k (xs.take (markerStart m) ++ t) s2 with
        | error e => rw [hrr] at hr; simp at hr
        | ok v =>
          rw [hrr] at hr
          simp only [P.pure_apply, Except.ok.injEq, Prod.mk.injEq, List.cons.injEq] at hr
          obtain ⟨⟨rfl, _⟩, _⟩ := hr
          rw [List.getElem?_append_left (by simp; omega), List.getElem?_take, if_pos (by omega)]

theorem Like.self {cs : List Codec} {xs ys : List Cell} (h : Like cs xs ys) : Like cs xs xs := by
  induction h with
  | nil => exact .nil
  | cons h1 h2 h3 h4 h5 _ ih => exact .cons h1 h2 h3 (holds_self _) (by intro h0; rw [h0] at h3; simp at h3; omega) ih

/-- If the row reader accepts the rows from every buffer, the decoder stores exactly these. -/
theorem it_exact {o : Order} (cols : List Col) (hl : ∀ c ∈ cols, c.codec.Loaded) (hb : ∀ c ∈ cols, ¬ c.codec.Blank)
    (hw : ∀ c ∈ cols, c.codec.missingWord = .ok c.codec.firstWord) (data : List Byte) (F : List (List Cell)) (hne : F ≠ [])
    (h : ∀ (junk : Junk) (t : Nat), ∃ l, firstCells junk t 0 cols = .ok l ∧
      Reads (itRowsB o (cols.map Col.codec) F.length l) data F) :
    refRows o (allOf (cols.map Col.codec)) F.length 0 (firstRow (allOf (cols.map Col.codec))) data = .ok (F, []) ∧
      ∀ row ∈ F, row.length = cols.length ∧
        ∀ (p : Nat) (c : Col) (x : Cell), cols[p]? = some c → row[p]? = some x → x.length = c.codec.width ∧
          c.codec.decWidth = c.codec.width ∧ 1 ≤ c.codec.width := by
  -- the buffer
  have hst : ∀ (junk : Junk) (cs : List Col) (p : Nat), (∀ c ∈ cs, c ∈ cols) → ∃ l, firstCells junk 0 p cs = .ok l ∧
      Like (cs.map Col.codec) l (firstRow (allOf (cs.map Col.codec))) ∧
      ∀ (i : Nat) (c : Col), cs[i]? = some c →
        l[i]? = some (c.codec.firstWord :: (List.range (c.codec.width - 1)).map (junk 0 (p + i))) := by
    intro junk cs
    induction cs with
    | nil => intro p _; exact ⟨[], rfl, .nil, by simp⟩
    | cons c cs ih =>
      intro p hcs
      obtain ⟨l, h1, h2, h3⟩ := ih (p + 1) (fun x hx => hcs x (by simp [hx]))
      have hc := hcs c (by simp)
      obtain ⟨w1, w2⟩ := (hl c hc).2 (hb c hc)
      refine ⟨(c.codec.firstWord :: (List.range (c.codec.width - 1)).map (junk 0 p)) :: l, ?_, ?_, ?_⟩
      · simp [firstCells, firstCell, hw c hc, h1, hb c hc]
      · simp only [List.map_cons, allOf, firstRow]
        exact .cons w1 w2 (by simp; omega) (by simp [Holds]) (by simp) h2
      · intro i d hd
        cases i with
        | zero => simp at hd; subst hd; rfl
        | succ i =>
          have := h3 i d (by simpa using hd)
          rw [show p + 1 + i = p + (i + 1) by omega] at this
          simpa using this
  obtain ⟨row0, rest, hF0⟩ := List.exists_cons_of_ne_nil hne
  have hread : ∀ junk : Junk, ∃ l, firstCells junk 0 0 cols = .ok l ∧
      Like (cols.map Col.codec) l (firstRow (allOf (cols.map Col.codec))) ∧
      (∀ (i : Nat) (c : Col), cols[i]? = some c →
        l[i]? = some (c.codec.firstWord :: (List.range (c.codec.width - 1)).map (junk 0 i))) ∧
      itRowsB o (cols.map Col.codec) F.length l data = .ok (F, []) := by
    intro junk
    obtain ⟨l, h1, h2, h3⟩ := hst junk cols 0 (fun c hc => hc)
    obtain ⟨l', g1, g2⟩ := h junk 0
    rw [h1] at g1
    simp only [Except.ok.injEq] at g1
    subst g1
    refine ⟨l, h1, h2, by simpa using h3, ?_⟩
    have := g2 []
    simpa using this
  -- columns left out are one word wide
  have hone : ∀ (p : Nat) (c : Col), p < firstMarker data → cols[p]? = some c → c.codec.width = 1 := by
    intro p c hp hc
    have hcm := List.mem_of_getElem? hc
    have w2 := ((hl c hcm).2 (hb c hcm)).2
    obtain ⟨l, _, a2, a3, a4⟩ := hread (fun _ _ _ => 0)
    obtain ⟨l', _, b2, b3, b4⟩ := hread (fun _ _ _ => 1)
    have hpl := (List.getElem?_eq_some_iff.mp hc).1
    rw [hF0] at a4 b4
    have e1 := it_first _ l data row0 rest [] a4 p hp (by rw [a2.lengths.1]; simpa using hpl)
    have e2 := it_first _ l' data row0 rest [] b4 p hp (by rw [b2.lengths.1]; simpa using hpl)
    rw [e1, a3 p c hc, b3 p c hc] at e2
    by_contra hne1
    obtain ⟨n, hn⟩ : ∃ n, c.codec.width - 1 = n + 1 := ⟨c.codec.width - 2, by omega⟩
    rw [hn, List.range_succ_eq_map] at e2
    simp at e2
  obtain ⟨l, _, a2, a3, a4⟩ := hread (fun _ _ _ => 0)
  -- read from the buffer, and from the decoder's start
  have hfull : FullFrom 0 (cols.map Col.codec) (l) := by
    intro i c y _ hc hy
    obtain ⟨x, _, x1, _, _, _, x5, _, _⟩ := a2.get i c hc
    rw [x1] at hy
    simp only [Option.some.injEq] at hy
    rw [← hy, x5]
  obtain ⟨rows, r1, r2⟩ := it_alike F.length 0 (cols.length) (by omega) l _ a2 (by
    intro i c y hi hc _
    have := (List.getElem?_eq_some_iff.mp hc).1
    simp at this; omega) data F [] a4
  have hLl := a2.self
  obtain ⟨rows2, s1, s2⟩ := it_alike F.length 0 0 (by omega) l l hLl hfull data F [] a4
  have hF2 : F = rows2 := by
    refine List.ext_getElem? ?_
    intro r
    rcases Nat.lt_or_ge r F.length with hr | hr
    · have h1 := List.getElem?_eq_getElem hr
      have h2 := List.getElem?_eq_getElem (show r < rows2.length by rw [← s2.len]; exact hr)
      obtain ⟨b1, b2⟩ := s2.row r _ _ h1 h2
      rw [h1, h2]
      congr 1
      generalize F[r] = a at b1
      generalize rows2[r]'(by rw [← s2.len]; exact hr) = b at b1 b2
      refine List.ext_getElem? ?_
      intro i
      rcases Nat.lt_or_ge i (cols.map Col.codec).length with hi | hi
      · obtain ⟨x, y, x1, x2, x3, x4, x5, x6, x7⟩ := b1.get i _ (List.getElem?_eq_getElem hi)
        rw [x1, x2]
        congr 1
        exact x6.eq (by rw [x5, b2 i _ y (by omega) (List.getElem?_eq_getElem hi) x2])
      · rw [List.getElem?_eq_none (by rw [b1.lengths.1]; exact hi), List.getElem?_eq_none (by rw [b1.lengths.2]; exact hi)]
    · rw [List.getElem?_eq_none hr, List.getElem?_eq_none (by rw [← s2.len]; exact hr)]
  have hfirst : refRows o (allOf (cols.map Col.codec)) F.length 0 (firstRow (allOf (cols.map Col.codec))) data =
      refRows o (allOf (cols.map Col.codec)) F.length 0 l data := by
    refine refRows_first o _ _ _ _ _ data (by rw [a2.lengths.1, a2.lengths.2]) ?_
    refine List.ext_getElem? ?_
    intro i
    rw [List.getElem?_take, List.getElem?_take]
    split
    · rename_i hi
      rcases Nat.lt_or_ge i cols.length with hic | hic
      · have hc := List.getElem?_eq_getElem hic
        have := hone i _ hi hc
        rw [a3 i _ hc, this]
        simp [firstRow, allOf]
        exact ⟨_, hc, rfl⟩
      · rw [List.getElem?_eq_none (by rw [a2.lengths.2]; simpa using hic), List.getElem?_eq_none (by rw [a2.lengths.1]; simpa using hic)]
    · rfl
  refine ⟨by rw [hfirst, s1, ← hF2], ?_⟩
  intro row hrow
  obtain ⟨r, hr⟩ := List.mem_iff_getElem?.mp hrow
  have hrl := (List.getElem?_eq_some_iff.mp hr).1
  obtain ⟨b1, b2⟩ := s2.row r row _ hr (List.getElem?_eq_getElem (show r < rows2.length by rw [← s2.len]; exact hrl))
  refine ⟨by simpa using b1.lengths.1, ?_⟩
  intro p c x hc hx
  obtain ⟨x', y, x1, x2, x3, x4, x5, x6, x7⟩ := b1.get p c.codec (by rw [List.getElem?_map, hc]; rfl)
  rw [hx] at x1
  simp only [Option.some.injEq] at x1
  subst x1
  exact ⟨x5, x3, x4⟩

/-! ### Some of the columns -/

/-- Decoding with every column wanted, and with some. -/
theorem cols_mask {o : Order} (ws : List (Codec × Bool)) (xs ys : List Cell) (hl : xs.length = ws.length) (hl' : ys.length = ws.length)
    (s s' : List Byte) (t : List Cell) (h : refCols o (allOf (ws.map Prod.fst)) xs s = .ok (t, s')) :
    ∃ t', refCols o ws ys s = .ok (t', s') ∧ t'.length = ws.length ∧ t.length = ws.length ∧
      ∀ (i : Nat) (w : Codec × Bool), ws[i]? = some w → w.2 = true → t'[i]? = t[i]? := by
  induction ws generalizing xs ys s s' t with
  | nil =>
    cases xs with
    | cons x xs => simp at hl
    | nil =>
      cases ys with
      | cons y ys => simp at hl'
      | nil =>
        simp only [allOf, List.map_nil, refCols, P.pure_apply, Except.ok.injEq, Prod.mk.injEq] at h
        obtain ⟨rfl, rfl⟩ := h
        exact ⟨[], rfl, rfl, rfl, by simp⟩
  | cons w ws ih =>
    obtain ⟨c, v⟩ := w
    cases xs with
    | nil => simp at hl
    | cons x xs =>
      cases ys with
      | nil => simp at hl'
      | cons y ys =>
        simp only [allOf, List.map_cons, refCols, if_true, P.bind_apply] at h
        cases hd : c.dec o s with
        | error e => rw [hd] at h; simp at h
        | ok r =>
          obtain ⟨d, s1⟩ := r
          rw [hd] at h
          dsimp only at h
          cases hr : refCols o (List.map (fun c => (c, true)) (List.map Prod.fst ws)) xs s1 with
          | error e => rw [hr] at h; simp at h
          | ok r =>
            obtain ⟨t1, s2⟩ := r
            rw [hr] at h
            simp only [P.pure_apply, Except.ok.injEq, Prod.mk.injEq] at h
            obtain ⟨rfl, rfl⟩ := h
            obtain ⟨t', e1, e2, e3, e4⟩ := ih xs ys (by simpa using hl) (by simpa using hl') s1 s2 t1 hr
            cases v with
            | true =>
              refine ⟨d :: t', ?_, by simp [e2], by simp [e3], ?_⟩
              · simp only [refCols, if_true, P.bind_apply, hd, e1, P.pure_apply]
              · intro i w hi hw
                cases i with
                | zero => rfl
                | succ i => simpa using e4 i w (by simpa using hi) hw
            | false =>
              refine ⟨y :: t', ?_, by simp [e2], by simp [e3], ?_⟩
              · simp only [refCols, Bool.false_eq_true, if_false, P.bind_apply, skip_of_dec o c s s1 d hd, e1, P.pure_apply]
              · intro i w hi hw
                cases i with
                | zero => simp at hi; subst hi; simp at hw
                | succ i => simpa using e4 i w (by simpa using hi) hw

/-- Proof device: two rows agree in the wanted columns. -/
def AgreeIn (ws : List (Codec × Bool)) (a b : List Cell) : Prop :=
  ∀ (i : Nat) (w : Codec × Bool), ws[i]? = some w → w.2 = true → a[i]? = b[i]?

/-- Decoding all rows with every column wanted, and with some. -/
theorem rows_mask {o : Order} (ws : List (Codec × Bool)) (k ls : Nat) (xs ys : List Cell) (hl : xs.length = ws.length)
    (hl' : ys.length = ws.length) (hag : AgreeIn ws ys xs) (s s' : List Byte) (rows : List (List Cell))
    (h : refRows o (allOf (ws.map Prod.fst)) k ls xs s = .ok (rows, s')) :
    ∃ rows', refRows o ws k ls ys s = .ok (rows', s') ∧ rows'.length = rows.length ∧
      ∀ (r : Nat) (a b : List Cell), rows'[r]? = some a → rows[r]? = some b → AgreeIn ws a b := by
  induction k generalizing ls xs ys s s' rows with
  | zero =>
    simp only [refRows, P.pure_apply, Except.ok.injEq, Prod.mk.injEq] at h
    obtain ⟨rfl, rfl⟩ := h
    exact ⟨[], rfl, rfl, by simp⟩
  | succ k ih =>
    simp only [refRows, P.bind_apply] at h ⊢
    cases hm : readBytes 2 s with
    | error e => rw [hm] at h; simp at h
    | ok v =>
      obtain ⟨m, s1⟩ := v
      rw [hm] at h
      dsimp only at h ⊢
      have hwl : (allOf (ws.map Prod.fst)).length = ws.length := by simp [allOf]
      rw [hwl] at h
      split at h
      · simp [P.fail] at h
      rename_i hif
      rw [if_neg hif]
      rw [P.bind_apply] at h ⊢
      have hdrop : (allOf (ws.map Prod.fst)).drop (markerStart m) = allOf ((ws.drop (markerStart m)).map Prod.fst) := by simp [allOf]
      rw [hdrop] at h
      cases ht : refCols o (allOf ((ws.drop (markerStart m)).map Prod.fst)) (xs.drop (markerStart m)) s1 with
      | error e => rw [ht] at h; simp at h
      | ok v =>
        obtain ⟨t, s2⟩ := v
        rw [ht] at h
        dsimp only at h
        obtain ⟨t', e1, e2, e3, e4⟩ := cols_mask (ws.drop (markerStart m)) (xs.drop (markerStart m)) (ys.drop (markerStart m))
          (by simp [hl]) (by simp [hl']) s1 s2 t ht
        rw [e1]
        dsimp only
        rw [P.bind_apply] at h ⊢
        cases hr : refRows o (allOf (ws.map Prod.fst)) k (markerStart m) (xs.take (markerStart m) ++ t) s2 with
        | error e => rw [hr] at h; simp at h
        | ok v =>
          obtain ⟨rows1, s3⟩ := v
          rw [hr] at h
          simp only [P.pure_apply, Except.ok.injEq, Prod.mk.injEq] at h
          obtain ⟨rfl, rfl⟩ := h
          simp only [List.length_drop] at e2 e3
          have hag' : AgreeIn ws (ys.take (markerStart m) ++ t') (xs.take (markerStart m) ++ t) := by
            intro i w hi hw
            have hil := (List.getElem?_eq_some_iff.mp hi).1
            by_cases him : i < markerStart m
            · rw [List.getElem?_append_left (by simp; omega), List.getElem?_append_left (by simp; omega), List.getElem?_take, if_pos him,
                List.getElem?_take, if_pos him]
              exact hag i w hi hw
            · have h1 : (ys.take (markerStart m)).length = markerStart m := by simp; omega
              have h2 : (xs.take (markerStart m)).length = markerStart m := by simp; omega
              rw [List.getElem?_append_right (by omega), List.getElem?_append_right (by omega), h1, h2]
              exact e4 (i - markerStart m) w (by rw [List.getElem?_drop, show markerStart m + (i - markerStart m) = i by omega, hi]) hw
          obtain ⟨rows2, f1, f2, f3⟩ := ih (markerStart m) _ (ys.take (markerStart m) ++ t') (by simp; omega) (by simp; omega) hag' s2 s3 rows1 hr
          refine ⟨(ys.take (markerStart m) ++ t') :: rows2, by simp only [P.pure_apply, f1], by simp [f2], ?_⟩
          intro r a b ha hb
          cases r with
          | zero => simp at ha hb; subst ha; subst hb; exact hag'
          | succ r => exact f3 r a b (by simpa using ha) (by simpa using hb)

/-! ### A table -/

/-- The columns of a request. -/
theorem req_resolved (t : Tbl) (hnd : (t.info.cols.map Col.name).Nodup) (S : List (Str × Nat)) (req : List (Str × Target)) (hreq : ReqOk t req) :
    ∃ ps, resolve ⟨numbered (t.info.cols.map Col.name) 0, S⟩ t.info.nrows req [] = .ok ps ∧ ps.length = req.length ∧
      (∀ p ∈ ps, p < t.info.cols.length) ∧ req.length ≤ t.info.cols.length ∧
      ∀ (i : Nat) (e : Str × Target) (p : Nat), req[i]? = some e → ps[i]? = some p →
        ∃ k, t.info.cols[p]? = some k ∧ k.name = e.1 ∧ k.codec.width ≤ e.2.elem := by
  obtain ⟨ps, hpl, hps⟩ := exists_list (fun (e : Str × Target) (p : Nat) =>
      ∃ k, t.info.cols[p]? = some k ∧ k.name = e.1 ∧ k.codec.width ≤ e.2.elem) req (by
    intro e he
    obtain ⟨k, hk, h1, h2⟩ := hreq.known e he
    obtain ⟨p, hp⟩ := List.mem_iff_getElem?.mp hk
    exact ⟨p, k, hp, h1, h2⟩)
  have hfind : ∀ (i : Nat) (nm : Str) (tg : Target), req[i]? = some (nm, tg) →
      Lookup.find ⟨numbered (t.info.cols.map Col.name) 0, S⟩ nm = ps[i]? ∧ t.info.nrows ≤ tg.nelem := by
    intro i nm tg hit
    obtain ⟨hil, _⟩ := List.getElem?_eq_some_iff.mp hit
    have hpi : ps[i]? = some (ps[i]'(by omega)) := List.getElem?_eq_getElem (by omega)
    obtain ⟨k, hk, hkn, _⟩ := hps i _ _ hit hpi
    refine ⟨?_, hreq.room _ (List.mem_of_getElem? hit)⟩
    rw [hpi]
    unfold Lookup.find
    rw [assoc_numbered _ hnd _ nm (by rw [List.getElem?_map, hk]; simp [hkn])]
  have hpnd : ps.Nodup := by
    rw [List.Nodup, List.pairwise_iff_getElem]
    intro a b ha hb hab heq
    have hpa : ps[a]? = some ps[a] := List.getElem?_eq_getElem ha
    have hpb : ps[b]? = some ps[b] := List.getElem?_eq_getElem hb
    obtain ⟨k1, q1, q2, _⟩ := hps a _ _ (List.getElem?_eq_getElem (by omega)) hpa
    obtain ⟨k2, q3, q4, _⟩ := hps b _ _ (List.getElem?_eq_getElem (by omega)) hpb
    rw [heq, q3] at q1
    simp only [Option.some.injEq] at q1
    subst q1
    have hd' := hreq.distinct
    rw [List.Nodup, List.pairwise_iff_getElem] at hd'
    apply hd' a b (by simp; omega) (by simp; omega) hab
    simp only [List.getElem_map]
    rw [← q2, ← q4]
  have hpb : ∀ p ∈ ps, p < t.info.cols.length := by
    intro p hp
    obtain ⟨i, hi', rfl⟩ := List.getElem_of_mem hp
    obtain ⟨k, hk, _⟩ := hps i _ _ (List.getElem?_eq_getElem (by omega)) (List.getElem?_eq_getElem hi')
    exact (List.getElem?_eq_some_iff.mp hk).1
  have hreqlen : req.length ≤ t.info.cols.length := by
    rw [← hpl]
    have hsub : ps ⊆ List.range t.info.cols.length := fun p hp => List.mem_range.mpr (hpb p hp)
    have := (List.Nodup.subperm hpnd hsub).length_le
    simpa using this
  exact ⟨ps, resolve_of _ _ _ _ _ hpl hpnd (by simp) hfind, hpl, hpb, hreqlen, hps⟩

/-- Specification: what a request on a table whose rows are `rows` gives: each requested column holds its cells, and
rows after the last are left alone. -/
def ColumnsOf (t : Tbl) (rows : List (List Cell)) (req : List (Str × Target)) (out : List (Nat → Cell)) : Prop :=
  out.length = req.length ∧ ∀ (i : Nat) (nm : Str) (tg : Target), req[i]? = some (nm, tg) → ∃ m : Nat → Cell, out[i]? = some m ∧
    (∀ (p : Nat) (c : Col), t.info.cols[p]? = some c → c.name = nm → ∀ (r : Nat) (row : List Cell) (x : Cell), rows[r]? = some row →
      row[p]? = some x → (m r).take c.codec.width = x) ∧
    (∀ r, (m r).length = tg.elem) ∧ ∀ r, rows.length ≤ r → m r = tg.mem r

/-- Specification: what the frame interface asks of a frame that the row interface reads: columns with distinct names,
no empty constant string, string columns that can be copied, and the default missing values. -/
structure ColsPlain (cols : List Col) : Prop where
  ne : cols ≠ []
  names : (cols.map Col.name).Nodup
  strings : ∀ c ∈ cols, ¬ c.codec.Blank
  copies : ∀ c ∈ cols, c.codec.clone = .ok c.codec
  missing : ∀ c ∈ cols, c.codec.missingWord = .ok c.codec.firstWord

/-- A frame that the row interface reads, as the frame interface does. -/
theorem frame_back (env : Env) (F : RFrame) (hF : F.Ok env) (hP : ColsPlain F.cols) (props : StrMap) (hH : F.Head env .same props) (hsz : F.bytes.length ≤ 2147483647) :
    ∃ r : RawFrame, r.Ok env ∧ r.bytes = F.bytes ∧ r.info.cols = F.cols ∧ r.info.nrows = F.rows.length ∧
      r.info.props = props ∧ ∀ pos : Nat, (r.tbl pos).copy = .ok (r.tbl pos) ∧
        ∀ (bytes rest : List Byte), bytes.drop pos = r.bytes ++ rest → ∀ req, ReqOk (r.tbl pos) req →
          ∃ out, decodeFrame bytes [r.tbl pos] req = .ok out ∧ ColumnsOf (r.tbl pos) F.rows req out := by
  obtain ⟨hne, h, o, data, p1, p2, p3, p4, p5, p6⟩ := hF
  have hparse : parseHeader env.md5 env.asDbl F.bytes = .ok (some (h, o, data)) := by simpa using p1 []
  obtain ⟨h', d', hp', hpr⟩ := hH
  rw [hparse] at hp'
  simp only [Except.ok.injEq, Option.some.injEq, Prod.mk.injEq] at hp'
  obtain ⟨rfl, rfl, rfl⟩ := hp'
  obtain ⟨l1, l2, l3⟩ := parse_loaded hparse
  have hle := (parseHeader_rest _ _ _ _ _ _ hparse).1
  have hr : (⟨F.bytes, h, .same, data⟩ : RawFrame).Ok env := ⟨hparse, by rw [p3]; exact toI64_small _ (by omega)⟩
  generalize hrr : (⟨F.bytes, h, .same, data⟩ : RawFrame) = r at hr
  have hrb : r.bytes = F.bytes := by rw [← hrr]
  have hri : r.info = h := by rw [← hrr]
  have hrd : r.data = data := by rw [← hrr]
  have hro : r.order = .same := by rw [← hrr]
  obtain ⟨x1, x2⟩ := it_exact F.cols (by rw [← p2]; exact l1) hP.strings hP.missing data F.rows hne p6
  have hpos : 0 < F.rows.length := List.length_pos_of_ne_nil hne
  refine ⟨r, hr, hrb, by rw [hri, p2], by rw [hri, p5], by rw [hri, hpr], ?_⟩
  intro pos
  have hinfo : (r.tbl pos).info = h := hri
  have hord : (r.tbl pos).order = .same := hro
  refine ⟨Tbl.copy_of _ (by rw [hinfo, p2]; exact cloneCols_of _ hP.copies), ?_⟩
  intro bytes rest hf req hreq
  have hstored := (stored_table env (File.known bytes) r hr pos rest hf).1
  have hnd : ((r.tbl pos).info.cols.map Col.name).Nodup := by rw [hinfo, p2]; exact hP.names
  obtain ⟨S, hL⟩ := columnLookup_nodup _ hnd
  obtain ⟨ps, hres, hpl, hpb, hrl, hps⟩ := req_resolved (r.tbl pos) hnd S req hreq
  rw [hinfo, p2] at hL hres hpb hrl hps
  rw [p5] at hres
  have href := tableDecode_ref F.cols F.rows.length hpos data ⟨numbered (F.cols.map Col.name) 0, S⟩ req ps hrl hres hpb (by
    intro i nm tg p c hq hp hc
    obtain ⟨k, k1, k2, k3⟩ := hps i _ p hq hp
    rw [hc] at k1
    simp only [Option.some.injEq] at k1
    subst k1
    have hcm := List.mem_of_getElem? hc
    obtain ⟨v1, v2⟩ := (l1 c (by rw [p2]; exact hcm)).2 (hP.strings c hcm)
    dsimp only at k3
    exact ⟨by omega, by omega, hreq.mem _ (List.mem_of_getElem? hq)⟩)
  have hws : (wanted F.cols ps).map Prod.fst = F.cols.map Col.codec := by
    refine List.ext_getElem? ?_
    intro i
    rw [List.getElem?_map, List.getElem?_map, wanted_getElem?]
    cases F.cols[i]? <;> rfl
  have hwl : (wanted F.cols ps).length = F.cols.length := by simpa using congrArg List.length hws
  obtain ⟨rows', e1, e2, e3⟩ := rows_mask (wanted F.cols ps) F.rows.length 0 (firstRow (allOf (F.cols.map Col.codec)))
    (firstRow (wanted F.cols ps)) (by simp [firstRow, allOf, hwl]) (by simp [firstRow]) (by
      intro i w hi hw
      obtain ⟨c, hc⟩ : ∃ c, F.cols[i]? = some c :=
        ⟨_, List.getElem?_eq_getElem (by rw [← hwl]; exact (List.getElem?_eq_some_iff.mp hi).1)⟩
      simp only [firstRow, allOf, List.getElem?_map, List.map_map, hi, hc, Option.map_some]
      rw [wanted_getElem?, hc] at hi
      simp only [Option.map_some, Option.some.injEq] at hi
      subst hi
      dsimp only at hw
      simp only [hw, if_true, Function.comp_apply]) data [] F.rows (by rw [hws]; exact x1)
  rw [e1] at href
  obtain ⟨_, out, o1, o2, o3⟩ := href
  refine ⟨out, ?_, o2, ?_⟩
  · rw [decodeFrame_one]
    unfold Tbl.decode
    rw [hinfo, p2, hL]
    dsimp only
    rw [if_neg (by omega), p5, hres, hstored]
    dsimp only
    rw [hord, hrd, o1]
  · intro i nm tg hq
    have hil := (List.getElem?_eq_some_iff.mp hq).1
    have hpi : ps[i]? = some (ps[i]'(by omega)) := List.getElem?_eq_getElem _
    generalize ps[i]'(by omega) = p at hpi
    obtain ⟨k, k1, k2, k3⟩ := hps i _ p hq hpi
    obtain ⟨m, m1, m2, m3, m4⟩ := o3 i nm tg p hq hpi
    refine ⟨m, m1, ?_, m3, m4⟩
    intro p' c hc hcn r row x hrow hx
    rw [hinfo, p2] at hc
    have hpp : p' = p := by
      have h1 : (F.cols.map Col.name)[p']? = some nm := by rw [List.getElem?_map, hc]; simp [hcn]
      have h2 : (F.cols.map Col.name)[p]? = some nm := by rw [List.getElem?_map, k1]; simp [k2]
      have hpl' := (List.getElem?_eq_some_iff.mp h1).1
      exact (List.getElem?_inj hpl' hP.names).mp (by rw [h1, h2])
    subst hpp
    have hr' : r < F.rows.length := (List.getElem?_eq_some_iff.mp hrow).1
    have hb := List.getElem?_eq_getElem (show r < rows'.length by omega)
    have hag := e3 r _ _ hb hrow p' ((wanted F.cols ps)[p']'(by rw [hwl]; exact (List.getElem?_eq_some_iff.mp hc).1))
      (List.getElem?_eq_getElem _) (by
        have hw := wanted_getElem? F.cols ps p'
        rw [hc, List.getElem?_eq_getElem (by rw [hwl]; exact (List.getElem?_eq_some_iff.mp hc).1)] at hw
        simp only [Option.map_some, Option.some.injEq] at hw
        rw [hw]
        have := List.mem_of_getElem? hpi
        simpa using this)
    have hh := m2 r hr'
    have hcell : (rows'.getD r []).getD p' [] = x := by
      rw [List.getD_eq_getElem?_getD, List.getD_eq_getElem?_getD, hb, Option.getD_some, hag, hx]
      rfl
    rw [hcell] at hh
    have hxl := (x2 row (List.mem_of_getElem? hrow)).2 p' c x hc hx
    unfold Holds at hh
    rw [hxl.1] at hh
    exact hh

/-- A file of such frames, read through the frame interface. -/
theorem file_back (env : Env) (Fs : List RFrame) (props : StrMap)
    (hF : ∀ F ∈ Fs, F.Ok env ∧ ColsPlain F.cols ∧ F.Head env .same props ∧ F.bytes.length ≤ 2147483647) :
    ∃ ts : List Tbl, readPlain env (Fs.map RFrame.bytes).flatten = (ts.map (fun t => [t]), none) ∧ ts.length = Fs.length ∧
      ∀ (k : Nat) (t : Tbl) (F : RFrame), ts[k]? = some t → Fs[k]? = some F →
        t.info.cols = F.cols ∧ t.info.nrows = F.rows.length ∧ t.info.props = props ∧
        ∀ req, ReqOk t req → ∃ out, decodeFrame (Fs.map RFrame.bytes).flatten [t] req = .ok out ∧ ColumnsOf t F.rows req out := by
  obtain ⟨rs, hl, hrs⟩ := exists_list (fun (F : RFrame) (r : RawFrame) => r.Ok env ∧ r.bytes = F.bytes ∧ r.info.cols = F.cols ∧
      r.info.nrows = F.rows.length ∧ r.info.props = props ∧ ∀ pos : Nat, (r.tbl pos).copy = .ok (r.tbl pos) ∧
        ∀ (bytes rest : List Byte), bytes.drop pos = r.bytes ++ rest → ∀ req, ReqOk (r.tbl pos) req →
          ∃ out, decodeFrame bytes [r.tbl pos] req = .ok out ∧ ColumnsOf (r.tbl pos) F.rows req out) Fs (by
    intro F hFm
    obtain ⟨a, b, c, d⟩ := hF F hFm
    exact frame_back env F a b props c d)
  have hall : ∀ r ∈ rs, r.Ok env := by
    intro r hr
    obtain ⟨k, hk⟩ := List.mem_iff_getElem?.mp hr
    have hkl := (List.getElem?_eq_some_iff.mp hk).1
    exact (hrs k _ r (List.getElem?_eq_getElem (by omega)) hk).1
  have hbytes : fileOf rs = (Fs.map RFrame.bytes).flatten := by
    unfold fileOf
    rw [List.flatMap_def]
    congr 1
    refine List.ext_getElem? ?_
    intro k
    rcases Nat.lt_or_ge k Fs.length with hk | hk
    · have h1 := List.getElem?_eq_getElem hk
      have h2 := List.getElem?_eq_getElem (show k < rs.length by omega)
      have := (hrs k _ _ h1 h2).2.1
      rw [List.getElem?_map, List.getElem?_map, h1, h2]
      simp [this]
    · rw [List.getElem?_eq_none (by simp; omega), List.getElem?_eq_none (by simp; omega)]
  have hat : ∀ (k : Nat) (r : RawFrame), rs[k]? = some r →
      (layout 0 rs)[k]? = some (r.tbl ((fileOf (rs.take k)).length : Nat)) ∧
        ∃ rest', (Fs.map RFrame.bytes).flatten.drop (fileOf (rs.take k)).length = r.bytes ++ rest' := by
    intro k r hk
    have := layout_split (File.known (Fs.map RFrame.bytes).flatten) env rs hall 0 [] (by simp [File.known, hbytes]) k r hk
    simpa [File.known] using this
  refine ⟨layout 0 rs, readPlain_iff.mpr ⟨layout 0 rs, ?_, rfl, ?_⟩, by rw [layout_length, hl], ?_⟩
  · have := scan_fileOf env rs hall (fileOf rs).length (Or.inr rfl)
    rw [hbytes] at this
    exact this
  · intro t ht
    obtain ⟨k, hk⟩ := List.mem_iff_getElem?.mp ht
    have hkl := (List.getElem?_eq_some_iff.mp hk).1
    rw [layout_length] at hkl
    have h2 := List.getElem?_eq_getElem hkl
    obtain ⟨a1, _⟩ := hat k _ h2
    rw [hk] at a1
    simp only [Option.some.injEq] at a1
    rw [a1]
    exact ((hrs k _ _ (List.getElem?_eq_getElem (by omega)) h2).2.2.2.2.2 _).1
  · intro k t F ht hFk
    have hkl := (List.getElem?_eq_some_iff.mp hFk).1
    have h2 := List.getElem?_eq_getElem (show k < rs.length by omega)
    obtain ⟨a1, rest', a2⟩ := hat k _ h2
    rw [ht] at a1
    simp only [Option.some.injEq] at a1
    obtain ⟨b1, b2, b3, b4, b5, b6⟩ := hrs k F _ hFk h2
    refine ⟨by rw [a1]; exact b3, by rw [a1]; exact b4, by rw [a1]; exact b5, ?_⟩
    intro req hreq
    rw [a1] at hreq ⊢
    exact (b6 _).2 _ rest' a2 req hreq

/-! ### Columns of the row writer -/

theorem plain_word {c : Codec} (h : c.kind.isInt = true → c.kind ≠ .realConstOrMissing → c.missing = integerMDI) :
    c.missingWord = .ok c.firstWord := by
  rw [← clonedMissing_eq]
  unfold Codec.missingWord Codec.clonedMissing
  split
  · rename_i hk
    simp only [Bool.and_eq_true, bne_iff_ne, ne_eq] at hk
    rw [h hk.1 hk.2]
  · rfl

/-- Columns as the row writer stores them can be copied, and their codecs start like the copies. -/
theorem sent_plain {env : Env} {v : Vals} {m? : Option Word} {c : Codec} {back : Cell → Cell} (h : ColSent env v m? c back)
    (hv : v.OkMiss env m?) (hne : v.rows ≠ 0) (hm : v.ty = .integer ∨ v.ty = .bitfield → m? = none) :
    (reload env.asDbl v.ty.toInt c).clone = .ok (reload env.asDbl v.ty.toInt c) ∧
    (reload env.asDbl v.ty.toInt c).missingWord = .ok (reload env.asDbl v.ty.toInt c).firstWord ∧
    ¬ (reload env.asDbl v.ty.toInt c).Blank := by
  have hbl : ¬ (reload env.asDbl v.ty.toInt c).Blank := h.notBlank hne
  have hnum : v.ty ≠ .string → (reload env.asDbl v.ty.toInt c).clone = .ok (reload env.asDbl v.ty.toInt c) :=
    fun hs => clone_numeric _ (by rw [reload_kind]; exact chosen_numeric hs h.chosen)
  have hmiss := (reload_missing env.asDbl v.ty.toInt c).1
  have hint : ∀ ty : ColType, (ty = .integer ∨ ty = .bitfield) → v.ty = ty → v.words = 1 →
      (reload env.asDbl v.ty.toInt c).missingWord = .ok (reload env.asDbl v.ty.toInt c).firstWord := by
    intro ty hty hvt hw
    have hn : m? = none := hm (by rw [hvt]; exact hty)
    subst hn
    obtain ⟨k, s1, _, _, s4, _⟩ := startCodec_int ty hty env.asDbl 2147483647 (by decide) none (Or.inr ⟨rfl, rfl⟩)
    have hch := h.chosen
    have := (chosen_pres v.ty_ne (by rw [hvt, hw]; exact s1) hch).1
    refine plain_word (fun _ _ => ?_)
    rw [hmiss, this, s4]
    decide +kernel
  have hreal : ∀ ty : ColType, (ty = .real ∨ ty = .double) → v.ty = ty →
      (reload env.asDbl v.ty.toInt c).missingWord = .ok (reload env.asDbl v.ty.toInt c).firstWord := by
    intro ty hty hvt
    have hch := h.chosen
    have hk := chosen_isReal (by rw [hvt]; exact hty) hch
    refine plain_word (fun h1 h2 => ?_)
    rw [reload_kind] at h1 h2
    revert hk h1 h2
    cases c.kind <;> simp [Kind.isInt, Kind.isRealKind]
  cases v with
  | ints vs => exact ⟨hnum (by simp [Vals.ty]), hint .integer (Or.inl rfl) rfl rfl, hbl⟩
  | bits ms vs => exact ⟨hnum (by simp [Vals.ty]), hint .bitfield (Or.inr rfl) rfl rfl, hbl⟩
  | reals vs => exact ⟨hnum (by simp [Vals.ty]), hreal .real (Or.inl rfl) rfl, hbl⟩
  | doubles vs => exact ⟨hnum (by simp [Vals.ty]), hreal .double (Or.inr rfl) rfl, hbl⟩
  | strings w vs =>
    obtain ⟨rfl, _, _, hfit, _, _, hnan⟩ := hv
    refine ⟨str_clone env.asDbl env.longEnv w vs c hfit hnan h.chosen, ?_, hbl⟩
    obtain ⟨c0, h0, _⟩ := startCodec_str env.asDbl w
    have hch := h.chosen
    have hk : c.kind.isInt = false := by
      have hsk : ∀ b n m, (strKind b n m).isInt = false := by
        intro b n m
        unfold strKind
        split
        · rfl
        split
        · rfl
        split <;> rfl
      unfold chosenCodec at hch
      simp only [Vals.ty, Vals.words] at hch
      rw [h0] at hch
      unfold optimise at hch
      dsimp only at hch
      split at hch
      · split at hch
        · rename_i c1 hc1
          have := rebuild_kind hc1
          split at hch <;>
          · simp only [Except.ok.injEq] at hch
            rw [← hch, this]
            exact hsk _ _ _
        · simp at hch
      · simp at hch
    refine plain_word (fun h1 _ => ?_)
    rw [reload_kind, hk] at h1
    simp at h1

end Verif
