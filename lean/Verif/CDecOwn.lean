import Verif.COwn

/-
The C decoder: columns decoded into memory of their own, with strides.
-/

namespace Verif

/-- Specification: a column of a C decoder that was given memory of its own: the address of row 0, the bytes of an element
and the bytes from one row to the next. -/
structure OwnCol where
  name : Str
  at_ : Nat
  elem : Nat
  stride : Nat

/-- Specification: the column as `odc_decoder_column_set_data_array` leaves it. -/
def OwnCol.col (c : OwnCol) : Str × DecCol := (c.name, ⟨some c.at_, c.elem, c.stride, false⟩)

/-- Specification: where word `w` of row `r` lies. -/
def OwnCol.addr (c : OwnCol) (r w : Nat) : Nat := c.at_ + r * c.stride + 8 * w

/-- Specification: elements of whole words, and no word shared by two places among `rows` rows. -/
def OwnCols.Apart (cs : List OwnCol) (rows : Nat) : Prop :=
  (∀ c ∈ cs, 0 < c.elem ∧ c.elem % 8 = 0) ∧
  ∀ (i : Nat) (c : OwnCol) (r w j : Nat) (c' : OwnCol) (r' w' : Nat), cs[i]? = some c → cs[j]? = some c' → r < rows → r' < rows →
    w < c.elem / 8 → w' < c'.elem / 8 → (i, r, w) ≠ (j, r', w') → c.addr r w + 8 ≤ c'.addr r' w' ∨ c'.addr r' w' + 8 ≤ c.addr r w

/-- Specification: what the C++ decoder is asked for. -/
def OwnCol.target (c : OwnCol) (m : Mem) (nrows : Nat) : Str × Target :=
  (c.name, ⟨nrows, c.elem / 8, fun r => (List.range (c.elem / 8)).map (fun w => m.word (c.addr r w))⟩)

theorem fillIn_own (alloc : Nat) (info : List (Str × Nat)) (rows : Nat) (d : Dec) (cs : List OwnCol) (hc : d.cols = cs.map OwnCol.col)
    (he : ∀ c ∈ cs, 0 < c.elem) (hr : rows ≤ d.nrows) : fillIn alloc info rows d = .ok d := by
  have hs : fillSizes info (cs.map OwnCol.col) = .ok (cs.map OwnCol.col, 0) := by
    clear hc
    induction cs with
    | nil => rfl
    | cons c cs ih =>
      have h1 : fillSize info c.name ⟨some c.at_, c.elem, c.stride, false⟩ = .ok (⟨some c.at_, c.elem, c.stride, false⟩, 0) := by
        unfold fillSize
        rw [if_neg (by have := he c (by simp); simp; omega)]
      rw [List.map_cons]
      simp only [OwnCol.col, fillSizes, h1]
      rw [ih (fun x hx => he x (by simp [hx]))]
  unfold fillIn
  rw [hc, hs]
  dsimp only
  rw [if_neg (by simp)]
  have : (if d.nrows = 0 then rows else d.nrows) = d.nrows := by split <;> omega
  rw [this, ← hc]

/-- Proof device: decoding with a decoder that `fill_in_decoder` leaves with columns of their own. -/
theorem odcDecode_own (bytes : List Byte) (fr : List Tbl) (xs : List ColShown) (hinfo : frameInfo fr = .ok xs) (alloc : Nat)
    (junk : Nat → Nat → Cell) (d d' : Dec) (m : Mem) (cs : List OwnCol) (hcl : d.cols.length = cs.length)
    (hc : d'.cols = cs.map OwnCol.col) (hn : d'.nrows = d.nrows) (hlen : cs.length ≤ xs.length) (hrows : frameRows fr ≤ d.nrows)
    (hap : OwnCols.Apart cs (frameRows fr)) (hfill : fillIn alloc (sizesOf xs) (frameRows fr) d = .ok d') :
    match decodeFrame bytes fr (cs.map (fun c => c.target m d.nrows)) with
    | .error e => odcDecode bytes fr alloc junk d m = .error e
    | .ok outs => ∃ m', odcDecode bytes fr alloc junk d m = .ok (d', m', frameRows fr) ∧
        (∀ (i : Nat) (c : OwnCol) (out : Nat → Cell), cs[i]? = some c → outs[i]? = some out → ∀ r w, r < frameRows fr →
          w < c.elem / 8 → m'.word (c.addr r w) = (out r).getD w 0) ∧
        ∀ x, (∀ c ∈ cs, ∀ r w, r < frameRows fr → w < c.elem / 8 → x < c.addr r w ∨ c.addr r w + 8 ≤ x) → m' x = m x := by
  have hreq : d'.cols.mapIdx (fun i e => (e.1, e.2.target m d.nrows (junk i))) = cs.map (fun c => c.target m d.nrows) := by
    rw [hc]
    apply List.ext_getElem?
    intro i
    rw [List.getElem?_mapIdx, List.getElem?_map, List.getElem?_map]
    cases cs[i]? with
    | none => rfl
    | some c =>
      simp only [Option.map_some, OwnCol.col, OwnCol.target, DecCol.target, OwnCol.addr, DecCol.addr, Bool.false_eq_true, if_false,
        Option.getD_some]
  have hrun : odcDecode bytes fr alloc junk d m = (match decodeFrame bytes fr (cs.map (fun c => c.target m d.nrows)) with
      | .error e => .error e
      | .ok outs => .ok (d', m.puts ((d'.cols.zip outs).flatMap (fun p => p.1.2.writes d.nrows (frameRows fr) p.2)), frameRows fr)) := by
    unfold odcDecode
    rw [hinfo]
    dsimp only
    rw [if_neg (by omega), if_neg (by omega), hfill]
    dsimp only
    rw [if_neg, if_neg, hn, hreq]
    · cases decodeFrame bytes fr (cs.map (fun c => c.target m d.nrows)) <;> rfl
    · rintro ⟨e, he, hbad⟩
      rw [hc, List.mem_map] at he
      obtain ⟨c, hcm, rfl⟩ := he
      have := (hap.1 c hcm).2
      simp [OwnCol.col, this] at hbad
    · rintro ⟨e, he, hbad, _⟩
      rw [hc, List.mem_map] at he
      obtain ⟨c, hcm, rfl⟩ := he
      simp [OwnCol.col] at hbad
  cases hd : decodeFrame bytes fr (cs.map (fun c => c.target m d.nrows)) with
  | error e =>
    dsimp only
    rw [hrun, hd]
  | ok outs =>
    dsimp only
    let ws := (d'.cols.zip outs).flatMap (fun p => p.1.2.writes d.nrows (frameRows fr) p.2)
    have hws : ∀ p ∈ ws, ∃ (i : Nat) (c : OwnCol) (out : Nat → Cell) (r w : Nat), cs[i]? = some c ∧ outs[i]? = some out ∧
        r < frameRows fr ∧ w < c.elem / 8 ∧ p = (c.addr r w, (out r).getD w 0) := by
      intro p hp
      simp only [ws, List.mem_flatMap] at hp
      obtain ⟨q, hq, hp⟩ := hp
      obtain ⟨i, hi⟩ := List.mem_iff_getElem?.mp hq
      rw [List.getElem?_zip_eq_some] at hi
      obtain ⟨hi1, hi2⟩ := hi
      rw [hc, List.getElem?_map, Option.map_eq_some_iff] at hi1
      obtain ⟨c, hi1, he⟩ := hi1
      simp only [DecCol.writes, List.mem_flatMap, List.mem_map, List.mem_range, ← he] at hp
      obtain ⟨r, hr, w, hw, rfl⟩ := hp
      refine ⟨i, c, q.2, r, w, hi1, hi2, hr, hw, ?_⟩
      simp [OwnCol.col, OwnCol.addr, DecCol.addr]
    refine ⟨m.puts ws, by rw [hrun, hd], ?_, ?_⟩
    · intro i c out hi ho r w hr hw
      refine Mem.puts_word_of ws m _ _ ?_ ?_
      · simp only [ws, List.mem_flatMap]
        refine ⟨(c.col, out), ?_, ?_⟩
        · rw [List.mem_iff_getElem?]
          exact ⟨i, by rw [List.getElem?_zip_eq_some, hc, List.getElem?_map, hi]; exact ⟨rfl, ho⟩⟩
        · simp only [DecCol.writes, List.mem_flatMap, List.mem_map, List.mem_range]
          refine ⟨r, hr, w, hw, ?_⟩
          simp [OwnCol.col, OwnCol.addr, DecCol.addr]
      · intro p hp
        obtain ⟨j, c', out', r', w', b1, b2, b3, b4, rfl⟩ := hws p hp
        by_cases he : (j, r', w') = (i, r, w)
        · left
          cases he
          rw [hi] at b1
          cases b1
          rw [ho] at b2
          cases b2
          rfl
        · right
          exact hap.2 j c' r' w' i c r w b1 hi b3 hr b4 hw he
    · intro x hx
      apply Mem.puts_outside
      intro p hp
      obtain ⟨j, c', out', r', w', b1, b2, b3, b4, rfl⟩ := hws p hp
      exact hx c' (List.mem_of_getElem? b1) r' w' b3 b4

/-- **C23 (decoding into columns of their own)**: for any frame of any file, a C decoder all of whose columns have memory
of their own succeeds exactly when the C++ decoder does, with the same error if not.  Word `w` of row `r` of column `i` is
afterwards at `at_ i + r * stride i + 8 * w`, as long as no two of these places overlap, and no other byte of the memory is
changed: not between the rows, not behind the frame's last row. -/
theorem C23_decode_columns (bytes : List Byte) (fr : List Tbl) (xs : List ColShown) (hinfo : frameInfo fr = .ok xs) (alloc : Nat)
    (junk : Nat → Nat → Cell) (d : Dec) (m : Mem) (cs : List OwnCol) (hc : d.cols = cs.map OwnCol.col)
    (hlen : cs.length ≤ xs.length) (hrows : frameRows fr ≤ d.nrows) (hap : OwnCols.Apart cs (frameRows fr)) :
    match decodeFrame bytes fr (cs.map (fun c => c.target m d.nrows)) with
    | .error e => odcDecode bytes fr alloc junk d m = .error e
    | .ok outs => ∃ m', odcDecode bytes fr alloc junk d m = .ok (d, m', frameRows fr) ∧
        (∀ (i : Nat) (c : OwnCol) (out : Nat → Cell), cs[i]? = some c → outs[i]? = some out → ∀ r w, r < frameRows fr →
          w < c.elem / 8 → m'.word (c.addr r w) = (out r).getD w 0) ∧
        ∀ x, (∀ c ∈ cs, ∀ r w, r < frameRows fr → w < c.elem / 8 → x < c.addr r w ∨ c.addr r w + 8 ≤ x) → m' x = m x := by
  exact odcDecode_own bytes fr xs hinfo alloc junk d d m cs (by rw [hc, List.length_map]) hc rfl hlen hrows hap
    (fillIn_own alloc (sizesOf xs) (frameRows fr) d cs hc (fun c h => (hap.1 c h).1) hrows)

/-- Specification: sizes and strides left out: an element is a double, rows follow each other. -/
def OwnCol.defaulted (c : OwnCol) : OwnCol :=
  let elem := if c.elem = 0 then 8 else c.elem
  ⟨c.name, c.at_, elem, if c.stride = 0 then elem else c.stride⟩

theorem fillIn_defaults (alloc : Nat) (info : List (Str × Nat)) (rows : Nat) (d : Dec) (cs : List OwnCol) (hc : d.cols = cs.map OwnCol.col)
    (hz : ∃ c ∈ cs, c.elem = 0) (hext : d.ext = none) (hr : rows ≤ d.nrows) (hpos : 0 < d.nrows) :
    ∃ d', fillIn alloc info rows d = .ok d' ∧ d'.cols = (cs.map OwnCol.defaulted).map OwnCol.col ∧ d'.nrows = d.nrows ∧
      d'.ext = none ∧ d'.columnMajor = d.columnMajor := by
  have hs : ∃ w, fillSizes info (cs.map OwnCol.col) =
      .ok (cs.map (fun c => (c.name, (⟨some c.at_, if c.elem = 0 then 8 else c.elem, c.stride, false⟩ : DecCol))), w) ∧
      ((∃ c ∈ cs, c.elem = 0) → w ≠ 0) := by
    clear hc hz
    induction cs with
    | nil => exact ⟨0, rfl, by rintro ⟨c, hc, _⟩; simp at hc⟩
    | cons c cs ih =>
      obtain ⟨w, i1, i2⟩ := ih
      rw [List.map_cons]
      by_cases he : c.elem = 0
      · have h1 : fillSize info c.name ⟨some c.at_, c.elem, c.stride, false⟩ = .ok (⟨some c.at_, 8, c.stride, false⟩, 8) := by
          unfold fillSize
          rw [if_pos he]
        refine ⟨8 + w, ?_, by omega⟩
        simp only [OwnCol.col, fillSizes, h1]
        rw [i1]
        simp [he]
      · have h1 : fillSize info c.name ⟨some c.at_, c.elem, c.stride, false⟩ = .ok (⟨some c.at_, c.elem, c.stride, false⟩, 0) := by
          unfold fillSize
          rw [if_neg he]
        refine ⟨0 + w, ?_, ?_⟩
        · simp only [OwnCol.col, fillSizes, h1]
          rw [i1]
          simp [he]
        · rintro ⟨x, hx, hx0⟩
          rcases List.mem_cons.mp hx with rfl | hx
          · exact absurd hx0 he
          · have := i2 ⟨x, hx, hx0⟩
            omega
  have hp : ∀ base W H off, place d.columnMajor base W H off
      (cs.map (fun c => (c.name, (⟨some c.at_, if c.elem = 0 then 8 else c.elem, c.stride, false⟩ : DecCol)))) =
      (cs.map OwnCol.defaulted).map OwnCol.col := by
    intro base W H off
    clear hc hz hs
    induction cs with
    | nil => rfl
    | cons c cs ih => simp only [List.map_cons, place, ih]; rfl
  obtain ⟨w, s1, s2⟩ := hs
  have hn : (if d.nrows = 0 then rows else d.nrows) = d.nrows := by split <;> omega
  refine ⟨{ d with cols := (cs.map OwnCol.defaulted).map OwnCol.col, width := w, height := d.nrows }, ?_, rfl, rfl, hext, rfl⟩
  unfold fillIn
  rw [hc, s1]
  dsimp only
  rw [hn, if_pos ⟨s2 hz, by omega⟩, hext]
  dsimp only
  rw [hp]

/-- **C23 (columns of their own without sizes)**: as `C23_decode_columns`, for a decoder some of whose columns were given
memory but no size.  Such a column is decoded into doubles, and the columns without stride into consecutive elements. -/
theorem C23_decode_defaults (bytes : List Byte) (fr : List Tbl) (xs : List ColShown) (hinfo : frameInfo fr = .ok xs) (alloc : Nat)
    (junk : Nat → Nat → Cell) (d : Dec) (m : Mem) (cs : List OwnCol) (hc : d.cols = cs.map OwnCol.col) (hz : ∃ c ∈ cs, c.elem = 0)
    (hext : d.ext = none) (hlen : cs.length ≤ xs.length) (hrows : frameRows fr ≤ d.nrows) (hpos : 0 < d.nrows)
    (hap : OwnCols.Apart (cs.map OwnCol.defaulted) (frameRows fr)) :
    match decodeFrame bytes fr (cs.map (fun c => c.defaulted.target m d.nrows)) with
    | .error e => odcDecode bytes fr alloc junk d m = .error e
    | .ok outs => ∃ d' m', odcDecode bytes fr alloc junk d m = .ok (d', m', frameRows fr) ∧ d'.nrows = d.nrows ∧
        (∀ (i : Nat) (c : OwnCol) (out : Nat → Cell), cs[i]? = some c → outs[i]? = some out → ∀ r w, r < frameRows fr →
          w < (if c.elem = 0 then 8 else c.elem) / 8 →
            m'.word (c.at_ + r * (if c.stride ≠ 0 then c.stride else if c.elem ≠ 0 then c.elem else 8) + 8 * w) = (out r).getD w 0) ∧
        ∀ x, (∀ c ∈ cs, ∀ r w, r < frameRows fr → w < (if c.elem = 0 then 8 else c.elem) / 8 →
          x < c.at_ + r * (if c.stride ≠ 0 then c.stride else if c.elem ≠ 0 then c.elem else 8) + 8 * w ∨
          c.at_ + r * (if c.stride ≠ 0 then c.stride else if c.elem ≠ 0 then c.elem else 8) + 8 * w + 8 ≤ x) → m' x = m x := by
  obtain ⟨d', f1, f2, f3, _, _⟩ := fillIn_defaults alloc (sizesOf xs) (frameRows fr) d cs hc hz hext hrows hpos
  have haddr : ∀ (c : OwnCol) (r w : Nat), c.defaulted.addr r w =
      c.at_ + r * (if c.stride ≠ 0 then c.stride else if c.elem ≠ 0 then c.elem else 8) + 8 * w := by
    intro c r w
    unfold OwnCol.addr OwnCol.defaulted
    dsimp only
    by_cases h1 : c.stride = 0 <;> by_cases h2 : c.elem = 0 <;> simp [h1, h2]
  have main := odcDecode_own bytes fr xs hinfo alloc junk d d' m (cs.map OwnCol.defaulted) (by rw [hc]; simp) f2 f3 (by simpa using hlen)
    hrows hap f1
  rw [List.map_map] at main
  rw [show ((fun c => OwnCol.target c m d.nrows) ∘ OwnCol.defaulted) = fun c => c.defaulted.target m d.nrows from rfl] at main
  cases hd : decodeFrame bytes fr (cs.map (fun c => c.defaulted.target m d.nrows)) with
  | error e => rw [hd] at main; exact main
  | ok outs =>
    rw [hd] at main
    dsimp only at main ⊢
    obtain ⟨m', a1, a2, a3⟩ := main
    refine ⟨d', m', a1, f3, ?_, ?_⟩
    · intro i c out hi ho r w hr hw
      rw [← haddr]
      exact a2 i c.defaulted out (by rw [List.getElem?_map, hi]; rfl) ho r w hr hw
    · intro x hx
      apply a3 x
      intro c hcm r w hr hw
      rw [List.mem_map] at hcm
      obtain ⟨c0, hc0, rfl⟩ := hcm
      rw [haddr]
      exact hx c0 hc0 r w hr hw

/-- **C23 (decoding a table into columns of their own)**: decode columns of the frame of any table `T` into memory of their
own, elements at least as wide as reported for the column.  The first words of row `r`'s element are the column's value as
stored (C01-C05). -/
theorem C23_decode_table_columns (env : Env) (hmd5 : env.Md5Ok) (T : UTable) (hT : T.Ok env) (bytes : List Byte)
    (henc : T.encode env .same = .ok bytes) (hsz : bytes.length ≤ 2147483647) (cs : List OwnCol) (hnd : (cs.map OwnCol.name).Nodup)
    (hsub : ∀ c ∈ cs, c.name ∈ T.cols.map InCol.name) (hap : OwnCols.Apart cs T.rows) :
    ∃ fr : List Tbl, readPlain env bytes = ([fr], none) ∧
      ∀ (alloc : Nat) (junk : Nat → Nat → Cell) (m : Mem) (d : Dec), d.cols = cs.map OwnCol.col → T.rows ≤ d.nrows →
        (∀ c ∈ cs, ∃ s, Reports fr c.name s ∧ s ≤ c.elem) →
        ∃ m', odcDecode bytes fr alloc junk d m = .ok (d, m', T.rows) ∧
          (∀ (o : OwnCol) (c : InCol), o ∈ cs → c ∈ T.cols → c.name = o.name → ∀ r, r < T.rows →
            ∃ (ws : Cell) (s : Nat), c.vals.Back env r ws ∧ Reports fr o.name s ∧ s = 8 * ws.length ∧
              ∀ (w : Nat) (x : Word), ws[w]? = some x → m'.word (o.at_ + r * o.stride + 8 * w) = x) ∧
          ∀ x, (∀ o ∈ cs, ∀ r, r < T.rows → x < o.at_ + r * o.stride ∨ o.at_ + r * o.stride + o.elem ≤ x) → m' x = m x := by
  obtain ⟨t, ht, hh⟩ := plain_table env hmd5 T hT bytes henc hsz
  have hinfo := info_of_holds hh
  have hlen : t.info.cols.length = T.cols.length := by
    have := congrArg List.length hh.shows.colNames; simpa using this
  have hfrows : frameRows [t] = T.rows := by
    have h1 := hh.shows.nrows
    have h2 := hh.tok.rows
    simp only [frameRows, List.foldl_cons, List.foldl_nil, h1]
    omega
  have hrep : ∀ (n : Str) (s : Nat), Reports [t] n s → ∃ k ∈ t.info.cols, k.name = n ∧ s = 8 * k.codec.width := by
    rintro n s ⟨ys, x, h1, h2, h3, h4⟩
    rw [hinfo] at h1
    cases h1
    simp only [List.mem_map] at h2
    obtain ⟨k, hk, rfl⟩ := h2
    exact ⟨k, hk, h3, h4.symm⟩
  refine ⟨[t], ht, ?_⟩
  intro alloc junk m d hc hr hel
  have hreq : UserReq [t] (cs.map (fun c => c.target m d.nrows)) := by
    refine ⟨?_, ?_, ?_, ?_⟩
    · rw [List.map_map]; exact hnd
    · intro a b e; cases e
      intro e he
      simp only [List.mem_map] at he
      obtain ⟨c, hcm, rfl⟩ := he
      obtain ⟨s, h1, h2⟩ := hel c hcm
      obtain ⟨k, k1, k2, rfl⟩ := hrep _ _ h1
      exact ⟨k, k1, k2, by simp only [OwnCol.target]; omega⟩
    · intro e he
      simp only [List.mem_map] at he
      obtain ⟨c, hcm, rfl⟩ := he
      simp only [rowSum, List.map_cons, List.map_nil, List.sum_cons, List.sum_nil, hh.shows.nrows, OwnCol.target]; omega
    · intro e he
      simp only [List.mem_map] at he
      obtain ⟨c, hcm, rfl⟩ := he
      intro x
      simp [OwnCol.target]
  obtain ⟨Ls, out, o1, o2, o3⟩ := frame_decode (fr := [t]) (Ts := [T]) (.cons hh .nil)
    (by intro a b e; cases e; simp) (by have := hh.tok.rows; simp [totalRows]; omega) _ hreq
  have hout : decodeFrame bytes [t] (cs.map (fun c => c.target m d.nrows)) = .ok out := by
    unfold decodeFrame; rw [o1]
  have hmain := C23_decode_columns bytes [t] _ hinfo alloc junk d m cs hc (by
    rw [List.length_map, hlen]
    have := List.Nodup.length_le_of_subset hnd (l₂ := T.cols.map InCol.name) (by
      intro n hn
      simp only [List.mem_map] at hn
      obtain ⟨c, hcm, rfl⟩ := hn
      exact hsub c hcm)
    simpa using this) (by omega) (by rw [hfrows]; exact hap)
  rw [hout] at hmain
  dsimp only at hmain
  rw [hfrows] at hmain
  obtain ⟨m', a1, a2, a3⟩ := hmain
  refine ⟨m', a1, ?_, ?_⟩
  · intro o c ho hcT hn r hr'
    obtain ⟨i, hi⟩ := List.mem_iff_getElem?.mp ho
    obtain ⟨s, h1, h2⟩ := hel o ho
    obtain ⟨k, k1, k2, rfl⟩ := hrep _ _ h1
    obtain ⟨mm, b1, b2, b3, b4⟩ := o3 i o.name (o.target m d.nrows).2 (by rw [List.getElem?_map, hi]; rfl)
    have hback := b2 0 t T rfl rfl c k hcT hn k1 k2 r hr'
    have hb0 : rowsBefore [T] 0 = 0 := rfl
    rw [hb0, Nat.zero_add] at hback
    have hml : (mm r).length = o.elem / 8 := b3 r
    refine ⟨(mm r).take k.codec.width, _, hback, h1, by rw [List.length_take]; omega, ?_⟩
    intro w x hx
    have hwl := (List.getElem?_eq_some_iff.mp hx).1
    rw [List.length_take] at hwl
    have := a2 i o mm hi b1 r w hr' (by omega)
    rw [List.getElem?_take_of_lt (by omega)] at hx
    rw [List.getD_eq_getElem?_getD, hx] at this
    exact this
  · intro x hx
    refine a3 x ?_
    intro o ho r w hr' hw
    rcases hx o ho r hr' with h | h
    · left; unfold OwnCol.addr; omega
    · right
      have := (hap.1 o ho).2
      unfold OwnCol.addr; omega

/-- Sample: the columns of `smallTable` in records of 40 bytes: the number at 0, the string at 16. -/
def recordCols : List OwnCol := [⟨lit "s", 16, 16, 40⟩, ⟨lit "n", 0, 8, 40⟩]

/-- The records hold the table, and the gaps keep their zeros. -/
example : tryDecode smallTable { (Dec.new []).setRows 2 with cols := recordCols.map OwnCol.col } [0, 8, 16, 24, 32, 40, 48, 56, 64, 72] =
    some [5, 0, w01234567, w89, 0, 6, 0, wabcdefgh, wij, 0] := by decide +kernel

/-- They meet the conditions. -/
example : OwnCols.Apart recordCols smallTable.rows ∧ (recordCols.map OwnCol.name).Nodup ∧
    ∀ c ∈ recordCols, c.name ∈ smallTable.cols.map InCol.name := by
  refine ⟨⟨by intro c hc; simp [recordCols] at hc; rcases hc with rfl | rfl <;> decide, ?_⟩, by decide +kernel, by decide +kernel⟩
  intro i c r w j c' r' w' hi hj hr hr' hw hw' hne
  have hne' : ¬ (i = j ∧ r = r' ∧ w = w') := fun ⟨a, b, c⟩ => hne (by rw [a, b, c])
  have h2 : smallTable.rows = 2 := rfl
  match i, j with
  | 0, 0 => simp [recordCols] at hi hj; subst hi; subst hj; simp [OwnCol.addr] at *; omega
  | 0, 1 => simp [recordCols] at hi hj; subst hi; subst hj; simp [OwnCol.addr] at *; omega
  | 1, 0 => simp [recordCols] at hi hj; subst hi; subst hj; simp [OwnCol.addr] at *; omega
  | 1, 1 => simp [recordCols] at hi hj; subst hi; subst hj; simp [OwnCol.addr] at *; omega
  | i + 2, _ => simp [recordCols] at hi
  | _, j + 2 => simp [recordCols] at hj

/-- Two columns given memory only, in any order: doubles one after the other. -/
example : tryDecode { rows := 3, props := [], cols := [⟨lit "n", .ints [5, 6, 7]⟩, ⟨lit "k", .ints [1, 2, 1]⟩] }
    { (Dec.new []).setRows 3 with cols := [(⟨lit "k", 0, 0, 0⟩ : OwnCol).col, (⟨lit "n", 64, 0, 16⟩ : OwnCol).col] }
    [0, 8, 16, 24, 64, 72, 80, 88, 96, 104] = some [1, 2, 1, 0, 5, 0, 6, 0, 7, 0] := by decide +kernel

end Verif
