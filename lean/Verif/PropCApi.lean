import Verif.CDecode

/-
C22, C23 (decoding): the array filled by the C decoder.
-/

namespace Verif

/-- Memory seen by the decoder for column `i`: the array itself, or a fresh array for a transposed column. -/
def autoTarget (d : Dec) (m : Mem) (junk : Nat → Nat → Cell) (e : Str × DecCol) (i : Nat) : Str × Target :=
  (e.1, e.2.target m d.nrows (junk i))

theorem odcDecode_auto (bytes : List Byte) (fr : List Tbl) (alloc : Nat) (junk : Nat → Nat → Cell) (d : Dec) (m : Mem)
    (names : List Str) (xs : List ColShown) (hinfo : frameInfo fr = .ok xs) (hlen : names.length ≤ xs.length)
    (hne : names ≠ []) (hs : ∀ n ∈ names, 0 < sizeIn (sizesOf xs) n ∧ sizeIn (sizesOf xs) n % 8 = 0)
    (hc : d.cols = autoCols names) (hr : 0 < d.nrows) (hrows : frameRows fr ≤ d.nrows)
    (hext : d.ext ≠ none → (names.map (sizeIn (sizesOf xs))).sum ≤ d.width ∧ d.nrows ≤ d.height)
    (outs : List (Nat → Cell)) (hout : decodeFrame bytes fr ((d.filled alloc (sizesOf xs) names).cols.mapIdx
      (fun i e => (e.1, e.2.target m d.nrows (junk i)))) = .ok outs) (hol : outs.length = names.length) :
    ∃ m', odcDecode bytes fr alloc junk d m = .ok (d.filled alloc (sizesOf xs) names, m', frameRows fr) ∧
      (∀ (i : Nat) (nm : Str) (out : Nat → Cell), names[i]? = some nm → outs[i]? = some out →
        ∀ r w, r < frameRows fr → w < sizeIn (sizesOf xs) nm / 8 →
          m'.word (autoAddr d.columnMajor (d.ext.getD alloc) (d.filled alloc (sizesOf xs) names).width
            (d.filled alloc (sizesOf xs) names).height d.nrows ((names.map (sizeIn (sizesOf xs))).take i).sum r w) =
              (out r).getD w 0) ∧
      ∀ x, x < d.ext.getD alloc ∨ d.ext.getD alloc + (d.filled alloc (sizesOf xs) names).width *
        (d.filled alloc (sizesOf xs) names).height ≤ x → m' x = m x := by
  generalize hinf : sizesOf xs = info at *
  have hcol := filled_col alloc info names d hs
  have hfl : (d.filled alloc info names).cols.length = names.length := by
    unfold Dec.filled
    simp [(place_spec _ _ _ _ _ _).1]
  have hfn : (d.filled alloc info names).nrows = d.nrows := rfl
  have hW : (names.map (sizeIn info)).sum ≤ (d.filled alloc info names).width ∧ d.nrows ≤ (d.filled alloc info names).height := by
    unfold Dec.filled
    by_cases he : d.ext = none
    · simp [he]
    · simp only [if_neg he]; exact hext he
  have h8 : ∀ s ∈ names.map (sizeIn info), s % 8 = 0 := by
    intro s hs'
    simp only [List.mem_map] at hs'
    obtain ⟨n, hn, rfl⟩ := hs'
    exact (hs n hn).2
  -- every column of the filled decoder
  have hany : ∀ e ∈ (d.filled alloc info names).cols, ∃ (i : Nat) (nm : Str) (c : DecCol), names[i]? = some nm ∧ e = (nm, c) ∧
      (d.filled alloc info names).cols[i]? = some e ∧ c.elem = sizeIn info nm ∧ c.data ≠ none ∧
      (c.transpose = true → c.stride = c.elem) := by
    intro e he
    obtain ⟨i, hi⟩ := List.mem_iff_getElem?.mp he
    have hil := (List.getElem?_eq_some_iff.mp hi).1
    rw [hfl] at hil
    obtain ⟨c, c1, c2, c3, c4, _⟩ := hcol i names[i] (List.getElem?_eq_getElem hil)
    rw [hi] at c1
    cases c1
    exact ⟨i, names[i], c, List.getElem?_eq_getElem hil, rfl, hi, c2, c3, c4⟩
  -- the writes
  let ws := ((d.filled alloc info names).cols.zip outs).flatMap (fun p => p.1.2.writes d.nrows (frameRows fr) p.2)
  have hws : ∀ p ∈ ws, ∃ (i : Nat) (nm : Str) (out : Nat → Cell) (r w : Nat), names[i]? = some nm ∧ outs[i]? = some out ∧ r < frameRows fr ∧ w < sizeIn info nm / 8 ∧
      p = (autoAddr d.columnMajor (d.ext.getD alloc) (d.filled alloc info names).width (d.filled alloc info names).height
        d.nrows ((names.map (sizeIn info)).take i).sum r w, (out r).getD w 0) := by
    intro p hp
    simp only [ws, List.mem_flatMap] at hp
    obtain ⟨q, hq, hp⟩ := hp
    obtain ⟨i, hi⟩ := List.mem_iff_getElem?.mp hq
    rw [List.getElem?_zip_eq_some] at hi
    obtain ⟨hi1, hi2⟩ := hi
    have hil := (List.getElem?_eq_some_iff.mp hi1).1
    rw [hfl] at hil
    obtain ⟨c, c1, c2, c3, c4, c5⟩ := hcol i names[i] (List.getElem?_eq_getElem hil)
    rw [hi1] at c1
    have e1 := Option.some.inj c1
    simp only [DecCol.writes, List.mem_flatMap, List.mem_map, List.mem_range] at hp
    obtain ⟨r, hr, w, hw, rfl⟩ := hp
    rw [e1] at hw
    dsimp only at hw
    refine ⟨i, names[i], q.2, r, w, List.getElem?_eq_getElem hil, hi2, hr, by rw [← c2]; exact hw, ?_⟩
    rw [e1]
    dsimp only
    rw [c5 r w hw]
  refine ⟨m.puts ws, ?_, ?_, ?_⟩
  · unfold odcDecode
    rw [hinfo]
    dsimp only
    rw [hinf]
    have hdl : d.cols.length = names.length := by rw [hc]; simp [autoCols]
    rw [if_neg (by omega), if_neg (by omega), fillIn_auto alloc info names _ d hne hs hc hr hext]
    dsimp only
    rw [if_neg, if_neg, hfn, hout]
    · rintro ⟨e, he, hbad⟩
      obtain ⟨i, nm, c, a1, rfl, a3, a4, a5, a6⟩ := hany e he
      have := (hs nm (List.mem_of_getElem? a1)).2
      dsimp only at hbad
      rcases hbad with hbad | hbad
      · rw [a4] at hbad; exact hbad this
      · exact a5 hbad
    · rintro ⟨e, he, ht, hbad⟩
      obtain ⟨i, nm, c, a1, rfl, a3, a4, a5, a6⟩ := hany e he
      have := (hs nm (List.mem_of_getElem? a1)).2
      dsimp only at hbad ht
      exact hbad ⟨by rw [a4]; exact this, a6 ht⟩
  · intro i nm out hi ho r w hr' hw
    refine Mem.puts_word_of ws m _ _ ?_ ?_
    · obtain ⟨c, c1, c2, c3, c4, c5⟩ := hcol i nm hi
      simp only [ws, List.mem_flatMap]
      refine ⟨((nm, c), out), ?_, ?_⟩
      · rw [List.mem_iff_getElem?]
        exact ⟨i, by rw [List.getElem?_zip_eq_some]; exact ⟨c1, ho⟩⟩
      · simp only [DecCol.writes, List.mem_flatMap, List.mem_map, List.mem_range]
        refine ⟨r, hr', w, by rw [c2]; exact hw, ?_⟩
        rw [c5 r w (by rw [c2]; exact hw)]
    · intro p hp
      obtain ⟨j, nm', out', r', w', b1, b2, b3, b4, rfl⟩ := hws p hp
      by_cases he : (j, r', w') = (i, r, w)
      · left
        cases he
        rw [hi] at b1
        cases b1
        rw [ho] at b2
        cases b2
        rfl
      · right
        exact autoAddr_disjoint d.columnMajor _ _ _ d.nrows (names.map (sizeIn info)) hW.1 hW.2 h8 j (sizeIn info nm') r' w' i
          (sizeIn info nm) r w (by simp [b1]) (by omega) b4 (by simp [hi]) (by omega) hw he
  · intro x hx
    apply Mem.puts_outside
    intro p hp
    obtain ⟨j, nm', out', r', w', b1, b2, b3, b4, rfl⟩ := hws p hp
    obtain ⟨a1, a2, a3, a4⟩ := autoAddr_inside d.columnMajor (d.ext.getD alloc) _ _ d.nrows (names.map (sizeIn info)) hW.1 hW.2 h8 j
      (sizeIn info nm') r' w' (by simp [b1]) (by omega) b4
    dsimp only
    omega

/-! ### Frames of user tables -/

/-- The frame reports this size for this column. -/
theorem sizeIn_holds {env : Env} {f : File} {t : Tbl} {T : UTable} (h : Holds1 env f t T) (k : Col) (hk : k ∈ t.info.cols) :
    sizeIn (sizesOf (t.info.cols.map (fun c => ⟨c.name, c.ty, 8 * c.codec.width, bitInfos 0 c.bitNames c.bitSizes⟩))) k.name =
      8 * k.codec.width := by
  unfold sizeIn sizesOf
  rw [List.map_map]
  cases hf : (List.map ((fun x => (x.name, x.bytes)) ∘ fun c : Col =>
      (⟨c.name, c.ty, 8 * c.codec.width, bitInfos 0 c.bitNames c.bitSizes⟩ : ColShown)) t.info.cols).find?
      (fun e => decide (e.1 = k.name)) with
  | none =>
    rw [List.find?_eq_none] at hf
    have := hf _ (List.mem_map_of_mem hk)
    simp at this
  | some e =>
    have h1 := List.find?_some hf
    have h2 := List.mem_of_find?_eq_some hf
    simp only [List.mem_map, Function.comp] at h2
    obtain ⟨k', hk', rfl⟩ := h2
    simp only [decide_eq_true_eq] at h1
    have := mem_same Col.name t.info.cols h.shows.col_names_nodup k' k hk' hk h1
    subst this
    rfl

/-- **C22, C23 (decoding)**: decode the columns `names` of the frame of any table `T` with a C decoder whose columns were
added by name, into an array of its own or one given by the user, in either layout.  Each element gets the size reported for
the column.  Word `w` of the element of row `r` of column `i` ends up at the row-major address (row `r`, then all bytes of
the columns before `i`, then word `w`), or at the column-major address (words `0, 1, …` of the columns before, then word
`w` of column `i`, each as a run over the rows); the words are the column's values as stored (C01-C05), and no byte outside
the array changes.  The two layouts therefore hold the same words at transposed places, as long as the row count of the
decoder is the height of the array. -/
theorem C23_decode (env : Env) (hmd5 : env.Md5Ok) (T : UTable) (hT : T.Ok env) (hrows : 0 < T.rows) (bytes : List Byte)
    (henc : T.encode env .same = .ok bytes) (hsz : bytes.length ≤ 2147483647) (names : List Str) (hne : names ≠ [])
    (hnd : names.Nodup) (hsub : ∀ n ∈ names, n ∈ T.cols.map InCol.name) :
    ∃ (fr : List Tbl) (sizes : List Nat), readPlain env bytes = ([fr], none) ∧ sizes.length = names.length ∧
      (∀ (i : Nat) (nm : Str) (s : Nat), names[i]? = some nm → sizes[i]? = some s → 0 < s ∧ s % 8 = 0 ∧ Reports fr nm s) ∧
      ∀ (alloc : Nat) (junk : Nat → Nat → Cell) (m : Mem) (d : Dec), d.cols = (Dec.new names).cols → T.rows ≤ d.nrows →
        (d.ext ≠ none → sizes.sum ≤ d.width ∧ d.nrows ≤ d.height) →
        ∃ d' m', odcDecode bytes fr alloc junk d m = .ok (d', m', T.rows) ∧ d'.nrows = d.nrows ∧
          d'.width = (if d.ext = none then sizes.sum else d.width) ∧ d'.height = (if d.ext = none then d.nrows else d.height) ∧
          (∀ (i : Nat) (c : InCol) (s : Nat), c ∈ T.cols → names[i]? = some c.name → sizes[i]? = some s → ∀ r, r < T.rows →
            ∃ ws : Cell, c.vals.Back env r ws ∧ ws.length = s / 8 ∧ ∀ (w : Nat) (x : Word), ws[w]? = some x →
              m'.word (d.ext.getD alloc + (if d.columnMajor then d'.height * (sizes.take i).sum + 8 * (r + w * d.nrows)
                else r * d'.width + (sizes.take i).sum + 8 * w)) = x) ∧
          ∀ x, x < d.ext.getD alloc ∨ d.ext.getD alloc + d'.width * d'.height ≤ x → m' x = m x := by
  obtain ⟨t, ht, hh⟩ := plain_table env hmd5 T hT bytes henc hsz
  have hinfo := info_of_holds hh
  generalize hxs : t.info.cols.map (fun c => (⟨c.name, c.ty, 8 * c.codec.width, bitInfos 0 c.bitNames c.bitSizes⟩ : ColShown)) = xs at *
  have hsize : ∀ k ∈ t.info.cols, sizeIn (sizesOf xs) k.name = 8 * k.codec.width := by
    intro k hk; rw [← hxs]; exact sizeIn_holds hh k hk
  have hlen : t.info.cols.length = T.cols.length := by
    have := congrArg List.length hh.shows.colNames; simpa using this
  have hk : ∀ n ∈ names, ∃ k ∈ t.info.cols, k.name = n ∧ 1 ≤ k.codec.width := by
    intro n hn
    have := hsub n hn
    rw [← hh.shows.colNames] at this
    simp only [List.mem_map] at this
    obtain ⟨k, hk, hkn⟩ := this
    obtain ⟨p, hp⟩ := List.mem_iff_getElem?.mp hk
    have hpl := (List.getElem?_eq_some_iff.mp hp).1
    obtain ⟨_, _, _, _, k5, _⟩ := hh.col p _ k (List.getElem?_eq_getElem (by omega)) hp
    exact ⟨k, hk, hkn, k5⟩
  have hs : ∀ n ∈ names, 0 < sizeIn (sizesOf xs) n ∧ sizeIn (sizesOf xs) n % 8 = 0 := by
    intro n hn
    obtain ⟨k, hk1, rfl, hk2⟩ := hk n hn
    rw [hsize k hk1]; omega
  refine ⟨[t], names.map (sizeIn (sizesOf xs)), ht, by simp, ?_, ?_⟩
  · intro i nm s hi hsi
    simp only [List.getElem?_map, hi, Option.map_some, Option.some.injEq] at hsi
    subst hsi
    have hn := List.mem_of_getElem? hi
    refine ⟨(hs nm hn).1, (hs nm hn).2, ?_⟩
    obtain ⟨k, hk1, hk2, _⟩ := hk nm hn
    refine ⟨xs, ⟨k.name, k.ty, 8 * k.codec.width, bitInfos 0 k.bitNames k.bitSizes⟩, hinfo, ?_, hk2, ?_⟩
    · rw [← hxs]; exact List.mem_map_of_mem hk1
    · rw [← hk2, hsize k hk1]
  · intro alloc junk m d hc hr hext
    have hc : d.cols = autoCols names := hc
    have hfrows : frameRows [t] = T.rows := by
      have h1 := hh.shows.nrows
      have h2 := hh.tok.rows
      simp only [frameRows, List.foldl_cons, List.foldl_nil, h1]
      omega
    have hcol := filled_col alloc (sizesOf xs) names d hs
    have hfl : (d.filled alloc (sizesOf xs) names).cols.length = names.length := by
      unfold Dec.filled
      simp [(place_spec _ _ _ _ _ _).1]
    have hreqs : ∀ e ∈ (d.filled alloc (sizesOf xs) names).cols.mapIdx (fun i e => (e.1, e.2.target m d.nrows (junk i))),
        ∃ nm ∈ names, e.1 = nm ∧ e.2.nelem = d.nrows ∧ e.2.elem = sizeIn (sizesOf xs) nm / 8 ∧
          ∀ x, (e.2.mem x).length = e.2.elem := by
      intro e he
      obtain ⟨i, hi⟩ := List.mem_iff_getElem?.mp he
      have hil := (List.getElem?_eq_some_iff.mp hi).1
      rw [List.length_mapIdx, hfl] at hil
      obtain ⟨c, c1, c2, _, _, _⟩ := hcol i names[i] (List.getElem?_eq_getElem hil)
      rw [List.getElem?_mapIdx, c1] at hi
      simp only [Option.map_some, Option.some.injEq] at hi
      subst hi
      refine ⟨names[i], List.getElem_mem hil, rfl, rfl, by simp [DecCol.target, c2], ?_⟩
      intro x
      simp only [DecCol.target]
      by_cases htr : c.transpose = true
      · rw [if_pos htr]; simp
      · rw [if_neg htr]; simp
    have hnames : ((d.filled alloc (sizesOf xs) names).cols.mapIdx (fun i e => (e.1, e.2.target m d.nrows (junk i)))).map Prod.fst =
        names := by
      apply List.ext_getElem?
      intro i
      rw [List.getElem?_map, List.getElem?_mapIdx]
      cases hi : names[i]? with
      | none =>
        rw [List.getElem?_eq_none_iff.mpr (by rw [hfl]; exact List.getElem?_eq_none_iff.mp hi)]
        rfl
      | some nm =>
        obtain ⟨c, c1, _⟩ := hcol i nm hi
        rw [c1]
        rfl
    obtain ⟨Ls, out, o1, o2, o3⟩ := frame_decode (fr := [t]) (Ts := [T]) (.cons hh .nil)
      (by intro a b e; cases e; simp) (by have := hh.tok.rows; simp [totalRows]; omega) _
      (⟨by rw [hnames]; exact hnd, by
        intro a b e; cases e
        intro e he
        obtain ⟨nm, h1, h2, h3, h4, h5⟩ := hreqs e he
        obtain ⟨k, k1, k2, _⟩ := hk nm h1
        refine ⟨k, k1, by rw [k2, h2], ?_⟩
        rw [h4, ← k2, hsize k k1]; omega, by
        intro e he
        obtain ⟨nm, h1, h2, h3, h4, h5⟩ := hreqs e he
        simp only [rowSum, List.map_cons, List.map_nil, List.sum_cons, List.sum_nil, hh.shows.nrows, h3]; omega, by
        intro e he
        obtain ⟨nm, h1, h2, h3, h4, h5⟩ := hreqs e he
        exact h5⟩ : UserReq [t]
          ((d.filled alloc (sizesOf xs) names).cols.mapIdx (fun i e => (e.1, e.2.target m d.nrows (junk i)))))
    have hout : decodeFrame bytes [t] ((d.filled alloc (sizesOf xs) names).cols.mapIdx
      (fun i e => (e.1, e.2.target m d.nrows (junk i)))) = .ok out := by
      unfold decodeFrame; rw [o1]
    have hol : out.length = names.length := by rw [o2, List.length_mapIdx, hfl]
    have hxl : names.length ≤ xs.length := by
      rw [← hxs, List.length_map, hlen]
      have := List.Nodup.length_le_of_subset hnd (l₂ := T.cols.map InCol.name) hsub
      simpa using this
    obtain ⟨m', a1, a2, a3⟩ := odcDecode_auto bytes [t] alloc junk d m names xs hinfo hxl hne hs hc (by omega) (by omega)
      hext out hout hol
    refine ⟨d.filled alloc (sizesOf xs) names, m', by rw [a1, hfrows], rfl, rfl, rfl, ?_, a3⟩
    intro i c s hcT hi hsi r hr'
    simp only [List.getElem?_map, hi, Option.map_some, Option.some.injEq] at hsi
    subst hsi
    obtain ⟨k, k1, k2, k3⟩ := hk c.name (List.mem_of_getElem? hi)
    obtain ⟨e, e1, e2, _⟩ := hcol i c.name hi
    obtain ⟨mm, b1, b2, b3, b4⟩ := o3 i c.name (e.target m d.nrows (junk i)) (by rw [List.getElem?_mapIdx, e1]; rfl)
    have hback := b2 0 t T rfl rfl c k hcT rfl k1 k2 r hr'
    have hb0 : rowsBefore [T] 0 = 0 := rfl
    rw [hb0, Nat.zero_add] at hback
    have hml : (mm r).length = k.codec.width := by
      rw [b3 r]
      simp only [DecCol.target, e2]
      rw [← k2, hsize k k1]; omega
    rw [List.take_of_length_le (by omega)] at hback
    refine ⟨mm r, hback, by rw [hml, ← k2, hsize k k1]; omega, ?_⟩
    intro w x hx
    have hwl := (List.getElem?_eq_some_iff.mp hx).1
    have := a2 i c.name mm hi b1 r w (by omega) (by rw [← k2, hsize k k1]; omega)
    rw [List.getD_eq_getElem?_getD, hx] at this
    rw [← show (some x).getD 0 = x from rfl, ← this]
    congr 1
    unfold autoAddr
    cases d.columnMajor <;> simp <;> omega

end Verif
