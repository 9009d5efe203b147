import Verif.Project
import Verif.PropValues

/-
C06, C07, C37: whole frames, selections of columns, bitfield definitions.
-/

namespace Verif

/-! ### C06 -/

/-- The frame reports the column with this size in bytes. -/
def Reports (fr : List Tbl) (nm : Str) (bytes : Nat) : Prop :=
  ∃ xs x, frameInfo fr = .ok xs ∧ x ∈ xs ∧ x.name = nm ∧ x.bytes = bytes

/-- The table with only one of the columns. -/
def UTable.only (T : UTable) (c : InCol) : UTable := { cols := [c], rows := T.rows, props := [] }

theorem UTable.only_ok {env : Env} {T : UTable} (hT : T.Ok env) {c : InCol} (hc : c ∈ T.cols) : (T.only c).Ok env where
  ne := by simp [UTable.only]
  few := by simp [UTable.only]
  names := by simp [UTable.only]
  col := by
    intro c' hc'
    simp only [UTable.only, List.mem_singleton] at hc'
    subst hc'
    exact hT.col c' hc
  props := by simp [UTable.only, MapOk]
  nprops := by simp [UTable.only]
  plen := by simp [UTable.only]
  version := hT.version
  rows := hT.rows

theorem info_of_holds {env : Env} {f : File} {t : Tbl} {T : UTable} (h : Holds1 env f t T) :
    frameInfo [t] = .ok (t.info.cols.map (fun c => ⟨c.name, c.ty, 8 * c.codec.width, bitInfos 0 c.bitNames c.bitSizes⟩)) := by
  apply colsShown_of
  intro k hk
  obtain ⟨p, hp⟩ := List.mem_iff_getElem?.mp hk
  have hlen : t.info.cols.length = T.cols.length := by
    have := congrArg List.length h.shows.colNames; simpa using this
  have hpl := (List.getElem?_eq_some_iff.mp hp).1
  obtain ⟨_, _, k3, k4, _, _⟩ := h.col p _ k (List.getElem?_eq_getElem (by omega)) hp
  rw [k3, k4]; simp

theorem reports_of_holds {env : Env} {f : File} {t : Tbl} {T : UTable} (h : Holds1 env f t T) (c : InCol) (hc : c ∈ T.cols)
    (w : Nat) (hw : ∀ k ∈ t.info.cols, k.name = c.name → k.codec.width = w) : Reports [t] c.name (8 * w) := by
  have hnm : c.name ∈ t.info.cols.map Col.name := by
    rw [h.shows.colNames]; exact List.mem_map_of_mem hc
  simp only [List.mem_map] at hnm
  obtain ⟨k, hk, hkn⟩ := hnm
  exact ⟨_, ⟨k.name, k.ty, 8 * k.codec.width, bitInfos 0 k.bitNames k.bitSizes⟩, info_of_holds h,
    List.mem_map_of_mem hk, hkn, by simp only [hw k hk hkn]⟩

/-- **C06**: a column decoded from the frame of a whole table is the same as the column encoded and decoded
alone, whatever the values (also those the format does not preserve) and whatever the other columns; both
frames report the same element size, and each element holds the same words up to that size. -/
theorem C06_frame_round_trip (env : Env) (hmd5 : env.Md5Ok) (T : UTable) (hT : T.Ok env) (hrows : 0 < T.rows) :
    ∃ bytes, T.encode env .same = .ok bytes ∧ ∀ c ∈ T.cols, ∃ bytes1, (T.only c).encode env .same = .ok bytes1 ∧
      (bytes.length ≤ 2147483647 → bytes1.length ≤ 2147483647 →
        ∃ fr fr1 w, readPlain env bytes = ([fr], none) ∧ readPlain env bytes1 = ([fr1], none) ∧ 1 ≤ w ∧
          Reports fr c.name (8 * w) ∧ Reports fr1 c.name (8 * w) ∧
          ∀ tg : Target, tg.Fits T.rows c.vals.words → ∃ m m1, decodeCol bytes fr c.name tg = .ok m ∧
            decodeCol bytes1 fr1 c.name tg = .ok m1 ∧ ∀ r, r < T.rows → (m r).take w = (m1 r).take w) := by
  obtain ⟨bytes, henc, _⟩ := T.encode_ok env hmd5 hT .same
  refine ⟨bytes, henc, ?_⟩
  intro c hc
  have hT1 := UTable.only_ok hT hc
  obtain ⟨bytes1, henc1, _⟩ := (T.only c).encode_ok env hmd5 hT1 .same
  refine ⟨bytes1, henc1, ?_⟩
  intro hsz hsz1
  obtain ⟨t, ht, hh⟩ := plain_table env hmd5 T hT bytes henc hsz
  obtain ⟨t1, ht1, hh1⟩ := plain_table env hmd5 _ hT1 bytes1 henc1 hsz1
  have hc1 : c ∈ (T.only c).cols := by simp [UTable.only]
  -- widths, from any target
  have hfit : (⟨T.rows, c.vals.words, fun _ => List.replicate c.vals.words 0⟩ : Target).Fits T.rows c.vals.words :=
    ⟨Nat.le_refl _, Nat.le_refl _, by simp⟩
  obtain ⟨w, m, w1, w2, w3, w4, w5, w6, _⟩ := decode_col hh c hc _ hfit
  obtain ⟨w', m', v1, v2, v3, v4, v5, v6, _⟩ := decode_col hh1 c hc1 _ hfit
  have key : ∀ (x y : Nat → Cell) (e : Nat), c.vals.words ≤ e → (∀ r, (x r).length = e) → (∀ r, (y r).length = e) →
      (∀ r, r < T.rows → c.vals.Back env r ((x r).take w)) → (∀ r, r < T.rows → c.vals.Back env r ((y r).take w')) →
      w = w' ∧ ∀ r, r < T.rows → (x r).take w = (y r).take w := by
    intro x y e he hx hy bx by_
    have heq : ∀ r, r < T.rows → (x r).take w = (y r).take w' := by
      intro r hr
      obtain ⟨ys, a1, a2⟩ := bx r hr
      obtain ⟨zs, b1, b2⟩ := by_ r hr
      rw [a1] at b1
      cases b1
      rw [a2] at b2
      simpa using b2
    have hw : w = w' := by
      have := congrArg List.length (heq 0 hrows)
      simp only [List.length_take, hx, hy] at this
      omega
    exact ⟨hw, fun r hr => by rw [heq r hr, hw]⟩
  obtain ⟨hww, _⟩ := key m m' _ (Nat.le_refl _) w6 v6 w5 v5
  refine ⟨[t], [t1], w, ht, ht1, w1, reports_of_holds hh c hc w w3, reports_of_holds hh1 c hc1 w (by rw [hww]; exact v3), ?_⟩
  intro tg htg
  obtain ⟨u, n, _, _, u3, u4, u5, u6, _⟩ := decode_col hh c hc tg htg
  obtain ⟨u', n', _, _, u3', u4', u5', u6', _⟩ := decode_col hh1 c hc1 tg htg
  have hk : ∃ k ∈ t.info.cols, k.name = c.name := by
    have hnm : c.name ∈ t.info.cols.map Col.name := by rw [hh.shows.colNames]; exact List.mem_map_of_mem hc
    simpa using hnm
  have hk' : ∃ k ∈ t1.info.cols, k.name = c.name := by
    have hnm : c.name ∈ t1.info.cols.map Col.name := by rw [hh1.shows.colNames]; exact List.mem_map_of_mem hc1
    simpa using hnm
  obtain ⟨k, hk, hkn⟩ := hk
  obtain ⟨k', hk', hkn'⟩ := hk'
  have e1 : u = w := by rw [← u3 k hk hkn, w3 k hk hkn]
  have e2 : u' = w' := by rw [← u3' k' hk' hkn', v3 k' hk' hkn']
  subst e1
  subst e2
  exact ⟨n, n', u4, u4', (key n n' tg.elem htg.elem u6 u6' u5 u5').2⟩

/-- The sample table meets the hypotheses. -/
example : sampleTable.Ok sampleEnv ∧ 0 < sampleTable.rows ∧ sampleEnv.Md5Ok :=
  ⟨sampleTable_ok, by decide, sampleEnv_md5⟩

/-- So does a table with values that do not survive: the NaN is lost in the same way with and without the
other column. -/
example : okIs (tryCol sampleEnv ⟨[⟨lit "x", .ints [1, 1]⟩, ⟨lit "c", .doubles [0x3ff0000000000000, 0x7ff8000000000000]⟩], 2, []⟩
      (lit "c") 1) [[0x3ff0000000000000], [0x3ff0000000000000]] = true ∧
    okIs (tryCol sampleEnv (oneCol 2 (.doubles [0x3ff0000000000000, 0x7ff8000000000000])) (lit "c") 1)
      [[0x3ff0000000000000], [0x3ff0000000000000]] = true := by decide +kernel

/-! ### C07 -/

/-- **C07**: for any frame of any file, if decoding a request succeeds, so does decoding any selection of its
entries, in any order, and each selected target ends up with the same content. (`pick ix l` are the elements
of `l` at the positions `ix`.) -/
theorem C07_projection (bytes : List Byte) (fr : List Tbl) (req : List (Str × Target)) (out : List (Nat → Cell))
    (h : decodeFrame bytes fr req = .ok out) (ix : List Nat) (hd : ix.Nodup) (hb : ∀ i ∈ ix, i < req.length) :
    decodeFrame bytes fr (pick ix req) = .ok (pick ix out) := by
  unfold decodeFrame at h ⊢
  have hfull : frameDecode (File.known bytes) (fr.map (fun t => (t, Lookup.empty))) req = (_, .ok out) := Prod.ext rfl h
  obtain ⟨out2, h2, h3⟩ := frameDecode_picks (by
    intro e he
    simp only [List.mem_map] at he
    obtain ⟨t, _, rfl⟩ := he
    exact Lookup.empty_within _) (Picks.pick hd hb) hfull
  rw [h2]
  simp only
  rw [h3.unique (Picks.pick hd h3.bound)]

/-- An unknown column is refused: no table of the frame may lack the name. -/
theorem C07_unknown (bytes : List Byte) (fr : List Tbl) (req : List (Str × Target)) (t : Tbl) (ht : t ∈ fr)
    (nm : Str) (hnm : nm ∈ req.map Prod.fst) (h1 : ∀ c ∈ t.info.cols, c.name ≠ nm)
    (h2 : ∀ c ∈ t.info.cols, simpleName c.name ≠ nm) : ∃ e, decodeFrame bytes fr req = .error e := by
  cases hres : decodeFrame bytes fr req with
  | error e => exact ⟨e, rfl⟩
  | ok out =>
    exfalso
    unfold decodeFrame at hres
    have hfull : frameDecode (File.known bytes) (fr.map (fun t => (t, Lookup.empty))) req = (_, .ok out) := Prod.ext rfl hres
    obtain ⟨sub, L', o, hd, hn⟩ := frameDecode_each hfull (t, Lookup.empty) (List.mem_map_of_mem ht)
    obtain ⟨hl, ps, hps⟩ := Tbl.decode_resolve hd
    rw [← hn] at hnm
    simp only [List.mem_map] at hnm
    obtain ⟨⟨nm', tg⟩, hm, rfl⟩ := hnm
    obtain ⟨i, hi⟩ := List.mem_iff_getElem?.mp hm
    obtain ⟨hp1, _, _, hp4⟩ := resolve_ok _ _ _ _ _ hps
    have hf := (hp4 i nm' tg hi).1
    have hil : i < ps.length := by rw [hp1]; exact (List.getElem?_eq_some_iff.mp hi).1
    have hne : L'.find nm' ≠ none := by rw [hf, List.getElem?_eq_getElem hil]; simp
    have hbuild : Lookup.build (t.info.cols.map Col.name) 0 Lookup.empty = (L', none) := by
      unfold columnLookup at hl
      simpa [Lookup.empty] using hl
    rcases Lookup.build_names _ _ _ _ hbuild nm' hne with h3 | h3 | h3
    · simp [Lookup.find, Lookup.empty, assoc] at h3
    · simp only [List.mem_map] at h3
      obtain ⟨c, hc, he⟩ := h3
      exact h1 c hc he
    · simp only [List.map_map, List.mem_map, Function.comp] at h3
      obtain ⟨c, hc, he⟩ := h3
      exact h2 c hc he

/-- A column requested twice is refused. -/
theorem C07_twice (bytes : List Byte) (fr : List Tbl) (hfr : fr ≠ []) (req : List (Str × Target))
    (hdup : ¬ (req.map Prod.fst).Nodup) : ∃ e, decodeFrame bytes fr req = .error e := by
  cases hres : decodeFrame bytes fr req with
  | error e => exact ⟨e, rfl⟩
  | ok out =>
    exfalso
    apply hdup
    unfold decodeFrame at hres
    have hfull : frameDecode (File.known bytes) (fr.map (fun t => (t, Lookup.empty))) req = (_, .ok out) := Prod.ext rfl hres
    obtain ⟨t, ht⟩ := List.exists_mem_of_ne_nil fr hfr
    obtain ⟨sub, L', o, hd, hn⟩ := frameDecode_each hfull (t, Lookup.empty) (List.mem_map_of_mem ht)
    obtain ⟨hl, ps, hps⟩ := Tbl.decode_resolve hd
    obtain ⟨hp1, hp2, _, hp4⟩ := resolve_ok _ _ _ _ _ hps
    rw [← hn, List.Nodup, List.pairwise_iff_getElem]
    intro a b ha hb hab heq
    simp only [List.length_map] at ha hb
    simp only [List.getElem_map] at heq
    have fa := (hp4 a sub[a].1 sub[a].2 (List.getElem?_eq_getElem ha)).1
    have fb := (hp4 b sub[b].1 sub[b].2 (List.getElem?_eq_getElem hb)).1
    rw [heq, fb] at fa
    have hal : a < ps.length := by omega
    have := (List.getElem?_inj hal hp2).mp fa.symm
    omega

/-- A target with too few elements is refused. -/
theorem C07_short (bytes : List Byte) (fr : List Tbl) (req : List (Str × Target)) (hbig : rowSum fr < 18446744073709551616)
    (e : Str × Target) (he : e ∈ req) (hshort : e.2.nelem < rowSum fr) : ∃ x, decodeFrame bytes fr req = .error x := by
  cases hres : decodeFrame bytes fr req with
  | error x => exact ⟨x, rfl⟩
  | ok out =>
    exfalso
    unfold decodeFrame at hres
    have hfull : frameDecode (File.known bytes) (fr.map (fun t => (t, Lookup.empty))) req = (_, .ok out) := Prod.ext rfl hres
    -- offsets
    have hoff : ∀ us : List Tbl, offAt (us.map (fun t => (t, Lookup.empty))) us.length = rowSum us := by
      intro us
      have aux : ∀ k, k ≤ us.length → offAt (us.map (fun t => (t, Lookup.empty))) k = rowSum (us.take k) := by
        intro k
        induction k with
        | zero => intro _; rfl
        | succ k ih =>
          intro hk
          have hg : (us.map (fun t => (t, Lookup.empty)))[k]? = some (us[k], Lookup.empty) := by
            rw [List.getElem?_map, List.getElem?_eq_getElem (by omega)]; rfl
          rw [offAt_succ _ k _ _ hg, ih (by omega), List.take_succ_eq_append_getElem (by omega), rowSum_append]
          simp [rowSum]
      rw [aux us.length (Nat.le_refl _), List.take_length]
    match hfr : fr, hfull with
    | [], _ => simp [rowSum] at hshort
    | [t], hfull =>
      simp only [frameDecode, List.map_cons, List.map_nil, Prod.mk.injEq] at hfull
      have hd : t.decode (File.known bytes) Lookup.empty req = (_, .ok out) := Prod.ext rfl hfull.2
      obtain ⟨_, ps, hps⟩ := Tbl.decode_resolve hd
      obtain ⟨_, _, _, hp4⟩ := resolve_ok _ _ _ _ _ hps
      obtain ⟨i, hi⟩ := List.mem_iff_getElem?.mp he
      have := (hp4 i e.1 e.2 hi).2
      simp [rowSum] at hshort
      omega
    | t :: t' :: ts, hfull =>
      have hfs : frameSeq (File.known bytes) ((t :: t' :: ts).map (fun t => (t, Lookup.empty))) 0 req = (_, .ok out) := hfull
      cases hs : sliceAll ((t :: t' :: ts).map (fun t => (t, Lookup.empty))) 0 req with
      | some x =>
        obtain ⟨y, hy⟩ := frameSeq_short (File.known bytes) _ 0 req req rfl x hs
        rw [hfs] at hy
        simp at hy
      | none =>
        have hlen : ((t :: t' :: ts).map (fun t => (t, Lookup.empty))).length = (t :: t' :: ts).length := by simp
        have htot := hoff (t :: t' :: ts)
        have := sliceAll_room ((t :: t' :: ts).map (fun t => (t, Lookup.empty))) req (by rw [hlen, htot]; exact hbig)
          (t :: t' :: ts).length 0 (by simp) (by simpa [offAt] using hs) (by intro e _; simp [offAt]) e he
        rw [hlen, htot] at this
        omega

/-! ### C37 -/

/-- **C37**: the members of a BITFIELD column come back with names and sizes unchanged and with offsets that
are the sums of the sizes before, when these add up to at most 255 bits. -/
theorem C37_bitfields (env : Env) (hmd5 : env.Md5Ok) (T : UTable) (hT : T.Ok env) :
    ∃ bytes, T.encode env .same = .ok bytes ∧ (bytes.length ≤ 2147483647 →
      ∃ fr xs, readPlain env bytes = ([fr], none) ∧ frameInfo fr = .ok xs ∧
        xs.map ColShown.name = T.cols.map InCol.name ∧
        ∀ (p : Nat) (c : InCol) (x : ColShown), T.cols[p]? = some c → xs[p]? = some x →
          x.ty = c.vals.ty.toInt ∧ x.bits.map (fun b => (b.name, b.size)) = c.vals.members ∧
          ((∀ m ∈ c.vals.members, 0 ≤ m.2) → sizeSum c.vals.members ≤ 255 → x.bits = cumulative 0 c.vals.members)) := by
  obtain ⟨bytes, henc, _⟩ := T.encode_ok env hmd5 hT .same
  refine ⟨bytes, henc, ?_⟩
  intro hsz
  obtain ⟨t, ht, hh⟩ := plain_table env hmd5 T hT bytes henc hsz
  refine ⟨[t], _, ht, info_of_holds hh, ?_, ?_⟩
  · rw [List.map_map, ← hh.shows.colNames]; rfl
  · intro p c x hp hx
    rw [List.getElem?_map] at hx
    cases hk : t.info.cols[p]? with
    | none => rw [hk] at hx; simp at hx
    | some k =>
      rw [hk] at hx
      simp only [Option.map_some, Option.some.injEq] at hx
      obtain ⟨_, k2, k3, k4, _, _⟩ := hh.col p c k hp hk
      subst hx
      refine ⟨k2, ?_, ?_⟩
      · simp only [k3, k4]
        have : ∀ (ms : List (Str × Int)) (off : Nat),
            (bitInfos off (ms.map Prod.fst) (ms.map Prod.snd)).map (fun b => (b.name, b.size)) = ms := by
          intro ms
          induction ms with
          | nil => intro off; rfl
          | cons m ms ih => intro off; simp [bitInfos, ih]
        exact this _ _
      · intro h1 h2
        simp only [k3, k4]
        exact bitInfos_cumulative _ 0 h1 (by simpa using h2)

/-- The C encoder accepts a list of bitfield members of non-negative size exactly if they fit in 32 bits, and
then records the cumulative offsets. -/
theorem C37_add_bitfield (ms : List (Str × Int)) (hm : ∀ m ∈ ms, 0 ≤ m.2 ∧ m.2 < 2147483648) :
    addBits [] ms = if sizeSum ms ≤ 32 then .ok (cumulative 0 ms) else .error Err.assertFailed := by
  have := addBits_cumulative [] ms (by simp) (by simp [sizeSum]) hm
  simpa [cumulative] using this

/-- Members of negative size are accepted by the C encoder, and give overlapping members. -/
theorem C37_violated_negative : addBits [] [(lit "a", 8), (lit "b", -8), (lit "c", 8)] =
    .ok [⟨lit "a", 8, 0⟩, ⟨lit "b", -8, 8⟩, ⟨lit "c", 8, 0⟩] := by decide +kernel

/-- Reported offsets wrap at 256 bits. -/
theorem C37_violated_wrap : bitInfos 0 [lit "a", lit "b"] [256, 1] = [⟨lit "a", 256, 0⟩, ⟨lit "b", 1, 0⟩] := by
  decide +kernel

example : cumulative 0 [(lit "lo", 2), (lit "hi", 3)] = [⟨lit "lo", 2, 0⟩, ⟨lit "hi", 3, 2⟩] := by decide +kernel

end Verif
