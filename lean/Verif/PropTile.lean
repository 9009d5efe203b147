import Verif.PropAgg
import Verif.Shared

/-
C16, C18, C19, C36, and what aggregation does with a damaged file.
-/

namespace Verif

/-! ### C18 -/

/-- Frames obtained from a reader, with or without aggregation. -/
def FramesOf (env : Env) (bytes : List Byte) (gs : List (List Tbl)) : Prop :=
  readPlain env bytes = (gs, none) ∨ ∃ limit, readAggregated env bytes limit = (gs, none)

theorem framesOf_tables {env : Env} {bytes : List Byte} {fs gs : List (List Tbl)} (h : readPlain env bytes = (fs, none))
    (hbig : rowSum fs.flatten < 9223372036854775808) (hg : FramesOf env bytes gs) :
    gs.flatten = fs.flatten ∧ ∀ g ∈ gs, g ≠ [] := by
  rcases hg with hg | ⟨limit, hg⟩
  · rw [h] at hg
    cases hg
    obtain ⟨ts, _, rfl, _⟩ := readPlain_iff.mp h
    refine ⟨rfl, ?_⟩
    intro g hg
    simp only [List.mem_map] at hg
    obtain ⟨t, _, rfl⟩ := hg
    simp
  · by_cases hlim : limit < 0 ∨ ∀ fr ∈ fs, (rowSum fr : Int) ≤ limit
    · obtain ⟨gs', h1, h2, _⟩ := C13_aggregation env bytes fs h limit hlim hbig
      rw [hg] at h1
      cases h1
      exact ⟨h2.all, h2.nonempty⟩
    · exfalso
      rw [not_or] at hlim
      obtain ⟨l1, l2⟩ := hlim
      have hex : ∃ fr ∈ fs, limit < (rowSum fr : Int) := by
        by_contra hc
        apply l2
        intro fr hfr
        by_contra hlt
        exact hc ⟨fr, hfr, by omega⟩
      have := C13_over_limit env bytes fs h limit (by omega) hex hbig
      rw [hg] at this
      cases this

theorem tiles_aux (env : Env) (f : File) (gs : List (List Tbl)) (hne : ∀ g ∈ gs, g ≠ []) (rs : List RawFrame)
    (hrs : ∀ r ∈ rs, r.Ok env) (pos : Nat) (rest : List Byte) (hf : f.bytes.drop pos = fileOf rs ++ rest)
    (hl : gs.flatten = layout pos rs) :
    ∃ bs, Match (fun g b => encodedData f g = .ok b ∧ frameLength g = b.length) gs bs ∧ bs.flatten = fileOf rs ∧
      ∀ (i : Nat) (g : List Tbl), gs[i]? = some g → frameOffset g = ((pos + (bs.take i).flatten.length : Nat) : Int) := by
  induction gs generalizing rs pos with
  | nil =>
    have : rs = [] := by
      have := congrArg List.length hl
      rw [layout_length] at this
      exact List.length_eq_zero_iff.mp this.symm
    subst this
    exact ⟨[], .nil, rfl, by simp⟩
  | cons g gs ih =>
    rw [List.flatten_cons] at hl
    have hlen : g.length ≤ rs.length := by
      have := congrArg List.length hl
      rw [layout_length, List.length_append] at this
      omega
    have hsplit : rs = rs.take g.length ++ rs.drop g.length := (List.take_append_drop _ _).symm
    rw [hsplit, layout_append] at hl
    obtain ⟨hg, hrest⟩ := List.append_inj hl (by rw [layout_length, List.length_take]; omega)
    have hfo : fileOf rs = fileOf (rs.take g.length) ++ fileOf (rs.drop g.length) := by
      unfold fileOf
      rw [← List.flatMap_append, List.take_append_drop]
    have hf2 : f.bytes.drop (pos + (fileOf (rs.take g.length)).length) = fileOf (rs.drop g.length) ++ rest := by
      rw [← List.drop_drop, hf, hfo, List.append_assoc, List.drop_left]
    obtain ⟨bs, b1, b2, b3⟩ := ih (fun x hx => hne x (by simp [hx])) (rs.drop g.length)
      (fun r hr => hrs r (List.mem_of_mem_drop hr)) (pos + (fileOf (rs.take g.length)).length) hf2 (by
        rw [hrest]; push_cast; rfl)
    have henc := encodedData_layout env f (rs.take g.length) (fun r hr => hrs r (List.mem_of_mem_take hr)) pos
      (fileOf (rs.drop g.length) ++ rest) (by rw [hf, hfo, List.append_assoc])
    rw [← hg] at henc
    -- first and last table
    have hgne := hne g (by simp)
    obtain ⟨r0, rs0, hr0⟩ : ∃ r0 rs0, rs.take g.length = r0 :: rs0 := by
      cases hx : rs.take g.length with
      | nil => rw [hx] at hg; simp [layout] at hg; exact absurd hg hgne
      | cons a b => exact ⟨a, b, rfl⟩
    have hhead : g.head? = some (r0.tbl pos) := by rw [hg, hr0]; simp [layout]
    have hend : endPos pos g = ((pos + (fileOf (rs.take g.length)).length : Nat) : Int) := by
      rw [hg, endPos_layout]; rw [← hg]; push_cast; rfl
    have hlast : ∃ z, g.getLast? = some z ∧ z.next = ((pos + (fileOf (rs.take g.length)).length : Nat) : Int) := by
      cases hx : g.getLast? with
      | none => rw [List.getLast?_eq_none_iff] at hx; exact absurd hx hgne
      | some z => refine ⟨z, rfl, ?_⟩; unfold endPos at hend; rw [hx] at hend; exact hend
    obtain ⟨z, z1, z2⟩ := hlast
    have hoffg : frameOffset g = pos := by simp only [frameOffset, hhead, RawFrame.tbl]
    refine ⟨fileOf (rs.take g.length) :: bs, .cons ⟨henc, ?_⟩ b1, ?_, ?_⟩
    · simp only [frameLength, hhead, z1, z2, RawFrame.tbl]; push_cast; omega
    · rw [List.flatten_cons, b2, ← hfo]
    · intro i x hx
      cases i with
      | zero =>
        simp only [List.getElem?_cons_zero, Option.some.injEq] at hx
        subst hx
        simp [hoffg]
      | succ i =>
        simp only [List.getElem?_cons_succ] at hx
        rw [b3 i x hx]
        simp only [List.take_succ_cons, List.flatten_cons, List.length_append]
        omega

/-- **C18**: the frames of a file, aggregated or not, lie one after the other and cover it; the encoded data of
each is its range of the file, so that copying them one after the other reproduces the file. -/
theorem C18_tiling (env : Env) (bytes : List Byte) (fs gs : List (List Tbl)) (h : readPlain env bytes = (fs, none))
    (hs : SizedFrames fs) (hbig : rowSum fs.flatten < 9223372036854775808) (hg : FramesOf env bytes gs) :
    ∃ bs, Match (fun g b => encodedData (File.known bytes) g = .ok b ∧ frameLength g = b.length) gs bs ∧
      bs.flatten = bytes ∧
      ∀ (i : Nat) (g : List Tbl), gs[i]? = some g → frameOffset g = ((bs.take i).flatten.length : Int) := by
  obtain ⟨h1, h2⟩ := framesOf_tables h hbig hg
  obtain ⟨ts, hsc, rfl, hcp⟩ := readPlain_iff.mp h
  rw [flatten_singles] at h1
  have hs' : Sized ts := by simpa [SizedFrames, flatten_singles] using hs
  obtain ⟨rs, hrs, rfl, rfl⟩ := scan_raw hsc hs'
  obtain ⟨bs, b1, b2, b3⟩ := tiles_aux env (File.known (fileOf rs)) gs h2 rs hrs 0 [] (by simp [File.known]) (by
    rw [h1]; rfl)
  exact ⟨bs, b1, b2, fun i g hg => by simpa using b3 i g hg⟩

/-! ### Aggregation of a damaged file -/

theorem readLoop_agg_error {env : Env} {f : File} {ts : List Tbl} {e : Err} (h : Scan env f ts (some e))
    (hc : ∀ t ∈ ts, t.copy = .ok t) (limit : Int) (fuel : Nat) (hf : ts.length < fuel) (hneg : limit < 0)
    (k i : Nat) (r : Rd) (hr : r.At ts i) (hi : i < ts.length) (hk : ts.length < i + k) :
    ∃ gs lost, readLoop env f true limit fuel k r = (gs, some e) ∧ lost ≠ [] ∧ gs.flatten ++ lost = ts.drop i ∧
      ∀ (front : Tbl) (rest : List Tbl), lost = front :: rest → ∀ t ∈ rest, compatible front.info.cols t.info.cols = true := by
  induction k generalizing i r with
  | zero => omega
  | succ k ih =>
    unfold readLoop
    obtain ⟨r', h1, h2⟩ := Rd.next_frame h hc true limit fuel hf r i hr hi
    have hp := frameLen_pos true limit ts i hi
    by_cases hend : i + frameLen true limit ts i = ts.length
    · rw [if_pos ⟨rfl, hend⟩] at h1
      rw [h1]
      refine ⟨[], ts.drop i, rfl, ?_, rfl, ?_⟩
      · intro hn; have := congrArg List.length hn; rw [List.length_drop, List.length_nil] at this; omega
      · intro front rest he t ht
        have hd : ts.drop i = ts[i] :: ts.drop (i + 1) := List.drop_eq_getElem_cons hi
        rw [hd] at he
        simp only [List.cons.injEq] at he
        obtain ⟨rfl, rfl⟩ := he
        have hfl := frameLen_agg limit ts i hi
        have hall : ∀ (n : Int) (us : List Tbl) (front : Tbl), grow limit front n us = us.length →
            ∀ t ∈ us, compatible front.info.cols t.info.cols = true := by
          intro n us front
          induction us generalizing n with
          | nil => simp
          | cons u us ihu =>
            intro hg t ht
            simp only [grow] at hg
            rw [if_neg (by omega)] at hg
            split at hg
            · simp at hg
            · rename_i hcomp
              rcases List.mem_cons.mp ht with rfl | ht
              · simpa using hcomp
              · exact ihu _ (by simpa using hg) t ht
        exact hall ts[i].rows (ts.drop (i + 1)) ts[i] (by rw [List.length_drop]; omega) t ht
    · rw [if_neg (by rintro ⟨_, h⟩; exact hend h)] at h1
      have hres : frameResult limit ((ts.drop i).take (frameLen true limit ts i)) =
          .ok (some ((ts.drop i).take (frameLen true limit ts i))) := by
        unfold frameResult; rw [if_pos (Or.inl hneg)]
      rw [hres] at h1
      rw [h1]
      obtain ⟨gs, lost, g1, g2, g3, g4⟩ := ih _ r' h2 (by omega) (by omega)
      refine ⟨(ts.drop i).take (frameLen true limit ts i) :: gs, lost, by simp only [g1], g2, ?_, g4⟩
      rw [List.flatten_cons, List.append_assoc, g3, ← List.drop_drop, List.take_append_drop]

/-- **Aggregation and damage**: if a file has readable tables followed by damage, reading it with aggregation
reports the damage but also withholds the last group of good tables, which reading without aggregation
delivers. -/
theorem C11_violated_aggregated (env : Env) (bytes : List Byte) (ts : List Tbl) (e : Err)
    (hsc : Scan env (File.known bytes) ts (some e)) (hcp : ∀ t ∈ ts, t.copy = .ok t) (hne : ts ≠ [])
    (hlen : ts.length ≤ bytes.length) :
    readPlain env bytes = (ts.map (fun t => [t]), some e) ∧
      ∃ gs lost, readAggregated env bytes (-1) = (gs, some e) ∧ lost ≠ [] ∧ gs.flatten ++ lost = ts := by
  refine ⟨readFrames_plain hsc hcp (-1) (fun t _ => Or.inl (by decide)) hlen, ?_⟩
  have ho := Rd.open_scan hsc
  unfold readAggregated readFrames
  cases ts with
  | nil => exact absurd rfl hne
  | cons u us =>
    simp only at ho
    obtain ⟨r, h1, h2⟩ := ho
    rw [h1]
    simp only
    have e1 : (File.known bytes).bytes = bytes := rfl
    rw [e1]
    obtain ⟨gs, lost, g1, g2, g3, _⟩ := readLoop_agg_error hsc hcp (-1) (bytes.length + 2) (by omega) (by decide)
      (bytes.length + 2) 0 r h2 (by simp) (by omega)
    exact ⟨gs, lost, g1, g2, by simpa using g3⟩

/-! ### C16 -/

/-- **C16**: in any interleaving of reads and seeks of any number of users of one file, and of movements of
the underlying handle, each user reads what it would read alone. -/
theorem C16_shared_handle (s : Shared) (u : Nat) (history : List (Nat × HOp))
    (hc : ∀ op ∈ opsOf u history, ∀ v, op ≠ .copyOf v) :
    resultsOf u (s.run history) = alone s.bytes (s.pos u) (opsOf u history) := s.run_alone u history hc

/-- A copy starts where the original is and is independent of it afterwards. -/
theorem C16_copy (s : Shared) (u v : Nat) (history : List (Nat × HOp))
    (hc : ∀ op ∈ opsOf u history, ∀ w, op ≠ .copyOf w) :
    resultsOf u ((s.op u (.copyOf v)).1.run history) = alone s.bytes (s.pos v) (opsOf u history) := by
  rw [Shared.run_alone _ u history hc]
  simp [Shared.op]

example : resultsOf 1 ((⟨lit "abcdef", 0, fun _ => 0⟩ : Shared).run
    [(1, .read 2), (0, .read 1), (1, .moved 5), (0, .seek 4), (1, .read 2), (0, .read 9), (1, .read 9)]) =
    [lit "ab", [], lit "cd", lit "ef"] := by decide +kernel

/-! ### C36 -/

/-- **C36**: iterators over one reader, advanced in any order, all enumerate the tables of the file: an
iterator advanced `c` times is at table `c` (at the end after the last), and a table is parsed once whoever
needs it. -/
theorem C36_iterators (env : Env) (bytes : List Byte) (fs : List (List Tbl)) (h : readPlain env bytes = (fs, none))
    (steps : List Nat) (j : Nat) (hj : (steps.filter (fun i => decide (i = j))).length ≤ fs.length) :
    let s := (Its.start fs.flatten).run env (File.known bytes) steps
    let c := (steps.filter (fun i => decide (i = j))).length
    s.pos j = (if c = fs.length then -1 else (c : Int)) ∧
      (c < fs.length → s.tables[c]? = fs.flatten[c]?) ∧ s.tables <+: fs.flatten ∧ s.parsed = s.tables.length := by
  obtain ⟨ts, hsc, rfl, hcp⟩ := readPlain_iff.mp h
  rw [flatten_singles]
  simp only [List.length_map] at hj ⊢
  have hinv := Its.run_inv hsc steps (fun _ => 0) _ (Its.inv_start ts)
  obtain ⟨m, m1, m2, m3, m4⟩ := hinv.pre
  have hp := hinv.pos j
  simp only [Nat.zero_add] at hp
  have hcyc : cyclePos ts.length (steps.filter (fun i => decide (i = j))).length =
      if (steps.filter (fun i => decide (i = j))).length = ts.length then -1
      else ((steps.filter (fun i => decide (i = j))).length : Int) := by
    unfold cyclePos
    rw [Nat.mod_eq_of_lt (by omega)]
  refine ⟨by rw [hp, hcyc], ?_, ?_, hinv.parsed⟩
  · intro hlt
    have h1 := m4 j
    rw [hp, hcyc, if_neg (by omega)] at h1
    rw [m2, List.getElem?_take, if_pos (by omega)]
  · rw [m2]; exact List.take_prefix _ _

/-! ### C19 -/

theorem mapEmplace_mem (k v : Str) (m : StrMap) : ∀ kv ∈ mapEmplace strLt k v m, kv ∈ m ∨ kv = (k, v) := by
  induction m with
  | nil => intro kv h; simp [mapEmplace] at h; exact Or.inr h
  | cons e m ih =>
    obtain ⟨k', v'⟩ := e
    intro kv h
    simp only [mapEmplace] at h
    split at h
    · rcases List.mem_cons.mp h with h | h
      · exact Or.inr h
      · exact Or.inl h
    · split at h
      · rcases List.mem_cons.mp h with h | h
        · exact Or.inl (by simp [h])
        · rcases ih kv h with h | h
          · exact Or.inl (by simp [h])
          · exact Or.inr h
      · exact Or.inl h

theorem mapEmplace_ok (k v : Str) (m : StrMap) (h : MapOk m) : MapOk (mapEmplace strLt k v m) := by
  induction m with
  | nil => simp [mapEmplace, MapOk]
  | cons e m ih =>
    obtain ⟨k', v'⟩ := e
    simp only [MapOk, List.pairwise_cons] at h
    simp only [mapEmplace]
    split
    · rename_i hlt
      simp only [MapOk, List.pairwise_cons]
      refine ⟨?_, h⟩
      intro kv hkv
      rcases List.mem_cons.mp hkv with rfl | hkv
      · exact hlt
      · exact strLt_trans hlt (h.1 kv hkv)
    · split
      · rename_i h2
        simp only [MapOk, List.pairwise_cons]
        refine ⟨?_, ih h.2⟩
        intro kv hkv
        rcases mapEmplace_mem k v m kv hkv with hkv | rfl
        · exact h.1 kv hkv
        · exact h2
      · simp only [MapOk, List.pairwise_cons]; exact h

theorem mapGet_below (q : Str) (m : StrMap) (h : ∀ kv ∈ m, strLt q kv.1 = true) : mapGet q m = none := by
  unfold mapGet
  rw [Option.map_eq_none_iff, List.find?_eq_none]
  intro kv hkv
  have := h kv hkv
  simp only [decide_eq_true_eq]
  intro hc
  rw [hc, strLt_irrefl] at this
  cases this

theorem mapGet_emplace (k v : Str) (m : StrMap) (h : MapOk m) (q : Str) :
    mapGet q (mapEmplace strLt k v m) = (mapGet q m).or (if q = k then some v else none) := by
  induction m with
  | nil =>
    simp only [mapEmplace, mapGet, List.find?_cons, List.find?_nil]
    by_cases hq : q = k
    · simp [hq]
    · simp [show ¬ k = q from fun e => hq e.symm, hq]
  | cons e m ih =>
    obtain ⟨k', v'⟩ := e
    have h0 := h
    simp only [MapOk, List.pairwise_cons] at h
    simp only [mapEmplace]
    split
    · rename_i hlt
      by_cases hq : q = k
      · subst hq
        rw [mapGet_below q ((k', v') :: m) (by
          intro kv hkv
          rcases List.mem_cons.mp hkv with rfl | hkv
          · exact hlt
          · exact strLt_trans hlt (h.1 kv hkv))]
        simp [mapGet]
      · rw [if_neg hq, Option.or_none]
        simp only [mapGet, List.find?_cons, show ¬ k = q from fun e => hq e.symm, decide_false]
    · split
      · rename_i h1 h2
        have hih := ih h.2
        simp only [mapGet, List.find?_cons] at hih ⊢
        by_cases hq : k' = q
        · simp [hq]
        · simp only [hq, decide_false]
          exact hih
      · rename_i h1 h2
        have hk : k = k' := strLt_total (by simpa using h1) (by simpa using h2)
        subst hk
        by_cases hq : q = k
        · subst hq; simp [mapGet]
        · rw [if_neg hq, Option.or_none]

theorem mapMerge_get (kvs m : StrMap) (h : MapOk m) (q : Str) :
    MapOk (mapMerge m kvs) ∧ mapGet q (mapMerge m kvs) = (mapGet q m).or (mapGet q kvs) := by
  induction kvs generalizing m with
  | nil => exact ⟨h, by simp [mapMerge, mapGet]⟩
  | cons kv kvs ih =>
    simp only [mapMerge]
    obtain ⟨i1, i2⟩ := ih _ (mapEmplace_ok kv.1 kv.2 m h)
    refine ⟨i1, ?_⟩
    rw [i2, mapGet_emplace _ _ _ h, Option.or_assoc]
    congr 1
    simp only [mapGet, List.find?_cons]
    by_cases hq : q = kv.1
    · subst hq; simp
    · simp [hq, show ¬ kv.1 = q from fun e => hq e.symm]

/-- **C19**, aggregated frames: the value of a property is that of the first table which defines it. -/
theorem C19_first_table (fr : List Tbl) (q : Str) :
    mapGet q (frameProps fr) = fr.findSome? (fun t => mapGet q t.info.props) := by
  have : ∀ (us : List Tbl) (m : StrMap), MapOk m →
      mapGet q (us.foldl (fun m t => mapMerge m t.info.props) m) =
        (mapGet q m).or (us.findSome? (fun t => mapGet q t.info.props)) := by
    intro us
    induction us with
    | nil => intro m _; simp
    | cons t us ih =>
      intro m hm
      obtain ⟨g1, g2⟩ := mapMerge_get t.info.props m hm q
      rw [List.foldl_cons, ih _ g1, g2, Option.or_assoc, List.findSome?_cons]
      congr 1
      cases mapGet q t.info.props <;> simp
  have h0 := this fr [] (by simp [MapOk])
  rw [show mapGet q ([] : StrMap) = none from rfl, Option.none_or] at h0
  exact h0

/-- **C19**: every property given to `encode` is a property of the frame read back; the only other one is
`encoder`, set by the library. -/
theorem C19_properties (env : Env) (hmd5 : env.Md5Ok) (Ts : List UTable) (hT : ∀ T ∈ Ts, T.Ok env) :
    ∃ bss, writeTables env Ts = .ok bss ∧ ((∀ b ∈ bss, b.length ≤ 2147483647) →
      ∃ fs, readPlain env bss.flatten = (fs, none) ∧ fs.length = Ts.length ∧
        ∀ (i : Nat) (fr : List Tbl) (T : UTable), fs[i]? = some fr → Ts[i]? = some T → ∀ q : Str,
          mapGet q (frameProps fr) = if q = lit "encoder" then some (lit "odc version " ++ env.version) else mapGet q T.props) := by
  obtain ⟨bss, h1, h2, h3⟩ := file_scan env hmd5 Ts hT
  refine ⟨bss, h1, ?_⟩
  intro hsz
  obtain ⟨ts, t1, t2⟩ := plain_tables env hmd5 Ts hT bss h1 hsz
  refine ⟨_, t1, by rw [List.length_map, t2.length], ?_⟩
  intro i fr T hfr hTi q
  rw [List.getElem?_map] at hfr
  cases ht : ts[i]? with
  | none => rw [ht] at hfr; simp at hfr
  | some t =>
    rw [ht] at hfr
    simp only [Option.map_some, Option.some.injEq] at hfr
    subst hfr
    have hh := t2.get i t T ht hTi
    rw [C19_first_table, List.findSome?_cons, List.findSome?_nil, hh.props]
    have hst : mapGet q (T.stored env) = if q = lit "encoder" then some (lit "odc version " ++ env.version) else mapGet q T.props :=
      mapGet_mapSet _ _ _ (hT T (List.mem_of_getElem? hTi)).props q
    rw [hst]
    split
    · rename_i x hx; rw [hx]
    · rename_i hx; rw [hx]

end Verif
