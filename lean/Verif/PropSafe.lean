import Verif.SafeLocal
import Verif.PropRead
import Verif.SampleFile
import Verif.PropStats

/-
C29: decoding a frame whose data section holds arbitrary bytes.
-/

namespace Verif

/-! ### A file with other bytes in its data sections -/

/-- `b` is `a` with other bytes in the data sections of its tables: same length, same headers. -/
def SameHeaders (ts : List Tbl) (a b : List Byte) : Prop :=
  b.length = a.length ∧ ∀ t ∈ ts, ∀ i : Nat, t.start ≤ i → (i : Int) < t.dataPos → b[i]? = a[i]?

theorem parseHeader_swap {md5 : List Byte → Str} {asDbl : Bool} {s r : List Byte} {h : HeaderInfo} {o : Order}
    (hp : parseHeader md5 asDbl s = .ok (some (h, o, r))) (r' : List Byte) :
    parseHeader md5 asDbl (s.take (s.length - r.length) ++ r') = .ok (some (h, o, r')) := by
  obtain ⟨bo, basic, var, digest, e, h1, h2, h3, h4, h5, h6⟩ := parseHeader_ok md5 asDbl s h o r hp
  have : s.take (s.length - r.length) = magic ++ (bo ++ (basic ++ var)) := by
    rw [e, show magic ++ (bo ++ (basic ++ (var ++ r))) = (magic ++ (bo ++ (basic ++ var))) ++ r by simp]
    exact List.take_left' (by simp; omega)
  rw [this]
  simp only [List.append_assoc]
  exact parseHeader_of md5 asDbl h o bo basic var r' digest h1 h2 h3 h4 h5 h6

/-- The frame with other data. -/
theorem RawFrame.Ok.swap {env : Env} {r : RawFrame} (h : r.Ok env) (b : List Byte) (hl : b.length = r.bytes.length)
    (hh : b.take (r.bytes.length - r.data.length) = r.bytes.take (r.bytes.length - r.data.length)) :
    ∃ r' : RawFrame, r'.Ok env ∧ r'.bytes = b ∧ ∀ pos, r'.tbl pos = r.tbl pos := by
  have hs := h.size
  refine ⟨⟨b, r.info, r.order, b.drop (r.bytes.length - r.data.length)⟩, ⟨?_, ?_⟩, rfl, ?_⟩
  · have := parseHeader_swap h.1 (b.drop (r.bytes.length - r.data.length))
    rw [← hh, List.take_append_drop] at this
    exact this
  · show toI64 r.info.dataSize = _
    rw [h.2, List.length_drop]; omega
  · intro pos
    simp only [RawFrame.tbl, Tbl.mk.injEq, and_true, true_and, List.length_drop]
    omega

theorem swap_frames {env : Env} (rs : List RawFrame) (hrs : ∀ r ∈ rs, r.Ok env) (pos : Nat) (b : List Byte)
    (hl : b.length = (fileOf rs).length)
    (hh : ∀ t ∈ layout pos rs, ∀ i : Nat, t.start ≤ pos + i → (pos : Int) + i < t.dataPos → b[i]? = (fileOf rs)[i]?) :
    ∃ rs' : List RawFrame, (∀ r ∈ rs', r.Ok env) ∧ fileOf rs' = b ∧ layout pos rs' = layout pos rs := by
  induction rs generalizing pos b with
  | nil => exact ⟨[], by simp, by simp [fileOf] at hl ⊢; exact hl, rfl⟩
  | cons r rs ih =>
    have hr := hrs r (by simp)
    have hs := hr.size
    have hf : fileOf (r :: rs) = r.bytes ++ fileOf rs := rfl
    rw [hf, List.length_append] at hl
    have hlb : (b.take r.bytes.length).length = r.bytes.length := by rw [List.length_take]; omega
    obtain ⟨r', o1, o2, o3⟩ := hr.swap (b.take r.bytes.length) hlb (by
      apply List.ext_getElem?
      intro i
      rw [List.take_take, List.getElem?_take, List.getElem?_take]
      by_cases hi : i < r.bytes.length - r.data.length
      · rw [if_pos (by omega), if_pos hi]
        have := hh (r.tbl pos) (by simp [layout]) i (by simp [RawFrame.tbl]) (by simp only [RawFrame.tbl]; omega)
        rw [this, hf, List.getElem?_append_left (by omega)]
      · rw [if_neg (by omega), if_neg hi])
    obtain ⟨rs', q1, q2, q3⟩ := ih (fun x hx => hrs x (by simp [hx])) (pos + r.bytes.length) (b.drop r.bytes.length)
      (by rw [List.length_drop]; omega) (by
        intro t ht i hi1 hi2
        have := hh t (by simp only [layout, List.mem_cons]; right; simpa using ht) (r.bytes.length + i) (by push_cast at *; omega) (by push_cast at *; omega)
        rw [hf, List.getElem?_append_right (by omega), Nat.add_sub_cancel_left] at this
        rw [List.getElem?_drop]; exact this)
    refine ⟨r' :: rs', ?_, ?_, ?_⟩
    · intro x hx
      rcases List.mem_cons.mp hx with rfl | hx
      · exact o1
      · exact q1 x hx
    · show r'.bytes ++ fileOf rs' = b
      rw [o2, q2, List.take_append_drop]
    · simp only [layout, o3, List.cons.injEq, true_and]
      rw [o2, hlb]
      exact_mod_cast q3

/-- **C29**, reading: the reader does not look at the data sections, so a file with any other bytes there is read into
the same frames. -/
theorem C29_reads (env : Env) (bytes bytes' : List Byte) (fs : List (List Tbl)) (h : readPlain env bytes = (fs, none))
    (hs : SizedFrames fs) (hb : SameHeaders fs.flatten bytes bytes') : readPlain env bytes' = (fs, none) := by
  obtain ⟨ts, hsc, rfl, hcp⟩ := readPlain_iff.mp h
  have hs' : Sized ts := by simpa [SizedFrames, flatten_singles] using hs
  rw [flatten_singles] at hb
  obtain ⟨rs, hrs, rfl, rfl⟩ := scan_raw hsc hs'
  obtain ⟨hl, hh⟩ := hb
  obtain ⟨rs', q1, rfl, q3⟩ := swap_frames rs hrs 0 bytes' hl (fun t ht i h1 h2 => hh t (by simpa using ht) i (by omega) (by omega))
  apply readPlain_iff.mpr
  refine ⟨layout 0 rs, ?_, rfl, hcp⟩
  have := scan_fileOf env rs' q1 (fileOf rs').length (Or.inr rfl)
  have e : layout (0 : Int) rs' = layout 0 rs := by exact_mod_cast q3
  rw [e] at this
  exact this

/-! ### Decoding -/

/-- The column a name stands for is called so, up to the '@' at least. -/
theorem lookup_names (names : List Str) (L : Lookup) (h : columnLookup names Lookup.empty = (L, none)) (nm : Str) (p : Nat)
    (hp : L.find nm = some p) : ∃ n, names[p]? = some n ∧ (nm = n ∨ nm = simpleName n) := by
  have hb : ∀ (ns done : List Str) (M M' : Lookup), Lookup.build ns done.length M = (M', none) →
      (∀ e ∈ M.exact, (done ++ ns)[e.2]? = some e.1) →
      (∀ e ∈ M.simple, ∃ n, (done ++ ns)[e.2]? = some n ∧ e.1 = simpleName n) →
      (∀ e ∈ M'.exact, (done ++ ns)[e.2]? = some e.1) ∧
      (∀ e ∈ M'.simple, ∃ n, (done ++ ns)[e.2]? = some n ∧ e.1 = simpleName n) := by
    intro ns
    induction ns with
    | nil =>
      intro done M M' hM h1 h2
      simp only [Lookup.build, Prod.mk.injEq, and_true] at hM
      subst hM
      exact ⟨h1, h2⟩
    | cons n ns ih =>
      intro done M M' hM h1 h2
      unfold Lookup.build at hM
      split at hM
      · simp at hM
      have hat : (done ++ n :: ns)[done.length]? = some n := by simp
      have := ih (done ++ [n]) _ M' (by simpa using hM) (by
        intro e he
        rw [List.append_assoc]
        rcases List.mem_append.mp he with he | he
        · exact h1 e he
        · simp only [List.mem_singleton] at he; subst he; exact hat) (by
        intro e he
        rw [List.append_assoc]
        split at he
        · exact h2 e he
        rcases List.mem_append.mp he with he | he
        · exact h2 e he
        · simp only [List.mem_singleton] at he; subst he; exact ⟨n, hat, rfl⟩)
      simpa using this
  unfold columnLookup at h
  rw [if_pos (show Lookup.empty.exact = [] from rfl)] at h
  obtain ⟨h1, h2⟩ := hb names [] Lookup.empty L h (by simp [Lookup.empty]) (by simp [Lookup.empty])
  have hass : ∀ (m : List (Str × Nat)) (q : Nat), assoc nm m = some q → ∃ e ∈ m, e.1 = nm ∧ e.2 = q := by
    intro m q hq
    unfold assoc at hq
    rw [Option.map_eq_some_iff] at hq
    obtain ⟨e, he, rfl⟩ := hq
    exact ⟨e, List.mem_of_find?_eq_some he, by simpa using List.find?_some he, rfl⟩
  unfold Lookup.find at hp
  split at hp
  · rename_i q hq
    simp only [Option.some.injEq] at hp
    subst hp
    obtain ⟨e, he, rfl, rfl⟩ := hass _ _ hq
    exact ⟨e.1, h1 e he, Or.inl rfl⟩
  · obtain ⟨e, he, rfl, rfl⟩ := hass _ _ hp
    obtain ⟨n, hn, hn'⟩ := h2 e he
    exact ⟨n, hn, Or.inr hn'⟩

/-- The data section of a table in a file. -/
def Tbl.bytesIn (bytes : List Byte) (t : Tbl) : List Byte := (bytes.drop t.dataPos.toNat).take (toI64 t.info.dataSize).toNat

/-- Encoded sizes of the columns of a table. -/
def Tbl.sizes (t : Tbl) : List Nat := t.info.cols.map (fun c => c.codec.encSize)

/-- Every requested column has a target at least as wide as the column. -/
def WideReq (cols : List Col) (req : List (Str × Target)) : Prop :=
  ∀ c ∈ cols, ∀ nm tg, (nm, tg) ∈ req → (nm = c.name ∨ nm = simpleName c.name) → c.codec.width ≤ tg.elem ∧ 1 ≤ tg.elem

theorem decWidth_le (c : Codec) (e : Nat) (h1 : c.width ≤ e) (h2 : 1 ≤ e) : c.decWidth ≤ e := by
  unfold Codec.decWidth
  cases c.kind <;> dsimp only <;> try omega
  cases c.strings.head? with
  | none => simp
  | some s => dsimp only; split <;> omega

theorem clonedMissing_safe (c : Codec) : c.clonedMissing ≠ .error .ub := by
  unfold Codec.clonedMissing
  split
  · cases c.vt with
    | dbl => simp [toVT]
    | i64 =>
      have : toVT .i64 integerMDI = .ok (BitVec.ofInt 64 2147483647) := by
        unfold integerMDI toVT
        dsimp only
        rw [fcast_ofInt _ _ _ (by constructor <;> omega) (by omega) (by omega)]
      rw [this]; simp
  · simp

theorem slots_safe (cols : List Col) (req : List (Str × Target)) (L : Lookup) (ps : List Nat) (nrows : Nat)
    (hL : columnLookup (cols.map Col.name) Lookup.empty = (L, none)) (hr : resolve L nrows req [] = .ok ps)
    (hsane : ∀ c ∈ cols, c.codec.Sane) (hw : WideReq cols req) :
    AllSafe ((List.range cols.length).map (mkSlot cols (req.map Prod.snd) ps)) := by
  obtain ⟨r1, r2, r3, r4⟩ := resolve_ok L nrows req [] ps hr
  intro s hs
  simp only [List.mem_map, List.mem_range] at hs
  obtain ⟨p, hp, rfl⟩ := hs
  have hc : cols[p]? = some cols[p] := List.getElem?_eq_getElem hp
  unfold mkSlot
  rw [hc]
  dsimp only
  cases hf : (ps.zip (req.map Prod.snd)).find? (fun e => decide (e.1 = p)) with
  | none => exact ⟨by simp, by simp, by simp⟩
  | some e =>
    obtain ⟨q, tg⟩ := e
    have hq : q = p := by simpa using List.find?_some hf
    subst hq
    obtain ⟨i, hi⟩ := List.mem_iff_getElem?.mp (List.mem_of_find?_eq_some hf)
    rw [List.getElem?_zip_eq_some] at hi
    obtain ⟨hi1, hi2⟩ := hi
    rw [List.getElem?_map, Option.map_eq_some_iff] at hi2
    obtain ⟨⟨nm, tg'⟩, hi3, rfl⟩ := hi2
    obtain ⟨hfind, _⟩ := r4 i nm tg' hi3
    rw [hi1] at hfind
    obtain ⟨n, hn, hor⟩ := lookup_names _ L hL nm q hfind
    rw [List.getElem?_map, hc] at hn
    simp only [Option.map_some, Option.some.injEq] at hn
    subst hn
    have hwide := hw cols[q] (List.getElem_mem hp) nm tg' (List.mem_of_getElem? hi3) hor
    refine ⟨fun _ => hsane _ (List.getElem_mem hp), fun _ => ⟨decWidth_le _ _ hwide.1 hwide.2, hwide.2⟩, fun _ => clonedMissing_safe _⟩

theorem encSizes_slots (cols : List Col) (ts : List Target) (ps : List Nat) :
    encSizes ((List.range cols.length).map (mkSlot cols ts ps)) = cols.map (fun c => c.codec.encSize) := by
  apply List.ext_getElem?
  intro i
  simp only [encSizes, List.map_map, List.getElem?_map]
  by_cases hi : i < cols.length
  · rw [List.getElem?_range hi, List.getElem?_eq_getElem hi]
    simp only [Option.map_some, Function.comp_apply, Option.some.injEq]
    unfold mkSlot
    rw [List.getElem?_eq_getElem hi]
    dsimp only
    cases (ps.zip ts).find? (fun e => decide (e.1 = i)) <;> rfl
  · rw [List.getElem?_eq_none (by simpa using hi), List.getElem?_eq_none (by omega)]; rfl

theorem data_ok (bytes : List Byte) (t : Tbl) (h0 : 0 ≤ t.dataPos) (h1 : 0 ≤ toI64 t.info.dataSize)
    (h2 : t.dataPos + toI64 t.info.dataSize ≤ bytes.length) : t.data (File.known bytes) = .ok (t.bytesIn bytes) := by
  unfold Tbl.data readRange
  rw [if_neg (by omega), if_neg (by omega), if_neg (by simp only [File.known]; omega)]
  rfl

/-- A table of a readable file lies in the file. -/
theorem table_inside {env : Env} {bytes : List Byte} {fs : List (List Tbl)} (h : readPlain env bytes = (fs, none))
    (hs : SizedFrames fs) {fr : List Tbl} (hf : fr ∈ fs) : ∃ t, fr = [t] ∧ 0 ≤ t.dataPos ∧ 0 ≤ toI64 t.info.dataSize ∧
      t.dataPos + toI64 t.info.dataSize ≤ bytes.length := by
  obtain ⟨ts, hsc, rfl, hcp⟩ := readPlain_iff.mp h
  have hs' : Sized ts := by simpa [SizedFrames, flatten_singles] using hs
  obtain ⟨rs, hrs, rfl, rfl⟩ := scan_raw hsc hs'
  simp only [List.mem_map] at hf
  obtain ⟨t, ht, rfl⟩ := hf
  refine ⟨t, rfl, ?_⟩
  have : ∀ (rs : List RawFrame) (pos : Nat), (∀ r ∈ rs, r.Ok env) → t ∈ layout pos rs → 0 ≤ t.dataPos ∧
      0 ≤ toI64 t.info.dataSize ∧ t.dataPos + toI64 t.info.dataSize ≤ pos + (fileOf rs).length := by
    intro rs
    induction rs with
    | nil => intro pos _ h; simp [layout] at h
    | cons r rs ih =>
      intro pos hrs ht
      have hr := hrs r (by simp)
      have hsz := hr.size
      rw [show fileOf (r :: rs) = r.bytes ++ fileOf rs from rfl, List.length_append]
      simp only [layout, List.mem_cons] at ht
      rcases ht with rfl | ht
      · simp only [RawFrame.tbl, hr.2]
        omega
      · have := ih (pos + r.bytes.length) (fun x hx => hrs x (by simp [hx])) (by exact_mod_cast ht)
        push_cast at this ⊢
        omega
  simpa using this rs 0 hrs (by simpa using ht)

theorem decodeFrame_one (bytes : List Byte) (t : Tbl) (req : List (Str × Target)) :
    decodeFrame bytes [t] req = (t.decode (File.known bytes) Lookup.empty req).2 := rfl

/-- Decoding a table whose data lie in the file. -/
theorem decode_safe (bytes : List Byte) (t : Tbl) (h0 : 0 ≤ t.dataPos) (h1 : 0 ≤ toI64 t.info.dataSize)
    (h2 : t.dataPos + toI64 t.info.dataSize ≤ bytes.length) (hsane : ∀ c ∈ t.info.cols, c.codec.Sane)
    (req : List (Str × Target)) (hw : WideReq t.info.cols req)
    (hm : MarkersOk t.info.cols.length (rowMarkers t.sizes t.info.nrows (t.bytesIn bytes))) :
    (t.decode (File.known bytes) Lookup.empty req).2 ≠ .error .ub := by
  unfold Tbl.decode
  cases hL : columnLookup (t.info.cols.map Col.name) Lookup.empty with
  | mk L' oe =>
    cases oe with
    | some e =>
      dsimp only
      have : e = .decodeError := by
        unfold columnLookup at hL
        rw [if_pos (show Lookup.empty.exact = [] from rfl)] at hL
        clear hm hw hsane
        generalize Lookup.empty = M at hL
        generalize (0 : Nat) = i at hL
        generalize t.info.cols.map Col.name = ns at hL
        induction ns generalizing i M with
        | nil => simp [Lookup.build] at hL
        | cons n ns ih =>
          unfold Lookup.build at hL
          split at hL
          · simp only [Prod.mk.injEq, Option.some.injEq] at hL; exact hL.2.symm
          · exact ih _ _ hL
      rw [this]; simp
    | none =>
      dsimp only
      split
      · simp
      cases hr : resolve L' t.info.nrows req [] with
      | error e =>
        dsimp only
        have : e ≠ .ub := by
          clear hw hm
          generalize ([] : List Nat) = seen at hr
          induction req generalizing seen with
          | nil => simp [resolve] at hr
          | cons r req ih =>
            obtain ⟨nm, tg⟩ := r
            simp only [resolve] at hr
            split at hr
            · simp only [Except.error.injEq] at hr; rw [← hr]; simp
            split at hr
            · simp only [Except.error.injEq] at hr; rw [← hr]; simp
            split at hr
            · simp only [Except.error.injEq] at hr; rw [← hr]; simp
            split at hr
            · rename_i e' he'
              simp only [Except.error.injEq] at hr
              subst hr
              simp only [List.length_cons] at *
              exact ih (by omega) _ he'
            · simp at hr
        simpa using this
      | ok ps =>
        dsimp only
        rw [data_ok bytes t h0 h1 h2]
        dsimp only
        unfold tableDecode
        split
        · simp
        rw [hr]
        dsimp only
        split
        · simp
        split
        · simp
        have hsafe := slots_safe t.info.cols req L' ps t.info.nrows hL hr hsane hw
        have hsz := encSizes_slots t.info.cols (req.map Prod.snd) ps
        have hlen : ((List.range t.info.cols.length).map (mkSlot t.info.cols (req.map Prod.snd) ps)).length =
            t.info.cols.length := by simp
        generalize (List.range t.info.cols.length).map (mkSlot t.info.cols (req.map Prod.snd) ps) = ss at *
        have hdec : decodeTable t.order t.info.nrows ss (t.bytesIn bytes) ≠ .error .ub := by
          unfold decodeTable
          split
          · simp
          rcases hsafe.initAll.both with ⟨e, g1, g2⟩ | ⟨ss1, g1, g2, g3⟩
          · rw [g1]; simpa using g2
          rw [g1]
          dsimp only
          have hl1 : ss1.length = ss.length := by
            have := congrArg List.length g3
            simpa [encSizes] using this
          rcases (decRows_safe t.order t.info.nrows 0 0 ss1 g2 (t.bytesIn bytes) (by
            rw [hl1, hlen, g3, hsz]
            intro i a b ha hb hab
            cases i with
            | zero => simp at ha; omega
            | succ i => exact hm i a b (by simpa [Tbl.sizes] using ha) (by simpa [Tbl.sizes] using hb) hab)).both with
            ⟨e, k1, k2⟩ | ⟨⟨ss2, r⟩, k1, k2⟩
          · rw [k1]; simpa using k2
          rw [k1]
          exact k2.finish _
        cases hd : decodeTable t.order t.info.nrows ss (t.bytesIn bytes) with
        | error e => rw [hd] at hdec; simpa using hdec
        | ok _ => simp

/-- **C29**, decoding: whatever the bytes of the data section of a frame are, decoding gives values or reports an error,
as long as no row marker beyond the number of columns is followed by a smaller one. -/
theorem C29_safe (env : Env) (bytes : List Byte) (fs : List (List Tbl)) (h : readPlain env bytes = (fs, none))
    (hs : SizedFrames fs) (t : Tbl) (hf : [t] ∈ fs) (hsane : ∀ c ∈ t.info.cols, c.codec.Sane)
    (req : List (Str × Target)) (hw : WideReq t.info.cols req)
    (hm : MarkersOk t.info.cols.length (rowMarkers t.sizes t.info.nrows (t.bytesIn bytes))) :
    decodeFrame bytes [t] req ≠ .error .ub := by
  obtain ⟨t', e, h0, h1, h2⟩ := table_inside h hs hf
  simp only [List.cons.injEq, and_true] at e
  subst e
  rw [decodeFrame_one]
  exact decode_safe bytes t h0 h1 h2 hsane req hw hm

/-- **C29**, extent: a decode that succeeds used the bytes of the rows, which lie in the data section of the frame, and
had no fatal marker. -/
theorem C29_extent (env : Env) (bytes : List Byte) (fs : List (List Tbl)) (h : readPlain env bytes = (fs, none))
    (hs : SizedFrames fs) (t : Tbl) (hf : [t] ∈ fs) (hrows : 0 < t.info.nrows) (req : List (Str × Target))
    (ms : List (Nat → Cell)) (hd : decodeFrame bytes [t] req = .ok ms) :
    rowsSize t.sizes t.info.nrows (t.bytesIn bytes) ≤ (t.bytesIn bytes).length ∧
      (rowMarkers t.sizes t.info.nrows (t.bytesIn bytes)).length = t.info.nrows ∧
      MarkersOk t.info.cols.length (rowMarkers t.sizes t.info.nrows (t.bytesIn bytes)) := by
  obtain ⟨t', e, h0, h1, h2⟩ := table_inside h hs hf
  simp only [List.cons.injEq, and_true] at e
  subst e
  rw [decodeFrame_one] at hd
  unfold Tbl.decode at hd
  split at hd
  · simp at hd
  split at hd
  · simp at hd
  split at hd
  · simp at hd
  rename_i ps hps
  rw [data_ok bytes t h0 h1 h2] at hd
  dsimp only at hd
  unfold tableDecode at hd
  split at hd
  · simp at hd
  rw [hps] at hd
  dsimp only at hd
  rw [if_neg (by omega)] at hd
  split at hd
  · simp at hd
  have hsz := encSizes_slots t.info.cols (req.map Prod.snd) ps
  have hlen : ((List.range t.info.cols.length).map (mkSlot t.info.cols (req.map Prod.snd) ps)).length =
      t.info.cols.length := by simp
  generalize (List.range t.info.cols.length).map (mkSlot t.info.cols (req.map Prod.snd) ps) = ss at *
  split at hd
  · simp at hd
  rename_i ss' hdt
  unfold decodeTable at hdt
  rw [if_neg (by omega)] at hdt
  split at hdt
  · simp at hdt
  rename_i ss1 hi
  split at hdt
  · simp at hdt
  rename_i ss2 r hr
  have hsz1 : encSizes ss1 = encSizes ss := initAll_sizes hi
  have hl1 : ss1.length = ss.length := by
    have := congrArg List.length hsz1
    simpa [encSizes] using this
  obtain ⟨m1, m2, _, m4⟩ := decRows_markers _ _ _ _ _ _ _ _ hr
  rw [hsz1, hsz] at m1 m2 m4
  rw [hl1, hlen] at m1
  exact ⟨m4, m2, m1.tail⟩

/-! ### Files written by the encoder -/

theorem reload_vt (asDbl : Bool) (ty : Int) (c : Codec) : (reload asDbl ty c).vt = vtOf c.kind ty asDbl ∧
    (reload asDbl ty c).missing = c.missing ∧
    ((reload asDbl ty c).kind = .longConstantString → (reload asDbl ty c).strings ≠ []) := by
  unfold reload
  cases hk : c.kind <;> refine ⟨?_, ?_, ?_⟩ <;> simp [fresh]

/-- Columns written by the encoder are sane: all but integers beyond the 32-bit range. -/
theorem sane_stored {env : Env} {v : Vals} {e : Codec} (hv : ∀ vs : List Int, (v = .ints vs ∨ ∃ ms, v = .bits ms vs) → ∀ i ∈ vs, InI32 i)
    (h : chosenCodec v.ty env.asDbl env.longEnv v.words none (v.cells env) = .ok e) :
    (reload env.asDbl v.ty.toInt e).Sane := by
  obtain ⟨h1, h2, h3⟩ := reload_vt env.asDbl v.ty.toInt e
  obtain ⟨_, g2, _, _⟩ := reload_spec env.asDbl v.ty.toInt e
  have hint : ∀ vs : List Int, (v = .ints vs ∨ ∃ ms, v = .bits ms vs) → (reload env.asDbl v.ty.toInt e).Sane := by
    intro vs hvs
    have hr := hv vs hvs
    have hch : chosenCodec v.ty env.asDbl env.longEnv 1 none (vs.map (fun i => [intWord env.asDbl i])) = .ok e ∧
        (v.ty = .integer ∨ v.ty = .bitfield) := by
      rcases hvs with rfl | ⟨ms, rfl⟩
      · exact ⟨h, Or.inl rfl⟩
      · exact ⟨h, Or.inr rfl⟩
    obtain ⟨st, _⟩ := chosen_int hch.2 (fun i hi => by have := hr i hi; unfold InI32 at this; constructor <;> omega) hch.1
    have hmin : ∃ i, InI32 i ∧ e.min = ofInt i := by
      by_cases hall : ∀ d ∈ vs.map ofInt, feq d (ofInt 2147483647) = true
      · exact ⟨2147483647, by decide, (st.none hall).1⟩
      · have : ∃ d ∈ vs.map ofInt, feq d (ofInt 2147483647) = false := by
          by_contra hc
          apply hall
          intro d hd
          by_contra hf
          exact hc ⟨d, hd, by simpa using hf⟩
        obtain ⟨hm, _⟩ := st.minmem this
        simp only [List.mem_map] at hm
        obtain ⟨i, hi, he⟩ := hm
        exact ⟨i, hr i hi, he.symm⟩
    obtain ⟨i, hi, he⟩ := hmin
    exact Codec.sane_int _ i 2147483647 hi (by decide) (by rw [g2, he]) (by rw [h2, st.missing]) h3
  have hdbl : (v.ty.toInt ≠ 1 ∧ v.ty.toInt ≠ 4) → (reload env.asDbl v.ty.toInt e).Sane := by
    intro hne
    refine Codec.sane_dbl _ ?_ h3
    rw [h1]
    unfold vtOf
    rw [if_neg]
    simp [hne.1, hne.2]
  cases v with
  | ints vs => exact hint vs (Or.inl rfl)
  | bits ms vs => exact hint vs (Or.inr ⟨ms, rfl⟩)
  | reals vs => exact hdbl (by simp [Vals.ty, ColType.toInt])
  | doubles vs => exact hdbl (by simp [Vals.ty, ColType.toInt])
  | strings w vs => exact hdbl (by simp [Vals.ty, ColType.toInt])

/-- **C29**, for files of the encoder: overwrite the data section of an encoded frame with arbitrary bytes.  The file is
still read as one frame, and decoding any columns of it into targets that are wide enough gives values or reports an
error, unless a row marker beyond the number of columns is followed by a smaller one. -/
theorem C29_overwritten (env : Env) (hmd5 : env.Md5Ok) (T : UTable) (hT : T.Ok env)
    (hint : ∀ c ∈ T.cols, ∀ vs : List Int, (c.vals = .ints vs ∨ ∃ ms, c.vals = .bits ms vs) → ∀ i ∈ vs, InI32 i)
    (bytes : List Byte) (henc : T.encode env .same = .ok bytes) (hsz : bytes.length ≤ 2147483647) :
    ∃ t, readPlain env bytes = ([[t]], none) ∧ t.info.cols.length = T.cols.length ∧
      ∀ bytes', SameHeaders [t] bytes bytes' → readPlain env bytes' = ([[t]], none) ∧
        ∀ req : List (Str × Target),
          (∀ c ∈ T.cols, ∀ nm tg, (nm, tg) ∈ req → (nm = c.name ∨ nm = simpleName c.name) → c.vals.words ≤ tg.elem) →
          MarkersOk T.cols.length (rowMarkers t.sizes T.rows (t.bytesIn bytes')) →
          decodeFrame bytes' [t] req ≠ .error .ub := by
  obtain ⟨t, ht, hh⟩ := plain_table env hmd5 T hT bytes henc hsz
  obtain ⟨⟨r, hcar, hi, _, hpos⟩, _⟩ := hh.shows
  have hnc : t.info.cols.length = T.cols.length := by rw [hi]; exact hcar.ncols
  refine ⟨t, ht, hnc, ?_⟩
  have hsized : SizedFrames [[t]] := by
    intro x hx
    simp only [List.flatten_cons, List.flatten_nil, List.append_nil, List.mem_singleton] at hx
    subst hx
    rw [hi, hcar.ok.2]; omega
  intro bytes' hb
  have hr' := C29_reads env bytes bytes' [[t]] ht hsized (by simpa using hb)
  refine ⟨hr', ?_⟩
  intro req hreq hm
  have hcols : ∀ k ∈ t.info.cols, ∃ c ∈ T.cols, k.name = c.name ∧ 1 ≤ k.codec.width ∧ k.codec.width ≤ c.vals.words ∧ k.codec.Sane := by
    intro k hk
    obtain ⟨p, hp⟩ := List.mem_iff_getElem?.mp hk
    have hpl : p < T.cols.length := by rw [← hnc]; exact (List.getElem?_eq_some_iff.mp hp).1
    have hc : T.cols[p]? = some T.cols[p] := List.getElem?_eq_getElem hpl
    rw [hi] at hp
    obtain ⟨a1, _, _, _, a5, a6⟩ := hcar.col p _ k hc hp
    obtain ⟨e, e1, e2⟩ := hcar.codec p _ k hc hp
    refine ⟨T.cols[p], List.getElem_mem hpl, a1, a5, a6, ?_⟩
    rw [e2]
    exact sane_stored (hint _ (List.getElem_mem hpl)) e1
  apply C29_safe env bytes' [[t]] hr' hsized t (by simp)
  · intro k hk
    obtain ⟨c, _, _, _, _, h⟩ := hcols k hk
    exact h
  · intro k hk nm tg hmem hor
    obtain ⟨c, hc, h1, h2, h3, _⟩ := hcols k hk
    rw [h1] at hor
    have := hreq c hc nm tg hmem hor
    omega
  · rw [hnc, show t.info.nrows = T.rows by rw [hi, hcar.nrows]]; exact hm

/-- The last `n` bytes of an encoded table replaced, then column "z" decoded. -/
def overwrite (T : UTable) (tail : List Byte) : Except Err (List Cell) :=
  match T.encode sampleEnv .same with
  | .error e => .error e
  | .ok bytes =>
    match readPlain sampleEnv (bytes.take (bytes.length - tail.length) ++ tail) with
    | ([fr], none) =>
      match decodeCol (bytes.take (bytes.length - tail.length) ++ tail) fr (lit "z") ⟨T.rows, 1, fun _ => [0xff]⟩ with
      | .error e => .error e
      | .ok m => .ok ((List.range T.rows).map m)
    | _ => .error .decodeError

/-- The data section of `sampleTable2` is six bytes: two rows of a marker and one byte. -/
example : okIs (overwrite sampleTable2 [0, 0, 0, 0, 0, 1]) [[1], [2]] = true := by decide +kernel
/-- Other bytes give other values, or an error: both outcomes of `C29_overwritten` occur. -/
example : okIs (overwrite sampleTable2 [0, 0, 7, 0, 1, 9]) [[8], [8]] = true := by decide +kernel
example : okIs (overwrite sampleTable2 [0, 0, 7, 9, 9, 9]) [[8], [8]] = true := by decide +kernel
example : errIs (overwrite { rows := 2, props := [], cols := [⟨lit "z", .strings 1 [lit "p", lit "q"]⟩] } [0, 0, 9, 0, 0, 1])
    .assertFailed = true := by decide +kernel
example : MarkersOk 1 (rowMarkers [1] 2 [0, 0, 7, 9, 9, 9]) := by
  have : rowMarkers [1] 2 [0, 0, 7, 9, 9, 9] = [0, 2313] := by decide
  rw [this]
  intro i a b h1 h2 h3
  match i with
  | 0 => simp at h1; omega
  | i + 1 => simp at h2

/-- **C29 fails** for a row marker beyond the number of columns followed by a smaller one: the decoder accesses its
column arrays out of bounds. -/
theorem C29_violated : errIs (overwrite sampleTable2 [0, 2, 0, 0, 0, 0]) .ub = true := by decide +kernel

end Verif
