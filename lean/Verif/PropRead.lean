import Verif.AnyFile
import Verif.PropFrames

/-
C11–C16, C18, C19, C36: reading files, aggregation, threads, shared handles.
-/

namespace Verif

/-! ### Vocabulary -/

/-- `Frame::offset`, Odb.cc l.497-499. -/
def frameOffset (fr : List Tbl) : Int := match fr.head? with | some t => t.start | none => 0

/-- `Frame::length`, Odb.cc l.501-503. -/
def frameLength (fr : List Tbl) : Int :=
  match fr.head?, fr.getLast? with
  | some a, some b => b.next - a.start
  | _, _ => 0

/-- Where a frame ends. -/
def frameEnd (fr : List Tbl) : Int := frameOffset fr + frameLength fr

/-- No frame announces a negative data size (no frame written by the library does). -/
def SizedFrames (fs : List (List Tbl)) : Prop := Sized fs.flatten

theorem frameEnd_single (t : Tbl) : frameEnd [t] = t.next := by simp [frameEnd, frameOffset, frameLength]

theorem flatten_singles {α : Type} (l : List α) : (l.map (fun t => [t])).flatten = l := by
  induction l with
  | nil => rfl
  | cons a l ih => simp [ih]

/-! ### C11 -/

theorem layout_ends (pos : Nat) (rs : List RawFrame) : ∀ (i : Nat) (t : Tbl), (layout pos rs)[i]? = some t →
    t.next = ((pos + (fileOf (rs.take (i + 1))).length : Nat) : Int) := by
  induction rs generalizing pos with
  | nil => intro i t h; simp [layout] at h
  | cons r rs ih =>
    intro i t h
    cases i with
    | zero =>
      simp only [layout, List.getElem?_cons_zero, Option.some.injEq] at h
      subst h
      simp [RawFrame.tbl, fileOf]
    | succ i =>
      simp only [layout, List.getElem?_cons_succ] at h
      have := ih (pos + r.bytes.length) i t (by push_cast; exact h)
      rw [this]
      simp [fileOf]
      omega

theorem fileOf_take_mono (rs : List RawFrame) {a b : Nat} (h : a ≤ b) :
    (fileOf (rs.take a)).length ≤ (fileOf (rs.take b)).length := by
  have : rs.take a <+: rs.take b := by
    have e : rs.take a = (rs.take b).take a := by rw [List.take_take, Nat.min_eq_left h]
    rw [e]; exact List.take_prefix _ _
  obtain ⟨c, hc⟩ := this
  rw [← hc]; simp [fileOf]

/-- **C11**: reading the first `k` bytes of any readable file gives the frames that end at or before `k`, and
then a normal end exactly if `k` is a frame boundary. -/
theorem C11_truncation (env : Env) (bytes : List Byte) (fs : List (List Tbl)) (h : readPlain env bytes = (fs, none))
    (hs : SizedFrames fs) (k : Nat) (hk : k ≤ bytes.length) :
    (readPlain env (bytes.take k)).1 = fs.filter (fun fr => decide (frameEnd fr ≤ k)) ∧
    ((readPlain env (bytes.take k)).2 = none ↔ k = 0 ∨ ∃ fr ∈ fs, frameEnd fr = k) ∧
    ((readPlain env (bytes.take k)).2 ≠ none → (readPlain env (bytes.take k)).2 = some .incomplete) := by
  obtain ⟨ts, hsc, rfl, hcp⟩ := readPlain_iff.mp h
  have hs' : Sized ts := by simpa [SizedFrames, flatten_singles] using hs
  obtain ⟨rs, hrs, rfl, rfl⟩ := scan_raw hsc hs'
  obtain ⟨j, hj, hj1, hj2, hscan⟩ := scan_truncated env rs hrs k hk
  have hlay : layout 0 rs = layout 0 (rs.take j) ++ layout (0 + (fileOf (rs.take j)).length) (rs.drop j) := by
    rw [← layout_append, List.take_append_drop]
  have hread : readPlain env ((fileOf rs).take k) = ((layout 0 (rs.take j)).map (fun t => [t]),
      if k = (fileOf (rs.take j)).length then none else some .incomplete) := by
    apply readFrames_plain hscan
    · intro t ht; apply hcp; rw [hlay]; simp [ht]
    · intro t _; left; decide
    · rw [layout_length]
      have h1 := fileOf_length_ge env (rs.take j) (fun r hr => hrs r (List.mem_of_mem_take hr))
      simp only [File.known, List.length_take] at h1 ⊢
      omega
  have hends : ∀ (i : Nat) (t : Tbl), (layout 0 rs)[i]? = some t → t.next = ((fileOf (rs.take (i + 1))).length : Int) := by
    intro i t ht
    have := layout_ends 0 rs i t (by simpa using ht)
    simpa using this
  have hpre : ∀ t ∈ layout 0 (rs.take j), t.next ≤ k := by
    intro t ht
    obtain ⟨i, hi⟩ := List.mem_iff_getElem?.mp ht
    have hil := (List.getElem?_eq_some_iff.mp hi).1
    have h1 : (layout 0 rs)[i]? = some t := by rw [hlay, List.getElem?_append_left hil]; exact hi
    rw [hends i t h1]
    rw [layout_length, List.length_take] at hil
    have := fileOf_take_mono rs (show i + 1 ≤ j by omega)
    omega
  have hpost : ∀ t ∈ layout (0 + (fileOf (rs.take j)).length) (rs.drop j), (k : Int) < t.next := by
    intro t ht
    obtain ⟨i, hi⟩ := List.mem_iff_getElem?.mp ht
    have hil := (List.getElem?_eq_some_iff.mp hi).1
    rw [layout_length, List.length_drop] at hil
    have hpl : (layout 0 (rs.take j)).length = j := by rw [layout_length, List.length_take]; omega
    have h1 : (layout 0 rs)[j + i]? = some t := by
      rw [hlay, List.getElem?_append_right (by omega), hpl, Nat.add_sub_cancel_left]; exact hi
    rw [hends _ t h1]
    have h2 := fileOf_take_mono rs (show j + 1 ≤ j + i + 1 by omega)
    have h3 := hj2 (by omega)
    omega
  rw [hread]
  refine ⟨?_, ?_, ?_⟩
  · rw [hlay, List.map_append, List.filter_append]
    rw [List.filter_eq_self.mpr, List.filter_eq_nil_iff.mpr, List.append_nil]
    · intro fr hfr
      simp only [List.mem_map] at hfr
      obtain ⟨t, ht, rfl⟩ := hfr
      have := hpost t ht
      rw [frameEnd_single]; simp; omega
    · intro fr hfr
      simp only [List.mem_map] at hfr
      obtain ⟨t, ht, rfl⟩ := hfr
      have := hpre t ht
      rw [frameEnd_single]; simpa using this
  · simp only
    constructor
    · intro hn
      have hkj : k = (fileOf (rs.take j)).length := by
        by_contra hc; rw [if_neg hc] at hn; cases hn
      cases j with
      | zero => left; simpa [fileOf] using hkj
      | succ j =>
        right
        have hlt : j < (layout 0 rs).length := by rw [layout_length]; omega
        refine ⟨[(layout 0 rs)[j]], List.mem_map_of_mem (List.getElem_mem hlt), ?_⟩
        rw [frameEnd_single, hends j _ (List.getElem?_eq_getElem hlt), hkj]
    · intro hc
      rw [if_pos]
      rcases hc with rfl | ⟨fr, hfr, he⟩
      · omega
      · simp only [List.mem_map] at hfr
        obtain ⟨t, ht, rfl⟩ := hfr
        rw [frameEnd_single] at he
        obtain ⟨i, hi⟩ := List.mem_iff_getElem?.mp ht
        have h1 := hends i t hi
        have hil := (List.getElem?_eq_some_iff.mp hi).1
        rw [layout_length] at hil
        have hkk : k = (fileOf (rs.take (i + 1))).length := by omega
        by_cases hij : i + 1 ≤ j
        · have := fileOf_take_mono rs hij; omega
        · have := fileOf_take_mono rs (show j + 1 ≤ i + 1 by omega)
          have := hj2 (by omega)
          omega
  · simp only
    intro hn
    split at hn
    · exact absurd rfl hn
    · rename_i hc; rw [if_neg hc]

/-! ### C12 -/

/-- **C12**: the reader gives the frames of a written file in order, each once, then the end. -/
theorem C12_enumerate (env : Env) (hmd5 : env.Md5Ok) (Ts : List UTable) (hT : ∀ T ∈ Ts, T.Ok env) :
    ∃ bss, writeTables env Ts = .ok bss ∧ ((∀ b ∈ bss, b.length ≤ 2147483647) →
      ∃ fs, readPlain env bss.flatten = (fs, none) ∧ fs.length = Ts.length ∧ SizedFrames fs ∧
        ∀ (i : Nat) (fr : List Tbl) (b : List Byte), fs[i]? = some fr → bss[i]? = some b →
          encodedData (File.known bss.flatten) fr = .ok b ∧ frameOffset fr = ((bss.take i).flatten.length : Int) ∧
          frameLength fr = b.length) := by
  obtain ⟨bss, h1, h2, h3⟩ := file_scan env hmd5 Ts hT
  refine ⟨bss, h1, ?_⟩
  intro hsz
  obtain ⟨rs, r1, r2, hs, hl, hm⟩ := h3 hsz
  have hfile : bss.flatten = fileOf rs := by rw [← r1]; simp [fileOf, List.flatMap]
  have hget : ∀ (i : Nat) (r : RawFrame), rs[i]? = some r →
      (layout 0 rs)[i]? = some (r.tbl ((fileOf (rs.take i)).length : Nat)) ∧
      ∃ rest', (File.known bss.flatten).bytes.drop (fileOf (rs.take i)).length = r.bytes ++ rest' := by
    intro i r hr
    have := layout_split (File.known bss.flatten) env rs r2 0 [] (by simp [File.known, hfile]) i r hr
    simpa using this
  refine ⟨(layout 0 rs).map (fun t => [t]), ?_, ?_, ?_, ?_⟩
  · apply readFrames_plain hs _ _ _ hl
    · intro t ht
      obtain ⟨T, _, h⟩ := hm.mem_left t ht
      exact h.copy
    · intro t _; left; decide
  · rw [List.length_map, layout_length, ← h2, ← r1, List.length_map]
  · rw [SizedFrames, flatten_singles]
    intro t ht
    obtain ⟨r, hr, hi, _⟩ := layout_mem _ _ _ ht
    rw [hi, (r2 r hr).2]; omega
  · intro i fr b hfr hb
    rw [← r1, List.getElem?_map] at hb
    cases hr : rs[i]? with
    | none => rw [hr] at hb; simp at hb
    | some r =>
      rw [hr] at hb
      simp only [Option.map_some, Option.some.injEq] at hb
      subst hb
      obtain ⟨g1, rest', g2⟩ := hget i r hr
      rw [List.getElem?_map, g1] at hfr
      simp only [Option.map_some, Option.some.injEq] at hfr
      subst hfr
      have hrok := r2 r (List.mem_of_getElem? hr)
      have := (stored_table env (File.known bss.flatten) r hrok _ rest' g2).2
      refine ⟨?_, ?_, ?_⟩
      · simp only [encodedData, this]; simp
      · simp only [frameOffset, List.head?_cons, RawFrame.tbl]
        rw [← r1, ← List.map_take]; simp [fileOf, List.flatMap]
      · simp [frameLength, RawFrame.tbl]

/-- Reading the concatenation of two readable files is reading the first and then the second, whose frames
are moved by the size of the first. -/
theorem C12_concatenation (env : Env) (a b : List Byte) (fs gs : List (List Tbl)) (ha : readPlain env a = (fs, none))
    (hb : readPlain env b = (gs, none)) :
    readPlain env (a ++ b) = (fs ++ gs.map (List.map (Tbl.shift a.length)), none) := by
  obtain ⟨ts, h1, rfl, h3⟩ := readPlain_iff.mp ha
  obtain ⟨us, k1, rfl, k3⟩ := readPlain_iff.mp hb
  rw [readPlain_iff]
  refine ⟨ts ++ us.map (Tbl.shift a.length), h1.concat k1, ?_, ?_⟩
  · simp [Function.comp_def]
  · intro t ht
    rcases List.mem_append.mp ht with ht | ht
    · exact h3 t ht
    · simp only [List.mem_map] at ht
      obtain ⟨u, hu, rfl⟩ := ht
      exact u.copy_shift _ (k3 u hu)

theorem readRange_known (bs : List Byte) (p n : Int) : readRange (File.known bs) p n =
    if n < 0 then .error .lengthError else if p < 0 then .error .ioError
    else if (bs.length : Int) < p + n then .error .ub else .ok ((bs.drop p.toNat).take n.toNat) := rfl

theorem readRange_shift (a b : List Byte) (p n : Int) (hp : 0 ≤ p) :
    readRange (File.known (a ++ b)) (p + a.length) n = readRange (File.known b) p n := by
  rw [readRange_known, readRange_known]
  have e : (p + a.length).toNat = a.length + p.toNat := by omega
  rw [e, List.length_append]
  rw [← List.drop_drop, List.drop_left]
  rw [if_neg (show ¬ p + (a.length : Int) < 0 by omega), if_neg (show ¬ p < 0 by omega)]
  push_cast
  by_cases h : (b.length : Int) < p + n
  · rw [if_pos (show (a.length : Int) + b.length < p + a.length + n by omega), if_pos h]
  · rw [if_neg (show ¬ (a.length : Int) + b.length < p + a.length + n by omega), if_neg h]

theorem readRange_left (a b : List Byte) (p n : Int) (hp : 0 ≤ p) (h : p + n ≤ a.length) :
    readRange (File.known (a ++ b)) p n = readRange (File.known a) p n := by
  rw [readRange_known, readRange_known, List.length_append]
  by_cases hn : n < 0
  · rw [if_pos hn, if_pos hn]
  rw [if_neg hn, if_neg hn, if_neg (show ¬ p < 0 by omega), if_neg (show ¬ p < 0 by omega), if_neg (by push_cast; omega),
    if_neg (by omega), List.drop_append_of_le_length (by omega), List.take_append_of_le_length]
  rw [List.length_drop]; omega

/-- Decoding depends on the file only through the data of the tables. -/
theorem Tbl.decode_data {f f' : File} {t t' : Tbl} (hi : t.info = t'.info) (ho : t.order = t'.order)
    (hd : t.data f = t'.data f') (L : Lookup) (req : List (Str × Target)) : t.decode f L req = t'.decode f' L req := by
  unfold Tbl.decode
  rw [hi, ho, hd]

theorem frameSeq_data {f f' : File} (g : Tbl → Tbl) (fr : List Tbl)
    (h : ∀ t ∈ fr, t.info = (g t).info ∧ t.order = (g t).order ∧ t.data f = (g t).data f') (off : Nat)
    (req : List (Str × Target)) :
    frameSeq f (fr.map (fun t => (t, Lookup.empty))) off req =
      frameSeq f' ((fr.map g).map (fun t => (t, Lookup.empty))) off req := by
  induction fr generalizing off req with
  | nil => rfl
  | cons t fr ih =>
    obtain ⟨h1, h2, h3⟩ := h t (by simp)
    simp only [List.map_cons, frameSeq]
    rw [h1]
    split
    · simp
    · rw [Tbl.decode_data h1 h2 h3]
      split
      · simp
      · rw [ih (fun x hx => h x (by simp [hx]))]

theorem decodeFrame_data {a b : List Byte} (g : Tbl → Tbl) (fr : List Tbl)
    (h : ∀ t ∈ fr, t.info = (g t).info ∧ t.order = (g t).order ∧ t.data (File.known a) = (g t).data (File.known b))
    (req : List (Str × Target)) : decodeFrame a fr req = decodeFrame b (fr.map g) req := by
  have hs := frameSeq_data g fr h 0 req
  unfold decodeFrame
  match fr, h, hs with
  | [], _, _ => simp [frameDecode, frameSeq]
  | [t], h, _ =>
    obtain ⟨h1, h2, h3⟩ := h t (by simp)
    simp only [List.map_cons, List.map_nil, frameDecode]
    rw [Tbl.decode_data h1 h2 h3]
  | _ :: _ :: _, _, hs =>
    simp only [List.map_cons] at hs
    simp only [List.map_cons, frameDecode, hs]

theorem Chain.mem_read {env : Env} {f : File} {pos : Int} {ts : List Tbl} (h : Chain env f pos ts) (t : Tbl) (ht : t ∈ ts) :
    ∃ p, readTable env f p = .ok (some t) := by
  induction ts generalizing pos with
  | nil => simp at ht
  | cons u ts ih =>
    rcases List.mem_cons.mp ht with rfl | ht
    · exact ⟨pos, h.1⟩
    · exact ih h.2 ht

/-- And the frames found in the concatenation decode to what they decode to in the two files. -/
theorem C12_concatenation_values (env : Env) (a b : List Byte) (fs gs : List (List Tbl))
    (ha : readPlain env a = (fs, none)) (hb : readPlain env b = (gs, none)) (req : List (Str × Target)) :
    (∀ fr ∈ fs, decodeFrame (a ++ b) fr req = decodeFrame a fr req) ∧
    ∀ fr ∈ gs, decodeFrame (a ++ b) (fr.map (Tbl.shift a.length)) req = decodeFrame b fr req := by
  obtain ⟨ts, h1, rfl, h3⟩ := readPlain_iff.mp ha
  obtain ⟨us, k1, rfl, k3⟩ := readPlain_iff.mp hb
  have key : ∀ (bytes : List Byte) (vs : List Tbl), Scan env (File.known bytes) vs none → ∀ t ∈ vs,
      0 ≤ t.dataPos ∧ t.dataPos + toI64 t.info.dataSize ≤ bytes.length := by
    intro bytes vs hv t ht
    obtain ⟨p, hp⟩ := hv.1.mem_read t ht
    have hle := readTable_next_le hp
    obtain ⟨q, hi, o, rest, _, _, hr⟩ := readTable_some_iff.mp hp
    have hst := readTable_start hp
    have e1 : t.next = t.dataPos + toI64 t.info.dataSize := by rw [hr]
    have e2 : 0 ≤ t.dataPos := by rw [hr]; simp only; omega
    have e3 : (File.known bytes).estimate = bytes.length := rfl
    have e4 : (File.known bytes).bytes = bytes := rfl
    rw [e3] at hle
    rw [e4] at hst
    exact ⟨e2, by omega⟩
  constructor
  · intro fr hfr
    simp only [List.mem_map] at hfr
    obtain ⟨t, ht, rfl⟩ := hfr
    obtain ⟨q1, q2⟩ := key a ts h1 t ht
    have := decodeFrame_data (a := a ++ b) (b := a) id [t] (by
      intro x hx
      simp only [List.mem_singleton] at hx
      subst hx
      exact ⟨rfl, rfl, readRange_left a b _ _ q1 q2⟩) req
    simpa using this
  · intro fr hfr
    simp only [List.mem_map] at hfr
    obtain ⟨t, ht, rfl⟩ := hfr
    obtain ⟨q1, q2⟩ := key b us k1 t ht
    exact (decodeFrame_data (a := b) (b := a ++ b) (Tbl.shift a.length) [t] (by
      intro x hx
      simp only [List.mem_singleton] at hx
      subst hx
      exact ⟨rfl, rfl, (readRange_shift a b _ _ q1).symm⟩) req).symm

end Verif
