import Verif.ReaderRef

/-
Files made of frames: concatenation and truncation.
-/

namespace Verif

/-- The converse of `parseHeader_ok`. -/
theorem parseHeader_of (md5 : List Byte → Str) (asDbl : Bool) (h : HeaderInfo) (o : Order)
    (bo basic var r : List Byte) (digest : Str) (hbo : bo.length = 4) (hba : basic.length = 48) (ho : o = orderOf bo)
    (hb : ∃ rest, readBasic o basic = .ok ((digest, (var.length : Int)), rest)) (hd : digest = md5 var)
    (hv : ∃ rest, readVar o asDbl var = .ok (h, rest)) :
    parseHeader md5 asDbl (magic ++ (bo ++ (basic ++ (var ++ r)))) = .ok (some (h, o, r)) := by
  obtain ⟨rest1, hb⟩ := hb
  obtain ⟨rest2, hv⟩ := hv
  unfold parseHeader
  rw [if_neg (by simp [magic_length]), if_neg (by simp [magic_length]),
    List.take_left' magic_length, if_neg (by simp), List.drop_left' magic_length]
  unfold loadAfterMagic
  rw [if_neg (by simp [hbo]), List.take_left' hbo, List.drop_left' hbo, ← ho]
  unfold loadHeader
  rw [if_neg (by simp [hba]), List.take_left' hba, List.drop_left' hba, hb]
  simp only
  rw [if_neg (by omega), Int.toNat_natCast, if_neg (by simp), List.take_left, List.drop_left, if_neg (by simp [hd]), hv]

theorem parseHeader_append (md5 : List Byte → Str) (asDbl : Bool) (s x : List Byte) (h : HeaderInfo) (o : Order)
    (r : List Byte) (hp : parseHeader md5 asDbl s = .ok (some (h, o, r))) :
    parseHeader md5 asDbl (s ++ x) = .ok (some (h, o, r ++ x)) := by
  obtain ⟨bo, basic, var, digest, e, h1, h2, h3, h4, h5, h6⟩ := parseHeader_ok md5 asDbl s h o r hp
  rw [e]
  simp only [List.append_assoc]
  exact parseHeader_of md5 asDbl h o bo basic var (r ++ x) digest h1 h2 h3 h4 h5 h6

/-- The header takes the bytes before the rest. -/
theorem parseHeader_rest (md5 : List Byte → Str) (asDbl : Bool) (s : List Byte) (h : HeaderInfo) (o : Order)
    (r : List Byte) (hp : parseHeader md5 asDbl s = .ok (some (h, o, r))) :
    57 + r.length ≤ s.length ∧ s.drop (s.length - r.length) = r := by
  obtain ⟨bo, basic, var, digest, e, h1, h2, _⟩ := parseHeader_ok md5 asDbl s h o r hp
  have hl : s.length = 57 + var.length + r.length := by rw [e]; simp [magic_length, h1, h2]; omega
  refine ⟨by omega, ?_⟩
  rw [show s.length - r.length = 57 + var.length by omega]
  rw [e, show magic ++ (bo ++ (basic ++ (var ++ r))) = (magic ++ (bo ++ (basic ++ var))) ++ r by simp]
  exact List.drop_left' (by simp [magic_length, h1, h2]; omega)

/-- Reading a proper prefix of a header: the end for an empty prefix, otherwise the "incomplete" error. -/
theorem parseHeader_take (md5 : List Byte → Str) (asDbl : Bool) (s : List Byte) (h : HeaderInfo) (o : Order)
    (r : List Byte) (hp : parseHeader md5 asDbl s = .ok (some (h, o, r))) (k : Nat) (hk : 0 < k)
    (hkl : k < s.length - r.length) : parseHeader md5 asDbl (s.take k) = .error .incomplete := by
  obtain ⟨bo, basic, var, digest, e, h1, h2, h3, ⟨rest1, h4⟩, h5, h6⟩ := parseHeader_ok md5 asDbl s h o r hp
  have hl : s.length = 57 + var.length + r.length := by rw [e]; simp [magic_length, h1, h2]; omega
  have hlen : (s.take k).length = k := by simp; omega
  unfold parseHeader
  rw [hlen, if_neg (by omega)]
  by_cases hk5 : k < 5
  · rw [if_pos hk5]
  rw [if_neg hk5]
  have hm : (s.take k).take 5 = magic := by
    rw [List.take_take, show min 5 k = 5 by omega, e, List.take_left' magic_length]
  have hd1 : (s.take k).drop 5 = (bo ++ (basic ++ (var ++ r))).take (k - 5) := by
    rw [List.drop_take, e, List.drop_left' magic_length]
  rw [hm, if_neg (by simp), hd1]
  have hl1 : ((bo ++ (basic ++ (var ++ r))).take (k - 5)).length = k - 5 := by
    simp [h1, h2]; omega
  unfold loadAfterMagic
  rw [hl1]
  by_cases hk9 : k - 5 < 4
  · rw [if_pos hk9]
  rw [if_neg hk9]
  have hb : ((bo ++ (basic ++ (var ++ r))).take (k - 5)).take 4 = bo := by
    rw [List.take_take, show min 4 (k - 5) = 4 by omega, List.take_left' h1]
  have hd2 : ((bo ++ (basic ++ (var ++ r))).take (k - 5)).drop 4 = (basic ++ (var ++ r)).take (k - 9) := by
    rw [List.drop_take, List.drop_left' h1]; congr 1
  rw [hb, hd2, ← h3]
  have hl2 : ((basic ++ (var ++ r)).take (k - 9)).length = k - 9 := by simp [h2]; omega
  unfold loadHeader
  rw [hl2]
  by_cases hk57 : k - 9 < 48
  · rw [if_pos hk57]
  rw [if_neg hk57]
  have hba : ((basic ++ (var ++ r)).take (k - 9)).take 48 = basic := by
    rw [List.take_take, show min 48 (k - 9) = 48 by omega, List.take_left' h2]
  have hd3 : ((basic ++ (var ++ r)).take (k - 9)).drop 48 = (var ++ r).take (k - 57) := by
    rw [List.drop_take, List.drop_left' h2]; congr 1
  rw [hba, hd3, h4]
  simp only
  rw [if_neg (by omega), if_pos (by simp; omega)]

/-- A byte string that is one frame: an acceptable header followed by exactly the data it announces. -/
structure RawFrame where
  bytes : List Byte
  info : HeaderInfo
  order : Order
  data : List Byte

/-- Proof device: the bytes of a frame are a header and as much data as it says. -/
def RawFrame.Ok (env : Env) (r : RawFrame) : Prop :=
  parseHeader env.md5 env.asDbl r.bytes = .ok (some (r.info, r.order, r.data)) ∧
    toI64 r.info.dataSize = r.data.length

/-- The table of a frame stored at a position. -/
def RawFrame.tbl (r : RawFrame) (pos : Int) : Tbl :=
  ⟨pos, pos + (r.bytes.length - r.data.length : Nat), pos + r.bytes.length, r.info, r.order⟩

/-- Tables of consecutive frames. -/
def layout : Int → List RawFrame → List Tbl
  | _, [] => []
  | pos, r :: rs => r.tbl pos :: layout (pos + r.bytes.length) rs

/-- Bytes of consecutive frames. -/
def fileOf (rs : List RawFrame) : List Byte := rs.flatMap RawFrame.bytes

theorem layout_length (pos : Int) (rs : List RawFrame) : (layout pos rs).length = rs.length := by
  induction rs generalizing pos with
  | nil => rfl
  | cons r rs ih => simp [layout, ih]

theorem layout_append (pos : Int) (a b : List RawFrame) :
    layout pos (a ++ b) = layout pos a ++ layout (pos + (fileOf a).length) b := by
  induction a generalizing pos with
  | nil => simp [layout, fileOf]
  | cons r a ih =>
    simp only [List.cons_append, layout, ih, fileOf, List.flatMap_cons, List.length_append, List.cons.injEq, true_and]
    congr 2
    push_cast
    omega

theorem endPos_layout (pos : Int) (rs : List RawFrame) : endPos pos (layout pos rs) = pos + (fileOf rs).length := by
  induction rs generalizing pos with
  | nil => simp [layout, endPos, fileOf]
  | cons r rs ih =>
    simp only [layout, endPos_cons, fileOf, List.flatMap_cons, List.length_append]
    have := ih (pos + r.bytes.length)
    simp only [RawFrame.tbl, this, fileOf]
    push_cast; omega

theorem RawFrame.Ok.size {env : Env} {r : RawFrame} (h : r.Ok env) : 57 + r.data.length ≤ r.bytes.length :=
  (parseHeader_rest _ _ _ _ _ _ h.1).1

/-- Reading the table where a frame is stored. -/
theorem readTable_frame (env : Env) (f : File) (r : RawFrame) (hr : r.Ok env) (pos : Nat) (rest : List Byte)
    (hf : f.bytes.drop pos = r.bytes ++ rest) :
    readTable env f pos =
      if (pos : Int) + r.bytes.length > f.estimate ∧ f.estimate ≠ 0 then .error .incomplete
      else .ok (some (r.tbl pos)) := by
  have hs := hr.size
  unfold readTable
  rw [if_neg (by omega)]
  simp only [Int.toNat_natCast]
  rw [hf, parseHeader_append _ _ _ _ _ _ _ hr.1]
  simp only [List.length_append]
  have e1 : r.bytes.length + rest.length - (r.data.length + rest.length) = r.bytes.length - r.data.length := by omega
  rw [e1, hr.2]
  have e2 : (pos : Int) + ((r.bytes.length - r.data.length : Nat) : Int) + (r.data.length : Int) =
      pos + r.bytes.length := by omega
  rw [e2]
  split
  · rfl
  · rfl

theorem chain_layout (env : Env) (f : File) (rs : List RawFrame) (hrs : ∀ r ∈ rs, r.Ok env) (pos : Nat)
    (rest : List Byte) (hf : f.bytes.drop pos = fileOf rs ++ rest)
    (hest : f.estimate = 0 ∨ pos + (fileOf rs).length ≤ f.estimate) :
    Chain env f pos (layout pos rs) := by
  induction rs generalizing pos with
  | nil => trivial
  | cons r rs ih =>
    simp only [fileOf, List.flatMap_cons, List.append_assoc, List.length_append] at hf hest
    have h1 := readTable_frame env f r (hrs r (by simp)) pos _ hf
    rw [if_neg (by omega)] at h1
    refine ⟨h1, ?_⟩
    have h2 := ih (fun x hx => hrs x (by simp [hx])) (pos + r.bytes.length)
      (by rw [← List.drop_drop, hf, List.drop_left]; rfl)
      (by simp only [fileOf]; omega)
    simpa [RawFrame.tbl] using h2

/-- **Reading a concatenation of frames** gives these frames, in order, then the end. -/
theorem scan_fileOf (env : Env) (rs : List RawFrame) (hrs : ∀ r ∈ rs, r.Ok env) (est : Nat)
    (hest : est = 0 ∨ est = (fileOf rs).length) : Scan env ⟨fileOf rs, est⟩ (layout 0 rs) none := by
  refine ⟨?_, ?_⟩
  · have := chain_layout env ⟨fileOf rs, est⟩ rs hrs 0 [] (by simp) (by simp only; omega)
    simpa using this
  · rw [endPos_layout]
    unfold readTable
    rw [if_neg (by omega)]
    have : ((0 : Int) + (fileOf rs).length).toNat = (fileOf rs).length := by omega
    simp only [this, List.drop_length]
    simp [parseHeader]

/-- Reading at the cut of a truncated file. -/
theorem readTable_cut (env : Env) (f : File) (r : RawFrame) (hr : r.Ok env) (pos k : Nat) (hk : k < r.bytes.length)
    (hf : f.bytes.drop pos = r.bytes.take k) (hest : f.estimate = pos + k) :
    readTable env f pos = if k = 0 then .ok none else .error .incomplete := by
  have hs := hr.size
  unfold readTable
  rw [if_neg (by omega)]
  simp only [Int.toNat_natCast]
  rw [hf]
  by_cases h0 : k = 0
  · subst h0; simp [parseHeader]
  rw [if_neg h0]
  by_cases hh : k < r.bytes.length - r.data.length
  · rw [parseHeader_take _ _ _ _ _ _ hr.1 k (by omega) hh]
  · -- the header is complete, the data is not
    have hd := (parseHeader_rest _ _ _ _ _ _ hr.1).2
    have e : r.bytes.take k = r.bytes.take (r.bytes.length - r.data.length) ++ r.data.take (k - (r.bytes.length - r.data.length)) := by
      conv => lhs; rw [← List.take_append_drop (r.bytes.length - r.data.length) r.bytes, hd]
      rw [List.take_append]
      congr 1
      · rw [List.take_of_length_le (by simp; omega)]
      · congr 1; simp
    have hpp : parseHeader env.md5 env.asDbl (r.bytes.take k) =
        .ok (some (r.info, r.order, r.data.take (k - (r.bytes.length - r.data.length)))) := by
      obtain ⟨bo, basic, var, digest, eb, h1, h2, h3, h4, h5, h6⟩ := parseHeader_ok _ _ _ _ _ _ hr.1
      have hlen : r.bytes.length - r.data.length = 57 + var.length := by
        rw [eb]; simp [magic_length, h1, h2]; omega
      have hpre : r.bytes.take (r.bytes.length - r.data.length) = magic ++ (bo ++ (basic ++ var)) := by
        rw [hlen]
        conv => lhs; rw [eb, show magic ++ (bo ++ (basic ++ (var ++ r.data))) = (magic ++ (bo ++ (basic ++ var))) ++ r.data by simp]
        exact List.take_left' (by simp [magic_length, h1, h2]; omega)
      rw [e, hpre]
      simp only [List.append_assoc]
      exact parseHeader_of _ _ _ _ bo basic var _ digest h1 h2 h3 h4 h5 h6
    rw [hpp]
    simp only [hr.2]
    have e1 : (r.bytes.take k).length - (r.data.take (k - (r.bytes.length - r.data.length))).length =
        r.bytes.length - r.data.length := by
      simp; omega
    rw [e1, if_pos]
    rw [hest]
    constructor
    · push_cast; omega
    · omega

/-- **Truncation**: a file of known size cut after `k` bytes holds exactly the frames that end at or before
`k`; after them comes the end if the cut is at a frame boundary, else the "incomplete" error. -/
theorem scan_truncated (env : Env) (rs : List RawFrame) (hrs : ∀ r ∈ rs, r.Ok env) (k : Nat)
    (hk : k ≤ (fileOf rs).length) :
    ∃ j, j ≤ rs.length ∧ (fileOf (rs.take j)).length ≤ k ∧
      (j < rs.length → k < (fileOf (rs.take (j + 1))).length) ∧
      Scan env (File.known ((fileOf rs).take k)) (layout 0 (rs.take j))
        (if k = (fileOf (rs.take j)).length then none else some .incomplete) := by
  -- find the frame containing the cut
  have key : ∀ (rs : List RawFrame) (k : Nat), k ≤ (fileOf rs).length →
      ∃ j, j ≤ rs.length ∧ (fileOf (rs.take j)).length ≤ k ∧
        (j < rs.length → k < (fileOf (rs.take (j + 1))).length) := by
    intro rs
    induction rs with
    | nil => intro k hk; simp [fileOf] at hk; exact ⟨0, by simp, by simp [fileOf], by simp⟩
    | cons r rs ih =>
      intro k hk
      simp only [fileOf, List.flatMap_cons, List.length_append] at hk
      by_cases hc : k < r.bytes.length
      · exact ⟨0, by simp, by simp [fileOf], by simp [fileOf]; omega⟩
      · obtain ⟨j, a, b, c⟩ := ih (k - r.bytes.length) (by simp only [fileOf]; omega)
        refine ⟨j + 1, by simp; omega, ?_, ?_⟩
        · simp only [List.take_succ_cons, fileOf, List.flatMap_cons, List.length_append] at b ⊢; omega
        · intro hj
          have := c (by simpa using hj)
          simp only [List.take_succ_cons, fileOf, List.flatMap_cons, List.length_append] at this ⊢
          omega
  obtain ⟨j, h1, h2, h3⟩ := key rs k hk
  refine ⟨j, h1, h2, h3, ?_⟩
  have hsplit : fileOf rs = fileOf (rs.take j) ++ fileOf (rs.drop j) := by
    simp only [fileOf]; rw [← List.flatMap_append, List.take_append_drop]
  have hbytes : (fileOf rs).take k = fileOf (rs.take j) ++ (fileOf (rs.drop j)).take (k - (fileOf (rs.take j)).length) := by
    rw [hsplit, List.take_append, List.take_of_length_le h2]
  generalize hp : (fileOf (rs.take j)).length = p at *
  have hklen : ((fileOf rs).take k).length = k := by simp; omega
  refine ⟨?_, ?_⟩
  · have := chain_layout env (File.known ((fileOf rs).take k)) (rs.take j)
      (fun r hr => hrs r (List.mem_of_mem_take hr)) 0 ((fileOf (rs.drop j)).take (k - p))
      (by simpa [File.known] using hbytes) (Or.inr (by simp only [File.known, hklen, hp]; omega))
    simpa using this
  · rw [endPos_layout, hp]
    rw [show (0 : Int) + (p : Int) = ((p : Nat) : Int) by omega]
    have hdrop : ((fileOf rs).take k).drop p = (fileOf (rs.drop j)).take (k - p) := by
      rw [hbytes, List.drop_left' hp]
    by_cases hj : j < rs.length
    · have hd : rs.drop j = rs[j] :: rs.drop (j + 1) := List.drop_eq_getElem_cons hj
      have hlt := h3 hj
      rw [List.take_succ, List.getElem?_eq_getElem hj] at hlt
      simp only [Option.toList_some, fileOf, List.flatMap_append, List.length_append, List.flatMap_cons,
        List.flatMap_nil, List.append_nil] at hlt
      have hp' : (List.flatMap RawFrame.bytes (rs.take j)).length = p := hp
      rw [hp'] at hlt
      have hcut : (fileOf (rs.drop j)).take (k - p) = rs[j].bytes.take (k - p) := by
        rw [hd]; simp only [fileOf, List.flatMap_cons]
        rw [List.take_append_of_le_length (by omega)]
      have := readTable_cut env (File.known ((fileOf rs).take k)) rs[j] (hrs _ (List.getElem_mem hj)) p (k - p)
        (by omega) (by simp only [File.known]; rw [hdrop, hcut]) (by simp only [File.known, hklen]; omega)
      rw [this]
      by_cases he : k = p
      · rw [if_pos (by omega), if_pos he]
      · rw [if_neg (by omega), if_neg he]
    · have hj' : j = rs.length := by omega
      have hall : k = p := by
        rw [hj', List.take_length] at hp
        omega
      rw [if_pos hall]
      unfold readTable
      rw [if_neg (by omega)]
      simp only [Int.toNat_natCast, File.known]
      have hnil : ((fileOf rs).take k).drop p = [] := by rw [hdrop]; simp [hall]
      simp only [hnil]
      simp [parseHeader]

end Verif
