import Verif.PropOldC
import Verif.Split
import Verif.PropTile

/-
What the old C interface says about a file: numbers of rows and blocks.
-/

namespace Verif

theorem oldCountLoop_scan {env : Env} {f : File} {ts : List Tbl} (h : Scan env f ts none) (fuel p : Nat) (n : Nat)
    (hp : p < ts.length) (hf : ts.length - p < fuel) (hn : n + rowSum (ts.drop p) ≤ 9007199254740992) :
    oldCountLoop env f fuel (ts.take (p + 1)) p (ofInt n) = .ok (ofInt ((n + rowSum (ts.drop p) : Nat) : Int)) := by
  induction fuel generalizing p n with
  | zero => omega
  | succ fuel ih =>
    have hd : ts.drop p = ts[p] :: ts.drop (p + 1) := List.drop_eq_getElem_cons hp
    rw [hd, rowSum_cons] at hn ⊢
    simp only [oldCountLoop]
    rw [if_neg (by omega), itGet_take ts (p + 1) p (by omega) (by omega), itIncr_scan h (p + 1) p (by omega) (by omega)]
    dsimp only
    rw [fadd_ofInt (n : Int) (ts[p].info.nrows : Int) (by unfold Small; omega) (by unfold Small; omega)]
    rw [show (n : Int) + (ts[p].info.nrows : Int) = ((n + ts[p].info.nrows : Nat) : Int) by push_cast; rfl]
    by_cases h1 : p + 1 < ts.length
    · rw [if_pos h1]
      dsimp only
      have := ih (p + 1) (n + ts[p].info.nrows) h1 (by omega) (by omega)
      rw [show max (p + 1) (p + 2) = p + 1 + 1 by omega, show (p : Int) + 1 = ((p + 1 : Nat) : Int) by omega, this, Nat.add_assoc]
    · rw [if_neg h1]
      dsimp only
      have : ts.drop (p + 1) = [] := List.drop_eq_nil_of_le (by omega)
      rw [this]
      cases fuel with
      | zero => omega
      | succ fuel =>
        simp only [oldCountLoop, if_true]
        rfl

/-- **C55**, `odb_count`: for every file that can be read to the end, the number of its rows, exactly as long as it is at most 2^53. -/
theorem C55_count (env : Env) (bytes : List Byte) (fs : List (List Tbl)) (h : readPlain env bytes = (fs, none))
    (hbig : (fs.map (fun fr => (fr.map (fun t => t.info.nrows)).sum)).sum ≤ 9007199254740992) :
    odbCount env bytes = .ok (ofInt (((fs.map (fun fr => (fr.map (fun t => t.info.nrows)).sum)).sum : Nat) : Int)) := by
  obtain ⟨ts, h1, rfl, _⟩ := readPlain_iff.mp h
  have hsum : ((ts.map (fun t => [t])).map (fun fr => (fr.map (fun t => t.info.nrows)).sum)).sum = rowSum ts := by
    unfold rowSum
    rw [List.map_map]
    congr 1
  rw [hsum] at hbig ⊢
  have hl := h1.few
  have h2 := ensure_scan h1 0 (by omega) 0 (by omega)
  simp only [List.take_zero] at h2
  rw [show ((0 : Nat) : Int) = 0 by rfl] at h2
  unfold odbCount
  rw [h2]
  by_cases h0 : 0 < ts.length
  · rw [if_pos h0]
    dsimp only
    have := oldCountLoop_scan h1 (bytes.length + 1) 0 0 h0 (by simp only [File.known] at hl; omega) (by simpa using hbig)
    rw [show max 0 (0 + 1) = 0 + 1 by omega]
    rw [show ((0 : Nat) : Int) = 0 by rfl] at this
    rw [this]
    simp
  · rw [if_neg h0]
    have : ts = [] := List.length_eq_zero_iff.mp (by omega)
    subst this
    simp [oldCountLoop, rowSum]

theorem oldBlocksLoop_scan {env : Env} {f : File} {ts : List Tbl} (h : Scan env f ts none) (fuel p : Nat)
    (hp : p < ts.length) (hf : ts.length - p < fuel) :
    oldBlocksLoop env f fuel (ts.take (p + 1)) p = .ok ((ts.drop p).map (fun t => (t.start, t.next - t.start))) := by
  induction fuel generalizing p with
  | zero => omega
  | succ fuel ih =>
    have hd : ts.drop p = ts[p] :: ts.drop (p + 1) := List.drop_eq_getElem_cons hp
    rw [hd, List.map_cons]
    simp only [oldBlocksLoop]
    rw [if_neg (by omega), itGet_take ts (p + 1) p (by omega) (by omega), itIncr_scan h (p + 1) p (by omega) (by omega)]
    dsimp only
    by_cases h1 : p + 1 < ts.length
    · rw [if_pos h1]
      dsimp only
      have := ih (p + 1) h1 (by omega)
      rw [show max (p + 1) (p + 2) = p + 1 + 1 by omega, show (p : Int) + 1 = ((p + 1 : Nat) : Int) by omega, this]
    · rw [if_neg h1]
      dsimp only
      have : ts.drop (p + 1) = [] := List.drop_eq_nil_of_le (by omega)
      rw [this]
      cases fuel with
      | zero => omega
      | succ fuel =>
        simp only [oldBlocksLoop, if_true]
        rfl

theorem blocks_scan {env : Env} {bytes : List Byte} {ts : List Tbl} (h : Scan env (File.known bytes) ts none) :
    blocksOffsets env bytes = .ok (ts.map (fun t => (t.start, t.next - t.start))) := by
  have hl := h.few
  have h2 := ensure_scan h 0 (by omega) 0 (by omega)
  simp only [List.take_zero] at h2
  rw [show ((0 : Nat) : Int) = 0 by rfl] at h2
  unfold blocksOffsets
  rw [h2]
  by_cases h0 : 0 < ts.length
  · rw [if_pos h0]
    dsimp only
    have := oldBlocksLoop_scan h (bytes.length + 1) 0 h0 (by simp only [File.known] at hl; omega)
    rw [show max 0 (0 + 1) = 0 + 1 by omega]
    rw [show ((0 : Nat) : Int) = 0 by rfl] at this
    rw [this]
    simp
  · rw [if_neg h0]
    have : ts = [] := List.length_eq_zero_iff.mp (by omega)
    subst this
    simp [oldBlocksLoop]

/-- Specification: what `get_blocks_offsets` returns cuts the bytes from `pos` on into pieces without gaps. -/
def Cuts : Nat → List Byte → List (Int × Int) → List (List Byte) → Prop
  | _, rest, [], [] => rest = []
  | pos, rest, c :: cs, b :: bs => c = ((pos : Int), (b.length : Int)) ∧ 0 < b.length ∧ b = rest.take b.length ∧ Cuts (pos + b.length) (rest.drop b.length) cs bs
  | _, _, _, _ => False

theorem cuts_layout (env : Env) (rs : List RawFrame) (hrs : ∀ r ∈ rs, r.Ok env) (hpos : ∀ r ∈ rs, 0 < r.bytes.length) (pos : Nat) :
    Cuts pos (fileOf rs) ((layout pos rs).map (fun t => (t.start, t.next - t.start))) (rs.map RawFrame.bytes) := by
  induction rs generalizing pos with
  | nil => rfl
  | cons r rs ih =>
    simp only [layout, List.map_cons, Cuts]
    refine ⟨?_, hpos r (by simp), ?_, ?_⟩
    · simp [RawFrame.tbl]
    · rw [fileOf, List.flatMap_cons, List.take_left]
    · have := ih (fun x hx => hrs x (by simp [hx])) (fun x hx => hpos x (by simp [hx])) (pos + r.bytes.length)
      rw [fileOf, List.flatMap_cons, List.drop_left]
      rw [Nat.cast_add] at this
      exact this

/-- **C55**, `get_blocks_offsets`: for every file that can be read to the end, one block for each table; the blocks cut the file into pieces without gaps, and
each piece by itself is a file with that table. -/
theorem C55_blocks (env : Env) (bytes : List Byte) (fs : List (List Tbl)) (h : readPlain env bytes = (fs, none)) (hs : SizedFrames fs) :
    ∃ (l : List (Int × Int)) (bs : List (List Byte)), blocksOffsets env bytes = .ok l ∧ Cuts 0 bytes l bs ∧
      Match (fun (fr : List Tbl) (b : List Byte) => ∃ t t' : Tbl, fr = [t] ∧ readPlain env b = ([[t']], none) ∧ t'.info = t.info ∧ t'.order = t.order) fs bs := by
  obtain ⟨ts, hsc, rfl, hcp⟩ := readPlain_iff.mp h
  have hs' : Sized ts := by simpa [SizedFrames, flatten_singles] using hs
  obtain ⟨rs, hrs, rfl, rfl⟩ := scan_raw hsc hs'
  have hpos : ∀ r ∈ rs, 0 < r.bytes.length := by
    intro r hr
    have := (scan_fileOf env [r] (by simpa using hrs r hr) _ (Or.inr rfl)).few
    simp [layout, fileOf] at this
    omega
  refine ⟨_, rs.map RawFrame.bytes, blocks_scan hsc, cuts_layout env rs hrs hpos 0, ?_⟩
  refine Match.of_get _ _ (by simp [layout_length]) ?_
  intro i g b hg hb
  rw [List.getElem?_map] at hg hb
  obtain ⟨r, hr⟩ : ∃ r, rs[i]? = some r := by
    cases hx : rs[i]? with
    | none => rw [hx] at hb; simp at hb
    | some r => exact ⟨r, rfl⟩
  rw [hr] at hb
  simp only [Option.map_some, Option.some.injEq] at hb
  subst hb
  have hlay : ∀ (rs : List RawFrame) (pos : Int) (i : Nat) (r : RawFrame), rs[i]? = some r → ∃ q, (layout pos rs)[i]? = some (r.tbl q) := by
    intro rs
    induction rs with
    | nil => intro pos i r hr; simp at hr
    | cons a rs ih =>
      intro pos i r hr
      cases i with
      | zero => simp at hr; subst hr; exact ⟨pos, rfl⟩
      | succ i => simp at hr; simp only [layout, List.getElem?_cons_succ]; exact ih _ i r hr
  obtain ⟨q, hq⟩ := hlay rs 0 i r hr
  rw [hq] at hg
  simp only [Option.map_some, Option.some.injEq] at hg
  subst hg
  refine ⟨r.tbl q, r.tbl 0, rfl, ?_, rfl, rfl⟩
  rw [readPlain_iff]
  refine ⟨[r.tbl 0], ?_, rfl, ?_⟩
  · have := scan_fileOf env [r] (by simpa using hrs r (List.mem_of_getElem? hr)) _ (Or.inr rfl)
    simpa [layout, fileOf, File.known] using this
  · intro t ht
    simp only [List.mem_singleton] at ht
    subst ht
    exact copy_info (a := r.tbl q) rfl (hcp _ (List.mem_of_getElem? hq))

end Verif
