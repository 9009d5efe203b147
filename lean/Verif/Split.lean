import Verif.SampleFile

/-
Cutting a file into chunks of whole tables: `SplitTool::getChunks`.

Models: src/odc/tools/SplitTool.cc l.66-104.
-/

namespace Verif

/-- The local variables of `getChunks`, SplitTool.cc l.69-76. -/
structure ChunkSt where
  r : List (Int × Int)
  off : Int
  len : Int
  size : Nat

/-- `size_t size(numberOfRows * numberOfColumns * sizeof(double))`, SplitTool.cc l.81-86 (64-bit arithmetic). -/
def Tbl.expanded64 (t : Tbl) : Nat := (t.info.nrows * t.info.cols.length * 8) % 18446744073709551616

/-- The body of the loop, SplitTool.cc l.78-97. -/
def chunkStep (max : Nat) (s : ChunkSt) (t : Tbl) : ChunkSt :=
  if (s.size + t.expanded64) % 18446744073709551616 > max then
    { s with r := s.r ++ [(s.off, s.len)], off := t.start, len := t.next - t.start }
  else
    { s with len := s.len + (t.next - t.start), size := (s.size + t.expanded64) % 18446744073709551616 }

/-- The loop over the tables of the file, SplitTool.cc l.72-78, from table number `pos` on.  `fuel` bounds
the number of rounds. -/
def chunkLoop (env : Env) (f : File) (max : Nat) : Nat → List Tbl → Int → ChunkSt → Except Err ChunkSt
  | 0, _, _, _ => .error .diverges
  | fuel + 1, ts, pos, s =>
    if pos = -1 then .ok s
    else
      match itGet ts pos with
      | .error e => .error e
      | .ok t =>
        match itIncr env f ts pos with
        | (_, _, some e) => .error e
        | (ts', pos', none) => chunkLoop env f max fuel ts' pos' (chunkStep max s t)

/-- After the loop, SplitTool.cc l.98-100. -/
def chunkEnd (s : ChunkSt) : List (Int × Int) :=
  match s.r.getLast? with
  | none => s.r ++ [(s.off, s.len)]
  | some c => if c.1 ≠ s.off then s.r ++ [(s.off, s.len)] else s.r

/-- `SplitTool::getChunks`, SplitTool.cc l.66-101: offsets and lengths of the chunks. -/
def getChunks (env : Env) (f : File) (max : Nat) : Except Err (List (Int × Int)) :=
  let fuel := f.bytes.length + 2
  match (match ensureTable env f [] 0 with
    | .error e => Except.error e
    | .ok (ts, true) => chunkLoop env f max fuel ts 0 ⟨[], 0, 0, 0⟩
    | .ok (ts, false) => chunkLoop env f max fuel ts (-1) ⟨[], 0, 0, 0⟩) with
  | .error e => .error e
  | .ok s => .ok (chunkEnd s)

/-! ### Specification -/

/-- What a `PartFileHandle(file, offset, length)` delivers. [Eckit::PartFileHandle; used in tools/SplitTool.cc] -/
def partOf (bytes : List Byte) (c : Int × Int) : List Byte := (bytes.drop c.1.toNat).take c.2.toNat

/-- The ranges follow each other from `pos` to `stop`. -/
def Contiguous : Int → Int → List (Int × Int) → Prop
  | pos, stop, [] => pos = stop
  | pos, stop, c :: cs => c.1 = pos ∧ 0 ≤ c.2 ∧ Contiguous (pos + c.2) stop cs

/-- Size of the values of some tables when every value takes eight bytes. -/
def expanded (ts : List Tbl) : Nat := (ts.map (fun t => t.info.nrows * t.info.cols.length * 8)).sum

/-- The first table is over the limit and the others together are not. -/
def FirstOver (max : Nat) (ts : List Tbl) : Prop :=
  ∃ t rest, ts = t :: rest ∧ max < expanded [t] ∧ expanded rest ≤ max

/-! ### The loop is a fold over the tables -/

theorem chunkLoop_scan {env : Env} {f : File} {ts : List Tbl} (h : Scan env f ts none) (max fuel m p : Nat)
    (hm : m ≤ ts.length) (hp : p < m) (hf : ts.length < fuel + p) (s : ChunkSt) :
    chunkLoop env f max fuel (ts.take m) p s = .ok ((ts.drop p).foldl (chunkStep max) s) := by
  induction fuel generalizing m p s with
  | zero => omega
  | succ fuel ih =>
    unfold chunkLoop
    rw [if_neg (by omega), itGet_take ts m p hp hm]
    simp only
    rw [itIncr_scan h m p hm hp]
    rw [List.drop_eq_getElem_cons (show p < ts.length by omega), List.foldl_cons]
    by_cases hl : p + 1 < ts.length
    · rw [if_pos hl]
      dsimp only
      have := ih (m := Max.max m (p + 2)) (p := p + 1) (by omega) (by omega) (by omega) (chunkStep max s ts[p])
      push_cast at this
      exact this
    · rw [if_neg hl]
      dsimp only
      have he : ts.drop (p + 1) = [] := List.drop_eq_nil_of_le (by omega)
      rw [he]
      match fuel, hf with
      | 0, hf => omega
      | k + 1, _ => simp [chunkLoop]

theorem getChunks_scan {env : Env} {f : File} {ts : List Tbl} (h : Scan env f ts none) (hf : ts.length ≤ f.bytes.length)
    (max : Nat) : getChunks env f max = .ok (chunkEnd (ts.foldl (chunkStep max) ⟨[], 0, 0, 0⟩)) := by
  unfold getChunks
  have he := ensure_scan h 0 (by omega) 0 (by omega)
  simp only [List.take_zero] at he
  rw [show ((0 : Nat) : Int) = 0 from rfl] at he
  rw [he]
  by_cases hl : 0 < ts.length
  · rw [if_pos hl]
    dsimp only
    have := chunkLoop_scan h max (f.bytes.length + 2) (Max.max 0 (0 + 1)) 0 (by omega) (by omega) (by omega) ⟨[], 0, 0, 0⟩
    simp only [List.drop_zero] at this
    rw [show ((0 : Nat) : Int) = 0 from rfl] at this
    rw [this]
  · have : ts = [] := List.length_eq_zero_iff.mp (by omega)
    subst this
    rw [if_neg hl]
    simp [chunkLoop]

/-! ### Invariant -/

theorem expanded_append (a b : List Tbl) : expanded (a ++ b) = expanded a + expanded b := by simp [expanded]

theorem Contiguous.snoc {pos mid : Int} {cs : List (Int × Int)} (h : Contiguous pos mid cs) (c : Int × Int) (h1 : c.1 = mid)
    (h2 : 0 ≤ c.2) : Contiguous pos (mid + c.2) (cs ++ [c]) := by
  induction cs generalizing pos with
  | nil => simp only [Contiguous] at h; simp only [List.nil_append, Contiguous]; exact ⟨by omega, h2, by omega⟩
  | cons d cs ih => simp only [Contiguous] at h; exact ⟨h.1, h.2.1, ih h.2.2⟩

theorem Match.snoc {α β : Type} {R : α → β → Prop} {as : List α} {bs : List β} (h : Match R as bs) {a : α} {b : β}
    (hr : R a b) : Match R (as ++ [a]) (bs ++ [b]) := by
  induction h with
  | nil => exact .cons hr .nil
  | cons h1 _ ih => exact .cons h1 ih

/-- What holds after the frames `done` of the file `rs`. -/
structure ChunkInv (max : Nat) (done : List RawFrame) (s : ChunkSt) (gs : List (List RawFrame)) (cur : List RawFrame) : Prop where
  split : done = gs.flatten ++ cur
  off : s.off = ((fileOf gs.flatten).length : Int)
  len : s.len = ((fileOf cur).length : Int)
  tile : Contiguous 0 s.off s.r
  groups : Match (fun c g => c.2 = ((fileOf g).length : Int)) s.r gs
  small : ∀ g ∈ gs, expanded (layout 0 g.tail) ≤ max
  curLe : expanded (layout 0 cur.tail) ≤ s.size
  fits : s.size ≤ max
  le : s.size ≤ expanded (layout 0 done)
  curNe : done ≠ [] → cur ≠ []
  start : s.r = [] → gs = [] ∧ s.size = expanded (layout 0 cur)
  ends : (s.r = [(0, 0)] ∧ s.off = 0 ∧ gs = [[]] ∧ ∃ r rest, done = r :: rest ∧ max < expanded (layout 0 [r]) ∧
      s.size = expanded (layout 0 rest) ∧ expanded (layout 0 rest) ≤ max) ∨
    ((¬ ∃ r rest, done = r :: rest ∧ max < expanded (layout 0 [r]) ∧ expanded (layout 0 rest) ≤ max) ∧
      ∀ c, s.r.getLast? = some c → c.1 < s.off)

theorem expanded_layout (pos : Int) (rs : List RawFrame) :
    expanded (layout pos rs) = (rs.map (fun r => r.info.nrows * r.info.cols.length * 8)).sum := by
  unfold expanded
  induction rs generalizing pos with
  | nil => rfl
  | cons r rs ih => simp only [layout, List.map_cons, List.sum_cons, RawFrame.tbl]; rw [← ih]

theorem fileOf_append (a b : List RawFrame) : fileOf (a ++ b) = fileOf a ++ fileOf b := by simp [fileOf]

theorem expanded_snoc (a b : List RawFrame) :
    expanded (layout 0 (a ++ b)) = expanded (layout 0 a) + expanded (layout 0 b) := by
  rw [expanded_layout, expanded_layout, expanded_layout]; simp

theorem expanded_cons (a : RawFrame) (b : List RawFrame) :
    expanded (layout 0 (a :: b)) = expanded (layout 0 [a]) + expanded (layout 0 b) := by
  rw [← expanded_snoc]; rfl

theorem chunkStep_inv {env : Env} {max : Nat} {done : List RawFrame} {s : ChunkSt} {gs : List (List RawFrame)} {cur : List RawFrame}
    (h : ChunkInv max done s gs cur) (hd : ∀ r ∈ done, r.Ok env) (r : RawFrame) (hr : r.Ok env)
    (hbig : expanded (layout 0 (done ++ [r])) < 18446744073709551616) :
    ∃ gs' cur', ChunkInv max (done ++ [r]) (chunkStep max s (r.tbl ((fileOf done).length : Int))) gs' cur' := by
  have hsz := hr.size
  have hle := h.le
  rw [expanded_snoc] at hbig
  have hex : (r.tbl ((fileOf done).length : Int)).expanded64 = expanded (layout 0 [r]) := by
    have e : expanded (layout 0 [r]) = r.info.nrows * r.info.cols.length * 8 := by rw [expanded_layout]; simp
    unfold Tbl.expanded64
    simp only [RawFrame.tbl]
    rw [← e, Nat.mod_eq_of_lt (by omega)]
  have hnext : (r.tbl ((fileOf done).length : Int)).next - (r.tbl ((fileOf done).length : Int)).start = (r.bytes.length : Int) := by
    simp only [RawFrame.tbl]; omega
  have hstart : (r.tbl ((fileOf done).length : Int)).start = ((fileOf done).length : Int) := rfl
  have hone : (fileOf [r]).length = r.bytes.length := by simp [fileOf]
  unfold chunkStep
  rw [hex, hnext, hstart, Nat.mod_eq_of_lt (by omega)]
  by_cases ho : s.size + expanded (layout 0 [r]) > max
  · rw [if_pos ho]
    have hlen : ((fileOf done).length : Int) = s.off + s.len := by
      rw [h.off, h.len, h.split, fileOf_append, List.length_append]; push_cast; rfl
    refine ⟨gs ++ [cur], [r], ?_⟩
    refine { split := ?_, off := ?_, len := ?_, tile := ?_, groups := ?_, small := ?_, curLe := ?_, fits := h.fits, le := ?_, start := ?_, ends := ?_, curNe := by simp }
    · simp [h.split]
    · simp [h.split]
    · simp [hone]
    · dsimp only; rw [hlen]; exact h.tile.snoc (s.off, s.len) rfl (by have := h.len; dsimp only; omega)
    · exact h.groups.snoc h.len
    · intro g hg
      rw [List.mem_append, List.mem_singleton] at hg
      rcases hg with hg | rfl
      · exact h.small g hg
      · have := h.curLe; have := h.fits; omega
    · simp [layout, expanded]
    · rw [expanded_snoc]; dsimp only; omega
    · intro e; simp at e
    · dsimp only
      rcases h.ends with ⟨e1, e2, e3, r0, rest, e4, e5, e6, e7⟩ | ⟨e1, e2⟩
      · right
        refine ⟨?_, ?_⟩
        · rintro ⟨r1, rest1, q1, q2, q3⟩
          rw [e4, List.cons_append, List.cons.injEq] at q1
          rw [← q1.2, expanded_snoc] at q3
          omega
        · intro c hc
          rw [List.getLast?_append] at hc
          simp only [List.getLast?_singleton, Option.some_or, Option.some.injEq] at hc
          subst hc
          have h0 := hd r0 (by rw [e4]; simp)
          have := h0.size
          rw [e2, e4, fileOf, List.flatMap_cons, List.length_append]
          dsimp only
          push_cast
          omega
      · by_cases hdn : done = []
        · left
          have hg := h.split
          rw [hdn] at hg
          have hg1 : gs.flatten = [] := by
            have := congrArg List.length hg
            simp only [List.length_nil, List.length_append] at this
            exact List.length_eq_zero_iff.mp (by omega)
          have hc1 : cur = [] := by rw [hg1] at hg; simpa using hg.symm
          have hoff : s.off = 0 := by rw [h.off, hg1]; simp [fileOf]
          have hr0 : s.r = [] := by
            cases hq : s.r.getLast? with
            | none => exact List.getLast?_eq_none_iff.mp hq
            | some c =>
              have h1 := e2 c hq
              exfalso
              have ht := h.tile
              have hall : ∀ (l : List (Int × Int)) (p q : Int), Contiguous p q l → ∀ c ∈ l, p ≤ c.1 := by
                intro l
                induction l with
                | nil => intro _ _ _ c hc; simp at hc
                | cons d l ih =>
                  intro p q hpq c hc
                  simp only [Contiguous] at hpq
                  rcases List.mem_cons.mp hc with rfl | hc
                  · omega
                  · have := ih _ _ hpq.2.2 c hc; omega
              have := hall _ _ _ ht c (List.mem_of_getLast? hq)
              omega
          obtain ⟨g0, s0⟩ := h.start hr0
          have hlen0 : s.len = 0 := by rw [h.len, hc1]; simp [fileOf]
          have hsz0 : s.size = 0 := by rw [s0, hc1]; simp [layout, expanded]
          refine ⟨by rw [hr0, hoff, hlen0]; rfl, by rw [hdn]; simp [fileOf], by rw [g0, hc1]; rfl, r, [], by rw [hdn]; rfl, by omega, ?_, ?_⟩
          · rw [hsz0]; simp [layout, expanded]
          · simp [layout, expanded]
        · right
          obtain ⟨r0, rest, hdn⟩ := List.exists_cons_of_ne_nil hdn
          refine ⟨?_, ?_⟩
          · rintro ⟨r1, rest1, q1, q2, q3⟩
            apply e1
            rw [hdn, List.cons_append, List.cons.injEq] at q1
            refine ⟨r0, rest, hdn, by rw [q1.1]; exact q2, ?_⟩
            rw [← q1.2, expanded_snoc] at q3
            omega
          · intro c hc
            rw [List.getLast?_append] at hc
            simp only [List.getLast?_singleton, Option.some_or, Option.some.injEq] at hc
            subst hc
            have h0 := (hd r0 (by rw [hdn]; simp)).size
            have hcur : cur ≠ [] := by
              intro hcur
              exact h.curNe (by rw [hdn]; simp) hcur
            obtain ⟨x, xs, hx⟩ := List.exists_cons_of_ne_nil hcur
            have hxo := (hd x (by rw [h.split, hx]; simp)).size
            rw [hlen, h.len, hx, fileOf, List.flatMap_cons, List.length_append]
            push_cast
            omega
  · rw [if_neg ho]
    refine ⟨gs, cur ++ [r], ?_⟩
    refine { split := ?_, off := h.off, len := ?_, tile := h.tile, groups := h.groups, small := h.small, curLe := ?_, fits := ?_, le := ?_, start := ?_, ends := ?_, curNe := by simp }
    · simp [h.split]
    · dsimp only; rw [fileOf_append, List.length_append, hone, h.len]; push_cast; rfl
    · dsimp only
      cases hc : cur with
      | nil => simp [layout, expanded]
      | cons x xs =>
        have := h.curLe
        rw [hc, List.tail_cons] at this
        rw [List.cons_append, List.tail_cons, expanded_snoc]
        omega
    · dsimp only; omega
    · rw [expanded_snoc]; dsimp only; omega
    · intro e
      obtain ⟨g0, s0⟩ := h.start e
      exact ⟨g0, by dsimp only; rw [expanded_snoc, s0]⟩
    · dsimp only
      rcases h.ends with ⟨e1, e2, e3, r0, rest, e4, e5, e6, e7⟩ | ⟨e1, e2⟩
      · left
        refine ⟨e1, e2, e3, r0, rest ++ [r], by rw [e4]; rfl, e5, ?_, ?_⟩
        · rw [expanded_snoc, e6]
        · rw [expanded_snoc]; omega
      · right
        refine ⟨?_, e2⟩
        rintro ⟨r1, rest1, q1, q2, q3⟩
        by_cases hdn : done = []
        · rw [hdn, List.nil_append, List.cons.injEq] at q1
          rw [← q1.1] at q2
          omega
        · obtain ⟨r0, rest, hdn⟩ := List.exists_cons_of_ne_nil hdn
          apply e1
          rw [hdn, List.cons_append, List.cons.injEq] at q1
          refine ⟨r0, rest, hdn, by rw [q1.1]; exact q2, ?_⟩
          rw [← q1.2, expanded_snoc] at q3
          omega

theorem chunks_inv {env : Env} {max : Nat} (todo : List RawFrame) : ∀ {done : List RawFrame} {s : ChunkSt} {gs : List (List RawFrame)}
    {cur : List RawFrame} (_ : ChunkInv max done s gs cur) (_ : ∀ r ∈ done ++ todo, r.Ok env)
    (_ : expanded (layout 0 (done ++ todo)) < 18446744073709551616),
    ∃ gs' cur', ChunkInv max (done ++ todo) ((layout ((fileOf done).length : Int) todo).foldl (chunkStep max) s) gs' cur' := by
  induction todo with
  | nil => intro done s gs cur h _ _; exact ⟨gs, cur, by simpa [layout] using h⟩
  | cons r todo ih =>
    intro done s gs cur h hok hbig
    have e : done ++ r :: todo = (done ++ [r]) ++ todo := by simp
    rw [e] at hok hbig ⊢
    obtain ⟨gs1, cur1, h1⟩ := chunkStep_inv h (fun x hx => hok x (by simp [hx])) r (hok r (by simp)) (by
      rw [expanded_snoc] at hbig; omega)
    obtain ⟨gs2, cur2, h2⟩ := ih h1 hok hbig
    refine ⟨gs2, cur2, ?_⟩
    simp only [layout, List.foldl_cons]
    rw [fileOf_append, List.length_append] at h2
    have e2 : (fileOf [r]).length = r.bytes.length := by simp [fileOf]
    rw [e2] at h2
    push_cast at h2
    exact h2

/-! ### The theorem -/

theorem fileOf_groups (gs : List (List RawFrame)) : (gs.map fileOf).flatten = fileOf gs.flatten := by
  induction gs with
  | nil => rfl
  | cons g gs ih => rw [List.map_cons, List.flatten_cons, List.flatten_cons, fileOf_append, ih]

theorem parts_of (pre : List Byte) : ∀ (cs : List (Int × Int)) (gs : List (List RawFrame)) (stop : Int),
    Contiguous pre.length stop cs → Match (fun c g => c.2 = ((fileOf g).length : Int)) cs gs →
    cs.map (partOf (pre ++ fileOf gs.flatten)) = gs.map fileOf := by
  intro cs gs stop hc hm
  induction hm generalizing pre with
  | nil => rfl
  | cons h1 h2 ih =>
    rename_i c g cs gs
    simp only [Contiguous] at hc
    rw [List.map_cons, List.map_cons, List.flatten_cons, fileOf_append]
    have hfst : partOf (pre ++ (fileOf g ++ fileOf gs.flatten)) c = fileOf g := by
      unfold partOf
      rw [hc.1, h1, Int.toNat_natCast, Int.toNat_natCast, List.drop_left, List.take_left]
    have := ih (pre ++ fileOf g) (by rw [List.length_append]; push_cast; rw [← h1]; exact hc.2.2)
    rw [List.append_assoc] at this
    rw [hfst, this]

theorem layout_infos (pos : Int) (rs : List RawFrame) : ∀ t ∈ layout pos rs, ∃ r ∈ rs, t.info = r.info := by
  induction rs generalizing pos with
  | nil => intro t ht; simp [layout] at ht
  | cons r rs ih =>
    intro t ht
    simp only [layout, List.mem_cons] at ht
    rcases ht with rfl | ht
    · exact ⟨r, by simp, rfl⟩
    · obtain ⟨r', h1, h2⟩ := ih _ t ht; exact ⟨r', by simp [h1], h2⟩

theorem layout_has (pos : Int) (rs : List RawFrame) : ∀ r ∈ rs, ∃ t ∈ layout pos rs, t.info = r.info := by
  induction rs generalizing pos with
  | nil => intro t ht; simp at ht
  | cons r rs ih =>
    intro t ht
    rw [List.mem_cons] at ht
    rcases ht with rfl | ht
    · exact ⟨t.tbl pos, by simp [layout], rfl⟩
    · obtain ⟨r', h1, h2⟩ := ih (pos + r.bytes.length) t ht; exact ⟨r', by simp [layout, h1], h2⟩

theorem copy_info {a b : Tbl} (hi : a.info = b.info) (h : a.copy = .ok a) : b.copy = .ok b := by
  unfold Tbl.copy at h ⊢
  rw [← hi]
  split at h
  · simp at h
  · rename_i cs hcs
    have := cloneCols_ok hcs
    subst this
    dsimp only
    rw [hi]

theorem layout_tail (pos : Int) (rs : List RawFrame) : ∃ pos', (layout pos rs).tail = layout pos' rs.tail := by
  cases rs with
  | nil => exact ⟨pos, rfl⟩
  | cons r rs => exact ⟨_, rfl⟩

theorem firstOver_iff (max : Nat) (rs : List RawFrame) : FirstOver max (layout 0 rs) ↔
    ∃ r rest, rs = r :: rest ∧ max < expanded (layout 0 [r]) ∧ expanded (layout 0 rest) ≤ max := by
  constructor
  · rintro ⟨t, rest, h1, h2, h3⟩
    cases rs with
    | nil => simp [layout] at h1
    | cons r rs =>
      simp only [layout, List.cons.injEq] at h1
      obtain ⟨rfl, rfl⟩ := h1
      refine ⟨r, rs, rfl, h2, ?_⟩
      rw [expanded_layout] at h3 ⊢
      exact h3
  · rintro ⟨r, rest, rfl, h2, h3⟩
    refine ⟨_, _, rfl, h2, ?_⟩
    rw [expanded_layout] at h3 ⊢
    exact h3

/-- **C31**: unless the first table alone is over the limit and the other tables together are not, the chunks follow
each other from the start of the file to its end, hold the whole file, and each is by itself a file whose tables,
but the first, are within the limit.  In the exceptional case the result is one empty chunk and all rows are lost. -/
theorem C31_chunks (env : Env) (bytes : List Byte) (fs : List (List Tbl)) (h : readPlain env bytes = (fs, none))
    (hs : SizedFrames fs) (max : Nat) (hbig : expanded fs.flatten < 18446744073709551616) :
    ∃ cs, getChunks env (File.known bytes) max = .ok cs ∧
      (FirstOver max fs.flatten → cs = [(0, 0)]) ∧
      (¬ FirstOver max fs.flatten →
        Contiguous 0 bytes.length cs ∧ (cs.map (partOf bytes)).flatten = bytes ∧
        ∀ c ∈ cs, ∃ g, readPlain env (partOf bytes c) = (g, none) ∧ expanded g.flatten.tail ≤ max) := by
  obtain ⟨ts, hsc, rfl, hcp⟩ := readPlain_iff.mp h
  rw [flatten_singles] at hbig ⊢
  have hs' : Sized ts := by simpa [SizedFrames, flatten_singles] using hs
  refine ⟨_, getChunks_scan hsc hsc.few max, ?_⟩
  obtain ⟨rs, hrs, rfl, rfl⟩ := scan_raw hsc hs'
  have hinit : ChunkInv max [] ⟨[], 0, 0, 0⟩ [] [] :=
    { split := rfl, off := rfl, len := rfl, tile := rfl, groups := .nil, small := by simp, curLe := by simp [layout, expanded],
      fits := Nat.zero_le _, le := Nat.zero_le _, curNe := by simp, start := fun _ => ⟨rfl, by simp [layout, expanded]⟩,
      ends := Or.inr ⟨by rintro ⟨r, rest, h, _⟩; simp at h, by simp⟩ }
  obtain ⟨gs, cur, hi⟩ := chunks_inv (env := env) rs hinit (by simpa using hrs) (by simpa using hbig)
  simp only [List.nil_append] at hi
  rw [show ((fileOf []).length : Int) = 0 from rfl] at hi
  rw [firstOver_iff]
  generalize hst : (layout 0 rs).foldl (chunkStep max) ⟨[], 0, 0, 0⟩ = s at hi ⊢
  constructor
  · intro hfo
    rcases hi.ends with ⟨e1, e2, _⟩ | ⟨e1, _⟩
    · unfold chunkEnd; rw [e1, e2]; simp
    · exact absurd hfo e1
  · intro hfo
    rcases hi.ends with ⟨_, _, _, r, rest, q1, q2, q3, q4⟩ | ⟨_, e2⟩
    · exact absurd ⟨r, rest, q1, q2, q4⟩ hfo
    · have hend : chunkEnd s = s.r ++ [(s.off, s.len)] := by
        unfold chunkEnd
        split
        · rfl
        · rename_i c hc
          have := e2 c hc
          rw [if_pos (by omega)]
      rw [hend]
      have hall : (gs ++ [cur]).flatten = rs := by rw [hi.split]; simp
      have hlen : ((fileOf rs).length : Int) = s.off + s.len := by
        rw [hi.off, hi.len, hi.split, fileOf_append, List.length_append]; push_cast; rfl
      have hcont : Contiguous 0 (fileOf rs).length (s.r ++ [(s.off, s.len)]) := by
        rw [hlen]; exact hi.tile.snoc (s.off, s.len) rfl (by have := hi.len; dsimp only; omega)
      have hgr : Match (fun (c : Int × Int) g => c.2 = ((fileOf g).length : Int)) (s.r ++ [(s.off, s.len)]) (gs ++ [cur]) :=
        hi.groups.snoc hi.len
      have hparts := parts_of [] _ _ ((fileOf rs).length : Int) (by simpa using hcont) hgr
      rw [List.nil_append, hall] at hparts
      refine ⟨hcont, ?_, ?_⟩
      · rw [hparts, fileOf_groups, hall]
      · intro c hc
        have hmem : partOf (fileOf rs) c ∈ (gs ++ [cur]).map fileOf := by rw [← hparts]; exact List.mem_map_of_mem hc
        obtain ⟨g, hg, he⟩ := List.mem_map.mp hmem
        have hsub : ∀ r ∈ g, r ∈ rs := by
          intro r hr
          rw [← hall]
          exact List.mem_flatten.mpr ⟨g, hg, hr⟩
        refine ⟨(layout 0 g).map (fun t => [t]), ?_, ?_⟩
        · rw [← he]
          refine readPlain_iff.mpr ⟨layout 0 g, scan_fileOf env g (fun r hr => hrs r (hsub r hr)) _ (Or.inr rfl), rfl, ?_⟩
          intro t ht
          obtain ⟨r, hr, e⟩ := layout_infos 0 g t ht
          obtain ⟨t0, ht0, e0⟩ := layout_has 0 rs r (hsub r hr)
          exact copy_info (e0.trans e.symm) (hcp t0 ht0)
        · rw [flatten_singles]
          obtain ⟨p, hp⟩ := layout_tail 0 g
          rw [hp, expanded_layout, ← expanded_layout 0]
          rcases List.mem_append.mp hg with hg | hg
          · exact hi.small g hg
          · rw [List.mem_singleton] at hg
            subst hg
            exact Nat.le_trans hi.curLe hi.fits

/-- The length of the file of some tables, and its chunks. -/
def chunksOf (Ts : List UTable) (max : Nat) : Option (Nat × List (Int × Int)) :=
  match writeTables sampleEnv Ts with
  | .ok bss =>
    match getChunks sampleEnv (File.known bss.flatten) max with
    | .ok cs => some (bss.flatten.length, cs)
    | .error _ => none
  | .error _ => none

-- The expanded sizes of the tables of the sample file are 120, 120 and 16 bytes.
example : chunksOf sampleTables 10 = some (1250, [(0, 0), (0, 528), (528, 528), (1056, 194)]) := by decide +kernel
example : chunksOf sampleTables 100 = some (1250, [(0, 0), (0, 528), (528, 722)]) := by decide +kernel
example : chunksOf sampleTables 200 = some (1250, [(0, 528), (528, 722)]) := by decide +kernel
example : chunksOf sampleTables 300 = some (1250, [(0, 1250)]) := by decide +kernel
example : onSample (fun b => decide (expanded (readPlain sampleEnv b).1.flatten = 256)) = true := by decide +kernel

/-- **C31**, violated: a first table over the limit followed by a small one gives one empty chunk, so that none of
the 722 bytes of the file is processed. -/
theorem C31_violated : chunksOf [sampleTable, sampleTable2] 100 = some (722, [(0, 0)]) := by decide +kernel

end Verif
