import Verif.Fill
import Verif.Split

/-
The index of a file: `Indexer::createIndex`.

Models: src/odc/Indexer.cc l.35-115.  The SQL engine (eckit) that evaluates "select seqno;" is not modelled: what it
yields on the bytes of a block is a parameter `sel`.
-/

namespace Verif

/-- The loop of `offsetsOfBlocks`, Indexer.cc l.38-45; `fuel` bounds the number of rounds. -/
def blocksLoop (env : Env) (f : File) : Nat → List Tbl → Int → List (Int × Int) → Except Err (List (Int × Int))
  | 0, _, _, _ => .error .diverges
  | fuel + 1, ts, pos, r =>
    if pos = -1 then .ok r
    else
      match itGet ts pos with
      | .error e => .error e
      | .ok t =>
        match itIncr env f ts pos with
        | (_, _, some e) => .error e
        | (ts', pos', none) => blocksLoop env f fuel ts' pos' (r ++ [(t.start, t.next - t.start)])

/-- `Indexer::offsetsOfBlocks`, Indexer.cc l.34-48. -/
def offsetsOfBlocks (env : Env) (f : File) : Except Err (List (Int × Int)) :=
  match ensureTable env f [] 0 with
  | .error e => .error e
  | .ok (ts, true) => blocksLoop env f (f.bytes.length + 2) ts 0 []
  | .ok (ts, false) => blocksLoop env f (f.bytes.length + 2) ts (-1) []

/-- `prevSeqno`, `nRows` (Indexer.cc l.83-84; an `int`, here without overflow) and the entries written for the block. -/
structure RunSt where
  prev : Int
  n : Nat
  out : List (Int × Nat)

/-- The body of the loop over the rows, Indexer.cc l.88-102. -/
def runStep (s : RunSt) (seqno : Int) : RunSt :=
  if seqno = s.prev then { s with n := s.n + 1 }
  else
    let s := if 0 < s.n then { s with out := s.out ++ [(s.prev, s.n)], n := 0 } else s
    { s with prev := seqno, n := s.n + 1 }

/-- After the loop, Indexer.cc l.104-111. -/
def runEnd (s : RunSt) : List (Int × Nat) := if 0 < s.n then s.out ++ [(s.prev, s.n)] else s.out

/-- The entries (seqno, number of rows) of one block, Indexer.cc l.83-111. -/
def blockRuns (seqnos : List Int) : List (Int × Nat) := runEnd (seqnos.foldl runStep ⟨-1, 0, []⟩)

/-- A row of the index, Indexer.cc l.64-68. -/
structure IdxEntry where
  start : Int
  len : Int
  seqno : Int
  n : Int
  deriving DecidableEq

/-- The entries of all blocks, Indexer.cc l.75-112. -/
def idxEntries (sel : List Byte → Except Err (List Int)) (bytes : List Byte) : List (Int × Int) → Except Err (List IdxEntry)
  | [] => .ok []
  | b :: bs =>
    match sel (partOf bytes b) with
    | .error e => .error e
    | .ok xs =>
      match idxEntries sel bytes bs with
      | .error e => .error e
      | .ok es => .ok ((blockRuns xs).map (fun r => ⟨b.1, b.2, r.1, r.2⟩) ++ es)

/-- The columns the indexer adds, Indexer.cc l.64-68. -/
def idxNames : List Str := [lit "block_begin", lit "block_length", lit "seqno", lit "n_rows"]

/-- The columns of the index, Indexer.cc l.64-68, 72 (`columns(md)` resets the codecs, WriterBufferingIterator.h l.74-80). -/
def idxCols (env : Env) : Except Err (List WCol) :=
  match resetCodec env .integer 1 with
  | .error e => .error e
  | .ok c => .ok (idxNames.map (fun nm => ⟨nm, .integer, [], some c⟩))

/-- The values assigned for one entry, Indexer.cc l.93-96: integers converted to double. -/
def IdxEntry.row (e : IdxEntry) : List Word := [ofInt e.start, ofInt e.len, ofInt e.seqno, ofInt e.n]

/-- Writing the entries to the index file, Indexer.cc l.70-73, 93-97, 105-109; `cap` is the size of the rows buffer. -/
def writeIndex (env : Env) (cap : Nat) (es : List IdxEntry) : Except Err (List (List Byte)) :=
  match idxCols env with
  | .error e => .error e
  | .ok cols =>
    match (Writer.withCols cap cols true).writeHeader with
    | .error e => .error e
    | .ok w =>
      match w.putRows env .same (es.map IdxEntry.row) with
      | .error e => .error e
      | .ok w =>
        match w.close env .same with
        | .error e => .error e
        | .ok w => .ok w.out

/-- `Indexer::createIndex`, Indexer.cc l.61-113: the frames of the index file.  (Rows are read and written in turn in the
code; an error while reading here leaves no index at all.) -/
def createIndex (env : Env) (sel : List Byte → Except Err (List Int)) (cap : Nat) (f : File) : Except Err (List (List Byte)) :=
  match offsetsOfBlocks env f with
  | .error e => .error e
  | .ok bs =>
    match idxEntries sel f.bytes bs with
    | .error e => .error e
    | .ok es => writeIndex env cap es

/-! ### Specification -/

/-- `rs` lists the runs of `xs`: written out they give `xs`, none is empty, neighbours differ. -/
structure Runs (xs : List Int) (rs : List (Int × Nat)) : Prop where
  whole : rs.flatMap (fun r => List.replicate r.2 r.1) = xs
  some' : ∀ r ∈ rs, 0 < r.2
  maximal : ∀ (i : Nat) (a b : Int × Nat), rs[i]? = some a → rs[i + 1]? = some b → a.1 ≠ b.1

/-- The index of the blocks `ts`, with the sequence numbers `seqs t` of their rows: for each block its entries. -/
inductive IndexOf (seqs : Tbl → List Int) : List Tbl → List IdxEntry → Prop
  | nil : IndexOf seqs [] []
  | cons {t ts rs es} : Runs (seqs t) rs → IndexOf seqs ts es →
      IndexOf seqs (t :: ts) (rs.map (fun r => ⟨t.start, t.next - t.start, r.1, r.2⟩) ++ es)

/-! ### Runs -/

theorem runs_fold (xs : List Int) (s : RunSt) (done : List Int)
    (h1 : s.out.flatMap (fun r => List.replicate r.2 r.1) ++ List.replicate s.n s.prev = done)
    (h2 : ∀ r ∈ s.out, 0 < r.2) (h3 : ∀ (i : Nat) (a b : Int × Nat), s.out[i]? = some a → s.out[i + 1]? = some b → a.1 ≠ b.1)
    (h4 : ∀ a, s.out.getLast? = some a → a.1 ≠ s.prev) (h5 : s.n = 0 → s.out = [] ∧ s.prev = -1) :
    Runs (done ++ xs) (runEnd (xs.foldl runStep s)) := by
  have snoc : ∀ (l : List (Int × Nat)) (c : Int × Nat),
      (∀ (i : Nat) (a b : Int × Nat), l[i]? = some a → l[i + 1]? = some b → a.1 ≠ b.1) → (∀ a, l.getLast? = some a → a.1 ≠ c.1) →
      ∀ (i : Nat) (a b : Int × Nat), (l ++ [c])[i]? = some a → (l ++ [c])[i + 1]? = some b → a.1 ≠ b.1 := by
    intro l c hl hc i a b ha hb
    have hb1 := (List.getElem?_eq_some_iff.mp hb).1
    simp only [List.length_append, List.length_singleton] at hb1
    rw [List.getElem?_append_left (by omega)] at ha
    by_cases hi : i + 1 < l.length
    · rw [List.getElem?_append_left hi] at hb
      exact hl i a b ha hb
    · have : i + 1 = l.length := by omega
      rw [List.getElem?_append_right (by omega), this] at hb
      simp at hb
      subst hb
      apply hc a
      rw [List.getLast?_eq_getElem?, ← ha]
      congr 1; omega
  induction xs generalizing s done with
  | nil =>
    simp only [List.foldl_nil, List.append_nil]
    unfold runEnd
    by_cases hn : 0 < s.n
    · rw [if_pos hn]
      refine ⟨?_, ?_, snoc _ _ h3 h4⟩
      · simp [← h1]
      · intro r hr
        simp only [List.mem_append, List.mem_singleton] at hr
        rcases hr with hr | rfl
        · exact h2 r hr
        · exact hn
    · rw [if_neg hn]
      obtain ⟨e, _⟩ := h5 (by omega)
      have hn0 : s.n = 0 := by omega
      rw [e, hn0] at h1
      rw [e]
      exact ⟨by simpa using h1, by simp, by simp⟩
  | cons x xs ih =>
    simp only [List.foldl_cons]
    rw [show done ++ x :: xs = (done ++ [x]) ++ xs by simp]
    by_cases hx : x = s.prev
    · have hst : runStep s x = { s with n := s.n + 1 } := by unfold runStep; rw [if_pos hx]
      rw [hst]
      refine ih _ _ ?_ h2 h3 h4 (by intro h; simp at h)
      dsimp only
      rw [List.replicate_succ', ← List.append_assoc, h1, hx]
    · by_cases hn : 0 < s.n
      · have hst : runStep s x = ⟨x, 1, s.out ++ [(s.prev, s.n)]⟩ := by unfold runStep; rw [if_neg hx, if_pos hn]
        rw [hst]
        refine ih _ _ ?_ ?_ (snoc _ _ h3 h4) ?_ (by intro h; simp at h)
        · simp [← h1]
        · intro r hr
          simp only [List.mem_append, List.mem_singleton] at hr
          rcases hr with hr | rfl
          · exact h2 r hr
          · exact hn
        · intro a ha
          simp at ha
          subst ha
          exact fun h => hx h.symm
      · have hn0 : s.n = 0 := by omega
        obtain ⟨e, _⟩ := h5 hn0
        rw [e, hn0] at h1
        have hst : runStep s x = ⟨x, 1, []⟩ := by unfold runStep; rw [if_neg hx, if_neg hn]; simp [e, hn0]
        rw [hst]
        exact ih _ _ (by rw [← h1]; simp) (by simp) (by simp) (by simp) (by simp)

theorem blockRuns_runs (xs : List Int) : Runs xs (blockRuns xs) := by
  have := runs_fold xs ⟨-1, 0, []⟩ [] (by simp) (by simp) (by simp) (by simp) (by simp)
  simpa [blockRuns] using this

/-- Runs are determined by the list. -/
theorem Runs.unique {xs : List Int} {a b : List (Int × Nat)} (ha : Runs xs a) (hb : Runs xs b) : a = b := by
  induction a generalizing xs b with
  | nil =>
    cases b with
    | nil => rfl
    | cons r b =>
      exfalso
      have h1 := ha.whole
      have h2 := hb.whole
      rw [← h1] at h2
      have := congrArg List.length h2
      have hr := hb.some' r (by simp)
      simp at this
      omega
  | cons p a ih =>
    cases b with
    | nil =>
      exfalso
      have h1 := ha.whole
      have h2 := hb.whole
      rw [← h2] at h1
      have := congrArg List.length h1
      have hr := ha.some' p (by simp)
      simp at this
      omega
    | cons q b =>
      have hp := ha.some' p (by simp)
      have hq := hb.some' q (by simp)
      have e : List.replicate p.2 p.1 ++ a.flatMap (fun r => List.replicate r.2 r.1) =
          List.replicate q.2 q.1 ++ b.flatMap (fun r => List.replicate r.2 r.1) := by
        have := ha.whole.trans hb.whole.symm
        simpa using this
      have h0 : p.1 = q.1 := by
        have := congrArg (fun l => l[0]?) e
        simpa [List.getElem?_append, hp, hq] using this
      -- after a run comes something else
      have next : ∀ (p : Int × Nat) (a : List (Int × Nat)) (xs : List Int), Runs xs (p :: a) →
          (a.flatMap (fun r => List.replicate r.2 r.1))[0]? ≠ some p.1 := by
        intro p a xs h
        cases a with
        | nil => simp
        | cons r a =>
          have hr := h.some' r (by simp)
          have := h.maximal 0 p r rfl rfl
          simp only [List.flatMap_cons]
          rw [List.getElem?_append_left (by simpa using hr), List.getElem?_replicate, if_pos hr]
          simp only [ne_eq, Option.some.injEq]
          exact fun h => this h.symm
      have hlen : p.2 = q.2 := by
        rcases Nat.lt_trichotomy p.2 q.2 with h | h | h
        · exfalso
          have := congrArg (fun l => l[p.2]?) e
          rw [List.getElem?_append_right (by simp), List.getElem?_append_left (by simpa using h)] at this
          simp only [List.length_replicate, Nat.sub_self] at this
          rw [List.getElem?_replicate, if_pos h] at this
          exact next p a xs ha (by rw [this, h0])
        · exact h
        · exfalso
          have := congrArg (fun l => l[q.2]?) e
          rw [List.getElem?_append_left (by simpa using h), List.getElem?_append_right (by simp)] at this
          simp only [List.length_replicate, Nat.sub_self] at this
          rw [List.getElem?_replicate, if_pos h] at this
          exact next q b xs hb (by rw [← this, h0])
      have hpq : p = q := Prod.ext h0 hlen
      subst hpq
      rw [List.append_cancel_left_eq] at e
      have tail : ∀ (a : List (Int × Nat)) (xs : List Int), Runs xs (p :: a) → Runs (a.flatMap (fun r => List.replicate r.2 r.1)) a := by
        intro a xs h
        exact ⟨rfl, fun r hr => h.some' r (by simp [hr]), fun i x y hx hy => h.maximal (i + 1) x y (by simpa using hx) (by simpa using hy)⟩
      rw [ih (tail a xs ha) (by rw [e]; exact tail b xs hb)]

/-! ### Blocks -/

theorem blocksLoop_scan {env : Env} {f : File} {ts : List Tbl} (h : Scan env f ts none) (fuel m p : Nat)
    (hm : m ≤ ts.length) (hp : p < m) (hf : ts.length < fuel + p) (r : List (Int × Int)) :
    blocksLoop env f fuel (ts.take m) p r = .ok (r ++ (ts.drop p).map (fun t => (t.start, t.next - t.start))) := by
  induction fuel generalizing m p r with
  | zero => omega
  | succ fuel ih =>
    unfold blocksLoop
    rw [if_neg (by omega), itGet_take ts m p hp hm]
    simp only
    rw [itIncr_scan h m p hm hp]
    rw [List.drop_eq_getElem_cons (show p < ts.length by omega), List.map_cons]
    by_cases hl : p + 1 < ts.length
    · rw [if_pos hl]
      dsimp only
      have := ih (m := Max.max m (p + 2)) (p := p + 1) (by omega) (by omega) (by omega) (r ++ [(ts[p].start, ts[p].next - ts[p].start)])
      push_cast at this
      rw [this]
      simp
    · rw [if_neg hl]
      dsimp only
      have he : ts.drop (p + 1) = [] := List.drop_eq_nil_of_le (by omega)
      rw [he]
      match fuel, hf with
      | 0, hf => omega
      | k + 1, _ => simp [blocksLoop]

theorem offsetsOfBlocks_scan {env : Env} {f : File} {ts : List Tbl} (h : Scan env f ts none) (hf : ts.length ≤ f.bytes.length) :
    offsetsOfBlocks env f = .ok (ts.map (fun t => (t.start, t.next - t.start))) := by
  unfold offsetsOfBlocks
  have he := ensure_scan h 0 (by omega) 0 (by omega)
  simp only [List.take_zero] at he
  rw [show ((0 : Nat) : Int) = 0 from rfl] at he
  rw [he]
  by_cases hl : 0 < ts.length
  · rw [if_pos hl]
    dsimp only
    have := blocksLoop_scan h (f.bytes.length + 2) (Max.max 0 (0 + 1)) 0 (by omega) (by omega) (by omega) []
    simp only [List.drop_zero, List.nil_append] at this
    rw [show ((0 : Nat) : Int) = 0 from rfl] at this
    rw [this]
  · have : ts = [] := List.length_eq_zero_iff.mp (by omega)
    subst this
    rw [if_neg hl]
    simp [blocksLoop]

theorem idxEntries_ok (sel : List Byte → Except Err (List Int)) (bytes : List Byte) (seqs : Tbl → List Int) (ts : List Tbl)
    (h : ∀ t ∈ ts, sel (partOf bytes (t.start, t.next - t.start)) = .ok (seqs t)) :
    ∃ es, idxEntries sel bytes (ts.map (fun t => (t.start, t.next - t.start))) = .ok es ∧ IndexOf seqs ts es := by
  induction ts with
  | nil => exact ⟨[], rfl, .nil⟩
  | cons t ts ih =>
    obtain ⟨es, h1, h2⟩ := ih (fun x hx => h x (by simp [hx]))
    refine ⟨(blockRuns (seqs t)).map (fun r => ⟨t.start, t.next - t.start, r.1, r.2⟩) ++ es, ?_, .cons (blockRuns_runs _) h2⟩
    rw [List.map_cons, idxEntries, h t (by simp)]
    dsimp only
    rw [h1]

theorem IndexOf.unique {seqs : Tbl → List Int} {ts : List Tbl} {a b : List IdxEntry} (ha : IndexOf seqs ts a) (hb : IndexOf seqs ts b) :
    a = b := by
  induction ha generalizing b with
  | nil => cases hb; rfl
  | cons h1 _ ih =>
    cases hb with
    | cons g1 g2 => rw [h1.unique g1, ih g2]

/-! ### The index file -/

/-- The index as a table. -/
def idxTable (es : List IdxEntry) : UTable :=
  { rows := es.length
    props := []
    cols := [⟨lit "block_begin", .ints (es.map IdxEntry.start)⟩, ⟨lit "block_length", .ints (es.map IdxEntry.len)⟩,
      ⟨lit "seqno", .ints (es.map IdxEntry.seqno)⟩, ⟨lit "n_rows", .ints (es.map IdxEntry.n)⟩] }

/-- The values of the entry fit into the columns of the index. -/
def IdxEntry.Fits (e : IdxEntry) : Prop := InI32 e.start ∧ InI32 e.len ∧ InI32 e.seqno ∧ InI32 e.n

theorem mem_idxCols {es : List IdxEntry} {c : InCol} (hc : c ∈ (idxTable es).cols) : c.name ∈ idxNames ∧ ∃ f : IdxEntry → Int,
    c.vals = .ints (es.map f) ∧ ∀ e : IdxEntry, e.Fits → InI32 (f e) := by
  simp only [idxTable, List.mem_cons, List.not_mem_nil, or_false] at hc
  rcases hc with rfl | rfl | rfl | rfl
  · exact ⟨by simp [idxNames], _, rfl, fun e h => h.1⟩
  · exact ⟨by simp [idxNames], _, rfl, fun e h => h.2.1⟩
  · exact ⟨by simp [idxNames], _, rfl, fun e h => h.2.2.1⟩
  · exact ⟨by simp [idxNames], _, rfl, fun e h => h.2.2.2⟩

theorem idxNames_len : ∀ s ∈ idxNames, LenOk s.length ∧ s ≠ [] := by
  intro s hs
  simp only [idxNames, List.mem_cons, List.not_mem_nil, or_false] at hs
  rcases hs with rfl | rfl | rfl | rfl <;> exact ⟨by decide +kernel, by decide +kernel⟩

theorem idxTable_ok (env : Env) (cap : Nat) (es : List IdxEntry) (h : ∀ e ∈ es, e.Fits) (hn : es.length < 18446744073709551616) :
    (idxTable es).RowsOk env cap where
  few := by show 4 < 65536; decide
  names := by
    show idxNames.Nodup
    decide +kernel
  named := fun c hc => (idxNames_len _ (mem_idxCols hc).1).2
  rows := by
    intro c hc
    obtain ⟨_, f, hf, _⟩ := mem_idxCols hc
    rw [hf]; simp [Vals.rows, idxTable]
  lens := by
    intro c hc
    obtain ⟨h1, f, hf, _⟩ := mem_idxCols hc
    exact ⟨(idxNames_len _ h1).1, by rw [hf]; simp [Vals.members, LenOk], by rw [hf]; simp [Vals.members]⟩
  props := List.Pairwise.nil
  nprops := by show LenOk 0; decide
  plen := by intro kv hkv; simp [idxTable] at hkv
  big := hn
  vals := by
    intro k _ c hc
    obtain ⟨_, f, hf, hg⟩ := mem_idxCols hc
    rw [hf]
    intro i hi
    have := List.mem_of_mem_drop (List.mem_of_mem_take hi)
    rw [List.mem_map] at this
    obtain ⟨e, he, rfl⟩ := this
    exact hg e (h e he)

theorem writeIndex_ok (env : Env) (hd : env.asDbl = true) (cap : Nat) (es : List IdxEntry) {fs : List (List Byte)}
    (h : (idxTable es).write env .same cap = .ok fs) : writeIndex env cap es = .ok fs := by
  obtain ⟨k, _, k1, _⟩ := start_missing_none env (.ints [])
  have k1' : startCodec .integer env.asDbl 1 none = .ok k := k1
  have hreset : resetCodec env .integer 1 = .ok k := by
    obtain ⟨c0, c1, h0, h1, h2⟩ := startCodec_split k1'
    simp only [Except.ok.injEq] at h2
    subst h2
    unfold resetCodec
    rw [h0]
    dsimp only
    rw [h1]
    dsimp only
    rw [startCodec_reset k1']
  obtain ⟨w1, w2, w3, a1, a2, a3, a4⟩ := putTable_ok env .same (idxTable es) cap [k, k, k, k] true
    ⟨by simp, rfl, by
      intro i c m? k' hc hm hk
      have hm' := List.eq_of_mem_replicate (List.mem_of_getElem? hm)
      have hk' : k' = k := by
        have := List.mem_of_getElem? hk
        simpa using this
      obtain ⟨_, f, hf, _⟩ := mem_idxCols (List.mem_of_getElem? hc)
      rw [hm', hk', hf]
      exact k1'⟩
    (by show idxNames.Nodup; decide +kernel) (fun c hc => (idxNames_len _ (mem_idxCols hc).1).2) rfl (es.map IdxEntry.row)
    (by intro r hr; simp only [List.mem_map] at hr; obtain ⟨e, _, rfl⟩ := hr; rfl)
    (by
      have hw : (idxTable es).cols.map (fun c => c.vals.words) = [1, 1, 1, 1] := rfl
      rw [hw]
      apply List.ext_getElem
      · simp [rowsOf, idxTable]
      · intro i h1 h2
        simp only [List.length_map] at h1
        simp only [List.getElem_map, rowsOf, List.getElem_range, rowAt, idxTable, List.map_cons, List.map_nil, InCol.data, Vals.cells,
          IdxEntry.row, List.map_map]
        simp [headCell, intWord, hd, List.getElem?_eq_getElem h1]
        rfl)
    h
  unfold writeIndex idxCols
  rw [hreset]
  dsimp only
  rw [show (idxNames.map (fun nm => (⟨nm, .integer, [], some k⟩ : WCol))) = List.zipWith wcol (idxTable es).cols [k, k, k, k] from rfl, a1]
  dsimp only
  rw [a2]
  dsimp only
  rw [a3]
  dsimp only
  rw [a4]

/-- **C33**: for a valid file, `createIndex` writes an index whose rows are exactly the entries of the blocks in order:
for each block one entry per maximal run of equal sequence numbers, with the offset and length of the block, the
sequence number and the number of rows (`IndexOf`).  It is read back without loss, provided offsets, lengths, numbers
and counts are below 2^31 in magnitude and integers are held as doubles (the default). -/
theorem C33_index (env : Env) (hmd5 : env.Md5Ok) (hd : env.asDbl = true) (bytes : List Byte) (fs : List (List Tbl))
    (h : readPlain env bytes = (fs, none)) (sel : List Byte → Except Err (List Int)) (seqs : Tbl → List Int)
    (hsel : ∀ t ∈ fs.flatten, sel (partOf bytes (t.start, t.next - t.start)) = .ok (seqs t)) (cap : Nat) (hcap : 0 < cap) :
    ∃ es, IndexOf seqs fs.flatten es ∧ ((∀ e ∈ es, e.Fits) → es.length < 18446744073709551616 →
      ∃ out, createIndex env sel cap (File.known bytes) = .ok out ∧ ((∀ b ∈ out, b.length ≤ 2147483647) →
        ∀ (junk : Junk) (fuel : Nat), es.length + 1 < fuel →
          ∃ views, readRows env junk out.flatten fuel = (views, none) ∧
            views.map (fun v => (v.cols.map Col.name, v.cells)) =
              es.map (fun e => (idxNames, [[ofInt e.start], [ofInt e.len], [ofInt e.seqno], [ofInt e.n]])))) := by
  obtain ⟨ts, hsc, rfl, hcp⟩ := readPlain_iff.mp h
  rw [flatten_singles] at hsel ⊢
  obtain ⟨es, h1, h2⟩ := idxEntries_ok sel bytes seqs ts hsel
  refine ⟨es, h2, ?_⟩
  intro hfit hn
  obtain ⟨out, o1, _, o3⟩ := C20_rows env hmd5 .same cap hcap (idxTable es) (idxTable_ok env cap es hfit hn)
  refine ⟨out, ?_, ?_⟩
  · unfold createIndex
    rw [offsetsOfBlocks_scan hsc hsc.few]
    dsimp only
    rw [show (File.known bytes).bytes = bytes from rfl, h1]
    exact writeIndex_ok env hd cap es o1
  · intro hs junk fuel hf
    obtain ⟨views, v1, v2, v3⟩ := o3 hs junk fuel hf
    refine ⟨views, v1, ?_⟩
    apply List.ext_getElem
    · simp [v2, idxTable]
    · intro r p1 p2
      simp only [List.length_map] at p1 p2
      simp only [List.getElem_map]
      obtain ⟨q1, q2, _, q4⟩ := v3 r views[r] (List.getElem?_eq_getElem p1)
      generalize views[r] = v at q1 q2 q4
      have key : ∀ (p : Nat) (nm : Str) (f : IdxEntry → Int), (idxTable es).cols[p]? = some ⟨nm, .ints (es.map f)⟩ →
          (v.cols.map Col.name)[p]? = some nm ∧ v.cells[p]? = some [ofInt (f es[r])] := by
        intro p nm f hp
        obtain ⟨k, y, e1, e2, _, _, _, e6, _, e8⟩ := q4 p _ hp
        obtain ⟨i, g1, g2⟩ := e8 (by simp [Vals.ty])
        rw [List.getElem?_map, List.getElem?_eq_getElem p2] at g1
        simp only [Option.map_some, Option.some.injEq] at g1
        refine ⟨by rw [List.getElem?_map, e1]; simp [e2], ?_⟩
        rw [e6, g2, ← g1, hd]; rfl
      obtain ⟨a0, b0⟩ := key 0 (lit "block_begin") IdxEntry.start rfl
      obtain ⟨a1, b1⟩ := key 1 (lit "block_length") IdxEntry.len rfl
      obtain ⟨a2, b2⟩ := key 2 (lit "seqno") IdxEntry.seqno rfl
      obtain ⟨a3, b3⟩ := key 3 (lit "n_rows") IdxEntry.n rfl
      have c1 : (v.cols.map Col.name).length = 4 := by simpa [idxTable] using q1
      have c2 : v.cells.length = 4 := by simpa [idxTable] using q2
      simp only [Prod.mk.injEq]
      constructor
      · apply List.ext_getElem?
        intro i
        match i with
        | 0 => rw [a0]; rfl
        | 1 => rw [a1]; rfl
        | 2 => rw [a2]; rfl
        | 3 => rw [a3]; rfl
        | i + 4 => rw [List.getElem?_eq_none (by omega)]; rfl
      · apply List.ext_getElem?
        intro i
        match i with
        | 0 => rw [b0]; rfl
        | 1 => rw [b1]; rfl
        | 2 => rw [b2]; rfl
        | 3 => rw [b3]; rfl
        | i + 4 => rw [List.getElem?_eq_none (by omega)]; rfl

/-! ### Concrete cases -/

example : blockRuns [1, 1, 2, 2, 2, 1] = [(1, 2), (2, 3), (1, 1)] := by decide
example : blockRuns [-1, -1, 0] = [(-1, 2), (0, 1)] := by decide
example : Runs [1, 1, 2] [(1, 2), (2, 1)] := ⟨by decide, by decide, by
  intro i a b ha hb
  match i with
  | 0 => simp at ha hb; subst ha; subst hb; decide
  | i + 1 => simp at hb⟩

/-- Integers held as doubles, as by default. -/
def idxEnv : Env := ⟨true, false, sampleEnv.md5, lit "1.0"⟩

/-- The rows of an index as they are read back, and whether the reader ended without an error. -/
def indexSeen (r : Except Err (List (List Byte))) : Option (List (List Cell) × Bool) := rowsSeen idxEnv r 20

/-- The entries of four blocks, in frames of two rows. -/
def fourEntries : List IdxEntry := [⟨0, 528, 1, 2⟩, ⟨0, 528, 2, 1⟩, ⟨528, 528, 1, 3⟩, ⟨1056, 194, -1, 1⟩]

example : ∀ e ∈ fourEntries, e.Fits := by
  intro e he
  simp only [fourEntries, List.mem_cons, List.not_mem_nil, or_false] at he
  rcases he with rfl | rfl | rfl | rfl <;> (refine ⟨?_, ?_, ?_, ?_⟩ <;> decide +kernel)

example : indexSeen (writeIndex idxEnv 2 fourEntries) =
    some (fourEntries.map (fun e => [[ofInt e.start], [ofInt e.len], [ofInt e.seqno], [ofInt e.n]]), true) := by decide +kernel

/-- The index of the three tables of the sample file, with the sequence numbers 7 7 8 in each. -/
example : onSample (fun b => decide (indexSeen (createIndex idxEnv (fun _ => .ok [7, 7, 8]) 100 (File.known b)) =
    some ([[[ofInt 0], [ofInt 528], [ofInt 7], [ofInt 2]], [[ofInt 0], [ofInt 528], [ofInt 8], [ofInt 1]],
      [[ofInt 528], [ofInt 528], [ofInt 7], [ofInt 2]], [[ofInt 528], [ofInt 528], [ofInt 8], [ofInt 1]],
      [[ofInt 1056], [ofInt 194], [ofInt 7], [ofInt 2]], [[ofInt 1056], [ofInt 194], [ofInt 8], [ofInt 1]]], true))) = true := by
  decide +kernel

/-- **C33**, violated: the positions of blocks beyond 2 GB do not fit the INTEGER columns.  As soon as the index has two
positions to tell apart, the codec converts a double to a 32-bit integer out of its range: undefined behaviour. -/
theorem C33_violated :
    (match writeIndex idxEnv 10 [⟨0, 2147483648, 1, 2⟩, ⟨2147483648, 528, 1, 2⟩] with
      | .ok _ => false
      | .error e => decide (e = .ub)) = true := by decide +kernel

end Verif
