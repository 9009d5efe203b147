import Verif.PropRead

/-
C13, C14, C15, C18: aggregated frames.
-/

namespace Verif

/-! ### C13 -/

/-- **C13**: reading with aggregation gives the tables of the file grouped as specified by `Grouping`. -/
theorem C13_aggregation (env : Env) (bytes : List Byte) (fs : List (List Tbl)) (h : readPlain env bytes = (fs, none))
    (limit : Int) (hlim : limit < 0 ∨ ∀ fr ∈ fs, (rowSum fr : Int) ≤ limit)
    (hbig : rowSum fs.flatten < 9223372036854775808) :
    ∃ gs, readAggregated env bytes limit = (gs, none) ∧ Grouping limit fs.flatten gs ∧
      ∀ g ∈ gs, frameRows g = rowSum g := by
  obtain ⟨ts, hsc, rfl, hcp⟩ := readPlain_iff.mp h
  rw [flatten_singles] at hbig ⊢
  have hfr : ∀ (us : List Tbl) (n : Nat), n + rowSum us < 9223372036854775808 →
      us.foldl (fun n t => (n + t.info.nrows) % 18446744073709551616) n = n + rowSum us := by
    intro us
    induction us with
    | nil => intro n _; simp [rowSum]
    | cons t us ih =>
      intro n hn
      rw [rowSum_cons] at hn
      rw [List.foldl_cons, Nat.mod_eq_of_lt (by omega), ih _ (by omega), rowSum_cons]
      omega
  obtain ⟨gs, h1, h2⟩ := readFrames_agg hsc hcp limit hbig (by
    intro t ht
    rcases hlim with h | h
    · exact Or.inl h
    · right
      have := h [t] (List.mem_map_of_mem ht)
      simpa [rowSum] using this) hsc.few
  refine ⟨gs, h1, h2, ?_⟩
  intro g hg
  have : rowSum g ≤ rowSum ts := by
    rw [← h2.all]
    clear h1 h2
    induction gs with
    | nil => simp at hg
    | cons a gs ih =>
      rw [List.flatten_cons, rowSum_append]
      rcases List.mem_cons.mp hg with rfl | hg
      · omega
      · have := ih hg; omega
  have := hfr g 0 (by omega)
  simpa [frameRows] using this

/-- The specification determines the frames. -/
theorem C13_determined (limit : Int) (ts : List Tbl) (gs gs' : List (List Tbl)) (h : Grouping limit ts gs)
    (h' : Grouping limit ts gs') (hrow : 0 ≤ limit → ∀ t ∈ ts, (t.info.nrows : Int) ≤ limit) : gs = gs' :=
  h.unique h' hrow

theorem readLoop_over {env : Env} {f : File} {ts : List Tbl} (h : Scan env f ts none)
    (hc : ∀ t ∈ ts, t.copy = .ok t) (limit : Int) (hl0 : 0 ≤ limit) (hbig : rowSum ts < 9223372036854775808) (fuel : Nat)
    (hf : ts.length < fuel) (k i : Nat) (r : Rd) (hr : r.At ts i) (hi : i ≤ ts.length) (hk : ts.length < i + k)
    (hov : ∃ t ∈ ts.drop i, limit < (t.info.nrows : Int)) :
    (readLoop env f true limit fuel k r).2 = some .assertFailed := by
  induction k generalizing i r with
  | zero => omega
  | succ k ih =>
    unfold readLoop
    obtain ⟨t, ht, hlt⟩ := hov
    have hl : i < ts.length := by
      by_contra hc'
      rw [List.drop_eq_nil_of_le (by omega)] at ht
      simp at ht
    obtain ⟨r', h1, h2⟩ := Rd.next_frame h hc true limit fuel hf r i hr hl
    have hp := frameLen_pos true limit ts i hl
    have hsum : ∀ us vs : List Tbl, us ++ vs = ts.drop i → sumRows 0 us = (rowSum us : Int) := by
      intro us vs he
      have e1 : rowSum ts = rowSum (ts.take i) + rowSum (ts.drop i) := by rw [← rowSum_append, List.take_append_drop]
      rw [← he, rowSum_append] at e1
      have := sumRows_small 0 us (by omega)
      simpa using this
    have hs := hsum _ _ (List.take_append_drop (frameLen true limit ts i) (ts.drop i))
    rw [h1]
    simp only [ite_self]
    by_cases hm : t ∈ (ts.drop i).take (frameLen true limit ts i)
    · have hge : t.info.nrows ≤ rowSum ((ts.drop i).take (frameLen true limit ts i)) := by
        have : ∀ us : List Tbl, t ∈ us → t.info.nrows ≤ rowSum us := by
          intro us hu
          induction us with
          | nil => simp at hu
          | cons a us ih =>
            rw [rowSum_cons]
            rcases List.mem_cons.mp hu with rfl | hu
            · omega
            · have := ih hu; omega
        exact this _ hm
      have : frameResult limit ((ts.drop i).take (frameLen true limit ts i)) = .error .assertFailed := by
        unfold frameResult
        rw [hs, if_neg (by omega)]
      rw [this]
    · have ht2 : t ∈ ts.drop (i + frameLen true limit ts i) := by
        rw [← List.take_append_drop (frameLen true limit ts i) (ts.drop i)] at ht
        rw [List.mem_append] at ht
        rcases ht with ht | ht
        · exact absurd ht hm
        · rwa [List.drop_drop] at ht
      have hrec := ih (i + frameLen true limit ts i) r' h2 hp.2 (by omega) ⟨t, ht2, hlt⟩
      unfold frameResult
      by_cases hle : limit < 0 ∨ sumRows 0 ((ts.drop i).take (frameLen true limit ts i)) ≤ limit
      · rw [if_pos hle]
        simp only
        rw [← hrec]
      · rw [if_neg hle]

/-- A table with more rows than the limit makes the reader fail, although it could be a frame of its own. -/
theorem C13_over_limit (env : Env) (bytes : List Byte) (fs : List (List Tbl)) (h : readPlain env bytes = (fs, none))
    (limit : Int) (hl0 : 0 ≤ limit) (hover : ∃ fr ∈ fs, limit < (rowSum fr : Int))
    (hbig : rowSum fs.flatten < 9223372036854775808) : (readAggregated env bytes limit).2 = some .assertFailed := by
  obtain ⟨ts, hsc, rfl, hcp⟩ := readPlain_iff.mp h
  rw [flatten_singles] at hbig
  obtain ⟨fr, hfr, hlt⟩ := hover
  simp only [List.mem_map] at hfr
  obtain ⟨t, ht, rfl⟩ := hfr
  have hlt' : limit < (t.info.nrows : Int) := by simpa [rowSum] using hlt
  have ho := Rd.open_scan hsc
  unfold readAggregated readFrames
  cases ts with
  | nil => simp at ht
  | cons u us =>
    simp only at ho
    obtain ⟨r, h1, h2⟩ := ho
    rw [h1]
    simp only
    have hfew := hsc.few
    exact readLoop_over hsc hcp limit hl0 hbig _ (by omega) _ 0 r h2 (by omega) (by omega) ⟨t, by simpa using ht, hlt'⟩

/-! ### C14 -/

/-- The part of a request that belongs to the `n` rows from row `off` on. -/
def rowsFrom (off n : Nat) (req : List (Str × Target)) : List (Str × Target) :=
  req.map (fun e => (e.1, { nelem := n, elem := e.2.elem, mem := fun r => e.2.mem (off + r) }))

/-- **C14**: decoding a frame of several tables is decoding each table alone into its rows: it succeeds if and
only if each of them does, table `k` fills the rows from the number of rows of the tables before it, and rows
after the last are left alone. -/
theorem C14_concatenates (bytes : List Byte) (fr : List Tbl) (hfr : 2 ≤ fr.length) (req : List (Str × Target))
    (hbig : rowSum fr < 18446744073709551616) (hroom : ∀ e ∈ req, rowSum fr ≤ e.2.nelem) :
    match decodeFrame bytes fr req with
    | .error e => ∃ (k : Nat) (t : Tbl), fr[k]? = some t ∧
        decodeFrame bytes [t] (rowsFrom (rowSum (fr.take k)) t.info.nrows req) = .error e
    | .ok out => out.length = req.length ∧
        (∀ (k : Nat) (t : Tbl), fr[k]? = some t →
          ∃ o, decodeFrame bytes [t] (rowsFrom (rowSum (fr.take k)) t.info.nrows req) = .ok o ∧ o.length = req.length ∧
            ∀ (i : Nat) (m m' : Nat → Cell), out[i]? = some m → o[i]? = some m' →
              ∀ r, r < t.info.nrows → m (rowSum (fr.take k) + r) = m' r) ∧
        ∀ (i : Nat) (m : Nat → Cell) (e : Str × Target), out[i]? = some m → req[i]? = some e →
          ∀ r, rowSum fr ≤ r → m r = e.2.mem r := by
  have hoff : ∀ k, k ≤ fr.length → offAt (fr.map (fun t => (t, Lookup.empty))) k = rowSum (fr.take k) := by
    intro k
    induction k with
    | zero => intro _; rfl
    | succ k ih =>
      intro hk
      have hg : (fr.map (fun t => (t, Lookup.empty)))[k]? = some (fr[k], Lookup.empty) := by
        rw [List.getElem?_map, List.getElem?_eq_getElem (by omega)]; rfl
      rw [offAt_succ _ k _ _ hg, ih (by omega), List.take_succ_eq_append_getElem (by omega), rowSum_append]
      simp [rowSum]
  have htot : offAt (fr.map (fun t => (t, Lookup.empty))) (fr.map (fun t => (t, Lookup.empty))).length = rowSum fr := by
    rw [List.length_map, hoff _ (Nat.le_refl _), List.take_length]
  have hdec : decodeFrame bytes fr req = (frameSeq (File.known bytes) (fr.map (fun t => (t, Lookup.empty))) 0 req).2 := by
    match fr, hfr with
    | _ :: _ :: _, _ => rfl
  have htbl : ∀ (k : Nat) (t : Tbl), fr[k]? = some t →
      tblDecode (File.known bytes) (fr.map (fun t => (t, Lookup.empty))) req k =
        decodeFrame bytes [t] (rowsFrom (rowSum (fr.take k)) t.info.nrows req) ∧
      rowsAt (fr.map (fun t => (t, Lookup.empty))) k = t.info.nrows ∧
      offAt (fr.map (fun t => (t, Lookup.empty))) k = rowSum (fr.take k) := by
    intro k t hk
    have hlt := (List.getElem?_eq_some_iff.mp hk).1
    have hg : (fr.map (fun t => (t, Lookup.empty)))[k]? = some (t, Lookup.empty) := by
      rw [List.getElem?_map, hk]; rfl
    refine ⟨?_, by simp only [rowsAt, hg], hoff k (by omega)⟩
    simp only [tblDecode, hg, hoff k (Nat.le_of_lt hlt)]
    rfl
  have key := frameSeq_tables (File.known bytes) (fr.map (fun t => (t, Lookup.empty))) req (by rw [htot]; exact hbig)
    (by rw [htot]; exact hroom) (fr.map (fun t => (t, Lookup.empty))).length 0 (by simp) req
    ⟨rfl, by intro i e e' h h'; rw [h] at h'; cases h'; simp⟩
  rw [hdec]
  rw [List.drop_zero] at key
  have h0 : offAt (fr.map (fun t => (t, Lookup.empty))) 0 = 0 := rfl
  rw [h0] at key
  cases hres : (frameSeq (File.known bytes) (fr.map (fun t => (t, Lookup.empty))) 0 req).2 with
  | error e =>
    rw [hres] at key
    obtain ⟨j, _, j2, j3⟩ := key
    rw [List.length_map] at j2
    have hg : fr[j]? = some fr[j] := List.getElem?_eq_getElem j2
    exact ⟨j, fr[j], hg, by rw [← (htbl j _ hg).1]; exact j3⟩
  | ok out =>
    rw [hres] at key
    obtain ⟨k1, k2, k3⟩ := key
    refine ⟨k1, ?_, ?_⟩
    · intro k t hk
      obtain ⟨t1, t2, t3⟩ := htbl k t hk
      obtain ⟨o, o1, o2, o3⟩ := k2 k (by omega) (by rw [List.length_map]; exact (List.getElem?_eq_some_iff.mp hk).1)
      rw [t1] at o1
      refine ⟨o, o1, o2, ?_⟩
      intro i m m' hm hm' r hr
      have := o3 i m m' hm hm' r (by rw [t2]; exact hr)
      rwa [t3] at this
    · intro i m e hm he r hr
      exact k3 i m e hm he r (Or.inr (by rw [htot]; exact hr))

/-- Every target row of the frame belongs to exactly one table. -/
theorem C14_rows_partition (fr : List Tbl) (r : Nat) (hr : r < rowSum fr) :
    ∃ (k : Nat) (t : Tbl), fr[k]? = some t ∧ rowSum (fr.take k) ≤ r ∧ r < rowSum (fr.take k) + t.info.nrows ∧
      ∀ (k' : Nat) (t' : Tbl), fr[k']? = some t' → rowSum (fr.take k') ≤ r → r < rowSum (fr.take k') + t'.info.nrows → k' = k := by
  have hs : ∀ (k : Nat) (t : Tbl), fr[k]? = some t → rowSum (fr.take (k + 1)) = rowSum (fr.take k) + t.info.nrows := by
    intro k t hk
    obtain ⟨h1, h2⟩ := List.getElem?_eq_some_iff.mp hk
    rw [List.take_succ_eq_append_getElem h1, rowSum_append, h2]; simp [rowSum]
  have hmono : ∀ a b, a ≤ b → rowSum (fr.take a) ≤ rowSum (fr.take b) := by
    intro a b hab
    have e : fr.take a = (fr.take b).take a := by rw [List.take_take, Nat.min_eq_left hab]
    have := rowSum_append ((fr.take b).take a) ((fr.take b).drop a)
    rw [List.take_append_drop, ← e] at this
    omega
  have hex : ∃ k : Nat, k < fr.length ∧ rowSum (fr.take k) ≤ r ∧ r < rowSum (fr.take (k + 1)) := by
    have : ∀ n, n ≤ fr.length → r < rowSum (fr.take n) → ∃ k, k < n ∧ rowSum (fr.take k) ≤ r ∧ r < rowSum (fr.take (k + 1)) := by
      intro n
      induction n with
      | zero => intro _ h; simp [rowSum] at h
      | succ n ih =>
        intro hn h
        by_cases hc : r < rowSum (fr.take n)
        · obtain ⟨k, a, b⟩ := ih (by omega) hc; exact ⟨k, by omega, b⟩
        · exact ⟨n, by omega, by omega, h⟩
    obtain ⟨k, a, b⟩ := this fr.length (Nat.le_refl _) (by rw [List.take_length]; exact hr)
    exact ⟨k, a, b⟩
  obtain ⟨k, a, b, c⟩ := hex
  have hk : fr[k]? = some fr[k] := List.getElem?_eq_getElem a
  refine ⟨k, _, hk, b, by rw [← hs k _ hk]; exact c, ?_⟩
  intro k' t' hk' b' c'
  rw [← hs k' t' hk'] at c'
  by_contra hne
  rcases Nat.lt_or_gt_of_ne hne with h | h
  · have := hmono (k' + 1) k h; omega
  · have := hmono (k + 1) k' h; omega

/-! ### C15 -/

/-- **C15**: whatever the number of threads (at least one) and however they interleave, decoding ends with
the values that one thread gives; if one thread raises an error, so do many. -/
theorem C15_threads (bytes : List Byte) (fr : List Tbl) (req : List (Str × Target))
    (hbig : rowSum fr < 18446744073709551616) (nthreads : Nat) (hn : 0 < nthreads) (res : Except Err (List (Nat → Cell)))
    (h : FrameDecodes (File.known bytes) (fr.map (fun t => (t, Lookup.empty))) req nthreads res) :
    match decodeFrame bytes fr req with
    | .ok out => res = .ok out
    | .error _ => ∃ e, res = .error e := by
  have hoff : ∀ k, k ≤ fr.length → offAt (fr.map (fun t => (t, Lookup.empty))) k = rowSum (fr.take k) := by
    intro k
    induction k with
    | zero => intro _; rfl
    | succ k ih =>
      intro hk
      have hg : (fr.map (fun t => (t, Lookup.empty)))[k]? = some (fr[k], Lookup.empty) := by
        rw [List.getElem?_map, List.getElem?_eq_getElem (by omega)]; rfl
      rw [offAt_succ _ k _ _ hg, ih (by omega), List.take_succ_eq_append_getElem (by omega), rowSum_append]
      simp [rowSum]
  have := frame_threads (File.known bytes) _ req (by
    rw [List.length_map, hoff _ (Nat.le_refl _), List.take_length]; exact hbig) nthreads hn res h
  unfold decodeFrame
  split at this
  · rename_i out ho; rw [ho]; exact this
  · rename_i e ho; rw [ho]; obtain ⟨e', h1, _⟩ := this; exact ⟨e', h1⟩

/-- Decoding always ends. -/
theorem C15_terminates (bytes : List Byte) (fr : List Tbl) (req : List (Str × Target)) (nthreads : Nat) :
    ∃ res, FrameDecodes (File.known bytes) (fr.map (fun t => (t, Lookup.empty))) req nthreads res :=
  frame_decodes_total _ _ _ _

/-- With zero threads nothing is decoded and success is reported. -/
theorem C15_violated_zero (bytes : List Byte) (fr : List Tbl) (hfr : 2 ≤ fr.length) (req : List (Str × Target))
    (hbig : rowSum fr < 18446744073709551616) (hroom : ∀ e ∈ req, rowSum fr ≤ e.2.nelem) (res : Except Err (List (Nat → Cell)))
    (h : FrameDecodes (File.known bytes) (fr.map (fun t => (t, Lookup.empty))) req 0 res) :
    res = .ok (req.map (fun e => e.2.mem)) := by
  have hoff : ∀ k, k ≤ fr.length → offAt (fr.map (fun t => (t, Lookup.empty))) k = rowSum (fr.take k) := by
    intro k
    induction k with
    | zero => intro _; rfl
    | succ k ih =>
      intro hk
      have hg : (fr.map (fun t => (t, Lookup.empty)))[k]? = some (fr[k], Lookup.empty) := by
        rw [List.getElem?_map, List.getElem?_eq_getElem (by omega)]; rfl
      rw [offAt_succ _ k _ _ hg, ih (by omega), List.take_succ_eq_append_getElem (by omega), rowSum_append]
      simp [rowSum]
  have htot : offAt (fr.map (fun t => (t, Lookup.empty))) (fr.map (fun t => (t, Lookup.empty))).length = rowSum fr := by
    rw [List.length_map, hoff _ (Nat.le_refl _), List.take_length]
  apply frame_zero_threads _ _ _ (by rw [List.length_map]; omega) _ _ h
  have := sliceAll_ok (fr.map (fun t => (t, Lookup.empty))) req (by rw [htot]; exact hbig) (by rw [htot]; exact hroom)
    (fr.map (fun t => (t, Lookup.empty))).length 0 (by simp)
  simpa [offAt] using this

/-- **C15**, each table once: at every moment of every run no table has been taken twice and no two threads are at work on the same table; and when all threads have ended
without an exception, every table was taken. -/
theorem C15_once (bytes : List Byte) (fr : List Tbl) (req : List (Str × Target)) (nthreads : Nat) (q : Pool WMem)
    (h : Pool.Reach (frameJob (File.known bytes) (fr.map (fun t => (t, Lookup.empty))) req) (Pool.start nthreads (startMem req)) q) :
    q.taken.Nodup ∧ (∀ k ∈ q.taken, k < fr.length) ∧
    (∀ (i j k : Nat) (t u : List (WMem → WMem)), q.workers[i]? = some (.busy k t) → q.workers[j]? = some (.busy k u) → i = j) ∧
    (0 < nthreads → q.Over → (∀ w ∈ q.workers, ∀ k e, w ≠ .failed k e) → q.taken = List.range fr.length) := by
  have hi := Pool.inv_reach _ _ (Pool.inv_start _ nthreads (startMem req)) h
  have hn : q.next ≤ fr.length := by have := hi.next; simpa [frameJob] using this
  refine ⟨by rw [hi.taken]; exact List.nodup_range, ?_, hi.unique, ?_⟩
  · intro k hk
    rw [hi.taken] at hk
    have := List.mem_range.mp hk
    omega
  · intro h0 ho hf
    rcases Pool.result _ _ nthreads h0 q h ho with ⟨w, hw, k, e, rfl, _⟩ | ⟨_, _, ht, _⟩
    · exact absurd rfl (hf _ hw k e)
    · simpa [frameJob] using ht

/-- **C15**, rows: a step of a thread changes only rows of the table this thread is at work on; with `C15_once`, no two threads ever write the same row. -/
theorem C15_own_rows (bytes : List Byte) (fr : List Tbl) (req : List (Str × Target)) (nthreads : Nat) (p q : Pool WMem)
    (h : Pool.Reach (frameJob (File.known bytes) (fr.map (fun t => (t, Lookup.empty))) req) (Pool.start nthreads (startMem req)) p)
    (hs : Pool.Step (frameJob (File.known bytes) (fr.map (fun t => (t, Lookup.empty))) req) p q) (i r : Nat) (hc : q.mem.cells i r ≠ p.mem.cells i r) :
    ∃ (w k : Nat) (t : Tbl) (todo todo' : List (WMem → WMem)), p.workers[w]? = some (.busy k todo) ∧ q.workers = p.workers.set w (.busy k todo') ∧
      fr[k]? = some t ∧ rowSum (fr.take k) ≤ r ∧ r < rowSum (fr.take k) + t.info.nrows := by
  have hi := Pool.inv_reach _ _ (Pool.inv_start _ nthreads (startMem req)) h
  cases hs with
  | take => exact absurd rfl hc
  | stop => exact absurd rfl hc
  | done => exact absurd rfl hc
  | fail => exact absurd rfl hc
  | work w k s rest hw =>
    obtain ⟨hk, hsuf⟩ := hi.busyLt w k _ hw
    have hk : k < fr.length := by have := hi.next; simp only [frameJob, List.length_map] at this; omega
    have hmem : s ∈ (frameJob (File.known bytes) (fr.map (fun t => (t, Lookup.empty))) req).prog k := hsuf.subset (by simp)
    simp only [frameJob, List.mem_map] at hmem
    obtain ⟨g, _, rfl⟩ := hmem
    have hget : fr[k]? = some fr[k] := List.getElem?_eq_getElem hk
    have hoff : ∀ j, j ≤ fr.length → offAt (fr.map (fun t => (t, Lookup.empty))) j = rowSum (fr.take j) := by
      intro j
      induction j with
      | zero => intro _; rfl
      | succ j ih =>
        intro hj
        have hg : (fr.map (fun t => (t, Lookup.empty)))[j]? = some (fr[j], Lookup.empty) := by
          rw [List.getElem?_map, List.getElem?_eq_getElem (by omega)]; rfl
        rw [offAt_succ _ j _ _ hg, ih (by omega), List.take_succ_eq_append_getElem (by omega), rowSum_append]
        simp [rowSum]
    have hrows : rowsAt (fr.map (fun t => (t, Lookup.empty))) k = fr[k].info.nrows := by
      unfold rowsAt
      rw [List.getElem?_map, hget]
      rfl
    refine ⟨w, k, fr[k], _, rest, hw, rfl, hget, ?_⟩
    apply Classical.byContradiction
    intro hout
    apply hc
    show (lift _ k g p.mem).cells i r = _
    unfold lift
    dsimp only
    rw [if_neg (by rw [hoff k (by omega), hrows]; exact hout)]

end Verif
