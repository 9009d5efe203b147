import Verif.CDecOwn

/-
`odc_decode_threaded`: the C decoder with several threads.
-/

namespace Verif

/-- `odc_decode_threaded`, odc.cc l.701-775: `res` is a possible outcome with `nthreads` threads (the schedule of the
threads is not determined).  As `odcDecode`, except that the frame is decoded by the threads (odc.cc l.751-752), and that
a thread count below one is refused, after the decoder was filled in.  The same simplifications apply. -/
inductive OdcThreaded (bytes : List Byte) (fr : List Tbl) (alloc : Nat) (junk : Nat → Nat → Cell) (d : Dec) (m : Mem) (nthreads : Nat) :
    Except Err (Dec × Mem × Nat) → Prop where
  /-- the frame's columns cannot be listed -/
  | info (e : Err) : frameInfo fr = .error e → OdcThreaded bytes fr alloc junk d m nthreads (.error e)
  /-- more columns than the frame has, or too few rows -/
  | sizes (xs : List ColShown) : frameInfo fr = .ok xs → xs.length < d.cols.length ∨ d.nrows < frameRows fr →
      OdcThreaded bytes fr alloc junk d m nthreads (.error .assertFailed)
  /-- `fill_in_decoder` failed -/
  | fill (xs : List ColShown) (e : Err) : frameInfo fr = .ok xs → ¬ (xs.length < d.cols.length ∨ d.nrows < frameRows fr) →
      fillIn alloc (sizesOf xs) (frameRows fr) d = .error e → OdcThreaded bytes fr alloc junk d m nthreads (.error e)
  /-- a transposed column with a stride of its own -/
  | transposed (xs : List ColShown) (d' : Dec) : frameInfo fr = .ok xs → ¬ (xs.length < d.cols.length ∨ d.nrows < frameRows fr) →
      fillIn alloc (sizesOf xs) (frameRows fr) d = .ok d' →
      (∃ e ∈ d'.cols, e.2.transpose = true ∧ ¬ (e.2.elem % 8 = 0 ∧ e.2.stride = e.2.elem)) →
      OdcThreaded bytes fr alloc junk d m nthreads (.error .assertFailed)
  /-- a column without memory, or not of whole words -/
  | memory (xs : List ColShown) (d' : Dec) : frameInfo fr = .ok xs → ¬ (xs.length < d.cols.length ∨ d.nrows < frameRows fr) →
      fillIn alloc (sizesOf xs) (frameRows fr) d = .ok d' →
      ¬ (∃ e ∈ d'.cols, e.2.transpose = true ∧ ¬ (e.2.elem % 8 = 0 ∧ e.2.stride = e.2.elem)) →
      (∃ e ∈ d'.cols, e.2.elem % 8 ≠ 0 ∨ e.2.data = none) → OdcThreaded bytes fr alloc junk d m nthreads (.error .ub)
  /-- the number of threads is refused -/
  | none (xs : List ColShown) (d' : Dec) : frameInfo fr = .ok xs → ¬ (xs.length < d.cols.length ∨ d.nrows < frameRows fr) →
      fillIn alloc (sizesOf xs) (frameRows fr) d = .ok d' →
      ¬ (∃ e ∈ d'.cols, e.2.transpose = true ∧ ¬ (e.2.elem % 8 = 0 ∧ e.2.stride = e.2.elem)) →
      ¬ (∃ e ∈ d'.cols, e.2.elem % 8 ≠ 0 ∨ e.2.data = none) → nthreads = 0 →
      OdcThreaded bytes fr alloc junk d m nthreads (.error .assertFailed)
  /-- the decoder failed -/
  | failed (xs : List ColShown) (d' : Dec) (e : Err) : frameInfo fr = .ok xs →
      ¬ (xs.length < d.cols.length ∨ d.nrows < frameRows fr) → fillIn alloc (sizesOf xs) (frameRows fr) d = .ok d' →
      ¬ (∃ e ∈ d'.cols, e.2.transpose = true ∧ ¬ (e.2.elem % 8 = 0 ∧ e.2.stride = e.2.elem)) →
      ¬ (∃ e ∈ d'.cols, e.2.elem % 8 ≠ 0 ∨ e.2.data = none) → 0 < nthreads →
      FrameDecodes (File.known bytes) (fr.map (fun t => (t, Lookup.empty)))
        (d'.cols.mapIdx (fun i e => (e.1, e.2.target m d'.nrows (junk i)))) nthreads (.error e) →
      OdcThreaded bytes fr alloc junk d m nthreads (.error e)
  /-- decoded -/
  | done (xs : List ColShown) (d' : Dec) (outs : List (Nat → Cell)) : frameInfo fr = .ok xs →
      ¬ (xs.length < d.cols.length ∨ d.nrows < frameRows fr) → fillIn alloc (sizesOf xs) (frameRows fr) d = .ok d' →
      ¬ (∃ e ∈ d'.cols, e.2.transpose = true ∧ ¬ (e.2.elem % 8 = 0 ∧ e.2.stride = e.2.elem)) →
      ¬ (∃ e ∈ d'.cols, e.2.elem % 8 ≠ 0 ∨ e.2.data = none) → 0 < nthreads →
      FrameDecodes (File.known bytes) (fr.map (fun t => (t, Lookup.empty)))
        (d'.cols.mapIdx (fun i e => (e.1, e.2.target m d'.nrows (junk i)))) nthreads (.ok outs) →
      OdcThreaded bytes fr alloc junk d m nthreads
        (.ok (d', m.puts ((d'.cols.zip outs).flatMap (fun p => p.1.2.writes d'.nrows (frameRows fr) p.2)), frameRows fr))

/-- **C15 (C interface)**: for every number of threads and every schedule, `odc_decode_threaded` leaves in the memory
exactly what `odc_decode` leaves there; if `odc_decode` fails, so does every threaded run. -/
theorem C15_c_threads (bytes : List Byte) (fr : List Tbl) (alloc : Nat) (junk : Nat → Nat → Cell) (d : Dec) (m : Mem) (nthreads : Nat)
    (hn : 0 < nthreads) (hbig : rowSum fr < 18446744073709551616) (res : Except Err (Dec × Mem × Nat))
    (h : OdcThreaded bytes fr alloc junk d m nthreads res) :
    match odcDecode bytes fr alloc junk d m with
    | .ok out => res = .ok out
    | .error _ => ∃ e, res = .error e := by
  unfold odcDecode
  cases h with
  | info e h1 => rw [h1]; exact ⟨_, rfl⟩
  | sizes xs h1 h2 =>
    rw [h1]
    dsimp only
    rcases h2 with h2 | h2
    · rw [if_pos h2]; exact ⟨_, rfl⟩
    · by_cases h3 : xs.length < d.cols.length
      · rw [if_pos h3]; exact ⟨_, rfl⟩
      · rw [if_neg h3, if_pos h2]; exact ⟨_, rfl⟩
  | fill xs e h1 h2 h3 =>
    rw [not_or] at h2
    rw [h1]
    dsimp only
    rw [if_neg h2.1, if_neg h2.2, h3]
    exact ⟨_, rfl⟩
  | transposed xs d' h1 h2 h3 h4 =>
    rw [not_or] at h2
    rw [h1]
    dsimp only
    rw [if_neg h2.1, if_neg h2.2, h3]
    dsimp only
    rw [if_pos h4]
    exact ⟨_, rfl⟩
  | memory xs d' h1 h2 h3 h4 h5 =>
    rw [not_or] at h2
    rw [h1]
    dsimp only
    rw [if_neg h2.1, if_neg h2.2, h3]
    dsimp only
    rw [if_neg h4, if_pos h5]
    exact ⟨_, rfl⟩
  | none xs d' h1 h2 h3 h4 h5 h6 => omega
  | failed xs d' e h1 h2 h3 h4 h5 h6 h7 =>
    rw [not_or] at h2
    rw [h1]
    dsimp only
    rw [if_neg h2.1, if_neg h2.2, h3]
    dsimp only
    rw [if_neg h4, if_neg h5]
    have := C15_threads bytes fr _ hbig nthreads hn _ h7
    cases hd : decodeFrame bytes fr (d'.cols.mapIdx (fun i e => (e.1, e.2.target m d'.nrows (junk i)))) with
    | ok o => rw [hd] at this; cases this
    | error x => exact ⟨_, rfl⟩
  | done xs d' outs h1 h2 h3 h4 h5 h6 h7 =>
    rw [not_or] at h2
    rw [h1]
    dsimp only
    rw [if_neg h2.1, if_neg h2.2, h3]
    dsimp only
    rw [if_neg h4, if_neg h5]
    have := C15_threads bytes fr _ hbig nthreads hn _ h7
    cases hd : decodeFrame bytes fr (d'.cols.mapIdx (fun i e => (e.1, e.2.target m d'.nrows (junk i)))) with
    | ok o => rw [hd] at this; cases this; rfl
    | error x => rw [hd] at this; obtain ⟨e, he⟩ := this; cases he

/-- Every threaded run comes to an end. -/
theorem C15_c_terminates (bytes : List Byte) (fr : List Tbl) (alloc : Nat) (junk : Nat → Nat → Cell) (d : Dec) (m : Mem)
    (nthreads : Nat) : ∃ res, OdcThreaded bytes fr alloc junk d m nthreads res := by
  cases h1 : frameInfo fr with
  | error e => exact ⟨_, .info e h1⟩
  | ok xs =>
    by_cases h2 : xs.length < d.cols.length ∨ d.nrows < frameRows fr
    · exact ⟨_, .sizes xs h1 h2⟩
    · cases h3 : fillIn alloc (sizesOf xs) (frameRows fr) d with
      | error e => exact ⟨_, .fill xs e h1 h2 h3⟩
      | ok d' =>
        by_cases h4 : ∃ e ∈ d'.cols, e.2.transpose = true ∧ ¬ (e.2.elem % 8 = 0 ∧ e.2.stride = e.2.elem)
        · exact ⟨_, .transposed xs d' h1 h2 h3 h4⟩
        · by_cases h5 : ∃ e ∈ d'.cols, e.2.elem % 8 ≠ 0 ∨ e.2.data = none
          · exact ⟨_, .memory xs d' h1 h2 h3 h4 h5⟩
          · by_cases h6 : nthreads = 0
            · exact ⟨_, .none xs d' h1 h2 h3 h4 h5 h6⟩
            · obtain ⟨res, hr⟩ := C15_terminates bytes fr (d'.cols.mapIdx (fun i e => (e.1, e.2.target m d'.nrows (junk i)))) nthreads
              cases res with
              | error e => exact ⟨_, .failed xs d' e h1 h2 h3 h4 h5 (by omega) hr⟩
              | ok outs => exact ⟨_, .done xs d' outs h1 h2 h3 h4 h5 (by omega) hr⟩

end Verif
