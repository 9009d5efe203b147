import Verif.PropBack
import Verif.PropAgree
import Verif.PropAny2

/-!
Counting rows from the headers (`odc count`, `RowsCounter`), C48.
-/

namespace Verif

/-- The loop of `RowsCounter::fastRowCount` (RowsCounter.cc l.21-31) and of `CountTool::rowCount` (tools/CountTool.cc
l.28-40): `n` is an unsigned 64-bit integer.  At most `fuel` tables. -/
def countLoop (env : Env) (f : File) : Nat → List Tbl → Int → Nat → Except Err Nat
  | 0, _, _, _ => .error .diverges
  | fuel + 1, ts, pos, n =>
    if pos = -1 then .ok n
    else
      match itGet ts pos with
      | .error e => .error e
      | .ok t =>
        match itIncr env f ts pos with
        | (_, _, some e) => .error e
        | (ts', pos', none) => countLoop env f fuel ts' pos' ((n + t.info.nrows) % 18446744073709551616)

/-- `RowsCounter::fastRowCount`, RowsCounter.cc l.21-31: `begin()` loads the first table (core/TablesReader.cc l.20-28). -/
def countRows (env : Env) (bytes : List Byte) : Except Err Nat :=
  match ensureTable env (File.known bytes) [] 0 with
  | .error e => .error e
  | .ok (ts, true) => countLoop env (File.known bytes) (bytes.length + 1) ts 0 0
  | .ok (ts, false) => countLoop env (File.known bytes) (bytes.length + 1) ts (-1) 0

/-- `CountTool::run`, tools/CountTool.cc l.42-63: the sum over the files, in an unsigned 64-bit integer. -/
def countFiles (env : Env) : List (List Byte) → Except Err Nat
  | [] => .ok 0
  | f :: fs =>
    match countRows env f with
    | .error e => .error e
    | .ok n =>
      match countFiles env fs with
      | .error e => .error e
      | .ok k => .ok ((n + k) % 18446744073709551616)

theorem countLoop_scan {env : Env} {f : File} {ts : List Tbl} {fin : Option Err} (h : Scan env f ts fin) (fuel p n : Nat)
    (hp : p < ts.length) (hf : ts.length - p < fuel) (hn : n < 18446744073709551616) :
    countLoop env f fuel (ts.take (p + 1)) p n =
      fin.elim (.ok ((n + rowSum (ts.drop p)) % 18446744073709551616)) .error := by
  induction fuel generalizing p n with
  | zero => omega
  | succ fuel ih =>
    have hd : ts.drop p = ts[p] :: ts.drop (p + 1) := List.drop_eq_getElem_cons hp
    simp only [countLoop]
    rw [if_neg (by omega), itGet_take ts (p + 1) p (by omega) (by omega), itIncr_scan h (p + 1) p (by omega) (by omega)]
    dsimp only
    by_cases h1 : p + 1 < ts.length
    · rw [if_pos h1]
      dsimp only
      have := ih (p + 1) ((n + ts[p].info.nrows) % 18446744073709551616) h1 (by omega) (Nat.mod_lt _ (by decide))
      rw [show max (p + 1) (p + 2) = p + 1 + 1 by omega, show (p : Int) + 1 = ((p + 1 : Nat) : Int) by omega, this, hd, rowSum_cons]
      cases fin with
      | none => simp only [Option.elim, Nat.mod_add_mod, Nat.add_assoc]
      | some e => rfl
    · rw [if_neg h1]
      cases fin with
      | some e => rfl
      | none =>
        dsimp only
        have : ts.drop (p + 1) = [] := List.drop_eq_nil_of_le (by omega)
        rw [hd, this]
        cases fuel with
        | zero => omega
        | succ fuel =>
          simp only [countLoop, if_true, rowSum_cons]
          simp [rowSum]

/-- Counting a file whose tables are known. -/
theorem countRows_scan {env : Env} {bytes : List Byte} {ts : List Tbl} {fin : Option Err} (h : Scan env (File.known bytes) ts fin)
    (hl : ts.length ≤ bytes.length) :
    countRows env bytes = fin.elim (.ok (rowSum ts % 18446744073709551616)) .error := by
  have h2 := ensure_scan h 0 (by omega) 0 (by omega)
  simp only [List.take_zero] at h2
  rw [show ((0 : Nat) : Int) = 0 by rfl] at h2
  unfold countRows
  rw [h2]
  by_cases h0 : 0 < ts.length
  · rw [if_pos h0]
    dsimp only
    have := countLoop_scan h (bytes.length + 1) 0 0 h0 (by omega) (by decide)
    rw [show max 0 (0 + 1) = 0 + 1 by omega]
    rw [show ((0 : Nat) : Int) = 0 by rfl] at this
    rw [this]
    simp
  · rw [if_neg h0]
    have : ts = [] := List.length_eq_zero_iff.mp (by omega)
    subst this
    cases fin with
    | some e => rfl
    | none => simp [countLoop, rowSum]

/-- **C48**: for every file that the frame interface reads to the end, whoever wrote it, `odc count` gives the sum of the
rows of its frames (as a 64-bit number). -/
theorem C48_count (env : Env) (bytes : List Byte) (fs : List (List Tbl)) (h : readPlain env bytes = (fs, none)) :
    countRows env bytes = .ok (((fs.map frameRows).sum) % 18446744073709551616) := by
  obtain ⟨ts, h1, rfl, h2⟩ := readPlain_iff.mp h
  rw [countRows_scan h1 h1.few]
  clear h2
  simp only [Option.elim, Except.ok.injEq]
  clear h h1
  induction ts with
  | nil => rfl
  | cons t ts ih =>
    rw [rowSum_cons, List.map_cons, List.map_cons, List.sum_cons, Nat.add_mod, ih, ← Nat.add_mod]
    simp [frameRows]

/-- **C48**, the rows a user iterating over the file sees: under the conditions of `C46_same_rows`, as many as counted. -/
theorem C48_count_shown (env : Env) (bytes : List Byte) (ts : List Tbl) (h : readPlain env bytes = (ts.map (fun t => [t]), none))
    (hs : SizedFrames (ts.map (fun t => [t]))) (req : Nat → List (Str × Target)) (out : Nat → List (Nat → Cell))
    (hd : ∀ (k : Nat) (t : Tbl), ts[k]? = some t → DecodesAll bytes t (req k) (out k)) (ht : ∀ t ∈ ts, RowTable bytes t)
    (junk : Junk) (fuel : Nat) (hf : (ts.map (fun t => t.info.nrows)).sum + 1 < fuel) :
    ∃ views, readRows env junk bytes fuel = (views, none) ∧ countRows env bytes = .ok (views.length % 18446744073709551616) := by
  obtain ⟨views, v1, v2, _⟩ := C46_same_rows env bytes ts h hs req out hd ht junk fuel hf
  refine ⟨views, v1, ?_⟩
  rw [v2]
  obtain ⟨ts', h1, he, _⟩ := readPlain_iff.mp h
  have hts : ts = ts' := by
    have := congrArg List.flatten he
    simpa [flatten_singles] using this
  subst hts
  rw [countRows_scan h1 h1.few]
  rfl

/-- **C48**, written files: a file of encoded tables counts the rows of the tables. -/
theorem C48_count_encoded (env : Env) (hmd5 : env.Md5Ok) (Ts : List UTable) (hT : ∀ T ∈ Ts, T.Ok env)
    (hbig : (Ts.map UTable.rows).sum < 18446744073709551616) :
    ∃ bss, writeTables env Ts = .ok bss ∧ ((∀ b ∈ bss, b.length ≤ 2147483647) →
      countRows env bss.flatten = .ok (Ts.map UTable.rows).sum) := by
  obtain ⟨bss, h1, h2, h3⟩ := file_scan env hmd5 Ts hT
  refine ⟨bss, h1, fun hsz => ?_⟩
  obtain ⟨rs, r1, r2, hs, hl, hm⟩ := h3 hsz
  rw [countRows_scan hs (by simpa [File.known] using hl)]
  have : rowSum (layout 0 rs) = (Ts.map UTable.rows).sum := by
    have key : ∀ (ts : List Tbl) (Ts : List UTable), Match (Holds1 env (File.known bss.flatten)) ts Ts →
        rowSum ts = (Ts.map UTable.rows).sum := by
      intro ts Ts hm
      induction hm with
      | nil => rfl
      | cons h _ ih =>
        obtain ⟨⟨r, hc, hi, _⟩, _⟩ := h.shows
        rw [rowSum_cons, List.map_cons, List.sum_cons, ih, hi, hc.nrows]
    exact key _ _ hm
  simp only [Option.elim]
  rw [this, Nat.mod_eq_of_lt hbig]

/-- **C48**, files written row by row: as many as were written, for any buffer size. -/
theorem C48_count_written (env : Env) (hmd5 : env.Md5Ok) (cap : Nat) (hcap : 0 < cap) (T : UTable) (hT : T.RowsOk env cap)
    (hcols : T.cols ≠ []) :
    ∃ fs, T.write env .same cap = .ok fs ∧ ((∀ f ∈ fs, f.length ≤ 2147483647) → countRows env fs.flatten = .ok T.rows) := by
  obtain ⟨fs, h1, h2⟩ := C47_rows_as_frames env hmd5 cap hcap T hT hcols
  refine ⟨fs, h1, fun hs => ?_⟩
  obtain ⟨ts, t1, t2, t3⟩ := h2 hs
  obtain ⟨ts', k1, he, _⟩ := readPlain_iff.mp t1
  have hts : ts = ts' := by
    have := congrArg List.flatten he
    simpa [flatten_singles] using this
  subst hts
  rw [countRows_scan k1 k1.few]
  have := written_sum T cap ts (fun k t hk => ⟨(t3 k t hk).rows, (t3 k t hk).some_rows⟩) 0 ts.length (by omega)
  rw [List.drop_zero, List.take_length] at this
  simp only [Option.elim]
  rw [this, t2]
  have := Nat.lt_div_mul_add (a := T.rows + cap - 1) hcap
  rw [Nat.min_eq_right (by omega), Nat.zero_mul, Nat.sub_zero, Nat.mod_eq_of_lt hT.big]

/-- **C48**, several files: `odc count a b ...` is the count of the concatenation. -/
theorem C48_count_files (env : Env) (files : List (List Byte)) (h : ∀ f ∈ files, ∃ fs, readPlain env f = (fs, none)) :
    ∃ n, countFiles env files = .ok n ∧ countRows env files.flatten = .ok n := by
  have key : (∃ fs, readPlain env files.flatten = (fs, none)) ∧
      ∃ n, countFiles env files = .ok n ∧ countRows env files.flatten = .ok n := by
    induction files with
    | nil =>
      have h0 : readPlain env [] = ([], none) := by
        refine readPlain_iff.mpr ⟨[], ⟨trivial, ?_⟩, rfl, by simp⟩
        simp [readTable, endPos, File.known, parseHeader]
      exact ⟨⟨[], h0⟩, 0, rfl, by simpa using C48_count env [] [] h0⟩
    | cons f files ih =>
      obtain ⟨⟨gs, g1⟩, n, n1, n2⟩ := ih (fun x hx => h x (by simp [hx]))
      obtain ⟨fs, f1⟩ := h f (by simp)
      have hc := C12_concatenation env f _ fs gs f1 g1
      refine ⟨⟨_, hc⟩, _, ?_, C48_count env _ _ hc⟩
      have k1 := C48_count env _ _ f1
      have k2 := C48_count env _ _ g1
      rw [n2] at k2
      simp only [Except.ok.injEq] at k2
      simp only [countFiles, k1, n1, k2]
      rw [List.map_append, List.sum_append]
      have hsh : (gs.map (List.map (Tbl.shift f.length))).map frameRows = gs.map frameRows := by
        rw [List.map_map]
        refine List.map_congr_left ?_
        intro fr _
        simp only [Function.comp_apply, frameRows, List.foldl_map]
        rfl
      rw [hsh, ← Nat.add_mod]
  exact key.2

/-- **C48**, damaged files: a count is given only if tables follow one another from the start of the file to its end
(and then it is the sum of their rows); otherwise there is an error, which is the one met at the first place where no table
can be read.  `Forward`: no table announces a negative size, see `C45_violated_loop`. -/
theorem C48_count_damaged (env : Env) (bytes : List Byte) (hf : Forward env (File.known bytes)) :
    ∃ ts : List Tbl, Chain env (File.known bytes) 0 ts ∧
      ((readTable env (File.known bytes) (endPos 0 ts) = .ok none ∧
          countRows env bytes = .ok ((ts.map (fun t => t.info.nrows)).sum % 18446744073709551616)) ∨
        ∃ e, readTable env (File.known bytes) (endPos 0 ts) = .error e ∧ e ≠ .diverges ∧ countRows env bytes = .error e) := by
  obtain ⟨ts, fin, hs, hd⟩ := scan_exists env _ hf
  refine ⟨ts, hs.1, ?_⟩
  have hl : ts.length ≤ bytes.length := by
    have := chain_few hf hs.1
    simp only [File.known] at this
    omega
  have hc := countRows_scan hs hl
  have h2 := hs.2
  cases fin with
  | none => exact Or.inl ⟨h2, hc⟩
  | some e => exact Or.inr ⟨e, h2, fun h => hd (by rw [h]), hc⟩

/-! ### Cases -/

/-- The sample file of three tables has 8 rows; two copies of it, 16; a byte missing at the end is an error. -/
example : onSample (fun b => decide (countRows sampleEnv b = .ok 8)) = true := by decide +kernel
example : onSample (fun b => decide (countFiles sampleEnv [b, b] = .ok 16)) = true := by decide +kernel
example : onSample (fun b => decide (countRows sampleEnv (b.take (b.length - 1)) = .error .incomplete)) = true := by decide +kernel
example := C48_count_written sampleEnv sampleEnv_md5 2 (by decide) sampleTable sampleTable_rowsOk (by simp [sampleTable])

end Verif
