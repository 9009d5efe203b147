import Verif.PropC22

/-
The C encoder: columns in memory of their own, with strides.
-/

namespace Verif

theorem ownCols_eq (env : Env) (m : Mem) (n : Nat) (ics : List InCol) (cs : List EncArg) (at_ step : Nat → Nat) (k : Nat)
    (hi : cs.map EncArg.info = ics.map InCol.info) (hr : ∀ ic ∈ ics, ic.vals.rows = n ∧ 1 ≤ ic.vals.words)
    (hown : ∀ (i : Nat) (c : EncArg) (ic : InCol), cs[i]? = some c → ics[i]? = some ic →
      c.data = some (at_ (k + i)) ∧ c.stride % 8 = 0 ∧ step (k + i) = if c.stride = 0 then 8 * ic.vals.words else c.stride)
    (hold : ∀ (i : Nat) (ic : InCol) (r w : Nat) (y : Cell) (x : Word), ics[i]? = some ic → (ic.vals.cells env)[r]? = some y →
      y[w]? = some x → m.word (at_ (k + i) + r * step (k + i) + 8 * w) = x) :
    ownCols m n cs = .ok (ics.map (InCol.data env)) := by
  induction ics generalizing cs k with
  | nil =>
    cases cs with
    | nil => rfl
    | cons c cs => simp at hi
  | cons ic ics ih =>
    cases cs with
    | nil => simp at hi
    | cons c cs =>
      simp only [List.map_cons, List.cons.injEq] at hi
      obtain ⟨hr1, hr2⟩ := hr ic (by simp)
      obtain ⟨o1, o2, o3⟩ := hown 0 c ic rfl rfl
      have hsz : c.info.decodedSize = 8 * ic.vals.words := by rw [hi.1]; rfl
      have hcells : cellsAt m (at_ (k + 0)) (step (k + 0)) ic.vals.words n = ic.vals.cells env := by
        have := cellsAt_eq m (at_ (k + 0)) (step (k + 0)) ic.vals.words (ic.vals.cells env) (Vals.cells_words env ic.vals)
          (fun r w y x => hold 0 ic r w y x rfl)
        rwa [Vals.cells_length, hr1] at this
      have hone : ownCol m n c = .ok (ic.data env) := by
        unfold ownCol
        rw [o1]
        dsimp only
        rw [hsz, ← o3]
        have h8 : step (k + 0) % 8 = 0 := by rw [o3]; split <;> omega
        rw [if_neg (by omega), Nat.mul_div_cancel_left _ (by omega), hcells]
        rfl
      have hrest := ih cs (k + 1) hi.2 (fun x hx => hr x (by simp [hx]))
        (fun i c' ic' h1 h2 => by
          have := hown (i + 1) c' ic' (by simpa using h1) (by simpa using h2)
          rwa [show k + (i + 1) = k + 1 + i by omega] at this)
        (fun i ic' r w y x h1 h2 h3 => by
          have := hold (i + 1) ic' r w y x (by simpa using h1) h2 h3
          rwa [show k + (i + 1) = k + 1 + i by omega] at this)
      simp only [ownCols, hone, hrest, List.map_cons]

/-- **C23 (encoding, columns of their own)**: a table whose column `i` lies at the address `at_ i` of the user's memory
with `step i` bytes between rows (the stride given, or the size of an element if none was given) is encoded exactly as
`encode` encodes the table.  Columns may share memory, as the members of an array of structures do. -/
theorem C23_encode_columns (env : Env) (T : UTable) (hT : T.Ok env) (hrows : 0 < T.rows) (m : Mem) (e : Enc) (fuel : Nat)
    (hcols : e.cols.map (fun c => sized c.info) = T.cols.map InCol.info) (hr : e.nrows = T.rows) (hp : e.props = T.props)
    (hlim : 0 < e.limit) (harr : e.arr = none) (hword : ∀ c ∈ T.cols, 1 ≤ c.vals.words) (at_ step : Nat → Nat)
    (hown : ∀ (i : Nat) (c : EncArg) (ic : InCol), e.cols[i]? = some c → T.cols[i]? = some ic →
      c.data = some (at_ i) ∧ c.stride % 8 = 0 ∧ step i = if c.stride = 0 then 8 * ic.vals.words else c.stride)
    (hold : HoldsTable env m T (fun i r w => at_ i + r * step i + 8 * w)) :
    odcEncode env m e fuel = T.encodeLimit env e.limit fuel := by
  unfold odcEncode
  rw [if_neg (by omega)]
  have hfill : fillEnc m e = .ok (T.cols.map (InCol.data env)) := by
    unfold fillEnc
    dsimp only
    rw [if_neg (by omega), harr]
    dsimp only
    refine ownCols_eq env m e.nrows T.cols _ at_ step 0 (by rw [List.map_map]; exact hcols) ?_ ?_ ?_
    · intro ic hic
      exact ⟨by rw [(hT.col ic hic).2.2, hr], hword ic hic⟩
    · intro i c ic h1 h2
      rw [List.getElem?_map, Option.map_eq_some_iff] at h1
      obtain ⟨c', h1, rfl⟩ := h1
      rw [Nat.zero_add]
      exact hown i c' ic h1 h2
    · intro i ic r w y x h1 h2 h3
      rw [Nat.zero_add]
      exact hold i ic r w y x h1 h2 h3
  rw [hfill]
  dsimp only
  rw [if_neg (by simp [hT.ne]), hcols, hp]
  rfl

/-- Without an array a column without memory is refused. -/
theorem C23_encode_nodata (env : Env) (m : Mem) (e : Enc) (fuel : Nat) (harr : e.arr = none)
    (h : ∃ c ∈ e.cols, c.data = none) : ∀ b, odcEncode env m e fuel ≠ .ok b := by
  intro b
  have hown : ∀ (cs : List EncArg), (∃ c ∈ cs, c.data = none) → ∀ ds, ownCols m e.nrows cs ≠ .ok ds := by
    intro cs
    induction cs with
    | nil => intro h; obtain ⟨c, hc, _⟩ := h; simp at hc
    | cons c cs ih =>
      intro h ds
      obtain ⟨d, hd, hd'⟩ := h
      unfold ownCols
      rcases List.mem_cons.mp hd with rfl | hd
      · unfold ownCol; rw [hd']; simp
      · cases ownCol m e.nrows c with
        | error x => simp
        | ok y =>
          dsimp only
          cases hx : ownCols m e.nrows cs with
          | error x => simp
          | ok ys => exact absurd hx (ih ⟨d, hd, hd'⟩ ys)
  unfold odcEncode
  split
  · simp
  · cases hf : fillEnc m e with
    | error x => simp
    | ok ds =>
      unfold fillEnc at hf
      dsimp only at hf
      rw [harr] at hf
      split at hf
      · simp at hf
      · dsimp only at hf
        refine absurd hf (hown _ ?_ ds)
        obtain ⟨c, hc, hd⟩ := h
        exact ⟨{ c with info := sized c.info }, List.mem_map.mpr ⟨c, hc, rfl⟩, hd⟩

/-- Sample: an encoder of two rows whose string column lies at address 8 in records of 32 bytes and whose integers lie
one after the other at address 64. -/
def ownEnc : Except Err Enc :=
  match ((smallEnc Enc.new).setRows 2).setColumn 0 16 32 8 with
  | .error e => .error e
  | .ok e => e.setColumn 1 8 0 64

/-- It encodes as the table itself. -/
example : (match ownEnc with
    | .ok e => sameOk (odcEncode sampleEnv (memOf [9, w01234567, w89, 9, 9, wabcdefgh, wij, 9, 5, 6]) e 10) (smallTable.encodeLimit sampleEnv 10000 10)
    | .error _ => false) = true := by decide +kernel

/-- It meets the conditions of `C23_encode_columns`. -/
example : ∃ e, ownEnc = .ok e ∧ e.cols.map (fun c => sized c.info) = smallTable.cols.map InCol.info ∧ e.nrows = smallTable.rows ∧
    e.props = smallTable.props ∧ 0 < e.limit ∧ e.arr = none ∧
    ∀ (i : Nat) (c : EncArg) (ic : InCol), e.cols[i]? = some c → smallTable.cols[i]? = some ic →
      c.data = some (if i = 0 then 8 else 64) ∧ c.stride % 8 = 0 ∧
        (if i = 0 then 32 else 8) = if c.stride = 0 then 8 * ic.vals.words else c.stride := by
  refine ⟨_, rfl, rfl, rfl, rfl, by decide, rfl, ?_⟩
  intro i c ic h1 h2
  match i with
  | 0 =>
    simp [smallEnc, Enc.addColumn, Enc.setRows, Enc.new] at h1
    simp [smallTable] at h2
    subst h1; subst h2
    decide
  | 1 =>
    simp [smallEnc, Enc.addColumn, Enc.setRows, Enc.new] at h1
    simp [smallTable] at h2
    subst h1; subst h2
    decide
  | i + 2 => simp [smallTable] at h2

end Verif
