import Verif.PropPass1

/-
`odc split`: the rows of a file go to several files chosen by a template.

Models: src/odc/tools/SplitTool.cc l.155-170 (`split` without the verification), src/odc/WriterDispatchingIterator.cc l.408-448 (`pass1`).
-/

namespace Verif

/-! ### Model -/

/-- The loop of `pass1`, WriterDispatchingIterator.cc l.424-442, over the rows the input iterator yields.  `columns()` of the dispatcher holds the codecs
of the input; here it holds default codecs of the same width, which is all that `columns(md)` of a writer and the comparison look at. -/
def Disp.pass1Loop (env : Env) (o : Order) : Disk → Disp → List RowView → Except Err (Disk × Disp)
  | d, s, [] => .ok (d, s)
  | d, s, v :: vs =>
    match (if v.fresh && !sameShape v.cols s.cols then
        match mergeColList env v.cols with
        | .error e => Except.error e
        | .ok cs => s.change env o d cs
      else .ok (d, s)) with
    | .error e => .error e
    | .ok (d, s) =>
      match s.writeRow env o d v.cells with
      | .error e => .error e
      | .ok (d, s) => Disp.pass1Loop env o d s vs

/-- `pass1` of a new dispatching writer and `close`, WriterDispatchingIterator.cc l.408-448, tools/SplitTool.cc l.155-165: `ks` are the columns of the
input iterator at its beginning, `input` the rows it yields and the exception that ends it, if any.  An input without rows is not an error. -/
def splitRows (env : Env) (o : Order) (tmpl : Str) (max cap : Nat) (d : Disk) (ks : List Col) (input : List RowView × Option Err) :
    Except Err (Nat × Disk) :=
  match input with
  | ([], none) => .ok (0, d)
  | ([], some e) => .error e
  | (v :: vs, fin) =>
    match mergeColList env ks with
    | .error e => .error e
    | .ok cs =>
      match Disp.new cs tmpl max cap false with
      | .error e => .error e
      | .ok s =>
        if ks = [] then .error .assertFailed
        else
          match s.pass1Loop env o d (v :: vs) with
          | .error e => .error e
          | .ok (d, s) =>
            match fin with
            | some e => .error e
            | none =>
              match closeOuts env o d s.outs with
              | .error e => .error e
              | .ok d => .ok ((v :: vs).length, d)

/-- `SplitTool::split` up to the verification, tools/SplitTool.cc l.155-165, on an input file with the contents `bytes` (which no output overwrites): the
number of rows and the files afterwards. -/
def splitFile (env : Env) (tmpl : Str) (max cap : Nat) (d : Disk) (junk : Junk) (bytes : List Byte) (fuel : Nat) : Except Err (Nat × Disk) :=
  match RowIt.begin env junk bytes with
  | .error e => .error e
  | .ok it => splitRows env .same tmpl max cap d it.cols (it.all env junk fuel)

/-! ### A writer with a larger buffer -/

/-- Proof device: `v` is `w` after the frames `x`, possibly with a buffer for wider rows. -/
structure Roomy (x : List (List Byte)) (w v : Writer) : Prop where
  eq : v = { w with alloc := v.alloc, out := x ++ w.out }
  idle : w.alloc = none → w.rows = []
  room : v.alloc = w.alloc ∨ ∃ b, v.alloc = some b ∧ (∀ a, w.alloc = some a → a ≤ b) ∧
    (w.alloc = none → ∀ cs, coders w.cols = some cs → rowWords cs ≤ b)

theorem Roomy.flush {env : Env} {o : Order} {x : List (List Byte)} {w v w' : Writer} (h : Roomy x w v) (hw : w.flush env o = .ok w') :
    ∃ v', v.flush env o = .ok v' ∧ Roomy x w' v' ∧ w'.rows = [] ∧ w'.cap = w.cap ∧ w'.props = w.props := by
  obtain ⟨k1, k2, k3, k4⟩ := flush_keeps env o w w' hw (by
    cases ha : w.alloc with
    | none => exact Or.inr (h.idle ha)
    | some a => exact Or.inl (by simp))
  have heq := h.eq
  generalize hva : v.alloc = va at *
  subst heq
  unfold Writer.flush at hw ⊢
  split at hw
  · simp at hw
  rename_i hi
  rw [if_neg (show ¬ _ = false from hi)]
  dsimp only
  cases ha : w.alloc with
  | none =>
    rw [ha] at hw
    simp only [Except.ok.injEq] at hw
    subst hw
    have hr := h.idle ha
    refine ⟨{ w with alloc := va, out := x ++ w.out }, ?_, ⟨rfl, h.idle, h.room⟩, hr, rfl, rfl⟩
    cases va with
    | none => rfl
    | some b => dsimp only; rw [if_pos hr]
  | some a =>
    rw [ha] at hw
    dsimp only at hw
    have hb : ∃ b, va = some b ∧ a ≤ b := by
      rcases h.room with h | ⟨b, h1, h2, _⟩
      · exact ⟨a, by rw [← hva, ha] at *; exact h, Nat.le_refl _⟩
      · exact ⟨b, h1, h2 a ha⟩
    obtain ⟨b, rfl, hab⟩ := hb
    dsimp only
    split at hw
    · rename_i hr
      simp only [Except.ok.injEq] at hw
      subst hw
      refine ⟨{ w with alloc := some b, out := x ++ w.out }, if_pos hr, ⟨rfl, h.idle, h.room⟩, hr, rfl, rfl⟩
    rename_i hr
    rw [if_neg (show ¬ _ = [] from hr)]
    cases hc : coders w.cols with
    | none => rw [hc] at hw; simp at hw
    | some cs =>
      rw [hc] at hw
      dsimp only at hw ⊢
      cases ho : optimiseAll env w.cols cs with
      | error e => rw [ho] at hw; simp at hw
      | ok opt =>
        rw [ho] at hw
        dsimp only at hw ⊢
        cases hbs : encRows o opt (some w.last) w.rows with
        | error e => rw [hbs] at hw; simp at hw
        | ok bs =>
          rw [hbs] at hw
          dsimp only at hw ⊢
          split at hw
          · simp at hw
          rename_i hfit
          have hmul : w.cap * (8 * a) ≤ w.cap * (8 * b) := Nat.mul_le_mul_left _ (by omega)
          rw [if_neg (by omega)]
          cases hi1 : initRow opt with
          | error e => rw [hi1] at hw; simp at hw
          | ok l =>
            cases hi2 : resetAll env w.cols opt with
            | error e => rw [hi1, hi2] at hw; simp at hw
            | ok cs' =>
              rw [hi1, hi2] at hw
              simp only [Except.ok.injEq] at hw
              subst hw
              refine ⟨_, rfl, ⟨?_, ?_, ?_⟩, rfl, rfl, rfl⟩
              · simp
              · intro; rfl
              · refine Or.inr ⟨b, rfl, ?_, ?_⟩
                · intro a' ha'
                  simp only [Option.some.injEq] at ha'
                  omega
                · intro hn
                  simp at hn

theorem Roomy.writeRow {env : Env} {o : Order} {x : List (List Byte)} {w v w' : Writer} {row : List Cell} (h : Roomy x w v)
    (hw : w.writeRow env o row = .ok w') : ∃ v', v.writeRow env o row = .ok v' ∧ Roomy x w' v' := by
  have heq := h.eq
  generalize hva : v.alloc = va at *
  subst heq
  unfold Writer.writeRow at hw ⊢
  dsimp only
  split at hw
  · simp at hw
  rename_i h1
  rw [if_neg h1]
  split at hw
  · simp at hw
  rename_i h2
  rw [if_neg h2]
  cases hc : coders w.cols with
  | none => rw [hc] at hw; simp at hw
  | some cs =>
    rw [hc] at hw
    dsimp only at hw ⊢
    split at hw
    · simp at hw
    rename_i h3
    rw [if_neg h3]
    split at hw
    · simp at hw
    rename_i h4
    have hb : rowWords cs ≤ va.getD (rowWords cs) ∧ w.alloc.getD (rowWords cs) ≤ va.getD (rowWords cs) := by
      rcases h.room with h' | ⟨b, r1, r2, r3⟩
      · rw [show va = w.alloc from h']; exact ⟨by omega, Nat.le_refl _⟩
      · rw [show va = some b from r1]
        dsimp only [Option.getD_some]
        cases ha : w.alloc with
        | none => have := r3 ha cs hc; exact ⟨this, this⟩
        | some a =>
          have := r2 a ha
          rw [ha] at h4
          simp only [Option.getD_some] at h4 ⊢
          omega
    rw [if_neg (by omega)]
    have hR : Roomy x { w with alloc := some (w.alloc.getD (rowWords cs)), cols := setCoders w.cols (List.zipWith Codec.gather cs row), rows := w.rows ++ [row] }
        { w with alloc := some (va.getD (rowWords cs)), cols := setCoders w.cols (List.zipWith Codec.gather cs row), rows := w.rows ++ [row], out := x ++ w.out } := by
      refine ⟨rfl, by simp, Or.inr ⟨_, rfl, ?_, by simp⟩⟩
      intro a ha
      simp only [Option.some.injEq] at ha
      rw [← ha]
      exact hb.2
    split at hw
    · rename_i h5
      rw [if_pos h5]
      obtain ⟨v', a1, a2, _⟩ := hR.flush hw
      exact ⟨v', a1, a2⟩
    · rename_i h5
      rw [if_neg h5]
      simp only [Except.ok.injEq] at hw
      subst hw
      exact ⟨_, rfl, hR⟩

theorem coders_set (cs : List WCol) (ks : List Codec) (h : coders cs = some ks) :
    coders (setCoders cs (ks.map Codec.resetStats)) = some (ks.map Codec.resetStats) := by
  induction cs generalizing ks with
  | nil => simp only [coders, Option.some.injEq] at h; subst h; rfl
  | cons c cs ih =>
    simp only [coders] at h
    split at h
    · rename_i k ks' h1 h2
      simp only [Option.some.injEq] at h
      subst h
      have := ih ks' h2
      simp only [setCoders] at this
      simp only [setCoders, List.map_cons, List.zipWith_cons_cons, coders, this]
    · simp at h

theorem words_reset (ks : List Codec) : rowWords (ks.map Codec.resetStats) = rowWords ks := by
  unfold rowWords
  rw [List.map_map]
  congr 1

/-- A change of columns leaves the writer as a new one with the columns, but for the frames before and the size of the buffer. -/
theorem Roomy.change {env : Env} {o : Order} {x : List (List Byte)} {w v w1 ws : Writer} {cap : Nat} {cols : List WCol} (h : Roomy x w v)
    (hcap : w.cap = cap) (hp : w.props = []) (hf : w.flush env o = .ok w1) (hs : startWriter env cap cols = .ok ws) :
    ∃ v', v.changeCols env o cols = .ok v' ∧ Roomy (x ++ w1.out) ws v' := by
  obtain ⟨v1, a1, a2, a3, a4, a5⟩ := h.flush hf
  unfold startWriter at hs
  unfold Writer.changeCols
  rw [a1]
  dsimp only
  cases hr : resetCols env cols with
  | error e => rw [hr] at hs; simp at hs
  | ok cs =>
    rw [hr] at hs
    dsimp only at hs ⊢
    have heq := a2.eq
    generalize hva : v1.alloc = va at *
    subst heq
    unfold Writer.writeHeader at hs ⊢
    dsimp only [Writer.withCols, Writer.new] at hs ⊢
    cases hc : coders cs with
    | none => rw [hc] at hs; simp at hs
    | some ks =>
      rw [hc] at hs
      dsimp only at hs ⊢
      cases hi : initRow ks with
      | error e => rw [hi] at hs; simp at hs
      | ok l =>
        rw [hi] at hs
        simp only [Except.ok.injEq] at hs
        subst hs
        dsimp only
        cases va with
        | none =>
          refine ⟨_, rfl, ?_, ?_, Or.inl rfl⟩
          · simp only [Writer.mk.injEq]
            simp [a3, a4, a5, hcap, hp]
          · intro; rfl
        | some b =>
          dsimp only
          by_cases hb : b < rowWords ks
          · rw [if_pos hb]
            refine ⟨_, rfl, ?_, ?_, Or.inl rfl⟩
            · simp only [Writer.mk.injEq]
              simp [a4, a5, hcap, hp]
            · intro; rfl
          · rw [if_neg hb]
            refine ⟨_, rfl, ?_, ?_, Or.inr ⟨b, rfl, ?_, ?_⟩⟩
            · simp only [Writer.mk.injEq]
              simp [a3, a4, a5, hcap, hp]
            · intro; rfl
            · intro a ha
              simp at ha
            · intro _ cs' hcs'
              have := coders_set cs ks hc
              have hcs'' : coders (setCoders cs (ks.map Codec.resetStats)) = some cs' := hcs'
              rw [this] at hcs''
              simp only [Option.some.injEq] at hcs''
              rw [← hcs'', words_reset]
              omega

end Verif
