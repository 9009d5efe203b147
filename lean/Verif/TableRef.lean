import Verif.Table

/-
`Table::decode` by column names against the reference semantics, and projection.
-/

namespace Verif

theorem clonedMissing_ok (c : Codec) : ∃ w, c.clonedMissing = .ok w := by
  unfold Codec.clonedMissing
  split
  · unfold toVT
    cases c.vt
    · simp only
      have : fcast (-9223372036854775808) 9223372036854775807 integerMDI = .ok 2147483647 := by
        unfold integerMDI
        exact fcast_ofInt _ _ _ (by unfold Small; omega) (by omega) (by omega)
      rw [this]; exact ⟨_, rfl⟩
    · exact ⟨_, rfl⟩
  · exact ⟨_, rfl⟩

/-- The word written in the first row of a wanted column before decoding. -/
def Codec.firstWord (c : Codec) : Word :=
  match c.clonedMissing with
  | .ok w => w
  | .error _ => 0

theorem clonedMissing_eq (c : Codec) : c.clonedMissing = .ok c.firstWord := by
  obtain ⟨w, h⟩ := clonedMissing_ok c
  rw [h]; simp [Codec.firstWord, h]

/-- Row preceding the first row of a table: missing in the wanted columns. -/
def firstRow (cs : List (Codec × Bool)) : List Cell := cs.map (fun e => if e.2 then [e.1.firstWord] else [])

/-- The columns of a table with the requested positions marked. -/
def wanted (cols : List Col) (ps : List Nat) : List (Codec × Bool) :=
  (List.range cols.length).map (fun p =>
    ((match cols[p]? with | some c => c.codec | none => fresh .int32 1 true), decide (p ∈ ps)))

theorem wanted_getElem? (cols : List Col) (ps : List Nat) (p : Nat) :
    (wanted cols ps)[p]? = (cols[p]?).map (fun c => (c.codec, decide (p ∈ ps))) := by
  unfold wanted
  rw [List.getElem?_map]
  rcases Nat.lt_or_ge p cols.length with h | h
  · rw [List.getElem?_range h, List.getElem?_eq_getElem h]; simp [h]
  · rw [List.getElem?_eq_none (by simpa using h), List.getElem?_eq_none h]; rfl

theorem initCells_slots (ss : List Slot) (h : ∀ s ∈ ss, s.first = s.codec.clonedMissing) :
    initCells ss = .ok (firstRow (slotCodecs ss)) := by
  induction ss with
  | nil => rfl
  | cons s ss ih =>
    have hs := h s (by simp)
    simp only [initCells, slotCodecs, List.map_cons, firstRow]
    rw [ih (fun t ht => h t (by simp [ht])), hs, clonedMissing_eq]
    cases s.visit <;> simp [Except.map, firstRow, slotCodecs]

theorem zip_find {ps : List Nat} {ts : List Target} (hl : ps.length = ts.length) (hnd : ps.Nodup) (p : Nat) :
    (p ∉ ps → (ps.zip ts).find? (fun e => decide (e.1 = p)) = none) ∧
    (∀ (i : Nat) (t : Target), ps[i]? = some p → ts[i]? = some t → (ps.zip ts).find? (fun e => decide (e.1 = p)) = some (p, t)) := by
  induction ps generalizing ts with
  | nil => simp
  | cons q ps ih =>
    cases ts with
    | nil => simp at hl
    | cons t ts =>
      have hnd' := List.nodup_cons.mp hnd
      obtain ⟨h1, h2⟩ := ih (ts := ts) (by simpa using hl) hnd'.2
      constructor
      · intro hp
        simp only [List.mem_cons, not_or] at hp
        rw [List.zip_cons_cons, List.find?_cons_of_neg (by simpa using fun h => hp.1 h.symm)]
        exact h1 hp.2
      · intro i t' hi ht
        cases i with
        | zero =>
          simp at hi ht; subst hi; subst ht
          simp
        | succ i =>
          simp only [List.getElem?_cons_succ] at hi ht
          have : q ≠ p := by
            intro h; rw [h] at hnd'; exact hnd'.1 (List.mem_of_getElem? hi)
          rw [List.zip_cons_cons, List.find?_cons_of_neg (by simpa using this)]
          exact h2 i t' hi ht

/-- `Table::decode` on arbitrary data, against the reference semantics. -/
theorem tableDecode_ref (cols : List Col) (nrows : Nat) (hn : 0 < nrows) (data : List Byte) (L : Lookup)
    (req : List (Str × Target)) (ps : List Nat) (hlen : req.length ≤ cols.length)
    (hres : resolve L nrows req [] = .ok ps) (hps : ∀ p ∈ ps, p < cols.length)
    (hel : ∀ (i : Nat) (nm : Str) (t : Target) (p : Nat) (c : Col), req[i]? = some (nm, t) → ps[i]? = some p → cols[p]? = some c →
      c.codec.decWidth ≤ t.elem ∧ 1 ≤ t.elem ∧ ∀ r, (t.mem r).length = t.elem) :
    match refRows .same (wanted cols ps) nrows 0 (firstRow (wanted cols ps)) data with
    | .error e => tableDecode .same cols nrows data L req = .error e
    | .ok (rows, _) => rows.length = nrows ∧ ∃ out, tableDecode .same cols nrows data L req = .ok out ∧
        out.length = req.length ∧
        ∀ (i : Nat) (nm : Str) (t : Target) (p : Nat), req[i]? = some (nm, t) → ps[i]? = some p → ∃ m : Nat → Cell, out[i]? = some m ∧
          (∀ r, r < nrows → Holds (m r) ((rows.getD r []).getD p [])) ∧
          (∀ r, (m r).length = t.elem) ∧ ∀ r, nrows ≤ r → m r = t.mem r := by
  obtain ⟨r1, r2, _, r4⟩ := resolve_ok L nrows req [] ps hres
  have hzl : ps.length = (req.map Prod.snd).length := by simp [r1]
  generalize hss : (List.range cols.length).map (mkSlot cols (req.map Prod.snd) ps) = ss
  -- the slots
  have hslot : ∀ (p : Nat) (s : Slot), ss[p]? = some s → ∃ c, cols[p]? = some c ∧ s.codec = c.codec ∧
      s.first = s.codec.clonedMissing ∧ s.last = 0 ∧
      ((p ∉ ps ∧ s.visit = false ∧ s.elem = 0 ∧ s.mem = fun _ => []) ∨
       (∃ (i : Nat) (nm : Str) (t : Target), ps[i]? = some p ∧ req[i]? = some (nm, t) ∧ s.visit = true ∧ s.elem = t.elem ∧ s.mem = t.mem)) := by
    intro p s hs
    rw [← hss, List.getElem?_map, Option.map_eq_some_iff] at hs
    obtain ⟨q, hq, rfl⟩ := hs
    have hqp : q < cols.length ∧ q = p := by
      obtain ⟨hb, hb'⟩ := List.getElem?_eq_some_iff.mp hq
      simp at hb hb'; omega
    obtain ⟨hqb, rfl⟩ := hqp
    refine ⟨cols[q], List.getElem?_eq_getElem hqb, ?_⟩
    unfold mkSlot
    simp only [List.getElem?_eq_getElem hqb]
    by_cases hmem : q ∈ ps
    · obtain ⟨i, hi, hie⟩ := List.mem_iff_getElem.mp hmem
      have h1 : ps[i]? = some q := by rw [List.getElem?_eq_getElem hi, hie]
      have hib : i < req.length := by omega
      have h2 : (req.map Prod.snd)[i]? = some req[i].2 := by
        rw [List.getElem?_map, List.getElem?_eq_getElem hib]; rfl
      rw [(zip_find hzl r2 q).2 i _ h1 h2]
      exact ⟨rfl, rfl, rfl, Or.inr ⟨i, req[i].1, req[i].2, h1, List.getElem?_eq_getElem hib, rfl, rfl, rfl⟩⟩
    · rw [(zip_find hzl r2 q).1 hmem]
      exact ⟨rfl, rfl, rfl, Or.inl ⟨hmem, rfl, rfl, rfl⟩⟩
  have hsl : ss.length = cols.length := by rw [← hss]; simp
  have hmemslot : ∀ s ∈ ss, ∃ p : Nat, ss[p]? = some s := by
    intro s hs
    obtain ⟨p, hp, hpe⟩ := List.mem_iff_getElem.mp hs
    exact ⟨p, by rw [List.getElem?_eq_getElem hp, hpe]⟩
  have hcodecs : slotCodecs ss = wanted cols ps := by
    apply List.ext_getElem?
    intro p
    rw [wanted_getElem?]
    unfold slotCodecs
    rw [List.getElem?_map]
    cases hs : ss[p]? with
    | none =>
      rw [List.getElem?_eq_none_iff] at hs
      rw [List.getElem?_eq_none (by omega)]; rfl
    | some s =>
      obtain ⟨c, e1, e2, _, _, e5⟩ := hslot p s hs
      rw [e1]
      simp only [Option.map_some, e2]
      rcases e5 with ⟨f1, f2, _⟩ | ⟨i, nm, t, f1, _, f3, _⟩
      · simp [f1, f2]
      · simp [f3, List.mem_of_getElem? f1]
  have hw : ∀ s ∈ ss, s.visit = true → s.codec.decWidth ≤ s.elem ∧ 1 ≤ s.elem := by
    intro s hs hv
    obtain ⟨p, hp⟩ := hmemslot s hs
    obtain ⟨c, e1, e2, _, _, e5⟩ := hslot p s hp
    rcases e5 with ⟨_, f2, _⟩ | ⟨i, nm, t, f1, f2, f3, f4, f5⟩
    · rw [f2] at hv; simp at hv
    · obtain ⟨a, b, _⟩ := hel i nm t p c f2 f1 e1
      rw [e2, f4]; exact ⟨a, b⟩
  have hmem : ∀ s ∈ ss, ∀ r, (s.mem r).length = s.elem := by
    intro s hs r
    obtain ⟨p, hp⟩ := hmemslot s hs
    obtain ⟨c, e1, e2, _, _, e5⟩ := hslot p s hp
    rcases e5 with ⟨_, _, f3, f4⟩ | ⟨i, nm, t, f1, f2, f3, f4, f5⟩
    · rw [f3, f4]; rfl
    · rw [f4, f5]; exact (hel i nm t p c f2 f1 e1).2.2 r
  have href := decodeTable_ref .same nrows ss data hn (fun s hs hv => (hw s hs hv).1)
    (fun s hs hv => (hw s hs hv).2)
    (fun s hs => by obtain ⟨p, hp⟩ := hmemslot s hs; obtain ⟨_, _, _, _, h, _⟩ := hslot p s hp; exact h) hmem
  rw [initCells_slots ss (fun s hs => by
    obtain ⟨p, hp⟩ := hmemslot s hs; obtain ⟨_, _, _, h, _⟩ := hslot p s hp; exact h), hcodecs] at href
  simp only at href
  have hunf : tableDecode .same cols nrows data L req =
      match decodeTable .same nrows ss data with
        | .error e => .error e
        | .ok ss => .ok (ps.map (fun p => match ss[p]? with
            | some s => s.mem
            | none => fun _ => [])) := by
    unfold tableDecode
    rw [if_neg (by omega), hres]
    simp only
    rw [if_neg (by omega), if_neg (by simp), hss]
    rfl
  rw [hunf]
  cases hr : refRows .same (wanted cols ps) nrows 0 (firstRow (wanted cols ps)) data with
  | error e => rw [hr] at href; simp only at href ⊢; rw [href]
  | ok q =>
    obtain ⟨rows, rest⟩ := q
    rw [hr] at href
    simp only at href ⊢
    obtain ⟨h1, ss', h2, h3, h4⟩ := href
    rw [h2]
    refine ⟨h1, _, rfl, by simp [r1], ?_⟩
    intro i nm t p hi hp
    have hpb := hps p (List.mem_of_getElem? hp)
    have hsp : ss[p]? = some ss[p] := List.getElem?_eq_getElem (by omega)
    obtain ⟨s', g1, g2, _⟩ := h4 p ss[p] hsp
    obtain ⟨c, _, _, _, _, e5⟩ := hslot p ss[p] hsp
    rcases e5 with ⟨f1, _⟩ | ⟨i', nm', t', f1, f2, f3, f4, f5⟩
    · exact absurd (List.mem_of_getElem? hp) f1
    · have hii : i' = i := by
        obtain ⟨b1, b2⟩ := List.getElem?_eq_some_iff.mp f1
        obtain ⟨b3, b4⟩ := List.getElem?_eq_some_iff.mp hp
        exact (List.getElem_inj r2).mp (b2.trans b4.symm)
      subst hii
      rw [hi] at f2
      simp only [Option.some.injEq, Prod.mk.injEq] at f2
      obtain ⟨rfl, rfl⟩ := f2
      obtain ⟨k1, k2, k3⟩ := g2 f3
      refine ⟨s'.mem, by rw [List.getElem?_map, hp]; simp [g1], k1, ?_, ?_⟩
      · intro r; rw [k2 r, f4]
      · intro r hr'; rw [k3 r hr', f5]

theorem wanted_proj (cols : List Col) (ps qs : List Nat) (h : ∀ p ∈ qs, p ∈ ps) :
    Proj (wanted cols ps) (wanted cols qs) (firstRow (wanted cols ps)) (firstRow (wanted cols qs)) := by
  unfold wanted firstRow
  generalize List.range cols.length = l
  induction l with
  | nil => exact .nil
  | cons p l ih =>
    refine .cons ?_ ih
    intro hv
    have hq : p ∈ qs := by simpa using hv
    simp [h p hq, hq]

end Verif
