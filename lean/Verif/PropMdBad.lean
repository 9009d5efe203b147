import Verif.PropMdVal

/-!
`odc mdset`: refusals, violations and samples (C49).
-/

namespace Verif

/-- Specification: the first update that cannot be made in a table with these columns, and the exception: no column, or more
than one, has the name, or a value is given to a column that is not constant. -/
inductive MdBad : List MdUpdate → List Col → Err → Prop
  | notFound (u : MdUpdate) (us : List MdUpdate) (cs : List Col) : (∀ c ∈ cs, ¬ Means u.column c.name) →
      MdBad (u :: us) cs .columnNotFound
  | ambiguous (u : MdUpdate) (us : List MdUpdate) (cs : List Col) (p q : Nat) (c d : Col) : p ≠ q → cs[p]? = some c → cs[q]? = some d →
      Means u.column c.name → Means u.column d.name → MdBad (u :: us) cs .ambiguousColumn
  | notConstant (u : MdUpdate) (us : List MdUpdate) (cs : List Col) (p : Nat) (c : Col) : cs[p]? = some c → Means u.column c.name →
      (∀ (p' : Nat) (c' : Col), cs[p']? = some c' → Means u.column c'.name → p' = p) → u.value ≠ none → ¬ c.codec.kind.IsConstant →
      MdBad (u :: us) cs .userError
  | later (u : MdUpdate) (us : List MdUpdate) (cs : List Col) (e : Err) : u.Allowed cs → MdBad us cs e → MdBad (u :: us) cs e

/-- Proof device: names and kinds of codecs are the same. -/
def SameNames (cs cs' : List Col) : Prop := cs.map (fun c => (c.name, c.codec.kind)) = cs'.map (fun c => (c.name, c.codec.kind))

theorem SameNames.get {cs cs' : List Col} (h : SameNames cs cs') {p : Nat} {c : Col} (hc : cs[p]? = some c) :
    ∃ c', cs'[p]? = some c' ∧ c'.name = c.name ∧ c'.codec.kind = c.codec.kind := by
  have := congrArg (fun l => l[p]?) h
  simp only [List.getElem?_map, hc, Option.map_some] at this
  cases hc' : cs'[p]? with
  | none => rw [hc'] at this; cases this
  | some c' =>
    rw [hc'] at this
    simp only [Option.map_some, Option.some.injEq, Prod.mk.injEq] at this
    exact ⟨c', rfl, this.1.symm, this.2.symm⟩

theorem SameNames.symm {cs cs' : List Col} (h : SameNames cs cs') : SameNames cs' cs := Eq.symm h

theorem SameNames.allowed {cs cs' : List Col} (h : SameNames cs cs') {u : MdUpdate} (ha : u.Allowed cs) : u.Allowed cs' := by
  obtain ⟨p, c, h1, h2, h3, h4⟩ := ha
  obtain ⟨c', k1, k2, k3⟩ := h.get h1
  refine ⟨p, c', k1, by rw [k2]; exact h2, ?_, fun hv => by rw [k3]; exact h4 hv⟩
  intro p' d hd hm
  obtain ⟨d', j1, j2, _⟩ := h.symm.get hd
  exact h3 p' d' j1 (by rw [j2]; exact hm)

theorem SameNames.bad {cs cs' : List Col} (h : SameNames cs cs') {us : List MdUpdate} {e : Err} (hb : MdBad us cs e) : MdBad us cs' e := by
  induction hb generalizing cs' with
  | notFound u us cs h1 =>
    refine MdBad.notFound u us cs' ?_
    intro c hc hm
    obtain ⟨i, hi⟩ := List.mem_iff_getElem?.mp hc
    obtain ⟨d, d1, d2, _⟩ := h.symm.get hi
    exact h1 d (List.mem_of_getElem? d1) (by rw [d2]; exact hm)
  | ambiguous u us cs p q c d h1 h2 h3 h4 h5 =>
    obtain ⟨c', a1, a2, _⟩ := h.get h2
    obtain ⟨d', b1, b2, _⟩ := h.get h3
    exact MdBad.ambiguous u us cs' p q c' d' h1 a1 b1 (by rw [a2]; exact h4) (by rw [b2]; exact h5)
  | notConstant u us cs p c h1 h2 h3 h4 h5 =>
    obtain ⟨c', a1, a2, a3⟩ := h.get h1
    refine MdBad.notConstant u us cs' p c' a1 (by rw [a2]; exact h2) ?_ h4 (by rw [a3]; exact h5)
    intro p' d hd hm
    obtain ⟨d', j1, j2, _⟩ := h.symm.get hd
    exact h3 p' d' j1 (by rw [j2]; exact hm)
  | later u us cs e h1 _ ih => exact MdBad.later u us cs' e (h.allowed h1) (ih h)

theorem set_names {cs : List Col} {p : Nat} {c : Col} (hc : cs[p]? = some c) (u : MdUpdate) : SameNames cs (cs.set p (u.on c)) := by
  unfold SameNames
  rw [List.map_set]
  refine (List.ext_getElem? ?_)
  intro i
  rw [List.getElem?_set]
  by_cases hi : p = i
  · subst hi
    rw [if_pos rfl, if_pos (by rw [List.length_map]; exact (List.getElem?_eq_some_iff.mp hc).1), List.getElem?_map, hc]
    rfl
  · rw [if_neg hi]

theorem mdCols_bad {toDouble : Str → Except Err Word} {ws : List MdWords} {us : List MdUpdate} (hw : ∀ w ∈ ws, w.Ok)
    (h : Match (MdWords.Asks toDouble) ws us) (cs : List Col) {e : Err} (hb : MdBad us cs e) :
    mdCols toDouble (ws.map MdWords.entry) cs = .error e := by
  induction h generalizing cs with
  | nil => cases hb
  | @cons w u ws us hwu hrest ih =>
    simp only [List.map_cons, mdCols]
    have hcol : w.entry.column = u.column := hwu.column.symm
    rw [hcol]
    cases hb with
    | notFound _ _ _ h1 =>
      rw [((C24_column_index _ _).2.1).mpr (by
        intro n hn
        obtain ⟨c, hc, rfl⟩ := List.mem_map.mp hn
        exact h1 c hc)]
    | ambiguous _ _ _ p q c d h1 h2 h3 h4 h5 =>
      rw [((C24_column_index _ _).2.2.1).mpr ⟨p, q, c.name, d.name, h1, by rw [List.getElem?_map, h2]; rfl,
        by rw [List.getElem?_map, h3]; rfl, h4, h5⟩]
    | notConstant _ _ _ p c h1 h2 h3 h4 h5 =>
      rw [columnIndex_of h1 h2 h3]
      dsimp only
      rw [h1]
      dsimp only
      rw [mdCol_asks (hw w (by simp)) hwu, if_pos ⟨h4, by
        cases hs : c.codec.kind.saysConstant with
        | false => rfl
        | true => exact absurd ((saysConstant_iff _).mp hs) h5⟩]
    | later _ _ _ _ h1 h2 =>
      obtain ⟨p, c, k1, k2, k3, k4⟩ := h1
      rw [columnIndex_of k1 k2 k3]
      dsimp only
      rw [k1]
      dsimp only
      rw [mdCol_asks (hw w (by simp)) hwu, if_neg (by
        rintro ⟨hv, hk⟩
        have := (saysConstant_iff _).mpr (k4 hv)
        rw [this] at hk
        cases hk)]
      dsimp only
      exact ih (fun x hx => hw x (by simp [hx])) _ ((set_names k1 u).bad h2)

theorem mdAll_append (env : Env) (toDouble : Str → Except Err Word) (f : File) (xs : List MdEntry) (fin : Option Err) (as bs : List Tbl)
    (out : List Byte) (h : mdAll env toDouble f xs none as = (out, none)) :
    mdAll env toDouble f xs fin (as ++ bs) = (out ++ (mdAll env toDouble f xs fin bs).1, (mdAll env toDouble f xs fin bs).2) := by
  induction as generalizing out with
  | nil =>
    simp only [mdAll, Prod.mk.injEq] at h
    rw [← h.1]; rfl
  | cons t as ih =>
    simp only [mdAll] at h
    rw [List.cons_append]
    simp only [mdAll]
    cases hm : mdTable env toDouble f xs t with
    | error e => rw [hm] at h; cases h
    | ok b =>
      rw [hm] at h
      simp only [Prod.mk.injEq] at h
      obtain ⟨h1, h2⟩ := h
      have := ih (mdAll env toDouble f xs none as).1 (Prod.ext rfl h2)
      rw [this, ← h1]
      simp

/-- **C49**, refusals: if the updates cannot be made in some frame, `odc mdset` stops there with the exception, and the output
holds what was written for the frames before. -/
theorem C49_refused (env : Env) (hmd5 : env.Md5Ok) (bytes : List Byte) (before after : List (List Tbl)) (fr : List Tbl)
    (h : readPlain env bytes = (before ++ fr :: after, none)) (hs : SizedFrames (before ++ fr :: after))
    (toDouble : Str → Except Err Word) (atoi : Str → Int) (ws : List MdWords) (us : List MdUpdate) (hw : ∀ w ∈ ws, w.Ok)
    (ha : Match (MdWords.Asks toDouble) ws us) (hd : env.asDbl = true ∨ ∀ u ∈ us, u.ty = none)
    (hok : ∀ fr' ∈ before, ∀ t ∈ fr', MdOk us t.info.cols) (e : Err) (hbad : ∀ t ∈ fr, MdBad us t.info.cols e) :
    ∃ bss : List (List Byte), mdset env toDouble atoi (joinWith 44 (ws.map MdWords.text)) bytes = (bss.flatten, some e) ∧
      bss.length = before.length := by
  obtain ⟨ts, h1, hts, h2⟩ := readPlain_iff.mp h
  have hsz : Sized ts := by
    unfold SizedFrames at hs
    rwa [hts, flatten_singles] at hs
  obtain ⟨rs, r1, r2, r3⟩ := scan_raw h1 hsz
  have hsplit : ∃ as t bs, ts = as ++ t :: bs ∧ before = as.map (fun t => [t]) ∧ fr = [t] := by
    obtain ⟨as, l, e1, e2, e3⟩ := List.map_eq_append_iff.mp hts.symm
    obtain ⟨t, bs, e4, e5, e6⟩ := List.map_eq_cons_iff.mp e3
    exact ⟨as, t, bs, by rw [e1, e4], e2.symm, e5.symm⟩
  obtain ⟨as, t, bs, rfl, rfl, rfl⟩ := hsplit
  rw [mdset_scan (mdParse_text atoi ws hw) h1 h1.few]
  have hall : ∀ (i : Nat) (t' : Tbl) (r : RawFrame), (as ++ t :: bs)[i]? = some t' → rs[i]? = some r →
      r.Ok env ∧ t'.info = r.info ∧ t'.order = r.order ∧ t'.data (File.known bytes) = .ok r.data ∧ t'.copy = .ok t' := by
    intro i t' r hi hr
    obtain ⟨a, rest, b⟩ := layout_split (File.known bytes) env rs r1 0 [] (by simp [File.known, r3]) i r hr
    rw [show ((0 : Nat) : Int) = 0 from rfl, ← r2, hi] at a
    obtain rfl := Option.some.inj a
    exact ⟨r1 r (List.mem_of_getElem? hr), rfl, rfl, (stored_table env _ r (r1 r (List.mem_of_getElem? hr)) _ rest b).1,
      h2 _ (List.mem_of_getElem? hi)⟩
  have hlen : rs.length = (as ++ t :: bs).length := by rw [r2, layout_length]
  have hm : Match (fun t r => r.Ok env ∧ t.info = r.info ∧ t.order = r.order ∧ t.data (File.known bytes) = .ok r.data ∧
      t.copy = .ok t ∧ MdOk us t.info.cols) as (rs.take as.length) := by
    refine Match.of_get _ _ (by simp [hlen]) ?_
    intro i a r hi hr
    have hil : i < as.length := (List.getElem?_eq_some_iff.mp hi).1
    have hi' : (as ++ t :: bs)[i]? = some a := by rw [List.getElem?_append_left hil]; exact hi
    rw [List.getElem?_take, if_pos hil] at hr
    obtain ⟨k1, k2, k3, k4, k5⟩ := hall i a r hi' hr
    exact ⟨k1, k2, k3, k4, k5, hok [a] (List.mem_map.mpr ⟨a, List.mem_of_getElem? hi, rfl⟩) a (by simp)⟩
  obtain ⟨bss, e1, e2, _⟩ := mdAll_raw env hmd5 hw ha hd (File.known bytes) none as _ hm
  refine ⟨bss, ?_, by simp [e2]⟩
  rw [mdAll_append _ _ _ _ _ _ _ _ e1]
  have : mdAll env toDouble (File.known bytes) (ws.map MdWords.entry) none (t :: bs) = ([], some e) := by
    simp only [mdAll]
    unfold mdTable
    rw [mdCols_bad hw ha _ (hbad t (by simp))]
  rw [this]
  simp

end Verif
