import Verif.Compact
import Verif.PropSelect

/-!
`odc compare` of a file and its copy made by `odc compact`.

Models: none of its own (src/odc/tools/CompareTool.cc l.52-75 and CompactTool.cc l.38-58 are in `Compact`).
-/

namespace Verif

/-- What is read of a row of exact values is the value. -/
theorem Vals.shows_part {env : Env} {v : Vals} (hx : v.Exact) {r : Nat} {y : Cell} (h : (v.part r 1).Gives env 0 y) : v.Shows env r y := by
  have key : ∀ {α : Type} (xs : List α), ((xs.drop r).take 1)[0]? = xs[r]? := by
    intro α xs
    rw [List.getElem?_take, if_pos (by omega), List.getElem?_drop, Nat.add_zero]
  cases v with
  | ints vs => obtain ⟨i, i1, i2⟩ := h; rw [key] at i1; exact ⟨i, i1, i2⟩
  | bits ms vs => obtain ⟨i, i1, i2⟩ := h; rw [key] at i1; exact ⟨i, i1, i2⟩
  | doubles vs => obtain ⟨i, i1, i2⟩ := h; rw [key] at i1; exact ⟨i, i1, i2⟩
  | strings w vs => obtain ⟨s, w', i1, i2, i3⟩ := h; rw [key] at i1; exact ⟨s, w', i1, i2, i3⟩
  | reals vs =>
    obtain ⟨x, x', i1, i2, i3⟩ := h
    rw [key] at i1
    refine ⟨x, i1, ?_⟩
    unfold RealOut at i3
    split at i3
    · rename_i hf
      rw [i2, i3, (feq_mdi x).mp hf]
    · rename_i hf
      rcases i3 with i3 | i3
      · have hn : x ≠ realMDI := fun e => hf ((feq_mdi x).mpr e)
        rw [i2, i3, (hx x (List.mem_of_getElem? i1)).resolve_right hn]
      · rw [i2, i3.1]

/-- The options of `odc compare` without `-dontCheckMissing`: the rows of a table, shown twice, agree. -/
theorem rows_agree_default {env : Env} (had : env.asDbl = true) {T : UTable}
    (hv : ∀ c ∈ T.cols, c.vals.Ok env ∧ c.vals.Exact ∧ c.vals.Finite env) {r : Nat} {v1 v2 : RowView}
    (h1 : IsRow env T r v1) (h2 : IsRow env T r v2) (nanOk : Bool) (xt xc : List Str) : RowAgree ⟨true, nanOk, xt, xc⟩ v1 v2 := by
  obtain ⟨_, hc⟩ := rows_agree hv h1 h2
  refine ⟨?_, ?_⟩
  · refine Match.of_get _ _ (by rw [h1.ncols, h2.ncols]) ?_
    intro p k k2 hk hk2
    obtain ⟨c, hp⟩ : ∃ c, T.cols[p]? = some c := ⟨_, List.getElem?_eq_getElem (by rw [← h1.ncols]; exact (List.getElem?_eq_some_iff.mp hk).1)⟩
    obtain ⟨k1', y1, e1, e2, e3, e4, e5, _⟩ := h1.col p c hp
    obtain ⟨k2', y2, f1, f2, f3, f4, f5, _⟩ := h2.col p c hp
    rw [hk] at e1
    rw [hk2] at f1
    simp only [Option.some.injEq] at e1 f1
    subst e1; subst f1
    exact ⟨by rw [e2, f2], fun _ => ⟨fun _ => ⟨by rw [e3, f3], fun _ => ⟨by rw [e4, f4], by rw [e5, f5]⟩⟩, fun h => by simp at h⟩⟩
  · intro p k1 k2 hk1 hk2 _
    obtain ⟨c, hp⟩ : ∃ c, T.cols[p]? = some c := ⟨_, List.getElem?_eq_getElem (by rw [← h1.ncols]; exact (List.getElem?_eq_some_iff.mp hk1).1)⟩
    obtain ⟨ok, ex, _⟩ := hv c (List.mem_of_getElem? hp)
    obtain ⟨x1, x2, g1, g2, _, _, hag⟩ := hc p k1 k2 hk1 hk2
    refine ⟨x1, x2, g1, g2, ?_⟩
    have one : ∀ {v : RowView} {k : Col} {x : Cell}, IsRow env T r v → v.cols[p]? = some k → v.cells[p]? = some x →
        MissingDefined ⟨true, nanOk, xt, xc⟩ k ∧ (ShownMissing ⟨true, nanOk, xt, xc⟩ k x ↔ ShownMissing .strict k x) := by
      intro v k x hv hk hx
      have hm := hv.mdi had p c k hp hk
      obtain ⟨k', y, e1, _, _, _, _, e6, e7⟩ := hv.col p c hp
      rw [hk] at e1
      rw [hx] at e6
      simp only [Option.some.injEq] at e1 e6
      subst e1; subst e6
      refine ⟨fun _ => ⟨_, hm⟩, ?_⟩
      rw [(defined_of_missing hk hx (hv.missing p c hp)).2, ← mdi_iff ok r x (Vals.shows_part ex e7)]
      unfold ShownMissing
      rw [hm]
      simp only [or_true, Except.ok.injEq, true_and]
      exact eq_comm
    obtain ⟨d1, s1⟩ := one h1 hk1 g1
    obtain ⟨d2, s2⟩ := one h2 hk2 g2
    refine ⟨d1, d2, ?_⟩
    rw [s1, s2]
    rcases hag with h | ⟨n1, n2, hval⟩
    · exact Or.inl h
    · refine Or.inr ⟨n1, n2, ?_⟩
      rcases hval with h | ⟨t, h⟩ | ⟨t, h⟩
      · exact Or.inl h
      · exact Or.inr (Or.inl ⟨t, Or.inl (h.resolve_right (by simp [CmpOpts.strict]))⟩)
      · exact Or.inr (Or.inr ⟨t, Or.inl (h.resolve_right (by simp [CmpOpts.strict]))⟩)

/-- **C62.**  `odc compare` without `-dontCheckMissing`, with any columns excluded, accepts a file written by `encode` and the copy that `odc compact`
makes of it, values missing or not (where the verification of `odc compact` itself may fail, `C62_violated_missing`). -/
theorem C62_compare (env : Env) (hmd5 : env.Md5Ok) (had : env.asDbl = true) (cap : Nat) (hcap : 0 < cap) (Ps : List (List InCol × UTable)) (hne : Ps ≠ [])
    (hT : ∀ p ∈ Ps, p.2.Ok env) (hv : ∀ p ∈ Ps, ∀ c ∈ p.2.cols, c.vals.Ok env ∧ c.vals.Exact) (hfin : ∀ p ∈ Ps, ∀ c ∈ p.2.cols, c.vals.Finite env)
    (hpos : ∀ p ∈ Ps, 0 < p.2.rows)
    (hw : ∀ p ∈ Ps, p.2.Within p.1) (hB : ∀ p ∈ Ps, ∀ b ∈ p.1, b.vals.Ok env ∧ (env.longEnv = true → b.vals.NoEmpty))
    (hg : Grouped Ps) (hbig : (Ps.map (fun p => p.2.rows)).sum < 18446744073709551616) :
    ∃ bss, writeTables env (Ps.map Prod.snd) = .ok bss ∧ ((∀ b ∈ bss, b.length ≤ 2147483647) →
      ∀ (junk j1 j2 : Junk) (fuel : Nat), (Ps.map (fun p => p.2.rows)).sum + 1 < fuel →
        ∃ (out : List (List Byte)) (res : Except Err Bool), compactTool env cap junk j1 j2 bss.flatten fuel = .ok (out, res) ∧
          ((∀ f ∈ out, f.length ≤ 2147483647) → ∀ (nanOk : Bool) (exclTypes exclCols : List Str),
            compareTool env j1 j2 false nanOk exclTypes exclCols bss.flatten out.flatten fuel = .ok true)) := by
  obtain ⟨bss, w1, w2⟩ := C62_verify env hmd5 cap hcap Ps hne hT hv hfin hpos hw hB hg hbig
  refine ⟨bss, w1, ?_⟩
  intro hs junk j1 j2 fuel hf
  obtain ⟨out, res, o1, o2⟩ := w2 hs junk j1 j2 fuel hf
  refine ⟨out, res, o1, ?_⟩
  intro hso nanOk xt xc
  obtain ⟨vs1, vs2, u1, v1, u2, v2, _⟩ := o2 hso
  have hrows : Match (RowAgree ⟨true, nanOk, xt, xc⟩) vs1 vs2 := by
    refine Match.of_get _ _ (by rw [← u2.length, ← v2.length]) ?_
    intro i a b ha hb
    obtain ⟨x, hx⟩ : ∃ x, (allRows (Ps.map Prod.snd))[i]? = some x := ⟨_, List.getElem?_eq_getElem (by rw [u2.length]; exact (List.getElem?_eq_some_iff.mp ha).1)⟩
    have hm := (allRows_mem (List.mem_of_getElem? hx)).1
    obtain ⟨p, hp, hpe⟩ := List.mem_map.mp hm
    exact rows_agree_default had (fun c hc => by rw [← hpe] at hc; exact ⟨(hv p hp c hc).1, (hv p hp c hc).2, hfin p hp c hc⟩)
      (u2.get i x a hx ha) (v2.get i x b hx hb) nanOk xt xc
  have hall : allRows (Ps.map Prod.snd) ≠ [] := by
    cases Ps with
    | nil => exact absurd rfl hne
    | cons p Ps =>
      have := hpos p (by simp)
      intro h
      have hl := congrArg List.length h
      rw [allRows_length] at hl
      simp only [List.map_cons, List.sum_cons, List.length_nil] at hl
      omega
  show compareFiles env j1 j2 ⟨true, nanOk, xt, xc⟩ bss.flatten out.flatten fuel = .ok true
  rw [C34_compare]
  refine ⟨?_, vs1, vs2, u1, v1, hrows⟩
  cases hrows with
  | nil => exact absurd (List.length_eq_zero_iff.mp u2.length) hall
  | cons r _ => exact ⟨_, _, firstCols_head u1, firstCols_head v1, r.1⟩

/-! ### A concrete case -/

/-- Sample: the two tables of `halfMissing` (of which the verification of `odc compact` fails), with the columns of both. -/
def halfCase : List (List InCol × UTable) := halfMissing.map (fun T => ([⟨lit "a", .ints [1, 2, 3, 2147483647]⟩], T))

theorem halfCase_vals : ∀ p ∈ halfCase, ∀ c ∈ p.2.cols, c.vals.Ok dblEnv ∧ c.vals.Exact := by
  intro p hp c hc
  simp only [halfCase, halfMissing, List.map_cons, List.map_nil, List.mem_cons, List.not_mem_nil, or_false] at hp
  rcases hp with rfl | rfl
  all_goals
    simp only [List.mem_singleton] at hc
    subst hc
    exact ⟨ball (P := InI32) (by decide +kernel), trivial⟩

/-- `C62_compare` applies to a file of which the verification of `odc compact` fails. -/
example :=
  C62_compare dblEnv sampleEnv_md5 rfl 10 (by decide) halfCase (by simp [halfCase, halfMissing])
    (by
      intro p hp
      have hv := halfCase_vals p hp
      simp only [halfCase, halfMissing, List.map_cons, List.map_nil, List.mem_cons, List.not_mem_nil, or_false] at hp
      have hc : ∀ c ∈ p.2.cols, LenOk c.name.length ∧ c.vals.rows = p.2.rows := by
        rcases hp with rfl | rfl <;> exact ball (by decide +kernel)
      refine ⟨⟨?_, ?_, fun c hcc => ⟨(hc c hcc).1, (hv c hcc).1.codable, (hc c hcc).2⟩, ?_, ?_, ?_, ?_, ?_⟩, ?_⟩
      all_goals rcases hp with rfl | rfl
      all_goals first
        | decide +kernel
        | exact ball (by decide +kernel)
        | exact List.Pairwise.nil
        | (intro kv hkv; cases hkv; done))
    halfCase_vals
    (by
      intro p hp c hc
      simp only [halfCase, halfMissing, List.map_cons, List.map_nil, List.mem_cons, List.not_mem_nil, or_false] at hp
      rcases hp with rfl | rfl
      all_goals
        simp only [List.mem_singleton] at hc
        subst hc
        exact Or.inl rfl)
    (by
      intro p hp
      simp only [halfCase, halfMissing, List.map_cons, List.map_nil, List.mem_cons, List.not_mem_nil, or_false] at hp
      rcases hp with rfl | rfl <;> decide)
    (by
      intro p hp
      simp only [halfCase, halfMissing, List.map_cons, List.map_nil, List.mem_cons, List.not_mem_nil, or_false] at hp
      rcases hp with rfl | rfl
      all_goals exact .cons ⟨rfl, ball (P := fun x => x ∈ [1, 2, 3, 2147483647]) (by decide +kernel)⟩ .nil)
    (by
      intro p hp b hb
      simp only [halfCase, halfMissing, List.map_cons, List.map_nil, List.mem_cons, List.not_mem_nil, or_false] at hp
      rcases hp with rfl | rfl
      all_goals
        simp only [List.mem_singleton] at hb
        subst hb
        exact ⟨ball (P := InI32) (by decide +kernel), fun _ => trivial⟩)
    ⟨Or.inl rfl, trivial⟩ (by decide)

end Verif
