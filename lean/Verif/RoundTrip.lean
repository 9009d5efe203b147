import Verif.TableRef

/-
Encoding a frame, reading its header and decoding any selection of columns.
-/

namespace Verif

/-- Columns of the frame as the reader sees them. -/
def readCols (env : Env) (es : List EncCol) : List Col := es.map (fun e => e.col.reload env.asDbl)

theorem EncCol.Ok.decWidth {env : Env} {n : Nat} {e : EncCol} (h : e.Ok env n) (x : Cell) (hx : x ∈ e.data.cells) :
    (reload env.asDbl e.info.ty.toInt e.codec).decWidth = (e.back x).length := by
  obtain ⟨bs, _, _, h3⟩ := h.travels.trip .same x hx
  have := h3 []
  rw [List.append_nil] at this
  exact (dec_consumes _ _ _ _ _ this).2.2.symm

theorem wanted_zip (env : Env) (es : List EncCol) (ps : List Nat) :
    wanted (readCols env es) ps =
      (es.zip ((List.range es.length).map (fun p => decide (p ∈ ps)))).map (fun e => (e.1.tr env e.2).dec) := by
  apply List.ext_getElem?
  intro p
  rw [wanted_getElem?]
  simp only [readCols, List.getElem?_map, List.zip, List.getElem?_zipWith]
  rcases Nat.lt_or_ge p es.length with hp | hp
  · rw [List.getElem?_eq_getElem hp, List.getElem?_range hp]
    simp [EncCol.tr, Tr.dec, EncCol.col, Col.reload]
  · rw [List.getElem?_eq_none hp]; simp

theorem curOk_first (ts : List Tr) : CurOk ts (firstRow (ts.map Tr.dec)) := by
  induction ts with
  | nil => exact .nil
  | cons t ts ih =>
    refine .cons ?_ ih
    intro hv
    simp [Tr.dec, hv]

theorem outRow_getElem? (ts : List Tr) (xs : List Cell) (p : Nat) (t : Tr) (x : Cell)
    (ht : ts[p]? = some t) (hx : xs[p]? = some x) : (outRow ts xs)[p]? = some (t.g x) := by
  induction ts generalizing xs p with
  | nil => simp at ht
  | cons t' ts ih =>
    cases xs with
    | nil => simp at hx
    | cons x' xs =>
      cases p with
      | zero => simp at ht hx; subst ht; subst hx; simp [outRow]
      | succ p => simpa [outRow] using ih xs p (by simpa using ht) (by simpa using hx)

/-- **Encode, then decode any selection of columns.**  The frame is decoded from a byte list that starts
with the data section. -/
theorem encode_decode (env : Env) (es : List EncCol) (n : Nat) (hn : 0 < n) (props : StrMap) (hne : es ≠ [])
    (hcols : es.length < 65536) (h : ∀ e ∈ es, e.Ok env n) :
    ∃ bs, encodeFrame env .same (es.map EncCol.info) (es.map EncCol.data) props =
        .ok (putHeader env.md5 .same
          { dataSize := bs.length, nrows := n,
            props := mapSet (lit "encoder") (lit "odc version " ++ env.version) props,
            cols := es.map EncCol.col } ++ bs) ∧
      bs.length ≤ encBuffer (es.map EncCol.data) n ∧
      ∀ (L : Lookup) (req : List (Str × Target)) (ps : List Nat), req.length ≤ es.length →
        resolve L n req [] = .ok ps → (∀ p ∈ ps, p < es.length) →
        (∀ (i : Nat) (nm : Str) (t : Target) (p : Nat) (e : EncCol), req[i]? = some (nm, t) → ps[i]? = some p →
          es[p]? = some e → (reload env.asDbl e.info.ty.toInt e.codec).width ≤ t.elem ∧ 1 ≤ t.elem ∧
            ∀ r, (t.mem r).length = t.elem) →
        ∃ out, tableDecode .same (readCols env es) n bs L req = .ok out ∧ out.length = req.length ∧
          ∀ (i : Nat) (nm : Str) (t : Target) (p : Nat) (e : EncCol), req[i]? = some (nm, t) → ps[i]? = some p →
            es[p]? = some e → ∃ m : Nat → Cell, out[i]? = some m ∧
              (∀ r, r < n → Holds (m r) (e.back (e.data.cells.getD r []))) ∧
              (∀ r, (m r).length = t.elem) ∧ ∀ r, n ≤ r → m r = t.mem r := by
  obtain ⟨bs, e1, e2, e3, _⟩ := encodeFrame_ok env .same es n props hne hcols h
  refine ⟨bs, e1, e2, ?_⟩
  intro L req ps hlen hres hps hel
  have hwid : ∀ c : Codec, c.decWidth ≤ max 1 c.width := by
    intro c
    unfold Codec.decWidth
    cases c.kind <;> simp <;> (try omega)
    split
    · split <;> omega
    · omega
  have href := tableDecode_ref (readCols env es) n hn bs L req ps (by simpa [readCols] using hlen) hres
    (by simpa [readCols] using hps) (by
      intro i nm t p c hi hp hc
      simp only [readCols, List.getElem?_map, Option.map_eq_some_iff] at hc
      obtain ⟨e, he, rfl⟩ := hc
      obtain ⟨a, b, d⟩ := hel i nm t p e hi hp he
      refine ⟨?_, b, d⟩
      have := hwid (reload env.asDbl e.info.ty.toInt e.codec)
      simp only [EncCol.col, Col.reload]
      omega)
  generalize hvs : (List.range es.length).map (fun p => decide (p ∈ ps)) = vs at *
  have hvl : vs.length = es.length := by rw [← hvs]; simp
  have hdec : wanted (readCols env es) ps = (es.zip vs).map (fun e => (e.1.tr env e.2).dec) := by
    rw [wanted_zip, hvs]
  have hread := e3 vs hvl (firstRow (wanted (readCols env es) ps)) (by
    rw [hdec]
    have := curOk_first ((es.zip vs).map (fun e => e.1.tr env e.2))
    simpa [List.map_map, Function.comp_def] using this)
  rw [← hdec] at hread
  have hr0 := hread []
  rw [List.append_nil] at hr0
  rw [hr0] at href
  simp only at href
  obtain ⟨_, out, o1, o2, o3⟩ := href
  refine ⟨out, o1, o2, ?_⟩
  intro i nm t p e hi hp he
  obtain ⟨m, m1, m2, m3, m4⟩ := o3 i nm t p hi hp
  refine ⟨m, m1, ?_, m3, m4⟩
  intro r hr
  have := m2 r hr
  have hz : ((es.zip vs).map (fun e => e.1.tr env e.2))[p]? = some (e.tr env true) := by
    have hpb : p < es.length := (List.getElem?_eq_some_iff.mp he).1
    have hvp : vs[p]? = some true := by
      rw [← hvs, List.getElem?_map, List.getElem?_range hpb]
      simp [List.mem_of_getElem? hp]
    simp [List.zip, List.getElem?_zipWith, he, hvp]
  have hx : (rowAt (es.map EncCol.data) r)[p]? = some (e.data.cells.getD r []) := by
    simp [rowAt, he]
  have ho := outRow_getElem? _ _ _ _ _ hz hx
  have hrow : ((List.range n).map (fun i =>
            outRow ((es.zip vs).map (fun e => e.1.tr env e.2)) (rowAt (es.map EncCol.data) i))).getD r [] =
      outRow ((es.zip vs).map (fun e => e.1.tr env e.2)) (rowAt (es.map EncCol.data) r) := by
    rw [List.getD_eq_getElem?_getD, List.getElem?_map, List.getElem?_range hr]; rfl
  rw [hrow, List.getD_eq_getElem?_getD, ho] at this
  simpa [EncCol.tr] using this

end Verif
