import Verif.FileRef

/-
Whole tables as the user of `encode` sees them, and what a frame holding such a table offers.
-/

namespace Verif

/-! ### `std::map` operations -/

theorem mapSet_mem (k v : Str) (m : StrMap) : ∀ kv ∈ mapSet k v m, kv ∈ m ∨ kv = (k, v) := by
  induction m with
  | nil => simp [mapSet]
  | cons e m ih =>
    obtain ⟨k', v'⟩ := e
    intro kv h
    simp only [mapSet] at h
    split at h
    · rcases List.mem_cons.mp h with h | h
      · exact Or.inr h
      · exact Or.inl h
    · split at h
      · rcases List.mem_cons.mp h with h | h
        · exact Or.inl (by simp [h])
        · rcases ih kv h with h | h
          · exact Or.inl (by simp [h])
          · exact Or.inr h
      · rename_i h1 h2
        have : k = k' := strLt_total (by simpa using h1) (by simpa using h2)
        subst this
        rcases List.mem_cons.mp h with h | h
        · exact Or.inr h
        · exact Or.inl (by simp [h])

theorem mapSet_ok (k v : Str) (m : StrMap) (h : MapOk m) : MapOk (mapSet k v m) := by
  induction m with
  | nil => simp [mapSet, MapOk]
  | cons e m ih =>
    obtain ⟨k', v'⟩ := e
    simp only [MapOk, List.pairwise_cons] at h
    simp only [mapSet]
    split
    · rename_i hlt
      simp only [MapOk, List.pairwise_cons]
      refine ⟨?_, h⟩
      intro kv hkv
      rcases List.mem_cons.mp hkv with rfl | hkv
      · exact hlt
      · exact strLt_trans hlt (h.1 kv hkv)
    · split
      · rename_i h2
        simp only [MapOk, List.pairwise_cons]
        refine ⟨?_, ih h.2⟩
        intro kv hkv
        rcases mapSet_mem k v m kv hkv with hkv | rfl
        · exact h.1 kv hkv
        · exact h2
      · simp only [MapOk, List.pairwise_cons]; exact h

theorem mapSet_length (k v : Str) (m : StrMap) : (mapSet k v m).length ≤ m.length + 1 := by
  induction m with
  | nil => simp [mapSet]
  | cons e m ih =>
    simp only [mapSet]
    split
    · simp
    · split
      · simp; omega
      · simp

/-- Looking a key up after an assignment. -/
theorem mapGet_mapSet (k v : Str) (m : StrMap) (h : MapOk m) (q : Str) :
    mapGet q (mapSet k v m) = if q = k then some v else mapGet q m := by
  induction m with
  | nil =>
    simp only [mapSet, mapGet, List.find?_cons, List.find?_nil]
    by_cases hq : q = k
    · simp [hq]
    · rw [if_neg hq]; simp [show ¬ k = q from fun e => hq e.symm]
  | cons e m ih =>
    obtain ⟨k', v'⟩ := e
    simp only [MapOk, List.pairwise_cons] at h
    simp only [mapSet]
    split
    · simp only [mapGet, List.find?_cons]
      by_cases hq : q = k
      · simp [hq]
      · rw [if_neg hq]; simp [show ¬ k = q from fun e => hq e.symm]
    · split
      · rename_i h1 h2
        have hih := ih h.2
        simp only [mapGet, List.find?_cons] at hih ⊢
        by_cases hq : k' = q
        · have hne : q ≠ k := by
            intro hc; rw [← hc, ← hq] at h2; rw [strLt_irrefl] at h2; simp at h2
          simp [hq, hne]
        · simp only [hq, decide_false]
          exact hih
      · rename_i h1 h2
        have hk : k = k' := strLt_total (by simpa using h1) (by simpa using h2)
        subst hk
        simp only [mapGet, List.find?_cons]
        by_cases hq : q = k
        · simp [hq]
        · rw [if_neg hq]; simp [show ¬ k = q from fun e => hq e.symm]

/-! ### Tables -/

/-- A table handed to `encode`: columns, number of rows, properties (a `std::map`). -/
structure UTable where
  cols : List InCol
  rows : Nat
  props : StrMap

/-- Limits of the format, and every column can be coded at all (`Vals.Codable`). -/
structure UTable.Fit (env : Env) (T : UTable) : Prop where
  ne : T.cols ≠ []
  few : T.cols.length < 65536
  col : ∀ c ∈ T.cols, LenOk c.name.length ∧ c.vals.Codable env ∧ c.vals.rows = T.rows
  props : MapOk T.props
  nprops : T.props.length < 2147483647
  plen : ∀ kv ∈ T.props, LenOk kv.1.length ∧ LenOk kv.2.length
  version : env.version.length < 2147483600
  rows : T.rows < 9223372036854775808

/-- A table that a frame can carry and whose columns have distinct names. -/
structure UTable.Ok (env : Env) (T : UTable) : Prop extends UTable.Fit env T where
  names : (T.cols.map InCol.name).Nodup

/-- Encoding the whole table in one frame. -/
def UTable.encode (env : Env) (o : Order) (T : UTable) : Except Err (List Byte) :=
  encodeFrame env o (T.cols.map InCol.info) (T.cols.map (InCol.data env)) T.props

/-- The properties stored with a table. -/
def UTable.stored (env : Env) (T : UTable) : StrMap :=
  mapSet (lit "encoder") (lit "odc version " ++ env.version) T.props

theorem toI64_small (n : Nat) (h : n < 9223372036854775808) : toI64 n = n := by
  unfold toI64
  rw [BitVec.toInt_eq_toNat_cond, BitVec.toNat_ofNat, Nat.mod_eq_of_lt (by omega), if_pos (by omega)]

theorem exists_list {α β : Type} (R : α → β → Prop) (l : List α) (h : ∀ a ∈ l, ∃ b, R a b) :
    ∃ m : List β, m.length = l.length ∧ ∀ (i : Nat) (a : α) (b : β), l[i]? = some a → m[i]? = some b → R a b := by
  induction l with
  | nil => exact ⟨[], rfl, by simp⟩
  | cons a l ih =>
    obtain ⟨b, hb⟩ := h a (by simp)
    obtain ⟨m, h1, h2⟩ := ih (fun x hx => h x (by simp [hx]))
    refine ⟨b :: m, by simp [h1], ?_⟩
    intro i x y hx hy
    cases i with
    | zero => simp at hx hy; subst hx; subst hy; exact hb
    | succ i => exact h2 i x y (by simpa using hx) (by simpa using hy)

/-- What a frame says about the table it was made from. -/
structure Carries (env : Env) (o : Order) (r : RawFrame) (T : UTable) : Prop where
  ok : r.Ok env
  order : r.order = o
  nrows : r.info.nrows = T.rows
  props : r.info.props = T.stored env
  ncols : r.info.cols.length = T.cols.length
  copy : cloneCols r.info.cols = .ok r.info.cols
  col : ∀ (p : Nat) (c : InCol) (k : Col), T.cols[p]? = some c → r.info.cols[p]? = some k →
    k.name = c.name ∧ k.ty = c.vals.ty.toInt ∧ k.bitNames = c.vals.members.map Prod.fst ∧
      k.bitSizes = c.vals.members.map Prod.snd ∧ 1 ≤ k.codec.width ∧ k.codec.width ≤ c.vals.words
  codec : ∀ (p : Nat) (c : InCol) (k : Col), T.cols[p]? = some c → r.info.cols[p]? = some k →
    ∃ e, chosenCodec c.vals.ty env.asDbl env.longEnv c.vals.words none (c.vals.cells env) = .ok e ∧
      k.codec = reload env.asDbl c.vals.ty.toInt e
  enc : ∃ es : List EncCol, es.length = T.cols.length ∧
    (∀ (i : Nat) (c : InCol) (e : EncCol), T.cols[i]? = some c → es[i]? = some e → Sent env T.rows c e) ∧
    r.info.cols = readCols env es ∧
    encRows o (es.map EncCol.codec) none (rowsOf (es.map EncCol.data) T.rows) = .ok r.data
  decode : ∀ (L : Lookup) (req : List (Str × Target)) (ps : List Nat), o = .same → req.length ≤ T.cols.length →
    resolve L T.rows req [] = .ok ps → (∀ p ∈ ps, p < T.cols.length) →
    (∀ (i : Nat) (nm : Str) (t : Target) (p : Nat) (k : Col), req[i]? = some (nm, t) → ps[i]? = some p →
      r.info.cols[p]? = some k → k.codec.width ≤ t.elem ∧ ∀ x, (t.mem x).length = t.elem) →
    ∃ out, tableDecode .same r.info.cols T.rows r.data L req = .ok out ∧ out.length = req.length ∧
      ∀ (i : Nat) (nm : Str) (t : Target) (p : Nat) (c : InCol) (k : Col), req[i]? = some (nm, t) → ps[i]? = some p →
        T.cols[p]? = some c → r.info.cols[p]? = some k → ∃ m : Nat → Cell, out[i]? = some m ∧
          (∀ x, x < T.rows → c.vals.Back env x ((m x).take k.codec.width)) ∧
          (∀ x, (m x).length = t.elem) ∧ ∀ x, T.rows ≤ x → m x = t.mem x

theorem cloneCols_of (cs : List Col) (h : ∀ c ∈ cs, c.codec.clone = .ok c.codec) : cloneCols cs = .ok cs := by
  induction cs with
  | nil => rfl
  | cons c cs ih =>
    simp only [cloneCols, h c (by simp), ih (fun d hd => h d (by simp [hd]))]

/-- **Encoding a table**: it succeeds, and the frame (if below 2 GiB) carries the table. -/
theorem UTable.encode_fit (env : Env) (hmd5 : ∀ x, (env.md5 x).length = 32) (T : UTable) (hT : T.Fit env) (o : Order) :
    ∃ bs, T.encode env o = .ok bs ∧ (bs.length ≤ 2147483647 → ∃ r : RawFrame, r.bytes = bs ∧ Carries env o r T) := by
  obtain ⟨es, hl, hes⟩ := exists_list (fun c e => Sent env T.rows c e) T.cols (by
    intro c hc
    obtain ⟨h1, h2, h3⟩ := hT.col c hc
    have := c.sent env h1 h2
    rwa [h3] at this)
  have hS : ∀ e ∈ es, ∃ c ∈ T.cols, Sent env T.rows c e := by
    intro e he
    obtain ⟨i, hi, rfl⟩ := List.getElem_of_mem he
    exact ⟨T.cols[i]'(by omega), List.getElem_mem _, hes i _ _ (List.getElem?_eq_getElem (by omega)) (List.getElem?_eq_getElem hi)⟩
  have hinfo : es.map EncCol.info = T.cols.map InCol.info := by
    apply List.ext_getElem (by simp [hl])
    intro i h1 h2
    simp only [List.getElem_map]
    exact (hes i _ _ (List.getElem?_eq_getElem (by simpa using h2)) (List.getElem?_eq_getElem (by simpa using h1))).info
  have hdata : es.map EncCol.data = T.cols.map (InCol.data env) := by
    apply List.ext_getElem (by simp [hl])
    intro i h1 h2
    simp only [List.getElem_map]
    exact (hes i _ _ (List.getElem?_eq_getElem (by simpa using h2)) (List.getElem?_eq_getElem (by simpa using h1))).data
  have hok : ∀ e ∈ es, e.Ok env T.rows := fun e he => let ⟨_, _, s⟩ := hS e he; s.ok
  have hne : es ≠ [] := by
    intro h; rw [h] at hl; exact hT.ne (List.length_eq_zero_iff.mp hl.symm)
  obtain ⟨bs, e1, e2, e3, e4⟩ := encodeFrame_ok env o es T.rows T.props hne (by rw [hl]; exact hT.few) hok
  rw [hinfo, hdata] at e1
  refine ⟨_, e1, ?_⟩
  intro hsize
  generalize hH : HeaderInfo.mk bs.length T.rows (mapSet (lit "encoder") (lit "odc version " ++ env.version) T.props)
    (es.map EncCol.col) = H at *
  rw [List.length_append, putHeader_length env.md5 hmd5] at hsize
  have hHok : HeaderOk env.asDbl H := by
    rw [← hH]
    have hlen12 : (lit "odc version ").length = 12 := by decide
    refine ⟨by simp only; omega, by simp only; have := hT.rows; omega, ?_, ?_, ?_, ?_, ?_⟩
    · have := mapSet_length (lit "encoder") (lit "odc version " ++ env.version) T.props
      have := hT.nprops
      simp only [LenOk]; omega
    · exact mapSet_ok _ _ _ hT.props
    · intro kv hkv
      rcases mapSet_mem _ _ _ kv hkv with h | h
      · exact hT.plen kv h
      · rw [h]
        refine ⟨by show LenOk (lit "encoder").length; decide, ?_⟩
        have := hT.version
        simp only [LenOk, List.length_append, hlen12]; omega
    · simp only [LenOk, List.length_map, hl]; have := hT.few; omega
    · intro c hc
      simp only [List.mem_map] at hc
      obtain ⟨e, he, rfl⟩ := hc
      exact (hok e he).colOk
  have hparse := parseHeader_put env.md5 hmd5 env.asDbl o H hHok (by simp only [LenOk]; omega) bs
  have hcols : (H.reload env.asDbl).cols = readCols env es := by
    rw [← hH]; simp [HeaderInfo.reload, readCols, List.map_map, Function.comp_def]
  refine ⟨⟨putHeader env.md5 o H ++ bs, H.reload env.asDbl, o, bs⟩, rfl, ?_⟩
  have hds : toI64 H.dataSize = (bs.length : Int) := by
    rw [← hH]; exact toI64_small _ (by simp only; omega)
  constructor
  · exact ⟨hparse, by simpa [HeaderInfo.reload] using hds⟩
  · rfl
  · show H.nrows = T.rows
    rw [← hH]
  · show H.props = _
    rw [← hH]; rfl
  · simp only [hcols]; simp [readCols, hl]
  · simp only [hcols]
    apply cloneCols_of
    intro c hc
    simp only [readCols, List.mem_map] at hc
    obtain ⟨e, he, rfl⟩ := hc
    obtain ⟨c', _, hs⟩ := hS e he
    have hty : e.info.ty = c'.vals.ty := by rw [hs.info]; rfl
    have := hs.clone
    simpa [Col.reload, EncCol.col, hty] using this
  · intro p c k hc hk
    simp only [hcols, readCols, List.getElem?_map, Option.map_eq_some_iff] at hk
    obtain ⟨e, he, rfl⟩ := hk
    have hs := hes p c e hc he
    have h1 := hs.width
    simp only [Col.reload, EncCol.col, hs.info]
    exact ⟨rfl, rfl, rfl, rfl, h1.1, h1.2⟩
  · intro p c k hc hk
    simp only [hcols, readCols, List.getElem?_map, Option.map_eq_some_iff] at hk
    obtain ⟨e, he, rfl⟩ := hk
    have hs := hes p c e hc he
    refine ⟨e.codec, ?_, ?_⟩
    · have := hs.ok.travels.chosen
      rw [hs.info, hs.data] at this
      simpa [InCol.info, InCol.data] using this
    · simp only [Col.reload, EncCol.col, hs.info]; rfl
  · exact ⟨es, hl, hes, hcols, e4⟩
  · intro L req ps ho hlen hres hps hel
    subst ho
    simp only [hcols] at hel ⊢
    by_cases hn : T.rows = 0
    · refine ⟨req.map (fun r => r.2.mem), ?_, by simp, ?_⟩
      · unfold tableDecode
        rw [if_neg (by simp [readCols, hl]; omega), hres]
        simp [hn]
      · intro i nm t p c k hi hp hc hk
        refine ⟨t.mem, by simp [hi], by omega, ?_, fun _ _ => rfl⟩
        exact (hel i nm t p k hi hp hk).2
    · obtain ⟨bs', f1, _, f3⟩ := encode_decode env es T.rows (by omega) T.props hne (by rw [hl]; exact hT.few) hok
      rw [hinfo, hdata, e1] at f1
      simp only [Except.ok.injEq] at f1
      have hbb : bs' = bs := by
        have h2 := hparse
        have hH2ok : LenOk bs'.length := by
          have := congrArg List.length f1
          rw [List.length_append, List.length_append, putHeader_length env.md5 hmd5] at this
          simp only [LenOk]; omega
        have hle : (putHeader env.md5 .same H ++ bs).length = (putHeader env.md5 .same
          { dataSize := bs'.length, nrows := T.rows,
            props := mapSet (lit "encoder") (lit "odc version " ++ env.version) T.props,
            cols := es.map EncCol.col } ++ bs').length := by rw [f1]
        have hvar : (putVar .same H).length = (putVar .same (HeaderInfo.mk bs'.length T.rows
            (mapSet (lit "encoder") (lit "odc version " ++ env.version) T.props) (es.map EncCol.col))).length := by
          rw [← hH]; simp [putVar]
        exact (List.append_inj f1 (by rw [putHeader_length _ hmd5, putHeader_length _ hmd5, hvar])).2.symm
      subst hbb
      obtain ⟨out, o1, o2, o3⟩ := f3 L req ps (by omega) hres (by rw [hl]; exact hps) (by
        intro i nm t p e hi hp he
        have hk : (readCols env es)[p]? = some (e.col.reload env.asDbl) := by simp [readCols, he]
        obtain ⟨a, b⟩ := hel i nm t p _ hi hp hk
        have hpl : p < T.cols.length := by rw [← hl]; exact (List.getElem?_eq_some_iff.mp he).1
        have hs := hes p _ e (List.getElem?_eq_getElem hpl) he
        have h1 := hs.width
        have hty : e.info.ty = T.cols[p].vals.ty := by rw [hs.info]; rfl
        rw [← hty] at h1
        refine ⟨a, ?_, b⟩
        have a' : (reload env.asDbl e.info.ty.toInt e.codec).width ≤ t.elem := a
        omega)
      refine ⟨out, o1, o2, ?_⟩
      intro i nm t p c k hi hp hc hk
      simp only [readCols, List.getElem?_map, Option.map_eq_some_iff] at hk
      obtain ⟨e, he, rfl⟩ := hk
      have hs := hes p c e hc he
      obtain ⟨m, m1, m2, m3, m4⟩ := o3 i nm t p e hi hp he
      refine ⟨m, m1, ?_, m3, m4⟩
      intro x hx
      have h3 := m2 x hx
      have hw := hs.exact x hx
      have hty : e.info.ty = c.vals.ty := by rw [hs.info]; rfl
      have h4 := hs.back x hx
      unfold Holds at h3
      rw [hw] at h3
      simp only [Col.reload, EncCol.col, hty]
      rw [h3]; exact h4

theorem UTable.encode_ok (env : Env) (hmd5 : ∀ x, (env.md5 x).length = 32) (T : UTable) (hT : T.Ok env) (o : Order) :
    ∃ bs, T.encode env o = .ok bs ∧ (bs.length ≤ 2147483647 → ∃ r : RawFrame, r.bytes = bs ∧ Carries env o r T) :=
  T.encode_fit env hmd5 hT.toFit o

end Verif
