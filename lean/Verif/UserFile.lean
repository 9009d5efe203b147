import Verif.ReadAll

/-
Files written by `encode` as the user sees them: a list of tables goes in, frames come out.
-/

namespace Verif

/-- Encoding several tables one after the other into the same handle. -/
def writeTables (env : Env) : List UTable → Except Err (List (List Byte))
  | [] => .ok []
  | T :: Ts =>
    match T.encode env .same with
    | .error e => .error e
    | .ok b =>
      match writeTables env Ts with
      | .error e => .error e
      | .ok bs => .ok (b :: bs)

/-- `md5` gives 32 hexadecimal digits. -/
def Env.Md5Ok (env : Env) : Prop := ∀ x, (env.md5 x).length = 32

/-- Raw frames carrying the tables. -/
theorem writeTables_ok (env : Env) (hmd5 : env.Md5Ok) (Ts : List UTable) (hT : ∀ T ∈ Ts, T.Ok env) :
    ∃ bss, writeTables env Ts = .ok bss ∧ bss.length = Ts.length ∧
      ((∀ b ∈ bss, b.length ≤ 2147483647) → ∃ rs : List RawFrame, rs.map RawFrame.bytes = bss ∧
        (∀ r ∈ rs, r.Ok env ∧ r.order = .same ∧ cloneCols r.info.cols = .ok r.info.cols) ∧
        ∀ (i : Nat) (r : RawFrame) (T : UTable), rs[i]? = some r → Ts[i]? = some T → Carries env .same r T ∧ T.Ok env) := by
  induction Ts with
  | nil => exact ⟨[], rfl, rfl, fun _ => ⟨[], rfl, by simp, by simp⟩⟩
  | cons T Ts ih =>
    obtain ⟨b, h1, h2⟩ := T.encode_ok env hmd5 (hT T (by simp)) .same
    obtain ⟨bss, h3, h4, h5⟩ := ih (fun T hT' => hT T (by simp [hT']))
    refine ⟨b :: bss, by simp [writeTables, h1, h3], by simp [h4], ?_⟩
    intro hlen
    obtain ⟨r, hr1, hr2⟩ := h2 (hlen b (by simp))
    obtain ⟨rs, hrs1, hrs2, hrs3⟩ := h5 (fun b hb => hlen b (by simp [hb]))
    refine ⟨r :: rs, by simp [hr1, hrs1], ?_, ?_⟩
    · intro x hx
      rcases List.mem_cons.mp hx with rfl | hx
      · exact ⟨hr2.ok, hr2.order, hr2.copy⟩
      · exact hrs2 x hx
    · intro i x T' hx hT'
      cases i with
      | zero => simp at hx hT'; subst hx; subst hT'; exact ⟨hr2, hT _ (by simp)⟩
      | succ i => exact hrs3 i x T' (by simpa using hx) (by simpa using hT')

theorem layout_mem (pos : Int) (rs : List RawFrame) (t : Tbl) (h : t ∈ layout pos rs) :
    ∃ r ∈ rs, t.info = r.info ∧ t.order = r.order := by
  induction rs generalizing pos with
  | nil => simp [layout] at h
  | cons r rs ih =>
    simp only [layout, List.mem_cons] at h
    rcases h with rfl | h
    · exact ⟨r, by simp, rfl, rfl⟩
    · obtain ⟨x, a, b⟩ := ih _ h; exact ⟨x, by simp [a], b⟩

theorem fileOf_length_ge (env : Env) (rs : List RawFrame) (hrs : ∀ r ∈ rs, r.Ok env) :
    rs.length ≤ (fileOf rs).length := by
  induction rs with
  | nil => simp
  | cons r rs ih =>
    have h1 := ih (fun r hr => hrs r (by simp [hr]))
    have h2 := (hrs r (by simp)).size
    simp only [fileOf, List.flatMap_cons, List.length_append, List.length_cons] at h1 ⊢
    omega

theorem Tbl.copy_of (t : Tbl) (h : cloneCols t.info.cols = .ok t.info.cols) : t.copy = .ok t := by
  unfold Tbl.copy; rw [h]

/-- Every table of the file shows the corresponding table of the user. -/
structure Holds1 (env : Env) (f : File) (t : Tbl) (T : UTable) : Prop where
  shows : Shows env f t T
  tok : T.Ok env
  props : t.info.props = T.stored env
  copy : t.copy = .ok t
  col : ∀ (p : Nat) (c : InCol) (k : Col), T.cols[p]? = some c → t.info.cols[p]? = some k →
    k.name = c.name ∧ k.ty = c.vals.ty.toInt ∧ k.bitNames = c.vals.members.map Prod.fst ∧
      k.bitSizes = c.vals.members.map Prod.snd ∧ 1 ≤ k.codec.width ∧ k.codec.width ≤ c.vals.words

/-- Corresponding lists. -/
inductive Match {α β : Type} (R : α → β → Prop) : List α → List β → Prop
  | nil : Match R [] []
  | cons {a b as bs} : R a b → Match R as bs → Match R (a :: as) (b :: bs)

theorem Match.length {α β : Type} {R : α → β → Prop} {as : List α} {bs : List β} (h : Match R as bs) :
    as.length = bs.length := by
  induction h with
  | nil => rfl
  | cons _ _ ih => simp [ih]

theorem Match.of_get {α β : Type} {R : α → β → Prop} (as : List α) (bs : List β) (hl : as.length = bs.length)
    (h : ∀ (i : Nat) (a : α) (b : β), as[i]? = some a → bs[i]? = some b → R a b) : Match R as bs := by
  induction as generalizing bs with
  | nil => cases bs with
    | nil => exact .nil
    | cons b bs => simp at hl
  | cons a as ih => cases bs with
    | nil => simp at hl
    | cons b bs =>
      refine .cons (h 0 a b rfl rfl) (ih bs (by simpa using hl) ?_)
      intro i x y hx hy
      exact h (i + 1) x y (by simpa using hx) (by simpa using hy)

theorem Match.get {α β : Type} {R : α → β → Prop} {as : List α} {bs : List β} (h : Match R as bs) (i : Nat)
    (a : α) (b : β) (ha : as[i]? = some a) (hb : bs[i]? = some b) : R a b := by
  induction h generalizing i with
  | nil => simp at ha
  | cons h1 _ ih =>
    cases i with
    | zero => simp at ha hb; subst ha; subst hb; exact h1
    | succ i => exact ih i (by simpa using ha) (by simpa using hb)

theorem Match.mem_left {α β : Type} {R : α → β → Prop} {as : List α} {bs : List β} (h : Match R as bs) (a : α)
    (ha : a ∈ as) : ∃ b ∈ bs, R a b := by
  induction h with
  | nil => simp at ha
  | cons h1 _ ih =>
    rcases List.mem_cons.mp ha with rfl | ha
    · exact ⟨_, by simp, h1⟩
    · obtain ⟨b, hb, hr⟩ := ih ha; exact ⟨b, by simp [hb], hr⟩

theorem Match.append_left {α β : Type} {R : α → β → Prop} {a1 a2 : List α} {bs : List β} (h : Match R (a1 ++ a2) bs) :
    ∃ b1 b2, bs = b1 ++ b2 ∧ Match R a1 b1 ∧ Match R a2 b2 := by
  induction a1 generalizing bs with
  | nil => exact ⟨[], bs, rfl, .nil, h⟩
  | cons a a1 ih =>
    cases h with
    | cons h1 h2 =>
      obtain ⟨b1, b2, e, m1, m2⟩ := ih h2
      exact ⟨_ :: b1, b2, by rw [e]; rfl, .cons h1 m1, m2⟩

theorem Match.flatten {α β : Type} {R : α → β → Prop} (gs : List (List α)) {bs : List β}
    (h : Match R gs.flatten bs) : ∃ hs : List (List β), hs.flatten = bs ∧ Match (Match R) gs hs := by
  induction gs generalizing bs with
  | nil => cases h; exact ⟨[], rfl, .nil⟩
  | cons g gs ih =>
    simp only [List.flatten_cons] at h
    obtain ⟨b1, b2, rfl, m1, m2⟩ := h.append_left
    obtain ⟨hs, e, m⟩ := ih m2
    exact ⟨b1 :: hs, by simp [e], .cons m1 m⟩

theorem Match.map_left {α β γ : Type} {R : α → β → Prop} (f : γ → α) {as : List γ} {bs : List β}
    (h : Match (fun c b => R (f c) b) as bs) : Match R (as.map f) bs := by
  induction h with
  | nil => exact .nil
  | cons h1 _ ih => exact .cons h1 ih

theorem layout_holds (env : Env) (f : File) (rs : List RawFrame)
    (hrs : ∀ r ∈ rs, r.Ok env ∧ r.order = .same ∧ cloneCols r.info.cols = .ok r.info.cols) (rest : List Byte)
    (hf : f.bytes = fileOf rs ++ rest) (Ts : List UTable) (hlen : rs.length = Ts.length)
    (hT : ∀ (i : Nat) (r : RawFrame) (T : UTable), rs[i]? = some r → Ts[i]? = some T → Carries env .same r T ∧ T.Ok env) :
    Match (Holds1 env f) (layout 0 rs) Ts := by
  refine Match.of_get _ _ (by rw [layout_length, hlen]) ?_
  intro i t T ht hTi
  have hs := layout_shows env f rs (fun r hr => (hrs r hr).1) rest hf Ts hlen hT i t T ht hTi
  have hil : i < rs.length := by
    have := (List.getElem?_eq_some_iff.mp ht).1
    rwa [layout_length] at this
  have hr : rs[i]? = some rs[i] := List.getElem?_eq_getElem hil
  obtain ⟨a, _, _⟩ := layout_split f env rs (fun r hr => (hrs r hr).1) 0 rest (by simpa using hf) i _ hr
  have a' : t = rs[i].tbl ((0 + (fileOf (List.take i rs)).length : Nat) : Int) := by
    rw [show ((0 : Nat) : Int) = 0 from rfl] at a
    rw [a] at ht
    exact (Option.some.inj ht).symm
  obtain ⟨c, hok⟩ := hT i _ T hr hTi
  have hinfo : t.info = rs[i].info := by rw [a']; rfl
  exact ⟨hs, hok, by rw [hinfo]; exact c.props, Tbl.copy_of t (by rw [hinfo]; exact c.copy), by
    intro p cc k; rw [hinfo]; exact c.col p cc k⟩

/-- **Writing tables and reading the file**: the reader sees exactly these tables. -/
theorem file_scan (env : Env) (hmd5 : env.Md5Ok) (Ts : List UTable) (hT : ∀ T ∈ Ts, T.Ok env) :
    ∃ bss, writeTables env Ts = .ok bss ∧ bss.length = Ts.length ∧ ((∀ b ∈ bss, b.length ≤ 2147483647) →
      ∃ rs : List RawFrame, rs.map RawFrame.bytes = bss ∧ (∀ r ∈ rs, r.Ok env) ∧
      Scan env (File.known bss.flatten) (layout 0 rs) none ∧
        (layout 0 rs).length ≤ (File.known bss.flatten).bytes.length ∧
        Match (Holds1 env (File.known bss.flatten)) (layout 0 rs) Ts) := by
  obtain ⟨bss, h1, h2, h3⟩ := writeTables_ok env hmd5 Ts hT
  refine ⟨bss, h1, h2, ?_⟩
  intro hlen
  obtain ⟨rs, r1, r2, r3⟩ := h3 hlen
  have hfile : bss.flatten = fileOf rs := by rw [← r1]; rfl
  have hl : rs.length = Ts.length := by rw [← h2, ← r1]; simp
  refine ⟨rs, r1, fun r hr => (r2 r hr).1, ?_, ?_, ?_⟩
  · rw [hfile]
    exact scan_fileOf env rs (fun r hr => (r2 r hr).1) _ (Or.inr rfl)
  · rw [layout_length, hfile]
    exact fileOf_length_ge env rs (fun r hr => (r2 r hr).1)
  · exact layout_holds env _ rs r2 [] (by simp [File.known, hfile]) Ts hl r3

/-! ### Compatible columns and requests -/

/-- Two lists of columns with distinct names are compatible if and only if they have the same number of
columns and every column of the second occurs in the first with the same name, type and size. -/
theorem compatible_iff (a b : List Col) (ha : (a.map Col.name).Nodup) :
    compatible a b = true ↔ a.length = b.length ∧
      ∀ c ∈ b, ∃ d ∈ a, d.name = c.name ∧ d.ty = c.ty ∧ d.codec.width = c.codec.width := by
  unfold compatible
  simp only [Bool.and_eq_true, decide_eq_true_eq, Bool.or_eq_true, List.all_eq_true]
  constructor
  · rintro ⟨h1, h2⟩
    refine ⟨h1, ?_⟩
    intro c hc
    rcases h2 with h2 | h2
    · obtain ⟨i, hi, rfl⟩ := List.getElem_of_mem hc
      have hz : (a[i]'(by omega), b[i]) ∈ a.zip b := by
        apply List.mem_of_getElem? (i := i)
        rw [List.getElem?_zip_eq_some]
        exact ⟨List.getElem?_eq_getElem _, List.getElem?_eq_getElem _⟩
      have := h2 _ hz
      simp only [Col.same, Bool.and_eq_true, decide_eq_true_eq] at this
      exact ⟨_, List.getElem_mem _, this.1.1, this.1.2, this.2⟩
    · have := h2 c hc
      split at this
      · rename_i d hd
        simp only [Col.same, Bool.and_eq_true, decide_eq_true_eq] at this
        exact ⟨d, List.mem_of_find?_eq_some hd, this.1.1, this.1.2, this.2⟩
      · simp at this
  · rintro ⟨h1, h2⟩
    refine ⟨h1, Or.inr ?_⟩
    intro c hc
    obtain ⟨d, hd, e1, e2, e3⟩ := h2 c hc
    have : ∃ d', a.find? (fun x => decide (x.name = c.name)) = some d' := by
      rw [← Option.isSome_iff_exists, List.find?_isSome]
      exact ⟨d, hd, by simpa using e1⟩
    obtain ⟨d', hd'⟩ := this
    rw [hd']
    have hm : d'.name = c.name := by simpa using List.find?_some hd'
    have : d' = d := mem_same Col.name a ha d' d (List.mem_of_find?_eq_some hd') hd (by rw [hm, e1])
    subst this
    simp [Col.same, e1, e2, e3]

/-- Compatible tables with distinct names: every column of the first occurs in the other. -/
theorem compatible_back (a b : List Col) (ha : (a.map Col.name).Nodup) (hb : (b.map Col.name).Nodup)
    (h : compatible a b = true) (d : Col) (hd : d ∈ a) :
    ∃ c ∈ b, c.name = d.name ∧ c.ty = d.ty ∧ c.codec.width = d.codec.width := by
  obtain ⟨h1, h2⟩ := (compatible_iff a b ha).mp h
  have hsub : (b.map Col.name) ⊆ (a.map Col.name) := by
    intro n hn
    simp only [List.mem_map] at hn ⊢
    obtain ⟨c, hc, rfl⟩ := hn
    obtain ⟨d, hd, e, _⟩ := h2 c hc
    exact ⟨d, hd, e⟩
  have hperm := (List.Nodup.subperm hb hsub).perm_of_length_le (by simp [h1])
  have hdm : d.name ∈ b.map Col.name := hperm.mem_iff.mpr (List.mem_map_of_mem hd)
  simp only [List.mem_map] at hdm
  obtain ⟨c, hc, e⟩ := hdm
  obtain ⟨d', hd', e1, e2, e3⟩ := h2 c hc
  have : d' = d := mem_same Col.name a ha d' d hd' hd (by rw [e1, e])
  subst this
  exact ⟨c, hc, e, e2.symm, e3.symm⟩

/-- A user's request for a frame: distinct names, each in the column list of the frame (that of its first
table) with elements at least as wide as announced there, and room for all rows. -/
structure UserReq (fr : List Tbl) (req : List (Str × Target)) : Prop where
  distinct : (req.map Prod.fst).Nodup
  known : ∀ (front : Tbl) (rest : List Tbl), fr = front :: rest → ∀ e ∈ req, ∃ k ∈ front.info.cols, k.name = e.1 ∧
    k.codec.width ≤ e.2.elem
  room : ∀ e ∈ req, rowSum fr ≤ e.2.nelem
  mem : ∀ e ∈ req, ∀ x, (e.2.mem x).length = e.2.elem

theorem rowSum_match {env : Env} {f : File} {ts : List Tbl} {Ts : List UTable} (h : Match (Holds1 env f) ts Ts) :
    rowSum ts = totalRows Ts := by
  induction h with
  | nil => rfl
  | cons h1 _ ih =>
    rw [rowSum_cons, ih, h1.shows.nrows]; simp [totalRows]

theorem AllShow.of_match {env : Env} {f : File} {ts : List Tbl} {Ts : List UTable} (h : Match (Holds1 env f) ts Ts) :
    AllShow env f (ts.map (fun t => (t, Lookup.empty))) Ts := by
  induction h with
  | nil => exact .nil
  | cons h1 _ ih => exact .cons h1.shows (Or.inl rfl) ih

/-- **Decoding a frame of a file**: each requested column holds, at the offset of each table, the values
of this table's column. -/
theorem frame_decode {env : Env} {f : File} {fr : List Tbl} {Ts : List UTable} (h : Match (Holds1 env f) fr Ts)
    (hcompat : ∀ (front : Tbl) (rest : List Tbl), fr = front :: rest → ∀ t ∈ rest,
      compatible front.info.cols t.info.cols = true)
    (hbig : totalRows Ts < 18446744073709551616) (req : List (Str × Target)) (hreq : UserReq fr req) :
    ∃ Ls out, frameDecode f (fr.map (fun t => (t, Lookup.empty))) req = (Ls, .ok out) ∧ out.length = req.length ∧
      ∀ (i : Nat) (nm : Str) (tg : Target), req[i]? = some (nm, tg) → ∃ m : Nat → Cell, out[i]? = some m ∧
        (∀ (k : Nat) (t : Tbl) (T : UTable), fr[k]? = some t → Ts[k]? = some T →
          HoldsCol env t T nm (rowsBefore Ts k) m) ∧
        (∀ x, (m x).length = tg.elem) ∧ ∀ x, totalRows Ts ≤ x → m x = tg.mem x := by
  have hnd : ∀ t ∈ fr, (t.info.cols.map Col.name).Nodup := by
    intro t ht
    obtain ⟨T, _, hT⟩ := h.mem_left t ht
    exact hT.shows.col_names_nodup
  have hfr : FrameReq (fr.map (fun t => (t, Lookup.empty)) |>.map Prod.fst) (totalRows Ts) req := by
    have ee : (fr.map (fun t => (t, Lookup.empty)) |>.map Prod.fst) = fr := by simp [Function.comp_def]
    rw [ee]
    clear ee
    refine ⟨hreq.distinct, ?_, ?_, hreq.mem⟩
    · intro t ht e he
      cases fr with
      | nil => simp at ht
      | cons front rest =>
        obtain ⟨k, hk, h1, h2⟩ := hreq.known front rest rfl e he
        rcases List.mem_cons.mp ht with rfl | ht
        · exact ⟨k, hk, h1, h2⟩
        · obtain ⟨c, hc, e1, e2, e3⟩ := compatible_back _ _ (hnd front (by simp)) (hnd t (by simp [ht]))
            (hcompat front rest rfl t ht) k hk
          exact ⟨c, hc, by rw [e1, h1], by rw [e3]; exact h2⟩
    · intro e he
      have := hreq.room e he
      rw [rowSum_match h] at this; exact this
  obtain ⟨Ls, out, o1, _, o3, o4⟩ := frameDecode_ok (AllShow.of_match h) req hbig hfr
  refine ⟨Ls, out, o1, o3, ?_⟩
  intro i nm tg hi
  obtain ⟨m, m1, m2, m3, m4⟩ := o4 i nm tg hi
  refine ⟨m, m1, ?_, m3, m4⟩
  intro k t T ht hT
  exact m2 k t Lookup.empty T (by simp [ht]) hT

end Verif
