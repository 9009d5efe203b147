import Verif.PropSqlEnc
import Verif.PropBack

/-
`Frame::filter`: an SQL query on one frame (C59).
-/

namespace Verif

/-- `FrameImpl::filter`, api/Odb.cc l.461-484, with `SerialTableReadHandle` (l.410-458): the encoded tables of the frame, one after the other, are the input of
`filter`; its output is read with aggregation (the default of `Reader`), and must hold one frame at most; no frame is the null frame.  The result is the file in
memory with the tables of its frame.  Simplifications: the tables are read before the query runs, not while it runs; no read of the row reader crosses the end of a
table, so that the short reads there do not show. -/
def frameFilter (env : Env) (len : List Byte → Nat) (cap : Nat) (junk : Junk) (q : Option Query) (bytes : List Byte) (fr : List Tbl) (fuel : Nat) :
    Except Err (Option (List Byte × List Tbl)) :=
  match encodedData (File.known bytes) fr with
  | .error e => .error e
  | .ok b =>
    match filterApi env len cap junk q b fuel with
    | .error e => .error e
    | .ok (_, out) =>
      match readAggregated env out.flatten (-1) with
      | ([], none) => .ok none
      | ([], some e) => .error e
      | ([g], none) => .ok (some (out.flatten, g))
      | ([_], some e) => .error e
      | (_ :: _ :: _, _) => .error .assertFailed

/-! ### The rows of several tables as one table -/

/-- Specification: the rows of tables with the same columns, one after the other, as one table. -/
def stack (R : UTable) (Rs : List UTable) : UTable := Rs.foldl UTable.append R

/-- Proof device: a table that can be copied, with its values among those of `B`. -/
structure UAny (B : List InCol) (U : UTable) : Prop where
  within : U.Within B
  rows : ∀ c ∈ U.cols, c.vals.rows = U.rows
  lens : ∀ c ∈ U.cols, ColLen c
  fits : ∀ c ∈ U.cols, c.vals.Fits
  few : U.cols.length < 65536

theorem UAny.ok {env : Env} {B : List InCol} {U : UTable} (h : UAny B U)
    (hB : ∀ b ∈ B, b.vals.Ok env ∧ (env.longEnv = true → b.vals.NoEmpty)) (hbig : U.rows < 18446744073709551616) : U.AnyRowsOk env := by
  have key : ∀ c ∈ U.cols, c.vals.Ok env ∧ (env.longEnv = true → c.vals.NoEmpty) := by
    intro c hc
    obtain ⟨b, hb, _, h2⟩ := Match.mem_right' h.within hc
    exact h2.ok (h.fits c hc) (hB b hb).1 (hB b hb).2
  exact ⟨h.few, h.rows, h.lens, hbig, fun c hc => (key c hc).1, fun hl c hc => (key c hc).2 hl⟩

theorem UAny.append {B : List InCol} {S T : UTable} (hS : UAny B S) (hT : UAny B T) (h : S.cols.map InCol.key = T.cols.map InCol.key) :
    UAny B (S.append T) := by
  have env : Env := ⟨false, false, fun _ => [], []⟩
  have hl := append_length h
  refine ⟨?_, ?_, ?_, ?_, by rw [hl]; exact hS.few⟩
  · apply Match.of_get _ _ (by rw [hl]; exact Match.length hS.within)
    intro p c b hc hb
    obtain ⟨x, y, h1, h2, h3, rfl⟩ := append_get h p c hc
    obtain ⟨e1, e2⟩ := Match.get hS.within p x b h1 hb
    obtain ⟨_, f2⟩ := Match.get hT.within p y b h2 hb
    exact ⟨e1, (append_col env h3).2.2.2.2 _ e2 f2⟩
  · intro c hc
    obtain ⟨p, hp⟩ := List.mem_iff_getElem?.mp hc
    obtain ⟨x, y, h1, h2, h3, rfl⟩ := append_get h p c hp
    rw [(append_col env h3).2.1, hS.rows x (List.mem_of_getElem? h1), hT.rows y (List.mem_of_getElem? h2)]
    rfl
  · intro c hc
    obtain ⟨p, hp⟩ := List.mem_iff_getElem?.mp hc
    obtain ⟨x, y, h1, h2, h3, rfl⟩ := append_get h p c hp
    obtain ⟨k1, _, k3, _⟩ := key_parts (append_col env h3).1
    have := hS.lens x (List.mem_of_getElem? h1)
    exact ⟨by rw [k1]; exact this.name, by rw [k3]; exact this.nbits, by rw [k3]; exact this.bits⟩
  · intro c hc
    obtain ⟨p, hp⟩ := List.mem_iff_getElem?.mp hc
    obtain ⟨x, y, h1, h2, h3, rfl⟩ := append_get h p c hp
    exact (append_col env h3).2.2.2.1 (hS.fits x (List.mem_of_getElem? h1)) (hT.fits y (List.mem_of_getElem? h2))

theorem stack_any {env : Env} {B : List InCol} (R : UTable) (Rs : List UTable) (ws : List RowView) (wss : List (List RowView))
    (hR : UAny B R) (hRs : ∀ S ∈ Rs, UAny B S) (hk : ∀ S ∈ Rs, S.cols.map InCol.key = R.cols.map InCol.key)
    (h : RowsAre env R ws) (hm : Match (RowsAre env) Rs wss) :
    UAny B (stack R Rs) ∧ (stack R Rs).cols.map InCol.key = R.cols.map InCol.key ∧ RowsAre env (stack R Rs) (ws ++ wss.flatten) ∧
      (stack R Rs).rows = ((R :: Rs).map UTable.rows).sum := by
  induction hm generalizing R ws with
  | nil => simp [stack, hR, h]
  | @cons S us Rs wss h1 _ ih =>
    have hks := (hk S (by simp)).symm
    obtain ⟨a1, a2, a3, a4⟩ := ih (R.append S) (ws ++ us) (hR.append (hRs S (by simp)) hks) (fun S h => hRs S (by simp [h]))
      (fun S' h => by rw [append_key hks]; exact hk S' (by simp [h])) (h.stack hR.rows hks h1)
    refine ⟨a1, by rw [← append_key hks]; exact a2, by simpa [stack] using a3, ?_⟩
    have : (stack R (S :: Rs)) = stack (R.append S) Rs := rfl
    rw [this, a4]
    simp [UTable.append]
    omega

theorem part_gives_exact (env : Env) (v : Vals) (s n r : Nat) (y : Cell) (h : (v.part s n).Gives env r y) (hx : v.Exact) :
    v.Gives env (s + r) y := by
  cases v with
  | reals vs =>
    obtain ⟨x, x', h1, h2, h3⟩ := h
    have h1' : vs[s + r]? = some x := by
      rw [List.getElem?_take] at h1
      split at h1
      · rwa [List.getElem?_drop] at h1
      · simp at h1
    refine ⟨x, x', h1', h2, ?_⟩
    unfold RealOut at h3 ⊢
    split at h3
    · rename_i hf
      rw [if_pos hf]
      exact h3
    · rename_i hf
      rw [if_neg hf]
      left
      rcases h3 with h3 | h3
      · exact h3
      · rw [h3.1]
        rcases hx x (List.mem_of_getElem? h1') with h4 | h4
        · exact h4.symm
        · rw [h4] at hf
          exact absurd (by decide +kernel) hf
  | _ => exact part_gives env _ s n r y h (by simp [Vals.ty])

/-! ### The files that `pass1` writes, as frames -/

/-- Copying rows with the same columns. -/
theorem pass1_frames (env : Env) (hmd5 : env.Md5Ok) (cap : Nat) (hcap : 0 < cap) (vs : List RowView) (T : UTable)
    (hrow : RowsAre env T vs) (hT : T.AnyRowsOk env) (hne : T.cols ≠ []) (ks : List Col) (hk : ks.map Col.key = T.cols.map InCol.key) :
    ∃ Fs, pass1 env .same cap ks (vs, none) = .ok (T.rows, Fs.map RFrame.bytes) ∧
      WFrames env .same { T with props := [] } cap (List.replicate T.cols.length none) Fs := by
  obtain ⟨w0, w1, w2, Fs, a1, a2, a3, a4, a5, a6, a7, a8, a9, a10, a11, a12⟩ := segment_ok env hmd5 .same cap hcap T hT hne (Writer.new cap)
    rfl rfl ks hk vs hrow
  refine ⟨Fs, ?_, a12⟩
  unfold pass1
  rw [a1]
  dsimp only
  rw [a3]
  dsimp only
  rw [a5]
  dsimp only
  have : w2.close env .same = .ok w2 := by
    unfold Writer.close
    rw [a10, if_pos rfl]
    unfold Writer.flush
    rw [a10, if_neg (by simp)]
    split
    · rfl
    · rw [if_pos a9]
  rw [this]
  dsimp only
  rw [a6, hrow.len]
  rfl

/-- Specification: the frame `fr` of the file `bytes` is the table `R`: it has its rows; every table of the frame has its columns (names, types, bitfield members) and no
properties; decoding it puts in each column asked for the values of `R`, in order, and nothing after the last row. -/
structure FrameIs (env : Env) (R : UTable) (bytes : List Byte) (fr : List Tbl) : Prop where
  rows : rowSum fr = R.rows
  props : ∀ t ∈ fr, t.info.props = []
  width : ∀ t ∈ fr, t.info.cols.length = R.cols.length
  cols : ∀ t ∈ fr, ∀ (p : Nat) (c : InCol), R.cols[p]? = some c → ∃ col : Col, t.info.cols[p]? = some col ∧ col.name = c.name ∧
    col.ty = c.vals.ty.toInt ∧ col.bitNames = c.vals.members.map Prod.fst ∧ col.bitSizes = c.vals.members.map Prod.snd ∧
    1 ≤ col.codec.width ∧ col.codec.width ≤ c.vals.words
  decode : ∀ req, FrameReq fr R.rows req → ∃ out, decodeFrame bytes fr req = .ok out ∧ out.length = req.length ∧
    ∀ (i : Nat) (nm : Str) (tg : Target), req[i]? = some (nm, tg) → ∃ m : Nat → Cell, out[i]? = some m ∧
      (∀ t ∈ fr, ∀ (p : Nat) (c : InCol) (col : Col), R.cols[p]? = some c → c.name = nm → t.info.cols[p]? = some col →
        ∀ x : Nat, x < R.rows → c.vals.Gives env x ((m x).take col.codec.width)) ∧
      ∀ x, R.rows ≤ x → m x = tg.mem x

/-- A file of frames of the same columns, read with aggregation: nothing, or one frame. -/
theorem frames_is (env : Env) (T : UTable) (cap : Nat) (hcap : 0 < cap) (hT : T.AnyRowsOk env) (hne : T.cols ≠ [])
    (hnd : (T.cols.map InCol.name).Nodup) (hx : ∀ c ∈ T.cols, c.vals.Exact) (hbig : T.rows < 9223372036854775808)
    (Fs : List RFrame) (hF : WFrames env .same { T with props := [] } cap (List.replicate T.cols.length none) Fs)
    (hsz : ∀ f ∈ Fs.map RFrame.bytes, f.length ≤ 2147483647) :
    (T.rows = 0 → readAggregated env (Fs.map RFrame.bytes).flatten (-1) = ([], none)) ∧
    (0 < T.rows → T.rows ≤ cap ∨ (∀ c ∈ T.cols, c.vals.words = 1) →
      ∃ g, readAggregated env (Fs.map RFrame.bytes).flatten (-1) = ([g], none) ∧ FrameIs env T (Fs.map RFrame.bytes).flatten g) := by
  have hpo : PartsOk env { T with props := [] } cap (List.replicate T.cols.length none) := by
    intro k i c m? _ hc hm
    rw [msAt_none] at hm
    have := List.eq_of_mem_replicate (List.mem_of_getElem? hm)
    subst this
    have h0 := List.mem_of_getElem? hc
    exact (Vals.OkMiss.none_iff env _).mpr (Vals.Ok.sub (Vals.part_sub _ _ _) (hT.vals c h0) (fun hl => hT.noEmpty hl c h0))
  obtain ⟨ts, t1, t2, t3'⟩ := written_tables env { T with props := [] } cap _ (by simp) hnd hne hpo (by
    intro p c hp _
    rw [List.getElem?_replicate, if_pos (List.getElem?_eq_some_iff.mp hp).1]) Fs hF hsz hcap
  have t3 : ∀ (k : Nat) (t : Tbl), ts[k]? = some t → FrameGives env { T with props := [] } cap (Fs.map RFrame.bytes).flatten k t := by
    intro k t hk
    obtain ⟨a, b, c, d, e, f⟩ := t3' k t hk
    refine ⟨a, b, c, d, e, ?_⟩
    intro req hreq
    obtain ⟨out, d1, d2, d3⟩ := f req hreq
    refine ⟨out, d1, d2, ?_⟩
    intro i nm tg hi
    obtain ⟨m, e1, e2, e3, e4⟩ := d3 i nm tg hi
    refine ⟨m, e1, ?_, e3, e4⟩
    intro p c col hp hnm hcol x hx
    have hg := e2 p c col hp hnm hcol x hx
    rw [msAt_none, List.getElem?_replicate, if_pos (List.getElem?_eq_some_iff.mp hp).1] at hg
    have hg' := (Vals.GivesMiss.none_iff env _ _ _).mp hg
    exact ⟨hg', fun hty => part_gives env _ _ _ _ _ hg' hty⟩
  generalize (Fs.map RFrame.bytes).flatten = bytes at *
  have hall : rowSum ts = T.rows := by
    have := written_sum T cap ts (fun k t hk => ⟨(t3 k t hk).rows, (t3 k t hk).some_rows⟩) 0 ts.length (by omega)
    rw [List.drop_zero, List.take_length] at this
    rw [this, t2]
    have := Nat.lt_div_mul_add (a := T.rows + cap - 1) hcap
    dsimp only
    omega
  obtain ⟨gs, g1, g2, g3⟩ := C13_aggregation env bytes _ t1 (-1) (Or.inl (by omega)) (by rw [flatten_singles, hall]; exact hbig)
  rw [flatten_singles] at g2
  have hnil : ts = [] ↔ T.rows = 0 := by
    constructor
    · intro h; rw [h] at hall; simpa [rowSum] using hall.symm
    · intro h
      apply List.length_eq_zero_iff.mp
      rw [t2]
      dsimp only
      rw [h]
      apply Nat.div_eq_of_lt
      omega
  constructor
  · intro h0
    have h1 := hnil.mpr h0
    rw [g1]
    have : gs = [] := by
      cases gs with
      | nil => rfl
      | cons g gs =>
        have h2 := g2.all
        rw [h1, List.flatten_cons, List.append_eq_nil_iff] at h2
        exact absurd h2.1 (g2.nonempty g (by simp))
    rw [this]
  · intro hpos hor
    have htne : ts ≠ [] := fun h => by have := hnil.mp h; omega
    have hwid : ∀ (k l : Nat) (t u : Tbl), ts[k]? = some t → ts[l]? = some u → ∀ (p : Nat) (c : InCol) (a b : Col), T.cols[p]? = some c →
        t.info.cols[p]? = some a → u.info.cols[p]? = some b → a.codec.width = b.codec.width := by
      intro k l t u hk hl p c a b hp ha hb
      rcases hor with hor | hor
      · have hlen : ts.length ≤ 1 := by
          rw [t2]
          dsimp only
          rw [Nat.div_le_iff_le_mul hcap]
          omega
        have h1 := (List.getElem?_eq_some_iff.mp hk).1
        have h2 := (List.getElem?_eq_some_iff.mp hl).1
        obtain rfl : k = l := by omega
        rw [hk] at hl
        cases hl
        rw [ha] at hb
        cases hb
        rfl
      · have := hor c (List.mem_of_getElem? hp)
        obtain ⟨ca, a1, _, _, _, _, a4, a5⟩ := (t3 k t hk).cols p c hp
        obtain ⟨cb, b1, _, _, _, _, b4, b5⟩ := (t3 l u hl).cols p c hp
        rw [ha] at a1; rw [hb] at b1
        cases a1; cases b1
        omega
    have hcomp : ∀ t ∈ ts, ∀ u ∈ ts, compatible t.info.cols u.info.cols = true := by
      intro t ht u hu
      obtain ⟨k, hk⟩ := List.mem_iff_getElem?.mp ht
      obtain ⟨l, hl⟩ := List.mem_iff_getElem?.mp hu
      have w1 : t.info.cols.length = T.cols.length := (t3 k t hk).width
      have w2 : u.info.cols.length = T.cols.length := (t3 l u hl).width
      unfold compatible
      rw [Bool.and_eq_true, Bool.or_eq_true]
      refine ⟨by rw [w1, w2]; simp, Or.inl ?_⟩
      rw [List.all_eq_true]
      intro q hq
      obtain ⟨p, hp⟩ := List.mem_iff_getElem?.mp hq
      obtain ⟨a, b⟩ := q
      rw [List.getElem?_zip_eq_some] at hp
      have hpl : p < T.cols.length := by rw [← w1]; exact (List.getElem?_eq_some_iff.mp hp.1).1
      obtain ⟨ca, a1, a2, a3, _⟩ := (t3 k t hk).cols p _ (List.getElem?_eq_getElem hpl)
      obtain ⟨cb, b1, b2, b3, _⟩ := (t3 l u hl).cols p _ (List.getElem?_eq_getElem hpl)
      have hw := hwid k l t u hk hl p _ a b (List.getElem?_eq_getElem hpl) hp.1 hp.2
      rw [hp.1] at a1
      rw [hp.2] at b1
      simp only [Option.some.injEq] at a1 b1
      subst a1 b1
      simp only [Col.same, a2, b2, a3, b3, hw, decide_true, Bool.and_self]
    have hgs : gs = [ts] := by
      cases hg : gs with
      | nil =>
        rw [hg] at g2
        exact absurd g2.all.symm htne
      | cons g rest =>
        cases hr : rest with
        | nil =>
          rw [hg, hr] at g2
          have := g2.all
          simp at this
          rw [this]
        | cons g' rest' =>
          exfalso
          rw [hg, hr] at g2
          have n1 := g2.nonempty g (by simp)
          have n2 := g2.nonempty g' (by simp)
          obtain ⟨x, xs, rfl⟩ := List.exists_cons_of_ne_nil n1
          obtain ⟨y, ys, rfl⟩ := List.exists_cons_of_ne_nil n2
          have hx : x ∈ ts := by rw [← g2.all]; simp
          have hy : y ∈ ts := by rw [← g2.all]; simp
          rcases g2.maximal 0 _ x xs y ys rfl rfl rfl with h | h
          · rw [hcomp x hx y hy] at h; simp at h
          · omega
    obtain ⟨_, hsp⟩ := span_gives env { T with props := [] } cap hcap bytes ts (by dsimp only; omega) t3 0 ts.length (by omega) (by
      have := List.length_pos_of_ne_nil htne; omega)
    rw [List.drop_zero, List.take_length, hall] at hsp
    refine ⟨ts, by rw [g1, hgs], hall, ?_, ?_, ?_, ?_⟩
    · intro t ht
      obtain ⟨k, hk⟩ := List.mem_iff_getElem?.mp ht
      exact (t3 k t hk).props
    · intro t ht
      obtain ⟨k, hk⟩ := List.mem_iff_getElem?.mp ht
      exact (t3 k t hk).width
    · intro t ht
      obtain ⟨k, hk⟩ := List.mem_iff_getElem?.mp ht
      exact (t3 k t hk).cols
    · intro req hreq
      obtain ⟨out, d1, d2, d3⟩ := hsp req hreq
      refine ⟨out, d1, d2, ?_⟩
      intro i nm tg hi
      obtain ⟨m, e1, e2, e3⟩ := d3 i nm tg hi
      refine ⟨m, e1, ?_, e3⟩
      intro t ht p c col hp hnm hcol x hxr
      obtain ⟨k, hk⟩ := List.mem_iff_getElem?.mp ht
      obtain ⟨t', col', c1, c2, c3, _⟩ := e2 p c hp hnm x hxr
      have := part_gives_exact env _ _ _ _ _ c3 (hx c (List.mem_of_getElem? hp))
      rw [hwid k _ t t' hk c1 p c col col' hp hcol c2]
      rw [Nat.zero_mul, Nat.zero_add] at this
      have hdm := Nat.div_add_mod x cap
      rw [Nat.mul_comm] at hdm
      rwa [hdm] at this

end Verif
