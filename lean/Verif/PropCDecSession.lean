import Verif.CDecLaid
import Verif.PropAgg

/-
C60: a C decoder set up by any calls, used on any frames.
-/

namespace Verif

theorem Dec.Laid.mono {d' : Dec} {rows rows' : Nat} {cols : List (Str × Nat)} {at_ : Nat → Nat → Nat → Nat} (h : d'.Laid rows cols at_)
    (hr : rows' ≤ rows) : d'.Laid rows' cols at_ :=
  ⟨h.len, h.col, fun i j c c' r w r' w' hi hj a b => h.apart i j c c' r w r' w' hi hj (by omega) (by omega)⟩

theorem Dec.calls_log (d : Dec) (cs : List DecCall) : (d.calls cs).2.map Prod.fst = cs := by
  induction cs generalizing d with
  | nil => rfl
  | cons c cs ih => simp [Dec.calls, ih]

theorem call_refused (d : Dec) (c : DecCall) : (d.call c).2 = false ↔ c.Refused d.cols.length := by
  cases c with
  | defaults fr =>
    unfold Dec.call DecCall.Refused
    cases hi : frameInfo fr with
    | error e => simp [hi]
    | ok xs => simp [hi]
  | columnMajor b => simp [Dec.call, DecCall.Refused]
  | rowCount n => simp [Dec.call, DecCall.Refused]
  | dataArray p w h cm =>
    unfold Dec.call DecCall.Refused
    cases p with
    | none => simp
    | some p =>
      dsimp only
      by_cases hwh : 0 < w ∧ 0 < h
      · rw [if_pos hwh]; simp; omega
      · rw [if_neg hwh]; simp; omega
  | addColumn n => simp [Dec.call, DecCall.Refused]
  | dataSize col s =>
    have := column_none (d := d) (col := col)
    unfold Dec.call DecCall.Refused
    dsimp only
    rw [← this]
    cases d.column col <;> simp
  | columnData col s st p =>
    have := column_none (d := d) (col := col)
    unfold Dec.call DecCall.Refused
    dsimp only
    rw [← this]
    cases d.column col <;> simp

/-- **C60 (setting up)**: after any calls on a new decoder, refused ones among them, the decoder is the one the calls
describe: columns in the order added, with the size and memory said last, and the row count, layout and array said last;
a call is refused exactly if it gives no array or an empty one, names a column that was not added before it, or takes the
defaults of a frame whose columns cannot be listed. -/
theorem C60_setup (cs : List DecCall) :
    ∃ log : Log, (Dec.new []).calls cs = (log.decoder, log) ∧ log.map Prod.fst = cs ∧
      ∀ (k : Nat) (c : DecCall) (ok : Bool), log[k]? = some (c, ok) →
        (ok = false ↔ c.Refused (((log.take k).flatMap saysCols).length)) := by
  have hq : Log.Quiet [] := by intro i _; exact ⟨rfl, rfl⟩
  obtain ⟨_, h2⟩ := decoder_calls cs [] hq
  rw [← decoder_nil, List.nil_append] at h2
  refine ⟨((Dec.new []).calls cs).2, Prod.ext h2 rfl, Dec.calls_log _ _, ?_⟩
  have main : ∀ (cs : List DecCall) (done : Log), done.Quiet → ∀ (k : Nat) (c : DecCall) (ok : Bool),
      (done.decoder.calls cs).2[k]? = some (c, ok) →
        (ok = false ↔ c.Refused (((done ++ (done.decoder.calls cs).2.take k).flatMap saysCols).length)) := by
    intro cs
    induction cs with
    | nil => intro done _ k c ok h; simp [Dec.calls] at h
    | cons x cs ih =>
      intro done hq k c ok h
      obtain ⟨s1, s2⟩ := decoder_step done hq x
      cases k with
      | zero =>
        simp only [Dec.calls, List.getElem?_cons_zero, Option.some.injEq, Prod.mk.injEq] at h
        obtain ⟨rfl, rfl⟩ := h
        have := call_refused done.decoder x
        rw [decoder_len] at this
        simpa using this
      | succ k =>
        simp only [Dec.calls, List.getElem?_cons_succ] at h
        rw [s2] at h
        have := ih _ s1 k c ok h
        simp only [Dec.calls, List.take_succ_cons]
        rw [s2]
        simpa using this
  intro k c ok h
  have := main cs [] hq k c ok h
  rw [← decoder_nil, List.nil_append] at this
  exact this

/-- **C60 (decoding)**: set up a decoder by any calls so that it is ready for frames of up to `rows` rows.  Decoding a frame
gives the words of the C++ decoder, at the places that follow from the calls (`Dec.spot`), or its error; no other byte
changes.  For columns with memory of their own, row-major layout, or elements of one word, `odc_decoder_column_data_array`
afterwards reports address, size and stride of these places.  Every later frame (of any file) with at least as many columns
and at most `rows` rows is decoded into the same places. -/
theorem C60_decode (cs : List DecCall) (log : Log) (hlog : ((Dec.new []).calls cs).2 = log) (bytes : List Byte) (fr : List Tbl)
    (xs : List ColShown) (hinfo : frameInfo fr = .ok xs) (rows alloc : Nat) (hrows : frameRows fr ≤ rows)
    (hready : log.decoder.Ready xs rows alloc) :
    ∃ d' : Dec,
      (∀ (junk : Nat → Nat → Cell) (m : Mem), PutsWords bytes fr log.decoder.nrows (log.decoder.wants xs) (log.decoder.spot xs alloc)
        (fun i => ∀ e, log.decoder.cols[i]? = some e → e.2.data ≠ none ∨ log.decoder.columnMajor = false ∨ laidBytes xs e = 8) m d'
        (odcDecode bytes fr alloc junk ((Dec.new []).calls cs).1 m)) ∧
      (∀ (i : Nat) (e : Str × DecCol), log.decoder.cols[i]? = some e → ∃ (c : DecCol) (p : Nat), d'.cols[i]? = some (e.1, c) ∧
        c.elem = laidBytes xs e ∧ c.data = some p ∧
        (e.2.data ≠ none ∨ log.decoder.columnMajor = false ∨ laidBytes xs e = 8 →
          ∀ r w, w < c.elem / 8 → log.decoder.spot xs alloc i r w = p + r * c.stride + 8 * w)) ∧
      ∀ (bytes2 : List Byte) (fr2 : List Tbl) (xs2 : List ColShown), frameInfo fr2 = .ok xs2 → log.decoder.cols.length ≤ xs2.length →
        frameRows fr2 ≤ rows → ∀ (alloc2 : Nat) (junk : Nat → Nat → Cell) (m : Mem),
        PutsWords bytes2 fr2 log.decoder.nrows (log.decoder.wants xs) (log.decoder.spot xs alloc)
          (fun i => ∀ e, log.decoder.cols[i]? = some e → e.2.data ≠ none ∨ log.decoder.columnMajor = false ∨ laidBytes xs e = 8) m d'
          (odcDecode bytes2 fr2 alloc2 junk d' m) := by
  obtain ⟨log', h1, _⟩ := C60_setup cs
  have : log' = log := by rw [h1] at hlog; exact hlog
  subst this
  rw [h1]
  dsimp only
  generalize log'.decoder = d at hready ⊢
  obtain ⟨d', f1, f2, f3, f4, f5, f6, f7⟩ := fillIn_ready hready (frameRows fr)
  have weaken : ∀ (bytes : List Byte) (fr : List Tbl) (n : Nat) (m : Mem) (res : Except Err (Dec × Mem × Nat)),
      PutsWords bytes fr n (d.wants xs) (d.spot xs alloc) (fun i => ∀ e, d'.cols[i]? = some e → e.2.transpose = false) m d' res →
      PutsWords bytes fr n (d.wants xs) (d.spot xs alloc)
        (fun i => ∀ e, d.cols[i]? = some e → e.2.data ≠ none ∨ d.columnMajor = false ∨ laidBytes xs e = 8) m d' res := by
    rintro bytes fr n m res ⟨before, b1, b2⟩
    refine ⟨before, ?_, b2⟩
    intro i nm s hi r
    obtain ⟨c1, c2⟩ := b1 i nm s hi r
    refine ⟨c1, ?_⟩
    intro hk
    apply c2
    intro e' he'
    unfold Dec.wants at hi
    rw [List.getElem?_map, Option.map_eq_some_iff] at hi
    obtain ⟨e, he, _⟩ := hi
    exact f7 i e e' he he' (hk e he)
  refine ⟨d', ?_, ?_, ?_⟩
  · intro junk m
    apply weaken
    exact odcDecode_laid bytes fr xs hinfo alloc junk d d' m _ _ hready.few (by have := hready.room; omega) f2 (f6.mono hrows) f1
  · intro i e he
    have hw : (d.wants xs)[i]? = some (e.1, laidBytes xs e) := by unfold Dec.wants; rw [List.getElem?_map, he]; rfl
    obtain ⟨c, c1, c2, c3, c4, c5, c6, c7⟩ := f6.col i _ _ hw
    obtain ⟨p, hp⟩ := Option.ne_none_iff_exists'.mp c5
    refine ⟨c, p, c1, c2, hp, ?_⟩
    intro hk r w hwl
    have ht := f7 i e _ he c1 hk
    dsimp only at ht
    rw [c2] at hwl
    rw [← c7 r w hwl]
    unfold DecCol.addr
    rw [ht, hp]
    simp
  · intro bytes2 fr2 xs2 hi2 hl2 hr2 alloc2 junk m
    apply weaken
    have hlen : d'.cols.length = d.cols.length := by rw [f6.len]; simp [Dec.wants]
    have := odcDecode_laid bytes2 fr2 xs2 hi2 alloc2 junk d' d' m _ _ (by rw [hlen]; exact hl2) (by have := hready.room; omega) rfl
      (f6.mono hr2) (fillIn_laid f6 (by have := hready.room; omega) alloc2 _ _)
    rw [f2] at this
    exact this

/-! ### Files of tables -/

theorem Match.slice {α β : Type} {R : α → β → Prop} {as : List α} {bs : List β} (h : Match R as bs) (k n : Nat) :
    Match R ((as.drop k).take n) ((bs.drop k).take n) := by
  induction h generalizing k n with
  | nil => simp; exact .nil
  | @cons a b as bs h1 h2 ih =>
    cases k with
    | succ k => simpa using ih k n
    | zero =>
      cases n with
      | zero => exact .nil
      | succ n => simpa using Match.cons h1 (by simpa using ih 0 n)

theorem flatten_slice {α : Type} (gs : List (List α)) (g : Nat) (x : List α) (h : gs[g]? = some x) :
    (gs.flatten.drop (gs.take g).flatten.length).take x.length = x := by
  induction gs generalizing g with
  | nil => simp at h
  | cons y gs ih =>
    cases g with
    | zero => simp only [List.getElem?_cons_zero, Option.some.injEq] at h; subst h; simp
    | succ g =>
      have := ih g (by simpa using h)
      simp only [List.take_succ_cons, List.flatten_cons, List.length_append]
      rw [List.drop_append]
      rw [List.drop_of_length_le (by omega)]
      simpa using this

/-- Specification: `gs` are the frames of the file, read plainly or with aggregation. -/
def FramesRead (env : Env) (Ts : List UTable) (bytes : List Byte) (gs : List (List Tbl)) : Prop :=
  readPlain env bytes = (gs, none) ∨
    ∃ limit : Int, (limit < 0 ∨ ∀ T ∈ Ts, (T.rows : Int) ≤ limit) ∧ readAggregated env bytes limit = (gs, none)

/-- A frame of a file holds a run of its tables. -/
theorem frames_run (env : Env) (hmd5 : env.Md5Ok) (Ts : List UTable) (hT : ∀ T ∈ Ts, T.Ok env) (bss : List (List Byte))
    (hw : writeTables env Ts = .ok bss) (hsz : ∀ b ∈ bss, b.length ≤ 2147483647) (hbig : totalRows Ts < 9223372036854775808)
    (gs : List (List Tbl)) (hgs : FramesRead env Ts bss.flatten gs) (g : Nat) (fr : List Tbl) (hg : gs[g]? = some fr) :
    Match (Holds1 env (File.known bss.flatten)) fr ((Ts.drop (gs.take g).flatten.length).take fr.length) ∧ fr ≠ [] ∧
      ∀ (front : Tbl) (rest : List Tbl), fr = front :: rest → ∀ t ∈ rest, compatible front.info.cols t.info.cols = true := by
  obtain ⟨ts, h1, h2⟩ := plain_tables env hmd5 Ts hT bss hw hsz
  have hflat : (ts.map (fun t => [t])).flatten = ts := by
    clear * -
    induction ts with
    | nil => rfl
    | cons t ts ih => simp [ih]
  have hfin : gs.flatten = ts → Match (Holds1 env (File.known bss.flatten)) fr ((Ts.drop (gs.take g).flatten.length).take fr.length) := by
    intro hall
    have := h2.slice (gs.take g).flatten.length fr.length
    rw [← hall, flatten_slice gs g fr hg] at this
    exact this
  rcases hgs with hp | ⟨limit, hlim, ha⟩
  · rw [h1] at hp
    cases hp
    have hm := List.mem_of_getElem? hg
    rw [List.mem_map] at hm
    obtain ⟨t, _, rfl⟩ := hm
    exact ⟨hfin hflat, by simp, by intro a b e; cases e; simp⟩
  · have hrow : ∀ t ∈ ts, ∃ T ∈ Ts, t.info.nrows = T.rows := by
      intro t ht
      obtain ⟨T, hTm, hh⟩ := h2.mem_left t ht
      exact ⟨T, hTm, hh.shows.nrows⟩
    obtain ⟨gs', a1, a2, _⟩ := C13_aggregation env bss.flatten _ h1 limit (by
      rcases hlim with h | h
      · exact .inl h
      · right
        intro x hx
        rw [List.mem_map] at hx
        obtain ⟨t, ht, rfl⟩ := hx
        obtain ⟨T, hTm, he⟩ := hrow t ht
        have := h T hTm
        simp [rowSum, he, this]) (by rw [hflat, rowSum_match h2]; exact hbig)
    rw [ha] at a1
    cases a1
    rw [hflat] at a2
    have hm := List.mem_of_getElem? hg
    exact ⟨hfin a2.all, a2.nonempty fr hm, fun front rest e => a2.compat fr hm front rest e⟩

/-- **C60 (values)**: any calls, then any frame of a file of tables, read plainly or with aggregation.  The frame is a run
`Us` of the tables; row `r` of column `i` of its table number `q` is at the place of row `rowsBefore Us q + r`, as stored
(C01-C05), and no byte outside the places of the rows changes. -/
theorem C60_values (env : Env) (hmd5 : env.Md5Ok) (Ts : List UTable) (hT : ∀ T ∈ Ts, T.Ok env) (bss : List (List Byte))
    (hw : writeTables env Ts = .ok bss) (hsz : ∀ b ∈ bss, b.length ≤ 2147483647) (hbig : totalRows Ts < 9223372036854775808)
    (gs : List (List Tbl)) (hgs : FramesRead env Ts bss.flatten gs) (g : Nat) (fr : List Tbl) (hg : gs[g]? = some fr)
    (Us : List UTable) (hUs : Us = (Ts.drop (gs.take g).flatten.length).take fr.length) :
    frameRows fr = totalRows Us ∧ ∃ xs, frameInfo fr = .ok xs ∧
      ∀ (cs : List DecCall) (d : Dec), Log.decoder ((Dec.new []).calls cs).2 = d → ∀ (alloc : Nat), d.Ready xs (frameRows fr) alloc →
        (d.cols.map Prod.fst).Nodup → (∀ e ∈ d.cols, ∃ s, Reports fr e.1 s ∧ s ≤ laidBytes xs e) →
        ∀ (junk : Nat → Nat → Cell) (m : Mem),
        ∃ d' m', odcDecode bss.flatten fr alloc junk ((Dec.new []).calls cs).1 m = .ok (d', m', totalRows Us) ∧
          (∀ (i : Nat) (e : Str × DecCol) (q : Nat) (T : UTable) (c : InCol), d.cols[i]? = some e → Us[q]? = some T → c ∈ T.cols →
            c.name = e.1 → ∀ r, r < T.rows → ∃ ws : Cell, c.vals.Back env r ws ∧ 0 < ws.length ∧
              Reports fr e.1 (8 * ws.length) ∧
              ∀ (w : Nat) (x : Word), ws[w]? = some x → m'.word (d.spot xs alloc i (rowsBefore Us q + r) w) = x) ∧
          ∀ x, (∀ (i : Nat) (e : Str × DecCol) (r w : Nat), d.cols[i]? = some e → r < totalRows Us → w < laidBytes xs e / 8 →
            x < d.spot xs alloc i r w ∨ d.spot xs alloc i r w + 8 ≤ x) → m' x = m x := by
  obtain ⟨hm, hne, hcompat⟩ := frames_run env hmd5 Ts hT bss hw hsz hbig gs hgs g fr hg
  rw [← hUs] at hm
  have hle : totalRows Us ≤ totalRows Ts := by
    subst hUs
    have h1 : ∀ (l : List UTable) n, totalRows (l.take n) ≤ totalRows l := by
      intro l n
      have := sum_take_le (l.map UTable.rows) n
      rw [← List.map_take] at this
      exact this
    have h2 : ∀ (l : List UTable) k, totalRows (l.drop k) ≤ totalRows l := by
      intro l k
      have : totalRows l = totalRows (l.take k) + totalRows (l.drop k) := by
        unfold totalRows
        rw [← List.sum_append, ← List.map_append, List.take_append_drop]
      omega
    have := h1 (Ts.drop (gs.take g).flatten.length) fr.length
    have := h2 Ts (gs.take g).flatten.length
    omega
  have hfrows : frameRows fr = totalRows Us := by
    have hfr : ∀ (us : List Tbl) (n : Nat), n + rowSum us < 9223372036854775808 →
        us.foldl (fun n t => (n + t.info.nrows) % 18446744073709551616) n = n + rowSum us := by
      intro us
      induction us with
      | nil => intro n _; simp [rowSum]
      | cons t us ih =>
        intro n hn
        rw [rowSum_cons] at hn
        rw [List.foldl_cons, Nat.mod_eq_of_lt (by omega), ih _ (by omega), rowSum_cons]
        omega
    have := hfr fr 0 (by rw [rowSum_match hm]; omega)
    rw [← rowSum_match hm]
    simpa [frameRows] using this
  cases fr with
  | nil => exact absurd rfl hne
  | cons front rest =>
  obtain ⟨U0, hU0, hh0⟩ := hm.mem_left front (by simp)
  have hinfo0 := info_of_holds hh0
  have hinfo : frameInfo (front :: rest) = .ok (front.info.cols.map (fun c => ⟨c.name, c.ty, 8 * c.codec.width, bitInfos 0 c.bitNames c.bitSizes⟩)) :=
    hinfo0
  refine ⟨hfrows, _, hinfo, ?_⟩
  intro cs d hd alloc hready hnd hrep junk m
  have hknown : ∀ e ∈ d.cols, ∃ k ∈ front.info.cols, k.name = e.1 ∧ 8 * k.codec.width ≤ laidBytes
      (front.info.cols.map (fun c => (⟨c.name, c.ty, 8 * c.codec.width, bitInfos 0 c.bitNames c.bitSizes⟩ : ColShown))) e := by
    intro e he
    obtain ⟨s, ⟨ys, x, h1, h2, h3, h4⟩, h5⟩ := hrep e he
    rw [hinfo] at h1
    cases h1
    rw [List.mem_map] at h2
    obtain ⟨k, hk, rfl⟩ := h2
    exact ⟨k, hk, h3, by dsimp only at h4; omega⟩
  generalize hxs : front.info.cols.map (fun c => (⟨c.name, c.ty, 8 * c.codec.width, bitInfos 0 c.bitNames c.bitSizes⟩ : ColShown)) = xs at *
  obtain ⟨d', hput, _, _⟩ := C60_decode cs _ rfl bss.flatten (front :: rest) xs hinfo (frameRows (front :: rest)) alloc (Nat.le_refl _)
    (by rw [hd]; exact hready)
  obtain ⟨before, b1, b2⟩ := hput junk m
  rw [hd] at b1 b2
  obtain ⟨Ls, out, o1, o2, o3⟩ := frame_decode hm hcompat (by omega) ((d.wants xs).mapIdx (fun i c => (c.1, ⟨d.nrows, c.2 / 8, before i⟩))) (by
    have hget : ∀ e ∈ (d.wants xs).mapIdx (fun i c => (c.1, (⟨d.nrows, c.2 / 8, before i⟩ : Target))), ∃ (i : Nat) (a : Str × DecCol),
        d.cols[i]? = some a ∧ (d.wants xs)[i]? = some (a.1, laidBytes xs a) ∧ e = (a.1, ⟨d.nrows, laidBytes xs a / 8, before i⟩) := by
      intro e he
      obtain ⟨i, hi⟩ := List.mem_iff_getElem?.mp he
      rw [List.getElem?_mapIdx] at hi
      cases hc : d.cols[i]? with
      | none =>
        unfold Dec.wants at hi
        rw [List.getElem?_map, hc] at hi
        cases hi
      | some a =>
        have hwa : (d.wants xs)[i]? = some (a.1, laidBytes xs a) := by unfold Dec.wants; rw [List.getElem?_map, hc]; rfl
        rw [hwa] at hi
        simp only [Option.map_some, Option.some.injEq] at hi
        exact ⟨i, a, hc, hwa, hi.symm⟩
    refine ⟨?_, ?_, ?_, ?_⟩
    · have : ((d.wants xs).mapIdx (fun i c => (c.1, (⟨d.nrows, c.2 / 8, before i⟩ : Target)))).map Prod.fst = d.cols.map Prod.fst := by
        apply List.ext_getElem?
        intro i
        unfold Dec.wants
        rw [List.getElem?_map, List.getElem?_mapIdx, List.getElem?_map, List.getElem?_map]
        cases d.cols[i]? <;> rfl
      rw [this]; exact hnd
    · intro a b hab e he
      cases hab
      obtain ⟨i, x, x1, x2, rfl⟩ := hget e he
      obtain ⟨k, k1, k2, k3⟩ := hknown x (List.mem_of_getElem? x1)
      exact ⟨k, k1, k2, by dsimp only; omega⟩
    · intro e he
      obtain ⟨i, x, x1, x2, rfl⟩ := hget e he
      have := hready.room
      rw [rowSum_match hm]
      dsimp only
      omega
    · intro e he x
      obtain ⟨i, a, x1, x2, rfl⟩ := hget e he
      exact (b1 i _ _ x2 x).1)
  have hout : decodeFrame bss.flatten (front :: rest) ((d.wants xs).mapIdx (fun i c => (c.1, ⟨d.nrows, c.2 / 8, before i⟩))) = .ok out := by
    unfold decodeFrame; rw [o1]
  rw [hout] at b2
  dsimp only at b2
  obtain ⟨m', c1, c2, c3⟩ := b2
  rw [hfrows] at c1 c2 c3
  refine ⟨d', m', c1, ?_, ?_⟩
  · intro i e q T c hi hq hc hn r hr
    have hwa : (d.wants xs)[i]? = some (e.1, laidBytes xs e) := by unfold Dec.wants; rw [List.getElem?_map, hi]; rfl
    obtain ⟨mm, b1, b2, b3, b4⟩ := o3 i e.1 ⟨d.nrows, laidBytes xs e / 8, before i⟩ (by rw [List.getElem?_mapIdx, hwa]; rfl)
    obtain ⟨t, ht, hht⟩ : ∃ t, (front :: rest)[q]? = some t ∧ Holds1 env (File.known bss.flatten) t T := by
      have hlen := hm.length
      have hql := (List.getElem?_eq_some_iff.mp hq).1
      have hg : (front :: rest)[q]? = some ((front :: rest)[q]'(by omega)) := List.getElem?_eq_getElem _
      exact ⟨_, hg, hm.get _ _ _ hg hq⟩
    -- the column in the table of the frame
    obtain ⟨kf, kf1, kf2, kf3⟩ := hknown e (List.mem_of_getElem? hi)
    have hndt := hht.shows.col_names_nodup
    obtain ⟨k, k1, k2, k3⟩ : ∃ k ∈ t.info.cols, k.name = e.1 ∧ k.codec.width = kf.codec.width := by
      have htm := List.mem_of_getElem? ht
      rcases List.mem_cons.mp htm with rfl | htm
      · exact ⟨kf, kf1, kf2, rfl⟩
      · obtain ⟨k, h1, h2, _, h4⟩ := compatible_back _ _ hh0.shows.col_names_nodup hndt (hcompat front rest rfl t htm) kf kf1
        exact ⟨k, h1, by rw [h2, kf2], h4⟩
    have hback := b2 q t T ht hq c k hc hn k1 k2 r hr
    have hk1 : 1 ≤ k.codec.width := by
      obtain ⟨p, hp⟩ := List.mem_iff_getElem?.mp k1
      have hl : t.info.cols.length = T.cols.length := by
        have := congrArg List.length hht.shows.colNames; simpa using this
      have hpl := (List.getElem?_eq_some_iff.mp hp).1
      obtain ⟨_, _, _, _, k5, _⟩ := hht.col p _ k (List.getElem?_eq_getElem (by omega)) hp
      exact k5
    have hml : (mm (rowsBefore Us q + r)).length = laidBytes xs e / 8 := b3 _
    have hwl : ((mm (rowsBefore Us q + r)).take k.codec.width).length = k.codec.width := by rw [List.length_take]; omega
    refine ⟨_, hback, by omega, ?_, ?_⟩
    · rw [hwl, k3]
      refine ⟨_, ⟨kf.name, kf.ty, 8 * kf.codec.width, bitInfos 0 kf.bitNames kf.bitSizes⟩, hinfo0, ?_, kf2, rfl⟩
      rw [← hxs]
      exact List.mem_map_of_mem (f := fun c : Col => (⟨c.name, c.ty, 8 * c.codec.width, bitInfos 0 c.bitNames c.bitSizes⟩ : ColShown)) kf1
    · intro w x hx
      have hwl' := (List.getElem?_eq_some_iff.mp hx).1
      rw [hwl] at hwl'
      have hrr : rowsBefore Us q + r < totalRows Us := by
        have hl : (Us.map UTable.rows)[q]? = some T.rows := by rw [List.getElem?_map, hq]; rfl
        have h1 := sum_take_next _ _ _ hl
        have h2 := sum_take_le (Us.map UTable.rows) (q + 1)
        unfold rowsBefore totalRows
        rw [List.map_take]
        omega
      have := c2 i e.1 (laidBytes xs e) mm hwa b1 (rowsBefore Us q + r) w hrr (by omega)
      rw [List.getElem?_take_of_lt (by omega)] at hx
      rw [List.getD_eq_getElem?_getD, hx] at this
      exact this
  · intro x hx
    apply c3 x
    intro i nm s r w hi hr hw
    unfold Dec.wants at hi
    rw [List.getElem?_map, Option.map_eq_some_iff] at hi
    obtain ⟨e, he, hes⟩ := hi
    cases hes
    exact hx i e r w he hr hw

end Verif
