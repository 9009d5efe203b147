import Verif.PropSqlFile

/-!
C53: `odc sql ... -o file`.
-/

namespace Verif

theorem rowsAre_sum {env : Env} {Rs : List UTable} {vss : List (List RowView)} (h : Match (RowsAre env) Rs vss) :
    vss.flatten.length = (Rs.map UTable.rows).sum := by
  induction h with
  | nil => rfl
  | cons h _ ih => simp only [List.flatten_cons, List.length_append, List.map_cons, List.sum_cons]; rw [ih, h.len]

/-- What `pass1` on a new writer would write. -/
theorem whole_run (env : Env) (hmd5 : env.Md5Ok) (cap : Nat) (hcap : 0 < cap) (B : List InCol) (hB : ∀ b ∈ B, b.vals.Ok env ∧ (env.longEnv = true → b.vals.NoEmpty))
    (Ps : List UTable) (vss : List (List RowView)) (hm : Match (RowsAre env) Ps vss) (hrun : ∀ P ∈ Ps, 0 < P.rows → URun B P)
    (hfr : ∀ vs ∈ vss, ∀ u, vs.head? = some u → u.fresh = true) (hbig : (Ps.map UTable.rows).sum < 18446744073709551616) :
    ∃ wend : Writer, StartsOn env (Writer.new cap) vss.flatten wend ∧
      ((∀ f ∈ wend.out, f.length ≤ 2147483647) → ∀ (junk' : Junk) (fuel' : Nat), (Ps.map UTable.rows).sum + 1 < fuel' →
        ∃ views, readRows env junk' wend.out.flatten fuel' = (views, none) ∧ Match (IsRowAt env) (allRows Ps) views) := by
  have hvl := rowsAre_sum hm
  cases hvf : vss.flatten with
  | nil =>
    refine ⟨Writer.new cap, rfl, ?_⟩
    intro _ junk' fuel' hf'
    have hz : (Ps.map UTable.rows).sum = 0 := by rw [← hvl, hvf]; rfl
    refine ⟨[], ?_, ?_⟩
    · exact readRows_file env junk' [] (by simp) fuel' (by simp [rowCount]; omega)
    · rw [List.length_eq_zero_iff.mp (show (allRows Ps).length = 0 by rw [allRows_length, hz])]
      exact .nil
  | cons v vs =>
    obtain ⟨Rd, wd, d1, d2, d3, d4, d5, d6⟩ := drop_empty hm
    rw [hvf] at d2
    have hRd : Rd ≠ [] := by
      rintro rfl
      cases d1
      simp at d2
    obtain ⟨U, Us, r1, r2, r3, r4⟩ := runs env (Rd.map (fun R => (B, R))) wd (by simpa using hRd)
      (Match.map_left _ d1)
      (by
        intro p hp
        obtain ⟨R, hR, rfl⟩ := List.mem_map.mp hp
        obtain ⟨g1, g2⟩ := d5 R hR
        exact hrun R g1 g2)
      (grouped_one B Rd)
      (fun ws hws => hfr ws (d6 ws (List.mem_of_mem_tail hws)))
    rw [d2] at r1
    have hsum : ((Rd.map (fun R => (B, R))).map (fun p => p.2.rows)).sum = (Ps.map UTable.rows).sum := by
      rw [← d4, List.map_map]
      rfl
    obtain ⟨w0, w1, w2, Fs, a1, a2, a3, a4, a5, a6, a7, a8, _⟩ := tables_ok env hmd5 .same cap hcap (U :: Us) (v :: vs) r1
      (by
        intro V hV
        obtain ⟨p, hp, hR, hle⟩ := r3 V hV
        obtain ⟨R, _, rfl⟩ := List.mem_map.mp hp
        exact ⟨hR.ok hB (by rw [hsum] at hle; omega), hR.ne⟩)
      (by
        intro V hV
        obtain ⟨p, hp, hR, _⟩ := r3 V (List.mem_cons_of_mem _ hV)
        exact hR.pos) U rfl (Writer.new cap) rfl rfl v.cols
      (by
        cases d1 with
        | nil => exact absurd rfl hRd
        | @cons R ws Rd wd g _ =>
          rw [(r2 (B, R) rfl).2]
          have := (d5 R (by simp)).2
          obtain ⟨w, ws', rfl⟩ : ∃ w ws', ws = w :: ws' := by
            have := g.len
            cases ws with
            | nil => simp at this; omega
            | cons w ws => exact ⟨w, ws, rfl⟩
          simp only [List.flatten_cons, List.cons_append, List.cons.injEq] at d2
          rw [← d2.1]
          exact (g.row 0 w rfl).1)
    refine ⟨w2, ⟨w0, a1, w1, a3, a4⟩, ?_⟩
    have ho : w2.out = Fs.map RFrame.bytes := by rw [a5]; rfl
    rw [ho]
    intro hsz junk' fuel' hf'
    obtain ⟨b1, b2⟩ := a8 hsz
    have hlen : rowCount Fs = (Ps.map UTable.rows).sum := by
      rw [← hvl, hvf, ← rowPairs_length, ← b2.length, allRows_length]
      clear * - r1
      generalize U :: Us = Ts at r1
      generalize v :: vs = ws at r1
      induction r1 with
      | last h => simp [h.len]
      | more h _ _ _ ih => simp only [List.map_cons, List.sum_cons, List.length_append, h.len] at ih ⊢; rw [ih]
    have hv : Match (IsRowAt env) (allRows (U :: Us)) (fileViews Fs) := by
      apply rowAt_pairs
      rw [fileViews_pairs]
      exact b2
    refine ⟨fileViews Fs, readRows_file env junk' Fs b1 fuel' (by omega), ?_⟩
    have := r4 _ hv
    rw [List.map_map] at this
    rw [← d3]
    simpa [Function.comp_def] using this

/-- **C53.**  `odc sql ... -o file` on a file whose rows are those of the tables `Ts`.  Each name in the query means one column, in every table; no title in
the query can be taken for another (`Unambiguous`); the answers on the tables (`Answer`: the columns asked for with their titles, in the rows that meet the condition)
have columns of the same types (`B`), strings may be of any widths.  The number of rows reported is that of the answers, and the file written has exactly these
rows, in order. -/
theorem C53_sql_file (env : Env) (hmd5 : env.Md5Ok) (len : List Byte → Nat) (hlen : StrLen len) (cap : Nat) (hcap : 0 < cap) (junk : Junk)
    (bytes : List Byte) (fuel : Nat) (q : Query) (Ts Rs : List UTable) (vss : List (List RowView))
    (hr : readRows env junk bytes fuel = (vss.flatten, none)) (hfrom : Match (RowsFrom env) Ts vss)
    (hfresh : ∀ vs ∈ vss.tail, ∀ u, vs.head? = some u → u.fresh = true)
    (hrows : ∀ T ∈ Ts, ∀ c ∈ T.cols, c.vals.rows = T.rows) (hpos : ∀ T ∈ Ts, 0 < T.rows)
    (T0 : UTable) (hT0 : Ts.head? = some T0) (hans : Match (Answer env q (T0.cols.map InCol.name)) Ts Rs)
    (B : List InCol) (hB : ∀ b ∈ B, b.vals.Ok env ∧ (env.longEnv = true → b.vals.NoEmpty)) (hw : ∀ R ∈ Rs, R.Within B)
    (hf : ∀ R ∈ Rs, ∀ c ∈ R.cols, c.vals.Fits) (hl : ∀ R ∈ Rs, ∀ c ∈ R.cols, ColLen c)
    (hne : q.select ≠ []) (hfew : q.select.length < 65536) (hbig : (Rs.map UTable.rows).sum < 18446744073709551616)
    (hu : Unambiguous (q.select.map Prod.snd)) (htne : ∀ s ∈ q.select, s.2 ≠ []) :
    ∃ out, sqlToFile env len cap junk q bytes fuel = .ok ((Rs.map UTable.rows).sum, out) ∧
      ((∀ f ∈ out, f.length ≤ 2147483647) → ∀ (junk' : Junk) (fuel' : Nat), (Rs.map UTable.rows).sum + 1 < fuel' →
        ∃ views, readRows env junk' out.flatten fuel' = (views, none) ∧ Match (IsRowAt env) (allRows Rs) views) := by
  have htl : (q.select.map Prod.snd).length = q.select.length := by simp
  -- the first table
  obtain ⟨Ts', rfl⟩ : ∃ Ts', Ts = T0 :: Ts' := by
    cases Ts with
    | nil => simp at hT0
    | cons T Ts => simp at hT0; subst hT0; exact ⟨Ts, rfl⟩
  obtain ⟨R0, Rs', rfl, hans0⟩ : ∃ R0 Rs', Rs = R0 :: Rs' ∧ Answer env q (T0.cols.map InCol.name) T0 R0 := by
    cases hans with
    | cons h _ => exact ⟨_, _, rfl, h⟩
  obtain ⟨vs0, vss', rfl, hfrom0⟩ : ∃ vs0 vss', vss = vs0 :: vss' ∧ RowsFrom env T0 vs0 := by
    cases hfrom with
    | cons h _ => exact ⟨_, _, rfl, h⟩
  have hp0 := hpos T0 (by simp)
  obtain ⟨u, us0, rfl⟩ : ∃ u us, vs0 = u :: us := by
    have := hfrom0.are.len
    cases vs0 with
    | nil => simp at this; omega
    | cons u us => exact ⟨u, us, rfl⟩
  obtain ⟨ks0, k2, k3⟩ := hfrom0.src
  have k1 : ks0.map Col.key = T0.cols.map InCol.key := by rw [← k3 u (by simp)]; exact (hfrom0.are.row 0 u rfl).1
  obtain ⟨ss0, p1, p2⟩ := populate_ok T0.cols ks0 k1 k2
  obtain ⟨cs0', n1, _⟩ := answer_cols hans0
  obtain ⟨ss, q1, q2⟩ := sqlColumns_ok p2 q.names (by
    intro x hx
    obtain ⟨c, _, n, hn, _⟩ := n1.mem_right' hx
    exact ⟨n, hn⟩)
  have hasked : ∀ (T R : UTable), T ∈ T0 :: Ts' → R ∈ R0 :: Rs' → Answer env q (T0.cols.map InCol.name) T R → ∃ cs, AskedIn env q ss T R cs := by
    intro T R hT hR hA
    exact answer_asked p2 q2 hans0 hA hB (hw R0 (by simp)) (hw R hR) (hf R hR) (hrows T hT)
  obtain ⟨cs0, hA0⟩ := hasked T0 R0 (by simp) (by simp) hans0
  obtain ⟨fs, f1, f2⟩ := fetchCols_ok hA0.rows k1 k2 hA0.one
  -- all rows
  obtain ⟨xs, e2, e3, hXs⟩ : ∃ xs : List Chunk, xs.map Chunk.answer = Rs' ∧ xs.map Chunk.views = vss' ∧ ∀ x ∈ xs, x.Ok env q ss := by
    have : ∀ (As Bs : List UTable) (wss : List (List RowView)), Match (Answer env q (T0.cols.map InCol.name)) As Bs → Match (RowsFrom env) As wss →
        (∀ T ∈ As, T ∈ T0 :: Ts') → (∀ R ∈ Bs, R ∈ R0 :: Rs') →
        ∃ xs : List Chunk, xs.map Chunk.answer = Bs ∧ xs.map Chunk.views = wss ∧ ∀ x ∈ xs, x.Ok env q ss := by
      intro As Bs wss h1 h2 h3 h4
      induction h1 generalizing wss with
      | nil => cases h2; exact ⟨[], rfl, rfl, by simp⟩
      | @cons T R As Bs g1 _ ih =>
        cases h2 with
        | @cons _ ws _ wss g2 g3 =>
          obtain ⟨xs, a2, a3, a4⟩ := ih wss g3 (fun T hT => h3 T (by simp [hT])) (fun R hR => h4 R (by simp [hR]))
          obtain ⟨cs, hc⟩ := hasked T R (h3 T (by simp)) (h4 R (by simp)) g1
          refine ⟨⟨T, R, cs, ws⟩ :: xs, by simp [a2], by simp [a3], ?_⟩
          intro x hx
          rcases List.mem_cons.mp hx with rfl | hx
          · exact ⟨hc, g2, hpos T (h3 T (by simp))⟩
          · exact a4 x hx
    cases hans with
    | cons _ h =>
      cases hfrom with
      | cons _ g => exact this _ _ _ h g (fun T hT => by simp [hT]) (fun R hR => by simp [hR])
  have hx0 : Chunk.Ok env q ss ⟨T0, R0, cs0, u :: us0⟩ := ⟨hA0, hfrom0, hp0⟩
  generalize hxe : (⟨T0, R0, cs0, u :: us0⟩ : Chunk) = x0 at hx0
  have hall : ∀ x ∈ x0 :: xs, x.Ok env q ss := by
    intro x hx
    rcases List.mem_cons.mp hx with rfl | hx
    · exact hx0
    · exact hXs x hx
  have hanss : (x0 :: xs).map Chunk.answer = R0 :: Rs' := by rw [List.map_cons, e2, ← hxe]
  have hwx : ∀ x ∈ x0 :: xs, x.answer.Within B := by
    intro x hx
    apply hw
    rw [← hanss]
    exact List.mem_map.mpr ⟨x, hx, rfl⟩
  have hd0 := hx0.decls
  have hmax : List.zipWith max (widthsOf q x0.cols) (widthsOf q x0.cols) = widthsOf q x0.cols := by
    generalize widthsOf q x0.cols = l
    induction l with
    | nil => rfl
    | cons n l ih => simp only [List.zipWith_cons_cons, ih, Nat.max_self]
  obtain ⟨b1, b2, b3⟩ := padFrom_ok (x0 :: xs) hall hwx (widthsOf q x0.cols) hd0 (widths_high hx0 (hwx x0 (by simp)))
  have hok : ∀ R ∈ R0 :: Rs', (∀ c ∈ R.cols, c.vals.rows = R.rows) ∧ R.cols.length = q.select.length := by
    intro R hR
    obtain ⟨T, _, hA⟩ := hans.mem_left' hR
    constructor
    · obtain ⟨cond, _, r2, r3⟩ := hA.ex
      intro c hc
      obtain ⟨s, _, c', _, _, h3⟩ := r3.mem_left' hc
      rw [h3, Vals.pick_rows, r2]
    · obtain ⟨cs, _, c2, _, c4⟩ := answer_cols hA
      rw [c4]
      simp
      omega
  have hpsum : ((padFrom q (widthsOf q x0.cols) (x0 :: xs)).map UTable.rows) = (R0 :: Rs').map UTable.rows := by
    rw [← hanss]
    clear * - b2
    generalize x0 :: xs = l at b2
    generalize padFrom q (widthsOf q x0.cols) l = Ps at b2
    induction b2 with
    | nil => rfl
    | cons h _ ih =>
      obtain ⟨ms, rfl, _⟩ := h
      simp only [List.map_cons, ih]
      rfl
  obtain ⟨wend, g1, g2⟩ := whole_run env hmd5 cap hcap B hB _ _ b1 (by
      intro P hP hPpos
      obtain ⟨x, hx, ms, rfl, h1, h2⟩ := b2.mem_left' hP
      have hR : x.answer ∈ R0 :: Rs' := by rw [← hanss]; exact List.mem_map.mpr ⟨x, hx, rfl⟩
      obtain ⟨o1, o2⟩ := hok _ hR
      exact pad_run h1 (hwx x hx) o1 (hl _ hR) (hf _ hR) (by omega) (by
        intro h0
        rw [h0] at o2
        exact hne (List.length_eq_zero_iff.mp o2.symm)) hPpos) b3 (by rw [hpsum]; exact hbig)
  rw [hpsum] at g2
  simp only [outFrom, hmax, List.flatten_cons] at g1
  have hsz : (fs.take q.select.length).map Fetch.size = widthsOf q x0.cols := by
    rw [fetch_sizes f2 q.select.length, ← hxe]
    rfl
  obtain ⟨o, o1, o2, o3⟩ := prepare_ok (fs := fs) (cap := cap) (by rw [htl, hsz]; exact hd0) hu (by
    intro t ht
    obtain ⟨s, hs, rfl⟩ := List.mem_map.mp ht
    exact htne s hs) g1
  rw [htl, hsz] at o2
  obtain ⟨s1, l1, l2, l3⟩ := odaLoop_table hlen q ss x0 hx0 (ns := widthsOf q x0.cols) (by
      have := max_low (cs := x0.cols.take q.select.length) (ns := widthsOf q x0.cols) (by simp [widthsOf])
      change Match _ _ (List.zipWith max (widthsOf q x0.cols) (widthsOf q x0.cols)) at this
      rwa [hmax] at this) hmax (ks := ks0) (fs := fs) (by rw [← hxe]; exact k3) f1 (by rw [← hxe]; exact f2) o _ wend o2 (xs.map Chunk.views).flatten
  obtain ⟨s2, ns2, m1, m2, m3⟩ := odaLoop_chunks hlen q ss hu xs hXs (by
      intro x hx w hw'
      refine hfresh x.views ?_ w hw'
      rw [List.tail_cons, ← e3]
      exact List.mem_map.mpr ⟨x, hx, rfl⟩) fs s1 _ wend l1
  obtain ⟨w2, w21, w22⟩ := m2.follows.done m2.decls.ok
  have hcount : s2.count = ((R0 :: Rs').map UTable.rows).sum := by
    rw [m3, l2, o3, ← hanss, List.map_cons, List.map_cons, List.sum_cons, List.map_map]
    simp [Function.comp_def]
  cases hb : RowIt.begin env junk bytes with
  | error e => unfold readRows at hr; rw [hb] at hr; simp at hr
  | ok it =>
    obtain ⟨c1, c2, c3⟩ := begin_first (u := u) (us := us0 ++ vss'.flatten) hb (by simpa using hr)
    refine ⟨w2.out, ?_, ?_⟩
    · unfold sqlToFile
      rw [hb]
      dsimp only
      rw [c1, k3 u (by simp), p1]
      dsimp only
      rw [q1]
      dsimp only
      have hsel : selBegin ks0 ss it.noMore (ss.map SqlCol.name) = .ok fs := by
        unfold selBegin
        rw [c2, if_neg (by simp), f1]
      rw [hsel]
      dsimp only
      rw [o1]
      dsimp only
      rw [c3]
      dsimp only
      have : u :: (us0 ++ vss'.flatten) = x0.views ++ (xs.map Chunk.views).flatten := by rw [e3, ← hxe]; simp
      rw [this, l3, m1]
      dsimp only
      rw [w21]
      dsimp only
      rw [hcount]
    · rw [w22]
      intro hsz junk' fuel' hf'
      obtain ⟨views, v1, v2⟩ := g2 hsz junk' fuel' hf'
      refine ⟨views, v1, ?_⟩
      rw [← hanss]
      exact pad_rows (Match.change b2 (fun x P h => by obtain ⟨ms, h1, _, h3⟩ := h; exact ⟨ms, h1, h3⟩)) v2

/-- **C53.**  `odc sql ... -o file` on a file of tables written by `encode`.  The condition is about values and texts (`OfText`); each name in the query means
one column in every table; no title can be taken for another; the answers on the tables have columns of the same types (`B`), consecutive tables may have any columns
otherwise.  The number of rows reported is that of the answers, and the file written has exactly these rows, in order. -/
theorem C53_sql_file_encoded (env : Env) (hmd5 : env.Md5Ok) (len : List Byte → Nat) (hlen : StrLen len) (cap : Nat) (hcap : 0 < cap) (q : Query) (hq : q.OfText)
    (Ts Rs : List UTable) (hT : ∀ T ∈ Ts, T.Ok env) (hv : ∀ T ∈ Ts, ∀ c ∈ T.cols, c.vals.Ok env ∧ c.vals.Exact) (hpos : ∀ T ∈ Ts, 0 < T.rows)
    (T0 : UTable) (hT0 : Ts.head? = some T0) (hans : Match (Answer env q (T0.cols.map InCol.name)) Ts Rs)
    (B : List InCol) (hB : ∀ b ∈ B, b.vals.Ok env ∧ (env.longEnv = true → b.vals.NoEmpty)) (hw : ∀ R ∈ Rs, R.Within B)
    (hne : q.select ≠ []) (hfew : q.select.length < 65536) (htitle : ∀ s ∈ q.select, LenOk s.2.length)
    (hbig : (Rs.map UTable.rows).sum < 18446744073709551616)
    (hu : Unambiguous (q.select.map Prod.snd)) (htne : ∀ s ∈ q.select, s.2 ≠ []) :
    ∃ bss, writeTables env Ts = .ok bss ∧ ((∀ b ∈ bss, b.length ≤ 2147483647) →
      ∀ (junk : Junk) (fuel : Nat), (Ts.map UTable.rows).sum + 1 < fuel →
        ∃ out, sqlToFile env len cap junk q bss.flatten fuel = .ok ((Rs.map UTable.rows).sum, out) ∧
          ((∀ f ∈ out, f.length ≤ 2147483647) → ∀ (junk' : Junk) (fuel' : Nat), (Rs.map UTable.rows).sum + 1 < fuel' →
            ∃ views, readRows env junk' out.flatten fuel' = (views, none) ∧ Match (IsRowAt env) (allRows Rs) views)) := by
  obtain ⟨Fs, Ts', a1, a2, a3, a4, a5⟩ := encode_from env hmd5 Ts hT hv hpos
  refine ⟨_, a1, ?_⟩
  intro hsz junk fuel hf
  have hrowsT : ∀ T ∈ Ts, ∀ c ∈ T.cols, c.vals.rows = T.rows := fun T h c hc => ((hT T h).col c hc).2.2
  have hnames : ∀ T T' : UTable, NarrowCols T.cols T'.cols → T'.cols.map InCol.name = T.cols.map InCol.name := by
    intro T T' h
    unfold NarrowCols at h
    generalize T.cols = cs at h
    generalize T'.cols = cs' at h
    induction h with
    | nil => rfl
    | cons h _ ih => simp only [List.map_cons, h.1, ih]
  obtain ⟨T0', Ts1', rfl, hn0⟩ : ∃ T0' Ts1', Ts' = T0' :: Ts1' ∧ T0'.cols.map InCol.name = T0.cols.map InCol.name := by
    cases a3 with
    | nil => simp at hT0
    | cons h _ => simp at hT0; subst hT0; exact ⟨_, _, rfl, hnames _ _ h.2⟩
  obtain ⟨F, Fs, rfl⟩ : ∃ F Fs', Fs = F :: Fs' := by cases a5; exact ⟨_, _, rfl⟩
  -- the answers on the tables as read
  obtain ⟨Rs', hans', hnar⟩ : ∃ Rs', Match (Answer env q (T0'.cols.map InCol.name)) (T0' :: Ts1') Rs' ∧
      Match (fun (R R' : UTable) => R'.rows = R.rows ∧ NarrowCols R.cols R'.cols) Rs Rs' := by
    rw [hn0]
    clear * - a3 hans hrowsT hq
    generalize T0' :: Ts1' = Us at a3
    generalize T0.cols.map InCol.name = first at hans
    induction hans generalizing Us with
    | nil => cases a3; exact ⟨[], .nil, .nil⟩
    | cons h _ ih =>
      cases a3 with
      | cons g1 g2 =>
        obtain ⟨Rs', b1, b2⟩ := ih (fun T hT => hrowsT T (by simp [hT])) _ g2
        obtain ⟨R', c1, c2, c3⟩ := answer_narrow hq g1.2 g1.1 (hrowsT _ (by simp)) h
        exact ⟨R' :: Rs', .cons c1 b1, .cons ⟨c2, c3⟩ b2⟩
  have hsum : Rs'.map UTable.rows = Rs.map UTable.rows := by
    clear * - hnar
    induction hnar with
    | nil => rfl
    | cons h _ ih => simp only [List.map_cons, h.1, ih]
  -- the columns of the answers
  have hsrc : ∀ R ∈ Rs, ∀ r ∈ R.cols, LenOk r.name.length ∧ ∃ (c : InCol) (js : List Nat), r.vals = c.vals.pick js ∧ c.vals.Ok env := by
    intro R hR r hr
    obtain ⟨T, hTm, hA⟩ := hans.mem_left' hR
    obtain ⟨cs, _, _, h3⟩ := hA.ex
    obtain ⟨s, hs, c, ⟨_, _, p, hp, _⟩, e1, e2⟩ := h3.mem_left' hr
    exact ⟨by rw [e1]; exact htitle s hs, c, _, e2, (hv T hTm c (List.mem_of_getElem? hp)).1⟩
  have hback : ∀ R' ∈ Rs', ∃ R ∈ Rs, NarrowCols R.cols R'.cols := by
    intro R' hR'
    obtain ⟨R, hR, _, h⟩ := hnar.mem_left' hR'
    exact ⟨R, hR, h⟩
  have hfr : ∀ vs ∈ Fs.map (tableViews true), ∀ u, vs.head? = some u → u.fresh = true := by
    intro vs hvs u hu
    obtain ⟨G, _, rfl⟩ := List.mem_map.mp hvs
    have : (tableViews true G)[0]? = some u := by rw [← List.head?_eq_getElem?]; exact hu
    rw [tableViews_get, Option.map_eq_some_iff] at this
    obtain ⟨row, _, rfl⟩ := this
    rfl
  have hfv : (tableViews false F :: Fs.map (tableViews true)).flatten = fileViews (F :: Fs) := by
    simp [fileViews, List.flatMap_def]
  have hcount : rowCount (F :: Fs) = (Ts.map UTable.rows).sum := by
    have e1 : (T0' :: Ts1').map UTable.rows = Ts.map UTable.rows := by
      clear * - a3
      generalize T0' :: Ts1' = Us at a3
      induction a3 with
      | nil => rfl
      | cons h _ ih => simp only [List.map_cons, h.1, ih]
    rw [← e1]
    clear * - a5
    generalize F :: Fs = Gs at a5
    generalize T0' :: Ts1' = Us at a5
    induction a5 with
    | nil => rfl
    | cons h _ ih =>
      have := (h true).are.len
      rw [tableViews_length] at this
      simp only [rowCount, List.map_cons, List.sum_cons] at ih ⊢
      rw [ih, this]
  have hread := readRows_file env junk (F :: Fs) (a2 hsz) fuel (by omega)
  have hm : Match (RowsFrom env) (T0' :: Ts1') (tableViews false F :: Fs.map (tableViews true)) := by
    cases a5 with
    | cons g0 g1 =>
      refine .cons (g0 false) ?_
      clear * - g1
      induction g1 with
      | nil => exact .nil
      | cons h _ ih => exact .cons (h true) ih
  obtain ⟨out, o1, o2⟩ := C53_sql_file env hmd5 len hlen cap hcap junk _ fuel q (T0' :: Ts1') Rs' (tableViews false F :: Fs.map (tableViews true))
    (by rw [hfv]; exact hread) hm (by simpa using hfr) a4
    (by
      intro T' hT'
      obtain ⟨T, hTm, h1, _⟩ := a3.mem_left' hT'
      rw [h1]
      exact hpos T hTm)
    T0' rfl hans' B hB
    (by
      intro R' hR'
      obtain ⟨R, hR, h⟩ := hback R' hR'
      have hl1 := Match.length h
      have hl2 := Match.length (hw R hR)
      refine Match.of_get _ _ (by omega) ?_
      intro i r' b hr' hb
      have hi := (List.getElem?_eq_some_iff.mp hr').1
      obtain ⟨r, hr⟩ : ∃ r, R.cols[i]? = some r := ⟨_, List.getElem?_eq_getElem (by omega)⟩
      obtain ⟨n1, n2⟩ := Match.get h i r r' hr hr'
      obtain ⟨w1, w2⟩ := Match.get (hw R hR) i r b hr hb
      exact ⟨by rw [n1, w1], (n2.parts (env := env)).2.2.2.1 _ w2⟩)
    (by
      intro R' hR' r' hr'
      obtain ⟨R, hR, h⟩ := hback R' hR'
      obtain ⟨r, hr, _, n2⟩ := Match.mem_left' h hr'
      apply (n2.parts (env := env)).2.2.1
      obtain ⟨_, c, js, e, hc⟩ := hsrc R hR r hr
      rw [e]
      cases hvc : c.vals with
      | strings w vs =>
        rw [hvc] at hc
        refine ⟨hc.1, ?_⟩
        intro s hs
        obtain ⟨j, _, rfl⟩ := List.mem_map.mp hs
        by_cases hj : j < vs.length
        · rw [List.getD_eq_getElem?_getD, List.getElem?_eq_getElem hj]
          exact (hc.2.2.1 _ (List.getElem_mem hj)).1
        · rw [List.getD_eq_getElem?_getD, List.getElem?_eq_none (by omega)]
          simp
      | _ => trivial)
    (by
      intro R' hR' r' hr'
      obtain ⟨R, hR, h⟩ := hback R' hR'
      obtain ⟨r, hr, n1, n2⟩ := Match.mem_left' h hr'
      obtain ⟨hlen', c, js, e, hc⟩ := hsrc R hR r hr
      have hmem : r'.vals.members = c.vals.members := by
        rw [(n2.parts (env := env)).2.1, e, Vals.pick_members]
      have hmm : LenOk c.vals.members.length ∧ ∀ b ∈ c.vals.members, LenOk b.1.length ∧ InI32 b.2 := by
        cases hvv : c.vals with
        | bits ms vs => rw [hvv] at hc; exact ⟨hc.2.1, hc.2.2⟩
        | _ => simp [Vals.members, LenOk]
      exact ⟨by rw [n1]; exact hlen', by rw [hmem]; exact hmm.1, by rw [hmem]; exact hmm.2⟩)
    hne hfew (by rw [hsum]; exact hbig) hu htne
  rw [hsum] at o1 o2
  refine ⟨out, o1, ?_⟩
  intro hsz' junk' fuel' hf'
  obtain ⟨views, v1, v2⟩ := o2 hsz' junk' fuel' hf'
  exact ⟨views, v1, allRows_narrow hnar v2⟩


theorem odaEnter_count {env : Env} {ts : List Str} {cs : List SqlCol} {fs fs' : List Fetch} {s s' : OdaOut} {v : RowView}
    (h : odaEnter env ts cs fs s v = .ok (fs', s')) : s'.count = s.count := by
  unfold odaEnter at h
  split at h
  · split at h
    · simp at h
    · split at h
      · simp at h
      · rename_i s1 h1
        simp only [Except.ok.injEq, Prod.mk.injEq] at h
        rw [← h.2]
        unfold OdaOut.update at h1
        split at h1
        · simp at h1
        · split at h1
          · cases h1; rfl
          · split at h1
            · simp at h1
            · cases h1; rfl
  · simp only [Except.ok.injEq, Prod.mk.injEq] at h
    rw [← h.2]

theorem output_count {env : Env} {len : List Byte → Nat} {s s' : OdaOut} {tys : List ColType} {xs : List (Cell × Bool)}
    (h : s.output env len tys xs = .ok s') : s'.count = s.count + 1 := by
  unfold OdaOut.output at h
  split at h
  · simp at h
  · split at h
    · simp at h
    · cases h; rfl

theorem odaLoop_count {env : Env} {len : List Byte → Nat} {q : Query} {cs : List SqlCol} (vs : List RowView) (fs : List Fetch) (s s' : OdaOut)
    (h : odaLoop env len q cs fs s vs = .ok s') : s'.count ≤ s.count + vs.length := by
  induction vs generalizing fs s with
  | nil => simp only [odaLoop, Except.ok.injEq] at h; subst h; simp
  | cons v vs ih =>
    simp only [odaLoop] at h
    split at h
    · simp at h
    · rename_i fs1 s1 h1
      have hc := odaEnter_count h1
      split at h
      · split at h
        · simp at h
        · rename_i s2 h2
          have := ih _ _ h
          have := output_count h2
          simp only [List.length_cons]
          omega
      · have := ih _ _ h
        simp only [List.length_cons]
        omega

/-- **C53.**  If `odc sql ... -o file` succeeds, reading the input ended without an exception, and no more rows are reported than the input has: a truncated or damaged
input is never queried in part without notice. -/
theorem C53_complete (env : Env) (len : List Byte → Nat) (cap : Nat) (junk : Junk) (q : Query) (bytes : List Byte) (fuel n : Nat) (out : List (List Byte))
    (h : sqlToFile env len cap junk q bytes fuel = .ok (n, out)) :
    (readRows env junk bytes fuel).2 = none ∧ n ≤ (readRows env junk bytes fuel).1.length := by
  unfold sqlToFile at h
  unfold readRows
  cases hb : RowIt.begin env junk bytes with
  | error e => rw [hb] at h; simp at h
  | ok it =>
    rw [hb] at h
    dsimp only at h ⊢
    iterate 3 (split at h; · simp at h)
    split at h
    · simp at h
    rename_i o ho
    split at h
    · simp at h
    rename_i o' hl
    split at h
    · simp at h
    rename_i hn
    split at h
    · simp at h
    simp only [Except.ok.injEq, Prod.mk.injEq] at h
    have hc := odaLoop_count _ _ _ _ hl
    have h0 : o.count = 0 := by
      unfold odaPrepare at ho
      split at ho
      · simp at ho
      split at ho
      · simp at ho
      cases ho
      rfl
    refine ⟨hn, ?_⟩
    rw [← h.1]
    omega

/-! ### A case that meets the hypotheses -/

theorem unambiguous_of {ts : List Str} (h : ts.Pairwise (fun a b => columnNameMatches a b = false ∧ columnNameMatches b a = false)) : Unambiguous ts := by
  intro p p' t t' h1 h2 hm
  obtain ⟨l1, rfl⟩ := List.getElem?_eq_some_iff.mp h1
  obtain ⟨l2, rfl⟩ := List.getElem?_eq_some_iff.mp h2
  rw [List.pairwise_iff_getElem] at h
  have hb := (columnNameMatches_iff _ _).mpr hm
  rcases Nat.lt_trichotomy p p' with hlt | heq | hlt
  · have := (h p p' l1 l2 hlt).2
    rw [hb] at this
    cases this
  · exact heq.symm
  · have := (h p' p l2 l1 hlt).1
    rw [hb] at this
    cases this

/-- Sample: the query run on tables, with its rows written to a file. -/
def trySql (env : Env) (q : Query) (Ts : List UTable) : Except Err (Nat × List (List Byte)) :=
  match writeTables env Ts with
  | .error e => .error e
  | .ok bss => sqlToFile env textLen 10 (fun _ _ _ => 0) q bss.flatten 100

/-- On both tables: three rows, in two frames. -/
example : (trySql sampleEnv sqlQ [sqlA, sqlB]).map Prod.fst = .ok 3 ∧
    (trySql sampleEnv sqlQ [sqlA, sqlB]).map (fun p => p.2.length) = .ok 2 ∧
    rowsSeen sampleEnv ((trySql sampleEnv sqlQ [sqlA, sqlB]).map Prod.snd) 10 =
      some ([[wordsOf 1 (lit "ef"), [5]], [wordsOf 2 (lit "longer text"), [5]], [wordsOf 2 (lit "x"), [5]]], true) :=
  ⟨by decide +kernel, by decide +kernel, by decide +kernel⟩

/-- `C53_sql_file_encoded` applies to them. -/
example : ∃ bss, writeTables sampleEnv [sqlA, sqlB] = .ok bss ∧ ((∀ b ∈ bss, b.length ≤ 2147483647) →
      ∀ (junk : Junk) (fuel : Nat), 5 + 1 < fuel →
        ∃ out, sqlToFile sampleEnv textLen 10 junk sqlQ bss.flatten fuel = .ok (3, out) ∧
          ((∀ f ∈ out, f.length ≤ 2147483647) → ∀ (junk' : Junk) (fuel' : Nat), 3 + 1 < fuel' →
            ∃ views, readRows sampleEnv junk' out.flatten fuel' = (views, none) ∧ Match (IsRowAt sampleEnv) (allRows [sqlRA, sqlRB]) views)) :=
  C53_sql_file_encoded sampleEnv sampleEnv_md5 textLen textLen_ok 10 (by decide) sqlQ keepFive_text [sqlA, sqlB] [sqlRA, sqlRB] sqlSample_ok sqlSample_vals
    (by intro T hT; simp only [List.mem_cons, List.not_mem_nil, or_false] at hT; rcases hT with rfl | rfl <;> decide) sqlA rfl sqlSample_answers sqlGroup
    sqlSample_group sqlSample_within (by simp [sqlQ]) (by decide) (by
      intro s hs
      simp only [sqlQ, List.mem_cons, List.not_mem_nil, or_false] at hs
      rcases hs with rfl | rfl <;> decide +kernel) (by decide) (unambiguous_of (by decide +kernel)) (by
      intro s hs
      simp only [sqlQ, List.mem_cons, List.not_mem_nil, or_false] at hs
      rcases hs with rfl | rfl <;> decide +kernel)

/-- A file cut short is not queried. -/
example : (match writeTables sampleEnv [sqlA, sqlB] with
    | .error _ => false
    | .ok bss => errorIs (sqlToFile sampleEnv textLen 10 (fun _ _ _ => 0) sqlQ (bss.flatten.take (bss.flatten.length - 1)) 100) .incomplete) = true := by
  decide +kernel

/-! ### What users cannot rely on -/

/-- Sample: `select s as k, k as k@t`. -/
def sqlAmbig : Query := { select := [(lit "s", lit "k"), (lit "k", lit "k@t")], cond := [], keep := fun _ => true }

/-- Sample: `select k as k, s as k`. -/
def sqlTwice : Query := { select := [(lit "k", lit "k"), (lit "s", lit "k")], cond := [], keep := fun _ => true }

/-- **C53**, violated: with the titles `k` (a string) and `k@t` the query succeeds on each table, and fails on both when the strings of the second are wider: the title is
looked up as the name of a column and found ambiguous.  (`filter` answers the same query.) -/
theorem C53_violated_titles : (trySql sampleEnv sqlAmbig [sqlA]).map Prod.fst = .ok 3 ∧ (trySql sampleEnv sqlAmbig [sqlB]).map Prod.fst = .ok 2 ∧
    errorIs (trySql sampleEnv sqlAmbig [sqlA, sqlB]) .ambiguousColumn ∧ (tryFilter sampleEnv sqlAmbig [sqlA, sqlB]).map Prod.fst = .ok 5 :=
  ⟨by decide +kernel, by decide +kernel, by decide +kernel, by decide +kernel⟩

/-- **C53**, violated: the same title twice is refused; `filter` writes a file with two columns of this name. -/
theorem C53_violated_twice : errorIs (trySql sampleEnv sqlTwice [sqlA]) .seriousBug ∧ (tryFilter sampleEnv sqlTwice [sqlA]).map Prod.fst = .ok 3 :=
  ⟨by decide +kernel, by decide +kernel⟩

end Verif
