import Verif.PropAny
import Verif.PropCompare

/-
C45, continued: decoding the frames of arbitrary bytes.
-/

namespace Verif

/-! ### The codecs of a header that was read -/

theorem PostP.fail {α : Type} {R : α → Prop} {e : Err} : PostP R (P.fail e : P α) := fun _ => trivial

theorem PostP.ite {α : Type} {R : α → Prop} {c : Prop} [Decidable c] {p q : P α} (hp : PostP R p) (hq : PostP R q) :
    PostP R (if c then p else q) := by
  by_cases h : c
  · rw [if_pos h]; exact hp
  · rw [if_neg h]; exact hq

theorem PostP.of {α : Type} {R : α → Prop} {p : P α} (h : PostP R p) {s r : List Byte} {a : α} (e : p s = .ok (a, r)) : R a := by
  have := h s
  rw [e] at this
  exact this

theorem post_loadBase (o : Order) (c : Codec) :
    PostP (fun c' : Codec => c'.kind = c.kind ∧ c'.vt = c.vt ∧ c'.strings = c.strings) (loadBase o c) := by
  unfold loadBase
  exact PostP.bind (PostP.triv _) _ (fun _ _ => PostP.bind (PostP.triv _) _ (fun _ _ => PostP.bind (PostP.triv _) _ (fun _ _ =>
    PostP.bind (PostP.triv _) _ (fun _ _ => PostP.pure ⟨rfl, rfl, rfl⟩))))

/-- A codec that was loaded while integers are passed as doubles can be used with any data. -/
theorem post_load (o : Order) (c : Codec) (hv : c.vt = .dbl) : PostP Codec.Sane (c.load o) := by
  unfold Codec.load
  refine PostP.bind (post_loadBase o c) _ (fun c' hc' => ?_)
  obtain ⟨h1, h2, h3⟩ := hc'
  rw [hv] at h2
  split
  · rename_i hk
    exact PostP.pure (Codec.sane_dbl _ h2 (fun h => by simp only at h; rw [h] at hk; cases hk))
  · exact PostP.bind (PostP.triv _) _ (fun _ _ => PostP.pure (Codec.sane_dbl _ h2 (by simp)))
  · rename_i hk
    exact PostP.bind (PostP.triv _) _ (fun _ _ => PostP.ite (PostP.pure (Codec.sane_dbl _ h2 (fun h => by rw [h] at hk; cases hk))) PostP.fail)
  · rename_i hk
    refine PostP.bind (PostP.triv _) _ (fun _ _ => PostP.ite PostP.fail (PostP.bind (PostP.triv _) _ (fun _ _ =>
      PostP.pure (Codec.sane_dbl _ h2 (fun h => ?_)))))
    simp only at h; rw [h] at hk; cases hk
  · rename_i hk
    refine PostP.bind (PostP.triv _) _ (fun _ _ => PostP.ite PostP.fail (PostP.bind (PostP.triv _) _ (fun _ _ =>
      PostP.pure (Codec.sane_dbl _ h2 (fun h => ?_)))))
    simp only at h; rw [h] at hk; cases hk
  · rename_i hn1 hn2 hn3 hn4 hn5
    have hs : c'.Sane := Codec.sane_dbl _ h2 (fun h => absurd h hn2)
    refine PostP.ite ?_ (PostP.pure hs)
    cases toVT c'.vt c'.missing with
    | ok w => exact PostP.pure hs
    | error e => exact PostP.fail

theorem vtOf_dbl (k : Kind) (ty : Int) : vtOf k ty true = .dbl := by simp [vtOf]

theorem post_loadCodec (o : Order) (ty : Int) : PostP Codec.Sane (loadCodec o true ty) := by
  unfold loadCodec
  refine PostP.bind (PostP.triv _) _ (fun nm _ => ?_)
  cases Kind.ofName nm with
  | none => exact PostP.fail
  | some k => exact post_load o _ (vtOf_dbl k ty)

theorem post_readCol (o : Order) : PostP (fun c : Col => c.codec.Sane) (readCol o true) := by
  unfold readCol
  refine PostP.bind (PostP.triv _) _ (fun _ _ => PostP.bind (PostP.triv _) _ (fun ty _ => PostP.ite ?_ ?_))
  · exact PostP.bind (PostP.triv _) _ (fun _ _ => PostP.bind (PostP.triv _) _ (fun _ _ =>
      PostP.ite PostP.fail (PostP.bind (post_loadCodec o ty) _ (fun _ h => PostP.pure h))))
  · exact PostP.bind (post_loadCodec o ty) _ (fun _ h => PostP.pure h)

theorem post_many {α : Type} {R : α → Prop} {p : P α} (h : PostP R p) (n : Nat) : PostP (fun l => ∀ a ∈ l, R a) (readMany p n) := by
  induction n with
  | zero => exact PostP.pure (by simp)
  | succ n ih =>
    unfold readMany
    refine PostP.bind h _ (fun a ha => PostP.bind ih _ (fun l hl => PostP.pure ?_))
    intro x hx
    rcases List.mem_cons.mp hx with rfl | hx
    · exact ha
    · exact hl x hx

theorem post_readVar (o : Order) : PostP (fun h : HeaderInfo => ∀ c ∈ h.cols, c.codec.Sane) (readVar o true) := by
  unfold readVar
  refine PostP.bind (PostP.triv _) _ (fun _ _ => PostP.bind (PostP.triv _) _ (fun _ _ => PostP.ite PostP.fail ?_))
  refine PostP.bind (PostP.triv _) _ (fun _ _ => PostP.bind (PostP.triv _) _ (fun _ _ =>
    PostP.bind (PostP.triv _) _ (fun _ _ => PostP.bind (PostP.triv _) _ (fun _ _ => PostP.ite PostP.fail ?_))))
  exact PostP.bind (post_many (post_readCol o) _) _ (fun _ h => PostP.pure h)

theorem readTable_sane {env : Env} {f : File} {pos : Int} {t : Tbl} (hd : env.asDbl = true)
    (h : readTable env f pos = .ok (some t)) : ∀ c ∈ t.info.cols, c.codec.Sane := by
  unfold readTable at h
  split at h
  · simp at h
  split at h
  · simp at h
  · simp at h
  · rename_i hi o rest hp
    dsimp only at h
    split at h
    · simp at h
    simp only [Except.ok.injEq, Option.some.injEq] at h
    obtain ⟨bo, basic, var, digest, _, _, _, _, _, _, ⟨r, hv⟩⟩ := parseHeader_ok _ _ _ _ _ _ hp
    rw [← h]
    rw [hd] at hv
    exact (post_readVar o).of hv

/-! ### Every frame delivered consists of tables of the file -/

/-- Proof device: tables found in the file from its start. -/
def InFile (env : Env) (f : File) (t : Tbl) : Prop := ∃ ts, Chain env f 0 ts ∧ t ∈ ts

theorem get_inFile {env : Env} {f : File} {ts : List Tbl} {pos : Int} {t : Tbl} (hc : Chain env f 0 ts)
    (h : itGet ts pos = .ok t) : InFile env f t := by
  unfold itGet at h
  split at h
  · simp at h
  split at h
  · rename_i x hx
    simp only [Except.ok.injEq] at h
    subst h
    exact ⟨ts, hc, List.mem_of_getElem? hx⟩
  · simp at h

theorem incr_chain {env : Env} {f : File} {ts ts' : List Tbl} {pos p : Int} {oe : Option Err} (hc : Chain env f 0 ts)
    (h : itIncr env f ts pos = (ts', p, oe)) : Chain env f 0 ts' := by
  cases oe with
  | none => exact (incr_live hc h).2.2 rfl
  | some e =>
    unfold itIncr at h
    cases he : ensureTable env f ts (pos + 1) with
    | error e' =>
      rw [he] at h
      simp only [Prod.mk.injEq] at h
      rw [← h.1]; exact hc
    | ok x =>
      obtain ⟨ts1, b⟩ := x
      rw [he] at h
      cases b <;> simp at h

theorem aggLoop_inFile {env : Env} {f : File} (limit : Int) (fuel : Nat) (ts : List Tbl) (pos : Int) (acc : List Tbl)
    (nrows : Int) (hc : Chain env f 0 ts) (hacc : ∀ t ∈ acc, InFile env f t) (ts' : List Tbl) (pos' : Int)
    (res : Except Err (List Tbl × Int)) (h : aggLoop env f limit fuel ts pos acc nrows = ((ts', pos'), res)) :
    Chain env f 0 ts' ∧ ∀ acc' n, res = .ok (acc', n) → ∀ t ∈ acc', InFile env f t := by
  induction fuel generalizing ts pos acc nrows with
  | zero =>
    simp only [aggLoop, Prod.mk.injEq] at h
    obtain ⟨⟨rfl, _⟩, rfl⟩ := h
    exact ⟨hc, by simp⟩
  | succ fuel ih =>
    unfold aggLoop at h
    cases e1 : itIncr env f ts pos with
    | mk ts1 x =>
      obtain ⟨p1, oe⟩ := x
      have hc1 := incr_chain hc e1
      rw [e1] at h
      cases oe with
      | some e =>
        simp only [Prod.mk.injEq] at h
        obtain ⟨⟨rfl, _⟩, rfl⟩ := h
        exact ⟨hc1, by simp⟩
      | none =>
        dsimp only at h
        have hdone : ((ts1, pos), Except.ok (acc, nrows)) = ((ts', pos'), res) →
            Chain env f 0 ts' ∧ ∀ acc' n, res = .ok (acc', n) → ∀ t ∈ acc', InFile env f t := by
          intro h
          simp only [Prod.mk.injEq] at h
          obtain ⟨⟨rfl, _⟩, rfl⟩ := h
          refine ⟨hc1, ?_⟩
          intro acc' n he
          simp only [Except.ok.injEq, Prod.mk.injEq] at he
          rw [← he.1]; exact hacc
        split at h
        · exact hdone h
        · cases hg : itGet ts1 p1 with
          | error e =>
            rw [hg] at h
            simp only [Prod.mk.injEq] at h
            obtain ⟨⟨rfl, _⟩, rfl⟩ := h
            exact ⟨hc1, by simp⟩
          | ok t =>
            rw [hg] at h
            cases hhd : acc.head? with
            | none =>
              rw [hhd] at h
              simp only [Prod.mk.injEq] at h
              obtain ⟨⟨rfl, _⟩, rfl⟩ := h
              exact ⟨hc1, by simp⟩
            | some front =>
              rw [hhd] at h
              dsimp only at h
              split at h
              · exact hdone h
              split at h
              · exact hdone h
              cases e2 : itIncr env f ts1 pos with
              | mk ts2 y =>
                obtain ⟨p2, oe2⟩ := y
                have hc2 := incr_chain hc1 e2
                rw [e2] at h
                cases oe2 with
                | some e =>
                  simp only [Prod.mk.injEq] at h
                  obtain ⟨⟨rfl, _⟩, rfl⟩ := h
                  exact ⟨hc2, by simp⟩
                | none =>
                  dsimp only at h
                  cases hg2 : itGet ts2 p2 with
                  | error e =>
                    rw [hg2] at h
                    simp only [Prod.mk.injEq] at h
                    obtain ⟨⟨rfl, _⟩, rfl⟩ := h
                    exact ⟨hc2, by simp⟩
                  | ok t2 =>
                    rw [hg2] at h
                    dsimp only at h
                    cases hcp : t2.copy with
                    | error e =>
                      rw [hcp] at h
                      simp only [Prod.mk.injEq] at h
                      obtain ⟨⟨rfl, _⟩, rfl⟩ := h
                      exact ⟨hc2, by simp⟩
                    | ok t3 =>
                      rw [hcp] at h
                      dsimp only at h
                      refine ih ts2 p2 _ _ hc2 ?_ h
                      intro x hx
                      rcases List.mem_append.mp hx with hx | hx
                      · exact hacc x hx
                      · simp only [List.mem_singleton] at hx
                        rw [hx, Tbl.copy_ok hcp]
                        exact get_inFile hc2 hg2

theorem take_inFile {env : Env} {f : File} (agg : Bool) (limit : Int) (fuel : Nat) (ts : List Tbl) (pos : Int)
    (hc : Chain env f 0 ts) (r' : Rd) (res : Except Err (Option (List Tbl)))
    (h : Rd.take env f agg limit fuel ts pos = (r', res)) :
    Chain env f 0 r'.tables ∧ ∀ fr, res = .ok (some fr) → ∀ t ∈ fr, InFile env f t := by
  unfold Rd.take at h
  cases hg : itGet ts pos with
  | error e =>
    rw [hg] at h
    simp only [Prod.mk.injEq] at h
    obtain ⟨rfl, rfl⟩ := h
    exact ⟨hc, by simp⟩
  | ok t =>
    rw [hg] at h
    dsimp only at h
    cases hcp : t.copy with
    | error e =>
      rw [hcp] at h
      simp only [Prod.mk.injEq] at h
      obtain ⟨rfl, rfl⟩ := h
      exact ⟨hc, by simp⟩
    | ok t' =>
      rw [hcp] at h
      dsimp only at h
      have ht' : InFile env f t' := by rw [Tbl.copy_ok hcp]; exact get_inFile hc hg
      have hx : ∀ ts' pos' r, (if agg then aggLoop env f limit fuel ts pos [t'] t'.rows else ((ts, pos), .ok ([t'], t'.rows))) = ((ts', pos'), r) →
          Chain env f 0 ts' ∧ (∀ acc' n, r = .ok (acc', n) → ∀ t ∈ acc', InFile env f t) := by
        intro ts' pos' r hy
        cases agg with
        | true =>
          rw [if_pos rfl] at hy
          exact aggLoop_inFile limit fuel ts pos [t'] _ hc (by simpa using ht') ts' pos' r hy
        | false =>
          rw [if_neg (by simp)] at hy
          simp only [Prod.mk.injEq] at hy
          obtain ⟨⟨rfl, rfl⟩, rfl⟩ := hy
          refine ⟨hc, ?_⟩
          intro acc' n he
          simp only [Except.ok.injEq, Prod.mk.injEq] at he
          rw [← he.1]
          simpa using ht'
      cases hy : (if agg then aggLoop env f limit fuel ts pos [t'] t'.rows else ((ts, pos), .ok ([t'], t'.rows))) with
      | mk a r =>
        obtain ⟨ts', pos'⟩ := a
        obtain ⟨h1, h2⟩ := hx ts' pos' r hy
        rw [hy] at h
        cases r with
        | error e =>
          simp only [Prod.mk.injEq] at h
          obtain ⟨rfl, rfl⟩ := h
          exact ⟨h1, by simp⟩
        | ok z =>
          obtain ⟨acc, n⟩ := z
          dsimp only at h
          split at h
          · simp only [Prod.mk.injEq] at h
            obtain ⟨rfl, rfl⟩ := h
            refine ⟨h1, ?_⟩
            intro fr he
            simp only [Except.ok.injEq, Option.some.injEq] at he
            subst he
            exact h2 acc n rfl
          · simp only [Prod.mk.injEq] at h
            obtain ⟨rfl, rfl⟩ := h
            exact ⟨h1, by simp⟩

theorem loop_inFile {env : Env} {f : File} (agg : Bool) (limit : Int) (fuel : Nat) (k : Nat) (r : Rd)
    (hc : Chain env f 0 r.tables) : ∀ fr ∈ (readLoop env f agg limit fuel k r).1, ∀ t ∈ fr, InFile env f t := by
  induction k generalizing r with
  | zero => simp [readLoop]
  | succ k ih =>
    have hnext : ∀ r' res, r.next env f agg limit fuel = (r', res) →
        Chain env f 0 r'.tables ∧ ∀ fr, res = .ok (some fr) → ∀ t ∈ fr, InFile env f t := by
      intro r' res hn
      unfold Rd.next at hn
      split at hn
      · simp only [Prod.mk.injEq] at hn
        obtain ⟨rfl, rfl⟩ := hn
        exact ⟨hc, by simp⟩
      split at hn
      · exact take_inFile agg limit fuel _ _ hc r' res hn
      · cases e1 : itIncr env f r.tables r.pos with
        | mk ts1 x =>
          obtain ⟨p1, oe⟩ := x
          have hc1 := incr_chain hc e1
          rw [e1] at hn
          cases oe with
          | some e =>
            simp only [Prod.mk.injEq] at hn
            obtain ⟨rfl, rfl⟩ := hn
            exact ⟨hc1, by simp⟩
          | none =>
            dsimp only at hn
            split at hn
            · simp only [Prod.mk.injEq] at hn
              obtain ⟨rfl, rfl⟩ := hn
              exact ⟨hc1, by simp⟩
            · exact take_inFile agg limit fuel _ _ hc1 r' res hn
    unfold readLoop
    cases hn : r.next env f agg limit fuel with
    | mk r' res =>
      obtain ⟨h1, h2⟩ := hnext r' res hn
      cases res with
      | error e => simp
      | ok x =>
        cases x with
        | none => simp
        | some fr =>
          dsimp only
          intro fr' hfr'
          rcases List.mem_cons.mp hfr' with rfl | hfr'
          · exact h2 _ rfl
          · exact ih r' h1 fr' hfr'

theorem frames_inFile (env : Env) (f : File) (agg : Bool) (limit : Int) :
    ∀ fr ∈ (readFrames env f agg limit).1, ∀ t ∈ fr, InFile env f t := by
  unfold readFrames
  unfold Rd.open
  cases he : ensureTable env f [] 0 with
  | error e => simp
  | ok x =>
    obtain ⟨ts, b⟩ := x
    have hc : Chain env f 0 ts := by
      cases b with
      | true => exact incr_chain (pos := -1) (p := 0) (oe := none) (ts := []) trivial (by
          unfold itIncr; rw [show (-1 : Int) + 1 = 0 from rfl, he])
      | false => exact incr_chain (pos := -1) (p := -1) (oe := none) (ts := []) trivial (by
          unfold itIncr; rw [show (-1 : Int) + 1 = 0 from rfl, he])
    cases b with
    | true => exact loop_inFile agg limit _ _ _ hc
    | false => exact loop_inFile agg limit _ _ _ hc

/-- A table of the file with its data inside the file. -/
theorem inFile_place {env : Env} {bytes : List Byte} {t : Tbl} (h : InFile env (File.known bytes) t)
    (hs : 0 ≤ toI64 t.info.dataSize) : 0 ≤ t.dataPos ∧ t.dataPos + toI64 t.info.dataSize ≤ bytes.length := by
  obtain ⟨ts, hc, ht⟩ := h
  obtain ⟨pos, hp⟩ := hc.mem_read t ht
  obtain ⟨h1, h2, h3, h4⟩ := readTable_place hp
  have h5 := readTable_next_le hp
  simp only [File.known] at h3 h5
  omega

theorem inFile_sane {env : Env} {f : File} {t : Tbl} (h : InFile env f t) (hd : env.asDbl = true) :
    ∀ c ∈ t.info.cols, c.codec.Sane := by
  obtain ⟨ts, hc, ht⟩ := h
  obtain ⟨pos, hp⟩ := hc.mem_read t ht
  exact readTable_sane hd hp

theorem sliceReq_safe (off rows : Nat) (h : off + rows < 18446744073709551616) (req : List (Str × Target)) :
    SafeE (fun sub : List (Str × Target) => sub.map (fun e => (e.1, e.2.elem)) = req.map (fun e => (e.1, e.2.elem)))
      (sliceReq off rows req) := by
  induction req with
  | nil => rfl
  | cons e req ih =>
    obtain ⟨nm, tg⟩ := e
    unfold sliceReq Target.slice
    rw [Nat.mod_eq_of_lt h]
    by_cases h1 : tg.nelem < off + rows
    · rw [if_pos h1]; exact (by simp : Err.assertFailed ≠ .ub)
    · rw [if_neg h1, if_neg h1]
      dsimp only
      rcases ih.both with ⟨e, g1, g2⟩ | ⟨sub, g1, g2⟩
      · rw [g1]; exact g2
      · rw [g1]
        show List.map _ _ = _
        simp [g2]

theorem wide_of_elems {cols : List Col} {req sub : List (Str × Target)} (h : WideReq cols req)
    (he : sub.map (fun e => (e.1, e.2.elem)) = req.map (fun e => (e.1, e.2.elem))) : WideReq cols sub := by
  intro c hc nm tg hm hor
  have : (nm, tg.elem) ∈ sub.map (fun e => (e.1, e.2.elem)) := List.mem_map.mpr ⟨(nm, tg), hm, rfl⟩
  rw [he] at this
  obtain ⟨⟨nm', tg'⟩, hm', e'⟩ := List.mem_map.mp this
  simp only [Prod.mk.injEq] at e'
  have := h c hc nm' tg' hm' (by rw [e'.1]; exact hor)
  omega

theorem putBacks_elems (off rows : Nat) (req : List (Str × Target)) (out : List (Nat → Cell)) :
    ∃ n, (putBacks off rows req out).map (fun e => (e.1, e.2.elem)) = (req.take n).map (fun e => (e.1, e.2.elem)) := by
  refine ⟨out.length, ?_⟩
  unfold putBacks
  rw [List.map_map]
  induction req generalizing out with
  | nil => simp
  | cons e req ih =>
    cases out with
    | nil => simp
    | cons m out => simp [ih out]

/-- **C45**, decoding: whatever the bytes are, decoding columns of any frame that the reader delivers — aggregated or not —
into targets that are wide enough gives values or reports an error.  What is excluded: a negative data size, a total
number of rows of 2^64 or more, and a row marker beyond the number of columns followed by a smaller one (C29). -/
theorem C45_decoding_defined (env : Env) (hd : env.asDbl = true) (bytes : List Byte) (agg : Bool) (limit : Int)
    (fr : List Tbl) (hfr : fr ∈ (readFrames env (File.known bytes) agg limit).1)
    (hs : ∀ t ∈ fr, 0 ≤ toI64 t.info.dataSize) (hrows : rowSum fr < 18446744073709551616)
    (req : List (Str × Target)) (hw : ∀ t ∈ fr, WideReq t.info.cols req)
    (hm : ∀ t ∈ fr, MarkersOk t.info.cols.length (rowMarkers t.sizes t.info.nrows (t.bytesIn bytes))) :
    decodeFrame bytes fr req ≠ .error .ub := by
  have hin := frames_inFile env (File.known bytes) agg limit fr hfr
  have hone : ∀ t ∈ fr, ∀ sub : List (Str × Target), WideReq t.info.cols sub →
      (t.decode (File.known bytes) Lookup.empty sub).2 ≠ .error .ub := by
    intro t ht sub hsub
    obtain ⟨h0, h2⟩ := inFile_place (hin t ht) (hs t ht)
    exact decode_safe bytes t h0 (hs t ht) h2 (inFile_sane (hin t ht) hd) sub hsub (hm t ht)
  have hseq : ∀ (ts : List Tbl) (off : Nat) (req : List (Str × Target)), (∀ t ∈ ts, t ∈ fr) →
      off + rowSum ts < 18446744073709551616 → (∀ t ∈ ts, WideReq t.info.cols req) →
      (frameSeq (File.known bytes) (ts.map (fun t => (t, Lookup.empty))) off req).2 ≠ .error .ub := by
    intro ts
    induction ts with
    | nil => intro off req _ _ _; simp [frameSeq]
    | cons t ts ih =>
      intro off req hts hsum hwt
      simp only [rowSum_cons] at hsum
      simp only [List.map_cons, frameSeq]
      rcases (sliceReq_safe off t.info.nrows (by omega) req).both with ⟨e, g1, g2⟩ | ⟨sub, g1, g2⟩
      · rw [g1]; simpa using g2
      · rw [g1]
        dsimp only
        have hdec := hone t (hts t (by simp)) sub (wide_of_elems (hwt t (by simp)) g2)
        cases hdd : t.decode (File.known bytes) Lookup.empty sub with
        | mk L' res =>
          rw [hdd] at hdec
          cases res with
          | error e => dsimp only at hdec ⊢; exact hdec
          | ok out =>
            dsimp only
            rw [Nat.mod_eq_of_lt (by omega)]
            refine ih (off + t.info.nrows) _ (fun x hx => hts x (by simp [hx])) (by omega) ?_
            intro x hx
            obtain ⟨n, hn⟩ := putBacks_elems off t.info.nrows req out
            refine wide_of_elems (req := req.take n) ?_ hn
            intro c hc nm tg hmm hor
            exact hwt x (by simp [hx]) c hc nm tg (List.mem_of_mem_take hmm) hor
  unfold decodeFrame frameDecode
  cases hfr' : fr with
  | nil => simp [frameSeq]
  | cons t ts =>
    cases ts with
    | nil => 
      have := hone t (by rw [hfr']; simp) req (hw t (by rw [hfr']; simp))
      simpa using this
    | cons t2 ts =>
      have := hseq fr 0 req (fun _ h => h) (by omega) hw
      rw [hfr'] at this
      simpa using this

/-! ### The hypotheses are met, and they are needed -/

theorem infix_of {b p q r : List Byte} (h : b = p ++ (q ++ r)) : q <:+: b := ⟨p, r, by rw [h]; simp⟩

/-- Bytes that mention no dictionary codec hold no dictionary. -/
theorem no_dictionary (b : List Byte) (h8 : ¬ lit "int8_string" <:+: b) (h16 : ¬ lit "int16_string" <:+: b) :
    ¬ NegativeIndex b := by
  rintro ⟨o, pre, k, hm, mn, mx, ms, n, es, s, cnt, i, post, hk, -, -, -, -, -, e⟩
  have e2 : b = (pre ++ putI32 o k.name.length) ++ (k.name ++ (putI32 o hm ++ (putWord o mn ++ (putWord o mx ++ (putWord o ms ++ (putI32 o n ++
      (es.flatMap (fun e => putStr o e.1 ++ (putI32 o e.2.1 ++ putI32 o e.2.2)) ++
        (putStr o s ++ (putI32 o cnt ++ (putI32 o i ++ post))))))))))  := by
    rw [e]; simp [putStr]
  rcases hk with rfl | rfl
  · exact h8 (infix_of e2)
  · exact h16 (infix_of e2)

/-- A file whose frames are known and well sized. -/
theorem forward_of_scan {env : Env} {f : File} {ts : List Tbl} {fin : Option Err} (h : Scan env f ts fin)
    (hs : ∀ t ∈ ts, 0 ≤ toI64 t.info.dataSize) : Forward env f := by
  have key : ∀ (us ts : List Tbl) (pos : Int), Chain env f pos us → Chain env f pos ts →
      (∀ t, readTable env f (endPos pos ts) ≠ .ok (some t)) → ∀ t ∈ us, t ∈ ts := by
    intro us
    induction us with
    | nil => intro ts pos _ _ _ t ht; simp at ht
    | cons u us ih =>
      intro ts pos hu ht hend t hm
      cases ts with
      | nil => exact absurd hu.1 (by simpa [endPos] using hend u)
      | cons v vs =>
        have e := hu.1
        rw [ht.1] at e
        simp only [Except.ok.injEq, Option.some.injEq] at e
        subst e
        rw [endPos_cons] at hend
        rcases List.mem_cons.mp hm with rfl | hm
        · simp
        · exact List.mem_cons_of_mem _ (ih vs v.next hu.2 ht.2 hend t hm)
  intro us hus t ht
  refine hs t (key us ts 0 hus h.1 ?_ t ht)
  intro x hx
  rw [h.2] at hx
  cases fin <;> simp at hx

/-- Sample: an encoded table with four bytes of garbage after it. -/
def garbled : List Byte :=
  match sampleTable2.encode dblEnv .same with
  | .ok b => b ++ [1, 2, 3, 4]
  | .error _ => []

example : ¬ NegativeIndex garbled := no_dictionary _ (by decide +kernel) (by decide +kernel)
example : shape (readPlain dblEnv garbled) = ([1], some .incomplete) := by decide +kernel
example : (match Rd.open dblEnv (File.known garbled) with | .ok _ => true | .error _ => false) = true := by decide +kernel

/-- The example above meets the hypothesis of `C45_reading_ends`: one frame, then an error. -/
example : Forward dblEnv (File.known garbled) := by
  obtain ⟨t, h1, h2, h3⟩ : ∃ t, readTable dblEnv (File.known garbled) 0 = .ok (some t) ∧ 0 ≤ toI64 t.info.dataSize ∧
      readTable dblEnv (File.known garbled) t.next = .error .incomplete := by
    have h : (match readTable dblEnv (File.known garbled) 0 with
        | .ok (some t) => decide (0 ≤ toI64 t.info.dataSize) && (match readTable dblEnv (File.known garbled) t.next with
          | .error e => decide (e = .incomplete)
          | .ok _ => false)
        | _ => false) = true := by decide +kernel
    split at h
    · rename_i t ht
      simp only [Bool.and_eq_true, decide_eq_true_eq] at h
      obtain ⟨a, b⟩ := h
      split at b
      · rename_i e he
        simp only [decide_eq_true_eq] at b
        subst b
        exact ⟨t, ht, a, he⟩
      · simp at b
    · simp at h
  exact forward_of_scan (ts := [t]) (fin := some .incomplete) ⟨⟨h1, trivial⟩, by simpa [endPos] using h3⟩ (by simpa using h2)

/-- Sample: the header of a frame without columns, whose data size takes the reader back to where the frame starts. -/
def loopHeader : HeaderInfo := { dataSize := 18446744073709551616 - 93, nrows := 0, props := [], cols := [] }

/-- **C45 fails** for a negative data size: the reader delivers the same frame for ever. -/
theorem C45_violated_loop (env : Env) (hmd5 : env.Md5Ok) (fuel k : Nat) :
    ∃ r t, Rd.open env (File.known (putHeader env.md5 .same loopHeader)) = .ok r ∧
      Rd.calls env (File.known (putHeader env.md5 .same loopHeader)) false (-1) fuel k r =
        List.replicate k (.ok (some [t])) := by
  have hlen : (putHeader env.md5 .same loopHeader).length = 93 := by
    rw [putHeader_length _ hmd5]; rfl
  have hparse := parseHeader_put env.md5 hmd5 env.asDbl .same loopHeader
    ⟨by decide, by decide, by decide, by simp [loopHeader, MapOk], by simp [loopHeader], by decide, by simp [loopHeader]⟩ (by decide) []
  rw [List.append_nil] at hparse
  have hrel : loopHeader.reload env.asDbl = loopHeader := rfl
  rw [hrel] at hparse
  generalize hb : putHeader env.md5 .same loopHeader = b at *
  have hread : readTable env (File.known b) 0 = .ok (some ⟨0, 93, 0, loopHeader, .same⟩) := by
    unfold readTable
    rw [if_neg (by decide)]
    simp only [File.known, Int.toNat_zero, List.drop_zero, hparse, hlen, List.length_nil]
    have h2 : toI64 loopHeader.dataSize = -93 := by decide
    rw [h2]
    norm_num
  refine ⟨⟨[⟨0, 93, 0, loopHeader, .same⟩], 0, true⟩, ⟨0, 93, 0, loopHeader, .same⟩, ?_, ?_⟩
  · unfold Rd.open ensureTable
    simp [posAfter, hread]
  · have hcopy : Tbl.copy ⟨0, 93, 0, loopHeader, .same⟩ = .ok ⟨0, 93, 0, loopHeader, .same⟩ := rfl
    have htake : ∀ m i : Nat, i < m → Rd.take env (File.known b) false (-1) fuel (List.replicate m ⟨0, 93, 0, loopHeader, .same⟩) i =
        (⟨List.replicate m ⟨0, 93, 0, loopHeader, .same⟩, i, false⟩, .ok (some [⟨0, 93, 0, loopHeader, .same⟩])) := by
      intro m i hi
      unfold Rd.take itGet
      rw [if_neg (by omega), Int.toNat_natCast, List.getElem?_replicate, if_pos hi]
      dsimp only
      rw [hcopy]
      simp
    have hgo : ∀ (k m : Nat), Rd.calls env (File.known b) false (-1) fuel k
        ⟨List.replicate (m + 1) ⟨0, 93, 0, loopHeader, .same⟩, m, false⟩ =
          List.replicate k (.ok (some [⟨0, 93, 0, loopHeader, .same⟩])) := by
      intro k
      induction k with
      | zero => intro m; rfl
      | succ k ih =>
        intro m
        unfold Rd.calls Rd.next
        rw [if_neg (by simp only; omega), if_neg (by simp)]
        have hinc : itIncr env (File.known b) (List.replicate (m + 1) ⟨0, 93, 0, loopHeader, .same⟩) m =
            (List.replicate (m + 1 + 1) ⟨0, 93, 0, loopHeader, .same⟩, (m : Int) + 1, none) := by
          have hp : posAfter (List.replicate (m + 1) (⟨0, 93, 0, loopHeader, .same⟩ : Tbl)) = 0 := by
            unfold posAfter
            rw [List.getLast?_replicate]
            simp
          unfold itIncr ensureTable
          rw [if_neg (by omega), if_neg (by simp), if_pos (by simp), hp, if_neg (by simp), hread]
          dsimp only
          rw [← List.replicate_succ']
        rw [hinc]
        dsimp only
        rw [if_neg (by omega)]
        have := htake (m + 1 + 1) (m + 1) (by omega)
        push_cast at this
        rw [this]
        dsimp only
        have h3 := ih (m + 1)
        push_cast at h3
        rw [h3, List.replicate_succ]
    cases k with
    | zero => rfl
    | succ k =>
      unfold Rd.calls Rd.next
      rw [if_neg (by simp), if_pos rfl]
      have := htake 1 0 (by omega)
      simp only [List.replicate_one, Int.natCast_zero] at this
      rw [this]
      dsimp only
      have h3 := hgo k 0
      simp only [List.replicate_one, Nat.zero_add, Int.natCast_zero] at h3
      rw [h3, List.replicate_succ]

/-- Sample: the variable part of a header with one string column whose dictionary has one entry, with index `i`. -/
def dictVar (i : Int) : List Byte :=
  putN .same 8 0 ++ (putN .same 8 0 ++ (putN .same 8 1 ++ (putI32 .same 0 ++ (putI32 .same 0 ++ (putI32 .same 1 ++
    (putStr .same (lit "s") ++ (putI32 .same 3 ++ (putStr .same (lit "int8_string") ++ (putI32 .same 0 ++ (putWord .same 0 ++
      (putWord .same 0 ++ (putWord .same 0 ++ (putI32 .same 1 ++ (putStr .same (lit "x") ++ (putI32 .same 0 ++ putI32 .same i)))))))))))))))

/-- Sample: a file with that header and no data. -/
def dictFile (i : Int) : List Byte := magic ++ (putFixed .same (dblEnv.md5 (dictVar i)) (dictVar i).length ++ dictVar i)

/-- Sample: how opening that file ends. -/
def dictOpen (i : Int) : Option Err :=
  match Rd.open dblEnv (File.known (dictFile i)) with
  | .ok _ => none
  | .error e => some e

example : dictOpen 0 = none := by decide +kernel
example : dictOpen 1 = some .assertFailed := by decide +kernel

/-- **C45 fails** for a dictionary with a negative index: opening the file accesses memory out of bounds. -/
theorem C45_violated_index : dictOpen (-1) = some .ub := by decide +kernel

/-- Sample: decoding column "z" of the frame of `garbled`: the file is not a whole sequence of frames, the delivered frame
decodes nonetheless. -/
example : (match (readPlain dblEnv garbled).1 with
    | [fr] => (match decodeCol garbled fr (lit "z") ⟨2, 1, fun _ => [0]⟩ with
      | .ok m => decide ((List.range 2).map m = [[ofInt 1], [ofInt 2]])
      | .error _ => false)
    | _ => false) = true := by decide +kernel

end Verif
