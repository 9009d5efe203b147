import Verif.Fill
import Verif.Names
import Verif.PropRowsApi

/-
Merging files column by column: `MergeTool::merge`.

Models: src/odc/tools/MergeTool.cc l.77-132.
-/

namespace Verif

/-- The column types of api/ColumnType.h l.23-36; a number that is none of them fails the ASSERT of core/Column.h l.180-211. -/
def ColType.ofInt? : Int → Option ColType
  | 0 => some .ignore
  | 1 => some .integer
  | 2 => some .real
  | 3 => some .string
  | 4 => some .bitfield
  | 5 => some .double
  | _ => none

/-- A column of an input as a column of the output: copied (core/MetaData.cc l.146-157), then `resetCodec`
(WriterBufferingIterator.h l.74-80), which is applied again, without effect, for each further input. -/
def mergeCol (env : Env) (k : Col) : Except Err WCol :=
  match ColType.ofInt? k.ty with
  | none => .error .assertFailed
  | some ty =>
    match resetCodec env ty k.codec.width with
    | .error e => .error e
    | .ok c => .ok ⟨k.name, ty, k.bitNames.zip k.bitSizes, some c⟩

/-- All columns of one input, tools/MergeTool.cc l.81-92; see `mergeCol`. [L.75-95] -/
def mergeColList (env : Env) : List Col → Except Err (List WCol)
  | [] => .ok []
  | k :: ks =>
    match mergeCol env k with
    | .error e => .error e
    | .ok w =>
      match mergeColList env ks with
      | .error e => .error e
      | .ok ws => .ok (w :: ws)

/-- The columns of the output, MergeTool.cc l.81-92: those of the inputs one after the other; a name that the output
already has is an error. -/
def mergeCols (env : Env) : List WCol → List (List Col) → Except Err (List WCol)
  | out, [] => .ok out
  | out, cols :: rest =>
    if cols.any (fun k => hasColumn (out.map WCol.name) k.name) then .error .userError
    else
      match mergeColList env cols with
      | .error e => .error e
      | .ok ws => mergeCols env (out ++ ws) rest

/-- An input: its iterator, and the memory it finds. [tools/MergeTool.cc l.119-125] -/
structure MergeIn where
  junk : Junk
  it : RowIt

/-- The first double of each value of a row: `(*in)[cn]` is a `double&`, IteratorProxy.h, ReaderIterator.cc `data(i)`. [tools/MergeTool.cc l.104-107] -/
def firstWords (row : List Cell) : List Word := row.map (fun z => z.headD 0)

/-- The loop over the inputs, MergeTool.cc l.98-111; `i` columns of the output are filled in.  `false` if an input has
ended.  The ASSERT of l.106 is that of `setFirst`. -/
def mergeRound (env : Env) : Writer → Nat → List MergeIn → Except Err (Writer × List MergeIn × Bool)
  | w, _, [] => .ok (w, [], true)
  | w, i, m :: ms =>
    if m.it.noMore then .ok (w, m :: ms, false)
    else
      match w.fill i (firstWords m.it.last) with
      | .error e => .error e
      | .ok w =>
        match m.it.next env m.junk with
        | .error e => .error e
        | .ok (it, _) =>
          match mergeRound env w (i + m.it.last.length) ms with
          | .error e => .error e
          | .ok (w, ms, b) => .ok (w, ⟨m.junk, it⟩ :: ms, b)

/-- The outer loop, MergeTool.cc l.97-112, at most `fuel` rounds. -/
def mergeLoop (env : Env) : Nat → Writer → List MergeIn → Except Err Writer
  | 0, _, _ => .error .diverges
  | fuel + 1, w, ms =>
    match mergeRound env w 0 ms with
    | .error e => .error e
    | .ok (w, _, false) => .ok w
    | .ok (w, ms, true) =>
      match w.next env .same with
      | .error e => .error e
      | .ok w => mergeLoop env fuel w ms

/-- All inputs opened, tools/MergeTool.cc l.122-125; see `MergeIn`. [L.122-125] -/
def mergeBegin (env : Env) : List (Junk × List Byte) → Except Err (List MergeIn)
  | [] => .ok []
  | (j, b) :: fs =>
    match RowIt.begin env j b with
    | .error e => .error e
    | .ok it =>
      match mergeBegin env fs with
      | .error e => .error e
      | .ok ms => .ok (⟨j, it⟩ :: ms)

/-- `MergeTool::merge` without SQL, MergeTool.cc l.115-127 and 77-115: the frames of the output file, with a rows buffer of
`cap` rows.  Closed by the destructor of the writer. -/
def mergeFiles (env : Env) (cap : Nat) (fs : List (Junk × List Byte)) (fuel : Nat) : Except Err (List (List Byte)) :=
  match mergeBegin env fs with
  | .error e => .error e
  | .ok ms =>
    match mergeCols env [] (ms.map (fun m => m.it.cols)) with
    | .error e => .error e
    | .ok cols =>
      match (Writer.withCols cap cols (!cols.isEmpty)).writeHeader with
      | .error e => .error e
      | .ok w =>
        match mergeLoop env fuel w ms with
        | .error e => .error e
        | .ok w =>
          match w.close env .same with
          | .error e => .error e
          | .ok w => .ok w.out

/-! ### Specification -/

/-- Name, type, members and width in doubles of a column. [tools/MergeTool.cc, the columns copied to the output; see `mergeCol`] -/
def Col.key (k : Col) : Str × Int × List Str × List Int × Nat := (k.name, k.ty, k.bitNames, k.bitSizes, k.codec.width)

/-- Specification: what the columns of a merge keep of a column (name, type, bitfield, width). -/
def InCol.key (c : InCol) : Str × Int × List Str × List Int × Nat :=
  (c.name, c.vals.ty.toInt, c.vals.members.map Prod.fst, c.vals.members.map Prod.snd, c.vals.words)

/-- The file is read, row by row, as the table `T`. -/
def ReadsAs (env : Env) (bytes : List Byte) (T : UTable) : Prop :=
  ∀ (junk : Junk) (fuel : Nat), T.rows + 1 < fuel → ∃ views, readRows env junk bytes fuel = (views, none) ∧ views.length = T.rows ∧
    ∀ (r : Nat) (v : RowView), views[r]? = some v → v.cols.map Col.key = T.cols.map InCol.key ∧
      v.cells = rowAt (T.cols.map (InCol.data env)) r

/-- The columns of the tables side by side, in the first `m` rows; no properties. -/
def joined (Ts : List UTable) (m : Nat) : UTable :=
  { rows := m, props := [], cols := Ts.flatMap (fun T => T.cols.map (fun c => ⟨c.name, c.vals.part 0 m⟩)) }

/-- All strings fit into eight bytes (and the column is at least that wide). -/
def Vals.Short : Vals → Prop
  | .strings w vs => 1 ≤ w ∧ ∀ s ∈ vs, s.length ≤ 8
  | _ => True

/-- No column of a later table has the name of a column of an earlier one, nor that name without its "@table". -/
def NoClash : List UTable → Prop
  | [] => True
  | T :: Ts => (∀ c ∈ T.cols, ∀ U ∈ Ts, ∀ d ∈ U.cols, ¬ Means d.name c.name) ∧ NoClash Ts

/-! ### Reading -/

/-- The rows an iterator has yet to show. -/
inductive ToShow (env : Env) (junk : Junk) : RowIt → List RowView → Prop
  | nil {it} : it.noMore = true → ToShow env junk it []
  | cons {it it' b vs} : it.noMore = false → it.next env junk = .ok (it', b) → ToShow env junk it' vs →
      ToShow env junk it (⟨it.cols, it.last, it.newData⟩ :: vs)

theorem reads_of_all {env : Env} {junk : Junk} {fuel : Nat} {it : RowIt} {vs : List RowView}
    (h : it.all env junk fuel = (vs, none)) : ToShow env junk it vs := by
  induction fuel generalizing it vs with
  | zero => simp [RowIt.all] at h
  | succ fuel ih =>
    unfold RowIt.all at h
    split at h
    · rename_i hn
      simp only [Prod.mk.injEq, and_true] at h
      subst h
      exact .nil hn
    · rename_i hn
      split at h
      · simp at h
      · rename_i it' b hnx
        cases hr : RowIt.all env junk fuel it' with
        | mk rs e =>
          rw [hr] at h
          simp only [Prod.mk.injEq] at h
          obtain ⟨rfl, rfl⟩ := h
          exact .cons (by simpa using hn) hnx (ih hr)

/-! ### Filling in part of a row -/

theorem CurShape.modify {ws : List Nat} {cur : List Cell} (h : CurShape ws cur) (i : Nat) (x : Word) :
    CurShape ws (cur.modify i (fun z => x :: z.tail)) := by
  unfold CurShape at h ⊢
  induction h generalizing i with
  | nil => rw [List.modify_nil]; exact .nil
  | cons hz hm ih =>
    cases i with
    | zero =>
      obtain ⟨y, rfl⟩ := hz
      exact .cons ⟨x, rfl⟩ hm
    | succ i => exact .cons hz (ih i)

theorem fill_part {ws : List Nat} (xs : List Word) (w : Writer) (i : Nat) (hi : w.inited = true) (hl : w.cols.length = ws.length)
    (hc : CurShape ws w.cur) (hx : i + xs.length ≤ ws.length) :
    ∃ w', w.fill i xs = .ok w' ∧ SameBut w w' ∧ CurShape ws w'.cur := by
  induction xs generalizing w i with
  | nil => exact ⟨w, rfl, rfl, hc⟩
  | cons x xs ih =>
    simp only [List.length_cons] at hx
    obtain ⟨w', h1, h2, h3⟩ := ih { w with cur := w.cur.modify i (fun z => x :: z.tail) } (i + 1) hi hl (hc.modify i x) (by omega)
    refine ⟨w', ?_, ?_, h3⟩
    · unfold Writer.fill Writer.setFirst
      rw [if_neg (by simp [hi]), if_pos (by omega)]
      exact h1
    · unfold SameBut at h2 ⊢; rw [h2]

theorem fill_append (xs ys : List Word) (w : Writer) (i : Nat) :
    w.fill i (xs ++ ys) = match w.fill i xs with | .error e => .error e | .ok w' => w'.fill (i + xs.length) ys := by
  induction xs generalizing w i with
  | nil => rfl
  | cons x xs ih =>
    simp only [List.cons_append, Writer.fill]
    cases h : w.setFirst i x with
    | error e => rfl
    | ok w' =>
      dsimp only
      rw [ih]
      simp only [List.length_cons, Nat.add_assoc, Nat.add_comm 1]

/-! ### The loops -/

/-- Proof device: the rows an input will still show. -/
def ReadsIn (env : Env) (m : MergeIn) (vs : List RowView) : Prop := ToShow env m.junk m.it vs

/-- The values of the first rows side by side. -/
def headWords (vss : List (List RowView)) : List Word := vss.flatMap (fun vs => (vs.head?.map (fun v => firstWords v.cells)).getD [])

theorem mergeRound_full {env : Env} {ms : List MergeIn} {vss : List (List RowView)} (h : Match (ReadsIn env) ms vss)
    (hne : ∀ vs ∈ vss, vs ≠ []) (w w' : Writer) (i : Nat) (hf : w.fill i (headWords vss) = .ok w') :
    ∃ ms', mergeRound env w i ms = .ok (w', ms', true) ∧ Match (ReadsIn env) ms' (vss.map List.tail) := by
  induction h generalizing w i with
  | nil =>
    simp only [headWords, List.flatMap_nil, Writer.fill, Except.ok.injEq] at hf
    subst hf
    exact ⟨[], rfl, .nil⟩
  | @cons m vs ms vss hm _ ih =>
    cases hm with
    | nil _ => exact absurd rfl (hne [] (by simp))
    | @cons _ it' b vs hn hnx hr =>
      simp only [headWords, List.flatMap_cons, List.head?_cons, Option.map_some, Option.getD_some] at hf
      rw [fill_append] at hf
      split at hf
      · simp at hf
      rename_i w1 h1
      obtain ⟨ms', e1, e2⟩ := ih (fun vs hv => hne vs (by simp [hv])) w1 (i + (firstWords m.it.last).length) hf
      refine ⟨⟨m.junk, it'⟩ :: ms', ?_, .cons hr e2⟩
      unfold mergeRound
      rw [hn, if_neg (by simp), h1]
      dsimp only
      rw [hnx]
      dsimp only
      have : (firstWords m.it.last).length = m.it.last.length := by simp [firstWords]
      rw [this] at e1
      rw [e1]

theorem mergeRound_end {env : Env} {ws : List Nat} {ms : List MergeIn} {vss : List (List RowView)} (h : Match (ReadsIn env) ms vss)
    (hne : [] ∈ vss) (ns : List Nat) (hns : Match (fun (vs : List RowView) n => ∀ v ∈ vs, v.cells.length = n) vss ns) (w : Writer) (i : Nat)
    (hi : w.inited = true) (hl : w.cols.length = ws.length) (hc : CurShape ws w.cur) (hx : i + ns.sum ≤ ws.length) :
    ∃ w' ms', mergeRound env w i ms = .ok (w', ms', false) ∧ SameBut w w' ∧ CurShape ws w'.cur := by
  induction h generalizing w i ns with
  | nil => simp at hne
  | @cons m vs ms vss hm _ ih =>
    cases hns with
    | @cons _ n _ ns hn hns =>
    cases hm with
    | nil hno =>
      refine ⟨w, m :: ms, ?_, rfl, hc⟩
      unfold mergeRound
      rw [hno, if_pos rfl]
    | @cons _ it' b vs hno hnx hr =>
      have hlen : m.it.last.length = n := hn ⟨m.it.cols, m.it.last, m.it.newData⟩ (by simp)
      simp only [List.sum_cons] at hx
      have hfl : (firstWords m.it.last).length = n := by simp [firstWords, hlen]
      obtain ⟨w1, f1, f2, f3⟩ := fill_part (firstWords m.it.last) w i hi hl hc (by omega)
      have hmem : [] ∈ vss := by
        rcases List.mem_cons.mp hne with h | h
        · simp at h
        · exact h
      obtain ⟨w', ms', e1, e2, e3⟩ := ih hmem ns hns w1 (i + n) (by rw [f2]; exact hi) (by rw [f2]; exact hl) f3 (by omega)
      refine ⟨w', ⟨m.junk, it'⟩ :: ms', ?_, ?_, e3⟩
      · unfold mergeRound
        rw [hno, if_neg (by simp), f1]
        dsimp only
        rw [hnx]
        dsimp only
        rw [hlen, e1]
      · unfold SameBut at f2 e2 ⊢
        rw [e2, f2]

/-- The first `k` rows side by side. -/
def wordRows : Nat → List (List RowView) → List (List Word)
  | 0, _ => []
  | k + 1, vss => headWords vss :: wordRows k (vss.map List.tail)

theorem tails_cells {vss : List (List RowView)} {ns : List Nat}
    (h : Match (fun (vs : List RowView) n => ∀ v ∈ vs, v.cells.length = n) vss ns) :
    Match (fun (vs : List RowView) n => ∀ v ∈ vs, v.cells.length = n) (vss.map List.tail) ns := by
  induction h with
  | nil => exact .nil
  | cons h _ ih => exact .cons (fun v hv => h v (List.mem_of_mem_tail hv)) ih

theorem mergeLoop_ok {env : Env} {ws : List Nat} (k fuel : Nat) (hf : k < fuel) {ms : List MergeIn} {vss : List (List RowView)}
    (h : Match (ReadsIn env) ms vss) (ns : List Nat)
    (hns : Match (fun (vs : List RowView) n => ∀ v ∈ vs, v.cells.length = n) vss ns) (hsum : ns.sum ≤ ws.length)
    (hk : ∀ vs ∈ vss, k ≤ vs.length) (hs : ∃ vs ∈ vss, vs.length = k) (w w2 : Writer)
    (hp : w.putRows env .same (wordRows k vss) = .ok w2) (hi : w2.inited = true) (hl : w2.cols.length = ws.length)
    (hc : CurShape ws w2.cur) :
    ∃ w3, mergeLoop env fuel w ms = .ok w3 ∧ SameBut w2 w3 ∧ CurShape ws w3.cur := by
  induction k generalizing fuel ms vss w with
  | zero =>
    obtain ⟨fuel, rfl⟩ : ∃ f, fuel = f + 1 := ⟨fuel - 1, by omega⟩
    simp only [wordRows, Writer.putRows, Except.ok.injEq] at hp
    subst hp
    obtain ⟨vs, hv, hz⟩ := hs
    have : vs = [] := List.length_eq_zero_iff.mp hz
    subst this
    obtain ⟨w', ms', e1, e2, e3⟩ := mergeRound_end h hv ns hns w 0 hi hl hc (by omega)
    refine ⟨w', ?_, e2, e3⟩
    unfold mergeLoop
    rw [e1]
  | succ k ih =>
    obtain ⟨fuel, rfl⟩ : ∃ f, fuel = f + 1 := ⟨fuel - 1, by omega⟩
    simp only [wordRows, Writer.putRows, Writer.putRow] at hp
    split at hp
    · simp at hp
    rename_i w1 h1
    split at h1
    · simp at h1
    rename_i w0 h0
    obtain ⟨ms', e1, e2⟩ := mergeRound_full h (by
      intro vs hv hz
      have := hk vs hv
      rw [hz] at this
      simp at this) w w0 0 h0
    obtain ⟨w3, g1, g2, g3⟩ := ih fuel (by omega) e2 (tails_cells hns)
      (by
        intro vs hv
        rw [List.mem_map] at hv
        obtain ⟨us, hu, rfl⟩ := hv
        have := hk us hu
        rw [List.length_tail]; omega)
      (by
        obtain ⟨vs, hv, hz⟩ := hs
        exact ⟨vs.tail, List.mem_map.mpr ⟨vs, hv, rfl⟩, by rw [List.length_tail]; omega⟩)
      w1 hp
    refine ⟨w3, ?_, g2, g3⟩
    unfold mergeLoop
    rw [e1]
    dsimp only
    rw [h1]
    exact g1

/-! ### The columns -/

theorem ColType.ofInt_toInt (t : ColType) : ColType.ofInt? t.toInt = some t := by cases t <;> rfl

theorem zip_fst_snd {α β : Type} (l : List (α × β)) : (l.map Prod.fst).zip (l.map Prod.snd) = l := by
  induction l with
  | nil => rfl
  | cons x l ih => simp [ih]

/-- Proof device: the codec a column starts with. -/
def StartOf (env : Env) (c : InCol) (s : Codec) : Prop := startCodec c.vals.ty env.asDbl c.vals.words none = .ok s

theorem mergeCol_ok (env : Env) (k : Col) (c : InCol) (h : k.key = c.key) : ∃ s, StartOf env c s ∧ mergeCol env k = .ok (wcol c s) := by
  obtain ⟨s, _, h1, _⟩ := start_missing_none env c.vals
  simp only [Col.key, InCol.key, Prod.mk.injEq] at h
  obtain ⟨e1, e2, e3, e4, e5⟩ := h
  refine ⟨s, h1, ?_⟩
  unfold mergeCol
  rw [e2, ColType.ofInt_toInt]
  dsimp only
  rw [e5, resetCodec_start h1]
  dsimp only
  rw [e3, e4, zip_fst_snd, e1]
  rfl

theorem mergeColList_ok (env : Env) (ks : List Col) (cs : List InCol) (h : ks.map Col.key = cs.map InCol.key) :
    ∃ ss, Match (StartOf env) cs ss ∧ mergeColList env ks = .ok (List.zipWith wcol cs ss) := by
  induction ks generalizing cs with
  | nil =>
    cases cs with
    | nil => exact ⟨[], .nil, rfl⟩
    | cons _ _ => simp at h
  | cons k ks ih =>
    cases cs with
    | nil => simp at h
    | cons c cs =>
      simp only [List.map_cons, List.cons.injEq] at h
      obtain ⟨s, a1, a2⟩ := mergeCol_ok env k c h.1
      obtain ⟨ss, b1, b2⟩ := ih cs h.2
      refine ⟨s :: ss, .cons a1 b1, ?_⟩
      simp only [mergeColList, a2, b2, List.zipWith_cons_cons]

theorem keys_names {ks : List Col} {cs : List InCol} (h : ks.map Col.key = cs.map InCol.key) : ks.map Col.name = cs.map InCol.name := by
  have := congrArg (List.map Prod.fst) h
  simpa [Col.key, InCol.key, Function.comp_def] using this

theorem any_name {ks : List Col} {cs : List InCol} (h : ks.map Col.key = cs.map InCol.key) (p : Str → Bool) :
    ks.any (fun k => p k.name) = cs.any (fun c => p c.name) := by
  have := congrArg (List.any · p) (keys_names h)
  simpa [List.any_map, Function.comp_def] using this

theorem wcol_names (cs : List InCol) (ss : List Codec) (h : cs.length = ss.length) :
    (List.zipWith wcol cs ss).map WCol.name = cs.map InCol.name := by
  induction cs generalizing ss with
  | nil => simp
  | cons c cs ih =>
    cases ss with
    | nil => simp at h
    | cons s ss => simp [wcol, ih ss (by simpa using h)]

/-- The names clash: a column of a later list means one of the earlier (or of those given). -/
def Clear : List Str → List (List InCol) → Prop
  | _, [] => True
  | out, cs :: css => (∀ c ∈ cs, ∀ n ∈ out, ¬ Means c.name n) ∧ Clear (out ++ cs.map InCol.name) css

theorem hasColumn_iff (ns : List Str) (q : Str) : hasColumn ns q = true ↔ ∃ n ∈ ns, Means q n := by
  simp [hasColumn, List.any_eq_true, columnNameMatches_iff]

theorem mergeCols_ok (env : Env) {kss : List (List Col)} {css : List (List InCol)}
    (h : Match (fun (ks : List Col) (cs : List InCol) => ks.map Col.key = cs.map InCol.key) kss css) (out : List WCol)
    (hc : Clear (out.map WCol.name) css) :
    ∃ ss, Match (StartOf env) css.flatten ss ∧ mergeCols env out kss = .ok (out ++ List.zipWith wcol css.flatten ss) := by
  induction h generalizing out with
  | nil => exact ⟨[], .nil, by simp [mergeCols]⟩
  | @cons ks cs kss css hk _ ih =>
    obtain ⟨c1, c2⟩ := hc
    obtain ⟨s1, a1, a2⟩ := mergeColList_ok env ks cs hk
    obtain ⟨s2, b1, b2⟩ := ih (out ++ List.zipWith wcol cs s1) (by rw [List.map_append, wcol_names _ _ a1.length]; exact c2)
    refine ⟨s1 ++ s2, ?_, ?_⟩
    · rw [List.flatten_cons]
      clear a2 b2 ih c1 c2 hk
      induction a1 with
      | nil => exact b1
      | cons h _ ih => exact .cons h ih
    · unfold mergeCols
      rw [any_name hk (fun n => hasColumn (out.map WCol.name) n), if_neg, a2]
      · dsimp only
        rw [b2, List.flatten_cons, List.zipWith_append a1.length, List.append_assoc]
      · simp only [List.any_eq_true, not_exists, not_and]
        intro c hc hh
        obtain ⟨n, hn, hm⟩ := (hasColumn_iff _ _).mp hh
        exact c1 c hc n hn hm

theorem mergeCols_clash (env : Env) {kss : List (List Col)} {css : List (List InCol)}
    (h : Match (fun (ks : List Col) (cs : List InCol) => ks.map Col.key = cs.map InCol.key) kss css) (out : List WCol)
    (hc : ¬ Clear (out.map WCol.name) css) : mergeCols env out kss = .error .userError := by
  induction h generalizing out with
  | nil => exact absurd trivial hc
  | @cons ks cs kss css hk _ ih =>
    unfold mergeCols
    rw [any_name hk (fun n => hasColumn (out.map WCol.name) n)]
    by_cases h1 : ∀ c ∈ cs, ∀ n ∈ out.map WCol.name, ¬ Means c.name n
    · rw [if_neg]
      · obtain ⟨s1, a1, a2⟩ := mergeColList_ok env ks cs hk
        rw [a2]
        dsimp only
        apply ih
        rw [List.map_append, wcol_names _ _ a1.length]
        intro h2
        exact hc ⟨h1, h2⟩
      · simp only [List.any_eq_true, not_exists, not_and]
        intro c hc hh
        obtain ⟨n, hn, hm⟩ := (hasColumn_iff _ _).mp hh
        exact h1 c hc n hn hm
    · rw [if_pos]
      simp only [not_forall, Classical.not_not] at h1
      obtain ⟨c, h2, n, h3, h4⟩ := h1
      rw [List.any_eq_true]
      exact ⟨c, h2, (hasColumn_iff _ _).mpr ⟨n, h3, h4⟩⟩

theorem clear_iff (Ts : List UTable) (out : List Str) :
    Clear out (Ts.map UTable.cols) ↔ (∀ T ∈ Ts, ∀ c ∈ T.cols, ∀ n ∈ out, ¬ Means c.name n) ∧ NoClash Ts := by
  induction Ts generalizing out with
  | nil => simp [Clear, NoClash]
  | cons T Ts ih =>
    simp only [List.map_cons, Clear, ih, NoClash, List.mem_cons, forall_eq_or_imp, List.mem_append, List.mem_map]
    constructor
    · rintro ⟨h1, h2, h3⟩
      refine ⟨⟨h1, fun U hU c hc n hn => h2 U hU c hc n (Or.inl hn)⟩, ?_, h3⟩
      intro c hc U hU d hd
      exact h2 U hU d hd c.name (Or.inr ⟨c, hc, rfl⟩)
    · rintro ⟨⟨h1, h2⟩, h3, h4⟩
      refine ⟨h1, ?_, h4⟩
      intro U hU c hc n hn
      rcases hn with hn | ⟨d, hd, rfl⟩
      · exact h2 U hU c hc n hn
      · exact h3 d hd U hU c hc

/-! ### The rows -/

/-- Row `r` side by side. -/
def wordsAt (vss : List (List RowView)) (r : Nat) : List Word :=
  vss.flatMap (fun vs => (vs[r]?.map (fun v => firstWords v.cells)).getD [])

theorem wordRows_range (k : Nat) (vss : List (List RowView)) : wordRows k vss = (List.range k).map (wordsAt vss) := by
  induction k generalizing vss with
  | zero => rfl
  | succ k ih =>
    rw [List.range_succ_eq_map, List.map_cons, List.map_map, wordRows, ih]
    congr 1
    · simp only [headWords, wordsAt, List.head?_eq_getElem?]
    · apply List.map_congr_left
      intro r _
      simp only [wordsAt, Function.comp_apply, List.flatMap_map]
      congr 1
      funext vs
      rw [List.getElem?_tail]

theorem wordsOf_nil (n : Nat) : wordsOf n [] = List.replicate n 0 := by
  induction n with
  | zero => rfl
  | succ n ih => rw [wordsOf, List.replicate_succ, List.drop_nil, ih]; rfl

theorem short_cell {env : Env} {v : Vals} (h : v.Short) {z : Cell} (hz : z ∈ v.cells env) : headCell (z.headD 0) v.words = z := by
  cases v with
  | strings w vs =>
    simp only [Vals.cells, List.mem_map] at hz
    obtain ⟨s, hs, rfl⟩ := hz
    obtain ⟨h1, h2⟩ := h
    obtain ⟨w, rfl⟩ : ∃ n, w = n + 1 := ⟨w - 1, by omega⟩
    have h3 := h2 s hs
    rw [wordsOf, List.drop_eq_nil_of_le h3, wordsOf_nil]
    rfl
  | _ =>
    simp only [Vals.cells, List.mem_map] at hz
    obtain ⟨s, hs, rfl⟩ := hz
    rfl

theorem short_row {env : Env} (cs : List InCol) (n r : Nat) (hr : r < n) (hrows : ∀ c ∈ cs, c.vals.rows = n)
    (hs : ∀ c ∈ cs, c.vals.Short) :
    List.zipWith headCell (firstWords (rowAt (cs.map (InCol.data env)) r)) (cs.map (fun c => c.vals.words)) =
      rowAt (cs.map (InCol.data env)) r := by
  induction cs with
  | nil => rfl
  | cons c cs ih =>
    have ih' := ih (fun c hc => hrows c (by simp [hc])) (fun c hc => hs c (by simp [hc]))
    simp only [firstWords, rowAt, List.map_cons, List.zipWith_cons_cons] at ih' ⊢
    rw [ih']
    congr 1
    have hlt : r < (c.vals.cells env).length := by rw [Vals.cells_length, hrows c (by simp)]; exact hr
    show headCell (((c.vals.cells env).getD r []).headD 0) c.vals.words = (c.vals.cells env).getD r []
    apply short_cell (hs c (by simp))
    rw [List.getD_eq_getElem?_getD, List.getElem?_eq_getElem hlt]
    exact List.getElem_mem hlt

theorem part_short {v : Vals} (h : v.Short) (n : Nat) : (v.part 0 n).Short := by
  cases v with
  | strings w vs => exact ⟨h.1, fun s hs => h.2 s (List.mem_of_mem_drop (List.mem_of_mem_take hs))⟩
  | _ => trivial

/-- The columns of `joined`, by table. -/
def cut (m : Nat) (T : UTable) : List InCol := T.cols.map (fun c => ⟨c.name, c.vals.part 0 m⟩)

theorem cut_key (m : Nat) (T : UTable) : (cut m T).map InCol.key = T.cols.map InCol.key := by
  simp [cut, InCol.key, Function.comp_def, Vals.part_words, Vals.part_ty, Vals.part_members]

theorem cut_names (m : Nat) (T : UTable) : (cut m T).map InCol.name = T.cols.map InCol.name := by
  simp [cut, Function.comp_def]

theorem joined_cols (Ts : List UTable) (m : Nat) : (joined Ts m).cols = (Ts.map (cut m)).flatten := by
  simp only [joined, List.flatMap_def]; rfl

theorem clear_cut (m : Nat) (Ts : List UTable) (out : List Str) : Clear out (Ts.map (cut m)) ↔ Clear out (Ts.map UTable.cols) := by
  induction Ts generalizing out with
  | nil => rfl
  | cons T Ts ih =>
    simp only [List.map_cons, Clear, cut_names, ih]
    have : (∀ c ∈ cut m T, ∀ n ∈ out, ¬ Means c.name n) ↔ (∀ c ∈ T.cols, ∀ n ∈ out, ¬ Means c.name n) := by
      simp [cut]
    rw [this]

theorem cut_row (env : Env) (m r : Nat) (hr : r < m) (T : UTable) :
    rowAt ((cut m T).map (InCol.data env)) r = rowAt (T.cols.map (InCol.data env)) r := by
  simp only [rowAt, cut, List.map_map]
  apply List.map_congr_left
  intro c _
  simp only [Function.comp_apply, InCol.data, Vals.part_cells, List.drop_zero]
  rw [List.getD_eq_getElem?_getD, List.getD_eq_getElem?_getD, List.getElem?_take, if_pos hr]

/-- One input, begun: its iterator shows the rows of the table. -/
theorem begin_ok {env : Env} {b : List Byte} {T : UTable} (h : ReadsAs env b T) (hp : 0 < T.rows) (j : Junk) :
    ∃ it vs, RowIt.begin env j b = .ok it ∧ ToShow env j it vs ∧ vs.length = T.rows ∧ it.cols.map Col.key = T.cols.map InCol.key ∧
      ∀ (r : Nat) (v : RowView), vs[r]? = some v → v.cells = rowAt (T.cols.map (InCol.data env)) r := by
  obtain ⟨vs, h1, h2, h3⟩ := h j (T.rows + 2) (by omega)
  unfold readRows at h1
  split at h1
  · simp at h1
  rename_i it hit
  have hs := reads_of_all h1
  refine ⟨it, vs, hit, hs, h2, ?_, fun r v hv => (h3 r v hv).2⟩
  cases hs with
  | nil _ => simp at h2; omega
  | cons _ _ _ => exact (h3 0 _ rfl).1

/-- What the inputs show. -/
structure ShowsTable (env : Env) (T : UTable) (vs : List RowView) : Prop where
  len : vs.length = T.rows
  cells : ∀ (r : Nat) (v : RowView), vs[r]? = some v → v.cells = rowAt (T.cols.map (InCol.data env)) r

theorem mergeBegin_ok {env : Env} {fs : List (Junk × List Byte)} {Ts : List UTable}
    (h : Match (fun (f : Junk × List Byte) T => ReadsAs env f.2 T) fs Ts) (hp : ∀ T ∈ Ts, 0 < T.rows) :
    ∃ ms vss, mergeBegin env fs = .ok ms ∧ Match (ReadsIn env) ms vss ∧
      Match (fun (ks : List Col) (T : UTable) => ks.map Col.key = T.cols.map InCol.key) (ms.map (fun m => m.it.cols)) Ts ∧
      Match (ShowsTable env) Ts vss := by
  induction h with
  | nil => exact ⟨[], [], rfl, .nil, .nil, .nil⟩
  | @cons f T fs Ts h _ ih =>
    obtain ⟨ms, vss, a1, a2, a3, a4⟩ := ih (fun T hT => hp T (by simp [hT]))
    obtain ⟨it, vs, b1, b2, b3, b4, b5⟩ := begin_ok h (hp T (by simp)) f.1
    refine ⟨⟨f.1, it⟩ :: ms, vs :: vss, ?_, .cons b2 a2, .cons b4 a3, .cons ⟨b3, b5⟩ a4⟩
    unfold mergeBegin
    rw [b1]
    dsimp only
    rw [a1]

theorem row_join {env : Env} {Ts : List UTable} {vss : List (List RowView)} (h : Match (ShowsTable env) Ts vss) (m r : Nat) (hr : r < m)
    (hm : ∀ T ∈ Ts, m ≤ T.rows) (hrows : ∀ c ∈ (Ts.map (cut m)).flatten, c.vals.rows = m)
    (hs : ∀ T ∈ Ts, ∀ c ∈ T.cols, c.vals.Short) :
    (wordsAt vss r).length = ((Ts.map (cut m)).flatten).length ∧
    List.zipWith headCell (wordsAt vss r) (((Ts.map (cut m)).flatten).map (fun c => c.vals.words)) =
      rowAt (((Ts.map (cut m)).flatten).map (InCol.data env)) r := by
  induction h with
  | nil => exact ⟨rfl, rfl⟩
  | @cons T vs Ts vss h1 _ ih =>
    simp only [List.map_cons, List.flatten_cons, List.mem_append] at hrows
    obtain ⟨i1, i2⟩ := ih (fun U hU => hm U (by simp [hU])) (fun c hc => hrows c (Or.inr hc)) (fun U hU => hs U (by simp [hU]))
    have hlt : r < vs.length := by have := hm T (by simp); rw [h1.len]; omega
    have hc := h1.cells r _ (List.getElem?_eq_getElem hlt)
    have e : wordsAt (vs :: vss) r = firstWords (rowAt ((cut m T).map (InCol.data env)) r) ++ wordsAt vss r := by
      simp only [wordsAt, List.flatMap_cons, List.getElem?_eq_getElem hlt, Option.map_some, Option.getD_some, hc, cut_row env m r hr]
    have hlen : (firstWords (rowAt ((cut m T).map (InCol.data env)) r)).length = (cut m T).length := by simp [firstWords, rowAt]
    rw [e]
    refine ⟨by simp only [List.length_append, List.map_cons, List.flatten_cons, i1, hlen], ?_⟩
    simp only [List.map_cons, List.flatten_cons, List.map_append]
    rw [List.zipWith_append (by rw [hlen, List.length_map]), i2, short_row (cut m T) m r hr (fun c hc => hrows c (Or.inl hc))]
    · simp [rowAt]
    · intro c hc
      simp only [cut, List.mem_map] at hc
      obtain ⟨d, hd, rfl⟩ := hc
      exact part_short (hs T (by simp) d hd) m

theorem Match.starts {env : Env} {cs : List InCol} {ss : List Codec} (h : Match (StartOf env) cs ss) :
    Starts env cs (List.replicate cs.length none) ss := by
  refine ⟨by simp, h.length.symm, ?_⟩
  intro i c m? k hc hm hk
  have := List.eq_of_mem_replicate (List.mem_of_getElem? hm)
  subst this
  exact h.get i c k hc hk

/-- **C32**: files that are read row by row as the tables `Ts`, each with rows, none with a column named as in an earlier
one, are merged into a file of the columns side by side, in as many rows as the shortest has (`joined`), for any size of the
rows buffer: the file that the row writer makes of that table, whatever memory held before; it is read back as `C20_rows` says of that table.  Strings must fit into 8 bytes. -/
theorem C32_merge (env : Env) (hmd5 : env.Md5Ok) (cap : Nat) (hcap : 0 < cap) (fs : List (Junk × List Byte)) (Ts : List UTable)
    (h : Match (fun (f : Junk × List Byte) T => ReadsAs env f.2 T) fs Ts) (hp : ∀ T ∈ Ts, 0 < T.rows)
    (hs : ∀ T ∈ Ts, ∀ c ∈ T.cols, c.vals.Short) (hn : NoClash Ts) (m : Nat) (hm : ∀ T ∈ Ts, m ≤ T.rows) (hmin : ∃ T ∈ Ts, T.rows = m)
    (hok : (joined Ts m).RowsOk env cap) (fuel : Nat) (hf : m < fuel) :
    ∃ out, (joined Ts m).write env .same cap = .ok out ∧ out.length = (m + cap - 1) / cap ∧ mergeFiles env cap fs fuel = .ok out ∧
      ((∀ f ∈ out, f.length ≤ 2147483647) → ∀ (junk : Junk) (fuel' : Nat), m + 1 < fuel' →
        ∃ views, readRows env junk out.flatten fuel' = (views, none) ∧ views.length = m ∧
          ∀ (r : Nat) (v : RowView), views[r]? = some v → v.cols.length = (joined Ts m).cols.length ∧
            v.cells.length = (joined Ts m).cols.length ∧
            ∀ (p : Nat) (c : InCol), (joined Ts m).cols[p]? = some c →
              ∃ (k : Col) (y : Cell), v.cols[p]? = some k ∧ k.name = c.name ∧ k.ty = c.vals.ty.toInt ∧
                k.bitNames = c.vals.members.map Prod.fst ∧ k.bitSizes = c.vals.members.map Prod.snd ∧
                v.cells[p]? = some y ∧
                (c.vals.part (r / cap * cap) (min cap (m - r / cap * cap))).Gives env (r % cap) y ∧
                (c.vals.ty ≠ .real → c.vals.Gives env r y)) := by
  obtain ⟨out, o1, o2, o3⟩ := C20_rows env hmd5 .same cap hcap (joined Ts m) hok
  refine ⟨out, o1, o2, ?_, ?_⟩
  · obtain ⟨ms, vss, a1, a2, a3, a4⟩ := mergeBegin_ok h hp
    have hjc := joined_cols Ts m
    have hkeys : Match (fun (ks : List Col) (cs : List InCol) => ks.map Col.key = cs.map InCol.key) (ms.map (fun m => m.it.cols))
        (Ts.map (cut m)) := by
      clear hm hmin hok o1 o2 o3 a1 a2 a4 hjc hn hs hp h
      generalize ms.map (fun m => m.it.cols) = kss at a3
      induction a3 with
      | nil => exact .nil
      | cons h _ ih => exact .cons (by rw [h, cut_key]) ih
    obtain ⟨ss, b1, b2⟩ := mergeCols_ok env hkeys [] ((clear_cut m Ts _).mpr ((clear_iff Ts _).mpr ⟨by simp, hn⟩))
    rw [← hjc] at b1 b2
    simp only [List.nil_append] at b2
    have hrows : ∀ c ∈ (Ts.map (cut m)).flatten, c.vals.rows = m := by rw [← hjc]; exact hok.rows
    have hj := fun r hr => row_join a4 m r hr hm hrows hs
    rw [← hjc] at hj
    have hlens : ∀ vs ∈ vss, m ≤ vs.length := by
      intro vs hv
      obtain ⟨i, hi, rfl⟩ := List.getElem_of_mem hv
      have hl := a4.length
      have := a4.get i Ts[i] vss[i] (List.getElem?_eq_getElem (by omega)) (List.getElem?_eq_getElem hi)
      rw [this.len]
      exact hm _ (List.getElem_mem _)
    have hshort : ∃ vs ∈ vss, vs.length = m := by
      obtain ⟨T, hT, hTm⟩ := hmin
      obtain ⟨vs, hv, hsh⟩ := a4.mem_left T hT
      exact ⟨vs, hv, by rw [hsh.len, hTm]⟩
    obtain ⟨w1, w2, c1, c2, c3, c4, c5, c6⟩ := putTable_most env .same (joined Ts m) cap ss (!(List.zipWith wcol (joined Ts m).cols ss).isEmpty)
      b1.starts hok.names hok.named rfl (wordRows m vss)
      (by
        intro r hr
        rw [wordRows_range, List.mem_map] at hr
        obtain ⟨i, hi, rfl⟩ := hr
        exact (hj i (by simpa using hi)).1)
      (by
        rw [wordRows_range, List.map_map]
        show _ = (List.range m).map _
        apply List.map_congr_left
        intro r hr
        exact (hj r (by simpa using hr)).2) o1
    have hns : Match (fun (vs : List RowView) n => ∀ v ∈ vs, v.cells.length = n) vss (Ts.map (fun T => T.cols.length)) := by
      clear hm hmin hok o1 o2 o3 a1 a2 a3 hjc hn hs hp h hj hlens hshort c1 c2 c3 c4 c5 c6 hkeys b1 b2 hrows
      induction a4 with
      | nil => exact .nil
      | @cons T vs Ts vss h _ ih =>
        refine .cons ?_ ih
        intro v hv
        obtain ⟨i, hi, rfl⟩ := List.getElem_of_mem hv
        rw [h.cells i _ (List.getElem?_eq_getElem hi)]
        simp [rowAt]
    have hsum : (Ts.map (fun T => T.cols.length)).sum = (joined Ts m).cols.length := by
      rw [joined_cols, List.length_flatten, List.map_map]
      congr 1
      apply List.map_congr_left
      intro T _
      simp [cut]
    obtain ⟨w3, d1, d2, d3⟩ := mergeLoop_ok m fuel hf a2 _ hns (ws := (joined Ts m).cols.map (fun c => c.vals.words))
      (by rw [hsum, List.length_map]) hlens hshort w1 w2 c2 c5 (by unfold ColShape at c3; exact c3.length) c4
    obtain ⟨w4, e1, e2⟩ := c6 w3 d2 d3
    unfold mergeFiles
    rw [a1]
    dsimp only
    rw [b2]
    dsimp only
    rw [c1]
    dsimp only
    rw [d1]
    dsimp only
    rw [e1]
    dsimp only
    rw [e2]
  · intro hsz junk fuel' hf'
    obtain ⟨views, v1, v2, v3⟩ := o3 hsz junk fuel' hf'
    refine ⟨views, v1, v2, ?_⟩
    intro r v hv
    obtain ⟨q1, q2, _, q4⟩ := v3 r v hv
    exact ⟨q1, q2, q4⟩

/-- **C32**: a column named in more than one input is refused. -/
theorem C32_clash (env : Env) (cap : Nat) (fs : List (Junk × List Byte)) (Ts : List UTable)
    (h : Match (fun (f : Junk × List Byte) T => ReadsAs env f.2 T) fs Ts) (hp : ∀ T ∈ Ts, 0 < T.rows) (hn : ¬ NoClash Ts) (fuel : Nat) :
    mergeFiles env cap fs fuel = .error .userError := by
  obtain ⟨ms, vss, a1, a2, a3, a4⟩ := mergeBegin_ok h hp
  have hkeys : Match (fun (ks : List Col) (cs : List InCol) => ks.map Col.key = cs.map InCol.key) (ms.map (fun m => m.it.cols))
      (Ts.map UTable.cols) := by
    clear a1 a2 a4 hn hp h
    generalize ms.map (fun m => m.it.cols) = kss at a3
    induction a3 with
    | nil => exact .nil
    | cons h _ ih => exact .cons h ih
  unfold mergeFiles
  rw [a1]
  dsimp only
  rw [mergeCols_clash env hkeys [] (by
    intro hc
    exact hn ((clear_iff Ts _).mp hc).2)]

end Verif
