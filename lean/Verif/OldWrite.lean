import Verif.OldRead
import Verif.DispatchName

/-
Writing with the old C interface: the file is the one the row writer gives.
-/

namespace Verif

/-- Specification: the C library reads the decimal digits of a number as that number (`atof`; sizes of members below 2^31). -/
def OldLib.Ok (lib : OldLib) : Prop := ∀ n : Nat, n < 2147483648 → lib.sizeOf (digits n) = n

/-- Specification: the calls that declare a column of a table: its name and type (with the names and sizes of its members as texts with colons, if it is a
bitfield), its size in doubles, its missing value if the client sets one. -/
def InCol.oldCalls (i : Nat) (c : InCol) (m? : Option Word) : List OldCall :=
  (if c.vals.ty = .bitfield then
    .bitfield i 4 c.name (bitfieldTexts (c.vals.members.map Prod.fst) (c.vals.members.map Prod.snd)).1
      (bitfieldTexts (c.vals.members.map Prod.fst) (c.vals.members.map Prod.snd)).2
  else .column i c.vals.ty.toInt c.name) :: .size i c.vals.words :: (match m? with | none => [] | some m => [.missing i m])

/-- Specification: the calls that declare columns from number `i` on. -/
def oldDecls : Nat → List (InCol × Option Word) → List OldCall
  | _, [] => []
  | i, (c, m?) :: cs => c.oldCalls i m? ++ oldDecls (i + 1) cs

/-- Specification: the calls of a client that writes a table: the columns, the header, the rows, each as one array of doubles. -/
def UTable.oldCalls (env : Env) (ms : List (Option Word)) (T : UTable) : List OldCall :=
  .columns T.cols.length :: (oldDecls 0 (T.cols.zip ms) ++ .header ::
    (rowsOf (T.cols.map (InCol.data env)) T.rows).map (fun r => .row r.flatten T.cols.length))

/-- Specification: what the interface can say about a column: C strings without zero bytes, names of members without colons, sizes that are not negative. -/
def InCol.OldOk (c : InCol) : Prop :=
  (0 : Byte) ∉ c.name ∧ ∀ m ∈ c.vals.members, (0 : Byte) ∉ m.1 ∧ (58 : Byte) ∉ m.1 ∧ 0 ≤ m.2 ∧ m.2 < 2147483648

theorem cstr_self (s : Str) (h : (0 : Byte) ∉ s) : cstr s = s := by
  unfold cstr
  induction s with
  | nil => rfl
  | cons b s ih =>
    simp only [List.mem_cons, not_or] at h
    rw [List.takeWhile_cons, if_pos (by simpa using fun e => h.1 e.symm), ih h.2]

theorem colon_one (acc n rest : Str) (h : (58 : Byte) ∉ n) : colonFields acc (n ++ 58 :: rest) = (acc ++ n) :: colonFields [] rest := by
  induction n generalizing acc with
  | nil => simp [colonFields]
  | cons b n ih =>
    simp only [List.mem_cons, not_or] at h
    rw [List.cons_append]
    simp only [colonFields]
    rw [if_neg (fun e => h.1 e.symm), ih _ h.2]
    simp

theorem colon_all (ns : List Str) (h : ∀ n ∈ ns, (58 : Byte) ∉ n) : colonFields [] (ns.map (fun n => n ++ [58])).flatten = ns := by
  induction ns with
  | nil => rfl
  | cons n ns ih =>
    rw [List.map_cons, List.flatten_cons, List.append_assoc]
    show colonFields [] (n ++ 58 :: (ns.map (fun n => n ++ [58])).flatten) = _
    rw [colon_one _ _ _ (h n (by simp)), ih (fun x hx => h x (by simp [hx]))]
    rfl

theorem zero_free (ns : List Str) (h : ∀ n ∈ ns, (0 : Byte) ∉ n) : (0 : Byte) ∉ (ns.map (fun n => n ++ [58])).flatten := by
  intro hm
  simp only [List.mem_flatten, List.mem_map] at hm
  obtain ⟨l, ⟨n, hn, rfl⟩, hl⟩ := hm
  rw [List.mem_append] at hl
  rcases hl with hl | hl
  · exact h n hn hl
  · simp at hl

theorem decimal_free (i : Int) (hi : 0 ≤ i) (b : Byte) (hb : b.toNat < 48 ∨ 57 < b.toNat) : b ∉ decimal i := by
  unfold decimal
  rw [if_neg (by omega)]
  intro hm
  have := digits_digit _ b hm
  omega

/-- The members of a bitfield go through the texts unchanged. -/
theorem texts_back (lib : OldLib) (hlib : lib.Ok) (ms : List (Str × Int))
    (h : ∀ m ∈ ms, (0 : Byte) ∉ m.1 ∧ (58 : Byte) ∉ m.1 ∧ 0 ≤ m.2 ∧ m.2 < 2147483648) :
    colonFields [] (cstr (bitfieldTexts (ms.map Prod.fst) (ms.map Prod.snd)).1) = ms.map Prod.fst ∧
      (colonFields [] (cstr (bitfieldTexts (ms.map Prod.fst) (ms.map Prod.snd)).2)).map lib.sizeOf = ms.map Prod.snd := by
  have h1 : ∀ n ∈ ms.map Prod.fst, (0 : Byte) ∉ n ∧ (58 : Byte) ∉ n := by
    intro n hn
    simp only [List.mem_map] at hn
    obtain ⟨m, hm, rfl⟩ := hn
    exact ⟨(h m hm).1, (h m hm).2.1⟩
  have h2 : ∀ n ∈ (ms.map Prod.snd).map decimal, (0 : Byte) ∉ n ∧ (58 : Byte) ∉ n := by
    intro n hn
    simp only [List.mem_map] at hn
    obtain ⟨_, ⟨m, hm, rfl⟩, rfl⟩ := hn
    exact ⟨decimal_free _ (h m hm).2.2.1 _ (by decide), decimal_free _ (h m hm).2.2.1 _ (by decide)⟩
  refine ⟨?_, ?_⟩
  · unfold bitfieldTexts
    rw [cstr_self _ (zero_free _ (fun n hn => (h1 n hn).1)), colon_all _ (fun n hn => (h1 n hn).2)]
  · have : (bitfieldTexts (ms.map Prod.fst) (ms.map Prod.snd)).2 = (((ms.map Prod.snd).map decimal).map (fun n => n ++ [58])).flatten := by
      unfold bitfieldTexts
      rw [List.map_map (l := ms.map Prod.snd)]
      rfl
    rw [this, cstr_self _ (zero_free _ (fun n hn => (h2 n hn).1)), colon_all _ (fun n hn => (h2 n hn).2), List.map_map]
    conv => rhs; rw [← List.map_id (ms.map Prod.snd)]
    apply List.map_congr_left
    intro i hi
    simp only [List.mem_map] at hi
    obtain ⟨m, hm, rfl⟩ := hi
    obtain ⟨_, _, h3, h4⟩ := h m hm
    show lib.sizeOf (decimal m.2) = m.2
    unfold decimal
    rw [if_neg (by omega), hlib _ (by omega)]
    omega

theorem runCalls_append (env : Env) (lib : OldLib) (w : Writer) (xs ys : List OldCall) :
    runCalls env lib w (xs ++ ys) = (match runCalls env lib w xs with | .error e => .error e | .ok w' => runCalls env lib w' ys) := by
  induction xs generalizing w with
  | nil => rfl
  | cons x xs ih =>
    rw [List.cons_append]
    simp only [runCalls]
    cases x.run env lib w with
    | error e => rfl
    | ok w' => exact ih w'

/-- The declarations are those of the row writer. -/
theorem decls_ok (env : Env) (lib : OldLib) (hlib : lib.Ok) (w w' : Writer) (i : Nat) (cs : List (InCol × Option Word))
    (hok : ∀ c ∈ cs, c.1.OldOk) (h : w.declare env i cs = .ok w') : runCalls env lib w (oldDecls i cs) = .ok w' := by
  induction cs generalizing w i with
  | nil => exact h
  | cons c cs ih =>
    obtain ⟨c, m?⟩ := c
    have hc := hok (c, m?) (by simp)
    have ih' := fun w i h => ih w i (fun x hx => hok x (by simp [hx])) h
    simp only [oldDecls]
    rw [runCalls_append]
    have h : ((if c.vals.ty = .bitfield then w.setBitfieldColumn env i c.name .bitfield c.vals.members
        else w.setColumn env i c.name c.vals.ty) >>= fun w => (w.setWidth i c.vals.words) >>= fun w =>
          (match m? with
            | none => Writer.declare env w (i + 1) cs
            | some m => w.setMissing i m >>= fun w => Writer.declare env w (i + 1) cs)) = .ok w' := by
      simp only [Writer.declare] at h
      by_cases hb : c.vals.ty = .bitfield
      · rw [if_pos hb] at h ⊢
        cases m? <;> exact h
      · rw [if_neg hb] at h ⊢
        cases m? <;> exact h
    have hstep : ∀ (w1 : Writer), (if c.vals.ty = .bitfield then w.setBitfieldColumn env i c.name .bitfield c.vals.members
        else w.setColumn env i c.name c.vals.ty) = .ok w1 →
        ∀ xs, runCalls env lib w ((if c.vals.ty = .bitfield then
          OldCall.bitfield i 4 c.name (bitfieldTexts (c.vals.members.map Prod.fst) (c.vals.members.map Prod.snd)).1
            (bitfieldTexts (c.vals.members.map Prod.fst) (c.vals.members.map Prod.snd)).2
          else .column i c.vals.ty.toInt c.name) :: xs) = runCalls env lib w1 xs := by
      intro w1 h1 xs
      obtain ⟨t1, t2⟩ := texts_back lib hlib c.vals.members hc.2
      simp only [runCalls]
      by_cases hb : c.vals.ty = .bitfield
      · rw [if_pos hb] at h1 ⊢
        have : (OldCall.bitfield i 4 c.name (bitfieldTexts (c.vals.members.map Prod.fst) (c.vals.members.map Prod.snd)).1
            (bitfieldTexts (c.vals.members.map Prod.fst) (c.vals.members.map Prod.snd)).2).run env lib w = .ok w1 := by
          simp only [OldCall.run]
          rw [t1, t2, show ColType.ofInt? 4 = some .bitfield from rfl, cstr_self _ hc.1]
          dsimp only
          rw [if_neg (by simp), zip_fst_snd]
          exact h1
        rw [this]
      · rw [if_neg hb] at h1 ⊢
        have : (OldCall.column i c.vals.ty.toInt c.name).run env lib w = .ok w1 := by
          simp only [OldCall.run]
          rw [ColType.ofInt_toInt, cstr_self _ hc.1]
          exact h1
        rw [this]
    cases h1 : (if c.vals.ty = .bitfield then w.setBitfieldColumn env i c.name .bitfield c.vals.members
        else w.setColumn env i c.name c.vals.ty) with
    | error e => rw [h1] at h; simp [bind, Except.bind] at h
    | ok w1 =>
      rw [h1] at h
      simp only [bind, Except.bind] at h
      unfold InCol.oldCalls
      rw [hstep w1 h1]
      cases h2 : w1.setWidth i c.vals.words with
      | error e => rw [h2] at h; simp at h
      | ok w2 =>
        rw [h2] at h
        dsimp only at h
        have hs : (OldCall.size i c.vals.words).run env lib w1 = .ok w2 := h2
        simp only [runCalls]
        rw [hs]
        dsimp only
        cases m? with
        | none => dsimp only [runCalls] at h ⊢; exact ih' w2 (i + 1) h
        | some m =>
          dsimp only at h ⊢
          cases h3 : w2.setMissing i m with
          | error e => rw [h3] at h; simp at h
          | ok w3 =>
            rw [h3] at h
            dsimp only at h
            have hs : (OldCall.missing i m).run env lib w2 = .ok w3 := h3
            simp only [runCalls]
            rw [hs]
            exact ih' w3 (i + 1) h

theorem splitWords_flatten (row : List Cell) (rest : List Word) : splitWords (row.map List.length) (row.flatten ++ rest) = row := by
  induction row generalizing rest with
  | nil => rfl
  | cons x row ih =>
    simp only [List.map_cons, splitWords, List.flatten_cons, List.append_assoc]
    rw [List.take_left, List.drop_left, ih]

/-- The rows are those of the row writer. -/
theorem rows_ok (env : Env) (lib : OldLib) (w w' : Writer) (n : Nat) (rows : List (List Cell)) (hn : ∀ r ∈ rows, r.length = n)
    (h : w.writeRows env .same rows = .ok w') : runCalls env lib w (rows.map (fun r => .row r.flatten n)) = .ok w' := by
  induction rows generalizing w with
  | nil => exact h
  | cons r rows ih =>
    simp only [Writer.writeRows] at h
    cases h1 : w.writeRow env .same r with
    | error e => rw [h1] at h; simp [bind, Except.bind] at h
    | ok w1 =>
      rw [h1] at h
      simp only [bind, Except.bind] at h
      have hrun : (OldCall.row r.flatten n).run env lib w = .ok w1 := by
        have h1' := h1
        unfold Writer.writeRow at h1
        split at h1
        · simp at h1
        rename_i hl
        split at h1
        · simp at h1
        rename_i hi
        simp only [OldCall.run]
        rw [if_neg (by rw [← hn r (by simp)]; exact hl), if_neg hi]
        cases hc : coders w.cols with
        | none => rw [hc] at h1; simp at h1
        | some cs =>
          rw [hc] at h1
          dsimp only at h1 ⊢
          split at h1
          · simp at h1
          rename_i hs
          rw [not_or, not_not] at hs
          have hlen : r.flatten.length = rowWords cs := by
            unfold rowWords
            rw [List.length_flatten, hs.1]
          rw [if_neg (by omega), ← hs.1]
          have := splitWords_flatten r []
          rw [List.append_nil] at this
          rw [this]
          exact h1'
      rw [List.map_cons]
      simp only [runCalls]
      rw [hrun]
      exact ih w1 (fun x hx => hn x (by simp [hx])) h

/-- **C55**, writing: a client of the old C interface that declares the columns of a table, missing values included, and writes its rows as arrays of doubles
leaves the file that the row writer (C20, C21) leaves; opened for appending, after what the file held. -/
theorem C55_write (env : Env) (lib : OldLib) (hlib : lib.Ok) (cap : Nat) (old : List Byte) (T : UTable) (ms : List (Option Word))
    (hok : ∀ c ∈ T.cols, c.OldOk) (hp : T.props = []) (fs : List (List Byte)) (h : T.writeMiss env .same cap ms = .ok fs) :
    oldWriteFile env lib cap old (T.oldCalls env ms) = .ok (old ++ fs.flatten) := by
  unfold UTable.writeMiss at h
  simp only [bind, Except.bind, pure, Except.pure] at h
  cases h1 : ((Writer.new cap).setSize T.cols.length).declare env 0 (T.cols.zip ms) with
  | error e => rw [h1] at h; simp at h
  | ok w1 =>
    rw [h1] at h
    dsimp only at h
    rw [hp] at h
    have hpr : w1.properties [] = w1 := rfl
    rw [hpr] at h
    cases h2 : w1.writeHeader with
    | error e => rw [h2] at h; simp at h
    | ok w2 =>
      rw [h2] at h
      dsimp only at h
      cases h3 : w2.writeRows env .same (rowsOf (T.cols.map (InCol.data env)) T.rows) with
      | error e => rw [h3] at h; simp at h
      | ok w3 =>
        rw [h3] at h
        dsimp only at h
        cases h4 : w3.close env .same with
        | error e => rw [h4] at h; simp at h
        | ok w4 =>
          rw [h4] at h
          simp only [Except.ok.injEq] at h
          have hd := decls_ok env lib hlib _ _ 0 (T.cols.zip ms) (fun c hc => hok c.1 (List.of_mem_zip hc).1) h1
          have hr := rows_ok env lib w2 w3 T.cols.length _ (by
            intro r hr
            simp only [rowsOf, List.mem_map] at hr
            obtain ⟨k, _, rfl⟩ := hr
            simp [rowAt]) h3
          have hall : runCalls env lib (Writer.new cap) (T.oldCalls env ms) = .ok w3 := by
            unfold UTable.oldCalls
            simp only [runCalls]
            have : (OldCall.columns T.cols.length).run env lib (Writer.new cap) = .ok ((Writer.new cap).setSize T.cols.length) := rfl
            rw [this]
            dsimp only
            rw [runCalls_append, hd]
            dsimp only [runCalls]
            have : OldCall.header.run env lib w1 = .ok w2 := h2
            rw [this]
            exact hr
          unfold oldWriteFile
          rw [hall]
          dsimp only
          rw [h4]
          dsimp only
          rw [h]

end Verif
