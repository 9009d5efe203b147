import Verif.PropOldFile
import Verif.DispatchName
import Verif.SampleFile

/-
Samples for the old C interface.
-/

namespace Verif

/-- Sample: a library that reads decimal digits. -/
def sampleOldLib : OldLib := ⟨fun s => ((s.foldl (fun a b => a * 10 + (b.toNat - 48)) 0 : Nat) : Int)⟩

theorem parse_digits (n : Nat) : (digits n).foldl (fun a b => a * 10 + (b.toNat - 48)) 0 = n := by
  induction n using Nat.strongRecOn with
  | ind n ih =>
    rw [digits]
    split
    · rename_i h
      simp only [List.foldl_cons, List.foldl_nil, BitVec.toNat_ofNat]
      rw [Nat.mod_eq_of_lt (by omega)]
      omega
    · rename_i h
      rw [List.foldl_append, ih (n / 10) (by omega)]
      simp only [List.foldl_cons, List.foldl_nil, BitVec.toNat_ofNat]
      rw [Nat.mod_eq_of_lt (by omega)]
      omega

theorem sampleOldLib_ok : sampleOldLib.Ok := fun n _ => congrArg Nat.cast (parse_digits n)

/-- Sample: `sampleTable` without properties. -/
def plainTable : UTable := { sampleTable with props := [] }

theorem plainTable_old : OldTable sampleEnv 2 plainTable where
  pos := by decide
  ok :=
    { few := sampleTable_rowsOk.few, names := sampleTable_rowsOk.names, named := sampleTable_rowsOk.named, rows := sampleTable_rowsOk.rows
      lens := sampleTable_rowsOk.lens, props := List.Pairwise.nil, nprops := by decide, plen := by simp [plainTable]
      big := sampleTable_rowsOk.big, vals := sampleTable_rowsOk.vals }
  old := by
    intro c hc
    simp only [plainTable, sampleTable, List.mem_cons, List.not_mem_nil, or_false] at hc
    rcases hc with rfl | rfl | rfl | rfl | rfl <;> refine ⟨by decide +kernel, ?_⟩
    all_goals
      intro m hm
      simp only [Vals.members, List.mem_cons, List.not_mem_nil, or_false] at hm
    rcases hm with rfl | rfl <;> exact ⟨by decide +kernel, by decide +kernel, by decide, by decide⟩
  props := rfl

/-- Sample: the file of two sessions, or nothing. -/
def oldFile (ss : List (Nat × UTable)) : List Byte :=
  match oldSessions sampleEnv sampleOldLib ss [] with
  | .ok b => b
  | .error _ => []

/-- Sample: what a client reads that takes an array of `n` doubles (or of the size it is told) and calls `k` times. -/
def oldSeen (bytes : List Byte) (count : Nat) (k : Nat) (n? : Option Nat) : Except Err (List (Int × Option Bool × List Word)) :=
  match oldOpen sampleEnv (fun _ _ _ => 0) bytes with
  | .error e => .error e
  | .ok it => (fetchRows sampleEnv (fun _ _ _ => 0) count k it (List.replicate (n?.getD it.oldRowSize) 7)).map
      (fun os => os.map (fun o => (o.rc, o.fresh, o.data)))

/-- Sample: strings of different lengths in a column of two doubles. -/
def growingTable : UTable := { rows := 2, props := [], cols := [⟨lit "s", .strings 2 [lit "ab", lit "longer string"]⟩] }

/-- The hypotheses of `C55_old_api` are met by two sessions with five columns of all types. -/
example := C55_old_api sampleEnv sampleEnv_md5 sampleOldLib sampleOldLib_ok 5 (by decide) [(2, plainTable), (2, plainTable)] (by
  intro s hs
  simp only [List.mem_cons, List.not_mem_nil, or_false] at hs
  rcases hs with rfl | rfl <;> exact ⟨plainTable_old, by decide +kernel⟩)

/-- Three rows of each session, with the doubles of the client's array behind the row as they were; then 1 for ever. -/
theorem old_sample : (oldSeen (oldFile [(2, plainTable), (2, plainTable)]) 5 8 (some 7)).toOption = some
    [(0, some false, [5, 0x3ff0000000000000, 0x3ff8000000000000, 0x78, 0, 31, 7]),
     (0, some false, [2147483647, 0x4000000000000000, 0xc1dfffffffc00000, 0x73207265676e6f6c, 0x676e697274, 0, 7]),
     (0, some true, [0xfffffffffffffff9, 0x7ff0000000000000, 0x3fb999999999999a, 0, 1, 0, 7]),
     (0, some true, [5, 0x3ff0000000000000, 0x3ff8000000000000, 0x78, 0, 31, 7]),
     (0, some false, [2147483647, 0x4000000000000000, 0xc1dfffffffc00000, 0x73207265676e6f6c, 0x676e697274, 0, 7]),
     (0, some true, [0xfffffffffffffff9, 0x7ff0000000000000, 0x3fb999999999999a, 0, 1, 0, 7]),
     (1, none, [0xfffffffffffffff9, 0x7ff0000000000000, 0x3fb999999999999a, 0, 1, 0, 7]),
     (1, none, [0xfffffffffffffff9, 0x7ff0000000000000, 0x3fb999999999999a, 0, 1, 0, 7])] := by decide +kernel

/-- Six rows, in four blocks. -/
theorem old_sample_count : (odbCount sampleEnv (oldFile [(2, plainTable), (2, plainTable)])).toOption = some (ofInt 6) := by decide +kernel

theorem old_sample_blocks : (blocksOffsets sampleEnv (oldFile [(2, plainTable), (2, plainTable)])).toOption =
    some [(0, 473), (473, 398), (871, 473), (1344, 398)] := by decide +kernel

/-- Sample: is this undefined behaviour? -/
def isUb {α : Type} : Except Err α → Bool
  | .error .ub => true
  | _ => false

/-- **C55 is violated** when the array has the size the interface itself gives after the file has been opened: the second table needs two doubles for its
string, the first one only one; the row is copied before the client can ask again. -/
theorem C55_violated_buffer : isUb (oldSeen (oldFile [(1, growingTable)]) 1 2 none) = true ∧
    (oldSeen (oldFile [(1, growingTable)]) 1 3 (some 2)).toOption = some [(0, some false, [0x6261, 7]), (0, some true, [0x73207265676e6f6c, 0x676e697274]),
      (1, none, [0x73207265676e6f6c, 0x676e697274])] := by
  constructor <;> decide +kernel

/-- **C55 is violated** by `odb_read_iterator_get_missing_value`: the check of the index lets the number of columns pass, and the vector of columns is read
behind its end. -/
theorem C55_violated_index (it : RowIt) : it.oldMissing it.cols.length = .error .ub := by
  unfold RowIt.oldMissing
  rw [if_neg (by omega)]
  simp [RowIt.oldColumn]

/-- **C55 is violated** by a table without rows: the file is empty, the columns that were declared are in no file. -/
theorem C55_violated_empty (env : Env) (hmd5 : env.Md5Ok) (lib : OldLib) (hlib : lib.Ok) (cap : Nat) (T : UTable) (hT : OldTable env cap T) (h0 : T.rows = 0) :
    oldSessions env lib [(cap, T)] [] = .ok [] := by
  obtain ⟨Fs, h1, h2⟩ := session_frames env hmd5 lib hlib cap T hT []
  have hn := h2.count
  rw [h0, Nat.zero_add, Nat.div_eq_of_lt (by have := hT.pos; omega)] at hn
  have : Fs = [] := List.length_eq_zero_iff.mp hn
  subst this
  simp only [oldSessions, h1]
  rfl

/-- The hypotheses of `C55_blocks` are met by a file with three tables: three blocks. -/
example : ∃ (bytes : List Byte) (l : List (Int × Int)) (bs : List (List Byte)), blocksOffsets sampleEnv bytes = .ok l ∧ Cuts 0 bytes l bs ∧ bs.length = 3 := by
  obtain ⟨bytes, fs, h1, h2, h3, _⟩ := sampleFile
  obtain ⟨l, bs, e1, e2, e3⟩ := C55_blocks sampleEnv bytes fs h1 h3
  exact ⟨bytes, l, bs, e1, e2, by rw [← e3.length, h2]⟩

/-- A column without rows meets the hypotheses of `C55_violated_empty`. -/
example := C55_violated_empty sampleEnv sampleEnv_md5 sampleOldLib sampleOldLib_ok 10 { rows := 0, props := [], cols := [⟨lit "i", .ints []⟩] }
  { pos := by decide, props := rfl
    old := by
      intro c hc
      simp only [List.mem_singleton] at hc
      subst hc
      exact ⟨by decide +kernel, by simp [Vals.members]⟩
    ok :=
      { few := by decide, names := by simp
        named := by
          intro c hc
          simp only [List.mem_singleton] at hc
          subst hc
          decide +kernel
        rows := by
          intro c hc
          simp only [List.mem_singleton] at hc
          subst hc
          rfl
        lens := by
          intro c hc
          simp only [List.mem_singleton] at hc
          subst hc
          exact ⟨by decide +kernel, by decide +kernel, by simp [Vals.members]⟩
        props := List.Pairwise.nil, nprops := by decide, plen := by simp, big := by decide
        vals := by intro k hk; simp at hk } } rfl

end Verif
