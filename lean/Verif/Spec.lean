import Verif.Threads

/-
Small vocabulary for the statements of the properties: what a user of the API does and sees.
Nothing here is used by the model.
-/

namespace Verif

/-- Reading a file of known size with `Reader`, one table per frame, until the end or an exception. -/
def readPlain (env : Env) (bytes : List Byte) : List (List Tbl) × Option Err :=
  readFrames env (File.known bytes) false (-1)

/-- Reading it with aggregation; `limit < 0` means no limit. -/
def readAggregated (env : Env) (bytes : List Byte) (limit : Int) : List (List Tbl) × Option Err :=
  readFrames env (File.known bytes) true limit

/-- Decoding columns of a freshly read frame with one thread. -/
def decodeFrame (bytes : List Byte) (fr : List Tbl) (req : List (Str × Target)) : Except Err (List (Nat → Cell)) :=
  (frameDecode (File.known bytes) (fr.map (fun t => (t, Lookup.empty))) req).2

/-- Decoding one column. -/
def decodeCol (bytes : List Byte) (fr : List Tbl) (nm : Str) (tg : Target) : Except Err (Nat → Cell) :=
  match decodeFrame bytes fr [(nm, tg)] with
  | .ok (m :: _) => .ok m
  | .ok [] => .error .ub
  | .error e => .error e

/-- A target of `n` elements of `e` words each, whatever its initial content. -/
structure Target.Fits (tg : Target) (n e : Nat) : Prop where
  rows : n ≤ tg.nelem
  elem : e ≤ tg.elem
  mem : ∀ r, (tg.mem r).length = tg.elem

/-- The integer a decoded word stands for. -/
def wordInt (asDbl : Bool) (w : Word) : Int := if asDbl then fval w / one64 else w.toInt

/-! ### A concrete environment and table for the examples -/

/-- An environment: integers as `int64_t`, and a (bad but legal) digest function. -/
def sampleEnv : Env := ⟨false, false, fun bs => List.replicate 31 0x30 ++ [BitVec.ofNat 8 bs.length], lit "1.0"⟩

theorem sampleEnv_md5 : sampleEnv.Md5Ok := fun x => by simp [sampleEnv]

/-- Three rows: an integer with a missing value, a double, a real with a missing value, a string of up to
16 bytes, a bitfield. -/
def sampleTable : UTable :=
  { rows := 3
    props := [(lit "a", lit "b")]
    cols := [
      ⟨lit "i@t", .ints [5, 2147483647, -7]⟩,
      ⟨lit "d@t", .doubles [0x3ff0000000000000, 0x4000000000000000, 0x7ff0000000000000]⟩,
      ⟨lit "r@t", .reals [0x3ff8000000000000, ofInt (-2147483647), 0x3fb999999999999a]⟩,
      ⟨lit "s@t", .strings 2 [lit "x", lit "longer string", []]⟩,
      ⟨lit "b@t", .bits [(lit "lo", 2), (lit "hi", 3)] [31, 0, 1]⟩ ] }

end Verif
