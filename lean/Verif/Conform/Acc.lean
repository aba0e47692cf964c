import Verif.Acc.Until

/-!
# The library's own tests of `buffer/accreader.rs`, on the model

Each `example` is one `#[test]` function: the same calls, with the results its assertions ask for.
-/

namespace Verif.Conform
open Verif Verif.Io Verif.Acc

/-- `Cursor::new(…)`: reads as much as there is and never fails. -/
def cursor (l : List U8) : Source := ⟨l, 0, fun _ => ⟨none, 999⟩, 0⟩

/-- `(0u8..).take(n)` -/
def upFrom0 (n : Nat) : List U8 := (List.range n).map (BitVec.ofNat 8)

/-- accreader.rs:221-232: the reads fill the whole of the vector -/
def assertReadAcc (bytes : List U8) (cap : Nat) (ranges : List Nat) : Bool :=
  match Acc.run 99 (withCapacity cap (cursor bytes)) (ranges.map .readExact) with
  | .ok (os, _) => (os.flatMap fun o => match o with | .bytes l => l | _ => []) == bytes
  | .error _ => false

/-- What the calls return. -/
def results (cap : Nat) (bytes : List U8) (ops : List Op) : Option (List Out) :=
  match Acc.run 99 (withCapacity cap (cursor bytes)) ops with
  | .ok (os, _) => some os
  | .error _ => none

/-- same_capacity_full_read, accreader.rs:235-241 -/
example : assertReadAcc (upFrom0 20) 20 [20] = true := by decide +kernel

/-- split_read_1, accreader.rs:244-248 -/
example : assertReadAcc (upFrom0 31) 20 [10, 21] = true := by decide +kernel

/-- split_read_2, accreader.rs:251-255 -/
example : assertReadAcc (upFrom0 31) 20 [3, 28] = true := by decide +kernel

/-- seek_within_capacity, accreader.rs:258-267 -/
example : results 15 (upFrom0 30) [.seek (.current 5), .seek (.current 5), .seek (.current 5)] =
    some [.pos 5, .pos 10, .pos 15] := by decide +kernel

/-- seek_across_capacity, accreader.rs:270-279 -/
example : results 15 (upFrom0 30) [.seek (.current 5), .seek (.current 15), .seek (.start 5)] =
    some [.pos 5, .pos 20, .pos 5] := by decide +kernel

/-- seek_and_read, accreader.rs:282-295: `stream_position` is a seek by 0 -/
example : results 5 (upFrom0 30)
      (.seek (.current 0) :: (List.range 30).flatMap fun _ => [.readExact 1, .seek (.current 0)]) =
    some (.pos 0 :: (List.range 30).flatMap fun i => [.bytes [BitVec.ofNat 8 i], .pos (i + 1)]) := by decide +kernel

/-- `acc.lines()` of std: lines are read with `read_until` until it finds nothing. -/
def linesCount : Nat → Acc → Rust Nat
  | 0, _ => .error .fuel
  | fuel + 1, r => do
    let ((e, l), r) ← readUntil 99 r 10
    match e with
    | some _ => .error .unwrap
    | none => if l.length = 0 then .ok 0 else do return (← linesCount fuel r) + 1

/-- reader_test, accreader.rs:304-311 -/
example : linesCount 99 (withCapacity 20 (cursor
      ("AAAA\nAAAB\nAAACAAADAAAEAAAF\ndabcdEEEE".toList.map fun c => BitVec.ofNat 8 c.toNat))) = .ok 4 := by
  decide +kernel

/-- The bytes `b"…"` of the next test. -/
def ascii (s : String) : List U8 := s.toList.map fun c => BitVec.ofNat 8 c.toNat

/-- grow, accreader.rs:314-328 -/
example : (do
    let (_, r) ← fillBuf (withCapacity 4 (cursor (ascii "abcdefghilmnopqrst")))
    let d1 ← data r
    let r := consume r 2
    let d2 ← data r
    let r := Acc.grow r 4
    let d3 ← data r
    let (_, r) ← fillBuf r
    let d4 ← data r
    return [d1, d2, d3, d4] : Rust (List (List U8))) =
    .ok [ascii "abcd", ascii "cd", ascii "cd", ascii "cdefghil"] := by decide +kernel

end Verif.Conform
