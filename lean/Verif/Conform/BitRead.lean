import Verif.BitRead.Model

/-!
# The library's own tests of `bitread.rs`, on the model

Each `example` is one `#[test]` function: the same calls, with the results its assertions ask for.
-/

namespace Verif.Conform
open Verif Verif.BitRead

/-- bitread.rs:327 -/
def checkboard0101 : List U8 := List.replicate 128 0b01010101
/-- bitread.rs:328 -/
def checkboard0011 : List U8 := List.replicate 128 0b00110011

/-- What a history on a new reader returns. -/
def bits (e : Endian) (buf : List U8) (ops : List Op) : Rust (List (Option Nat)) := do
  return (← run e (← new e buf) ops).1

/-- The reader made by hand in bitread.rs:376-381 and 393-398. -/
def unfilled : Reader := { buffer := checkboard0101, index := 0, cache := 0, left := 0 }

/-- le::get_bit, bitread.rs:334-340 -/
example : bits .le checkboard0101 [.getBit, .getBit] = .ok [some 1, some 0] := by decide +kernel

/-- le::get_bits_64, bitread.rs:343-354 -/
example : bits .le checkboard0101 [.get64 1, .get64 2, .get64 4, .get64 1, .get64 8, .get64 32, .get64 64] =
    .ok [some 1, some 2, some 10, some 0, some 85, some 1431655765, some 6148914691236517205] := by decide +kernel

/-- le::get_bits_64_double, bitread.rs:357-371 -/
example : bits .le checkboard0101 [.get64 64, .get64 64] = .ok [some 6148914691236517205, some 6148914691236517205] ∧
    bits .le checkboard0101 [.get64 32, .get64 32, .get64 32, .get64 32] =
      .ok [some 1431655765, some 1431655765, some 1431655765, some 1431655765] := by decide +kernel

/-- le::peek_bits_64, bitread.rs:374-388 -/
example : (run .le unfilled [.peek64 1, .peek64 1, .peek64 2, .peek64 2, .peek64 32, .peek64 64]).map (·.1) =
    .ok [some 1, some 1, some 1, some 1, some 1431655765, some 6148914691236517205] := by decide +kernel

/-- le::get_bits_32, bitread.rs:391-409 -/
example : (run .le unfilled
      ([.get32 1, .get32 2, .get32 4, .get32 1, .get32 8, .get32 1] ++ List.replicate 8 (.get32 8))).map (·.1) =
    .ok ([some 1, some 2, some 10, some 0, some 85, some 1] ++ List.replicate 8 (some 170)) := by decide +kernel

/-- le::peek_bits_32, bitread.rs:412-420 -/
example : bits .le checkboard0101 [.peek32 1, .peek32 1, .peek32 2, .peek32 2] =
    .ok [some 1, some 1, some 1, some 1] := by decide +kernel

/-- le::skip_bits, bitread.rs:423-433 -/
example : bits .le checkboard0101 [.skip 0, .peek32 1, .skip 2, .peek32 1, .skip 2, .peek32 1] =
    .ok [none, some 1, none, some 1, none, some 1] := by decide +kernel

/-- le::align_bits, bitread.rs:436-447 -/
example : bits .le checkboard0011 [.align, .get64 3, .align, .get64 4, .skip 1, .align, .get64 4] =
    .ok [none, some 3, none, some 3, none, none, some 3] := by decide +kernel

/-- le::overread, bitread.rs:450-456: returns at all -/
example : (bits .le checkboard0011 [.skip (128 * 8 + 2), .get64 6]).isOk = true := by decide +kernel

/-- be::get_bit, bitread.rs:463-469 -/
example : bits .be checkboard0101 [.getBit, .getBit] = .ok [some 0, some 1] := by decide +kernel

/-- be::get_bits_64, bitread.rs:472-483 -/
example : bits .be checkboard0101 [.get64 1, .get64 2, .get64 4, .get64 1, .get64 8, .get64 32, .get64 64] =
    .ok [some 0, some 2, some 10, some 1, some 85, some 1431655765, some 6148914691236517205] := by decide +kernel

/-- be::get_bits_64_double, bitread.rs:486-500 -/
example : bits .be checkboard0101 [.get64 64, .get64 64] = .ok [some 6148914691236517205, some 6148914691236517205] ∧
    bits .be checkboard0101 [.get64 32, .get64 32, .get64 32, .get64 32] =
      .ok [some 1431655765, some 1431655765, some 1431655765, some 1431655765] := by decide +kernel

/-- be::peek_bits_64, bitread.rs:503-513 -/
example : bits .be checkboard0101 [.peek64 1, .peek64 1, .peek64 2, .peek64 2, .peek64 32, .peek64 64] =
    .ok [some 0, some 0, some 1, some 1, some 1431655765, some 6148914691236517205] := by decide +kernel

/-- be::get_bits_32, bitread.rs:516-530 -/
example : bits .be checkboard0101
      ([.get32 1, .get32 2, .get32 4, .get32 1, .get32 8, .get32 1] ++ List.replicate 8 (.get32 8)) =
    .ok ([some 0, some 2, some 10, some 1, some 85, some 0] ++ List.replicate 8 (some 170)) := by decide +kernel

/-- be::peek_bits_32, bitread.rs:533-541 -/
example : bits .be checkboard0101 [.peek32 1, .peek32 1, .peek32 2, .peek32 2] =
    .ok [some 0, some 0, some 1, some 1] := by decide +kernel

/-- be::skip_bits, bitread.rs:544-554 -/
example : bits .be checkboard0101 [.skip 0, .peek32 1, .skip 2, .peek32 1, .skip 2, .peek32 1] =
    .ok [none, some 0, none, some 0, none, some 0] := by decide +kernel

/-- be::align_bits, bitread.rs:557-568 -/
example : bits .be checkboard0011 [.align, .get64 3, .align, .get64 4, .skip 1, .align, .get64 4] =
    .ok [none, some 1, none, some 3, none, none, some 3] := by decide +kernel

/-- be::overread, bitread.rs:571-577: returns at all -/
example : (bits .be checkboard0011 [.skip (128 * 8 + 2), .get64 6]).isOk = true := by decide +kernel

/-- One round of the loop of /repo/benches/bitstream.rs:11-24. -/
def benchRound : List Op :=
  [.skip 1, .get32 1, .skip 3, .get32 3, .skip 5, .get32 5, .skip 7, .get32 7, .skip 11, .get32 11, .peek32 10, .skip 10]

/-- The numbers of bits available before the rounds of that loop (`while reader.available() > 0`). -/
def benchLoop : Nat → Reader → Rust (List Nat)
  | 0, _ => .error .fuel
  | fuel + 1, r => do
    let a ← available r
    if a > 0 then do
      let (_, r) ← run .le r benchRound
      return a :: (← benchLoop fuel r)
    else return []

/-- /repo/benches/bitstream.rs:4-24: each round consumes 64 bits, and the loop ends. -/
example : (do benchLoop 9 (← new .le (List.replicate 16 0b01010101))) = .ok [128, 64] := by decide +kernel

end Verif.Conform
