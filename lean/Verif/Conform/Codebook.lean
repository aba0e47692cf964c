import Verif.Codebook.Overlap

/-!
# The library's own tests of `codebook.rs`, on the model

Each `example` is one `#[test]` function: the same calls, with the results its assertions ask for.
-/

namespace Verif.Conform
open Verif Verif.BitRead Verif.Codebook

/-- codebook.rs:515 -/
def BITS : List U8 := [0b01011011, 0b10111100, 0b11111111, 0, 0, 0, 0, 0]

/-- `n` calls of `read_cb`. -/
def reads (e : Endian) (cb : Codebook S) : Nat → Reader → Rust (List (Except CodebookError S))
  | 0, _ => .ok []
  | n + 1, r => do
    let (x, r) ← readCb e 30 cb r
    return x :: (← reads e cb n r)

/-- A book from a description (`unwrap` of the result), and `n` symbols read with it from the start of a buffer. -/
def decoded (m : Mode) (e : Endian) (ds : List (Desc S)) (buf : List U8) (n : Nat) :
    Rust (List (Except CodebookError S)) := do
  match ← Codebook.new (fun _ _ l => l) m ds with
  | .error _ => .error .unwrap
  | .ok cb => reads e cb n (← BitRead.new e buf)

/-- Whether `n` symbols can be read and are these. -/
def decodesTo [BEq S] (m : Mode) (e : Endian) (ds : List (Desc S)) (buf : List U8) (xs : List (Option S)) : Bool :=
  match decoded m e ds buf xs.length with
  | .ok l => l.map (fun x => match x with | .ok s => some s | .error _ => none) == xs
  | .error _ => false

/-- test_refill_codebook_msb, codebook.rs:518-567 -/
example : decodesTo .msb .be (shortDescs [(0b11111, 5), (0b00000, 5)])
    [0b11111000, 0b00111110, 0b00001111, 0b10000011, 0b11100000, 0b11111000, 0b00111110, 0b00001111, 0b10000000,
      0, 0, 0, 0, 0, 0, 0]
    [some 0, some 1, some 0, some 1, some 0, some 1, some 0, some 1, some 0, some 1, some 0, some 1, some 0, some 1] =
    true := by decide +kernel

/-- test_full_codebook_msb, codebook.rs:570-607 -/
example : decodesTo (S := Int) .msb .be [⟨0b0, 1, 16⟩, ⟨0b10, 2, -3⟩, ⟨0b110, 3, 42⟩, ⟨0b1110, 4, -42⟩] BITS
    [some 16, some (-3), some 42, some (-42), none] = true := by decide +kernel

/-- The last result there is `InvalidCode`. -/
example : (match decoded (S := Int) .msb .be [⟨0b0, 1, 16⟩, ⟨0b10, 2, -3⟩, ⟨0b110, 3, 42⟩, ⟨0b1110, 4, -42⟩] BITS 5 with
    | .ok l => match l.getLast? with | some (.error .invalidCode) => true | _ => false
    | .error _ => false) = true := by decide +kernel

/-- test_short_codebook_msb, codebook.rs:610-662 -/
example : decodesTo .msb .be
    (shortDescs [(0b0, 1), (0, 0), (0b10, 2), (0, 0), (0, 0), (0b110, 3), (0, 0), (0b11100, 5), (0b11101, 5),
      (0b1111010, 7), (0b1111011, 7), (0b1111110, 7), (0b11111111, 8)])
    BITS [some 0, some 2, some 5, some 8] = true := by decide +kernel

/-- … codebook.rs:658-661 -/
example : reverse_bits 0b00000101101110111101111101111111 = .ok 0b11111110111110111101110110100000 := by decide +kernel

/-- The book of test_short_codebook_lsb, codebook.rs:667-699 -/
def lsbDescs : List (Desc Nat) :=
  shortDescs [(0b00, 2), (0, 0), (0b01, 2), (0, 0), (0, 0), (0b011, 3), (0, 0), (0b10111, 5), (0b00111, 5),
    (0b0101111, 7), (0b0111111, 7), (0b1011101111, 10)]

theorem decodesTo_of_new [BEq S] {m : Mode} {e : Endian} {ds : List (Desc S)} {buf : List U8} {xs : List (Option S)}
    {cb : Codebook S} (h : Codebook.new (fun _ _ l => l) m ds = .ok (.ok cb))
    (hx : (match (do reads e cb xs.length (← BitRead.new e buf)) with
      | .ok l => l.map (fun x => match x with | .ok s => some s | .error _ => none) == xs
      | .error _ => false) = true) : decodesTo m e ds buf xs = true := by
  unfold decodesTo decoded
  rw [h]
  exact hx

/-- test_short_codebook_lsb, codebook.rs:665-712 (the table by `newShort_table`, which saves the kernel 1024 stores) -/
example : decodesTo .lsb .le lsbDescs [0b11101111, 0b01110010, 0b01, 0, 0, 0, 0, 0]
    [some 11, some 0, some 7, some 0] = true :=
  decodesTo_of_new (newShort_table (by decide) (by decide) (by decide) (by decide) _ fun _ _ _ => List.Perm.refl _)
    (by decide +kernel)

end Verif.Conform
