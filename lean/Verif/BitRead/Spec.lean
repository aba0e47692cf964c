import Verif.BitRead.Model

/-!
# Specification of a bit reader: a cursor over the bits of a byte string
-/

namespace Verif.BitRead
open Verif

/-- Bit `i` of the stream: bits of a byte are counted from the least significant one for the
little-endian reader and from the most significant one for the big-endian reader. Positions behind
the buffer hold 0. -/
def bit (e : Endian) (buf : List U8) (i : Nat) : Bool :=
  match e with
  | .le => (buf.getD (i / 8) 0).getLsbD (i % 8)
  | .be => (buf.getD (i / 8) 0).getMsbD (i % 8)

/-- The number formed by the `n` bits from position `p`: the first bit is the least significant one
(little-endian) or the most significant one (big-endian). -/
def valueAt (e : Endian) (buf : List U8) (p : Nat) : Nat → Nat
  | 0 => 0
  | n + 1 =>
    match e with
    | .le => valueAt e buf p n + (bit e buf (p + n)).toNat * 2 ^ n
    | .be => 2 * valueAt e buf p n + (bit e buf (p + n)).toNat

/-- Which bit of the result of an `n`-bit read holds the `j`-th bit read. -/
def resultBit (e : Endian) (n j : Nat) : Nat :=
  match e with
  | .le => j
  | .be => n - 1 - j

/-- First multiple of 8 not below `p`. -/
def alignUp (p : Nat) : Nat := (p + 7) / 8 * 8

/-- Where a call leaves the cursor. -/
def nextPos (p : Nat) : Op → Nat
  | .getBit => p + 1
  | .get32 n | .get64 n | .skip n => p + n
  | .align => alignUp p
  | .peekBit | .peek32 _ | .peek64 _ => p

/-- What a call returns. -/
def specVal (e : Endian) (buf : List U8) (p : Nat) : Op → Option Nat
  | .getBit | .peekBit => some (valueAt e buf p 1)
  | .get32 n | .get64 n | .peek32 n | .peek64 n => some (valueAt e buf p n)
  | .skip _ | .align => none

/-- Results and final position of a history. -/
def specRun (e : Endian) (buf : List U8) (p : Nat) : List Op → List (Option Nat) × Nat
  | [] => ([], p)
  | op :: ops =>
    let (vs, q) := specRun e buf (nextPos p op) ops
    (specVal e buf p op :: vs, q)

/-- Position up to which a call looks at the stream. -/
def reach (p : Nat) : Op → Nat
  | .getBit | .peekBit => p + 1
  | .get32 n | .get64 n | .peek32 n | .peek64 n => p + n
  | .skip n => p + n
  | .align => alignUp p

/-- The requested number of bits fits the result type. -/
def widthOk : Op → Prop
  | .get32 n | .peek32 n => n ≤ 32
  | .get64 n | .peek64 n => n ≤ 64
  | _ => True

instance : DecidablePred widthOk := fun op => by cases op <;> unfold widthOk <;> infer_instance

/-- The history stays inside the data: the buffer without the 8 bytes of padding the reader asks
for ("read buffer, 8-bytes padded"). -/
def within (buf : List U8) (p : Nat) : List Op → Prop
  | [] => True
  | op :: ops => widthOk op ∧ reach p op + 64 ≤ 8 * buf.length ∧
      within buf (nextPos p op) ops

instance instDecWithin (buf : List U8) : (p : Nat) → (ops : List Op) → Decidable (within buf p ops)
  | _, [] => isTrue trivial
  | p, op :: ops =>
    have := instDecWithin buf (nextPos p op) ops
    by unfold within; infer_instance

end Verif.BitRead
