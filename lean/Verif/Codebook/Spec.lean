import Verif.Codebook.Model
import Verif.BitRead.Spec

/-!
# Specification of prefix codes
-/

namespace Verif.Codebook
open Verif Verif.BitRead

/-- The codeword as a bit string in reading order. -/
def codeBits (m : Mode) (code n : Nat) : List Bool :=
  (List.range n).map fun j => code.testBit (match m with
    | .msb => n - 1 - j
    | .lsb => j)

/-- The `n` bits of the stream from position `p`. -/
def streamBits (e : Endian) (buf : List U8) (p n : Nat) : List Bool :=
  (List.range n).map fun j => bit e buf (p + j)

/-- The reader that reads a codeword's bits in the order of the mode. -/
def endianOf : Mode → Endian
  | .msb => .be
  | .lsb => .le

/-- The entries with a codeword. -/
def used (ds : List (Desc S)) : List (Desc S) := ds.filter fun d => decide (d.bits > 0)

/-- The longest codewords the code can take apart (with 32-bit shifts). Codes are `u32`; the bits of a longer codeword
above these are zeros. -/
def maxLen : Mode → Nat
  | .msb => 41
  | .lsb => 255

/-- Codewords that are not too long, without bits above the length. -/
def WF (m : Mode) (ds : List (Desc S)) : Prop := ∀ d ∈ used ds, d.bits ≤ maxLen m ∧ d.code < 2 ^ d.bits

/-- No codeword is a prefix of another entry's codeword (in particular there are no repetitions). -/
def PrefixFree (m : Mode) (ds : List (Desc S)) : Prop :=
  (used ds).Pairwise fun a b =>
    ¬ codeBits m a.code a.bits <+: codeBits m b.code b.bits ∧
    ¬ codeBits m b.code b.bits <+: codeBits m a.code a.bits

/-- Bound on the number of table entries: a first table of at most 1024 entries and at most one further
table of at most 1024 entries for every code and every 10 bits of it. -/
def tableBound (ds : List (Desc S)) : Nat :=
  1024 + ((used ds).map fun d => 1024 * ((d.bits - 1) / 10)).sum

/-- The codewords. -/
def wordsOf (m : Mode) (ds : List (Desc S)) : List (List Bool) := (used ds).map fun d => codeBits m d.code d.bits

/-- The beginnings of words, without the words themselves, whose length is a multiple of ten: one table each. -/
def heads (ws : List (List Bool)) : List (List Bool) :=
  (ws.flatMap fun w => ((List.range w.length).filter fun n => decide (10 ∣ n)).map fun n => w.take n).eraseDups

/-- The length of the longest rest of a word that starts with `p`. -/
def longestRest (ws : List (List Bool)) (p : List Bool) : Nat :=
  ((ws.filter fun w => decide (p <+: w)).map fun w => w.length - p.length).foldl max 0

/-- The number of entries of all tables: a table is as wide as the longest rest there asks for, ten bits at most. -/
def tableSize (m : Mode) (ds : List (Desc S)) : Nat :=
  ((heads (wordsOf m ds)).map fun p => 2 ^ min 10 (longestRest (wordsOf m ds) p)).sum

/-- Table offsets and symbol indices are stored in 24 bits. -/
def Fits (m : Mode) (ds : List (Desc S)) : Prop := tableSize m ds ≤ 2 ^ 24 ∧ (used ds).length ≤ 2 ^ 24

/-- Iteration visits every entry of the map exactly once. -/
def Order.Valid (ord : Order) : Prop := ∀ path k l, (ord path k l).Perm l

instance (m : Mode) (ds : List (Desc S)) : Decidable (WF m ds) := by unfold WF; infer_instance
instance (m : Mode) (ds : List (Desc S)) : Decidable (PrefixFree m ds) := by
  unfold PrefixFree; infer_instance
instance (m : Mode) (ds : List (Desc S)) : Decidable (Fits m ds) := by unfold Fits; infer_instance

end Verif.Codebook
