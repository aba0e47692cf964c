import Verif.Bytes.Model

/-!
# Specification side for byte reads and writes

Positional value of a byte string, and the table of all typed accessor pairs.
-/

namespace Verif.Bytes
open Verif

inductive Order | little | big
  deriving DecidableEq, Repr

/-- Value of the first `k` bytes of `buf` in the given byte order:
`Σ byte_i * 256^i` (little) or `Σ byte_i * 256^(k-1-i)` (big). -/
def posValue (o : Order) (k : Nat) (buf : List U8) : Nat :=
  ((List.range k).map fun i =>
    (buf.getD i 0).toNat * 256 ^ (match o with | .little => i | .big => k - 1 - i)).sum

/-- A typed accessor pair of the public API: size in bytes, byte order, getter, setter. -/
structure Accessor where
  name : String
  bytes : Nat
  order : Order
  get : List U8 → Rust (BitVec (8 * bytes))
  put : List U8 → BitVec (8 * bytes) → Rust (List U8)

/-- All `get_*`/`put_*` pairs of `byteread.rs`/`bytewrite.rs`. -/
def accessors : List Accessor := [
  ⟨"u8",  1, .little, get_u8,  put_u8⟩,   ⟨"i8",  1, .little, get_i8,  put_i8⟩,
  ⟨"u16l", 2, .little, get_u16l, put_u16l⟩, ⟨"u16b", 2, .big, get_u16b, put_u16b⟩,
  ⟨"u32l", 4, .little, get_u32l, put_u32l⟩, ⟨"u32b", 4, .big, get_u32b, put_u32b⟩,
  ⟨"u64l", 8, .little, get_u64l, put_u64l⟩, ⟨"u64b", 8, .big, get_u64b, put_u64b⟩,
  ⟨"i16l", 2, .little, get_i16l, put_i16l⟩, ⟨"i16b", 2, .big, get_i16b, put_i16b⟩,
  ⟨"i32l", 4, .little, get_i32l, put_i32l⟩, ⟨"i32b", 4, .big, get_i32b, put_i32b⟩,
  ⟨"i64l", 8, .little, get_i64l, put_i64l⟩, ⟨"i64b", 8, .big, get_i64b, put_i64b⟩,
  ⟨"f32l", 4, .little, get_f32l, put_f32l⟩, ⟨"f32b", 4, .big, get_f32b, put_f32b⟩,
  ⟨"f64l", 8, .little, get_f64l, put_f64l⟩, ⟨"f64b", 8, .big, get_f64b, put_f64b⟩]

end Verif.Bytes
