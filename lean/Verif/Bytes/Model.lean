import Verif.Prelude

/-!
# Model of `bitstream/src/byteread.rs` and `bitstream/src/bytewrite.rs`

Signed integers and floats are represented by their bit patterns: the Rust casts `as i16` etc. and
`f32::from_bits`/`to_le_bytes` do not change bits. `BitVec.toInt` is the two's-complement value.
-/

namespace Verif.Bytes
open Verif

/-! ### `std` conversions -/

/-- `uN::from_le_bytes`: byte 0 ends up in the low bits (byteread.rs:26, 43, 62). -/
def fromLe (w : Nat) : List U8 → BitVec w
  | [] => 0
  | b :: bs => (fromLe w bs <<< 8) ||| b.setWidth w

/-- `uN::from_be_bytes`: byte 0 ends up in the high bits (byteread.rs:34, 51, 72). -/
def fromBe (w : Nat) (bs : List U8) : BitVec w :=
  bs.foldl (fun acc b => (acc <<< 8) ||| b.setWidth w) 0

/-- `uN::to_le_bytes` for a `k`-byte integer (bytewrite.rs:5). -/
def toLe (k : Nat) (x : BitVec w) : List U8 :=
  (List.range k).map fun i => (x >>> (8 * i)).setWidth 8

/-- `uN::to_be_bytes` for a `k`-byte integer (bytewrite.rs:12). -/
def toBe (k : Nat) (x : BitVec w) : List U8 :=
  (List.range k).map fun i => (x >>> (8 * (k - 1 - i))).setWidth 8

/-! ### byteread.rs -/

/-- byteread.rs:8-11 -/
def get_u8 (buf : List U8) : Rust (BitVec 8) := do
  rassert (!buf.isEmpty)
  idx buf 0

/-- byteread.rs:15-18 (`as i8` keeps the bits) -/
def get_i8 (buf : List U8) : Rust (BitVec 8) := do
  rassert (!buf.isEmpty)
  idx buf 0

/-- byteread.rs:23-27 -/
def get_u16l (buf : List U8) : Rust (BitVec 16) := do
  rassert (buf.length > 1)
  let data := [← idx buf 0, ← idx buf 1]
  return fromLe 16 data

/-- byteread.rs:31-35 -/
def get_u16b (buf : List U8) : Rust (BitVec 16) := do
  rassert (buf.length > 1)
  let data := [← idx buf 0, ← idx buf 1]
  return fromBe 16 data

/-- byteread.rs:40-44 -/
def get_u32l (buf : List U8) : Rust (BitVec 32) := do
  rassert (buf.length > 3)
  let data := [← idx buf 0, ← idx buf 1, ← idx buf 2, ← idx buf 3]
  return fromLe 32 data

/-- byteread.rs:48-52 -/
def get_u32b (buf : List U8) : Rust (BitVec 32) := do
  rassert (buf.length > 3)
  let data := [← idx buf 0, ← idx buf 1, ← idx buf 2, ← idx buf 3]
  return fromBe 32 data

/-- byteread.rs:57-63 -/
def get_u64l (buf : List U8) : Rust (BitVec 64) := do
  rassert (buf.length > 7)
  let data := [← idx buf 0, ← idx buf 1, ← idx buf 2, ← idx buf 3,
               ← idx buf 4, ← idx buf 5, ← idx buf 6, ← idx buf 7]
  return fromLe 64 data

/-- byteread.rs:67-73 -/
def get_u64b (buf : List U8) : Rust (BitVec 64) := do
  rassert (buf.length > 7)
  let data := [← idx buf 0, ← idx buf 1, ← idx buf 2, ← idx buf 3,
               ← idx buf 4, ← idx buf 5, ← idx buf 6, ← idx buf 7]
  return fromBe 64 data

/-- byteread.rs:78-80 -/
def get_i16l (buf : List U8) : Rust (BitVec 16) := get_u16l buf
/-- byteread.rs:85-87 -/
def get_i16b (buf : List U8) : Rust (BitVec 16) := get_u16b buf
/-- byteread.rs:92-94 -/
def get_i32l (buf : List U8) : Rust (BitVec 32) := get_u32l buf
/-- byteread.rs:99-101 -/
def get_i32b (buf : List U8) : Rust (BitVec 32) := get_u32b buf
/-- byteread.rs:106-108 -/
def get_i64l (buf : List U8) : Rust (BitVec 64) := get_u64l buf
/-- byteread.rs:113-115 -/
def get_i64b (buf : List U8) : Rust (BitVec 64) := get_u64b buf
/-- byteread.rs:120-122 (bits of the `f32`) -/
def get_f32l (buf : List U8) : Rust (BitVec 32) := get_u32l buf
/-- byteread.rs:127-129 (bits of the `f32`) -/
def get_f32b (buf : List U8) : Rust (BitVec 32) := get_u32b buf
/-- byteread.rs:134-136 (bits of the `f64`) -/
def get_f64l (buf : List U8) : Rust (BitVec 64) := get_u64l buf
/-- byteread.rs:141-143 (bits of the `f64`) -/
def get_f64b (buf : List U8) : Rust (BitVec 64) := get_u64b buf

/-! ### bytewrite.rs -/

/-- `$buf[..bytes.len()].copy_from_slice(&bytes)` (bytewrite.rs:6, 13) -/
def copyToStart (buf bytes : List U8) : Rust (List U8) :=
  if bytes.length ≤ buf.length then .ok (bytes ++ buf.drop bytes.length) else .error .slice

/-- bytewrite.rs:3-8 macro `write_bytes_le!` for a `k`-byte type -/
def write_bytes_le (k : Nat) (buf : List U8) (n : BitVec w) : Rust (List U8) :=
  copyToStart buf (toLe k n)

/-- bytewrite.rs:10-15 macro `write_bytes_be!` for a `k`-byte type -/
def write_bytes_be (k : Nat) (buf : List U8) (n : BitVec w) : Rust (List U8) :=
  copyToStart buf (toBe k n)

/-- `buf[0] = n` (bytewrite.rs:20, 27) -/
def setFirst (buf : List U8) (n : U8) : Rust (List U8) :=
  match buf with
  | [] => .error .index
  | _ :: t => .ok (n :: t)

/-- bytewrite.rs:19-21 -/
def put_u8 (buf : List U8) (n : BitVec 8) : Rust (List U8) := setFirst buf n
/-- bytewrite.rs:26-28 -/
def put_i8 (buf : List U8) (n : BitVec 8) : Rust (List U8) := setFirst buf n
/-- bytewrite.rs:32-34 -/
def put_u16l (buf : List U8) (n : BitVec 16) : Rust (List U8) := write_bytes_le 2 buf n
/-- bytewrite.rs:38-40 -/
def put_u16b (buf : List U8) (n : BitVec 16) : Rust (List U8) := write_bytes_be 2 buf n
/-- bytewrite.rs:44-46 -/
def put_u32l (buf : List U8) (n : BitVec 32) : Rust (List U8) := write_bytes_le 4 buf n
/-- bytewrite.rs:50-52 -/
def put_u32b (buf : List U8) (n : BitVec 32) : Rust (List U8) := write_bytes_be 4 buf n
/-- bytewrite.rs:56-58 -/
def put_u64l (buf : List U8) (n : BitVec 64) : Rust (List U8) := write_bytes_le 8 buf n
/-- bytewrite.rs:62-64 -/
def put_u64b (buf : List U8) (n : BitVec 64) : Rust (List U8) := write_bytes_be 8 buf n
/-- bytewrite.rs:69-71 -/
def put_i16l (buf : List U8) (n : BitVec 16) : Rust (List U8) := put_u16l buf n
/-- bytewrite.rs:76-78 -/
def put_i16b (buf : List U8) (n : BitVec 16) : Rust (List U8) := put_u16b buf n
/-- bytewrite.rs:83-85 -/
def put_i32l (buf : List U8) (n : BitVec 32) : Rust (List U8) := put_u32l buf n
/-- bytewrite.rs:90-92 -/
def put_i32b (buf : List U8) (n : BitVec 32) : Rust (List U8) := put_u32b buf n
/-- bytewrite.rs:97-99 -/
def put_i64l (buf : List U8) (n : BitVec 64) : Rust (List U8) := put_u64l buf n
/-- bytewrite.rs:104-106 -/
def put_i64b (buf : List U8) (n : BitVec 64) : Rust (List U8) := put_u64b buf n
/-- bytewrite.rs:111-113 -/
def put_f32l (buf : List U8) (n : BitVec 32) : Rust (List U8) := write_bytes_le 4 buf n
/-- bytewrite.rs:118-120 -/
def put_f32b (buf : List U8) (n : BitVec 32) : Rust (List U8) := write_bytes_be 4 buf n
/-- bytewrite.rs:125-127 -/
def put_f64l (buf : List U8) (n : BitVec 64) : Rust (List U8) := write_bytes_le 8 buf n
/-- bytewrite.rs:132-134 -/
def put_f64b (buf : List U8) (n : BitVec 64) : Rust (List U8) := write_bytes_be 8 buf n

end Verif.Bytes
