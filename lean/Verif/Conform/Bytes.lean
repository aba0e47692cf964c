import Verif.Bytes.Model
import Verif.ByteIo.Model

/-!
# The library's own tests of `bytewrite.rs` and `io/byteread.rs`, on the model

Each `example` is one `#[test]` function: the same calls, with the results its assertions ask for. The tests of floats
ask for values close to those written; here they are equal.
-/

namespace Verif.Conform
open Verif Verif.Io

/-- A write into `&mut buf[k..]`, after which the value is read from there. -/
def putGet (put : List U8 → BitVec w → Rust (List U8)) (get : List U8 → Rust (BitVec w)) (buf : List U8)
    (k : Nat) (v : BitVec w) : Rust (Bool × List U8) := do
  let l ← put (← sliceFrom buf k) v
  let buf := buf.take k ++ l
  return ((← get (← sliceFrom buf k)) == v, buf)

/-- bytewrite.rs:143-254: three values written side by side, each read back after its write -/
def putGet3 (size : Nat) (put : List U8 → BitVec w → Rust (List U8)) (get : List U8 → Rust (BitVec w))
    (a b c : BitVec w) : Rust Bool := do
  let buf := List.replicate (3 * size) 0
  let (x, buf) ← putGet put get buf 0 a
  let (y, buf) ← putGet put get buf (1 * size) b
  let (z, _) ← putGet put get buf (2 * size) c
  return x && y && z

open Verif.Bytes

/-- put_and_get_u8, bytewrite.rs:144-154 -/
example : putGet3 1 put_u8 get_u8 1 2 255 = .ok true := by decide +kernel

/-- put_and_get_i8, bytewrite.rs:157-167 -/
example : putGet3 1 put_i8 get_i8 1 2 (-128) = .ok true := by decide +kernel

/-- put_and_get_u16_be, bytewrite.rs:173-187 -/
example : putGet3 2 put_u16b get_u16b 1 2 255 = .ok true := by decide +kernel
/-- put_and_get_u16_l, bytewrite.rs:189-203 -/
example : putGet3 2 put_u16l get_u16l 1 2 255 = .ok true := by decide +kernel

/-- put_and_get_i16_be, bytewrite.rs:173-187 -/
example : putGet3 2 put_i16b get_i16b 1 2 255 = .ok true := by decide +kernel
/-- put_and_get_i16_l, bytewrite.rs:189-203 -/
example : putGet3 2 put_i16l get_i16l 1 2 255 = .ok true := by decide +kernel

/-- put_and_get_u32_be, bytewrite.rs:173-187 -/
example : putGet3 4 put_u32b get_u32b 1 2 255 = .ok true := by decide +kernel
/-- put_and_get_u32_l, bytewrite.rs:189-203 -/
example : putGet3 4 put_u32l get_u32l 1 2 255 = .ok true := by decide +kernel

/-- put_and_get_i32_be, bytewrite.rs:173-187 -/
example : putGet3 4 put_i32b get_i32b 1 2 255 = .ok true := by decide +kernel
/-- put_and_get_i32_l, bytewrite.rs:189-203 -/
example : putGet3 4 put_i32l get_i32l 1 2 255 = .ok true := by decide +kernel

/-- put_and_get_u64_be, bytewrite.rs:173-187 -/
example : putGet3 8 put_u64b get_u64b 1 2 255 = .ok true := by decide +kernel
/-- put_and_get_u64_l, bytewrite.rs:189-203 -/
example : putGet3 8 put_u64l get_u64l 1 2 255 = .ok true := by decide +kernel

/-- put_and_get_i64_be, bytewrite.rs:173-187 -/
example : putGet3 8 put_i64b get_i64b 1 2 255 = .ok true := by decide +kernel
/-- put_and_get_i64_l, bytewrite.rs:189-203 -/
example : putGet3 8 put_i64l get_i64l 1 2 255 = .ok true := by decide +kernel

/-- put_and_get_f32_be, bytewrite.rs:211-225 -/
example : putGet3 4 put_f32b get_f32b 0x3f800000 0x40000000 0x437f0000 = .ok true := by decide +kernel
/-- put_and_get_f32_l, bytewrite.rs:228-242 -/
example : putGet3 4 put_f32l get_f32l 0x3f800000 0x40000000 0x437f0000 = .ok true := by decide +kernel

/-- put_and_get_f64_be, bytewrite.rs:211-225 -/
example : putGet3 8 put_f64b get_f64b 0x3ff0000000000000 0x4000000000000000 0x406fe00000000000 = .ok true := by decide +kernel
/-- put_and_get_f64_l, bytewrite.rs:228-242 -/
example : putGet3 8 put_f64l get_f64l 0x3ff0000000000000 0x4000000000000000 0x406fe00000000000 = .ok true := by decide +kernel

/-! ### io/byteread.rs -/

/-- `Cursor::new(vec![1; 17])` -/
def seventeen : Source := ⟨List.replicate 17 1, 0, fun _ => ⟨none, 99⟩, 0⟩

/-- `n` reads that give `v`, and one more that fails with `UnexpectedEof`, byteread.rs:164-180 -/
def testRead (get : Source → Rust (Except IoErr (BitVec w) × Source)) (v : BitVec w) : Nat → Source → Rust Bool
  | 0, s => do
    let (x, _) ← get s
    match x with
    | .error e => return e == .unexpectedEof
    | .ok _ => return false
  | n + 1, s => do
    let (x, s) ← get s
    match x with
    | .error _ => .error .unwrap
    | .ok u => do return u == v && (← testRead get v n s)

/-- `Read for Cursor` -/
def cursorRead (s : Source) (n : Nat) : Rust (Except IoErr (List U8) × Source) := .ok (s.read n)

/-- `fill_buf` of `BufReader::with_capacity(16, …)` before anything is consumed: the state holds the bytes buffered
so far. -/
def bufFill (st : List U8 × Source) : Rust (Except IoErr (List U8) × (List U8 × Source)) :=
  if st.1.length = 0 then
    match st.2.read 16 with
    | (.error e, s) => .ok (.error e, (st.1, s))
    | (.ok l, s) => .ok (.ok l, (l, s))
  else .ok (.ok st.1, st)

/-- `n` peeks that give `v`, byteread.rs:191-203 -/
def testPeek (peek : List U8 × Source → Rust (Except IoErr (BitVec w) × (List U8 × Source))) (v : BitVec w) :
    Nat → List U8 × Source → Rust Bool
  | 0, _ => .ok true
  | n + 1, s => do
    let (x, s) ← peek s
    match x with
    | .error _ => .error .unwrap
    | .ok u => do return u == v && (← testPeek peek v n s)

/-- get_u8, byteread.rs:182 -/
example : testRead (ByteIo.get_u8 cursorRead 30) 1 17 seventeen = .ok true := by decide +kernel
/-- get_i8, byteread.rs:183 -/
example : testRead (ByteIo.get_i8 cursorRead 30) 1 17 seventeen = .ok true := by decide +kernel
/-- get_u16l, byteread.rs:184 -/
example : testRead (ByteIo.get_u16l cursorRead 30) 257 8 seventeen = .ok true := by decide +kernel
/-- get_i16l, byteread.rs:185 -/
example : testRead (ByteIo.get_i16l cursorRead 30) 257 8 seventeen = .ok true := by decide +kernel
/-- get_u32l, byteread.rs:186 -/
example : testRead (ByteIo.get_u32l cursorRead 30) 16843009 4 seventeen = .ok true := by decide +kernel
/-- get_i32l, byteread.rs:187 -/
example : testRead (ByteIo.get_i32l cursorRead 30) 16843009 4 seventeen = .ok true := by decide +kernel
/-- get_u64l, byteread.rs:188 -/
example : testRead (ByteIo.get_u64l cursorRead 30) 72340172838076673 2 seventeen = .ok true := by decide +kernel
/-- get_i64l, byteread.rs:189 -/
example : testRead (ByteIo.get_i64l cursorRead 30) 72340172838076673 2 seventeen = .ok true := by decide +kernel

/-- peek_u8, byteread.rs:206 -/
example : testPeek (ByteIo.peek_u8 bufFill) 1 18 ([], seventeen) = .ok true := by decide +kernel
/-- peek_i8, byteread.rs:207 -/
example : testPeek (ByteIo.peek_i8 bufFill) 1 17 ([], seventeen) = .ok true := by decide +kernel
/-- peek_u16l, byteread.rs:208 -/
example : testPeek (ByteIo.peek_u16l bufFill) 257 9 ([], seventeen) = .ok true := by decide +kernel
/-- peek_i16l, byteread.rs:209 -/
example : testPeek (ByteIo.peek_i16l bufFill) 257 9 ([], seventeen) = .ok true := by decide +kernel
/-- peek_u32l, byteread.rs:210 -/
example : testPeek (ByteIo.peek_u32l bufFill) 16843009 5 ([], seventeen) = .ok true := by decide +kernel
/-- peek_i32l, byteread.rs:211 -/
example : testPeek (ByteIo.peek_i32l bufFill) 16843009 5 ([], seventeen) = .ok true := by decide +kernel
/-- peek_u64l, byteread.rs:212 -/
example : testPeek (ByteIo.peek_u64l bufFill) 72340172838076673 3 ([], seventeen) = .ok true := by decide +kernel
/-- peek_i64l, byteread.rs:213 -/
example : testPeek (ByteIo.peek_i64l bufFill) 72340172838076673 3 ([], seventeen) = .ok true := by decide +kernel

end Verif.Conform
