import Verif.Bytes.Spec
import Verif.Io.Model

/-!
# Model of `src/io/byteread.rs`

The functions of the traits `ByteRead` and `BytePeek`, over any `read` and any `fill_buf`. As in `Verif.Bytes`, signed
integers and floats are bit patterns.
-/

namespace Verif.ByteIo
open Verif Verif.Io

/-- `Read::read` of some reader (std, used in src/io/byteread.rs:9-19). -/
abbrev ReadFn (R : Type) := R → Nat → Rust (Except IoErr (List U8) × R)

/-- `BufRead::fill_buf` of some reader. -/
abbrev FillFn (R : Type) := R → Rust (Except IoErr (List U8) × R)

variable {R : Type}

/-- byteread.rs:9-19, into a buffer of `n` bytes, for at most `fuel` calls of `read`: the bytes stored -/
def getBuffer (read : ReadFn R) : Nat → R → Nat → Rust (Except IoErr (List U8) × R)
  | 0, _, _ => .error .fuel
  | fuel + 1, r, n =>
    if n = 0 then .ok (.ok [], r)
    else do
      let (x, r) ← read r n
      match x with
      | .ok [] => .ok (.error .unexpectedEof, r)
      | .ok l => do
        let (y, r) ← getBuffer read fuel r (n - l.length)
        match y with
        | .error e => .ok (.error e, r)
        | .ok l2 => .ok (.ok (l ++ l2), r)
      | .error e => .ok (.error e, r)

/-- byteread.rs:21-27: `get!(self, name, size)` -/
def get (name : List U8 → Rust (BitVec w)) (size : Nat) (read : ReadFn R) (fuel : Nat) (r : R) :
    Rust (Except IoErr (BitVec w) × R) := do
  let (x, r) ← getBuffer read fuel r size
  match x with
  | .error e => .ok (.error e, r)
  | .ok buf => do
    let v ← name buf
    return (.ok v, r)

/-- byteread.rs:88-97: `peek!(self, name, size)` -/
def peek (name : List U8 → Rust (BitVec w)) (size : Nat) (fill : FillFn R) (r : R) :
    Rust (Except IoErr (BitVec w) × R) := do
  let (x, r) ← fill r
  match x with
  | .error e => .ok (.error e, r)
  | .ok buf =>
    if buf.length < size then .ok (.error .unexpectedEof, r)
    else do
      let v ← name buf
      return (.ok v, r)

/-- byteread.rs:30-32 -/
def get_u8 (read : ReadFn R) := get Bytes.get_u8 1 read
/-- byteread.rs:101-103 -/
def peek_u8 (fill : FillFn R) := peek Bytes.get_u8 1 fill
/-- byteread.rs:33-35 -/
def get_i8 (read : ReadFn R) := get Bytes.get_i8 1 read
/-- byteread.rs:104-106 -/
def peek_i8 (fill : FillFn R) := peek Bytes.get_i8 1 fill
/-- byteread.rs:36-38 -/
def get_u16l (read : ReadFn R) := get Bytes.get_u16l 2 read
/-- byteread.rs:107-109 -/
def peek_u16l (fill : FillFn R) := peek Bytes.get_u16l 2 fill
/-- byteread.rs:39-41 -/
def get_i16l (read : ReadFn R) := get Bytes.get_i16l 2 read
/-- byteread.rs:110-112 -/
def peek_i16l (fill : FillFn R) := peek Bytes.get_i16l 2 fill
/-- byteread.rs:42-44 -/
def get_u32l (read : ReadFn R) := get Bytes.get_u32l 4 read
/-- byteread.rs:113-115 -/
def peek_u32l (fill : FillFn R) := peek Bytes.get_u32l 4 fill
/-- byteread.rs:45-47 -/
def get_i32l (read : ReadFn R) := get Bytes.get_i32l 4 read
/-- byteread.rs:116-118 -/
def peek_i32l (fill : FillFn R) := peek Bytes.get_i32l 4 fill
/-- byteread.rs:48-50 -/
def get_u64l (read : ReadFn R) := get Bytes.get_u64l 8 read
/-- byteread.rs:119-121 -/
def peek_u64l (fill : FillFn R) := peek Bytes.get_u64l 8 fill
/-- byteread.rs:51-53 -/
def get_i64l (read : ReadFn R) := get Bytes.get_i64l 8 read
/-- byteread.rs:122-124 -/
def peek_i64l (fill : FillFn R) := peek Bytes.get_i64l 8 fill
/-- byteread.rs:54-56 -/
def get_f32l (read : ReadFn R) := get Bytes.get_f32l 4 read
/-- byteread.rs:125-127 -/
def peek_f32l (fill : FillFn R) := peek Bytes.get_f32l 4 fill
/-- byteread.rs:57-59 -/
def get_f64l (read : ReadFn R) := get Bytes.get_f64l 8 read
/-- byteread.rs:128-130 -/
def peek_f64l (fill : FillFn R) := peek Bytes.get_f64l 8 fill
/-- byteread.rs:60-62 -/
def get_u16b (read : ReadFn R) := get Bytes.get_u16b 2 read
/-- byteread.rs:131-133 -/
def peek_u16b (fill : FillFn R) := peek Bytes.get_u16b 2 fill
/-- byteread.rs:63-65 -/
def get_i16b (read : ReadFn R) := get Bytes.get_i16b 2 read
/-- byteread.rs:134-136 -/
def peek_i16b (fill : FillFn R) := peek Bytes.get_i16b 2 fill
/-- byteread.rs:66-68 -/
def get_u32b (read : ReadFn R) := get Bytes.get_u32b 4 read
/-- byteread.rs:137-139 -/
def peek_u32b (fill : FillFn R) := peek Bytes.get_u32b 4 fill
/-- byteread.rs:69-71 -/
def get_i32b (read : ReadFn R) := get Bytes.get_i32b 4 read
/-- byteread.rs:140-142 -/
def peek_i32b (fill : FillFn R) := peek Bytes.get_i32b 4 fill
/-- byteread.rs:72-74 -/
def get_u64b (read : ReadFn R) := get Bytes.get_u64b 8 read
/-- byteread.rs:143-145 -/
def peek_u64b (fill : FillFn R) := peek Bytes.get_u64b 8 fill
/-- byteread.rs:75-77 -/
def get_i64b (read : ReadFn R) := get Bytes.get_i64b 8 read
/-- byteread.rs:146-148 -/
def peek_i64b (fill : FillFn R) := peek Bytes.get_i64b 8 fill
/-- byteread.rs:78-80 -/
def get_f32b (read : ReadFn R) := get Bytes.get_f32b 4 read
/-- byteread.rs:149-151 -/
def peek_f32b (fill : FillFn R) := peek Bytes.get_f32b 4 fill
/-- byteread.rs:81-83 -/
def get_f64b (read : ReadFn R) := get Bytes.get_f64b 8 read
/-- byteread.rs:152-154 -/
def peek_f64b (fill : FillFn R) := peek Bytes.get_f64b 8 fill

/-- The two functions for a type, beside the functions on slices for the same type. -/
structure Typed where
  acc : Bytes.Accessor
  get : {R : Type} → ReadFn R → Nat → R → Rust (Except IoErr (BitVec (8 * acc.bytes)) × R)
  peek : {R : Type} → FillFn R → R → Rust (Except IoErr (BitVec (8 * acc.bytes)) × R)

/-- All functions of the two traits. -/
def typed : List Typed := [
  ⟨⟨"u8", 1, .little, Bytes.get_u8, Bytes.put_u8⟩, get_u8, peek_u8⟩,
  ⟨⟨"i8", 1, .little, Bytes.get_i8, Bytes.put_i8⟩, get_i8, peek_i8⟩,
  ⟨⟨"u16l", 2, .little, Bytes.get_u16l, Bytes.put_u16l⟩, get_u16l, peek_u16l⟩,
  ⟨⟨"u16b", 2, .big, Bytes.get_u16b, Bytes.put_u16b⟩, get_u16b, peek_u16b⟩,
  ⟨⟨"u32l", 4, .little, Bytes.get_u32l, Bytes.put_u32l⟩, get_u32l, peek_u32l⟩,
  ⟨⟨"u32b", 4, .big, Bytes.get_u32b, Bytes.put_u32b⟩, get_u32b, peek_u32b⟩,
  ⟨⟨"u64l", 8, .little, Bytes.get_u64l, Bytes.put_u64l⟩, get_u64l, peek_u64l⟩,
  ⟨⟨"u64b", 8, .big, Bytes.get_u64b, Bytes.put_u64b⟩, get_u64b, peek_u64b⟩,
  ⟨⟨"i16l", 2, .little, Bytes.get_i16l, Bytes.put_i16l⟩, get_i16l, peek_i16l⟩,
  ⟨⟨"i16b", 2, .big, Bytes.get_i16b, Bytes.put_i16b⟩, get_i16b, peek_i16b⟩,
  ⟨⟨"i32l", 4, .little, Bytes.get_i32l, Bytes.put_i32l⟩, get_i32l, peek_i32l⟩,
  ⟨⟨"i32b", 4, .big, Bytes.get_i32b, Bytes.put_i32b⟩, get_i32b, peek_i32b⟩,
  ⟨⟨"i64l", 8, .little, Bytes.get_i64l, Bytes.put_i64l⟩, get_i64l, peek_i64l⟩,
  ⟨⟨"i64b", 8, .big, Bytes.get_i64b, Bytes.put_i64b⟩, get_i64b, peek_i64b⟩,
  ⟨⟨"f32l", 4, .little, Bytes.get_f32l, Bytes.put_f32l⟩, get_f32l, peek_f32l⟩,
  ⟨⟨"f32b", 4, .big, Bytes.get_f32b, Bytes.put_f32b⟩, get_f32b, peek_f32b⟩,
  ⟨⟨"f64l", 8, .little, Bytes.get_f64l, Bytes.put_f64l⟩, get_f64l, peek_f64l⟩,
  ⟨⟨"f64b", 8, .big, Bytes.get_f64b, Bytes.put_f64b⟩, get_f64b, peek_f64b⟩]

/-- A sequence of typed reads, stopping at an error: the values as natural numbers. -/
def getMany (read : ReadFn R) (fuel : Nat) (r : R) : List Typed → Rust (Except IoErr (List Nat) × R)
  | [] => .ok (.ok [], r)
  | t :: ts => do
    let (x, r) ← t.get read fuel r
    match x with
    | .error e => .ok (.error e, r)
    | .ok v => do
      let (y, r) ← getMany read fuel r ts
      match y with
      | .error e => .ok (.error e, r)
      | .ok vs => .ok (.ok (v.toNat :: vs), r)

end Verif.ByteIo
