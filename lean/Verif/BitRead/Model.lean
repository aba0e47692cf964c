import Verif.Bytes.Model

/-!
# Model of `bitstream/src/bitread.rs`

`BitReadLE` and `BitReadBE` are produced by the same macro and differ only in the functions of
`BitReadEndian`/`BitReadFill`; the trait dispatch becomes a match on `Endian`.

Simplification: sums of positions (`index + 8`, `index * 8`) are unbounded naturals. In Rust they
overflow only when the index exceeds 2^61, i.e. after skipping more than 2^64 bits.
-/

namespace Verif.BitRead
open Verif Verif.Bytes

/-- Which of the two readers (bitread.rs:262, 307). -/
inductive Endian | le | be
  deriving DecidableEq, Repr

/-- bitread.rs:154-159 (fields of `BitReadLE`/`BitReadBE`) -/
structure Reader where
  buffer : List U8
  index : Nat
  cache : BitVec 64
  left : Nat
  deriving DecidableEq, Repr

/-- `x.checked_shl(n as u32).unwrap_or(0)`, with `n : usize` (bitread.rs:241, 292, 297). -/
def checkedShl (x : BitVec 64) (n : Nat) : BitVec 64 :=
  if n % 2 ^ 32 < 64 then x <<< (n % 2 ^ 32) else 0

/-- `x.checked_shr(n as u32).unwrap_or(0)`, with `n : usize` (bitread.rs:247, 288). -/
def checkedShr (x : BitVec 64) (n : Nat) : BitVec 64 :=
  if n % 2 ^ 32 < 64 then x >>> (n % 2 ^ 32) else 0

/-- `x << n` with overflow check (bitread.rs:252, 256, 301). -/
def shlPanic (x : BitVec 64) (n : Nat) : Rust (BitVec 64) :=
  if n < 64 then .ok (x <<< n) else .error .shift

/-! ### `BitReadEndian` -/

/-- LE: bitread.rs:240-244; BE: bitread.rs:287-289 -/
def peekVal (e : Endian) (r : Reader) (n : Nat) : Rust (BitVec 64) :=
  match e with
  | .le => .ok (r.cache &&& (checkedShl 1 n - 1))
  | .be => do return checkedShr r.cache (← usub 64 (n % 2 ^ 32))

/-- LE: bitread.rs:246-249; BE: bitread.rs:291-294 -/
def skipRem (e : Endian) (r : Reader) (n : Nat) : Reader :=
  match e with
  | .le => { r with cache := checkedShr r.cache n, left := r.left - n }
  | .be => { r with cache := checkedShl r.cache n, left := r.left - n }

/-- LE: bitread.rs:251-253; BE: bitread.rs:296-298 -/
def mergeVal (e : Endian) (msp lsp : BitVec 64) (msb lsb : Nat) : Rust (BitVec 64) :=
  match e with
  | .le => do return (← shlPanic msp msb) ||| lsp
  | .be => .ok (msp ||| checkedShl lsp lsb)

/-- LE: bitread.rs:255-257; BE: bitread.rs:300-302 -/
def buildCache (e : Endian) (cache refill : BitVec 64) (cacheSize : Nat) : Rust (BitVec 64) :=
  match e with
  | .le => do return cache ||| (← shlPanic refill cacheSize)
  | .be => do return cache ||| (← shlPanic refill (← usub 32 cacheSize))

/-! ### `BitReadFill` -/

/-- bitread.rs:266-268, 311-313 -/
def canRefill (r : Reader) : Bool := r.index + 8 ≤ r.buffer.length

/-- LE: bitread.rs:270-272; BE: bitread.rs:315-317 -/
def fill32 (e : Endian) (r : Reader) : Rust (BitVec 64) := do
  let s ← sliceFrom r.buffer r.index
  let v ← match e with
    | .le => get_u32l s
    | .be => get_u32b s
  return v.setWidth 64

/-- LE: bitread.rs:274-276; BE: bitread.rs:319-321 -/
def fill64 (e : Endian) (r : Reader) : Rust (BitVec 64) := do
  let s ← sliceFrom r.buffer r.index
  match e with
  | .le => get_u64l s
  | .be => get_u64b s

/-! ### `BitReadInternal` -/

/-- bitread.rs:166-176 -/
def refill32 (e : Endian) (r : Reader) : Rust Reader :=
  if !canRefill r then .ok r
  else do
    let val ← fill32 e r
    let cache ← buildCache e r.cache val r.left
    return { r with cache := cache, index := r.index + 4, left := r.left + 32 }

/-- bitread.rs:178-186 -/
def refill64 (e : Endian) (r : Reader) : Rust Reader :=
  if !canRefill r then .ok r
  else do
    let cache ← fill64 e r
    return { r with cache := cache, index := r.index + 8, left := 64 }

/-- bitread.rs:43-49 -/
def getVal (e : Endian) (r : Reader) (n : Nat) : Rust (BitVec 64 × Reader) := do
  let ret ← peekVal e r n
  return (ret, skipRem e r n)

/-! ### `BitRead` -/

/-- bitread.rs:190-200 -/
def new (e : Endian) (buffer : List U8) : Rust Reader :=
  refill64 e { buffer, index := 0, cache := 0, left := 0 }

/-- bitread.rs:202-204 -/
def consumed (r : Reader) : Rust Nat := usub (r.index * 8) r.left

/-- bitread.rs:207-209 -/
def available (r : Reader) : Rust Nat := do
  return (← usub r.buffer.length r.index) * 8 + r.left

/-- bitread.rs:212-226 -/
def skip_bits (e : Endian) (r : Reader) (n : Nat) : Rust Reader :=
  if r.left < n then do
    let n := n - r.left
    let (n, r) :=
      if n > 64 then
        let skip := n / 8
        (n - skip * 8, { r with index := r.index + skip })
      else (n, r)
    let r := skipRem e r n
    let r ← refill64 e r
    return skipRem e r n
  else .ok (skipRem e r n)

/-- bitread.rs:66-72 -/
def get_bit (e : Endian) (r : Reader) : Rust (Bool × Reader) := do
  let r ← (if r.left = 0 then refill64 e r else .ok r)
  let (v, r) ← getVal e r 1
  return (v != 0, r)

/-- bitread.rs:76-92 -/
def get_bits_64 (e : Endian) (r : Reader) (n : Nat) : Rust (BitVec 64 × Reader) :=
  if n = 0 then .ok (0, r)
  else do
    let (n, left, ret, r) ←
      if r.left < n then do
        let left := r.left
        let (ret, r') ← getVal e r left
        let r' ← refill64 e r'
        .ok (n - left, left, ret, r')
      else .ok (n, 0, 0, r)
    let (v, r) ← getVal e r n
    return (← mergeVal e v ret left n, r)

/-- bitread.rs:96-106 -/
def get_bits_32 (e : Endian) (r : Reader) (n : Nat) : Rust (BitVec 32 × Reader) :=
  if n = 0 then .ok (0, r)
  else do
    let r ← (if r.left ≤ n then refill32 e r else .ok r)
    let (v, r) ← getVal e r n
    return (v.setWidth 32, r)

/-- bitread.rs:110-114: reads from a copy of the reader -/
def peek_bit (e : Endian) (r : Reader) : Rust (Bool × Reader) := do
  let tmp := r
  return ((← get_bit e tmp).1, r)

/-- bitread.rs:118-122 -/
def peek_bits_32 (e : Endian) (r : Reader) (n : Nat) : Rust (BitVec 32 × Reader) := do
  let tmp := r
  return ((← get_bits_32 e tmp n).1, r)

/-- bitread.rs:126-130 -/
def peek_bits_64 (e : Endian) (r : Reader) (n : Nat) : Rust (BitVec 64 × Reader) := do
  let tmp := r
  return ((← get_bits_64 e tmp n).1, r)

/-- bitread.rs:134-138 (`left & 7` is `left % 8`) -/
def align_bits (e : Endian) (r : Reader) : Rust Reader :=
  skip_bits e r (r.left &&& 7)

/-! ### Histories of calls -/

/-- A call of the public API (bitread.rs:53-139). -/
inductive Op
  | getBit
  | get32 (n : Nat)
  | get64 (n : Nat)
  | skip (n : Nat)
  | align
  | peekBit
  | peek32 (n : Nat)
  | peek64 (n : Nat)
  deriving DecidableEq, Repr

/-- One call; the result is the returned number, if the method returns one (`bool` as 0/1). -/
def step (e : Endian) (r : Reader) : Op → Rust (Option Nat × Reader)
  | .getBit => do let (b, r) ← get_bit e r; return (some b.toNat, r)
  | .get32 n => do let (v, r) ← get_bits_32 e r n; return (some v.toNat, r)
  | .get64 n => do let (v, r) ← get_bits_64 e r n; return (some v.toNat, r)
  | .skip n => do let r ← skip_bits e r n; return (none, r)
  | .align => do let r ← align_bits e r; return (none, r)
  | .peekBit => do let (b, r) ← peek_bit e r; return (some b.toNat, r)
  | .peek32 n => do let (v, r) ← peek_bits_32 e r n; return (some v.toNat, r)
  | .peek64 n => do let (v, r) ← peek_bits_64 e r n; return (some v.toNat, r)

/-- A history of calls: all results and the final reader. -/
def run (e : Endian) (r : Reader) : List Op → Rust (List (Option Nat) × Reader)
  | [] => .ok ([], r)
  | op :: ops => do
    let (v, r) ← step e r op
    let (vs, r) ← run e r ops
    return (v :: vs, r)

end Verif.BitRead
