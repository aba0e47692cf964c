import Verif.Io.Model

/-!
# Model of `format/src/buffer/accreader.rs`

Logging is left out. Positions (`usize`, `u64`) are unbounded naturals and relative offsets (`i64`) are
integers; subtractions are checked. The buffer passed to `read` is represented by its length, and the
result of a successful read by the bytes stored at its front.
-/

namespace Verif.Acc
open Verif Verif.Io

/-- accreader.rs:14-21 -/
structure Acc where
  inner : Source
  buf : List U8
  pos : Nat
  «end» : Nat
  index : Nat

/-- accreader.rs:31-39 -/
def withCapacity (cap : Nat) (inner : Source) : Acc :=
  { inner, buf := List.replicate cap 0, pos := 0, «end» := 0, index := 0 }

/-- accreader.rs:25-27 -/
def new (inner : Source) : Acc := withCapacity 4096 inner

/-- `l.copy_within(a..b, 0)` (accreader.rs:69) -/
def copyWithin0 (l : List U8) (a b : Nat) : Rust (List U8) := do
  let s ← sliceRange l a b
  return s ++ l.drop s.length

/-- accreader.rs:61-73 -/
def resetBufferPosition (r : Acc) : Rust Acc := do
  let w ← usub r.end r.pos
  let buf ← (if w > 0 then copyWithin0 r.buf r.pos r.end else .ok r.buf)
  return { r with buf, «end» := w, pos := 0 }

/-- accreader.rs:76-79 (`current_slice`) and 88-90 (`data`) -/
def data (r : Acc) : Rust (List U8) := sliceRange r.buf r.pos r.end

/-- accreader.rs:82-84 -/
def capacity (r : Acc) : Rust Nat := usub r.end r.pos

/-- accreader.rs:91-94 -/
def grow (r : Acc) (len : Nat) : Acc := { r with buf := r.buf ++ List.replicate len 0 }

/-- accreader.rs:159-163 -/
def consume (r : Acc) (amt : Nat) : Acc :=
  { r with pos := min (r.pos + amt) r.end, index := r.index + amt }

/-- accreader.rs:142-157 -/
def fillBuf (r : Acc) : Rust (Except IoErr (List U8) × Acc) :=
  if r.pos ≠ 0 ∨ r.end ≠ r.buf.length then do
    let r ← resetBufferPosition r
    let room ← sliceFrom r.buf r.end
    match r.inner.read room.length with
    | (.error e, inner) => .ok (.error e, { r with inner })
    | (.ok l, inner) => do
      let r := { r with
        inner
        buf := r.buf.take r.end ++ l ++ r.buf.drop (r.end + l.length)
        «end» := r.end + l.length }
      let w ← data r
      return (.ok w, r)
  else do
    let w ← data r
    return (.ok w, r)

/-- accreader.rs:98-138, into a buffer of `n` bytes -/
def read (r : Acc) (n : Nat) : Rust (Except IoErr (List U8) × Acc) := do
  let w ← usub r.end r.pos
  if n < w then do
    let l ← sliceRange r.buf r.pos (r.pos + n)
    return (.ok l, consume r l.length)
  else if n > r.buf.length then do
    let l ← sliceRange r.buf r.pos r.end
    let l := l.take n
    let room ← usub n w
    match r.inner.read room with
    | (.error e, inner) => .ok (.error e, { r with inner })
    | (.ok l2, inner) => do
      let r ← resetBufferPosition (consume { r with inner } (l2.length + l.length))
      return (.ok (l ++ l2), r)
  else do
    let (x, r) ← fillBuf r
    match x with
    | .error e => .ok (.error e, r)
    | .ok rem => .ok (.ok (rem.take n), consume r (rem.take n).length)

/-- accreader.rs:194-203 -/
def seekInner (r : Acc) (sf : SeekFrom) : Rust (Except IoErr Nat × Acc) :=
  match r.inner.seek sf with
  | (.error e, inner) => .ok (.error e, { r with inner })
  | (.ok sz, inner) => do
    let (x, r) ← fillBuf { r with inner, index := sz, pos := 0, «end» := 0 }
    match x with
    | .error e => .ok (.error e, r)
    | .ok _ => .ok (.ok sz, r)

/-- accreader.rs:167-204 -/
def seek (r : Acc) (sf : SeekFrom) : Rust (Except IoErr Nat × Acc) :=
  match sf with
  | .start n =>
    if n ≥ r.index then do
      let lim ← usub (r.index + r.end) r.pos
      if n < lim then .ok (.ok n, { r with pos := r.pos + (n - r.index), index := n })
      else seekInner r sf
    else seekInner r sf
  | .end _ => seekInner r sf
  | .current d => do
    let remaining ← usub r.end r.pos
    if d ≥ 0 then
      if d.toNat ≤ remaining then
        .ok (.ok (r.index + d.toNat), { r with index := r.index + d.toNat, pos := r.pos + d.toNat })
      else seekInner r (.current (d - remaining))
    else seekInner r sf

/-- `Seek::stream_position` (default method of std) (used in accreader.rs:289, 293) -/
def streamPosition (r : Acc) : Rust (Except IoErr Nat × Acc) := seek r (.current 0)

/-! ### histories -/

/-- Calls of the public API. `consume k` stands for consuming `k` bytes but no more than `data()` shows,
which is the contract of `BufRead::consume` (accreader.rs:51-203). -/
inductive Op
  | read (n : Nat) | readExact (n : Nat) | fillBuf | consume (k : Nat) | grow (k : Nat) | reset
  | seek (sf : SeekFrom)
  deriving DecidableEq, Repr

/-- What a call returns: bytes handed over (`read`, `read_exact`, and the bytes dropped by `consume`), the
slice shown by `fill_buf`, a position, nothing, or an error (accreader.rs:97-203). -/
inductive Out
  | bytes (l : List U8) | shown (l : List U8) | pos (n : Nat) | unit | err (e : IoErr)
  deriving DecidableEq, Repr

/-- One call of the public API (accreader.rs:51-203). -/
def step (fuel : Nat) (r : Acc) : Op → Rust (Out × Acc)
  | .read n => do
    let (x, r) ← read r n
    match x with
    | .error e => .ok (.err e, r)
    | .ok l => .ok (.bytes l, r)
  | .readExact n => do
    let (x, r) ← readExact read fuel r n
    match x with
    | .error e => .ok (.err e, r)
    | .ok l => .ok (.bytes l, r)
  | .fillBuf => do
    let (x, r) ← fillBuf r
    match x with
    | .error e => .ok (.err e, r)
    | .ok l => .ok (.shown l, r)
  | .consume k => do
    let w ← data r
    return (.bytes (w.take k), consume r (w.take k).length)
  | .grow k => .ok (.unit, grow r k)
  | .reset => do return (.unit, ← resetBufferPosition r)
  | .seek sf => do
    let (x, r) ← seek r sf
    match x with
    | .error e => .ok (.err e, r)
    | .ok n => .ok (.pos n, r)

/-- A history of calls. -/
def run (fuel : Nat) (r : Acc) : List Op → Rust (List Out × Acc)
  | [] => .ok ([], r)
  | op :: ops => do
    let (o, r) ← step fuel r op
    let (os, r) ← run fuel r ops
    return (o :: os, r)

end Verif.Acc
