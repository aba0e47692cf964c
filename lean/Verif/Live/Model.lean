import Verif.Acc.Model

/-!
# `AccReader` over any reader

`AccReader<R>` takes every `R: Read + Seek`. `Verif.Acc.Model` has the scripted `Source` for `R`; here `R` is any type
with any two functions, so that streams whose content grows while they are read are covered. `Verif.Live.Link` shows
that for `R = Source` this is the model of `Verif.Acc`.
-/

namespace Verif.Live
open Verif Verif.Io Verif.Acc

/-- A `Read + Seek` implementation: what its calls return, and what becomes of it. -/
structure Dev (R : Type) where
  read : R → Nat → Except IoErr (List U8) × R
  seek : R → SeekFrom → Except IoErr Nat × R

/-- accreader.rs:14-21 -/
structure LAcc (R : Type) where
  inner : R
  buf : List U8
  pos : Nat
  «end» : Nat
  index : Nat

variable {R : Type}

/-- accreader.rs:31-39 -/
def withCapacity (cap : Nat) (inner : R) : LAcc R :=
  { inner, buf := List.replicate cap 0, pos := 0, «end» := 0, index := 0 }

/-- accreader.rs:61-73 -/
def resetBufferPosition (r : LAcc R) : Rust (LAcc R) := do
  let w ← usub r.end r.pos
  let buf ← (if w > 0 then copyWithin0 r.buf r.pos r.end else .ok r.buf)
  return { r with buf, «end» := w, pos := 0 }

/-- accreader.rs:76-79 (`current_slice`) and 88-90 (`data`) -/
def data (r : LAcc R) : Rust (List U8) := sliceRange r.buf r.pos r.end

/-- accreader.rs:91-94 -/
def grow (r : LAcc R) (len : Nat) : LAcc R := { r with buf := r.buf ++ List.replicate len 0 }

/-- accreader.rs:159-163 -/
def consume (r : LAcc R) (amt : Nat) : LAcc R :=
  { r with pos := min (r.pos + amt) r.end, index := r.index + amt }

/-- accreader.rs:142-157 -/
def fillBuf (dev : Dev R) (r : LAcc R) : Rust (Except IoErr (List U8) × LAcc R) :=
  if r.pos ≠ 0 ∨ r.end ≠ r.buf.length then do
    let r ← resetBufferPosition r
    let room ← sliceFrom r.buf r.end
    match dev.read r.inner room.length with
    | (.error e, inner) => .ok (.error e, { r with inner })
    | (.ok l, inner) => do
      let r := { r with
        inner
        buf := r.buf.take r.end ++ l ++ r.buf.drop (r.end + l.length)
        «end» := r.end + l.length }
      let w ← data r
      return (.ok w, r)
  else do
    let w ← data r
    return (.ok w, r)

/-- accreader.rs:98-138, into a buffer of `n` bytes -/
def read (dev : Dev R) (r : LAcc R) (n : Nat) : Rust (Except IoErr (List U8) × LAcc R) := do
  let w ← usub r.end r.pos
  if n < w then do
    let l ← sliceRange r.buf r.pos (r.pos + n)
    return (.ok l, consume r l.length)
  else if n > r.buf.length then do
    let l ← sliceRange r.buf r.pos r.end
    let l := l.take n
    let room ← usub n w
    match dev.read r.inner room with
    | (.error e, inner) => .ok (.error e, { r with inner })
    | (.ok l2, inner) => do
      let r ← resetBufferPosition (consume { r with inner } (l2.length + l.length))
      return (.ok (l ++ l2), r)
  else do
    let (x, r) ← fillBuf dev r
    match x with
    | .error e => .ok (.error e, r)
    | .ok rem => .ok (.ok (rem.take n), consume r (rem.take n).length)

/-- accreader.rs:194-203 -/
def seekInner (dev : Dev R) (r : LAcc R) (sf : SeekFrom) : Rust (Except IoErr Nat × LAcc R) :=
  match dev.seek r.inner sf with
  | (.error e, inner) => .ok (.error e, { r with inner })
  | (.ok sz, inner) => do
    let (x, r) ← fillBuf dev { r with inner, index := sz, pos := 0, «end» := 0 }
    match x with
    | .error e => .ok (.error e, r)
    | .ok _ => .ok (.ok sz, r)

/-- accreader.rs:167-204 -/
def seek (dev : Dev R) (r : LAcc R) (sf : SeekFrom) : Rust (Except IoErr Nat × LAcc R) :=
  match sf with
  | .start n =>
    if n ≥ r.index then do
      let lim ← usub (r.index + r.end) r.pos
      if n < lim then .ok (.ok n, { r with pos := r.pos + (n - r.index), index := n })
      else seekInner dev r sf
    else seekInner dev r sf
  | .end _ => seekInner dev r sf
  | .current d => do
    let remaining ← usub r.end r.pos
    if d ≥ 0 then
      if d.toNat ≤ remaining then
        .ok (.ok (r.index + d.toNat), { r with index := r.index + d.toNat, pos := r.pos + d.toNat })
      else seekInner dev r (.current (d - remaining))
    else seekInner dev r sf

/-- One call of the public API. -/
def step (dev : Dev R) (fuel : Nat) (r : LAcc R) : Op → Rust (Out × LAcc R)
  | .read n => do
    let (x, r) ← read dev r n
    match x with
    | .error e => .ok (.err e, r)
    | .ok l => .ok (.bytes l, r)
  | .readExact n => do
    let (x, r) ← readExact (read dev) fuel r n
    match x with
    | .error e => .ok (.err e, r)
    | .ok l => .ok (.bytes l, r)
  | .fillBuf => do
    let (x, r) ← fillBuf dev r
    match x with
    | .error e => .ok (.err e, r)
    | .ok l => .ok (.shown l, r)
  | .consume k => do
    let w ← data r
    return (.bytes (w.take k), consume r (w.take k).length)
  | .grow k => .ok (.unit, grow r k)
  | .reset => do return (.unit, ← resetBufferPosition r)
  | .seek sf => do
    let (x, r) ← seek dev r sf
    match x with
    | .error e => .ok (.err e, r)
    | .ok n => .ok (.pos n, r)

/-- A history of calls. -/
def run (dev : Dev R) (fuel : Nat) (r : LAcc R) : List Op → Rust (List Out × LAcc R)
  | [] => .ok ([], r)
  | op :: ops => do
    let (o, r) ← step dev fuel r op
    let (os, r) ← run dev fuel r ops
    return (o :: os, r)

end Verif.Live
