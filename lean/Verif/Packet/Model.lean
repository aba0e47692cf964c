import Verif.Frame.Model
import Verif.Io.Sink

/-!
# Model of `data/src/packet.rs`
-/

namespace Verif.Packet
open Verif Verif.Io Verif.Frame

/-- packet.rs:10-26 -/
structure Packet where
  data : List U8
  pos : Option Nat
  stream_index : Int
  t : TimeInfo
  is_key : Bool
  is_corrupted : Bool
  deriving DecidableEq, Repr

/-- packet.rs:30-39; the capacity is not observable in the model -/
def withCapacity (_capacity : Nat) : Packet :=
  { data := [], t := .default, pos := none, stream_index := -1, is_key := false, is_corrupted := false }

/-- packet.rs:42-51 -/
def zeroed (size : Nat) : Packet :=
  { data := List.replicate size 0, t := .default, pos := none, stream_index := -1, is_key := false,
    is_corrupted := false }

/-- packet.rs:54-56 -/
def new : Packet := withCapacity 0

/-- packet.rs:9 (derived `Default`) -/
def default : Packet :=
  { data := [], pos := none, stream_index := 0, t := .default, is_key := false, is_corrupted := false }

/-- packet.rs:62-66, over any `read` -/
def getPacket (read : R → Nat → Rust (Except IoErr (List U8) × R)) (fuel : Nat) (r : R) (len : Nat) :
    Rust (Except IoErr Packet × R) := do
  let pkt := zeroed len
  let (x, r) ← readExact read fuel r pkt.data.length
  match x with
  | .error e => .ok (.error e, r)
  | .ok l => .ok (.ok { pkt with data := l }, r)

/-- packet.rs:72-74, over any `write` -/
def putPacket (write : W → List U8 → Rust (Except IoErr Nat × W)) (fuel : Nat) (w : W) (pkt : Packet) :
    Rust (Except IoErr Unit × W) := writeAll write fuel w pkt.data

/-- Writing packets one after the other, stopping at an error. -/
def putAll (write : W → List U8 → Rust (Except IoErr Nat × W)) (fuel : Nat) (w : W) :
    List Packet → Rust (Except IoErr Unit × W)
  | [] => .ok (.ok (), w)
  | p :: ps => do
    let (x, w) ← putPacket write fuel w p
    match x with
    | .error e => .ok (.error e, w)
    | .ok () => putAll write fuel w ps

/-- Reading packets of the given lengths, stopping at an error. -/
def getAll (read : R → Nat → Rust (Except IoErr (List U8) × R)) (fuel : Nat) (r : R) :
    List Nat → Rust (Except IoErr (List Packet) × R)
  | [] => .ok (.ok [], r)
  | n :: ns => do
    let (x, r) ← getPacket read fuel r n
    match x with
    | .error e => .ok (.error e, r)
    | .ok p => do
      let (y, r) ← getAll read fuel r ns
      match y with
      | .error e => .ok (.error e, r)
      | .ok ps => .ok (.ok (p :: ps), r)

end Verif.Packet
