import Verif.Demux.Model
import Verif.Value.Model
import Verif.Io.Sink

/-!
# Model of `format/src/muxer.rs`

Muxers and sinks are arbitrary: records of functions on a state. `bytes_written` (`usize`) is an unbounded
natural, and `res as usize` (a `u64`) is the identity, as on 64-bit targets. `Arc<Packet>` is the packet.
-/

namespace Verif.Mux
open Verif Verif.Io Verif.Stream Verif.Packet Verif.Value
open Verif.Demux (Err)

/-- The functions of a `Write + Seek` object (muxer.rs:40-63). -/
structure SinkOps (W : Type) where
  write : W → List U8 → Rust (Except IoErr Nat × W)
  flush : W → Rust (Except IoErr Unit × W)
  seek : W → SeekFrom → Rust (Except IoErr Nat × W)

/-- muxer.rs:12-15 -/
structure Writer (W : Type) where
  writer : W
  bytes_written : Nat

/-- muxer.rs:19-24 -/
def Writer.new (inner : W) : Writer W := ⟨inner, 0⟩

/-- muxer.rs:29-31 -/
def Writer.position (w : Writer W) : Nat := w.bytes_written

/-- muxer.rs:34-36 -/
def Writer.asRef (w : Writer W) : W × Nat := (w.writer, w.bytes_written)

variable {M W : Type} (so : SinkOps W)

/-- muxer.rs:40-48 -/
def Writer.write (w : Writer W) (bytes : List U8) : Rust (Except IoErr Nat × Writer W) := do
  let (result, writer) ← so.write w.writer bytes
  let w := { w with writer }
  match result with
  | .ok written => .ok (result, { w with bytes_written := w.bytes_written + written })
  | .error _ => .ok (result, w)

/-- muxer.rs:50-52 -/
def Writer.flush (w : Writer W) : Rust (Except IoErr Unit × Writer W) := do
  let (x, writer) ← so.flush w.writer
  return (x, { w with writer })

/-- muxer.rs:59-63 -/
def Writer.seek (w : Writer W) (sf : SeekFrom) : Rust (Except IoErr Nat × Writer W) := do
  let (x, writer) ← so.seek w.writer sf
  let w := { w with writer }
  match x with
  | .error e => .ok (.error e, w)
  | .ok res => .ok (.ok res, { w with bytes_written := res })

/-- Calls on a `Writer`, and what they return (muxer.rs:29-63). -/
inductive WOp | write (l : List U8) | flush | seek (sf : SeekFrom)
  deriving DecidableEq, Repr
inductive WOut | written (n : Nat) | flushed | pos (n : Nat) | err (e : IoErr)
  deriving DecidableEq, Repr

/-- One call (muxer.rs:29-63). -/
def wstep (w : Writer W) : WOp → Rust (WOut × Writer W)
  | .write l => do
    let (x, w) ← w.write so l
    match x with
    | .ok n => .ok (.written n, w)
    | .error e => .ok (.err e, w)
  | .flush => do
    let (x, w) ← w.flush so
    match x with
    | .ok () => .ok (.flushed, w)
    | .error e => .ok (.err e, w)
  | .seek sf => do
    let (x, w) ← w.seek so sf
    match x with
    | .ok n => .ok (.pos n, w)
    | .error e => .ok (.err e, w)

/-- A history of calls. -/
def wrun (w : Writer W) : List WOp → Rust (List WOut × Writer W)
  | [] => .ok ([], w)
  | op :: ops => do
    let (o, w) ← wstep so w op
    let (os, w) ← wrun w ops
    return (o :: os, w)

/-- muxer.rs:67-87: any implementation of the trait, with state `M`, for a given sink type -/
structure Muxer (M W : Type) where
  configure : M → Rust (Except Err Unit × M)
  writeHeader : M → Writer W → Rust (Except Err Unit × M × Writer W)
  writePacket : M → Writer W → Packet → Rust (Except Err Unit × M × Writer W)
  writeTrailer : M → Writer W → Rust (Except Err Unit × M × Writer W)
  setGlobalInfo : M → GlobalInfo → Rust (Except Err Unit × M)
  setOption : M → String → Value → Rust (Except Err Unit × M)

/-- muxer.rs:91-98 -/
structure Context (M W : Type) where
  muxer : M
  writer : Writer W
  user_private : Option Nat

/-- muxer.rs:102-108 -/
def Context.new (muxer : M) (writer : Writer W) : Context M W := ⟨muxer, writer, none⟩

variable (mx : Muxer M W)

/-- muxer.rs:111-113 -/
def Context.configure (c : Context M W) : Rust (Except Err Unit × Context M W) := do
  let (x, muxer) ← mx.configure c.muxer
  return (x, { c with muxer })

/-- muxer.rs:117-119 -/
def Context.writeHeader (c : Context M W) : Rust (Except Err Unit × Context M W) := do
  let (x, muxer, writer) ← mx.writeHeader c.muxer c.writer
  return (x, { c with muxer, writer })

/-- muxer.rs:123-125 -/
def Context.writePacket (c : Context M W) (pkt : Packet) : Rust (Except Err Unit × Context M W) := do
  let (x, muxer, writer) ← mx.writePacket c.muxer c.writer pkt
  return (x, { c with muxer, writer })

/-- muxer.rs:129-134 -/
def Context.writeTrailer (c : Context M W) : Rust (Except Err Unit × Context M W) := do
  let (x, muxer, writer) ← mx.writeTrailer c.muxer c.writer
  let c := { c with muxer, writer }
  match x with
  | .error e => .ok (.error e, c)
  | .ok () => do
    let (y, writer) ← c.writer.flush so
    let c := { c with writer }
    match y with
    | .error e => .ok (.error (.fromIo e), c)
    | .ok () => .ok (.ok (), c)

/-- muxer.rs:137-139 -/
def Context.setGlobalInfo (c : Context M W) (info : GlobalInfo) : Rust (Except Err Unit × Context M W) := do
  let (x, muxer) ← mx.setGlobalInfo c.muxer info
  return (x, { c with muxer })

/-- muxer.rs:145-150 -/
def Context.setOption (c : Context M W) (key : String) (val : Raw) : Rust (Except Err Unit × Context M W) := do
  let (x, muxer) ← mx.setOption c.muxer key val.into
  return (x, { c with muxer })

/-- muxer.rs:158-160 -/
def Context.intoWriter (c : Context M W) : Writer W := c.writer

/-- Calls on a `Context` (muxer.rs:111-150). -/
inductive Op
  | configure | header | packet (p : Packet) | trailer | info (i : GlobalInfo) | option (key : String) (val : Raw)

/-- One call (muxer.rs:111-150). -/
def Context.step (c : Context M W) : Op → Rust (Except Err Unit × Context M W)
  | .configure => c.configure mx
  | .header => c.writeHeader mx
  | .packet p => c.writePacket mx p
  | .trailer => c.writeTrailer so mx
  | .info i => c.setGlobalInfo mx i
  | .option k v => c.setOption mx k v

/-- A history of calls. -/
def Context.run (c : Context M W) : List Op → Rust (List (Except Err Unit) × Context M W)
  | [] => .ok ([], c)
  | op :: ops => do
    let (x, c) ← c.step so mx op
    let (xs, c) ← Context.run c ops
    return (x :: xs, c)

/-! ### lookup -/

/-- muxer.rs:180-189: a descriptor; `create` is the muxer it makes. `Descr` (muxer.rs:167-178) has the fields
of the demuxers' one. -/
structure Descriptor (T : Type) where
  create : T
  describe : Demux.Descr

/-- muxer.rs:198-200 -/
def byName (l : List (Descriptor T)) (name : String) : Option (Descriptor T) :=
  l.find? (fun d => d.describe.name == name)

end Verif.Mux
