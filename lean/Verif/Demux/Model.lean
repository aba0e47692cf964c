import Verif.Packet.Model
import Verif.Stream.Model
import Verif.Acc.Model

/-!
# Model of `format/src/demuxer.rs`, `format/src/error.rs` and `format/src/buffer/mod.rs`

Demuxers and buffered readers are arbitrary: records of functions on a state. Trace logging is left out.
-/

namespace Verif.Demux
open Verif Verif.Io Verif.Frame Verif.Stream Verif.Packet

/-- error.rs:6-13 -/
inductive Err | InvalidData | MoreDataNeeded (n : Nat) | Io (e : IoErr)
  deriving DecidableEq, Repr

/-- error.rs:34-38 -/
def Err.fromIo (e : IoErr) : Err := .Io e

/-- error.rs:24-32 (the text written) -/
def Err.display : Err → String
  | .InvalidData => "Invalid Data"
  | .MoreDataNeeded n => toString n ++ " more bytes needed"
  | .Io _ => "I/O error"

/-- error.rs:16-21 -/
def Err.source : Err → Option IoErr
  | .Io e => some e
  | _ => none

/-- demuxer.rs:16-31 -/
inductive Event
  | NewPacket (p : Packet) | NewStream (s : Stream) | MoreDataNeeded (n : Nat) | Continue | Eof
  deriving DecidableEq, Repr

/-- buffer/mod.rs:8-13: the functions of `Buffered` the context uses -/
structure Buffered (R : Type) where
  fillBuf : R → Rust (Except IoErr (List U8) × R)
  data : R → Rust (List U8)
  grow : R → Nat → Rust R
  seek : R → SeekFrom → Rust (Except IoErr Nat × R)

/-- `impl Buffered for AccReader`, accreader.rs:86-95 -/
def accBuffered : Buffered Acc.Acc := ⟨Acc.fillBuf, Acc.data, fun r n => .ok (Acc.grow r n), Acc.seek⟩

/-- demuxer.rs:34-42: any implementation of the trait, with state `D` -/
structure Demuxer (D R : Type) where
  readHeaders : D → R → GlobalInfo → Rust (Except Err SeekFrom × D × R × GlobalInfo)
  readEvent : D → R → Rust (Except Err (SeekFrom × Event) × D × R)

/-- demuxer.rs:46-55 -/
structure Context (D R : Type) where
  demuxer : D
  reader : R
  info : GlobalInfo
  user_private : Option Nat

/-- demuxer.rs:59-70 -/
def Context.new (demuxer : D) (reader : R) : Context D R :=
  { demuxer, reader, info := { duration := none, timebase := none, streams := [] }, user_private := none }

variable {D R : Type} (dm : Demuxer D R) (bf : Buffered R)

/-- demuxer.rs:77-90: the result of the seek is not looked at -/
def readHeadersInternal (c : Context D R) : Rust (Except Err Unit × Context D R) := do
  let (res, demuxer, reader, info) ← dm.readHeaders c.demuxer c.reader c.info
  let c := { c with demuxer, reader, info }
  match res with
  | .error e => .ok (.error e, c)
  | .ok seek => do
    let (_, reader) ← bf.seek c.reader seek
    return (.ok (), { c with reader })

/-- demuxer.rs:93-107, at most `fuel` rounds of the loop -/
def readHeaders : Nat → Context D R → Rust (Except Err Unit × Context D R)
  | 0, _ => .error .fuel
  | fuel + 1, c => do
    let (x, reader) ← bf.fillBuf c.reader
    let c := { c with reader }
    match x with
    | .error e => .ok (.error (.fromIo e), c)
    | .ok _ => do
      let (y, c) ← readHeadersInternal dm bf c
      match y with
      | .error (.MoreDataNeeded needed) => do
        let reader ← bf.grow c.reader needed
        readHeaders fuel { c with reader }
      | .error e => .ok (.error e, c)
      | .ok () => .ok (.ok (), c)

/-- demuxer.rs:124-135 -/
def setTimebase (streams : List Stream) (pkt : Packet) : Packet :=
  if pkt.t.timebase.isNone then
    match streams.find? (fun s => asIsize s.index == pkt.stream_index) with
    | some st => { pkt with t := { pkt.t with timebase := some st.timebase } }
    | none => pkt
  else pkt

/-- demuxer.rs:109-139 -/
def readEventInternal (c : Context D R) : Rust (Except Err Event × Context D R) := do
  let (res, demuxer, reader) ← dm.readEvent c.demuxer c.reader
  let c := { c with demuxer, reader }
  match res with
  | .error e => .ok (.error e, c)
  | .ok (seek, event) => do
    let (y, reader) ← bf.seek c.reader seek
    let c := { c with reader }
    match y with
    | .error e => .ok (.error (.fromIo e), c)
    | .ok _ =>
      match event with
      | .NewStream st => .ok (.ok event, { c with info := { c.info with streams := c.info.streams ++ [st] } })
      | .MoreDataNeeded size => .ok (.error (.MoreDataNeeded size), c)
      | .NewPacket pkt => .ok (.ok (.NewPacket (setTimebase c.info.streams pkt)), c)
      | _ => .ok (.ok event, c)

/-- demuxer.rs:142-165, at most `fuel` rounds of the loop -/
def readEvent : Nat → Context D R → Rust (Except Err Event × Context D R)
  | 0, _ => .error .fuel
  | fuel + 1, c => do
    let (x, c) ← readEventInternal dm bf c
    match x with
    | .error (.MoreDataNeeded needed) => do
      let len := (← bf.data c.reader).length
      if len ≥ needed then readEvent fuel c
      else do
        let reader ← bf.grow c.reader needed
        let (y, reader) ← bf.fillBuf reader
        let c := { c with reader }
        match y with
        | .error e => .ok (.error (.fromIo e), c)
        | .ok _ => do
          let len' := (← bf.data c.reader).length
          if len' ≤ len then .ok (.ok .Eof, c) else readEvent fuel c
    | .error e => .ok (.error e, c)
    | .ok ev => .ok (.ok ev, c)

/-- `n` calls of `read_event`, whatever they return. -/
def readEvents (fuel : Nat) : Nat → Context D R → Rust (List (Except Err Event) × Context D R)
  | 0, c => .ok ([], c)
  | n + 1, c => do
    let (x, c) ← readEvent dm bf fuel c
    let (xs, c) ← readEvents fuel n c
    return (x :: xs, c)

/-! ### probing -/

/-- demuxer.rs:172-183 -/
structure Descr where
  name : String
  demuxer : String
  description : String
  extensions : List String
  mime : List String
  deriving DecidableEq, Repr

/-- demuxer.rs:186-198: a descriptor; `create` is the demuxer it makes -/
structure Descriptor (T : Type) where
  create : T
  describe : Descr
  probe : List U8 → BitVec 8

/-- demuxer.rs:201 -/
def PROBE_DATA : Nat := 4 * 1024

/-- demuxer.rs:205 -/
def PROBE_SCORE_EXTENSION : BitVec 8 := 50

/-- demuxer.rs:217-224: the loop -/
def probeLoop (data : List U8) : BitVec 8 → Option (Descriptor T) → List (Descriptor T) →
    BitVec 8 × Option (Descriptor T)
  | max, candidate, [] => (max, candidate)
  | max, candidate, desc :: ds =>
    let score := desc.probe data
    if score > max then probeLoop data score (some desc) ds else probeLoop data max candidate ds

/-- demuxer.rs:214-231 -/
def probe (descs : List (Descriptor T)) (data : List U8) : Option (Descriptor T) :=
  let (max, candidate) := probeLoop data 0 none descs
  if max > PROBE_SCORE_EXTENSION then candidate else none

end Verif.Demux
