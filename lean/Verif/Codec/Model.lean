import Verif.Packet.Model
import Verif.Stream.Model
import Verif.Value.Model

/-!
# Model of `codec/src/{common,decoder,encoder,error}.rs`

Decoders and encoders are arbitrary: records of functions on a state. `HashMap<&'static str, Vec<&'static T>>`
is an association list (it is never iterated); descriptors are values. `Codecs` is the same code in
decoder.rs and encoder.rs and is modelled once.
-/

namespace Verif.Codec
open Verif Verif.Frame Verif.Packet Verif.Stream Verif.Value

/-- error.rs:5-18 -/
inductive Err | InvalidData | MoreDataNeeded | ConfigurationIncomplete | ConfigurationInvalid | Unsupported (feat : String)
  deriving DecidableEq, Repr

/-- error.rs:23-32 -/
def Err.display : Err → String
  | .InvalidData => "Invalid Data"
  | .MoreDataNeeded => "Additional data needed"
  | .ConfigurationIncomplete => "Configuration Incomplete"
  | .ConfigurationInvalid => "Configuration Invalid"
  | .Unsupported feat => "Unsupported feature " ++ feat

/-- decoder.rs:29-39, encoder.rs:112-122 -/
structure Descr where
  codec : String
  name : String
  desc : String
  mime : String
  deriving DecidableEq, Repr

/-- decoder.rs:90-98, encoder.rs:125-133; `create` makes a new object, in the state given -/
structure Descriptor (T : Type) where
  create : T
  describe : Descr

/-- decoder.rs:101-103, encoder.rs:136-138 -/
structure Codecs (T : Type) where
  list : List (String × List (Descriptor T))

/-- decoder.rs:108-112, encoder.rs:143-147 -/
def Codecs.new : Codecs T := ⟨[]⟩

/-- `HashMap::get` (decoder.rs:116, encoder.rs:151) -/
def mapGet (m : List (String × α)) (k : String) : Option α := (m.find? (fun e => e.1 == k)).map (·.2)

/-- `map.entry(k).or_default().push(v)` (decoder.rs:122, encoder.rs:157) -/
def entryPush : List (String × List α) → String → α → List (String × List α)
  | [], k, v => [(k, [v])]
  | (k', l) :: m, k, v => if k' == k then (k', l ++ [v]) :: m else (k', l) :: entryPush m k v

/-- decoder.rs:115-117, encoder.rs:150-152 -/
def Codecs.byName (c : Codecs T) (name : String) : Rust (Option (Descriptor T)) :=
  match mapGet c.list name with
  | some descs => do return some (← idx descs 0)
  | none => .ok none

/-- decoder.rs:119-123, encoder.rs:154-158 -/
def Codecs.append (c : Codecs T) (desc : Descriptor T) : Codecs T :=
  let codec_name := desc.describe.codec
  { c with list := entryPush c.list codec_name desc }

/-- common.rs:21-28 -/
def Codecs.fromList (descs : List (Descriptor T)) : Codecs T := descs.foldl Codecs.append Codecs.new

/-! ### decoders -/

/-- decoder.rs:10-23: any implementation of the trait, with state `D` -/
structure Decoder (D : Type) where
  setExtradata : D → List U8 → Rust D
  sendPacket : D → Packet → Rust (Except Err Unit × D)
  receiveFrame : D → Rust (Except Err Frame × D)
  configure : D → Rust (Except Err Unit × D)
  flush : D → Rust (Except Err Unit × D)

/-- decoder.rs:43-46 -/
structure DecContext (D : Type) where
  dec : D

variable {D E : Type} (dc : Decoder D)

/-- decoder.rs:52-59 -/
def DecContext.byName (codecs : Codecs D) (name : String) : Rust (Option (DecContext D)) := do
  return (← codecs.byName name).map fun builder => { dec := builder.create }

/-- decoder.rs:61-63 -/
def DecContext.setExtradata (c : DecContext D) (extra : List U8) : Rust (DecContext D) := do
  return { c with dec := ← dc.setExtradata c.dec extra }

/-- decoder.rs:66-68 -/
def DecContext.sendPacket (c : DecContext D) (pkt : Packet) : Rust (Except Err Unit × DecContext D) := do
  let (x, dec) ← dc.sendPacket c.dec pkt
  return (x, { c with dec })

/-- decoder.rs:70-72 -/
def DecContext.receiveFrame (c : DecContext D) : Rust (Except Err Frame × DecContext D) := do
  let (x, dec) ← dc.receiveFrame c.dec
  return (x, { c with dec })

/-- decoder.rs:74-76 -/
def DecContext.configure (c : DecContext D) : Rust (Except Err Unit × DecContext D) := do
  let (x, dec) ← dc.configure c.dec
  return (x, { c with dec })

/-- decoder.rs:79-81 -/
def DecContext.flush (c : DecContext D) : Rust (Except Err Unit × DecContext D) := do
  let (x, dec) ← dc.flush c.dec
  return (x, { c with dec })

/-- decoder.rs:84-86 -/
def DecContext.decoder (c : DecContext D) : D := c.dec

/-- Calls on a decoder, and what they return (decoder.rs:61-82). -/
inductive DecOp | extradata (l : List U8) | send (p : Packet) | receive | configure | flush
inductive DecOut | none | unit (x : Except Err Unit) | frame (x : Except Err Frame)

/-- One call (decoder.rs:61-82). -/
def DecContext.step (c : DecContext D) : DecOp → Rust (DecOut × DecContext D)
  | .extradata l => do return (.none, ← c.setExtradata dc l)
  | .send p => do
    let (x, c) ← c.sendPacket dc p
    return (.unit x, c)
  | .receive => do
    let (x, c) ← c.receiveFrame dc
    return (.frame x, c)
  | .configure => do
    let (x, c) ← c.configure dc
    return (.unit x, c)
  | .flush => do
    let (x, c) ← c.flush dc
    return (.unit x, c)

/-- A history of calls. -/
def DecContext.run (c : DecContext D) : List DecOp → Rust (List DecOut × DecContext D)
  | [] => .ok ([], c)
  | op :: ops => do
    let (x, c) ← c.step dc op
    let (xs, c) ← DecContext.run c ops
    return (x :: xs, c)

/-! ### encoders -/

/-- encoder.rs:14-34: any implementation of the trait, with state `E` -/
structure Encoder (E : Type) where
  getExtradata : E → Rust (Option (List U8))
  sendFrame : E → Frame → Rust (Except Err Unit × E)
  receivePacket : E → Rust (Except Err Packet × E)
  flush : E → Rust (Except Err Unit × E)
  configure : E → Rust (Except Err Unit × E)
  setOption : E → String → Value → Rust (Except Err Unit × E)
  setParams : E → CodecParams → Rust (Except Err Unit × E)
  getParams : E → Rust (Except Err CodecParams)

/-- encoder.rs:38-44 -/
structure EncContext (E : Type) where
  enc : E

variable (ec : Encoder E)

/-- encoder.rs:50-57 -/
def EncContext.byName (codecs : Codecs E) (name : String) : Rust (Option (EncContext E)) := do
  return (← codecs.byName name).map fun builder => { enc := builder.create }

/-- encoder.rs:60-62 -/
def EncContext.configure (c : EncContext E) : Rust (Except Err Unit × EncContext E) := do
  let (x, enc) ← ec.configure c.enc
  return (x, { c with enc })

/-- encoder.rs:65-67 -/
def EncContext.setParams (c : EncContext E) (params : CodecParams) : Rust (Except Err Unit × EncContext E) := do
  let (x, enc) ← ec.setParams c.enc params
  return (x, { c with enc })

/-- encoder.rs:70-72 -/
def EncContext.getParams (c : EncContext E) : Rust (Except Err CodecParams) := ec.getParams c.enc

/-- encoder.rs:75-81 -/
def EncContext.setOption (c : EncContext E) (key : String) (val : Raw) : Rust (Except Err Unit × EncContext E) := do
  let (x, enc) ← ec.setOption c.enc key val.into
  return (x, { c with enc })

/-- encoder.rs:84-86 -/
def EncContext.getExtradata (c : EncContext E) : Rust (Option (List U8)) := ec.getExtradata c.enc

/-- encoder.rs:88-90 -/
def EncContext.sendFrame (c : EncContext E) (frame : Frame) : Rust (Except Err Unit × EncContext E) := do
  let (x, enc) ← ec.sendFrame c.enc frame
  return (x, { c with enc })

/-- encoder.rs:93-95 -/
def EncContext.receivePacket (c : EncContext E) : Rust (Except Err Packet × EncContext E) := do
  let (x, enc) ← ec.receivePacket c.enc
  return (x, { c with enc })

/-- encoder.rs:98-100 -/
def EncContext.flush (c : EncContext E) : Rust (Except Err Unit × EncContext E) := do
  let (x, enc) ← ec.flush c.enc
  return (x, { c with enc })

/-- encoder.rs:103-105 -/
def EncContext.encoder (c : EncContext E) : E := c.enc

/-- Calls on an encoder, and what they return (encoder.rs:60-101). -/
inductive EncOp
  | configure | setParams (p : CodecParams) | getParams | option (key : String) (val : Raw) | extradata
  | send (f : Frame) | receive | flush
inductive EncOut
  | unit (x : Except Err Unit) | params (x : Except Err CodecParams) | extradata (x : Option (List U8))
  | packet (x : Except Err Packet)

/-- One call (encoder.rs:60-101). -/
def EncContext.step (c : EncContext E) : EncOp → Rust (EncOut × EncContext E)
  | .configure => do
    let (x, c) ← c.configure ec
    return (.unit x, c)
  | .setParams p => do
    let (x, c) ← c.setParams ec p
    return (.unit x, c)
  | .getParams => do return (.params (← c.getParams ec), c)
  | .option k v => do
    let (x, c) ← c.setOption ec k v
    return (.unit x, c)
  | .extradata => do return (.extradata (← c.getExtradata ec), c)
  | .send f => do
    let (x, c) ← c.sendFrame ec f
    return (.unit x, c)
  | .receive => do
    let (x, c) ← c.receivePacket ec
    return (.packet x, c)
  | .flush => do
    let (x, c) ← c.flush ec
    return (.unit x, c)

/-- A history of calls. -/
def EncContext.run (c : EncContext E) : List EncOp → Rust (List EncOut × EncContext E)
  | [] => .ok ([], c)
  | op :: ops => do
    let (x, c) ← c.step ec op
    let (xs, c) ← EncContext.run c ops
    return (x :: xs, c)

end Verif.Codec
