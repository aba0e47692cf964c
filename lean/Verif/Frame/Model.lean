import Verif.Audio.Model
import Verif.Pixel.Model

/-!
# Model of `data/src/frame.rs` (and `data/src/timeinfo.rs`)

`Arc<T>` is `T` (comparison of `Arc`s compares the contents). `Box<dyn FrameBuffer>` is the list of planes the
buffer shows; a default frame is one instance, and the copy functions are modelled for every list of planes.
Memory exhaustion is not modelled.
-/

namespace Verif.Frame
open Verif Verif.Data Verif.Audio Verif.Pixel

/-- `num_rational::Rational64` (timeinfo.rs:3, 20) -/
structure Rational64 where
  numer : Int
  denom : Int
  deriving DecidableEq, Repr

/-- timeinfo.rs:9-23; `user_private` is an opaque token -/
structure TimeInfo where
  pts : Option Int
  dts : Option Int
  duration : Option Nat
  timebase : Option Rational64
  user_private : Option Nat
  deriving DecidableEq, Repr

/-- timeinfo.rs:8 (derived `Default`) -/
def TimeInfo.default : TimeInfo := ⟨none, none, none, none, none⟩

/-- frame.rs:21-26 -/
inductive FrameError | InvalidIndex | InvalidConversion
  deriving DecidableEq, Repr

/-- frame.rs:30-37 (the text written) -/
def FrameError.display : FrameError → String
  | InvalidIndex => "Invalid Index"
  | InvalidConversion => "Invalid Conversion"

/-- frame.rs:43-57 -/
inductive FrameType | I | P | B | SKIP | OTHER
  deriving DecidableEq, Repr

/-- frame.rs:59-69 (the text written) -/
def FrameType.display : FrameType → String
  | I => "I" | P => "P" | B => "B" | SKIP => "Skip" | OTHER => "x"

/-- frame.rs:73-86 -/
structure VideoInfo where
  width : Nat
  height : Nat
  flipped : Bool
  frame_type : FrameType
  format : Formaton
  bits : Nat
  deriving DecidableEq, Repr

namespace VideoInfo

/-- frame.rs:90-106 -/
def new (width height : Nat) (flipped : Bool) (frame_type : FrameType) (format : Formaton) : Rust VideoInfo := do
  let bits ← format.getTotalDepth
  return { width, height, flipped, frame_type, format, bits }

/-- frame.rs:109-111 -/
def getWidth (v : VideoInfo) : Nat := v.width
/-- frame.rs:113-115 -/
def getHeight (v : VideoInfo) : Nat := v.height
/-- frame.rs:117-119 -/
def isFlipped (v : VideoInfo) : Bool := v.flipped
/-- frame.rs:121-123 -/
def getFrameType (v : VideoInfo) : FrameType := v.frame_type
/-- frame.rs:125-127 -/
def getFormat (v : VideoInfo) : Formaton := v.format
/-- frame.rs:130-132 -/
def setWidth (v : VideoInfo) (width : Nat) : VideoInfo := { v with width }
/-- frame.rs:134-136 -/
def setHeight (v : VideoInfo) (height : Nat) : VideoInfo := { v with height }

/-- frame.rs:141-145: the loop -/
def sizeFrom (w h align : Nat) : Nat → List (Option Chromaton) → Rust Nat
  | size, [] => .ok size
  | size, none :: cs => sizeFrom w h align size cs
  | size, some c :: cs => do
    let s ← uadd size (← c.getDataSize w h align)
    sizeFrom w h align s cs

/-- frame.rs:139-147 -/
def size (v : VideoInfo) (align : Nat) : Rust Nat := sizeFrom v.width v.height align 0 v.format.comp_info

/-- frame.rs:156-160 -/
def eq (a b : VideoInfo) : Bool := a.width == b.width && a.height == b.height && a.format == b.format

/-- frame.rs:150-154 (the text written) -/
def display (v : VideoInfo) : String := toString v.width ++ "x" ++ toString v.height

end VideoInfo

/-- frame.rs:164-177 -/
structure AudioInfo where
  samples : Nat
  sample_rate : Nat
  map : ChannelMap
  format : Soniton
  block_len : Option Nat
  deriving DecidableEq, Repr

namespace AudioInfo

/-- frame.rs:181-195 -/
def new (samples sample_rate : Nat) (map : ChannelMap) (format : Soniton) (block_len : Option Nat) : AudioInfo :=
  { samples, sample_rate, map, format, block_len }

/-- frame.rs:197-199 -/
def getSampleRate (a : AudioInfo) : Nat := a.sample_rate
/-- frame.rs:201-203 -/
def getChannelsNumber (a : AudioInfo) : Nat := a.map.len
/-- frame.rs:205-207 -/
def getFormat (a : AudioInfo) : Soniton := a.format
/-- frame.rs:209-211 -/
def getSamples (a : AudioInfo) : Nat := a.samples
/-- frame.rs:214-216 -/
def getBlockLen (a : AudioInfo) : Option Nat := a.block_len

/-- frame.rs:219-221 -/
def size (a : AudioInfo) (align : Nat) : Rust Nat := do
  umul (← a.format.getAudioSize a.samples align) a.map.len

/-- frame.rs:235-241 -/
def eq (a b : AudioInfo) : Bool := a.sample_rate == b.sample_rate && a.map == b.map && a.format == b.format

/-- frame.rs:224-233 (the text written) -/
def display (a : AudioInfo) : String := toString a.sample_rate ++ " Hz, " ++ toString a.getChannelsNumber ++ " ch"

end AudioInfo

/-- frame.rs:245-250 -/
inductive MediaKind | Video (info : VideoInfo) | Audio (info : AudioInfo)
  deriving DecidableEq, Repr

namespace MediaKind

/-- frame.rs:244 (derived `PartialEq`) -/
def eq : MediaKind → MediaKind → Bool
  | Video a, Video b => a.eq b
  | Audio a, Audio b => a.eq b
  | _, _ => false

/-- frame.rs:254-260 -/
def getVideoInfo : MediaKind → Option VideoInfo
  | Video v => some v
  | Audio _ => none

/-- frame.rs:262-268 -/
def getAudioInfo : MediaKind → Option AudioInfo
  | Audio a => some a
  | Video _ => none

/-- frame.rs:270-272 -/
def isVideo : MediaKind → Bool
  | Video _ => true
  | Audio _ => false

/-- frame.rs:274-276 -/
def isAudio : MediaKind → Bool
  | Audio _ => true
  | Video _ => false

/-- frame.rs:279-287 (the text written) -/
def display : MediaKind → String
  | Audio a => a.display
  | Video v => v.display

/-- frame.rs:289-293 -/
def fromVideo (v : VideoInfo) : MediaKind := Video v
/-- frame.rs:295-299 -/
def fromAudio (a : AudioInfo) : MediaKind := Audio a

end MediaKind

/-- frame.rs:371 -/
def ALIGNMENT : Nat := 32

/-- frame.rs:373-376 -/
structure Plane where
  buf : List U8
  linesize : Nat
  deriving DecidableEq, Repr

/-- frame.rs:378-381 -/
structure DefaultFrameBuffer where
  buf : List U8
  planes : List Plane
  deriving DecidableEq, Repr

namespace DefaultFrameBuffer

/-- frame.rs:384-389 -/
def linesize (b : DefaultFrameBuffer) (i : Nat) : Except FrameError Nat :=
  match b.planes[i]? with
  | none => .error .InvalidIndex
  | some p => .ok p.linesize

/-- frame.rs:390-392 -/
def count (b : DefaultFrameBuffer) : Nat := b.planes.length

/-- frame.rs:394-399 -/
def asSliceInner (b : DefaultFrameBuffer) (i : Nat) : Except FrameError (List U8) :=
  match b.planes[i]? with
  | none => .error .InvalidIndex
  | some p => .ok p.buf

/-- `BytesMut::split_to(at)`: the first `at` bytes and the rest; panics behind the end (frame.rs:423, 445, 451). -/
def splitTo (l : List U8) (n : Nat) : Rust (List U8 × List U8) :=
  if n ≤ l.length then .ok (l.take n, l.drop n) else .error .assert

/-- frame.rs:422-425, 444-447, 450-453 -/
def pushPlane (b : DefaultFrameBuffer) (planesize linesize : Nat) : Rust DefaultFrameBuffer := do
  let (p, rest) ← splitTo b.buf planesize
  return { buf := rest, planes := b.planes ++ [{ buf := p, linesize }] }

/-- frame.rs:418-427: the loop over the components -/
def videoPlanes (w h : Nat) : DefaultFrameBuffer → List (Option Chromaton) → Rust DefaultFrameBuffer
  | b, [] => .ok b
  | b, none :: cs => videoPlanes w h b cs
  | b, some c :: cs => do
    let planesize ← c.getDataSize w h ALIGNMENT
    let linesize ← c.getLinesize w ALIGNMENT
    videoPlanes w h (← b.pushPlane planesize linesize) cs

/-- frame.rs:442-448: the loop over the channels -/
def audioPlanes (a : AudioInfo) : DefaultFrameBuffer → Nat → Rust DefaultFrameBuffer
  | b, 0 => .ok b
  | b, n + 1 => do
    let size ← a.format.getAudioSize a.samples ALIGNMENT
    audioPlanes a (← b.pushPlane size size) n

/-- frame.rs:409-458 -/
def new : MediaKind → Rust DefaultFrameBuffer
  | .Video v => do
    let size ← v.size ALIGNMENT
    videoPlanes v.width v.height { buf := List.replicate size 0, planes := [] } v.format.comp_info
  | .Audio a => do
    let size ← a.size ALIGNMENT
    let b : DefaultFrameBuffer := { buf := List.replicate size 0, planes := [] }
    if a.format.planar then audioPlanes a b a.map.len else b.pushPlane size size

end DefaultFrameBuffer

/-- frame.rs:463-470 -/
structure Frame where
  kind : MediaKind
  planes : List Plane
  t : TimeInfo
  deriving DecidableEq, Repr

/-- frame.rs:474-486 -/
def newDefaultFrame (kind : MediaKind) (t : Option TimeInfo) : Rust Frame := do
  let buf ← DefaultFrameBuffer.new kind
  return { kind, planes := buf.planes, t := t.getD .default }

/-! ### copies -/

/-- The chunks of `l.chunks(n)`, for `n > 0`: `n` bytes each, the last one possibly shorter (frame.rs:569-570). -/
def chunksAux (n : Nat) : Nat → List U8 → List (List U8)
  | 0, _ => []
  | _ + 1, [] => []
  | fuel + 1, l => l.take n :: chunksAux n fuel (l.drop n)

/-- `slice.chunks(n)` (frame.rs:569-570) -/
def chunks (l : List U8) (n : Nat) : Rust (List (List U8)) :=
  if n = 0 then .error .chunkZero else .ok (chunksAux n l.length l)

/-- frame.rs:572-578: for the first `height` pairs of chunks, copy `width` bytes. Leaving a chunk is undefined
behaviour. -/
def copyRows (width : Nat) : Nat → List (List U8) → List (List U8) → Rust (List (List U8))
  | 0, ds, _ => .ok ds
  | _ + 1, [], _ => .ok []
  | _ + 1, ds, [] => .ok ds
  | height + 1, d :: ds, s :: ss =>
    if width ≤ s.length ∧ width ≤ d.length then do
      let rest ← copyRows width height ds ss
      return (s.take width ++ d.drop width) :: rest
    else .error .ub

/-- frame.rs:561-579: the destination afterwards -/
def copyPlane (dst : List U8) (dstLinesize : Nat) (src : List U8) (srcLinesize width height : Nat) :
    Rust (List U8) := do
  let dc ← chunks dst dstLinesize
  let sc ← chunks src srcLinesize
  return (← copyRows width height dc sc).flatten

/-- frame.rs:490-501 -/
def copyPlaneToBuffer (f : Frame) (i : Nat) (dst : List U8) (dstLinesize : Nat) : Rust (List U8) :=
  match f.kind with
  | .Audio _ => .error .unimplemented
  | .Video v =>
    match f.planes[i]? with
    | none => .error .unwrap
    | some p => copyPlane dst dstLinesize p.buf p.linesize v.width v.height

/-- frame.rs:511-523: destinations, line sizes, planes and components in step -/
def copyOut (w h : Nat) :
    List (List U8) → List Nat → List Plane → List (Option Chromaton) → Rust (List (List U8))
  | d :: ds, l :: ls, p :: ps, c :: cs =>
    match c with
    | none => .error .unwrap
    | some c => do
      let d ← copyPlane d l p.buf p.linesize (← c.getWidth w) (← c.getHeight h)
      return d :: (← copyOut w h ds ls ps cs)
  | ds, _, _, _ => .ok ds

/-- frame.rs:503-527: the destinations afterwards -/
def copyFrameToBuffer (f : Frame) (dst : List (List U8)) (dstLinesizes : List Nat) : Rust (List (List U8)) :=
  match f.kind with
  | .Audio _ => .error .unimplemented
  | .Video v => copyOut v.width v.height dst dstLinesizes f.planes v.format.comp_info

/-- frame.rs:540-554: the loop over the planes -/
def copyIn (w h : Nat) :
    List Plane → List (List U8) → List Nat → List (Option Chromaton) → Rust (List Plane)
  | [], _, _, _ => .ok []
  | p :: ps, s :: ss, l :: ls, some c :: cs => do
    let d ← copyPlane p.buf p.linesize s l (← c.getWidth w) (← c.getHeight h)
    return { p with buf := d } :: (← copyIn w h ps ss ls cs)
  | _ :: _, _, _, _ => .error .unwrap

/-- frame.rs:531-558 -/
def copyFromSlice (f : Frame) (src : List (List U8)) (srcLinesize : List Nat) : Rust Frame :=
  match f.kind with
  | .Audio _ => .error .unimplemented
  | .Video v => do
    let planes ← copyIn v.width v.height f.planes src srcLinesize v.format.comp_info
    return { f with planes }

/-! ### typed views -/

/-- `byte_slice_cast::AsSliceOf::as_slice_of::<T>` for a slice at address `addr` and a `T` of `sz` bytes, aligned to
`sz`: the bytes of each element. Fails on a misaligned address or a length that is no multiple. Whether an empty slice
at a misaligned address passes is the crate's choice (frame.rs does not pin its version): `eo` says it does
(frame.rs:331, 338). -/
def asSliceOf (eo : Bool) (addr sz : Nat) (l : List U8) : Option (List (List U8)) :=
  if (addr % sz = 0 ∨ (eo = true ∧ l = [])) ∧ l.length % sz = 0 then some (chunksAux sz l.length l) else none

/-- frame.rs:329-333 (and 336-340) for a plane stored at address `addr` -/
def asSlice (eo : Bool) (b : DefaultFrameBuffer) (addr sz i : Nat) : Except FrameError (List (List U8)) :=
  match b.asSliceInner i with
  | .error e => .error e
  | .ok l =>
    match asSliceOf eo addr sz l with
    | none => .error .InvalidConversion
    | some v => .ok v

end Verif.Frame
