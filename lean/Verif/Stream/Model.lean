import Verif.Frame.Model

/-!
# Model of `data/src/params.rs`, `format/src/stream.rs` and `format/src/common.rs`

`Arc<T>` is `T`; `user_private` is an opaque token; `isize` is `Int`.
-/

namespace Verif.Stream
open Verif Verif.Frame Verif.Audio Verif.Pixel

/-- params.rs:9-16 -/
structure VideoInfo where
  width : Nat
  height : Nat
  format : Option Formaton
  deriving DecidableEq, Repr

/-- params.rs:20-27 -/
structure AudioInfo where
  rate : Nat
  map : Option ChannelMap
  format : Option Soniton
  deriving DecidableEq, Repr

/-- params.rs:31-36 -/
inductive MediaKind | Video (info : VideoInfo) | Audio (info : AudioInfo)
  deriving DecidableEq, Repr

/-- params.rs:40-55 -/
structure CodecParams where
  kind : Option MediaKind
  codec_id : Option String
  extradata : Option (List U8)
  bit_rate : Nat
  convergence_window : Nat
  delay : Nat
  deriving DecidableEq, Repr

/-- stream.rs:8-34 -/
structure Stream where
  id : Int
  index : Nat
  params : CodecParams
  start : Option Nat
  duration : Option Nat
  timebase : Rational64
  user_private : Option Nat
  deriving DecidableEq, Repr

/-- stream.rs:38-48 -/
def Stream.fromParams (params : CodecParams) (timebase : Rational64) : Stream :=
  { id := -1, index := 0, params, start := none, duration := none, timebase, user_private := none }

/-- stream.rs:50-52 -/
def Stream.getExtradata (s : Stream) : Option (List U8) := s.params.extradata

/-- `n as isize` for a `usize` (common.rs:25, demuxer.rs:130) -/
def asIsize (n : Nat) : Int := if n < 2 ^ 63 then n else n - 2 ^ 64

/-- common.rs:6-17 -/
structure GlobalInfo where
  duration : Option Nat
  timebase : Option Rational64
  streams : List Stream
  deriving DecidableEq, Repr

/-- common.rs:21-32 -/
def GlobalInfo.addStream (g : GlobalInfo) (st : Stream) : Nat × GlobalInfo :=
  let idx := g.streams.length
  let st := if st.id < 0 then { st with id := asIsize st.index } else st
  let st := { st with index := idx }
  (idx, { g with streams := g.streams ++ [st] })

/-- A sequence of `add_stream` calls: the results and the final state. -/
def GlobalInfo.addAll (g : GlobalInfo) : List Stream → List Nat × GlobalInfo
  | [] => ([], g)
  | st :: sts =>
    let (i, g) := g.addStream st
    let (is, g) := g.addAll sts
    (i :: is, g)

end Verif.Stream
