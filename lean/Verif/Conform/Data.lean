import Verif.Frame.Model
import Verif.Packet.Model
import Verif.Conform.Acc

/-!
# The library's own tests of `packet.rs`, `frame.rs`, `pixel.rs` and `audiosample.rs`, on the model

Each `example` is one `#[test]` function: the same calls, with the results its assertions ask for. Tests that only
print are required not to panic.
-/

namespace Verif.Conform
open Verif Verif.Io Verif.Pixel Verif.Audio Verif.Frame

/-- read_packet, packet.rs:91-99 -/
example : (match Packet.getPacket (fun s n => .ok (Source.read s n)) 99 (cursor (upFrom0 128)) 64 with
    | .ok (.ok pkt, _) => pkt.data == (upFrom0 128).take 64
    | _ => false) = true := by decide +kernel

/-- write_packet, packet.rs:108-126 -/
example : (match Packet.putPacket (fun s l => .ok (Sink.write s l)) 99 ⟨[], 0, fun _ => ⟨none, 4999⟩, 0, 0⟩
      { Packet.withCapacity 1024 with data := upFrom0 1024 } with
    | .ok (.ok (), w) => w.data == upFrom0 1024
    | _ => false) = true := by decide +kernel

/-- fmt, audiosample.rs:369-373 -/
example : [Audio.formats.S16.display, Audio.formats.U8.display, Audio.formats.F32.display].all (· != "") = true := by
  decide +kernel

/-- test_format_cmp, frame.rs:590-611 -/
example : AudioInfo.eq (.new 42 48000 (ChannelMap.new.addChannel .C) Audio.formats.S16 none)
      (.new 4242 48000 (ChannelMap.new.addChannel .C) Audio.formats.S16 none) = true ∧
    AudioInfo.eq (.new 42 48000 (ChannelMap.new.addChannel .C) Audio.formats.S16 none)
      (.new 42 48000 (ChannelMap.new.addChannel .C) Audio.formats.S32 none) = false := by decide +kernel

/-- test_video_format_cmp, frame.rs:616-635 -/
example : (do
    let info1 ← VideoInfo.new 42 42 false .I Pixel.formats.YUV420
    let info2 ← VideoInfo.new 42 42 false .P Pixel.formats.YUV420
    let info3 ← VideoInfo.new 42 42 false .I Pixel.formats.RGB565
    return (info1.eq info2, info1.eq info3) : Rust (Bool × Bool)) = .ok (true, false) := by decide +kernel

/-- test_frame_copy_from_slice, frame.rs:640-652 -/
def copyTest (src : List (List U8)) (linesize : List Nat) : Rust Frame := do
  let info ← VideoInfo.new 42 42 false .I Pixel.formats.YUV420
  let f ← newDefaultFrame (.Video info) none
  copyFromSlice f src linesize

/-- That test is `#[should_panic]`: two sources for three planes. But the sources are one byte long, and before the
third is asked for the copies read 42 bytes from each: the test itself executes undefined behaviour. -/
theorem copyTest_ub : (match copyTest [[0], [0]] [40, 40] with | .error .ub => true | _ => false) = true := by decide +kernel

/-- With sources and lines that are long enough, the panic that is meant: `unwrap` of the missing third. -/
theorem copyTest_panics :
    (match copyTest [List.replicate (42 * 42) 0, List.replicate (42 * 42) 0] [42, 42] with
    | .error .unwrap => true
    | _ => false) = true := by decide +kernel

/-- fmt, pixel.rs:1261-1268 -/
example : [Pixel.formats.YUV420, Pixel.formats.PAL8, Pixel.formats.RGB565, Pixel.formats.RGBA, Pixel.formats.RGB48,
    Pixel.formats.RGBA64].all (fun f => f.display.isOk) = true := by decide +kernel

/-- comparison, pixel.rs:1271-1283 -/
example : (Pixel.formats.YUV420 == Pixel.formats.YUV420) = true := by decide +kernel

end Verif.Conform
