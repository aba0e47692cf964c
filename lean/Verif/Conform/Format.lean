import Verif.Demux.Diverge
import Verif.Mux.Props
import Verif.Conform.Acc

/-!
# The library's own tests of `demuxer.rs`, `muxer.rs` and `error.rs`, on the model

Each `example` is one `#[test]` function: the same calls, with the results its assertions ask for.
-/

namespace Verif.Conform
open Verif Verif.Io Verif.Demux Verif.Mux

/-! ### demuxer.rs -/

/-- demuxer.rs:276-301 -/
def dummyDes : Demux.Descriptor Unit where
  create := ()
  describe := ⟨"dummy", "dummy", "Dummy dem", ["dm", "dum"], ["application/dummy"]⟩
  probe data := if data = ascii "dummy" then 100 else 0

/-- probe, demuxer.rs:304-308 -/
example : (Demux.probe [dummyDes] (ascii "dummy")).isSome = true := by decide +kernel

/-- read_headers, demuxer.rs:314-321 -/
example : (match readHeaders dummyDemuxer accBuffered 99
      (Demux.Context.new () (Acc.withCapacity 4 (cursor (ascii "dummy header")))) with
    | .ok (.ok (), _) => true
    | _ => false) = true := by decide +kernel

/-- read_event, demuxer.rs:324-338: the headers are read, and four calls return. (What they return is printed, not
checked: the header of the stream is longer than the demuxer takes it to be, so it is `InvalidData` each time.) -/
example : (match readHeaders dummyDemuxer accBuffered 99
      (Demux.Context.new () (Acc.withCapacity 4 (cursor (ascii "dummy header p1 e1 p1 ")))) with
    | .ok (.ok (), c) =>
      match readEvents dummyDemuxer accBuffered 99 4 c with
      | .ok (xs, _) => xs == [.error .InvalidData, .error .InvalidData, .error .InvalidData, .error .InvalidData]
      | .error _ => false
    | _ => false) = true := by decide +kernel

/-! ### muxer.rs -/

/-- `out.write_all(bytes).unwrap()`, at most `fuel` rounds of the loop of `write_all` -/
def writeAllUnwrap (fuel : Nat) (bytes : List U8) (w : Writer Sink) : Rust (Except Err Unit × Unit × Writer Sink) := do
  let (x, w) ← writeAll (Writer.write sinkOps) fuel w bytes
  match x with
  | .error _ => .error .unwrap
  | .ok () => return (.ok (), (), w)

/-- muxer.rs:216-252 -/
def dummyMuxer (fuel : Nat) : Muxer Unit Sink where
  configure _ := .ok (.ok (), ())
  writeHeader _ w := writeAllUnwrap fuel (ascii "Dummy header") w
  writePacket _ w pkt := writeAllUnwrap fuel pkt.data w
  writeTrailer _ w := writeAllUnwrap fuel (ascii "Dummy trailer") w
  setGlobalInfo _ _ := .ok (.ok (), ())
  setOption _ _ _ := .ok (.ok (), ())

/-- muxer.rs:254-274 -/
def dummyMuxDes : Mux.Descriptor Unit where
  create := ()
  describe := ⟨"dummy", "dummy", "Dummy mux", ["mx", "mux"], ["application/dummy"]⟩

/-- lookup, muxer.rs:277-281 -/
example : (Mux.byName [dummyMuxDes] "dummy").isSome = true := by decide +kernel

/-- `Vec::new()`, or an empty file: takes every write whole. -/
def emptySink : Sink := ⟨[], 0, fun _ => ⟨none, 999⟩, 0, 0⟩

/-- run_muxer, muxer.rs:283-299: every call succeeds -/
def runMuxer : Option (Mux.Context Unit Sink) :=
  match Mux.Context.run sinkOps (dummyMuxer 99) (Mux.Context.new () (Writer.new emptySink))
      [.configure, .header, .packet (Packet.zeroed 2), .packet (Packet.zeroed 2), .trailer] with
  | .ok ([.ok (), .ok (), .ok (), .ok (), .ok ()], c) => some c
  | _ => none

/-- vec_muxer, muxer.rs:328-338, with check_underlying_buffer, 301-325 -/
example : (match runMuxer with
    | some c => decide (c.writer.asRef.1.data.take 12 = ascii "Dummy header" ∧
        (c.writer.asRef.1.data.drop 12).take (2 * 2) = [0, 0, 0, 0] ∧
        c.writer.asRef.1.data.drop (12 + 2 * 2) = ascii "Dummy trailer" ∧
        c.writer.asRef.2 = 12 + 2 * 2 + 13)
    | none => false) = true := by decide +kernel

/-- file_muxer, muxer.rs:357-365 -/
example : (match runMuxer with
    | some c =>
      match c.intoWriter.seek sinkOps (.start 3) with
      | .ok (.ok _, w) => decide (w.bytes_written = 3 ∧ w.asRef.1.data.length ≠ 0)
      | _ => false
    | none => false) = true := by decide +kernel

/-! ### error.rs -/

/-- io_error_conversion, error.rs:48-57 -/
example : (match Err.fromIo (.other 0) with | .Io _ => true | _ => false) = true := by decide

end Verif.Conform
