import Verif.RoundTrip.Props
import Verif.Codec.Props

/-!
# Property C106: from frames to frames, through encoder, muxer, file, demuxer and decoder

The library has no codec and no format of its own. The theorem is about any encoder and decoder objects where the
decoder undoes the encoder packet by packet, and any muxer and demuxer as in C91; the registries, the four contexts,
the writer and the reader between them are the library's.
-/

namespace Verif.RoundTrip
open Verif Verif.Io Verif.Frame Verif.Stream Verif.Packet Verif.Demux Verif.Codec

variable {M D E C : Type}

/-- What the file keeps of a packet: what its record keeps, and the timebase of its stream. -/
def kept (streams : List Stream) (wire : Packet → Packet) (p : Packet) : Packet :=
  { wire p with t := { (wire p).t with timebase := (wire p).t.timebase <|>
      (streams.find? (fun s => asIsize s.index = (wire p).stream_index)).map (·.timebase) } }

/-- The packets among the answers of `read_event`. -/
def packetsOf (evs : List (Except Demux.Err Event)) : List Packet :=
  evs.filterMap fun x => match x with
    | .ok (.NewPacket p) => some p
    | _ => none

/-- The decoder undoes the encoder: set up with the encoder's extradata, it gives back every frame that is `fine` when
it is sent what is kept of the frame's packet. -/
structure Decodes (ec : Encoder E) (dc : Decoder C) (via : Packet → Packet) (good : Packet → Prop) (fine : Frame → Prop)
    (x : List U8) (e : E) (d : C) (sync : E → C → Prop) : Prop where
  start : ∃ d1 d2, ec.getExtradata e = .ok (some x) ∧ dc.setExtradata d x = .ok d1 ∧
    dc.configure d1 = .ok (.ok (), d2) ∧ sync e d2
  frame : ∀ e d f, sync e d → fine f → ∃ e1 p e2 d1 d2, ec.sendFrame e f = .ok (.ok (), e1) ∧
    ec.receivePacket e1 = .ok (.ok p, e2) ∧ good p ∧ dc.sendPacket d (via p) = .ok (.ok (), d1) ∧
    dc.receiveFrame d1 = .ok (.ok f, d2) ∧ sync e2 d2

theorem codes {ec : Encoder E} {dc : Decoder C} {via : Packet → Packet} {good : Packet → Prop} {fine : Frame → Prop}
    {x : List U8} {e0 : E} {d0 : C} {sync : E → C → Prop} (h : Decodes ec dc via good fine x e0 d0 sync) :
    ∀ (fs : List Frame) (e : E) (d : C), sync e d → (∀ f ∈ fs, fine f) →
      ∃ (ps : List Packet) (e' : E) (d' : C), ps.length = fs.length ∧ (∀ p ∈ ps, good p) ∧
        EncCalls ec e (fs.flatMap fun f => [.send f, .receive]) (ps.flatMap fun p => [.unit (.ok ()), .packet (.ok p)]) e' ∧
        DecCalls dc d ((ps.map via).flatMap fun p => [.send p, .receive])
          (fs.flatMap fun f => [.unit (.ok ()), .frame (.ok f)]) d' := by
  intro fs
  induction fs with
  | nil => exact fun e d _ _ => ⟨[], e, d, rfl, by simp, .nil, .nil⟩
  | cons f fs ih =>
    intro e d hs hf
    obtain ⟨e1, p, e2, d1, d2, a1, a2, a3, a4, a5, a6⟩ := h.frame e d f hs (hf f (by simp))
    obtain ⟨ps, e', d', b1, b2, b3, b4⟩ := ih e2 d2 a6 (fun g hg => hf g (by simp [hg]))
    refine ⟨p :: ps, e', d', by simp [b1], ?_, .cons (.send a1) (.cons (.receive a2) b3),
      .cons (.send a4) (.cons (.receive a5) b4)⟩
    intro q hq
    rcases List.mem_cons.1 hq with rfl | hq
    · exact a3
    · exact b2 q hq

theorem packetsOf_events (streams : List Stream) (wire : Packet → Packet) (ps : List Packet) (k : Nat) :
    packetsOf (ps.map (fun p => .ok (completed streams (.NewPacket (wire p)))) ++ List.replicate k (.ok .Eof)) =
      ps.map (kept streams wire) := by
  unfold packetsOf
  rw [List.filterMap_append, List.filterMap_replicate_of_none (by rfl), List.append_nil, List.filterMap_map]
  induction ps with
  | nil => rfl
  | cons p ps ih =>
    rw [List.filterMap_cons, List.map_cons, ← ih]
    rfl

/-- C106. Frames sent one by one to the encoder registered under a name give one packet each; muxed into an empty sink
and demuxed from what it received, whatever few bytes at a time both take and give, they give back the same frames when
sent one by one to the decoder registered under its name, after it was set up with the extradata of the file's first
stream. -/
theorem c106_pipeline (ec : Encoder E) (dc : Decoder C)
    (eds : List (Codec.Descriptor E)) (dds : List (Codec.Descriptor C)) (ename dname : String) (ei di : Nat)
    (ed : Codec.Descriptor E) (dd : Codec.Descriptor C)
    (hed : eds[ei]? = some ed ∧ ed.describe.codec = ename ∧ ∀ j e, j < ei → eds[j]? = some e → e.describe.codec ≠ ename)
    (hdd : dds[di]? = some dd ∧ dd.describe.codec = dname ∧ ∀ j e, j < di → dds[j]? = some e → e.describe.codec ≠ dname)
    (F : Format D) (hF : F.Framed) (hdr : M → List U8 × M) (pkt : M → Packet → List U8 × M)
    (trl : M → List U8 × M) (wire : Packet → Packet) (info : GlobalInfo) (m : M) (d : D) (good : Packet → Prop)
    (sync : M → D → Prop) (h : Undoes F hdr pkt trl wire info m d good sync)
    (fine : Frame → Prop) (x : List U8) (sync' : E → C → Prop)
    (hc : Decodes ec dc (kept info.streams wire) good fine x ed.create dd.create sync')
    (hx : ∃ st, info.streams[0]? = some st ∧ st.params.extradata = some x)
    (fs : List Frame) (hfine : ∀ f ∈ fs, fine f)
    (sink : Sink) (h0 : sink.data = [] ∧ sink.pos = 0)
    (hq : ∀ c, (sink.script c).fail = none ∧ 0 < (sink.script c).len)
    (acts : Nat → Act) (ha : ∀ c, (acts c).fail = none) (cap k : Nat) :
    ∃ ce cd, EncContext.byName (Codecs.fromList eds) ename = .ok (some ce) ∧
      DecContext.byName (Codecs.fromList dds) dname = .ok (some cd) ∧
    ∃ (ps : List Packet) (ce' : EncContext E), ps.length = fs.length ∧
      ce.run ec (.extradata :: fs.flatMap fun f => [.send f, .receive]) =
        .ok (.extradata (some x) :: ps.flatMap fun p => [.unit (.ok ()), .packet (.ok p)], ce') ∧
    ∀ fuel, (Mux.fileBytes hdr pkt trl m ps).length < fuel →
    ∃ c, (Mux.Context.new m (Mux.Writer.new sink)).run Mux.sinkOps (Mux.bytesMuxer fuel hdr pkt trl)
        (.header :: ps.map .packet ++ [.trailer]) = .ok (List.replicate (ps.length + 2) (.ok ()), c) ∧
    ∀ file, c.intoWriter.writer.data = file →
    ∃ c1 c2 st y evs cd', readHeaders F.demuxer accBuffered (file.length + 2)
          (Context.new d (Acc.withCapacity cap ⟨file, 0, acts, 0⟩)) = .ok (.ok (), c1) ∧
      readEvents F.demuxer accBuffered (file.length + 1) (ps.length + k) c1 = .ok (evs, c2) ∧
      c1.info.streams[0]? = some st ∧ st.params.extradata = some y ∧
      cd.run dc (.extradata y :: .configure :: (packetsOf evs).flatMap fun p => [.send p, .receive]) =
        .ok (.none :: .unit (.ok ()) :: fs.flatMap fun f => [.unit (.ok ()), .frame (.ok f)], cd') := by
  obtain ⟨re, e1, e2, _⟩ := c41_registry eds ename
  obtain ⟨rd, d1, d2, _⟩ := c41_registry dds dname
  have he := (e2 ed).2 ⟨ei, hed⟩
  have hd := (d2 dd).2 ⟨di, hdd⟩
  subst he hd
  obtain ⟨s1, s2, g1, g2, g3, g4⟩ := hc.start
  obtain ⟨ps, e', d', p1, p2, p3, p4⟩ := codes hc fs _ _ g4 hfine
  refine ⟨⟨ed.create⟩, ⟨dd.create⟩, by simp [EncContext.byName, e1], by simp [DecContext.byName, d1], ps, ⟨e'⟩, p1,
    (enc_run_iff _ _ _ _ _).2 (.cons (.extradata g1) p3), ?_⟩
  intro fuel hfuel
  obtain ⟨c, hm, hr⟩ := c91_roundtrip F hF hdr pkt trl wire info m d good sync h ps p2 sink h0 hq fuel hfuel acts ha cap k
  refine ⟨c, hm, ?_⟩
  intro file hfile
  obtain ⟨c1, c2, r1, r2, r3⟩ := hr file hfile
  obtain ⟨st, x1, x2⟩ := hx
  refine ⟨c1, c2, st, x, _, ⟨d'⟩, r1, r3, by rw [r2]; exact x1, x2, ?_⟩
  rw [packetsOf_events]
  exact (dec_run_iff _ _ _ _ _).2 (.cons (.extradata g2) (.cons (.configure g3) p4))

/-! ### A codec for the examples: a packet holds the samples of an audio frame with one channel -/

/-- A frame of 8-bit samples, timed by the stream. -/
def pcmFrame (l : List U8) : Frame :=
  ⟨.Audio (.new l.length 48000 ⟨[.C]⟩ Audio.formats.U8 none), [⟨l, l.length⟩], { TimeInfo.default with timebase := some ⟨1, 25⟩ }⟩

/-- The encoder keeps the samples last sent, the decoder whether it was configured and the packet last sent. -/
def pcmEncoder : Encoder (List U8) where
  getExtradata _ := .ok (some [1, 2])
  sendFrame _ f := .ok (match f.planes with
    | [p] => (.ok (), p.buf)
    | _ => (.error .InvalidData, []))
  receivePacket l := .ok (.ok { Packet.new with data := l }, [])
  flush _ := .ok (.ok (), [])
  configure l := .ok (.ok (), l)
  setOption l k _ := .ok (.error (.Unsupported k), l)
  setParams l _ := .ok (.ok (), l)
  getParams _ := .ok (.error .ConfigurationIncomplete)

def pcmDecoder : Decoder (List U8 × Bool × Option Packet) where
  setExtradata s l := .ok (l, s.2)
  sendPacket s p := .ok (if s.2.1 then (.ok (), (s.1, true, some p)) else (.error .ConfigurationIncomplete, s))
  receiveFrame s := .ok (match s.2.2 with
    | some p => (.ok { pcmFrame p.data with t := p.t }, (s.1, s.2.1, none))
    | none => (.error .MoreDataNeeded, s))
  configure s := .ok (if s.1 = [1, 2] then (.ok (), (s.1, true, s.2.2)) else (.error .ConfigurationInvalid, s))
  flush s := .ok (.ok (), (s.1, s.2.1, none))

theorem pcm_decodes : Decodes pcmEncoder pcmDecoder
    (kept theInfo.streams fun p => { Packet.new with data := p.data, stream_index := 0 })
    (fun p => 0 < p.data.length ∧ p.data.length < 256) (fun f => ∃ l : List U8, f = pcmFrame l ∧ 0 < l.length ∧ l.length < 256)
    [1, 2] [] ([], false, none) (fun _ d => d = ([1, 2], true, none)) where
  start := ⟨_, _, rfl, rfl, rfl, rfl⟩
  frame e d f hd hf := by
    obtain ⟨l, rfl, h1, h2⟩ := hf
    subst hd
    exact ⟨_, _, _, _, _, rfl, rfl, ⟨h1, h2⟩, rfl, rfl, rfl⟩

def pcmEncoders : List (Codec.Descriptor (List U8)) := [⟨[9], ⟨"opus", "o", "", ""⟩⟩, ⟨[], ⟨"pcm", "p", "", ""⟩⟩]
def pcmDecoders : List (Codec.Descriptor (List U8 × Bool × Option Packet)) :=
  [⟨([], false, none), ⟨"pcm", "p", "", ""⟩⟩, ⟨([], true, none), ⟨"pcm", "q", "", ""⟩⟩]

/-- The hypotheses of C106 hold for that codec and the format of C91's examples. -/
example : pcmEncoders[1]? = some ⟨[], ⟨"pcm", "p", "", ""⟩⟩ ∧
    (∀ (j : Nat) (e : Codec.Descriptor (List U8)), j < 1 → pcmEncoders[j]? = some e → e.describe.codec ≠ "pcm") ∧
    pcmDecoders[0]? = some ⟨([], false, none), ⟨"pcm", "p", "", ""⟩⟩ ∧
    (∃ st, theInfo.streams[0]? = some st ∧ st.params.extradata = some [1, 2]) ∧
    ∀ f ∈ [pcmFrame [7, 8, 9], pcmFrame [6]], ∃ l : List U8, f = pcmFrame l ∧ 0 < l.length ∧ l.length < 256 := by
  refine ⟨rfl, ?_, rfl, ⟨_, rfl, rfl⟩, ?_⟩
  · intro j e hj he
    obtain rfl : j = 0 := by omega
    cases he
    decide
  · simp only [List.mem_cons, List.not_mem_nil, or_false]
    rintro f (rfl | rfl)
    · exact ⟨_, rfl, by decide⟩
    · exact ⟨_, rfl, by decide⟩

/-- Without the extradata of the stream the decoder does not start. -/
example : (match DecContext.byName (Codecs.fromList pcmDecoders) "pcm" with
    | .ok (some c) => (match c.run pcmDecoder [.configure, .send Packet.new] with
      | .ok ([.unit (.error .ConfigurationInvalid), .unit (.error .ConfigurationIncomplete)], _) => true
      | _ => false)
    | _ => false) = true := by decide

end Verif.RoundTrip
