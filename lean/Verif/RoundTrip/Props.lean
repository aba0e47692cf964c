import Verif.Demux.Framing
import Verif.Mux.Props

/-!
# Property C91: what is muxed can be demuxed

The library has no format of its own. The theorem is about any muxer that computes the bytes it writes and any
format whose parsers undo that; everything between the two (muxing context, writer, sink, reader, `AccReader`,
demuxing context) is the library's.
-/

namespace Verif.RoundTrip
open Verif Verif.Io Verif.Frame Verif.Stream Verif.Packet Verif.Demux

variable {M D : Type}

/-- The format undoes the muxer: `wire p` is what its records keep of the packet `p`. -/
structure Undoes (F : Format D) (hdr : M → List U8 × M) (pkt : M → Packet → List U8 × M) (trl : M → List U8 × M)
    (wire : Packet → Packet) (info : GlobalInfo) (m : M) (d : D) (good : Packet → Prop) (sync : M → D → Prop) :
    Prop where
  header : ∃ d', F.head d ⟨none, none, []⟩ (hdr m).1 = some ((hdr m).1.length, d', info) ∧ sync (hdr m).2 d'
  packet : ∀ m d p, sync m d → good p →
    ∃ d', F.parse d (pkt m p).1 = some ((pkt m p).1.length, .NewPacket (wire p), d') ∧ sync (pkt m p).2 d'
  trailer : ∀ m d, sync m d → F.parse d (trl m).1 = none

theorem events_packets {F : Format D} (hF : F.Framed) {hdr : M → List U8 × M} {pkt : M → Packet → List U8 × M}
    {trl : M → List U8 × M} {wire : Packet → Packet} {info : GlobalInfo} {m0 : M} {d0 : D} {good : Packet → Prop}
    {sync : M → D → Prop} (h : Undoes F hdr pkt trl wire info m0 d0 good sync) (streams : List Stream) (k : Nat) :
    ∀ (ps : List Packet) (m : M) (d : D), (∀ p ∈ ps, good p) → sync m d →
      F.events (ps.length + k) d streams ((Mux.packetBytes pkt m ps).1 ++ (trl (Mux.packetBytes pkt m ps).2).1) =
        ps.map (fun p => completed streams (.NewPacket (wire p))) ++ List.replicate k .Eof := by
  intro ps
  induction ps with
  | nil =>
    intro m d _ hs
    have ht := h.trailer m d hs
    simp only [Mux.packetBytes, List.nil_append, List.length_nil, Nat.zero_add, List.map_nil]
    induction k with
    | zero => rfl
    | succ k ih => simp only [Format.events, ht, ih, List.replicate_succ]
  | cons p ps ih =>
    intro m d hg hs
    obtain ⟨d', h1, h2⟩ := h.packet m d p hs (hg p (by simp))
    have h3 := hF.stable d _ ((Mux.packetBytes pkt (pkt m p).2 ps).1 ++ (trl (Mux.packetBytes pkt (pkt m p).2 ps).2).1) _ h1
    rw [List.length_cons, show ps.length + 1 + k = (ps.length + k) + 1 by omega]
    simp only [Mux.packetBytes, List.append_assoc, Format.events, h3, List.drop_left, List.map_cons, List.cons_append]
    rw [show announced (.ok (Event.NewPacket (wire p))) = [] from rfl, List.append_nil,
      ih (pkt m p).2 d' (fun q hq => hg q (by simp [hq])) h2]

/-- C91. Muxing any packets into an empty sink that takes any few bytes at a time, and demuxing what the sink
received through an `AccReader` of any capacity over a reader that gives any few bytes at a time, returns the
streams of the header, the packets in order, as far as the format keeps them and with the timebase of their
streams, and then `Eof`. -/
theorem c91_roundtrip (F : Format D) (hF : F.Framed) (hdr : M → List U8 × M) (pkt : M → Packet → List U8 × M)
    (trl : M → List U8 × M) (wire : Packet → Packet) (info : GlobalInfo) (m : M) (d : D) (good : Packet → Prop)
    (sync : M → D → Prop) (h : Undoes F hdr pkt trl wire info m d good sync)
    (ps : List Packet) (hg : ∀ p ∈ ps, good p)
    (sink : Sink) (h0 : sink.data = [] ∧ sink.pos = 0)
    (hq : ∀ c, (sink.script c).fail = none ∧ 0 < (sink.script c).len) (fuel : Nat)
    (hfuel : (Mux.fileBytes hdr pkt trl m ps).length < fuel)
    (acts : Nat → Act) (ha : ∀ c, (acts c).fail = none) (cap k : Nat) :
    ∃ c, (Mux.Context.new m (Mux.Writer.new sink)).run Mux.sinkOps (Mux.bytesMuxer fuel hdr pkt trl)
        (.header :: ps.map .packet ++ [.trailer]) = .ok (List.replicate (ps.length + 2) (.ok ()), c) ∧
      ∀ file, c.intoWriter.writer.data = file →
      ∃ c1 c2, readHeaders F.demuxer accBuffered (file.length + 2)
          (Context.new d (Acc.withCapacity cap ⟨file, 0, acts, 0⟩)) = .ok (.ok (), c1) ∧ c1.info = info ∧
        readEvents F.demuxer accBuffered (file.length + 1) (ps.length + k) c1 =
          .ok (ps.map (fun p => .ok (completed info.streams (.NewPacket (wire p)))) ++ List.replicate k (.ok .Eof), c2) := by
  obtain ⟨c, hc, hb, _⟩ := Mux.c39_file fuel hdr pkt trl m sink h0 hq ps hfuel
  refine ⟨c, hc, ?_⟩
  intro file hfile
  rw [hb] at hfile
  subst hfile
  obtain ⟨d', h1, h2⟩ := h.header
  have hh := hF.headStable d _ _ ((Mux.packetBytes pkt (hdr m).2 ps).1 ++
    (trl (Mux.packetBytes pkt (hdr m).2 ps).2).1) _ h1
  rw [← List.append_assoc] at hh
  obtain ⟨c1, c2, a1, a2, a3⟩ := c90_file F hF _ cap ⟨Mux.fileBytes hdr pkt trl m ps, 0, acts, 0⟩ rfl rfl ha d d' _ info
    hh (ps.length + k)
  refine ⟨c1, c2, a1, a2, ?_⟩
  rw [a3, Mux.fileBytes, List.append_assoc, List.drop_left, events_packets hF h info.streams k ps _ d' hg h2]
  simp

/-! ### A format for the examples: the header "AV", a length byte before each packet's data, the trailer 0 -/

def theInfo : GlobalInfo :=
  ⟨none, none, [{ Stream.fromParams { sampleParams with extradata := some [1, 2] } ⟨1, 25⟩ with id := 0 }]⟩

def avFormat : Format Unit where
  head _ _ w := match w with
    | 65 :: 86 :: _ => some (2, (), theInfo)
    | _ => none
  headNeed _ _ _ := 2
  parse _ w := match w with
    | [] => none
    | n :: l => if n = 0 ∨ l.length < n.toNat then none
      else some (n.toNat + 1, .NewPacket { Packet.new with data := l.take n.toNat, stream_index := 0 }, ())
  need _ w := match w with
    | [] => 1
    | n :: l => (n :: l).length + n.toNat + 1

def avHdr (m : Nat) : List U8 × Nat := ([65, 86], m)
def avPkt (m : Nat) (p : Packet) : List U8 × Nat := (BitVec.ofNat 8 p.data.length :: p.data, m + 1)
def avTrl (m : Nat) : List U8 × Nat := ([0], m)

theorem av_framed : avFormat.Framed where
  headStable d i w u x h := by
    simp only [avFormat] at h ⊢
    split at h
    · simpa using h
    · cases h
  headNeed _ _ _ _ := by simp [avFormat]
  stable d w u x h := by
    simp only [avFormat] at h ⊢
    cases w with
    | nil => cases h
    | cons n l =>
      simp only [List.cons_append] at h ⊢
      by_cases hc : n = 0 ∨ l.length < n.toNat
      · rw [if_pos hc] at h; cases h
      · rw [if_neg hc] at h
        have h1 := not_or.1 hc
        rw [if_neg (not_or.2 ⟨h1.1, by rw [List.length_append]; omega⟩), List.take_append_of_le_length (by omega)]
        exact h
  need d w h := by
    cases w with
    | nil => simp [avFormat]
    | cons n l => simp only [avFormat]; omega
  answers d w k ev d' n h := by
    simp only [avFormat] at h
    cases w with
    | nil => cases h
    | cons n l =>
      simp only at h
      split at h
      · cases h
      · cases h; simp

theorem av_fits : avFormat.Fits where
  head d i w k d' i' h := by
    simp only [avFormat] at h
    split at h
    · cases h; simp
    · cases h
  parse d w k ev d' h := by
    simp only [avFormat] at h
    cases w with
    | nil => cases h
    | cons n l =>
      simp only at h
      split at h
      · cases h
      · cases h; simp only [List.length_cons]; omega

theorem av_undoes : Undoes avFormat avHdr avPkt avTrl (fun p => { Packet.new with data := p.data, stream_index := 0 })
    theInfo 0 () (fun p => 0 < p.data.length ∧ p.data.length < 256) (fun _ _ => True) where
  header := ⟨(), rfl, trivial⟩
  packet m d p _ hp := by
    refine ⟨(), ?_, trivial⟩
    have hn : (BitVec.ofNat 8 p.data.length).toNat = p.data.length := by
      rw [BitVec.toNat_ofNat]; exact Nat.mod_eq_of_lt hp.2
    have h0 : BitVec.ofNat 8 p.data.length ≠ 0 := by
      intro h
      have := congrArg BitVec.toNat h
      rw [hn] at this
      have h1 := hp.1
      rw [this] at h1
      exact absurd h1 (by decide)
    simp only [avFormat, avPkt]
    rw [if_neg (not_or.2 ⟨h0, by rw [hn]; exact Nat.lt_irrefl _⟩), hn, List.take_length, List.length_cons]
  trailer m d _ := rfl

/-- Two packets, a sink taking one or two bytes and a reader giving one, two or three. -/
example : (∀ p ∈ [{ Packet.new with data := [7, 8, 9] }, { Packet.new with data := [6], stream_index := 3 }],
      0 < p.data.length ∧ p.data.length < 256) ∧
    (match (Mux.Context.new 0 (Mux.Writer.new ⟨[], 0, fun k => ⟨none, 1 + k % 2⟩, 0, 0⟩)).run Mux.sinkOps
        (Mux.bytesMuxer 20 avHdr avPkt avTrl)
        (.header :: [{ Packet.new with data := [7, 8, 9] }, { Packet.new with data := [6], stream_index := 3 }].map Mux.Op.packet
          ++ [.trailer]) with
      | .ok (_, c) => (match readHeaders avFormat.demuxer accBuffered 11
            (Context.new () (Acc.withCapacity 1 ⟨c.intoWriter.writer.data, 0, sampleActs, 0⟩)) with
        | .ok (.ok (), c1) => decide (results (readEvents avFormat.demuxer accBuffered 10 3 c1) =
            some [.ok (.NewPacket { Packet.new with data := [7, 8, 9], stream_index := 0, t := { Packet.new.t with timebase := some ⟨1, 25⟩ } }),
              .ok (.NewPacket { Packet.new with data := [6], stream_index := 0, t := { Packet.new.t with timebase := some ⟨1, 25⟩ } }),
              .ok .Eof])
        | _ => false)
      | _ => false) = true := by decide +kernel

/-- C90 with failures: the reader fails at every other call, the records arrive nevertheless. -/
example : results (readEvents avFormat.demuxer accBuffered 10 12
      (Context.new () (Acc.withCapacity 1 ⟨[2, 5, 6, 1, 4], 0, fun k => ⟨if k % 2 = 0 then some (.other 3) else none, 0⟩, 0⟩))) =
    some ([.error (.Io (.other 3)), .error (.Io (.other 3)), .error (.Io (.other 3)),
      .ok (.NewPacket { Packet.new with data := [5, 6], stream_index := 0 }),
      .error (.Io (.other 3)), .error (.Io (.other 3)),
      .ok (.NewPacket { Packet.new with data := [4], stream_index := 0 }),
      .error (.Io (.other 3)), .ok .Eof, .error (.Io (.other 3)), .ok .Eof, .error (.Io (.other 3))]) := by decide +kernel

end Verif.RoundTrip
