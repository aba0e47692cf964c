import Verif.RoundTrip.Pipeline

/-!
# Property C144: copying a file from one format into another

The program every user of the two contexts writes: read the headers, hand the global info to the muxer, write its header, and
then alternate `read_event` and `write_packet` until the end. Formats and muxers are as in C91, or arbitrary.
-/

namespace Verif.RoundTrip
open Verif Verif.Io Verif.Frame Verif.Stream Verif.Packet Verif.Demux

variable {M N D R W : Type}

section
variable (dm : Demuxer D R) (bf : Buffered R) (so : Mux.SinkOps W) (mx : Mux.Muxer M W) (fuel : Nat)

/-- The loop: at most `n` events; streams and other events are of no interest to the muxer. -/
def copyLoop : Nat → Context D R → Mux.Context M W → Rust (Except Demux.Err Unit × Context D R × Mux.Context M W)
  | 0, _, _ => .error .fuel
  | n + 1, c, o => do
    let (x, c) ← readEvent dm bf fuel c
    match x with
    | .error e => .ok (.error e, c, o)
    | .ok (.NewPacket p) => do
      let (y, o) ← o.writePacket mx p
      match y with
      | .error e => .ok (.error e, c, o)
      | .ok () => copyLoop n c o
    | .ok .Eof => do
      let (y, o) ← o.writeTrailer so mx
      return (y, c, o)
    | .ok _ => copyLoop n c o

/-- The program. -/
def copyFile (n : Nat) (c : Context D R) (o : Mux.Context M W) : Rust (Except Demux.Err Unit × Context D R × Mux.Context M W) := do
  let (x, c) ← readHeaders dm bf fuel c
  match x with
  | .error e => .ok (.error e, c, o)
  | .ok () => do
    let (x, o) ← o.setGlobalInfo mx c.info
    match x with
    | .error e => .ok (.error e, c, o)
    | .ok () => do
      let (x, o) ← o.configure mx
      match x with
      | .error e => .ok (.error e, c, o)
      | .ok () => do
        let (x, o) ← o.writeHeader mx
        match x with
        | .error e => .ok (.error e, c, o)
        | .ok () => copyLoop dm bf so mx fuel n c o

/-- Calls of a muxing context, up to the first that fails. -/
def untilError (o : Mux.Context M W) : List Mux.Op → Rust (Except Demux.Err Unit × Mux.Context M W)
  | [] => .ok (.ok (), o)
  | op :: ops => do
    let (x, o) ← o.step so mx op
    match x with
    | .error e => .ok (.error e, o)
    | .ok () => untilError o ops

/-- The packets among events. -/
def packets (evs : List Event) : List Packet :=
  evs.filterMap fun x => match x with
    | .NewPacket p => some p
    | _ => none

/-- What is left when the demuxing context is dropped. -/
def output (x : Rust (Except Demux.Err Unit × Context D R × Mux.Context M W)) : Rust (Except Demux.Err Unit × Mux.Context M W) := do
  let (r, _, o) ← x
  return (r, o)

/-! ### the proof -/

theorem copy_loop (evs : List Event) (he : .Eof ∉ evs) : ∀ (n : Nat) (c c' : Context D R) (o : Mux.Context M W),
    evs.length < n → readEvents dm bf fuel (evs.length + 1) c = .ok ((evs ++ [Event.Eof]).map .ok, c') →
    output (copyLoop dm bf so mx fuel n c o) = untilError so mx o ((packets evs).map .packet ++ [.trailer]) := by
  induction evs with
  | nil =>
    intro n c c' o hn h
    obtain ⟨n, rfl⟩ : ∃ k, n = k + 1 := ⟨n - 1, by simp at hn; omega⟩
    simp only [List.length_nil, readEvents] at h
    cases h1 : readEvent dm bf fuel c with
    | error e => rw [h1] at h; cases h
    | ok v =>
      obtain ⟨x, c1⟩ := v
      rw [h1] at h
      cases h
      simp only [copyLoop, h1, ok_bind, packets, List.filterMap_nil, List.map_nil, List.nil_append, untilError, Mux.Context.step]
      cases o.writeTrailer so mx with
      | error e => rfl
      | ok v =>
        obtain ⟨y, o1⟩ := v
        cases y <;> rfl
  | cons ev evs ih =>
    intro n c c' o hn h
    obtain ⟨n, rfl⟩ : ∃ k, n = k + 1 := ⟨n - 1, by simp at hn; omega⟩
    rw [List.length_cons, readEvents] at h
    cases h1 : readEvent dm bf fuel c with
    | error e => rw [h1] at h; cases h
    | ok v =>
      obtain ⟨x, c1⟩ := v
      simp only [h1, ok_bind] at h
      cases h2 : readEvents dm bf fuel (evs.length + 1) c1 with
      | error e => rw [h2] at h; cases h
      | ok v =>
        obtain ⟨xs, c2⟩ := v
        simp only [h2, ok_bind, pure_eq_ok, Except.ok.injEq, Prod.mk.injEq, List.cons_append, List.map_cons, List.cons.injEq] at h
        obtain ⟨⟨rfl, rfl⟩, rfl⟩ := h
        have hi := fun o => ih (fun h => he (by simp [h])) n c1 c2 o (by simp at hn; omega) h2
        simp only [copyLoop, h1, ok_bind]
        cases ev with
        | NewPacket p =>
          simp only [packets, List.filterMap_cons, List.map_cons, List.cons_append, untilError, Mux.Context.step] at hi ⊢
          cases o.writePacket mx p with
          | error e => rfl
          | ok v =>
            obtain ⟨y, o1⟩ := v
            cases y with
            | error e => rfl
            | ok u => exact hi o1
        | Eof => exact absurd (by simp) he
        | NewStream s => exact hi o
        | MoreDataNeeded k => exact hi o
        | Continue => exact hi o

theorem run_untilError (ops : List Mux.Op) : ∀ (o o' : Mux.Context M W),
    o.run so mx ops = .ok (List.replicate ops.length (.ok ()), o') → untilError so mx o ops = .ok (.ok (), o') := by
  induction ops with
  | nil => intro o o' h; cases h; rfl
  | cons op ops ih =>
    intro o o' h
    simp only [Mux.Context.run, untilError] at h ⊢
    cases h1 : o.step so mx op with
    | error e => rw [h1] at h; cases h
    | ok v =>
      obtain ⟨x, o1⟩ := v
      simp only [h1, ok_bind] at h ⊢
      cases h2 : o1.run so mx ops with
      | error e => rw [h2] at h; cases h
      | ok v =>
        obtain ⟨xs, o2⟩ := v
        simp only [h2, ok_bind, pure_eq_ok, List.length_cons, List.replicate_succ, Except.ok.injEq, Prod.mk.injEq,
          List.cons.injEq] at h
        obtain ⟨⟨rfl, rfl⟩, rfl⟩ := h
        exact ih o1 o2 h2

end

/-- C90 with the same fuel for headers and events. -/
theorem headers_events (F : Format D) (hF : F.Framed) (file : List U8) (cap : Nat) (acts : Nat → Act)
    (ha : ∀ c, (acts c).fail = none) (d d' : D) (k : Nat) (info : GlobalInfo)
    (hh : F.head d ⟨none, none, []⟩ file = some (k, d', info)) (fuel : Nat) (hfuel : file.length + 2 ≤ fuel) (n : Nat) :
    ∃ c1 c2, readHeaders F.demuxer accBuffered fuel (Context.new d (Acc.withCapacity cap ⟨file, 0, acts, 0⟩)) =
        .ok (.ok (), c1) ∧ c1.info = info ∧
      readEvents F.demuxer accBuffered fuel n c1 = .ok ((F.events n d' info.streams (file.drop k)).map .ok, c2) := by
  obtain ⟨a, rfl⟩ : ∃ a, fuel = a + 1 := ⟨fuel - 1, by omega⟩
  have hi : Acc.Inv file (Context.new d (Acc.withCapacity cap ⟨file, 0, acts, 0⟩)).reader := Acc.withCapacity_inv cap ⟨file, 0, acts, 0⟩ rfl
  obtain ⟨x, c1, h1, h2, h3, h4⟩ := framed_headers F hF file acts (.inr ha) a
    (Context.new d (Acc.withCapacity cap ⟨file, 0, acts, 0⟩)) k d' info hi rfl
    (by simpa [Context.new, Acc.withCapacity] using hh) (by split <;> omega)
  rcases h4 with ⟨e, j, _, a2, _⟩ | ⟨rfl, a2, a3, a4⟩
  · rw [ha] at a2; cases a2
  · obtain ⟨xs, c2, g1, g2, g3, g4⟩ := framed_events F hF file acts (.inr ha) (a + 1) (by omega) n c1 h2 h3
    have hok : ∀ e, .error e ∉ xs := by
      intro e he
      obtain ⟨_, j, _, hj⟩ := g4 e he
      rw [ha] at hj; cases hj
    have hx := filterMap_all_ok hok
    have hl : (xs.filterMap Except.toOption).length = n := by
      rw [← g2]; conv => rhs; rw [hx]
      rw [List.length_map]
    refine ⟨c1, c2, h1, a3, ?_⟩
    rw [g1, hx, g3, a2, a3, a4, hl]
    rw [show (Context.new d (Acc.withCapacity cap ⟨file, 0, acts, 0⟩)).reader.index = 0 from rfl, Nat.zero_add]

/-- **C144, for any muxer.** Copying a file that ends after some records makes exactly these calls of the muxing context, in this
order and up to the first that fails: the global info of the file, configuration, header, the packets of the file with the
timebase of their stream, trailer. It returns, or panics with, what they do. The muxer may do anything, and so may its sink. -/
theorem c144_copy (F : Format D) (hF : F.Framed) (file : List U8) (cap : Nat) (acts : Nat → Act) (ha : ∀ c, (acts c).fail = none)
    (d d' : D) (k : Nat) (info : GlobalInfo) (hh : F.head d ⟨none, none, []⟩ file = some (k, d', info))
    (evs : List Event) (he : .Eof ∉ evs)
    (hv : F.events (evs.length + 1) d' info.streams (file.drop k) = evs ++ [.Eof])
    (so : Mux.SinkOps W) (mx : Mux.Muxer M W) (o : Mux.Context M W) (fuel : Nat) (hf : file.length + 2 ≤ fuel) (n : Nat)
    (hn : evs.length < n) :
    output (copyFile F.demuxer accBuffered so mx fuel n
      (Context.new d (Acc.withCapacity cap ⟨file, 0, acts, 0⟩)) o) =
      untilError so mx o ([.info info, .configure, .header] ++ (packets evs).map .packet ++ [.trailer]) := by
  obtain ⟨c1, c2, a1, a2, a3⟩ := headers_events F hF file cap acts ha d d' k info hh fuel hf (evs.length + 1)
  rw [hv] at a3
  have hl := fun o => copy_loop F.demuxer accBuffered so mx fuel evs he n c1 c2 o hn a3
  simp only [copyFile, a1, ok_bind, a2, List.cons_append, List.nil_append, untilError, Mux.Context.step]
  cases o.setGlobalInfo mx info with
  | error e => rfl
  | ok v =>
    obtain ⟨x, o1⟩ := v
    cases x with
    | error e => rfl
    | ok u =>
      simp only [ok_bind]
      cases o1.configure mx with
      | error e => rfl
      | ok v =>
        obtain ⟨x, o2⟩ := v
        cases x with
        | error e => rfl
        | ok u =>
          simp only [ok_bind]
          cases o2.writeHeader mx with
          | error e => rfl
          | ok v =>
            obtain ⟨x, o3⟩ := v
            cases x with
            | error e => rfl
            | ok u => exact hl o3

/-- A muxer that computes the bytes it writes, also from the global info it was given. -/
def infoMuxer (fuel : Nat) (hdr : M → List U8 × M) (pkt : M → Packet → List U8 × M) (trl : M → List U8 × M)
    (take : M → GlobalInfo → M) : Mux.Muxer M Sink :=
  { Mux.bytesMuxer fuel hdr pkt trl with setGlobalInfo := fun m i => .ok (.ok (), take m i) }

theorem untilError_info (fuel : Nat) (hdr : M → List U8 × M) (pkt : M → Packet → List U8 × M) (trl : M → List U8 × M)
    (take : M → GlobalInfo → M) (ops : List Mux.Op) (h : ∀ i, .info i ∉ ops) : ∀ o : Mux.Context M Sink,
    untilError Mux.sinkOps (infoMuxer fuel hdr pkt trl take) o ops =
      untilError Mux.sinkOps (Mux.bytesMuxer fuel hdr pkt trl) o ops := by
  induction ops with
  | nil => intro o; rfl
  | cons op ops ih =>
    intro o
    have hs : o.step Mux.sinkOps (infoMuxer fuel hdr pkt trl take) op = o.step Mux.sinkOps (Mux.bytesMuxer fuel hdr pkt trl) op := by
      cases op with
      | info i => exact absurd (by simp) (h i)
      | _ => rfl
    simp only [untilError, hs]
    cases o.step Mux.sinkOps (Mux.bytesMuxer fuel hdr pkt trl) op with
    | error e => rfl
    | ok v =>
      obtain ⟨x, o1⟩ := v
      cases x with
      | error e => rfl
      | ok u => exact ih (fun i hi => h i (by simp [hi])) o1

theorem events_eof {F : Format D} (hF : F.Framed) {hdr : M → List U8 × M} {pkt : M → Packet → List U8 × M}
    {trl : M → List U8 × M} {wire : Packet → Packet} {info : GlobalInfo} {m : M} {d : D} {good : Packet → Prop}
    {sync : M → D → Prop} (h : Undoes F hdr pkt trl wire info m d good sync) (ps : List Packet) (hg : ∀ p ∈ ps, good p) :
    ∃ d', F.head d ⟨none, none, []⟩ (Mux.fileBytes hdr pkt trl m ps) = some ((hdr m).1.length, d', info) ∧
      F.events (ps.length + 1) d' info.streams ((Mux.fileBytes hdr pkt trl m ps).drop (hdr m).1.length) =
        ps.map (fun p => completed info.streams (.NewPacket (wire p))) ++ [.Eof] := by
  obtain ⟨d', h1, h2⟩ := h.header
  have hh := hF.headStable d _ _ ((Mux.packetBytes pkt (hdr m).2 ps).1 ++
    (trl (Mux.packetBytes pkt (hdr m).2 ps).2).1) _ h1
  rw [← List.append_assoc] at hh
  refine ⟨d', hh, ?_⟩
  rw [Mux.fileBytes, List.append_assoc, List.drop_left, events_packets hF h info.streams 1 ps _ d' hg h2]
  rfl

/-- **C144, between two formats.** A file muxed with one muxer, copied with the format that undoes it into another muxer and an
empty sink, however few bytes at a time reader and sink transfer: the sink then holds what muxing the packets directly would
leave in it, as far as the first format keeps them, and was flushed once. -/
theorem c144_remux (F : Format D) (hF : F.Framed) (hdr : M → List U8 × M) (pkt : M → Packet → List U8 × M)
    (trl : M → List U8 × M) (wire : Packet → Packet) (info : GlobalInfo) (m : M) (d : D) (good : Packet → Prop)
    (sync : M → D → Prop) (h : Undoes F hdr pkt trl wire info m d good sync)
    (ps : List Packet) (hg : ∀ p ∈ ps, good p)
    (acts : Nat → Act) (ha : ∀ c, (acts c).fail = none) (cap : Nat)
    (hdr' : N → List U8 × N) (pkt' : N → Packet → List U8 × N) (trl' : N → List U8 × N) (take : N → GlobalInfo → N) (m' : N)
    (sink : Sink) (h0 : sink.data = [] ∧ sink.pos = 0)
    (hq : ∀ c, (sink.script c).fail = none ∧ 0 < (sink.script c).len) (fuel n fuel' : Nat)
    (hf : (Mux.fileBytes hdr pkt trl m ps).length + 2 ≤ fuel) (hn : ps.length < n)
    (hf' : (Mux.fileBytes hdr' pkt' trl' (take m' info) (ps.map (kept info.streams wire))).length < fuel') :
    ∃ o, output (copyFile F.demuxer accBuffered Mux.sinkOps (infoMuxer fuel' hdr' pkt' trl' take) fuel n
        (Context.new d (Acc.withCapacity cap ⟨Mux.fileBytes hdr pkt trl m ps, 0, acts, 0⟩))
        (Mux.Context.new m' (Mux.Writer.new sink))) = .ok (.ok (), o) ∧
      o.intoWriter.writer.data = Mux.fileBytes hdr' pkt' trl' (take m' info) (ps.map (kept info.streams wire)) ∧
      o.intoWriter.writer.flushes = sink.flushes + 1 := by
  obtain ⟨d', e1, e2⟩ := events_eof hF h ps hg
  have hpk : packets (ps.map (fun p => completed info.streams (.NewPacket (wire p)))) = ps.map (kept info.streams wire) := by
    clear hg hn hf hf' e2 e1
    induction ps with
    | nil => rfl
    | cons p ps ih =>
      simp only [packets, List.map_cons, List.filterMap_cons] at ih ⊢
      rw [ih]
      rfl
  have hc := c144_copy F hF (Mux.fileBytes hdr pkt trl m ps) cap acts ha d d' _ info e1
    (ps.map (fun p => completed info.streams (.NewPacket (wire p))))
    (by intro hm; obtain ⟨p, _, hp⟩ := List.mem_map.1 hm; cases hp)
    (by rw [List.length_map]; exact e2) Mux.sinkOps (infoMuxer fuel' hdr' pkt' trl' take)
    (Mux.Context.new m' (Mux.Writer.new sink)) fuel hf n (by rw [List.length_map]; exact hn)
  rw [hc, hpk]
  obtain ⟨o, r1, r2, _, r4⟩ := Mux.c39_file fuel' hdr' pkt' trl' (take m' info) sink h0 hq (ps.map (kept info.streams wire)) hf'
  refine ⟨o, ?_, r2, r4⟩
  have := run_untilError Mux.sinkOps (Mux.bytesMuxer fuel' hdr' pkt' trl') _ (Mux.Context.new (take m' info) (Mux.Writer.new sink)) o
    (by rw [r1]; simp)
  rw [← untilError_info fuel' hdr' pkt' trl' take _ (by simp)] at this
  exact this

/-- **C144, the same format.** If the second muxer is the first one, comes to the same state by the global info it is given, and
does not look at what the file does not keep of a packet, the copy is the file, bit by bit. -/
theorem c144_same (F : Format D) (hF : F.Framed) (hdr : M → List U8 × M) (pkt : M → Packet → List U8 × M)
    (trl : M → List U8 × M) (wire : Packet → Packet) (info : GlobalInfo) (m : M) (d : D) (good : Packet → Prop)
    (sync : M → D → Prop) (h : Undoes F hdr pkt trl wire info m d good sync)
    (hk : ∀ m p, good p → pkt m (kept info.streams wire p) = pkt m p)
    (ps : List Packet) (hg : ∀ p ∈ ps, good p)
    (acts : Nat → Act) (ha : ∀ c, (acts c).fail = none) (cap : Nat) (take : M → GlobalInfo → M) (m' : M) (hm : take m' info = m)
    (sink : Sink) (h0 : sink.data = [] ∧ sink.pos = 0)
    (hq : ∀ c, (sink.script c).fail = none ∧ 0 < (sink.script c).len) (fuel n : Nat)
    (hf : (Mux.fileBytes hdr pkt trl m ps).length + 2 ≤ fuel) (hn : ps.length < n) :
    ∃ o, output (copyFile F.demuxer accBuffered Mux.sinkOps (infoMuxer fuel hdr pkt trl take) fuel n
        (Context.new d (Acc.withCapacity cap ⟨Mux.fileBytes hdr pkt trl m ps, 0, acts, 0⟩))
        (Mux.Context.new m' (Mux.Writer.new sink))) = .ok (.ok (), o) ∧
      o.intoWriter.writer.data = Mux.fileBytes hdr pkt trl m ps := by
  have hb : ∀ m, Mux.packetBytes pkt m (ps.map (kept info.streams wire)) = Mux.packetBytes pkt m ps := by
    clear hf hn
    induction ps with
    | nil => intro m; rfl
    | cons p ps ih =>
      intro m
      simp only [List.map_cons, Mux.packetBytes, hk m p (hg p (by simp)), ih (fun q hq => hg q (by simp [hq]))]
  have hfile : Mux.fileBytes hdr pkt trl (take m' info) (ps.map (kept info.streams wire)) = Mux.fileBytes hdr pkt trl m ps := by
    rw [hm, Mux.fileBytes, hb, Mux.fileBytes]
  obtain ⟨o, a1, a2, _⟩ := c144_remux F hF hdr pkt trl wire info m d good sync h ps hg acts ha cap hdr pkt trl take m' sink h0 hq
    fuel n fuel hf hn (by rw [hfile]; omega)
  exact ⟨o, a1, by rw [a2, hfile]⟩

/-- The format of C91's examples: its packets lose their stream index, but its muxer does not look at it. -/
example : (∀ m p, avPkt m (kept theInfo.streams (fun p => { Packet.new with data := p.data, stream_index := 0 }) p) = avPkt m p) ∧
    (match output (copyFile avFormat.demuxer accBuffered Mux.sinkOps (infoMuxer 20 avHdr avPkt avTrl (fun m _ => m)) 20 5
        (Context.new () (Acc.withCapacity 1 ⟨[65, 86, 3, 7, 8, 9, 1, 6, 0], 0, sampleActs, 0⟩))
        (Mux.Context.new 0 (Mux.Writer.new ⟨[], 0, fun k => ⟨none, 1 + k % 2⟩, 0, 0⟩))) with
    | .ok (.ok (), o) => decide (o.intoWriter.writer.data = [65, 86, 3, 7, 8, 9, 1, 6, 0])
    | _ => false) = true :=
  ⟨fun _ _ => rfl, by decide +kernel⟩

/-- Into another format, that has the number of streams in its header and writes how late its packets are. -/
example : (match output (copyFile avFormat.demuxer accBuffered Mux.sinkOps
        (infoMuxer 20 (fun m => ([BitVec.ofNat 8 m], m)) (fun m p => (p.data.reverse, m + 1)) (fun m => ([BitVec.ofNat 8 m], m))
          (fun m i => m + i.streams.length)) 20 5
        (Context.new () (Acc.withCapacity 1 ⟨[65, 86, 3, 7, 8, 9, 1, 6, 0], 0, sampleActs, 0⟩))
        (Mux.Context.new 0 (Mux.Writer.new ⟨[], 0, fun k => ⟨none, 1 + k % 2⟩, 0, 0⟩))) with
    | .ok (.ok (), o) => decide (o.intoWriter.writer.data = [1, 9, 8, 7, 6, 3])
    | _ => false) = true := by decide +kernel

end Verif.RoundTrip
