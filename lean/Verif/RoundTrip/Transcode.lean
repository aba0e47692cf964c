import Verif.RoundTrip.Streams
import Verif.RoundTrip.Remux

/-!
# Property C164: transcoding

A file is demuxed and decoded, and every frame encoded and muxed again as soon as it is there.
-/

namespace Verif.RoundTrip
open Verif Verif.Io Verif.Frame Verif.Stream Verif.Packet Verif.Demux Verif.Codec

variable {M W D R E C S T A B : Type}

/-! ### the application -/

/-- Frames are sent one by one and what each gives is written. -/
def encodeSome (ec : Encoder E) (mx : Mux.Muxer M W) (fuel : Nat) : List Frame → EncContext E → Mux.Context M W →
    Rust (Except AppErr Unit × EncContext E × Mux.Context M W)
  | [], ce, cm => .ok (.ok (), ce, cm)
  | f :: fs, ce, cm => do
    match ← ce.sendFrame ec f with
    | (.error e, ce) => .ok (.error (.codec e), ce, cm)
    | (.ok (), ce) =>
      match ← drainPackets ec mx fuel ce cm with
      | (.error e, r) => .ok (.error e, r)
      | (.ok (), ce, cm) => encodeSome ec mx fuel fs ce cm

/-- Each packet is decoded and the frames it gives are encoded; at `Eof` the decoder is flushed, its frames encoded, the
encoder flushed and the trailer written. -/
def transcodeAll (dc : Decoder C) (dm : Demuxer D R) (bf : Buffered R) (fuel k : Nat) (ec : Encoder E) (so : Mux.SinkOps W)
    (mx : Mux.Muxer M W) : Nat → DecContext C → Context D R → EncContext E → Mux.Context M W →
    Rust (Except AppErr Unit × DecContext C × Context D R × EncContext E × Mux.Context M W)
  | 0, _, _, _, _ => .error .fuel
  | n + 1, cd, c, ce, cm => do
    match ← readEvent dm bf fuel c with
    | (.error e, c) => .ok (.error (.format e), cd, c, ce, cm)
    | (.ok (.NewPacket p), c) =>
      match ← cd.sendPacket dc p with
      | (.error e, cd) => .ok (.error (.codec e), cd, c, ce, cm)
      | (.ok (), cd) =>
        match ← drainFrames dc k cd with
        | (.error e, cd) => .ok (.error e, cd, c, ce, cm)
        | (.ok fs, cd) =>
          match ← encodeSome ec mx k fs ce cm with
          | (.error e, ce, cm) => .ok (.error e, cd, c, ce, cm)
          | (.ok (), ce, cm) => transcodeAll dc dm bf fuel k ec so mx n cd c ce cm
    | (.ok .Eof, c) =>
      match ← cd.flush dc with
      | (.error e, cd) => .ok (.error (.codec e), cd, c, ce, cm)
      | (.ok (), cd) =>
        match ← drainFrames dc k cd with
        | (.error e, cd) => .ok (.error e, cd, c, ce, cm)
        | (.ok fs, cd) =>
          match ← encodeAll ec so mx k fs ce cm with
          | (x, ce, cm) => .ok (x, cd, c, ce, cm)
    | (.ok _, c) => transcodeAll dc dm bf fuel k ec so mx n cd c ce cm

/-! ### proofs -/

/-- What the items give before the end, and the state then. -/
def Machine.steps (m : Machine S A B) : S → List A → List B × S
  | s, [] => ([], s)
  | s, a :: l => ((m.step s a).1 ++ (m.steps (m.step s a).2 l).1, (m.steps (m.step s a).2 l).2)

theorem all_append (m : Machine S A B) (l l' : List A) : ∀ s,
    m.all s (l ++ l') = (m.steps s l).1 ++ m.all (m.steps s l).2 l' := by
  induction l with
  | nil => intro s; rfl
  | cons a l ih => intro s; rw [List.cons_append, Machine.all, ih]; simp [Machine.steps]

theorem encodeSome_run {ec : Encoder E} {m : Machine S Frame Packet} {fine : Frame → Prop}
    {I : E → S → List Packet → Prop} (h : Encodes ec m fine I) {so : Mux.SinkOps W} {mx : Mux.Muxer M W} {n : Nat}
    (fs : List Frame) : ∀ (e : E) (s : S) (cm : Mux.Context M W) ops xs c, (m.steps s fs).1.length < n → I e s [] →
    (∀ f ∈ fs, fine f) →
    cm.run so mx ((m.steps s fs).1.map .packet ++ ops) = .ok (List.replicate (m.steps s fs).1.length (.ok ()) ++ xs, c) →
    ∃ e' cm', encodeSome ec mx n fs ⟨e⟩ cm = .ok (.ok (), ⟨e'⟩, cm') ∧ I e' (m.steps s fs).2 [] ∧
      cm'.run so mx ops = .ok (xs, c) := by
  induction fs with
  | nil => exact fun e s cm ops xs c _ hI _ hr => ⟨e, cm, rfl, hI, hr⟩
  | cons f fs ih =>
    intro e s cm ops xs c hn hI hf hr
    obtain ⟨e1, g, hI1⟩ := h.send hI (hf f (by simp))
    simp only [Machine.steps, List.length_append, List.map_append, List.append_assoc] at hn hr
    rw [← List.replicate_append_replicate, List.append_assoc] at hr
    obtain ⟨e2, cm2, a1, a2, a3⟩ := drainPackets_run h (m.step s f).1 n e1 _ cm _ _ c (by omega) hI1 hr
    obtain ⟨e3, cm3, b1, b2, b3⟩ := ih e2 _ cm2 ops xs c (by omega) a2 (fun g hg => hf g (by simp [hg])) a3
    refine ⟨e3, cm3, ?_, b2, b3⟩
    simp only [encodeSome, EncContext.sendFrame, g, ok_bind, pure_eq_ok, a1]
    exact b1

theorem transcodeAll_run {dc : Decoder C} {dm : Machine T Packet Frame} {J : C → T → List Frame → Prop}
    (hD : DecodesAll dc dm J) {ec : Encoder E} {em : Machine S Frame Packet} {fine : Frame → Prop}
    {I : E → S → List Packet → Prop} (hE : Encodes ec em fine I) {so : Mux.SinkOps W} {mx : Mux.Muxer M W}
    {dmx : Demuxer D R} {bf : Buffered R} {fuel b : Nat} (evs : List Event) (hno : .Eof ∉ evs) :
    ∀ (n : Nat) (d : C) (t : T) (c c' : Context D R) (e : E) (s : S) (cm o : Mux.Context M W), evs.length < n →
    (dm.all t (packets evs)).length < b → (em.all s (dm.all t (packets evs))).length < b → J d t [] → I e s [] →
    (∀ f ∈ dm.all t (packets evs), fine f) →
    readEvents dmx bf fuel (evs.length + 1) c = .ok (evs.map .ok ++ [.ok .Eof], c') →
    cm.run so mx ((em.all s (dm.all t (packets evs))).map .packet ++ [.trailer]) =
      .ok (List.replicate ((em.all s (dm.all t (packets evs))).length + 1) (.ok ()), o) →
    ∃ cd' ce', transcodeAll dc dmx bf fuel b ec so mx n ⟨d⟩ c ⟨e⟩ cm = .ok (.ok (), cd', c', ce', o) := by
  induction evs with
  | nil =>
    intro n d t c c' e s cm o hn hl hl' hJ hI hf hr ho
    obtain ⟨n, rfl⟩ : ∃ k, n = k + 1 := ⟨n - 1, by simp at hn; omega⟩
    simp only [List.length_nil, readEvents] at hr
    cases he : readEvent dmx bf fuel c with
    | error er => rw [he] at hr; cases hr
    | ok r =>
      obtain ⟨x, c1⟩ := r
      rw [he] at hr
      cases hr
      obtain ⟨d1, s1, g, hJ1⟩ := hD.flush hJ
      obtain ⟨d2, a1, a2⟩ := drainFrames_run hD (dm.finish t) b d1 s1 hl hJ1
      obtain ⟨e', a3⟩ := encodeAll_run hE (dm.finish t) e s cm o hl' hI hf ho
      exact ⟨⟨d2⟩, ⟨e'⟩, by simp only [transcodeAll, he, ok_bind, pure_eq_ok, DecContext.flush, g, a1, a3]⟩
  | cons ev evs ih =>
    intro n d t c c' e s cm o hn hl hl' hJ hI hf hr ho
    have hno' : Event.Eof ∉ evs := fun h => hno (by simp [h])
    have hev : ev ≠ .Eof := fun h => hno (by simp [h])
    obtain ⟨n, rfl⟩ : ∃ k, n = k + 1 := ⟨n - 1, by simp at hn; omega⟩
    rw [List.length_cons] at hr
    simp only [readEvents] at hr
    cases he : readEvent dmx bf fuel c with
    | error er => rw [he] at hr; cases hr
    | ok r =>
      obtain ⟨x, c1⟩ := r
      simp only [he, ok_bind] at hr
      cases he2 : readEvents dmx bf fuel (evs.length + 1) c1 with
      | error er =>
        simp only [readEvents] at he2
        rw [he2] at hr; cases hr
      | ok r =>
        obtain ⟨xs, c2⟩ := r
        have he2' := he2
        simp only [readEvents] at he2
        rw [he2] at hr
        cases hr
        have hskip : packets (ev :: evs) = packets evs → transcodeAll dc dmx bf fuel b ec so mx (n + 1) ⟨d⟩ c ⟨e⟩ cm =
            transcodeAll dc dmx bf fuel b ec so mx n ⟨d⟩ c1 ⟨e⟩ cm →
            ∃ cd' ce', transcodeAll dc dmx bf fuel b ec so mx (n + 1) ⟨d⟩ c ⟨e⟩ cm = .ok (.ok (), cd', c2, ce', o) := by
          intro h1 h2
          rw [h1] at hl hl' hf ho
          rw [h2]
          exact ih hno' n d t c1 c2 e s cm o (by simpa using hn) hl hl' hJ hI hf he2' ho
        cases ev with
        | Eof => exact absurd rfl hev
        | NewPacket p =>
          rw [show packets (.NewPacket p :: evs) = p :: packets evs from rfl, Machine.all] at hl hl' hf ho
          rw [all_append] at hl' ho
          rw [List.length_append] at hl hl'
          obtain ⟨d1, g, hJ1⟩ := hD.send p hJ
          obtain ⟨d2, a1, a2⟩ := drainFrames_run hD (dm.step t p).1 b d1 _ (by omega) hJ1
          rw [List.map_append, List.append_assoc, List.length_append, Nat.add_assoc, ← List.replicate_append_replicate] at ho
          obtain ⟨e2, cm2, b1, b2, b3⟩ := encodeSome_run hE (n := b) (dm.step t p).1 e s cm _ _ o (by omega) hI
            (fun f hf' => hf f (by simp [hf'])) ho
          obtain ⟨cd', ce', r⟩ := ih hno' n d2 _ c1 c2 e2 _ cm2 o (by simpa using hn) (by omega) (by omega) a2 b2
            (fun f hf' => hf f (by simp [hf'])) he2' b3
          refine ⟨cd', ce', ?_⟩
          simp only [transcodeAll, he, ok_bind, pure_eq_ok, DecContext.sendPacket, g, a1, b1]
          exact r
        | NewStream st => exact hskip rfl (by simp only [transcodeAll, he, ok_bind])
        | MoreDataNeeded k => exact hskip rfl (by simp only [transcodeAll, he, ok_bind])
        | Continue => exact hskip rfl (by simp only [transcodeAll, he, ok_bind])

/-- The program: headers, the decoder set up with the extradata of the first stream, the header of the new file, and the rest. -/
def transcodeFile (dc : Decoder C) (dm : Demuxer D R) (bf : Buffered R) (fuel k : Nat) (ec : Encoder E) (so : Mux.SinkOps W)
    (mx : Mux.Muxer M W) (n : Nat) (cd : DecContext C) (c : Context D R) (ce : EncContext E) (cm : Mux.Context M W) :
    Rust (Except AppErr Unit × DecContext C × Context D R × EncContext E × Mux.Context M W) := do
  match ← readHeaders dm bf fuel c with
  | (.error e, c) => .ok (.error (.format e), cd, c, ce, cm)
  | (.ok (), c) =>
    let cd ← match c.info.streams[0]?.bind (·.params.extradata) with
      | some x => cd.setExtradata dc x
      | none => .ok cd
    match ← cd.configure dc with
    | (.error e, cd) => .ok (.error (.codec e), cd, c, ce, cm)
    | (.ok (), cd) =>
      match ← cm.writeHeader mx with
      | (.error e, cm) => .ok (.error (.format e), cd, c, ce, cm)
      | (.ok (), cm) => transcodeAll dc dm bf fuel k ec so mx n cd c ce cm

/-- C164. A file that begins with the headers of its format and ends after some records, transcoded with a decoder and an
encoder as in C160: the new file holds what muxing all packets the encoder makes of all frames the decoder makes of the
packets of the file would leave in it, and was flushed once, however few bytes at a time reader and writer transfer and
whatever codecs delay. -/
theorem c164_transcode (F : Format D) (hF : F.Framed) (file : List U8) (cap : Nat) (acts : Nat → Act) (ha : ∀ c, (acts c).fail = none)
    (d d' : D) (k : Nat) (info : GlobalInfo) (hh : F.head d ⟨none, none, []⟩ file = some (k, d', info))
    (evs : List Event) (he : .Eof ∉ evs)
    (hv : F.events (evs.length + 1) d' info.streams (file.drop k) = evs ++ [.Eof])
    (dc : Decoder C) (dm : Machine T Packet Frame) (J : C → T → List Frame → Prop) (hD : DecodesAll dc dm J) (cd0 : C) (t0 : T)
    (x : List U8) (hx : ∃ st, info.streams[0]? = some st ∧ st.params.extradata = some x)
    (hJ : ∃ d1 d2, dc.setExtradata cd0 x = .ok d1 ∧ dc.configure d1 = .ok (.ok (), d2) ∧ J d2 t0 [])
    (ec : Encoder E) (em : Machine S Frame Packet) (fine : Frame → Prop) (I : E → S → List Packet → Prop)
    (hE : Encodes ec em fine I) (ce0 : E) (s0 : S) (hI : I ce0 s0 []) (hfine : ∀ f ∈ dm.all t0 (packets evs), fine f)
    (hdr : M → List U8 × M) (pkt : M → Packet → List U8 × M) (trl : M → List U8 × M) (m : M)
    (sink : Sink) (h0 : sink.data = [] ∧ sink.pos = 0)
    (hq : ∀ c, (sink.script c).fail = none ∧ 0 < (sink.script c).len) (ps : List Packet)
    (hps : ps = em.all s0 (dm.all t0 (packets evs))) (fuel b n fuel' : Nat) (hf : file.length + 2 ≤ fuel) (hn : evs.length < n)
    (hb : (dm.all t0 (packets evs)).length < b ∧ ps.length < b) (hf' : (Mux.fileBytes hdr pkt trl m ps).length < fuel') :
    ∃ cd c ce o, transcodeFile dc F.demuxer accBuffered fuel b ec Mux.sinkOps (Mux.bytesMuxer fuel' hdr pkt trl) n ⟨cd0⟩
        (Context.new d (Acc.withCapacity cap ⟨file, 0, acts, 0⟩)) ⟨ce0⟩ (Mux.Context.new m (Mux.Writer.new sink)) =
        .ok (.ok (), cd, c, ce, o) ∧
      o.intoWriter.writer.data = Mux.fileBytes hdr pkt trl m ps ∧ o.intoWriter.writer.flushes = sink.flushes + 1 := by
  subst hps
  obtain ⟨c1, c2, a1, a2, a3⟩ := headers_events F hF file cap acts ha d d' k info hh fuel hf (evs.length + 1)
  rw [hv, List.map_append] at a3
  obtain ⟨o, r1, r2, _, r4⟩ := Mux.c39_file fuel' hdr pkt trl m sink h0 hq _ hf'
  obtain ⟨st, x1, x2⟩ := hx
  obtain ⟨s1, s2, g1, g2, g3⟩ := hJ
  simp only [List.cons_append, Mux.Context.run, Mux.Context.step] at r1
  cases hw : (Mux.Context.new m (Mux.Writer.new sink)).writeHeader (Mux.bytesMuxer fuel' hdr pkt trl) with
  | error er => rw [hw] at r1; cases r1
  | ok r =>
    obtain ⟨y, cm⟩ := r
    simp only [hw, ok_bind] at r1
    cases hr1 : cm.run Mux.sinkOps (Mux.bytesMuxer fuel' hdr pkt trl)
        ((em.all s0 (dm.all t0 (packets evs))).map .packet ++ [.trailer]) with
    | error er => rw [hr1] at r1; cases r1
    | ok r =>
      obtain ⟨ys, c'⟩ := r
      simp only [hr1, ok_bind, pure_eq_ok, List.replicate_succ, Except.ok.injEq, Prod.mk.injEq, List.cons.injEq] at r1
      obtain ⟨⟨rfl, hys⟩, rfl⟩ := r1
      rw [hys, ← List.replicate_succ] at hr1
      obtain ⟨cd', ce', hrun⟩ := transcodeAll_run hD hE evs he n s2 t0 c1 c2 ce0 s0 cm c' hn hb.1 hb.2 g3 hI hfine a3 hr1
      refine ⟨cd', c2, ce', c', ?_, r2, r4⟩
      simp only [transcodeFile, a1, ok_bind, a2, x1, Option.bind_some, x2, DecContext.setExtradata, g1, pure_eq_ok,
        DecContext.configure, g2, hw]
      exact hrun

/-- The hypotheses hold for a file of C160's examples, whose packets are not in the order of the frames, and an encoder
without delay; -/
example : avFormat.head () ⟨none, none, []⟩ [65, 86, 2, 8, 8, 1, 7, 1, 9, 0] = some (2, (), theInfo) ∧
    (∃ evs : List Event, .Eof ∉ evs ∧ avFormat.events (evs.length + 1) () theInfo.streams
        ([65, 86, 2, 8, 8, 1, 7, 1, 9, 0].drop 2) = evs ++ [.Eof] ∧
      ((plainly pairPacket).all none ((pairing pairFrame).all none (packets evs))).map (·.data) = [[7], [8, 8], [9]]) ∧
    (∃ st, theInfo.streams[0]? = some st ∧ st.params.extradata = some [1, 2]) ∧
    (∃ d1 d2, pairDecoder.setExtradata ([], none, []) [1, 2] = .ok d1 ∧ pairDecoder.configure d1 = .ok (.ok (), d2) ∧
      d2 = ([1, 2], none, [])) := by
  refine ⟨rfl, ⟨(avFormat.events 3 () theInfo.streams ([65, 86, 2, 8, 8, 1, 7, 1, 9, 0].drop 2)), by decide, by decide, by decide⟩,
    ⟨_, rfl, rfl⟩, _, _, rfl, rfl, rfl⟩

/-- and its frames are muxed in order, in another format. -/
example : (match transcodeFile pairDecoder avFormat.demuxer accBuffered 20 9 twoEncoder Mux.sinkOps
      (Mux.bytesMuxer 40 avHdr twoPkt avTrl) 9 ⟨[], none, []⟩
      (Context.new () (Acc.withCapacity 1 ⟨[65, 86, 2, 8, 8, 1, 7, 1, 9, 0], 0, sampleActs, 0⟩)) ⟨1, none, []⟩
      (Mux.Context.new 0 (Mux.Writer.new ⟨[], 0, fun k => ⟨none, 1 + k % 2⟩, 0, 0⟩)) with
    | .ok (.ok (), _, _, _, o) => decide (o.intoWriter.writer.data = [65, 86, 1, 255, 7, 2, 255, 8, 8, 1, 255, 9, 0])
    | _ => false) = true := by decide +kernel

end Verif.RoundTrip
