import Verif.RoundTrip.Pipeline

/-!
# Property C160: codecs that delay, reorder, split and join

C106 is about codecs that answer each frame with one packet. Here a codec may answer what it is sent with any number
of results, and give the rest when it is flushed. The application asks for results until the codec says
`MoreDataNeeded`, as the interface intends.
-/

namespace Verif.RoundTrip
open Verif Verif.Io Verif.Frame Verif.Stream Verif.Packet Verif.Demux Verif.Codec

variable {M W D R E C S T : Type}

/-! ### the application -/

/-- What can stop the application. -/
inductive AppErr | codec (e : Codec.Err) | format (e : Demux.Err)

/-- `loop { match encoder.receive_packet() { Ok(p) => muxer.write_packet(p)?, Err(MoreDataNeeded) => break,
Err(e) => return Err(e) } }` -/
def drainPackets (ec : Encoder E) (mx : Mux.Muxer M W) : Nat → EncContext E → Mux.Context M W →
    Rust (Except AppErr Unit × EncContext E × Mux.Context M W)
  | 0, _, _ => .error .fuel
  | n + 1, ce, cm => do
    match ← ce.receivePacket ec with
    | (.ok p, ce) =>
      match ← cm.writePacket mx p with
      | (.ok (), cm) => drainPackets ec mx n ce cm
      | (.error e, cm) => .ok (.error (.format e), ce, cm)
    | (.error .MoreDataNeeded, ce) => .ok (.ok (), ce, cm)
    | (.error e, ce) => .ok (.error (.codec e), ce, cm)

/-- Each frame is sent and what it gives is written; at the end the encoder is flushed, the rest written, and the
trailer. -/
def encodeAll (ec : Encoder E) (so : Mux.SinkOps W) (mx : Mux.Muxer M W) (fuel : Nat) : List Frame → EncContext E →
    Mux.Context M W → Rust (Except AppErr Unit × EncContext E × Mux.Context M W)
  | [], ce, cm => do
    match ← ce.flush ec with
    | (.error e, ce) => .ok (.error (.codec e), ce, cm)
    | (.ok (), ce) =>
      match ← drainPackets ec mx fuel ce cm with
      | (.error e, r) => .ok (.error e, r)
      | (.ok (), ce, cm) =>
        match ← cm.writeTrailer so mx with
        | (.error e, cm) => .ok (.error (.format e), ce, cm)
        | (.ok (), cm) => .ok (.ok (), ce, cm)
  | f :: fs, ce, cm => do
    match ← ce.sendFrame ec f with
    | (.error e, ce) => .ok (.error (.codec e), ce, cm)
    | (.ok (), ce) =>
      match ← drainPackets ec mx fuel ce cm with
      | (.error e, r) => .ok (.error e, r)
      | (.ok (), ce, cm) => encodeAll ec so mx fuel fs ce cm

/-- The header first. -/
def encodeFile (ec : Encoder E) (so : Mux.SinkOps W) (mx : Mux.Muxer M W) (fuel : Nat) (fs : List Frame)
    (ce : EncContext E) (cm : Mux.Context M W) : Rust (Except AppErr Unit × EncContext E × Mux.Context M W) := do
  match ← cm.writeHeader mx with
  | (.error e, cm) => .ok (.error (.format e), ce, cm)
  | (.ok (), cm) => encodeAll ec so mx fuel fs ce cm

/-- `loop { match decoder.receive_frame() { Ok(f) => frames.push(f), Err(MoreDataNeeded) => break,
Err(e) => return Err(e) } }` -/
def drainFrames (dc : Decoder C) : Nat → DecContext C → Rust (Except AppErr (List Frame) × DecContext C)
  | 0, _ => .error .fuel
  | n + 1, cd => do
    match ← cd.receiveFrame dc with
    | (.ok f, cd) =>
      match ← drainFrames dc n cd with
      | (.ok fs, cd) => .ok (.ok (f :: fs), cd)
      | (.error e, cd) => .ok (.error e, cd)
    | (.error .MoreDataNeeded, cd) => .ok (.ok [], cd)
    | (.error e, cd) => .ok (.error (.codec e), cd)

/-- Each packet is sent and the frames it gives are kept, until `Eof`; then the decoder is flushed and the rest kept.
Other events are passed over. `n` bounds the number of events, `k` the frames received at a time. -/
def decodeAll (dc : Decoder C) (dm : Demuxer D R) (bf : Buffered R) (fuel k : Nat) : Nat → DecContext C → Context D R →
    Rust (Except AppErr (List Frame) × DecContext C × Context D R)
  | 0, _, _ => .error .fuel
  | n + 1, cd, c => do
    match ← readEvent dm bf fuel c with
    | (.error e, c) => .ok (.error (.format e), cd, c)
    | (.ok (.NewPacket p), c) =>
      match ← cd.sendPacket dc p with
      | (.error e, cd) => .ok (.error (.codec e), cd, c)
      | (.ok (), cd) =>
        match ← drainFrames dc k cd with
        | (.error e, cd) => .ok (.error e, cd, c)
        | (.ok fs, cd) =>
          match ← decodeAll dc dm bf fuel k n cd c with
          | (.ok gs, r) => .ok (.ok (fs ++ gs), r)
          | (.error e, r) => .ok (.error e, r)
    | (.ok .Eof, c) =>
      match ← cd.flush dc with
      | (.error e, cd) => .ok (.error (.codec e), cd, c)
      | (.ok (), cd) =>
        match ← drainFrames dc k cd with
        | (.error e, cd) => .ok (.error e, cd, c)
        | (.ok fs, cd) => .ok (.ok fs, cd, c)
    | (.ok _, c) => decodeAll dc dm bf fuel k n cd c

/-! ### specification -/

/-- A codec as a function: what each item gives, and what is left at the end. -/
structure Machine (S A B : Type) where
  step : S → A → List B × S
  finish : S → List B

/-- All it gives. -/
def Machine.all {A B : Type} (m : Machine S A B) : S → List A → List B
  | s, [] => m.finish s
  | s, a :: l => (m.step s a).1 ++ m.all (m.step s a).2 l

/-- The encoder computes the machine: `I e s q` says that its state is `s` and `q` is waiting to be received. -/
structure Encodes (ec : Encoder E) (m : Machine S Frame Packet) (fine : Frame → Prop)
    (I : E → S → List Packet → Prop) : Prop where
  send : ∀ {e s q f}, I e s q → fine f → ∃ e', ec.sendFrame e f = .ok (.ok (), e') ∧
    I e' (m.step s f).2 (q ++ (m.step s f).1)
  receive : ∀ {e s p q}, I e s (p :: q) → ∃ e', ec.receivePacket e = .ok (.ok p, e') ∧ I e' s q
  empty : ∀ {e s}, I e s [] → ∃ e', ec.receivePacket e = .ok (.error .MoreDataNeeded, e') ∧ I e' s []
  flush : ∀ {e s q}, I e s q → ∃ e' s', ec.flush e = .ok (.ok (), e') ∧ I e' s' (q ++ m.finish s)

/-- The decoder computes the machine. -/
structure DecodesAll (dc : Decoder C) (m : Machine T Packet Frame) (J : C → T → List Frame → Prop) : Prop where
  send : ∀ {d s q} (p : Packet), J d s q → ∃ d', dc.sendPacket d p = .ok (.ok (), d') ∧
    J d' (m.step s p).2 (q ++ (m.step s p).1)
  receive : ∀ {d s f q}, J d s (f :: q) → ∃ d', dc.receiveFrame d = .ok (.ok f, d') ∧ J d' s q
  empty : ∀ {d s}, J d s [] → ∃ d', dc.receiveFrame d = .ok (.error .MoreDataNeeded, d') ∧ J d' s []
  flush : ∀ {d s q}, J d s q → ∃ d' s', dc.flush d = .ok (.ok (), d') ∧ J d' s' (q ++ m.finish s)

/-! ### proofs -/

theorem drainPackets_run {ec : Encoder E} {m : Machine S Frame Packet} {fine : Frame → Prop}
    {I : E → S → List Packet → Prop} (h : Encodes ec m fine I) {so : Mux.SinkOps W} {mx : Mux.Muxer M W}
    (q : List Packet) : ∀ (n : Nat) (e : E) (s : S) (cm : Mux.Context M W) ops xs c, q.length < n → I e s q →
    cm.run so mx (q.map .packet ++ ops) = .ok (List.replicate q.length (.ok ()) ++ xs, c) →
    ∃ e' cm', drainPackets ec mx n ⟨e⟩ cm = .ok (.ok (), ⟨e'⟩, cm') ∧ I e' s [] ∧ cm'.run so mx ops = .ok (xs, c) := by
  induction q with
  | nil =>
    intro n e s cm ops xs c hn hI hr
    obtain ⟨k, rfl⟩ : ∃ k, n = k + 1 := ⟨n - 1, by simp at hn; omega⟩
    obtain ⟨e', g, hI'⟩ := h.empty hI
    refine ⟨e', cm, ?_, hI', hr⟩
    simp only [drainPackets, EncContext.receivePacket, g, ok_bind, pure_eq_ok]
  | cons p q ih =>
    intro n e s cm ops xs c hn hI hr
    obtain ⟨k, rfl⟩ : ∃ k, n = k + 1 := ⟨n - 1, by simp at hn; omega⟩
    obtain ⟨e', g, hI'⟩ := h.receive hI
    simp only [List.map_cons, List.cons_append, Mux.Context.run, Mux.Context.step] at hr
    cases hw : cm.writePacket mx p with
    | error er => rw [hw] at hr; cases hr
    | ok r =>
      obtain ⟨x, cm1⟩ := r
      simp only [hw, ok_bind] at hr
      cases hr' : cm1.run so mx (q.map .packet ++ ops) with
      | error er => rw [hr'] at hr; cases hr
      | ok r =>
        obtain ⟨ys, c'⟩ := r
        simp only [hr', ok_bind, pure_eq_ok, List.length_cons, List.replicate_succ, List.cons_append, Except.ok.injEq,
          Prod.mk.injEq, List.cons.injEq] at hr
        obtain ⟨⟨rfl, rfl⟩, rfl⟩ := hr
        obtain ⟨e2, cm2, a1, a2, a3⟩ := ih k e' s cm1 ops xs c' (by simpa using hn) hI' hr'
        refine ⟨e2, cm2, ?_, a2, a3⟩
        simp only [drainPackets, EncContext.receivePacket, g, ok_bind, pure_eq_ok, hw]
        exact a1

theorem encodeAll_run {ec : Encoder E} {m : Machine S Frame Packet} {fine : Frame → Prop}
    {I : E → S → List Packet → Prop} (h : Encodes ec m fine I) {so : Mux.SinkOps W} {mx : Mux.Muxer M W} {n : Nat}
    (fs : List Frame) : ∀ (e : E) (s : S) (cm : Mux.Context M W) c, (m.all s fs).length < n → I e s [] →
    (∀ f ∈ fs, fine f) →
    cm.run so mx ((m.all s fs).map .packet ++ [.trailer]) = .ok (List.replicate ((m.all s fs).length + 1) (.ok ()), c) →
    ∃ e', encodeAll ec so mx n fs ⟨e⟩ cm = .ok (.ok (), ⟨e'⟩, c) := by
  induction fs with
  | nil =>
    intro e s cm c hn hI _ hr
    obtain ⟨e1, s1, g, hI1⟩ := h.flush hI
    obtain ⟨e2, cm2, a1, a2, a3⟩ := drainPackets_run h (m.finish s) n e1 s1 cm [.trailer] [.ok ()] c hn hI1
      (by rw [← List.replicate_succ']; exact hr)
    simp only [Mux.Context.run, Mux.Context.step] at a3
    cases ht : cm2.writeTrailer so mx with
    | error er => rw [ht] at a3; cases a3
    | ok r =>
      obtain ⟨x, cm3⟩ := r
      rw [ht] at a3
      cases a3
      refine ⟨e2, ?_⟩
      simp only [encodeAll, EncContext.flush, g, ok_bind, pure_eq_ok, a1, ht]
  | cons f fs ih =>
    intro e s cm c hn hI hf hr
    obtain ⟨e1, g, hI1⟩ := h.send hI (hf f (by simp))
    simp only [Machine.all, List.length_append, List.map_append, List.append_assoc] at hn hr
    rw [Nat.add_assoc, ← List.replicate_append_replicate] at hr
    obtain ⟨e2, cm2, a1, a2, a3⟩ := drainPackets_run h (m.step s f).1 n e1 _ cm _ _ c (by omega) hI1 hr
    obtain ⟨e3, b⟩ := ih e2 _ cm2 c (by omega) a2 (fun g hg => hf g (by simp [hg])) a3
    refine ⟨e3, ?_⟩
    simp only [encodeAll, EncContext.sendFrame, g, ok_bind, pure_eq_ok, a1]
    exact b

theorem drainFrames_run {dc : Decoder C} {m : Machine T Packet Frame} {J : C → T → List Frame → Prop}
    (h : DecodesAll dc m J) (q : List Frame) : ∀ (n : Nat) (d : C) (s : T), q.length < n → J d s q →
    ∃ d', drainFrames dc n ⟨d⟩ = .ok (.ok q, ⟨d'⟩) ∧ J d' s [] := by
  induction q with
  | nil =>
    intro n d s hn hJ
    obtain ⟨k, rfl⟩ : ∃ k, n = k + 1 := ⟨n - 1, by simp at hn; omega⟩
    obtain ⟨d', g, hJ'⟩ := h.empty hJ
    exact ⟨d', by simp only [drainFrames, DecContext.receiveFrame, g, ok_bind, pure_eq_ok], hJ'⟩
  | cons f q ih =>
    intro n d s hn hJ
    obtain ⟨k, rfl⟩ : ∃ k, n = k + 1 := ⟨n - 1, by simp at hn; omega⟩
    obtain ⟨d', g, hJ'⟩ := h.receive hJ
    obtain ⟨d2, a1, a2⟩ := ih k d' s (by simpa using hn) hJ'
    exact ⟨d2, by simp only [drainFrames, DecContext.receiveFrame, g, ok_bind, pure_eq_ok, a1], a2⟩

theorem decodeAll_run {dc : Decoder C} {m : Machine T Packet Frame} {J : C → T → List Frame → Prop}
    (h : DecodesAll dc m J) {dm : Demuxer D R} {bf : Buffered R} {fuel b : Nat} (ps : List Packet) :
    ∀ (n : Nat) (d : C) (s : T) (c c' : Context D R), ps.length < n → (m.all s ps).length < b → J d s [] →
    readEvents dm bf fuel (ps.length + 1) c = .ok (ps.map (fun p => .ok (.NewPacket p)) ++ [.ok .Eof], c') →
    ∃ d', decodeAll dc dm bf fuel b n ⟨d⟩ c = .ok (.ok (m.all s ps), ⟨d'⟩, c') := by
  induction ps with
  | nil =>
    intro n d s c c' hn hl hJ hr
    obtain ⟨k, rfl⟩ : ∃ k, n = k + 1 := ⟨n - 1, by simp at hn; omega⟩
    simp only [List.length_nil, readEvents] at hr
    cases he : readEvent dm bf fuel c with
    | error er => rw [he] at hr; cases hr
    | ok r =>
      obtain ⟨x, c1⟩ := r
      rw [he] at hr
      cases hr
      obtain ⟨d1, s1, g, hJ1⟩ := h.flush hJ
      obtain ⟨d2, a1, a2⟩ := drainFrames_run h (m.finish s) b d1 s1 hl hJ1
      exact ⟨d2, by simp only [decodeAll, he, ok_bind, pure_eq_ok, DecContext.flush, g, a1, Machine.all]⟩
  | cons p ps ih =>
    intro n d s c c' hn hl hJ hr
    obtain ⟨k, rfl⟩ : ∃ k, n = k + 1 := ⟨n - 1, by simp at hn; omega⟩
    simp only [Machine.all, List.length_append] at hl
    rw [List.length_cons] at hr
    simp only [readEvents] at hr
    cases he : readEvent dm bf fuel c with
    | error er => rw [he] at hr; cases hr
    | ok r =>
      obtain ⟨x, c1⟩ := r
      simp only [he, ok_bind] at hr
      cases he2 : readEvents dm bf fuel (ps.length + 1) c1 with
      | error er =>
        simp only [readEvents] at he2
        rw [he2] at hr; cases hr
      | ok r =>
        obtain ⟨xs, c2⟩ := r
        have he2' := he2
        simp only [readEvents] at he2
        rw [he2] at hr
        cases hr
        obtain ⟨d1, g, hJ1⟩ := h.send p hJ
        obtain ⟨d2, a1, a2⟩ := drainFrames_run h (m.step s p).1 b d1 _ (by omega) hJ1
        obtain ⟨d3, e⟩ := ih k d2 _ c1 c2 (by simpa using hn) (by omega) a2 he2'
        refine ⟨d3, ?_⟩
        simp only [decodeAll, he, ok_bind, pure_eq_ok, DecContext.sendPacket, g, a1, e, Machine.all]

/-- The application receives what the decoder makes of the packets the file keeps. -/
theorem delayed_run (ec : Encoder E) (dc : Decoder C)
    (eds : List (Codec.Descriptor E)) (dds : List (Codec.Descriptor C)) (ename dname : String) (ei di : Nat)
    (ed : Codec.Descriptor E) (dd : Codec.Descriptor C)
    (hed : eds[ei]? = some ed ∧ ed.describe.codec = ename ∧ ∀ j e, j < ei → eds[j]? = some e → e.describe.codec ≠ ename)
    (hdd : dds[di]? = some dd ∧ dd.describe.codec = dname ∧ ∀ j e, j < di → dds[j]? = some e → e.describe.codec ≠ dname)
    (F : Format D) (hF : F.Framed) (hdr : M → List U8 × M) (pkt : M → Packet → List U8 × M)
    (trl : M → List U8 × M) (wire : Packet → Packet) (info : GlobalInfo) (m : M) (d : D) (good : Packet → Prop)
    (sync : M → D → Prop) (h : Undoes F hdr pkt trl wire info m d good sync)
    (em : Machine S Frame Packet) (dm : Machine T Packet Frame) (fine : Frame → Prop)
    (I : E → S → List Packet → Prop) (J : C → T → List Frame → Prop) (s0 : S) (t0 : T)
    (hE : Encodes ec em fine I) (hD : DecodesAll dc dm J) (x : List U8)
    (hI : I ed.create s0 [] ∧ ec.getExtradata ed.create = .ok (some x))
    (hJ : ∃ d1 d2, dc.setExtradata dd.create x = .ok d1 ∧ dc.configure d1 = .ok (.ok (), d2) ∧ J d2 t0 [])
    (hx : ∃ st, info.streams[0]? = some st ∧ st.params.extradata = some x)
    (fs : List Frame) (hfine : ∀ f ∈ fs, fine f) (hgood : ∀ p ∈ em.all s0 fs, good p)
    (gs : List Frame) (hinv : dm.all t0 ((em.all s0 fs).map (kept info.streams wire)) = gs)
    (sink : Sink) (h0 : sink.data = [] ∧ sink.pos = 0)
    (hq : ∀ c, (sink.script c).fail = none ∧ 0 < (sink.script c).len)
    (acts : Nat → Act) (ha : ∀ c, (acts c).fail = none) (cap : Nat) :
    ∃ ce cd, EncContext.byName (Codecs.fromList eds) ename = .ok (some ce) ∧
      DecContext.byName (Codecs.fromList dds) dname = .ok (some cd) ∧ ce.getExtradata ec = .ok (some x) ∧
    ∀ n fuel, (em.all s0 fs).length < n → (Mux.fileBytes hdr pkt trl m (em.all s0 fs)).length < fuel →
    ∃ ce' c, encodeFile ec Mux.sinkOps (Mux.bytesMuxer fuel hdr pkt trl) n fs ce
        (Mux.Context.new m (Mux.Writer.new sink)) = .ok (.ok (), ce', c) ∧
    ∀ file, c.intoWriter.writer.data = file → ∀ k, gs.length < k →
    ∃ c1 c2 st y cd1 cd2 cd3,
      readHeaders F.demuxer accBuffered (file.length + 2)
        (Context.new d (Acc.withCapacity cap ⟨file, 0, acts, 0⟩)) = .ok (.ok (), c1) ∧
      c1.info.streams[0]? = some st ∧ st.params.extradata = some y ∧
      cd.setExtradata dc y = .ok cd1 ∧ cd1.configure dc = .ok (.ok (), cd2) ∧
      decodeAll dc F.demuxer accBuffered (file.length + 1) k n cd2 c1 = .ok (.ok gs, cd3, c2) := by
  obtain ⟨re, e1, e2, _⟩ := c41_registry eds ename
  obtain ⟨rd, d1, d2, _⟩ := c41_registry dds dname
  have he := (e2 ed).2 ⟨ei, hed⟩
  have hd := (d2 dd).2 ⟨di, hdd⟩
  subst he hd
  refine ⟨⟨ed.create⟩, ⟨dd.create⟩, by simp [EncContext.byName, e1], by simp [DecContext.byName, d1], hI.2, ?_⟩
  intro n fuel hn hfuel
  obtain ⟨c, hm, hr⟩ := c91_roundtrip F hF hdr pkt trl wire info m d good sync h (em.all s0 fs) hgood sink h0 hq fuel
    hfuel acts ha cap 1
  have hm' := hm
  simp only [List.cons_append, Mux.Context.run, Mux.Context.step] at hm
  cases hh : (Mux.Context.new m (Mux.Writer.new sink)).writeHeader (Mux.bytesMuxer fuel hdr pkt trl) with
  | error er => rw [hh] at hm; cases hm
  | ok r =>
    obtain ⟨y, cm⟩ := r
    simp only [hh, ok_bind] at hm
    cases hr1 : cm.run Mux.sinkOps (Mux.bytesMuxer fuel hdr pkt trl) ((em.all s0 fs).map .packet ++ [.trailer]) with
    | error er => rw [hr1] at hm; cases hm
    | ok r =>
      obtain ⟨ys, c'⟩ := r
      simp only [hr1, ok_bind, pure_eq_ok, List.replicate_succ, Except.ok.injEq, Prod.mk.injEq, List.cons.injEq] at hm
      obtain ⟨⟨rfl, hys⟩, rfl⟩ := hm
      rw [hys, ← List.replicate_succ] at hr1
      obtain ⟨e', he'⟩ := encodeAll_run hE fs ed.create s0 cm c' hn hI.1 hfine hr1
      refine ⟨⟨e'⟩, c', by simp only [encodeFile, hh, ok_bind]; exact he', ?_⟩
      intro file hfile k hk
      obtain ⟨c1, c2, r1, r2, r3⟩ := hr file hfile
      obtain ⟨st, x1, x2⟩ := hx
      obtain ⟨s1, s2, g1, g2, g3⟩ := hJ
      rw [show (em.all s0 fs).map (fun p => (.ok (completed info.streams (.NewPacket (wire p))) : Except Demux.Err Event)) =
        ((em.all s0 fs).map (kept info.streams wire)).map (fun p => .ok (.NewPacket p)) by rw [List.map_map]; rfl,
        ← List.length_map (kept info.streams wire)] at r3
      obtain ⟨d', hd'⟩ := decodeAll_run hD (b := k) _ n s2 t0 c1 c2 (by rw [List.length_map]; exact hn)
        (by rw [hinv]; exact hk) g3 r3
      rw [hinv] at hd'
      exact ⟨c1, c2, st, x, ⟨s1⟩, ⟨s2⟩, ⟨d'⟩, r1, by rw [r2]; exact x1, x2, by simp [DecContext.setExtradata, g1],
        by simp [DecContext.configure, g2], hd'⟩

/-- C160. An encoder and a decoder, registered under their names, that answer what they are sent with any number of
results, or later, or only when flushed, such that what is kept of the packets of these frames decodes to these
frames. An application writes what the encoder gives for the frames and the flush, to a muxer as in C91; another one
reads the file, sets the decoder up with the extradata of the file's first stream and decodes until `Eof`. It
receives the frames, all of them, in order. -/
theorem c160_delayed (ec : Encoder E) (dc : Decoder C)
    (eds : List (Codec.Descriptor E)) (dds : List (Codec.Descriptor C)) (ename dname : String) (ei di : Nat)
    (ed : Codec.Descriptor E) (dd : Codec.Descriptor C)
    (hed : eds[ei]? = some ed ∧ ed.describe.codec = ename ∧ ∀ j e, j < ei → eds[j]? = some e → e.describe.codec ≠ ename)
    (hdd : dds[di]? = some dd ∧ dd.describe.codec = dname ∧ ∀ j e, j < di → dds[j]? = some e → e.describe.codec ≠ dname)
    (F : Format D) (hF : F.Framed) (hdr : M → List U8 × M) (pkt : M → Packet → List U8 × M)
    (trl : M → List U8 × M) (wire : Packet → Packet) (info : GlobalInfo) (m : M) (d : D) (good : Packet → Prop)
    (sync : M → D → Prop) (h : Undoes F hdr pkt trl wire info m d good sync)
    (em : Machine S Frame Packet) (dm : Machine T Packet Frame) (fine : Frame → Prop)
    (I : E → S → List Packet → Prop) (J : C → T → List Frame → Prop) (s0 : S) (t0 : T)
    (hE : Encodes ec em fine I) (hD : DecodesAll dc dm J) (x : List U8)
    (hI : I ed.create s0 [] ∧ ec.getExtradata ed.create = .ok (some x))
    (hJ : ∃ d1 d2, dc.setExtradata dd.create x = .ok d1 ∧ dc.configure d1 = .ok (.ok (), d2) ∧ J d2 t0 [])
    (hx : ∃ st, info.streams[0]? = some st ∧ st.params.extradata = some x)
    (fs : List Frame) (hfine : ∀ f ∈ fs, fine f) (hgood : ∀ p ∈ em.all s0 fs, good p)
    (hinv : dm.all t0 ((em.all s0 fs).map (kept info.streams wire)) = fs)
    (sink : Sink) (h0 : sink.data = [] ∧ sink.pos = 0)
    (hq : ∀ c, (sink.script c).fail = none ∧ 0 < (sink.script c).len)
    (acts : Nat → Act) (ha : ∀ c, (acts c).fail = none) (cap : Nat) :
    ∃ ce cd, EncContext.byName (Codecs.fromList eds) ename = .ok (some ce) ∧
      DecContext.byName (Codecs.fromList dds) dname = .ok (some cd) ∧ ce.getExtradata ec = .ok (some x) ∧
    ∀ n fuel, (em.all s0 fs).length < n → (Mux.fileBytes hdr pkt trl m (em.all s0 fs)).length < fuel →
    ∃ ce' c, encodeFile ec Mux.sinkOps (Mux.bytesMuxer fuel hdr pkt trl) n fs ce
        (Mux.Context.new m (Mux.Writer.new sink)) = .ok (.ok (), ce', c) ∧
    ∀ file, c.intoWriter.writer.data = file → ∀ k, fs.length < k →
    ∃ c1 c2 st y cd1 cd2 cd3,
      readHeaders F.demuxer accBuffered (file.length + 2)
        (Context.new d (Acc.withCapacity cap ⟨file, 0, acts, 0⟩)) = .ok (.ok (), c1) ∧
      c1.info.streams[0]? = some st ∧ st.params.extradata = some y ∧
      cd.setExtradata dc y = .ok cd1 ∧ cd1.configure dc = .ok (.ok (), cd2) ∧
      decodeAll dc F.demuxer accBuffered (file.length + 1) k n cd2 c1 = .ok (.ok fs, cd3, c2) :=
  delayed_run ec dc eds dds ename dname ei di ed dd hed hdd F hF hdr pkt trl wire info m d good sync h em dm fine I J s0 t0 hE hD x
    hI hJ hx fs hfine hgood fs hinv sink h0 hq acts ha cap

/-! ### A codec for the examples: of two frames the second goes first, and the decoder waits for both -/

/-- The samples of a frame. -/
def samples (f : Frame) : List U8 := (f.planes.map (·.buf)).flatten

/-- The packet of a frame. -/
def pairPacket (f : Frame) : Packet := { Packet.new with data := samples f }

/-- The frame of a packet. -/
def pairFrame (p : Packet) : Frame := { pcmFrame p.data with t := p.t }

/-- Holds the first of two. -/
def pairing {A B : Type} (g : A → B) : Machine (Option A) A B where
  step s a := match s with
    | none => ([], some a)
    | some b => ([g a, g b], none)
  finish s := match s with
    | none => []
    | some b => [g b]

/-- The encoder has a queue of packets. -/
def pairEncoder : Encoder (Option Frame × List Packet) where
  getExtradata _ := .ok (some [1, 2])
  sendFrame e f := .ok (.ok (), ((pairing pairPacket).step e.1 f).2, e.2 ++ ((pairing pairPacket).step e.1 f).1)
  receivePacket e := .ok (match e.2 with
    | [] => (.error .MoreDataNeeded, e)
    | p :: q => (.ok p, e.1, q))
  flush e := .ok (.ok (), none, e.2 ++ (pairing pairPacket).finish e.1)
  configure e := .ok (.ok (), e)
  setOption e k _ := .ok (.error (.Unsupported k), e)
  setParams e _ := .ok (.ok (), e)
  getParams _ := .ok (.error .ConfigurationIncomplete)

/-- The decoder has one of frames, and works only with the extradata. -/
def pairDecoder : Decoder (List U8 × Option Packet × List Frame) where
  setExtradata d l := .ok (l, d.2)
  sendPacket d p := .ok (if d.1 = [1, 2] then
      (.ok (), d.1, ((pairing pairFrame).step d.2.1 p).2, d.2.2 ++ ((pairing pairFrame).step d.2.1 p).1)
    else (.error .ConfigurationIncomplete, d))
  receiveFrame d := .ok (match d.2.2 with
    | [] => (.error .MoreDataNeeded, d)
    | f :: q => (.ok f, d.1, d.2.1, q))
  configure d := .ok (if d.1 = [1, 2] then .ok () else .error .ConfigurationInvalid, d)
  flush d := .ok (.ok (), d.1, none, d.2.2 ++ (pairing pairFrame).finish d.2.1)

theorem pair_encodes : Encodes pairEncoder (pairing pairPacket) (fun _ => True) (fun e s q => e = (s, q)) where
  send := by rintro e s q f rfl _; exact ⟨_, rfl, rfl⟩
  receive := by rintro e s p q rfl; exact ⟨_, rfl, rfl⟩
  empty := by rintro e s rfl; exact ⟨_, rfl, rfl⟩
  flush := by rintro e s q rfl; exact ⟨_, none, rfl, rfl⟩

theorem pair_decodes : DecodesAll pairDecoder (pairing pairFrame) (fun d s q => d = ([1, 2], s, q)) where
  send := by rintro d s q p rfl; exact ⟨_, rfl, rfl⟩
  receive := by rintro d s f q rfl; exact ⟨_, rfl, rfl⟩
  empty := by rintro d s rfl; exact ⟨_, rfl, rfl⟩
  flush := by rintro d s q rfl; exact ⟨_, none, rfl, rfl⟩

theorem pair_frame (l : List U8) : pairFrame (kept theInfo.streams (fun p => { Packet.new with data := p.data, stream_index := 0 })
    (pairPacket (pcmFrame l))) = pcmFrame l := by
  have h : samples (pcmFrame l) = l := by simp [samples, pcmFrame]
  simp only [pairFrame, kept, pairPacket, h]
  rfl

theorem pair_inverse : ∀ ls : List (List U8),
    (pairing pairFrame).all none (((pairing pairPacket).all none (ls.map pcmFrame)).map
      (kept theInfo.streams fun p => { Packet.new with data := p.data, stream_index := 0 })) = ls.map pcmFrame
  | [] => rfl
  | [l] => by
    simp only [List.map_cons, List.map_nil, Machine.all, pairing, List.nil_append]
    rw [pair_frame]
  | l :: l' :: ls => by
    have ih := pair_inverse ls
    simp only [List.map_cons, Machine.all, pairing, List.nil_append, List.cons_append, pair_frame] at ih ⊢
    rw [ih]

/-- The hypotheses of C160 hold for that codec, and the packets are not in the order of the frames. -/
example : (∀ f ∈ [pcmFrame [7], pcmFrame [8, 8], pcmFrame [9]], True) ∧
    ((pairing pairPacket).all none [pcmFrame [7], pcmFrame [8, 8], pcmFrame [9]]).map (·.data) = [[8, 8], [7], [9]] ∧
    (∀ p ∈ (pairing pairPacket).all none [pcmFrame [7], pcmFrame [8, 8], pcmFrame [9]],
      0 < p.data.length ∧ p.data.length < 256) ∧
    (∃ d1 d2, pairDecoder.setExtradata ([], none, []) [1, 2] = .ok d1 ∧ pairDecoder.configure d1 = .ok (.ok (), d2) ∧
      d2 = ([1, 2], none, [])) := by
  refine ⟨fun _ _ => trivial, rfl, ?_, _, _, rfl, rfl, rfl⟩
  decide

/-- The whole way, of three frames, one of which the encoder keeps until it is flushed. -/
example : (match encodeFile pairEncoder Mux.sinkOps (Mux.bytesMuxer 20 avHdr avPkt avTrl) 9
      [pcmFrame [7], pcmFrame [8, 8], pcmFrame [9]] ⟨none, []⟩
      (Mux.Context.new 0 (Mux.Writer.new ⟨[], 0, fun k => ⟨none, 1 + k % 2⟩, 0, 0⟩)) with
    | .ok (.ok (), _, c) => (match readHeaders avFormat.demuxer accBuffered 12
          (Context.new () (Acc.withCapacity 1 ⟨c.intoWriter.writer.data, 0, sampleActs, 0⟩)) with
      | .ok (.ok (), c1) => (match decodeAll pairDecoder avFormat.demuxer accBuffered 12 9 9 ⟨[1, 2], none, []⟩ c1 with
        | .ok (.ok fs, _, _) => decide (c.intoWriter.writer.data = [65, 86, 2, 8, 8, 1, 7, 1, 9, 0] ∧
            fs = [pcmFrame [7], pcmFrame [8, 8], pcmFrame [9]])
        | _ => false)
      | _ => false)
    | _ => false) = true := by decide +kernel

end Verif.RoundTrip
