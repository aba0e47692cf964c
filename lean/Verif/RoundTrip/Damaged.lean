import Verif.RoundTrip.Wired
import Verif.RoundTrip.Retry

/-!
# Property C183: converting damaged files

The program of C180 with any bytes as its file, a reader and a writer that fail whenever they like, and a demuxer that makes of the
bytes whatever it likes.
-/

namespace Verif.RoundTrip
open Verif Verif.Io Verif.Frame Verif.Stream Verif.Packet Verif.Demux Verif.Codec

variable {M W D R E C A B : Type}

/-! ### the application that tries again -/

/-- `convertAll` that calls `read_event` again if it fails with `Error::Io`. -/
def convertRetry (dc : Decoder C) (dm : Demuxer D R) (bf : Buffered R) (fuel k : Nat) (ec : Encoder E) (so : Mux.SinkOps W)
    (mx : Mux.Muxer M W) : Nat → List (Track C E) → Context D R → Mux.Context M W →
    Rust (Except AppErr Unit × List (Track C E) × Context D R × Mux.Context M W)
  | 0, _, _, _ => .error .fuel
  | m + 1, trs, c, cm => do
    match ← readEvent dm bf fuel c with
    | (.error (.Io _), c) => convertRetry dc dm bf fuel k ec so mx m trs c cm
    | (.error e, c) => .ok (.error (.format e), trs, c, cm)
    | (.ok (.NewPacket p), c) =>
      match if p.stream_index < 0 then none else trs[p.stream_index.toNat]? with
      | none => convertRetry dc dm bf fuel k ec so mx m trs c cm
      | some tr =>
        match ← tr.packet dc ec mx k p.stream_index.toNat p cm with
        | (.error e, tr, cm) => .ok (.error e, trs.set p.stream_index.toNat tr, c, cm)
        | (.ok (), tr, cm) => convertRetry dc dm bf fuel k ec so mx m (trs.set p.stream_index.toNat tr) c cm
    | (.ok .Eof, c) =>
      match ← finishTracks dc ec mx k 0 trs cm with
      | (.error e, trs, cm) => .ok (.error e, trs, c, cm)
      | (.ok (), trs, cm) =>
        match ← cm.writeTrailer so mx with
        | (.error e, cm) => .ok (.error (.format e), trs, c, cm)
        | (.ok (), cm) => .ok (.ok (), trs, c, cm)
    | (.ok _, c) => convertRetry dc dm bf fuel k ec so mx m trs c cm

/-- The program, with `headersRetry`. -/
def convertFileRetry (dc : Decoder C) (dreg : Codecs C) (dm : Demuxer D R) (bf : Buffered R) (fuel k : Nat) (ec : Encoder E)
    (ereg : Codecs E) (so : Mux.SinkOps W) (mx : Mux.Muxer M W) (m : Nat) (plans : List Plan) (c : Context D R)
    (cm : Mux.Context M W) : Rust (Except AppErr Unit × List (Track C E) × Context D R × Mux.Context M W) := do
  match ← headersRetry dm bf fuel m c with
  | (.error e, c) => .ok (.error (.format e), [], c, cm)
  | (.ok (), c) =>
    match ← openTracks dc dreg ereg plans c.info.streams with
    | .error e => .ok (.error e, [], c, cm)
    | .ok trs =>
      match ← cm.writeHeader mx with
      | (.error e, cm) => .ok (.error (.format e), trs, c, cm)
      | (.ok (), cm) => convertRetry dc dm bf fuel k ec so mx m trs c cm

/-! ### specification -/

/-- The same outcome, tracks, muxer and written bytes, demuxer, streams and position in the file. -/
inductive SameEnd : Rust (Except AppErr Unit × List (Track C E) × Context D Acc.Acc × Mux.Context M W) →
    Rust (Except AppErr Unit × List (Track C E) × Context D Acc.Acc × Mux.Context M W) → Prop
  | ok {x trs c c' cm} : c'.demuxer = c.demuxer → c'.info = c.info → c'.reader.index = c.reader.index →
      SameEnd (.ok (x, trs, c, cm)) (.ok (x, trs, c', cm))
  | panic {p} : SameEnd (.error p) (.error p)

/-- An encoder whose methods, as far as they are called here, do not panic. -/
structure CalmEncoder (ec : Encoder E) : Prop where
  send : ∀ e f p, ec.sendFrame e f ≠ .error p
  receive : ∀ e p, ec.receivePacket e ≠ .error p
  flush : ∀ e p, ec.flush e ≠ .error p

/-- The same for a muxer and the flush of its sink; a muxer that never returns is allowed. -/
structure CalmMuxer (so : Mux.SinkOps W) (mx : Mux.Muxer M W) : Prop where
  header : ∀ m w p, mx.writeHeader m w = .error p → p = .fuel
  packet : ∀ m w q p, mx.writePacket m w q = .error p → p = .fuel
  trailer : ∀ m w p, mx.writeTrailer m w = .error p → p = .fuel
  flush : ∀ w p, so.flush w = .error p → p = .fuel

/-! ### proofs -/

theorem CalmEncoder.tagged {ec : Encoder E} (h : CalmEncoder ec) (i : Nat) : CalmEncoder (tagged i ec) where
  send := h.send
  flush := h.flush
  receive e p hp := by
    obtain ⟨⟨x, e'⟩, hx⟩ := rust_ok (h.receive e)
    simp only [RoundTrip.tagged, hx, ok_bind, pure_eq_ok] at hp
    cases x <;> cases hp

section
variable {so : Mux.SinkOps W} {mx : Mux.Muxer M W} {dc : Decoder C} {ec : Encoder E}

theorem CalmMuxer.writesPacket (h : CalmMuxer so mx) (cm : Mux.Context M W) (q : Packet) : Quiet (cm.writePacket mx q) := by
  refine Quiet.bind (h.packet _ _ _) ?_
  rintro ⟨x, m, w⟩ -
  exact .ok _

theorem CalmMuxer.writesHeader (h : CalmMuxer so mx) (cm : Mux.Context M W) : Quiet (cm.writeHeader mx) := by
  refine Quiet.bind (h.header _ _) ?_
  rintro ⟨x, m, w⟩ -
  exact .ok _

theorem CalmMuxer.writesTrailer (h : CalmMuxer so mx) (cm : Mux.Context M W) : Quiet (cm.writeTrailer so mx) := by
  refine Quiet.bind (h.trailer _ _) ?_
  rintro ⟨x, m, w⟩ -
  cases x with
  | error e => exact .ok _
  | ok u =>
    have hf : Quiet (Mux.Writer.flush so w) := by
      refine Quiet.bind (h.flush _) ?_
      rintro ⟨x, w⟩ -
      exact .ok _
    refine Quiet.bind hf ?_
    rintro ⟨y, w⟩ -
    cases y <;> exact .ok _

theorem drainPackets_quiet (he : CalmEncoder ec) (hm : CalmMuxer so mx) (k : Nat) : ∀ ce cm, Quiet (drainPackets ec mx k ce cm) := by
  induction k with
  | zero => intro ce cm p hp; cases hp; rfl
  | succ k ih =>
    intro ce cm
    obtain ⟨⟨x, e⟩, hx⟩ := rust_ok (he.receive ce.enc)
    simp only [drainPackets, EncContext.receivePacket, hx, ok_bind, pure_eq_ok]
    cases x with
    | ok q =>
      refine (hm.writesPacket cm q).bind ?_
      rintro ⟨y, cm1⟩ -
      cases y with
      | ok u => exact ih _ _
      | error e => exact .ok _
    | error e => cases e <;> exact .ok _

theorem encodeSome_quiet (he : CalmEncoder ec) (hm : CalmMuxer so mx) (k : Nat) (fs : List Frame) :
    ∀ ce cm, Quiet (encodeSome ec mx k fs ce cm) := by
  induction fs with
  | nil => exact fun ce cm => .ok _
  | cons f fs ih =>
    intro ce cm
    obtain ⟨⟨x, e⟩, hx⟩ := rust_ok (he.send ce.enc f)
    simp only [encodeSome, EncContext.sendFrame, hx, ok_bind, pure_eq_ok]
    cases x with
    | error e => exact .ok _
    | ok u =>
      refine (drainPackets_quiet he hm k _ _).bind ?_
      rintro ⟨y, ce1, cm1⟩ -
      cases y with
      | error e => exact .ok _
      | ok u => exact ih _ _

theorem Track.packet_quiet (hd : Calm dc) (he : CalmEncoder ec) (hm : CalmMuxer so mx) (k i : Nat) (tr : Track C E) (q : Packet)
    (cm : Mux.Context M W) : Quiet (tr.packet dc ec mx k i q cm) := by
  cases tr with
  | drop => exact .ok _
  | copy =>
    refine (hm.writesPacket cm q).bind ?_
    rintro ⟨y, cm1⟩ -
    cases y <;> exact .ok _
  | code cd ce =>
    obtain ⟨⟨x, d⟩, hx⟩ := rust_ok (hd.send cd.dec q)
    simp only [Track.packet, DecContext.sendPacket, hx, ok_bind, pure_eq_ok]
    cases x with
    | error e => exact .ok _
    | ok u =>
      refine (hd.drain k _).bind ?_
      rintro ⟨y, cd1⟩ -
      cases y with
      | error e => exact .ok _
      | ok fs =>
        refine (encodeSome_quiet (he.tagged i) hm k fs _ _).bind ?_
        rintro ⟨y, ce1, cm1⟩ -
        exact .ok _

theorem Track.finish_quiet (hd : Calm dc) (he : CalmEncoder ec) (hm : CalmMuxer so mx) (k i : Nat) (tr : Track C E)
    (cm : Mux.Context M W) : Quiet (tr.finish dc ec mx k i cm) := by
  cases tr with
  | drop => exact .ok _
  | copy => exact .ok _
  | code cd ce =>
    obtain ⟨⟨x, d⟩, hx⟩ := rust_ok (hd.flush cd.dec)
    simp only [Track.finish, DecContext.flush, hx, ok_bind, pure_eq_ok]
    cases x with
    | error e => exact .ok _
    | ok u =>
      refine (hd.drain k _).bind ?_
      rintro ⟨y, cd1⟩ -
      cases y with
      | error e => exact .ok _
      | ok fs =>
        refine (encodeSome_quiet (he.tagged i) hm k fs _ _).bind ?_
        rintro ⟨y, ce1, cm1⟩ -
        cases y with
        | error e => exact .ok _
        | ok u =>
          obtain ⟨⟨z, e⟩, hz⟩ := rust_ok ((he.tagged i).flush ce1.enc)
          simp only [EncContext.flush, hz, ok_bind, pure_eq_ok]
          cases z with
          | error e => exact .ok _
          | ok u =>
            refine (drainPackets_quiet (he.tagged i) hm k _ _).bind ?_
            rintro ⟨y, ce1, cm1⟩ -
            exact .ok _

theorem finishTracks_quiet (hd : Calm dc) (he : CalmEncoder ec) (hm : CalmMuxer so mx) (k : Nat) (trs : List (Track C E)) :
    ∀ i cm, Quiet (finishTracks dc ec mx k i trs cm) := by
  induction trs with
  | nil => exact fun i cm => .ok _
  | cons tr trs ih =>
    intro i cm
    refine (tr.finish_quiet hd he hm k i cm).bind ?_
    rintro ⟨y, tr1, cm1⟩ -
    cases y with
    | error e => exact .ok _
    | ok u =>
      refine (ih _ _).bind ?_
      rintro ⟨y, trs1, cm1⟩ -
      exact .ok _

theorem openTracks_quiet (hd : Calm dc) (dds : List (Codec.Descriptor C)) (eds : List (Codec.Descriptor E)) (ec : Encoder E)
    (plans : List Plan) : ∀ sts, Quiet (openTracks dc (Codecs.fromList dds) (Codecs.fromList eds) plans sts) := by
  induction plans with
  | nil => exact fun sts => .ok _
  | cons pl plans ih =>
    intro sts
    cases sts with
    | nil => cases pl <;> exact .ok _
    | cons st sts =>
      cases pl with
      | drop =>
        refine (ih sts).bind ?_
        intro x _
        cases x <;> exact .ok _
      | copy =>
        refine (ih sts).bind ?_
        intro x _
        cases x <;> exact .ok _
      | code name =>
        obtain ⟨v, hv, -⟩ := c42_decoder dc dds (st.params.codec_id.getD "")
        simp only [openTracks, hv, ok_bind, pure_eq_ok]
        cases v with
        | none => exact .ok _
        | some cd =>
          have rest : ∀ cd : DecContext C, Quiet (do
              match ← cd.configure dc with
              | (.error e, _) => (.ok (.error (.codec e)) : Rust (Except AppErr (List (Track C E))))
              | (.ok (), cd) =>
                match ← EncContext.byName (Codecs.fromList eds) name with
                | none => .ok (.error (.codec (.Unsupported name)))
                | some ce =>
                  match ← openTracks dc (Codecs.fromList dds) (Codecs.fromList eds) plans sts with
                  | .ok trs => .ok (.ok (.code cd ce :: trs))
                  | .error e => .ok (.error e)) := by
            intro cd1
            obtain ⟨⟨x, d⟩, hx⟩ := rust_ok (hd.configure cd1.dec)
            simp only [DecContext.configure, hx, ok_bind, pure_eq_ok]
            cases x with
            | error e => exact .ok _
            | ok u =>
              obtain ⟨v, hv, -⟩ := c42_encoder ec eds name
              simp only [hv, ok_bind]
              cases v with
              | none => exact .ok _
              | some ce =>
                refine (ih sts).bind ?_
                intro x _
                cases x <;> exact .ok _
          cases st.params.extradata with
          | none => exact rest cd
          | some l =>
            obtain ⟨d, hx⟩ := rust_ok (hd.extradata cd.dec l)
            simp only [DecContext.setExtradata, hx, ok_bind, pure_eq_ok]
            exact rest _

theorem convertAll_quiet (hd : Calm dc) (he : CalmEncoder ec) (hm : CalmMuxer so mx) {dm : Demuxer D Acc.Acc} {dat : List U8}
    (fuel k : Nat) (hev : ∀ c : Context D Acc.Acc, Acc.Inv dat c.reader → readEvent dm accBuffered fuel c = .error .fuel ∨
      ∃ x c', readEvent dm accBuffered fuel c = .ok (x, c') ∧ Acc.Inv dat c'.reader) (n : Nat) :
    ∀ trs c cm, Acc.Inv dat c.reader → Quiet (convertAll dc dm accBuffered fuel k ec so mx n trs c cm) := by
  induction n with
  | zero => exact fun _ _ _ _ p hp => by cases hp; rfl
  | succ n ih =>
    intro trs c cm hi
    simp only [convertAll]
    rcases hev c hi with h1 | ⟨x, c', h1, hi'⟩
    · rw [h1]; exact fun p hp => by cases hp; rfl
    · simp only [h1, ok_bind]
      cases x with
      | error e => exact .ok _
      | ok y =>
        cases y with
        | NewPacket p =>
          simp only
          cases (if p.stream_index < 0 then none else trs[p.stream_index.toNat]?) with
          | none => exact ih _ _ _ hi'
          | some tr =>
            refine (tr.packet_quiet hd he hm k _ p cm).bind ?_
            rintro ⟨z, tr1, cm1⟩ -
            cases z with
            | error e => exact .ok _
            | ok u => exact ih _ _ _ hi'
        | Eof =>
          refine (finishTracks_quiet hd he hm k trs 0 cm).bind ?_
          rintro ⟨z, trs1, cm1⟩ -
          cases z with
          | error e => exact .ok _
          | ok u =>
            refine (hm.writesTrailer cm1).bind ?_
            rintro ⟨z, cm2⟩ -
            cases z <;> exact .ok _
        | _ => exact ih _ _ _ hi'
theorem convertRetry_quiet (hd : Calm dc) (he : CalmEncoder ec) (hm : CalmMuxer so mx) {dm : Demuxer D Acc.Acc} {dat : List U8}
    (fuel k : Nat) (hev : ∀ c : Context D Acc.Acc, Acc.Inv dat c.reader → readEvent dm accBuffered fuel c = .error .fuel ∨
      ∃ x c', readEvent dm accBuffered fuel c = .ok (x, c') ∧ Acc.Inv dat c'.reader) (n : Nat) :
    ∀ trs c cm, Acc.Inv dat c.reader → Quiet (convertRetry dc dm accBuffered fuel k ec so mx n trs c cm) := by
  induction n with
  | zero => exact fun _ _ _ _ p hp => by cases hp; rfl
  | succ n ih =>
    intro trs c cm hi
    simp only [convertRetry]
    rcases hev c hi with h1 | ⟨x, c', h1, hi'⟩
    · rw [h1]; exact fun p hp => by cases hp; rfl
    · simp only [h1, ok_bind]
      cases x with
      | error e => cases e <;> first | exact ih _ _ _ hi' | exact .ok _
      | ok y =>
        cases y with
        | NewPacket p =>
          simp only
          cases (if p.stream_index < 0 then none else trs[p.stream_index.toNat]?) with
          | none => exact ih _ _ _ hi'
          | some tr =>
            refine (tr.packet_quiet hd he hm k _ p cm).bind ?_
            rintro ⟨z, tr1, cm1⟩ -
            cases z with
            | error e => exact .ok _
            | ok u => exact ih _ _ _ hi'
        | Eof =>
          refine (finishTracks_quiet hd he hm k trs 0 cm).bind ?_
          rintro ⟨z, trs1, cm1⟩ -
          cases z with
          | error e => exact .ok _
          | ok u =>
            refine (hm.writesTrailer cm1).bind ?_
            rintro ⟨z, cm2⟩ -
            cases z <;> exact .ok _
        | _ => exact ih _ _ _ hi'
end

/-- **C183** Whatever bytes a file holds, however the reader delivers them and fails, whatever the demuxer makes of the bytes it sees,
and whatever the plans are, the program does not panic if the codecs and the muxer do not. (`Panic.fuel` stands for a program that has
not ended yet.) -/
theorem c183_calm (dc : Decoder C) (hd : Calm dc) (dds : List (Codec.Descriptor C)) (ec : Encoder E) (he : CalmEncoder ec)
    (eds : List (Codec.Descriptor E)) (so : Mux.SinkOps W) (mx : Mux.Muxer M W) (hm : CalmMuxer so mx)
    (head : D → GlobalInfo → List U8 → Except Demux.Err SeekFrom × D × GlobalInfo)
    (ev : D → List U8 → Except Demux.Err (SeekFrom × Event) × D) (cap : Nat) (s : Source) (h0 : s.pos = 0) (d : D)
    (fuel k n : Nat) (plans : List Plan) (cm : Mux.Context M W) (p : Panic)
    (h : convertFile dc (Codecs.fromList dds) (windowDemuxer head ev) accBuffered fuel k ec (Codecs.fromList eds) so mx n plans
      (Context.new d (Acc.withCapacity cap s)) cm = .error p) : p = .fuel := by
  have hi : Acc.Inv s.data (Context.new d (Acc.withCapacity cap s)).reader := Acc.withCapacity_inv cap s h0
  generalize Context.new d (Acc.withCapacity cap s) = c at hi h
  have hev := fun c hi => window_readEvent (hd := head) (ev := ev) (dat := s.data) (c := c) hi fuel
  revert p
  change Quiet _
  simp only [convertFile]
  rcases window_readHeaders (hd := head) (ev := ev) hi fuel with h1 | ⟨x, c', h1, hi'⟩
  · rw [h1]; intro p hp; cases hp; rfl
  · simp only [h1, ok_bind]
    cases x with
    | error e => exact .ok _
    | ok _ =>
      refine (openTracks_quiet hd dds eds ec plans _).bind ?_
      rintro (e | trs) -
      · exact .ok _
      · refine (hm.writesHeader cm).bind ?_
        rintro ⟨z, cm1⟩ -
        cases z with
        | error e => exact .ok _
        | ok u => exact convertAll_quiet hd he hm fuel k hev n trs c' cm1 hi'

/-- **C183** The same for the program that tries again. -/
theorem c183_calm_retry (dc : Decoder C) (hd : Calm dc) (dds : List (Codec.Descriptor C)) (ec : Encoder E) (he : CalmEncoder ec)
    (eds : List (Codec.Descriptor E)) (so : Mux.SinkOps W) (mx : Mux.Muxer M W) (hm : CalmMuxer so mx)
    (head : D → GlobalInfo → List U8 → Except Demux.Err SeekFrom × D × GlobalInfo)
    (ev : D → List U8 → Except Demux.Err (SeekFrom × Event) × D) (cap : Nat) (s : Source) (h0 : s.pos = 0) (d : D)
    (fuel k n : Nat) (plans : List Plan) (cm : Mux.Context M W) (p : Panic)
    (h : convertFileRetry dc (Codecs.fromList dds) (windowDemuxer head ev) accBuffered fuel k ec (Codecs.fromList eds) so mx n plans
      (Context.new d (Acc.withCapacity cap s)) cm = .error p) : p = .fuel := by
  have hi : Acc.Inv s.data (Context.new d (Acc.withCapacity cap s)).reader := Acc.withCapacity_inv cap s h0
  generalize Context.new d (Acc.withCapacity cap s) = c at hi h
  have hev := fun c hi => window_readEvent (hd := head) (ev := ev) (dat := s.data) (c := c) hi fuel
  have retry : ∀ m (c : Context D Acc.Acc), Acc.Inv s.data c.reader →
      headersRetry (windowDemuxer head ev) accBuffered fuel m c = .error .fuel ∨
      ∃ x c', headersRetry (windowDemuxer head ev) accBuffered fuel m c = .ok (x, c') ∧ Acc.Inv s.data c'.reader := by
    intro m
    induction m with
    | zero => exact fun c _ => .inl rfl
    | succ m ih =>
      intro c hi
      simp only [headersRetry]
      rcases window_readHeaders (hd := head) (ev := ev) hi fuel with h1 | ⟨x, c', h1, hi'⟩
      · exact .inl (by rw [h1]; rfl)
      · simp only [h1, ok_bind]
        cases x with
        | ok _ => exact .inr ⟨_, _, rfl, hi'⟩
        | error e => cases e <;> first | exact ih _ hi' | exact .inr ⟨_, _, rfl, hi'⟩
  revert p
  change Quiet _
  simp only [convertFileRetry]
  rcases retry n c hi with h1 | ⟨x, c', h1, hi'⟩
  · rw [h1]; intro p hp; cases hp; rfl
  · simp only [h1, ok_bind]
    cases x with
    | error e => exact .ok _
    | ok _ =>
      refine (openTracks_quiet hd dds eds ec plans _).bind ?_
      rintro (e | trs) -
      · exact .ok _
      · refine (hm.writesHeader cm).bind ?_
        rintro ⟨z, cm1⟩ -
        cases z with
        | error e => exact .ok _
        | ok u => exact convertRetry_quiet hd he hm fuel k hev n trs c' cm1 hi'

theorem writeAll_quiet (n : Nat) : ∀ (w : Mux.Writer Sink) (l : List U8), Quiet (writeAll (Mux.Writer.write Mux.sinkOps) n w l) := by
  induction n with
  | zero => intro w l p hp; cases hp; rfl
  | succ n ih =>
    intro w l
    rw [writeAll]
    split
    · exact .ok _
    · refine Quiet.bind (x := Mux.Writer.write Mux.sinkOps w l) ?_ ?_
      · simp only [Mux.Writer.write, Mux.sinkOps, ok_bind]
        split <;> exact .ok _
      · rintro ⟨x, w1⟩ hw
        cases x with
        | error e => cases e <;> first | exact ih _ _ | exact .ok _
        | ok k =>
          cases k with
          | zero => exact .ok _
          | succ k =>
            have hk : k + 1 ≤ l.length := by
              simp only [Mux.Writer.write, Mux.sinkOps, ok_bind, Sink.write] at hw
              cases hf : (w.writer.script w.writer.clock).fail with
              | some e => simp only [hf] at hw; cases hw
              | none =>
                simp only [hf] at hw
                injection hw with hw
                injection hw with hw _
                injection hw with hw
                omega
            simp only [sliceFrom_ok hk, ok_bind]
            exact ih _ _

/-- **C183** Muxers that write bytes through a `Writer`, and return the errors of the sink, are such muxers; sinks may take as few bytes
as they like, and fail when they like. -/
theorem c183_bytes (fuel : Nat) (hdr : M → List U8 × M) (pkt : M → Packet → List U8 × M) (trl : M → List U8 × M) :
    CalmMuxer Mux.sinkOps (Mux.bytesMuxer fuel hdr pkt trl) := by
  have put : ∀ (w : Mux.Writer Sink) (b : List U8 × M), Quiet (do
      let (x, w) ← writeAll (Mux.Writer.write Mux.sinkOps) fuel w b.1
      match x with
      | .ok () => .ok (.ok (), b.2, w)
      | .error e => .ok (.error (.Io e), b.2, w) : Rust (Except Demux.Err Unit × M × Mux.Writer Sink)) := by
    intro w b
    refine (writeAll_quiet fuel w b.1).bind ?_
    rintro ⟨x, w1⟩ -
    cases x <;> exact .ok _
  exact ⟨fun m w => put w (hdr m), fun m w q => put w (pkt m q), fun m w => put w (trl m), fun w p hp => by cases hp⟩

/-! ### trying again -/

section
variable {F : Format D} (hF : F.Framed) (hfit : F.Fits)
include hF hfit

/-- The interrupted program does what the other one does, later. -/
theorem convertRetry_alike (dc : Decoder C) (ec : Encoder E) (so : Mux.SinkOps W) (mx : Mux.Muxer M W) (dat : List U8)
    (script : Nat → Act) (T fuel k : Nat) (hfuel : dat.length < fuel) (m : Nat) :
    ∀ (n : Nat) (trs : List (Track C E)) (c c' : Context D Acc.Acc) (cm : Mux.Context M W), Acc.Inv dat c.reader → Acc.Inv dat c'.reader →
    c.reader.inner.script = script → (∀ j, (c'.reader.inner.script j).fail = none) →
    c.demuxer = c'.demuxer → c.info = c'.info → c.reader.index = c'.reader.index →
    convertAll dc F.demuxer accBuffered fuel k ec so mx n trs c' cm ≠ .error .fuel →
    SameEnd (convertAll dc F.demuxer accBuffered fuel k ec so mx n trs c' cm)
      (convertRetry dc F.demuxer accBuffered fuel k ec so mx m trs c cm) ∨
    convertRetry dc F.demuxer accBuffered fuel k ec so mx m trs c cm = .error .fuel ∧
      ¬ ((∀ j, T ≤ j → (script j).fail = none) ∧ n + (T - c.reader.inner.clock) ≤ m) := by
  obtain ⟨a, rfl⟩ : ∃ a, fuel = a + 1 := ⟨fuel - 1, by omega⟩
  induction m with
  | zero =>
    intro n trs c c' cm _ _ _ _ _ _ _ hn
    refine .inr ⟨rfl, fun h => hn ?_⟩
    obtain rfl : n = 0 := by omega
    rfl
  | succ m ih =>
    intro n trs c c' cm hi hi' hs hs' hd hinf hidx hn
    cases n with
    | zero => exact absurd rfl hn
    | succ n =>
      obtain ⟨x, c1, h1, hi1, hs1, hx⟩ := framed_event F hF dat script (.inl hfit) a c hi hs (by omega)
      obtain ⟨x', c1', h1', hi1', hs1', hx'⟩ := framed_event F hF dat _ (.inl hfit) a c' hi' rfl (by omega)
      have ht := event_since hF hfit hi h1
      have hclean : ∀ j, (c1'.reader.inner.script j).fail = none := fun j => by rw [hs1']; exact hs' j
      have next : ∀ (trs : List (Track C E)) (cm : Mux.Context M W), c1.demuxer = c1'.demuxer → c1.info = c1'.info →
          c1.reader.index = c1'.reader.index →
          convertAll dc F.demuxer accBuffered (a + 1) k ec so mx n trs c1' cm ≠ .error .fuel →
          SameEnd (convertAll dc F.demuxer accBuffered (a + 1) k ec so mx n trs c1' cm)
            (convertRetry dc F.demuxer accBuffered (a + 1) k ec so mx m trs c1 cm) ∨
          convertRetry dc F.demuxer accBuffered (a + 1) k ec so mx m trs c1 cm = .error .fuel ∧
            ¬ ((∀ j, T ≤ j → (script j).fail = none) ∧ n + 1 + (T - c.reader.inner.clock) ≤ m + 1) := by
        intro trs cm e1 e2 e3 e4
        refine (ih n trs c1 c1' cm hi1 hi1' hs1 hclean e1 e2 e3 e4).imp id (fun h => ⟨h.1, fun h' => h.2 ⟨h'.1, ?_⟩⟩)
        have := ht.2.1
        have := h'.2
        omega
      have ends : c1.demuxer = c1'.demuxer → c1.info = c1'.info → c1.reader.index = c1'.reader.index →
          SameEnd (do
            match ← finishTracks dc ec mx k 0 trs cm with
            | (.error e, trs, cm) => (.ok (.error e, trs, c1', cm) : Rust (Except AppErr Unit × List (Track C E) × Context D Acc.Acc × Mux.Context M W))
            | (.ok (), trs, cm) =>
              match ← cm.writeTrailer so mx with
              | (.error e, cm) => .ok (.error (.format e), trs, c1', cm)
              | (.ok (), cm) => .ok (.ok (), trs, c1', cm))
          (do
            match ← finishTracks dc ec mx k 0 trs cm with
            | (.error e, trs, cm) => .ok (.error e, trs, c1, cm)
            | (.ok (), trs, cm) =>
              match ← cm.writeTrailer so mx with
              | (.error e, cm) => .ok (.error (.format e), trs, c1, cm)
              | (.ok (), cm) => .ok (.ok (), trs, c1, cm)) := by
        intro e1 e2 e3
        cases finishTracks dc ec mx k 0 trs cm with
        | error p => exact .panic
        | ok v =>
          obtain ⟨z, trs1, cm1⟩ := v
          simp only [ok_bind]
          cases z with
          | error e => exact .ok e1 e2 e3
          | ok u =>
            simp only
            cases cm1.writeTrailer so mx with
            | error p => exact .panic
            | ok v =>
              obtain ⟨z, cm2⟩ := v
              cases z <;> exact .ok e1 e2 e3
      cases hx with
      | io b1 b2 b3 b4 =>
        have e : convertRetry dc F.demuxer accBuffered (a + 1) k ec so mx (m + 1) trs c cm =
            convertRetry dc F.demuxer accBuffered (a + 1) k ec so mx m trs c1 cm := by
          rw [convertRetry]; simp only [h1, ok_bind]
        rw [e]
        refine (ih (n + 1) trs c1 c' cm hi1 hi' hs1 hs' (b2.trans hd) (b3.trans hinf) (b4.trans hidx) hn).imp id
          (fun h => ⟨h.1, fun h' => h.2 ⟨h'.1, ?_⟩⟩)
        obtain ⟨j, g1, g2, g3⟩ := ht.2.2 _ rfl
        have hj : j < T := by
          apply Nat.lt_of_not_le
          intro hj
          rw [hs, h'.1 j hj] at g3
          cases g3
        have := h'.2
        omega
      | eof b1 b2 b3 b4 =>
        cases hx' with
        | io g1 => obtain ⟨j, g1⟩ := g1; rw [hs'] at g1; cases g1
        | record g1 => rw [← hd, ← hidx, b1] at g1; cases g1
        | eof g1 g2 g3 g4 =>
          rw [convertRetry, convertAll] at *
          simp only [h1, h1', ok_bind] at hn ⊢
          exact .inl (ends (by rw [b2, g2, hd]) (by rw [b3, g3, hinf]) (by rw [b4, g4, hidx]))
      | @record kk ev d' b1 b2 b3 b4 =>
        cases hx' with
        | io g1 => obtain ⟨j, g1⟩ := g1; rw [hs'] at g1; cases g1
        | eof g1 => rw [← hd, ← hidx, b1] at g1; cases g1
        | record g1 g2 g3 g4 =>
          rw [← hd, ← hidx, b1] at g1
          cases g1
          have e1 : c1.demuxer = c1'.demuxer := by rw [b2, g2]
          have e2 : c1.info = c1'.info := by rw [b3, g3, hinf]
          have e3 : c1.reader.index = c1'.reader.index := by rw [b4, g4, hidx]
          rw [convertRetry, convertAll] at *
          rw [hinf] at h1
          simp only [h1, h1', ok_bind] at hn ⊢
          generalize completed c'.info.streams ev = y at *
          cases y with
          | NewPacket p =>
            simp only at hn ⊢
            cases htr : (if p.stream_index < 0 then none else trs[p.stream_index.toNat]?) with
            | none => rw [htr] at hn; exact next trs cm e1 e2 e3 hn
            | some tr =>
              rw [htr] at hn
              simp only at hn ⊢
              cases hp : tr.packet dc ec mx k p.stream_index.toNat p cm with
              | error q => exact .inl .panic
              | ok v =>
                obtain ⟨z, tr1, cm1⟩ := v
                simp only [hp, ok_bind] at hn ⊢
                cases z with
                | error e => exact .inl (.ok e1 e2 e3)
                | ok _ => exact next _ _ e1 e2 e3 hn
          | Eof => exact .inl (ends e1 e2 e3)
          | _ => exact next trs cm e1 e2 e3 hn

end

/-- **C183, trying again.** A program that calls `read_headers` or `read_event` again whenever they fail with an I/O error ends as it ends
if the reader never fails: it returns the same, and has written the same. It does end if the reader fails finitely often. -/
theorem c183_retry (F : Format D) (hF : F.Framed) (hfit : F.Fits) (dc : Decoder C) (dreg : Codecs C) (ec : Encoder E) (ereg : Codecs E)
    (so : Mux.SinkOps W) (mx : Mux.Muxer M W) (plans : List Plan) (cm : Mux.Context M W) (cap cap' : Nat) (s s' : Source)
    (hd : s.data = s'.data) (h0 : s.pos = 0) (h0' : s'.pos = 0) (hs' : ∀ j, (s'.script j).fail = none) (d : D)
    (hh : (F.head d ⟨none, none, []⟩ s.data).isSome) (fuel k n : Nat) (hfuel : s.data.length + 1 < fuel)
    (hn : convertFile dc dreg F.demuxer accBuffered fuel k ec ereg so mx n plans (Context.new d (Acc.withCapacity cap' s')) cm ≠
      .error .fuel) (m : Nat) :
    (convertFileRetry dc dreg F.demuxer accBuffered fuel k ec ereg so mx m plans (Context.new d (Acc.withCapacity cap s)) cm =
        .error .fuel ∨
      SameEnd (convertFile dc dreg F.demuxer accBuffered fuel k ec ereg so mx n plans (Context.new d (Acc.withCapacity cap' s')) cm)
        (convertFileRetry dc dreg F.demuxer accBuffered fuel k ec ereg so mx m plans (Context.new d (Acc.withCapacity cap s)) cm)) ∧
    ∀ T, (∀ j, T ≤ j → (s.script j).fail = none) → n + T < m →
      SameEnd (convertFile dc dreg F.demuxer accBuffered fuel k ec ereg so mx n plans (Context.new d (Acc.withCapacity cap' s')) cm)
        (convertFileRetry dc dreg F.demuxer accBuffered fuel k ec ereg so mx m plans (Context.new d (Acc.withCapacity cap s)) cm) := by
  have key : ∀ T, SameEnd (convertFile dc dreg F.demuxer accBuffered fuel k ec ereg so mx n plans
          (Context.new d (Acc.withCapacity cap' s')) cm)
        (convertFileRetry dc dreg F.demuxer accBuffered fuel k ec ereg so mx m plans (Context.new d (Acc.withCapacity cap s)) cm) ∨
      convertFileRetry dc dreg F.demuxer accBuffered fuel k ec ereg so mx m plans (Context.new d (Acc.withCapacity cap s)) cm =
          .error .fuel ∧
        ¬ ((∀ j, T ≤ j → (s.script j).fail = none) ∧ n + T < m) := by
    intro T
    have hi : Acc.Inv s.data (Context.new d (Acc.withCapacity cap s)).reader := Acc.withCapacity_inv cap s h0
    have hi' : Acc.Inv s.data (Context.new d (Acc.withCapacity cap' s')).reader := hd ▸ Acc.withCapacity_inv cap' s' h0'
    have hc : (Context.new d (Acc.withCapacity cap s)).reader.inner.script = s.script := rfl
    have hc' : (Context.new d (Acc.withCapacity cap' s')).reader.inner.script = s'.script := rfl
    obtain ⟨⟨kk, d', i'⟩, hv⟩ := Option.isSome_iff_exists.1 hh
    have hv1 : F.head (Context.new d (Acc.withCapacity cap s)).demuxer (Context.new d (Acc.withCapacity cap s)).info
        (s.data.drop (Context.new d (Acc.withCapacity cap s)).reader.index) = some (kk, d', i') := hv
    have hv2 : F.head (Context.new d (Acc.withCapacity cap' s')).demuxer (Context.new d (Acc.withCapacity cap' s')).info
        (s.data.drop (Context.new d (Acc.withCapacity cap' s')).reader.index) = some (kk, d', i') := hv
    have hx : (Context.new d (Acc.withCapacity cap s)).reader.index = (Context.new d (Acc.withCapacity cap' s')).reader.index := rfl
    generalize Context.new d (Acc.withCapacity cap s) = c at *
    generalize Context.new d (Acc.withCapacity cap' s') = c' at *
    obtain ⟨a, rfl⟩ : ∃ a, fuel = a + 1 := ⟨fuel - 1, by omega⟩
    obtain ⟨x, c1', g1, g2, g3, g4⟩ := framed_headers F hF s.data s'.script (.inr hs') a c' kk d' i' hi' hc' hv2 (by split <;> omega)
    rcases g4 with ⟨e, j, _, g5, _⟩ | ⟨rfl, g5, g6, g7⟩
    · rw [hs'] at g5; cases g5
    · rw [convertFile, convertFileRetry] at *
      rcases headersRetry_alike hF hfit s.data s.script T (a + 1) hfuel kk d' i' m c hi hc hv1 with
        ⟨c1, f1, f2, f3, f4, f5, f6, f7⟩ | ⟨f1, f2⟩
      · have q1 : c1.demuxer = c1'.demuxer := by rw [f5, g5]
        have q2 : c1.info = c1'.info := by rw [f6, g6]
        have q3 : c1.reader.index = c1'.reader.index := by rw [f7, g7, hx]
        simp only [f1, g1, ok_bind] at hn ⊢
        rw [f6]
        rw [g6] at hn ⊢
        generalize openTracks dc dreg ereg plans i'.streams = y at hn ⊢
        cases y with
        | error p => exact .inl .panic
        | ok v =>
          cases v with
          | error e => exact .inl (.ok q1 q2 q3)
          | ok trs =>
            simp only [ok_bind] at hn ⊢
            cases hw : cm.writeHeader mx with
            | error p => exact .inl .panic
            | ok v =>
              obtain ⟨z, cm1⟩ := v
              simp only [hw, ok_bind] at hn ⊢
              cases z with
              | error e => exact .inl (.ok q1 q2 q3)
              | ok u =>
                simp only at hn ⊢
                refine (convertRetry_alike hF hfit dc ec so mx s.data s.script T (a + 1) k (by omega) m n trs c1 c1' cm1 f2 g2 f3
                  (by rw [g3]; exact hs') q1 q2 q3 hn).imp id (fun h => ⟨h.1, fun h' => h.2 ⟨h'.1, ?_⟩⟩)
                have := h'.2
                omega
      · refine .inr ⟨by rw [f1]; rfl, fun h' => f2 ⟨h'.1, ?_⟩⟩
        have := h'.2
        omega
  refine ⟨(key 0).symm.imp And.left id, fun T h1 h2 => ?_⟩
  rcases key T with h | ⟨_, h⟩
  · exact h
  · exact absurd ⟨h1, h2⟩ h

/-! ### examples -/

/-- The hypotheses of `c183_retry`: a reader of which three calls fail. The program that does not try again writes nothing. -/
example : twoFormat.Framed ∧ twoFormat.Fits ∧ (twoFormat.head () ⟨none, none, []⟩ twoFile).isSome ∧
    (∀ j, 6 ≤ j → ((fun j => ⟨if j < 6 ∧ j % 2 = 1 then some .interrupted else none, 0⟩ : Nat → Act) j).fail = none) ∧
    (match convertFileRetry twoDecoder (Codecs.fromList twoDecoders) twoFormat.demuxer accBuffered 40 9 twoEncoder
        (Codecs.fromList twoEncoders) Mux.sinkOps (Mux.bytesMuxer 40 avHdr twoPkt avTrl) 40 [.copy, .code "pair"]
        (Context.new () (Acc.withCapacity 1 ⟨twoFile, 0, fun j => ⟨if j < 6 ∧ j % 2 = 1 then some .interrupted else none, 0⟩, 0⟩))
        (Mux.Context.new 0 (Mux.Writer.new ⟨[], 0, fun _ => ⟨none, 1⟩, 0, 0⟩)) with
      | .ok (.ok (), _, _, o) => some o.intoWriter.writer.data
      | _ => none) = (twoFailing twoFile (fun _ => ⟨none, 1⟩) [.copy, .code "pair"]).map (·.2.1) ∧
    (match convertFile twoDecoder (Codecs.fromList twoDecoders) twoFormat.demuxer accBuffered 40 9 twoEncoder
        (Codecs.fromList twoEncoders) Mux.sinkOps (Mux.bytesMuxer 40 avHdr twoPkt avTrl) 40 [.copy, .code "pair"]
        (Context.new () (Acc.withCapacity 1 ⟨twoFile, 0, fun j => ⟨if j < 6 ∧ j % 2 = 1 then some .interrupted else none, 0⟩, 0⟩))
        (Mux.Context.new 0 (Mux.Writer.new ⟨[], 0, fun _ => ⟨none, 1⟩, 0, 0⟩)) with
      | .ok (.error (.format (.Io .interrupted)), _, _, o) => some o.intoWriter.writer.data
      | _ => none) = some [] := by
  refine ⟨two_framed, two_fits, rfl, ?_, by decide +kernel, by decide +kernel⟩
  intro j hj
  simp only
  rw [if_neg (by omega)]

/-- The codecs of the example of C180, and its muxer. -/
example : Calm twoDecoder ∧ CalmEncoder twoEncoder ∧ CalmMuxer Mux.sinkOps (Mux.bytesMuxer 40 avHdr twoPkt avTrl) := by
  refine ⟨⟨?_, ?_, ?_, ?_, ?_⟩, ⟨?_, ?_, ?_⟩, c183_bytes ..⟩ <;> intros <;> intro h <;> cases h

/-- A file with a packet of a stream that does not exist, and at its end a length that leads behind it; and bytes that are no file, of which the demuxer waits for more. -/
example : twoFailing [65, 86, 1, 9, 4, 2, 0, 1, 1, 1, 0, 7, 200, 0] (fun _ => ⟨none, 1⟩) [.copy, .code "pair"] =
      some (0, [65, 86, 2, 0, 1, 1, 1, 0, 7, 0], 1) ∧
    twoFailing [1, 2, 3] (fun _ => ⟨none, 1⟩) [.copy, .code "pair"] = none := by
  refine ⟨?_, ?_⟩ <;> decide +kernel

end Verif.RoundTrip
