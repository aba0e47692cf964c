import Verif.RoundTrip.Truth

/-!
# Property C182: how a converter joins the parts

With codecs, demuxer and muxer that may be anything, what goes into each of them is what came out of the one before, and no error of
a codec is hidden.
-/

namespace Verif.RoundTrip
open Verif Verif.Io Verif.Frame Verif.Stream Verif.Packet Verif.Demux Verif.Codec

variable {M W D R E C S T U A B : Type}

/-! ### specification -/

/-- The packets a decoder was sent. -/
def sentTo (ops : List DecOp) : List Packet := ops.filterMap fun | .send p => some p | _ => none

/-- The frames it gave. -/
def framesIn (outs : List DecOut) : List Frame := outs.filterMap fun | .frame (.ok f) => some f | _ => none

/-- The frames an encoder was sent. -/
def sentIn (ops : List EncOp) : List Frame := ops.filterMap fun | .send f => some f | _ => none

/-- The packets it gave. -/
def packetsIn (outs : List EncOut) : List Packet := outs.filterMap fun | .packet (.ok p) => some p | _ => none

/-- The other calls, apart from those that ask for a frame or packet. -/
def decRest (ops : List DecOp) : List DecOp := ops.filter fun | .send _ => false | .receive => false | _ => true
def encRest (ops : List EncOp) : List EncOp := ops.filter fun | .send _ => false | .receive => false | _ => true

/-- No error, other than that a frame or packet is not there yet. -/
def decFine : DecOut → Bool
  | .unit (.ok _) => true
  | .frame (.ok _) => true
  | .frame (.error e) => e == .MoreDataNeeded
  | _ => false
def encFine : EncOut → Bool
  | .unit (.ok _) => true
  | .packet (.ok _) => true
  | .packet (.error e) => e == .MoreDataNeeded
  | _ => false

/-- A decoder and an encoder were used, without an error: the decoder was sent `ins`, the encoder the frames of the decoder, and gave
`outs`; both were flushed `fl` times, and nothing else was called. -/
def Flow (dc : Decoder C) (ec : Encoder E) (fl : Nat) (cd : DecContext C) (ce : EncContext E) (ins outs : List Packet)
    (cd' : DecContext C) (ce' : EncContext E) : Prop :=
  ∃ dops douts eops eouts, cd.run dc dops = .ok (douts, cd') ∧ ce.run ec eops = .ok (eouts, ce') ∧
    sentTo dops = ins ∧ framesIn douts = sentIn eops ∧ packetsIn eouts = outs ∧ douts.all decFine = true ∧ eouts.all encFine = true ∧
    decRest dops = List.replicate fl .flush ∧ encRest eops = List.replicate fl .flush

/-- The same for a track of any kind. -/
def Track.Flow (dc : Decoder C) (ec : Encoder E) (i fl : Nat) (tr : Track C E) (ins outs : List Packet) (tr' : Track C E) : Prop :=
  match tr with
  | .drop => tr' = .drop ∧ outs = []
  | .copy => tr' = .copy ∧ outs = ins
  | .code cd ce => ∃ cd' ce', tr' = .code cd' ce' ∧ RoundTrip.Flow dc (tagged i ec) fl cd ce ins outs cd' ce'

/-! ### proofs -/

theorem dec_run_append (dc : Decoder C) (a b : List DecOp) : ∀ (c c' c'' : DecContext C) (xs ys : List DecOut),
    c.run dc a = .ok (xs, c') → c'.run dc b = .ok (ys, c'') → c.run dc (a ++ b) = .ok (xs ++ ys, c'') := by
  induction a with
  | nil => intro c c' c'' xs ys h1 h2; cases h1; exact h2
  | cons op a ih =>
    intro c c' c'' xs ys h1 h2
    simp only [Codec.DecContext.run, List.cons_append] at h1 ⊢
    obtain ⟨⟨x, c1⟩, e1, h1⟩ := bind_eq_ok' h1
    obtain ⟨⟨xs', c2⟩, e2, h1⟩ := bind_eq_ok' h1
    cases h1
    simp only [e1, ok_bind, ih c1 _ _ _ _ e2 h2, pure_eq_ok, List.cons_append]

theorem enc_run_append (ec : Encoder E) (a b : List EncOp) : ∀ (c c' c'' : EncContext E) (xs ys : List EncOut),
    c.run ec a = .ok (xs, c') → c'.run ec b = .ok (ys, c'') → c.run ec (a ++ b) = .ok (xs ++ ys, c'') := by
  induction a with
  | nil => intro c c' c'' xs ys h1 h2; cases h1; exact h2
  | cons op a ih =>
    intro c c' c'' xs ys h1 h2
    simp only [Codec.EncContext.run, List.cons_append] at h1 ⊢
    obtain ⟨⟨x, c1⟩, e1, h1⟩ := bind_eq_ok' h1
    obtain ⟨⟨xs', c2⟩, e2, h1⟩ := bind_eq_ok' h1
    cases h1
    simp only [e1, ok_bind, ih c1 _ _ _ _ e2 h2, pure_eq_ok, List.cons_append]

/-- The decoder's part. -/
def DecFlow (dc : Decoder C) (fl : Nat) (cd : DecContext C) (ins : List Packet) (fs : List Frame) (cd' : DecContext C) : Prop :=
  ∃ dops douts, cd.run dc dops = .ok (douts, cd') ∧ sentTo dops = ins ∧ framesIn douts = fs ∧ douts.all decFine = true ∧
    decRest dops = List.replicate fl .flush

/-- The encoder's part. -/
def EncFlow (ec : Encoder E) (fl : Nat) (ce : EncContext E) (fs : List Frame) (outs : List Packet) (ce' : EncContext E) : Prop :=
  ∃ eops eouts, ce.run ec eops = .ok (eouts, ce') ∧ sentIn eops = fs ∧ packetsIn eouts = outs ∧ eouts.all encFine = true ∧
    encRest eops = List.replicate fl .flush

theorem flow_of {dc : Decoder C} {ec : Encoder E} {fl : Nat} {cd cd' : DecContext C} {ce ce' : EncContext E} {ins outs : List Packet}
    {fs : List Frame} (h1 : DecFlow dc fl cd ins fs cd') (h2 : EncFlow ec fl ce fs outs ce') : Flow dc ec fl cd ce ins outs cd' ce' := by
  obtain ⟨a, b, x1, x2, x3, x4, x5⟩ := h1
  obtain ⟨a', b', y1, y2, y3, y4, y5⟩ := h2
  exact ⟨a, b, a', b', x1, y1, x2, x3.trans y2.symm, y3, x4, y4, x5, y5⟩

theorem DecFlow.trans {dc : Decoder C} {f g : Nat} {c c1 c2 : DecContext C} {i j : List Packet} {k l : List Frame}
    (h1 : DecFlow dc f c i k c1) (h2 : DecFlow dc g c1 j l c2) : DecFlow dc (f + g) c (i ++ j) (k ++ l) c2 := by
  obtain ⟨a, b, x1, x2, x3, x4, x5⟩ := h1
  obtain ⟨a', b', y1, y2, y3, y4, y5⟩ := h2
  refine ⟨a ++ a', b ++ b', dec_run_append dc _ _ _ _ _ _ _ x1 y1, ?_, ?_, ?_, ?_⟩
  · rw [← x2, ← y2, sentTo, List.filterMap_append]; rfl
  · rw [← x3, ← y3, framesIn, List.filterMap_append]; rfl
  · rw [List.all_append, x4, y4]; rfl
  · rw [← List.replicate_append_replicate, ← x5, ← y5, decRest, List.filter_append]; rfl

theorem EncFlow.trans {ec : Encoder E} {f g : Nat} {c c1 c2 : EncContext E} {i j : List Frame} {k l : List Packet}
    (h1 : EncFlow ec f c i k c1) (h2 : EncFlow ec g c1 j l c2) : EncFlow ec (f + g) c (i ++ j) (k ++ l) c2 := by
  obtain ⟨a, b, x1, x2, x3, x4, x5⟩ := h1
  obtain ⟨a', b', y1, y2, y3, y4, y5⟩ := h2
  refine ⟨a ++ a', b ++ b', enc_run_append ec _ _ _ _ _ _ _ x1 y1, ?_, ?_, ?_, ?_⟩
  · rw [← x2, ← y2, sentIn, List.filterMap_append]; rfl
  · rw [← x3, ← y3, packetsIn, List.filterMap_append]; rfl
  · rw [List.all_append, x4, y4]; rfl
  · rw [← List.replicate_append_replicate, ← x5, ← y5, encRest, List.filter_append]; rfl

theorem Flow.trans {dc : Decoder C} {ec : Encoder E} {f g : Nat} {cd cd1 cd2 : DecContext C} {ce ce1 ce2 : EncContext E}
    {i j k l : List Packet} (h1 : Flow dc ec f cd ce i k cd1 ce1) (h2 : Flow dc ec g cd1 ce1 j l cd2 ce2) :
    Flow dc ec (f + g) cd ce (i ++ j) (k ++ l) cd2 ce2 := by
  obtain ⟨a, b, a', b', x1, x2, x3, x4, x5, x6, x7, x8, x9⟩ := h1
  obtain ⟨p, q, p', q', y1, y2, y3, y4, y5, y6, y7, y8, y9⟩ := h2
  have d1 : DecFlow dc f cd i (framesIn b) cd1 := ⟨a, b, x1, x3, rfl, x6, x8⟩
  have d2 : DecFlow dc g cd1 j (framesIn q) cd2 := ⟨p, q, y1, y3, rfl, y6, y8⟩
  have e1 : EncFlow ec f ce (framesIn b) k ce1 := ⟨a', b', x2, x4.symm, x5, x7, x9⟩
  have e2 : EncFlow ec g ce1 (framesIn q) l ce2 := ⟨p', q', y2, y4.symm, y5, y7, y9⟩
  exact flow_of (d1.trans d2) (e1.trans e2)

theorem decSend {dc : Decoder C} {cd cd' : DecContext C} {p : Packet} (h : cd.sendPacket dc p = .ok (.ok (), cd')) :
    DecFlow dc 0 cd [p] [] cd' :=
  ⟨[.send p], [.unit (.ok ())], by simp only [Codec.DecContext.run, Codec.DecContext.step, h, ok_bind, pure_eq_ok], rfl, rfl, rfl, rfl⟩

theorem decFlush {dc : Decoder C} {cd cd' : DecContext C} (h : cd.flush dc = .ok (.ok (), cd')) : DecFlow dc 1 cd [] [] cd' :=
  ⟨[.flush], [.unit (.ok ())], by simp only [Codec.DecContext.run, Codec.DecContext.step, h, ok_bind, pure_eq_ok], rfl, rfl, rfl, rfl⟩

theorem encSend {ec : Encoder E} {ce ce' : EncContext E} {f : Frame} (h : ce.sendFrame ec f = .ok (.ok (), ce')) :
    EncFlow ec 0 ce [f] [] ce' :=
  ⟨[.send f], [.unit (.ok ())], by simp only [Codec.EncContext.run, Codec.EncContext.step, h, ok_bind, pure_eq_ok], rfl, rfl, rfl, rfl⟩

theorem encFlush {ec : Encoder E} {ce ce' : EncContext E} (h : ce.flush ec = .ok (.ok (), ce')) : EncFlow ec 1 ce [] [] ce' :=
  ⟨[.flush], [.unit (.ok ())], by simp only [Codec.EncContext.run, Codec.EncContext.step, h, ok_bind, pure_eq_ok], rfl, rfl, rfl, rfl⟩

theorem drainFrames_flow {dc : Decoder C} (n : Nat) : ∀ (cd cd' : DecContext C) (fs : List Frame),
    drainFrames dc n cd = .ok (.ok fs, cd') → DecFlow dc 0 cd [] fs cd' := by
  induction n with
  | zero => intro cd cd' fs h; cases h
  | succ n ih =>
    intro cd cd' fs h
    simp only [drainFrames] at h
    obtain ⟨⟨y, cd1⟩, h1, h⟩ := bind_eq_ok' h
    cases y with
    | error e =>
      have : e = .MoreDataNeeded ∧ fs = [] ∧ cd' = cd1 := by cases e <;> cases h <;> exact ⟨rfl, rfl, rfl⟩
      obtain ⟨rfl, rfl, rfl⟩ := this
      exact ⟨[.receive], [.frame (.error .MoreDataNeeded)], by
        simp only [Codec.DecContext.run, Codec.DecContext.step, h1, ok_bind, pure_eq_ok], rfl, rfl, rfl, rfl⟩
    | ok f =>
      obtain ⟨⟨z, cd2⟩, h2, h⟩ := bind_eq_ok' h
      cases z with
      | error e => cases h
      | ok fs1 =>
        cases h
        have d : DecFlow dc 0 cd [] [f] cd1 := ⟨[.receive], [.frame (.ok f)], by
          simp only [Codec.DecContext.run, Codec.DecContext.step, h1, ok_bind, pure_eq_ok], rfl, rfl, rfl, rfl⟩
        exact d.trans (ih _ _ _ h2)

variable {so : Mux.SinkOps W} {mx : Mux.Muxer M W}

theorem drainPackets_flow {ec : Encoder E} (so : Mux.SinkOps W) (n : Nat) : ∀ (ce ce' : EncContext E) (cm cm' : Mux.Context M W),
    drainPackets ec mx n ce cm = .ok (.ok (), ce', cm') →
    ∃ ps : List Packet, Did so mx cm (ps.map .packet) (.ok ()) cm' ∧ EncFlow ec 0 ce [] ps ce' := by
  induction n with
  | zero => intro ce ce' cm cm' h; cases h
  | succ n ih =>
    intro ce ce' cm cm' h
    simp only [drainPackets] at h
    obtain ⟨⟨y, ce1⟩, h1, h⟩ := bind_eq_ok' h
    cases y with
    | error e =>
      have : e = .MoreDataNeeded ∧ ce' = ce1 ∧ cm' = cm := by cases e <;> cases h <;> exact ⟨rfl, rfl, rfl⟩
      obtain ⟨rfl, rfl, rfl⟩ := this
      exact ⟨[], .nil rfl, [.receive], [.packet (.error .MoreDataNeeded)], by
        simp only [Codec.EncContext.run, Codec.EncContext.step, h1, ok_bind, pure_eq_ok], rfl, rfl, rfl, rfl⟩
    | ok p =>
      obtain ⟨⟨z, cm1⟩, h2, h⟩ := bind_eq_ok' h
      have h3 := Did.one (so := so) (op := .packet p) h2
      cases z with
      | error e => cases h
      | ok u =>
        obtain ⟨ps, g1, g2⟩ := ih ce1 ce' cm1 cm' h
        have d : EncFlow ec 0 ce [] [p] ce1 := ⟨[.receive], [.packet (.ok p)], by
          simp only [Codec.EncContext.run, Codec.EncContext.step, h1, ok_bind, pure_eq_ok], rfl, rfl, rfl, rfl⟩
        exact ⟨p :: ps, h3.append g1, d.trans g2⟩

theorem encodeSome_flow {ec : Encoder E} (so : Mux.SinkOps W) (k : Nat) (fs : List Frame) : ∀ (ce ce' : EncContext E)
    (cm cm' : Mux.Context M W), encodeSome ec mx k fs ce cm = .ok (.ok (), ce', cm') →
    ∃ ps : List Packet, Did so mx cm (ps.map .packet) (.ok ()) cm' ∧ EncFlow ec 0 ce fs ps ce' := by
  induction fs with
  | nil => intro ce ce' cm cm' h; cases h; exact ⟨[], .nil rfl, [], [], rfl, rfl, rfl, rfl, rfl⟩
  | cons f fs ih =>
    intro ce ce' cm cm' h
    simp only [encodeSome] at h
    obtain ⟨⟨y, ce1⟩, h1, h⟩ := bind_eq_ok' h
    cases y with
    | error e => cases h
    | ok u =>
      obtain ⟨⟨z, ce2, cm2⟩, h2, h⟩ := bind_eq_ok' h
      cases z with
      | error e => cases h
      | ok u =>
        obtain ⟨ps, g1, g2⟩ := drainPackets_flow so k _ _ _ _ h2
        obtain ⟨ps', g3, g4⟩ := ih _ _ _ _ h
        exact ⟨ps ++ ps', by rw [List.map_append]; exact g1.append g3, ((encSend h1).trans g2).trans g4⟩

theorem packetsIn_index {ec : Encoder E} {i : Nat} (ops : List EncOp) : ∀ (ce ce' : EncContext E) (outs : List EncOut),
    ce.run (tagged i ec) ops = .ok (outs, ce') → ∀ p ∈ packetsIn outs, p.stream_index = i := by
  induction ops with
  | nil => intro ce ce' outs h; cases h; intro p hp; cases hp
  | cons op ops ih =>
    intro ce ce' outs h
    simp only [Codec.EncContext.run] at h
    obtain ⟨⟨x, c1⟩, h1, h⟩ := bind_eq_ok' h
    obtain ⟨⟨xs, c2⟩, h2, h⟩ := bind_eq_ok' h
    cases h
    intro p hp
    simp only [packetsIn, List.filterMap_cons] at hp
    have rest : p ∈ packetsIn xs → p.stream_index = i := ih _ _ _ h2 p
    cases op with
    | receive =>
      simp only [Codec.EncContext.step] at h1
      obtain ⟨⟨y, e1⟩, h3, h1⟩ := bind_eq_ok' h1
      cases h1
      cases y with
      | error e => exact rest hp
      | ok q =>
        simp only [Codec.EncContext.receivePacket] at h3
        obtain ⟨⟨y, e1⟩, g1, g2⟩ := bind_eq_ok' h3
        cases g2
        rcases List.mem_cons.1 hp with rfl | hp
        · exact tagged_index _ _ _ g1
        · exact rest hp
    | configure => simp only [Codec.EncContext.step] at h1; obtain ⟨_, _, h1⟩ := bind_eq_ok' h1; cases h1; exact rest hp
    | setParams q => simp only [Codec.EncContext.step] at h1; obtain ⟨_, _, h1⟩ := bind_eq_ok' h1; cases h1; exact rest hp
    | getParams => simp only [Codec.EncContext.step] at h1; obtain ⟨_, _, h1⟩ := bind_eq_ok' h1; cases h1; exact rest hp
    | option a b => simp only [Codec.EncContext.step] at h1; obtain ⟨_, _, h1⟩ := bind_eq_ok' h1; cases h1; exact rest hp
    | extradata => simp only [Codec.EncContext.step] at h1; obtain ⟨_, _, h1⟩ := bind_eq_ok' h1; cases h1; exact rest hp
    | send f => simp only [Codec.EncContext.step] at h1; obtain ⟨_, _, h1⟩ := bind_eq_ok' h1; cases h1; exact rest hp
    | flush => simp only [Codec.EncContext.step] at h1; obtain ⟨_, _, h1⟩ := bind_eq_ok' h1; cases h1; exact rest hp

theorem Track.packet_flow {dc : Decoder C} {ec : Encoder E} (so : Mux.SinkOps W) {k i : Nat} {tr tr' : Track C E} {p : Packet}
    {cm cm' : Mux.Context M W} (hp : p.stream_index = i) (h : tr.packet dc ec mx k i p cm = .ok (.ok (), tr', cm')) :
    ∃ ps : List Packet, Did so mx cm (ps.map .packet) (.ok ()) cm' ∧ tr.Flow dc ec i 0 [p] ps tr' ∧ ∀ q ∈ ps, q.stream_index = i := by
  cases tr with
  | drop => cases h; exact ⟨[], .nil rfl, ⟨rfl, rfl⟩, by simp⟩
  | copy =>
    simp only [Track.packet] at h
    obtain ⟨⟨y, cm1⟩, h1, h⟩ := bind_eq_ok' h
    have h2 := Did.one (so := so) (op := .packet p) h1
    cases y with
    | error e => cases h
    | ok u => cases h; exact ⟨[p], h2, ⟨rfl, rfl⟩, by simpa using hp⟩
  | code cd ce =>
    simp only [Track.packet] at h
    obtain ⟨⟨y, cd1⟩, h1, h⟩ := bind_eq_ok' h
    cases y with
    | error e => cases h
    | ok u =>
      obtain ⟨⟨z, cd2⟩, h2, h⟩ := bind_eq_ok' h
      cases z with
      | error e => cases h
      | ok fs =>
        obtain ⟨⟨w, ce3, cm3⟩, h3, h⟩ := bind_eq_ok' h
        cases h
        obtain ⟨ps, g1, g2⟩ := encodeSome_flow so k fs _ _ _ _ h3
        obtain ⟨eops, eouts, x1, _, x3, _⟩ := id g2
        refine ⟨ps, g1, ⟨_, _, rfl, flow_of ((decSend h1).trans (drainFrames_flow _ _ _ _ h2)) g2⟩, ?_⟩
        rw [← x3]
        exact packetsIn_index _ _ _ _ x1

theorem Track.finish_flow {dc : Decoder C} {ec : Encoder E} (so : Mux.SinkOps W) {k i : Nat} {tr tr' : Track C E}
    {cm cm' : Mux.Context M W} (h : tr.finish dc ec mx k i cm = .ok (.ok (), tr', cm')) :
    ∃ ps : List Packet, Did so mx cm (ps.map .packet) (.ok ()) cm' ∧ tr.Flow dc ec i 1 [] ps tr' ∧ ∀ q ∈ ps, q.stream_index = i := by
  cases tr with
  | drop => cases h; exact ⟨[], .nil rfl, ⟨rfl, rfl⟩, by simp⟩
  | copy => cases h; exact ⟨[], .nil rfl, ⟨rfl, rfl⟩, by simp⟩
  | code cd ce =>
    simp only [Track.finish] at h
    obtain ⟨⟨y, cd1⟩, h1, h⟩ := bind_eq_ok' h
    cases y with
    | error e => cases h
    | ok u =>
      obtain ⟨⟨z, cd2⟩, h2, h⟩ := bind_eq_ok' h
      cases z with
      | error e => cases h
      | ok fs =>
        obtain ⟨⟨w, ce3, cm3⟩, h3, h⟩ := bind_eq_ok' h
        cases w with
        | error e => cases h
        | ok u =>
          obtain ⟨ps, g1, g2⟩ := encodeSome_flow so k fs _ _ _ _ h3
          obtain ⟨⟨v, ce4⟩, h4, h⟩ := bind_eq_ok' h
          cases v with
          | error e => cases h
          | ok u =>
            obtain ⟨⟨v, ce5, cm5⟩, h5, h⟩ := bind_eq_ok' h
            cases h
            obtain ⟨ps', g3, g4⟩ := drainPackets_flow so k _ _ _ _ h5
            have g := (g2.trans (encFlush h4)).trans g4
            simp only [List.append_nil, Nat.zero_add, Nat.add_zero] at g
            obtain ⟨eops, eouts, x1, _, x3, _⟩ := id g
            refine ⟨ps ++ ps', by rw [List.map_append]; exact g1.append g3,
              ⟨_, _, rfl, flow_of ((decFlush h1).trans (drainFrames_flow _ _ _ _ h2)) g⟩, ?_⟩
            rw [← x3]
            exact packetsIn_index _ _ _ _ x1

theorem Track.Flow.trans {dc : Decoder C} {ec : Encoder E} {n f g : Nat} {t t1 t2 : Track C E} {i j k l : List Packet}
    (h1 : t.Flow dc ec n f i k t1) (h2 : t1.Flow dc ec n g j l t2) : t.Flow dc ec n (f + g) (i ++ j) (k ++ l) t2 := by
  cases t with
  | drop => obtain ⟨rfl, rfl⟩ := h1; obtain ⟨rfl, rfl⟩ := h2; exact ⟨rfl, rfl⟩
  | copy => obtain ⟨rfl, rfl⟩ := h1; obtain ⟨rfl, rfl⟩ := h2; exact ⟨rfl, rfl⟩
  | code cd ce =>
    obtain ⟨cd1, ce1, rfl, h1⟩ := h1
    obtain ⟨cd2, ce2, rfl, h2⟩ := h2
    exact ⟨cd2, ce2, rfl, RoundTrip.Flow.trans h1 h2⟩

theorem Track.Flow.none {dc : Decoder C} {ec : Encoder E} {n : Nat} (t : Track C E) : t.Flow dc ec n 0 [] [] t := by
  cases t with
  | drop => exact ⟨rfl, rfl⟩
  | copy => exact ⟨rfl, rfl⟩
  | code cd ce => exact ⟨cd, ce, rfl, [], [], [], [], rfl, rfl, rfl, rfl, rfl, rfl, rfl, rfl, rfl⟩

theorem ofStream_append (i : Nat) (a b : List Packet) : ofStream i (a ++ b) = ofStream i a ++ ofStream i b := List.filter_append ..

theorem ofStream_all {i : Nat} {ps : List Packet} (h : ∀ q ∈ ps, q.stream_index = i) : ofStream i ps = ps := by
  rw [ofStream, List.filter_eq_self]
  intro q hq
  simp [h q hq]

theorem ofStream_other {i j : Nat} {ps : List Packet} (h : ∀ q ∈ ps, q.stream_index = (j : Nat)) (hij : i ≠ j) : ofStream i ps = [] := by
  rw [ofStream, List.filter_eq_nil_iff]
  intro q hq
  have := h q hq
  simp only [decide_eq_true_eq]
  omega

theorem finishTracks_flow {dc : Decoder C} {ec : Encoder E} (so : Mux.SinkOps W) {k : Nat} (trs : List (Track C E)) : ∀ (i : Nat)
    (trs' : List (Track C E)) (cm cm' : Mux.Context M W), finishTracks dc ec mx k i trs cm = .ok (.ok (), trs', cm') →
    ∃ ps : List Packet, Did so mx cm (ps.map .packet) (.ok ()) cm' ∧
      (∀ p ∈ ps, (i : Int) ≤ p.stream_index ∧ p.stream_index < (i + trs.length : Nat)) ∧
      ∀ (j : Nat) (tr : Track C E), trs[j]? = some tr →
        ∃ tr', trs'[j]? = some tr' ∧ tr.Flow dc ec (i + j) 1 [] (ofStream (i + j) ps) tr' := by
  induction trs with
  | nil => intro i trs' cm cm' h; cases h; exact ⟨[], .nil rfl, by simp, by simp⟩
  | cons tr trs ih =>
    intro i trs' cm cm' h
    simp only [finishTracks] at h
    obtain ⟨⟨y, tr1, cm1⟩, h1, h⟩ := bind_eq_ok' h
    cases y with
    | error e => cases h
    | ok u =>
      obtain ⟨ps, g1, g2, g3⟩ := Track.finish_flow so h1
      obtain ⟨⟨z, trs2, cm2⟩, h2, h⟩ := bind_eq_ok' h
      cases h
      obtain ⟨ps', g4, g5, g6⟩ := ih _ _ _ _ h2
      refine ⟨ps ++ ps', by rw [List.map_append]; exact g1.append g4, fun p hp => ?_, fun j t ht => ?_⟩
      · rcases List.mem_append.1 hp with hp | hp
        · have := g3 p hp
          simp only [List.length_cons]
          omega
        · have := g5 p hp
          simp only [List.length_cons]
          omega
      · rw [ofStream_append]
        cases j with
        | zero =>
          cases ht
          refine ⟨tr1, rfl, ?_⟩
          have e : ofStream i ps' = [] := by
            rw [ofStream, List.filter_eq_nil_iff]
            intro q hq
            have := g5 q hq
            simp only [decide_eq_true_eq]
            omega
          rw [Nat.add_zero, ofStream_all g3, e, List.append_nil]
          exact g2
        | succ j =>
          obtain ⟨tr', x1, x2⟩ := g6 j t (by simpa using ht)
          refine ⟨tr', by simpa using x1, ?_⟩
          rw [show i + (j + 1) = i + 1 + j by omega, ofStream_other g3 (by omega), List.nil_append]
          exact x2

theorem convertAll_flow {dc : Decoder C} {dm : Demuxer D R} {bf : Buffered R} {fuel k : Nat} {ec : Encoder E} (n : Nat) :
    ∀ (trs trs' : List (Track C E)) (c c' : Context D R) (cm cm' : Mux.Context M W),
    convertAll dc dm bf fuel k ec so mx n trs c cm = .ok (.ok (), trs', c', cm') →
    ∃ (evs : List Event) (ps : List Packet), .Eof ∉ evs ∧
      readEvents dm bf fuel (evs.length + 1) c = .ok ((evs ++ [Event.Eof]).map Except.ok, c') ∧
      Did so mx cm (ps.map .packet ++ [.trailer]) (.ok ()) cm' ∧
      (∀ p ∈ ps, 0 ≤ p.stream_index ∧ p.stream_index < (trs.length : Nat)) ∧
      ∀ (j : Nat) (tr : Track C E), trs[j]? = some tr → ∃ tr1 tr2 o1 o2, trs'[j]? = some tr2 ∧
        tr.Flow dc ec j 0 (ofStream j (packets evs)) o1 tr1 ∧ tr1.Flow dc ec j 1 [] o2 tr2 ∧ ofStream j ps = o1 ++ o2 := by
  induction n with
  | zero => intro trs trs' c c' cm cm' h; cases h
  | succ n ih =>
    intro trs trs' c c' cm cm' h
    simp only [convertAll] at h
    obtain ⟨⟨y, c1⟩, h1, h⟩ := bind_eq_ok' h
    have hread : ∀ (ev : Event) (evs : List Event), readEvent dm bf fuel c = .ok (.ok ev, c1) →
        readEvents dm bf fuel (evs.length + 1) c1 = .ok ((evs ++ [Event.Eof]).map Except.ok, c') →
        readEvents dm bf fuel ((ev :: evs).length + 1) c = .ok ((ev :: evs ++ [Event.Eof]).map Except.ok, c') := by
      intro ev evs h1 h2
      rw [List.length_cons, readEvents]
      simp only [h1, ok_bind, h2, pure_eq_ok, List.cons_append, List.map_cons]
    have other : ∀ ev : Event, ev ≠ .Eof → (∀ j, j < trs.length → ofStream j (packets [ev]) = []) →
        readEvent dm bf fuel c = .ok (.ok ev, c1) →
        convertAll dc dm bf fuel k ec so mx n trs c1 cm = .ok (.ok (), trs', c', cm') →
        ∃ (evs : List Event) (ps : List Packet), .Eof ∉ evs ∧
          readEvents dm bf fuel (evs.length + 1) c = .ok ((evs ++ [Event.Eof]).map Except.ok, c') ∧
          Did so mx cm (ps.map .packet ++ [.trailer]) (.ok ()) cm' ∧
          (∀ p ∈ ps, 0 ≤ p.stream_index ∧ p.stream_index < (trs.length : Nat)) ∧
          ∀ (j : Nat) (tr : Track C E), trs[j]? = some tr → ∃ tr1 tr2 o1 o2, trs'[j]? = some tr2 ∧
            tr.Flow dc ec j 0 (ofStream j (packets evs)) o1 tr1 ∧ tr1.Flow dc ec j 1 [] o2 tr2 ∧ ofStream j ps = o1 ++ o2 := by
      intro ev he hp h1 h
      obtain ⟨evs, ps, a1, a2, a3, a4, a5⟩ := ih _ _ _ _ _ _ h
      refine ⟨ev :: evs, ps, by simp [a1, Ne.symm he], hread ev evs h1 a2, a3, a4, fun j tr htr => ?_⟩
      have e : ofStream j (packets (ev :: evs)) = ofStream j (packets evs) := by
        rw [show packets (ev :: evs) = packets [ev] ++ packets evs by
          simp only [packets, ← List.filterMap_append, List.singleton_append], ofStream_append,
          hp j (List.getElem?_eq_some_iff.1 htr).1, List.nil_append]
      rw [e]
      exact a5 j tr htr
    cases y with
    | error e => cases h
    | ok ev =>
      cases ev with
      | NewPacket p =>
        simp only at h
        split at h
        · next hn =>
          refine other _ (fun h => by cases h) (fun j hj => ?_) h1 h
          rw [show packets [.NewPacket p] = [p] from rfl, ofStream, List.filter_eq_nil_iff]
          intro q hq
          rw [List.mem_singleton.1 hq]
          simp only [decide_eq_true_eq]
          intro hpj
          rw [hpj, if_neg (by omega)] at hn
          have := List.getElem?_eq_none_iff.1 hn
          omega
        · next tr htr =>
          by_cases h0 : p.stream_index < 0
          · rw [if_pos h0] at htr; cases htr
          rw [if_neg h0] at htr
          obtain ⟨⟨z, tr1, cm1⟩, h2, h⟩ := bind_eq_ok' h
          cases z with
          | error e => cases h
          | ok u =>
            obtain ⟨qs, g2, g3, g4⟩ := Track.packet_flow so (by omega) h2
            obtain ⟨evs, ps, a1, a2, a3, a4, a5⟩ := ih _ _ _ _ _ _ h
            have hlt := (List.getElem?_eq_some_iff.1 htr).1
            refine ⟨.NewPacket p :: evs, qs ++ ps, by simp [a1], hread _ evs h1 a2,
              by rw [List.map_append, List.append_assoc]; exact g2.append a3, fun q hq => ?_, fun j t ht => ?_⟩
            · rcases List.mem_append.1 hq with hq | hq
              · have := g4 q hq
                omega
              · have := a4 q hq
                rw [List.length_set] at this
                exact this
            · rw [show packets (.NewPacket p :: evs) = [p] ++ packets evs from rfl, ofStream_append, ofStream_append]
              have hpi : ∀ q ∈ [p], q.stream_index = (p.stream_index.toNat : Nat) := by simp; omega
              by_cases hj : j = p.stream_index.toNat
              · subst hj
                rw [htr] at ht
                cases ht
                obtain ⟨t1, t2, o1, o2, b1, b2, b3, b4⟩ := a5 p.stream_index.toNat tr1 (by
                  rw [List.getElem?_set, if_pos rfl, if_pos hlt])
                rw [ofStream_all hpi, ofStream_all g4, b4]
                exact ⟨t1, t2, qs ++ o1, o2, b1, g3.trans b2, b3, by rw [List.append_assoc]⟩
              · obtain ⟨t1, t2, o1, o2, b1, b2, b3, b4⟩ := a5 j t (by
                  rw [List.getElem?_set, if_neg (fun e => hj e.symm)]; exact ht)
                rw [ofStream_other hpi hj, ofStream_other g4 hj, b4]
                exact ⟨t1, t2, o1, o2, b1, b2, b3, rfl⟩
      | Eof =>
        obtain ⟨⟨z, trs1, cm1⟩, h2, h⟩ := bind_eq_ok' h
        cases z with
        | error e => cases h
        | ok u =>
          obtain ⟨ps, g1, g2, g3⟩ := finishTracks_flow so trs 0 _ _ _ h2
          simp only [Nat.zero_add] at g2 g3
          obtain ⟨⟨w, cm2⟩, h3, h⟩ := bind_eq_ok' h
          have h4 := Did.one (so := so) (op := .trailer) h3
          cases w with
          | error e => cases h
          | ok u =>
            cases h
            refine ⟨[], ps, by simp, ?_, g1.append h4, g2, fun j tr htr => ?_⟩
            · simp only [List.length_nil, readEvents, h1, ok_bind, pure_eq_ok, List.nil_append, List.map_cons, List.map_nil]
            · obtain ⟨tr', x1, x2⟩ := g3 j tr htr
              exact ⟨tr, tr', [], _, x1, .none tr, x2, rfl⟩
      | NewStream s => exact other _ (fun h => by cases h) (fun _ _ => rfl) h1 h
      | MoreDataNeeded k => exact other _ (fun h => by cases h) (fun _ _ => rfl) h1 h
      | Continue => exact other _ (fun h => by cases h) (fun _ _ => rfl) h1 h

/-- The track of a stream with this plan: the decoder is the one of the stream's codec, with the stream's extradata, and configured;
the encoder the one of the plan. -/
def OpensWith (dc : Decoder C) (dreg : Codecs C) (ereg : Codecs E) (st : Stream) (tr : Track C E) : Plan → Prop
  | .drop => tr = .drop
  | .copy => tr = .copy
  | .code name => ∃ dd d1 d2 ed, dreg.byName (st.params.codec_id.getD "") = .ok (some dd) ∧
      (match st.params.extradata with | some x => dc.setExtradata dd.create x | none => .ok dd.create) = .ok d1 ∧
      dc.configure d1 = .ok (.ok (), d2) ∧ ereg.byName name = .ok (some ed) ∧ tr = .code ⟨d2⟩ ⟨ed.create⟩

theorem openTracks_with {dc : Decoder C} {dreg : Codecs C} {ereg : Codecs E} (plans : List Plan) : ∀ (sts : List Stream)
    (trs : List (Track C E)), openTracks dc dreg ereg plans sts = .ok (.ok trs) → trs.length = min plans.length sts.length ∧
    ∀ (j : Nat) (tr : Track C E), trs[j]? = some tr →
      ∃ pl st, plans[j]? = some pl ∧ sts[j]? = some st ∧ OpensWith dc dreg ereg st tr pl := by
  induction plans with
  | nil => intro sts trs h; cases h; simp
  | cons pl plans ih =>
    intro sts trs h
    cases sts with
    | nil => cases pl <;> cases h <;> simp
    | cons st sts =>
      have main : ∀ (tr : Track C E) (trs1 : List (Track C E)), openTracks dc dreg ereg plans sts = .ok (.ok trs1) →
          OpensWith dc dreg ereg st tr pl → (tr :: trs1).length = min (pl :: plans).length (st :: sts).length ∧
          ∀ (j : Nat) (t : Track C E), (tr :: trs1)[j]? = some t →
            ∃ pl' st', (pl :: plans)[j]? = some pl' ∧ (st :: sts)[j]? = some st' ∧ OpensWith dc dreg ereg st' t pl' := by
        intro tr trs1 h1 h2
        obtain ⟨g1, g2⟩ := ih _ _ h1
        refine ⟨by simp only [List.length_cons, g1]; omega, fun j t ht => ?_⟩
        cases j with
        | zero => cases ht; exact ⟨pl, st, rfl, rfl, h2⟩
        | succ j => simpa using g2 j t (by simpa using ht)
      cases pl with
      | drop =>
        simp only [openTracks] at h
        obtain ⟨z, h1, h⟩ := bind_eq_ok' h
        cases z <;> cases h
        exact main _ _ h1 rfl
      | copy =>
        simp only [openTracks] at h
        obtain ⟨z, h1, h⟩ := bind_eq_ok' h
        cases z <;> cases h
        exact main _ _ h1 rfl
      | code name =>
        have rest : ∀ (dd : Codec.Descriptor C) (d1 : C), dreg.byName (st.params.codec_id.getD "") = .ok (some dd) →
            (match st.params.extradata with | some x => dc.setExtradata dd.create x | none => .ok dd.create) = .ok d1 → (do
              match ← DecContext.configure dc ⟨d1⟩ with
              | (.error e, _) => return .error (.codec e)
              | (.ok (), cd) =>
                match ← EncContext.byName ereg name with
                | none => return .error (.codec (.Unsupported name))
                | some ce =>
                  match ← openTracks dc dreg ereg plans sts with
                  | .ok trs => return .ok (.code cd ce :: trs)
                  | .error e => return .error e : Rust (Except AppErr (List (Track C E)))) = .ok (.ok trs) →
            trs.length = min (Plan.code name :: plans).length (st :: sts).length ∧
            ∀ (j : Nat) (t : Track C E), trs[j]? = some t →
              ∃ pl' st', (Plan.code name :: plans)[j]? = some pl' ∧ (st :: sts)[j]? = some st' ∧ OpensWith dc dreg ereg st' t pl' := by
          intro dd d1 hd hx h
          obtain ⟨⟨u, cd2⟩, h3, h⟩ := bind_eq_ok' h
          simp only [DecContext.configure] at h3
          obtain ⟨⟨u', d2⟩, h3', h3⟩ := bind_eq_ok' h3
          cases h3
          cases u' with
          | error e => cases h
          | ok u =>
            obtain ⟨e, h4, h⟩ := bind_eq_ok' h
            simp only [EncContext.byName] at h4
            obtain ⟨o, h4', h4⟩ := bind_eq_ok' h4
            cases o with
            | none => cases h4; cases h
            | some ed =>
              cases h4
              obtain ⟨z, h5, h⟩ := bind_eq_ok' h
              cases z <;> cases h
              exact main _ _ h5 ⟨dd, d1, d2, ed, hd, hx, h3', h4', rfl⟩
        simp only [openTracks, DecContext.byName] at h
        obtain ⟨d, h1, h⟩ := bind_eq_ok' h
        obtain ⟨o, h1', h1⟩ := bind_eq_ok' h1
        cases o with
        | none => cases h1; cases h
        | some dd =>
          cases h1
          simp only [Option.map_some] at h
          split at h
          · next x hx =>
            simp only [DecContext.setExtradata] at h
            obtain ⟨cd1, h2, h⟩ := bind_eq_ok' h
            obtain ⟨d1, h2', h2⟩ := bind_eq_ok' h2
            cases h2
            exact rest dd d1 h1' (by simp only [hx]; exact h2') h
          · next hx => exact rest dd dd.create h1' (by simp only [hx]) h

/-- **C182** The answers of a decoder that are no error. -/
theorem c182_decFine (o : DecOut) : decFine o = true ↔ o = .unit (.ok ()) ∨ (∃ f, o = .frame (.ok f)) ∨ o = .frame (.error .MoreDataNeeded) := by
  rcases o with _ | (e | u) | (e | f) <;> simp [decFine]

/-- **C182** Those of an encoder. -/
theorem c182_encFine (o : EncOut) : encFine o = true ↔ o = .unit (.ok ()) ∨ (∃ p, o = .packet (.ok p)) ∨ o = .packet (.error .MoreDataNeeded) := by
  rcases o with (e | u) | (e | q) | x | (e | p) <;> simp [encFine]

/-- **C182** If the program returns no error, whatever codecs, demuxer, muxer, reader and writer do: each of the first streams has the
track that its plan says, with the decoder of the stream's codec, given the stream's extradata and configured, and the encoder of the
plan. All packets of the file up to its end went to the track of their stream. A track that copies has written just these. Of one that
transcodes the decoder was sent just these, and no other error came from it than that a frame is not there yet; the encoder was sent
the frames the decoder gave; and the packets the encoder gave, with the number of the stream, are those of the stream that were
written. Then both were flushed, once, and the same holds of what they gave after that. -/
theorem c182_wired {dc : Decoder C} {dreg : Codecs C} {dm : Demuxer D R} {bf : Buffered R} {fuel k : Nat} {ec : Encoder E}
    {ereg : Codecs E} {n : Nat} {plans : List Plan} {c c' : Context D R} {cm cm' : Mux.Context M W} {trs' : List (Track C E)}
    (h : convertFile dc dreg dm bf fuel k ec ereg so mx n plans c cm = .ok (.ok (), trs', c', cm')) :
    ∃ (c1 : Context D R) (trs : List (Track C E)) (evs : List Event) (ps : List Packet),
      readHeaders dm bf fuel c = .ok (.ok (), c1) ∧ trs.length = min plans.length c1.info.streams.length ∧
      (∀ (j : Nat) (tr : Track C E), trs[j]? = some tr →
        ∃ pl st, plans[j]? = some pl ∧ c1.info.streams[j]? = some st ∧ OpensWith dc dreg ereg st tr pl) ∧ .Eof ∉ evs ∧
      readEvents dm bf fuel (evs.length + 1) c1 = .ok ((evs ++ [Event.Eof]).map Except.ok, c') ∧
      cm.run so mx (.header :: ps.map .packet ++ [.trailer]) = .ok (List.replicate (ps.length + 2) (.ok ()), cm') ∧
      (∀ p ∈ ps, 0 ≤ p.stream_index ∧ p.stream_index < (trs.length : Nat)) ∧
      ∀ (j : Nat) (tr : Track C E), trs[j]? = some tr → ∃ tr1 tr2 o1 o2, trs'[j]? = some tr2 ∧
        tr.Flow dc ec j 0 (ofStream j (packets evs)) o1 tr1 ∧ tr1.Flow dc ec j 1 [] o2 tr2 ∧ ofStream j ps = o1 ++ o2 := by
  simp only [convertFile] at h
  obtain ⟨⟨y, c1⟩, h1, h⟩ := bind_eq_ok' h
  cases y with
  | error e => cases h
  | ok u =>
    obtain ⟨z, h2, h⟩ := bind_eq_ok' h
    cases z with
    | error e => cases h
    | ok trs =>
      obtain ⟨⟨w, cm1⟩, h3, h⟩ := bind_eq_ok' h
      cases w with
      | error e => cases h
      | ok u =>
        obtain ⟨g1, g2⟩ := openTracks_with _ _ _ h2
        obtain ⟨evs, ps, a1, a2, ⟨n, a3⟩, a4, a5⟩ := convertAll_flow n _ _ _ _ _ _ h
        refine ⟨c1, trs, evs, ps, h1, g1, g2, a1, a2, ?_, a4, a5⟩
        have hl := mux_run_length so mx _ _ _ _ a3
        simp only [ofFormat, List.map_nil, List.append_nil, List.length_replicate, List.length_append, List.length_map,
          List.length_cons, List.length_nil, Nat.zero_add] at a3 hl
        subst hl
        simp only [List.cons_append, Mux.Context.run, Mux.Context.step, h3, ok_bind, a3, pure_eq_ok]
        rfl

/-! ### examples -/

/-- The hypothesis of `c182_wired`. -/
example : (match convertFile twoDecoder (Codecs.fromList twoDecoders) twoFormat.demuxer accBuffered 40 9 twoEncoder
      (Codecs.fromList twoEncoders) Mux.sinkOps (Mux.bytesMuxer 40 avHdr twoPkt avTrl) 9 [.copy, .code "pair"]
      (Context.new () (Acc.withCapacity 1 ⟨twoFile, 0, sampleActs, 0⟩)) (Mux.Context.new 0 (Mux.Writer.new ⟨[], 0, fun k => ⟨none, 1 + k % 2⟩, 0, 0⟩)) with
    | .ok (.ok (), [.copy, .code _ _], _, _) => true
    | _ => false) = true := by
  decide +kernel

/-- What became of one packet, and of a second, and what the flush gave: the encoder holds the first of two frames back. -/
example (p q : Packet) : Flow twoDecoder (tagged 1 twoEncoder) 0 ⟨(1, [3], none, [])⟩ ⟨(0, none, [])⟩ [p, q]
      [tag 1 (pairPacket (pairFrame q)), tag 1 (pairPacket (pairFrame p))] ⟨(1, [3], none, [])⟩ ⟨(0, none, [])⟩ ∧
    Flow twoDecoder (tagged 1 twoEncoder) 0 ⟨(1, [3], none, [])⟩ ⟨(0, none, [])⟩ [p] [] ⟨(1, [3], none, [])⟩
      ⟨(0, some (pairFrame p), [])⟩ ∧
    Flow twoDecoder (tagged 1 twoEncoder) 1 ⟨(1, [3], none, [])⟩ ⟨(0, some (pairFrame p), [])⟩ [] [tag 1 (pairPacket (pairFrame p))]
      ⟨(1, [3], none, [])⟩ ⟨(0, none, [])⟩ :=
  ⟨⟨[.send p, .receive, .receive, .send q, .receive, .receive], _, [.send (pairFrame p), .receive, .send (pairFrame q), .receive, .receive,
      .receive], _, rfl, rfl, rfl, rfl, rfl, rfl, rfl, rfl, rfl⟩,
    ⟨[.send p, .receive, .receive], _, [.send (pairFrame p), .receive], _, rfl, rfl, rfl, rfl, rfl, rfl, rfl, rfl, rfl⟩,
    ⟨[.flush, .receive], _, [.flush, .receive, .receive], _, rfl, rfl, rfl, rfl, rfl, rfl, rfl, rfl, rfl⟩⟩

/-- A refused packet is not fine, a frame that is not there yet is. -/
example : decFine (.unit (.error .InvalidData)) = false ∧ decFine (.frame (.error .InvalidData)) = false ∧
    decFine (.frame (.error .MoreDataNeeded)) = true ∧ encFine (.packet (.error .ConfigurationInvalid)) = false := by
  decide

end Verif.RoundTrip
