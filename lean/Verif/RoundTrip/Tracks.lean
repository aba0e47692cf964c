import Verif.RoundTrip.Relay

/-!
# Property C180: a file of which some streams are transcoded, some copied and some left out

C144 copies all packets, C164 transcodes a file of one stream. Here the application has a plan for every stream, and does all of
it in one thread.
-/

namespace Verif.RoundTrip
open Verif Verif.Io Verif.Frame Verif.Stream Verif.Packet Verif.Demux Verif.Codec

variable {M W D R E C S T U A B : Type}

/-! ### the application -/

/-- What is to become of a stream: nothing, the same, or frames encoded by the encoder of this name. -/
inductive Plan | drop | copy | code (name : String)

/-- What it needs for that. -/
inductive Track (C E : Type) | drop | copy | code (cd : DecContext C) (ce : EncContext E)

/-- The tracks; streams without a plan have none. -/
def openTracks (dc : Decoder C) (dreg : Codecs C) (ereg : Codecs E) : List Plan → List Stream → Rust (Except AppErr (List (Track C E)))
  | .drop :: ps, _ :: sts => do
    match ← openTracks dc dreg ereg ps sts with
    | .ok trs => return .ok (.drop :: trs)
    | .error e => return .error e
  | .copy :: ps, _ :: sts => do
    match ← openTracks dc dreg ereg ps sts with
    | .ok trs => return .ok (.copy :: trs)
    | .error e => return .error e
  | .code name :: ps, st :: sts => do
    match ← DecContext.byName dreg (st.params.codec_id.getD "") with
    | none => return .error (.codec (.Unsupported (st.params.codec_id.getD "")))
    | some cd =>
      let cd ← match st.params.extradata with
        | some x => cd.setExtradata dc x
        | none => .ok cd
      match ← cd.configure dc with
      | (.error e, _) => return .error (.codec e)
      | (.ok (), cd) =>
        match ← EncContext.byName ereg name with
        | none => return .error (.codec (.Unsupported name))
        | some ce =>
          match ← openTracks dc dreg ereg ps sts with
          | .ok trs => return .ok (.code cd ce :: trs)
          | .error e => return .error e
  | _, _ => .ok (.ok [])

/-- A packet of stream `i` comes. -/
def Track.packet (dc : Decoder C) (ec : Encoder E) (mx : Mux.Muxer M W) (k i : Nat) : Track C E → Packet → Mux.Context M W →
    Rust (Except AppErr Unit × Track C E × Mux.Context M W)
  | .drop, _, cm => .ok (.ok (), .drop, cm)
  | .copy, p, cm => do
    match ← cm.writePacket mx p with
    | (.error e, cm) => .ok (.error (.format e), .copy, cm)
    | (.ok (), cm) => .ok (.ok (), .copy, cm)
  | .code cd ce, p, cm => do
    match ← cd.sendPacket dc p with
    | (.error e, cd) => .ok (.error (.codec e), .code cd ce, cm)
    | (.ok (), cd) =>
      match ← drainFrames dc k cd with
      | (.error e, cd) => .ok (.error e, .code cd ce, cm)
      | (.ok fs, cd) =>
        match ← encodeSome (tagged i ec) mx k fs ce cm with
        | (x, ce, cm) => .ok (x, .code cd ce, cm)

/-- The file has ended. -/
def Track.finish (dc : Decoder C) (ec : Encoder E) (mx : Mux.Muxer M W) (k i : Nat) : Track C E → Mux.Context M W →
    Rust (Except AppErr Unit × Track C E × Mux.Context M W)
  | .drop, cm => .ok (.ok (), .drop, cm)
  | .copy, cm => .ok (.ok (), .copy, cm)
  | .code cd ce, cm => do
    match ← cd.flush dc with
    | (.error e, cd) => .ok (.error (.codec e), .code cd ce, cm)
    | (.ok (), cd) =>
      match ← drainFrames dc k cd with
      | (.error e, cd) => .ok (.error e, .code cd ce, cm)
      | (.ok fs, cd) =>
        match ← encodeSome (tagged i ec) mx k fs ce cm with
        | (.error e, ce, cm) => .ok (.error e, .code cd ce, cm)
        | (.ok (), ce, cm) =>
          match ← ce.flush (tagged i ec) with
          | (.error e, ce) => .ok (.error (.codec e), .code cd ce, cm)
          | (.ok (), ce) =>
            match ← drainPackets (tagged i ec) mx k ce cm with
            | (x, ce, cm) => .ok (x, .code cd ce, cm)

def finishTracks (dc : Decoder C) (ec : Encoder E) (mx : Mux.Muxer M W) (k : Nat) : Nat → List (Track C E) → Mux.Context M W →
    Rust (Except AppErr Unit × List (Track C E) × Mux.Context M W)
  | _, [], cm => .ok (.ok (), [], cm)
  | i, tr :: trs, cm => do
    match ← tr.finish dc ec mx k i cm with
    | (.error e, tr, cm) => .ok (.error e, tr :: trs, cm)
    | (.ok (), tr, cm) =>
      match ← finishTracks dc ec mx k (i + 1) trs cm with
      | (x, trs, cm) => .ok (x, tr :: trs, cm)

/-- Each packet goes to the track of its stream, if there is one; at `Eof` all tracks are finished, and the trailer written. -/
def convertAll (dc : Decoder C) (dm : Demuxer D R) (bf : Buffered R) (fuel k : Nat) (ec : Encoder E) (so : Mux.SinkOps W)
    (mx : Mux.Muxer M W) : Nat → List (Track C E) → Context D R → Mux.Context M W →
    Rust (Except AppErr Unit × List (Track C E) × Context D R × Mux.Context M W)
  | 0, _, _, _ => .error .fuel
  | n + 1, trs, c, cm => do
    match ← readEvent dm bf fuel c with
    | (.error e, c) => .ok (.error (.format e), trs, c, cm)
    | (.ok (.NewPacket p), c) =>
      match if p.stream_index < 0 then none else trs[p.stream_index.toNat]? with
      | none => convertAll dc dm bf fuel k ec so mx n trs c cm
      | some tr =>
        match ← tr.packet dc ec mx k p.stream_index.toNat p cm with
        | (.error e, tr, cm) => .ok (.error e, trs.set p.stream_index.toNat tr, c, cm)
        | (.ok (), tr, cm) => convertAll dc dm bf fuel k ec so mx n (trs.set p.stream_index.toNat tr) c cm
    | (.ok .Eof, c) =>
      match ← finishTracks dc ec mx k 0 trs cm with
      | (.error e, trs, cm) => .ok (.error e, trs, c, cm)
      | (.ok (), trs, cm) =>
        match ← cm.writeTrailer so mx with
        | (.error e, cm) => .ok (.error (.format e), trs, c, cm)
        | (.ok (), cm) => .ok (.ok (), trs, c, cm)
    | (.ok _, c) => convertAll dc dm bf fuel k ec so mx n trs c cm

/-- The program. -/
def convertFile (dc : Decoder C) (dreg : Codecs C) (dm : Demuxer D R) (bf : Buffered R) (fuel k : Nat) (ec : Encoder E)
    (ereg : Codecs E) (so : Mux.SinkOps W) (mx : Mux.Muxer M W) (n : Nat) (plans : List Plan) (c : Context D R)
    (cm : Mux.Context M W) : Rust (Except AppErr Unit × List (Track C E) × Context D R × Mux.Context M W) := do
  match ← readHeaders dm bf fuel c with
  | (.error e, c) => .ok (.error (.format e), [], c, cm)
  | (.ok (), c) =>
    match ← openTracks dc dreg ereg plans c.info.streams with
    | .error e => .ok (.error e, [], c, cm)
    | .ok trs =>
      match ← cm.writeHeader mx with
      | (.error e, cm) => .ok (.error (.format e), trs, c, cm)
      | (.ok (), cm) => convertAll dc dm bf fuel k ec so mx n trs c cm

/-! ### specification -/

/-- The packets that are made of those of stream `i`. -/
def Plan.result (dm : Machine T Packet Frame) (em : Machine S Frame Packet) (t : T) (s : S) (i : Nat) (ps : List Packet) :
    Plan → List Packet
  | .drop => []
  | .copy => ps
  | .code _ => (em.all s (dm.all t ps)).map (tag i)

/-- The plan of a stream; without one it is left out. -/
def planOf (plans : List Plan) (i : Nat) : Plan := plans[i]?.getD .drop

/-- The stream of the packet is copied. -/
def isCopied (plans : List Plan) (p : Packet) : Bool :=
  match plans[p.stream_index.toNat]? with
  | some .copy => 0 ≤ p.stream_index
  | _ => false

/-! ### proofs -/

/-- The encoder's machine with the stream's index. -/
def marking (i : Nat) (m : Machine S Frame Packet) : Machine S Frame Packet :=
  ⟨fun s f => ((m.step s f).1.map (tag i), (m.step s f).2), fun s => (m.finish s).map (tag i)⟩

theorem marking_all (i : Nat) (m : Machine S Frame Packet) (fs : List Frame) : ∀ s,
    (marking i m).all s fs = (m.all s fs).map (tag i) := by
  induction fs with
  | nil => intro s; rfl
  | cons f fs ih => intro s; rw [Machine.all, Machine.all, ih, List.map_append]; rfl

/-- One machine behind the other. -/
def behind (dm : Machine T A Frame) (em : Machine S Frame B) : Machine (T × S) A B where
  step u a := ((em.steps u.2 (dm.step u.1 a).1).1, (dm.step u.1 a).2, (em.steps u.2 (dm.step u.1 a).1).2)
  finish u := em.all u.2 (dm.finish u.1)

theorem behind_all (dm : Machine T A Frame) (em : Machine S Frame B) (l : List A) : ∀ u : T × S,
    (behind dm em).all u l = em.all u.2 (dm.all u.1 l) := by
  induction l with
  | nil => intro u; rfl
  | cons a l ih => intro u; rw [Machine.all, ih, Machine.all, all_append]; rfl

def Plan.machine (dm : Machine T Packet Frame) (em : Machine S Frame Packet) (i : Nat) : Plan → Machine (T × S) Packet Packet
  | .drop => ⟨fun u _ => ([], u), fun _ => []⟩
  | .copy => ⟨fun u p => ([p], u), fun _ => []⟩
  | .code _ => behind dm (marking i em)

theorem machine_all (dm : Machine T Packet Frame) (em : Machine S Frame Packet) (i : Nat) (pl : Plan) (ps : List Packet) : ∀ u,
    (pl.machine dm em i).all u ps = pl.result dm em u.1 u.2 i ps := by
  cases pl with
  | drop =>
    induction ps with
    | nil => intro u; rfl
    | cons p ps ih => intro u; rw [Machine.all, ih]; rfl
  | copy =>
    induction ps with
    | nil => intro u; rfl
    | cons p ps ih => intro u; rw [Machine.all, ih]; rfl
  | code name => intro u; exact (behind_all ..).trans (marking_all ..)

/-- The track computes the machine: `K tr u l` says that it stands at `u` and can take the packets `l`. -/
structure Carries (dc : Decoder C) (ec : Encoder E) (so : Mux.SinkOps W) (mx : Mux.Muxer M W) (k i : Nat)
    (m : Machine U Packet Packet) (K : Track C E → U → List Packet → Prop) : Prop where
  packet : ∀ {tr u p l}, K tr u (p :: l) → ∀ (cm : Mux.Context M W) ops xs c,
    cm.run so mx ((m.step u p).1.map .packet ++ ops) = .ok (List.replicate (m.step u p).1.length (.ok ()) ++ xs, c) →
    ∃ tr' cm', tr.packet dc ec mx k i p cm = .ok (.ok (), tr', cm') ∧ K tr' (m.step u p).2 l ∧ cm'.run so mx ops = .ok (xs, c)
  finish : ∀ {tr u}, K tr u [] → ∀ (cm : Mux.Context M W) ops xs c,
    cm.run so mx ((m.finish u).map .packet ++ ops) = .ok (List.replicate (m.finish u).length (.ok ()) ++ xs, c) →
    ∃ tr' cm', tr.finish dc ec mx k i cm = .ok (.ok (), tr', cm') ∧ cm'.run so mx ops = .ok (xs, c)

/-- When a track that follows a plan can take packets. -/
def Ready (k : Nat) (dm : Machine T Packet Frame) (em : Machine S Frame Packet) (fine : Frame → Prop)
    (J : C → T → List Frame → Prop) (I : E → S → List Packet → Prop) (tr : Track C E) (u : T × S) (l : List Packet) : Plan → Prop
  | .drop => tr = .drop
  | .copy => tr = .copy
  | .code _ => (∃ d e, tr = .code ⟨d⟩ ⟨e⟩ ∧ J d u.1 [] ∧ I e u.2 []) ∧ (dm.all u.1 l).length < k ∧
      (em.all u.2 (dm.all u.1 l)).length < k ∧ ∀ f ∈ dm.all u.1 l, fine f

theorem all_steps (m : Machine S A B) (s : S) (l : List A) : m.all s l = (m.steps s l).1 ++ m.finish (m.steps s l).2 := by
  have := all_append m l [] s
  rwa [List.append_nil] at this

theorem plan_carries {dc : Decoder C} {ec : Encoder E} {so : Mux.SinkOps W} {mx : Mux.Muxer M W} {k i : Nat}
    {dm : Machine T Packet Frame} {em : Machine S Frame Packet} {fine : Frame → Prop}
    {J : C → T → List Frame → Prop} {I : E → S → List Packet → Prop} (pl : Plan)
    (hp : ∀ name, pl = .code name → DecodesAll dc dm J ∧ Encodes (tagged i ec) (marking i em) fine I) :
    Carries dc ec so mx k i (pl.machine dm em i) fun tr u l => Ready k dm (marking i em) fine J I tr u l pl := by
  cases pl with
  | drop =>
    refine ⟨?_, ?_⟩
    · rintro tr u p l rfl cm ops xs c hr
      exact ⟨.drop, cm, rfl, rfl, hr⟩
    · rintro tr u rfl cm ops xs c hr
      exact ⟨.drop, cm, rfl, hr⟩
  | copy =>
    refine ⟨?_, ?_⟩
    · rintro tr u p l rfl cm ops xs c hr
      simp only [Plan.machine, List.map_cons, List.map_nil, List.cons_append, List.nil_append, List.length_cons, List.length_nil,
        Nat.zero_add, List.replicate_one, Mux.Context.run, Mux.Context.step] at hr
      cases hw : cm.writePacket mx p with
      | error er => rw [hw] at hr; cases hr
      | ok r =>
        obtain ⟨x, cm1⟩ := r
        simp only [hw, ok_bind] at hr
        cases hr' : cm1.run so mx ops with
        | error er => rw [hr'] at hr; cases hr
        | ok r =>
          rw [hr'] at hr
          cases hr
          exact ⟨.copy, cm1, by simp only [Track.packet, hw, ok_bind], rfl, hr'⟩
    · rintro tr u rfl cm ops xs c hr
      exact ⟨.copy, cm, rfl, hr⟩
  | code name =>
    obtain ⟨hD, hE⟩ := hp name rfl
    refine ⟨?_, ?_⟩
    · rintro tr u p l ⟨⟨d, e, rfl, hJ, hI⟩, h1, h2, h3⟩ cm ops xs c hr
      rw [Machine.all] at h1 h2 h3
      rw [List.length_append] at h1
      rw [all_append, List.length_append] at h2
      obtain ⟨d1, g, hJ1⟩ := hD.send p hJ
      obtain ⟨d2, a1, a2⟩ := drainFrames_run hD (dm.step u.1 p).1 k d1 _ (by omega) hJ1
      obtain ⟨e2, cm2, b1, b2, b3⟩ := encodeSome_run hE (n := k) (dm.step u.1 p).1 e u.2 cm ops xs c (by omega) hI
        (fun f hf => h3 f (by simp [hf])) hr
      refine ⟨.code ⟨d2⟩ ⟨e2⟩, cm2, ?_, ⟨⟨d2, e2, rfl, a2, b2⟩, ?_, ?_, fun f hf => h3 f ?_⟩, b3⟩
      · simp only [Track.packet, DecContext.sendPacket, g, ok_bind, pure_eq_ok, a1, b1]
      · simp only [Plan.machine, behind]; omega
      · simp only [Plan.machine, behind]; omega
      · simp only [Plan.machine, behind] at hf
        simp [hf]
    · rintro tr u ⟨⟨d, e, rfl, hJ, hI⟩, h1, h2, h3⟩ cm ops xs c hr
      simp only [Machine.all] at h1 h2 h3
      simp only [Plan.machine, behind] at hr
      rw [all_steps, List.length_append] at h2
      rw [all_steps, List.map_append, List.append_assoc, List.length_append, ← List.replicate_append_replicate, List.append_assoc] at hr
      obtain ⟨d1, t1, g, hJ1⟩ := hD.flush hJ
      obtain ⟨d2, a1, a2⟩ := drainFrames_run hD (dm.finish u.1) k d1 _ (by omega) hJ1
      obtain ⟨e2, cm2, b1, b2, b3⟩ := encodeSome_run hE (n := k) (dm.finish u.1) e u.2 cm _ _ c (by omega) hI h3 hr
      obtain ⟨e3, s3, g3, hI3⟩ := hE.flush b2
      obtain ⟨e4, cm4, c1, _, c3⟩ := drainPackets_run hE _ k e3 s3 cm2 ops xs c (by simp only [List.nil_append]; omega) hI3 b3
      refine ⟨.code ⟨d2⟩ ⟨e4⟩, cm4, ?_, c3⟩
      simp only [Track.finish, DecContext.flush, g, ok_bind, pure_eq_ok, a1, b1, EncContext.flush, g3, c1]

theorem finishTracks_run {dc : Decoder C} {ec : Encoder E} {so : Mux.SinkOps W} {mx : Mux.Muxer M W} {k N : Nat}
    {ms : Nat → Machine U Packet Packet} {K : Nat → Track C E → U → List Packet → Prop}
    (hC : ∀ i < N, Carries dc ec so mx k i (ms i) (K i)) {u : Nat → U} (trs : List (Track C E)) : ∀ (i : Nat)
    (cm : Mux.Context M W) ops xs c, i + trs.length ≤ N →
    (∀ j, j < trs.length → ∃ tr, trs[j]? = some tr ∧ K (i + j) tr (u (i + j)) []) →
    cm.run so mx ((finishFrom ms u i trs.length).map (fun y => .packet y.2) ++ ops) =
      .ok (List.replicate (finishFrom ms u i trs.length).length (.ok ()) ++ xs, c) →
    ∃ trs' cm', finishTracks dc ec mx k i trs cm = .ok (.ok (), trs', cm') ∧ cm'.run so mx ops = .ok (xs, c) := by
  induction trs with
  | nil => exact fun i cm ops xs c _ _ hr => ⟨[], cm, rfl, hr⟩
  | cons tr trs ih =>
    intro i cm ops xs c hi hK hr
    obtain ⟨tr0, h0, hK0⟩ := hK 0 (by simp)
    simp only [List.getElem?_cons_zero, Option.some.injEq] at h0
    subst h0
    rw [List.length_cons] at hi
    simp only [List.length_cons, finishFrom, List.length_append, List.length_map, List.map_append, List.map_map,
      List.append_assoc] at hr
    rw [← List.replicate_append_replicate, List.append_assoc] at hr
    obtain ⟨tr1, cm1, a1, a2⟩ := (hC i (by omega)).finish hK0 cm _ _ c hr
    obtain ⟨trs', cm', b1, b2⟩ := ih (i + 1) cm1 ops xs c (by omega) (fun j hj => by
      obtain ⟨tr, x1, x2⟩ := hK (j + 1) (by simpa using hj)
      exact ⟨tr, by simpa using x1, by rwa [show i + 1 + j = i + (j + 1) by omega]⟩) a2
    refine ⟨tr1 :: trs', cm', ?_, b2⟩
    simp only [finishTracks, a1, ok_bind, b1]

theorem convertAll_run {dc : Decoder C} {ec : Encoder E} {so : Mux.SinkOps W} {mx : Mux.Muxer M W} {k N : Nat}
    {ms : Nat → Machine U Packet Packet} {K : Nat → Track C E → U → List Packet → Prop}
    (hC : ∀ i < N, Carries dc ec so mx k i (ms i) (K i)) {dmx : Demuxer D R} {bf : Buffered R} {fuel : Nat}
    (evs : List Event) (hno : .Eof ∉ evs) :
    ∀ (n : Nat) (trs : List (Track C E)) (u : Nat → U) (c c' : Context D R) (cm o : Mux.Context M W), evs.length < n →
    trs.length = N →
    (∀ j, j < N → ∃ tr, trs[j]? = some tr ∧ K j tr (u j) (ofStream j (packets evs))) →
    readEvents dmx bf fuel (evs.length + 1) c = .ok (evs.map .ok ++ [.ok .Eof], c') →
    cm.run so mx (((interleave N ms).all u (routed N (packets evs))).map (fun y => .packet y.2) ++ [.trailer]) =
      .ok (List.replicate (((interleave N ms).all u (routed N (packets evs))).length + 1) (.ok ()), o) →
    ∃ trs', convertAll dc dmx bf fuel k ec so mx n trs c cm = .ok (.ok (), trs', c', o) := by
  induction evs with
  | nil =>
    intro n trs u c c' cm o hn hl hK hr ho
    obtain ⟨n, rfl⟩ : ∃ k, n = k + 1 := ⟨n - 1, by simp at hn; omega⟩
    simp only [List.length_nil, readEvents] at hr
    subst hl
    cases he : readEvent dmx bf fuel c with
    | error er => rw [he] at hr; cases hr
    | ok r =>
      obtain ⟨x, c1⟩ := r
      rw [he] at hr
      cases hr
      obtain ⟨trs', cm', a1, a2⟩ := finishTracks_run hC (u := u) trs 0 cm [.trailer] [.ok ()] o (by omega)
        (fun j hj => by simpa [packets, ofStream] using hK j hj) (by rw [← List.replicate_succ']; exact ho)
      simp only [Mux.Context.run, Mux.Context.step] at a2
      cases ht : cm'.writeTrailer so mx with
      | error er => rw [ht] at a2; cases a2
      | ok r =>
        obtain ⟨x, cm3⟩ := r
        rw [ht] at a2
        cases a2
        exact ⟨trs', by simp only [convertAll, he, ok_bind, a1, ht]⟩
  | cons ev evs ih =>
    intro n trs u c c' cm o hn hl hK hr ho
    have hno' : Event.Eof ∉ evs := fun h => hno (by simp [h])
    have hev : ev ≠ .Eof := fun h => hno (by simp [h])
    obtain ⟨n, rfl⟩ : ∃ k, n = k + 1 := ⟨n - 1, by simp at hn; omega⟩
    rw [List.length_cons] at hr
    simp only [readEvents] at hr
    cases he : readEvent dmx bf fuel c with
    | error er => rw [he] at hr; cases hr
    | ok r =>
      obtain ⟨x, c1⟩ := r
      simp only [he, ok_bind] at hr
      cases he2 : readEvents dmx bf fuel (evs.length + 1) c1 with
      | error er =>
        simp only [readEvents] at he2
        rw [he2] at hr; cases hr
      | ok r =>
        obtain ⟨xs, c2⟩ := r
        have he2' := he2
        simp only [readEvents] at he2
        rw [he2] at hr
        cases hr
        have hskip : routed N (packets (ev :: evs)) = routed N (packets evs) →
            (∀ j < N, ofStream j (packets (ev :: evs)) = ofStream j (packets evs)) →
            convertAll dc dmx bf fuel k ec so mx (n + 1) trs c cm = convertAll dc dmx bf fuel k ec so mx n trs c1 cm →
            ∃ trs', convertAll dc dmx bf fuel k ec so mx (n + 1) trs c cm = .ok (.ok (), trs', c2, o) := by
          intro h1 h2 h3
          rw [h1] at ho
          rw [h3]
          exact ih hno' n trs u c1 c2 cm o (by simpa using hn) hl
            (fun j hj => by obtain ⟨tr, y1, y2⟩ := hK j hj; rw [h2 j hj] at y2; exact ⟨tr, y1, y2⟩) he2' ho
        cases ev with
        | Eof => exact absurd rfl hev
        | NewPacket p =>
          by_cases hidx : 0 ≤ p.stream_index ∧ p.stream_index.toNat < N
          · obtain ⟨i, hpi⟩ : ∃ i : Nat, p.stream_index = i := ⟨p.stream_index.toNat, by omega⟩
            have hi : i < N := by omega
            have e1 : routed N (packets (.NewPacket p :: evs)) = (i, p) :: routed N (packets evs) := by
              simp only [routed, packets, List.filterMap_cons, if_pos hidx]
              rw [hpi, Int.toNat_natCast]
            have e2 : ofStream i (packets (.NewPacket p :: evs)) = p :: ofStream i (packets evs) := by
              rw [show packets (.NewPacket p :: evs) = p :: packets evs from rfl]
              simp [ofStream, hpi]
            rw [e1, Machine.all] at ho
            rw [List.map_append, List.append_assoc, List.length_append, Nat.add_assoc, ← List.replicate_append_replicate] at ho
            obtain ⟨tr, h0, hK0⟩ := hK i hi
            rw [e2] at hK0
            simp only [interleave, List.map_map, List.length_map] at ho
            obtain ⟨tr1, cm1, a1, a2, a3⟩ := (hC i hi).packet hK0 cm _ _ o ho
            obtain ⟨trs', b⟩ := ih hno' n (trs.set i tr1) (upd u i ((ms i).step (u i) p).2) c1 c2 cm1 o (by simpa using hn)
              (by simpa using hl) (fun j hj => by
                by_cases h : i = j
                · subst h
                  exact ⟨tr1, by rw [List.getElem?_set_self (by omega)], by simpa [upd] using a2⟩
                · obtain ⟨tr, x1, x2⟩ := hK j hj
                  refine ⟨tr, by rw [List.getElem?_set_ne h]; exact x1, ?_⟩
                  simp only [upd]
                  rw [if_neg (fun h' => h h'.symm)]
                  rw [show packets (.NewPacket p :: evs) = p :: packets evs from rfl] at x2
                  rwa [show ofStream j (p :: packets evs) = ofStream j (packets evs) by
                    simp only [ofStream]; rw [List.filter_cons_of_neg]; simp only [hpi, decide_eq_true_eq]; omega] at x2) he2' a3
            refine ⟨trs', ?_⟩
            have hsel : (if p.stream_index < 0 then none else trs[p.stream_index.toNat]?) = some tr := by
              rw [hpi, if_neg (by omega), Int.toNat_natCast]; exact h0
            simp only [convertAll, he, ok_bind, hsel]
            rw [hpi, Int.toNat_natCast]
            simp only [a1, ok_bind]
            exact b
          · refine hskip ?_ (fun j hj => ?_) ?_
            · simp only [routed, packets, List.filterMap_cons, if_neg hidx]
            · rw [show packets (.NewPacket p :: evs) = p :: packets evs from rfl]
              simp only [ofStream]; rw [List.filter_cons_of_neg]; simp only [decide_eq_true_eq]; omega
            · have hsel : (if p.stream_index < 0 then none else trs[p.stream_index.toNat]?) = none := by
                by_cases hneg : p.stream_index < 0
                · rw [if_pos hneg]
                · rw [if_neg hneg, List.getElem?_eq_none (by omega)]
              simp only [convertAll, he, ok_bind, hsel]
        | NewStream st => exact hskip rfl (fun _ _ => rfl) (by simp only [convertAll, he, ok_bind])
        | MoreDataNeeded k => exact hskip rfl (fun _ _ => rfl) (by simp only [convertAll, he, ok_bind])
        | Continue => exact hskip rfl (fun _ _ => rfl) (by simp only [convertAll, he, ok_bind])

/-- What a track is opened with. -/
def Opened (Q : C → E → Prop) (tr : Track C E) : Plan → Prop
  | .drop => tr = .drop
  | .copy => tr = .copy
  | .code _ => ∃ d e, tr = .code ⟨d⟩ ⟨e⟩ ∧ Q d e

theorem openTracks_run {dc : Decoder C} {dreg : Codecs C} {ereg : Codecs E} (Q : Nat → C → E → Prop) (plans : List Plan) :
    ∀ (i : Nat) (sts : List Stream), plans.length ≤ sts.length →
    (∀ (j : Nat) (name : String) (st : Stream), plans[j]? = some (.code name) → sts[j]? = some st →
      ∃ cname dd x d1 d2 ed, st.params.codec_id = some cname ∧ dreg.byName cname = .ok (some dd) ∧
      st.params.extradata = some x ∧ dc.setExtradata dd.create x = .ok d1 ∧ dc.configure d1 = .ok (.ok (), d2) ∧
      ereg.byName name = .ok (some ed) ∧ Q (i + j) d2 ed.create) →
    ∃ trs, openTracks dc dreg ereg plans sts = .ok (.ok trs) ∧ trs.length = plans.length ∧
      ∀ j, j < plans.length → ∃ tr, trs[j]? = some tr ∧ Opened (Q (i + j)) tr (planOf plans j) := by
  induction plans with
  | nil => exact fun i sts _ _ => ⟨[], by simp only [openTracks], rfl, by simp⟩
  | cons pl plans ih =>
    intro i sts hl h
    cases sts with
    | nil => simp at hl
    | cons st sts =>
      obtain ⟨trs, g1, g2, g3⟩ := ih (i + 1) sts (by simpa using hl) fun j name st hpl hst => by
        rw [show i + 1 + j = i + (j + 1) by omega]
        exact h (j + 1) name st (by simpa using hpl) (by simpa using hst)
      have main : ∀ tr : Track C E, openTracks dc dreg ereg (pl :: plans) (st :: sts) = .ok (.ok (tr :: trs)) →
          Opened (Q i) tr pl → ∃ trs, openTracks dc dreg ereg (pl :: plans) (st :: sts) = .ok (.ok trs) ∧
          trs.length = (pl :: plans).length ∧
          ∀ j, j < (pl :: plans).length → ∃ tr, trs[j]? = some tr ∧ Opened (Q (i + j)) tr (planOf (pl :: plans) j) := by
        intro tr h1 h2
        refine ⟨tr :: trs, h1, by simp [g2], fun j hj => ?_⟩
        cases j with
        | zero => exact ⟨tr, rfl, h2⟩
        | succ j =>
          obtain ⟨tr', x1, x2⟩ := g3 j (by simpa using hj)
          refine ⟨tr', by simpa using x1, ?_⟩
          rw [show i + (j + 1) = i + 1 + j by omega]
          simpa [planOf] using x2
      cases pl with
      | drop => exact main .drop (by simp only [openTracks, g1, ok_bind, pure_eq_ok]) rfl
      | copy => exact main .copy (by simp only [openTracks, g1, ok_bind, pure_eq_ok]) rfl
      | code name =>
        obtain ⟨cname, dd, x, d1, d2, ed, h1, h2, h3, h4, h5, h6, h7⟩ := h 0 name st rfl rfl
        exact main (.code ⟨d2⟩ ⟨ed.create⟩) (by
          simp only [openTracks, h1, Option.getD_some, DecContext.byName, h2, ok_bind, pure_eq_ok, Option.map_some, h3,
            DecContext.setExtradata, h4, DecContext.configure, h5, EncContext.byName, h6, g1]) ⟨d2, ed.create, rfl, h7⟩

/-- The new packets of copied streams. -/
def copiedOf (plans : List Plan) (l : List (Nat × Packet)) : List Packet :=
  l.filterMap fun y => match plans[y.1]? with
    | some .copy => some y.2
    | _ => none

theorem copied_other {plans : List Plan} {i : Nat} (h : plans[i]? ≠ some .copy) (l : List Packet) :
    copiedOf plans (l.map fun p => (i, p)) = [] := by
  unfold copiedOf
  rw [List.filterMap_map, List.filterMap_eq_nil_iff]
  intro p _
  show (match plans[i]? with | some .copy => some p | _ => none) = none
  split
  · next e => exact absurd e h
  · rfl

theorem copied_finish (plans : List Plan) (dm : Nat → Machine T Packet Frame) (em : Nat → Machine S Frame Packet) (u : Nat → T × S)
    (n : Nat) : ∀ i, copiedOf plans (finishFrom (fun i => (planOf plans i).machine (dm i) (em i) i) u i n) = [] := by
  induction n with
  | zero => intro i; rfl
  | succ n ih =>
    intro i
    rw [finishFrom]
    unfold copiedOf at ih ⊢
    rw [List.filterMap_append, ih, List.append_nil]
    by_cases h : plans[i]? = some .copy
    · have : planOf plans i = .copy := by simp [planOf, h]
      rw [this]; rfl
    · exact copied_other h _

/-- Copied streams keep their order, also among each other. -/
theorem copied_all (plans : List Plan) (dm : Nat → Machine T Packet Frame) (em : Nat → Machine S Frame Packet) (N : Nat)
    (hN : plans.length ≤ N) (ps : List Packet) :
    ∀ u : Nat → T × S, copiedOf plans ((interleave N fun i => (planOf plans i).machine (dm i) (em i) i).all u (routed N ps)) =
      ps.filter (isCopied plans) := by
  induction ps with
  | nil => intro u; exact copied_finish plans dm em u N 0
  | cons p ps ih =>
    intro u
    by_cases hidx : 0 ≤ p.stream_index ∧ p.stream_index.toNat < N
    · have e1 : routed N (p :: ps) = (p.stream_index.toNat, p) :: routed N ps := by
        simp only [routed, List.filterMap_cons, if_pos hidx]
      rw [e1, Machine.all]
      have ih' := ih ((interleave N fun i => (planOf plans i).machine (dm i) (em i) i).step u (p.stream_index.toNat, p)).2
      have ha : ∀ l l', copiedOf plans (l ++ l') = copiedOf plans l ++ copiedOf plans l' := fun l l' => by simp [copiedOf]
      rw [ha, ih']
      by_cases h : plans[p.stream_index.toNat]? = some .copy
      · have hp : planOf plans p.stream_index.toNat = .copy := by simp [planOf, h]
        have hc : isCopied plans p = true := by simp [isCopied, h, hidx.1]
        rw [List.filter_cons_of_pos hc]
        simp only [interleave, hp, Plan.machine, List.map_cons, List.map_nil]
        simp [copiedOf, h]
      · have hc : ¬ isCopied plans p = true := by
          unfold isCopied
          split
          · next e => exact absurd e h
          · simp
        rw [List.filter_cons_of_neg hc]
        simp only [interleave]
        rw [copied_other h, List.nil_append]
    · have e1 : routed N (p :: ps) = routed N ps := by
        simp only [routed, List.filterMap_cons, if_neg hidx]
      have hc : ¬ isCopied plans p = true := by
        simp only [isCopied]
        split
        · next e =>
          simp only [decide_eq_true_eq]
          intro h0
          have := (List.getElem?_eq_some_iff.1 e).1
          exact hidx ⟨h0, by omega⟩
        · simp
      rw [e1, ih, List.filter_cons_of_neg hc]

/-- **C180** A file is converted by a plan for each of its first streams: leave it out, copy it, or decode it and encode it with
another encoder. Codecs are as in C164. The new file is what muxing certain packets would leave, was flushed once, and these packets
are: for each stream those its plan says, in order; and those of all copied streams in the order in which they were in the file. -/
theorem c180_convert (F : Format D) (hF : F.Framed) (file : List U8) (cap : Nat) (acts : Nat → Act)
    (ha : ∀ c, (acts c).fail = none) (d d' : D) (hl : Nat) (info : GlobalInfo)
    (hh : F.head d ⟨none, none, []⟩ file = some (hl, d', info)) (evs : List Event) (he : .Eof ∉ evs)
    (hv : F.events (evs.length + 1) d' info.streams (file.drop hl) = evs ++ [.Eof])
    (plans : List Plan) (hplans : plans.length ≤ info.streams.length)
    (dc : Decoder C) (dreg : Codecs C) (dm : Nat → Machine T Packet Frame) (J : Nat → C → T → List Frame → Prop) (t0 : Nat → T)
    (ec : Encoder E) (ereg : Codecs E) (em : Nat → Machine S Frame Packet) (fine : Nat → Frame → Prop)
    (I : Nat → E → S → List Packet → Prop) (s0 : Nat → S) (k : Nat)
    (hcode : ∀ i name, plans[i]? = some (.code name) → DecodesAll dc (dm i) (J i) ∧ Encodes ec (em i) (fine i) (I i))
    (hst : ∀ (j : Nat) (name : String) (st : Stream), plans[j]? = some (.code name) → info.streams[j]? = some st →
      ∃ cname dd x d1 d2 ed, st.params.codec_id = some cname ∧ dreg.byName cname = .ok (some dd) ∧
      st.params.extradata = some x ∧ dc.setExtradata dd.create x = .ok d1 ∧ dc.configure d1 = .ok (.ok (), d2) ∧
      ereg.byName name = .ok (some ed) ∧ J j d2 (t0 j) [] ∧ I j ed.create (s0 j) [])
    (hk : ∀ i name, plans[i]? = some (.code name) → ((dm i).all (t0 i) (ofStream i (packets evs))).length < k ∧
      ((em i).all (s0 i) ((dm i).all (t0 i) (ofStream i (packets evs)))).length < k ∧
      ∀ f ∈ (dm i).all (t0 i) (ofStream i (packets evs)), fine i f)
    (hdr : M → List U8 × M) (pkt : M → Packet → List U8 × M) (trl : M → List U8 × M) (m : M)
    (sink : Sink) (h0 : sink.data = [] ∧ sink.pos = 0)
    (hq : ∀ c, (sink.script c).fail = none ∧ 0 < (sink.script c).len) (fuel n : Nat) (hf : file.length + 2 ≤ fuel)
    (hn : evs.length < n) (fuel' : Nat)
    (hfuel : ∀ ps, Merges plans.length (fun i => (planOf plans i).result (dm i) (em i) (t0 i) (s0 i) i (ofStream i (packets evs))) ps →
      (Mux.fileBytes hdr pkt trl m (ps.map (·.2))).length < fuel') :
    ∃ trs c o ps, convertFile dc dreg F.demuxer accBuffered fuel k ec ereg Mux.sinkOps (Mux.bytesMuxer fuel' hdr pkt trl) n plans
        (Context.new d (Acc.withCapacity cap ⟨file, 0, acts, 0⟩)) (Mux.Context.new m (Mux.Writer.new sink)) =
        .ok (.ok (), trs, c, o) ∧
      Merges plans.length (fun i => (planOf plans i).result (dm i) (em i) (t0 i) (s0 i) i (ofStream i (packets evs))) ps ∧
      copiedOf plans ps = (packets evs).filter (isCopied plans) ∧
      o.intoWriter.writer.data = Mux.fileBytes hdr pkt trl m (ps.map (·.2)) ∧
      o.intoWriter.writer.flushes = sink.flushes + 1 := by
  obtain ⟨c1, c2, a1, a2, a3⟩ := headers_events F hF file cap acts ha d d' hl info hh fuel hf (evs.length + 1)
  rw [hv, List.map_append] at a3
  obtain ⟨trs, o1, o2, o3⟩ := openTracks_run (dc := dc) (dreg := dreg) (ereg := ereg)
    (fun j d e => J j d (t0 j) [] ∧ I j e (s0 j) []) plans 0 info.streams hplans (by
      intro j name st h1 h2
      rw [Nat.zero_add]
      exact hst j name st h1 h2)
  simp only [Nat.zero_add] at o3
  have hM : Merges plans.length (fun i => (planOf plans i).result (dm i) (em i) (t0 i) (s0 i) i (ofStream i (packets evs)))
      ((interleave plans.length fun i => (planOf plans i).machine (dm i) (em i) i).all (fun i => (t0 i, s0 i))
        (routed plans.length (packets evs))) := by
    refine ⟨keys_all _ _ (fun y hy => ?_) _, fun i hi => ?_⟩
    · obtain ⟨p, _, hp⟩ := List.mem_filterMap.1 hy
      split at hp
      · next h => cases hp; exact h.2
      · cases hp
    · rw [only_all _ hi, only_routed hi, machine_all]
  have hC : ∀ i < plans.length, Carries dc ec Mux.sinkOps (Mux.bytesMuxer fuel' hdr pkt trl) k i
      ((planOf plans i).machine (dm i) (em i) i) fun tr u l => Ready k (dm i) (marking i (em i)) (fine i) (J i)
        (fun e s q => ∃ q', q = q'.map (tag i) ∧ I i e s q') tr u l (planOf plans i) := by
    intro i hi
    refine plan_carries _ fun name hp => ?_
    have hpi : plans[i]? = some (.code name) := by
      rw [planOf, List.getElem?_eq_getElem hi, Option.getD_some] at hp
      rw [List.getElem?_eq_getElem hi, hp]
    exact ⟨(hcode i name hpi).1, tagged_encodes (hcode i name hpi).2 i⟩
  obtain ⟨o, hm, hdata, _, hflush⟩ := Mux.c39_file fuel' hdr pkt trl m sink h0 hq _ (hfuel _ hM)
  simp only [List.cons_append, Mux.Context.run, Mux.Context.step] at hm
  cases hw : (Mux.Context.new m (Mux.Writer.new sink)).writeHeader (Mux.bytesMuxer fuel' hdr pkt trl) with
  | error er => rw [hw] at hm; cases hm
  | ok r =>
    obtain ⟨y, cm⟩ := r
    simp only [hw, ok_bind] at hm
    cases hr1 : cm.run Mux.sinkOps (Mux.bytesMuxer fuel' hdr pkt trl)
        ((((interleave plans.length fun i => (planOf plans i).machine (dm i) (em i) i).all (fun i => (t0 i, s0 i))
          (routed plans.length (packets evs))).map fun y : Nat × Packet => y.2).map .packet ++ [.trailer]) with
    | error er => rw [hr1] at hm; cases hm
    | ok r =>
      obtain ⟨ys, c'⟩ := r
      simp only [hr1, ok_bind, pure_eq_ok, List.replicate_succ, Except.ok.injEq, Prod.mk.injEq, List.cons.injEq] at hm
      obtain ⟨⟨rfl, hys⟩, rfl⟩ := hm
      rw [hys, ← List.replicate_succ, List.map_map, List.length_map] at hr1
      obtain ⟨trs', hrun⟩ := convertAll_run hC (dmx := F.demuxer) (bf := accBuffered) (fuel := fuel) evs he n trs
        (fun i => (t0 i, s0 i)) c1 c2 cm c' hn o2 (fun j hj => by
          obtain ⟨tr, x1, x2⟩ := o3 j hj
          refine ⟨tr, x1, ?_⟩
          have hpj : plans[j]? = some (planOf plans j) := by
            rw [planOf, List.getElem?_eq_getElem hj, Option.getD_some]
          cases hpl : planOf plans j with
          | drop => rw [hpl] at x2; exact x2
          | copy => rw [hpl] at x2; exact x2
          | code name =>
            rw [hpl] at x2 hpj
            obtain ⟨dd, e, rfl, y1, y2⟩ := x2
            obtain ⟨k1, k2, k3⟩ := hk j name hpj
            exact ⟨⟨dd, e, rfl, y1, [], rfl, y2⟩, k1, by rw [marking_all, List.length_map]; exact k2, k3⟩) a3 hr1
      refine ⟨trs', c2, c', _, ?_, hM, copied_all plans dm em plans.length (Nat.le_refl _) (packets evs) _, hdata, hflush⟩
      simp only [convertFile, a1, ok_bind, a2, o1, hw]
      exact hrun

/-- If all plans are to copy, all packets are of copied streams. -/
theorem copied_replicate {N : Nat} {ps : List (Nat × Packet)} (h : ∀ y ∈ ps, y.1 < N) :
    copiedOf (List.replicate N .copy) ps = ps.map (·.2) := by
  induction ps with
  | nil => rfl
  | cons y ps ih =>
    have h1 : (List.replicate N Plan.copy)[y.1]? = some .copy := by
      rw [List.getElem?_replicate, if_pos (h y (by simp))]
    have ih := ih fun z hz => h z (by simp [hz])
    unfold copiedOf at ih ⊢
    simp only [List.filterMap_cons, h1, ih, List.map_cons]

/-- **C180** If all streams are copied the new file has all packets of these streams in the order of the old file, whatever the
codecs. -/
theorem c180_copies (F : Format D) (hF : F.Framed) (file : List U8) (cap : Nat) (acts : Nat → Act)
    (ha : ∀ c, (acts c).fail = none) (d d' : D) (hl : Nat) (info : GlobalInfo)
    (hh : F.head d ⟨none, none, []⟩ file = some (hl, d', info)) (evs : List Event) (he : .Eof ∉ evs)
    (hv : F.events (evs.length + 1) d' info.streams (file.drop hl) = evs ++ [.Eof])
    (dc : Decoder C) (dreg : Codecs C) (ec : Encoder E) (ereg : Codecs E) (k : Nat)
    (hdr : M → List U8 × M) (pkt : M → Packet → List U8 × M) (trl : M → List U8 × M) (m : M)
    (sink : Sink) (h0 : sink.data = [] ∧ sink.pos = 0)
    (hq : ∀ c, (sink.script c).fail = none ∧ 0 < (sink.script c).len) (fuel n : Nat) (hf : file.length + 2 ≤ fuel)
    (hn : evs.length < n) (fuel' : Nat)
    (hfuel : ∀ ps, Merges info.streams.length (fun i => ofStream i (packets evs)) ps →
      (Mux.fileBytes hdr pkt trl m (ps.map (·.2))).length < fuel') :
    ∃ trs c o, convertFile dc dreg F.demuxer accBuffered fuel k ec ereg Mux.sinkOps (Mux.bytesMuxer fuel' hdr pkt trl) n
        (List.replicate info.streams.length .copy) (Context.new d (Acc.withCapacity cap ⟨file, 0, acts, 0⟩))
        (Mux.Context.new m (Mux.Writer.new sink)) = .ok (.ok (), trs, c, o) ∧
      o.intoWriter.writer.data = Mux.fileBytes hdr pkt trl m
        ((packets evs).filter fun p => decide (0 ≤ p.stream_index ∧ p.stream_index.toNat < info.streams.length)) ∧
      o.intoWriter.writer.flushes = sink.flushes + 1 := by
  have hc : ∀ (i : Nat) (name : String), (List.replicate info.streams.length Plan.copy)[i]? ≠ some (.code name) := by
    intro i name h
    rw [List.getElem?_replicate] at h
    split at h <;> simp at h
  have hr : ∀ i < info.streams.length, ∀ (dm : Machine Unit Packet Frame) (em : Machine Unit Frame Packet),
      (planOf (List.replicate info.streams.length .copy) i).result dm em () () i (ofStream i (packets evs)) =
        ofStream i (packets evs) := by
    intro i hi dm em
    rw [planOf, List.getElem?_replicate, if_pos hi]
    rfl
  obtain ⟨trs, c, o, ps, h1, h2, h3, h4, h5⟩ := c180_convert F hF file cap acts ha d d' hl info hh evs he hv
    (List.replicate info.streams.length .copy) (by simp) dc dreg (fun _ => ⟨fun s _ => ([], s), fun _ => []⟩)
    (fun _ _ _ _ => False) (fun _ => ()) ec ereg (fun _ => ⟨fun s _ => ([], s), fun _ => []⟩) (fun _ _ => True)
    (fun _ _ _ _ => False) (fun _ => ()) k (fun i name h => absurd h (hc i name)) (fun i name _ h => absurd h (hc i name))
    (fun i name h => absurd h (hc i name)) hdr pkt trl m sink h0 hq fuel n hf hn fuel' (by
      intro ps hps
      rw [List.length_replicate] at hps
      exact hfuel ps ⟨hps.1, fun i hi => (hps.2 i hi).trans (hr i hi _ _)⟩)
  refine ⟨trs, c, o, h1, ?_, h5⟩
  rw [List.length_replicate] at h2
  rw [copied_replicate h2.1] at h3
  rw [h4, h3]
  congr 1
  refine List.filter_congr fun p _ => ?_
  rw [isCopied, List.getElem?_replicate]
  by_cases hp : p.stream_index.toNat < info.streams.length <;> simp [hp]

/-! ### examples -/

/-- What `convertFile` leaves of the file for a plan, with a writer that takes a byte or two at a time. -/
def twoConverted (plans : List Plan) : Option (Bool × List U8 × Nat) :=
  match convertFile twoDecoder (Codecs.fromList twoDecoders) twoFormat.demuxer accBuffered 40 9 twoEncoder (Codecs.fromList twoEncoders)
      Mux.sinkOps (Mux.bytesMuxer 40 avHdr twoPkt avTrl) 9 plans
      (Context.new () (Acc.withCapacity 1 ⟨twoFile, 0, sampleActs, 0⟩))
      (Mux.Context.new 0 (Mux.Writer.new ⟨[], 0, fun k => ⟨none, 1 + k % 2⟩, 0, 0⟩)) with
  | .ok (.ok (), _, _, o) => some (true, o.intoWriter.writer.data, o.intoWriter.writer.flushes)
  | .ok (.error _, _, _, o) => some (false, o.intoWriter.writer.data, o.intoWriter.writer.flushes)
  | .error _ => none

/-- Copied, the file is the same; a coded stream changes its order and place; a missing encoder leaves nothing. -/
example : twoConverted [.copy, .copy] = some (true, twoFile, 1) ∧
    twoConverted [.copy, .code "pair"] = some (true, [65, 86, 1, 0, 9, 1, 0, 7, 1, 1, 6, 2, 1, 8, 8, 1, 0, 5, 0], 1) ∧
    twoConverted [.code "plain", .copy] = some (true, [65, 86, 2, 1, 8, 8, 1, 0, 7, 1, 0, 9, 1, 1, 6, 1, 0, 5, 0], 1) ∧
    twoConverted [.drop, .copy] = some (true, [65, 86, 2, 1, 8, 8, 1, 1, 6, 0], 1) ∧
    twoConverted [.copy] = some (true, [65, 86, 1, 0, 9, 1, 0, 7, 1, 0, 5, 0], 1) ∧
    twoConverted [.code "none"] = some (false, [], 0) := by
  refine ⟨?_, ?_, ?_, ?_, ?_, ?_⟩ <;> decide +kernel

/-- The hypotheses of `c180_convert` for the second plan. -/
example : twoFormat.head () ⟨none, none, []⟩ twoFile = some (2, (), twoInfo) ∧ .Eof ∉ twoEvents ∧
    twoFormat.events (twoEvents.length + 1) () twoInfo.streams (twoFile.drop 2) = twoEvents ++ [.Eof] ∧
    [Plan.copy, .code "pair"].length ≤ twoInfo.streams.length ∧
    (∀ i, DecodesAll twoDecoder (whichD i) (fun d s q => ∃ x, d = (i, x, s, q)) ∧
      Encodes twoEncoder (whichE (1 - i)) (fun _ => True) (fun e s q => e = (1 - i, s, q))) ∧
    (∀ (j : Nat) (name : String) (st : Stream), [Plan.copy, .code "pair"][j]? = some (.code name) → twoInfo.streams[j]? = some st →
      ∃ cname dd x d1 d2 ed, st.params.codec_id = some cname ∧ (Codecs.fromList twoDecoders).byName cname = .ok (some dd) ∧
      st.params.extradata = some x ∧ twoDecoder.setExtradata dd.create x = .ok d1 ∧ twoDecoder.configure d1 = .ok (.ok (), d2) ∧
      (Codecs.fromList twoEncoders).byName name = .ok (some ed) ∧ (∃ x, d2 = (j, x, none, [])) ∧ ed.create = (1 - j, none, [])) ∧
    (twoFilms 1).length < 9 ∧ ((whichE 0).all none (twoFilms 1)).length < 9 ∧
    (∀ ps, Merges [Plan.copy, .code "pair"].length (fun i => (planOf [.copy, .code "pair"] i).result (whichD i) (whichE (1 - i)) none
        none i (ofStream i (packets twoEvents))) ps →
      (Mux.fileBytes avHdr twoPkt avTrl 0 (ps.map (·.2))).length < 40) ∧
    (packets twoEvents).filter (isCopied [.copy, .code "pair"]) = ofStream 0 (packets twoEvents) := by
  refine ⟨rfl, by decide +kernel, by decide +kernel, by decide, fun i => ⟨two_decodes i, two_encodes (1 - i)⟩, ?_, by decide +kernel,
    by decide +kernel, fun ps h => ?_, by decide +kernel⟩
  · intro j name st h1 h2
    match j, h1, h2 with
    | 1, h1, h2 =>
      cases h1
      cases h2
      exact ⟨_, _, _, _, _, _, rfl, rfl, rfl, rfl, rfl, rfl, ⟨_, rfl⟩, rfl⟩
  · have hl := merges_length ps _ h
    have h5 : sumTo (fun i => ((planOf [.copy, .code "pair"] i).result (whichD i) (whichE (1 - i)) none none i
        (ofStream i (packets twoEvents))).length) [Plan.copy, .code "pair"].length = 5 := by decide +kernel
    have hd : ∀ i < [Plan.copy, .code "pair"].length, ∀ p ∈ (planOf [.copy, .code "pair"] i).result (whichD i) (whichE (1 - i)) none
        none i (ofStream i (packets twoEvents)), p.data.length ≤ 2 := by decide +kernel
    have := two_short (ps.map (·.2)) (avHdr 0).2 (by
      intro p hp
      obtain ⟨y, hy, rfl⟩ := List.mem_map.1 hp
      have hm := mem_only (i := y.1) (a := y.2) hy
      rw [h.2 y.1 (h.1 y hy)] at hm
      exact hd y.1 (h.1 y hy) y.2 hm)
    rw [List.length_map, hl, h5] at this
    have ht : ∀ m, (avTrl m).1.length = 1 := fun _ => rfl
    have hh : (avHdr 0).1.length = 2 := rfl
    simp only [Mux.fileBytes, List.length_append, ht, hh]
    omega

end Verif.RoundTrip
