import Verif.RoundTrip.Tracks

/-!
# Property C181: a converter does not hide what has gone wrong

C180 is about codecs, files and devices that work. Here all of them may be anything: what the program of C180 returns tells what has
been read and written.
-/

namespace Verif.RoundTrip
open Verif Verif.Io Verif.Frame Verif.Stream Verif.Packet Verif.Demux Verif.Codec

variable {M W D R E C S T U A B : Type}

/-! ### specification -/

/-- The errors of demuxer and muxer among those that stop the application. -/
def ofFormat : Except AppErr Unit → List Demux.Err
  | .error (.format e) => [e]
  | _ => []

/-- The plan without the name of the encoder. -/
def Plan.kind : Plan → Plan
  | .code _ => .code ""
  | pl => pl

/-- What a track does. -/
def Track.kind : Track C E → Plan
  | .drop => .drop
  | .copy => .copy
  | .code _ _ => .code ""

/-- The calls were made; all but perhaps the last succeeded, and `x` is the error of that one, if there is an error of a muxer in
it. -/
def Did (so : Mux.SinkOps W) (mx : Mux.Muxer M W) (cm : Mux.Context M W) (ops : List Mux.Op) (x : Except AppErr Unit)
    (cm' : Mux.Context M W) : Prop :=
  ∃ n, cm.run so mx ops = .ok (List.replicate n (.ok ()) ++ (ofFormat x).map .error, cm')

/-! ### proofs -/

theorem bind_eq_ok' {a : Rust A} {f : A → Rust B} {r : B} (h : (a >>= f) = .ok r) : ∃ y, a = .ok y ∧ f y = .ok r := by
  cases a with
  | error e => cases h
  | ok y => exact ⟨y, rfl, h⟩

theorem mux_run_append (so : Mux.SinkOps W) (mx : Mux.Muxer M W) (a b : List Mux.Op) : ∀ (c c' c'' : Mux.Context M W)
    (xs ys : List (Except Demux.Err Unit)), c.run so mx a = .ok (xs, c') → c'.run so mx b = .ok (ys, c'') →
    c.run so mx (a ++ b) = .ok (xs ++ ys, c'') := by
  induction a with
  | nil => intro c c' c'' xs ys h1 h2; cases h1; exact h2
  | cons op a ih =>
    intro c c' c'' xs ys h1 h2
    simp only [Mux.Context.run, List.cons_append] at h1 ⊢
    obtain ⟨⟨x, c1⟩, e1, h1⟩ := bind_eq_ok' h1
    obtain ⟨⟨xs', c2⟩, e2, h1⟩ := bind_eq_ok' h1
    cases h1
    simp only [e1, ok_bind, ih c1 _ _ _ _ e2 h2, pure_eq_ok, List.cons_append]

variable {so : Mux.SinkOps W} {mx : Mux.Muxer M W} {cm cm1 cm2 : Mux.Context M W} {x : Except AppErr Unit}

theorem Did.nil (h : ofFormat x = []) : Did so mx cm [] x cm := ⟨0, by rw [h]; rfl⟩

theorem Did.append {a b : List Mux.Op} (h1 : Did so mx cm a (.ok ()) cm1) (h2 : Did so mx cm1 b x cm2) : Did so mx cm (a ++ b) x cm2 := by
  obtain ⟨n, h1⟩ := h1
  obtain ⟨k, h2⟩ := h2
  refine ⟨n + k, (mux_run_append so mx a b _ _ _ _ _ h1 h2).trans ?_⟩
  rw [← List.replicate_append_replicate, List.append_assoc, show ofFormat (.ok ()) = [] from rfl, List.map_nil, List.nil_append, List.append_assoc]

theorem Did.same {a : List Mux.Op} {y : Except AppErr Unit} (h : Did so mx cm a y cm1) (he : ofFormat x = ofFormat y) : Did so mx cm a x cm1 := by
  obtain ⟨n, h⟩ := h
  exact ⟨n, by rw [he]; exact h⟩

/-- `?` on what the muxer returns. -/
def returned : Except Demux.Err Unit → Except AppErr Unit
  | .ok () => .ok ()
  | .error e => .error (.format e)

/-- One call. -/
theorem Did.one {op : Mux.Op} {y : Except Demux.Err Unit} (h : cm.step so mx op = .ok (y, cm1)) :
    Did so mx cm [op] (returned y) cm1 := by
  cases y with
  | ok u => exact ⟨1, by simp only [Mux.Context.run, h, ok_bind]; rfl⟩
  | error e => exact ⟨0, by simp only [Mux.Context.run, h, ok_bind]; rfl⟩

theorem drainPackets_did {ec : Encoder E} (so : Mux.SinkOps W) (Q : Packet → Prop)
    (hQ : ∀ e p e', ec.receivePacket e = .ok (.ok p, e') → Q p) (n : Nat) : ∀ (ce ce' : EncContext E) (cm cm' : Mux.Context M W)
    (x : Except AppErr Unit), drainPackets ec mx n ce cm = .ok (x, ce', cm') →
    ∃ ps : List Packet, Did so mx cm (ps.map .packet) x cm' ∧ ∀ p ∈ ps, Q p := by
  induction n with
  | zero => intro ce ce' cm cm' x h; cases h
  | succ n ih =>
    intro ce ce' cm cm' x h
    simp only [drainPackets] at h
    obtain ⟨⟨y, ce1⟩, h1, h⟩ := bind_eq_ok' h
    cases y with
    | error e =>
      have : cm' = cm ∧ ofFormat x = [] := by
        cases e <;> cases h <;> exact ⟨rfl, rfl⟩
      rw [this.1]
      exact ⟨[], .nil this.2, by simp⟩
    | ok p =>
      have hp : Q p := by
        simp only [EncContext.receivePacket] at h1
        obtain ⟨⟨y, e1⟩, g1, g2⟩ := bind_eq_ok' h1
        cases g2
        exact hQ _ _ _ g1
      obtain ⟨⟨z, cm1⟩, h2, h⟩ := bind_eq_ok' h
      have h3 := Did.one (so := so) (op := .packet p) h2
      cases z with
      | error e => cases h; exact ⟨[p], h3, by simpa using hp⟩
      | ok u =>
        obtain ⟨ps, g1, g2⟩ := ih ce1 ce' cm1 cm' x h
        exact ⟨p :: ps, h3.append g1, by simpa using ⟨hp, g2⟩⟩

theorem encodeSome_did {ec : Encoder E} (so : Mux.SinkOps W) (Q : Packet → Prop)
    (hQ : ∀ e p e', ec.receivePacket e = .ok (.ok p, e') → Q p) (k : Nat) (fs : List Frame) : ∀ (ce ce' : EncContext E)
    (cm cm' : Mux.Context M W) (x : Except AppErr Unit), encodeSome ec mx k fs ce cm = .ok (x, ce', cm') →
    ∃ ps : List Packet, Did so mx cm (ps.map .packet) x cm' ∧ ∀ p ∈ ps, Q p := by
  induction fs with
  | nil => intro ce ce' cm cm' x h; cases h; exact ⟨[], .nil rfl, by simp⟩
  | cons f fs ih =>
    intro ce ce' cm cm' x h
    simp only [encodeSome] at h
    obtain ⟨⟨y, ce1⟩, h1, h⟩ := bind_eq_ok' h
    cases y with
    | error e => cases h; exact ⟨[], .nil rfl, by simp⟩
    | ok u =>
      obtain ⟨⟨z, ce2, cm2⟩, h2, h⟩ := bind_eq_ok' h
      obtain ⟨ps, g1, g2⟩ := drainPackets_did so Q hQ k _ _ _ _ _ h2
      cases z with
      | error e => cases h; exact ⟨ps, g1, g2⟩
      | ok u =>
        obtain ⟨ps', g3, g4⟩ := ih _ _ _ _ _ h
        refine ⟨ps ++ ps', by rw [List.map_append]; exact g1.append g3, fun p hp => ?_⟩
        rcases List.mem_append.1 hp with hp | hp
        · exact g2 p hp
        · exact g4 p hp

theorem drainFrames_codec {dc : Decoder C} (n : Nat) : ∀ (cd cd' : DecContext C) (e : AppErr),
    drainFrames dc n cd = .ok (.error e, cd') → ofFormat (.error e) = [] := by
  induction n with
  | zero => intro cd cd' e h; cases h
  | succ n ih =>
    intro cd cd' e h
    simp only [drainFrames] at h
    obtain ⟨⟨y, cd1⟩, h1, h⟩ := bind_eq_ok' h
    cases y with
    | error e' => cases e' <;> cases h <;> rfl
    | ok f =>
      obtain ⟨⟨z, cd2⟩, h2, h⟩ := bind_eq_ok' h
      cases z with
      | ok fs => cases h
      | error e' => cases h; exact ih _ _ _ h2

theorem tagged_index {ec : Encoder E} {i : Nat} : ∀ e p e', (tagged i ec).receivePacket e = .ok (.ok p, e') → p.stream_index = i := by
  intro e p e' h
  simp only [tagged] at h
  obtain ⟨⟨y, e1⟩, h1, h⟩ := bind_eq_ok' h
  cases y with
  | error x => cases h
  | ok q => cases h; rfl

/-- What a packet of a track of this kind makes. -/
def Makes (i : Nat) (ps : List Packet) (own : List Packet) : Plan → Prop
  | .drop => ps = []
  | .copy => ps = own
  | .code _ => ∀ q ∈ ps, q.stream_index = i

theorem Track.packet_did {dc : Decoder C} {ec : Encoder E} (so : Mux.SinkOps W) {k i : Nat} {tr tr' : Track C E} {p : Packet}
    {cm cm' : Mux.Context M W} (h : tr.packet dc ec mx k i p cm = .ok (x, tr', cm')) :
    tr'.kind = tr.kind ∧ ∃ ps : List Packet, Did so mx cm (ps.map .packet) x cm' ∧ Makes i ps [p] tr.kind := by
  cases tr with
  | drop => cases h; exact ⟨rfl, [], .nil rfl, rfl⟩
  | copy =>
    simp only [Track.packet] at h
    obtain ⟨⟨y, cm1⟩, h1, h⟩ := bind_eq_ok' h
    have h2 := Did.one (so := so) (op := .packet p) h1
    cases y with
    | error e => cases h; exact ⟨rfl, [p], h2, rfl⟩
    | ok u => cases h; exact ⟨rfl, [p], h2, rfl⟩
  | code cd ce =>
    simp only [Track.packet] at h
    obtain ⟨⟨y, cd1⟩, h1, h⟩ := bind_eq_ok' h
    cases y with
    | error e => cases h; exact ⟨rfl, [], .nil rfl, fun q hq => by simp at hq⟩
    | ok u =>
      obtain ⟨⟨z, cd2⟩, h2, h⟩ := bind_eq_ok' h
      cases z with
      | error e => cases h; exact ⟨rfl, [], .nil (drainFrames_codec _ _ _ _ h2), fun q hq => by simp at hq⟩
      | ok fs =>
        obtain ⟨⟨w, ce3, cm3⟩, h3, h⟩ := bind_eq_ok' h
        cases h
        obtain ⟨ps, g1, g2⟩ := encodeSome_did so (fun q => q.stream_index = i) tagged_index k fs _ _ _ _ _ h3
        exact ⟨rfl, ps, g1, g2⟩

theorem Track.finish_did {dc : Decoder C} {ec : Encoder E} (so : Mux.SinkOps W) {k i : Nat} {tr tr' : Track C E}
    {cm cm' : Mux.Context M W} (h : tr.finish dc ec mx k i cm = .ok (x, tr', cm')) :
    tr'.kind = tr.kind ∧ ∃ ps : List Packet, Did so mx cm (ps.map .packet) x cm' ∧ Makes i ps [] tr.kind := by
  cases tr with
  | drop => cases h; exact ⟨rfl, [], .nil rfl, rfl⟩
  | copy => cases h; exact ⟨rfl, [], .nil rfl, rfl⟩
  | code cd ce =>
    simp only [Track.finish] at h
    obtain ⟨⟨y, cd1⟩, h1, h⟩ := bind_eq_ok' h
    cases y with
    | error e => cases h; exact ⟨rfl, [], .nil rfl, fun q hq => by simp at hq⟩
    | ok u =>
      obtain ⟨⟨z, cd2⟩, h2, h⟩ := bind_eq_ok' h
      cases z with
      | error e => cases h; exact ⟨rfl, [], .nil (drainFrames_codec _ _ _ _ h2), fun q hq => by simp at hq⟩
      | ok fs =>
        obtain ⟨⟨w, ce3, cm3⟩, h3, h⟩ := bind_eq_ok' h
        obtain ⟨ps, g1, g2⟩ := encodeSome_did so (fun q => q.stream_index = i) tagged_index k fs _ _ _ _ _ h3
        cases w with
        | error e => cases h; exact ⟨rfl, ps, g1, g2⟩
        | ok u =>
          obtain ⟨⟨v, ce4⟩, h4, h⟩ := bind_eq_ok' h
          cases v with
          | error e => cases h; exact ⟨rfl, ps, g1.same rfl, g2⟩
          | ok u =>
            obtain ⟨⟨v, ce5, cm5⟩, h5, h⟩ := bind_eq_ok' h
            cases h
            obtain ⟨ps', g3, g4⟩ := drainPackets_did so (fun q => q.stream_index = i) tagged_index k _ _ _ _ _ h5
            refine ⟨rfl, ps ++ ps', by rw [List.map_append]; exact g1.append g3, fun p hp => ?_⟩
            rcases List.mem_append.1 hp with hp | hp
            · exact g2 p hp
            · exact g4 p hp

theorem finishTracks_did {dc : Decoder C} {ec : Encoder E} (so : Mux.SinkOps W) {k : Nat} (trs : List (Track C E)) : ∀ (i : Nat)
    (trs' : List (Track C E)) (cm cm' : Mux.Context M W) (x : Except AppErr Unit),
    finishTracks dc ec mx k i trs cm = .ok (x, trs', cm') →
    ∃ ps : List Packet, Did so mx cm (ps.map .packet) x cm' ∧
      ∀ p ∈ ps, ∃ j : Nat, (trs.map Track.kind)[j]? = some (.code "") ∧ p.stream_index = (i + j : Nat) := by
  induction trs with
  | nil => intro i trs' cm cm' x h; cases h; exact ⟨[], .nil rfl, by simp⟩
  | cons tr trs ih =>
    intro i trs' cm cm' x h
    simp only [finishTracks] at h
    obtain ⟨⟨y, tr1, cm1⟩, h1, h⟩ := bind_eq_ok' h
    obtain ⟨_, ps, g1, g2⟩ := Track.finish_did so h1
    have g3 : ∀ p ∈ ps, ∃ j : Nat, ((tr :: trs).map Track.kind)[j]? = some (.code "") ∧ p.stream_index = (i + j : Nat) := by
      intro p hp
      cases tr with
      | drop => simp only [Track.kind, Makes] at g2; subst g2; simp at hp
      | copy => simp only [Track.kind, Makes] at g2; subst g2; simp at hp
      | code cd ce => exact ⟨0, rfl, g2 p hp⟩
    cases y with
    | error e => cases h; exact ⟨ps, g1, g3⟩
    | ok u =>
      obtain ⟨⟨z, trs2, cm2⟩, h2, h⟩ := bind_eq_ok' h
      cases h
      obtain ⟨ps', g4, g5⟩ := ih _ _ _ _ _ h2
      refine ⟨ps ++ ps', by rw [List.map_append]; exact g1.append g4, fun p hp => ?_⟩
      rcases List.mem_append.1 hp with hp | hp
      · exact g3 p hp
      · obtain ⟨j, x1, x2⟩ := g5 p hp
        exact ⟨j + 1, by simpa using x1, by rw [x2, show i + 1 + j = i + (j + 1) by omega]⟩

/-- The packet is of a stream that is copied, or of one that is coded. -/
def Planned (plans : List Plan) (p : Packet) : Prop :=
  isCopied plans p = true ∨ ∃ (i : Nat) (name : String), plans[i]? = some (.code name) ∧ p.stream_index = i

/-- What has been read and written, if the tracks have been opened. -/
def Told (so : Mux.SinkOps W) (mx : Mux.Muxer M W) (dm : Demuxer D R) (bf : Buffered R) (fuel : Nat) (plans : List Plan)
    (c : Context D R) (cm : Mux.Context M W) (x : Except AppErr Unit) (c' : Context D R) (cm' : Mux.Context M W) : Prop :=
  ∃ (evs : List Event) (ex ey : List Demux.Err) (ps : List Packet) (t : List Mux.Op) (n : Nat),
    readEvents dm bf fuel (evs.length + ex.length) c = .ok (evs.map .ok ++ ex.map .error, c') ∧
    cm.run so mx (ps.map .packet ++ t) = .ok (List.replicate n (.ok ()) ++ ey.map .error, cm') ∧
    ex ++ ey = ofFormat x ∧ ps.filter (isCopied plans) = (packets evs).filter (isCopied plans) ∧ (∀ p ∈ ps, Planned plans p) ∧
    (t = [] ∧ x ≠ .ok () ∨ t = [.trailer] ∧ ∃ evs', evs = evs' ++ [.Eof] ∧ .Eof ∉ evs')

theorem coded_not {plans : List Plan} {p : Packet} {i : Nat} {name : String} (h : plans[i]? = some (.code name))
    (hp : p.stream_index = i) : isCopied plans p = false := by
  have : p.stream_index.toNat = i := by omega
  simp only [isCopied, this, h]

theorem Told.step {dm : Demuxer D R} {bf : Buffered R} {fuel : Nat} {plans : List Plan} {c c1 c' : Context D R} {ev : Event}
    {qs : List Packet} (he : ev ≠ .Eof) (h1 : readEvent dm bf fuel c = .ok (.ok ev, c1))
    (h2 : Did so mx cm (qs.map .packet) (.ok ()) cm1)
    (h3 : qs.filter (isCopied plans) = (packets [ev]).filter (isCopied plans)) (h4 : ∀ p ∈ qs, Planned plans p)
    (h : Told so mx dm bf fuel plans c1 cm1 x c' cm2) : Told so mx dm bf fuel plans c cm x c' cm2 := by
  obtain ⟨evs, ex, ey, ps, t, n, a1, a2, a3, a4, a5, a6⟩ := h
  obtain ⟨k, h2⟩ := h2
  refine ⟨ev :: evs, ex, ey, qs ++ ps, t, k + n, ?_, ?_, a3, ?_, fun p hp => ?_, ?_⟩
  · rw [List.length_cons, show evs.length + 1 + ex.length = evs.length + ex.length + 1 by omega]
    simp only [readEvents, h1, ok_bind, a1, pure_eq_ok, List.map_cons, List.cons_append]
  · rw [List.map_append, List.append_assoc, mux_run_append so mx _ _ _ _ _ _ _ h2 a2]
    rw [← List.replicate_append_replicate, List.append_assoc, show ofFormat (.ok ()) = [] from rfl, List.map_nil, List.nil_append, List.append_assoc]
  · rw [List.filter_append, a4, h3, show packets (ev :: evs) = packets [ev] ++ packets evs by
      simp only [packets, ← List.filterMap_append, List.singleton_append], List.filter_append]
  · rcases List.mem_append.1 hp with hp | hp
    · exact h4 p hp
    · exact a5 p hp
  · rcases a6 with h | ⟨h, evs', rfl, h'⟩
    · exact .inl h
    · exact .inr ⟨h, ev :: evs', rfl, by simp [h', Ne.symm he]⟩

theorem told_stop {dm : Demuxer D R} {bf : Buffered R} {fuel : Nat} {plans : List Plan} {c c1 : Context D R} {ev : Event}
    {qs : List Packet} {e : AppErr} (h1 : readEvent dm bf fuel c = .ok (.ok ev, c1))
    (h2 : Did so mx cm (qs.map .packet) (.error e) cm1)
    (h3 : qs.filter (isCopied plans) = (packets [ev]).filter (isCopied plans)) (h4 : ∀ p ∈ qs, Planned plans p) :
    Told so mx dm bf fuel plans c cm (.error e) c1 cm1 := by
  obtain ⟨k, h2⟩ := h2
  refine ⟨[ev], [], _, qs, [], k, ?_, by rw [List.append_nil]; exact h2, rfl, h3, h4, .inl ⟨rfl, nofun⟩⟩
  simp only [List.length_cons, List.length_nil, readEvents, h1, ok_bind, pure_eq_ok, List.map_cons, List.map_nil, List.append_nil]

theorem kind_get {trs : List (Track C E)} {i : Nat} {tr : Track C E} (h : trs[i]? = some tr) : (trs.map Track.kind)[i]? = some tr.kind := by
  rw [List.getElem?_map, h]; rfl

theorem set_kind {trs : List (Track C E)} {i : Nat} {tr tr' : Track C E} (h : trs[i]? = some tr) (hk : tr'.kind = tr.kind) :
    (trs.set i tr').map Track.kind = trs.map Track.kind := by
  rw [List.map_set, hk]
  refine List.ext_getElem? fun j => ?_
  rw [List.getElem?_set]
  split
  · next e =>
    subst e
    rw [if_pos (List.getElem?_eq_some_iff.1 (kind_get h)).1, kind_get h]
  · rfl

theorem makes_planned {plans : List Plan} {p : Packet} {ps : List Packet} {pl : Plan} (h0 : 0 ≤ p.stream_index)
    (hpl : plans[p.stream_index.toNat]? = some pl) (hm : Makes p.stream_index.toNat ps [p] pl) :
    ps.filter (isCopied plans) = (packets [.NewPacket p]).filter (isCopied plans) ∧ ∀ q ∈ ps, Planned plans q := by
  have e : packets [.NewPacket p] = [p] := rfl
  rw [e]
  cases pl with
  | drop =>
    simp only [Makes] at hm
    subst hm
    have : isCopied plans p = false := by simp only [isCopied, hpl]
    exact ⟨by simp [this], by simp⟩
  | copy =>
    simp only [Makes] at hm
    subst hm
    refine ⟨rfl, fun q hq => .inl ?_⟩
    rw [List.mem_singleton.1 hq]
    simp [isCopied, hpl, h0]
  | code name =>
    have hp : isCopied plans p = false := by simp only [isCopied, hpl]
    refine ⟨?_, fun q hq => .inr ⟨_, name, hpl, hm q hq⟩⟩
    rw [show [p].filter (isCopied plans) = [] by simp [hp], List.filter_eq_nil_iff]
    intro q hq
    rw [coded_not hpl (hm q hq)]
    simp

theorem convertAll_told {dc : Decoder C} {dm : Demuxer D R} {bf : Buffered R} {fuel k : Nat} {ec : Encoder E} (n : Nat) :
    ∀ (trs trs' : List (Track C E)) (c c' : Context D R) (cm cm' : Mux.Context M W) (x : Except AppErr Unit),
    convertAll dc dm bf fuel k ec so mx n trs c cm = .ok (x, trs', c', cm') →
    Told so mx dm bf fuel (trs.map Track.kind) c cm x c' cm' := by
  induction n with
  | zero => intro trs trs' c c' cm cm' x h; cases h
  | succ n ih =>
    intro trs trs' c c' cm cm' x h
    simp only [convertAll] at h
    obtain ⟨⟨y, c1⟩, h1, h⟩ := bind_eq_ok' h
    have other : ∀ ev : Event, ev ≠ .Eof → packets [ev] = [] → readEvent dm bf fuel c = .ok (.ok ev, c1) →
        convertAll dc dm bf fuel k ec so mx n trs c1 cm = .ok (x, trs', c', cm') →
        Told so mx dm bf fuel (trs.map Track.kind) c cm x c' cm' := by
      intro ev he hp h1 h
      exact Told.step he h1 (qs := []) (Did.nil (x := .ok ()) rfl) (by rw [hp]) (by simp)
        (ih _ _ _ _ _ _ _ h)
    cases y with
    | error e =>
      cases h
      refine ⟨[], [e], [], [], [], 0, ?_, rfl, rfl, rfl, by simp, .inl ⟨rfl, nofun⟩⟩
      simp only [List.length_cons, List.length_nil, readEvents, h1, ok_bind, pure_eq_ok, List.map_cons, List.map_nil, List.nil_append]
    | ok ev =>
      cases ev with
      | NewPacket p =>
        simp only at h
        split at h
        · next hn =>
          refine Told.step (fun h => by cases h) h1 (qs := []) (Did.nil (x := .ok ()) rfl) ?_ (by simp)
            (ih _ _ _ _ _ _ _ h)
          have : isCopied (trs.map Track.kind) p = false := by
            by_cases h0 : p.stream_index < 0
            · unfold isCopied
              split
              · simp; omega
              · rfl
            · rw [if_neg h0] at hn
              simp only [isCopied, List.getElem?_map, hn, Option.map_none]
          simp [packets, this]
        · next tr htr =>
          by_cases h0 : p.stream_index < 0
          · rw [if_pos h0] at htr; cases htr
          rw [if_neg h0] at htr
          obtain ⟨⟨z, tr1, cm1⟩, h2, h⟩ := bind_eq_ok' h
          obtain ⟨g1, ps, g2, g3⟩ := Track.packet_did so h2
          obtain ⟨g4, g5⟩ := makes_planned (by omega) (kind_get htr) g3
          cases z with
          | error e => cases h; exact told_stop h1 g2 g4 g5
          | ok u =>
            have := ih _ _ _ _ _ _ _ h
            rw [set_kind htr g1] at this
            exact Told.step (fun h => by cases h) h1 g2 g4 g5 this
      | Eof =>
        obtain ⟨⟨z, trs1, cm1⟩, h2, h⟩ := bind_eq_ok' h
        obtain ⟨ps, g1, g2⟩ := finishTracks_did so trs 0 _ _ _ _ h2
        simp only [Nat.zero_add] at g2
        have g3 : ps.filter (isCopied (trs.map Track.kind)) = (packets [.Eof]).filter (isCopied (trs.map Track.kind)) := by
          rw [show (packets [.Eof]).filter (isCopied (trs.map Track.kind)) = [] from rfl, List.filter_eq_nil_iff]
          intro q hq
          obtain ⟨j, x1, x2⟩ := g2 q hq
          rw [coded_not x1 x2]
          simp
        have g4 : ∀ p ∈ ps, Planned (trs.map Track.kind) p := fun p hp => by
          obtain ⟨j, x1, x2⟩ := g2 p hp
          exact .inr ⟨j, "", x1, x2⟩
        cases z with
        | error e => cases h; exact told_stop h1 g1 g3 g4
        | ok u =>
          obtain ⟨⟨w, cm2⟩, h3, h⟩ := bind_eq_ok' h
          have h4 := Did.one (so := so) (op := .trailer) h3
          have hx : ofFormat x = ofFormat (returned w) ∧ c' = c1 ∧ cm' = cm2 := by
            cases w <;> cases h <;> exact ⟨rfl, rfl, rfl⟩
          obtain ⟨hx, rfl, rfl⟩ := hx
          obtain ⟨n, h5⟩ := g1.append h4
          refine ⟨[.Eof], [], ofFormat x, ps, [.trailer], n, ?_, by rw [hx]; exact h5, rfl, g3, g4, .inr ⟨rfl, [], rfl, by simp⟩⟩
          simp only [List.length_cons, List.length_nil, readEvents, h1, ok_bind, pure_eq_ok, List.map_cons, List.map_nil, List.append_nil]
      | NewStream s => exact other _ (fun h => by cases h) rfl h1 h
      | MoreDataNeeded k => exact other _ (fun h => by cases h) rfl h1 h
      | Continue => exact other _ (fun h => by cases h) rfl h1 h

/-- The tracks are of these kinds, or there is an error of a codec. -/
def OpenedAs (kinds : List Plan) : Except AppErr (List (Track C E)) → Prop
  | .ok trs => trs.map Track.kind = kinds
  | .error e => ∃ e', e = .codec e'

theorem openTracks_kind {dc : Decoder C} {dreg : Codecs C} {ereg : Codecs E} (plans : List Plan) : ∀ (sts : List Stream)
    (y : Except AppErr (List (Track C E))), openTracks dc dreg ereg plans sts = .ok y →
    OpenedAs ((plans.take sts.length).map Plan.kind) y := by
  induction plans with
  | nil => intro sts y h; cases h; simp [OpenedAs]
  | cons pl plans ih =>
    intro sts y h
    cases sts with
    | nil => cases pl <;> cases h <;> rfl
    | cons st sts =>
      cases pl with
      | drop =>
        simp only [openTracks] at h
        obtain ⟨z, h1, h⟩ := bind_eq_ok' h
        have := ih _ _ h1
        cases z <;> cases h
        · exact this
        · simpa [OpenedAs, Track.kind, Plan.kind] using this
      | copy =>
        simp only [openTracks] at h
        obtain ⟨z, h1, h⟩ := bind_eq_ok' h
        have := ih _ _ h1
        cases z <;> cases h
        · exact this
        · simpa [OpenedAs, Track.kind, Plan.kind] using this
      | code name =>
        simp only [openTracks] at h
        obtain ⟨d, h1, h⟩ := bind_eq_ok' h
        cases d with
        | none => cases h; exact ⟨_, rfl⟩
        | some cd =>
          have rest : ∀ cd1 : DecContext C, (do
              match ← cd1.configure dc with
              | (.error e, _) => return .error (.codec e)
              | (.ok (), cd) =>
                match ← EncContext.byName ereg name with
                | none => return .error (.codec (.Unsupported name))
                | some ce =>
                  match ← openTracks dc dreg ereg plans sts with
                  | .ok trs => return .ok (.code cd ce :: trs)
                  | .error e => return .error e : Rust (Except AppErr (List (Track C E)))) = .ok y →
              OpenedAs (((Plan.code name :: plans).take (st :: sts).length).map Plan.kind) y := by
            intro cd1 h
            obtain ⟨⟨u, cd2⟩, h3, h⟩ := bind_eq_ok' h
            cases u with
            | error e => cases h; exact ⟨_, rfl⟩
            | ok u =>
              obtain ⟨e, h4, h⟩ := bind_eq_ok' h
              cases e with
              | none => cases h; exact ⟨_, rfl⟩
              | some ce =>
                obtain ⟨z, h5, h⟩ := bind_eq_ok' h
                have := ih _ _ h5
                cases z <;> cases h
                · exact this
                · simpa [OpenedAs, Track.kind, Plan.kind] using this
          simp only at h
          split at h
          · obtain ⟨cd1, h2, h⟩ := bind_eq_ok' h
            exact rest cd1 h
          · exact rest cd h

theorem kind_copied (plans : List Plan) (p : Packet) : isCopied (plans.map Plan.kind) p = isCopied plans p := by
  simp only [isCopied, List.getElem?_map]
  cases plans[p.stream_index.toNat]? with
  | none => rfl
  | some pl => cases pl <;> rfl

theorem kind_planned {plans : List Plan} {p : Packet} (h : Planned (plans.map Plan.kind) p) : Planned plans p := by
  rcases h with h | ⟨i, name, h1, h2⟩
  · exact .inl (kind_copied plans p ▸ h)
  · refine .inr ⟨i, ?_⟩
    rw [List.getElem?_map] at h1
    cases h3 : plans[i]? with
    | none => rw [h3] at h1; cases h1
    | some pl =>
      rw [h3] at h1
      cases pl with
      | drop => cases h1
      | copy => cases h1
      | code name' => exact ⟨name', rfl, h2⟩

/-- **C181** Whatever codecs, demuxer, muxer, reader and writer do: if `convertFile` returns, either it returns an error and has
written nothing, and the error is that of `read_headers`, or one of the codecs, or that of `write_header`; or the header has been
written without error, and then some events `evs` have been read, and some packets `ps` written. At most one of all these calls has
failed, the last of the demuxer or of the muxer, and its error is returned; if all have succeeded, what is returned is no error, or
one of the codecs. No packet of a copied stream has been passed over, changed or moved, and every other packet is of a stream that is
to be transcoded. The trailer has been written just when there was `Eof`, the first, and all tracks could be finished; and without it
there is always an error. -/
theorem c181_told {dc : Decoder C} {dreg : Codecs C} {dm : Demuxer D R} {bf : Buffered R} {fuel k : Nat} {ec : Encoder E}
    {ereg : Codecs E} {n : Nat} {plans : List Plan} {c c' : Context D R} {cm cm' : Mux.Context M W} {trs : List (Track C E)}
    (h : convertFile dc dreg dm bf fuel k ec ereg so mx n plans c cm = .ok (x, trs, c', cm')) :
    (cm' = cm ∧ ((∃ e, readHeaders dm bf fuel c = .ok (.error e, c') ∧ x = .error (.format e)) ∨
      readHeaders dm bf fuel c = .ok (.ok (), c') ∧ ∃ e, x = .error (.codec e))) ∨
    ∃ c1, readHeaders dm bf fuel c = .ok (.ok (), c1) ∧
      ((∃ e, cm.writeHeader mx = .ok (.error e, cm') ∧ c' = c1 ∧ x = .error (.format e)) ∨
      ∃ cm1, cm.writeHeader mx = .ok (.ok (), cm1) ∧
      ∃ (evs : List Event) (ex ey : List Demux.Err) (ps : List Packet) (t : List Mux.Op) (n : Nat),
        readEvents dm bf fuel (evs.length + ex.length) c1 = .ok (evs.map .ok ++ ex.map .error, c') ∧
        cm1.run so mx (ps.map .packet ++ t) = .ok (List.replicate n (.ok ()) ++ ey.map .error, cm') ∧
        ex ++ ey = ofFormat x ∧
        ps.filter (isCopied (plans.take c1.info.streams.length)) = (packets evs).filter (isCopied (plans.take c1.info.streams.length)) ∧
        (∀ p ∈ ps, Planned (plans.take c1.info.streams.length) p) ∧
        (t = [] ∧ x ≠ .ok () ∨ t = [.trailer] ∧ ∃ evs', evs = evs' ++ [.Eof] ∧ .Eof ∉ evs')) := by
  simp only [convertFile] at h
  obtain ⟨⟨y, c1⟩, h1, h⟩ := bind_eq_ok' h
  cases y with
  | error e => cases h; exact .inl ⟨rfl, .inl ⟨e, h1, rfl⟩⟩
  | ok u =>
    obtain ⟨z, h2, h⟩ := bind_eq_ok' h
    have hk := openTracks_kind _ _ _ h2
    cases z with
    | error e =>
      obtain ⟨e', rfl⟩ := hk
      cases h
      exact .inl ⟨rfl, .inr ⟨h1, e', rfl⟩⟩
    | ok trs1 =>
      refine .inr ⟨c1, h1, ?_⟩
      obtain ⟨⟨w, cm1⟩, h3, h⟩ := bind_eq_ok' h
      cases w with
      | error e => cases h; exact .inl ⟨e, h3, rfl, rfl⟩
      | ok u =>
        refine .inr ⟨cm1, h3, ?_⟩
        obtain ⟨evs, ex, ey, ps, t, n, a1, a2, a3, a4, a5, a6⟩ := convertAll_told n _ _ _ _ _ _ _ h
        have hk : trs1.map Track.kind = (plans.take c1.info.streams.length).map Plan.kind := hk
        rw [hk] at a4 a5
        have hf : isCopied ((plans.take c1.info.streams.length).map Plan.kind) = isCopied (plans.take c1.info.streams.length) :=
          funext (kind_copied _)
        rw [hf] at a4
        exact ⟨evs, ex, ey, ps, t, n, a1, a2, a3, a4, fun p hp => kind_planned (a5 p hp), a6⟩

theorem mux_run_length (so : Mux.SinkOps W) (mx : Mux.Muxer M W) (ops : List Mux.Op) : ∀ (c c' : Mux.Context M W)
    (ys : List (Except Demux.Err Unit)), c.run so mx ops = .ok (ys, c') → ys.length = ops.length := by
  induction ops with
  | nil => intro c c' ys h; cases h; rfl
  | cons op ops ih =>
    intro c c' ys h
    simp only [Mux.Context.run] at h
    obtain ⟨⟨x, c1⟩, _, h⟩ := bind_eq_ok' h
    obtain ⟨⟨xs, c2⟩, h2, h⟩ := bind_eq_ok' h
    cases h
    simp [ih _ _ _ h2]

/-- **C181** If it returns no error, whatever codecs, demuxer, muxer, reader and writer do, no call of the demuxer or muxer has
failed: headers and all events have been read up to the first `Eof`, and a header, packets and the trailer written; all packets of
copied streams are among them in the order in which they were read, and the others are of streams that are to be transcoded. -/
theorem c181_whole {dc : Decoder C} {dreg : Codecs C} {dm : Demuxer D R} {bf : Buffered R} {fuel k : Nat} {ec : Encoder E}
    {ereg : Codecs E} {n : Nat} {plans : List Plan} {c c' : Context D R} {cm cm' : Mux.Context M W} {trs : List (Track C E)}
    (h : convertFile dc dreg dm bf fuel k ec ereg so mx n plans c cm = .ok (.ok (), trs, c', cm')) :
    ∃ (c1 : Context D R) (evs : List Event) (ps : List Packet), readHeaders dm bf fuel c = .ok (.ok (), c1) ∧ .Eof ∉ evs ∧
      readEvents dm bf fuel (evs.length + 1) c1 = .ok ((evs ++ [Event.Eof]).map Except.ok, c') ∧
      cm.run so mx (.header :: ps.map .packet ++ [.trailer]) = .ok (List.replicate (ps.length + 2) (.ok ()), cm') ∧
      ps.filter (isCopied (plans.take c1.info.streams.length)) = (packets evs).filter (isCopied (plans.take c1.info.streams.length)) ∧
      ∀ p ∈ ps, Planned (plans.take c1.info.streams.length) p := by
  rcases c181_told h with ⟨_, ⟨e, _, h⟩ | ⟨_, e, h⟩⟩ | ⟨c1, h1, ⟨e, _, _, h⟩ | ⟨cm1, h2, evs, ex, ey, ps, t, n, a1, a2, a3, a4, a5, a6⟩⟩
  · cases h
  · cases h
  · cases h
  · rcases a6 with ⟨_, h⟩ | ⟨rfl, evs', rfl, h3⟩
    · exact absurd rfl h
    · obtain ⟨rfl, rfl⟩ : ex = [] ∧ ey = [] := List.append_eq_nil_iff.1 a3
      have hl := mux_run_length so mx _ _ _ _ a2
      simp only [List.map_nil, List.append_nil, List.length_replicate, List.length_append, List.length_map, List.length_cons,
        List.length_nil, Nat.add_zero, Nat.zero_add] at a1 a2 hl
      subst hl
      refine ⟨c1, evs', ps, h1, h3, a1, ?_, ?_, a5⟩
      · simp only [List.cons_append, Mux.Context.run, Mux.Context.step, h2, ok_bind, a2, pure_eq_ok]
        rfl
      · rw [a4, show packets (evs' ++ [.Eof]) = packets evs' by simp [packets]]

/-! ### examples -/

/-- The kind of error, 0 for none, and what is in the file, for a file that is read and a writer. -/
def twoFailing (file : List U8) (script : Nat → Act) (plans : List Plan) : Option (Nat × List U8 × Nat) :=
  match convertFile twoDecoder (Codecs.fromList twoDecoders) twoFormat.demuxer accBuffered 40 9 twoEncoder (Codecs.fromList twoEncoders)
      Mux.sinkOps (Mux.bytesMuxer 40 avHdr twoPkt avTrl) 9 plans
      (Context.new () (Acc.withCapacity 1 ⟨file, 0, sampleActs, 0⟩))
      (Mux.Context.new 0 (Mux.Writer.new ⟨[], 0, script, 0, 0⟩)) with
  | .ok (.ok (), _, _, o) => some (0, o.intoWriter.writer.data, o.intoWriter.writer.flushes)
  | .ok (.error (.codec _), _, _, o) => some (1, o.intoWriter.writer.data, o.intoWriter.writer.flushes)
  | .ok (.error (.format _), _, _, o) => some (2, o.intoWriter.writer.data, o.intoWriter.writer.flushes)
  | .error _ => none

/-- A writer that fails within the second packet, or within the header; a codec that is missing; a file cut off within a packet,
which this format takes for its end. -/
example : twoFailing twoFile (fun k => ⟨if k < 6 then none else some (.other 5), 1⟩) [.copy, .code "pair"] =
      some (2, [65, 86, 1, 0, 9, 1], 0) ∧
    twoFailing twoFile (fun k => ⟨if k < 1 then none else some (.other 5), 1⟩) [.copy, .code "pair"] = some (2, [65], 0) ∧
    twoFailing twoFile (fun _ => ⟨none, 1⟩) [.copy, .code "none"] = some (1, [], 0) ∧
    twoFailing (twoFile.take 13) (fun _ => ⟨none, 1⟩) [.copy, .code "pair"] =
      some (0, [65, 86, 1, 0, 9, 1, 0, 7, 2, 1, 8, 8, 0], 1) := by
  refine ⟨?_, ?_, ?_, ?_⟩ <;> decide +kernel

/-- Packets that may be written for a plan, and one that may not. -/
example : Planned [.copy, .code "pair"] { Packet.new with data := [9], stream_index := 0 } ∧
    Planned [.copy, .code "pair"] { Packet.new with data := [8, 8], stream_index := 1 } ∧
    ¬ Planned [.copy, .drop] { Packet.new with data := [8, 8], stream_index := 1 } := by
  refine ⟨.inl rfl, .inr ⟨1, "pair", rfl, rfl⟩, ?_⟩
  rintro (h | ⟨i, name, h1, h2⟩)
  · cases h
  · match i, h1, h2 with
    | 0, h1, _ => cases h1
    | 1, h1, _ => cases h1

end Verif.RoundTrip
