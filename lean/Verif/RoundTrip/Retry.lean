import Verif.RoundTrip.Streams
import Verif.Demux.Panics

/-!
# Property C165: players of any bytes, and players that try again

What happens when an application plays a file that is not what it should be, or reads it through a reader that fails now
and then.
-/

namespace Verif.RoundTrip
open Verif Verif.Io Verif.Frame Verif.Stream Verif.Packet Verif.Demux Verif.Codec

variable {D R C : Type}

/-! ### the applications -/

/-- The headers are read, decoders for the streams opened and the file played. -/
def playFile (dc : Decoder C) (reg : Codecs C) (dm : Demuxer D R) (bf : Buffered R) (fuel k n : Nat) (c : Context D R) :
    Rust (Except AppErr (List (Nat × Frame)) × List (DecContext C) × Context D R) := do
  match ← readHeaders dm bf fuel c with
  | (.error e, c) => .ok (.error (.format e), [], c)
  | (.ok (), c) =>
    match ← openDecoders dc reg c.info.streams with
    | .error e => .ok (.error e, [], c)
    | .ok cds => playAll dc dm bf fuel k n cds c

/-- `loop { match demuxer.read_headers() { Err(Error::Io(_)) => continue, x => return x } }` -/
def headersRetry (dm : Demuxer D R) (bf : Buffered R) (fuel : Nat) : Nat → Context D R →
    Rust (Except Demux.Err Unit × Context D R)
  | 0, _ => .error .fuel
  | m + 1, c => do
    match ← readHeaders dm bf fuel c with
    | (.error (.Io _), c) => headersRetry dm bf fuel m c
    | (x, c) => .ok (x, c)

/-- `playAll` that calls `read_event` again if it fails with `Error::Io`. -/
def playRetry (dc : Decoder C) (dm : Demuxer D R) (bf : Buffered R) (fuel k : Nat) : Nat → List (DecContext C) →
    Context D R → Rust (Except AppErr (List (Nat × Frame)) × List (DecContext C) × Context D R)
  | 0, _, _ => .error .fuel
  | m + 1, cds, c => do
    match ← readEvent dm bf fuel c with
    | (.error (.Io _), c) => playRetry dc dm bf fuel k m cds c
    | (.error e, c) => .ok (.error (.format e), cds, c)
    | (.ok (.NewPacket p), c) =>
      match if p.stream_index < 0 then none else cds[p.stream_index.toNat]? with
      | none => playRetry dc dm bf fuel k m cds c
      | some cd =>
        match ← cd.sendPacket dc p with
        | (.error e, cd) => .ok (.error (.codec e), cds.set p.stream_index.toNat cd, c)
        | (.ok (), cd) =>
          match ← drainFrames dc k cd with
          | (.error e, cd) => .ok (.error e, cds.set p.stream_index.toNat cd, c)
          | (.ok fs, cd) =>
            match ← playRetry dc dm bf fuel k m (cds.set p.stream_index.toNat cd) c with
            | (.ok gs, r) => .ok (.ok (fs.map (fun f => (p.stream_index.toNat, f)) ++ gs), r)
            | (.error e, r) => .ok (.error e, r)
    | (.ok .Eof, c) =>
      match ← flushDecoders dc k 0 cds with
      | (x, cds) => .ok (x, cds, c)
    | (.ok _, c) => playRetry dc dm bf fuel k m cds c

def playFileRetry (dc : Decoder C) (reg : Codecs C) (dm : Demuxer D R) (bf : Buffered R) (fuel k m : Nat) (c : Context D R) :
    Rust (Except AppErr (List (Nat × Frame)) × List (DecContext C) × Context D R) := do
  match ← headersRetry dm bf fuel m c with
  | (.error e, c) => .ok (.error (.format e), [], c)
  | (.ok (), c) =>
    match ← openDecoders dc reg c.info.streams with
    | .error e => .ok (.error e, [], c)
    | .ok cds => playRetry dc dm bf fuel k m cds c

/-! ### specification -/

/-- A decoder whose methods never panic. -/
structure Calm (dc : Decoder C) : Prop where
  extradata : ∀ d l p, dc.setExtradata d l ≠ .error p
  send : ∀ d q p, dc.sendPacket d q ≠ .error p
  receive : ∀ d p, dc.receiveFrame d ≠ .error p
  configure : ∀ d p, dc.configure d ≠ .error p
  flush : ∀ d p, dc.flush d ≠ .error p

/-- The same outcome, demuxer, streams and position in the file. -/
inductive Alike : Rust (Except AppErr (List (Nat × Frame)) × List (DecContext C) × Context D Acc.Acc) →
    Rust (Except AppErr (List (Nat × Frame)) × List (DecContext C) × Context D Acc.Acc) → Prop
  | ok {x cds c c'} : c'.demuxer = c.demuxer → c'.info = c.info → c'.reader.index = c.reader.index →
      Alike (.ok (x, cds, c)) (.ok (x, cds, c'))
  | panic {p} : Alike (.error p) (.error p)

/-! ### nothing panics by itself -/

theorem rust_ok {x : Rust A} (h : ∀ p, x ≠ .error p) : ∃ v, x = .ok v := by
  cases x with
  | error p => exact absurd rfl (h p)
  | ok v => exact ⟨v, rfl⟩

section
variable {hd : D → GlobalInfo → List U8 → Except Demux.Err SeekFrom × D × GlobalInfo}
  {ev : D → List U8 → Except Demux.Err (SeekFrom × Event) × D}

theorem window_event {dat : List U8} {c : Context D Acc.Acc} (hi : Acc.Inv dat c.reader) :
    (windowDemuxer hd ev).readEvent c.demuxer c.reader =
      .ok ((ev c.demuxer (Acc.win c.reader)).1, (ev c.demuxer (Acc.win c.reader)).2, c.reader) := by
  simp only [windowDemuxer, Acc.data_ok hi, ok_bind, pure_eq_ok]

theorem window_headers {dat : List U8} {r : Acc.Acc} (d : D) (i : GlobalInfo) (hi : Acc.Inv dat r) :
    (windowDemuxer hd ev).readHeaders d r i =
      .ok ((hd d i (Acc.win r)).1, (hd d i (Acc.win r)).2.1, r, (hd d i (Acc.win r)).2.2) := by
  simp only [windowDemuxer, Acc.data_ok hi, ok_bind, pure_eq_ok]

theorem window_unbroken {dat : List U8} {c : Context D Acc.Acc} (hi : Acc.Inv dat c.reader) (p : Panic) :
    ¬ Breaks (windowDemuxer hd ev) accBuffered c p := by
  have hw : UsesApi (windowDemuxer hd ev) := windowDemuxer_api ..
  intro h
  cases h with
  | demuxer h1 => rw [window_event hi] at h1; cases h1
  | @seek sk _ _ _ h1 h2 =>
    rw [window_event hi] at h1
    injection h1 with h1
    injection h1 with _ h1
    injection h1 with _ h1
    subst h1
    obtain ⟨x, r', s1, -⟩ := Acc.seek_spec hi sk
    rw [show accBuffered.seek = Acc.seek from rfl, s1] at h2; cases h2
  | data h1 h2 =>
    rw [show accBuffered.data = Acc.data from rfl, Acc.data_ok (h1.inv hw hi)] at h2; cases h2
  | grow h1 h2 h3 h4 => cases h4
  | fill h1 h2 h3 h4 h5 =>
    cases h4
    obtain ⟨x, r, f, -⟩ := Acc.fillBuf_spec (Acc.grow_inv (h1.inv hw hi) _).1
    rw [show accBuffered.fillBuf = Acc.fillBuf from rfl, f] at h5; cases h5
  | filled h1 h2 h3 h4 h5 h6 =>
    cases h4
    obtain ⟨x, r, f, f2⟩ := Acc.fillBuf_spec (Acc.grow_inv (h1.inv hw hi) _).1
    rw [show accBuffered.fillBuf = Acc.fillBuf from rfl, f] at h5; cases h5
    rw [show accBuffered.data = Acc.data from rfl, Acc.data_ok f2.inv] at h6; cases h6

theorem window_hunbroken {dat : List U8} {c : Context D Acc.Acc} (hi : Acc.Inv dat c.reader) (p : Panic) :
    ¬ HBreaks (windowDemuxer hd ev) accBuffered c p := by
  obtain ⟨x, r, f, f2⟩ := Acc.fillBuf_spec hi
  intro h
  cases h with
  | fill h1 => rw [show accBuffered.fillBuf = Acc.fillBuf from rfl, f] at h1; cases h1
  | demuxer h1 h2 =>
    rw [show accBuffered.fillBuf = Acc.fillBuf from rfl, f] at h1; cases h1
    rw [window_headers _ _ f2.inv] at h2; cases h2
  | @seek _ _ sk _ _ _ h1 h2 h3 =>
    rw [show accBuffered.fillBuf = Acc.fillBuf from rfl, f] at h1; cases h1
    rw [window_headers _ _ f2.inv] at h2
    injection h2 with h2
    injection h2 with _ h2
    injection h2 with _ h2
    injection h2 with h2 _
    subst h2
    obtain ⟨x, r', s1, -⟩ := Acc.seek_spec f2.inv sk
    rw [show accBuffered.seek = Acc.seek from rfl, s1] at h3; cases h3
  | grow h1 h2 h3 => cases h3

theorem window_readEvent {dat : List U8} {c : Context D Acc.Acc} (hi : Acc.Inv dat c.reader) (fuel : Nat) :
    readEvent (windowDemuxer hd ev) accBuffered fuel c = .error .fuel ∨
    ∃ x c', readEvent (windowDemuxer hd ev) accBuffered fuel c = .ok (x, c') ∧ Acc.Inv dat c'.reader := by
  have hw : UsesApi (windowDemuxer hd ev) := windowDemuxer_api ..
  cases h : readEvent (windowDemuxer hd ev) accBuffered fuel c with
  | error p =>
    by_cases hp : p = .fuel
    · exact .inl (by rw [hp])
    · obtain ⟨c0, h1, h2⟩ := readEvent_panics fuel hp h
      exact absurd h2 (window_unbroken (h1.inv hw hi) p)
  | ok v =>
    obtain ⟨x, c'⟩ := v
    refine .inr ⟨x, c', rfl, ?_⟩
    obtain ⟨c0, h1, h2⟩ := readEvent_spec fuel h
    have hi0 := h1.inv hw hi
    have seek : ∀ {sk y d r r'}, (windowDemuxer hd ev).readEvent c0.demuxer c0.reader = .ok (.ok (sk, y), d, r) →
        ∀ {z}, accBuffered.seek r sk = .ok (z, r') → Acc.Inv dat r' := by
      intro sk y d r r' h3 z h4
      rw [window_event hi0] at h3
      injection h3 with h3
      injection h3 with _ h3
      injection h3 with _ h3
      subst h3
      obtain ⟨x, r', s1, s2⟩ := Acc.seek_spec hi0 sk
      rw [show accBuffered.seek = Acc.seek from rfl, s1] at h4
      cases h4; exact s2.inv
    rcases h2 with h2 | h2
    · cases h2 with
      | error h3 h4 =>
        rw [window_event hi0] at h3
        injection h3 with h3
        injection h3 with _ h3
        injection h3 with _ h3
        subst h3; exact hi0
      | seekError h3 h4 => exact seek h3 h4
      | event h3 h4 h5 => exact seek h3 h4
    · cases h2 with
      | readError h3 h4 h5 h6 => exact (fill_grown (h3.inv hw hi0) h6).1.inv
      | eof h3 h4 h5 h6 h7 h8 => exact (fill_grown (h3.inv hw hi0) h6).1.inv

theorem window_readHeaders {dat : List U8} {c : Context D Acc.Acc} (hi : Acc.Inv dat c.reader) (fuel : Nat) :
    readHeaders (windowDemuxer hd ev) accBuffered fuel c = .error .fuel ∨
    ∃ x c', readHeaders (windowDemuxer hd ev) accBuffered fuel c = .ok (x, c') ∧ Acc.Inv dat c'.reader := by
  have hw : UsesApi (windowDemuxer hd ev) := windowDemuxer_api ..
  cases h : readHeaders (windowDemuxer hd ev) accBuffered fuel c with
  | error p =>
    by_cases hp : p = .fuel
    · exact .inl (by rw [hp])
    · obtain ⟨c0, h1, h2⟩ := readHeaders_panics fuel hp h
      exact absurd h2 (window_hunbroken (h1.inv hw hi) p)
  | ok v =>
    obtain ⟨x, c'⟩ := v
    refine .inr ⟨x, c', rfl, ?_⟩
    obtain ⟨c0, h1, h2⟩ := readHeaders_spec fuel h
    have hi0 := h1.inv hw hi
    obtain ⟨x, r, f, f2⟩ := Acc.fillBuf_spec hi0
    cases h2 with
    | readError h3 =>
      rw [show accBuffered.fillBuf = Acc.fillBuf from rfl, f] at h3; cases h3
      exact f2.inv
    | error h3 h4 h5 =>
      rw [show accBuffered.fillBuf = Acc.fillBuf from rfl, f] at h3; cases h3
      rw [window_headers _ _ f2.inv] at h4
      injection h4 with h4
      injection h4 with _ h4
      injection h4 with _ h4
      injection h4 with h4 _
      subst h4; exact f2.inv
    | @accepted _ _ _ _ _ sk _ _ h3 h4 h5 =>
      rw [show accBuffered.fillBuf = Acc.fillBuf from rfl, f] at h3; cases h3
      rw [window_headers _ _ f2.inv] at h4
      injection h4 with h4
      injection h4 with _ h4
      injection h4 with _ h4
      injection h4 with h4 _
      subst h4
      obtain ⟨x, r', s1, s2⟩ := Acc.seek_spec f2.inv sk
      rw [show accBuffered.seek = Acc.seek from rfl, s1] at h5
      cases h5; exact s2.inv
end

/-- Returns, or has not returned yet. -/
def Quiet (x : Rust A) : Prop := ∀ p, x = .error p → p = .fuel

theorem Quiet.ok (v : A) : Quiet (.ok v : Rust A) := fun _ h => nomatch h

theorem Quiet.bind {x : Rust A} {f : A → Rust B} (h : Quiet x) (g : ∀ v, x = .ok v → Quiet (f v)) : Quiet (x >>= f) := by
  cases x with
  | error p => intro q hq; cases hq; exact h _ rfl
  | ok v => exact g v rfl

theorem Calm.drain {dc : Decoder C} (h : Calm dc) (k : Nat) : ∀ cd, Quiet (drainFrames dc k cd) := by
  induction k with
  | zero => intro cd p hp; cases hp; rfl
  | succ k ih =>
    intro cd
    obtain ⟨⟨x, d⟩, hv⟩ := rust_ok (h.receive cd.dec)
    simp only [drainFrames, DecContext.receiveFrame, hv, ok_bind, pure_eq_ok]
    cases x with
    | ok f =>
      refine (ih _).bind ?_
      rintro ⟨x, cd⟩ -
      cases x <;> exact .ok _
    | error e => cases e <;> exact .ok _

theorem Calm.flushAll {dc : Decoder C} (h : Calm dc) (k : Nat) (cds : List (DecContext C)) : ∀ i,
    Quiet (flushDecoders dc k i cds) := by
  induction cds with
  | nil => exact fun i => .ok _
  | cons cd cds ih =>
    intro i
    obtain ⟨⟨x, d⟩, hv⟩ := rust_ok (h.flush cd.dec)
    simp only [flushDecoders, DecContext.flush, hv, ok_bind, pure_eq_ok]
    cases x with
    | error e => exact .ok _
    | ok _ =>
      refine (h.drain k _).bind ?_
      rintro ⟨x, cd⟩ -
      cases x with
      | error e => exact .ok _
      | ok fs =>
        refine (ih _).bind ?_
        rintro ⟨x, cds⟩ -
        cases x <;> exact .ok _

theorem Calm.opens {dc : Decoder C} (h : Calm dc) (dds : List (Codec.Descriptor C)) (sts : List Stream) :
    Quiet (openDecoders dc (Codecs.fromList dds) sts) := by
  induction sts with
  | nil => exact .ok _
  | cons st sts ih =>
    obtain ⟨v, hv, -⟩ := c42_decoder dc dds (st.params.codec_id.getD "")
    simp only [openDecoders, hv, ok_bind, pure_eq_ok]
    cases v with
    | none => exact .ok _
    | some cd =>
      have rest : ∀ cd : DecContext C, Quiet (do
          match ← cd.configure dc with
          | (.error e, _) => (.ok (.error (.codec e)) : Rust (Except AppErr (List (DecContext C))))
          | (.ok (), cd) =>
            match ← openDecoders dc (Codecs.fromList dds) sts with
            | .ok cds => .ok (.ok (cd :: cds))
            | .error e => .ok (.error e)) := by
        intro cd
        obtain ⟨⟨x, d⟩, hx⟩ := rust_ok (h.configure cd.dec)
        simp only [DecContext.configure, hx, ok_bind, pure_eq_ok]
        cases x with
        | error e => exact .ok _
        | ok _ =>
          refine ih.bind ?_
          intro x _
          cases x <;> exact .ok _
      cases st.params.extradata with
      | none => exact rest cd
      | some l =>
        obtain ⟨d, hx⟩ := rust_ok (h.extradata cd.dec l)
        simp only [DecContext.setExtradata, hx, ok_bind, pure_eq_ok]
        exact rest _

/-- Players of any kind: with and without trying again. -/
theorem Calm.plays {dc : Decoder C} (h : Calm dc) {dm : Demuxer D Acc.Acc} {dat : List U8} (fuel k : Nat)
    (hev : ∀ c : Context D Acc.Acc, Acc.Inv dat c.reader → readEvent dm accBuffered fuel c = .error .fuel ∨
      ∃ x c', readEvent dm accBuffered fuel c = .ok (x, c') ∧ Acc.Inv dat c'.reader) (n : Nat) :
    ∀ cds c, Acc.Inv dat c.reader → Quiet (playAll dc dm accBuffered fuel k n cds c) ∧
      Quiet (playRetry dc dm accBuffered fuel k n cds c) := by
  induction n with
  | zero => exact fun _ _ _ => ⟨fun p hp => by cases hp; rfl, fun p hp => by cases hp; rfl⟩
  | succ n ih =>
    intro cds c hi
    simp only [playAll, playRetry]
    rcases hev c hi with h1 | ⟨x, c', h1, hi'⟩
    · rw [h1]; exact ⟨fun p hp => by cases hp; rfl, fun p hp => by cases hp; rfl⟩
    · simp only [h1, ok_bind]
      cases x with
      | error e => cases e <;> first | exact ⟨.ok _, .ok _⟩ | exact ⟨.ok _, (ih _ _ hi').2⟩
      | ok y =>
        cases y with
        | NewPacket p =>
          simp only
          cases (if p.stream_index < 0 then none else cds[p.stream_index.toNat]?) with
          | none => exact ih _ _ hi'
          | some cd =>
            obtain ⟨⟨x, d⟩, hv⟩ := rust_ok (h.send cd.dec p)
            simp only [DecContext.sendPacket, hv, ok_bind, pure_eq_ok]
            cases x with
            | error e => exact ⟨.ok _, .ok _⟩
            | ok _ =>
              constructor <;>
              · refine (h.drain k _).bind ?_
                rintro ⟨x, cd⟩ -
                cases x with
                | error e => exact .ok _
                | ok fs =>
                  first
                  | refine (ih _ _ hi').1.bind ?_
                    rintro ⟨x, r⟩ -
                    cases x <;> exact .ok _
                  | refine (ih _ _ hi').2.bind ?_
                    rintro ⟨x, r⟩ -
                    cases x <;> exact .ok _
        | Eof =>
          refine ⟨(h.flushAll k cds 0).bind ?_, (h.flushAll k cds 0).bind ?_⟩ <;>
          · rintro ⟨x, cds⟩ -
            exact .ok _
        | _ => exact ih _ _ hi'

/-- **C165, damaged files.** Whatever bytes a file holds, however the reader delivers them and fails, and whatever the demuxer
makes of the bytes it sees, an application that plays it with decoders that never panic does not panic. -/
theorem c165_calm (dc : Decoder C) (h : Calm dc) (dds : List (Codec.Descriptor C))
    (hd : D → GlobalInfo → List U8 → Except Demux.Err SeekFrom × D × GlobalInfo)
    (ev : D → List U8 → Except Demux.Err (SeekFrom × Event) × D) (cap : Nat) (s : Source) (h0 : s.pos = 0) (d : D)
    (fuel k n : Nat) (p : Panic) :
    (playFile dc (Codecs.fromList dds) (windowDemuxer hd ev) accBuffered fuel k n (Context.new d (Acc.withCapacity cap s)) = .error p →
      p = .fuel) ∧
    (playFileRetry dc (Codecs.fromList dds) (windowDemuxer hd ev) accBuffered fuel k n (Context.new d (Acc.withCapacity cap s)) = .error p →
      p = .fuel) := by
  have hi : Acc.Inv s.data (Context.new d (Acc.withCapacity cap s)).reader := Acc.withCapacity_inv cap s h0
  generalize Context.new d (Acc.withCapacity cap s) = c at hi
  have hev := fun c hi => window_readEvent (hd := hd) (ev := ev) (dat := s.data) (c := c) hi fuel
  have retry : ∀ m (c : Context D Acc.Acc), Acc.Inv s.data c.reader →
      headersRetry (windowDemuxer hd ev) accBuffered fuel m c = .error .fuel ∨
      ∃ x c', headersRetry (windowDemuxer hd ev) accBuffered fuel m c = .ok (x, c') ∧ Acc.Inv s.data c'.reader := by
    intro m
    induction m with
    | zero => exact fun c _ => .inl rfl
    | succ m ih =>
      intro c hi
      simp only [headersRetry]
      rcases window_readHeaders (hd := hd) (ev := ev) hi fuel with h1 | ⟨x, c', h1, hi'⟩
      · exact .inl (by rw [h1]; rfl)
      · simp only [h1, ok_bind]
        cases x with
        | ok _ => exact .inr ⟨_, _, rfl, hi'⟩
        | error e => cases e <;> first | exact ih _ hi' | exact .inr ⟨_, _, rfl, hi'⟩
  constructor
  · revert p
    change Quiet _
    simp only [playFile]
    rcases window_readHeaders (hd := hd) (ev := ev) hi fuel with h1 | ⟨x, c', h1, hi'⟩
    · rw [h1]; intro p hp; cases hp; rfl
    · simp only [h1, ok_bind]
      cases x with
      | error e => exact .ok _
      | ok _ =>
        refine (h.opens dds _).bind ?_
        rintro (e | cds) -
        · exact .ok _
        · exact (h.plays fuel k hev n cds c' hi').1
  · revert p
    change Quiet _
    simp only [playFileRetry]
    rcases retry n c hi with h1 | ⟨x, c', h1, hi'⟩
    · rw [h1]; intro p hp; cases hp; rfl
    · simp only [h1, ok_bind]
      cases x with
      | error e => exact .ok _
      | ok _ =>
        refine (h.opens dds _).bind ?_
        rintro (e | cds) -
        · exact .ok _
        · exact (h.plays fuel k hev n cds c' hi').2

/-- The two decoders of C163's example never panic, and for the headers that are missing the application waits for ever: `Panic.fuel`
stands for that. -/
example : Calm twoDecoder ∧
    (match playFile twoDecoder (Codecs.fromList twoDecoders) twoFormat.demuxer accBuffered 40 9 9
      (Context.new () (Acc.withCapacity 1 ⟨[65], 0, sampleActs, 0⟩)) with
      | .error .fuel => true
      | _ => false) = true ∧
    (match playFile twoDecoder (Codecs.fromList twoDecoders) twoFormat.demuxer accBuffered 40 9 9
      (Context.new () (Acc.withCapacity 1 ⟨[65, 86, 1, 9, 4, 2, 0, 1, 1, 1, 0, 7, 200, 0], 0, sampleActs, 0⟩)) with
      | .ok (.ok out, _, _) => decide (out = [(0, pcmFrame [7]), (0, pcmFrame [1, 1])])
      | _ => false) = true := by
  refine ⟨⟨?_, ?_, ?_, ?_, ?_⟩, by decide +kernel, by decide +kernel⟩ <;> intros <;> intro h <;> cases h

/-! ### trying again -/

/-- What a reader did between two states: failures it reported are of calls in between. -/
def Since (a b : Source) (o : Option IoErr) : Prop :=
  b.script = a.script ∧ a.clock ≤ b.clock ∧ ∀ e, o = some e → ∃ j, a.clock ≤ j ∧ j < b.clock ∧ (a.script j).fail = some e

theorem Since.refl (a : Source) : Since a a none := ⟨rfl, Nat.le_refl _, fun _ h => nomatch h⟩

theorem Since.trans {a b c : Source} {o : Option IoErr} (h : Since a b none) (g : Since b c o) : Since a c o := by
  refine ⟨g.1.trans h.1, Nat.le_trans h.2.1 g.2.1, fun e he => ?_⟩
  obtain ⟨j, h1, h2, h3⟩ := g.2.2 e he
  exact ⟨j, Nat.le_trans h.2.1 h1, h2, h.1 ▸ h3⟩

theorem Since.forget {a b : Source} {o : Option IoErr} (h : Since a b o) : Since a b none := ⟨h.1, h.2.1, fun _ h => nomatch h⟩

def errOf : Except IoErr A → Option IoErr
  | .error e => some e
  | .ok _ => none

def ioOf : Except Demux.Err A → Option IoErr
  | .error (.Io e) => some e
  | _ => none

theorem fill_since {dat : List U8} {r r' : Acc.Acc} {x} (hi : Acc.Inv dat r) (h : Acc.fillBuf r = .ok (x, r')) :
    Since r.inner r'.inner (errOf x) := by
  obtain ⟨x', r'', f1, f⟩ := Acc.fillBuf_spec hi
  rw [f1] at h; cases h
  refine ⟨f.script, by rcases f.clock with h | h <;> omega, ?_⟩
  intro e he
  cases x with
  | ok l => cases he
  | error e' =>
    cases he
    obtain ⟨_, h2, h3⟩ := f.error e rfl
    exact ⟨_, Nat.le_refl _, by omega, h2⟩

theorem seek_since {dat : List U8} {r r' : Acc.Acc} {k : Nat} {x} (hi : Acc.Inv dat r) (hk : k ≤ (Acc.win r).length)
    (h : Acc.seek r (.current k) = .ok (x, r')) : r'.inner = r.inner ∧ ∃ m, x = .ok m := by
  rw [Acc.win_length hi] at hk
  rw [Acc.seek] at h
  simp only [usub_ok hi.pe, ok_bind] at h
  rw [if_pos (by omega), if_pos (by omega)] at h
  cases h
  exact ⟨rfl, _, rfl⟩

section
variable {F : Format D} (hF : F.Framed) (hfit : F.Fits)

include hF in
theorem asks_since {dat : List U8} {c c' : Context D Acc.Acc} {n : Nat} (hi : Acc.Inv dat c.reader)
    (h : Asks F.demuxer accBuffered c n c') : c'.reader = c.reader := by
  cases h with
  | error h1 =>
    rw [event_call hi] at h1
    cases hp : F.parse c.demuxer (Acc.win c.reader) with
    | none => rw [hp] at h1; cases h1; rfl
    | some v => rw [hp] at h1; cases h1
  | event h1 h2 =>
    rw [event_call hi] at h1
    cases hp : F.parse c.demuxer (Acc.win c.reader) with
    | none => rw [hp] at h1; cases h1
    | some v =>
      obtain ⟨k, ev, d'⟩ := v
      rw [hp] at h1
      cases h1
      exact absurd rfl (hF.answers _ _ _ _ _ n hp)

include hF in
theorem round_since {dat : List U8} {c c' : Context D Acc.Acc} (hi : Acc.Inv dat c.reader)
    (h : Round F.demuxer accBuffered c c') : Since c.reader.inner c'.reader.inner none := by
  cases h with
  | again h1 _ _ => rw [asks_since hF hi h1]; exact .refl _
  | more h1 _ _ h4 _ _ =>
    rw [asks_since hF hi h1] at h4
    exact (fill_since (Acc.grow_inv hi _).1 h4).forget

include hF hfit in
theorem event_since {dat : List U8} {c c' : Context D Acc.Acc} {x : Except Demux.Err Event} {fuel : Nat}
    (hi : Acc.Inv dat c.reader) (h : readEvent F.demuxer accBuffered fuel c = .ok (x, c')) :
    Since c.reader.inner c'.reader.inner (ioOf x) := by
  have hw : UsesApi F.demuxer := windowDemuxer_api ..
  obtain ⟨c0, h1, h2⟩ := readEvent_spec fuel h
  have h0 : Since c.reader.inner c0.reader.inner none := by
    clear h2 h
    induction h1 with
    | refl => exact .refl _
    | step a _ ih => exact (round_since hF hi a).trans (ih (a.inv hw hi))
  have hi0 := h1.inv hw hi
  refine h0.trans ?_
  rcases h2 with h2 | h2
  · cases h2 with
    | error h3 h4 =>
      rw [event_call hi0] at h3
      cases hp : F.parse c0.demuxer (Acc.win c0.reader) with
      | none => rw [hp] at h3; cases h3; exact absurd rfl (h4 _)
      | some v => rw [hp] at h3; cases h3
    | seekError h3 h4 =>
      rw [event_call hi0] at h3
      cases hp : F.parse c0.demuxer (Acc.win c0.reader) with
      | none => rw [hp] at h3; cases h3
      | some v =>
        rw [hp] at h3
        cases h3
        obtain ⟨_, m, hm⟩ := seek_since hi0 (hfit.parse _ _ _ _ _ hp) h4
        cases hm
    | event h3 h4 h5 =>
      rw [event_call hi0] at h3
      cases hp : F.parse c0.demuxer (Acc.win c0.reader) with
      | none => rw [hp] at h3; cases h3
      | some v =>
        rw [hp] at h3
        cases h3
        obtain ⟨hr, _⟩ := seek_since hi0 (hfit.parse _ _ _ _ _ hp) h4
        simp only [hr]
        exact .refl _
  · cases h2 with
    | readError h3 h4 h5 h6 =>
      rw [asks_since hF hi0 h3] at h6
      exact fill_since (Acc.grow_inv hi0 _).1 h6
    | eof h3 h4 h5 h6 h7 h8 =>
      rw [asks_since hF hi0 h3] at h6
      exact fill_since (Acc.grow_inv hi0 _).1 h6

include hfit in
theorem headers_since {dat : List U8} {c c' : Context D Acc.Acc} {x : Except Demux.Err Unit} {fuel : Nat}
    (hi : Acc.Inv dat c.reader) (h : readHeaders F.demuxer accBuffered fuel c = .ok (x, c')) :
    Since c.reader.inner c'.reader.inner (ioOf x) := by
  have hw : UsesApi F.demuxer := windowDemuxer_api ..
  obtain ⟨c0, h1, h2⟩ := readHeaders_spec fuel h
  have h0 : Since c.reader.inner c0.reader.inner none := by
    clear h2 h
    induction h1 with
    | refl => exact .refl _
    | step a _ ih =>
      refine Since.trans ?_ (ih (a.inv hw hi))
      cases a with
      | mk a1 a2 a3 =>
        have f := fill_since hi a1
        obtain ⟨_, _, s1, s2⟩ := Acc.fillBuf_spec hi
        rw [show accBuffered.fillBuf = Acc.fillBuf from rfl, s1] at a1
        cases a1
        rw [Format.demuxer, window_headers _ _ s2.inv] at a2
        injection a2 with a2
        injection a2 with _ a2
        injection a2 with _ a2
        injection a2 with a2 _
        subst a2
        cases a3
        exact f.forget
  have hi0 := h1.inv hw hi
  refine h0.trans ?_
  obtain ⟨_, _, s1, s2⟩ := Acc.fillBuf_spec hi0
  cases h2 with
  | readError a1 => exact fill_since hi0 a1
  | error a1 a2 a3 =>
    rw [show accBuffered.fillBuf = Acc.fillBuf from rfl, s1] at a1
    cases a1
    rw [Format.demuxer, window_headers _ _ s2.inv] at a2
    revert a2
    cases F.head c0.demuxer c0.info (Acc.win _) with
    | none => intro a2; cases a2; exact absurd rfl (a3 _)
    | some v => intro a2; cases a2
  | accepted a1 a2 a3 =>
    have f := fill_since hi0 a1
    rw [show accBuffered.fillBuf = Acc.fillBuf from rfl, s1] at a1
    cases a1
    rw [Format.demuxer, window_headers _ _ s2.inv] at a2
    revert a2
    cases hp : F.head c0.demuxer c0.info (Acc.win _) with
    | none => intro a2; cases a2
    | some v =>
      intro a2
      cases a2
      obtain ⟨hr, _⟩ := seek_since s2.inv (hfit.head _ _ _ _ _ _ hp) a3
      simp only [hr]
      exact f

include hF hfit in
/-- The interrupted player does what the other one does, later. -/
theorem playRetry_alike (dc : Decoder C) (dat : List U8) (script : Nat → Act) (T fuel k : Nat) (hfuel : dat.length < fuel) (m : Nat) :
    ∀ (n : Nat) (cds : List (DecContext C)) (c c' : Context D Acc.Acc), Acc.Inv dat c.reader → Acc.Inv dat c'.reader →
    c.reader.inner.script = script → (∀ j, (c'.reader.inner.script j).fail = none) →
    c.demuxer = c'.demuxer → c.info = c'.info → c.reader.index = c'.reader.index →
    playAll dc F.demuxer accBuffered fuel k n cds c' ≠ .error .fuel →
    Alike (playAll dc F.demuxer accBuffered fuel k n cds c') (playRetry dc F.demuxer accBuffered fuel k m cds c) ∨
    playRetry dc F.demuxer accBuffered fuel k m cds c = .error .fuel ∧
      ¬ ((∀ j, T ≤ j → (script j).fail = none) ∧ n + (T - c.reader.inner.clock) ≤ m) := by
  obtain ⟨a, rfl⟩ : ∃ a, fuel = a + 1 := ⟨fuel - 1, by omega⟩
  induction m with
  | zero =>
    intro n cds c c' _ _ _ _ _ _ _ hn
    refine .inr ⟨rfl, fun h => hn ?_⟩
    obtain rfl : n = 0 := by omega
    rfl
  | succ m ih =>
    intro n cds c c' hi hi' hs hs' hd hinf hidx hn
    cases n with
    | zero => exact absurd rfl hn
    | succ n =>
      obtain ⟨x, c1, h1, hi1, hs1, hx⟩ := framed_event F hF dat script (.inl hfit) a c hi hs (by omega)
      obtain ⟨x', c1', h1', hi1', hs1', hx'⟩ := framed_event F hF dat _ (.inl hfit) a c' hi' rfl (by omega)
      have ht := event_since hF hfit hi h1
      have hclean : ∀ j, (c1'.reader.inner.script j).fail = none := fun j => by rw [hs1']; exact hs' j
      have next : ∀ (cds : List (DecContext C)), c1.demuxer = c1'.demuxer → c1.info = c1'.info → c1.reader.index = c1'.reader.index →
          playAll dc F.demuxer accBuffered (a + 1) k n cds c1' ≠ .error .fuel →
          Alike (playAll dc F.demuxer accBuffered (a + 1) k n cds c1') (playRetry dc F.demuxer accBuffered (a + 1) k m cds c1) ∨
          playRetry dc F.demuxer accBuffered (a + 1) k m cds c1 = .error .fuel ∧
            ¬ ((∀ j, T ≤ j → (script j).fail = none) ∧ n + 1 + (T - c.reader.inner.clock) ≤ m + 1) := by
        intro cds e1 e2 e3 e4
        refine (ih n cds c1 c1' hi1 hi1' hs1 hclean e1 e2 e3 e4).imp id (fun h => ⟨h.1, fun h' => h.2 ⟨h'.1, ?_⟩⟩)
        have := ht.2.1
        have := h'.2
        omega
      cases hx with
      | io b1 b2 b3 b4 =>
        have e : playRetry dc F.demuxer accBuffered (a + 1) k (m + 1) cds c =
            playRetry dc F.demuxer accBuffered (a + 1) k m cds c1 := by
          rw [playRetry]; simp only [h1, ok_bind]
        rw [e]
        refine (ih (n + 1) cds c1 c' hi1 hi' hs1 hs' (b2.trans hd) (b3.trans hinf) (b4.trans hidx) hn).imp id
          (fun h => ⟨h.1, fun h' => h.2 ⟨h'.1, ?_⟩⟩)
        obtain ⟨j, g1, g2, g3⟩ := ht.2.2 _ rfl
        have hj : j < T := by
          apply Nat.lt_of_not_le
          intro hj
          rw [hs, h'.1 j hj] at g3
          cases g3
        have := h'.2
        omega
      | eof b1 b2 b3 b4 =>
        cases hx' with
        | io g1 => obtain ⟨j, g1⟩ := g1; rw [hs'] at g1; cases g1
        | record g1 => rw [← hd, ← hidx, b1] at g1; cases g1
        | eof g1 g2 g3 g4 =>
          rw [playRetry, playAll] at *
          simp only [h1, h1', ok_bind] at hn ⊢
          cases flushDecoders dc k 0 cds with
          | error p => exact .inl .panic
          | ok v => exact .inl (.ok (by rw [b2, g2, hd]) (by rw [b3, g3, hinf]) (by rw [b4, g4, hidx]))
      | @record kk ev d' b1 b2 b3 b4 =>
        cases hx' with
        | io g1 => obtain ⟨j, g1⟩ := g1; rw [hs'] at g1; cases g1
        | eof g1 => rw [← hd, ← hidx, b1] at g1; cases g1
        | record g1 g2 g3 g4 =>
          rw [← hd, ← hidx, b1] at g1
          cases g1
          have e1 : c1.demuxer = c1'.demuxer := by rw [b2, g2]
          have e2 : c1.info = c1'.info := by rw [b3, g3, hinf]
          have e3 : c1.reader.index = c1'.reader.index := by rw [b4, g4, hidx]
          rw [playRetry, playAll] at *
          rw [hinf] at h1
          simp only [h1, h1', ok_bind] at hn ⊢
          generalize completed c'.info.streams ev = y at *
          cases y with
          | NewPacket p =>
            simp only at hn ⊢
            cases hcd : (if p.stream_index < 0 then none else cds[p.stream_index.toNat]?) with
            | none => rw [hcd] at hn; exact next cds e1 e2 e3 hn
            | some cd =>
              rw [hcd] at hn
              simp only at hn ⊢
              cases hsend : cd.sendPacket dc p with
              | error q => exact .inl .panic
              | ok v =>
                obtain ⟨z, cd1⟩ := v
                simp only [hsend, ok_bind] at hn ⊢
                cases z with
                | error e => exact .inl (.ok e1 e2 e3)
                | ok _ =>
                  simp only at hn ⊢
                  cases hdr : drainFrames dc k cd1 with
                  | error q => exact .inl .panic
                  | ok v =>
                    obtain ⟨z, cd2⟩ := v
                    simp only [hdr, ok_bind] at hn ⊢
                    cases z with
                    | error e => exact .inl (.ok e1 e2 e3)
                    | ok fs =>
                      simp only at hn ⊢
                      rcases next (cds.set p.stream_index.toNat cd2) e1 e2 e3 (fun h => hn (by rw [h]; rfl)) with h | ⟨h, h'⟩
                      · revert h
                        generalize playAll dc F.demuxer accBuffered (a + 1) k n (cds.set p.stream_index.toNat cd2) c1' = A
                        generalize playRetry dc F.demuxer accBuffered (a + 1) k m (cds.set p.stream_index.toNat cd2) c1 = B
                        intro h
                        cases h with
                        | panic => exact .inl .panic
                        | @ok x _ _ _ f1 f2 f3 => cases x <;> exact .inl (.ok f1 f2 f3)
                      · exact .inr ⟨by rw [h]; rfl, h'⟩
          | Eof =>
            simp only at hn ⊢
            cases flushDecoders dc k 0 cds with
            | error p => exact .inl .panic
            | ok v => exact .inl (.ok e1 e2 e3)
          | _ => exact next cds e1 e2 e3 hn

include hF hfit in
theorem headersRetry_alike (dat : List U8) (script : Nat → Act) (T fuel : Nat) (hfuel : dat.length + 1 < fuel) (kk : Nat) (d' : D)
    (i' : GlobalInfo) (m : Nat) :
    ∀ (c : Context D Acc.Acc), Acc.Inv dat c.reader → c.reader.inner.script = script →
    F.head c.demuxer c.info (dat.drop c.reader.index) = some (kk, d', i') →
    (∃ c1, headersRetry F.demuxer accBuffered fuel m c = .ok (.ok (), c1) ∧ Acc.Inv dat c1.reader ∧
      c1.reader.inner.script = script ∧ c.reader.inner.clock ≤ c1.reader.inner.clock ∧
      c1.demuxer = d' ∧ c1.info = i' ∧ c1.reader.index = c.reader.index + kk) ∨
    headersRetry F.demuxer accBuffered fuel m c = .error .fuel ∧
      ¬ ((∀ j, T ≤ j → (script j).fail = none) ∧ 1 + (T - c.reader.inner.clock) ≤ m) := by
  obtain ⟨a, rfl⟩ : ∃ a, fuel = a + 1 := ⟨fuel - 1, by omega⟩
  induction m with
  | zero => exact fun c _ _ _ => .inr ⟨rfl, fun h => by omega⟩
  | succ m ih =>
    intro c hi hs hh
    obtain ⟨x, c1, h1, hi1, hs1, hx⟩ := framed_headers F hF dat script (.inl hfit) a c kk d' i' hi hs hh (by split <;> omega)
    have ht := headers_since hfit hi h1
    rw [headersRetry]
    rcases hx with ⟨e, j, rfl, _, b1, b2, b3⟩ | ⟨rfl, b1, b2, b3⟩
    · simp only [h1, ok_bind]
      rcases ih c1 hi1 hs1 (by rw [b1, b2, b3]; exact hh) with ⟨c2, g1, g2, g3, g4, g5, g6, g7⟩ | ⟨g1, g2⟩
      · exact .inl ⟨c2, g1, g2, g3, Nat.le_trans ht.2.1 g4, g5, g6, by rw [g7, b3]⟩
      · refine .inr ⟨g1, fun h' => g2 ⟨h'.1, ?_⟩⟩
        obtain ⟨j, g1, g2, g3⟩ := ht.2.2 _ rfl
        have hj : j < T := by
          apply Nat.lt_of_not_le
          intro hj
          rw [hs, h'.1 j hj] at g3
          cases g3
        have := h'.2
        omega
    · simp only [h1, ok_bind]
      exact .inl ⟨c1, rfl, hi1, hs1, ht.2.1, b1, b2, b3⟩

end

/-- **C165, trying again.** A file played through a reader that fails any number of times, by an application that then calls
`read_headers` or `read_event` again, ends as it ends if the reader never fails: with the same frames or the same error of a decoder,
or the same panic of one; and it does end if the reader fails finitely often. -/
theorem c165_retry (F : Format D) (hF : F.Framed) (hfit : F.Fits) (dc : Decoder C) (reg : Codecs C) (cap cap' : Nat) (s s' : Source)
    (hd : s.data = s'.data) (h0 : s.pos = 0) (h0' : s'.pos = 0) (hs' : ∀ j, (s'.script j).fail = none) (d : D)
    (hh : (F.head d ⟨none, none, []⟩ s.data).isSome) (fuel k n : Nat) (hfuel : s.data.length + 1 < fuel)
    (hn : playFile dc reg F.demuxer accBuffered fuel k n (Context.new d (Acc.withCapacity cap' s')) ≠ .error .fuel) (m : Nat) :
    (playFileRetry dc reg F.demuxer accBuffered fuel k m (Context.new d (Acc.withCapacity cap s)) = .error .fuel ∨
      Alike (playFile dc reg F.demuxer accBuffered fuel k n (Context.new d (Acc.withCapacity cap' s')))
        (playFileRetry dc reg F.demuxer accBuffered fuel k m (Context.new d (Acc.withCapacity cap s)))) ∧
    ∀ T, (∀ j, T ≤ j → (s.script j).fail = none) → n + T < m →
      Alike (playFile dc reg F.demuxer accBuffered fuel k n (Context.new d (Acc.withCapacity cap' s')))
        (playFileRetry dc reg F.demuxer accBuffered fuel k m (Context.new d (Acc.withCapacity cap s))) := by
  have key : ∀ T, Alike (playFile dc reg F.demuxer accBuffered fuel k n (Context.new d (Acc.withCapacity cap' s')))
        (playFileRetry dc reg F.demuxer accBuffered fuel k m (Context.new d (Acc.withCapacity cap s))) ∨
      playFileRetry dc reg F.demuxer accBuffered fuel k m (Context.new d (Acc.withCapacity cap s)) = .error .fuel ∧
        ¬ ((∀ j, T ≤ j → (s.script j).fail = none) ∧ n + T < m) := by
    intro T
    have hi : Acc.Inv s.data (Context.new d (Acc.withCapacity cap s)).reader := Acc.withCapacity_inv cap s h0
    have hi' : Acc.Inv s.data (Context.new d (Acc.withCapacity cap' s')).reader := hd ▸ Acc.withCapacity_inv cap' s' h0'
    have hc : (Context.new d (Acc.withCapacity cap s)).reader.inner.script = s.script := rfl
    have hc' : (Context.new d (Acc.withCapacity cap' s')).reader.inner.script = s'.script := rfl
    obtain ⟨⟨kk, d', i'⟩, hv⟩ := Option.isSome_iff_exists.1 hh
    have hv1 : F.head (Context.new d (Acc.withCapacity cap s)).demuxer (Context.new d (Acc.withCapacity cap s)).info
        (s.data.drop (Context.new d (Acc.withCapacity cap s)).reader.index) = some (kk, d', i') := hv
    have hv2 : F.head (Context.new d (Acc.withCapacity cap' s')).demuxer (Context.new d (Acc.withCapacity cap' s')).info
        (s.data.drop (Context.new d (Acc.withCapacity cap' s')).reader.index) = some (kk, d', i') := hv
    have hx : (Context.new d (Acc.withCapacity cap s)).reader.index = (Context.new d (Acc.withCapacity cap' s')).reader.index := rfl
    generalize Context.new d (Acc.withCapacity cap s) = c at *
    generalize Context.new d (Acc.withCapacity cap' s') = c' at *
    obtain ⟨a, rfl⟩ : ∃ a, fuel = a + 1 := ⟨fuel - 1, by omega⟩
    obtain ⟨x, c1', g1, g2, g3, g4⟩ := framed_headers F hF s.data s'.script (.inr hs') a c' kk d' i' hi' hc' hv2 (by split <;> omega)
    rcases g4 with ⟨e, j, _, g5, _⟩ | ⟨rfl, g5, g6, g7⟩
    · rw [hs'] at g5; cases g5
    · rw [playFile, playFileRetry] at *
      rcases headersRetry_alike hF hfit s.data s.script T (a + 1) hfuel kk d' i' m c hi hc hv1 with
        ⟨c1, f1, f2, f3, f4, f5, f6, f7⟩ | ⟨f1, f2⟩
      · simp only [f1, g1, ok_bind] at hn ⊢
        rw [f6]
        rw [g6] at hn ⊢
        generalize openDecoders dc reg i'.streams = y at hn ⊢
        cases y with
        | error p => exact .inl .panic
        | ok v =>
          cases v with
          | error e => exact .inl (.ok (by rw [f5, g5]) (by rw [f6, g6]) (by rw [f7, g7, hx]))
          | ok cds =>
            simp only [ok_bind] at hn ⊢
            refine (playRetry_alike hF hfit dc s.data s.script T (a + 1) k (by omega) m n cds c1 c1' f2 g2 f3
              (by rw [g3]; exact hs') (by rw [f5, g5]) (by rw [f6, g6]) (by rw [f7, g7, hx]) hn).imp id
              (fun h => ⟨h.1, fun h' => h.2 ⟨h'.1, ?_⟩⟩)
            have := h'.2
            omega
      · refine .inr ⟨by rw [f1]; rfl, fun h' => f2 ⟨h'.1, ?_⟩⟩
        have := h'.2
        omega
  refine ⟨(key 0).symm.imp And.left id, fun T h1 h2 => ?_⟩
  rcases key T with h | ⟨_, h⟩
  · exact h
  · exact absurd ⟨h1, h2⟩ h

theorem two_fits : twoFormat.Fits where
  head d i w k d' i' h := by
    simp only [twoFormat] at h
    split at h
    · cases h; simp
    · cases h
  parse d w k ev d' h := by
    simp only [twoFormat] at h
    match w with
    | [] => cases h
    | [n] => cases h
    | n :: i :: l =>
      simp only at h
      split at h
      · cases h
      · cases h; simp only [List.length_cons]; omega

/-- A reader whose every other call fails, thrice: without trying again nothing is played. -/
example : (twoFormat.head () ⟨none, none, []⟩ [65, 86, 2, 1, 8, 8, 1, 0, 9]).isSome ∧
    (∀ j, 6 ≤ j → ((fun j => ⟨if j < 6 ∧ j % 2 = 1 then some .interrupted else none, 0⟩ : Nat → Act) j).fail = none) ∧
    (match playFileRetry twoDecoder (Codecs.fromList twoDecoders) twoFormat.demuxer accBuffered 40 9 20
      (Context.new () (Acc.withCapacity 1 ⟨[65, 86, 2, 1, 8, 8, 1, 0, 9], 0,
        fun j => ⟨if j < 6 ∧ j % 2 = 1 then some .interrupted else none, 0⟩, 0⟩)) with
      | .ok (.ok out, _, _) => decide (out = [(1, pcmFrame [8, 8]), (0, pcmFrame [9])])
      | _ => false) = true ∧
    (match playFile twoDecoder (Codecs.fromList twoDecoders) twoFormat.demuxer accBuffered 40 9 20
      (Context.new () (Acc.withCapacity 1 ⟨[65, 86, 2, 1, 8, 8, 1, 0, 9], 0,
        fun j => ⟨if j < 6 ∧ j % 2 = 1 then some .interrupted else none, 0⟩, 0⟩)) with
      | .ok (.error (.format (.Io .interrupted)), _, _) => true
      | _ => false) = true := by
  refine ⟨rfl, ?_, by decide +kernel, by decide +kernel⟩
  intro j hj
  simp only
  rw [if_neg (by omega)]

end Verif.RoundTrip
