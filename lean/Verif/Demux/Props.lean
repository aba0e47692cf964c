import Verif.Demux.Lemmas
import Verif.Acc.Props

/-!
# Properties C31 to C37, C68
-/

namespace Verif.Demux
open Verif Verif.Io Verif.Frame Verif.Stream Verif.Packet

/-! ### a demuxer for the examples

It parses records of a length byte and that many bytes: length 0 announces a stream whose index is the
next byte, 255 is invalid, other records are packets for stream 7. -/

def sampleParams : CodecParams := ⟨none, none, none, 0, 0, 0⟩
def sampleStream (i : Nat) : Stream := { Stream.fromParams sampleParams ⟨1, 25⟩ with index := i }

def samplePacket (l : List U8) : Packet := { Packet.new with data := l, stream_index := 7 }

def sampleParse : List U8 → Except Err (SeekFrom × Event)
  | [] => .error (.MoreDataNeeded 1)
  | [0] => .ok (.current 0, .MoreDataNeeded 2)
  | 0 :: i :: _ => .ok (.current 2, .NewStream (sampleStream i.toNat))
  | 255 :: _ => .error .InvalidData
  | n :: l =>
    if l.length < n.toNat then .error (.MoreDataNeeded (n.toNat + 1))
    else .ok (.current (n.toNat + 1), .NewPacket (samplePacket (l.take n.toNat)))

/-- A demuxer that looks at its state and the buffered bytes only. -/
def windowDemuxer (header : D → GlobalInfo → List U8 → Except Err SeekFrom × D × GlobalInfo)
    (event : D → List U8 → Except Err (SeekFrom × Event) × D) : Demuxer D Acc.Acc where
  readHeaders d r info := do
    let (x, d, info) := header d info (← Acc.data r)
    return (x, d, r, info)
  readEvent d r := do
    let (x, d) := event d (← Acc.data r)
    return (x, d, r)

def sampleHeader (l : List U8) : Except Err SeekFrom :=
  if l.length < 3 then .error (.MoreDataNeeded (3 - l.length)) else .ok (.current 3)

def sampleDemuxer : Demuxer Unit Acc.Acc := 
  windowDemuxer (fun d info w => (sampleHeader w, d, info)) (fun d w => (sampleParse w, d))

def sampleBytes : List U8 := [2, 10, 11, 0, 7, 3, 20, 21, 22, 255, 5]

/-- Reads one, two, three bytes, … -/
def sampleActs : Nat → Act := fun k => ⟨none, k % 3⟩

def sampleContext (cap : Nat) : Context Unit Acc.Acc :=
  Context.new () (Acc.withCapacity cap ⟨sampleBytes, 0, sampleActs, 0⟩)

/-- What some calls return. -/
def results (x : Rust (List (Except Err Event) × Context Unit Acc.Acc)) : Option (List (Except Err Event)) :=
  match x with
  | .ok (l, _) => some l
  | .error _ => none

def packet7 (l : List U8) (tb : Option Rational64) : Event :=
  .NewPacket { samplePacket l with t := { (samplePacket l).t with timebase := tb } }

/-- Before its stream is announced a packet has no timebase, afterwards it has the stream's. -/
theorem sample_run : results (readEvents sampleDemuxer accBuffered 20 4 (sampleContext 1)) =
    some [.ok (packet7 [10, 11] none), .ok (.NewStream (sampleStream 7)),
      .ok (packet7 [20, 21, 22] (some ⟨1, 25⟩)), .error .InvalidData] := by decide +kernel

variable {D R : Type} {dm : Demuxer D R} {bf : Buffered R}

/-! ### C31 -/

theorem asIsize_small {n : Nat} (h : n < 2 ^ 63) : asIsize n = n := by simp [asIsize, h]

theorem FirstWith.find {i : Int} {l : List Stream} {o : Option Stream} (hl : ∀ s ∈ l, s.index < 2 ^ 63)
    (h : FirstWith i l o) : o = l.find? (fun s => decide ((s.index : Int) = i)) := by
  induction h with
  | nil => rfl
  | @here st sts e =>
    rw [asIsize_small (hl _ (by simp))] at e
    rw [List.find?_cons_of_pos (by simpa using e)]
  | @later st sts o e _ ih =>
    rw [asIsize_small (hl _ (by simp))] at e
    rw [List.find?_cons_of_neg (by simpa using e)]
    exact ih (fun s hs => hl s (by simp [hs]))

/-- C31. A returned packet is a packet the demuxer produced, with its own timebase if it has one and
otherwise the timebase of the first known stream with the packet's stream index, if any; nothing else
differs. (Stream indices are below 2^63, as those of any table in memory are.) -/
theorem c31_timebase (fuel : Nat) (c c' : Context D R) (q : Packet)
    (hl : ∀ s ∈ c.info.streams, s.index < 2 ^ 63)
    (h : readEvent dm bf fuel c = .ok (.ok (.NewPacket q), c')) :
    ∃ d r sk p d' r', dm.readEvent d r = .ok (.ok (sk, .NewPacket p), d', r') ∧ c'.info = c.info ∧
      q = { p with t := { p.t with timebase :=
        match p.t.timebase with
        | some t => some t
        | none => (c.info.streams.find? (fun s => decide ((s.index : Int) = p.stream_index))).map (·.timebase) } } := by
  obtain ⟨c0, h1, h2⟩ := readEvent_spec fuel h
  have hi := h1.info
  rcases h2 with h2 | h2
  · generalize hx : (Except.ok (Event.NewPacket q) : Except Err Event) = x at h2
    cases h2 with
    | error => cases hx
    | seekError => cases hx
    | @event d r sk ev ev' m r' a1 a2 a3 =>
      cases hx
      cases a3 with
      | @packet p _ a4 =>
        refine ⟨_, _, _, p, _, _, a1, ?_, ?_⟩
        · simp [announced, hi]
        · rw [hi] at a4
          cases a4 with
          | own t => rw [t]; simp only [← t]
          | stream t f => rw [t, ← f.find hl]; rfl
          | unknown t f => rw [t, ← f.find hl]; simp only [Option.map_none, ← t]
  · generalize hx : (Except.ok (Event.NewPacket q) : Except Err Event) = x at h2
    cases h2 with
    | readError => cases hx
    | eof => cases hx

example : ∃ c c' q, readEvent sampleDemuxer accBuffered 20 c = .ok (.ok (.NewPacket q), c') ∧
    (∀ s ∈ c.info.streams, s.index < 2 ^ 63) ∧ c.info.streams = [sampleStream 7] ∧
    q.t.timebase = some ⟨1, 25⟩ ∧ q.data = [20, 21, 22] := by
  have h : (match readEvents sampleDemuxer accBuffered 20 2 (sampleContext 1) with
      | .ok (_, c) => (match readEvent sampleDemuxer accBuffered 20 c with
        | .ok (.ok (.NewPacket q), _) => decide ((∀ s ∈ c.info.streams, s.index < 2 ^ 63) ∧
          c.info.streams = [sampleStream 7] ∧ q.t.timebase = some ⟨1, 25⟩ ∧ q.data = [20, 21, 22])
        | _ => false)
      | _ => false) = true := by decide +kernel
  split at h
  · rename_i c _
    split at h
    · rename_i q c' e
      exact ⟨c, c', q, e, of_decide_eq_true h⟩
    · cases h
  · cases h

/-! ### C32 -/

/-- One call of `read_event` adds the announced stream, if any, and nothing else. -/
theorem readEvent_streams (fuel : Nat) {c c' : Context D R} {x : Except Err Event}
    (h : readEvent dm bf fuel c = .ok (x, c')) :
    c'.info = { c.info with streams := c.info.streams ++ announced x } := by
  obtain ⟨c0, h1, h2⟩ := readEvent_spec fuel h
  have hi := h1.info
  rcases h2 with h2 | h2
  · cases h2 with
    | error => simp [announced, hi]
    | seekError => simp [announced, hi]
    | event a1 a2 a3 => simp [hi]
  · cases h2 with
    | readError a => simp [announced, a.info, hi]
    | eof a => simp [announced, a.info, hi]

/-- C32. Over any history of calls the stream table is extended by exactly the streams of the
`NewStream` events returned, in order; duration and timebase stay. -/
theorem c32_streams (fuel n : Nat) (c c' : Context D R) (xs : List (Except Err Event))
    (h : readEvents dm bf fuel n c = .ok (xs, c')) :
    c'.info = { c.info with streams := c.info.streams ++ xs.flatMap announced } := by
  induction n generalizing c xs with
  | zero => cases h; simp
  | succ n ih =>
    simp only [readEvents] at h
    cases h1 : readEvent dm bf fuel c with
    | error e => rw [h1] at h; cases h
    | ok v =>
      obtain ⟨x, c1⟩ := v
      simp only [h1, ok_bind] at h
      cases h2 : readEvents dm bf fuel n c1 with
      | error e => rw [h2] at h; cases h
      | ok v =>
        obtain ⟨ys, c2⟩ := v
        simp only [h2, ok_bind, pure_eq_ok] at h
        cases h
        rw [ih _ _ h2, readEvent_streams fuel h1]
        simp

example : (match readEvents sampleDemuxer accBuffered 20 4 (sampleContext 1) with
    | .ok (_, c') => decide (c'.info.streams = [sampleStream 7])
    | _ => false) = true := by decide +kernel

/-! ### C33 -/

/-- C33, part 1. `read_event` never returns a request for more data, as an event or as an error. -/
theorem c33_hidden (fuel : Nat) (c c' : Context D R) (x : Except Err Event)
    (h : readEvent dm bf fuel c = .ok (x, c')) (n : Nat) :
    x ≠ .ok (.MoreDataNeeded n) ∧ x ≠ .error (.MoreDataNeeded n) := by
  obtain ⟨c0, _, h2⟩ := readEvent_spec fuel h
  rcases h2 with h2 | h2
  · refine ⟨?_, h2.not_more n⟩
    intro hx; subst hx
    cases h2 with
    | event _ _ a => cases a
  · constructor
    · intro hx; subst hx; cases h2
    · intro hx; subst hx; cases h2

/-- C33, part 2. `read_event` returns `x` (given enough rounds) if and only if after some rounds of asking
and being served the demuxer answers and this answer, after the seek, is `x`, or it asks for more than is
buffered and nothing more can be had. `Delivered` leaves every event as it is, up to C31. -/
theorem c33_passed (c c' : Context D R) (x : Except Err Event) :
    (∃ fuel, readEvent dm bf fuel c = .ok (x, c')) ↔
    ∃ c0, Rounds dm bf c c0 ∧ (Answers dm bf c0 x c' ∨ RunsOut dm bf c0 x c') := by
  constructor
  · rintro ⟨fuel, h⟩; exact readEvent_spec fuel h
  · rintro ⟨c0, h1, h2⟩
    obtain ⟨N, hN⟩ := h1.complete h2
    exact ⟨N, hN N (Nat.le_refl _)⟩

/-- C33, part 3: an answer that is not a request is returned by the first round, its seek applied. -/
theorem c33_direct (fuel : Nat) (c : Context D R) (d : D) (r : R) (sk : SeekFrom) (ev : Event)
    (h : dm.readEvent c.demuxer c.reader = .ok (.ok (sk, ev), d, r)) (m : Nat) (r' : R)
    (hs : bf.seek r sk = .ok (.ok m, r')) (hn : ∀ n, ev ≠ .MoreDataNeeded n) (hp : ∀ p, ev ≠ .NewPacket p) :
    readEvent dm bf (fuel + 1) c = .ok (.ok ev,
      ⟨d, r', { c.info with streams := c.info.streams ++ announced (.ok ev) }, c.user_private⟩) := by
  refine readEvent_answers fuel (.event h hs ?_)
  cases ev with
  | NewPacket p => exact absurd rfl (hp p)
  | NewStream s => exact .stream
  | MoreDataNeeded n => exact absurd rfl (hn n)
  | Continue => exact .continue
  | Eof => exact .eof

/-- C33, part 4: so is an error. -/
theorem c33_error (fuel : Nat) (c : Context D R) (d : D) (r : R) (e : Err)
    (h : dm.readEvent c.demuxer c.reader = .ok (.error e, d, r)) (hn : ∀ n, e ≠ .MoreDataNeeded n) :
    readEvent dm bf (fuel + 1) c = .ok (.error e, ⟨d, r, c.info, c.user_private⟩) :=
  readEvent_answers fuel (.error h hn)

example : ∃ c' , readEvent sampleDemuxer accBuffered 20 (sampleContext 1) = .ok (.ok (packet7 [10, 11] none), c') := by
  have h : (match readEvent sampleDemuxer accBuffered 20 (sampleContext 1) with
      | .ok (.ok ev, _) => decide (ev = packet7 [10, 11] none)
      | _ => false) = true := by decide +kernel
  split at h
  · rename_i ev c' e
    exact ⟨c', by rw [e, of_decide_eq_true h]⟩
  · cases h

/-! ### C34 -/

/-- C34 for any buffered reader. -/
theorem c34_eof (fuel : Nat) (c c' : Context D R) (h : readEvent dm bf fuel c = .ok (.ok .Eof, c')) :
    (∃ d r sk d' r', dm.readEvent d r = .ok (.ok (sk, .Eof), d', r')) ∨
    ∃ c0 n c1 w l w', Asks dm bf c0 n c1 ∧ bf.data c1.reader = .ok w ∧ w.length < n ∧
      (bf.grow c1.reader n >>= bf.fillBuf) = .ok (.ok l, c'.reader) ∧ bf.data c'.reader = .ok w' ∧
      w'.length ≤ w.length := by
  obtain ⟨c0, _, h2⟩ := readEvent_spec fuel h
  rcases h2 with h2 | h2
  · left
    generalize hx : (Except.ok Event.Eof : Except Err Event) = x at h2
    cases h2 with
    | error => cases hx
    | seekError => cases hx
    | event a1 a2 a3 =>
      cases hx
      cases a3
      exact ⟨_, _, _, _, _, a1⟩
  · right
    generalize hx : (Except.ok Event.Eof : Except Err Event) = x at h2
    cases h2 with
    | readError => cases hx
    | eof a1 a2 a3 a4 a5 a6 => exact ⟨c0, _, _, _, _, _, a1, a2, a3, a4, a5, a6⟩

/-- The demuxer handles an `AccReader` through its public functions only. -/
def UsesApi (dm : Demuxer D Acc.Acc) : Prop :=
  (∀ d r x d' r', dm.readEvent d r = .ok (x, d', r') → ∃ fuel ops os, Acc.run fuel r ops = .ok (os, r')) ∧
  (∀ d r i x d' r' i', dm.readHeaders d r i = .ok (x, d', r', i') →
    ∃ fuel ops os, Acc.run fuel r ops = .ok (os, r'))

theorem run_inv {dat : List U8} {r r' : Acc.Acc} (hi : Acc.Inv dat r) {fuel ops os}
    (h : Acc.run fuel r ops = .ok (os, r')) : Acc.Inv dat r' ∧ r'.inner.script = r.inner.script := by
  rcases Acc.run_spec fuel hi ops with ⟨h5, _⟩ | ⟨os', r'', b1, b2, b3, b4, b5⟩
  · rw [h5] at h; cases h
  · rw [b1] at h; cases h; exact ⟨b2, b4⟩

theorem Asks.inv {dat : List U8} {dm : Demuxer D Acc.Acc} (hd : UsesApi dm) {c c' : Context D Acc.Acc} {n}
    (h : Asks dm accBuffered c n c') (hi : Acc.Inv dat c.reader) : Acc.Inv dat c'.reader := by
  cases h with
  | error h1 => obtain ⟨_, _, _, hr⟩ := hd.1 _ _ _ _ _ h1; exact (run_inv hi hr).1
  | event h1 h2 =>
    obtain ⟨_, _, _, hr⟩ := hd.1 _ _ _ _ _ h1
    obtain ⟨x, r', s1, s2⟩ := Acc.seek_spec (run_inv hi hr).1 _
    rw [show accBuffered.seek = Acc.seek from rfl, s1] at h2
    cases h2
    exact s2.inv

theorem fill_grown {dat : List U8} {r r' : Acc.Acc} {n : Nat} {x} (hi : Acc.Inv dat r)
    (h : Acc.fillBuf (Acc.grow r n) = .ok (x, r')) :
    Acc.FillSpec dat (Acc.grow r n) r' x ∧ Acc.win (Acc.grow r n) = Acc.win r ∧
      (0 < n → (Acc.win r).length < (Acc.grow r n).buf.length) := by
  obtain ⟨g1, g2⟩ := Acc.grow_inv hi n
  obtain ⟨x', r'', f1, f2⟩ := Acc.fillBuf_spec g1
  rw [f1] at h
  cases h
  refine ⟨f2, g2, ?_⟩
  intro hn
  rw [Acc.win_length hi]
  have := hi.eb
  simp only [Acc.grow, List.length_append, List.length_replicate]; omega

theorem Round.inv {dat : List U8} {dm : Demuxer D Acc.Acc} (hd : UsesApi dm) {c c' : Context D Acc.Acc}
    (h : Round dm accBuffered c c') (hi : Acc.Inv dat c.reader) : Acc.Inv dat c'.reader := by
  cases h with
  | again h1 => exact h1.inv hd hi
  | more h1 h2 h3 h4 => exact (fill_grown (h1.inv hd hi) h4).1.inv

theorem Rounds.inv {dat : List U8} {dm : Demuxer D Acc.Acc} (hd : UsesApi dm) {c c' : Context D Acc.Acc}
    (h : Rounds dm accBuffered c c') (hi : Acc.Inv dat c.reader) : Acc.Inv dat c'.reader := by
  induction h with
  | refl => exact hi
  | step h _ ih => exact ih (h.inv hd hi)

/-- C34 over `AccReader`: unless the demuxer itself says `Eof`, it is returned only when the demuxer asked
for more than is buffered and everything the stream holds from the current position on is buffered. -/
theorem c34_acc (dm : Demuxer D Acc.Acc) (hd : UsesApi dm) (dat : List U8) (cap : Nat) (script : Nat → Act)
    (ops : List Acc.Op) (os : List Acc.Out) (fuel : Nat) (c c' : Context D Acc.Acc)
    (hr : Acc.Reachable dat cap script ops os c.reader)
    (h : readEvent dm accBuffered fuel c = .ok (.ok .Eof, c')) :
    (∃ d r sk d' r', dm.readEvent d r = .ok (.ok (sk, .Eof), d', r')) ∨
    ∃ c0 n c1 w, Asks dm accBuffered c0 n c1 ∧ Acc.data c1.reader = .ok w ∧ w.length < n ∧
      Acc.data c'.reader = .ok w ∧ Acc.StandsAt dat c'.reader c'.reader.index ∧
      w = dat.drop c'.reader.index := by
  obtain ⟨c0, h1, h2⟩ := readEvent_spec fuel h
  rcases h2 with h2 | h2
  · left
    generalize hx : (Except.ok Event.Eof : Except Err Event) = x at h2
    cases h2 with
    | error => cases hx
    | seekError => cases hx
    | event a1 a2 a3 =>
      cases hx
      cases a3
      exact ⟨_, _, _, _, _, a1⟩
  · right
    generalize hx : (Except.ok Event.Eof : Except Err Event) = x at h2
    cases h2 with
    | readError => cases hx
    | @eof n c1 w l r w' a1 a2 a3 a4 a5 a6 =>
      have hi1 := a1.inv hd (h1.inv hd hr.inv.1)
      obtain ⟨f, g, e⟩ := fill_grown hi1 a4
      have a2' : Acc.data c1.reader = .ok w := a2
      have a5' : Acc.data r = .ok w' := a5
      rw [Acc.data_ok hi1] at a2'
      rw [Acc.data_ok f.inv] at a5'
      cases a2'; cases a5'
      obtain ⟨s1, s2, s3⟩ := f.shown l rfl
      rw [g] at s2 s3
      have hw : l = Acc.win c1.reader := by
        rw [← s1] at a6
        exact (s2.eq_of_length_le a6).symm
      have hend := s3 hw (e (by omega))
      have hat : Acc.At dat r.index (Acc.win r) := f.inv.at
      have hidx : r.index = (Acc.grow c1.reader n).index := f.index
      refine ⟨c0, n, c1, _, a1, a2, a3, ?_, f.inv.standsAt, ?_⟩
      · rw [Acc.data_ok f.inv, ← s1, hw]
      · rw [← hw, s1]
        rw [hat, List.take_of_length_le]
        rw [← s1, hw, List.length_drop, hidx]
        omega

theorem windowDemuxer_api (hd ev) : UsesApi (D := D) (windowDemuxer hd ev) := by
  constructor
  · intro d r x d' r' h
    simp only [windowDemuxer] at h
    cases h1 : Acc.data r with
    | error e => rw [h1] at h; cases h
    | ok w => rw [h1] at h; cases h; exact ⟨0, [], [], rfl⟩
  · intro d r i x d' r' i' h
    simp only [windowDemuxer] at h
    cases h1 : Acc.data r with
    | error e => rw [h1] at h; cases h
    | ok w => rw [h1] at h; cases h; exact ⟨0, [], [], rfl⟩

/-- A stream ending inside a record: the demuxer never says `Eof`, the context does. -/
def truncated : Context Unit Acc.Acc := Context.new () (Acc.withCapacity 1 ⟨[5, 1, 2], 0, sampleActs, 0⟩)

example : UsesApi sampleDemuxer ∧ Acc.Reachable [5, 1, 2] 1 sampleActs [] [] truncated.reader ∧
    ∃ c', readEvent sampleDemuxer accBuffered 20 truncated = .ok (.ok .Eof, c') := by
  refine ⟨windowDemuxer_api _ _, ⟨⟨[5, 1, 2], 0, sampleActs, 0⟩, 0, rfl, rfl, rfl, rfl⟩, ?_⟩
  have h : (match readEvent sampleDemuxer accBuffered 20 truncated with
      | .ok (.ok .Eof, _) => true
      | _ => false) = true := by decide +kernel
  split at h
  · rename_i c' e
    exact ⟨c', e⟩
  · cases h

end Verif.Demux
