import Verif.Conform.Format
import Verif.Demux.Heading

/-!
# Property C179: muxers that unwrap, and the two formats of the library's own tests

The muxer in the tests of `muxer.rs` does not hand the errors of its sink on but unwraps them. The demuxer in the tests of
`demuxer.rs` takes the headers to be nine bytes long, while the header that muxer writes has twelve, as has that of the stream
which the test of `read_event` reads.
-/

namespace Verif.Conform
open Verif Verif.Io Verif.Demux Verif.Mux Verif.Packet

variable {M W : Type}

/-! ### muxers that unwrap -/

/-- The muxer that panics where `mx` returns an error of a write: `out.write_all(…).unwrap()` for `out.write_all(…)?` (muxer.rs:231-247). -/
def unwrapping (mx : Muxer M W) : Muxer M W :=
  let unwrap := fun (x : Rust (Except Err Unit × M × Writer W)) => (do
    let (x, m, w) ← x
    match x with
    | .error _ => .error .unwrap
    | .ok () => .ok (.ok (), m, w) : Rust (Except Err Unit × M × Writer W))
  { mx with
    writeHeader := fun m w => unwrap (mx.writeHeader m w)
    writePacket := fun m w p => unwrap (mx.writePacket m w p)
    writeTrailer := fun m w => unwrap (mx.writeTrailer m w) }

/-- The muxer returns an error of header, packet or trailer. -/
inductive Refuses (mx : Muxer M W) (c : Mux.Context M W) : Op → Prop
  | header {e m w} : mx.writeHeader c.muxer c.writer = .ok (.error e, m, w) → Refuses mx c .header
  | packet {p e m w} : mx.writePacket c.muxer c.writer p = .ok (.error e, m, w) → Refuses mx c (.packet p)
  | trailer {e m w} : mx.writeTrailer c.muxer c.writer = .ok (.error e, m, w) → Refuses mx c .trailer

/-- A history of calls none of which the muxer refuses. -/
inductive Smooth (so : SinkOps W) (mx : Muxer M W) : Mux.Context M W → List Op → List (Except Err Unit) → Mux.Context M W → Prop
  | nil {c} : Smooth so mx c [] [] c
  | cons {c op x c1 ops xs c'} : c.step so mx op = .ok (x, c1) → ¬ Refuses mx c op → Smooth so mx c1 ops xs c' →
      Smooth so mx c (op :: ops) (x :: xs) c'

theorem unwrapping_refused {so : SinkOps W} {mx : Muxer M W} {c : Mux.Context M W} {op : Op} (h : Refuses mx c op) :
    c.step so (unwrapping mx) op = .error .unwrap := by
  cases h with
  | header h => simp only [Context.step, Context.writeHeader, unwrapping, h, ok_bind, error_bind]
  | packet h => simp only [Context.step, Context.writePacket, unwrapping, h, ok_bind, error_bind]
  | trailer h => simp only [Context.step, Context.writeTrailer, unwrapping, h, ok_bind, error_bind]

theorem unwrapping_step {so : SinkOps W} {mx : Muxer M W} {c : Mux.Context M W} {op : Op} (h : ¬ Refuses mx c op) :
    c.step so (unwrapping mx) op = c.step so mx op := by
  cases op with
  | configure => rfl
  | info i => rfl
  | option k v => rfl
  | header =>
    simp only [Context.step, Context.writeHeader, unwrapping]
    cases h1 : mx.writeHeader c.muxer c.writer with
    | error e => rfl
    | ok v =>
      obtain ⟨x, m, w⟩ := v
      cases x with
      | error e => exact absurd (.header h1) h
      | ok u => rfl
  | packet p =>
    simp only [Context.step, Context.writePacket, unwrapping]
    cases h1 : mx.writePacket c.muxer c.writer p with
    | error e => rfl
    | ok v =>
      obtain ⟨x, m, w⟩ := v
      cases x with
      | error e => exact absurd (.packet h1) h
      | ok u => rfl
  | trailer =>
    simp only [Context.step, Context.writeTrailer, unwrapping]
    cases h1 : mx.writeTrailer c.muxer c.writer with
    | error e => rfl
    | ok v =>
      obtain ⟨x, m, w⟩ := v
      cases x with
      | error e => exact absurd (.trailer h1) h
      | ok u => rfl

/-- **C179** For any muxer, sink and history of calls: the muxer that unwraps returns what the one that hands errors on
returns if no write fails (an error of the flush behind the trailer is returned by both), -/
theorem c179_returns (so : SinkOps W) (mx : Muxer M W) (ops : List Op) : ∀ (c c' : Mux.Context M W) (xs : List (Except Err Unit)),
    c.run so (unwrapping mx) ops = .ok (xs, c') ↔ Smooth so mx c ops xs c' := by
  induction ops with
  | nil =>
    intro c c' xs
    constructor
    · intro h; cases h; exact .nil
    · intro h; cases h; rfl
  | cons op ops ih =>
    intro c c' xs
    constructor
    · intro h
      by_cases hr : Refuses mx c op
      · simp only [Context.run, unwrapping_refused hr, error_bind] at h
        cases h
      · simp only [Context.run, unwrapping_step hr] at h
        cases h1 : c.step so mx op with
        | error e => rw [h1] at h; cases h
        | ok v =>
          obtain ⟨x, c1⟩ := v
          simp only [h1, ok_bind] at h
          cases h2 : c1.run so (unwrapping mx) ops with
          | error e => rw [h2] at h; cases h
          | ok v =>
            obtain ⟨ys, c2⟩ := v
            rw [h2] at h
            cases h
            exact .cons h1 hr ((ih c1 _ ys).1 h2)
    · intro h
      cases h with
      | cons h1 h2 h3 => simp only [Context.run, unwrapping_step h2, h1, ok_bind, (ih _ _ _).2 h3, pure_eq_ok]

/-- **C179** and it panics, at the first write that fails, if one does. -/
theorem c179_panics (so : SinkOps W) (mx : Muxer M W) (ops : List Op) : ∀ (c : Mux.Context M W),
    (∀ (d : Mux.Context M W) (op : Op), d.step so mx op ≠ .error .unwrap) →
    (c.run so (unwrapping mx) ops = .error .unwrap ↔
      ∃ pre op post xs c1, ops = pre ++ op :: post ∧ Smooth so mx c pre xs c1 ∧ Refuses mx c1 op) := by
  induction ops with
  | nil =>
    intro c _
    constructor
    · intro h; cases h
    · rintro ⟨pre, op, post, xs, c1, h, _⟩
      cases pre <;> cases h
  | cons op ops ih =>
    intro c hq
    constructor
    · intro h
      by_cases hr : Refuses mx c op
      · exact ⟨[], op, ops, [], c, rfl, .nil, hr⟩
      · simp only [Context.run, unwrapping_step hr] at h
        cases h1 : c.step so mx op with
        | error e =>
          rw [h1] at h
          cases h
          exact absurd h1 (hq c op)
        | ok v =>
          obtain ⟨x, c1⟩ := v
          simp only [h1, ok_bind] at h
          cases h2 : c1.run so (unwrapping mx) ops with
          | ok v => rw [h2] at h; cases h
          | error e =>
            rw [h2] at h
            cases h
            obtain ⟨pre, op', post, xs, c2, rfl, g1, g2⟩ := (ih c1 hq).1 h2
            exact ⟨op :: pre, op', post, x :: xs, c2, rfl, .cons h1 hr g1, g2⟩
    · rintro ⟨pre, op', post, xs, c1, h, h1, h2⟩
      cases h1 with
      | nil =>
        cases h
        simp only [Context.run, unwrapping_refused h2, error_bind]
      | cons g1 g2 g3 =>
        cases h
        simp only [Context.run, unwrapping_step g2, g1, ok_bind, (ih _ hq).2 ⟨_, _, _, _, _, rfl, g3, h2⟩, error_bind]

/-! ### the muxer of the tests -/

/-- The bytes of a file of that muxer (muxer.rs:232, 238, 243). -/
def dummyFile (ps : List Packet) : List U8 := ascii "Dummy header" ++ (ps.map (·.data)).flatten ++ ascii "Dummy trailer"

/-- The same muxer handing errors on. -/
def passing (fuel : Nat) : Muxer Unit Sink :=
  bytesMuxer fuel (fun m => (ascii "Dummy header", m)) (fun m p => (p.data, m)) (fun m => (ascii "Dummy trailer", m))

theorem dummy_unwrapping (fuel : Nat) : dummyMuxer fuel = unwrapping (passing fuel) := by
  have h : ∀ (b : List U8) (w : Writer Sink), writeAllUnwrap fuel b w = (do
      let (x, m, w) ← (do
        let (x, w) ← writeAll (Writer.write sinkOps) fuel w b
        match x with
        | .ok () => .ok (.ok (), (), w)
        | .error e => .ok (.error (.Io e), (), w) : Rust (Except Err Unit × Unit × Writer Sink))
      match x with
      | .error _ => .error .unwrap
      | .ok () => .ok (.ok (), m, w) : Rust (Except Err Unit × Unit × Writer Sink)) := by
    intro b w
    simp only [writeAllUnwrap]
    cases writeAll (Writer.write sinkOps) fuel w b with
    | error e => rfl
    | ok v =>
      obtain ⟨x, w⟩ := v
      cases x <;> rfl
  simp only [dummyMuxer, unwrapping, passing, bytesMuxer, h]
  rfl

theorem smooth_of_ok {so : SinkOps W} {mx : Muxer M W} {ops : List Op} : ∀ {c c' : Mux.Context M W} {xs : List (Except Err Unit)},
    c.run so mx ops = .ok (xs, c') → (∀ x ∈ xs, x = .ok ()) → Smooth so mx c ops xs c' := by
  induction ops with
  | nil => intro c c' xs h _; cases h; exact .nil
  | cons op ops ih =>
    intro c c' xs h hx
    simp only [Context.run] at h
    cases h1 : c.step so mx op with
    | error e => rw [h1] at h; cases h
    | ok v =>
      obtain ⟨x, c1⟩ := v
      simp only [h1, ok_bind] at h
      cases h2 : c1.run so mx ops with
      | error e => rw [h2] at h; cases h
      | ok v =>
        obtain ⟨ys, c2⟩ := v
        rw [h2] at h
        cases h
        have hx1 : x = .ok () := hx x (by simp)
        subst hx1
        refine .cons h1 ?_ (ih h2 fun y hy => hx y (by simp [hy]))
        intro hr
        cases hr with
        | header hr => simp only [Context.step, Context.writeHeader, hr, ok_bind, pure_eq_ok] at h1; cases h1
        | packet hr => simp only [Context.step, Context.writePacket, hr, ok_bind, pure_eq_ok] at h1; cases h1
        | trailer hr => simp only [Context.step, Context.writeTrailer, hr, ok_bind] at h1; cases h1

theorem dummy_bytes (ps : List Packet) : fileBytes (fun m : Unit => (ascii "Dummy header", m)) (fun m p => (p.data, m))
    (fun m => (ascii "Dummy trailer", m)) () ps = dummyFile ps := by
  have h : ∀ (ps : List Packet) (m : Unit), (packetBytes (fun (m : Unit) p => (p.data, m)) m ps).1 = (ps.map (·.data)).flatten := by
    intro ps
    induction ps with
    | nil => intro m; rfl
    | cons p ps ih => intro m; simp only [packetBytes, ih, List.map_cons, List.flatten_cons]
  simp only [fileBytes, h, dummyFile]

/-- **C179** The muxer of the tests of `muxer.rs`, as `run_muxer` calls it there, with any packets: on an empty sink that does
not fail, however short its writes, every call succeeds and a whole file arrives, flushed once. -/
theorem c179_file (fuel : Nat) (s : Sink) (h0 : s.data = [] ∧ s.pos = 0)
    (hq : ∀ c, (s.script c).fail = none ∧ 0 < (s.script c).len) (ps : List Packet) (hf : (dummyFile ps).length < fuel) :
    ∃ c, (Mux.Context.new () (Writer.new s)).run sinkOps (dummyMuxer fuel)
        (.configure :: .header :: ps.map .packet ++ [.trailer]) = .ok (List.replicate (ps.length + 3) (.ok ()), c) ∧
      c.intoWriter.writer.data = dummyFile ps ∧ c.intoWriter.position = (dummyFile ps).length ∧
      c.intoWriter.writer.flushes = s.flushes + 1 := by
  obtain ⟨c, h1, h2⟩ := c39_file fuel (fun m : Unit => (ascii "Dummy header", m)) (fun m p => (p.data, m))
    (fun m => (ascii "Dummy trailer", m)) () s h0 hq ps (by rw [dummy_bytes]; exact hf)
  rw [dummy_bytes] at h2
  refine ⟨c, ?_, h2⟩
  have hs := smooth_of_ok h1 (fun x hx => (List.mem_replicate.1 hx).2)
  rw [dummy_unwrapping]
  refine (c179_returns sinkOps (passing fuel) _ _ _ _).2 ?_
  rw [show ps.length + 3 = (ps.length + 2) + 1 from rfl, List.replicate_succ]
  exact .cons (c1 := Mux.Context.new () (Writer.new s)) rfl (fun h => by cases h) hs

theorem writeAll_quiet (fuel : Nat) : ∀ (w : Writer Sink) (l : List U8),
    writeAll (Writer.write sinkOps) fuel w l ≠ .error .unwrap := by
  induction fuel with
  | zero => intro w l h; cases h
  | succ fuel ih =>
    intro w l
    unfold writeAll
    split
    · exact fun h => nomatch h
    · obtain ⟨x, w', hw⟩ : ∃ x w', Writer.write sinkOps w l = .ok (x, w') := by
        simp only [Writer.write, sinkOps, ok_bind]
        split <;> exact ⟨_, _, rfl⟩
      rw [hw]
      cases x with
      | error e => cases e <;> first | exact ih _ _ | exact fun h => nomatch h
      | ok k =>
        cases k with
        | zero => exact fun h => nomatch h
        | succ k =>
          simp only [ok_bind, sliceFrom]
          split
          · exact ih _ _
          · exact fun h => nomatch h

theorem passing_quiet (fuel : Nat) (d : Mux.Context Unit Sink) (op : Op) : d.step sinkOps (passing fuel) op ≠ .error .unwrap := by
  have hput : ∀ (b : List U8) (w : Writer Sink), (do
      let (x, w) ← writeAll (Writer.write sinkOps) fuel w b
      match x with
      | .ok () => .ok (.ok (), (), w)
      | .error e => .ok (.error (.Io e), (), w) : Rust (Except Err Unit × Unit × Writer Sink)) ≠ .error .unwrap := by
    intro b w h
    cases h1 : writeAll (Writer.write sinkOps) fuel w b with
    | error e =>
      rw [h1] at h
      cases h
      exact writeAll_quiet fuel w b h1
    | ok v =>
      obtain ⟨x, w'⟩ := v
      rw [h1] at h
      cases x <;> cases h
  intro h
  cases op with
  | configure => cases h
  | info i => cases h
  | option k v => cases h
  | header =>
    simp only [Context.step, Context.writeHeader] at h
    cases h1 : (passing fuel).writeHeader d.muxer d.writer with
    | error e => rw [h1] at h; cases h; exact hput _ _ h1
    | ok v => rw [h1] at h; cases h
  | packet p =>
    simp only [Context.step, Context.writePacket] at h
    cases h1 : (passing fuel).writePacket d.muxer d.writer p with
    | error e => rw [h1] at h; cases h; exact hput _ _ h1
    | ok v => rw [h1] at h; cases h
  | trailer =>
    simp only [Context.step, Context.writeTrailer] at h
    cases h1 : (passing fuel).writeTrailer d.muxer d.writer with
    | error e => rw [h1] at h; cases h; exact hput _ _ h1
    | ok v =>
      obtain ⟨x, m, w⟩ := v
      rw [h1] at h
      cases x with
      | error e => cases h
      | ok u =>
        obtain ⟨y, w', hw⟩ : ∃ y w', Writer.flush sinkOps w = .ok (y, w') := ⟨_, _, rfl⟩
        simp only [ok_bind, hw] at h
        cases y <;> cases h

/-- **C179** The muxer of the tests panics, over any sink and in any history of calls, exactly if a `write_all` of it fails. -/
theorem c179_unwraps (fuel : Nat) (c : Mux.Context Unit Sink) (ops : List Op) :
    c.run sinkOps (dummyMuxer fuel) ops = .error .unwrap ↔
      ∃ pre op post xs c1, ops = pre ++ op :: post ∧ Smooth sinkOps (passing fuel) c pre xs c1 ∧ Refuses (passing fuel) c1 op := by
  rw [dummy_unwrapping]
  exact c179_panics sinkOps (passing fuel) ops c (passing_quiet fuel)

/-! ### the demuxer of the tests -/

theorem dummy_header_settled : SettledHeader dummyHeader where
  stable := by
    intro d i w u h
    have hw : ¬ 9 > w.length := by
      intro hw
      exact absurd (by simp only [dummyHeader, if_pos hw]) (h (9 - w.length))
    simp only [dummyHeader, if_neg hw]
    rw [if_neg (show ¬ 9 > (w ++ u).length by rw [List.length_append]; omega)]
  asks := fun _ _ _ _ _ => rfl
  forward := by
    intro d i w k h
    simp only [dummyHeader] at h
    split at h
    · cases h
    · cases h; decide

/-- The bytes behind the first nine are no packet. -/
def Misread (dat : List U8) : Prop :=
  2 ≤ (dat.drop 9).length ∧ (dat.drop 9).take 2 ≠ [112, 49] ∧ (dat.drop 9).take 2 ≠ [101, 49]

/-- It is exactly what makes the event behind the header invalid. -/
theorem misread_iff (dat : List U8) : Misread dat ↔ stepAt dummyEvent dat () 9 = .done (.error .InvalidData) () 9 := by
  unfold Misread
  simp only [stepAt, dummyEvent]
  constructor
  · intro h
    rw [if_neg (show ¬ 2 > (dat.drop 9).length by have := h.1; omega), if_neg h.2.1, if_neg h.2.2]
  · intro h
    by_cases h1 : 2 > (dat.drop 9).length
    · rw [if_pos h1] at h; cases h
    · rw [if_neg h1] at h
      by_cases h2 : (dat.drop 9).take 2 = [112, 49]
      · rw [if_pos h2] at h
        dsimp only at h
        split at h <;> cases h
      · rw [if_neg h2] at h
        by_cases h3 : (dat.drop 9).take 2 = [101, 49]
        · rw [if_pos h3] at h
          dsimp only at h
          split at h <;> cases h
        · exact ⟨by omega, h2, h3⟩

theorem misread_events {dat : List U8} (h : Misread dat) (fuel n : Nat) : ∀ (c c' : Demux.Context Unit Acc.Acc)
    (xs : List (Except Err Event)), Acc.Inv dat c.reader → (∀ k, (c.reader.inner.script k).fail = none) → c.reader.index = 9 →
    readEvents dummyDemuxer accBuffered fuel n c = .ok (xs, c') → xs = List.replicate n (.error .InvalidData) := by
  induction n with
  | zero => intro c c' xs _ _ _ hx; cases hx; rfl
  | succ n ih =>
    intro c c' xs hi hs hidx hx
    simp only [readEvents] at hx
    cases h1 : readEvent dummyDemuxer accBuffered fuel c with
    | error e => rw [h1] at hx; cases hx
    | ok v =>
      obtain ⟨x, c1⟩ := v
      simp only [h1, ok_bind] at hx
      cases h2 : readEvents dummyDemuxer accBuffered fuel n c1 with
      | error e => rw [h2] at hx; cases hx
      | ok v =>
        obtain ⟨ys, c2⟩ := v
        rw [h2] at hx
        cases hx
        rw [dummy_window] at h1
        obtain ⟨g1, g2, ⟨g3, _⟩ | ⟨f, x0, d', q, g3, g4, g5, g6, _⟩⟩ := asking_sound dummy_settled dat fuel c c1 x hi h1
        · exact absurd hs g3
        · cases f with
          | zero => cases g3
          | succ f =>
            have hstep : stepAt dummyEvent dat c.demuxer 9 = .done (.error .InvalidData) () 9 := by
              simp only [stepAt, dummyEvent]
              rw [if_neg (show ¬ 2 > (dat.drop 9).length by have := h.1; omega), if_neg h.2.1, if_neg h.2.2]
            rw [hidx] at g3
            simp only [found, hstep] at g3
            cases g3
            rw [ih c1 c2 ys g1 (by rw [g2]; exact hs) g6 h2, g4, List.replicate_succ]
            rfl

/-- **C179** The demuxer of the tests of `demuxer.rs` on any file whose tenth byte does not begin a packet, through an
`AccReader` of any capacity and from any reader that does not fail: `read_headers` succeeds, and whatever calls of `read_event`
return, they return `InvalidData`. -/
theorem c179_misread (dat : List U8) (h : Misread dat) (cap : Nat) (script : Nat → Act) (hs : ∀ k, (script k).fail = none) :
    ∃ c, readHeaders dummyDemuxer accBuffered (dat.length + 2) (Demux.Context.new () (Acc.withCapacity cap ⟨dat, 0, script, 0⟩)) =
        .ok (.ok (), c) ∧
      ∀ fuel n xs c', readEvents dummyDemuxer accBuffered fuel n c = .ok (xs, c') → xs = List.replicate n (.error .InvalidData) := by
  have hr : Acc.Reachable dat cap script [] [] (Acc.withCapacity cap ⟨dat, 0, script, 0⟩) := ⟨_, 0, rfl, rfl, rfl, rfl⟩
  have hlen : ¬ 9 > dat.length := by have := h.1; rw [List.length_drop] at this; omega
  have hall : ∀ i, dummyHeader () i (dat.drop 0) = (.ok (.current 9), (), i) := by
    intro i
    simp only [List.drop_zero, dummyHeader, if_neg hlen]
  obtain ⟨x, c, g⟩ := (c178_returns dummyHeader dummyEvent dummy_header_settled (by
      intro d i w
      simp only [dummyHeader]
      split
      · intro h
        simp only [Except.error.injEq, Err.MoreDataNeeded.injEq] at h
        omega
      · exact fun h => nomatch h) dat cap script hs [] [] (Demux.Context.new () _) hr 0 hr.inv.1.standsAt).2 (by
    intro m hm
    simp only [Demux.Context.new] at hm
    rw [hall] at hm
    cases hm)
  obtain ⟨g1, g5, ⟨g2, _⟩ | ⟨y, g2, rfl, _, g4⟩⟩ := heading_sound dummy_header_settled dat _ _ c x hr.inv.1 g
  · exact absurd hs g2
  · simp only [Demux.Context.new] at g2 g4 g5
    rw [hall] at g2
    simp only [Prod.mk.injEq] at g2
    obtain ⟨rfl, -, -⟩ := g2
    have hidx : c.reader.index = 9 := g4 hs
    refine ⟨c, g, fun fuel n xs c' hx => misread_events h fuel n c c' xs g1 (by rw [g5]; exact hs) hidx hx⟩

/-- **C179** So of a file that the muxer of the tests has written, with any packets, their demuxer returns none: -/
theorem c179_unread (ps : List Packet) (cap : Nat) (script : Nat → Act) (hs : ∀ k, (script k).fail = none) :
    ∃ c, readHeaders dummyDemuxer accBuffered ((dummyFile ps).length + 2)
        (Demux.Context.new () (Acc.withCapacity cap ⟨dummyFile ps, 0, script, 0⟩)) = .ok (.ok (), c) ∧
      ∀ fuel n xs c', readEvents dummyDemuxer accBuffered fuel n c = .ok (xs, c') → xs = List.replicate n (.error .InvalidData) := by
  have hd : (dummyFile ps).drop 9 = 100 :: 101 :: 114 :: ((ps.map (·.data)).flatten ++ ascii "Dummy trailer") := by
    have : ascii "Dummy header" = [68, 117, 109, 109, 121, 32, 104, 101, 97, 100, 101, 114] := by decide +kernel
    rw [dummyFile, this]
    rfl
  refine c179_misread _ ⟨?_, ?_, ?_⟩ cap script hs
  · rw [hd]; simp only [List.length_cons]; omega
  · rw [hd]; simp only [List.take_succ_cons, List.take_zero]; decide
  · rw [hd]; simp only [List.take_succ_cons, List.take_zero]; decide

/-- nor of the stream in the test of `read_event` (demuxer.rs:325), whatever the capacity. -/
theorem c179_test (cap : Nat) : ∃ c, readHeaders dummyDemuxer accBuffered 24
      (Demux.Context.new () (Acc.withCapacity cap (cursor (ascii "dummy header p1 e1 p1 ")))) = .ok (.ok (), c) ∧
    ∀ fuel n xs c', readEvents dummyDemuxer accBuffered fuel n c = .ok (xs, c') → xs = List.replicate n (.error .InvalidData) :=
  c179_misread (ascii "dummy header p1 e1 p1 ") (by unfold Misread; decide +kernel) cap _ (fun _ => rfl)

/-! ### examples -/

/-- A sink that fails after its first byte: the header is refused, and the muxer that unwraps panics. -/
def brokenSink : Sink := ⟨[], 0, fun k => ⟨if k = 0 then none else some (.other 5), 1⟩, 0, 0⟩

example : (match (Mux.Context.new () (Writer.new brokenSink)).run sinkOps (dummyMuxer 99) [.configure, .header, .trailer] with
    | .error .unwrap => true
    | _ => false) = true := by decide +kernel

example : (match (Mux.Context.new () (Writer.new brokenSink)).run sinkOps (passing 99) [.configure, .header, .trailer] with
    | .ok ([.ok (), .error (.Io (.other 5)), .error (.Io (.other 5))], c) => decide (c.writer.writer.data = [68])
    | _ => false) = true := by decide +kernel

end Verif.Conform
