import Verif.Mux.Model

/-!
# Properties C38 to C40
-/

namespace Verif.Mux
open Verif Verif.Io Verif.Stream Verif.Packet Verif.Value
open Verif.Demux (Err)

variable {M W : Type} {so : SinkOps W} {mx : Muxer M W}

/-! ### C38 -/

/-- `pos` is the position of the sink: writes advance it by what they took, seeks set it to what they
return, failures and flushes leave it. -/
structure Honest (so : SinkOps W) (pos : W → Nat) : Prop where
  write_ok : ∀ w l k w', so.write w l = .ok (.ok k, w') → pos w' = pos w + k
  write_err : ∀ w l e w', so.write w l = .ok (.error e, w') → pos w' = pos w
  flush : ∀ w x w', so.flush w = .ok (x, w') → pos w' = pos w
  seek_ok : ∀ w sf n w', so.seek w sf = .ok (.ok n, w') → pos w' = n
  seek_err : ∀ w sf e w', so.seek w sf = .ok (.error e, w') → pos w' = pos w

theorem wstep_cases {w w' : Writer W} {op : WOp} {o : WOut} (h : wstep so w op = .ok (o, w')) :
    (∃ l k, op = .write l ∧ o = .written k ∧ so.write w.writer l = .ok (.ok k, w'.writer) ∧
      w'.bytes_written = w.bytes_written + k) ∨
    (∃ l e, op = .write l ∧ o = .err e ∧ so.write w.writer l = .ok (.error e, w'.writer) ∧
      w'.bytes_written = w.bytes_written) ∨
    (∃ x, op = .flush ∧ so.flush w.writer = .ok (x, w'.writer) ∧ w'.bytes_written = w.bytes_written ∧
      (x = .ok () ∧ o = .flushed ∨ ∃ e, x = .error e ∧ o = .err e)) ∨
    (∃ sf n, op = .seek sf ∧ o = .pos n ∧ so.seek w.writer sf = .ok (.ok n, w'.writer) ∧ w'.bytes_written = n) ∨
    (∃ sf e, op = .seek sf ∧ o = .err e ∧ so.seek w.writer sf = .ok (.error e, w'.writer) ∧
      w'.bytes_written = w.bytes_written) := by
  cases op with
  | write l =>
    simp only [wstep, Writer.write] at h
    cases h1 : so.write w.writer l with
    | error e => rw [h1] at h; cases h
    | ok v =>
      obtain ⟨x, s⟩ := v
      rw [h1] at h
      cases x with
      | ok k => cases h; exact .inl ⟨l, k, rfl, rfl, h1, rfl⟩
      | error e => cases h; exact .inr (.inl ⟨l, e, rfl, rfl, h1, rfl⟩)
  | flush =>
    simp only [wstep, Writer.flush] at h
    cases h1 : so.flush w.writer with
    | error e => rw [h1] at h; cases h
    | ok v =>
      obtain ⟨x, s⟩ := v
      rw [h1] at h
      cases x with
      | ok k => cases h; exact .inr (.inr (.inl ⟨_, rfl, rfl, rfl, .inl ⟨rfl, rfl⟩⟩))
      | error e => cases h; exact .inr (.inr (.inl ⟨_, rfl, rfl, rfl, .inr ⟨e, rfl, rfl⟩⟩))
  | seek sf =>
    simp only [wstep, Writer.seek] at h
    cases h1 : so.seek w.writer sf with
    | error e => rw [h1] at h; cases h
    | ok v =>
      obtain ⟨x, s⟩ := v
      rw [h1] at h
      cases x with
      | ok n => cases h; exact .inr (.inr (.inr (.inl ⟨sf, n, rfl, rfl, h1, rfl⟩)))
      | error e => cases h; exact .inr (.inr (.inr (.inr ⟨sf, e, rfl, rfl, h1, rfl⟩)))

theorem wrun_induct {P : Writer W → Prop} (hstep : ∀ w op o w', P w → wstep so w op = .ok (o, w') → P w') :
    ∀ (ops : List WOp) (os : List WOut) (w w' : Writer W), P w → wrun so w ops = .ok (os, w') → P w' := by
  intro ops
  induction ops with
  | nil => intro os w w' hp h; cases h; exact hp
  | cons op ops ih =>
    intro os w w' hp h
    simp only [wrun] at h
    cases h1 : wstep so w op with
    | error e => rw [h1] at h; cases h
    | ok v =>
      obtain ⟨o, w1⟩ := v
      simp only [h1, ok_bind] at h
      cases h2 : wrun so w1 ops with
      | error e => rw [h2] at h; cases h
      | ok v =>
        obtain ⟨os', w2⟩ := v
        simp only [h2, ok_bind, pure_eq_ok] at h
        cases h
        exact ih _ _ _ (hstep _ _ _ _ hp h1) h2

/-- C38. Over any sink that starts at position 0, after any history of writes, flushes and seeks, short or
failing, the writer's position is the sink's, and `as_ref` shows the sink with it. -/
theorem c38_position (so : SinkOps W) (pos : W → Nat) (hh : Honest so pos) (s : W) (h0 : pos s = 0)
    (ops : List WOp) (os : List WOut) (w : Writer W) (h : wrun so (Writer.new s) ops = .ok (os, w)) :
    w.position = pos w.writer ∧ w.asRef = (w.writer, pos w.writer) := by
  suffices hw : w.position = pos w.writer by
    refine ⟨hw, ?_⟩
    rw [Writer.asRef, ← hw, Writer.position]
  refine wrun_induct (P := fun w => w.position = pos w.writer) ?_ ops os _ _ ?_ h
  · intro w op o w' hp hs
    unfold Writer.position at *
    rcases wstep_cases hs with ⟨l, k, _, _, a, b⟩ | ⟨l, e, _, _, a, b⟩ | ⟨x, _, a, b, _⟩ | ⟨sf, n, _, _, a, b⟩ |
      ⟨sf, e, _, _, a, b⟩
    · rw [b, hp, hh.write_ok _ _ _ _ a]
    · rw [b, hp, hh.write_err _ _ _ _ a]
    · rw [b, hp, hh.flush _ _ _ a]
    · rw [b, hh.seek_ok _ _ _ _ a]
    · rw [b, hp, hh.seek_err _ _ _ _ a]
  · exact h0.symm

/-- The position a client computes from what the calls returned. -/
def track : Nat → List WOut → Nat
  | p, [] => p
  | p, .written n :: os => track (p + n) os
  | _, .pos n :: os => track n os
  | p, .flushed :: os => track p os
  | p, .err _ :: os => track p os

/-- C38, part 2, for any sink at all: the position is the one the results of the calls say; in particular
failed operations do not change it. -/
theorem c38_results (so : SinkOps W) (ops : List WOp) (os : List WOut) (w w' : Writer W)
    (h : wrun so w ops = .ok (os, w')) : w'.position = track w.position os := by
  induction ops generalizing w os with
  | nil => cases h; rfl
  | cons op ops ih =>
    simp only [wrun] at h
    cases h1 : wstep so w op with
    | error e => rw [h1] at h; cases h
    | ok v =>
      obtain ⟨o, w1⟩ := v
      simp only [h1, ok_bind] at h
      cases h2 : wrun so w1 ops with
      | error e => rw [h2] at h; cases h
      | ok v =>
        obtain ⟨os', w2⟩ := v
        simp only [h2, ok_bind, pure_eq_ok] at h
        cases h
        rw [ih _ _ h2]
        unfold Writer.position
        rcases wstep_cases h1 with ⟨l, k, _, rfl, a, b⟩ | ⟨l, e, _, rfl, a, b⟩ | ⟨x, _, a, b, ⟨_, rfl⟩ | ⟨e, _, rfl⟩⟩ |
          ⟨sf, n, _, rfl, a, b⟩ | ⟨sf, e, _, rfl, a, b⟩ <;> simp only [track, b]

/-- The scripted sink. -/
def sinkOps : SinkOps Sink where
  write s l := .ok (s.write l)
  flush s := .ok s.flush
  seek s sf := .ok (s.seek sf)

theorem sink_honest : Honest sinkOps Sink.pos := by
  refine ⟨?_, ?_, ?_, ?_, ?_⟩
  · intro w l k w' h
    simp only [sinkOps, Sink.write] at h
    split at h
    · cases h
    · cases h; rfl
  · intro w l e w' h
    simp only [sinkOps, Sink.write] at h
    split at h
    · cases h; rfl
    · cases h
  · intro w x w' h
    simp only [sinkOps, Sink.flush] at h
    split at h
    · cases h; rfl
    · cases h; rfl
  · intro w sf n w' h
    simp only [sinkOps, Sink.seek] at h
    split at h
    · cases h
    · split at h
      · cases h
      · cases h; rfl
  · intro w sf e w' h
    simp only [sinkOps, Sink.seek] at h
    split at h
    · cases h; rfl
    · split at h
      · cases h; rfl
      · cases h

/-- Takes three bytes at most, fails every fourth time. -/
def sampleSink : Sink := ⟨[], 0, fun k => ⟨if k % 4 = 3 then some (.other 1) else none, 3⟩, 0, 0⟩

example : (match wrun sinkOps (Writer.new sampleSink)
      [.write [1, 2, 3, 4, 5], .write [6, 7], .flush, .write [8], .seek (.current (-1)), .write [9, 10], .seek (.current (-9))] with
    | .ok (os, w) => decide (os = [.written 3, .written 2, .flushed, .err (.other 1), .pos 4, .written 2, .err .invalidInput] ∧
        w.position = 6 ∧ w.writer.data = [1, 2, 3, 6, 9, 10])
    | _ => false) = true := by decide +kernel

/-! ### C76 -/

/-- C76 fails: over a sink standing at byte 2, a new writer says 0, and 1 after writing a byte at 2. -/
theorem c76_fails : Honest sinkOps Sink.pos ∧ ∃ w, wrun sinkOps (Writer.new ⟨[5, 5], 2, fun _ => ⟨none, 9⟩, 0, 0⟩) [.write [7]] =
    .ok ([.written 1], w) ∧ w.position = 1 ∧ w.writer.pos = 3 ∧ w.writer.data = [5, 5, 7] :=
  ⟨sink_honest, _, rfl, rfl, rfl, rfl⟩

/-- C76, partial: from the first successful seek on, the position is the sink's, wherever the sink started.
Missing: the time before. -/
theorem c76_position_partial (so : SinkOps W) (pos : W → Nat) (hh : Honest so pos) (w0 w1 w : Writer W)
    (sf : SeekFrom) (n : Nat) (hseek : wstep so w0 (.seek sf) = .ok (.pos n, w1))
    (ops : List WOp) (os : List WOut) (h : wrun so w1 ops = .ok (os, w)) : w.position = pos w.writer := by
  refine wrun_induct (P := fun w => w.position = pos w.writer) ?_ ops os _ _ ?_ h
  · intro w op o w' hp hs
    unfold Writer.position at *
    rcases wstep_cases hs with ⟨l, k, _, _, a, b⟩ | ⟨l, e, _, _, a, b⟩ | ⟨x, _, a, b, _⟩ | ⟨sf, n, _, _, a, b⟩ |
      ⟨sf, e, _, _, a, b⟩
    · rw [b, hp, hh.write_ok _ _ _ _ a]
    · rw [b, hp, hh.write_err _ _ _ _ a]
    · rw [b, hp, hh.flush _ _ _ a]
    · rw [b, hh.seek_ok _ _ _ _ a]
    · rw [b, hp, hh.seek_err _ _ _ _ a]
  · rcases wstep_cases hseek with ⟨l, k, c, _⟩ | ⟨l, e, c, _⟩ | ⟨x, c, _⟩ | ⟨sf', m, c, d, a, b⟩ | ⟨sf', e, c, d, _⟩
    · cases c
    · cases c
    · cases c
    · simp only [Writer.position]; rw [b, hh.seek_ok _ _ _ _ a]
    · cases d

example : ∃ w, wstep sinkOps (Writer.new ⟨[5, 5], 2, fun _ => ⟨none, 9⟩, 0, 0⟩) (.seek (.current 0)) = .ok (.pos 2, w) :=
  ⟨_, rfl⟩

/-- C76, partial: after any history of a writer over any sink, the position is the sink's if some seek
succeeded; before that it is short by exactly the position the sink was handed over at. So it is right if
and only if a seek succeeded or the sink stood at its start. -/
theorem c76_exact_partial (so : SinkOps W) (pos : W → Nat) (hh : Honest so pos) (s : W)
    (ops : List WOp) (os : List WOut) (w : Writer W) (h : wrun so (Writer.new s) ops = .ok (os, w)) :
    ((∃ n, .pos n ∈ os) → w.position = pos w.writer) ∧
    ((∀ n, .pos n ∉ os) → w.position + pos s = pos w.writer) ∧
    (w.position = pos w.writer ↔ (∃ n, .pos n ∈ os) ∨ pos s = 0) := by
  have key : ∀ (ops : List WOp) (os : List WOut) (w0 w : Writer W) (k : Nat),
      w0.position + k = pos w0.writer → wrun so w0 ops = .ok (os, w) →
      ((∃ n, .pos n ∈ os) → w.position = pos w.writer) ∧ ((∀ n, .pos n ∉ os) → w.position + k = pos w.writer) := by
    intro ops
    induction ops with
    | nil =>
      intro os w0 w k h0 h
      cases h
      exact ⟨fun ⟨n, hn⟩ => (List.not_mem_nil hn).elim, fun _ => h0⟩
    | cons op ops ih =>
      intro os w0 w k h0 h
      simp only [wrun] at h
      cases h1 : wstep so w0 op with
      | error e => rw [h1] at h; cases h
      | ok v =>
        obtain ⟨o, w1⟩ := v
        simp only [h1, ok_bind] at h
        cases h2 : wrun so w1 ops with
        | error e => rw [h2] at h; cases h
        | ok v =>
          obtain ⟨os', w2⟩ := v
          simp only [h2, ok_bind, pure_eq_ok] at h
          cases h
          unfold Writer.position at h0
          rcases wstep_cases h1 with ⟨l, j, _, ho, a, b⟩ | ⟨l, e, _, ho, a, b⟩ | ⟨x, _, a, b, hx⟩ |
            ⟨sf, n, _, ho, a, b⟩ | ⟨sf, e, _, ho, a, b⟩
          · have := ih _ w1 _ k (by unfold Writer.position; rw [b, hh.write_ok _ _ _ _ a, ← h0]; omega) h2
            simpa [ho] using this
          · have := ih _ w1 _ k (by unfold Writer.position; rw [b, hh.write_err _ _ _ _ a, ← h0]) h2
            simpa [ho] using this
          · have := ih _ w1 _ k (by unfold Writer.position; rw [b, hh.flush _ _ _ a, ← h0]) h2
            rcases hx with ⟨_, ho⟩ | ⟨e, _, ho⟩ <;> simpa [ho] using this
          · have := ih _ w1 _ 0 (by unfold Writer.position; rw [b, hh.seek_ok _ _ _ _ a, Nat.add_zero]) h2
            simp only [Nat.add_zero] at this
            refine ⟨fun _ => ?_, fun hno => absurd (by simp [ho]) (hno n)⟩
            by_cases hp : ∃ n, WOut.pos n ∈ os'
            · exact this.1 hp
            · exact this.2 fun n hn => hp ⟨n, hn⟩
          · have := ih _ w1 _ k (by unfold Writer.position; rw [b, hh.seek_err _ _ _ _ a, ← h0]) h2
            simpa [ho] using this
  obtain ⟨h1, h2⟩ := key ops os _ w (pos s) (by simp [Writer.new, Writer.position]) h
  refine ⟨h1, h2, ?_⟩
  by_cases hp : ∃ n, WOut.pos n ∈ os
  · exact ⟨fun _ => .inl hp, fun _ => h1 hp⟩
  · have := h2 fun n hn => hp ⟨n, hn⟩
    constructor
    · intro he; exact .inr (by omega)
    · rintro (hq | hq)
      · exact absurd hq hp
      · omega

/-- A write, a failing seek, a write; and a seek that succeeds. -/
example : (∃ w, wrun sinkOps (Writer.new ⟨[5, 5], 2, fun _ => ⟨none, 9⟩, 0, 0⟩)
      [.write [7], .seek (.current (-9)), .write [8]] = .ok ([.written 1, .err .invalidInput, .written 1], w) ∧
      w.position = 2 ∧ w.writer.pos = 4) ∧
    ∃ w, wrun sinkOps (Writer.new ⟨[5, 5], 2, fun _ => ⟨none, 9⟩, 0, 0⟩)
      [.write [7], .seek (.current (-1)), .write [8]] = .ok ([.written 1, .pos 2, .written 1], w) ∧
      w.position = 3 ∧ w.writer.pos = 3 := ⟨⟨_, rfl, rfl, rfl⟩, _, rfl, rfl, rfl⟩

/-! ### C39 -/

/-- What one call of the context does: one call of the muxer, and a flush after a successful trailer. -/
inductive Effect (so : SinkOps W) (mx : Muxer M W) (m : M) (w : Writer W) :
    Op → Except Err Unit → M → Writer W → Prop
  | configure {x m'} : mx.configure m = .ok (x, m') → Effect so mx m w .configure x m' w
  | header {x m' w'} : mx.writeHeader m w = .ok (x, m', w') → Effect so mx m w .header x m' w'
  | packet {p x m' w'} : mx.writePacket m w p = .ok (x, m', w') → Effect so mx m w (.packet p) x m' w'
  | trailerFailed {e m' w'} : mx.writeTrailer m w = .ok (.error e, m', w') →
      Effect so mx m w .trailer (.error e) m' w'
  | trailer {m' w' s} : mx.writeTrailer m w = .ok (.ok (), m', w') → so.flush w'.writer = .ok (.ok (), s) →
      Effect so mx m w .trailer (.ok ()) m' ⟨s, w'.bytes_written⟩
  | flushFailed {m' w' e s} : mx.writeTrailer m w = .ok (.ok (), m', w') →
      so.flush w'.writer = .ok (.error e, s) → Effect so mx m w .trailer (.error (.Io e)) m' ⟨s, w'.bytes_written⟩
  | info {i x m'} : mx.setGlobalInfo m i = .ok (x, m') → Effect so mx m w (.info i) x m' w
  | option {k v x m'} : mx.setOption m k v.into = .ok (x, m') → Effect so mx m w (.option k v) x m' w

/-- The same for a history. -/
inductive Effects (so : SinkOps W) (mx : Muxer M W) : M → Writer W → List Op → List (Except Err Unit) → M → Writer W → Prop
  | nil {m w} : Effects so mx m w [] [] m w
  | cons {m w op x m1 w1 ops xs m2 w2} : Effect so mx m w op x m1 w1 → Effects so mx m1 w1 ops xs m2 w2 →
      Effects so mx m w (op :: ops) (x :: xs) m2 w2

theorem step_iff (c c' : Context M W) (op : Op) (x : Except Err Unit) :
    c.step so mx op = .ok (x, c') ↔
      Effect so mx c.muxer c.writer op x c'.muxer c'.writer ∧ c'.user_private = c.user_private := by
  obtain ⟨m, w, u⟩ := c
  obtain ⟨m', w', u'⟩ := c'
  constructor
  · intro h
    cases op with
    | configure =>
      simp only [Context.step, Context.configure] at h
      cases h1 : mx.configure m with
      | error e => rw [h1] at h; cases h
      | ok v => obtain ⟨y, m1⟩ := v; rw [h1] at h; cases h; exact ⟨.configure h1, rfl⟩
    | header =>
      simp only [Context.step, Context.writeHeader] at h
      cases h1 : mx.writeHeader m w with
      | error e => rw [h1] at h; cases h
      | ok v => obtain ⟨y, m1, w1⟩ := v; rw [h1] at h; cases h; exact ⟨.header h1, rfl⟩
    | packet p =>
      simp only [Context.step, Context.writePacket] at h
      cases h1 : mx.writePacket m w p with
      | error e => rw [h1] at h; cases h
      | ok v => obtain ⟨y, m1, w1⟩ := v; rw [h1] at h; cases h; exact ⟨.packet h1, rfl⟩
    | trailer =>
      simp only [Context.step, Context.writeTrailer, Writer.flush] at h
      cases h1 : mx.writeTrailer m w with
      | error e => rw [h1] at h; cases h
      | ok v =>
        obtain ⟨y, m1, w1⟩ := v
        simp only [h1, ok_bind] at h
        cases y with
        | error e => cases h; exact ⟨.trailerFailed h1, rfl⟩
        | ok _ =>
          simp only at h
          cases h2 : so.flush w1.writer with
          | error e => rw [h2] at h; cases h
          | ok v =>
            obtain ⟨z, s⟩ := v
            simp only [h2, ok_bind, pure_eq_ok] at h
            cases z with
            | error e => cases h; exact ⟨.flushFailed h1 h2, rfl⟩
            | ok _ => cases h; exact ⟨.trailer h1 h2, rfl⟩
    | info i =>
      simp only [Context.step, Context.setGlobalInfo] at h
      cases h1 : mx.setGlobalInfo m i with
      | error e => rw [h1] at h; cases h
      | ok v => obtain ⟨y, m1⟩ := v; rw [h1] at h; cases h; exact ⟨.info h1, rfl⟩
    | option k v =>
      simp only [Context.step, Context.setOption] at h
      cases h1 : mx.setOption m k v.into with
      | error e => rw [h1] at h; cases h
      | ok v => obtain ⟨y, m1⟩ := v; rw [h1] at h; cases h; exact ⟨.option h1, rfl⟩
  · rintro ⟨h, hu⟩
    simp only at hu h
    subst hu
    cases h with
    | configure h => simp [Context.step, Context.configure, h]
    | header h => simp [Context.step, Context.writeHeader, h]
    | packet h => simp [Context.step, Context.writePacket, h]
    | trailerFailed h => simp [Context.step, Context.writeTrailer, h]
    | trailer h h' => simp [Context.step, Context.writeTrailer, Writer.flush, h, h']
    | flushFailed h h' => simp [Context.step, Context.writeTrailer, Writer.flush, h, h', Err.fromIo]
    | info h => simp [Context.step, Context.setGlobalInfo, h]
    | option h => simp [Context.step, Context.setOption, h]

/-- C39, part 1. A history of context calls returns `xs` if and only if calling the muxer's functions once
each in the same order, with a flush after a successful trailer and only there, gives these results. -/
theorem c39_calls (so : SinkOps W) (mx : Muxer M W) (c c' : Context M W) (ops : List Op) (xs : List (Except Err Unit)) :
    c.run so mx ops = .ok (xs, c') ↔
      Effects so mx c.muxer c.writer ops xs c'.muxer c'.writer ∧ c'.user_private = c.user_private := by
  induction ops generalizing c xs with
  | nil =>
    obtain ⟨m, w, u⟩ := c
    obtain ⟨m', w', u'⟩ := c'
    simp only [Context.run]
    constructor
    · intro h; cases h; exact ⟨.nil, rfl⟩
    · rintro ⟨h, rfl⟩; cases h; rfl
  | cons op ops ih =>
    simp only [Context.run]
    constructor
    · intro h
      cases h1 : c.step so mx op with
      | error e => rw [h1] at h; cases h
      | ok v =>
        obtain ⟨x, c1⟩ := v
        simp only [h1, ok_bind] at h
        cases h2 : c1.run so mx ops with
        | error e => rw [h2] at h; cases h
        | ok v =>
          obtain ⟨ys, c2⟩ := v
          simp only [h2, ok_bind, pure_eq_ok] at h
          cases h
          obtain ⟨a, b⟩ := (step_iff _ _ _ _).1 h1
          obtain ⟨a', b'⟩ := (ih _ _).1 h2
          exact ⟨.cons a a', b'.trans b⟩
    · rintro ⟨h, hu⟩
      cases h with
      | @cons _ _ _ x m1 w1 _ xs _ _ a b =>
        have h1 : c.step so mx op = .ok (x, ⟨m1, w1, c.user_private⟩) := (step_iff _ _ _ _).2 ⟨a, rfl⟩
        have h2 := (ih ⟨m1, w1, c.user_private⟩ xs).2 ⟨b, hu⟩
        simp only [h1, ok_bind, h2, pure_eq_ok]

/-- Two calls of a muxer that counts them, the second failing. -/
example : Effects (W := Unit) ⟨fun _ l => .ok (.ok l.length, ()), fun _ => .ok (.ok (), ()), fun _ _ => .ok (.ok 0, ())⟩
    (⟨fun m => .ok (.ok (), m), fun m w => .ok (.ok (), m + 1, w), fun m w _ => .ok (.error .InvalidData, m + 1, w),
      fun m w => .ok (.ok (), m + 1, w), fun m _ => .ok (.ok (), m), fun m _ _ => .ok (.ok (), m)⟩ : Muxer Nat Unit)
    0 (Writer.new ()) [.header, .packet Packet.new] [.ok (), .error .InvalidData] 2 (Writer.new ()) :=
  .cons (.header rfl) (.cons (.packet rfl) .nil)

/-- A muxer writing bytes it computes from its state, with `write_all`. -/
def bytesMuxer (fuel : Nat) (hdr : M → List U8 × M) (pkt : M → Packet → List U8 × M) (trl : M → List U8 × M) :
    Muxer M Sink :=
  let put := fun (b : List U8 × M) (w : Writer Sink) => (do
    let (x, w) ← writeAll (Writer.write sinkOps) fuel w b.1
    match x with
    | .ok () => .ok (.ok (), b.2, w)
    | .error e => .ok (.error (.Io e), b.2, w) : Rust (Except Err Unit × M × Writer Sink))
  { configure := fun m => .ok (.ok (), m)
    writeHeader := fun m w => put (hdr m) w
    writePacket := fun m w p => put (pkt m p) w
    writeTrailer := fun m w => put (trl m) w
    setGlobalInfo := fun m _ => .ok (.ok (), m)
    setOption := fun m _ _ => .ok (.ok (), m) }

/-- The bytes the packets make, and the state then. -/
def packetBytes (pkt : M → Packet → List U8 × M) : M → List Packet → List U8 × M
  | m, [] => ([], m)
  | m, p :: ps => ((pkt m p).1 ++ (packetBytes pkt (pkt m p).2 ps).1, (packetBytes pkt (pkt m p).2 ps).2)

/-- The bytes of a whole file. -/
def fileBytes (hdr : M → List U8 × M) (pkt : M → Packet → List U8 × M) (trl : M → List U8 × M) (m : M)
    (ps : List Packet) : List U8 :=
  (hdr m).1 ++ (packetBytes pkt (hdr m).2 ps).1 ++ (trl (packetBytes pkt (hdr m).2 ps).2).1

/-- `write_all` through the writer. -/
theorem writer_writeAll (fuel : Nat) (s : Sink) (l : List U8) :
    writeAll (Writer.write sinkOps) fuel ⟨s, s.pos⟩ l =
      (do
        let (x, s') ← writeAll (fun s l => .ok (Sink.write s l)) fuel s l
        return (x, ⟨s', s'.pos⟩)) := by
  induction fuel generalizing s l with
  | zero => rfl
  | succ fuel ih =>
    unfold writeAll
    by_cases h0 : l = []
    · simp [h0]
    · simp only [if_neg h0, Writer.write, sinkOps, ok_bind]
      have hpos : ∀ k s', Sink.write s l = (.ok k, s') → s'.pos = s.pos + k := fun k s' h =>
        sink_honest.write_ok s l k s' (by simp only [sinkOps, h])
      have hpe : ∀ e s', Sink.write s l = (.error e, s') → s'.pos = s.pos := fun e s' h =>
        sink_honest.write_err s l e s' (by simp only [sinkOps, h])
      generalize hw : Sink.write s l = y at *
      obtain ⟨x, s'⟩ := y
      cases x with
      | error e =>
        have := hpe e s' rfl
        have ih' := ih s' l
        rw [this] at ih'
        cases e with
        | interrupted => simpa only [sinkOps, ok_bind] using ih'
        | _ => simp only [ok_bind, pure_eq_ok, this]
      | ok k =>
        have := hpos k s' rfl
        cases k with
        | zero => simp only [ok_bind, pure_eq_ok, this, Nat.add_zero]
        | succ k =>
          simp only [ok_bind, ← this]
          cases hsl : sliceFrom l (k + 1) with
          | error e => rfl
          | ok rest => simp only [ok_bind]; exact ih s' rest

/-- A muxer function of `bytesMuxer` that succeeds has written its bytes at the sink's end. -/
theorem put_ok {fuel : Nat} {b : List U8 × M} {s : Sink} {m' : M} {w' : Writer Sink} (hs : s.pos = s.data.length)
    (h : (do
      let (x, w) ← writeAll (Writer.write sinkOps) fuel (⟨s, s.pos⟩ : Writer Sink) b.1
      match x with
      | .ok () => .ok (.ok (), b.2, w)
      | .error e => .ok (.error (.Io e), b.2, w) : Rust (Except Err Unit × M × Writer Sink)) = .ok (.ok (), m', w')) :
    m' = b.2 ∧ w'.bytes_written = w'.writer.pos ∧ w'.writer.data = s.data ++ b.1 ∧
      w'.writer.pos = w'.writer.data.length ∧ w'.writer.flushes = s.flushes := by
  rw [writer_writeAll] at h
  rcases Sink.writeAll_spec fuel s b.1 0 with ⟨h1, _⟩ | ⟨x, s', h1, _, h3, _, h5, _⟩
  · rw [h1] at h; cases h
  · simp only [h1, ok_bind, pure_eq_ok] at h
    cases x with
    | error e => cases h
    | ok _ =>
      cases h
      obtain ⟨d1, d2⟩ := h5 rfl
      rw [hs, overwrite_end] at d1
      refine ⟨rfl, rfl, d1, ?_, h3⟩
      simp only [d1, d2, hs, List.length_append]

theorem packets_ok {fuel : Nat} {hdr : M → List U8 × M} {pkt : M → Packet → List U8 × M} {trl : M → List U8 × M} :
    ∀ (ps : List Packet) (m m' : M) (s : Sink) (w' : Writer Sink) (xs : List (Except Err Unit)) (rest : List Op),
      s.pos = s.data.length →
      Effects sinkOps (bytesMuxer fuel hdr pkt trl) m ⟨s, s.pos⟩ (ps.map .packet ++ rest) xs m' w' →
      (∀ x ∈ xs, x = .ok ()) →
      ∃ s1 ys, Effects sinkOps (bytesMuxer fuel hdr pkt trl) (packetBytes pkt m ps).2 ⟨s1, s1.pos⟩ rest ys m' w' ∧
        (∀ x ∈ ys, x = .ok ()) ∧ s1.data = s.data ++ (packetBytes pkt m ps).1 ∧ s1.pos = s1.data.length ∧
        s1.flushes = s.flushes := by
  intro ps
  induction ps with
  | nil =>
    intro m m' s w' xs rest hs h hx
    exact ⟨s, xs, h, hx, by simp [packetBytes], hs, rfl⟩
  | cons p ps ih =>
    intro m m' s w' xs rest hs h hx
    simp only [List.map_cons, List.cons_append] at h
    cases h with
    | @cons _ _ _ x m1 w1 _ xs _ _ a b =>
      have hx1 : x = .ok () := hx x (by simp)
      subst hx1
      cases a with
      | packet a =>
        obtain ⟨rfl, e1, e2, e3, e4⟩ := put_ok hs a
        obtain ⟨s1, bw⟩ := w1
        simp only at e1 e2 e3 e4
        subst e1
        obtain ⟨s2, ys, f1, f2, f3, f4, f5⟩ := ih _ m' s1 w' xs rest e3 b (fun y hy => hx y (by simp [hy]))
        refine ⟨s2, ys, f1, f2, ?_, f4, f5.trans e4⟩
        rw [f3, e2, packetBytes, List.append_assoc]

/-- C39, part 2. For a muxer that writes given bytes for header, packets and trailer to an empty sink: if no
call fails, the sink has received header, packets in call order, trailer and nothing else, and was flushed once. -/
theorem c39_bytes (fuel : Nat) (hdr : M → List U8 × M) (pkt : M → Packet → List U8 × M) (trl : M → List U8 × M)
    (m : M) (s : Sink) (h0 : s.data = [] ∧ s.pos = 0) (ps : List Packet) (xs : List (Except Err Unit)) (c : Context M Sink)
    (h : (Context.new m (Writer.new s)).run sinkOps (bytesMuxer fuel hdr pkt trl)
      (.header :: ps.map .packet ++ [.trailer]) = .ok (xs, c)) (hx : ∀ x ∈ xs, x = .ok ()) :
    c.intoWriter.writer.data = fileBytes hdr pkt trl m ps ∧
    c.intoWriter.position = (fileBytes hdr pkt trl m ps).length ∧
    c.intoWriter.writer.flushes = s.flushes + 1 := by
  obtain ⟨h, _⟩ := (c39_calls _ _ _ _ _ _).1 h
  simp only [Context.new, Writer.new, List.cons_append] at h
  have hs : s.pos = s.data.length := by rw [h0.1, h0.2]; rfl
  cases h with
  | @cons _ _ _ x m1 w1 _ xs _ _ a b =>
    have hx1 : x = .ok () := hx x (by simp)
    subst hx1
    cases a with
    | header a =>
      rw [show (0 : Nat) = s.pos from h0.2.symm] at a
      obtain ⟨rfl, e1, e2, e3, e4⟩ := put_ok hs a
      obtain ⟨s1, bw⟩ := w1
      simp only at e1 e2 e3 e4
      subst e1
      obtain ⟨s2, ys, f1, f2, f3, f4, f5⟩ := packets_ok ps _ _ s1 _ xs _ e3 b (fun y hy => hx y (by simp [hy]))
      cases f1 with
      | @cons _ _ _ x m3 w3 _ zs _ _ a' b' =>
        have hx2 : x = .ok () := f2 x (by simp)
        subst hx2
        generalize hcm : c.muxer = cm at b'
        generalize hcw : c.writer = cw at b'
        cases b'
        generalize hy : (Except.ok () : Except Err Unit) = y at a'
        cases a' with
        | trailerFailed => cases hy
        | flushFailed => cases hy
        | @trailer m4 w4 s4 g1 g2 =>
          obtain ⟨rfl, k1, k2, k3, k4⟩ := put_ok f4 g1
          have hd : s4.data = w4.writer.data ∧ s4.flushes = w4.writer.flushes + 1 := by
            simp only [sinkOps, Sink.flush] at g2
            split at g2
            · cases g2
            · cases g2; exact ⟨rfl, rfl⟩
          have hdata : s4.data = fileBytes hdr pkt trl m ps := by
            rw [hd.1, k2, f3, e2, h0.1, fileBytes, List.nil_append]
          simp only [Context.intoWriter, hcw, Writer.position]
          refine ⟨hdata, ?_, ?_⟩
          · rw [k1, k3, ← hd.1, hdata]
          · rw [hd.2, k4, f5, e4]

/-- The bytes one call makes, and the state then. -/
def opBytes (hdr : M → List U8 × M) (pkt : M → Packet → List U8 × M) (trl : M → List U8 × M) (m : M) : Op → List U8 × M
  | .header => hdr m
  | .packet p => pkt m p
  | .trailer => trl m
  | _ => ([], m)

/-- The bytes of a history. -/
def opsBytes (hdr : M → List U8 × M) (pkt : M → Packet → List U8 × M) (trl : M → List U8 × M) : M → List Op → List U8
  | _, [] => []
  | m, op :: ops => (opBytes hdr pkt trl m op).1 ++ opsBytes hdr pkt trl (opBytes hdr pkt trl m op).2 ops

theorem opsBytes_append (hdr : M → List U8 × M) (pkt : M → Packet → List U8 × M) (trl : M → List U8 × M) (m : M)
    (a b : List Op) : opsBytes hdr pkt trl m a <+: opsBytes hdr pkt trl m (a ++ b) := by
  induction a generalizing m with
  | nil => exact List.nil_prefix
  | cons op a ih => exact (List.prefix_append_right_inj _).2 (ih _)

theorem opsBytes_file (hdr : M → List U8 × M) (pkt : M → Packet → List U8 × M) (trl : M → List U8 × M) (m : M)
    (ps : List Packet) : opsBytes hdr pkt trl m (.header :: ps.map .packet ++ [.trailer]) = fileBytes hdr pkt trl m ps := by
  have h : ∀ (ps : List Packet) m, opsBytes hdr pkt trl m (ps.map .packet ++ [.trailer]) =
      (packetBytes pkt m ps).1 ++ (trl (packetBytes pkt m ps).2).1 := by
    intro ps
    induction ps with
    | nil => intro m; simp [opsBytes, opBytes, packetBytes]
    | cons p ps ih => intro m; simp [opsBytes, opBytes, packetBytes, ih]
  simp only [List.cons_append, opsBytes, opBytes, h, fileBytes, List.append_assoc]

/-- What `write_all` of `bytesMuxer` does at the end of a sink. -/
theorem put_spec {fuel : Nat} {b : List U8 × M} {s : Sink} (hs : s.pos = s.data.length)
    {x : Except Err Unit} {m' : M} {w' : Writer Sink}
    (h : (do
      let (x, w) ← writeAll (Writer.write sinkOps) fuel (⟨s, s.pos⟩ : Writer Sink) b.1
      match x with
      | .ok () => .ok (.ok (), b.2, w)
      | .error e => .ok (.error (.Io e), b.2, w) : Rust (Except Err Unit × M × Writer Sink)) = .ok (x, m', w')) :
    m' = b.2 ∧ ∃ s', w' = ⟨s', s'.pos⟩ ∧ s'.pos = s'.data.length ∧
      (x = .ok () → s'.data = s.data ++ b.1) ∧ s'.data <+: s.data ++ b.1 := by
  rw [writer_writeAll] at h
  rcases Sink.writeAll_spec fuel s b.1 0 with ⟨h1, _⟩ | ⟨y, s', h1, _, h3, _, h5, h6⟩
  · rw [h1] at h; cases h
  · simp only [h1, ok_bind, pure_eq_ok] at h
    cases y with
    | error e =>
      cases h
      obtain ⟨_, ⟨k, d0, d1, d2⟩, _⟩ := h6 e rfl
      rw [hs, overwrite_end] at d1
      refine ⟨rfl, s', rfl, ?_, (fun hx => nomatch hx), ?_⟩
      · rw [d2, d1, hs, List.length_append, List.length_take]; omega
      · rw [d1]; exact (List.prefix_append_right_inj _).2 (List.take_prefix _ _)
    | ok _ =>
      cases h
      obtain ⟨d1, d2⟩ := h5 rfl
      rw [hs, overwrite_end] at d1
      refine ⟨rfl, s', rfl, ?_, fun _ => d1, by rw [d1]; exact List.prefix_rfl⟩
      rw [d2, d1, hs, List.length_append]

/-- One call. -/
theorem effect_bytes {fuel : Nat} {hdr : M → List U8 × M} {pkt : M → Packet → List U8 × M} {trl : M → List U8 × M}
    {m m' : M} {s : Sink} {w' : Writer Sink} {op : Op} {x : Except Err Unit} (hs : s.pos = s.data.length)
    (h : Effect sinkOps (bytesMuxer fuel hdr pkt trl) m ⟨s, s.pos⟩ op x m' w') :
    m' = (opBytes hdr pkt trl m op).2 ∧ ∃ s', w' = ⟨s', s'.pos⟩ ∧ s'.pos = s'.data.length ∧
      (x = .ok () → s'.data = s.data ++ (opBytes hdr pkt trl m op).1) ∧
      s'.data <+: s.data ++ (opBytes hdr pkt trl m op).1 := by
  have hflush : ∀ (w : Sink) y w', sinkOps.flush w = .ok (y, w') → w'.data = w.data ∧ w'.pos = w.pos := by
    intro w y w' h
    simp only [sinkOps, Sink.flush] at h
    split at h <;> cases h <;> exact ⟨rfl, rfl⟩
  cases h with
  | header h => exact put_spec hs h
  | packet h => exact put_spec hs h
  | trailerFailed h => exact put_spec hs h
  | trailer h h' =>
    obtain ⟨e0, s1, rfl, e1, e2, e3⟩ := put_spec hs h
    obtain ⟨f1, f2⟩ := hflush _ _ _ h'
    simp only at f1 f2
    refine ⟨e0, _, by rw [f2], by rw [f1, f2]; exact e1, fun _ => by rw [f1]; exact e2 rfl, by rw [f1]; exact e3⟩
  | flushFailed h h' =>
    obtain ⟨e0, s1, rfl, e1, e2, e3⟩ := put_spec hs h
    obtain ⟨f1, f2⟩ := hflush _ _ _ h'
    simp only at f1 f2
    refine ⟨e0, _, by rw [f2], by rw [f1, f2]; exact e1, (fun hx => nomatch hx), by rw [f1]; exact e3⟩
  | configure h => cases h; exact ⟨rfl, s, rfl, hs, fun _ => by simp [opBytes], by simp [opBytes]⟩
  | info h => cases h; exact ⟨rfl, s, rfl, hs, fun _ => by simp [opBytes], by simp [opBytes]⟩
  | option h => cases h; exact ⟨rfl, s, rfl, hs, fun _ => by simp [opBytes], by simp [opBytes]⟩

/-- C39, part 3. For such a muxer and any sink at its end, whatever its short writes and failures: any history of calls
all of which, except perhaps the last, succeed, has appended a prefix of the bytes of these calls, in call order, and
the position is that of the sink. -/
theorem c39_prefix (fuel : Nat) (hdr : M → List U8 × M) (pkt : M → Packet → List U8 × M) (trl : M → List U8 × M)
    (m : M) (s : Sink) (hs : s.pos = s.data.length) (u : Option Nat) (ops : List Op) (xs : List (Except Err Unit))
    (c : Context M Sink)
    (h : Context.run sinkOps (bytesMuxer fuel hdr pkt trl) ⟨m, ⟨s, s.pos⟩, u⟩ ops = .ok (xs, c))
    (hx : ∀ x ∈ xs.dropLast, x = .ok ()) :
    c.intoWriter.writer.data <+: s.data ++ opsBytes hdr pkt trl m ops ∧
    (xs.getLast? = some (.ok ()) → c.intoWriter.writer.data = s.data ++ opsBytes hdr pkt trl m ops) ∧
    c.intoWriter.position = c.intoWriter.writer.data.length := by
  replace h := ((c39_calls _ _ _ _ _ _).1 h).1
  simp only at h
  simp only [Context.intoWriter, Writer.position]
  generalize c.writer = w at h
  generalize c.muxer = m' at h
  induction ops generalizing m s xs with
  | nil =>
    cases h
    simp [opsBytes, hs]
  | cons op ops ih =>
    cases h with
    | @cons _ _ _ x m1 w1 _ xs _ _ a b =>
      obtain ⟨rfl, s1, rfl, e1, e2, e3⟩ := effect_bytes hs a
      cases ops with
      | nil =>
        cases b
        simp only [opsBytes, List.append_nil]
        exact ⟨e3, fun hl => e2 (by simpa using hl), e1⟩
      | cons op' ops =>
        have hne : xs ≠ [] := by cases b; simp
        have hx1 : x = .ok () := hx x (by rw [List.dropLast_cons_of_ne_nil hne]; simp)
        obtain ⟨i1, i2, i3⟩ := ih _ s1 e1 xs (fun y hy => hx y (by rw [List.dropLast_cons_of_ne_nil hne]; simp [hy])) b
        rw [e2 hx1] at i1 i2
        rw [opsBytes, ← List.append_assoc]
        refine ⟨i1, fun hl => i2 ?_, i3⟩
        rw [← hl, List.getLast?_cons_of_ne_nil hne]

/-- C39, part 4. On a sink that does not fail and always takes something, no call fails. -/
theorem c39_succeeds (fuel : Nat) (hdr : M → List U8 × M) (pkt : M → Packet → List U8 × M) (trl : M → List U8 × M)
    (m : M) (s : Sink) (hs : s.pos = s.data.length) (hq : ∀ c, (s.script c).fail = none ∧ 0 < (s.script c).len)
    (u : Option Nat) (ops : List Op) (hf : (opsBytes hdr pkt trl m ops).length < fuel) :
    ∃ c, Context.run sinkOps (bytesMuxer fuel hdr pkt trl) ⟨m, ⟨s, s.pos⟩, u⟩ ops =
      .ok (List.replicate ops.length (.ok ()), c) := by
  have hput : ∀ (b : List U8 × M) (s : Sink), s.pos = s.data.length → (∀ c, (s.script c).fail = none ∧ 0 < (s.script c).len) →
      b.1.length < fuel → ∃ s', (do
      let (x, w) ← writeAll (Writer.write sinkOps) fuel (⟨s, s.pos⟩ : Writer Sink) b.1
      match x with
      | .ok () => .ok (.ok (), b.2, w)
      | .error e => .ok (.error (.Io e), b.2, w) : Rust (Except Err Unit × M × Writer Sink)) =
        .ok (.ok (), b.2, ⟨s', s'.pos⟩) ∧ s'.pos = s'.data.length ∧ s'.script = s.script := by
    intro b s hs hq hf
    rw [writer_writeAll]
    rcases Sink.writeAll_spec fuel s b.1 0 with ⟨_, h2⟩ | ⟨y, s', h1, h2, _, _, h5, h6⟩
    · exact absurd ⟨fun c _ => (hq c).1, by omega⟩ h2
    · cases y with
      | error e =>
        obtain ⟨_, _, c, h | h⟩ := h6 e rfl
        · rw [(hq c).1] at h; cases h
        · have := (hq c).2; omega
      | ok _ =>
        obtain ⟨d1, d2⟩ := h5 rfl
        rw [hs, overwrite_end] at d1
        refine ⟨s', by rw [h1]; rfl, ?_, h2⟩
        rw [d2, d1, hs, List.length_append]
  induction ops generalizing m s with
  | nil => exact ⟨_, rfl⟩
  | cons op ops ih =>
    simp only [opsBytes, List.length_append] at hf
    have hstep : ∃ s', Context.step sinkOps (bytesMuxer fuel hdr pkt trl) ⟨m, ⟨s, s.pos⟩, u⟩ op =
        .ok (.ok (), ⟨(opBytes hdr pkt trl m op).2, ⟨s', s'.pos⟩, u⟩) ∧ s'.pos = s'.data.length ∧ s'.script = s.script := by
      cases op with
      | header =>
        obtain ⟨s', a, b, c⟩ := hput (hdr m) s hs hq (by simp only [opBytes] at hf; omega)
        exact ⟨s', (step_iff _ _ _ _).2 ⟨.header a, rfl⟩, b, c⟩
      | packet p =>
        obtain ⟨s', a, b, c⟩ := hput (pkt m p) s hs hq (by simp only [opBytes] at hf; omega)
        exact ⟨s', (step_iff _ _ _ _).2 ⟨.packet a, rfl⟩, b, c⟩
      | trailer =>
        obtain ⟨s', a, b, c⟩ := hput (trl m) s hs hq (by simp only [opBytes] at hf; omega)
        have hfl : sinkOps.flush s' = .ok (.ok (), { s' with clock := s'.clock + 1, flushes := s'.flushes + 1 }) := by
          simp [sinkOps, Sink.flush, c, (hq s'.clock).1]
        exact ⟨{ s' with clock := s'.clock + 1, flushes := s'.flushes + 1 },
          (step_iff _ _ _ _).2 ⟨.trailer (w' := ⟨s', s'.pos⟩) a hfl, rfl⟩, b, c⟩
      | configure => exact ⟨s, rfl, hs, rfl⟩
      | info i => exact ⟨s, rfl, hs, rfl⟩
      | option k v => exact ⟨s, rfl, hs, rfl⟩
    obtain ⟨s', a, b, c⟩ := hstep
    obtain ⟨c', hc⟩ := ih (opBytes hdr pkt trl m op).2 s' b (by rw [c]; exact hq) (by omega)
    exact ⟨c', by simp only [Context.run, a, ok_bind, hc, pure_eq_ok, List.length_cons, List.replicate_succ]⟩

/-- C39, part 5. Put together: on an empty sink that does not fail, however short its writes, a whole file arrives. -/
theorem c39_file (fuel : Nat) (hdr : M → List U8 × M) (pkt : M → Packet → List U8 × M) (trl : M → List U8 × M)
    (m : M) (s : Sink) (h0 : s.data = [] ∧ s.pos = 0) (hq : ∀ c, (s.script c).fail = none ∧ 0 < (s.script c).len)
    (ps : List Packet) (hf : (fileBytes hdr pkt trl m ps).length < fuel) :
    ∃ c, (Context.new m (Writer.new s)).run sinkOps (bytesMuxer fuel hdr pkt trl)
        (.header :: ps.map .packet ++ [.trailer]) = .ok (List.replicate (ps.length + 2) (.ok ()), c) ∧
      c.intoWriter.writer.data = fileBytes hdr pkt trl m ps ∧
      c.intoWriter.position = (fileBytes hdr pkt trl m ps).length ∧ c.intoWriter.writer.flushes = s.flushes + 1 := by
  obtain ⟨c, hc⟩ := c39_succeeds fuel hdr pkt trl m s (by rw [h0.1, h0.2]; rfl) hq none
    (.header :: ps.map .packet ++ [.trailer]) (by rw [opsBytes_file]; exact hf)
  have hc' : (Context.new m (Writer.new s)).run sinkOps (bytesMuxer fuel hdr pkt trl)
      (.header :: ps.map .packet ++ [.trailer]) = .ok (List.replicate (ps.length + 2) (.ok ()), c) := by
    rw [Context.new, Writer.new, ← h0.2, hc]; simp
  exact ⟨c, hc', c39_bytes fuel hdr pkt trl m s h0 ps _ c hc' (fun x hx => (List.mem_replicate.1 hx).2)⟩

example : ∀ c, ((⟨[], 0, fun k => ⟨none, 1 + k % 2⟩, 0, 0⟩ : Sink).script c).fail = none ∧
    0 < ((⟨[], 0, fun k => ⟨none, 1 + k % 2⟩, 0, 0⟩ : Sink).script c).len := fun c => ⟨rfl, by simp only; omega⟩

/-- The muxer of the tests: a fixed header and trailer, packets as they are. -/
def plainMuxer : Muxer Unit Sink :=
  bytesMuxer 20 (fun m => ([1, 2, 3, 4, 5], m)) (fun m p => (p.data, m)) (fun m => ([9, 9], m))

def shortSink : Sink := ⟨[], 0, fun k => ⟨if k = 2 then some .interrupted else none, 2 + k % 2⟩, 0, 0⟩

/-- A sink that takes two or three bytes at a time and interrupts once: no call fails. -/
example : (match (Context.new () (Writer.new shortSink)).run sinkOps plainMuxer
      (.header :: [{ Packet.new with data := [7, 8, 9] }, { Packet.new with data := [6] }].map Op.packet ++ [.trailer]) with
    | .ok (xs, c) => decide ((∀ x ∈ xs, (match x with | .ok () => true | _ => false) = true) ∧
        c.intoWriter.writer.data = [1, 2, 3, 4, 5, 7, 8, 9, 6, 9, 9])
    | _ => false) = true := by decide +kernel

/-- A sink failing at the fourth call: a prefix. -/
example : (match (Context.new () (Writer.new ⟨[], 0, fun k => ⟨if k = 3 then some (.other 1) else none, 3⟩, 0, 0⟩)).run sinkOps plainMuxer
      [.header, .packet { Packet.new with data := [7, 8, 9, 10] }] with
    | .ok (xs, c) => decide (xs.length = 2 ∧ (∀ x ∈ xs.dropLast, (match x with | .ok () => true | _ => false) = true) ∧
        c.intoWriter.writer.data = [1, 2, 3, 4, 5, 7, 8, 9])
    | _ => false) = true := by decide +kernel

/-! ### C40 -/

/-- C40. `by_name` returns the first descriptor of that name, and none exactly if there is none. -/
theorem c40_byName {T : Type} (l : List (Descriptor T)) (name : String) :
    (∀ d, byName l name = some d ↔ ∃ i : Nat, l[i]? = some d ∧ d.describe.name = name ∧
      ∀ (j : Nat) e, j < i → l[j]? = some e → e.describe.name ≠ name) ∧
    (byName l name = none ↔ ∀ d ∈ l, d.describe.name ≠ name) := by
  constructor
  · intro d
    unfold byName
    rw [List.find?_eq_some_iff_getElem]
    constructor
    · rintro ⟨h1, i, hi, h2, h3⟩
      refine ⟨i, by rw [List.getElem?_eq_getElem hi, h2], by simpa using h1, ?_⟩
      intro j e hj he
      rw [List.getElem?_eq_getElem (by omega)] at he
      cases he
      simpa using h3 j hj
    · rintro ⟨i, h1, h2, h3⟩
      obtain ⟨hi, h1⟩ := List.getElem?_eq_some_iff.1 h1
      refine ⟨by simpa using h2, i, hi, h1, ?_⟩
      intro j hj
      have := h3 j (l[j]'(by omega)) hj (List.getElem?_eq_getElem _)
      simpa using this
  · simp [byName]

def sampleDescriptors : List (Descriptor Nat) :=
  [("a", 1), ("b", 2), ("a", 3), ("b", 4)].map fun (n, k) => ⟨k, ⟨n, n, "", [], []⟩⟩

example : (byName sampleDescriptors "b").map (·.create) = some 2 ∧ (byName sampleDescriptors "c").isNone := by decide

end Verif.Mux
