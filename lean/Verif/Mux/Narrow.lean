import Verif.Mux.Props

/-!
# C121, C122: `Writer` on targets with any width of `usize`; panics of the muxing context

`Writer` keeps its position in a `usize`: writes add to it, seeks convert from `u64`. Here both with `b` bits, with and
without overflow checks; the model of `Model.lean` has unbounded positions.
-/

namespace Verif.Mux
open Verif Verif.Io Verif.Stream Verif.Packet Verif.Value
open Verif.Demux (Err)

/-- A target: the width of `usize`, and whether additions are checked for overflow. -/
structure Target where
  bits : Nat
  checks : Bool

/-- `a + b` on `usize`. -/
def Target.add (t : Target) (a b : Nat) : Rust Nat :=
  if a + b < 2 ^ t.bits then .ok (a + b) else if t.checks then .error .overflow else .ok ((a + b) % 2 ^ t.bits)

variable {M W : Type} (t : Target) (so : SinkOps W)

/-- muxer.rs:40-48 -/
def Target.write (w : Writer W) (bytes : List U8) : Rust (Except IoErr Nat × Writer W) := do
  let (result, writer) ← so.write w.writer bytes
  let w := { w with writer }
  match result with
  | .ok written => do
    let n ← t.add w.bytes_written written
    .ok (result, { w with bytes_written := n })
  | .error _ => .ok (result, w)

/-- muxer.rs:59-63; `res as usize` keeps the low bits -/
def Target.seek (w : Writer W) (sf : SeekFrom) : Rust (Except IoErr Nat × Writer W) := do
  let (x, writer) ← so.seek w.writer sf
  let w := { w with writer }
  match x with
  | .error e => .ok (.error e, w)
  | .ok res => .ok (.ok res, { w with bytes_written := res % 2 ^ t.bits })

def Target.wstep (w : Writer W) : WOp → Rust (WOut × Writer W)
  | .write l => do
    let (x, w) ← t.write so w l
    match x with
    | .ok n => .ok (.written n, w)
    | .error e => .ok (.err e, w)
  | .flush => do
    let (x, w) ← w.flush so
    match x with
    | .ok () => .ok (.flushed, w)
    | .error e => .ok (.err e, w)
  | .seek sf => do
    let (x, w) ← t.seek so w sf
    match x with
    | .ok n => .ok (.pos n, w)
    | .error e => .ok (.err e, w)

def Target.wrun (w : Writer W) : List WOp → Rust (List WOut × Writer W)
  | [] => .ok ([], w)
  | op :: ops => do
    let (o, w) ← t.wstep so w op
    let (os, w) ← Target.wrun w ops
    return (o :: os, w)

/-- On the way the sink is never at a position of `2^b` or more. -/
def StaysBelow (pos : W → Nat) (b : Nat) (w : Writer W) (ops : List WOp) : Prop :=
  ∀ k os w', Mux.wrun so w (ops.take k) = .ok (os, w') → pos w'.writer < 2 ^ b

variable {so}

theorem target_step {pos : W → Nat} (hh : Honest so pos) (w : Writer W) (op : WOp) (hw : w.bytes_written = pos w.writer)
    (hb : ∀ o w', Mux.wstep so w op = .ok (o, w') → pos w'.writer < 2 ^ t.bits) :
    t.wstep so w op = Mux.wstep so w op := by
  cases op with
  | flush => rfl
  | write l =>
    simp only [Target.wstep, Mux.wstep, Target.write, Writer.write]
    cases h1 : so.write w.writer l with
    | error e => rfl
    | ok v =>
      obtain ⟨x, s⟩ := v
      cases x with
      | error e => rfl
      | ok k =>
        have hp := hh.write_ok _ _ _ _ h1
        have := hb (.written k) ⟨s, w.bytes_written + k⟩ (by simp [Mux.wstep, Writer.write, h1])
        simp only at this
        simp only [ok_bind, Target.add, hw]
        rw [if_pos (by omega)]
        rfl
  | seek sf =>
    simp only [Target.wstep, Mux.wstep, Target.seek, Writer.seek]
    cases h1 : so.seek w.writer sf with
    | error e => rfl
    | ok v =>
      obtain ⟨x, s⟩ := v
      cases x with
      | error e => rfl
      | ok n =>
        have hp := hh.seek_ok _ _ _ _ h1
        have := hb (.pos n) ⟨s, n⟩ (by simp [Mux.wstep, Writer.seek, h1])
        simp only at this
        simp only [ok_bind]
        rw [Nat.mod_eq_of_lt (by omega)]

/-- The position is kept by a step (C38). -/
theorem position_step {pos : W → Nat} (hh : Honest so pos) {w w' : Writer W} {op : WOp} {o : WOut}
    (hw : w.bytes_written = pos w.writer) (h : Mux.wstep so w op = .ok (o, w')) : w'.bytes_written = pos w'.writer := by
  rcases wstep_cases h with ⟨l, k, _, _, a, b⟩ | ⟨l, e, _, _, a, b⟩ | ⟨x, _, a, b, _⟩ | ⟨sf, n, _, _, a, b⟩ |
    ⟨sf, e, _, _, a, b⟩
  · rw [b, hw, hh.write_ok _ _ _ _ a]
  · rw [b, hw, hh.write_err _ _ _ _ a]
  · rw [b, hw, hh.flush _ _ _ a]
  · rw [b, hh.seek_ok _ _ _ _ a]
  · rw [b, hw, hh.seek_err _ _ _ _ a]

theorem target_run {pos : W → Nat} (hh : Honest so pos) (ops : List WOp) : ∀ (w : Writer W),
    w.bytes_written = pos w.writer → StaysBelow so pos t.bits w ops → t.wrun so w ops = Mux.wrun so w ops := by
  induction ops with
  | nil => intro w _ _; rfl
  | cons op ops ih =>
    intro w hw hb
    have h1 : t.wstep so w op = Mux.wstep so w op := by
      refine target_step t hh w op hw fun o w' h => hb 1 [o] w' ?_
      simp [Mux.wrun, h]
    simp only [Target.wrun, Mux.wrun, h1]
    cases h2 : Mux.wstep so w op with
    | error e => rfl
    | ok v =>
      obtain ⟨o, w1⟩ := v
      simp only [ok_bind]
      rw [ih w1 (position_step hh hw h2)]
      intro k os w' h
      refine hb (k + 1) (o :: os) w' ?_
      simp [Mux.wrun, h2, h]

/-- **C121**: on every target, the position of a writer is the sink's after every history, and no call panics that
would not on a sink alone. -/
def C121 (t : Target) : Prop :=
  ∀ (W : Type) (so : SinkOps W) (pos : W → Nat), Honest so pos → ∀ (s : W), pos s = 0 → ∀ (ops : List WOp),
    (∃ os w, Mux.wrun so (Writer.new s) ops = .ok (os, w)) →
    ∃ os w, t.wrun so (Writer.new s) ops = .ok (os, w) ∧ w.position = pos w.writer

/-- **C121**, partial: missing are sinks that come to positions a `usize` cannot hold. Otherwise the calls return what
they return in the model without bounds, with and without overflow checks. -/
theorem c121_partial (so : SinkOps W) (pos : W → Nat) (hh : Honest so pos) (s : W) (h0 : pos s = 0)
    (ops : List WOp) (hb : StaysBelow so pos t.bits (Writer.new s) ops) :
    t.wrun so (Writer.new s) ops = Mux.wrun so (Writer.new s) ops ∧
    ∀ os w, t.wrun so (Writer.new s) ops = .ok (os, w) → w.position = pos w.writer := by
  have h := target_run t hh ops (Writer.new s) h0.symm hb
  exact ⟨h, fun os w hr => (c38_position so pos hh s h0 ops os w (h ▸ hr)).1⟩

/-- A sink that takes everything. -/
def openSink : Sink := ⟨[], 0, fun _ => ⟨none, 99⟩, 0, 0⟩

/-- **C121** fails for `usize` of 32 bits: on the write that reaches 4 GiB the writer panics, after the sink has taken
the byte; without overflow checks it goes back to position 0. A seek beyond 4 GiB leaves a wrong position in every
build. -/
theorem c121_fails (c : Bool) : ¬ C121 ⟨32, c⟩ ∧
    (∃ w, Target.wrun ⟨32, c⟩ sinkOps (Writer.new openSink) [.seek (.start (2 ^ 32 + 5))] = .ok ([.pos (2 ^ 32 + 5)], w) ∧
      w.position = 5 ∧ w.writer.pos = 2 ^ 32 + 5) ∧
    (Target.wrun ⟨32, true⟩ sinkOps (Writer.new openSink) [.seek (.start (2 ^ 32 - 1)), .write [7]] = .error .overflow) ∧
    (∃ w, Target.seek ⟨32, false⟩ sinkOps (Writer.new openSink) (.start (2 ^ 32 - 1)) = .ok (.ok (2 ^ 32 - 1), w) ∧
      ∃ w', Target.write ⟨32, false⟩ sinkOps w [7] = .ok (.ok 1, w') ∧ w'.position = 0 ∧ w'.writer.pos = 2 ^ 32) := by
  have key : ∀ c, ∃ w, Target.wrun ⟨32, c⟩ sinkOps (Writer.new openSink) [.seek (.start (2 ^ 32 + 5))] =
      .ok ([.pos (2 ^ 32 + 5)], w) ∧ w.position = 5 ∧ w.writer.pos = 2 ^ 32 + 5 := by
    intro c
    refine ⟨⟨⟨[], 2 ^ 32 + 5, fun _ => ⟨none, 99⟩, 1, 0⟩, 5⟩, ?_, rfl, rfl⟩
    simp [Target.wrun, Target.wstep, Target.seek, Writer.new, sinkOps, Sink.seek, openSink, Sink.target]
  refine ⟨fun h => ?_, key c, ?_, ?_⟩
  · obtain ⟨w0, h0, h1, h2⟩ := key c
    obtain ⟨os, w, h3, h4⟩ := h Sink sinkOps Sink.pos sink_honest openSink rfl [.seek (.start (2 ^ 32 + 5))]
      ⟨[.pos (2 ^ 32 + 5)], ⟨⟨[], 2 ^ 32 + 5, fun _ => ⟨none, 99⟩, 1, 0⟩, 2 ^ 32 + 5⟩, by
        simp [Mux.wrun, Mux.wstep, Writer.seek, Writer.new, sinkOps, Sink.seek, openSink, Sink.target]⟩
    rw [h0] at h3
    simp only [Except.ok.injEq, Prod.mk.injEq] at h3
    rw [← h3.2, h1, h2] at h4
    exact absurd h4 (by decide)
  · simp [Target.wrun, Target.wstep, Target.seek, Target.write, Target.add, Writer.new, sinkOps, Sink.seek,
      openSink, Sink.target, Sink.write]
  · refine ⟨⟨⟨[], 2 ^ 32 - 1, fun _ => ⟨none, 99⟩, 1, 0⟩, 2 ^ 32 - 1⟩, ?_,
      ⟨⟨overwrite [] (2 ^ 32 - 1) [7], 2 ^ 32, fun _ => ⟨none, 99⟩, 2, 0⟩, 0⟩, ?_, rfl, rfl⟩
    · simp [Target.seek, Writer.new, sinkOps, Sink.seek, openSink, Sink.target]
    · simp [Target.write, Target.add, sinkOps, Sink.write]

/-- The premises of `c121_partial` hold for instance for this history on 16 bits. -/
example : StaysBelow sinkOps Sink.pos 16 (Writer.new openSink) [.write [1, 2], .seek (.start 1), .write [3]] := by
  intro k os w' h
  match k with
  | 0 | 1 | 2 | k + 3 =>
    simp [Mux.wrun, Mux.wstep, Writer.write, Writer.seek, Writer.new, sinkOps, Sink.seek, openSink, Sink.target,
      Sink.write] at h
    rw [← h.2]; simp

/-! ### C121, exactly -/

/-- The writer a target has in place of this one. -/
def Target.cut (w : Writer W) : Writer W := ⟨w.writer, w.bytes_written % 2 ^ t.bits⟩

/-- What a target returns in place of this. -/
def Target.cutOut {α : Type} : Rust (α × Writer W) → Rust (α × Writer W)
  | .ok (o, w) => .ok (o, t.cut w)
  | .error p => .error p

/-- The call is a write whose count takes the position the target keeps to `2^b`. -/
def Target.Tops (so : SinkOps W) (w : Writer W) (op : WOp) : Prop :=
  ∃ l n s, op = .write l ∧ so.write w.writer l = .ok (.ok n, s) ∧ 2 ^ t.bits ≤ w.bytes_written % 2 ^ t.bits + n

theorem cut_step (w : Writer W) (op : WOp) :
    (t.checks = true ∧ t.Tops so w op ∧ t.wstep so (t.cut w) op = .error .overflow) ∨
    (¬ (t.checks = true ∧ t.Tops so w op) ∧ t.wstep so (t.cut w) op = t.cutOut (Mux.wstep so w op)) := by
  cases op with
  | flush =>
    refine .inr ⟨fun h => ?_, ?_⟩
    · obtain ⟨_, l, n, s, h, _⟩ := h; cases h
    · simp only [Target.wstep, Mux.wstep, Writer.flush, Target.cut]
      cases h1 : so.flush w.writer with
      | error e => rfl
      | ok v => obtain ⟨x, s⟩ := v; cases x <;> rfl
  | seek sf =>
    refine .inr ⟨fun h => ?_, ?_⟩
    · obtain ⟨_, l, n, s, h, _⟩ := h; cases h
    · simp only [Target.wstep, Mux.wstep, Target.seek, Writer.seek, Target.cut]
      cases h1 : so.seek w.writer sf with
      | error e => rfl
      | ok v => obtain ⟨x, s⟩ := v; cases x <;> rfl
  | write l =>
    simp only [Target.wstep, Mux.wstep, Target.write, Writer.write]
    simp only [Target.cut]
    cases h1 : so.write w.writer l with
    | error e =>
      refine .inr ⟨fun h => ?_, rfl⟩
      obtain ⟨_, l', n, s, h, h2, _⟩ := h
      cases h; rw [h1] at h2; cases h2
    | ok v =>
      obtain ⟨x, s⟩ := v
      cases x with
      | error e =>
        refine .inr ⟨fun h => ?_, rfl⟩
        obtain ⟨_, l', n, s, h, h2, _⟩ := h
        cases h; rw [h1] at h2; cases h2
      | ok k =>
        simp only [ok_bind, Target.add]
        by_cases hk : w.bytes_written % 2 ^ t.bits + k < 2 ^ t.bits
        · refine .inr ⟨fun h => ?_, ?_⟩
          · obtain ⟨_, l', n, s, h, h2, h3⟩ := h
            cases h; rw [h1] at h2
            simp only [Except.ok.injEq, Prod.mk.injEq] at h2
            omega
          · have := Nat.mod_add_mod w.bytes_written (2 ^ t.bits) k
            rw [Nat.mod_eq_of_lt hk] at this
            rw [if_pos hk, this]
            rfl
        · rw [if_neg hk]
          cases hc : t.checks with
          | true => exact .inl ⟨rfl, ⟨l, k, s, rfl, h1, by omega⟩, rfl⟩
          | false =>
            refine .inr ⟨fun h => (nomatch h.1), ?_⟩
            rw [Nat.mod_add_mod]
            rfl

theorem cut_run (ops : List WOp) : ∀ w : Writer W,
    (t.checks = true ∧ t.wrun so (t.cut w) ops = .error .overflow ∧
      ∃ pre op post os w', ops = pre ++ op :: post ∧ Mux.wrun so w pre = .ok (os, w') ∧
        t.wrun so (t.cut w) pre = .ok (os, t.cut w') ∧ t.Tops so w' op) ∨
    (t.wrun so (t.cut w) ops = t.cutOut (Mux.wrun so w ops) ∧
      ∀ pre op post os w', ops = pre ++ op :: post → Mux.wrun so w pre = .ok (os, w') →
        ¬ (t.checks = true ∧ t.Tops so w' op)) := by
  induction ops with
  | nil =>
    intro w
    refine .inr ⟨rfl, ?_⟩
    intro pre op post os w' h
    simp at h
  | cons op ops ih =>
    intro w
    rcases cut_step t (so := so) w op with ⟨a1, a2, a3⟩ | ⟨a1, a2⟩
    · exact .inl ⟨a1, by simp only [Target.wrun, a3, error_bind], [], op, ops, [], w, rfl, rfl, rfl, a2⟩
    · cases h1 : Mux.wstep so w op with
      | error e =>
        rw [h1] at a2
        refine .inr ⟨by simp only [Target.wrun, Mux.wrun, a2, h1, Target.cutOut, error_bind], ?_⟩
        intro pre o post os w' e1 e2
        cases pre with
        | nil =>
          simp only [List.nil_append, List.cons.injEq] at e1
          simp only [Mux.wrun, Except.ok.injEq, Prod.mk.injEq] at e2
          rw [← e1.1, ← e2.2]; exact a1
        | cons q pre =>
          simp only [List.cons_append, List.cons.injEq] at e1
          rw [← e1.1] at e2
          simp only [Mux.wrun, h1, error_bind] at e2
          cases e2
      | ok v =>
        obtain ⟨o1, w1⟩ := v
        rw [h1] at a2
        simp only [Target.cutOut] at a2
        rcases ih w1 with ⟨b1, b2, pre, o, post, os, w', b3, b4, b5, b6⟩ | ⟨b1, b2⟩
        · refine .inl ⟨b1, by simp only [Target.wrun, a2, ok_bind, b2, error_bind], op :: pre, o, post, o1 :: os, w',
            by rw [b3]; rfl, by simp only [Mux.wrun, h1, ok_bind, b4, pure_eq_ok],
            by simp only [Target.wrun, a2, ok_bind, b5, pure_eq_ok], b6⟩
        · refine .inr ⟨?_, ?_⟩
          · simp only [Target.wrun, Mux.wrun, a2, h1, ok_bind, b1]
            cases Mux.wrun so w1 ops with
            | error e => rfl
            | ok v => rfl
          · intro pre o post os w' e1 e2
            cases pre with
            | nil =>
              simp only [List.nil_append, List.cons.injEq] at e1
              simp only [Mux.wrun, Except.ok.injEq, Prod.mk.injEq] at e2
              rw [← e1.1, ← e2.2]; exact a1
            | cons q pre =>
              simp only [List.cons_append, List.cons.injEq] at e1
              rw [← e1.1] at e2
              simp only [Mux.wrun, h1, ok_bind] at e2
              cases hr : Mux.wrun so w1 pre with
              | error x => rw [hr] at e2; cases e2
              | ok x =>
                obtain ⟨ws, w2⟩ := x
                rw [hr] at e2
                simp only [ok_bind, pure_eq_ok, Except.ok.injEq, Prod.mk.injEq] at e2
                exact b2 pre o post ws w' e1.2 (by rw [hr, e2.2])

/-- **C121, exactly** For every target, every sink, even one that misreports what it has taken or where it is, and every
history of calls. Without overflow checks the calls return, or panic with, what they do in the model without bounds,
and the position is the model's modulo `2^b`; with checks so, unless some write takes the position kept to `2^b` or
more: there the history panics. With a sink that reports honestly the position of the model is the sink's, by C38.
Missing for C121: that positions do not reach `2^b`, which is false. -/
theorem c121_exact_partial (so : SinkOps W) (s : W) (ops : List WOp) :
    (t.checks = false → t.wrun so (Writer.new s) ops = t.cutOut (Mux.wrun so (Writer.new s) ops)) ∧
    (t.checks = true →
      (t.wrun so (Writer.new s) ops = t.cutOut (Mux.wrun so (Writer.new s) ops) ∧
        ∀ pre op post os w', ops = pre ++ op :: post → Mux.wrun so (Writer.new s) pre = .ok (os, w') →
          ¬ t.Tops so w' op) ∨
      (t.wrun so (Writer.new s) ops = .error .overflow ∧
        ∃ pre op post os w', ops = pre ++ op :: post ∧ Mux.wrun so (Writer.new s) pre = .ok (os, w') ∧
          t.wrun so (Writer.new s) pre = .ok (os, t.cut w') ∧ t.Tops so w' op)) ∧
    (∀ pos : W → Nat, Honest so pos → pos s = 0 → ∀ os w, t.wrun so (Writer.new s) ops = .ok (os, w) →
      w.position = pos w.writer % 2 ^ t.bits) := by
  have h0 : t.cut (Writer.new s) = Writer.new s := by simp [Target.cut, Writer.new]
  have h := cut_run t (so := so) ops (Writer.new s)
  rw [h0] at h
  refine ⟨fun hc => ?_, fun hc => ?_, ?_⟩
  · rcases h with ⟨a, _⟩ | ⟨a, _⟩
    · rw [hc] at a; cases a
    · exact a
  · rcases h with ⟨_, a, b⟩ | ⟨a, b⟩
    · exact .inr ⟨a, b⟩
    · exact .inl ⟨a, fun pre op post os w' e1 e2 e3 => b pre op post os w' e1 e2 ⟨hc, e3⟩⟩
  · intro pos hh hp os w hr
    rcases h with ⟨_, a, _⟩ | ⟨a, _⟩
    · rw [a] at hr; cases hr
    · rw [a] at hr
      cases hm : Mux.wrun so (Writer.new s) ops with
      | error e => rw [hm] at hr; cases hr
      | ok v =>
        obtain ⟨os', w'⟩ := v
        rw [hm] at hr
        simp only [Target.cutOut, Except.ok.injEq, Prod.mk.injEq] at hr
        have := (c38_position so pos hh s hp ops os' w' hm).1
        rw [← hr.2]
        simp only [Writer.position, Target.cut] at this ⊢
        rw [this]

/-- A write at the last position of 8 bits tops it, one before does not. -/
example : Target.Tops ⟨8, true⟩ sinkOps ⟨openSink, 511⟩ (.write [1]) ∧
    ¬ Target.Tops ⟨8, true⟩ sinkOps ⟨openSink, 510⟩ (.write [1]) := by
  refine ⟨⟨[1], 1, _, rfl, rfl, by decide⟩, ?_⟩
  rintro ⟨l, n, s, h1, h2, h3⟩
  cases h1
  simp [sinkOps, Sink.write, openSink] at h2
  simp only at h3
  omega

/-! ### C122: panics of the muxing context -/

/-- What a call on the context calls, panicking with `p`. -/
inductive StepBreaks (so : SinkOps W) (mx : Muxer M W) (c : Context M W) (p : Panic) : Op → Prop
  | configure : mx.configure c.muxer = .error p → StepBreaks so mx c p .configure
  | header : mx.writeHeader c.muxer c.writer = .error p → StepBreaks so mx c p .header
  | packet {k} : mx.writePacket c.muxer c.writer k = .error p → StepBreaks so mx c p (.packet k)
  | trailer : mx.writeTrailer c.muxer c.writer = .error p → StepBreaks so mx c p .trailer
  | flush {m w} : mx.writeTrailer c.muxer c.writer = .ok (.ok (), m, w) → so.flush w.writer = .error p →
      StepBreaks so mx c p .trailer
  | info {i} : mx.setGlobalInfo c.muxer i = .error p → StepBreaks so mx c p (.info i)
  | option {k v} : mx.setOption c.muxer k v.into = .error p → StepBreaks so mx c p (.option k v)

theorem step_panics (so : SinkOps W) (mx : Muxer M W) (c : Context M W) (op : Op) (p : Panic) :
    c.step so mx op = .error p ↔ StepBreaks so mx c p op := by
  constructor
  · intro h
    cases op with
    | configure =>
      simp only [Context.step, Context.configure] at h
      cases h1 : mx.configure c.muxer with
      | error e => rw [h1] at h; cases h; exact .configure h1
      | ok v => rw [h1] at h; cases h
    | header =>
      simp only [Context.step, Context.writeHeader] at h
      cases h1 : mx.writeHeader c.muxer c.writer with
      | error e => rw [h1] at h; cases h; exact .header h1
      | ok v => rw [h1] at h; cases h
    | packet k =>
      simp only [Context.step, Context.writePacket] at h
      cases h1 : mx.writePacket c.muxer c.writer k with
      | error e => rw [h1] at h; cases h; exact .packet h1
      | ok v => rw [h1] at h; cases h
    | info i =>
      simp only [Context.step, Context.setGlobalInfo] at h
      cases h1 : mx.setGlobalInfo c.muxer i with
      | error e => rw [h1] at h; cases h; exact .info h1
      | ok v => rw [h1] at h; cases h
    | option k v =>
      simp only [Context.step, Context.setOption] at h
      cases h1 : mx.setOption c.muxer k v.into with
      | error e => rw [h1] at h; cases h; exact .option h1
      | ok v => rw [h1] at h; cases h
    | trailer =>
      simp only [Context.step, Context.writeTrailer] at h
      cases h1 : mx.writeTrailer c.muxer c.writer with
      | error e => rw [h1] at h; cases h; exact .trailer h1
      | ok v =>
        obtain ⟨x, m, w⟩ := v
        rw [h1] at h
        cases x with
        | error e => cases h
        | ok u =>
          simp only [ok_bind, Writer.flush] at h
          cases h2 : so.flush w.writer with
          | error e => rw [h2] at h; cases h; exact .flush h1 h2
          | ok v =>
            obtain ⟨y, s⟩ := v
            rw [h2] at h
            cases y <;> cases h
  · intro h
    cases h with
    | configure h => simp [Context.step, Context.configure, h]
    | header h => simp [Context.step, Context.writeHeader, h]
    | packet h => simp [Context.step, Context.writePacket, h]
    | trailer h => simp [Context.step, Context.writeTrailer, h]
    | flush h1 h2 => simp [Context.step, Context.writeTrailer, Writer.flush, h1, h2]
    | info h => simp [Context.step, Context.setGlobalInfo, h]
    | option h => simp [Context.step, Context.setOption, h]

/-- **C122.** A history of calls on a muxing context panics exactly if, in the state reached by a part of it, the muxer
or the sink's flush does, as called next. -/
theorem c122_panics (so : SinkOps W) (mx : Muxer M W) (c : Context M W) (ops : List Op) (p : Panic) :
    c.run so mx ops = .error p ↔
      ∃ before op after xs c', ops = before ++ op :: after ∧ c.run so mx before = .ok (xs, c') ∧
        StepBreaks so mx c' p op := by
  induction ops generalizing c with
  | nil =>
    constructor
    · intro h; cases h
    · rintro ⟨before, op, after, xs, c', h, _⟩
      simp at h
  | cons op ops ih =>
    constructor
    · intro h
      simp only [Context.run] at h
      cases h1 : c.step so mx op with
      | error e =>
        rw [h1] at h; cases h
        exact ⟨[], op, ops, [], c, rfl, rfl, (step_panics so mx c op p).1 h1⟩
      | ok v =>
        obtain ⟨x, c1⟩ := v
        simp only [h1, ok_bind] at h
        cases h2 : c1.run so mx ops with
        | ok v => rw [h2] at h; cases h
        | error e =>
          rw [h2] at h; cases h
          obtain ⟨before, op', after, xs, c', e1, e2, e3⟩ := (ih c1).1 h2
          exact ⟨op :: before, op', after, x :: xs, c', by rw [e1]; rfl, by simp [Context.run, h1, e2], e3⟩
    · rintro ⟨before, op', after, xs, c', e1, e2, e3⟩
      cases before with
      | nil =>
        cases e2
        simp only [List.nil_append, List.cons.injEq] at e1
        obtain ⟨rfl, rfl⟩ := e1
        simp [Context.run, (step_panics so mx c op p).2 e3]
      | cons b before =>
        simp only [List.cons_append, List.cons.injEq] at e1
        obtain ⟨rfl, rfl⟩ := e1
        simp only [Context.run] at e2 ⊢
        cases h1 : c.step so mx op with
        | error e => rw [h1] at e2; cases e2
        | ok v =>
          obtain ⟨x, c1⟩ := v
          simp only [h1, ok_bind] at e2 ⊢
          cases h2 : c1.run so mx before with
          | error e => rw [h2] at e2; cases e2
          | ok v =>
            obtain ⟨ys, c2⟩ := v
            simp only [h2, ok_bind, pure_eq_ok, Except.ok.injEq, Prod.mk.injEq] at e2
            obtain ⟨_, rfl⟩ := e2
            rw [(ih c1).2 ⟨before, op', after, ys, c2, rfl, h2, e3⟩]
            rfl

/-- A muxer that panics on its second packet. -/
def fussyMuxer : Muxer Nat Sink where
  configure m := .ok (.ok (), m)
  writeHeader m w := .ok (.ok (), m, w)
  writePacket m w _ := if m = 1 then .error .unwrap else .ok (.ok (), m + 1, w)
  writeTrailer m w := .ok (.ok (), m, w)
  setGlobalInfo m _ := .ok (.ok (), m)
  setOption m _ _ := .ok (.ok (), m)

example : (Context.new 0 (Writer.new openSink)).run sinkOps fussyMuxer
    [.header, .packet (Packet.new), .packet (Packet.new), .trailer] = .error .unwrap := rfl

end Verif.Mux
