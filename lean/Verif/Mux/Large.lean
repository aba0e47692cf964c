import Verif.Mux.Narrow

/-!
# Property C143: muxing files that are larger than the address space

A muxer over a `Writer` whose position has `b` bits. To speak of the same muxer on two targets, muxers are programs here: they
call the writer and go on depending on what it returns. Muxers work for every `W: Write` (muxer.rs:72-80), so they cannot seek,
nor see the sink; but who makes the context may seek before, for instance to the end of a file.
-/

namespace Verif.Mux
open Verif Verif.Io Verif.Stream Verif.Packet Verif.Value
open Verif.Demux (Err)

/-- What the code of a muxer does with the writer it is given: it writes or flushes (muxer.rs:38-53), asks for the position
(muxer.rs:29-31), returns or panics. -/
inductive Prog (α : Type)
  | ret (a : α)
  | panic (p : Panic)
  | write (l : List U8) (k : WOut → Prog α)
  | flush (k : WOut → Prog α)
  | position (k : Nat → Prog α)

variable {M W α : Type}

/-- Run on a writer. `look` is what `position` answers at a position. -/
def Prog.run (step : Writer W → WOp → Rust (WOut × Writer W)) (look : Nat → Nat) : Prog α → Writer W → Rust (α × Writer W)
  | .ret a, w => .ok (a, w)
  | .panic p, _ => .error p
  | .write l k, w => do
    let (o, w) ← step w (.write l)
    (k o).run step look w
  | .flush k, w => do
    let (o, w) ← step w .flush
    (k o).run step look w
  | .position k, w => (k (look w.position)).run step look w

/-- An implementation of `Muxer` (muxer.rs:67-87). -/
structure Plan (M : Type) where
  configure : M → Rust (Except Err Unit × M)
  header : M → Prog (Except Err Unit × M)
  packet : M → Packet → Prog (Except Err Unit × M)
  trailer : M → Prog (Except Err Unit × M)
  setGlobalInfo : M → GlobalInfo → Rust (Except Err Unit × M)
  setOption : M → String → Value → Rust (Except Err Unit × M)

/-- The result, then the state, then the writer. -/
def assoc (x : Rust ((Except Err Unit × M) × Writer W)) : Rust (Except Err Unit × M × Writer W) := do
  let ((r, m), w) ← x
  return (r, m, w)

/-- The muxer, over writers with these functions. -/
def Plan.muxer (pl : Plan M) (step : Writer W → WOp → Rust (WOut × Writer W)) (look : Nat → Nat) : Muxer M W where
  configure := pl.configure
  writeHeader m w := assoc ((pl.header m).run step look w)
  writePacket m w p := assoc ((pl.packet m p).run step look w)
  writeTrailer m w := assoc ((pl.trailer m).run step look w)
  setGlobalInfo := pl.setGlobalInfo
  setOption := pl.setOption

/-- A context on a target, with a writer that was used before. -/
def Target.mux (t : Target) (so : SinkOps W) (pl : Plan M) (m : M) (s : W) (pre : List WOp) (ops : List Op) :
    Rust (List WOut × List (Except Err Unit) × Context M W) := do
  let (os, w) ← t.wrun so (Writer.new s) pre
  let (xs, c) ← (Context.new m w).run so (pl.muxer (t.wstep so) id) ops
  return (os, xs, c)

/-- So in the model, without bounds. -/
def mux (so : SinkOps W) (pl : Plan M) (look : Nat → Nat) (m : M) (s : W) (pre : List WOp) (ops : List Op) :
    Rust (List WOut × List (Except Err Unit) × Context M W) := do
  let (os, w) ← Mux.wrun so (Writer.new s) pre
  let (xs, c) ← (Context.new m w).run so (pl.muxer (Mux.wstep so) look) ops
  return (os, xs, c)

/-- The code never asks for the position. -/
inductive Prog.Blind : Prog α → Prop
  | ret (a) : Blind (.ret a)
  | panic (p) : Blind (.panic p)
  | write {l k} : (∀ o, (k o).Blind) → Blind (.write l k)
  | flush {k} : (∀ o, (k o).Blind) → Blind (.flush k)

def Plan.Blind (pl : Plan M) : Prop :=
  (∀ m, (pl.header m).Blind) ∧ (∀ m p, (pl.packet m p).Blind) ∧ ∀ m, (pl.trailer m).Blind

/-- Run in the model, with positions modulo `2^b`, the code comes to a write that takes the position of the target to `2^b`. -/
def Prog.Tops (t : Target) (so : SinkOps W) : Prog α → Writer W → Prop
  | .ret _, _ => False
  | .panic _, _ => False
  | .write l k, w => t.Tops so w (.write l) ∨ ∃ o w', Mux.wstep so w (.write l) = .ok (o, w') ∧ (k o).Tops t so w'
  | .flush k, w => ∃ o w', Mux.wstep so w .flush = .ok (o, w') ∧ (k o).Tops t so w'
  | .position k, w => (k (w.position % 2 ^ t.bits)).Tops t so w

/-- So does a call of the context. -/
def Plan.TopsStep (pl : Plan M) (t : Target) (so : SinkOps W) (c : Context M W) : Op → Prop
  | .header => (pl.header c.muxer).Tops t so c.writer
  | .packet p => (pl.packet c.muxer p).Tops t so c.writer
  | .trailer => (pl.trailer c.muxer).Tops t so c.writer
  | _ => False

/-- So do the calls before the context is made, or one of its calls. -/
def Plan.Tops (pl : Plan M) (t : Target) (so : SinkOps W) (m : M) (s : W) (pre : List WOp) (ops : List Op) : Prop :=
  (∃ a op z os w, pre = a ++ op :: z ∧ Mux.wrun so (Writer.new s) a = .ok (os, w) ∧ t.Tops so w op) ∨
  ∃ a op z os xs c, ops = a ++ op :: z ∧ mux so pl (· % 2 ^ t.bits) m s pre a = .ok (os, xs, c) ∧ pl.TopsStep t so c op

/-- While the code runs, no call leaves the position at `2^b` or beyond. -/
def Prog.Low (so : SinkOps W) (b : Nat) : Prog α → Writer W → Prop
  | .ret _, _ => True
  | .panic _, _ => True
  | .write l k, w => ∀ o w', Mux.wstep so w (.write l) = .ok (o, w') → w'.position < 2 ^ b ∧ (k o).Low so b w'
  | .flush k, w => ∀ o w', Mux.wstep so w .flush = .ok (o, w') → (k o).Low so b w'
  | .position k, w => (k w.position).Low so b w

/-- So during one call of the context. -/
def Plan.LowStep (pl : Plan M) (so : SinkOps W) (b : Nat) (c : Context M W) : Op → Prop
  | .header => (pl.header c.muxer).Low so b c.writer
  | .packet p => (pl.packet c.muxer p).Low so b c.writer
  | .trailer => (pl.trailer c.muxer).Low so b c.writer
  | _ => True

/-- So before the context is made and during all of its calls. -/
def Plan.Low (pl : Plan M) (so : SinkOps W) (b : Nat) (m : M) (s : W) (pre : List WOp) (ops : List Op) : Prop :=
  (∀ a z os w, pre = a ++ z → Mux.wrun so (Writer.new s) a = .ok (os, w) → w.position < 2 ^ b) ∧
  ∀ a op z os xs c, ops = a ++ op :: z → mux so pl id m s pre a = .ok (os, xs, c) → pl.LowStep so b c op

variable (t : Target) (so : SinkOps W)

/-! ### the proof -/

theorem prog_cut (p : Prog α) : ∀ w : Writer W,
    (t.checks = true ∧ p.Tops t so w ∧ p.run (t.wstep so) id (t.cut w) = .error .overflow) ∨
    (¬ (t.checks = true ∧ p.Tops t so w) ∧
      p.run (t.wstep so) id (t.cut w) = t.cutOut (p.run (Mux.wstep so) (· % 2 ^ t.bits) w)) := by
  induction p with
  | ret a => intro w; exact .inr ⟨fun h => h.2, rfl⟩
  | panic p => intro w; exact .inr ⟨fun h => h.2, rfl⟩
  | write l k ih =>
    intro w
    simp only [Prog.run, Prog.Tops]
    rcases cut_step t (so := so) w (.write l) with ⟨a1, a2, a3⟩ | ⟨a1, a2⟩
    · exact .inl ⟨a1, .inl a2, by rw [a3]; rfl⟩
    · rw [a2]
      cases hs : Mux.wstep so w (.write l) with
      | error e =>
        refine .inr ⟨?_, rfl⟩
        rintro ⟨c, h | ⟨o, w', h, _⟩⟩
        · exact a1 ⟨c, h⟩
        · cases h
      | ok v =>
        obtain ⟨o, w'⟩ := v
        rcases ih o w' with ⟨b1, b2, b3⟩ | ⟨b1, b2⟩
        · exact .inl ⟨b1, .inr ⟨o, w', rfl, b2⟩, b3⟩
        · refine .inr ⟨?_, b2⟩
          rintro ⟨c, h | ⟨o1, w1, h, h1⟩⟩
          · exact a1 ⟨c, h⟩
          · cases h; exact b1 ⟨c, h1⟩
  | flush k ih =>
    intro w
    simp only [Prog.run, Prog.Tops]
    rcases cut_step t (so := so) w .flush with ⟨_, ⟨l, n, s, h, _⟩, _⟩ | ⟨_, a2⟩
    · cases h
    · rw [a2]
      cases hs : Mux.wstep so w .flush with
      | error e =>
        refine .inr ⟨?_, rfl⟩
        rintro ⟨c, o, w', h, _⟩
        cases h
      | ok v =>
        obtain ⟨o, w'⟩ := v
        rcases ih o w' with ⟨b1, b2, b3⟩ | ⟨b1, b2⟩
        · exact .inl ⟨b1, ⟨o, w', rfl, b2⟩, b3⟩
        · refine .inr ⟨?_, b2⟩
          rintro ⟨c, o1, w1, h, h1⟩
          cases h; exact b1 ⟨c, h1⟩
  | position k ih =>
    intro w
    exact ih _ w

/-- The context on the target in place of this one. -/
def Target.cutC (c : Context M W) : Context M W := { c with writer := t.cut c.writer }

def Target.cutCOut {X : Type} : Rust (X × Context M W) → Rust (X × Context M W)
  | .ok (x, c) => .ok (x, t.cutC c)
  | .error p => .error p

theorem flush_cut (w : Writer W) : (t.cut w).flush so = t.cutOut (w.flush so) := by
  simp only [Writer.flush, Target.cut]
  cases so.flush w.writer with
  | error e => rfl
  | ok v => rfl

theorem step_cut (pl : Plan M) (c : Context M W) (op : Op) :
    (t.checks = true ∧ pl.TopsStep t so c op ∧
      (t.cutC c).step so (pl.muxer (t.wstep so) id) op = .error .overflow) ∨
    (¬ (t.checks = true ∧ pl.TopsStep t so c op) ∧
      (t.cutC c).step so (pl.muxer (t.wstep so) id) op =
        t.cutCOut (c.step so (pl.muxer (Mux.wstep so) (· % 2 ^ t.bits)) op)) := by
  cases op with
  | configure =>
    refine .inr ⟨fun h => h.2, ?_⟩
    simp only [Context.step, Context.configure, Plan.muxer, Target.cutC]
    cases pl.configure c.muxer <;> rfl
  | header =>
    simp only [Context.step, Context.writeHeader, Plan.muxer, Target.cutC, Plan.TopsStep]
    rcases prog_cut t so (pl.header c.muxer) c.writer with ⟨a1, a2, a3⟩ | ⟨a1, a2⟩
    · exact .inl ⟨a1, a2, by rw [a3]; rfl⟩
    · refine .inr ⟨a1, ?_⟩
      rw [a2]
      cases (pl.header c.muxer).run (Mux.wstep so) (· % 2 ^ t.bits) c.writer <;> rfl
  | packet p =>
    simp only [Context.step, Context.writePacket, Plan.muxer, Target.cutC, Plan.TopsStep]
    rcases prog_cut t so (pl.packet c.muxer p) c.writer with ⟨a1, a2, a3⟩ | ⟨a1, a2⟩
    · exact .inl ⟨a1, a2, by rw [a3]; rfl⟩
    · refine .inr ⟨a1, ?_⟩
      rw [a2]
      cases (pl.packet c.muxer p).run (Mux.wstep so) (· % 2 ^ t.bits) c.writer <;> rfl
  | trailer =>
    simp only [Context.step, Context.writeTrailer, Plan.muxer, Target.cutC, Plan.TopsStep]
    rcases prog_cut t so (pl.trailer c.muxer) c.writer with ⟨a1, a2, a3⟩ | ⟨a1, a2⟩
    · exact .inl ⟨a1, a2, by rw [a3]; rfl⟩
    refine .inr ⟨a1, ?_⟩
    rw [a2]
    cases (pl.trailer c.muxer).run (Mux.wstep so) (· % 2 ^ t.bits) c.writer with
    | error e => rfl
    | ok v =>
      obtain ⟨⟨x, m⟩, w⟩ := v
      simp only [Target.cutOut, assoc, ok_bind, pure_eq_ok]
      cases x with
      | error e => rfl
      | ok u =>
        simp only [flush_cut]
        cases w.flush so with
        | error e => rfl
        | ok v =>
          obtain ⟨y, w2⟩ := v
          cases y <;> rfl
  | info i =>
    refine .inr ⟨fun h => h.2, ?_⟩
    simp only [Context.step, Context.setGlobalInfo, Plan.muxer, Target.cutC]
    cases pl.setGlobalInfo c.muxer i <;> rfl
  | option k v =>
    refine .inr ⟨fun h => h.2, ?_⟩
    simp only [Context.step, Context.setOption, Plan.muxer, Target.cutC]
    cases pl.setOption c.muxer k v.into <;> rfl

theorem run_cut (pl : Plan M) (ops : List Op) : ∀ c : Context M W,
    (t.checks = true ∧ (∃ a op z xs c', ops = a ++ op :: z ∧
        c.run so (pl.muxer (Mux.wstep so) (· % 2 ^ t.bits)) a = .ok (xs, c') ∧ pl.TopsStep t so c' op) ∧
      (t.cutC c).run so (pl.muxer (t.wstep so) id) ops = .error .overflow) ∨
    (¬ (t.checks = true ∧ ∃ a op z xs c', ops = a ++ op :: z ∧
        c.run so (pl.muxer (Mux.wstep so) (· % 2 ^ t.bits)) a = .ok (xs, c') ∧ pl.TopsStep t so c' op) ∧
      (t.cutC c).run so (pl.muxer (t.wstep so) id) ops =
        t.cutCOut (c.run so (pl.muxer (Mux.wstep so) (· % 2 ^ t.bits)) ops)) := by
  induction ops with
  | nil =>
    intro c
    refine .inr ⟨?_, rfl⟩
    rintro ⟨_, a, op, z, xs, c', h, _⟩
    simp at h
  | cons op ops ih =>
    intro c
    rcases step_cut t so pl c op with ⟨a1, a2, a3⟩ | ⟨a1, a2⟩
    · exact .inl ⟨a1, ⟨[], op, ops, [], c, rfl, rfl, a2⟩, by simp only [Context.run, a3, error_bind]⟩
    · cases h1 : c.step so (pl.muxer (Mux.wstep so) (· % 2 ^ t.bits)) op with
      | error e =>
        rw [h1] at a2
        refine .inr ⟨?_, by simp only [Context.run, a2, h1, Target.cutCOut, error_bind]⟩
        rintro ⟨hc, a, o, z, xs, c', e1, e2, e3⟩
        cases a with
        | nil =>
          simp only [List.nil_append, List.cons.injEq] at e1
          cases e2
          exact a1 ⟨hc, e1.1 ▸ e3⟩
        | cons q a =>
          simp only [List.cons_append, List.cons.injEq] at e1
          rw [← e1.1] at e2
          simp only [Context.run, h1, error_bind] at e2
          cases e2
      | ok v =>
        obtain ⟨x, c1⟩ := v
        rw [h1] at a2
        simp only [Target.cutCOut] at a2
        rcases ih c1 with ⟨b1, ⟨a, o, z, xs, c', b2, b3, b4⟩, b5⟩ | ⟨b1, b2⟩
        · exact .inl ⟨b1, ⟨op :: a, o, z, x :: xs, c', by rw [b2]; rfl, by simp only [Context.run, h1, ok_bind, b3, pure_eq_ok],
            b4⟩, by simp only [Context.run, a2, ok_bind, b5, error_bind]⟩
        · refine .inr ⟨?_, ?_⟩
          · rintro ⟨hc, a, o, z, xs, c', e1, e2, e3⟩
            cases a with
            | nil =>
              simp only [List.nil_append, List.cons.injEq] at e1
              cases e2
              exact a1 ⟨hc, e1.1 ▸ e3⟩
            | cons q a =>
              simp only [List.cons_append, List.cons.injEq] at e1
              rw [← e1.1] at e2
              simp only [Context.run, h1, ok_bind] at e2
              cases hr : c1.run so (pl.muxer (Mux.wstep so) (· % 2 ^ t.bits)) a with
              | error y => rw [hr] at e2; cases e2
              | ok y =>
                obtain ⟨ys, c2⟩ := y
                rw [hr] at e2
                cases e2
                exact b1 ⟨hc, a, o, z, ys, _, e1.2, hr, e3⟩
          · simp only [Context.run, a2, h1, ok_bind, b2]
            cases c1.run so (pl.muxer (Mux.wstep so) (· % 2 ^ t.bits)) ops <;> rfl

/-- What a target returns in place of this. -/
def Target.cutAll {X Y : Type} : Rust (X × Y × Context M W) → Rust (X × Y × Context M W)
  | .ok (x, y, c) => .ok (x, y, t.cutC c)
  | .error p => .error p

theorem mux_cut (pl : Plan M) (m : M) (s : W) (pre : List WOp) (ops : List Op) :
    (t.checks = true ∧ pl.Tops t so m s pre ops ∧ t.mux so pl m s pre ops = .error .overflow) ∨
    (¬ (t.checks = true ∧ pl.Tops t so m s pre ops) ∧
      t.mux so pl m s pre ops = t.cutAll (mux so pl (· % 2 ^ t.bits) m s pre ops)) := by
  have h0 : t.cut (Writer.new s) = Writer.new s := by simp [Target.cut, Writer.new]
  have h := cut_run t (so := so) pre (Writer.new s)
  rw [h0] at h
  rcases h with ⟨a1, a2, a, op, z, os, w, a3, a4, _, a5⟩ | ⟨a1, a2⟩
  · exact .inl ⟨a1, .inl ⟨a, op, z, os, w, a3, a4, a5⟩, by simp only [Target.mux, a2, error_bind]⟩
  · cases h1 : Mux.wrun so (Writer.new s) pre with
    | error e =>
      rw [h1] at a1
      refine .inr ⟨?_, by simp only [Target.mux, mux, a1, h1, Target.cutOut, Target.cutAll, error_bind]⟩
      rintro ⟨hc, ⟨a, op, z, os, w, e1, e2, e3⟩ | ⟨a, op, z, os, xs, c, _, e2, _⟩⟩
      · exact a2 a op z os w e1 e2 ⟨hc, e3⟩
      · simp only [mux, h1, error_bind] at e2
        cases e2
    | ok v =>
      obtain ⟨os, w⟩ := v
      rw [h1] at a1
      simp only [Target.cutOut] at a1
      rcases run_cut t so pl ops (Context.new m w) with ⟨b1, ⟨a, o, z, xs, c', b2, b3, b4⟩, b5⟩ | ⟨b1, b2⟩
      · refine .inl ⟨b1, .inr ⟨a, o, z, os, xs, c', b2, by simp only [mux, h1, ok_bind, b3, pure_eq_ok], b4⟩, ?_⟩
        simp only [Target.mux, a1, ok_bind]
        show ((t.cutC (Context.new m w)).run so (pl.muxer (t.wstep so) id) ops >>= _) = _
        rw [b5]; rfl
      · refine .inr ⟨?_, ?_⟩
        · rintro ⟨hc, ⟨a, op, z, os, w, e1, e2, e3⟩ | ⟨a, op, z, os', xs, c, e1, e2, e3⟩⟩
          · exact a2 a op z os w e1 e2 ⟨hc, e3⟩
          · simp only [mux, h1, ok_bind] at e2
            cases hr : (Context.new m w).run so (pl.muxer (Mux.wstep so) (· % 2 ^ t.bits)) a with
            | error y => rw [hr] at e2; cases e2
            | ok y =>
              obtain ⟨ys, c2⟩ := y
              rw [hr] at e2
              cases e2
              exact b1 ⟨hc, a, op, z, ys, _, e1, hr, e3⟩
        · simp only [Target.mux, mux, a1, h1, ok_bind]
          show ((t.cutC (Context.new m w)).run so (pl.muxer (t.wstep so) id) ops >>= _) = _
          rw [b2]
          cases (Context.new m w).run so (pl.muxer (Mux.wstep so) (· % 2 ^ t.bits)) ops <;> rfl

theorem blind_run {step : Writer W → WOp → Rust (WOut × Writer W)} {look look' : Nat → Nat} {p : Prog α} (h : p.Blind) :
    ∀ w, p.run step look w = p.run step look' w := by
  induction h with
  | ret a => intro w; rfl
  | panic p => intro w; rfl
  | write _ ih =>
    intro w
    simp only [Prog.run]
    cases step w _ with
    | error e => rfl
    | ok v => exact ih v.1 v.2
  | flush _ ih =>
    intro w
    simp only [Prog.run]
    cases step w _ with
    | error e => rfl
    | ok v => exact ih v.1 v.2

theorem blind_muxer {pl : Plan M} (h : pl.Blind) {step : Writer W → WOp → Rust (WOut × Writer W)} (look look' : Nat → Nat) :
    pl.muxer step look = pl.muxer step look' := by
  obtain ⟨h1, h2, h3⟩ := h
  simp only [Plan.muxer, Muxer.mk.injEq, true_and, and_true]
  refine ⟨?_, ?_, ?_⟩
  · funext m w; rw [blind_run (h1 m) (look' := look')]
  · funext m w p; rw [blind_run (h2 m p) (look' := look')]
  · funext m w; rw [blind_run (h3 m) (look' := look')]

theorem cut_low {w : Writer W} (h : w.position < 2 ^ t.bits) : t.cut w = w := by
  simp only [Target.cut, Writer.position] at h ⊢
  rw [Nat.mod_eq_of_lt h]

theorem tops_low {w : Writer W} {op : WOp} (hw : w.position < 2 ^ t.bits) (h : t.Tops so w op) :
    ∃ o w', Mux.wstep so w op = .ok (o, w') ∧ 2 ^ t.bits ≤ w'.position := by
  obtain ⟨l, n, s, rfl, h1, h2⟩ := h
  refine ⟨.written n, ⟨s, w.bytes_written + n⟩, by simp [Mux.wstep, Writer.write, h1], ?_⟩
  simp only [Writer.position] at hw ⊢
  rw [Nat.mod_eq_of_lt hw] at h2
  exact h2

theorem flush_keeps {w w' : Writer W} {o : WOut} (h : Mux.wstep so w .flush = .ok (o, w')) : w'.position = w.position := by
  rcases wstep_cases h with ⟨l, k, a, _⟩ | ⟨l, e, a, _⟩ | ⟨x, _, _, b, _⟩ | ⟨sf, n, a, _⟩ | ⟨sf, e, a, _⟩
  · cases a
  · cases a
  · exact b
  · cases a
  · cases a

/-- Code that stays low tops nothing, and does not notice that positions are taken modulo `2^b`. -/
theorem prog_low (p : Prog α) : ∀ w : Writer W, w.position < 2 ^ t.bits → p.Low so t.bits w →
    ¬ p.Tops t so w ∧ p.run (Mux.wstep so) (· % 2 ^ t.bits) w = p.run (Mux.wstep so) id w ∧
    ∀ a w', p.run (Mux.wstep so) id w = .ok (a, w') → w'.position < 2 ^ t.bits := by
  induction p with
  | ret a => intro w hw _; exact ⟨fun h => h, rfl, fun b w' h => by cases h; exact hw⟩
  | panic p => intro w hw _; exact ⟨fun h => h, rfl, fun b w' h => (nomatch h)⟩
  | write l k ih =>
    intro w hw hl
    simp only [Prog.run, Prog.Tops]
    have ht : ¬ t.Tops so w (.write l) := by
      intro h
      obtain ⟨o, w', h1, h2⟩ := tops_low t so hw h
      have := (hl o w' h1).1
      omega
    cases hs : Mux.wstep so w (.write l) with
    | error e =>
      refine ⟨?_, rfl, fun a w' h => (nomatch h)⟩
      rintro (h | ⟨o, w', h, _⟩)
      · exact ht h
      · cases h
    | ok v =>
      obtain ⟨o, w'⟩ := v
      obtain ⟨h1, h2⟩ := hl o w' hs
      obtain ⟨i1, i2⟩ := ih o w' h1 h2
      refine ⟨?_, i2⟩
      rintro (h | ⟨o, w', h, h3⟩)
      · exact ht h
      · cases h; exact i1 h3
  | flush k ih =>
    intro w hw hl
    simp only [Prog.run, Prog.Tops]
    cases hs : Mux.wstep so w .flush with
    | error e =>
      refine ⟨?_, rfl, fun a w' h => (nomatch h)⟩
      rintro ⟨o, w', h, _⟩
      cases h
    | ok v =>
      obtain ⟨o, w'⟩ := v
      obtain ⟨i1, i2⟩ := ih o w' (by rw [flush_keeps so hs]; exact hw) (hl o w' hs)
      refine ⟨?_, i2⟩
      rintro ⟨o, w', h, h3⟩
      cases h; exact i1 h3
  | position k ih =>
    intro w hw hl
    simp only [Prog.run, Prog.Tops, Nat.mod_eq_of_lt hw]
    exact ih _ w hw hl

theorem flush_position {w w' : Writer W} {x : Except IoErr Unit} (h : w.flush so = .ok (x, w')) : w'.position = w.position := by
  simp only [Writer.flush] at h
  cases h1 : so.flush w.writer with
  | error e => rw [h1] at h; cases h
  | ok v => rw [h1] at h; cases h; rfl

theorem assoc_low {p : Prog (Except Err Unit × M)} {w w' : Writer W} {x : Except Err Unit} {m : M}
    (hw : w.position < 2 ^ t.bits) (hl : p.Low so t.bits w)
    (h : assoc (p.run (Mux.wstep so) id w) = .ok (x, m, w')) : w'.position < 2 ^ t.bits := by
  cases hr : p.run (Mux.wstep so) id w with
  | error e => rw [hr] at h; cases h
  | ok v =>
    obtain ⟨⟨y, m1⟩, w1⟩ := v
    have := (prog_low t so p w hw hl).2.2 _ _ hr
    rw [hr] at h
    cases h
    exact this

theorem step_low (pl : Plan M) (c : Context M W) (op : Op) (hw : c.writer.position < 2 ^ t.bits)
    (hl : pl.LowStep so t.bits c op) :
    ¬ pl.TopsStep t so c op ∧
    c.step so (pl.muxer (Mux.wstep so) (· % 2 ^ t.bits)) op = c.step so (pl.muxer (Mux.wstep so) id) op ∧
    ∀ x c', c.step so (pl.muxer (Mux.wstep so) id) op = .ok (x, c') → c'.writer.position < 2 ^ t.bits := by
  cases op with
  | configure =>
    refine ⟨fun h => h, rfl, fun x c' h => ?_⟩
    simp only [Context.step, Context.configure, Plan.muxer] at h
    cases h1 : pl.configure c.muxer with
    | error e => rw [h1] at h; cases h
    | ok v => rw [h1] at h; cases h; exact hw
  | header =>
    obtain ⟨l1, l2, _⟩ := prog_low t so _ _ hw hl
    refine ⟨l1, by simp only [Context.step, Context.writeHeader, Plan.muxer, l2], fun x c' h => ?_⟩
    simp only [Context.step, Context.writeHeader, Plan.muxer] at h
    cases h1 : assoc ((pl.header c.muxer).run (Mux.wstep so) id c.writer) with
    | error e => rw [h1] at h; cases h
    | ok v => rw [h1] at h; cases h; exact assoc_low t so hw hl h1
  | packet p =>
    obtain ⟨l1, l2, _⟩ := prog_low t so _ _ hw hl
    refine ⟨l1, by simp only [Context.step, Context.writePacket, Plan.muxer, l2], fun x c' h => ?_⟩
    simp only [Context.step, Context.writePacket, Plan.muxer] at h
    cases h1 : assoc ((pl.packet c.muxer p).run (Mux.wstep so) id c.writer) with
    | error e => rw [h1] at h; cases h
    | ok v => rw [h1] at h; cases h; exact assoc_low t so hw hl h1
  | trailer =>
    obtain ⟨l1, l2, _⟩ := prog_low t so _ _ hw hl
    refine ⟨l1, by simp only [Context.step, Context.writeTrailer, Plan.muxer, l2], fun x c' h => ?_⟩
    simp only [Context.step, Context.writeTrailer, Plan.muxer] at h
    cases h1 : assoc ((pl.trailer c.muxer).run (Mux.wstep so) id c.writer) with
    | error e => rw [h1] at h; cases h
    | ok v =>
      obtain ⟨y, m, w⟩ := v
      have hlow := assoc_low t so hw hl h1
      rw [h1] at h
      simp only [ok_bind] at h
      cases y with
      | error e => cases h; exact hlow
      | ok u =>
        simp only at h
        cases h2 : w.flush so with
        | error e => rw [h2] at h; cases h
        | ok v =>
          obtain ⟨z, w2⟩ := v
          have := flush_position so h2
          rw [h2] at h
          cases z <;> cases h <;> simp only [this, hlow]
  | info i =>
    refine ⟨fun h => h, rfl, fun x c' h => ?_⟩
    simp only [Context.step, Context.setGlobalInfo, Plan.muxer] at h
    cases h1 : pl.setGlobalInfo c.muxer i with
    | error e => rw [h1] at h; cases h
    | ok v => rw [h1] at h; cases h; exact hw
  | option k v =>
    refine ⟨fun h => h, rfl, fun x c' h => ?_⟩
    simp only [Context.step, Context.setOption, Plan.muxer] at h
    cases h1 : pl.setOption c.muxer k v.into with
    | error e => rw [h1] at h; cases h
    | ok v => rw [h1] at h; cases h; exact hw

theorem run_low (pl : Plan M) (ops : List Op) : ∀ c : Context M W, c.writer.position < 2 ^ t.bits →
    (∀ a op z xs c', ops = a ++ op :: z → c.run so (pl.muxer (Mux.wstep so) id) a = .ok (xs, c') →
      pl.LowStep so t.bits c' op) →
    (∀ a op z xs c', ops = a ++ op :: z → c.run so (pl.muxer (Mux.wstep so) (· % 2 ^ t.bits)) a = .ok (xs, c') →
      ¬ pl.TopsStep t so c' op) ∧
    c.run so (pl.muxer (Mux.wstep so) (· % 2 ^ t.bits)) ops = c.run so (pl.muxer (Mux.wstep so) id) ops ∧
    ∀ xs c', c.run so (pl.muxer (Mux.wstep so) id) ops = .ok (xs, c') → c'.writer.position < 2 ^ t.bits := by
  induction ops with
  | nil =>
    intro c hw _
    refine ⟨fun a op z xs c' h => ?_, rfl, fun xs c' h => by cases h; exact hw⟩
    simp at h
  | cons op ops ih =>
    intro c hw hl
    obtain ⟨e1, e2, e3⟩ := step_low t so pl c op hw (hl [] op ops [] c rfl rfl)
    cases hs : c.step so (pl.muxer (Mux.wstep so) id) op with
    | error e =>
      rw [hs] at e2
      refine ⟨fun a o z xs c' h1 h2 => ?_, by simp only [Context.run, e2, hs, error_bind], fun xs c' h => ?_⟩
      · cases a with
        | nil =>
          simp only [List.nil_append, List.cons.injEq] at h1
          cases h2
          exact h1.1 ▸ e1
        | cons q a =>
          simp only [List.cons_append, List.cons.injEq] at h1
          rw [← h1.1] at h2
          simp only [Context.run, e2, error_bind] at h2
          cases h2
      · simp only [Context.run, hs, error_bind] at h
        cases h
    | ok v =>
      obtain ⟨x, c1⟩ := v
      rw [hs] at e2
      obtain ⟨i1, i2, i3⟩ := ih c1 (e3 x c1 hs) (fun a o z xs c' h1 h2 => hl (op :: a) o z (x :: xs) c' (by rw [h1]; rfl)
        (by simp only [Context.run, hs, ok_bind, h2, pure_eq_ok]))
      refine ⟨fun a o z xs c' h1 h2 => ?_, by simp only [Context.run, e2, hs, ok_bind, i2], fun xs c' h => ?_⟩
      · cases a with
        | nil =>
          simp only [List.nil_append, List.cons.injEq] at h1
          cases h2
          exact h1.1 ▸ e1
        | cons q a =>
          simp only [List.cons_append, List.cons.injEq] at h1
          rw [← h1.1] at h2
          simp only [Context.run, e2, ok_bind] at h2
          cases hr : c1.run so (pl.muxer (Mux.wstep so) (· % 2 ^ t.bits)) a with
          | error y => rw [hr] at h2; cases h2
          | ok y =>
            obtain ⟨ys, c2⟩ := y
            rw [hr] at h2
            cases h2
            exact i1 a o z ys _ h1.2 hr
      · simp only [Context.run, hs, ok_bind] at h
        cases hr : c1.run so (pl.muxer (Mux.wstep so) id) ops with
        | error y => rw [hr] at h; cases h
        | ok y =>
          obtain ⟨ys, c2⟩ := y
          rw [hr] at h
          cases h
          exact i3 ys _ hr

/-! ### C143 -/

/-- What C143 claims of a target: muxing returns what it returns where positions have no bounds, and leaves the sink so. -/
def C143 (t : Target) : Prop :=
  ∀ (M W : Type) (so : SinkOps W) (pl : Plan M) (m : M) (s : W) (pre : List WOp) (ops : List Op) (os : List WOut)
    (xs : List (Except Err Unit)) (c : Context M W), mux so pl id m s pre ops = .ok (os, xs, c) →
    ∃ c', t.mux so pl m s pre ops = .ok (os, xs, c') ∧ c'.writer.writer = c.writer.writer

/-- **C143 below the limit.** Muxing that does not come to positions of `2^b` is the same on every target, in all builds.
Missing for C143: larger files (`c143_fails`). -/
theorem c143_below_partial (pl : Plan M) (m : M) (s : W) (pre : List WOp) (ops : List Op)
    (h : pl.Low so t.bits m s pre ops) : t.mux so pl m s pre ops = mux so pl id m s pre ops := by
  obtain ⟨h1, h2⟩ := h
  have low : ∀ os w, Mux.wrun so (Writer.new s) pre = .ok (os, w) → w.position < 2 ^ t.bits :=
    fun os w hr => h1 pre [] os w (List.append_nil pre).symm hr
  have hrun := fun os w (hr : Mux.wrun so (Writer.new s) pre = .ok (os, w)) =>
    run_low t so pl ops (Context.new m w) (low os w hr) (fun a op z xs c' e1 e2 =>
      h2 a op z os xs c' e1 (by simp only [mux, hr, ok_bind, e2, pure_eq_ok]))
  have hm : mux so pl (· % 2 ^ t.bits) m s pre ops = mux so pl id m s pre ops := by
    cases hr : Mux.wrun so (Writer.new s) pre with
    | error e => simp only [mux, hr, error_bind]
    | ok v =>
      obtain ⟨os, w⟩ := v
      simp only [mux, hr, ok_bind, (hrun os w hr).2.1]
  rcases mux_cut t so pl m s pre ops with ⟨_, ⟨a, op, z, os, w, e1, e2, e3⟩ | ⟨a, op, z, os, xs, c, e1, e2, e3⟩, _⟩ | ⟨_, a2⟩
  · exfalso
    obtain ⟨o, w', f1, f2⟩ := tops_low t so (h1 a (op :: z) os w e1 e2) e3
    have := h1 (a ++ [op]) z (os ++ [o]) w' (by rw [e1]; simp) (by
      clear hm hrun low h1 h2 e1 e3 f2
      generalize Writer.new s = w0 at e2
      induction a generalizing w0 os with
      | nil => cases e2; simp [Mux.wrun, f1]
      | cons q a ih =>
        simp only [List.cons_append, Mux.wrun] at e2 ⊢
        cases hq : Mux.wstep so w0 q with
        | error e => rw [hq] at e2; cases e2
        | ok v =>
          obtain ⟨o1, w1⟩ := v
          simp only [hq, ok_bind] at e2 ⊢
          cases hr : Mux.wrun so w1 a with
          | error e => rw [hr] at e2; cases e2
          | ok v =>
            obtain ⟨os1, w2⟩ := v
            rw [hr] at e2
            cases e2
            rw [ih os1 w1 hr]
            rfl)
    omega
  · exfalso
    cases hr : Mux.wrun so (Writer.new s) pre with
    | error e => simp only [mux, hr, error_bind] at e2; cases e2
    | ok v =>
      obtain ⟨os1, w⟩ := v
      simp only [mux, hr, ok_bind] at e2
      cases hq : (Context.new m w).run so (pl.muxer (Mux.wstep so) (· % 2 ^ t.bits)) a with
      | error e => rw [hq] at e2; cases e2
      | ok v =>
        obtain ⟨ys, c1⟩ := v
        rw [hq] at e2
        cases e2
        exact (hrun os w hr).1 a op z ys _ e1 hq e3
  · rw [a2, hm]
    cases hr : Mux.wrun so (Writer.new s) pre with
    | error e => simp only [mux, hr, error_bind, Target.cutAll]
    | ok v =>
      obtain ⟨os, w⟩ := v
      simp only [mux, hr, ok_bind]
      cases hq : (Context.new m w).run so (pl.muxer (Mux.wstep so) id) ops with
      | error e => rfl
      | ok v =>
        obtain ⟨xs, c⟩ := v
        simp only [ok_bind, pure_eq_ok, Target.cutAll, Target.cutC]
        rw [cut_low t ((hrun os w hr).2.2 xs c hq)]

/-- **C143, exactly.** On every target, for files of any size: muxing returns, or panics with, what it does without bounds,
and makes the same calls of the sink, where a muxer that asks for the position is told it modulo `2^b`; except that with
overflow checks it panics if, and only if, some write takes the position of the target to `2^b`. A muxer that never asks for the
position does the same on all targets without overflow checks. Missing for C143: muxers that ask, and overflow checks
(`c143_fails`). -/
theorem c143_exact_partial (pl : Plan M) (m : M) (s : W) (pre : List WOp) (ops : List Op) :
    (t.checks = true ∧ pl.Tops t so m s pre ops → t.mux so pl m s pre ops = .error .overflow) ∧
    (¬ (t.checks = true ∧ pl.Tops t so m s pre ops) →
      match mux so pl (· % 2 ^ t.bits) m s pre ops with
      | .error p => t.mux so pl m s pre ops = .error p
      | .ok (os, xs, c) => ∃ c', t.mux so pl m s pre ops = .ok (os, xs, c') ∧ c'.muxer = c.muxer ∧
          c'.writer.writer = c.writer.writer ∧ c'.writer.position = c.writer.position % 2 ^ t.bits) ∧
    (pl.Blind → mux so pl (· % 2 ^ t.bits) m s pre ops = mux so pl id m s pre ops) := by
  refine ⟨fun h => ?_, fun h => ?_, fun hb => by simp only [mux]; rw [blind_muxer hb _ id]⟩
  · rcases mux_cut t so pl m s pre ops with ⟨_, _, a⟩ | ⟨a, _⟩
    · exact a
    · exact absurd h a
  · rcases mux_cut t so pl m s pre ops with ⟨a1, a2, _⟩ | ⟨_, a⟩
    · exact absurd ⟨a1, a2⟩ h
    · rw [a]
      cases mux so pl (· % 2 ^ t.bits) m s pre ops with
      | error p => rfl
      | ok v => exact ⟨_, rfl, rfl, rfl, rfl⟩

/-- A muxer whose packets are their bytes, and that writes where it is at the end, in one byte: 0 below 4 GiB, 1 behind. -/
def placing : Plan Unit where
  configure m := .ok (.ok (), m)
  header m := .ret (.ok (), m)
  packet m p := .write p.data fun _ => .ret (.ok (), m)
  trailer m := .position fun p => .write [BitVec.ofNat 8 (p / 2 ^ 32)] fun _ => .ret (.ok (), m)
  setGlobalInfo m _ := .ok (.ok (), m)
  setOption m _ _ := .ok (.ok (), m)

/-- A sink that remembers the last byte only, and where it is. -/
def lastByte : SinkOps (Nat × U8) where
  write s l := .ok (.ok l.length, (s.1 + l.length, l.getLastD s.2))
  flush s := .ok (.ok (), s)
  seek s sf := match sf with
    | .start n => .ok (.ok n, (n, s.2))
    | _ => .ok (.error .invalidInput, s)

/-- What is left in the sink. -/
def leaves (x : Rust (List WOut × List (Except Err Unit) × Context Unit (Nat × U8))) : Rust (Nat × U8) := do
  let (_, _, c) ← x
  return c.writer.writer

/-- Packets of three bytes. -/
def threeBytes : Packet := { Packet.new with data := [7, 8, 9] }

/-- **C143 is false** on 32-bit targets. With overflow checks the packet that reaches 4 GiB panics. Without, a muxer that notes
its position behind 4 GiB notes one modulo 4 GiB. -/
theorem c143_fails (c : Bool) : ¬ C143 ⟨32, c⟩ ∧
    leaves (Target.mux ⟨32, true⟩ lastByte placing () (0, 0) [.seek (.start (2 ^ 32 - 1))] [.packet threeBytes]) =
      .error .overflow ∧
    leaves (Target.mux ⟨32, false⟩ lastByte placing () (0, 0) [.seek (.start (2 ^ 32 - 1))] [.packet threeBytes, .trailer]) =
      .ok (2 ^ 32 + 3, 0) ∧
    leaves (mux lastByte placing id () (0, 0) [.seek (.start (2 ^ 32 - 1))] [.packet threeBytes, .trailer]) =
      .ok (2 ^ 32 + 3, 1) := by
  refine ⟨fun h => ?_, by decide +kernel, by decide +kernel, by decide +kernel⟩
  obtain ⟨c', a1, a2⟩ := h Unit (Nat × U8) lastByte placing () (0, 0) [.seek (.start (2 ^ 32 - 1))]
    [.packet threeBytes, .trailer] _ _ _ rfl
  have : leaves (Target.mux ⟨32, c⟩ lastByte placing () (0, 0) [.seek (.start (2 ^ 32 - 1))] [.packet threeBytes, .trailer]) =
      leaves (mux lastByte placing id () (0, 0) [.seek (.start (2 ^ 32 - 1))] [.packet threeBytes, .trailer]) := by
    rw [a1]; simp only [leaves, ok_bind, pure_eq_ok, a2]; rfl
  cases c
  · exact absurd this (by decide +kernel)
  · exact absurd this (by decide +kernel)

/-- A few bytes before the limit nothing is different, and muxing is `Low`. -/
example :
    placing.Low lastByte 32 () (0, 0) [.seek (.start (2 ^ 32 - 5))] [.packet threeBytes, .trailer] ∧
    leaves (Target.mux ⟨32, true⟩ lastByte placing () (0, 0) [.seek (.start (2 ^ 32 - 5))] [.packet threeBytes, .trailer]) =
      .ok (2 ^ 32 - 1, 0) := by
  refine ⟨⟨?_, ?_⟩, by decide +kernel⟩
  · intro a z os w e h
    match a with
    | [] => cases h; decide +kernel
    | [q] =>
      simp only [List.cons_append, List.cons.injEq] at e
      rw [← e.1] at h
      cases h; decide +kernel
    | q :: q' :: a => simp at e
  · intro a op z os xs c e h
    match a with
    | [] =>
      simp only [List.nil_append, List.cons.injEq] at e
      rw [← e.1]
      cases h
      intro o w' h
      cases h
      exact ⟨by decide +kernel, trivial⟩
    | [q] =>
      simp only [List.cons_append, List.nil_append, List.cons.injEq] at e
      rw [← e.1] at h
      rw [← e.2.1]
      cases h
      intro o w' h
      cases h
      exact ⟨by decide +kernel, trivial⟩
    | q :: q' :: a => simp at e

/-- A muxer that does not ask, beyond the limit; and one that tops it. -/
example : Plan.Blind { placing with trailer := fun m => .ret (.ok (), m) } ∧
    leaves (Target.mux ⟨32, false⟩ lastByte { placing with trailer := fun m => .ret (.ok (), m) } () (0, 0)
      [.seek (.start (2 ^ 32 - 1))] [.packet threeBytes, .trailer]) = .ok (2 ^ 32 + 2, 9) ∧
    placing.Tops ⟨32, true⟩ lastByte () (0, 0) [.seek (.start (2 ^ 32 - 1))] [.packet threeBytes] :=
  ⟨⟨fun _ => .ret _, fun _ _ => .write fun _ => .ret _, fun _ => .ret _⟩, by decide +kernel,
    .inr ⟨[], .packet threeBytes, [], _, _, _, rfl, rfl, .inl ⟨_, _, _, rfl, rfl, by decide +kernel⟩⟩⟩

end Verif.Mux
