import Verif.Mux.Large

/-!
# Property C157: what a muxer writes

Muxers work for every `W: Write` (muxer.rs:72-80): besides what they compute, they can write, flush and ask for the position.
They are programs here (`Prog`, `Plan`), which go on depending on what the writer returns. They cannot change what they have
written; and if they write with `write_all`, the file is the same for every sink that takes the bytes sooner or later.
-/

namespace Verif.Mux
open Verif Verif.Io Verif.Stream Verif.Packet Verif.Value
open Verif.Demux (Err)

variable {M W α : Type}

/-! ### muxers that use `write_all` -/

/-- Code that writes with `write_all`. -/
inductive Code (α : Type)
  | ret (a : α)
  | panic (p : Panic)
  | put (l : List U8) (k : Except IoErr Unit → Code α)
  | flush (k : Except IoErr Unit → Code α)
  | position (k : Nat → Code α)

/-- `Write::write_all` of std: again when interrupted, `WriteZero` if nothing is taken, and on behind what was taken. -/
def Prog.putAll : Nat → List U8 → (Except IoErr Unit → Prog α) → Prog α
  | 0, _, _ => .panic .fuel
  | fuel + 1, l, k =>
    if l = [] then k (.ok ())
    else .write l fun
      | .err .interrupted => putAll fuel l k
      | .err e => k (.error e)
      | .written 0 => k (.error .writeZero)
      | .written n => if n ≤ l.length then putAll fuel (l.drop n) k else .panic .slice
      | _ => .panic .explicit

/-- The calls the code makes; each `write_all` calls `write` at most `fuel` times. -/
def Code.prog (fuel : Nat) : Code α → Prog α
  | .ret a => .ret a
  | .panic p => .panic p
  | .put l k => .putAll fuel l fun x => (k x).prog fuel
  | .flush k => .flush fun
    | .flushed => (k (.ok ())).prog fuel
    | .err e => (k (.error e)).prog fuel
    | _ => .panic .explicit
  | .position k => .position fun n => (k n).prog fuel

/-- An implementation of `Muxer` (muxer.rs:67-87) of such code. -/
structure Coded (M : Type) where
  configure : M → Rust (Except Err Unit × M)
  header : M → Code (Except Err Unit × M)
  packet : M → Packet → Code (Except Err Unit × M)
  trailer : M → Code (Except Err Unit × M)
  setGlobalInfo : M → GlobalInfo → Rust (Except Err Unit × M)
  setOption : M → String → Value → Rust (Except Err Unit × M)

def Coded.plan (C : Coded M) (fuel : Nat) : Plan M where
  configure := C.configure
  header m := (C.header m).prog fuel
  packet m p := (C.packet m p).prog fuel
  trailer m := (C.trailer m).prog fuel
  setGlobalInfo := C.setGlobalInfo
  setOption := C.setOption

/-! ### specification -/

/-- What the code computes and the bytes it writes behind `n` bytes, if every call succeeds. -/
def Code.bytes : Code α → Nat → Rust (α × List U8)
  | .ret a, _ => .ok (a, [])
  | .panic p, _ => .error p
  | .put l k, n => do
    let (a, bs) ← (k (.ok ())).bytes (n + l.length)
    return (a, l ++ bs)
  | .flush k, n => (k (.ok ())).bytes n
  | .position k, n => (k n).bytes n

/-- The result, the state and the bytes of a call. -/
def Coded.call (C : Coded M) (m : M) (n : Nat) : Op → Rust ((Except Err Unit × M) × List U8)
  | .configure => do return (← C.configure m, [])
  | .header => (C.header m).bytes n
  | .packet p => (C.packet m p).bytes n
  | .trailer => (C.trailer m).bytes n
  | .info i => do return (← C.setGlobalInfo m i, [])
  | .option k v => do return (← C.setOption m k v.into, [])

/-- The results and the bytes of all calls, and the state at the end. -/
def Coded.file (C : Coded M) : M → Nat → List Op → Rust (List (Except Err Unit) × M × List U8)
  | m, _, [] => .ok ([], m, [])
  | m, n, op :: ops => do
    let ((x, m), bs) ← C.call m n op
    let (xs, m, bs') ← C.file m (n + bs.length) ops
    return (x :: xs, m, bs ++ bs')

/-- A sink that takes the bytes, of each call at least one or, after finitely many interruptions, at least one. -/
structure Steady (so : SinkOps W) (ok : W → Prop) (bytes : W → List U8) (patience : W → Nat) : Prop where
  write : ∀ s l, ok s → l ≠ [] →
    (∃ k s', so.write s l = .ok (.ok k, s') ∧ ok s' ∧ 0 < k ∧ k ≤ l.length ∧ bytes s' = bytes s ++ l.take k) ∨
    ∃ s', so.write s l = .ok (.error .interrupted, s') ∧ ok s' ∧ bytes s' = bytes s ∧ patience s' < patience s
  flush : ∀ s, ok s → ∃ s', so.flush s = .ok (.ok (), s') ∧ ok s' ∧ bytes s' = bytes s

/-- A sink that adds what it says it has taken. -/
structure Appends (so : SinkOps W) (ok : W → Prop) (bytes : W → List U8) : Prop where
  write : ∀ s l x s', ok s → so.write s l = .ok (x, s') → ok s' ∧
    match x with
    | .ok k => k ≤ l.length ∧ bytes s' = bytes s ++ l.take k
    | .error _ => bytes s' = bytes s
  flush : ∀ s x s', ok s → so.flush s = .ok (x, s') → ok s' ∧ bytes s' = bytes s

/-! ### what is written stays -/

theorem prog_appends {so : SinkOps W} {ok : W → Prop} {bytes : W → List U8} (h : Appends so ok bytes) (look : Nat → Nat)
    (p : Prog α) : ∀ (w : Writer W) (a : α) (w' : Writer W), ok w.writer → p.run (Mux.wstep so) look w = .ok (a, w') →
    ok w'.writer ∧ ∃ bs, bytes w'.writer = bytes w.writer ++ bs ∧ w'.position = w.position + bs.length := by
  induction p with
  | ret a => intro w b w' hw hr; cases hr; exact ⟨hw, [], by simp, rfl⟩
  | panic p => intro w b w' hw hr; cases hr
  | position k ih => intro w b w' hw hr; exact ih _ w b w' hw hr
  | flush k ih =>
    intro w b w' hw hr
    simp only [Prog.run, Mux.wstep, Writer.flush] at hr
    cases hf : so.flush w.writer with
    | error e => rw [hf] at hr; cases hr
    | ok v =>
      obtain ⟨x, s⟩ := v
      obtain ⟨h1, h2⟩ := h.flush _ _ _ hw hf
      rw [hf] at hr
      cases x with
      | error e =>
        obtain ⟨g1, bs, g2, g3⟩ := ih _ _ _ _ h1 hr
        exact ⟨g1, bs, by rw [g2]; exact congrArg (· ++ bs) h2, g3⟩
      | ok u =>
        obtain ⟨g1, bs, g2, g3⟩ := ih _ _ _ _ h1 hr
        exact ⟨g1, bs, by rw [g2]; exact congrArg (· ++ bs) h2, g3⟩
  | write l k ih =>
    intro w b w' hw hr
    simp only [Prog.run, Mux.wstep, Writer.write] at hr
    cases hf : so.write w.writer l with
    | error e => rw [hf] at hr; cases hr
    | ok v =>
      obtain ⟨x, s⟩ := v
      obtain ⟨h1, h2⟩ := h.write _ _ _ _ hw hf
      rw [hf] at hr
      cases x with
      | error e =>
        obtain ⟨g1, bs, g2, g3⟩ := ih _ _ _ _ h1 hr
        exact ⟨g1, bs, by rw [g2]; exact congrArg (· ++ bs) h2, g3⟩
      | ok n =>
        obtain ⟨h3, h4⟩ := h2
        obtain ⟨g1, bs, g2, g3⟩ := ih _ _ _ _ h1 hr
        refine ⟨g1, l.take n ++ bs, ?_, ?_⟩
        · rw [g2, ← List.append_assoc]; exact congrArg (· ++ bs) h4
        · rw [g3, List.length_append, List.length_take, Nat.min_eq_left h3]
          simp only [Writer.position]
          omega

theorem step_appends {so : SinkOps W} {ok : W → Prop} {bytes : W → List U8} (h : Appends so ok bytes) (pl : Plan M)
    (look : Nat → Nat) (op : Op) (c c' : Context M W) (x : Except Err Unit) (hw : ok c.writer.writer)
    (hr : c.step so (pl.muxer (Mux.wstep so) look) op = .ok (x, c')) :
    ok c'.writer.writer ∧
      ∃ bs, bytes c'.writer.writer = bytes c.writer.writer ++ bs ∧ c'.writer.position = c.writer.position + bs.length := by
  have plain : ∀ (f : Rust (Except Err Unit × M)),
      (do let (x, muxer) ← f; return (x, { c with muxer }) : Rust (Except Err Unit × Context M W)) = .ok (x, c') →
      c'.writer = c.writer := by
    intro f hf
    cases f with
    | error e => cases hf
    | ok v => cases hf; rfl
  have prog : ∀ (p : Prog (Except Err Unit × M)) (y : Except Err Unit) (m : M) (w : Writer W),
      assoc (p.run (Mux.wstep so) look c.writer) = .ok (y, m, w) →
      ok w.writer ∧ ∃ bs, bytes w.writer = bytes c.writer.writer ++ bs ∧ w.position = c.writer.position + bs.length := by
    intro p y m w hp
    cases hq : p.run (Mux.wstep so) look c.writer with
    | error e => rw [hq] at hp; cases hp
    | ok v =>
      obtain ⟨⟨r, m'⟩, w1⟩ := v
      rw [hq] at hp
      cases hp
      exact prog_appends h look p _ _ _ hw hq
  cases op with
  | configure => rw [plain _ hr]; exact ⟨hw, [], by simp, rfl⟩
  | info i => rw [plain _ hr]; exact ⟨hw, [], by simp, rfl⟩
  | option k v => rw [plain _ hr]; exact ⟨hw, [], by simp, rfl⟩
  | header =>
    simp only [Context.step, Context.writeHeader, Plan.muxer] at hr
    cases hp : assoc ((pl.header c.muxer).run (Mux.wstep so) look c.writer) with
    | error e => rw [hp] at hr; cases hr
    | ok v => obtain ⟨y, m, w⟩ := v; rw [hp] at hr; cases hr; exact prog _ _ _ _ hp
  | packet p =>
    simp only [Context.step, Context.writePacket, Plan.muxer] at hr
    cases hp : assoc ((pl.packet c.muxer p).run (Mux.wstep so) look c.writer) with
    | error e => rw [hp] at hr; cases hr
    | ok v => obtain ⟨y, m, w⟩ := v; rw [hp] at hr; cases hr; exact prog _ _ _ _ hp
  | trailer =>
    simp only [Context.step, Context.writeTrailer, Plan.muxer] at hr
    cases hp : assoc ((pl.trailer c.muxer).run (Mux.wstep so) look c.writer) with
    | error e => rw [hp] at hr; cases hr
    | ok v =>
      obtain ⟨y, m, w⟩ := v
      obtain ⟨g1, bs, g2, g3⟩ := prog _ _ _ _ hp
      rw [hp] at hr
      cases y with
      | error e => cases hr; exact ⟨g1, bs, g2, g3⟩
      | ok u =>
        simp only [ok_bind, Writer.flush] at hr
        cases hf : so.flush w.writer with
        | error e => rw [hf] at hr; cases hr
        | ok v =>
          obtain ⟨z, s⟩ := v
          obtain ⟨h1, h2⟩ := h.flush _ _ _ g1 hf
          rw [hf] at hr
          cases z with
          | error e => cases hr; exact ⟨h1, bs, h2.trans g2, g3⟩
          | ok u => cases hr; exact ⟨h1, bs, h2.trans g2, g3⟩

/-- C157, part 1: whatever a muxer does, whatever fails, and however few bytes the sink takes: what is in the file after some
calls of the context is the beginning of what is there after further calls, and the position has gone on by as many bytes as
have come. -/
theorem c157_appends {so : SinkOps W} {ok : W → Prop} {bytes : W → List U8} (h : Appends so ok bytes) (pl : Plan M)
    (ops : List Op) : ∀ (c c' : Context M W) (xs : List (Except Err Unit)), ok c.writer.writer →
    c.run so (pl.muxer (Mux.wstep so) id) ops = .ok (xs, c') →
    ok c'.writer.writer ∧
      ∃ bs, bytes c'.writer.writer = bytes c.writer.writer ++ bs ∧ c'.writer.position = c.writer.position + bs.length := by
  induction ops with
  | nil => intro c c' xs hw hr; cases hr; exact ⟨hw, [], by simp, rfl⟩
  | cons op ops ih =>
    intro c c' xs hw hr
    rw [Context.run] at hr
    cases h1 : c.step so (pl.muxer (Mux.wstep so) id) op with
    | error e => rw [h1] at hr; cases hr
    | ok v =>
      obtain ⟨x, c1⟩ := v
      simp only [h1, ok_bind] at hr
      cases h2 : c1.run so (pl.muxer (Mux.wstep so) id) ops with
      | error e => rw [h2] at hr; cases hr
      | ok v =>
        obtain ⟨ys, c2⟩ := v
        simp only [h2, ok_bind, pure_eq_ok] at hr
        cases hr
        obtain ⟨g1, as, g2, g3⟩ := step_appends h pl id op c c1 x hw h1
        obtain ⟨k1, bs, k2, k3⟩ := ih c1 c' ys g1 h2
        exact ⟨k1, as ++ bs, by rw [k2, g2, List.append_assoc], by rw [k3, g3, List.length_append]; omega⟩

/-! ### the file is the muxer's -/

theorem putAll_steady {so : SinkOps W} {ok : W → Prop} {bytes : W → List U8} {patience : W → Nat}
    (h : Steady so ok bytes patience) (N : Nat) : ∀ (l : List U8), l.length ≤ N → ∀ (P : Nat) (s : W), patience s ≤ P → ok s →
    ∃ F s', ok s' ∧ bytes s' = bytes s ++ l ∧ ∀ fuel, F ≤ fuel → ∀ (n : Nat) (k : Except IoErr Unit → Prog α),
      (Prog.putAll fuel l k).run (Mux.wstep so) id ⟨s, n⟩ = (k (.ok ())).run (Mux.wstep so) id ⟨s', n + l.length⟩ := by
  induction N with
  | zero =>
    intro l hl P s hP hs
    have : l = [] := List.length_eq_zero_iff.1 (by omega)
    subst this
    refine ⟨1, s, hs, by simp, ?_⟩
    intro fuel hf n k
    obtain ⟨f, rfl⟩ : ∃ f, fuel = f + 1 := ⟨fuel - 1, by omega⟩
    rw [Prog.putAll, if_pos rfl]
    rfl
  | succ N ihN =>
    intro l hl P
    induction P with
    | zero =>
      intro s hP hs
      by_cases h0 : l = []
      · subst h0
        refine ⟨1, s, hs, by simp, ?_⟩
        intro fuel hf n k
        obtain ⟨f, rfl⟩ : ∃ f, fuel = f + 1 := ⟨fuel - 1, by omega⟩
        rw [Prog.putAll, if_pos rfl]
        rfl
      · rcases h.write s l hs h0 with ⟨j, s1, a1, a2, a3, a4, a5⟩ | ⟨s1, a1, a2, a3, a4⟩
        · obtain ⟨F, s2, b1, b2, b3⟩ := ihN (l.drop j) (by rw [List.length_drop]; omega) _ s1 (Nat.le_refl _) a2
          refine ⟨F + 1, s2, b1, by rw [b2, a5, List.append_assoc, List.take_append_drop], ?_⟩
          intro fuel hf n k
          obtain ⟨f, rfl⟩ : ∃ f, fuel = f + 1 := ⟨fuel - 1, by omega⟩
          obtain ⟨i, rfl⟩ : ∃ i, j = i + 1 := ⟨j - 1, by omega⟩
          rw [Prog.putAll, if_neg h0]
          simp only [Prog.run, Mux.wstep, Writer.write, a1, ok_bind, if_pos a4]
          rw [b3 f (by omega), List.length_drop, show n + (i + 1) + (l.length - (i + 1)) = n + l.length by omega]
        · omega
    | succ P ihP =>
      intro s hP hs
      by_cases h0 : l = []
      · subst h0
        refine ⟨1, s, hs, by simp, ?_⟩
        intro fuel hf n k
        obtain ⟨f, rfl⟩ : ∃ f, fuel = f + 1 := ⟨fuel - 1, by omega⟩
        rw [Prog.putAll, if_pos rfl]
        rfl
      · rcases h.write s l hs h0 with ⟨j, s1, a1, a2, a3, a4, a5⟩ | ⟨s1, a1, a2, a3, a4⟩
        · obtain ⟨F, s2, b1, b2, b3⟩ := ihN (l.drop j) (by rw [List.length_drop]; omega) _ s1 (Nat.le_refl _) a2
          refine ⟨F + 1, s2, b1, by rw [b2, a5, List.append_assoc, List.take_append_drop], ?_⟩
          intro fuel hf n k
          obtain ⟨f, rfl⟩ : ∃ f, fuel = f + 1 := ⟨fuel - 1, by omega⟩
          obtain ⟨i, rfl⟩ : ∃ i, j = i + 1 := ⟨j - 1, by omega⟩
          rw [Prog.putAll, if_neg h0]
          simp only [Prog.run, Mux.wstep, Writer.write, a1, ok_bind, if_pos a4]
          rw [b3 f (by omega), List.length_drop, show n + (i + 1) + (l.length - (i + 1)) = n + l.length by omega]
        · obtain ⟨F, s2, b1, b2, b3⟩ := ihP s1 (by omega) a2
          refine ⟨F + 1, s2, b1, by rw [b2, a3], ?_⟩
          intro fuel hf n k
          obtain ⟨f, rfl⟩ : ∃ f, fuel = f + 1 := ⟨fuel - 1, by omega⟩
          rw [Prog.putAll, if_neg h0]
          simp only [Prog.run, Mux.wstep, Writer.write, a1, ok_bind]
          rw [b3 f (by omega)]

/-- What a run is to be: the result and the bytes behind those of `s`, or the panic. -/
def Becomes (ok : W → Prop) (bytes : W → List U8) (s : W) (n : Nat) (spec : Rust (α × List U8))
    (run : Nat → Rust (α × Writer W)) : Prop :=
  match spec with
  | .error e => ∃ F, ∀ fuel, F ≤ fuel → run fuel = .error e
  | .ok (a, bs) => ∃ F s', ok s' ∧ bytes s' = bytes s ++ bs ∧ ∀ fuel, F ≤ fuel → run fuel = .ok (a, ⟨s', n + bs.length⟩)

theorem code_steady {so : SinkOps W} {ok : W → Prop} {bytes : W → List U8} {patience : W → Nat}
    (h : Steady so ok bytes patience) (p : Code α) : ∀ (s : W) (n : Nat), ok s →
    Becomes ok bytes s n (p.bytes n) fun fuel => (p.prog fuel).run (Mux.wstep so) id ⟨s, n⟩ := by
  induction p with
  | ret a => intro s n hs; exact ⟨0, s, hs, by simp, fun _ _ => rfl⟩
  | panic p => intro s n hs; exact ⟨0, fun _ _ => rfl⟩
  | position k ih => intro s n hs; exact ih n s n hs
  | flush k ih =>
    intro s n hs
    obtain ⟨s1, a1, a2, a3⟩ := h.flush s hs
    have := ih (.ok ()) s1 n a2
    simp only [Code.bytes, Becomes] at this ⊢
    cases hk : (k (.ok ())).bytes n with
    | error e =>
      rw [hk] at this
      obtain ⟨F, hF⟩ := this
      refine ⟨F, fun fuel hf => ?_⟩
      simp only [Code.prog, Prog.run, Mux.wstep, Writer.flush, a1, ok_bind, pure_eq_ok]
      exact hF fuel hf
    | ok v =>
      obtain ⟨a, bs⟩ := v
      rw [hk] at this
      obtain ⟨F, s2, b1, b2, hF⟩ := this
      refine ⟨F, s2, b1, by rw [b2, a3], fun fuel hf => ?_⟩
      simp only [Code.prog, Prog.run, Mux.wstep, Writer.flush, a1, ok_bind, pure_eq_ok]
      exact hF fuel hf
  | put l k ih =>
    intro s n hs
    obtain ⟨F1, s1, a1, a2, a3⟩ := putAll_steady (α := α) h l.length l (Nat.le_refl _) _ s (Nat.le_refl _) hs
    have := ih (.ok ()) s1 (n + l.length) a1
    simp only [Code.bytes, Becomes] at this ⊢
    cases hk : (k (.ok ())).bytes (n + l.length) with
    | error e =>
      rw [hk] at this
      obtain ⟨F, hF⟩ := this
      refine ⟨F1 + F, fun fuel hf => ?_⟩
      simp only [Code.prog]
      rw [a3 fuel (by omega)]
      exact hF fuel (by omega)
    | ok v =>
      obtain ⟨a, bs⟩ := v
      rw [hk] at this
      obtain ⟨F, s2, b1, b2, hF⟩ := this
      refine ⟨F1 + F, s2, b1, by rw [b2, a2, List.append_assoc], fun fuel hf => ?_⟩
      simp only [Code.prog]
      rw [a3 fuel (by omega), hF fuel (by omega), List.length_append, Nat.add_assoc]

theorem call_steady {so : SinkOps W} {ok : W → Prop} {bytes : W → List U8} {patience : W → Nat}
    (h : Steady so ok bytes patience) (C : Coded M) (m : M) (u : Option Nat) (op : Op) (s : W) (n : Nat) (hs : ok s) :
    match C.call m n op with
    | .error e => ∃ F, ∀ fuel, F ≤ fuel →
        Context.step so ((C.plan fuel).muxer (Mux.wstep so) id) ⟨m, ⟨s, n⟩, u⟩ op = .error e
    | .ok ((x, m'), bs) => ∃ F s', ok s' ∧ bytes s' = bytes s ++ bs ∧ ∀ fuel, F ≤ fuel →
        Context.step so ((C.plan fuel).muxer (Mux.wstep so) id) ⟨m, ⟨s, n⟩, u⟩ op =
          .ok (x, ⟨m', ⟨s', n + bs.length⟩, u⟩) := by
  have plain : ∀ f : Rust (Except Err Unit × M),
      match (do return (← f, []) : Rust ((Except Err Unit × M) × List U8)) with
      | .error e => (do let (x, muxer) ← f; return (x, (⟨muxer, ⟨s, n⟩, u⟩ : Context M W)) : Rust _) = .error e
      | .ok ((x, m'), bs) => bs = [] ∧
        (do let (x, muxer) ← f; return (x, (⟨muxer, ⟨s, n⟩, u⟩ : Context M W)) : Rust _) = .ok (x, ⟨m', ⟨s, n⟩, u⟩) := by
    intro f
    cases f with
    | error e => rfl
    | ok v => exact ⟨rfl, rfl⟩
  have plain' : ∀ (f : Rust (Except Err Unit × M)) (g : Nat → Rust (Except Err Unit × Context M W)),
      (∀ fuel, g fuel = do let (x, muxer) ← f; return (x, (⟨muxer, ⟨s, n⟩, u⟩ : Context M W))) →
      match (do return (← f, []) : Rust ((Except Err Unit × M) × List U8)) with
      | .error e => ∃ F, ∀ fuel, F ≤ fuel → g fuel = .error e
      | .ok ((x, m'), bs) => ∃ F s', ok s' ∧ bytes s' = bytes s ++ bs ∧ ∀ fuel, F ≤ fuel →
        g fuel = .ok (x, ⟨m', ⟨s', n + bs.length⟩, u⟩) := by
    intro f g hg
    have := plain f
    revert this
    cases (do return (← f, []) : Rust ((Except Err Unit × M) × List U8)) with
    | error e => intro this; exact ⟨0, fun fuel _ => (hg fuel).trans this⟩
    | ok v =>
      obtain ⟨⟨x, m'⟩, bs⟩ := v
      rintro ⟨rfl, this⟩
      exact ⟨0, s, hs, by simp, fun fuel _ => (hg fuel).trans this⟩
  have prog := fun p : Code (Except Err Unit × M) => code_steady h p s n hs
  cases op with
  | configure => exact plain' (C.configure m) _ fun _ => rfl
  | info i => exact plain' (C.setGlobalInfo m i) _ fun _ => rfl
  | option k v => exact plain' (C.setOption m k v.into) _ fun _ => rfl
  | header =>
    have := prog (C.header m)
    simp only [Coded.call, Becomes] at this ⊢
    cases hk : (C.header m).bytes n with
    | error e =>
      rw [hk] at this
      obtain ⟨F, hF⟩ := this
      refine ⟨F, fun fuel hf => ?_⟩
      simp only [Context.step, Context.writeHeader, Plan.muxer, Coded.plan, hF fuel hf, assoc, error_bind]
    | ok v =>
      obtain ⟨⟨x, m'⟩, bs⟩ := v
      rw [hk] at this
      obtain ⟨F, s', b1, b2, hF⟩ := this
      refine ⟨F, s', b1, b2, fun fuel hf => ?_⟩
      simp only [Context.step, Context.writeHeader, Plan.muxer, Coded.plan, hF fuel hf, assoc, ok_bind, pure_eq_ok]
  | packet q =>
    have := prog (C.packet m q)
    simp only [Coded.call, Becomes] at this ⊢
    cases hk : (C.packet m q).bytes n with
    | error e =>
      rw [hk] at this
      obtain ⟨F, hF⟩ := this
      refine ⟨F, fun fuel hf => ?_⟩
      simp only [Context.step, Context.writePacket, Plan.muxer, Coded.plan, hF fuel hf, assoc, error_bind]
    | ok v =>
      obtain ⟨⟨x, m'⟩, bs⟩ := v
      rw [hk] at this
      obtain ⟨F, s', b1, b2, hF⟩ := this
      refine ⟨F, s', b1, b2, fun fuel hf => ?_⟩
      simp only [Context.step, Context.writePacket, Plan.muxer, Coded.plan, hF fuel hf, assoc, ok_bind, pure_eq_ok]
  | trailer =>
    have := prog (C.trailer m)
    simp only [Coded.call, Becomes] at this ⊢
    cases hk : (C.trailer m).bytes n with
    | error e =>
      rw [hk] at this
      obtain ⟨F, hF⟩ := this
      refine ⟨F, fun fuel hf => ?_⟩
      simp only [Context.step, Context.writeTrailer, Plan.muxer, Coded.plan, hF fuel hf, assoc, error_bind]
    | ok v =>
      obtain ⟨⟨x, m'⟩, bs⟩ := v
      rw [hk] at this
      obtain ⟨F, s', b1, b2, hF⟩ := this
      cases x with
      | error e =>
        refine ⟨F, s', b1, b2, fun fuel hf => ?_⟩
        simp only [Context.step, Context.writeTrailer, Plan.muxer, Coded.plan, hF fuel hf, assoc, ok_bind, pure_eq_ok]
      | ok y =>
        obtain ⟨s2, c1, c2, c3⟩ := h.flush s' b1
        refine ⟨F, s2, c2, by rw [c3, b2], fun fuel hf => ?_⟩
        simp only [Context.step, Context.writeTrailer, Plan.muxer, Coded.plan, hF fuel hf, assoc, ok_bind, pure_eq_ok,
          Writer.flush, c1]

theorem calls_steady {so : SinkOps W} {ok : W → Prop} {bytes : W → List U8} {patience : W → Nat}
    (h : Steady so ok bytes patience) (C : Coded M) (u : Option Nat) (ops : List Op) : ∀ (m : M) (s : W) (n : Nat), ok s →
    match C.file m n ops with
    | .error e => ∃ F, ∀ fuel, F ≤ fuel →
        Context.run so ((C.plan fuel).muxer (Mux.wstep so) id) ⟨m, ⟨s, n⟩, u⟩ ops = .error e
    | .ok (xs, m', bs) => ∃ F s', ok s' ∧ bytes s' = bytes s ++ bs ∧ ∀ fuel, F ≤ fuel →
        Context.run so ((C.plan fuel).muxer (Mux.wstep so) id) ⟨m, ⟨s, n⟩, u⟩ ops =
          .ok (xs, ⟨m', ⟨s', n + bs.length⟩, u⟩) := by
  induction ops with
  | nil => intro m s n hs; exact ⟨0, s, hs, by simp, fun _ _ => rfl⟩
  | cons op ops ih =>
    intro m s n hs
    have h1 := call_steady h C m u op s n hs
    rw [Coded.file]
    cases hk : C.call m n op with
    | error e =>
      rw [hk] at h1
      obtain ⟨F, hF⟩ := h1
      refine ⟨F, fun fuel hf => ?_⟩
      simp only [Context.run, hF fuel hf, error_bind]
    | ok v =>
      obtain ⟨⟨x, m1⟩, as⟩ := v
      rw [hk] at h1
      obtain ⟨F1, s1, a1, a2, hF1⟩ := h1
      have h2 := ih m1 s1 (n + as.length) a1
      simp only [ok_bind]
      cases hl : C.file m1 (n + as.length) ops with
      | error e =>
        rw [hl] at h2
        obtain ⟨F, hF⟩ := h2
        refine ⟨F1 + F, fun fuel hf => ?_⟩
        simp only [Context.run, hF1 fuel (by omega), ok_bind, hF fuel (by omega), error_bind]
      | ok v =>
        obtain ⟨xs, m2, bs⟩ := v
        rw [hl] at h2
        obtain ⟨F, s2, b1, b2, hF⟩ := h2
        refine ⟨F1 + F, s2, b1, by rw [b2, a2, List.append_assoc], fun fuel hf => ?_⟩
        simp only [Context.run, hF1 fuel (by omega), ok_bind, hF fuel (by omega), pure_eq_ok, List.length_append, Nat.add_assoc]

/-- C157, part 2: a muxer that writes with `write_all`, over any sink that takes the bytes sooner or later. The results of all
calls of the context, the muxer at the end, the position and the bytes of the file are those of the muxer's code alone, however
many bytes the sink takes at a time and however often it interrupts; where the code panics, the call does. -/
theorem c157_file {so : SinkOps W} {ok : W → Prop} {bytes : W → List U8} {patience : W → Nat}
    (h : Steady so ok bytes patience) (C : Coded M) (m : M) (s : W) (hs : ok s) (ops : List Op) :
    match C.file m 0 ops with
    | .error e => ∃ F, ∀ fuel, F ≤ fuel →
        (Context.new m (Writer.new s)).run so ((C.plan fuel).muxer (Mux.wstep so) id) ops = .error e
    | .ok (xs, m', bs) => ∃ F s', bytes s' = bytes s ++ bs ∧ ∀ fuel, F ≤ fuel →
        (Context.new m (Writer.new s)).run so ((C.plan fuel).muxer (Mux.wstep so) id) ops =
          .ok (xs, ⟨m', ⟨s', bs.length⟩, none⟩) := by
  have := calls_steady h C none ops m s 0 hs
  revert this
  cases C.file m 0 ops with
  | error e => exact id
  | ok v =>
    obtain ⟨xs, m', bs⟩ := v
    rintro ⟨F, s', _, b2, hF⟩
    refine ⟨F, s', b2, fun fuel hf => ?_⟩
    have := hF fuel hf
    rw [Nat.zero_add] at this
    exact this

/-! ### sinks -/

/-- The sinks of the model, at their end, add what they take. -/
theorem sink_appends : Appends sinkOps (fun s => s.pos = s.data.length) Sink.data where
  write s l x s' hs hw := by
    simp only [sinkOps, Sink.write] at hw
    split at hw
    · cases hw; exact ⟨hs, rfl⟩
    · cases hw
      refine ⟨?_, Nat.min_le_left _ _, ?_⟩
      · simp only [hs, overwrite_end, List.length_append, List.length_take]; omega
      · simp only [hs, overwrite_end]
  flush s x s' hs hw := by
    simp only [sinkOps, Sink.flush] at hw
    split at hw
    · cases hw; exact ⟨hs, rfl⟩
    · cases hw; exact ⟨hs, rfl⟩

/-- Those that never fail and always take something are steady. -/
theorem sink_steady : Steady sinkOps (fun s => s.pos = s.data.length ∧ ∀ c, (s.script c).fail = none ∧ 0 < (s.script c).len)
    Sink.data (fun _ => 0) where
  write s l hs hl := by
    obtain ⟨hp, hq⟩ := hs
    have hlen : 0 < l.length := List.length_pos_iff.2 hl
    have hw : sinkOps.write s l = .ok (.ok (min l.length (s.script s.clock).len),
        { s with data := overwrite s.data s.pos (l.take (min l.length (s.script s.clock).len)),
                 pos := s.pos + min l.length (s.script s.clock).len, clock := s.clock + 1 }) := by
      simp only [sinkOps, Sink.write, (hq s.clock).1]
    refine .inl ⟨_, _, hw, ⟨?_, hq⟩, ?_, Nat.min_le_left _ _, ?_⟩
    · simp only [hp, overwrite_end, List.length_append, List.length_take]; omega
    · have := (hq s.clock).2; omega
    · simp only [hp, overwrite_end]
  flush s hs := by
    have hf : sinkOps.flush s = .ok (.ok (), { s with clock := s.clock + 1, flushes := s.flushes + 1 }) := by
      simp only [sinkOps, Sink.flush, (hs.2 s.clock).1]
    exact ⟨_, hf, hs, rfl⟩

/-- A sink that is interrupted every other time and otherwise takes one byte. -/
def drip : SinkOps (List U8 × Nat) where
  write s l := if s.2 = 0 then .ok (.ok (min l.length 1), s.1 ++ l.take 1, 1) else .ok (.error .interrupted, s.1, 0)
  flush s := .ok (.ok (), s)
  seek s _ := .ok (.error .invalidInput, s)

theorem drip_steady : Steady drip (fun _ => True) Prod.fst Prod.snd where
  write s l _ hl := by
    have hlen : 0 < l.length := List.length_pos_iff.2 hl
    by_cases h : s.2 = 0
    · refine .inl ⟨min l.length 1, (s.1 ++ l.take 1, 1), by simp only [drip, if_pos h], trivial, by omega, by omega, ?_⟩
      rw [show min l.length 1 = 1 by omega]
    · exact .inr ⟨(s.1, 0), by simp only [drip, if_neg h], trivial, rfl, by simp only; omega⟩
  flush s _ := ⟨_, rfl, trivial, rfl⟩

/-- A muxer that writes before each packet where it stands, refuses packets without data, and says at the end how many there
were. -/
def counting : Coded Nat where
  configure m := .ok (.ok (), m)
  header m := .put [65, 86] fun
    | .ok () => .ret (.ok (), m)
    | .error e => .ret (.error (.Io e), m)
  packet m p :=
    if p.data = [] then .ret (.error .InvalidData, m)
    else .position fun n => .put [BitVec.ofNat 8 n] fun
      | .ok () => .put p.data fun
        | .ok () => .flush fun _ => .ret (.ok (), m + 1)
        | .error e => .ret (.error (.Io e), m)
      | .error e => .ret (.error (.Io e), m)
  trailer m := .put [BitVec.ofNat 8 m] fun
    | .ok () => .ret (.ok (), m)
    | .error e => .ret (.error (.Io e), m)
  setGlobalInfo m _ := .ok (.ok (), m)
  setOption m _ _ := .ok (.ok (), m)

def dataPacket (l : List U8) : Packet := { Packet.new with data := l }

/-- C157 on it: the file of the code, and over the dripping sink behind a byte that was there. -/
example : counting.file 0 0 [.header, .packet (dataPacket [7, 8]), .packet (dataPacket []), .packet (dataPacket [9]), .trailer] =
      .ok ([.ok (), .ok (), .error .InvalidData, .ok (), .ok ()], 2, [65, 86, 2, 7, 8, 5, 9, 2]) ∧
    (match (Context.new 0 (Writer.new ([1], 1))).run drip ((counting.plan 9).muxer (Mux.wstep drip) id)
        [.header, .packet (dataPacket [7, 8]), .packet (dataPacket []), .packet (dataPacket [9]), .trailer] with
      | .ok (_, c) => decide (c.writer.writer.1 = [1, 65, 86, 2, 7, 8, 5, 9, 2] ∧ c.writer.position = 8)
      | _ => false) = true := by
  constructor
  · rfl
  · decide +kernel

/-- Over a sink of which every fourth call fails, what is there after two calls stays. -/
example : sampleSink.pos = sampleSink.data.length ∧
    (match (Context.new 0 (Writer.new sampleSink)).run sinkOps ((counting.plan 9).muxer (Mux.wstep sinkOps) id)
        [.header, .packet (dataPacket [7, 8])] with
      | .ok (_, c) => match c.run sinkOps ((counting.plan 9).muxer (Mux.wstep sinkOps) id) [.packet (dataPacket [9]), .trailer] with
        | .ok (xs, c') => decide (c.writer.writer.data = [65, 86, 2, 7, 8] ∧ xs = [.ok (), .error (.Io (.other 1))] ∧
            c'.writer.writer.data = [65, 86, 2, 7, 8, 5, 9])
        | _ => false
      | _ => false) = true := by
  constructor
  · rfl
  · decide +kernel

end Verif.Mux
