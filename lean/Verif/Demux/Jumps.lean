import Verif.Demux.Framing

/-!
# Property C152: demuxing formats that jump

Formats with an index at the end, or whose streams are not interleaved, answer with a record and the place to go on from,
which may be anywhere in the file; or with a place only (`MoreDataNeeded(0)`). C90 has formats that go on behind the record.
-/

namespace Verif.Demux
open Verif Verif.Io Verif.Frame Verif.Stream Verif.Packet

variable {D : Type}

/-- The headers and the first record of some bytes, if they are complete, with the place to go on from; and how much to ask
for if they are not. Without an event the demuxer only goes elsewhere. -/
structure Jumping (D : Type) where
  head : D → GlobalInfo → List U8 → Option (SeekFrom × D × GlobalInfo)
  headNeed : D → GlobalInfo → List U8 → Nat
  parse : D → List U8 → Option (SeekFrom × Option Event × D)
  need : D → List U8 → Nat

/-- Records are recognised as soon as they are complete, and never change by what follows. -/
structure Jumping.Framed (J : Jumping D) : Prop where
  headStable : ∀ d i w u x, J.head d i w = some x → J.head d i (w ++ u) = some x
  headNeed : ∀ d i w, J.head d i w = none → 0 < J.headNeed d i w
  stable : ∀ d w u x, J.parse d w = some x → J.parse d (w ++ u) = some x
  need : ∀ d w, J.parse d w = none → w.length < J.need d w
  answers : ∀ d w sf ev d' n, J.parse d w = some (sf, some ev, d') → ev ≠ .MoreDataNeeded n

/-- Steps back are made by absolute positions, or relative to the end. -/
structure Jumping.NoStepsBack (J : Jumping D) : Prop where
  head : ∀ d i w k d' i', J.head d i w = some (.current k, d', i') → 0 ≤ k
  parse : ∀ d w k ev d', J.parse d w = some (.current k, ev, d') → 0 ≤ k

/-- The demuxer of such a format. -/
def Jumping.demuxer (J : Jumping D) : Demuxer D Acc.Acc :=
  windowDemuxer
    (fun d i w => match J.head d i w with
      | some (sf, d', i') => (.ok sf, d', i')
      | none => (.error (.MoreDataNeeded (J.headNeed d i w)), d, i))
    (fun d w => match J.parse d w with
      | some (sf, ev, d') => (.ok (sf, ev.getD (.MoreDataNeeded 0)), d')
      | none => (.error (.MoreDataNeeded (J.need d w)), d))

/-! ### the specification: a reader of the whole file that stands at a position -/

/-- Where a jump from `p` leads in a file of `len` bytes; there is nothing before its beginning. -/
def goal (len p : Nat) : SeekFrom → Option Nat
  | .start n => some n
  | .end d => if 0 ≤ len + d then some (len + d).toNat else none
  | .current d => if 0 ≤ p + d then some (p + d).toNat else none

/-- The next event from position `p` on, after at most `f` jumps, and the state and position then. A jump to before the
beginning is an error. `none` if there are more jumps. -/
def Jumping.next (J : Jumping D) (dat : List U8) : Nat → D → Nat → Option (Except Err Event × D × Nat)
  | 0, _, _ => none
  | f + 1, d, p =>
    match J.parse d (dat.drop p) with
    | none => some (.ok .Eof, d, p)
    | some (sf, ev, d') =>
      match goal dat.length p sf, ev with
      | none, _ => some (.error (.Io .invalidInput), d', p)
      | some q, some ev => some (.ok ev, d', q)
      | some q, none => J.next dat f d' q

/-- What a caller gets. -/
def handed (streams : List Stream) : Except Err Event → Except Err Event
  | .ok ev => .ok (completed streams ev)
  | .error e => .error e

/-- The results of `n` calls, each with at most `f` jumps. -/
def Jumping.events (J : Jumping D) (dat : List U8) (f : Nat) : Nat → D → List Stream → Nat → Option (List (Except Err Event))
  | 0, _, _, _ => some []
  | n + 1, d, streams, p => do
    let (x, d, p) ← J.next dat f d p
    let xs ← J.events dat f n d (streams ++ announced x) p
    return handed streams x :: xs

/-! ### the proof -/

/-- One round of `read_event`. -/
inductive JRound (J : Jumping D) (dat : List U8) (c c' : Context D Acc.Acc) : Prop
  | event {sf ev d' q} : J.parse c.demuxer (dat.drop c.reader.index) = some (sf, some ev, d') →
      goal dat.length c.reader.index sf = some q → c'.demuxer = d' → c'.reader.index = q →
      c'.info = { c.info with streams := c.info.streams ++ announced (.ok ev) } →
      (∀ a, readEvent J.demuxer accBuffered (a + 1) c = .ok (.ok (completed c.info.streams ev), c')) → JRound J dat c c'
  | astray {sf ev d'} : J.parse c.demuxer (dat.drop c.reader.index) = some (sf, ev, d') →
      goal dat.length c.reader.index sf = none → c'.demuxer = d' → c'.reader.index = c.reader.index → c'.info = c.info →
      (∀ a, readEvent J.demuxer accBuffered (a + 1) c = .ok (.error (.Io .invalidInput), c')) → JRound J dat c c'
  | jump {sf d' q} : J.parse c.demuxer (dat.drop c.reader.index) = some (sf, none, d') →
      goal dat.length c.reader.index sf = some q → c'.demuxer = d' → c'.reader.index = q → c'.info = c.info →
      (∀ a, readEvent J.demuxer accBuffered (a + 1) c = readEvent J.demuxer accBuffered a c') → JRound J dat c c'
  | eof : J.parse c.demuxer (dat.drop c.reader.index) = none → c'.demuxer = c.demuxer →
      c'.reader.index = c.reader.index → c'.info = c.info →
      (∀ a, readEvent J.demuxer accBuffered (a + 1) c = .ok (.ok .Eof, c')) → JRound J dat c c'
  | more : c'.demuxer = c.demuxer → c'.reader.index = c.reader.index → c'.info = c.info →
      (Acc.win c.reader).length < (Acc.win c'.reader).length →
      (∀ a, readEvent J.demuxer accBuffered (a + 1) c = readEvent J.demuxer accBuffered a c') → JRound J dat c c'

theorem seek_goal {dat : List U8} {r : Acc.Acc} (hi : Acc.Inv dat r) (hs : ∀ k, (r.inner.script k).fail = none)
    (sf : SeekFrom) (hb : ∀ k, sf = .current k → 0 ≤ k) :
    ∃ x r', Acc.seek r sf = .ok (x, r') ∧ Acc.Inv dat r' ∧ r'.inner.script = r.inner.script ∧
      r'.buf.length = r.buf.length ∧
      match goal dat.length r.index sf with
      | some q => x = .ok q ∧ r'.index = q
      | none => x = .error .invalidInput ∧ r'.index = r.index := by
  obtain ⟨x, r', s1, s2⟩ := Acc.seek_spec hi sf
  refine ⟨x, r', s1, s2.inv, s2.script, s2.len, ?_⟩
  have key : ∀ t : Int, Acc.seekTarget r sf = t → (0 ≤ t → x = .ok t.toNat ∧ r'.index = t.toNat) ∧
      (t < 0 → x = .error .invalidInput ∧ r'.index = r.index) := by
    rintro t rfl
    refine ⟨fun h => ?_, fun h => ?_⟩
    · have hx := s2.healthy hs h
      exact ⟨hx, (s2.ok _ hx).2⟩
    · obtain ⟨e, e1, e2, _⟩ := s2.neg h
      rcases (s2.error e e1).2 with ⟨k, hk⟩ | ⟨_, rfl⟩
      · rw [hs k] at hk; cases hk
      · exact ⟨e1, e2⟩
  cases sf with
  | start n =>
    obtain ⟨k1, _⟩ := key n rfl
    have := k1 (Int.natCast_nonneg n)
    simpa [goal] using this
  | «end» d =>
    have ht : Acc.seekTarget r (.end d) = dat.length + d := by rw [Acc.seekTarget, hi.src]
    obtain ⟨k1, k2⟩ := key _ ht
    simp only [goal]
    by_cases h : 0 ≤ (dat.length : Int) + d
    · rw [if_pos h]; exact k1 h
    · rw [if_neg h]; exact k2 (by omega)
  | current d =>
    have hd := hb d rfl
    have ht : Acc.seekTarget r (.current d) = r.index + d := by rw [Acc.seekTarget, if_pos hd]
    obtain ⟨k1, k2⟩ := key _ ht
    simp only [goal]
    rw [if_pos (by omega)]; exact k1 (by omega)

theorem jump_call {J : Jumping D} {dat : List U8} {c : Context D Acc.Acc} (hi : Acc.Inv dat c.reader) :
    J.demuxer.readEvent c.demuxer c.reader = .ok (match J.parse c.demuxer (Acc.win c.reader) with
      | some (sf, ev, d') => (.ok (sf, ev.getD (.MoreDataNeeded 0)), d', c.reader)
      | none => (.error (.MoreDataNeeded (J.need c.demuxer (Acc.win c.reader))), c.demuxer, c.reader)) := by
  simp only [Jumping.demuxer, windowDemuxer, Acc.data_ok hi, ok_bind, pure_eq_ok]
  cases J.parse c.demuxer (Acc.win c.reader) <;> rfl

theorem jump_round (J : Jumping D) (hJ : J.Framed) (hb : J.NoStepsBack) (dat : List U8) (c : Context D Acc.Acc)
    (hi : Acc.Inv dat c.reader) (hs : ∀ k, (c.reader.inner.script k).fail = none) :
    ∃ c', Acc.Inv dat c'.reader ∧ c'.reader.inner.script = c.reader.inner.script ∧ JRound J dat c c' := by
  have hcall := jump_call (J := J) hi
  obtain ⟨u, hu⟩ := win_prefix hi
  cases hp : J.parse c.demuxer (Acc.win c.reader) with
  | some v =>
    obtain ⟨sf, ev, d'⟩ := v
    rw [hp] at hcall
    have hall : J.parse c.demuxer (dat.drop c.reader.index) = some (sf, ev, d') := by
      rw [hu]; exact hJ.stable _ _ _ _ hp
    obtain ⟨x, r', s1, s2, s3, _, s4⟩ := seek_goal hi hs sf (fun k hk => hb.parse _ _ _ _ _ (hk ▸ hp))
    cases hg : goal dat.length c.reader.index sf with
    | none =>
      rw [hg] at s4
      obtain ⟨rfl, h4⟩ := s4
      have hans : Answers J.demuxer accBuffered c _ _ := .seekError hcall s1
      exact ⟨⟨d', r', c.info, c.user_private⟩, s2, s3, .astray hall hg rfl h4 rfl fun a => readEvent_answers a hans⟩
    | some q =>
      rw [hg] at s4
      obtain ⟨rfl, h4⟩ := s4
      cases ev with
      | some ev =>
        have hd := deliver c.info.streams ev (fun n => hJ.answers _ _ _ _ _ n hp)
        have hans : Answers J.demuxer accBuffered c _ _ := .event hcall s1 hd
        exact ⟨_, s2, s3, .event hall hg rfl h4 (by rw [announced_completed]) fun a => readEvent_answers a hans⟩
      | none =>
        have hask : Asks J.demuxer accBuffered c 0 _ := .event hcall s1
        have hround : Round J.demuxer accBuffered c _ := .again hask (Acc.data_ok s2) (Nat.zero_le _)
        exact ⟨⟨d', r', c.info, c.user_private⟩, s2, s3, .jump hall hg rfl h4 rfl fun a => readEvent_round a hround⟩
  | none =>
    rw [hp] at hcall
    have hn := hJ.need _ _ hp
    have hask : Asks J.demuxer accBuffered c _ _ := .error hcall
    have hd1 : accBuffered.data c.reader = .ok (Acc.win c.reader) := Acc.data_ok hi
    generalize J.need c.demuxer (Acc.win c.reader) = n at hask hn
    obtain ⟨z, r, f1, _⟩ := Acc.fillBuf_spec (Acc.grow_inv hi n).1
    obtain ⟨f2, g, e⟩ := fill_grown hi f1
    have hroom := e (by omega)
    have hd2 : accBuffered.data r = .ok (Acc.win r) := Acc.data_ok f2.inv
    have hidx : r.index = c.reader.index := f2.index
    cases z with
    | error er =>
      have hf := (f2.error er rfl).2.1
      have : (Acc.grow c.reader n).inner = c.reader.inner := rfl
      rw [this, hs] at hf
      cases hf
    | ok l =>
      obtain ⟨t1, t2, t3⟩ := f2.shown l rfl
      rw [g] at t2 t3
      by_cases hw : (Acc.win r).length ≤ (Acc.win c.reader).length
      · have hend : RunsOut J.demuxer accBuffered c _ _ := .eof hask hd1 hn f1 hd2 hw
        refine ⟨⟨c.demuxer, r, c.info, c.user_private⟩, f2.inv, f2.script, .eof ?_ rfl hidx rfl fun a => readEvent_runsOut a hend⟩
        have hlw : l = Acc.win c.reader := (t2.eq_of_length_le (by rw [t1]; exact hw)).symm
        have htop := t3 hlw hroom
        have hall : dat.drop c.reader.index = Acc.win c.reader := by
          have h1 := congrArg List.length hu
          rw [List.length_drop, List.length_append] at h1
          have h2 : (Acc.grow c.reader n).index = c.reader.index := rfl
          have : u = [] := List.eq_nil_of_length_eq_zero (by omega)
          rw [hu, this, List.append_nil]
        rw [hall]; exact hp
      · have hround : Round J.demuxer accBuffered c _ := .more hask hd1 hn f1 hd2 (by omega)
        exact ⟨⟨c.demuxer, r, c.info, c.user_private⟩, f2.inv, f2.script, .more rfl hidx rfl (by change _ < (Acc.win r).length; omega) fun a =>
          readEvent_round a hround⟩

/-- One call. -/
theorem jump_event (J : Jumping D) (hJ : J.Framed) (hb : J.NoStepsBack) (dat : List U8) (script : Nat → Act)
    (hs : ∀ k, (script k).fail = none) (f : Nat) : ∀ (a : Nat) (c : Context D Acc.Acc), Acc.Inv dat c.reader →
    c.reader.inner.script = script → dat.length - (Acc.win c.reader).length ≤ a → ∀ x d' q,
    J.next dat (f + 1) c.demuxer c.reader.index = some (x, d', q) → ∀ fuel, f * (dat.length + 1) + a + 1 ≤ fuel →
    ∃ c', readEvent J.demuxer accBuffered fuel c = .ok (handed c.info.streams x, c') ∧ Acc.Inv dat c'.reader ∧
      c'.reader.inner.script = script ∧ c'.demuxer = d' ∧ c'.reader.index = q ∧
      c'.info.streams = c.info.streams ++ announced x := by
  induction f with
  | zero =>
    intro a
    induction a using Nat.strongRecOn with
    | ind a ih =>
      intro c hi hsc ha x d' q hx fuel hfuel
      obtain ⟨c', h1, h2, h3⟩ := jump_round J hJ hb dat c hi (hsc ▸ hs)
      obtain ⟨b, rfl⟩ : ∃ b, fuel = b + 1 := ⟨fuel - 1, by omega⟩
      cases h3 with
      | event e1 e2 e3 e4 e5 e6 =>
        simp only [Jumping.next, e1, e2, Option.some.injEq, Prod.mk.injEq] at hx
        obtain ⟨rfl, rfl, rfl⟩ := hx
        exact ⟨c', e6 b, h1, h2.trans hsc, e3, e4, by rw [e5]⟩
      | astray e1 e2 e3 e4 e5 e6 =>
        simp only [Jumping.next, e1, e2, Option.some.injEq, Prod.mk.injEq] at hx
        obtain ⟨rfl, rfl, rfl⟩ := hx
        exact ⟨c', e6 b, h1, h2.trans hsc, e3, e4, by rw [e5]; simp [announced]⟩
      | jump e1 e2 e3 e4 e5 e6 =>
        simp only [Jumping.next, e1, e2] at hx
        cases hx
      | eof e1 e3 e4 e5 e6 =>
        simp only [Jumping.next, e1, Option.some.injEq, Prod.mk.injEq] at hx
        obtain ⟨rfl, rfl, rfl⟩ := hx
        exact ⟨c', e6 b, h1, h2.trans hsc, e3, e4, by rw [e5]; simp [announced]⟩
      | more e3 e4 e5 e6 e7 =>
        have hle := win_le h1
        obtain ⟨c'', g1, g2, g3, g4, g5, g6⟩ := ih (dat.length - (Acc.win c'.reader).length) (by omega) c' h1 (h2.trans hsc)
          (Nat.le_refl _) x d' q (by rw [e3, e4]; exact hx) b (by omega)
        rw [e5] at g1 g6
        exact ⟨c'', by rw [e7, g1], g2, g3, g4, g5, g6⟩
  | succ f ihf =>
    intro a
    induction a using Nat.strongRecOn with
    | ind a ih =>
      intro c hi hsc ha x d' q hx fuel hfuel
      obtain ⟨c', h1, h2, h3⟩ := jump_round J hJ hb dat c hi (hsc ▸ hs)
      obtain ⟨b, rfl⟩ : ∃ b, fuel = b + 1 := ⟨fuel - 1, by omega⟩
      cases h3 with
      | event e1 e2 e3 e4 e5 e6 =>
        rw [Jumping.next] at hx
        simp only [e1, e2, Option.some.injEq, Prod.mk.injEq] at hx
        obtain ⟨rfl, rfl, rfl⟩ := hx
        exact ⟨c', e6 b, h1, h2.trans hsc, e3, e4, by rw [e5]⟩
      | astray e1 e2 e3 e4 e5 e6 =>
        rw [Jumping.next] at hx
        simp only [e1, e2, Option.some.injEq, Prod.mk.injEq] at hx
        obtain ⟨rfl, rfl, rfl⟩ := hx
        exact ⟨c', e6 b, h1, h2.trans hsc, e3, e4, by rw [e5]; simp [announced]⟩
      | jump e1 e2 e3 e4 e5 e6 =>
        rw [Jumping.next] at hx
        simp only [e1, e2] at hx
        rw [Nat.add_mul] at hfuel
        obtain ⟨c'', g1, g2, g3, g4, g5, g6⟩ := ihf (dat.length - (Acc.win c'.reader).length) c' h1 (h2.trans hsc)
          (Nat.le_refl _) x d' q (by rw [e3, e4]; exact hx) b (by omega)
        rw [e5] at g1 g6
        exact ⟨c'', by rw [e6, g1], g2, g3, g4, g5, g6⟩
      | eof e1 e3 e4 e5 e6 =>
        rw [Jumping.next] at hx
        simp only [e1, Option.some.injEq, Prod.mk.injEq] at hx
        obtain ⟨rfl, rfl, rfl⟩ := hx
        exact ⟨c', e6 b, h1, h2.trans hsc, e3, e4, by rw [e5]; simp [announced]⟩
      | more e3 e4 e5 e6 e7 =>
        have hle := win_le h1
        obtain ⟨c'', g1, g2, g3, g4, g5, g6⟩ := ih (dat.length - (Acc.win c'.reader).length) (by omega) c' h1 (h2.trans hsc)
          (Nat.le_refl _) x d' q (by rw [e3, e4]; exact hx) b (by omega)
        rw [e5] at g1 g6
        exact ⟨c'', by rw [e7, g1], g2, g3, g4, g5, g6⟩

theorem jump_events (J : Jumping D) (hJ : J.Framed) (hb : J.NoStepsBack) (dat : List U8) (script : Nat → Act)
    (hs : ∀ k, (script k).fail = none) (f fuel : Nat) (hfuel : f * (dat.length + 1) ≤ fuel) (n : Nat) :
    ∀ (c : Context D Acc.Acc), Acc.Inv dat c.reader → c.reader.inner.script = script → ∀ xs,
    J.events dat f n c.demuxer c.info.streams c.reader.index = some xs →
    ∃ c', readEvents J.demuxer accBuffered fuel n c = .ok (xs, c') := by
  induction n with
  | zero => intro c _ _ xs h; cases h; exact ⟨c, rfl⟩
  | succ n ih =>
    intro c hi hsc xs h
    cases f with
    | zero => simp [Jumping.events, Jumping.next] at h
    | succ f =>
      rw [Jumping.events] at h
      cases hx : J.next dat (f + 1) c.demuxer c.reader.index with
      | none => rw [hx] at h; cases h
      | some v =>
        obtain ⟨x, d', q⟩ := v
        rw [hx] at h
        simp only [Option.bind_eq_bind, Option.bind_some] at h
        rw [Nat.add_mul] at hfuel
        obtain ⟨c', g1, g2, g3, g4, g5, g6⟩ := jump_event J hJ hb dat script hs f (dat.length - (Acc.win c.reader).length) c hi
          hsc (Nat.le_refl _) x d' q hx fuel (by omega)
        cases hy : J.events dat (f + 1) n d' (c.info.streams ++ announced x) q with
        | none => rw [hy] at h; cases h
        | some ys =>
          rw [hy] at h
          cases h
          obtain ⟨c'', k1⟩ := ih c' g2 g3 ys (by rw [g4, g5, g6]; exact hy)
          exact ⟨c'', by simp only [readEvents, g1, ok_bind, k1, pure_eq_ok]⟩

theorem next_mono (J : Jumping D) (dat : List U8) (f : Nat) : ∀ d p, J.next dat (f + 1) d p = none → J.next dat f d p = none := by
  induction f with
  | zero => intro d p _; rfl
  | succ f ih =>
    intro d p h
    rw [Jumping.next] at h ⊢
    cases hp : J.parse d (dat.drop p) with
    | none => rw [hp] at h; cases h
    | some v =>
      obtain ⟨sf, ev, d'⟩ := v
      rw [hp] at h
      simp only at h ⊢
      cases hg : goal dat.length p sf with
      | none => rw [hg] at h; cases h
      | some q =>
        rw [hg] at h
        cases ev with
        | some ev => cases h
        | none => exact ih _ _ h

theorem jump_endless (J : Jumping D) (hJ : J.Framed) (hb : J.NoStepsBack) (dat : List U8) (script : Nat → Act)
    (hs : ∀ k, (script k).fail = none) (fuel : Nat) : ∀ c : Context D Acc.Acc, Acc.Inv dat c.reader →
    c.reader.inner.script = script → J.next dat fuel c.demuxer c.reader.index = none →
    readEvent J.demuxer accBuffered fuel c = .error .fuel := by
  induction fuel with
  | zero => intro c _ _ _; rfl
  | succ fuel ih =>
    intro c hi hsc hx
    obtain ⟨c', h1, h2, h3⟩ := jump_round J hJ hb dat c hi (hsc ▸ hs)
    cases h3 with
    | event e1 e2 => rw [Jumping.next] at hx; simp only [e1, e2] at hx; cases hx
    | astray e1 e2 => rw [Jumping.next] at hx; simp only [e1, e2] at hx; cases hx
    | eof e1 => rw [Jumping.next] at hx; simp only [e1] at hx; cases hx
    | jump e1 e2 e3 e4 e5 e6 =>
      rw [Jumping.next] at hx
      simp only [e1, e2] at hx
      rw [e6]
      exact ih c' h1 (h2.trans hsc) (by rw [e3, e4]; exact hx)
    | more e3 e4 e5 e6 e7 =>
      rw [e7]
      exact ih c' h1 (h2.trans hsc) (by rw [e3, e4]; exact next_mono J dat fuel _ _ hx)

/-- One call of `read_headers`. -/
theorem jump_headers (J : Jumping D) (hJ : J.Framed) (hb : J.NoStepsBack) (dat : List U8) (script : Nat → Act)
    (hs : ∀ k, (script k).fail = none) :
    ∀ (a : Nat) (c : Context D Acc.Acc) (sf : SeekFrom) (d' : D) (i' : GlobalInfo), Acc.Inv dat c.reader →
      c.reader.inner.script = script → J.head c.demuxer c.info (dat.drop c.reader.index) = some (sf, d', i') →
      (dat.length - (Acc.win c.reader).length +
        if (Acc.win c.reader).length < c.reader.buf.length then 0 else 1) ≤ a →
      ∃ c', readHeaders J.demuxer accBuffered (a + 1) c = .ok (.ok (), c') ∧ Acc.Inv dat c'.reader ∧
        c'.reader.inner.script = script ∧ c'.demuxer = d' ∧ c'.info = i' ∧
        c'.reader.index = (goal dat.length c.reader.index sf).getD c.reader.index := by
  intro a
  induction a using Nat.strongRecOn with
  | ind a ih =>
    intro c sf d' i' hi hsc hh ha
    obtain ⟨x, r, f1, f⟩ := Acc.fillBuf_spec hi
    have f1' : accBuffered.fillBuf c.reader = .ok (x, r) := f1
    have hidx : r.index = c.reader.index := f.index
    have hscr : r.inner.script = script := f.script.trans hsc
    cases x with
    | error e =>
      have h := (f.error e rfl).2.1
      rw [hsc, hs] at h
      cases h
    | ok l =>
      obtain ⟨t1, t2, t3⟩ := f.shown l rfl
      obtain ⟨u, hu⟩ := win_prefix f.inv
      rw [hidx] at hu
      have hcall : J.demuxer.readHeaders c.demuxer r c.info = .ok (match J.head c.demuxer c.info (Acc.win r) with
          | some (sf, d', i') => (.ok sf, d', r, i')
          | none => (.error (.MoreDataNeeded (J.headNeed c.demuxer c.info (Acc.win r))), c.demuxer, r, c.info)) := by
        simp only [Jumping.demuxer, windowDemuxer, Acc.data_ok f.inv, ok_bind, pure_eq_ok]
        cases J.head c.demuxer c.info (Acc.win r) <;> rfl
      cases hp : J.head c.demuxer c.info (Acc.win r) with
      | some v =>
        have hv := hJ.headStable _ _ _ u _ hp
        rw [← hu, hh] at hv
        cases hv
        rw [hp] at hcall
        obtain ⟨m, r', s1, s2, s3, _, s4⟩ := seek_goal f.inv (hscr ▸ hs) sf (fun k hk => hb.head _ _ _ _ _ _ (hk ▸ hp))
        have hlast : HLast J.demuxer accBuffered c _ _ := .accepted f1' hcall s1
        refine ⟨⟨d', r', i', c.user_private⟩, readHeaders_last a hlast, s2, s3.trans hscr, rfl, rfl, ?_⟩
        rw [hidx] at s4
        cases hg : goal dat.length c.reader.index sf with
        | none => rw [hg] at s4; exact s4.2
        | some q => rw [hg] at s4; exact s4.2
      | none =>
        rw [hp] at hcall
        have hn := hJ.headNeed _ _ _ hp
        generalize J.headNeed c.demuxer c.info (Acc.win r) = n at hcall hn
        have hround : HRound J.demuxer accBuffered c _ := .mk f1' hcall rfl
        have hle := win_le f.inv
        have hlw : (Acc.win c.reader).length ≤ (Acc.win r).length := by rw [← t1]; exact t2.length_le
        have hu0 : u ≠ [] := by
          rintro rfl
          rw [List.append_nil] at hu
          rw [hu, hp] at hh
          cases hh
        have hmore : (Acc.win r).length + c.reader.index < dat.length := by
          have h1 := congrArg List.length hu
          rw [List.length_drop, List.length_append] at h1
          have := List.length_pos_iff.2 hu0
          omega
        have hgrew : (Acc.win c.reader).length < c.reader.buf.length →
            (Acc.win c.reader).length < (Acc.win r).length := by
          intro hroom
          apply Decidable.byContradiction
          intro hng
          have hl : l = Acc.win c.reader := (t2.eq_of_length_le (by rw [t1]; omega)).symm
          have := t3 hl hroom
          omega
        obtain ⟨g1, g2⟩ := Acc.grow_inv f.inv n
        have hroom' : (Acc.win (Acc.grow r n)).length < (Acc.grow r n).buf.length := by
          rw [g2, Acc.win_length f.inv]
          have := f.inv.eb
          simp only [Acc.grow, List.length_append, List.length_replicate]; omega
        have hlen : (Acc.win (Acc.grow r n)).length = (Acc.win r).length := by rw [g2]
        have hlt : dat.length - (Acc.win (Acc.grow r n)).length < a := by
          by_cases hroom : (Acc.win c.reader).length < c.reader.buf.length
          · have := hgrew hroom
            rw [if_pos hroom] at ha
            omega
          · rw [if_neg hroom] at ha
            omega
        obtain ⟨b, rfl⟩ : ∃ b, a = b + 1 := ⟨a - 1, by omega⟩
        have hgi : (Acc.grow r n).index = c.reader.index := hidx
        obtain ⟨c', h1, h2, h3, h4, h5, h6⟩ := ih b (by omega) ⟨c.demuxer, Acc.grow r n, c.info, c.user_private⟩ sf d' i' g1
          hscr (by
            change J.head c.demuxer c.info (dat.drop r.index) = _
            rw [hidx]; exact hh) (by
            change (dat.length - (Acc.win (Acc.grow r n)).length +
              if (Acc.win (Acc.grow r n)).length < (Acc.grow r n).buf.length then 0 else 1) ≤ b
            rw [if_pos hroom']
            omega)
        refine ⟨c', by rw [readHeaders_round (b + 1) hround]; exact h1, h2, h3, h4, h5, ?_⟩
        rw [h6, hgi]

/-! ### C152 -/

/-- C152, partial: for a format whose steps back are absolute or from the end. However a reader that does not fail cuts
its bytes up, whatever the capacity of the `AccReader` and what was done to it before: the calls of `read_event` return
just what a reader of the whole file finds that stands at the same position and follows the jumps. Missing: formats that
step back with `SeekFrom::Current` (`c152_fails`). -/
theorem c152_partial (J : Jumping D) (hJ : J.Framed) (hb : J.NoStepsBack) (dat : List U8) (cap : Nat) (script : Nat → Act)
    (hs : ∀ k, (script k).fail = none) (ops : List Acc.Op) (os : List Acc.Out) (c : Context D Acc.Acc)
    (hr : Acc.Reachable dat cap script ops os c.reader) (p : Nat) (hp : Acc.StandsAt dat c.reader p) (f n : Nat)
    (xs : List (Except Err Event)) (hx : J.events dat f n c.demuxer c.info.streams p = some xs) (fuel : Nat)
    (hfuel : f * (dat.length + 1) ≤ fuel) :
    ∃ c', readEvents J.demuxer accBuffered fuel n c = .ok (xs, c') := by
  have hi := hr.inv.1
  rw [← index_of_standsAt hi hp] at hx
  exact jump_events J hJ hb dat script hs f fuel hfuel n c hi hr.inv.2.2.1 xs hx

/-- C152, whole files: with headers that say where to begin. If there is no such place it begins behind the bytes looked
at before the headers, that is with the headers (C68). -/
theorem c152_file_partial (J : Jumping D) (hJ : J.Framed) (hb : J.NoStepsBack) (dat : List U8) (cap : Nat) (s : Source)
    (h0 : s.pos = 0) (hd : s.data = dat) (hs : ∀ k, (s.script k).fail = none) (d d' : D) (sf : SeekFrom) (i' : GlobalInfo)
    (hh : J.head d ⟨none, none, []⟩ dat = some (sf, d', i')) (f n : Nat) (xs : List (Except Err Event))
    (hx : J.events dat f n d' i'.streams ((goal dat.length 0 sf).getD 0) = some xs) :
    ∃ c1 c2, readHeaders J.demuxer accBuffered (dat.length + 2) (Context.new d (Acc.withCapacity cap s)) =
        .ok (.ok (), c1) ∧ c1.info = i' ∧
      readEvents J.demuxer accBuffered (f * (dat.length + 1)) n c1 = .ok (xs, c2) := by
  subst hd
  have hi : Acc.Inv s.data (Context.new d (Acc.withCapacity cap s)).reader := Acc.withCapacity_inv cap s h0
  obtain ⟨c1, h1, h2, h3, h4, h5, h6⟩ := jump_headers J hJ hb s.data s.script hs (s.data.length + 1)
    (Context.new d (Acc.withCapacity cap s)) sf d' i' hi rfl (by simpa [Context.new, Acc.withCapacity] using hh)
    (by split <;> omega)
  have hix : (Context.new d (Acc.withCapacity cap s)).reader.index = 0 := rfl
  rw [hix] at h6
  obtain ⟨c2, g⟩ := jump_events J hJ hb s.data s.script hs f _ (Nat.le_refl _) n c1 h2 h3 xs (by rw [h4, h5, h6]; exact hx)
  exact ⟨c1, c2, h1, h5, g⟩

/-- C152: if the jumps go on without end or event, so does the call of `read_event`. -/
theorem c152_endless_partial (J : Jumping D) (hJ : J.Framed) (hb : J.NoStepsBack) (dat : List U8) (cap : Nat)
    (script : Nat → Act) (hs : ∀ k, (script k).fail = none) (ops : List Acc.Op) (os : List Acc.Out) (c : Context D Acc.Acc)
    (hr : Acc.Reachable dat cap script ops os c.reader) (p : Nat) (hp : Acc.StandsAt dat c.reader p)
    (hx : ∀ f, J.next dat f c.demuxer p = none) (fuel : Nat) :
    readEvent J.demuxer accBuffered fuel c = .error .fuel := by
  have hi := hr.inv.1
  rw [← index_of_standsAt hi hp] at hx
  exact jump_endless J hJ hb dat script hs fuel c hi hr.inv.2.2.1 (hx fuel)

/-! ### An example: a byte to begin with, packets behind their lengths, and at the end the positions of two of them -/

/-- The format. Without a state the table is still to be read; then the state has the positions still to be visited. -/
def indexed : Jumping (Option (List Nat)) where
  head _ i w := match w with
    | [] => none
    | _ :: _ => some (.end (-2), none, i)
  headNeed _ _ _ := 1
  parse d w := match d, w with
    | none, a :: b :: _ => some (.start a.toNat, none, some [b.toNat])
    | none, _ => none
    | some _, [] => none
    | some ps, n :: l => if l.length < n.toNat then none
      else some (match ps with | [] => .end 0 | q :: _ => .start q,
        some (.NewPacket { Packet.new with data := l.take n.toNat }), some ps.tail)
  need _ w := w.length + 256

theorem indexed_framed : indexed.Framed where
  headStable _ i w u x h := by
    cases w with
    | nil => cases h
    | cons a w => exact h
  headNeed _ _ _ _ := by simp [indexed]
  stable d w u x h := by
    cases d with
    | none =>
      match w, h with
      | a :: b :: w, h => exact h
    | some ps =>
      cases w with
      | nil => cases h
      | cons n l =>
        simp only [indexed, List.cons_append] at h ⊢
        by_cases hc : l.length < n.toNat
        · rw [if_pos hc] at h; cases h
        · rw [if_neg hc] at h
          rw [if_neg (by rw [List.length_append]; omega), List.take_append_of_le_length (by omega)]
          exact h
  need _ w _ := by simp only [indexed]; omega
  answers d w sf ev d' n h := by
    cases d with
    | none =>
      match w, h with
      | a :: b :: w, h => simp [indexed] at h
    | some ps =>
      cases w with
      | nil => cases h
      | cons a l =>
        simp only [indexed] at h
        split at h
        · cases h
        · cases h; simp

theorem indexed_noStepsBack : indexed.NoStepsBack where
  head _ i w k d' i' h := by
    cases w with
    | nil => cases h
    | cons a w => cases h
  parse d w k ev d' h := by
    cases d with
    | none =>
      match w, h with
      | a :: b :: w, h => simp [indexed] at h
    | some ps =>
      cases w with
      | nil => cases h
      | cons a l =>
        simp only [indexed] at h
        split at h
        · cases h
        · cases ps <;> cases h

/-- Packets at 1 and 3, of which the table names that at 3 first. -/
def indexedFile : List U8 := [9, 1, 7, 2, 5, 6, 3, 1]

/-- Through a buffer of one byte, from a reader that gives one or two bytes at a time. -/
example : ∃ c1 c2, readHeaders indexed.demuxer accBuffered 10
      (Context.new none (Acc.withCapacity 1 ⟨indexedFile, 0, fun k => ⟨none, k % 2⟩, 0⟩)) = .ok (.ok (), c1) ∧
    readEvents indexed.demuxer accBuffered 18 3 c1 = .ok ([.ok (.NewPacket { Packet.new with data := [5, 6] }),
      .ok (.NewPacket { Packet.new with data := [7] }), .ok .Eof], c2) := by
  obtain ⟨c1, c2, h1, _, h3⟩ := c152_file_partial indexed indexed_framed indexed_noStepsBack indexedFile 1
    ⟨indexedFile, 0, fun k => ⟨none, k % 2⟩, 0⟩ rfl rfl (fun _ => rfl) none none (.end (-2)) ⟨none, none, []⟩ rfl 2 3 _ rfl
  exact ⟨c1, c2, h1, h3⟩

/-- The hypotheses of `c152_partial`, after going to the packet at 3. -/
example : ∃ os r, Acc.Reachable indexedFile 4 (fun k => ⟨none, k⟩) [.seek (.start 3)] os r ∧ Acc.StandsAt indexedFile r 3 ∧
    indexed.events indexedFile 2 2 (some []) [] 3 =
      some [.ok (.NewPacket { Packet.new with data := [5, 6] }), .ok .Eof] := by
  have h : ∃ os r, Acc.Reachable indexedFile 4 (fun k => ⟨none, k⟩) [.seek (.start 3)] os r ∧ r.index = 3 :=
    ⟨_, _, ⟨⟨indexedFile, 0, fun k => ⟨none, k⟩, 0⟩, 9, rfl, rfl, rfl, rfl⟩, rfl⟩
  obtain ⟨os, r, h1, h2⟩ := h
  exact ⟨os, r, h1, h2 ▸ h1.inv.1.standsAt, rfl⟩

/-- A chain of records that leads back to itself. -/
def circle : Jumping Unit where
  head _ i _ := some (.current 0, (), i)
  headNeed _ _ _ := 1
  parse _ w := match w with
    | [] => none
    | n :: _ => some (.start n.toNat, none, ())
  need _ w := w.length + 1

theorem circle_framed : circle.Framed where
  headStable _ i w u x h := h
  headNeed _ _ _ h := by cases h
  stable _ w u x h := by
    cases w with
    | nil => cases h
    | cons a w => exact h
  need _ w _ := Nat.lt_succ_self _
  answers _ w sf ev d' n h := by cases w <;> cases h

theorem circle_noStepsBack : circle.NoStepsBack where
  head _ i w k d' i' h := by cases h; exact Int.le_refl _
  parse _ w k ev d' h := by cases w <;> cases h

/-- Position 0 leads to 2, that to 1, and that to 0. -/
example : ∀ f, circle.next [2, 0, 1] f () 0 = none ∧ circle.next [2, 0, 1] f () 1 = none ∧
    circle.next [2, 0, 1] f () 2 = none := by
  intro f
  induction f with
  | zero => exact ⟨rfl, rfl, rfl⟩
  | succ f ih => exact ⟨ih.2.2, ih.1, ih.2.1⟩

/-! ### Steps back relative to the current position -/

/-- Packets of one byte, of which every second is to be found one before the first. -/
def stepping : Jumping Bool where
  head d i _ := some (.current 1, d, i)
  headNeed _ _ _ := 1
  parse d w := match w with
    | [] => none
    | a :: _ => some (.current (if d then 3 else -1), some (.NewPacket { Packet.new with data := [a] }), !d)
  need _ w := w.length + 1

theorem stepping_framed : stepping.Framed where
  headStable _ i w u x h := h
  headNeed _ _ _ h := by cases h
  stable _ w u x h := by
    cases w with
    | nil => cases h
    | cons a w => exact h
  need _ w _ := Nat.lt_succ_self _
  answers _ w sf ev d' n h := by
    cases w with
    | nil => cases h
    | cons a w => cases h; simp

/-- What of an event is compared here. -/
def payload : Except Err Event → List U8
  | .ok (.NewPacket p) => p.data
  | _ => []

/-- The packets of a file read through a buffer of some capacity. -/
def payloads (cap : Nat) (dat : List U8) : Rust (List (List U8)) := do
  let (_, c) ← readHeaders stepping.demuxer accBuffered 9 (Context.new false (Acc.withCapacity cap ⟨dat, 0, fun _ => ⟨none, 9⟩, 0⟩))
  let (xs, _) ← readEvents stepping.demuxer accBuffered 9 2 c
  return xs.map payload

/-- C152 fails: with steps back by `SeekFrom::Current` what is demuxed depends on the capacity of the buffer, since such a
step is taken from the end of the bytes that are buffered (C26). The second packet of the file is 5, but with a
capacity of 2 the first is found again, and with 3 and 4 others that follow it. -/
theorem c152_fails :
    ((stepping.events [5, 6, 7, 8] 1 2 false [] 1).map (·.map payload) = some [[6], [5]]) ∧
    payloads 2 [5, 6, 7, 8] = .ok [[6], [6]] ∧ payloads 3 [5, 6, 7, 8] = .ok [[6], [7]] ∧
    payloads 4 [5, 6, 7, 8] = .ok [[6], [8]] := by
  decide +kernel

end Verif.Demux
