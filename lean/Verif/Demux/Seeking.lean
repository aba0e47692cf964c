import Verif.Demux.Lost
import Verif.Demux.Jumps

/-!
# Property C171: going to other places while demuxing

`Context` keeps its reader to itself and shows its demuxer (`Context::demuxer`). A demuxer that can be told, through this, to go to another
place answers the next `read_event` with `SeekFrom::Start` and `Event::Continue`, and goes on from there. The application may note where
the demuxer is, and go back to such a place later.
-/

namespace Verif.Demux
open Verif Verif.Io Verif.Frame Verif.Stream Verif.Packet

variable {D : Type}

/-- The state of a demuxer that can be told to go elsewhere: that of the format, where the next record begins, and the place and state it
was told to go on with. The last is in a cell that can be written through a reference. -/
structure Guided (D : Type) where
  state : D
  place : Nat
  wish : Option (Nat × D)

/-- The demuxer of a format that first looks whether it was told to go elsewhere (`Demuxer::read_event`, demuxer.rs:40-41). -/
def Format.guided (F : Format D) : Jumping (Guided D) where
  head g i w := (F.head g.state i w).map fun x => (.current x.1, ⟨x.2.1, g.place + x.1, g.wish⟩, x.2.2)
  headNeed g i w := F.headNeed g.state i w
  parse g w :=
    match g.wish with
    | some s => some (.start s.1, some .Continue, ⟨s.2, s.1, none⟩)
    | none => (F.parse g.state w).map fun x => (.current x.1, some x.2.1, ⟨x.2.2, g.place + x.1, none⟩)
  need g w := F.need g.state w

/-- Where the next record comes from. -/
def Guided.here (g : Guided D) : Nat × D := g.wish.getD (g.place, g.state)

/-- What an application does: it asks for the next event, notes where the demuxer is, or tells it to go to the `i`-th place noted. -/
inductive Press | next | mark | go (i : Nat)

/-- The application, with the places it has noted. -/
structure Viewer (D : Type) where
  ctx : Context (Guided D) Acc.Acc
  marks : List (Nat × D)

/-- Through `Context::demuxer` (demuxer.rs:71-74). -/
def Viewer.tell (v : Viewer D) (s : Nat × D) : Viewer D :=
  { v with ctx := { v.ctx with demuxer := { v.ctx.demuxer with wish := some s } } }

/-- What it does, and the event if it asked for one (`read_event`, demuxer.rs:142-165). -/
def Viewer.press (F : Format D) (fuel : Nat) (v : Viewer D) : Press → Rust (Option (Except Err Event) × Viewer D)
  | .next => do
    let (x, c) ← readEvent F.guided.demuxer accBuffered fuel v.ctx
    return (some x, { v with ctx := c })
  | .mark => .ok (none, { v with marks := v.marks ++ [v.ctx.demuxer.here] })
  | .go i =>
    match v.marks[i]? with
    | none => .ok (none, v)
    | some s => .ok (none, v.tell s)

def Viewer.run (F : Format D) (fuel : Nat) (v : Viewer D) : List Press → Rust (List (Option (Except Err Event)) × Viewer D)
  | [] => .ok ([], v)
  | b :: bs => do
    let (x, v) ← v.press F fuel b
    let (xs, v) ← v.run F fuel bs
    return (x :: xs, v)

/-! ### specification -/

/-- The file itself, read from a place on: place and state, whether it was just gone to, the streams known and the places noted. -/
structure Reel (D : Type) where
  spot : Nat × D
  moved : Bool
  streams : List Stream
  marks : List (Nat × D)

/-- The first event after the place was changed is `Continue`; the others are the records from there on, then `Eof`. -/
def Reel.press (F : Format D) (dat : List U8) (r : Reel D) : Press → Option Event × Reel D
  | .next =>
    if r.moved then (some .Continue, { r with moved := false })
    else match F.parse r.spot.2 (dat.drop r.spot.1) with
      | none => (some .Eof, r)
      | some (k, ev, d') =>
        (some (completed r.streams ev), { r with spot := (r.spot.1 + k, d'), streams := r.streams ++ announced (.ok ev) })
  | .mark => (none, { r with marks := r.marks ++ [r.spot] })
  | .go i =>
    match r.marks[i]? with
    | none => (none, r)
    | some s => (none, { r with spot := s, moved := true })

def Reel.run (F : Format D) (dat : List U8) (r : Reel D) : List Press → List (Option Event) × Reel D
  | [] => ([], r)
  | b :: bs => ((r.press F dat b).1 :: (Reel.run F dat (r.press F dat b).2 bs).1, (Reel.run F dat (r.press F dat b).2 bs).2)

/-- All streams of the format are announced by its headers. -/
def Format.Upfront (F : Format D) : Prop := ∀ d w k ev d', F.parse d w = some (k, ev, d') → ∀ s, ev ≠ .NewStream s

/-! ### proofs -/

theorem guided_framed {F : Format D} (hF : F.Framed) : F.guided.Framed where
  headStable g i w u x h := by
    simp only [Format.guided, Option.map_eq_some_iff] at h ⊢
    obtain ⟨a, h1, h2⟩ := h
    exact ⟨a, hF.headStable _ _ _ _ _ h1, h2⟩
  headNeed g i w h := by
    simp only [Format.guided, Option.map_eq_none_iff] at h ⊢
    exact hF.headNeed _ _ _ h
  stable g w u x h := by
    simp only [Format.guided] at h ⊢
    cases hw : g.wish with
    | some s => rw [hw] at h; exact h
    | none =>
      rw [hw] at h
      simp only [Option.map_eq_some_iff] at h ⊢
      obtain ⟨a, h1, h2⟩ := h
      exact ⟨a, hF.stable _ _ _ _ h1, h2⟩
  need g w h := by
    simp only [Format.guided] at h ⊢
    cases hw : g.wish with
    | some s => rw [hw] at h; cases h
    | none =>
      rw [hw] at h
      simp only [Option.map_eq_none_iff] at h
      exact hF.need _ _ h
  answers g w sf ev d' n h := by
    simp only [Format.guided] at h
    cases hw : g.wish with
    | some s => rw [hw] at h; cases h; simp
    | none =>
      rw [hw] at h
      simp only [Option.map_eq_some_iff] at h
      obtain ⟨a, h1, h2⟩ := h
      cases h2
      exact hF.answers _ _ _ _ _ n h1

theorem guided_noStepsBack {F : Format D} : F.guided.NoStepsBack where
  head g i w k d' i' h := by
    simp only [Format.guided, Option.map_eq_some_iff] at h
    obtain ⟨a, h1, h2⟩ := h
    cases h2
    omega
  parse g w k ev d' h := by
    simp only [Format.guided] at h
    cases hw : g.wish with
    | some s => rw [hw] at h; cases h
    | none =>
      rw [hw] at h
      simp only [Option.map_eq_some_iff] at h
      obtain ⟨a, h1, h2⟩ := h
      cases h2
      omega

/-- The application and the file, in step. -/
structure Follows (dat : List U8) (script : Nat → Act) (v : Viewer D) (r : Reel D) : Prop where
  inv : Acc.Inv dat v.ctx.reader
  script : v.ctx.reader.inner.script = script
  spot : v.ctx.demuxer.here = r.spot
  moved : v.ctx.demuxer.wish.isSome = r.moved
  place : v.ctx.demuxer.wish = none → v.ctx.reader.index = v.ctx.demuxer.place
  streams : v.ctx.info.streams = r.streams
  marks : v.marks = r.marks

theorem press_follows {F : Format D} (hF : F.Framed) {dat : List U8} {script : Nat → Act} (hs : ∀ k, (script k).fail = none)
    {fuel : Nat} (hfuel : dat.length + 1 ≤ fuel) {v : Viewer D} {r : Reel D} (h : Follows dat script v r) (b : Press) :
    ∃ v', v.press F fuel b = .ok ((r.press F dat b).1.map .ok, v') ∧ Follows dat script v' (r.press F dat b).2 := by
  cases b with
  | mark =>
    refine ⟨_, rfl, h.inv, h.script, h.spot, h.moved, h.place, h.streams, ?_⟩
    simp only [Reel.press, h.marks, h.spot]
  | go i =>
    simp only [Viewer.press, Reel.press, h.marks]
    cases r.marks[i]? with
    | none => exact ⟨_, rfl, h⟩
    | some s => exact ⟨_, rfl, h.inv, h.script, rfl, rfl, (fun e => nomatch e), h.streams, h.marks⟩
  | next =>
    have key : ∀ x d' q, F.guided.next dat 1 v.ctx.demuxer v.ctx.reader.index = some (x, d', q) →
        ∃ c', readEvent F.guided.demuxer accBuffered fuel v.ctx = .ok (handed v.ctx.info.streams x, c') ∧ Acc.Inv dat c'.reader ∧
          c'.reader.inner.script = script ∧ c'.demuxer = d' ∧ c'.reader.index = q ∧
          c'.info.streams = v.ctx.info.streams ++ announced x := fun x d' q hx =>
      jump_event F.guided (guided_framed hF) guided_noStepsBack dat script hs 0 (dat.length - (Acc.win v.ctx.reader).length) v.ctx
        h.inv h.script (Nat.le_refl _) x d' q hx fuel (by omega)
    have hm := h.moved
    have hp := h.spot
    cases hw : v.ctx.demuxer.wish with
    | some s =>
      rw [hw] at hm
      simp only [Guided.here, hw, Option.getD_some] at hp
      obtain ⟨c', g1, g2, g3, g4, g5, g6⟩ := key (.ok .Continue) ⟨s.2, s.1, none⟩ s.1 (by
        simp only [Jumping.next, Format.guided, hw, goal])
      refine ⟨{ v with ctx := c' }, ?_, g2, g3, ?_, ?_, ?_, ?_, ?_⟩
      · simp only [Viewer.press, g1, ok_bind, Reel.press, ← hm, Option.isSome_some, if_true, pure_eq_ok, handed, completed,
          Option.map_some]
      · simp only [Guided.here, g4, Option.getD_none, Reel.press, ← hm, Option.isSome_some, if_true, ← hp]
      · simp only [g4, Reel.press, ← hm, Option.isSome_some, if_true, Option.isSome_none]
      · intro _; simp only [g4, g5]
      · simp only [g6, Reel.press, ← hm, Option.isSome_some, if_true, h.streams, announced, List.append_nil]
      · simp only [Reel.press, ← hm, Option.isSome_some, if_true, h.marks]
    | none =>
      rw [hw] at hm
      simp only [Guided.here, hw, Option.getD_none] at hp
      have hidx := h.place hw
      have hm' : r.moved = false := by rw [← hm]; rfl
      cases hparse : F.parse r.spot.2 (dat.drop r.spot.1) with
      | none =>
        obtain ⟨c', g1, g2, g3, g4, g5, g6⟩ := key (.ok .Eof) v.ctx.demuxer v.ctx.reader.index (by
          simp only [Jumping.next, Format.guided, hw, hidx]
          rw [← hp] at hparse
          simp only at hparse
          rw [hparse]
          rfl)
        refine ⟨{ v with ctx := c' }, ?_, g2, g3, ?_, ?_, ?_, ?_, ?_⟩
        · simp only [Viewer.press, g1, ok_bind, Reel.press, hm', Bool.false_eq_true, if_false, hparse, pure_eq_ok, handed, completed,
            Option.map_some]
        · simp only [Guided.here, g4, hw, Option.getD_none, Reel.press, hm', Bool.false_eq_true, if_false, hparse, hp]
        · simp only [g4, hw, Reel.press, hm', Bool.false_eq_true, if_false, hparse, Option.isSome_none]
        · intro _; simp only [g4, g5, hidx]
        · simp only [g6, Reel.press, hm', Bool.false_eq_true, if_false, hparse, h.streams, announced, List.append_nil]
        · simp only [Reel.press, hm', Bool.false_eq_true, if_false, hparse, h.marks]
      | some y =>
        obtain ⟨k, ev, d1⟩ := y
        obtain ⟨c', g1, g2, g3, g4, g5, g6⟩ := key (.ok ev) ⟨d1, v.ctx.demuxer.place + k, none⟩ (v.ctx.demuxer.place + k) (by
          simp only [Jumping.next, Format.guided, hw, hidx]
          rw [← hp] at hparse
          simp only at hparse
          rw [hparse]
          simp only [Option.map_some, goal]
          rw [if_pos (by omega)]
          rfl)
        have hq : v.ctx.demuxer.place = r.spot.1 := by rw [← hp]
        refine ⟨{ v with ctx := c' }, ?_, g2, g3, ?_, ?_, ?_, ?_, ?_⟩
        · simp only [Viewer.press, g1, ok_bind, Reel.press, hm', Bool.false_eq_true, if_false, hparse, pure_eq_ok, handed, h.streams,
            Option.map_some]
        · simp only [Guided.here, g4, Option.getD_none, Reel.press, hm', Bool.false_eq_true, if_false, hparse, hq]
        · simp only [g4, Reel.press, hm', Bool.false_eq_true, if_false, hparse, Option.isSome_none]
        · intro _; simp only [g4, g5]
        · simp only [g6, Reel.press, hm', Bool.false_eq_true, if_false, hparse, h.streams]
        · simp only [Reel.press, hm', Bool.false_eq_true, if_false, hparse, h.marks]

theorem run_follows {F : Format D} (hF : F.Framed) {dat : List U8} {script : Nat → Act} (hs : ∀ k, (script k).fail = none)
    {fuel : Nat} (hfuel : dat.length + 1 ≤ fuel) (bs : List Press) : ∀ {v : Viewer D} {r : Reel D}, Follows dat script v r →
    ∃ v', v.run F fuel bs = .ok ((r.run F dat bs).1.map (·.map .ok), v') ∧ Follows dat script v' (r.run F dat bs).2 := by
  induction bs with
  | nil => intro v r h; exact ⟨v, rfl, h⟩
  | cons b bs ih =>
    intro v r h
    obtain ⟨v1, a1, a2⟩ := press_follows hF hs hfuel h b
    obtain ⟨v2, b1, b2⟩ := ih a2
    exact ⟨v2, by simp only [Viewer.run, a1, ok_bind, b1, pure_eq_ok, Reel.run, List.map_cons], b2⟩

theorem Reel.run_append (F : Format D) (dat : List U8) (as bs : List Press) : ∀ r : Reel D,
    r.run F dat (as ++ bs) = ((r.run F dat as).1 ++ ((r.run F dat as).2.run F dat bs).1, ((r.run F dat as).2.run F dat bs).2) := by
  induction as with
  | nil => intro r; rfl
  | cons a as ih => intro r; simp only [List.cons_append, Reel.run, ih]

theorem upfront_announced {ev : Event} (h : ∀ s, ev ≠ .NewStream s) : announced (.ok ev) = [] := by
  cases ev <;> first | rfl | exact absurd rfl (h _)

theorem press_streams {F : Format D} (hu : F.Upfront) (dat : List U8) (r : Reel D) (b : Press) :
    (r.press F dat b).2.streams = r.streams ∧ r.marks <+: (r.press F dat b).2.marks := by
  cases b with
  | mark => exact ⟨rfl, List.prefix_append _ _⟩
  | go i =>
    simp only [Reel.press]
    cases r.marks[i]? <;> exact ⟨rfl, List.prefix_rfl⟩
  | next =>
    simp only [Reel.press]
    split
    · exact ⟨rfl, List.prefix_rfl⟩
    · cases hp : F.parse r.spot.2 (dat.drop r.spot.1) with
      | none => exact ⟨rfl, List.prefix_rfl⟩
      | some y => exact ⟨by simp [upfront_announced (hu _ _ _ _ _ hp)], List.prefix_rfl⟩

theorem run_streams {F : Format D} (hu : F.Upfront) (dat : List U8) (bs : List Press) : ∀ r : Reel D,
    (r.run F dat bs).2.streams = r.streams ∧ r.marks <+: (r.run F dat bs).2.marks := by
  induction bs with
  | nil => intro r; exact ⟨rfl, List.prefix_rfl⟩
  | cons b bs ih =>
    intro r
    obtain ⟨a1, a2⟩ := press_streams hu dat r b
    obtain ⟨b1, b2⟩ := ih (r.press F dat b).2
    exact ⟨b1.trans a1, a2.trans b2⟩

/-- Events from a place on do not depend on the places noted. -/
theorem nexts_events (F : Format D) (dat : List U8) (n : Nat) : ∀ (p : Nat) (d : D) (streams : List Stream) (marks : List (Nat × D)),
    (Reel.run F dat ⟨(p, d), false, streams, marks⟩ (List.replicate n .next)).1 = (F.events n d streams (dat.drop p)).map some := by
  induction n with
  | zero => intro p d streams marks; rfl
  | succ n ih =>
    intro p d streams marks
    rw [List.replicate_succ]
    simp only [Reel.run, Reel.press, Bool.false_eq_true, if_false, Format.events]
    cases hp : F.parse d (dat.drop p) with
    | none => simp only [List.map_cons, ih]
    | some y =>
      obtain ⟨k, ev, d'⟩ := y
      simp only [List.map_cons, ih, List.drop_drop]

/-! ### C171 -/

/-- **C171, exactly.** Whatever the application does, in whatever order and however often, with an `AccReader` of any history and
capacity over a reader that does not fail: it gets the records of the file from the place it last went to on, one after the other, after a
`Continue`; `Eof` behind the last record changes nothing. Each time it comes across a `NewStream` the stream is added to those known. -/
theorem c171_exact_partial (F : Format D) (hF : F.Framed) (dat : List U8) (cap : Nat) (script : Nat → Act)
    (hs : ∀ k, (script k).fail = none) (ops : List Acc.Op) (os : List Acc.Out) (c : Context (Guided D) Acc.Acc)
    (hr : Acc.Reachable dat cap script ops os c.reader) (p : Nat) (hp : Acc.StandsAt dat c.reader p) (d : D)
    (hg : c.demuxer = ⟨d, p, none⟩) (bs : List Press) :
    ∃ v, Viewer.run F (dat.length + 1) ⟨c, []⟩ bs =
        .ok ((Reel.run F dat ⟨(p, d), false, c.info.streams, []⟩ bs).1.map (·.map .ok), v) ∧
      v.ctx.info.streams = (Reel.run F dat ⟨(p, d), false, c.info.streams, []⟩ bs).2.streams ∧
      v.marks = (Reel.run F dat ⟨(p, d), false, c.info.streams, []⟩ bs).2.marks := by
  obtain ⟨v, a1, a2⟩ := run_follows hF hs (Nat.le_refl _) bs (v := ⟨c, []⟩) (r := ⟨(p, d), false, c.info.streams, []⟩)
    ⟨hr.inv.1, hr.inv.2.2.1, by simp [hg, Guided.here], by simp [hg],
      (fun _ => by rw [hg]; exact index_of_standsAt hr.inv.1 hp), rfl, rfl⟩
  exact ⟨v, a1, a2.streams, a2.marks⟩

/-- **C171, partial: formats whose headers announce all streams.** After whatever it has done so far (`as`), the application notes the
place. The events it would get now (`xs`, the records from there on) are, behind a `Continue`, those it gets when it has done anything
else (`bs`) and goes back. The streams stay those of the headers. Missing: formats that announce streams by events (`c171_fails`). -/
theorem c171_partial (F : Format D) (hF : F.Framed) (hu : F.Upfront) (dat : List U8) (cap : Nat) (s : Source) (h0 : s.pos = 0)
    (hd : s.data = dat) (hs : ∀ k, (s.script k).fail = none) (d d' : D) (k : Nat) (i' : GlobalInfo)
    (hh : F.head d ⟨none, none, []⟩ dat = some (k, d', i')) :
    ∃ c1, readHeaders F.guided.demuxer accBuffered (dat.length + 2) (Context.new ⟨d, 0, none⟩ (Acc.withCapacity cap s)) =
        .ok (.ok (), c1) ∧ c1.info = i' ∧
      ∀ (as : List Press) (n : Nat), ∃ os v1 xs, Viewer.run F (dat.length + 1) ⟨c1, []⟩ as = .ok (os, v1) ∧
        xs = F.events n v1.ctx.demuxer.here.2 i'.streams (dat.drop v1.ctx.demuxer.here.1) ∧
        (v1.ctx.demuxer.wish = none →
          ∃ v2, v1.run F (dat.length + 1) (List.replicate n .next) = .ok (xs.map (fun x => some (.ok x)), v2)) ∧
        ∀ bs : List Press, ∃ ys v3, ys.length = bs.length ∧
          v1.run F (dat.length + 1) (.mark :: (bs ++ .go v1.marks.length :: .next :: List.replicate n .next)) =
            .ok (none :: (ys ++ none :: some (.ok .Continue) :: xs.map (fun x => some (.ok x))), v3) ∧
          v3.ctx.info.streams = i'.streams := by
  subst hd
  have hi : Acc.Inv s.data (Context.new (⟨d, 0, none⟩ : Guided D) (Acc.withCapacity cap s)).reader := Acc.withCapacity_inv cap s h0
  obtain ⟨c1, h1, h2, h3, h4, h5, h6⟩ := jump_headers F.guided (guided_framed hF) guided_noStepsBack s.data s.script hs (s.data.length + 1)
    (Context.new ⟨d, 0, none⟩ (Acc.withCapacity cap s)) (.current k) ⟨d', 0 + k, none⟩ i' hi rfl (by
      simp only [Context.new, Acc.withCapacity, Format.guided, List.drop_zero, hh, Option.map_some])
    (by split <;> omega)
  have hidx : (Context.new (⟨d, 0, none⟩ : Guided D) (Acc.withCapacity cap s)).reader.index = 0 := rfl
  rw [hidx] at h6
  have hk : c1.reader.index = k := by rw [h6]; simp [goal]
  refine ⟨c1, h1, h5, fun as n => ?_⟩
  obtain ⟨v1, a1, a2⟩ := run_follows hF hs (Nat.le_refl _) as (v := ⟨c1, []⟩) (r := ⟨(k, d'), false, i'.streams, []⟩)
    ⟨h2, h3, by simp [h4, Guided.here], by simp [h4], (fun _ => by simp [h4, hk]), by simp [h5], rfl⟩
  obtain ⟨st, _⟩ := run_streams hu s.data as ⟨(k, d'), false, i'.streams, []⟩
  generalize Reel.run F s.data ⟨(k, d'), false, i'.streams, []⟩ as = q at a1 a2 st
  obtain ⟨os, r⟩ := q
  refine ⟨_, v1, F.events n r.spot.2 i'.streams (s.data.drop r.spot.1), a1, by rw [a2.spot], fun hw => ?_, fun bs => ?_⟩
  · obtain ⟨v2, b1, _⟩ := run_follows hF hs (Nat.le_refl _) (List.replicate n .next) a2
    have hm : r.moved = false := by have := a2.moved; rw [hw] at this; exact this.symm
    have := nexts_events F s.data n r.spot.1 r.spot.2 r.streams r.marks
    obtain ⟨spot, moved, streams, marks⟩ := r
    subst hm
    simp only at this st
    rw [this, st] at b1
    exact ⟨v2, by rw [b1, List.map_map]; rfl⟩
  · obtain ⟨v3, b1, b2⟩ := run_follows hF hs (Nat.le_refl _)
      (.mark :: (bs ++ .go v1.marks.length :: .next :: List.replicate n .next)) a2
    obtain ⟨st3, _⟩ := run_streams hu s.data (.mark :: (bs ++ .go v1.marks.length :: .next :: List.replicate n .next)) r
    obtain ⟨st2, pre⟩ := run_streams hu s.data bs (r.press F s.data .mark).2
    have hlen : ∀ (bs : List Press) (r : Reel D), (r.run F s.data bs).1.length = bs.length := by
      intro bs
      induction bs with
      | nil => intro r; rfl
      | cons b bs ih => intro r; simp [Reel.run, ih]
    refine ⟨((Reel.run F s.data (r.press F s.data .mark).2 bs).1.map (·.map .ok)), v3, by simp [hlen], ?_, ?_⟩
    · rw [b1]
      simp only [Reel.run, Reel.run_append]
      have hmark : (Reel.run F s.data (r.press F s.data .mark).2 bs).2.marks[v1.marks.length]? = some r.spot := by
        obtain ⟨t, ht⟩ := pre
        rw [← ht, a2.marks]
        simp [Reel.press]
      generalize Reel.run F s.data (r.press F s.data .mark).2 bs = z at hmark st2
      obtain ⟨zs, y⟩ := z
      simp only at hmark st2
      have hgo : y.press F s.data (.go v1.marks.length) = (none, { y with spot := r.spot, moved := true }) := by
        simp only [Reel.press, hmark]
      simp only [hgo]
      have hev := nexts_events F s.data n r.spot.1 r.spot.2 y.streams y.marks
      have hst : y.streams = i'.streams := st2.trans st
      rw [hst] at hev
      simp only [Reel.press, if_true, List.map_cons, List.map_append, Option.map_none, Option.map_some, hst, hev, List.map_map]
      rfl
    · rw [b2.streams, st3]; exact st

/-! ### what is gone over twice -/

/-- A reader that gives one byte at a time. -/
def steady : Nat → Act := fun _ => ⟨none, 0⟩

/-- **C171 does not hold in general.** A packet, and then its stream is announced. Going back, the application gets the packet with
another timebase than before, and the stream is registered twice. -/
theorem c171_fails : skipping.Framed ∧ ∃ c1 v,
    readHeaders skipping.guided.demuxer accBuffered 8 (Context.new ⟨(), 0, none⟩ (Acc.withCapacity 3 ⟨[1, 9, 0, 9, 9, 9], 0, steady, 0⟩)) =
      .ok (.ok (), c1) ∧
    Viewer.run skipping 7 ⟨c1, []⟩ [.mark, .next, .next, .go 0, .next, .next, .next, .next] = .ok ([none, some (.ok (.NewPacket (thePacket none))),
      some (.ok (.NewStream theStream)), none, some (.ok .Continue), some (.ok (.NewPacket (thePacket (some ⟨1, 25⟩)))),
      some (.ok (.NewStream theStream)), some (.ok .Eof)], v) ∧
    v.ctx.info.streams = [theStream, theStream] :=
  ⟨skipping_framed, _, _, rfl, rfl, rfl⟩

theorem lengths_upfront : lengths.Upfront := by
  intro d w k ev d' h s
  cases w with
  | nil => cases h
  | cons n l =>
    simp only [lengths] at h
    split at h
    · cases h
    · cases h; simp

/-- What packets hold. -/
def shown : Option (Except Err Event) → List U8
  | some (.ok (.NewPacket p)) => p.data
  | some (.ok .Continue) => [255]
  | _ => []

/-- The hypotheses of `c171_partial`, and an application that goes back and forth, also from the end, and to a
place it was about to leave. -/
example : lengths.Framed ∧ lengths.Upfront ∧ (∃ i', lengths.head () ⟨none, none, []⟩ [9, 1, 5, 2, 6, 7, 1, 8] = some (1, (), i')) ∧
    ∃ c1, readHeaders lengths.guided.demuxer accBuffered 10
        (Context.new ⟨(), 0, none⟩ (Acc.withCapacity 2 ⟨[9, 1, 5, 2, 6, 7, 1, 8], 0, steady, 0⟩)) = .ok (.ok (), c1) ∧
      c1.demuxer = ⟨(), 1, none⟩ ∧
      (Viewer.run lengths 9 ⟨c1, []⟩ [.mark, .next, .mark, .next, .next, .next, .go 1, .next, .mark, .next, .go 0, .mark, .next, .next,
        .go 7, .next, .next, .go 3, .go 2, .next, .next]).toOption.map (fun x => (x.1.map shown, x.2.marks)) =
        some ([[], [5], [], [6, 7], [8], [], [], [255], [], [6, 7], [], [], [255], [5], [], [6, 7], [8], [], [], [255], [6, 7]],
          [(1, ()), (3, ()), (3, ()), (1, ())]) :=
  ⟨lengths_framed, lengths_upfront, ⟨_, rfl⟩, _, rfl, rfl, by decide +kernel⟩

/-- The hypotheses of `c171_exact_partial`. -/
example : Acc.Reachable [1, 9, 0, 9, 9, 9] 3 (steady) [] [] (Acc.withCapacity 3 ⟨[1, 9, 0, 9, 9, 9], 0, steady, 0⟩) ∧
    Acc.StandsAt [1, 9, 0, 9, 9, 9] (Acc.withCapacity 3 ⟨[1, 9, 0, 9, 9, 9], 0, steady, 0⟩) 0 :=
  ⟨⟨⟨[1, 9, 0, 9, 9, 9], 0, steady, 0⟩, 0, rfl, rfl, rfl, rfl⟩,
    (Acc.withCapacity_inv 3 ⟨[1, 9, 0, 9, 9, 9], 0, steady, 0⟩ rfl).standsAt⟩

end Verif.Demux
