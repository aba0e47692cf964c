import Verif.Demux.Framing
import Verif.Live.Props

/-!
# Demuxing streams that grow

A file is demuxed while it is still written, or a stream while it is received: `read_event` returns `Eof` when no byte
is there by now, and may be called again.
-/

namespace Verif.Live
open Verif Verif.Io Verif.Acc Verif.Frame Verif.Stream Verif.Packet Verif.Demux

variable {R D : Type} {dev : Dev R} {dat : List U8} {pos len : R → Nat}

/-- `impl Buffered for AccReader`, accreader.rs:86-95 -/
def buffered (dev : Dev R) : Buffered (LAcc R) := ⟨fillBuf dev, data, fun r n => .ok (grow r n), seek dev⟩

/-- The demuxer of a format, over such a reader. -/
def demuxer (F : Format D) : Demuxer D (LAcc R) where
  readHeaders d r info := do
    match F.head d info (← data r) with
    | some (k, d', i') => return (.ok (.current k), d', r, i')
    | none => return (.error (.MoreDataNeeded (F.headNeed d info (← data r))), d, r, info)
  readEvent d r := do
    match F.parse d (← data r) with
    | some (k, ev, d') => return (.ok (.current k, ev), d', r)
    | none => return (.error (.MoreDataNeeded (F.need d (← data r))), d, r)

theorem event_call {F : Format D} {c : Context D (LAcc R)} (hi : Inv dat pos len c.reader) :
    (demuxer F).readEvent c.demuxer c.reader = .ok (match F.parse c.demuxer (win c.reader) with
      | some (k, ev, d') => (.ok (.current k, ev), d', c.reader)
      | none => (.error (.MoreDataNeeded (F.need c.demuxer (win c.reader))), c.demuxer, c.reader)) := by
  simp only [demuxer, data_ok hi, ok_bind, pure_eq_ok]
  cases F.parse c.demuxer (win c.reader) <;> rfl

theorem headers_call {F : Format D} {d : D} {i : GlobalInfo} {r : LAcc R} (hi : Inv dat pos len r) :
    (demuxer F).readHeaders d r i = .ok (match F.head d i (win r) with
      | some (k, d', i') => (.ok (.current k), d', r, i')
      | none => (.error (.MoreDataNeeded (F.headNeed d i (win r))), d, r, i)) := by
  simp only [demuxer, data_ok hi, ok_bind, pure_eq_ok]
  cases F.head d i (win r) <;> rfl

theorem win_prefix {r : LAcc R} (hi : Inv dat pos len r) : ∃ u, dat.drop r.index = win r ++ u :=
  ⟨(dat.drop r.index).drop (r.end - r.pos), by rw [hi.win, List.take_append_drop]⟩

/-- The bytes that are there by now behind the position. -/
theorem there_prefix {r : LAcc R} (hi : Inv dat pos len r) :
    ∃ u, (dat.take (len r.inner)).drop r.index = win r ++ u := by
  refine ⟨((dat.take (len r.inner)).drop r.index).drop (r.end - r.pos), ?_⟩
  have : win r = ((dat.take (len r.inner)).drop r.index).take (r.end - r.pos) := by
    rw [hi.win, List.drop_take, List.take_take]
    congr 1
    have := hi.there
    omega
  rw [this, List.take_append_drop]

theorem take_prefix {n m p : Nat} (h : n ≤ m) :
    ∃ u, (dat.take m).drop p = (dat.take n).drop p ++ u := by
  obtain ⟨u, hu⟩ : (dat.take n).drop p <+: (dat.take m).drop p := by
    rw [List.drop_take, List.drop_take]
    exact List.take_prefix_take_left (by omega)
  exact ⟨u, hu.symm⟩

theorem final_prefix (n p : Nat) : ∃ u, dat.drop p = (dat.take n).drop p ++ u := by
  obtain ⟨u, hu⟩ := take_prefix (dat := dat) (p := p) (n := n) (m := max n dat.length) (by omega)
  exact ⟨u, by rw [← hu, List.take_of_length_le (by omega)]⟩

theorem win_le {r : LAcc R} (hi : Inv dat pos len r) : (win r).length ≤ dat.length := by
  rw [hi.win]; simp only [List.length_take, List.length_drop]; omega

theorem seek_ahead (hg : Grows dev dat pos len) {r : LAcc R} (hi : Inv dat pos len r) (k : Nat)
    (hk : k ≤ (win r).length ∨ dev.Healthy pos len) :
    ∃ m r', seek dev r (.current k) = .ok (.ok m, r') ∧ Inv dat pos len r' ∧ r'.index = r.index + k ∧
      len r.inner ≤ len r'.inner ∧ r'.buf.length = r.buf.length := by
  obtain ⟨x, r', s1, s2⟩ := seek_spec hg hi (.current k)
  have hgoal : ∀ t, goal pos r (.current k) t = ((r.index + k : Nat) : Int) := by
    intro t
    simp only [goal, if_pos (Int.natCast_nonneg k)]; omega
  have hx : ∃ m, x = .ok m := by
    rcases hk with hk | hk
    · rw [win_length hi] at hk
      rw [seek] at s1
      simp only [usub_ok hi.pe, ok_bind] at s1
      rw [if_pos (by omega), if_pos (by omega)] at s1
      cases s1
      exact ⟨_, rfl⟩
    · exact s2.healthy hk fun t _ => by rw [hgoal]; exact Int.natCast_nonneg _
  obtain ⟨m, rfl⟩ := hx
  obtain ⟨a1, t, a2, a3, a4⟩ := s2.ok m rfl
  rcases a4 with a4 | a4
  · simp only [Back] at a4; omega
  rw [hgoal] at a4
  exact ⟨m, r', s1, s2.inv, by omega, s2.grown, s2.size⟩

theorem fill_grown (hg : Grows dev dat pos len) {r : LAcc R} (hi : Inv dat pos len r) (n : Nat) :
    ∃ x r', fillBuf dev (grow r n) = .ok (x, r') ∧ FillSpec dev dat pos len (grow r n) r' x ∧
      win (grow r n) = win r ∧ (0 < n → (win r).length < (grow r n).buf.length) := by
  obtain ⟨g1, g2⟩ := grow_inv hi n
  obtain ⟨x, r', f1, f2⟩ := fillBuf_spec hg g1
  refine ⟨x, r', f1, f2, g2, fun hn => ?_⟩
  rw [win_length hi]
  have := hi.eb
  simp only [grow, List.length_append, List.length_replicate]; omega

/-- What one call of `read_event` does. `wait`: the record was not complete when the call began. -/
inductive Live1 (F : Format D) (dev : Dev R) (dat : List U8) (len : R → Nat) (c c' : Context D (LAcc R)) :
    Except Err Event → Prop
  | io {e} : (∃ r n, (dev.read r n).1 = .error e) → c'.demuxer = c.demuxer → c'.info = c.info →
      c'.reader.index = c.reader.index → Live1 F dev dat len c c' (.error (.Io e))
  | wait : F.parse c.demuxer ((dat.take (len c.reader.inner)).drop c.reader.index) = none →
      c'.demuxer = c.demuxer → c'.info = c.info → c'.reader.index = c.reader.index →
      Live1 F dev dat len c c' (.ok .Eof)
  | record {k ev d'} : F.parse c.demuxer (dat.drop c.reader.index) = some (k, ev, d') → c'.demuxer = d' →
      c'.info = { c.info with streams := c.info.streams ++ announced (.ok ev) } →
      c'.reader.index = c.reader.index + k → Live1 F dev dat len c c' (.ok (completed c.info.streams ev))

theorem live_event (F : Format D) (hF : F.Framed) (hg : Grows dev dat pos len)
    (hf : F.Fits ∨ dev.Healthy pos len) :
    ∀ (a : Nat) (c : Context D (LAcc R)), Inv dat pos len c.reader → dat.length - (win c.reader).length ≤ a →
      ∃ x c', readEvent (demuxer F) (buffered dev) (a + 1) c = .ok (x, c') ∧ Inv dat pos len c'.reader ∧
        len c.reader.inner ≤ len c'.reader.inner ∧ Live1 F dev dat len c c' x := by
  intro a
  induction a using Nat.strongRecOn with
  | ind a ih =>
    intro c hi ha
    have hcall := event_call (F := F) hi
    obtain ⟨u, hu⟩ := win_prefix hi
    cases hp : F.parse c.demuxer (win c.reader) with
    | some v =>
      obtain ⟨k, ev, d'⟩ := v
      rw [hp] at hcall
      obtain ⟨m, r', s1, s2, s3, s4, _⟩ := seek_ahead hg hi k (hf.imp (fun h => h.parse _ _ _ _ _ hp) id)
      have hd := deliver c.info.streams ev (fun n => hF.answers _ _ _ _ _ n hp)
      have hans : Answers (demuxer F) (buffered dev) c _ _ := .event hcall s1 hd
      refine ⟨_, _, readEvent_answers a hans, s2, s4, ?_⟩
      refine .record (k := k) (d' := d') ?_ rfl ?_ s3
      · rw [hu]; exact hF.stable _ _ _ _ hp
      · rw [announced_completed]
    | none =>
      rw [hp] at hcall
      have hn := hF.need _ _ hp
      have hask : Asks (demuxer F) (buffered dev) c _ _ := .error hcall
      have hd1 : (buffered dev).data c.reader = .ok (win c.reader) := data_ok hi
      generalize F.need c.demuxer (win c.reader) = n at hask hn
      obtain ⟨z, r, f1, f2, g, e⟩ := fill_grown hg hi n
      have hroom := e (by omega)
      have hd2 : (buffered dev).data r = .ok (win r) := data_ok f2.inv
      have hidx : r.index = c.reader.index := f2.index
      have hlen : len c.reader.inner ≤ len r.inner := f2.grown
      cases z with
      | error er =>
        refine ⟨_, _, readEvent_runsOut a (.readError hask hd1 hn f1), f2.inv, hlen, ?_⟩
        obtain ⟨_, _, m, b2⟩ := f2.error er rfl
        exact .io ⟨_, m, b2⟩ rfl rfl hidx
      | ok l =>
        obtain ⟨t1, t2, t3, _⟩ := f2.shown l rfl
        rw [g] at t2 t3
        by_cases hw : (win r).length ≤ (win c.reader).length
        · refine ⟨_, _, readEvent_runsOut a (.eof hask hd1 hn f1 hd2 hw), f2.inv, hlen, ?_⟩
          refine .wait ?_ rfl rfl hidx
          have hlw : l = win c.reader := (t2.eq_of_length_le (by rw [t1]; exact hw)).symm
          have hend : len c.reader.inner ≤ c.reader.index + (win c.reader).length := t3 hlw hroom
          obtain ⟨v, hv⟩ := there_prefix hi
          have : v = [] := by
            have h1 := congrArg List.length hv
            rw [List.length_drop, List.length_append, List.length_take] at h1
            exact List.eq_nil_of_length_eq_zero (by omega)
          rw [hv, this, List.append_nil]; exact hp
        · have hround : Round (demuxer F) (buffered dev) c _ := .more hask hd1 hn f1 hd2 (by omega)
          have hle2 := win_le f2.inv
          obtain ⟨b, rfl⟩ : ∃ b, a = b + 1 := ⟨a - 1, by omega⟩
          obtain ⟨x, c', h1, h2, h3, h4⟩ := ih b (by omega) ⟨c.demuxer, r, c.info, c.user_private⟩ f2.inv
            (by change dat.length - (win r).length ≤ b; omega)
          refine ⟨x, c', by rw [readEvent_round (b + 1) hround]; exact h1, h2, Nat.le_trans hlen h3, ?_⟩
          cases h4 with
          | io a1 a2 a3 a4 => exact .io a1 a2 a3 (a4.trans hidx)
          | wait a1 a2 a3 a4 =>
            refine .wait ?_ a2 a3 (a4.trans hidx)
            cases hq : F.parse c.demuxer ((dat.take (len c.reader.inner)).drop c.reader.index) with
            | none => rfl
            | some v =>
              obtain ⟨u', hu'⟩ := take_prefix (dat := dat) (p := c.reader.index) hlen
              have := hF.stable _ _ u' _ hq
              rw [← hu', ← hidx] at this
              simp only [this] at a1
              cases a1
          | record a1 a2 a3 a4 =>
            exact .record (by rw [← hidx]; exact a1) a2 a3 (a4.trans (congrArg (· + _) hidx))

/-- The record a call returned, if it returned one. -/
def returned : Except Err Event → Option Event
  | .ok .Eof => none
  | .ok ev => some ev
  | .error _ => none

/-- `Eof` is not a record. -/
def NoEof (F : Format D) : Prop := ∀ d w k ev d', F.parse d w = some (k, ev, d') → ev ≠ .Eof

theorem returned_completed {streams : List Stream} {ev : Event} (h : ev ≠ .Eof) :
    returned (.ok (completed streams ev)) = some (completed streams ev) := by
  cases ev with
  | Eof => exact absurd rfl h
  | _ => rfl

theorem live_events (F : Format D) (hF : F.Framed) (he : NoEof F) (hg : Grows dev dat pos len)
    (hf : F.Fits ∨ dev.Healthy pos len) (fuel : Nat) (hfuel : dat.length < fuel) (n : Nat) :
    ∀ (c : Context D (LAcc R)), Inv dat pos len c.reader →
    ∃ xs c', readEvents (demuxer F) (buffered dev) fuel n c = .ok (xs, c') ∧ xs.length = n ∧
      xs.filterMap returned = F.events (xs.filterMap returned).length c.demuxer c.info.streams
        (dat.drop c.reader.index) ∧
      (∀ e, .error e ∈ xs → ∃ io r k, e = .Io io ∧ (dev.read r k).1 = .error io) := by
  obtain ⟨a, rfl⟩ : ∃ a, fuel = a + 1 := ⟨fuel - 1, by omega⟩
  induction n with
  | zero => intro c _; exact ⟨[], c, rfl, rfl, rfl, by simp⟩
  | succ n ih =>
    intro c hi
    obtain ⟨x, c1, h1, h2, h3, h4⟩ := live_event F hF hg hf a c hi (by omega)
    obtain ⟨xs, c', g1, g2, g3, g4⟩ := ih c1 h2
    refine ⟨x :: xs, c', ?_, by simp [g2], ?_, ?_⟩
    · simp only [readEvents, h1, ok_bind, g1, pure_eq_ok]
    · cases h4 with
      | io a1 a2 a3 a4 =>
        rw [a2, a3, a4] at g3
        rw [List.filterMap_cons_none rfl]
        exact g3
      | wait a1 a2 a3 a4 =>
        rw [a2, a3, a4] at g3
        rw [List.filterMap_cons_none rfl]
        exact g3
      | record a1 a2 a3 a4 =>
        rw [a2, a3, a4] at g3
        rw [List.filterMap_cons_some (returned_completed (he _ _ _ _ _ a1))]
        simp only [List.length_cons, Format.events, a1, List.drop_drop]
        rw [← g3]
    · intro e hx
      rcases List.mem_cons.1 hx with hx | hx
      · subst hx
        cases h4 with
        | io a1 => obtain ⟨r, k, hk⟩ := a1; exact ⟨_, r, k, rfl, hk⟩
      · exact g4 e hx

/-- Where a history led. -/
theorem reached (hg : Grows dev dat pos len) {s : R} (h0 : pos s = 0) {cap : Nat} (hcap : 0 < cap) {fuel : Nat}
    {ops : List Op} {os : List Out} {r : LAcc R} (hr : run dev fuel (withCapacity cap s) ops = .ok (os, r)) {p : Nat}
    (hp : Stands dev r p) : Inv dat pos len r ∧ r.index = p := by
  rcases run_spec hg fuel (withCapacity_inv (dat := dat) (len := len) cap s h0) (by simpa [withCapacity] using hcap) ops
    with ⟨h1, _⟩ | ⟨os', r', a1, a2, a3, a4, a5⟩
  · rw [hr] at h1; cases h1
  · rw [hr] at a1
    cases a1
    refine ⟨a2, ?_⟩
    have := a2.stands (dev := dev)
    unfold Stands at this hp
    rw [hp] at this
    cases this; rfl

/-- **C134, events.** However a stream grows while it is demuxed, `n` calls of `read_event` return the records of the whole
stream from the position on, each once and in order; in between they return `Eof` while no complete record is there and the
errors of the reader, both of which change nothing. -/
theorem c134_events (F : Format D) (hF : F.Framed) (he : NoEof F) (hg : Grows dev dat pos len)
    (hf : F.Fits ∨ dev.Healthy pos len) (s : R) (h0 : pos s = 0) (cap : Nat) (hcap : 0 < cap) (fuel : Nat)
    (ops : List Op) (os : List Out) (c : Context D (LAcc R))
    (hr : run dev fuel (withCapacity cap s) ops = .ok (os, c.reader)) (p : Nat) (hp : Stands dev c.reader p) (n : Nat) :
    ∃ xs c', readEvents (demuxer F) (buffered dev) (dat.length + 1) n c = .ok (xs, c') ∧ xs.length = n ∧
      xs.filterMap returned = F.events (xs.filterMap returned).length c.demuxer c.info.streams (dat.drop p) ∧
      (∀ e, .error e ∈ xs → ∃ io r k, e = .Io io ∧ (dev.read r k).1 = .error io) := by
  obtain ⟨hi, rfl⟩ := reached hg h0 hcap hr hp
  exact live_events F hF he hg hf _ (by omega) n c hi

/-- **C134, going on.** A call after any number of calls, whatever they returned: if the record is complete in the bytes that
are there by now, the call returns it, or the error of a failing read, after which the same holds again. -/
theorem c134_next (F : Format D) (hF : F.Framed) (hg : Grows dev dat pos len)
    (hf : F.Fits ∨ dev.Healthy pos len) (s : R) (h0 : pos s = 0) (cap : Nat) (hcap : 0 < cap) (fuel : Nat)
    (ops : List Op) (os : List Out) (c : Context D (LAcc R))
    (hr : run dev fuel (withCapacity cap s) ops = .ok (os, c.reader)) (m : Nat) (xs : List (Except Err Event))
    (c1 : Context D (LAcc R)) (hm : readEvents (demuxer F) (buffered dev) (dat.length + 1) m c = .ok (xs, c1)) (p k : Nat)
    (ev : Event) (d' : D) (hp : Stands dev c1.reader p)
    (hrec : F.parse c1.demuxer ((dat.take (len c1.reader.inner)).drop p) = some (k, ev, d')) :
    ∃ x c2, readEvent (demuxer F) (buffered dev) (dat.length + 1) c1 = .ok (x, c2) ∧
      (x = .ok (completed c1.info.streams ev) ∧ c2.demuxer = d' ∧ Stands dev c2.reader (p + k) ∧
          c2.info = { c1.info with streams := c1.info.streams ++ announced (.ok ev) } ∨
        (∃ io r n, x = .error (.Io io) ∧ (dev.read r n).1 = .error io) ∧ c2.demuxer = c1.demuxer ∧ c2.info = c1.info ∧
          Stands dev c2.reader p ∧
          F.parse c2.demuxer ((dat.take (len c2.reader.inner)).drop p) = some (k, ev, d')) := by
  have hi1 : Inv dat pos len c1.reader := by
    have hi : Inv dat pos len c.reader := by
      rcases run_spec hg fuel (withCapacity_inv (dat := dat) (len := len) cap s h0) (by simpa [withCapacity] using hcap) ops
        with ⟨h1, _⟩ | ⟨os', r', a1, a2, _⟩
      · rw [hr] at h1; cases h1
      · rw [hr] at a1
        cases a1
        exact a2
    clear hr hp hrec
    induction m generalizing c xs with
    | zero =>
      simp only [readEvents, Except.ok.injEq, Prod.mk.injEq] at hm
      rw [← hm.2]; exact hi
    | succ m ih =>
      obtain ⟨x, c', h1, h2, _⟩ := live_event F hF hg hf dat.length c hi (by omega)
      simp only [readEvents, h1, ok_bind] at hm
      cases hrest : readEvents (demuxer F) (buffered dev) (dat.length + 1) m c' with
      | error q => rw [hrest] at hm; cases hm
      | ok v =>
        obtain ⟨ys, c3⟩ := v
        rw [hrest] at hm
        simp only [ok_bind, pure_eq_ok, Except.ok.injEq, Prod.mk.injEq] at hm
        exact ih c' ys (by rw [hrest, hm.2]) h2
  have hpi : c1.reader.index = p := by
    have := hi1.stands (dev := dev)
    unfold Stands at this hp
    rw [hp] at this
    cases this; rfl
  subst hpi
  obtain ⟨x, c2, h1, h2, h3, h4⟩ := live_event F hF hg hf dat.length c1 hi1 (by omega)
  refine ⟨x, c2, h1, ?_⟩
  have hst := h2.stands (dev := dev)
  cases h4 with
  | io a1 a2 a3 a4 =>
    right
    obtain ⟨r, n, hrn⟩ := a1
    rw [a4] at hst
    refine ⟨⟨_, r, n, rfl, hrn⟩, a2, a3, hst, ?_⟩
    obtain ⟨u, hu⟩ := take_prefix (dat := dat) (p := c1.reader.index) h3
    rw [hu, a2]
    exact hF.stable _ _ _ _ hrec
  | wait a1 => rw [hrec] at a1; cases a1
  | record a1 a2 a3 a4 =>
    left
    obtain ⟨u, hu⟩ := final_prefix (dat := dat) (len c1.reader.inner) c1.reader.index
    have := hF.stable _ _ u _ hrec
    rw [← hu, a1] at this
    cases this
    rw [a4] at hst
    exact ⟨rfl, a2, hst, a3⟩

/-- The headers are complete in the bytes that are there by now. -/
abbrev Arrived (F : Format D) (dat : List U8) (len : R → Nat) (d : D) (i : GlobalInfo) (p : Nat) (r : R) : Prop :=
  (F.head d i ((dat.take (len r)).drop p)).isSome

/-- How many more rounds `read_headers` can take. -/
def left (F : Format D) (dat : List U8) (len : R → Nat) (d : D) (i : GlobalInfo) (p : Nat) (rank : R → Nat)
    (r : LAcc R) : Nat :=
  (if Arrived F dat len d i p r.inner then 0 else rank r.inner) + (dat.length - (win r).length) +
    if (win r).length < r.buf.length then 0 else 1

theorem left_le (F : Format D) (dat : List U8) (len : R → Nat) (d : D) (i : GlobalInfo) (p : Nat) (rank : R → Nat)
    (r : LAcc R) : left F dat len d i p rank r ≤ rank r.inner + dat.length + 1 := by
  unfold left
  split <;> split <;> omega

theorem live_headers (F : Format D) (hF : F.Framed) (hg : Grows dev dat pos len) (hf : F.Fits ∨ dev.Healthy pos len)
    (rank : R → Nat) :
    ∀ (a : Nat) (c : Context D (LAcc R)) (k : Nat) (d' : D) (i' : GlobalInfo), Inv dat pos len c.reader →
      F.head c.demuxer c.info (dat.drop c.reader.index) = some (k, d', i') →
      (∀ r n, ¬ Arrived F dat len c.demuxer c.info c.reader.index r → rank (dev.read r n).2 < rank r) →
      left F dat len c.demuxer c.info c.reader.index rank c.reader ≤ a →
      ∃ x c', readHeaders (demuxer F) (buffered dev) (a + 1) c = .ok (x, c') ∧ Inv dat pos len c'.reader ∧
        ((∃ e r n, x = .error (.Io e) ∧ (dev.read r n).1 = .error e ∧ c'.demuxer = c.demuxer ∧ c'.info = c.info ∧
            c'.reader.index = c.reader.index) ∨
          x = .ok () ∧ c'.demuxer = d' ∧ c'.info = i' ∧ c'.reader.index = c.reader.index + k) := by
  intro a
  induction a using Nat.strongRecOn with
  | ind a ih =>
    intro c k d' i' hi hh hrank ha
    obtain ⟨x, r, f1, f⟩ := fillBuf_spec hg hi
    have f1' : (buffered dev).fillBuf c.reader = .ok (x, r) := f1
    have hidx : r.index = c.reader.index := f.index
    cases x with
    | error e =>
      obtain ⟨_, _, n, hn⟩ := f.error e rfl
      exact ⟨_, _, readHeaders_last a (.readError f1'), f.inv, .inl ⟨e, _, n, rfl, hn, rfl, rfl, hidx⟩⟩
    | ok l =>
      obtain ⟨t1, t2, t3, t4⟩ := f.shown l rfl
      obtain ⟨u, hu⟩ := win_prefix f.inv
      rw [hidx] at hu
      have hcall := headers_call (F := F) (d := c.demuxer) (i := c.info) f.inv
      cases hp : F.head c.demuxer c.info (win r) with
      | some v =>
        have hv := hF.headStable _ _ _ u _ hp
        rw [← hu, hh] at hv
        cases hv
        rw [hp] at hcall
        obtain ⟨m, r', s1, s2, s3, s4, _⟩ := seek_ahead hg f.inv k (hf.imp (fun h => h.head _ _ _ _ _ _ hp) id)
        exact ⟨_, _, readHeaders_last a (.accepted f1' hcall s1), s2,
          .inr ⟨rfl, rfl, rfl, s3.trans (congrArg (· + k) hidx)⟩⟩
      | none =>
        rw [hp] at hcall
        have hn := hF.headNeed _ _ _ hp
        generalize F.headNeed c.demuxer c.info (win r) = n at hcall hn
        have hround : HRound (demuxer F) (buffered dev) c _ := .mk f1' hcall rfl
        have hle := win_le f.inv
        have hlw : (win c.reader).length ≤ (win r).length := by rw [← t1]; exact t2.length_le
        -- what is there stays there
        have hkeep : Arrived F dat len c.demuxer c.info c.reader.index c.reader.inner →
            Arrived F dat len c.demuxer c.info c.reader.index r.inner := by
          unfold Arrived
          intro h1
          obtain ⟨w, hw⟩ := take_prefix (dat := dat) (p := c.reader.index) f.grown
          obtain ⟨v, hq⟩ := Option.isSome_iff_exists.1 h1
          rw [hw, hF.headStable _ _ _ w _ hq]
          rfl
        -- if the headers are there, the window is shorter than what is there, so that it grew or was full
        have hgrew : Arrived F dat len c.demuxer c.info c.reader.index c.reader.inner →
            (win c.reader).length < c.reader.buf.length → (win c.reader).length < (win r).length := by
          intro harr hroom
          apply Decidable.byContradiction
          intro hng
          have hl : l = win c.reader := (t2.eq_of_length_le (by rw [t1]; omega)).symm
          have hend := t3 hl hroom
          obtain ⟨v, hv⟩ := there_prefix hi
          have hv0 : v = [] := by
            have h1 := congrArg List.length hv
            rw [List.length_drop, List.length_append, List.length_take] at h1
            exact List.eq_nil_of_length_eq_zero (by omega)
          unfold Arrived at harr
          rw [hv, hv0, List.append_nil, ← hl, t1, hp] at harr
          cases harr
        obtain ⟨g1, g2⟩ := grow_inv f.inv n
        have hroom' : (win (grow r n)).length < (grow r n).buf.length := by
          rw [g2, win_length f.inv]
          have := f.inv.eb
          simp only [grow, List.length_append, List.length_replicate]; omega
        have hlt : left F dat len c.demuxer c.info c.reader.index rank (grow r n) < a := by
          apply Nat.lt_of_lt_of_le _ ha
          have hwr : (win (grow r n)).length = (win r).length := by rw [g2]
          have hir : (grow r n).inner = r.inner := rfl
          have hwl := win_le hi
          unfold left
          rw [if_pos hroom', hwr, hir]
          by_cases harr : Arrived F dat len c.demuxer c.info c.reader.index c.reader.inner
          · rw [if_pos harr, if_pos (hkeep harr)]
            by_cases hroom : (win c.reader).length < c.reader.buf.length
            · have := hgrew harr hroom
              rw [if_pos hroom]; omega
            · rw [if_neg hroom]; omega
          · rw [if_neg harr]
            have hread : ∀ m, r.inner = (dev.read c.reader.inner m).2 → rank r.inner < rank c.reader.inner := by
              intro m hm
              rw [hm]; exact hrank _ m harr
            have hle2 : (if Arrived F dat len c.demuxer c.info c.reader.index r.inner then 0 else rank r.inner) ≤
                rank r.inner := by split <;> omega
            by_cases hroom : (win c.reader).length < c.reader.buf.length
            · obtain ⟨m, hm⟩ := t4 hroom
              have := hread m hm
              rw [if_pos hroom]; omega
            · rw [if_neg hroom]
              rcases f.inner with h1 | ⟨m, hm⟩
              · rw [h1] at hle2 ⊢; omega
              · have := hread m hm; omega
        obtain ⟨b, rfl⟩ : ∃ b, a = b + 1 := ⟨a - 1, by omega⟩
        have hgi : (grow r n).index = c.reader.index := hidx
        obtain ⟨x, c', h1, h2, h4⟩ := ih b (by omega) ⟨c.demuxer, grow r n, c.info, c.user_private⟩ k d' i' g1
          (by
            change F.head c.demuxer c.info (dat.drop r.index) = _
            rw [hidx]; exact hh)
          (by
            change ∀ r' n', ¬ Arrived F dat len c.demuxer c.info (grow r n).index r' → _
            rw [hgi]; exact hrank)
          (by
            change left F dat len c.demuxer c.info (grow r n).index rank (grow r n) ≤ b
            rw [hgi]; omega)
        refine ⟨x, c', by rw [readHeaders_round (b + 1) hround]; exact h1, h2, ?_⟩
        rcases h4 with ⟨e, j, m, a1, a2, a3, a4, a5⟩ | ⟨a1, a2, a3, a4⟩
        · exact .inl ⟨e, j, m, a1, a2, a3, a4, a5.trans hgi⟩
        · exact .inr ⟨a1, a2, a3, a4.trans (congrArg (· + k) hgi)⟩

/-- **C134, headers.** If a stream begins with the headers of the format, and they come after finitely many reads (`rank`
falls with every read before that), `read_headers` on a new context returns once they are there, with the streams of the
headers, standing behind them; or it returns the error of a read that failed, having accepted nothing. Until the headers
are there it keeps reading. -/
theorem c134_headers (F : Format D) (hF : F.Framed) (hg : Grows dev dat pos len) (hf : F.Fits ∨ dev.Healthy pos len)
    (s : R) (h0 : pos s = 0) (cap : Nat) (d d' : D) (k : Nat) (i' : GlobalInfo)
    (hh : F.head d ⟨none, none, []⟩ dat = some (k, d', i')) (rank : R → Nat)
    (hrank : ∀ r n, F.head d ⟨none, none, []⟩ (dat.take (len r)) = none → rank (dev.read r n).2 < rank r) :
    ∃ x c1, readHeaders (demuxer F) (buffered dev) (rank s + dat.length + 2) (Context.new d (withCapacity cap s)) =
        .ok (x, c1) ∧
      (x = .ok () ∧ c1.demuxer = d' ∧ c1.info = i' ∧ Stands dev c1.reader k ∨
        (∃ e r n, x = .error (.Io e) ∧ (dev.read r n).1 = .error e) ∧ c1.demuxer = d ∧ c1.info = ⟨none, none, []⟩ ∧
          Stands dev c1.reader 0) := by
  have hi : Inv dat pos len (Context.new d (withCapacity cap s)).reader := withCapacity_inv cap s h0
  obtain ⟨x, c1, h1, h2, h4⟩ := live_headers F hF hg hf rank (rank s + dat.length + 1)
    (Context.new d (withCapacity cap s)) k d' i' hi (by simpa [Context.new, withCapacity] using hh)
    (by
      intro r n hr
      apply hrank
      simpa [Arrived, Context.new, withCapacity] using hr)
    (left_le ..)
  have hix : (Context.new d (withCapacity cap s)).reader.index = 0 := rfl
  have hst := h2.stands (dev := dev)
  refine ⟨x, c1, h1, ?_⟩
  rcases h4 with ⟨e, r, n, a1, a2, a3, a4, a5⟩ | ⟨a1, a2, a3, a4⟩
  · rw [a5, hix] at hst
    exact .inr ⟨⟨e, r, n, a1, a2⟩, a3, a4, hst⟩
  · rw [a4, hix, Nat.zero_add] at hst
    exact .inl ⟨a1, a2, a3, hst⟩

/-! ### An example: the packets of `lengths`, one byte more with every call -/

theorem lengths_noEof : NoEof lengths := by
  intro d w k ev d' h
  cases w with
  | nil => cases h
  | cons a l =>
    simp only [lengths] at h
    split at h
    · cases h
    · cases h; simp

/-- The first of these packets; while the rest is missing, `Eof`. -/
example : ∃ c1, readHeaders (demuxer lengths) (buffered (feedDev [9, 2, 5, 6, 0, 3, 7] (fun _ => ⟨none, 0⟩) fun _ => 1)) 9
      (Context.new () (withCapacity 4 ⟨0, 1, 0⟩)) = .ok (.ok (), c1) ∧
    (match readEvents (demuxer lengths) (buffered (feedDev [9, 2, 5, 6, 0, 3, 7] (fun _ => ⟨none, 0⟩) fun _ => 1)) 8 4 c1 with
      | .ok (xs, _) => xs
      | .error _ => []) = [.ok (.NewPacket { Packet.new with data := [5, 6] }), .ok (.NewPacket { Packet.new with data := [] }),
        .ok .Eof, .ok .Eof] := ⟨_, rfl, by decide +kernel⟩

/-- The hypotheses of C134. -/
example : lengths.Framed ∧ lengths.Fits ∧ NoEof lengths ∧
    Grows (feedDev [9, 2, 5, 6, 0, 3, 7] (fun _ => ⟨none, 0⟩) fun _ => 1) [9, 2, 5, 6, 0, 3, 7] (·.pos)
      (fun f => min f.avail 7) :=
  ⟨lengths_framed, lengths_fits, lengths_noEof, feed_grows [9, 2, 5, 6, 0, 3, 7] _ _⟩

end Verif.Live
