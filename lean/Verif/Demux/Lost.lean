import Verif.Demux.Framing

/-!
# Property C166: a failing reader and the event on its way

`read_event` calls the demuxer first and moves the reader behind the record afterwards. If that fails, the error is returned
instead of the event.
-/

namespace Verif.Demux
open Verif Verif.Io Verif.Frame Verif.Stream Verif.Packet

variable {D : Type}

/-- The demuxer has recognised a record in fewer bytes than it takes; the reader failed on the way behind it. The demuxer is in the
state after the record, the streams are those before it, and the reader stands before it or behind it. -/
inductive Lost (F : Format D) (dat : List U8) (c c' : Context D Acc.Acc) : Except Err Event → Prop
  | mk {k ev d' e w} : F.parse c.demuxer (dat.drop c.reader.index) = some (k, ev, d') →
      F.parse c.demuxer w = some (k, ev, d') → w.length < k →
      (∃ j, (c.reader.inner.script j).fail = some e) → c'.demuxer = d' → c'.info = c.info →
      (c'.reader.index = c.reader.index ∨ c'.reader.index = c.reader.index + k) → Lost F dat c c' (.error (.Io e))

theorem seek_some {dat : List U8} {r : Acc.Acc} (hi : Acc.Inv dat r) (k : Nat) :
    ∃ x r', Acc.seek r (.current k) = .ok (x, r') ∧ Acc.Inv dat r' ∧ r'.inner.script = r.inner.script ∧
      ((∃ m, x = .ok m) ∧ r'.index = r.index + k ∨
        ∃ e j, x = .error e ∧ (r.inner.script j).fail = some e ∧ (Acc.win r).length < k ∧
          (r'.index = r.index ∨ r'.index = r.index + k)) := by
  by_cases hk : k ≤ (Acc.win r).length
  · obtain ⟨m, r', h1, h2, h3, h4, _⟩ := seek_ahead hi k (.inl hk)
    exact ⟨_, r', h1, h2, h4, .inl ⟨⟨m, rfl⟩, h3⟩⟩
  · obtain ⟨x, r', s1, s2⟩ := Acc.seek_spec hi (.current k)
    have ht : Acc.seekTarget r (.current k) = ((r.index + k : Nat) : Int) := by
      simp only [Acc.seekTarget, if_pos (Int.natCast_nonneg k)]; omega
    rw [ht] at s2
    refine ⟨x, r', s1, s2.inv, s2.script, ?_⟩
    cases x with
    | ok m =>
      obtain ⟨a1, a2⟩ := s2.ok m rfl
      exact .inl ⟨⟨m, rfl⟩, by omega⟩
    | error e =>
      obtain ⟨a1, a2⟩ := s2.error e rfl
      rcases a2 with ⟨j, hj⟩ | ⟨a2, _⟩
      · exact .inr ⟨e, j, rfl, hj, by omega, a1.imp And.left (fun h => by omega)⟩
      · omega

/-- One call of `read_event`, whatever the records and the reader. -/
theorem any_event (F : Format D) (hF : F.Framed) (dat : List U8) (script : Nat → Act) :
    ∀ (a : Nat) (c : Context D Acc.Acc), Acc.Inv dat c.reader → c.reader.inner.script = script →
      dat.length - (Acc.win c.reader).length ≤ a →
      ∃ x c', readEvent F.demuxer accBuffered (a + 1) c = .ok (x, c') ∧ Acc.Inv dat c'.reader ∧
        c'.reader.inner.script = script ∧ (Framed1 F dat c c' x ∨ Lost F dat c c' x) := by
  intro a
  induction a using Nat.strongRecOn with
  | ind a ih =>
    intro c hi hs ha
    have hcall := event_call (F := F) hi
    obtain ⟨u, hu⟩ := win_prefix hi
    cases hp : F.parse c.demuxer (Acc.win c.reader) with
    | some v =>
      obtain ⟨k, ev, d'⟩ := v
      rw [hp] at hcall
      have hall : F.parse c.demuxer (dat.drop c.reader.index) = some (k, ev, d') := by rw [hu]; exact hF.stable _ _ _ _ hp
      obtain ⟨x, r', s1, s2, s4, s5⟩ := seek_some hi k
      rcases s5 with ⟨⟨m, rfl⟩, s3⟩ | ⟨e, j, rfl, s3, s5, s6⟩
      · have hd := deliver c.info.streams ev (fun n => hF.answers _ _ _ _ _ n hp)
        have hans : Answers F.demuxer accBuffered c _ _ := .event hcall s1 hd
        refine ⟨_, _, readEvent_answers a hans, s2, s4.trans hs, .inl (.record (k := k) (d' := d') hall rfl ?_ s3)⟩
        rw [announced_completed]
      · have hans : Answers F.demuxer accBuffered c _ _ := .seekError hcall s1
        exact ⟨_, _, readEvent_answers a hans, s2, s4.trans hs, .inr (.mk hall hp s5 ⟨j, s3⟩ rfl rfl s6)⟩
    | none =>
      rw [hp] at hcall
      have hn := hF.need _ _ hp
      have hask : Asks F.demuxer accBuffered c _ _ := .error hcall
      have hd1 : accBuffered.data c.reader = .ok (Acc.win c.reader) := Acc.data_ok hi
      generalize F.need c.demuxer (Acc.win c.reader) = n at hask hn
      obtain ⟨z, r, f1, _⟩ := Acc.fillBuf_spec (Acc.grow_inv hi n).1
      obtain ⟨f2, g, e⟩ := fill_grown hi f1
      have hroom := e (by omega)
      have hd2 : accBuffered.data r = .ok (Acc.win r) := Acc.data_ok f2.inv
      have hidx : r.index = c.reader.index := f2.index
      have hscr : r.inner.script = script := f2.script.trans hs
      cases z with
      | error er =>
        refine ⟨_, _, readEvent_runsOut a (.readError hask hd1 hn f1), f2.inv, hscr, .inl ?_⟩
        exact .io ⟨_, (f2.error er rfl).2.1⟩ rfl rfl hidx
      | ok l =>
        obtain ⟨t1, t2, t3⟩ := f2.shown l rfl
        rw [g] at t2 t3
        by_cases hw : (Acc.win r).length ≤ (Acc.win c.reader).length
        · refine ⟨_, _, readEvent_runsOut a (.eof hask hd1 hn f1 hd2 hw), f2.inv, hscr, .inl ?_⟩
          refine .eof ?_ rfl rfl hidx
          have hlw : l = Acc.win c.reader := (t2.eq_of_length_le (by rw [t1]; exact hw)).symm
          have hend := t3 hlw hroom
          have hall : dat.drop c.reader.index = Acc.win c.reader := by
            have h1 := congrArg List.length hu
            rw [List.length_drop, List.length_append] at h1
            have h2 : (Acc.grow c.reader n).index = c.reader.index := rfl
            have : u = [] := List.eq_nil_of_length_eq_zero (by omega)
            rw [hu, this, List.append_nil]
          rw [hall]; exact hp
        · have hround : Round F.demuxer accBuffered c _ := .more hask hd1 hn f1 hd2 (by omega)
          have hle2 := win_le f2.inv
          obtain ⟨b, rfl⟩ : ∃ b, a = b + 1 := ⟨a - 1, by omega⟩
          obtain ⟨x, c', h1, h2, h3, h4⟩ := ih b (by omega) ⟨c.demuxer, r, c.info, c.user_private⟩ f2.inv hscr
            (by change dat.length - (Acc.win r).length ≤ b; omega)
          refine ⟨x, c', by rw [readEvent_round (b + 1) hround]; exact h1, h2, h3, ?_⟩
          have fails : ∀ {e : IoErr}, (∃ k, (r.inner.script k).fail = some e) → ∃ k, (c.reader.inner.script k).fail = some e := by
            rintro e ⟨k, hk⟩
            exact ⟨k, by rw [hs]; rw [← hscr]; exact hk⟩
          rcases h4 with h4 | h4
          · refine .inl ?_
            cases h4 with
            | io a1 a2 a3 a4 => exact .io (fails a1) a2 a3 (a4.trans hidx)
            | eof a1 a2 a3 a4 => exact .eof (by rw [← hidx]; exact a1) a2 a3 (a4.trans hidx)
            | record a1 a2 a3 a4 =>
              exact .record (by rw [← hidx]; exact a1) a2 a3 (a4.trans (congrArg (· + _) hidx))
          · refine .inr ?_
            cases h4 with
            | mk a1 a2 a3 a4 a5 a6 a7 =>
              exact .mk (by rw [← hidx]; exact a1) a2 a3 (fails a4) a5 a6 (by
                simp only [hidx] at a7
                exact a7)

/-- **C166, exactly what happens.** After any history of the `AccReader`, a call of `read_event` returns the record at the position, or
`Eof`, or reports a failure and has changed nothing, or reports a failure and has lost the record (`Lost`). -/
theorem c166_exact_partial (F : Format D) (hF : F.Framed) (dat : List U8) (cap : Nat) (script : Nat → Act)
    (ops : List Acc.Op) (os : List Acc.Out) (c : Context D Acc.Acc)
    (hr : Acc.Reachable dat cap script ops os c.reader) :
    ∃ x c', readEvent F.demuxer accBuffered (dat.length + 1) c = .ok (x, c') ∧
      (Framed1 F dat c c' x ∨ Lost F dat c c' x) := by
  obtain ⟨x, c', h1, _, _, h2⟩ := any_event F hF dat script dat.length c hr.inv.1 hr.inv.2.2.1 (by omega)
  exact ⟨x, c', h1, h2⟩

/-- **C166, what is true.** If records are never longer than the bytes they were recognised in, a failing call of `read_event` loses
nothing: the demuxer, the streams and the position are as before the call. -/
theorem c166_partial (F : Format D) (hF : F.Framed) (hfit : F.Fits) (dat : List U8) (cap : Nat) (script : Nat → Act)
    (ops : List Acc.Op) (os : List Acc.Out) (c c' : Context D Acc.Acc)
    (hr : Acc.Reachable dat cap script ops os c.reader) (p : Nat) (hp : Acc.StandsAt dat c.reader p) (e : Err)
    (h : readEvent F.demuxer accBuffered (dat.length + 1) c = .ok (.error e, c')) :
    c'.demuxer = c.demuxer ∧ c'.info = c.info ∧ Acc.StandsAt dat c'.reader p := by
  obtain ⟨x, c1, h1, hi, _, h2⟩ := framed_event F hF dat script (.inl hfit) dat.length c hr.inv.1 hr.inv.2.2.1 (by omega)
  rw [h] at h1
  cases h1
  cases h2 with
  | io a1 a2 a3 a4 =>
    refine ⟨a2, a3, ?_⟩
    have := hi.standsAt
    rwa [a4, index_of_standsAt hr.inv.1 hp] at this

/-! ### the record that is lost -/

/-- Records known by their first byte: 0 announces a stream, 3 bytes follow; `n` is a packet, `n` bytes follow. -/
def skipping : Format Unit where
  head _ i _ := some (0, (), i)
  headNeed _ _ _ := 1
  parse _ w := match w with
    | [] => none
    | n :: _ => if n = 0 then some (4, .NewStream (Stream.fromParams sampleParams ⟨1, 25⟩), ())
      else some (n.toNat + 1, .NewPacket { Packet.new with data := [n], stream_index := 0 }, ())
  need _ _ := 1

theorem skipping_framed : skipping.Framed where
  headStable _ _ _ _ _ h := h
  headNeed _ _ _ _ := by simp [skipping]
  stable d w u x h := by
    cases w with
    | nil => cases h
    | cons n l => exact h
  need d w h := by
    cases w with
    | nil => simp [skipping]
    | cons n l =>
      simp only [skipping] at h
      split at h <;> cases h
  answers d w k ev d' n h := by
    cases w with
    | nil => cases h
    | cons m l =>
      simp only [skipping] at h
      split at h <;> (cases h; simp)

def theStream : Stream := Stream.fromParams sampleParams ⟨1, 25⟩

def thePacket (t : Option Rational64) : Packet :=
  { Packet.new with data := [1], stream_index := 0, t := { Packet.new.t with timebase := t } }

/-- Call `i` fails and the others give one byte. -/
def onceAt (i : Nat) : Nat → Act := fun j => ⟨if j = i then some (.other 5) else none, 0⟩

/-- **C166 does not hold in general.** A stream is announced and a packet follows. If the third call of the reader fails, which is the
one behind the stream's record, `read_event` reports that, and further calls return the packet, but never the stream; and as the context
does not know it, the packet is without the stream's timebase. -/
theorem c166_fails : skipping.Framed ∧
    (∃ c, readEvents skipping.demuxer accBuffered 7 4 (Context.new () (Acc.withCapacity 1 ⟨[0, 9, 9, 9, 1, 9], 0, onceAt 90, 0⟩)) =
      .ok ([.ok (.NewStream theStream), .ok (.NewPacket (thePacket (some ⟨1, 25⟩))), .ok .Eof, .ok .Eof], c) ∧
      c.info.streams = [theStream]) ∧
    (∃ c, readEvents skipping.demuxer accBuffered 7 4 (Context.new () (Acc.withCapacity 1 ⟨[0, 9, 9, 9, 1, 9], 0, onceAt 2, 0⟩)) =
      .ok ([.error (.Io (.other 5)), .ok (.NewPacket (thePacket none)), .ok .Eof, .ok .Eof], c) ∧ c.info.streams = []) :=
  ⟨skipping_framed, ⟨_, rfl, rfl⟩, ⟨_, rfl, rfl⟩⟩

/-- The failing call is one of those `c166_exact_partial` allows; if the seek itself fails (the second call), nothing is lost here, as the
demuxer has no state. -/
example : (∃ x c', readEvent skipping.demuxer accBuffered 7
      (Context.new () (Acc.withCapacity 1 ⟨[0, 9, 9, 9, 1, 9], 0, onceAt 2, 0⟩)) = .ok (x, c') ∧
      Lost skipping [0, 9, 9, 9, 1, 9] (Context.new () (Acc.withCapacity 1 ⟨[0, 9, 9, 9, 1, 9], 0, onceAt 2, 0⟩)) c' x) ∧
    (∃ c, readEvents skipping.demuxer accBuffered 7 4 (Context.new () (Acc.withCapacity 1 ⟨[0, 9, 9, 9, 1, 9], 0, onceAt 1, 0⟩)) =
      .ok ([.error (.Io (.other 5)), .ok (.NewStream theStream), .ok (.NewPacket (thePacket (some ⟨1, 25⟩))), .ok .Eof], c)) :=
  ⟨⟨_, _, rfl, .mk (w := [0]) rfl rfl (by decide) ⟨2, rfl⟩ rfl rfl (.inr rfl)⟩, ⟨_, rfl⟩⟩

/-- The hypotheses of `c166_partial`, with a call that fails. -/
example : Acc.Reachable [2, 8, 9, 1] 1 (onceAt 1) [] [] (Acc.withCapacity 1 ⟨[2, 8, 9, 1], 0, onceAt 1, 0⟩) ∧
    (∃ c', readEvent lengths.demuxer accBuffered 5 (Context.new () (Acc.withCapacity 1 ⟨[2, 8, 9, 1], 0, onceAt 1, 0⟩)) =
      .ok (.error (.Io (.other 5)), c')) := by
  refine ⟨⟨⟨[2, 8, 9, 1], 0, onceAt 1, 0⟩, 0, rfl, rfl, rfl, rfl⟩, ?_⟩
  have h : (match readEvent lengths.demuxer accBuffered 5 (Context.new () (Acc.withCapacity 1 ⟨[2, 8, 9, 1], 0, onceAt 1, 0⟩)) with
      | .ok (.error (.Io (.other 5)), _) => true
      | _ => false) = true := by decide +kernel
  split at h
  · rename_i c' e
    exact ⟨c', e⟩
  · cases h

end Verif.Demux
