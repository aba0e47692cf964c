import Verif.Demux.Progress

/-!
# Property C90: what is demuxed depends on the bytes of the stream only

A format is given by two parsers of the bytes from some position on. The demuxer made of it looks at the
buffered bytes, answers with the first record if it is complete and asks for more otherwise.
-/

namespace Verif.Demux
open Verif Verif.Io Verif.Frame Verif.Stream Verif.Packet

variable {D : Type}

/-- The headers and the first record of some bytes, if they are complete, with the number of bytes they take;
and how much to ask for if they are not. -/
structure Format (D : Type) where
  head : D → GlobalInfo → List U8 → Option (Nat × D × GlobalInfo)
  headNeed : D → GlobalInfo → List U8 → Nat
  parse : D → List U8 → Option (Nat × Event × D)
  need : D → List U8 → Nat

/-- Records are recognised as soon as they are complete, and never change by what follows. -/
structure Format.Framed (F : Format D) : Prop where
  headStable : ∀ d i w u x, F.head d i w = some x → F.head d i (w ++ u) = some x
  headNeed : ∀ d i w, F.head d i w = none → 0 < F.headNeed d i w
  stable : ∀ d w u x, F.parse d w = some x → F.parse d (w ++ u) = some x
  need : ∀ d w, F.parse d w = none → w.length < F.need d w
  answers : ∀ d w k ev d' n, F.parse d w = some (k, ev, d') → ev ≠ .MoreDataNeeded n

/-- Records are never longer than the bytes they were recognised in. -/
structure Format.Fits (F : Format D) : Prop where
  head : ∀ d i w k d' i', F.head d i w = some (k, d', i') → k ≤ w.length
  parse : ∀ d w k ev d', F.parse d w = some (k, ev, d') → k ≤ w.length

/-- The demuxer of a format. -/
def Format.demuxer (F : Format D) : Demuxer D Acc.Acc :=
  windowDemuxer
    (fun d i w => match F.head d i w with
      | some (k, d', i') => (.ok (.current k), d', i')
      | none => (.error (.MoreDataNeeded (F.headNeed d i w)), d, i))
    (fun d w => match F.parse d w with
      | some (k, ev, d') => (.ok (.current k, ev), d')
      | none => (.error (.MoreDataNeeded (F.need d w)), d))

/-- A packet without timebase gets that of the first stream with its index. -/
def completed (streams : List Stream) : Event → Event
  | .NewPacket p => .NewPacket { p with t := { p.t with timebase :=
      p.t.timebase <|> (streams.find? (fun s => asIsize s.index = p.stream_index)).map (·.timebase) } }
  | ev => ev

/-- The events of `n` calls, from the bytes that are left: one for each record, then `Eof`. -/
def Format.events (F : Format D) : Nat → D → List Stream → List U8 → List Event
  | 0, _, _, _ => []
  | n + 1, d, streams, rest =>
    match F.parse d rest with
    | none => .Eof :: F.events n d streams rest
    | some (k, ev, d') =>
      completed streams ev :: F.events n d' (streams ++ announced (.ok ev)) (rest.drop k)

theorem delivered_completed {streams : List Stream} {ev ev' : Event} (h : Delivered streams ev ev') :
    ev' = completed streams ev := by
  cases h with
  | @packet p q h1 =>
    cases h1.unique (setTimebase_completed streams p)
    simp only [completed, setTimebase]
    cases ht : p.t.timebase with
    | some t => simp; rw [← ht]
    | none =>
      simp only [Option.isNone_none, if_true]
      have hb : (fun s : Stream => decide (asIsize s.index = p.stream_index)) = fun s => asIsize s.index == p.stream_index := by
        funext s
        by_cases h : asIsize s.index = p.stream_index <;> simp [h]
      rw [hb]
      cases streams.find? (fun s => asIsize s.index == p.stream_index) with
      | some st => rfl
      | none => simp [← ht]
  | stream => rfl
  | «continue» => rfl
  | eof => rfl

theorem deliver (streams : List Stream) (ev : Event) (h : ∀ n, ev ≠ .MoreDataNeeded n) :
    Delivered streams ev (completed streams ev) := by
  cases ev with
  | MoreDataNeeded n => exact absurd rfl (h n)
  | NewPacket p =>
    have := Delivered.packet (setTimebase_completed streams p)
    rw [← delivered_completed this]; exact this
  | NewStream s => exact .stream
  | Continue => exact .continue
  | Eof => exact .eof

theorem announced_completed (streams : List Stream) (ev : Event) :
    announced (.ok (completed streams ev)) = announced (.ok ev) := by
  cases ev <;> rfl

/-- What one call of `read_event` does for such a demuxer. -/
inductive Framed1 (F : Format D) (dat : List U8) (c c' : Context D Acc.Acc) : Except Err Event → Prop
  | io {e} : (∃ k, (c.reader.inner.script k).fail = some e) → c'.demuxer = c.demuxer → c'.info = c.info →
      c'.reader.index = c.reader.index → Framed1 F dat c c' (.error (.Io e))
  | eof : F.parse c.demuxer (dat.drop c.reader.index) = none → c'.demuxer = c.demuxer → c'.info = c.info →
      c'.reader.index = c.reader.index → Framed1 F dat c c' (.ok .Eof)
  | record {k ev d'} : F.parse c.demuxer (dat.drop c.reader.index) = some (k, ev, d') → c'.demuxer = d' →
      c'.info = { c.info with streams := c.info.streams ++ announced (.ok ev) } →
      c'.reader.index = c.reader.index + k → Framed1 F dat c c' (.ok (completed c.info.streams ev))

theorem win_prefix {dat : List U8} {r : Acc.Acc} (hi : Acc.Inv dat r) :
    ∃ u, dat.drop r.index = Acc.win r ++ u := by
  refine ⟨(dat.drop r.index).drop (r.end - r.pos), ?_⟩
  rw [hi.win, List.take_append_drop]

theorem seek_ahead {dat : List U8} {r : Acc.Acc} (hi : Acc.Inv dat r) (k : Nat)
    (hk : k ≤ (Acc.win r).length ∨ ∀ c, (r.inner.script c).fail = none) :
    ∃ m r', Acc.seek r (.current k) = .ok (.ok m, r') ∧ Acc.Inv dat r' ∧ r'.index = r.index + k ∧
      r'.inner.script = r.inner.script ∧ r'.buf.length = r.buf.length := by
  obtain ⟨x, r', s1, s2⟩ := Acc.seek_spec hi (.current k)
  have ht : Acc.seekTarget r (.current k) = ((r.index + k : Nat) : Int) := by
    simp only [Acc.seekTarget, if_pos (Int.natCast_nonneg k)]; omega
  rw [ht] at s2
  have hx : ∃ m, x = .ok m := by
    rcases hk with hk | hk
    · rw [Acc.win_length hi] at hk
      rw [Acc.seek] at s1
      simp only [usub_ok hi.pe, ok_bind] at s1
      rw [if_pos (by omega), if_pos (by omega)] at s1
      cases s1
      exact ⟨_, rfl⟩
    · exact ⟨_, s2.healthy hk (Int.natCast_nonneg _)⟩
  obtain ⟨m, rfl⟩ := hx
  obtain ⟨a1, a2⟩ := s2.ok m rfl
  exact ⟨m, r', s1, s2.inv, by omega, s2.script, s2.len⟩

theorem event_call {F : Format D} {dat : List U8} {c : Context D Acc.Acc} (hi : Acc.Inv dat c.reader) :
    F.demuxer.readEvent c.demuxer c.reader = .ok (match F.parse c.demuxer (Acc.win c.reader) with
      | some (k, ev, d') => (.ok (.current k, ev), d', c.reader)
      | none => (.error (.MoreDataNeeded (F.need c.demuxer (Acc.win c.reader))), c.demuxer, c.reader)) := by
  simp only [Format.demuxer, windowDemuxer, Acc.data_ok hi, ok_bind, pure_eq_ok]
  cases F.parse c.demuxer (Acc.win c.reader) <;> rfl

/-- One call of `read_event`. -/
theorem framed_event (F : Format D) (hF : F.Framed) (dat : List U8) (script : Nat → Act)
    (hf : F.Fits ∨ ∀ k, (script k).fail = none) :
    ∀ (a : Nat) (c : Context D Acc.Acc), Acc.Inv dat c.reader → c.reader.inner.script = script →
      dat.length - (Acc.win c.reader).length ≤ a →
      ∃ x c', readEvent F.demuxer accBuffered (a + 1) c = .ok (x, c') ∧ Acc.Inv dat c'.reader ∧
        c'.reader.inner.script = script ∧ Framed1 F dat c c' x := by
  intro a
  induction a using Nat.strongRecOn with
  | ind a ih =>
    intro c hi hs ha
    have hcall := event_call (F := F) hi
    obtain ⟨u, hu⟩ := win_prefix hi
    cases hp : F.parse c.demuxer (Acc.win c.reader) with
    | some v =>
      obtain ⟨k, ev, d'⟩ := v
      rw [hp] at hcall
      obtain ⟨m, r', s1, s2, s3, s4, _⟩ := seek_ahead hi k (hf.imp (fun h => h.parse _ _ _ _ _ hp) (fun h => hs ▸ h))
      have hd := deliver c.info.streams ev (fun n => hF.answers _ _ _ _ _ n hp)
      have hans : Answers F.demuxer accBuffered c _ _ := .event hcall s1 hd
      refine ⟨_, _, readEvent_answers a hans, s2, s4.trans hs, ?_⟩
      refine .record (k := k) (d' := d') ?_ rfl ?_ s3
      · rw [hu]; exact hF.stable _ _ _ _ hp
      · rw [announced_completed]
    | none =>
      rw [hp] at hcall
      have hn := hF.need _ _ hp
      have hask : Asks F.demuxer accBuffered c _ _ := .error hcall
      have hd1 : accBuffered.data c.reader = .ok (Acc.win c.reader) := Acc.data_ok hi
      generalize F.need c.demuxer (Acc.win c.reader) = n at hask hn
      obtain ⟨z, r, f1, _⟩ := Acc.fillBuf_spec (Acc.grow_inv hi n).1
      obtain ⟨f2, g, e⟩ := fill_grown hi f1
      have hroom := e (by omega)
      have hd2 : accBuffered.data r = .ok (Acc.win r) := Acc.data_ok f2.inv
      have hidx : r.index = c.reader.index := f2.index
      have hscr : r.inner.script = script := f2.script.trans hs
      cases z with
      | error er =>
        refine ⟨_, _, readEvent_runsOut a (.readError hask hd1 hn f1), f2.inv, hscr, ?_⟩
        exact .io ⟨_, (f2.error er rfl).2.1⟩ rfl rfl hidx
      | ok l =>
        obtain ⟨t1, t2, t3⟩ := f2.shown l rfl
        rw [g] at t2 t3
        by_cases hw : (Acc.win r).length ≤ (Acc.win c.reader).length
        · refine ⟨_, _, readEvent_runsOut a (.eof hask hd1 hn f1 hd2 hw), f2.inv, hscr, ?_⟩
          refine .eof ?_ rfl rfl hidx
          have hlw : l = Acc.win c.reader := (t2.eq_of_length_le (by rw [t1]; exact hw)).symm
          have hend := t3 hlw hroom
          have hall : dat.drop c.reader.index = Acc.win c.reader := by
            have h1 := congrArg List.length hu
            rw [List.length_drop, List.length_append] at h1
            have h2 : (Acc.grow c.reader n).index = c.reader.index := rfl
            have : u = [] := List.eq_nil_of_length_eq_zero (by omega)
            rw [hu, this, List.append_nil]
          rw [hall]; exact hp
        · have hround : Round F.demuxer accBuffered c _ := .more hask hd1 hn f1 hd2 (by omega)
          have hle2 := win_le f2.inv
          obtain ⟨b, rfl⟩ : ∃ b, a = b + 1 := ⟨a - 1, by omega⟩
          obtain ⟨x, c', h1, h2, h3, h4⟩ := ih b (by omega) ⟨c.demuxer, r, c.info, c.user_private⟩ f2.inv hscr
            (by change dat.length - (Acc.win r).length ≤ b; omega)
          refine ⟨x, c', by rw [readEvent_round (b + 1) hround]; exact h1, h2, h3, ?_⟩
          cases h4 with
          | io a1 a2 a3 a4 =>
            refine .io ?_ a2 a3 (a4.trans hidx)
            obtain ⟨k, hk⟩ := a1
            exact ⟨k, by rw [hs]; rw [← hscr]; exact hk⟩
          | eof a1 a2 a3 a4 => exact .eof (by rw [← hidx]; exact a1) a2 a3 (a4.trans hidx)
          | record a1 a2 a3 a4 =>
            exact .record (by rw [← hidx]; exact a1) a2 a3 (a4.trans (congrArg (· + _) hidx))

theorem framed_events (F : Format D) (hF : F.Framed) (dat : List U8) (script : Nat → Act)
    (hf : F.Fits ∨ ∀ k, (script k).fail = none) (fuel : Nat) (hfuel : dat.length < fuel) (n : Nat) :
    ∀ (c : Context D Acc.Acc), Acc.Inv dat c.reader → c.reader.inner.script = script →
    ∃ xs c', readEvents F.demuxer accBuffered fuel n c = .ok (xs, c') ∧ xs.length = n ∧
      xs.filterMap Except.toOption = F.events (xs.filterMap Except.toOption).length c.demuxer c.info.streams
        (dat.drop c.reader.index) ∧
      (∀ e, .error e ∈ xs → ∃ io k, e = .Io io ∧ (script k).fail = some io) := by
  obtain ⟨a, rfl⟩ : ∃ a, fuel = a + 1 := ⟨fuel - 1, by omega⟩
  induction n with
  | zero => intro c _ _; exact ⟨[], c, rfl, rfl, rfl, by simp⟩
  | succ n ih =>
    intro c hi hs
    obtain ⟨x, c1, h1, h2, h3, h4⟩ := framed_event F hF dat script hf a c hi hs (by omega)
    obtain ⟨xs, c', g1, g2, g3, g4⟩ := ih c1 h2 h3
    refine ⟨x :: xs, c', ?_, by simp [g2], ?_, ?_⟩
    · simp only [readEvents, h1, ok_bind, g1, pure_eq_ok]
    · cases h4 with
      | io a1 a2 a3 a4 =>
        rw [a2, a3, a4] at g3
        rw [List.filterMap_cons_none rfl]
        exact g3
      | eof a1 a2 a3 a4 =>
        rw [a2, a3, a4] at g3
        simp only [List.filterMap_cons, Except.toOption, List.length_cons, Format.events, a1]
        rw [← g3]
      | record a1 a2 a3 a4 =>
        rw [a2, a3, a4] at g3
        simp only [List.filterMap_cons, Except.toOption, List.length_cons, Format.events, a1, List.drop_drop]
        rw [← g3]
    · intro e he
      rcases List.mem_cons.1 he with he | he
      · subst he
        cases h4 with
        | io a1 => obtain ⟨k, hk⟩ := a1; exact ⟨_, k, rfl, hs ▸ hk⟩
      · exact g4 e he

theorem index_of_standsAt {dat : List U8} {r : Acc.Acc} (hi : Acc.Inv dat r) {p : Nat} (hp : Acc.StandsAt dat r p) :
    r.index = p := by
  have := hp.1
  rw [hi.position] at this
  cases this; rfl

/-- C90, events. For a format whose records are recognised as soon as they are complete, `n` calls of `read_event`
over a stream read through an `AccReader` of any capacity, after any history, by a reader that delivers any few
bytes at a time and fails any number of times, return the records that follow in the stream, each once and in
order, then `Eof`; failures come in between and change nothing. (Skipping more than is buffered is allowed if the
reader never fails.) -/
theorem c90_events (F : Format D) (hF : F.Framed) (dat : List U8) (cap : Nat) (script : Nat → Act)
    (hf : F.Fits ∨ ∀ k, (script k).fail = none) (ops : List Acc.Op) (os : List Acc.Out)
    (c : Context D Acc.Acc) (hr : Acc.Reachable dat cap script ops os c.reader) (p : Nat)
    (hp : Acc.StandsAt dat c.reader p) (n : Nat) :
    ∃ xs c', readEvents F.demuxer accBuffered (dat.length + 1) n c = .ok (xs, c') ∧ xs.length = n ∧
      xs.filterMap Except.toOption =
        F.events (xs.filterMap Except.toOption).length c.demuxer c.info.streams (dat.drop p) ∧
      (∀ e, .error e ∈ xs → ∃ io k, e = .Io io ∧ (script k).fail = some io) := by
  have hi := hr.inv.1
  rw [← index_of_standsAt hi hp]
  exact framed_events F hF dat script hf _ (by omega) n c hi hr.inv.2.2.1

theorem filterMap_all_ok {xs : List (Except Err Event)} (h : ∀ e, .error e ∉ xs) :
    xs = (xs.filterMap Except.toOption).map .ok := by
  induction xs with
  | nil => rfl
  | cons x xs ih =>
    cases x with
    | error e => exact absurd (List.mem_cons_self ..) (h e)
    | ok ev =>
      exact congrArg (Except.ok ev :: ·) (ih (fun e he => h e (List.mem_cons_of_mem _ he)))

/-- One call of `read_headers`. -/
theorem framed_headers (F : Format D) (hF : F.Framed) (dat : List U8) (script : Nat → Act)
    (hf : F.Fits ∨ ∀ k, (script k).fail = none) :
    ∀ (a : Nat) (c : Context D Acc.Acc) (k : Nat) (d' : D) (i' : GlobalInfo), Acc.Inv dat c.reader →
      c.reader.inner.script = script → F.head c.demuxer c.info (dat.drop c.reader.index) = some (k, d', i') →
      (dat.length - (Acc.win c.reader).length +
        if (Acc.win c.reader).length < c.reader.buf.length then 0 else 1) ≤ a →
      ∃ x c', readHeaders F.demuxer accBuffered (a + 1) c = .ok (x, c') ∧ Acc.Inv dat c'.reader ∧
        c'.reader.inner.script = script ∧
        ((∃ e k, x = .error (.Io e) ∧ (script k).fail = some e ∧ c'.demuxer = c.demuxer ∧ c'.info = c.info ∧
            c'.reader.index = c.reader.index) ∨
          x = .ok () ∧ c'.demuxer = d' ∧ c'.info = i' ∧ c'.reader.index = c.reader.index + k) := by
  intro a
  induction a using Nat.strongRecOn with
  | ind a ih =>
    intro c k d' i' hi hs hh ha
    obtain ⟨x, r, f1, f⟩ := Acc.fillBuf_spec hi
    have f1' : accBuffered.fillBuf c.reader = .ok (x, r) := f1
    have hidx : r.index = c.reader.index := f.index
    have hscr : r.inner.script = script := f.script.trans hs
    cases x with
    | error e =>
      refine ⟨_, _, readHeaders_last a (.readError f1'), f.inv, hscr, .inl ⟨e, c.reader.inner.clock, rfl, ?_, rfl, rfl, hidx⟩⟩
      · rw [← hs]; exact (f.error e rfl).2.1
    | ok l =>
      obtain ⟨t1, t2, t3⟩ := f.shown l rfl
      obtain ⟨u, hu⟩ := win_prefix f.inv
      rw [hidx] at hu
      have hcall : F.demuxer.readHeaders c.demuxer r c.info = .ok (match F.head c.demuxer c.info (Acc.win r) with
          | some (k, d', i') => (.ok (.current k), d', r, i')
          | none => (.error (.MoreDataNeeded (F.headNeed c.demuxer c.info (Acc.win r))), c.demuxer, r, c.info)) := by
        simp only [Format.demuxer, windowDemuxer, Acc.data_ok f.inv, ok_bind, pure_eq_ok]
        cases F.head c.demuxer c.info (Acc.win r) <;> rfl
      cases hp : F.head c.demuxer c.info (Acc.win r) with
      | some v =>
        have hv := hF.headStable _ _ _ u _ hp
        rw [← hu, hh] at hv
        cases hv
        rw [hp] at hcall
        obtain ⟨m, r', s1, s2, s3, s4, _⟩ := seek_ahead f.inv k
          (hf.imp (fun h => h.head _ _ _ _ _ _ hp) (fun h => hscr ▸ h))
        exact ⟨_, _, readHeaders_last a (.accepted f1' hcall s1), s2, s4.trans hscr,
          .inr ⟨rfl, rfl, rfl, s3.trans (congrArg (· + k) hidx)⟩⟩
      | none =>
        rw [hp] at hcall
        have hn := hF.headNeed _ _ _ hp
        generalize F.headNeed c.demuxer c.info (Acc.win r) = n at hcall hn
        have hround : HRound F.demuxer accBuffered c _ := .mk f1' hcall rfl
        have hle := win_le f.inv
        have hlw : (Acc.win c.reader).length ≤ (Acc.win r).length := by rw [← t1]; exact t2.length_le
        -- the window is shorter than what is left, so that it grew or was full
        have hu0 : u ≠ [] := by
          rintro rfl
          rw [List.append_nil] at hu
          rw [hu, hp] at hh
          cases hh
        have hmore : (Acc.win r).length + c.reader.index < dat.length := by
          have h1 := congrArg List.length hu
          rw [List.length_drop, List.length_append] at h1
          have := List.length_pos_iff.2 hu0
          omega
        have hgrew : (Acc.win c.reader).length < c.reader.buf.length →
            (Acc.win c.reader).length < (Acc.win r).length := by
          intro hroom
          apply Decidable.byContradiction
          intro hng
          have hl : l = Acc.win c.reader := (t2.eq_of_length_le (by rw [t1]; omega)).symm
          have := t3 hl hroom
          omega
        obtain ⟨g1, g2⟩ := Acc.grow_inv f.inv n
        have hroom' : (Acc.win (Acc.grow r n)).length < (Acc.grow r n).buf.length := by
          rw [g2, Acc.win_length f.inv]
          have := f.inv.eb
          simp only [Acc.grow, List.length_append, List.length_replicate]; omega
        have hlen : (Acc.win (Acc.grow r n)).length = (Acc.win r).length := by rw [g2]
        have hlt : dat.length - (Acc.win (Acc.grow r n)).length < a := by
          by_cases hroom : (Acc.win c.reader).length < c.reader.buf.length
          · have := hgrew hroom
            rw [if_pos hroom] at ha
            omega
          · rw [if_neg hroom] at ha
            omega
        obtain ⟨b, rfl⟩ : ∃ b, a = b + 1 := ⟨a - 1, by omega⟩
        obtain ⟨x, c', h1, h2, h3, h4⟩ := ih b (by omega) ⟨c.demuxer, Acc.grow r n, c.info, c.user_private⟩ k d' i' g1
          hscr (by
            change F.head c.demuxer c.info (dat.drop r.index) = _
            rw [hidx]; exact hh) (by
            change (dat.length - (Acc.win (Acc.grow r n)).length +
              if (Acc.win (Acc.grow r n)).length < (Acc.grow r n).buf.length then 0 else 1) ≤ b
            rw [if_pos hroom']
            omega)
        refine ⟨x, c', by rw [readHeaders_round (b + 1) hround]; exact h1, h2, h3, ?_⟩
        have hgi : (Acc.grow r n).index = c.reader.index := hidx
        rcases h4 with ⟨e, j, a1, a2, a3, a4, a5⟩ | ⟨a1, a2, a3, a4⟩
        · exact .inl ⟨e, j, a1, a2, a3, a4, a5.trans hgi⟩
        · exact .inr ⟨a1, a2, a3, a4.trans (congrArg (· + k) hgi)⟩

/-- C90, whole files. If a file begins with the headers of the format, demuxing it from the beginning, with an
`AccReader` of any capacity over a reader that delivers any few bytes at a time, gives the streams of the headers
and the records of the file, then `Eof`. -/
theorem c90_file (F : Format D) (hF : F.Framed) (dat : List U8) (cap : Nat) (s : Source) (h0 : s.pos = 0)
    (hd : s.data = dat) (hs : ∀ k, (s.script k).fail = none) (d d' : D) (k : Nat) (i' : GlobalInfo)
    (hh : F.head d ⟨none, none, []⟩ dat = some (k, d', i')) (n : Nat) :
    ∃ c1 c2, readHeaders F.demuxer accBuffered (dat.length + 2) (Context.new d (Acc.withCapacity cap s)) =
        .ok (.ok (), c1) ∧ c1.info = i' ∧
      readEvents F.demuxer accBuffered (dat.length + 1) n c1 =
        .ok ((F.events n d' i'.streams (dat.drop k)).map .ok, c2) := by
  subst hd
  have hi : Acc.Inv s.data (Context.new d (Acc.withCapacity cap s)).reader := Acc.withCapacity_inv cap s h0
  obtain ⟨x, c1, h1, h2, h3, h4⟩ := framed_headers F hF s.data s.script (.inr hs) (s.data.length + 1)
    (Context.new d (Acc.withCapacity cap s)) k d' i' hi rfl (by simpa [Context.new, Acc.withCapacity] using hh)
    (by split <;> omega)
  rcases h4 with ⟨e, j, _, a2, _⟩ | ⟨rfl, a2, a3, a4⟩
  · rw [hs] at a2; cases a2
  · have hix : (Context.new d (Acc.withCapacity cap s)).reader.index = 0 := rfl
    obtain ⟨xs, c2, g1, g2, g3, g4⟩ := framed_events F hF s.data s.script (.inr hs) (s.data.length + 1) (by omega) n c1 h2 h3
    have hok : ∀ e, .error e ∉ xs := by
      intro e he
      obtain ⟨_, j, _, hj⟩ := g4 e he
      rw [hs] at hj; cases hj
    have hx := filterMap_all_ok hok
    refine ⟨c1, c2, h1, a3, ?_⟩
    rw [g1, hx, g3, a2, a3, a4, hix]
    have hl : (xs.filterMap Except.toOption).length = n := by
      rw [← g2]; conv => rhs; rw [hx]
      rw [List.length_map]
    rw [hl, Nat.zero_add]

/-! ### An example: a byte to begin with, then packets behind their lengths -/

/-- The format. -/
def lengths : Format Unit where
  head _ i w := match w with
    | [] => none
    | _ :: _ => some (1, (), i)
  headNeed _ _ _ := 1
  parse _ w := match w with
    | [] => none
    | n :: l => if l.length < n.toNat then none
      else some (n.toNat + 1, .NewPacket { Packet.new with data := l.take n.toNat }, ())
  need _ w := w.length + 256

theorem lengths_framed : lengths.Framed where
  headStable _ i w u x h := by
    cases w with
    | nil => cases h
    | cons a w => exact h
  headNeed _ _ _ _ := by simp [lengths]
  stable _ w u x h := by
    cases w with
    | nil => cases h
    | cons n l =>
      simp only [lengths, List.cons_append] at h ⊢
      by_cases hc : l.length < n.toNat
      · rw [if_pos hc] at h; cases h
      · rw [if_neg hc] at h
        rw [if_neg (by rw [List.length_append]; omega), List.take_append_of_le_length (by omega)]
        exact h
  need _ w _ := by simp only [lengths]; omega
  answers _ w k ev d' n h := by
    cases w with
    | nil => cases h
    | cons a l =>
      simp only [lengths] at h
      split at h
      · cases h
      · cases h; simp

theorem lengths_fits : lengths.Fits where
  head _ i w k d' i' h := by
    cases w with
    | nil => cases h
    | cons a w => cases h; simp
  parse _ w k ev d' h := by
    cases w with
    | nil => cases h
    | cons a l =>
      simp only [lengths] at h
      split at h
      · cases h
      · cases h; simp only [List.length_cons]; omega

/-- Two packets and half of a third, from a reader that gives one or two bytes at a time, through a buffer of one byte. -/
example : ∃ c1 c2, readHeaders lengths.demuxer accBuffered 9
      (Context.new () (Acc.withCapacity 1 ⟨[9, 2, 5, 6, 0, 3, 7], 0, fun k => ⟨none, k % 2⟩, 0⟩)) = .ok (.ok (), c1) ∧
    readEvents lengths.demuxer accBuffered 8 3 c1 = .ok ([.ok (.NewPacket { Packet.new with data := [5, 6] }),
      .ok (.NewPacket { Packet.new with data := [] }), .ok .Eof], c2) := by
  obtain ⟨c1, c2, h1, _, h3⟩ := c90_file lengths lengths_framed [9, 2, 5, 6, 0, 3, 7] 1
    ⟨[9, 2, 5, 6, 0, 3, 7], 0, fun k => ⟨none, k % 2⟩, 0⟩ rfl rfl (fun _ => rfl) () () 1 ⟨none, none, []⟩ rfl 3
  exact ⟨c1, c2, h1, h3⟩

/-- The same from behind the first packet on, where `c90_events` starts. -/
example (c : Context Unit Acc.Acc) (hr : ∃ os, Acc.Reachable [9, 2, 5, 6, 0, 3, 7] 4 (fun k => ⟨if k = 3 then some (.other 1) else none, k⟩)
      [.seek (.start 4)] os c.reader) (hp : Acc.StandsAt [9, 2, 5, 6, 0, 3, 7] c.reader 4) :
    ∃ xs c', readEvents lengths.demuxer accBuffered 8 3 c = .ok (xs, c') ∧ xs.length = 3 ∧
      xs.filterMap Except.toOption = lengths.events (xs.filterMap Except.toOption).length c.demuxer c.info.streams [0, 3, 7] := by
  obtain ⟨os, hr⟩ := hr
  obtain ⟨xs, c', h1, h2, h3, _⟩ := c90_events lengths lengths_framed _ _ _ (.inl lengths_fits) _ _ c hr 4 hp 3
  exact ⟨xs, c', h1, h2, h3⟩

example : ∃ os r, Acc.Reachable [9, 2, 5, 6, 0, 3, 7] 4 (fun k => ⟨if k = 3 then some (.other 1) else none, k⟩)
    [.seek (.start 4)] os r ∧ Acc.StandsAt [9, 2, 5, 6, 0, 3, 7] r 4 := by
  have h : ∃ os r, Acc.Reachable [9, 2, 5, 6, 0, 3, 7] 4 (fun k => ⟨if k = 3 then some (.other 1) else none, k⟩)
      [.seek (.start 4)] os r ∧ r.index = 4 :=
    ⟨_, _, ⟨⟨[9, 2, 5, 6, 0, 3, 7], 0, fun k => ⟨if k = 3 then some (.other 1) else none, k⟩, 0⟩, 9, rfl, rfl, rfl, rfl⟩, rfl⟩
  obtain ⟨os, r, h1, h2⟩ := h
  exact ⟨os, r, h1, h2 ▸ h1.inv.1.standsAt⟩

end Verif.Demux
