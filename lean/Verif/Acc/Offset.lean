import Verif.Acc.Props

/-!
# C67, C86, C87: the inner reader and the capacity
-/

namespace Verif.Acc
open Verif Verif.Io

/-- The source, forgetting its first `k` bytes. -/
def shiftS (k : Nat) (s : Source) : Source := { s with data := s.data.drop k, pos := s.pos - k }

/-- The `AccReader`, forgetting the first `k` bytes of its inner reader. -/
def shift (k : Nat) (r : Acc) : Acc := { r with inner := shiftS k r.inner }

/-- The inner reader has left its first `k` bytes behind. -/
def Past (k : Nat) (D : List U8) (r : Acc) : Prop := k ≤ r.inner.pos ∧ r.inner.data = D

/-- The call `a` does on the shifted reader what `b` does on the reader itself. -/
def Sim (k : Nat) (D : List U8) (a b : Rust (X × Acc)) : Prop :=
  a = b.map (fun x => (x.1, shift k x.2)) ∧ ∀ x r', b = .ok (x, r') → Past k D r'

theorem Sim.err {k : Nat} {D : List U8} (e : Panic) : Sim k D (.error e : Rust (X × Acc)) (.error e) :=
  ⟨rfl, fun _ _ h => nomatch h⟩

theorem Sim.ok {k : Nat} {D : List U8} {x : X} {r : Acc} (h : Past k D r) : Sim k D (.ok (x, shift k r)) (.ok (x, r)) :=
  ⟨rfl, fun _ _ h' => by cases h'; exact h⟩

theorem Sim.bind {k : Nat} {D : List U8} {a b : Rust (X × Acc)} {f g : X × Acc → Rust (Y × Acc)} (h : Sim k D a b)
    (hf : ∀ x r, Past k D r → Sim k D (f (x, shift k r)) (g (x, r))) : Sim k D (a >>= f) (b >>= g) := by
  obtain ⟨h1, h2⟩ := h
  cases b with
  | error e => subst h1; exact Sim.err e
  | ok y =>
    obtain ⟨x, r⟩ := y
    subst h1
    exact hf x r (h2 _ _ rfl)

theorem Sim.pure_bind {k : Nat} {D : List U8} {m : Rust Z} {f g : Z → Rust (Y × Acc)} (hf : ∀ z, m = .ok z → Sim k D (f z) (g z)) :
    Sim k D (m >>= f) (m >>= g) := by
  cases m with
  | error e => exact Sim.err e
  | ok y => exact hf y rfl

theorem source_shift {k : Nat} {D : List U8} {s : Source} (h : k ≤ s.pos ∧ s.data = D) (n : Nat) :
    (shiftS k s).read n = ((s.read n).1, shiftS k (s.read n).2) ∧
      (k ≤ (s.read n).2.pos ∧ (s.read n).2.data = D) := by
  obtain ⟨h, hD⟩ := h
  unfold Source.read shiftS
  simp only
  cases (s.script s.clock).fail with
  | some e => exact ⟨rfl, h, hD⟩
  | none =>
    simp only [List.drop_drop]
    rw [show k + (s.pos - k) = s.pos by omega]
    refine ⟨?_, by omega, hD⟩
    congr 2
    omega

/-- Forgetting the type of the result, to use `Sim` for calls that return nothing. -/
theorem reset_shift {k : Nat} {D : List U8} {r : Acc} (h : Past k D r) :
    Sim k D ((resetBufferPosition (shift k r)).map (fun r => ((), r))) ((resetBufferPosition r).map (fun r => ((), r))) := by
  unfold resetBufferPosition
  show Sim k D (Except.map _ (do
      let w ← usub r.end r.pos
      let buf ← (if w > 0 then copyWithin0 r.buf r.pos r.end else .ok r.buf)
      pure { shift k r with buf, «end» := w, pos := 0 })) _
  cases usub r.end r.pos with
  | error e => exact Sim.err e
  | ok w =>
    simp only [ok_bind]
    cases (if w > 0 then copyWithin0 r.buf r.pos r.end else .ok r.buf) with
    | error e => exact Sim.err e
    | ok b => exact Sim.ok (k := k) (r := { r with buf := b, «end» := w, pos := 0 }) h

theorem reset_cases {k : Nat} {D : List U8} {r : Acc} (h : Past k D r) :
    (∃ e, resetBufferPosition r = .error e ∧ resetBufferPosition (shift k r) = .error e) ∨
    (∃ r1, resetBufferPosition r = .ok r1 ∧ resetBufferPosition (shift k r) = .ok (shift k r1) ∧ Past k D r1) := by
  obtain ⟨h1, h2⟩ := reset_shift h
  cases hb : resetBufferPosition r with
  | error e =>
    rw [hb] at h1
    cases ha : resetBufferPosition (shift k r) with
    | error e' => rw [ha] at h1; cases h1; exact .inl ⟨e, rfl, rfl⟩
    | ok r' => rw [ha] at h1; cases h1
  | ok r1 =>
    rw [hb] at h1
    have := h2 () r1 (by rw [hb]; rfl)
    cases ha : resetBufferPosition (shift k r) with
    | error e' => rw [ha] at h1; cases h1
    | ok r' =>
      rw [ha] at h1
      have h3 : r' = shift k r1 := by
        simp only [Except.map, Except.ok.injEq, Prod.mk.injEq, true_and] at h1
        exact h1
      subst h3
      exact .inr ⟨r1, rfl, rfl, this⟩

theorem fillBuf_shift {k : Nat} {D : List U8} {r : Acc} (h : Past k D r) : Sim k D (fillBuf (shift k r)) (fillBuf r) := by
  unfold fillBuf
  rw [show (shift k r).pos = r.pos from rfl, show (shift k r).end = r.end from rfl,
    show (shift k r).buf = r.buf from rfl]
  by_cases hc : r.pos ≠ 0 ∨ r.end ≠ r.buf.length
  · rw [if_pos hc, if_pos hc]
    rcases reset_cases h with ⟨e, h1, h2⟩ | ⟨r1, h1, h2, h3⟩
    · rw [h1, h2]; exact Sim.err e
    · rw [h1, h2]
      simp only [ok_bind]
      refine Sim.pure_bind fun room _ => ?_
      obtain ⟨s1, s2⟩ := source_shift (k := k) h3 room.length
      rw [show (shift k r1).inner = shiftS k r1.inner from rfl, s1]
      generalize r1.inner.read room.length = y at s2
      obtain ⟨x, s'⟩ := y
      cases x with
      | error e => exact Sim.ok (r := { r1 with inner := s' }) s2
      | ok l => exact Sim.pure_bind fun w _ => Sim.ok (r := { r1 with
          inner := s'
          buf := r1.buf.take r1.end ++ l ++ r1.buf.drop (r1.end + l.length)
          «end» := r1.end + l.length }) s2
  · rw [if_neg hc, if_neg hc]
    exact Sim.pure_bind (m := data r) fun w _ => Sim.ok h

theorem read_shift {k : Nat} {D : List U8} {r : Acc} (h : Past k D r) (n : Nat) : Sim k D (read (shift k r) n) (read r n) := by
  unfold read
  refine Sim.pure_bind (m := usub r.end r.pos) fun w _ => ?_
  by_cases h1 : n < w
  · rw [if_pos h1, if_pos h1]
    exact Sim.pure_bind (m := sliceRange r.buf r.pos (r.pos + n)) fun l _ => Sim.ok (r := consume r l.length) h
  · rw [if_neg h1, if_neg h1]
    rw [show (shift k r).buf = r.buf from rfl]
    by_cases h2 : n > r.buf.length
    · rw [if_pos h2, if_pos h2]
      refine Sim.pure_bind (m := sliceRange r.buf r.pos r.end) fun l _ => ?_
      refine Sim.pure_bind fun room _ => ?_
      obtain ⟨s1, s2⟩ := source_shift (k := k) h room
      rw [show (shift k r).inner = shiftS k r.inner from rfl, s1]
      generalize r.inner.read room = y at s2
      obtain ⟨x, s'⟩ := y
      cases x with
      | error e => exact Sim.ok (r := { r with inner := s' }) s2
      | ok l2 =>
        simp only
        have h4 : Past k D (consume { r with inner := s' } (l2.length + (l.take n).length)) := s2
        show Sim k D (do
          let r1 ← resetBufferPosition (shift k (consume { r with inner := s' } (l2.length + (l.take n).length)))
          pure (Except.ok (l.take n ++ l2), r1)) _
        rcases reset_cases h4 with ⟨e, g1, g2⟩ | ⟨r1, g1, g2, g3⟩
        · rw [g1, g2]; exact Sim.err e
        · rw [g1, g2]; exact Sim.ok g3
    · rw [if_neg h2, if_neg h2]
      refine Sim.bind (fillBuf_shift h) fun x r1 h3 => ?_
      cases x with
      | error e => exact Sim.ok h3
      | ok l => exact Sim.ok (r := consume r1 (l.take n).length) h3

theorem readExact_shift {k : Nat} {D : List U8} (fuel : Nat) {r : Acc} (h : Past k D r) (n : Nat) :
    Sim k D (readExact read fuel (shift k r) n) (readExact read fuel r n) := by
  induction fuel generalizing r n with
  | zero => exact Sim.err _
  | succ fuel ih =>
    unfold readExact
    by_cases hn : n = 0
    · rw [if_pos hn, if_pos hn]; exact Sim.ok h
    · rw [if_neg hn, if_neg hn]
      refine Sim.bind (read_shift h n) fun x r1 h1 => ?_
      cases x with
      | error e =>
        cases e with
        | interrupted => exact ih h1 n
        | _ => exact Sim.ok h1
      | ok l =>
        cases l with
        | nil => exact Sim.ok h1
        | cons b l =>
          refine Sim.bind (ih h1 _) fun y r2 h2 => ?_
          cases y <;> exact Sim.ok h2

theorem step_shift {k : Nat} {D : List U8} (fuel : Nat) {r : Acc} (h : Past k D r) (op : Op) (hop : isSeek op = false) :
    Sim k D (step fuel (shift k r) op) (step fuel r op) := by
  cases op with
  | read n =>
    refine Sim.bind (read_shift h n) fun x r1 h1 => ?_
    cases x <;> exact Sim.ok h1
  | readExact n =>
    refine Sim.bind (readExact_shift fuel h n) fun x r1 h1 => ?_
    cases x <;> exact Sim.ok h1
  | fillBuf =>
    refine Sim.bind (fillBuf_shift h) fun x r1 h1 => ?_
    cases x <;> exact Sim.ok h1
  | consume n => exact Sim.pure_bind (m := data r) fun w _ => Sim.ok (r := consume r (w.take n).length) h
  | grow n => exact Sim.ok (r := grow r n) h
  | reset =>
    unfold step
    rcases reset_cases h with ⟨e, g1, g2⟩ | ⟨r1, g1, g2, g3⟩
    · rw [g1, g2]; exact Sim.err e
    · rw [g1, g2]; exact Sim.ok g3
  | seek sf => cases hop

theorem run_shift {k : Nat} {D : List U8} (fuel : Nat) {r : Acc} (h : Past k D r) (ops : List Op)
    (hops : ∀ op ∈ ops, isSeek op = false) : Sim k D (run fuel (shift k r) ops) (run fuel r ops) := by
  induction ops generalizing r with
  | nil => exact Sim.ok h
  | cons op ops ih =>
    refine Sim.bind (step_shift fuel h op (hops op (by simp))) fun o r1 h1 => ?_
    exact Sim.bind (ih h1 fun op' h' => hops op' (by simp [h'])) fun os r2 h2 => Sim.ok h2

theorem seekInner_lands {dat : List U8} {r r' : Acc} {sf : SeekFrom} {m : Nat} (hd : r.inner.data = dat)
    (h : seekInner r sf = .ok (.ok m, r')) :
    Inv dat r' ∧ r'.index = m ∧ (m : Int) = r.inner.target sf := by
  obtain ⟨s1, s2, s3, s4, s5, s6, s7⟩ := source_seek r.inner sf
  unfold seekInner at h
  cases hs : r.inner.seek sf with
  | mk x s' =>
    rw [hs] at s1 s2 s3 s4 s5 s6 s7 h
    simp only at s1 s2 s3 s4 s5 s6 s7 h
    cases x with
    | error e => cases h
    | ok sz =>
      obtain ⟨g1, g2⟩ := s4 sz rfl
      have hinv : Inv dat ({ r with inner := s', index := sz, pos := 0, «end» := 0 } : Acc) := by
        refine ⟨s1.trans hd, Nat.le_refl _, Nat.zero_le _, ?_, ?_⟩
        · simp only; omega
        · simp [win]
      obtain ⟨y, r1, a1, a2⟩ := fillBuf_spec hinv
      simp only [a1, ok_bind] at h
      cases y with
      | error e => cases h
      | ok l =>
        cases h
        exact ⟨a2.inv, a2.index, g1⟩

/-- What holds of **C67** (C67 itself is false). Over a reader standing at byte `k`, an `AccReader` that does not
seek delivers the stream from there, with positions counted from there. The first seek that leaves the
buffered window — to an absolute target outside it, relative to the end, or forward beyond it — leads
to the right byte of the underlying stream, and from then on all positions are those of the stream.
Missing (and false): positions before that seek, and seeks to an absolute target inside the window. -/
theorem c67_offset_partial (s : Source) (cap fuel : Nat) (ops : List Op) (hops : ∀ op ∈ ops, isSeek op = false) :
    (run fuel (withCapacity cap s) ops = .error .fuel ∧ ∃ n, .readExact n ∈ ops) ∨
    ∃ os r p w, run fuel (withCapacity cap s) ops = .ok (os, r) ∧
      ExplainsAll (s.data.drop s.pos) 0 ops os p ∧ streamPosition r = .ok (.ok p, r) ∧
      data r = .ok w ∧ At s.data (s.pos + p) w ∧
      (∀ n m r', n < p ∨ p + w.length ≤ n → seek r (.start n) = .ok (.ok m, r') → m = n ∧ StandsAt s.data r' n) ∧
      (∀ d m r', seek r (.end d) = .ok (.ok m, r') → (m : Int) = s.data.length + d ∧ StandsAt s.data r' m) ∧
      (∀ d m r', w.length < d → seek r (.current d) = .ok (.ok m, r') →
        (m : Int) = s.pos + p + d ∧ StandsAt s.data r' m) := by
  have hs0 : shift s.pos (withCapacity cap s) = withCapacity cap (shiftS s.pos s) := rfl
  have hsim := run_shift (k := s.pos) (D := s.data) fuel (r := withCapacity cap s) ⟨Nat.le_refl _, rfl⟩ ops hops
  rw [hs0] at hsim
  obtain ⟨h1, h2⟩ := hsim
  have hinv := withCapacity_inv cap (shiftS s.pos s) (by simp [shiftS])
  rcases run_spec fuel hinv ops with ⟨h3, h4⟩ | ⟨os, r', b1, b2, b3, _⟩
  · left
    refine ⟨?_, h4⟩
    rw [h3] at h1
    cases hb : run fuel (withCapacity cap s) ops with
    | error e => rw [hb] at h1; cases h1; rfl
    | ok y => rw [hb] at h1; cases h1
  · right
    rw [b1] at h1
    cases hb : run fuel (withCapacity cap s) ops with
    | error e => rw [hb] at h1; cases h1
    | ok y =>
      obtain ⟨os', r⟩ := y
      rw [hb] at h1
      obtain ⟨hk, hsd⟩ := h2 os' r hb
      simp only [Except.map, Except.ok.injEq, Prod.mk.injEq] at h1
      obtain ⟨rfl, rfl⟩ := h1
      have hpe : r.pos ≤ r.end := b2.pe
      have hip : r.inner.pos - s.pos = r.index + (r.end - r.pos) := b2.ip
      have hwl : (win (shift s.pos r)).length = r.end - r.pos := win_length b2
      rw [show win (shift s.pos r) = win r from rfl] at hwl
      refine ⟨os, r, r.index, win r, rfl, b3, ?_, (data_ok b2 : data (shift s.pos r) = _), ?_, ?_, ?_, ?_⟩
      · unfold streamPosition seek
        simp only [usub_ok hpe, ok_bind]
        simp
      · have := b2.at
        unfold At at *
        rw [← List.drop_drop]
        exact this
      · intro n m r' hn hseek
        have : seek r (.start n) = seekInner r (.start n) := by
          unfold seek
          simp only
          by_cases hge : n ≥ r.index
          · rw [if_pos hge, usub_ok (by omega)]
            simp only [ok_bind]
            rw [if_neg (by omega)]
          · rw [if_neg hge]
        rw [this] at hseek
        obtain ⟨g1, g2, g3⟩ := seekInner_lands hsd hseek
        simp only [Source.target] at g3
        have : m = n := by omega
        subst this
        exact ⟨rfl, g2 ▸ g1.standsAt⟩
      · intro d m r' hseek
        obtain ⟨g1, g2, g3⟩ := seekInner_lands hsd hseek
        rw [← hsd]
        exact ⟨g3, g2 ▸ hsd ▸ g1.standsAt⟩
      · intro d m r' hd hseek
        have : seek r (.current d) = seekInner r (.current (d - ((r.end - r.pos : Nat) : Int))) := by
          unfold seek
          simp only [usub_ok hpe, ok_bind]
          rw [if_pos (by omega), if_neg (by omega)]
        rw [this] at hseek
        obtain ⟨g1, g2, g3⟩ := seekInner_lands hsd hseek
        simp only [Source.target] at g3
        exact ⟨by omega, g2 ▸ g1.standsAt⟩

example : ∃ os r r', run 20 (withCapacity 5 ⟨sampleData, 10, healthy, 0⟩) [.read 1, .fillBuf] = .ok (os, r) ∧
    os = [.bytes [10], .shown [11, 12]] ∧ streamPosition r = .ok (.ok 1, r) ∧ data r = .ok [11, 12] ∧
    seek r (.start 20) = .ok (.ok 20, r') ∧ data r' = .ok [20, 21, 22, 23] :=
  ⟨_, _, _, rfl, rfl, rfl, rfl, rfl, rfl⟩

/-! ### C86 -/

/-- accreader.rs:42-44 and 54-56 -/
def intoInner (r : Acc) : Source := r.inner

/-- **C86** After every history, at any position `p` with the bytes `w` buffered: the inner reader that
`get_ref` shows and `into_inner` returns is the one handed over, stands behind the buffered bytes, and delivers the rest of
the stream behind them: exactly the buffered bytes are lost. -/
theorem c86_inner (dat : List U8) (cap : Nat) (script : Nat → Act) (ops : List Op) (os : List Out)
    (r : Acc) (hr : Reachable dat cap script ops os r) :
    ∃ p w, StandsAt dat r p ∧ data r = .ok w ∧ (intoInner r).data = dat ∧ (intoInner r).script = script ∧
      (intoInner r).pos = p + w.length ∧
      w ++ (intoInner r).data.drop (intoInner r).pos = dat.drop p := by
  obtain ⟨h1, _, h3, _⟩ := hr.inv
  refine ⟨r.index, win r, h1.standsAt, data_ok h1, h1.src, h3, ?_, ?_⟩
  · rw [win_length h1]; exact h1.ip
  · unfold intoInner
    rw [h1.src, h1.ip, h1.win, ← List.drop_drop, List.take_append_drop]

example : ∃ os r, Reachable sampleData 5 sampleScript [.read 2, .fillBuf, .seek (.start 30), .read 1] os r ∧
    data r = .ok [31, 32] ∧ (intoInner r).pos = 33 :=
  ⟨_, _, ⟨sampleSource, 20, rfl, rfl, rfl, rfl⟩, by decide, by decide⟩

/-! ### C87 -/

/-- The inner reader never fails and fills every buffer it is given, as far as the stream reaches. -/
def Generous (dat : List U8) (script : Nat → Act) : Prop := ∀ c, (script c).fail = none ∧ dat.length ≤ (script c).len

/-- What the calls of `grow` in a history add up to. -/
def grownBy (ops : List Op) : Nat := (ops.map fun op => match op with | .grow k => k | _ => 0).sum

theorem grown_eq (ops : List Op) : grown ops = grownBy ops := by
  induction ops with
  | nil => rfl
  | cons op ops ih =>
    have : grownBy (op :: ops) = grownBy [op] + grownBy ops := by simp [grownBy]
    rw [this, ← ih]
    cases op <;> simp [grown, grownBy]

theorem fillBuf_generous {dat : List U8} {r r' : Acc} {x : Except IoErr (List U8)} (h : Inv dat r)
    (hg : Generous dat r.inner.script) (hx : fillBuf r = .ok (x, r')) :
    ∃ l, x = .ok l ∧ (l.length = r.buf.length ∨ dat.length ≤ r.index + l.length) := by
  unfold fillBuf at hx
  have hl := win_length h
  by_cases hc : r.pos ≠ 0 ∨ r.end ≠ r.buf.length
  · rw [if_pos hc] at hx
    obtain ⟨r1, a1, a2, a3, a4, a5, a6, a7, a8⟩ := reset_inv h
    have heb := a2.eb
    have hip := a2.ip
    have hsrc := a2.src
    rw [a1] at hx
    simp only [ok_bind, sliceFrom_ok heb] at hx
    have hg1 := hg r.inner.clock
    unfold Source.read at hx
    rw [a7] at hx hip hsrc
    rw [hg1.1] at hx
    simp only at hx
    generalize hl2 : List.take _ (List.drop r.inner.pos r.inner.data) = l2 at hx
    have hlen2 := congrArg List.length hl2
    rw [List.length_take, List.length_drop, List.length_drop, hsrc] at hlen2
    have hd : ∀ (s' : Source), data ({ r1 with
            inner := s'
            buf := r1.buf.take r1.end ++ l2 ++ r1.buf.drop (r1.end + l2.length)
            «end» := r1.end + l2.length } : Acc) = .ok (r1.buf.take r1.end ++ l2) := by
      intro s'
      have h1 : (r1.buf.take r1.end ++ l2).length = r1.end + l2.length := by
        rw [List.length_append, List.length_take]; omega
      simp only [data, sliceRange, a3]
      rw [if_pos ⟨Nat.zero_le _, by rw [List.length_append, h1]; omega⟩]
      rw [List.drop_zero, Nat.sub_zero, ← h1, List.take_left]
    rw [hd] at hx
    cases hx
    refine ⟨_, rfl, ?_⟩
    rw [List.length_append, List.length_take]
    omega
  · rw [if_neg hc] at hx
    rw [data_ok h] at hx
    cases hx
    refine ⟨_, rfl, .inl ?_⟩
    rw [hl]
    omega

/-- **C87** Over a reader that always delivers what is asked for, `fill_buf` shows, after every history and at any
position, exactly as many bytes of the rest of the stream as the initial capacity and all calls of `grow` together say. -/
theorem c87_capacity (dat : List U8) (cap : Nat) (script : Nat → Act) (ops : List Op) (os : List Out)
    (r : Acc) (hr : Reachable dat cap script ops os r) (hg : Generous dat script) :
    ∃ p r', StandsAt dat r p ∧ fillBuf r = .ok (.ok ((dat.drop p).take (cap + grownBy ops)), r') := by
  obtain ⟨h1, _, h3, h4⟩ := hr.inv
  rw [grown_eq] at h4
  obtain ⟨x, r', a1, a2⟩ := fillBuf_spec h1
  obtain ⟨l, rfl, hlen⟩ := fillBuf_generous h1 (h3 ▸ hg) a1
  refine ⟨r.index, r', h1.standsAt, ?_⟩
  rw [a1]
  congr 3
  obtain ⟨b1, _, _⟩ := a2.shown l rfl
  have hat := a2.inv.at
  rw [← b1, a2.index] at hat
  have hw := win_length a2.inv
  have heb := a2.inv.eb
  rw [← b1] at hw
  rw [a2.len, h4] at heb
  rw [h4] at hlen
  unfold At at hat
  have hlen2 := congrArg List.length hat
  rw [List.length_take, List.length_drop] at hlen2
  rw [hat, List.take_eq_take_iff, List.length_drop]
  omega

/-- **C87** The same for the capacity of `AccReader::new`. -/
theorem c87_default (s : Source) (h0 : s.pos = 0) (hg : Generous s.data s.script) :
    ∃ r', fillBuf (new s) = .ok (.ok (s.data.take 4096), r') := by
  obtain ⟨p, r', h1, h2⟩ := c87_capacity s.data 4096 s.script [] [] (new s) ⟨s, 0, rfl, h0, rfl, rfl⟩ hg
  have h3 := (withCapacity_inv 4096 s h0).position
  have : p = 0 := by
    have := h1.1
    rw [show streamPosition (new s) = _ from h3] at this
    cases this; rfl
  subst this
  exact ⟨r', h2⟩

example : ∃ os r, Reachable sampleData 5 (fun _ => ⟨none, 100⟩) [.read 2, .grow 4, .seek (.start 33), .read 1] os r ∧
    Generous sampleData (fun _ => ⟨none, 100⟩) ∧ grownBy [.read 2, .grow 4, .seek (.start 33), .read 1] = 4 ∧
    outs (run 0 r [.fillBuf]) = some [.shown [34, 35, 36, 37, 38, 39]] :=
  ⟨_, _, ⟨⟨sampleData, 0, fun _ => ⟨none, 100⟩, 0⟩, 20, rfl, rfl, rfl, rfl⟩, fun _ => ⟨rfl, (by decide : sampleData.length ≤ 100)⟩, rfl, by decide⟩

end Verif.Acc
