import Verif.Live.Programs
import Verif.Demux.Jumps

/-!
# Property C156: demuxers that read their buffer like a file

A demuxer may use the `Read` and `Seek` of the buffer it is given: `read_exact` what it needs, seek, read on, depending on
what it has read, and answer. If it does nothing else, and takes no relative steps back, it finds what it would find in the
file itself.
-/

namespace Verif.Demux
open Verif Verif.Io Verif.Frame Verif.Stream Verif.Packet
open Verif.Live (Use Prog Script)
open Verif.Acc (Acc Out)

variable {D X : Type}

/-- The call on an `AccReader` over a source. -/
def useOp : Use → Acc.Op
  | .read n => .read n
  | .readExact n => .readExact n
  | .fillBuf => .fillBuf
  | .consume k => .consume k
  | .grow k => .grow k
  | .seek sf => .seek sf

/-- The demuxer over such an `AccReader`. -/
def onSource (S : Script D) (fuel : Nat) : Demuxer D Acc := S.demuxer Acc.data (fun r u => Acc.step fuel r (useOp u))

/-- Only `read_exact`, `grow`, and seeks that are no relative steps back. -/
def Streamed : Prog X → Prop
  | .done _ => True
  | .panics _ => True
  | .data _ => False
  | .call (.readExact _) next => ∀ o, Streamed (next o)
  | .call (.grow _) next => ∀ o, Streamed (next o)
  | .call (.seek sf) next => (∀ k, sf = .current k → 0 ≤ k) ∧ ∀ o, Streamed (next o)
  | .call _ _ => False

/-- All results of the program are such. -/
def Gives (P : X → Prop) : Prog X → Prop
  | .done x => P x
  | .panics _ => True
  | .data next => ∀ w, Gives P (next w)
  | .call _ next => ∀ o, Gives P (next o)

/-- No answer steps back relatively, and none asks for more data. -/
def HeaderAnswer (x : Except Err SeekFrom × D × GlobalInfo) : Prop :=
  match x.1 with
  | .error e => ∀ n, e ≠ .MoreDataNeeded n
  | .ok sf => ∀ k, sf = .current k → 0 ≤ k

/-- The same for events. -/
def EventAnswer (x : Except Err (SeekFrom × Event) × D) : Prop :=
  match x.1 with
  | .error e => ∀ n, e ≠ .MoreDataNeeded n
  | .ok (sf, ev) => (∀ k, sf = .current k → 0 ≤ k) ∧ ∀ n, ev ≠ .MoreDataNeeded n

/-- Such a demuxer. -/
structure Plain (S : Script D) : Prop where
  headers : ∀ d info, Streamed (S.headers d info) ∧ Gives HeaderAnswer (S.headers d info)
  event : ∀ d, Streamed (S.event d) ∧ Gives EventAnswer (S.event d)

/-! ### the specification: a file and a position -/

/-- Calls on a file. A `read_exact` beyond the end fails and leads to the end. -/
def fileStep (dat : List U8) (p : Nat) : Use → Rust (Out × Nat)
  | .readExact n =>
    if n = 0 ∨ p + n ≤ dat.length then .ok (.bytes ((dat.drop p).take n), p + n)
    else .ok (.err .unexpectedEof, max p dat.length)
  | .seek sf =>
    match goal dat.length p sf with
    | some q => .ok (.pos q, q)
    | none => .ok (.err .invalidInput, p)
  | _ => .ok (.unit, p)

/-- The program on a file. -/
def onFile (dat : List U8) (g : Prog X) (p : Nat) : Rust (X × Nat) := g.run (fun _ => .ok []) (fileStep dat) p

/-- `read_headers` on a file: a goal that does not exist is ignored (C68). -/
def fileHeaders (S : Script D) (dat : List U8) (d : D) (info : GlobalInfo) (p : Nat) :
    Rust (Except Err Unit × D × GlobalInfo × Nat) := do
  let ((x, d, info), p) ← onFile dat (S.headers d info) p
  match x with
  | .error e => return (.error e, d, info, p)
  | .ok sf => return (.ok (), d, info, (goal dat.length p sf).getD p)

/-- `read_event` on a file. -/
def fileEvent (S : Script D) (dat : List U8) (d : D) (streams : List Stream) (p : Nat) :
    Rust (Except Err Event × D × Nat) := do
  let ((x, d), p) ← onFile dat (S.event d) p
  match x with
  | .error e => return (.error e, d, p)
  | .ok (sf, ev) =>
    match goal dat.length p sf with
    | some q => return (.ok (completed streams ev), d, q)
    | none => return (.error (.Io .invalidInput), d, p)

/-- Calls of `read_event` on a file. -/
def fileEvents (S : Script D) (dat : List U8) : Nat → D → List Stream → Nat →
    Rust (List (Except Err Event) × D × List Stream × Nat)
  | 0, d, streams, p => .ok ([], d, streams, p)
  | n + 1, d, streams, p => do
    let (x, d, p) ← fileEvent S dat d streams p
    let (xs, y) ← fileEvents S dat n d (streams ++ announced x) p
    return (x :: xs, y)

/-! ### the proof -/

/-- The reader stands at `p` and does not fail. -/
structure Over (dat : List U8) (r : Acc) (p : Nat) : Prop where
  inv : Acc.Inv dat r
  index : r.index = p
  calm : ∀ k, (r.inner.script k).fail = none

theorem readExact_exact {dat : List U8} (fuel : Nat) : ∀ {r : Acc} {p : Nat} (n : Nat), Over dat r p →
    dat.length - p + 1 < fuel → ∃ r' x q, Io.readExact Acc.read fuel r n = .ok (x, r') ∧ Over dat r' q ∧
      if n = 0 ∨ p + n ≤ dat.length then x = .ok ((dat.drop p).take n) ∧ q = p + n
      else x = .error .unexpectedEof ∧ q = max p dat.length := by
  induction fuel with
  | zero => intro r p n _ hf; omega
  | succ fuel ih =>
    intro r p n h hf
    rw [Io.readExact]
    by_cases h0 : n = 0
    · subst h0
      exact ⟨r, _, p, by rw [if_pos rfl], h, by simp⟩
    · rw [if_neg h0]
      obtain ⟨x, r1, a1, a2⟩ := Acc.read_spec h.inv n
      rw [a1]
      simp only [ok_bind]
      cases x with
      | error e =>
        have := (a2.error e rfl).2.2.1
        rw [h.calm] at this
        cases this
      | ok l =>
        obtain ⟨b1, b2, b3, b4, _⟩ := a2.ok l rfl
        have hcalm : ∀ k, (r1.inner.script k).fail = none := by rw [a2.script]; exact h.calm
        rw [h.index] at b1 b3 b4
        cases l with
        | nil =>
          have hend : dat.length ≤ p := by rcases b4 rfl with b | b <;> omega
          refine ⟨r1, _, p, rfl, ⟨a2.inv, by simpa using b3, hcalm⟩, ?_⟩
          rw [if_neg (by omega)]
          exact ⟨rfl, by omega⟩
        | cons b l =>
          have hl : p + (b :: l).length ≤ dat.length := by
            have := congrArg List.length b1
            rw [List.length_take, List.length_drop] at this
            simp only [List.length_cons] at this ⊢
            omega
          obtain ⟨r2, y, q, c1, c2, c3⟩ := ih (n - (b :: l).length) ⟨a2.inv, b3, hcalm⟩
            (by simp only [List.length_cons] at hl ⊢; omega)
          simp only [c1, ok_bind]
          have hb1 : b :: l = (dat.drop p).take (b :: l).length := b1
          have hc : (n - (b :: l).length = 0 ∨ p + (b :: l).length + (n - (b :: l).length) ≤ dat.length) ↔
              (n = 0 ∨ p + n ≤ dat.length) := by omega
          by_cases hn : n = 0 ∨ p + n ≤ dat.length
          · rw [if_pos (hc.2 hn)] at c3
            obtain ⟨rfl, rfl⟩ := c3
            refine ⟨r2, _, _, rfl, c2, ?_⟩
            rw [if_pos hn]
            refine ⟨?_, by omega⟩
            congr 1
            have : (dat.drop p).take n = (dat.drop p).take ((b :: l).length + (n - (b :: l).length)) := by congr 1; omega
            rw [this, List.take_add, ← hb1, List.drop_drop]
          · rw [if_neg (fun h => hn (hc.1 h))] at c3
            obtain ⟨rfl, rfl⟩ := c3
            refine ⟨r2, _, _, rfl, c2, ?_⟩
            rw [if_neg hn]
            exact ⟨rfl, by omega⟩

/-- A program over the reader does what it does on the file. -/
theorem prog_file {dat : List U8} (fuel : Nat) (hf : dat.length + 1 < fuel) (P : X → Prop) (g : Prog X) :
    ∀ {r : Acc} {p : Nat}, Streamed g → Gives P g → Over dat r p →
    match onFile dat g p with
    | .error e => g.run Acc.data (fun r u => Acc.step fuel r (useOp u)) r = .error e
    | .ok (x, q) => ∃ r', g.run Acc.data (fun r u => Acc.step fuel r (useOp u)) r = .ok (x, r') ∧ Over dat r' q ∧ P x := by
  induction g with
  | done x => intro r p _ hp h; exact ⟨r, rfl, h, hp⟩
  | panics e => intro r p _ _ _; rfl
  | data next ih => intro r p hs; exact hs.elim
  | call u next ih =>
    intro r p hs hp h
    -- one step
    have one : ∃ o r' q, fileStep dat p u = .ok (o, q) ∧ Acc.step fuel r (useOp u) = .ok (o, r') ∧ Over dat r' q ∧
        Streamed (next o) := by
      cases u with
      | read n => exact hs.elim
      | fillBuf => exact hs.elim
      | consume k => exact hs.elim
      | grow k =>
        have hg := Acc.grow_inv h.inv k
        exact ⟨.unit, _, p, rfl, rfl, ⟨hg.1, h.index, h.calm⟩, hs _⟩
      | readExact n =>
        obtain ⟨r', x, q, a1, a2, a3⟩ := readExact_exact fuel n h (by omega)
        by_cases hn : n = 0 ∨ p + n ≤ dat.length
        · rw [if_pos hn] at a3
          obtain ⟨rfl, rfl⟩ := a3
          refine ⟨_, r', p + n, by rw [fileStep, if_pos hn], ?_, a2, hs _⟩
          simp only [useOp, Acc.step, a1, ok_bind]
        · rw [if_neg hn] at a3
          obtain ⟨rfl, rfl⟩ := a3
          refine ⟨_, r', max p dat.length, by rw [fileStep, if_neg hn], ?_, a2, hs _⟩
          simp only [useOp, Acc.step, a1, ok_bind]
      | seek sf =>
        obtain ⟨x, r', a1, a2, a3, _, a5⟩ := seek_goal h.inv h.calm sf hs.1
        rw [h.index] at a5
        cases hg : goal dat.length p sf with
        | some q =>
          rw [hg] at a5
          obtain ⟨rfl, a6⟩ := a5
          refine ⟨.pos q, r', q, by simp only [fileStep, hg], ?_, ⟨a2, a6, by rw [a3]; exact h.calm⟩, hs.2 _⟩
          simp only [useOp, Acc.step, a1, ok_bind]
        | none =>
          rw [hg] at a5
          obtain ⟨rfl, a6⟩ := a5
          refine ⟨.err .invalidInput, r', p, by simp only [fileStep, hg], ?_, ⟨a2, a6, by rw [a3]; exact h.calm⟩, hs.2 _⟩
          simp only [useOp, Acc.step, a1, ok_bind]
    obtain ⟨o, r', q, b1, b2, b3, b4⟩ := one
    have := ih o b4 (hp o) b3
    simp only [onFile, Prog.run, b1, b2, ok_bind]
    exact this

theorem headers_file {S : Script D} (hS : Plain S) {dat : List U8} (fuel k : Nat) (hf : dat.length + 1 < fuel)
    (c : Context D Acc) (p : Nat) (h : Over dat c.reader p) :
    match fileHeaders S dat c.demuxer c.info p with
    | .error e => readHeaders (onSource S fuel) accBuffered (k + 1) c = .error e
    | .ok (x, d, info, q) => ∃ r, readHeaders (onSource S fuel) accBuffered (k + 1) c =
        .ok (x, ⟨d, r, info, c.user_private⟩) ∧ Over dat r q := by
  obtain ⟨x, r1, a1, a2⟩ := Acc.fillBuf_spec h.inv
  have hcalm : ∀ k, (r1.inner.script k).fail = none := by rw [a2.script]; exact h.calm
  have hfill : accBuffered.fillBuf c.reader = .ok (x, r1) := a1
  rw [readHeaders, hfill]
  simp only [ok_bind]
  cases x with
  | error e =>
    have := (a2.error e rfl).2.1
    rw [h.calm] at this
    cases this
  | ok l =>
    simp only [readHeadersInternal, onSource, Script.demuxer]
    have key := prog_file fuel hf HeaderAnswer (S.headers c.demuxer c.info) (hS.headers _ _).1 (hS.headers _ _).2
      (⟨a2.inv, a2.index.trans h.index, hcalm⟩ : Over dat r1 p)
    rw [fileHeaders]
    cases hp : onFile dat (S.headers c.demuxer c.info) p with
    | error e =>
      rw [hp] at key
      simp only at key
      simp only [key, error_bind]
    | ok y =>
      obtain ⟨⟨y, d, info⟩, q⟩ := y
      rw [hp] at key
      obtain ⟨r2, b1, b2, b3⟩ := key
      simp only [b1, ok_bind, pure_eq_ok]
      cases y with
      | error e =>
        simp only
        cases e with
        | MoreDataNeeded n => exact absurd rfl (b3 n)
        | _ => exact ⟨r2, rfl, b2⟩
      | ok sf =>
        simp only
        obtain ⟨z, r3, c1, c2, c3, _, c5⟩ := seek_goal b2.inv b2.calm sf b3
        have hseek : accBuffered.seek r2 sf = .ok (z, r3) := c1
        simp only [hseek, ok_bind]
        refine ⟨r3, rfl, c2, ?_, by rw [c3]; exact b2.calm⟩
        rw [b2.index] at c5
        cases hg : goal dat.length q sf with
        | some q' => rw [hg] at c5; exact c5.2
        | none => rw [hg] at c5; exact c5.2

theorem event_file {S : Script D} (hS : Plain S) {dat : List U8} (fuel k : Nat) (hf : dat.length + 1 < fuel)
    (c : Context D Acc) (p : Nat) (h : Over dat c.reader p) :
    match fileEvent S dat c.demuxer c.info.streams p with
    | .error e => readEvent (onSource S fuel) accBuffered (k + 1) c = .error e
    | .ok (x, d, q) => ∃ r, readEvent (onSource S fuel) accBuffered (k + 1) c =
        .ok (x, ⟨d, r, { c.info with streams := c.info.streams ++ announced x }, c.user_private⟩) ∧ Over dat r q := by
  have key := prog_file fuel hf EventAnswer (S.event c.demuxer) (hS.event _).1 (hS.event _).2 h
  rw [fileEvent]
  have hcall : (onSource S fuel).readEvent c.demuxer c.reader = (do
      let ((x, d), r) ← (S.event c.demuxer).run Acc.data (fun r u => Acc.step fuel r (useOp u)) c.reader
      return (x, d, r)) := rfl
  cases hp : onFile dat (S.event c.demuxer) p with
  | error e =>
    rw [hp] at key
    simp only at key
    rw [key] at hcall
    simp only [readEvent, readEventInternal, hcall, error_bind]
  | ok y =>
    obtain ⟨⟨y, d⟩, q⟩ := y
    rw [hp] at key
    obtain ⟨r2, b1, b2, b3⟩ := key
    rw [b1] at hcall
    simp only [ok_bind, pure_eq_ok] at hcall ⊢
    cases y with
    | error e =>
      simp only
      refine ⟨r2, ?_, b2⟩
      rw [readEvent_answers k (.error hcall b3)]
      simp [announced]
    | ok y =>
      obtain ⟨sf, ev⟩ := y
      obtain ⟨b3, b4⟩ := b3
      obtain ⟨z, r3, c1, c2, c3, _, c5⟩ := seek_goal b2.inv b2.calm sf b3
      rw [b2.index] at c5
      have hcalm : ∀ k, (r3.inner.script k).fail = none := by rw [c3]; exact b2.calm
      simp only
      cases hg : goal dat.length q sf with
      | some q' =>
        rw [hg] at c5
        obtain ⟨rfl, c6⟩ := c5
        refine ⟨r3, ?_, c2, c6, hcalm⟩
        rw [readEvent_answers k (.event hcall c1 (deliver c.info.streams ev b4))]
      | none =>
        rw [hg] at c5
        obtain ⟨rfl, c6⟩ := c5
        refine ⟨r3, ?_, c2, c6, hcalm⟩
        rw [readEvent_answers k (.seekError hcall c1)]
        simp [announced]

theorem events_file {S : Script D} (hS : Plain S) {dat : List U8} (fuel k : Nat) (hf : dat.length + 1 < fuel) (n : Nat) :
    ∀ (c : Context D Acc) (p : Nat), Over dat c.reader p →
    match fileEvents S dat n c.demuxer c.info.streams p with
    | .error e => readEvents (onSource S fuel) accBuffered (k + 1) n c = .error e
    | .ok (xs, d, streams, q) => ∃ r, readEvents (onSource S fuel) accBuffered (k + 1) n c =
        .ok (xs, ⟨d, r, { c.info with streams := streams }, c.user_private⟩) ∧ Over dat r q := by
  induction n with
  | zero => intro c p h; exact ⟨c.reader, rfl, h⟩
  | succ n ih =>
    intro c p h
    have one := event_file hS fuel k hf c p h
    rw [fileEvents, readEvents]
    cases h1 : fileEvent S dat c.demuxer c.info.streams p with
    | error e =>
      rw [h1] at one
      simp only at one
      simp only [one, error_bind]
    | ok y =>
      obtain ⟨x, d, q⟩ := y
      rw [h1] at one
      obtain ⟨r, a1, a2⟩ := one
      have rest := ih ⟨d, r, { c.info with streams := c.info.streams ++ announced x }, c.user_private⟩ q a2
      simp only [ok_bind, a1]
      simp only at rest
      cases h2 : fileEvents S dat n d (c.info.streams ++ announced x) q with
      | error e =>
        rw [h2] at rest
        simp only at rest
        simp only [rest, error_bind]
      | ok z =>
        obtain ⟨xs, d2, streams, q2⟩ := z
        rw [h2] at rest
        obtain ⟨r2, b1, b2⟩ := rest
        refine ⟨r2, ?_, b2⟩
        simp only [b1, ok_bind, pure_eq_ok]

/-- **C156** A demuxer that reads its buffer like a file finds in it what it would find in the file, with any capacity and
any reader that does not fail, however few bytes it gives at a time: the same headers, and the same results of all calls of
`read_event`, including errors and panics of the demuxer. -/
theorem c156_file (S : Script D) (hS : Plain S) (dat : List U8) (d : D) (cap : Nat) (script : Nat → Act)
    (hs : ∀ k, (script k).fail = none) (fuel k n : Nat) (hf : dat.length + 1 < fuel) :
    match fileHeaders S dat d ⟨none, none, []⟩ 0 with
    | .error e => readHeaders (onSource S fuel) accBuffered (k + 1) (Context.new d (Acc.withCapacity cap ⟨dat, 0, script, 0⟩)) =
        .error e
    | .ok (x, d1, info, p) => ∃ c, readHeaders (onSource S fuel) accBuffered (k + 1)
          (Context.new d (Acc.withCapacity cap ⟨dat, 0, script, 0⟩)) = .ok (x, c) ∧ c.info = info ∧
        match fileEvents S dat n d1 info.streams p with
        | .error e => readEvents (onSource S fuel) accBuffered (k + 1) n c = .error e
        | .ok (xs, d2, streams, q) => ∃ c', readEvents (onSource S fuel) accBuffered (k + 1) n c = .ok (xs, c') ∧
            c'.demuxer = d2 ∧ c'.info = { info with streams } ∧ Acc.StandsAt dat c'.reader q := by
  have h0 : Over dat (Acc.withCapacity cap ⟨dat, 0, script, 0⟩) 0 :=
    ⟨Acc.withCapacity_inv cap ⟨dat, 0, script, 0⟩ rfl, rfl, hs⟩
  have key := headers_file hS fuel k hf (Context.new d (Acc.withCapacity cap ⟨dat, 0, script, 0⟩)) 0 h0
  simp only [show (Context.new d (Acc.withCapacity cap ⟨dat, 0, script, 0⟩)).demuxer = d from rfl,
    show (Context.new d (Acc.withCapacity cap ⟨dat, 0, script, 0⟩)).info = ⟨none, none, []⟩ from rfl] at key
  cases h1 : fileHeaders S dat d ⟨none, none, []⟩ 0 with
  | error e => rw [h1] at key; exact key
  | ok y =>
    obtain ⟨x, d1, info, p⟩ := y
    rw [h1] at key
    obtain ⟨r, a1, a2⟩ := key
    refine ⟨_, a1, rfl, ?_⟩
    have rest := events_file hS fuel k hf n ⟨d1, r, info, none⟩ p a2
    simp only at rest
    cases h2 : fileEvents S dat n d1 info.streams p with
    | error e => rw [h2] at rest; exact rest
    | ok z =>
      obtain ⟨xs, d2, streams, q⟩ := z
      rw [h2] at rest
      obtain ⟨r2, b1, b2⟩ := rest
      refine ⟨_, b1, rfl, rfl, ?_⟩
      have := b2.inv.standsAt
      rw [b2.index] at this
      exact this

/-- Chunks with their length before them, behind two bytes; a length of 255 says that the chunk is at the end of the file, as
long as the next byte says; at the end it answers `Eof`. -/
def chunks : Script Nat where
  headers d info := .call (.readExact 2) fun
    | .bytes [65, 86] => .done (.ok (.current 0), d, info)
    | _ => .done (.error .InvalidData, d, info)
  event d :=
    .call (.seek (.current 0)) fun
      | .pos p => .call (.readExact 1) fun
        | .bytes [255] => .call (.readExact 1) fun
          | .bytes [n] => .call (.seek (.end (-(n.toNat : Int)))) fun
            | .pos _ => .call (.readExact n.toNat) fun
              | .bytes l => .done (.ok (.start (p + 2), .NewPacket { Packet.new with data := l }), d)
              | _ => .done (.error .InvalidData, d)
            | _ => .done (.error .InvalidData, d)
          | _ => .done (.error .InvalidData, d)
        | .bytes [n] => .call (.readExact n.toNat) fun
          | .bytes l => .done (.ok (.current 0, .NewPacket { Packet.new with data := l }), d + 1)
          | _ => .done (.error .InvalidData, d)
        | _ => .done (.ok (.current 0, .Eof), d)
      | _ => .done (.error .InvalidData, d)

theorem chunks_plain : Plain chunks where
  headers d info := by
    constructor
    · intro o
      simp only
      split <;> trivial
    · intro o
      simp only
      split <;> intro n hn <;> cases hn
      exact Int.le_refl _
  event d := by
    constructor
    · refine ⟨fun k hk => by cases hk; exact Int.le_refl _, fun o => ?_⟩
      rcases o with _ | _ | _ | _ | _ <;> try trivial
      intro o
      simp only
      split
      · intro o
        simp only
        split
        · refine ⟨fun k hk => (by cases hk), fun o => ?_⟩
          simp only
          split
          · intro o; simp only; split <;> trivial
          · trivial
        · trivial
      · intro o; simp only; split <;> trivial
      · trivial
    · intro o
      simp only
      split
      · intro o
        simp only
        split
        · intro o
          simp only
          split
          · intro o
            simp only
            split
            · intro o
              simp only
              split
              · exact ⟨fun k hk => (by cases hk), fun n hn => by cases hn⟩
              · intro n hn; cases hn
            · intro n hn; cases hn
          · intro n hn; cases hn
        · intro o
          simp only
          split
          · exact ⟨fun k hk => by cases hk; exact Int.le_refl _, fun n hn => by cases hn⟩
          · intro n hn; cases hn
        · exact ⟨fun k hk => by cases hk; exact Int.le_refl _, fun n hn => by cases hn⟩
      · intro n hn; cases hn

/-- C156 on a file with a chunk, one that is at the end, and another: through a buffer of two bytes, and in the file. -/
example : (match fileEvents chunks [65, 86, 2, 7, 8, 255, 1, 1, 9] 5 0 [] 2 with
      | .ok (xs, d, _, q) => decide (xs.map payload = [[7, 8], [9], [9], [], []] ∧ d = 2 ∧ q = 9)
      | _ => false) = true ∧
    (match readHeaders (onSource chunks 99) accBuffered 1
        (Context.new 0 (Acc.withCapacity 2 ⟨[65, 86, 2, 7, 8, 255, 1, 1, 9], 0, fun k => ⟨none, 1 + k % 2⟩, 0⟩)) with
      | .ok (.ok (), c) => (match readEvents (onSource chunks 99) accBuffered 1 5 c with
        | .ok (xs, c) => decide (xs.map payload = [[7, 8], [9], [9], [], []] ∧ c.demuxer = 2)
        | _ => false)
      | _ => false) = true := by
  constructor <;> decide +kernel

end Verif.Demux
