import Verif.Live.Economy

/-!
# Property C155: demuxers that use the buffer themselves

A demuxer is given `&mut dyn Buffered` (demuxer.rs:39, 41), which is `Read`, `BufRead` and `Seek` too (buffer/mod.rs:8): it may
read, consume, seek, grow and look at the buffer as it likes, depending on what it has seen. Here it is any program of such
calls.
-/

namespace Verif.Live
open Verif Verif.Io Verif.Acc Verif.Frame Verif.Stream Verif.Packet Verif.Demux

variable {R D : Type} {dev : Dev R}

/-- What can be called on a `&mut dyn Buffered`, apart from `data` (buffer/mod.rs:8-13, and std's `Read`, `BufRead`, `Seek`). -/
inductive Use
  | read (n : Nat) | readExact (n : Nat) | fillBuf | consume (k : Nat) | grow (k : Nat) | seek (sf : SeekFrom)
  deriving DecidableEq

/-- A program: each call may depend on the results of those before. -/
inductive Prog (X : Type)
  | done (x : X)
  | panics (p : Panic)
  | data (next : List U8 → Prog X)
  | call (u : Use) (next : Out → Prog X)

/-- Running it. -/
def Prog.run {B X : Type} (data : B → Rust (List U8)) (step : B → Use → Rust (Out × B)) : Prog X → B → Rust (X × B)
  | .done x, r => .ok (x, r)
  | .panics p, _ => .error p
  | .data next, r => do (next (← data r)).run data step r
  | .call u next, r => do
    let (o, r) ← step r u
    (next o).run data step r

def Use.call : Use → Call R
  | .read n => .op (.read n)
  | .readExact n => .op (.readExact n)
  | .fillBuf => .op .fillBuf
  | .consume k => .consume k
  | .grow k => .op (.grow k)
  | .seek sf => .op (.seek sf)

/-- A demuxer that consists of programs. -/
structure Script (D : Type) where
  headers : D → GlobalInfo → Prog (Except Err SeekFrom × D × GlobalInfo)
  event : D → Prog (Except Err (SeekFrom × Event) × D)

/-- The demuxer over some buffer. -/
def Script.demuxer {B : Type} (data : B → Rust (List U8)) (step : B → Use → Rust (Out × B)) (S : Script D) : Demuxer D B where
  readHeaders d r info := do
    let ((x, d, info), r) ← (S.headers d info).run data step r
    return (x, d, r, info)
  readEvent d r := do
    let ((x, d), r) ← (S.event d).run data step r
    return (x, d, r)

/-- Over an `AccReader`. -/
def Script.onAcc (S : Script D) (dev : Dev R) (fuel : Nat) : Demuxer D (LAcc R) :=
  S.demuxer Live.data (fun r u => stepCall dev fuel r u.call)

/-! ### the specification: a queue -/

/-- The functions the context uses. -/
def Queue.buffered (dev : Dev R) : Buffered (Queue R) where
  fillBuf b := .ok (b.fill dev)
  data b := .ok b.q
  grow b n := .ok { b with size := b.size + n }
  seek b sf := .ok (b.seek dev sf)

/-- Over the queue. -/
def Script.onQueue (S : Script D) (dev : Dev R) (fuel : Nat) : Demuxer D (Queue R) :=
  S.demuxer (fun b => .ok b.q) (fun b u => b.step dev fuel u.call)

/-! ### the proof -/

theorem Agree.bind {X Y : Type} {f : Rust (X × LAcc R)} {g : Rust (X × Queue R)} (h : Agree f g)
    {k : X × LAcc R → Rust (Y × LAcc R)} {k' : X × Queue R → Rust (Y × Queue R)}
    (hk : ∀ x r, Tidy r → Agree (k (x, r)) (k' (x, view r))) :
    Agree (f >>= k) (g >>= k') := by
  cases hg : g with
  | error p =>
    rw [hg] at h
    rw [show f = .error p from h]
    exact rfl
  | ok y =>
    rw [hg] at h
    obtain ⟨r, h1, h2, h3⟩ := h
    rw [h1]
    simp only [ok_bind]
    obtain ⟨x, b⟩ := y
    cases h3
    exact hk _ _ h2

theorem prog_agree (hb : Bounded dev) (fuel : Nat) {X : Type} (p : Prog X) : ∀ {r : LAcc R}, Tidy r →
    Agree (p.run Live.data (fun r u => stepCall dev fuel r u.call) r)
      (p.run (fun b => .ok b.q) (fun b u => b.step dev fuel u.call) (view r)) := by
  induction p with
  | done x => intro r h; exact ⟨r, rfl, h, rfl⟩
  | panics p => intro r _; rfl
  | data next ih =>
    intro r h
    simp only [Prog.run, h.data, ok_bind]
    exact ih _ h
  | call u next ih =>
    intro r h
    simp only [Prog.run]
    exact (stepCall_agree hb fuel h u.call).bind fun x r h => ih x h

/-- A context over the reader and one over the queue that shows the same. -/
def cview (c : Context D (LAcc R)) : Context D (Queue R) := ⟨c.demuxer, view c.reader, c.info, c.user_private⟩

/-- The same outcome, in contexts that show the same. -/
def CAgree {X : Type} (f : Rust (X × Context D (LAcc R))) (g : Rust (X × Context D (Queue R))) : Prop :=
  match g with
  | .error p => f = .error p
  | .ok (x, b) => ∃ c, f = .ok (x, c) ∧ Tidy c.reader ∧ cview c = b

theorem CAgree.bind {X Y : Type} {f : Rust (X × Context D (LAcc R))} {g : Rust (X × Context D (Queue R))} (h : CAgree f g)
    {k : X × Context D (LAcc R) → Rust (Y × Context D (LAcc R))} {k' : X × Context D (Queue R) → Rust (Y × Context D (Queue R))}
    (hk : ∀ x c, Tidy c.reader → CAgree (k (x, c)) (k' (x, cview c))) :
    CAgree (f >>= k) (g >>= k') := by
  cases hg : g with
  | error p =>
    rw [hg] at h
    rw [show f = .error p from h]
    exact rfl
  | ok y =>
    rw [hg] at h
    obtain ⟨r, h1, h2, h3⟩ := h
    rw [h1]
    simp only [ok_bind]
    obtain ⟨x, b⟩ := y
    cases h3
    exact hk _ _ h2

/-- From a call on the reader to the context around it. -/
theorem Agree.context {X Y : Type} {f : Rust (X × LAcc R)} {g : Rust (X × Queue R)} (h : Agree f g)
    {k : X × LAcc R → Rust (Y × Context D (LAcc R))} {k' : X × Queue R → Rust (Y × Context D (Queue R))}
    (hk : ∀ x r, Tidy r → CAgree (k (x, r)) (k' (x, view r))) :
    CAgree (f >>= k) (g >>= k') := by
  cases hg : g with
  | error p =>
    rw [hg] at h
    rw [show f = .error p from h]
    exact rfl
  | ok y =>
    rw [hg] at h
    obtain ⟨r, h1, h2, h3⟩ := h
    rw [h1]
    simp only [ok_bind]
    obtain ⟨x, b⟩ := y
    cases h3
    exact hk _ _ h2

theorem fill_agree (hb : Bounded dev) {r : LAcc R} (h : Tidy r) :
    Agree ((buffered dev).fillBuf r) ((Queue.buffered dev).fillBuf (view r)) := fill_does hb h

theorem seek_agree (hb : Bounded dev) {r : LAcc R} (h : Tidy r) (sf : SeekFrom) :
    Agree ((buffered dev).seek r sf) ((Queue.buffered dev).seek (view r) sf) := seek_does hb h sf

theorem headersInternal_agree (hb : Bounded dev) (S : Script D) (fuel : Nat) (c : Context D (LAcc R)) (h : Tidy c.reader) :
    CAgree (readHeadersInternal (S.onAcc dev fuel) (buffered dev) c)
      (readHeadersInternal (S.onQueue dev fuel) (Queue.buffered dev) (cview c)) := by
  simp only [readHeadersInternal, Script.onAcc, Script.onQueue, Script.demuxer, bind_assoc, pure_eq_ok, ok_bind]
  refine Agree.context (prog_agree hb fuel (S.headers c.demuxer c.info) h) fun x r hr => ?_
  obtain ⟨y, d, info⟩ := x
  simp only
  cases y with
  | error e => exact ⟨_, rfl, hr, rfl⟩
  | ok sf => exact Agree.context (seek_agree hb hr sf) fun x r hr => ⟨_, rfl, hr, rfl⟩

theorem eventInternal_agree (hb : Bounded dev) (S : Script D) (fuel : Nat) (c : Context D (LAcc R)) (h : Tidy c.reader) :
    CAgree (readEventInternal (S.onAcc dev fuel) (buffered dev) c)
      (readEventInternal (S.onQueue dev fuel) (Queue.buffered dev) (cview c)) := by
  simp only [readEventInternal, Script.onAcc, Script.onQueue, Script.demuxer, bind_assoc, pure_eq_ok, ok_bind]
  refine Agree.context (prog_agree hb fuel (S.event c.demuxer) h) fun x r hr => ?_
  obtain ⟨y, d⟩ := x
  simp only
  cases y with
  | error e => exact ⟨_, rfl, hr, rfl⟩
  | ok y =>
    obtain ⟨sf, ev⟩ := y
    refine Agree.context (seek_agree hb hr sf) fun x r hr => ?_
    cases x with
    | error e => exact ⟨_, rfl, hr, rfl⟩
    | ok n => cases ev <;> exact ⟨_, rfl, hr, rfl⟩

theorem headers_agree (hb : Bounded dev) (S : Script D) (fuel : Nat) : ∀ (n : Nat) (c : Context D (LAcc R)), Tidy c.reader →
    CAgree (readHeaders (S.onAcc dev fuel) (buffered dev) n c)
      (readHeaders (S.onQueue dev fuel) (Queue.buffered dev) n (cview c)) := by
  intro n
  induction n with
  | zero => intro c _; rfl
  | succ n ih =>
    intro c h
    simp only [readHeaders]
    refine Agree.context (fill_agree hb h) fun x r hr => ?_
    cases x with
    | error e => exact ⟨_, rfl, hr, rfl⟩
    | ok l =>
      refine CAgree.bind (headersInternal_agree hb S fuel ⟨c.demuxer, r, c.info, c.user_private⟩ hr) fun y c1 h1 => ?_
      cases y with
      | ok _ => exact ⟨_, rfl, h1, rfl⟩
      | error e =>
        cases e with
        | MoreDataNeeded needed =>
          obtain ⟨g1, g2⟩ := grow_enlarges h1 needed
          have := ih ⟨c1.demuxer, grow c1.reader needed, c1.info, c1.user_private⟩ g1
          simp only [cview, g2] at this
          exact this
        | _ => exact ⟨_, rfl, h1, rfl⟩

theorem event_agree (hb : Bounded dev) (S : Script D) (fuel : Nat) : ∀ (n : Nat) (c : Context D (LAcc R)), Tidy c.reader →
    CAgree (readEvent (S.onAcc dev fuel) (buffered dev) n c)
      (readEvent (S.onQueue dev fuel) (Queue.buffered dev) n (cview c)) := by
  intro n
  induction n with
  | zero => intro c _; rfl
  | succ n ih =>
    intro c h
    simp only [readEvent]
    refine CAgree.bind (eventInternal_agree hb S fuel c h) fun y c1 h1 => ?_
    cases y with
    | ok _ => exact ⟨_, rfl, h1, rfl⟩
    | error e =>
      cases e with
      | MoreDataNeeded needed =>
        have hd : (buffered dev).data c1.reader = .ok (win c1.reader) := h1.data
        have hq : (Queue.buffered dev).data (cview c1).reader = .ok (win c1.reader) := rfl
        simp only [hd, hq, ok_bind]
        split
        · exact ih c1 h1
        · obtain ⟨g1, g2⟩ := grow_enlarges h1 needed
          have hg : (Queue.buffered dev).grow (cview c1).reader needed = .ok (view (grow c1.reader needed)) := by rw [g2]; rfl
          have hg' : (buffered dev).grow c1.reader needed = .ok (grow c1.reader needed) := rfl
          simp only [hg, hg', ok_bind]
          refine Agree.context (fill_agree hb g1) fun x r hr => ?_
          cases x with
          | error e => exact ⟨_, rfl, hr, rfl⟩
          | ok l =>
            have hd : (buffered dev).data r = .ok (win r) := hr.data
            have hq : (Queue.buffered dev).data (view r) = .ok (win r) := rfl
            simp only [hd, hq, ok_bind]
            split
            · exact ⟨_, rfl, hr, rfl⟩
            · exact ih ⟨c1.demuxer, r, c1.info, c1.user_private⟩ hr
      | _ => exact ⟨_, rfl, h1, rfl⟩

theorem events_agree (hb : Bounded dev) (S : Script D) (fuel k : Nat) : ∀ (n : Nat) (c : Context D (LAcc R)), Tidy c.reader →
    CAgree (readEvents (S.onAcc dev fuel) (buffered dev) k n c)
      (readEvents (S.onQueue dev fuel) (Queue.buffered dev) k n (cview c)) := by
  intro n
  induction n with
  | zero => intro c h; exact ⟨c, rfl, h, rfl⟩
  | succ n ih =>
    intro c h
    simp only [readEvents]
    refine CAgree.bind (event_agree hb S fuel k c h) fun x c1 h1 => ?_
    exact CAgree.bind (ih c1 h1) fun xs c2 h2 => ⟨c2, rfl, h2, rfl⟩

/-- **C155** Whatever a demuxer does with the buffer it is given, and whatever becomes of the reader below: headers and any
number of events are those of the same demuxer over a queue of bytes, and so is what is left buffered, the position, the
size of the buffer and what became of the inner reader; nothing panics or goes on for ever unless it does so there. -/
theorem c155_queue (hb : Bounded dev) (S : Script D) (d : D) (s : R) (cap fuel k n : Nat) :
    match (do
      let (h, c) ← readHeaders (S.onQueue dev fuel) (Queue.buffered dev) k (Context.new d ⟨s, [], cap, 0⟩)
      let (xs, c) ← readEvents (S.onQueue dev fuel) (Queue.buffered dev) k n c
      return ((h, xs), c)) with
    | .error p => (do
        let (h, c) ← readHeaders (S.onAcc dev fuel) (buffered dev) k (Context.new d (withCapacity cap s))
        let (xs, c) ← readEvents (S.onAcc dev fuel) (buffered dev) k n c
        return ((h, xs), c)) = .error p
    | .ok (y, b) => ∃ c, (do
        let (h, c) ← readHeaders (S.onAcc dev fuel) (buffered dev) k (Context.new d (withCapacity cap s))
        let (xs, c) ← readEvents (S.onAcc dev fuel) (buffered dev) k n c
        return ((h, xs), c)) = .ok (y, c) ∧ c.demuxer = b.demuxer ∧ c.info = b.info ∧ c.reader.inner = b.reader.inner ∧
        data c.reader = .ok b.reader.q ∧ c.reader.buf.length = b.reader.size ∧ Stands dev c.reader b.reader.pos := by
  obtain ⟨h1, h2⟩ := withCapacity_tidy cap s
  have key : CAgree (do
        let (h, c) ← readHeaders (S.onAcc dev fuel) (buffered dev) k (Context.new d (withCapacity cap s))
        let (xs, c) ← readEvents (S.onAcc dev fuel) (buffered dev) k n c
        return ((h, xs), c)) (do
        let (h, c) ← readHeaders (S.onQueue dev fuel) (Queue.buffered dev) k (Context.new d ⟨s, [], cap, 0⟩)
        let (xs, c) ← readEvents (S.onQueue dev fuel) (Queue.buffered dev) k n c
        return ((h, xs), c)) := by
    have h0 := headers_agree hb S fuel k (Context.new d (withCapacity cap s)) h1
    rw [show cview (Context.new d (withCapacity cap s)) = Context.new d ⟨s, [], cap, 0⟩ by
      simp only [cview, Context.new, h2]] at h0
    refine h0.bind fun h c hc => ?_
    exact (events_agree hb S fuel k n c hc).bind fun xs c hc => ⟨c, rfl, hc, rfl⟩
  generalize (do
        let (h, c) ← readHeaders (S.onQueue dev fuel) (Queue.buffered dev) k (Context.new d ⟨s, [], cap, 0⟩)
        let (xs, c) ← readEvents (S.onQueue dev fuel) (Queue.buffered dev) k n c
        return ((h, xs), c) : Rust ((Except Err Unit × List (Except Err Event)) × Context D (Queue R))) = g at key
  cases g with
  | error p => exact key
  | ok y =>
    obtain ⟨y, b⟩ := y
    obtain ⟨c, a1, a2, rfl⟩ := key
    exact ⟨c, a1, rfl, rfl, rfl, a2.data, rfl, a2.stands⟩

/-- The calls of a program are those of the reader: what each of them runs. -/
theorem c155_calls (dev : Dev R) (fuel : Nat) (r : LAcc R) (u : Use) :
    (Prog.call u .done).run Live.data (fun r u => stepCall dev fuel r u.call) r = (match u with
      | .read n => do
        let (x, r) ← Live.read dev r n
        return (match x with | .ok l => .bytes l | .error e => .err e, r)
      | .readExact n => do
        let (x, r) ← Io.readExact (Live.read dev) fuel r n
        return (match x with | .ok l => .bytes l | .error e => .err e, r)
      | .fillBuf => do
        let (x, r) ← Live.fillBuf dev r
        return (match x with | .ok l => .shown l | .error e => .err e, r)
      | .consume k => do
        let w ← Live.data r
        return (.bytes (w.take k), Live.consume r k)
      | .grow k => return (.unit, Live.grow r k)
      | .seek sf => do
        let (x, r) ← Live.seek dev r sf
        return (match x with | .ok p => .pos p | .error e => .err e, r)) := by
  cases u with
  | read n =>
    simp only [Prog.run, Use.call, stepCall, step]
    cases Live.read dev r n with
    | error p => rfl
    | ok y => obtain ⟨x, r⟩ := y; cases x <;> rfl
  | readExact n =>
    simp only [Prog.run, Use.call, stepCall, step]
    cases Io.readExact (Live.read dev) fuel r n with
    | error p => rfl
    | ok y => obtain ⟨x, r⟩ := y; cases x <;> rfl
  | fillBuf =>
    simp only [Prog.run, Use.call, stepCall, step]
    cases Live.fillBuf dev r with
    | error p => rfl
    | ok y => obtain ⟨x, r⟩ := y; cases x <;> rfl
  | consume k =>
    simp only [Prog.run, Use.call, stepCall]
    cases Live.data r <;> rfl
  | grow k => rfl
  | seek sf =>
    simp only [Prog.run, Use.call, stepCall, step]
    cases Live.seek dev r sf with
    | error p => rfl
    | ok y => obtain ⟨x, r⟩ := y; cases x <;> rfl

/-- The first call of a `read` of two bytes, and of a `fill_buf`, on three bytes with a buffer of four. -/
example : (((Prog.call (.read 2) .done).run Live.data (fun r u => stepCall (memory [1, 2, 3]) 9 r u.call) (withCapacity 4 0)).map (·.1)
      : Rust Out) = .ok (.bytes [1, 2]) ∧
    (((Prog.call .fillBuf .done).run Live.data (fun r u => stepCall (memory [1, 2, 3]) 9 r u.call) (withCapacity 4 0)).map (·.1)
      : Rust Out) = .ok (.shown [1, 2, 3]) := by
  decide +kernel

/-- A demuxer that looks at the buffer, consumes, reads, and steps back relatively: a packet is what is buffered, the next
byte, and whether there was a byte to read. -/
def restless : Script Nat where
  headers d info := .call .fillBuf fun _ => .data fun w => .done (.ok (.start (w.length - 1)), d, info)
  event d := .data fun w => .call (.consume 1) fun _ => .call (.read 2) fun
    | .bytes l => .done (.ok (if d % 2 = 0 then .current 0 else .current (-1), .NewPacket { Packet.new with data := w ++ l }), d + 1)
    | _ => .panics .explicit

/-- C155 on it: the reader and the queue, with a buffer of two bytes. -/
example : Bounded (memory [1, 2, 3, 4, 5, 6, 7]) ∧
    (match readHeaders (restless.onAcc (memory [1, 2, 3, 4, 5, 6, 7]) 9) (buffered (memory [1, 2, 3, 4, 5, 6, 7])) 9
        (Context.new 0 (withCapacity 2 0)) with
      | .ok (.ok (), c) => (match readEvents (restless.onAcc (memory [1, 2, 3, 4, 5, 6, 7]) 9)
            (buffered (memory [1, 2, 3, 4, 5, 6, 7])) 9 4 c with
        | .ok (xs, c) => decide (xs.map (fun | .ok (.NewPacket p) => p.data | _ => []) =
            [[2, 3, 4], [5, 6], [6, 7, 7], []] ∧ c.demuxer = 4)
        | _ => false)
      | _ => false) = true := by
  exact ⟨(memory_prompt _).bounded, by decide +kernel⟩

end Verif.Live
