import Verif.Live.Props

/-!
# Property C137: `AccReader` is a queue, whatever the reader below it

Nothing is assumed of the inner reader but that a read returns no more than was asked for: it may be a pipe, a file that is
rewritten while it is read, or one that the owner moves or replaces with `get_mut` between the calls.
-/

namespace Verif.Live
open Verif Verif.Io Verif.Acc

variable {R : Type}

/-- A call of the public API; `consume` may be given any number, and between calls the owner of the reader may do what they
like with the inner reader (`get_mut`, accreader.rs:46-49). -/
inductive Call (R : Type)
  | op (o : Op) | consume (k : Nat) | getMut (f : R → R)

/-- One call. What `consume` drops counts as delivered. -/
def stepCall (dev : Dev R) (fuel : Nat) (r : LAcc R) : Call R → Rust (Out × LAcc R)
  | .op o => step dev fuel r o
  | .consume k => do
    let w ← data r
    return (.bytes (w.take k), consume r k)
  | .getMut f => .ok (.unit, { r with inner := f r.inner })

/-- A history of calls. -/
def runCalls (dev : Dev R) (fuel : Nat) (r : LAcc R) : List (Call R) → Rust (List Out × LAcc R)
  | [] => .ok ([], r)
  | c :: cs => do
    let (o, r) ← stepCall dev fuel r c
    let (os, r) ← runCalls dev fuel r cs
    return (o :: os, r)

/-! ### the specification -/

/-- A queue of at most `size` bytes in front of a reader, and the position reported. -/
structure Queue (R : Type) where
  inner : R
  q : List U8
  size : Nat
  pos : Nat

/-- Fill up the queue with one read, if there is room. -/
def Queue.fill (dev : Dev R) (b : Queue R) : Except IoErr (List U8) × Queue R :=
  if b.q.length < b.size then
    match dev.read b.inner (b.size - b.q.length) with
    | (.error e, s) => (.error e, { b with inner := s })
    | (.ok l, s) => (.ok (b.q ++ l), { b with inner := s, q := b.q ++ l })
  else (.ok b.q, b)

/-- Take `k` bytes, or all. -/
def Queue.take (b : Queue R) (k : Nat) : Queue R := { b with q := b.q.drop k, pos := b.pos + min k b.q.length }

/-- From the queue, if it has more than that; all of it and one read behind it, if that is more than it can hold; otherwise
fill it first. -/
def Queue.read (dev : Dev R) (b : Queue R) (n : Nat) : Except IoErr (List U8) × Queue R :=
  if n < b.q.length then (.ok (b.q.take n), b.take n)
  else if b.size < n then
    match dev.read b.inner (n - b.q.length) with
    | (.error e, s) => (.error e, { b with inner := s })
    | (.ok l, s) => (.ok (b.q ++ l), { b with inner := s, q := [], pos := b.pos + (b.q ++ l).length })
  else
    match b.fill dev with
    | (.error e, b) => (.error e, b)
    | (.ok l, b) => (.ok (l.take n), b.take n)

/-- Give up the queue, seek with the inner reader, and fill the queue again. -/
def Queue.leave (dev : Dev R) (b : Queue R) (sf : SeekFrom) : Except IoErr Nat × Queue R :=
  match dev.seek b.inner sf with
  | (.error e, s) => (.error e, { b with inner := s })
  | (.ok m, s) =>
    match ({ b with inner := s, q := [], pos := m } : Queue R).fill dev with
    | (.error e, b) => (.error e, b)
    | (.ok _, b) => (.ok m, b)

/-- Skip in the queue if the goal is in it. -/
def Queue.seek (dev : Dev R) (b : Queue R) : SeekFrom → Except IoErr Nat × Queue R
  | .start n =>
    if b.pos ≤ n ∧ n < b.pos + b.q.length then (.ok n, b.take (n - b.pos)) else b.leave dev (.start n)
  | .end d => b.leave dev (.end d)
  | .current d =>
    if d < 0 then b.leave dev (.current d)
    else if d.toNat ≤ b.q.length then (.ok (b.pos + d.toNat), b.take d.toNat)
    else b.leave dev (.current (d - b.q.length))

def outBytes (x : Except IoErr (List U8)) : Out :=
  match x with
  | .error e => .err e
  | .ok l => .bytes l

def Queue.step (dev : Dev R) (fuel : Nat) (b : Queue R) : Call R → Rust (Out × Queue R)
  | .op (.read n) => .ok (outBytes (b.read dev n).1, (b.read dev n).2)
  | .op (.readExact n) => do
    let (x, b) ← readExact (fun b n => .ok (Queue.read dev b n)) fuel b n
    return (outBytes x, b)
  | .op .fillBuf =>
    .ok (match (b.fill dev).1 with
      | .error e => .err e
      | .ok l => .shown l, (b.fill dev).2)
  | .op (.consume k) => .ok (.bytes (b.q.take k), b.take k)
  | .op (.grow k) => .ok (.unit, { b with size := b.size + k })
  | .op .reset => .ok (.unit, b)
  | .op (.seek sf) =>
    .ok (match (b.seek dev sf).1 with
      | .error e => .err e
      | .ok n => .pos n, (b.seek dev sf).2)
  | .consume k => .ok (.bytes (b.q.take k), { b with q := b.q.drop k, pos := b.pos + k })
  | .getMut f => .ok (.unit, { b with inner := f b.inner })

def Queue.run (dev : Dev R) (fuel : Nat) (b : Queue R) : List (Call R) → Rust (List Out × Queue R)
  | [] => .ok ([], b)
  | c :: cs => do
    let (o, b) ← b.step dev fuel c
    let (os, b) ← b.run dev fuel cs
    return (o :: os, b)

/-- The contract of `Read`: no more than was asked for. -/
def Bounded (dev : Dev R) : Prop := ∀ s n l, (dev.read s n).1 = .ok l → l.length ≤ n

/-! ### the proof -/

/-- What of an `AccReader` can be seen. -/
def view (r : LAcc R) : Queue R := ⟨r.inner, win r, r.buf.length, r.index⟩

/-- Positions in order. -/
def Tidy (r : LAcc R) : Prop := r.pos ≤ r.end ∧ r.end ≤ r.buf.length

theorem Tidy.length {r : LAcc R} (h : Tidy r) : (win r).length = r.end - r.pos := by
  obtain ⟨_, _⟩ := h
  simp only [win, List.length_take, List.length_drop]; omega

theorem Tidy.data {r : LAcc R} (h : Tidy r) : Live.data r = .ok (win r) := by
  simp only [Live.data, sliceRange, h.1, h.2, and_self, if_true]; rfl

theorem Tidy.consume {r : LAcc R} (h : Tidy r) (k : Nat) : Tidy (consume r k) ∧
    view (Live.consume r k) = { view r with q := (win r).drop k, pos := r.index + k } := by
  obtain ⟨h1, h2⟩ := h
  refine ⟨⟨by simp only [Live.consume]; omega, h2⟩, ?_⟩
  simp only [view, Live.consume, Queue.mk.injEq, true_and, and_true]
  simp only [win]
  rw [List.drop_take, List.drop_drop]
  by_cases hk : r.pos + k ≤ r.end
  · rw [show min (r.pos + k) r.end = r.pos + k by omega]
    congr 1; omega
  · rw [show min (r.pos + k) r.end = r.end by omega, show r.end - r.pos - k = 0 by omega]
    simp

theorem Tidy.reset {r : LAcc R} (h : Tidy r) : ∃ r', resetBufferPosition r = .ok r' ∧ Tidy r' ∧ r'.pos = 0 ∧
    r'.end = (win r).length ∧ view r' = view r := by
  have hl := h.length
  obtain ⟨h1, h2⟩ := h
  unfold resetBufferPosition
  rw [usub_ok h1]
  simp only [ok_bind]
  by_cases hw : r.end - r.pos > 0
  · have hs : sliceRange r.buf r.pos r.end = .ok (win r) := Tidy.data ⟨h1, h2⟩
    simp only [hw, if_true, copyWithin0, hs, ok_bind, pure_eq_ok]
    have hwin : ((win r ++ r.buf.drop (win r).length).drop 0).take (r.end - r.pos - 0) = win r := by
      rw [List.drop_zero, Nat.sub_zero, ← hl, List.take_left]
    have hlen : (win r ++ r.buf.drop (win r).length).length = r.buf.length := by
      simp only [List.length_append, List.length_drop]; omega
    refine ⟨_, rfl, ⟨Nat.zero_le _, by simp only [hlen]; omega⟩, rfl, hl.symm, ?_⟩
    simp only [view, hlen, Queue.mk.injEq, true_and, and_true]
    exact hwin
  · simp only [hw, if_false, ok_bind, pure_eq_ok]
    have h0 : r.end - r.pos = 0 := by omega
    refine ⟨_, rfl, ⟨Nat.zero_le _, by simp only; omega⟩, rfl, hl.symm, ?_⟩
    simp only [view, Queue.mk.injEq, true_and, and_true]
    simp [win, h0]

/-- A call of `AccReader` is the call of the queue. -/
def Does {X : Type} (f : Rust (X × LAcc R)) (g : X × Queue R) : Prop :=
  ∃ r', f = .ok (g.1, r') ∧ Tidy r' ∧ view r' = g.2

variable {dev : Dev R}

theorem fill_does (hb : Bounded dev) {r : LAcc R} (h : Tidy r) : Does (fillBuf dev r) ((view r).fill dev) := by
  have hl := h.length
  have hsz : (view r).size = r.buf.length := rfl
  have hq : (view r).q = win r := rfl
  unfold fillBuf
  by_cases hc : r.pos ≠ 0 ∨ r.end ≠ r.buf.length
  · rw [if_pos hc]
    obtain ⟨r1, a1, a2, a3, a4, a5⟩ := h.reset
    have hroom : (win r).length < r.buf.length := by have := h.1; have := h.2; omega
    have e1 : r1.inner = r.inner := congrArg Queue.inner a5
    have e2 : win r1 = win r := congrArg Queue.q a5
    have e3 : r1.buf.length = r.buf.length := congrArg Queue.size a5
    have e4 : r1.index = r.index := congrArg Queue.pos a5
    rw [a1]
    simp only [ok_bind, sliceFrom_ok a2.2]
    unfold Queue.fill
    rw [if_pos (by rw [hsz, hq]; exact hroom)]
    have hn : (r1.buf.drop r1.end).length = (view r).size - (view r).q.length := by
      rw [List.length_drop, e3, a4]; rfl
    rw [hn, e1]
    change Does (match dev.read r.inner _ with
      | (.error e, inner) => _
      | (.ok l, inner) => _) (match dev.read r.inner _ with
      | (.error e, inner) => _
      | (.ok l, inner) => _)
    cases hr : dev.read r.inner ((view r).size - (view r).q.length) with
    | mk x s =>
      cases x with
      | error e =>
        refine ⟨{ r1 with inner := s }, rfl, a2, ?_⟩
        simp only [view, e3, e4, Queue.mk.injEq, true_and, and_true]
        exact e2
      | ok l =>
        have hll := hb r.inner ((view r).size - (view r).q.length) l (by rw [hr])
        have hll' : l.length ≤ r.buf.length - (win r).length := hll
        have hw1 : r1.buf.take r1.end = win r := by rw [← e2]; simp [win, a3]
        simp only [hw1]
        have hlen : (win r ++ l ++ r1.buf.drop (r1.end + l.length)).length = r.buf.length := by
          simp only [List.length_append, List.length_drop, e3, a4]; omega
        have ht : Tidy (⟨s, win r ++ l ++ r1.buf.drop (r1.end + l.length), r1.pos, r1.end + l.length, r1.index⟩ : LAcc R) := by
          refine ⟨by simp only [a3]; omega, ?_⟩
          have h3 := hlen
          simp only; rw [h3]; omega
        have hwin : win (⟨s, win r ++ l ++ r1.buf.drop (r1.end + l.length), r1.pos, r1.end + l.length, r1.index⟩ : LAcc R) = win r ++ l := by
          simp only [win, a3, List.drop_zero, Nat.sub_zero]
          rw [show r1.end + l.length = (win r ++ l).length by rw [List.length_append, a4]]
          exact List.take_left
        rw [ht.data]
        simp only [ok_bind, pure_eq_ok]
        refine ⟨_, by rw [hwin]; rfl, ht, ?_⟩
        rw [view, hwin]
        simp only [hlen, e4]
        rfl
  · rw [if_neg hc]
    have hroom : ¬ (win r).length < r.buf.length := by
      have := h.1; have := h.2; omega
    unfold Queue.fill
    rw [if_neg (by rw [hsz, hq]; exact hroom), h.data]
    exact ⟨r, rfl, h, rfl⟩

theorem take_view {r : LAcc R} (h : Tidy r) (k : Nat) (hk : k ≤ (win r).length) :
    Tidy (consume r k) ∧ view (consume r k) = (view r).take k := by
  obtain ⟨h1, h2⟩ := h.consume k
  refine ⟨h1, h2.trans ?_⟩
  simp only [Queue.take, view, Queue.mk.injEq, true_and]
  omega

theorem read_does (hb : Bounded dev) {r : LAcc R} (h : Tidy r) (n : Nat) :
    Does (read dev r n) ((view r).read dev n) := by
  have hl := h.length
  have hq : (view r).q = win r := rfl
  unfold read Queue.read
  rw [usub_ok h.1]
  simp only [ok_bind]
  by_cases h1 : n < r.end - r.pos
  · rw [if_pos h1, if_pos (show n < (view r).q.length by rw [hq]; omega)]
    have hs : sliceRange r.buf r.pos (r.pos + n) = .ok ((win r).take n) := by
      have := h.2
      simp only [sliceRange]
      rw [if_pos (by omega)]
      simp only [win, Except.ok.injEq]
      rw [List.take_take]
      congr 1; omega
    rw [hs]
    simp only [ok_bind, pure_eq_ok]
    have hln : ((win r).take n).length = n := by rw [List.length_take]; omega
    rw [hln]
    obtain ⟨c1, c2⟩ := take_view h n (by omega)
    exact ⟨_, rfl, c1, c2⟩
  · rw [if_neg h1, if_neg (show ¬ n < (view r).q.length by rw [hq]; omega)]
    by_cases h2 : n > r.buf.length
    · rw [if_pos h2, if_pos (show (view r).size < n from h2)]
      have hs : sliceRange r.buf r.pos r.end = .ok (win r) := h.data
      rw [hs, usub_ok (show r.end - r.pos ≤ n by omega)]
      simp only [ok_bind]
      rw [List.take_of_length_le (show (win r).length ≤ n by omega)]
      rw [show r.end - r.pos = (view r).q.length by rw [hq]; exact hl.symm]
      change Does (match dev.read r.inner _ with
        | (.error e, inner) => _
        | (.ok l, inner) => _) (match dev.read r.inner _ with
        | (.error e, inner) => _
        | (.ok l, inner) => _)
      cases hr : dev.read r.inner (n - (view r).q.length) with
      | mk x s =>
        cases x with
        | error e => exact ⟨_, rfl, h, rfl⟩
        | ok l =>
          have ht : Tidy ({ r with inner := s } : LAcc R) := h
          obtain ⟨c1, c2⟩ := ht.consume (l.length + (win r).length)
          obtain ⟨r1, d1, d2, _, _, d5⟩ := c1.reset
          simp only [d1, ok_bind, pure_eq_ok]
          refine ⟨r1, rfl, d2, d5.trans (c2.trans ?_)⟩
          have hwn : win ({ r with inner := s } : LAcc R) = win r := rfl
          simp only [view, hwn, Queue.mk.injEq, true_and, List.length_append]
          refine ⟨List.drop_eq_nil_of_le (by omega), by omega⟩
    · rw [if_neg h2, if_neg (show ¬ (view r).size < n from h2)]
      obtain ⟨r1, a1, a2, a3⟩ := fill_does hb h
      rw [a1]
      simp only [ok_bind]
      cases hf : (view r).fill dev with
      | mk x b =>
        rw [hf] at a3
        simp only at a3
        cases x with
        | error e => exact ⟨r1, rfl, a2, a3⟩
        | ok l =>
          have hlb : l = b.q := by
            revert hf
            unfold Queue.fill
            split
            · split <;> intro hf <;> cases hf
              rfl
            · intro hf; cases hf; rfl
          have hlw : l = win r1 := by rw [hlb, ← a3]; rfl
          obtain ⟨c1, c2⟩ := a2.consume (l.take n).length
          refine ⟨_, rfl, c1, c2.trans ?_⟩
          rw [← a3, hlw]
          simp only [Queue.take, view, Queue.mk.injEq, true_and, List.length_take]
          refine ⟨?_, trivial⟩
          by_cases hn : n ≤ (win r1).length
          · rw [Nat.min_eq_left hn]
          · rw [Nat.min_eq_right (by omega), List.drop_length, List.drop_eq_nil_of_le (by omega)]

theorem leave_does (hb : Bounded dev) {r : LAcc R} (h : Tidy r) (sf : SeekFrom) :
    Does (seekInner dev r sf) ((view r).leave dev sf) := by
  unfold seekInner Queue.leave
  change Does (match dev.seek r.inner _ with
    | (.error e, inner) => _
    | (.ok l, inner) => _) (match dev.seek r.inner _ with
    | (.error e, inner) => _
    | (.ok l, inner) => _)
  cases hr : dev.seek r.inner sf with
  | mk x s =>
    cases x with
    | error e => exact ⟨_, rfl, h, rfl⟩
    | ok m =>
      simp only
      have ht : Tidy ({ r with inner := s, index := m, pos := 0, «end» := 0 } : LAcc R) :=
        ⟨Nat.le_refl _, Nat.zero_le _⟩
      have hv : view ({ r with inner := s, index := m, pos := 0, «end» := 0 } : LAcc R) =
          { view r with inner := s, q := [], pos := m } := by
        simp [view, win]
      obtain ⟨r1, a1, a2, a3⟩ := fill_does hb ht
      rw [hv] at a1 a3
      rw [a1]
      simp only [ok_bind]
      cases hf : ({ view r with inner := s, q := [], pos := m } : Queue R).fill dev with
      | mk x b =>
        rw [hf] at a3
        simp only at a3
        cases x with
        | error e => exact ⟨r1, rfl, a2, a3⟩
        | ok l => exact ⟨r1, rfl, a2, a3⟩

theorem skip_view {r : LAcc R} (h : Tidy r) (k : Nat) (hk : k ≤ (win r).length) :
    Tidy ({ r with pos := r.pos + k, index := r.index + k } : LAcc R) ∧
    view ({ r with pos := r.pos + k, index := r.index + k } : LAcc R) = (view r).take k := by
  have hl := h.length
  have he : ({ r with pos := r.pos + k, index := r.index + k } : LAcc R) = consume r k := by
    simp only [consume, LAcc.mk.injEq, true_and, and_true]
    have := h.1
    omega
  rw [he]
  exact take_view h k hk

theorem seek_does (hb : Bounded dev) {r : LAcc R} (h : Tidy r) (sf : SeekFrom) :
    Does (seek dev r sf) ((view r).seek dev sf) := by
  have hl := h.length
  have hpe := h.1
  have hq : (view r).q = win r := rfl
  have hp : (view r).pos = r.index := rfl
  cases sf with
  | «end» d => exact leave_does hb h (.end d)
  | start n =>
    simp only [seek, Queue.seek, hq, hp]
    by_cases h1 : n ≥ r.index
    · rw [if_pos h1, usub_ok (show r.pos ≤ r.index + r.end by omega)]
      simp only [ok_bind]
      by_cases h2 : n < r.index + r.end - r.pos
      · rw [if_pos h2, if_pos (by omega)]
        obtain ⟨c1, c2⟩ := skip_view h (n - r.index) (by omega)
        rw [show r.index + (n - r.index) = n by omega] at c1 c2
        exact ⟨_, rfl, c1, c2⟩
      · rw [if_neg h2, if_neg (by omega)]
        exact leave_does hb h _
    · rw [if_neg h1, if_neg (by omega)]
      exact leave_does hb h _
  | current d =>
    simp only [seek, Queue.seek, hq, hp]
    rw [usub_ok h.1]
    simp only [ok_bind]
    by_cases h1 : d ≥ 0
    · rw [if_pos h1, if_neg (show ¬ d < 0 by omega)]
      by_cases h2 : d.toNat ≤ r.end - r.pos
      · rw [if_pos h2, if_pos (by omega)]
        obtain ⟨c1, c2⟩ := skip_view h d.toNat (by omega)
        exact ⟨_, rfl, c1, c2⟩
      · rw [if_neg h2, if_neg (by omega), hl]
        exact leave_does hb h _
    · rw [if_neg h1, if_pos (by omega)]
      exact leave_does hb h _

/-- The same for a call that may run out of fuel. -/
def Agree {X : Type} (f : Rust (X × LAcc R)) (g : Rust (X × Queue R)) : Prop :=
  match g with
  | .error p => f = .error p
  | .ok x => Does f x

theorem readExact_agree (hb : Bounded dev) (fuel : Nat) {r : LAcc R} (h : Tidy r) (n : Nat) :
    Agree (readExact (read dev) fuel r n) (readExact (fun b n => .ok (Queue.read dev b n)) fuel (view r) n) := by
  induction fuel generalizing r n with
  | zero => rfl
  | succ fuel ih =>
    unfold readExact
    by_cases h0 : n = 0
    · rw [if_pos h0, if_pos h0]; exact ⟨r, rfl, h, rfl⟩
    · rw [if_neg h0, if_neg h0]
      obtain ⟨r1, a1, a2, a3⟩ := read_does hb h n
      rw [a1]
      simp only [ok_bind]
      rw [← a3]
      cases hx : ((view r).read dev n).1 with
      | error e =>
        by_cases he : e = .interrupted
        · subst he; exact ih a2 n
        · have e1 : ∀ {Y : Type} (A B : Y), (match (Except.error e : Except IoErr (List U8)) with
              | .error .interrupted => A | .error _ => B | .ok _ => B) = B := by
            intro Y A B; cases e <;> first | rfl | exact absurd rfl he
          cases e <;> first | exact absurd rfl he | exact ⟨r1, rfl, a2, rfl⟩
      | ok l =>
        cases l with
        | nil => exact ⟨r1, rfl, a2, rfl⟩
        | cons x l =>
          simp only
          have hi := ih a2 (n - (x :: l).length)
          unfold Agree at hi ⊢
          cases hg : readExact (fun b n => .ok (Queue.read dev b n)) fuel (view r1) (n - (x :: l).length) with
          | error p =>
            rw [hg] at hi
            simp only at hi
            rw [hi]
            rfl
          | ok y =>
            rw [hg] at hi
            obtain ⟨r2, b1, b2, b3⟩ := hi
            rw [b1]
            simp only [ok_bind]
            obtain ⟨y, b⟩ := y
            cases y with
            | error e => exact ⟨r2, rfl, b2, b3⟩
            | ok l2 => exact ⟨r2, rfl, b2, b3⟩

theorem stepCall_agree (hb : Bounded dev) (fuel : Nat) {r : LAcc R} (h : Tidy r) (c : Call R) :
    Agree (stepCall dev fuel r c) ((view r).step dev fuel c) := by
  have hq : (view r).q = win r := rfl
  cases c with
  | op o =>
    cases o with
    | read n =>
      obtain ⟨r1, a1, a2, a3⟩ := read_does hb h n
      simp only [stepCall, step, Queue.step, a1, ok_bind, Agree, Does]
      refine ⟨r1, ?_, a2, a3⟩
      cases ((view r).read dev n).1 <;> rfl
    | readExact n =>
      have hi := readExact_agree hb fuel h n
      simp only [stepCall, step, Queue.step]
      unfold Agree at hi ⊢
      cases hg : readExact (fun b n => .ok (Queue.read dev b n)) fuel (view r) n with
      | error p =>
        rw [hg] at hi
        simp only at hi
        rw [hi]
        rfl
      | ok y =>
        rw [hg] at hi
        obtain ⟨r2, b1, b2, b3⟩ := hi
        rw [b1]
        obtain ⟨y, b⟩ := y
        simp only [ok_bind, pure_eq_ok]
        refine ⟨r2, ?_, b2, b3⟩
        cases y <;> rfl
    | fillBuf =>
      obtain ⟨r1, a1, a2, a3⟩ := fill_does hb h
      simp only [stepCall, step, Queue.step, a1, ok_bind, Agree, Does]
      refine ⟨r1, ?_, a2, a3⟩
      cases ((view r).fill dev).1 <;> rfl
    | consume k =>
      simp only [stepCall, step, Queue.step, h.data, ok_bind, pure_eq_ok, Agree, hq]
      obtain ⟨c1, c2⟩ := take_view h ((win r).take k).length (by rw [List.length_take]; omega)
      refine ⟨_, rfl, c1, c2.trans ?_⟩
      simp only [Queue.take, hq, List.length_take, Queue.mk.injEq, true_and]
      refine ⟨?_, by omega⟩
      by_cases hn : k ≤ (win r).length
      · rw [Nat.min_eq_left hn]
      · rw [Nat.min_eq_right (by omega), List.drop_length, List.drop_eq_nil_of_le (by omega)]
    | grow k =>
      refine ⟨_, rfl, ⟨h.1, ?_⟩, ?_⟩
      · have := h.2
        simp only [grow, List.length_append, List.length_replicate]; omega
      · have h1 := h.1
        have h2 := h.2
        simp only [view, grow, Queue.mk.injEq, true_and, and_true, List.length_append, List.length_replicate]
        simp only [win]
        rw [List.drop_append_of_le_length (by omega), List.take_append_of_le_length (by rw [List.length_drop]; omega)]
    | reset =>
      obtain ⟨r1, a1, a2, _, _, a5⟩ := h.reset
      simp only [stepCall, step, a1, ok_bind, pure_eq_ok]
      exact ⟨r1, rfl, a2, a5⟩
    | seek sf =>
      obtain ⟨r1, a1, a2, a3⟩ := seek_does hb h sf
      simp only [stepCall, step, Queue.step, a1, ok_bind, Agree, Does]
      refine ⟨r1, ?_, a2, a3⟩
      cases ((view r).seek dev sf).1 <;> rfl
  | consume k =>
    simp only [stepCall, h.data, ok_bind, pure_eq_ok]
    obtain ⟨c1, c2⟩ := h.consume k
    exact ⟨_, rfl, c1, c2⟩
  | getMut f => exact ⟨_, rfl, h, rfl⟩

theorem runCalls_agree (hb : Bounded dev) (fuel : Nat) {r : LAcc R} (h : Tidy r) (cs : List (Call R)) :
    Agree (runCalls dev fuel r cs) ((view r).run dev fuel cs) := by
  induction cs generalizing r with
  | nil => exact ⟨r, rfl, h, rfl⟩
  | cons c cs ih =>
    have hi := stepCall_agree hb fuel h c
    simp only [runCalls, Queue.run]
    unfold Agree at hi ⊢
    cases hg : (view r).step dev fuel c with
    | error p =>
      rw [hg] at hi
      simp only at hi
      rw [hi]; rfl
    | ok y =>
      rw [hg] at hi
      obtain ⟨o, b⟩ := y
      obtain ⟨r1, b1, b2, b3⟩ := hi
      simp only at b1 b3
      subst b3
      rw [b1]
      simp only [ok_bind]
      have hj := ih b2
      unfold Agree at hj
      cases hk : (view r1).run dev fuel cs with
      | error p =>
        rw [hk] at hj
        simp only at hj
        rw [hj]; rfl
      | ok z =>
        rw [hk] at hj
        obtain ⟨os, b'⟩ := z
        obtain ⟨r2, c1, c2, c3⟩ := hj
        rw [c1]
        exact ⟨r2, rfl, c2, c3⟩

theorem withCapacity_tidy (cap : Nat) (s : R) : Tidy (withCapacity cap s) ∧ view (withCapacity cap s) = ⟨s, [], cap, 0⟩ := by
  refine ⟨⟨Nat.le_refl _, Nat.zero_le _⟩, ?_⟩
  simp [view, win, withCapacity]

theorem Tidy.stands {r : LAcc R} (h : Tidy r) : Stands dev r r.index := by
  unfold Stands seek
  simp only [usub_ok h.1, ok_bind]
  simp

theorem readExact_fuel (fuel : Nat) (b : Queue R) (n : Nat) (p : Panic)
    (h : readExact (fun b n => .ok (Queue.read dev b n)) fuel b n = .error p) : p = .fuel := by
  induction fuel generalizing b n with
  | zero => cases h; rfl
  | succ fuel ih =>
    unfold readExact at h
    by_cases h0 : n = 0
    · rw [if_pos h0] at h; cases h
    · rw [if_neg h0] at h
      simp only [ok_bind] at h
      cases hx : (b.read dev n).1 with
      | error e =>
        rw [hx] at h
        cases e <;> first | exact ih _ _ h | cases h
      | ok l =>
        rw [hx] at h
        cases l with
        | nil => cases h
        | cons x l =>
          simp only at h
          cases hg : readExact (fun b n => .ok (Queue.read dev b n)) fuel (b.read dev n).2 (n - (x :: l).length) with
          | error q => rw [hg] at h; cases h; exact ih _ _ hg
          | ok y =>
            rw [hg] at h
            obtain ⟨y, b'⟩ := y
            cases y <;> cases h

theorem run_fuel (fuel : Nat) (b : Queue R) (cs : List (Call R)) (p : Panic) (h : b.run dev fuel cs = .error p) :
    p = .fuel ∧ ∃ n, .op (.readExact n) ∈ cs := by
  induction cs generalizing b with
  | nil => cases h
  | cons c cs ih =>
    simp only [Queue.run] at h
    cases hs : b.step dev fuel c with
    | ok y =>
      rw [hs] at h
      obtain ⟨o, b1⟩ := y
      simp only [ok_bind] at h
      cases hr : b1.run dev fuel cs with
      | ok z => rw [hr] at h; cases h
      | error q =>
        rw [hr] at h
        cases h
        obtain ⟨h1, n, h2⟩ := ih _ hr
        exact ⟨h1, n, List.mem_cons_of_mem _ h2⟩
    | error q =>
      rw [hs] at h
      cases h
      cases c with
      | op o =>
        cases o with
        | readExact n =>
          simp only [Queue.step] at hs
          cases hg : readExact (fun b n => .ok (Queue.read dev b n)) fuel b n with
          | error q => rw [hg] at hs; cases hs; exact ⟨readExact_fuel _ _ _ _ hg, n, List.mem_cons_self ..⟩
          | ok y => rw [hg] at hs; cases hs
        | _ => cases hs
      | _ => cases hs

/-- **C137.** Over any reader whose reads return no more than was asked for, whatever else becomes of it during or between the
calls, `AccReader` is a queue in front of that reader: every history has the outcomes of the queue, what is buffered is
what is in the queue, the inner reader has got the same calls, and the position reported is the queue's. No history
panics; only `read_exact` can go on for ever, over a reader that is interrupted for ever. -/
theorem c137_queue (hb : Bounded dev) (s : R) (cap fuel : Nat) (cs : List (Call R)) :
    match (⟨s, [], cap, 0⟩ : Queue R).run dev fuel cs with
    | .error p => p = .fuel ∧ runCalls dev fuel (withCapacity cap s) cs = .error .fuel ∧ ∃ n, .op (.readExact n) ∈ cs
    | .ok (os, b) => ∃ r, runCalls dev fuel (withCapacity cap s) cs = .ok (os, r) ∧ r.inner = b.inner ∧
        data r = .ok b.q ∧ r.buf.length = b.size ∧ Stands dev r b.pos := by
  obtain ⟨h1, h2⟩ := withCapacity_tidy cap s
  have h := runCalls_agree hb fuel h1 cs
  rw [h2] at h
  unfold Agree at h
  cases hq : (⟨s, [], cap, 0⟩ : Queue R).run dev fuel cs with
  | error p =>
    rw [hq] at h
    obtain ⟨rfl, hn⟩ := run_fuel _ _ _ _ hq
    exact ⟨rfl, h, hn⟩
  | ok y =>
    rw [hq] at h
    obtain ⟨os, b⟩ := y
    obtain ⟨r, a1, a2, a3⟩ := h
    simp only at a3
    subst a3
    exact ⟨r, a1, rfl, a2.data, rfl, a2.stands⟩

/-! ### nothing is lost, repeated or reordered -/

/-- The same reader, with a record of all the bytes it has ever returned. -/
def logged (dev : Dev R) : Dev (R × List U8) where
  read s n :=
    match dev.read s.1 n with
    | (.ok l, s') => (.ok l, s', s.2 ++ l)
    | (.error e, s') => (.error e, s', s.2)
  seek s sf := ((dev.seek s.1 sf).1, (dev.seek s.1 sf).2, s.2)

/-- The same call; nobody but the reader writes the record. -/
def Call.logged : Call R → Call (R × List U8)
  | .op o => .op o
  | .consume k => .consume k
  | .getMut f => .getMut fun x => (f x.1, x.2)

def Queue.erase (b : Queue (R × List U8)) : Queue R := ⟨b.inner.1, b.q, b.size, b.pos⟩

theorem logged_bounded (hb : Bounded dev) : Bounded (logged dev) := by
  intro s n l h
  apply hb s.1 n l
  simp only [logged] at h
  cases hr : dev.read s.1 n with
  | mk x s' =>
    rw [hr] at h
    cases x with
    | error e => cases h
    | ok m => exact h

theorem fill_logged (b : Queue (R × List U8)) :
    (b.fill (logged dev)).1 = (b.erase.fill dev).1 ∧ (b.fill (logged dev)).2.erase = (b.erase.fill dev).2 ∧
    ∃ m, (b.fill (logged dev)).2.inner.2 = b.inner.2 ++ m ∧ b.q ++ m = (b.fill (logged dev)).2.q ∧
      ∀ l, (b.fill (logged dev)).1 = .ok l → l = (b.fill (logged dev)).2.q := by
  unfold Queue.fill
  by_cases h : b.q.length < b.size
  · rw [if_pos h, if_pos (show b.erase.q.length < b.erase.size from h)]
    simp only [logged, Queue.erase]
    cases hr : dev.read b.inner.1 (b.size - b.q.length) with
    | mk x s =>
      cases x with
      | error e => exact ⟨rfl, rfl, [], by simp, by simp, fun l hl => nomatch hl⟩
      | ok l => exact ⟨rfl, rfl, l, rfl, rfl, fun m hm => by cases hm; rfl⟩
  · rw [if_neg h, if_neg (show ¬ b.erase.q.length < b.erase.size from h)]
    exact ⟨rfl, rfl, [], by simp, by simp, fun m hm => by cases hm; rfl⟩

theorem read_logged (b : Queue (R × List U8)) (n : Nat) :
    (b.read (logged dev) n).1 = (b.erase.read dev n).1 ∧ (b.read (logged dev) n).2.erase = (b.erase.read dev n).2 ∧
    ∃ m, (b.read (logged dev) n).2.inner.2 = b.inner.2 ++ m ∧
      (∀ l, (b.read (logged dev) n).1 = .ok l → b.q ++ m = l ++ (b.read (logged dev) n).2.q) ∧
      ∀ e, (b.read (logged dev) n).1 = .error e → b.q ++ m = (b.read (logged dev) n).2.q := by
  unfold Queue.read
  by_cases h : n < b.q.length
  · rw [if_pos h, if_pos (show n < b.erase.q.length from h)]
    refine ⟨rfl, rfl, [], by simp [Queue.take], fun l hl => ?_, fun e he => nomatch he⟩
    cases hl
    simp [Queue.take]
  · rw [if_neg h, if_neg (show ¬ n < b.erase.q.length from h)]
    by_cases h2 : b.size < n
    · rw [if_pos h2, if_pos (show b.erase.size < n from h2)]
      simp only [logged, Queue.erase]
      cases hr : dev.read b.inner.1 (n - b.q.length) with
      | mk x s =>
        cases x with
        | error e => exact ⟨rfl, rfl, [], by simp, fun l hl => (nomatch hl), fun e he => by simp⟩
        | ok l => exact ⟨rfl, rfl, l, rfl, fun m hm => by cases hm; simp, fun e he => nomatch he⟩
    · rw [if_neg h2, if_neg (show ¬ b.erase.size < n from h2)]
      obtain ⟨a1, a2, m, a3, a4, a5⟩ := fill_logged (dev := dev) b
      cases hf : b.fill (logged dev) with
      | mk x c =>
        cases hf' : b.erase.fill dev with
        | mk x' c' =>
          rw [hf] at a1 a2 a3 a4 a5
          rw [hf'] at a1 a2
          simp only at a1 a2 a3 a4 a5
          subst a1 a2
          cases x with
          | error e => exact ⟨rfl, rfl, m, a3, fun l hl => (nomatch hl), fun e he => a4⟩
          | ok l =>
            refine ⟨rfl, rfl, m, a3, fun l' hl => ?_, fun e he => nomatch he⟩
            cases hl
            rw [a4, a5 l rfl]
            simp [Queue.take]

theorem leave_logged (b : Queue (R × List U8)) (sf : SeekFrom) :
    (b.leave (logged dev) sf).1 = (b.erase.leave dev sf).1 ∧
    (b.leave (logged dev) sf).2.erase = (b.erase.leave dev sf).2 := by
  unfold Queue.leave
  have e1 : (logged dev).seek b.inner sf = ((dev.seek b.erase.inner sf).1, (dev.seek b.erase.inner sf).2, b.inner.2) := rfl
  rw [e1]
  cases hr : dev.seek b.erase.inner sf with
  | mk x s =>
    cases x with
    | error e => exact ⟨rfl, rfl⟩
    | ok m =>
      obtain ⟨a1, a2, _⟩ := fill_logged (dev := dev) { b with inner := (s, b.inner.2), q := [], pos := m }
      have e2 : Queue.erase { b with inner := (s, b.inner.2), q := [], pos := m } =
        { b.erase with inner := s, q := [], pos := m } := rfl
      rw [e2] at a1 a2
      simp only
      cases hf : Queue.fill (logged dev) { b with inner := (s, b.inner.2), q := [], pos := m } with
      | mk x c =>
        cases hf' : Queue.fill dev { b.erase with inner := s, q := [], pos := m } with
        | mk x' c' =>
          rw [hf, hf'] at a1 a2
          simp only at a1 a2
          subst a1 a2
          cases x with
          | error e => exact ⟨rfl, rfl⟩
          | ok l => exact ⟨rfl, rfl⟩

theorem seek_logged (b : Queue (R × List U8)) (sf : SeekFrom) :
    (b.seek (logged dev) sf).1 = (b.erase.seek dev sf).1 ∧
    (b.seek (logged dev) sf).2.erase = (b.erase.seek dev sf).2 := by
  cases sf with
  | «end» d => exact leave_logged b _
  | start n =>
    simp only [Queue.seek]
    by_cases h : b.pos ≤ n ∧ n < b.pos + b.q.length
    · rw [if_pos h, if_pos (show b.erase.pos ≤ n ∧ n < b.erase.pos + b.erase.q.length from h)]
      exact ⟨rfl, rfl⟩
    · rw [if_neg h, if_neg (show ¬ (b.erase.pos ≤ n ∧ n < b.erase.pos + b.erase.q.length) from h)]
      exact leave_logged b _
  | current d =>
    simp only [Queue.seek]
    by_cases h : d < 0
    · rw [if_pos h, if_pos h]; exact leave_logged b _
    · rw [if_neg h, if_neg h]
      by_cases h2 : d.toNat ≤ b.q.length
      · rw [if_pos h2, if_pos (show d.toNat ≤ b.erase.q.length from h2)]
        exact ⟨rfl, rfl⟩
      · rw [if_neg h2, if_neg (show ¬ d.toNat ≤ b.erase.q.length from h2)]
        exact leave_logged b _

/-- What becomes of the record, for a call that succeeds or does not. -/
def Keeps (b b' : Queue (R × List U8)) (l : List U8) : Prop :=
  ∃ m, b'.inner.2 = b.inner.2 ++ m ∧ b.q ++ m = l ++ b'.q

theorem Keeps.trans {b b' b'' : Queue (R × List U8)} {l l' : List U8} (h : Keeps b b' l) (h' : Keeps b' b'' l') :
    Keeps b b'' (l ++ l') := by
  obtain ⟨m, h1, h2⟩ := h
  obtain ⟨m', h3, h4⟩ := h'
  refine ⟨m ++ m', by rw [h3, h1, List.append_assoc], ?_⟩
  rw [← List.append_assoc, h2, List.append_assoc, h4, List.append_assoc]

theorem readExact_logged (fuel : Nat) (b : Queue (R × List U8)) (n : Nat) :
    match readExact (fun b n => .ok (Queue.read (logged dev) b n)) fuel b n with
    | .error p => readExact (fun b n => .ok (Queue.read dev b n)) fuel b.erase n = .error p
    | .ok (x, b') => readExact (fun b n => .ok (Queue.read dev b n)) fuel b.erase n = .ok (x, b'.erase) ∧
        ∀ l, x = .ok l → Keeps b b' l := by
  induction fuel generalizing b n with
  | zero => rfl
  | succ fuel ih =>
    unfold readExact
    by_cases h0 : n = 0
    · rw [if_pos h0, if_pos h0]
      exact ⟨rfl, fun l hl => by cases hl; exact ⟨[], by simp, by simp⟩⟩
    · rw [if_neg h0, if_neg h0]
      simp only [ok_bind]
      obtain ⟨a1, a2, m, a3, a4, a5⟩ := read_logged (dev := dev) b n
      rw [← a1, ← a2]
      cases hx : (b.read (logged dev) n).1 with
      | error e =>
        cases e
        case interrupted =>
          simp only
          have hi := ih (b.read (logged dev) n).2 n
          cases hg : readExact (fun b n => .ok (Queue.read (logged dev) b n)) fuel (b.read (logged dev) n).2 n with
          | error p => rw [hg] at hi; exact hi
          | ok y =>
            rw [hg] at hi
            obtain ⟨x, b'⟩ := y
            refine ⟨hi.1, fun l hl => ?_⟩
            exact Keeps.trans (l := []) ⟨m, a3, by rw [a5 _ hx]; rfl⟩ (hi.2 l hl)
        all_goals exact ⟨rfl, fun l hl => nomatch hl⟩
      | ok l =>
        cases l with
        | nil => exact ⟨rfl, fun l hl => nomatch hl⟩
        | cons x l =>
          simp only
          have hi := ih (b.read (logged dev) n).2 (n - (x :: l).length)
          cases hg : readExact (fun b n => .ok (Queue.read (logged dev) b n)) fuel (b.read (logged dev) n).2
              (n - (x :: l).length) with
          | error p =>
            rw [hg] at hi
            simp only at hi
            rw [hi]; rfl
          | ok y =>
            rw [hg] at hi
            obtain ⟨y, b'⟩ := y
            simp only at hi
            rw [hi.1]
            simp only [ok_bind]
            cases y with
            | error e => exact ⟨rfl, fun l hl => nomatch hl⟩
            | ok l2 =>
              refine ⟨rfl, fun l' hl => ?_⟩
              cases hl
              exact Keeps.trans ⟨m, a3, a4 _ hx⟩ (hi.2 l2 rfl)

/-- The bytes a call delivered. -/
def Out.deliver : Out → List U8
  | .bytes l => l
  | _ => []

theorem step_logged (fuel : Nat) (b : Queue (R × List U8)) (c : Call R) :
    match b.step (logged dev) fuel c.logged with
    | .error p => b.erase.step dev fuel c = .error p
    | .ok (o, b') => b.erase.step dev fuel c = .ok (o, b'.erase) ∧
        ((∀ sf, c ≠ .op (.seek sf)) → (∀ n, c = .op (.readExact n) → ∀ e, o ≠ .err e) → Keeps b b' (Out.deliver o)) := by
  cases c with
  | op o =>
    cases o with
    | read n =>
      obtain ⟨a1, a2, m, a3, a4, a5⟩ := read_logged (dev := dev) b n
      simp only [Call.logged, Queue.step]
      refine ⟨by rw [← a1, ← a2], fun _ _ => ?_⟩
      cases hx : (b.read (logged dev) n).1 with
      | error e => exact ⟨m, a3, a5 e hx⟩
      | ok l => exact ⟨m, a3, a4 l hx⟩
    | readExact n =>
      have hi := readExact_logged (dev := dev) fuel b n
      simp only [Call.logged, Queue.step]
      cases hg : readExact (fun b n => .ok (Queue.read (logged dev) b n)) fuel b n with
      | error p =>
        rw [hg] at hi
        simp only at hi
        rw [hi]; rfl
      | ok y =>
        rw [hg] at hi
        obtain ⟨x, b'⟩ := y
        simp only at hi
        rw [hi.1]
        refine ⟨rfl, fun _ hne => ?_⟩
        cases x with
        | error e => exact absurd rfl (hne n rfl e)
        | ok l => exact hi.2 l rfl
    | fillBuf =>
      obtain ⟨a1, a2, m, a3, a4, a5⟩ := fill_logged (dev := dev) b
      simp only [Call.logged, Queue.step]
      refine ⟨by rw [← a1, ← a2], fun _ _ => ?_⟩
      cases hx : (b.fill (logged dev)).1 with
      | error e => exact ⟨m, a3, a4⟩
      | ok l => exact ⟨m, a3, a4⟩
    | consume k => exact ⟨rfl, fun _ _ => ⟨[], by simp [Queue.take], by simp [Queue.take, Out.deliver]⟩⟩
    | grow k => exact ⟨rfl, fun _ _ => ⟨[], by simp, by simp [Out.deliver]⟩⟩
    | reset => exact ⟨rfl, fun _ _ => ⟨[], by simp, by simp [Out.deliver]⟩⟩
    | seek sf =>
      obtain ⟨a1, a2⟩ := seek_logged (dev := dev) b sf
      simp only [Call.logged, Queue.step]
      exact ⟨by rw [← a1, ← a2], fun h _ => absurd rfl (h sf)⟩
  | consume k => exact ⟨rfl, fun _ _ => ⟨[], by simp, by simp [Out.deliver]⟩⟩
  | getMut f => exact ⟨rfl, fun _ _ => ⟨[], by simp, by simp [Out.deliver]⟩⟩

theorem delivered_cons (o : Out) (os : List Out) : delivered (o :: os) = Out.deliver o ++ delivered os := by
  cases o <;> simp [delivered, Out.deliver]

theorem run_logged (fuel : Nat) (b : Queue (R × List U8)) (cs : List (Call R)) :
    match b.run (logged dev) fuel (cs.map Call.logged) with
    | .error p => b.erase.run dev fuel cs = .error p
    | .ok (os, b') => b.erase.run dev fuel cs = .ok (os, b'.erase) ∧
        ((∀ sf, .op (.seek sf) ∉ cs) → ((∀ n, .op (.readExact n) ∉ cs) ∨ ∀ e, .err e ∉ os) →
          Keeps b b' (delivered os)) := by
  induction cs generalizing b with
  | nil => exact ⟨rfl, fun _ _ => ⟨[], by simp, by simp [delivered]⟩⟩
  | cons c cs ih =>
    have h1 := step_logged (dev := dev) fuel b c
    simp only [List.map_cons, Queue.run]
    cases hs : b.step (logged dev) fuel c.logged with
    | error p =>
      rw [hs] at h1
      simp only at h1
      rw [h1]; rfl
    | ok y =>
      rw [hs] at h1
      obtain ⟨o, b1⟩ := y
      simp only at h1
      rw [h1.1]
      simp only [ok_bind]
      have h2 := ih b1
      cases hr : b1.run (logged dev) fuel (cs.map Call.logged) with
      | error p =>
        rw [hr] at h2
        simp only at h2
        rw [h2]; rfl
      | ok z =>
        rw [hr] at h2
        obtain ⟨os, b2⟩ := z
        simp only at h2
        rw [h2.1]
        simp only [ok_bind, pure_eq_ok]
        refine ⟨trivial, fun hsk hex => ?_⟩
        rw [delivered_cons]
        refine (h1.2 (fun sf hsf => hsk sf (by rw [← hsf]; exact List.mem_cons_self ..)) ?_).trans
          (h2.2 (fun sf hsf => hsk sf (List.mem_cons_of_mem _ hsf)) ?_)
        · intro n hn e he
          rcases hex with hex | hex
          · exact hex n (by rw [← hn]; exact List.mem_cons_self ..)
          · exact hex e (by rw [← he]; exact List.mem_cons_self ..)
        · rcases hex with hex | hex
          · exact .inl fun n hn => hex n (List.mem_cons_of_mem _ hn)
          · exact .inr fun e he => hex e (List.mem_cons_of_mem _ he)

/-- **C137.** Nothing is lost, repeated or reordered: in every history without seeks, what was delivered and what is buffered
are together the bytes the inner reader has returned, in the order in which it returned them. (A failing `read_exact`
does not say what it has read, so it is left out.) -/
theorem c137_fifo (hb : Bounded dev) (s : R) (cap fuel : Nat) (cs : List (Call R)) (hs : ∀ sf, .op (.seek sf) ∉ cs)
    (os : List Out) (r : LAcc R) (hr : runCalls dev fuel (withCapacity cap s) cs = .ok (os, r))
    (hx : (∀ n, .op (.readExact n) ∉ cs) ∨ ∀ e, .err e ∉ os) :
    ∃ w r', data r = .ok w ∧
      runCalls (logged dev) fuel (withCapacity cap (s, [])) (cs.map Call.logged) = .ok (os, r') ∧
      r'.inner = (r.inner, delivered os ++ w) := by
  have h1 := c137_queue hb s cap fuel cs
  have h2 := c137_queue (logged_bounded hb) (s, []) cap fuel (cs.map Call.logged)
  have h3 := run_logged (dev := dev) fuel ⟨(s, []), [], cap, 0⟩ cs
  simp only [Queue.erase] at h3
  cases hq : (⟨(s, []), [], cap, 0⟩ : Queue (R × List U8)).run (logged dev) fuel (cs.map Call.logged) with
  | error p =>
    rw [hq] at h3
    simp only at h3
    rw [h3] at h1
    rw [hr] at h1
    cases h1.2.1
  | ok y =>
    obtain ⟨os', b⟩ := y
    rw [hq] at h2 h3
    simp only at h2 h3
    rw [h3.1] at h1
    simp only at h1
    obtain ⟨r1, a1, a2, a3, _⟩ := h1
    rw [hr] at a1
    cases a1
    obtain ⟨r2, b1, b2, _⟩ := h2
    obtain ⟨m, k1, k2⟩ := h3.2 hs hx
    simp only [List.nil_append] at k1 k2
    refine ⟨b.q, r2, a3, b1, ?_⟩
    rw [b2, a2, ← k2, ← k1]

/-- A pipe: a list of bytes that cannot seek. -/
def pipe : Dev (List U8) where
  read s n := (.ok (s.take n), s.drop n)
  seek s _ := (.error (.other 29), s)

theorem pipe_bounded : Bounded pipe := by
  intro s n l h
  cases h
  exact Nat.le_trans (List.length_take_le ..) (Nat.le_refl _)

/-- A pipe that is replaced by another while three of its bytes are still buffered: these come first. -/
example : ∃ r, runCalls pipe 9 (withCapacity 4 [1, 2, 3, 4, 5]) [.op (.read 1), .getMut fun _ => [7, 8], .op (.read 2),
      .op (.seek (.current (-1))), .op (.read 3), .consume 9, .op (.seek (.current 0))] =
      .ok ([.bytes [1], .unit, .bytes [2, 3], .err (.other 29), .bytes [4, 7, 8], .bytes [], .pos 15], r) :=
  ⟨_, rfl⟩

/-- and the record of that pipe, up to the seek. -/
example : ∃ w r', runCalls (logged pipe) 9 (withCapacity 4 ([1, 2, 3, 4, 5], []))
      ([Call.op (.read 1), .getMut fun _ => [7, 8], .op (.read 2)].map Call.logged) =
      .ok ([.bytes [1], .unit, .bytes [2, 3]], r') ∧ r'.inner = ([7, 8], [1] ++ [2, 3] ++ w) ∧ w = [4] := by
  obtain ⟨w, r', h1, h2, h3⟩ := c137_fifo pipe_bounded [1, 2, 3, 4, 5] 4 9
    [.op (.read 1), .getMut fun _ => [7, 8], .op (.read 2)] (fun sf h => by simp at h) _ _ rfl
    (.inl fun n h => by simp at h)
  refine ⟨w, r', h2, h3, ?_⟩
  cases h1
  rfl

end Verif.Live
