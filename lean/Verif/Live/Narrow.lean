import Verif.Live.Queue
import Verif.Live.Link
import Verif.Acc.Narrow

/-!
# C127, exactly: `AccReader` over any reader, on targets with any width of `usize`

The functions of `Verif.Acc.Narrow` over any reader, as `Verif.Live.Model` has those of `Verif.Acc.Model`; and the queue
they are, whose position has `b` bits.
-/

namespace Verif.Live
open Verif Verif.Io Verif.Acc

variable {R : Type} (t : Acc.Target) (dev : Dev R)

/-! ### the code -/

/-- accreader.rs:61-73 -/
def resetBufferPositionN (r : LAcc R) : Rust (LAcc R) := do
  let w ← t.ops.sub r.end r.pos
  let buf ← (if w > 0 then copyWithin0 r.buf r.pos r.end else .ok r.buf)
  return { r with buf, «end» := w, pos := 0 }

/-- accreader.rs:91-94; `Vec::resize` to fewer bytes truncates -/
def growN (r : LAcc R) (len : Nat) : Rust (LAcc R) := do
  let l ← t.ops.add r.buf.length len
  return { r with buf := r.buf.take l ++ List.replicate (l - r.buf.length) 0 }

/-- accreader.rs:159-163 -/
def consumeN (r : LAcc R) (amt : Nat) : Rust (LAcc R) := do
  let q ← t.ops.add r.pos amt
  let i ← t.ops.add r.index amt
  return { r with pos := min q r.end, index := i }

/-- accreader.rs:142-157 -/
def fillBufN (r : LAcc R) : Rust (Except IoErr (List U8) × LAcc R) :=
  if r.pos ≠ 0 ∨ r.end ≠ r.buf.length then do
    let r ← resetBufferPositionN t r
    let room ← sliceFrom r.buf r.end
    match dev.read r.inner room.length with
    | (.error e, inner) => .ok (.error e, { r with inner })
    | (.ok l, inner) => do
      let en ← t.ops.add r.end l.length
      let r := { r with
        inner
        buf := r.buf.take r.end ++ l ++ r.buf.drop en
        «end» := en }
      let w ← data r
      return (.ok w, r)
  else do
    let w ← data r
    return (.ok w, r)

/-- accreader.rs:98-138 -/
def readN (r : LAcc R) (n : Nat) : Rust (Except IoErr (List U8) × LAcc R) := do
  let w ← t.ops.sub r.end r.pos
  if n < w then do
    let hi ← t.ops.add r.pos n
    let l ← sliceRange r.buf r.pos hi
    let r ← consumeN t r l.length
    return (.ok l, r)
  else if n > r.buf.length then do
    let l ← sliceRange r.buf r.pos r.end
    let l := l.take n
    let room ← usub n w
    match dev.read r.inner room with
    | (.error e, inner) => .ok (.error e, { r with inner })
    | (.ok l2, inner) => do
      let total ← t.ops.add l2.length l.length
      let r ← consumeN t { r with inner } total
      let r ← resetBufferPositionN t r
      return (.ok (l ++ l2), r)
  else do
    let (x, r) ← fillBufN t dev r
    match x with
    | .error e => .ok (.error e, r)
    | .ok rem => do
      let r ← consumeN t r (rem.take n).length
      return (.ok (rem.take n), r)

/-- accreader.rs:194-203 -/
def seekInnerN (r : LAcc R) (sf : SeekFrom) : Rust (Except IoErr Nat × LAcc R) :=
  match dev.seek r.inner sf with
  | (.error e, inner) => .ok (.error e, { r with inner })
  | (.ok sz, inner) => do
    let (x, r) ← fillBufN t dev { r with inner, index := t.cast sz, pos := 0, «end» := 0 }
    match x with
    | .error e => .ok (.error e, r)
    | .ok _ => .ok (.ok sz, r)

/-- accreader.rs:167-204 -/
def seekN (r : LAcc R) (sf : SeekFrom) : Rust (Except IoErr Nat × LAcc R) :=
  match sf with
  | .start n => do
    let mv := t.cast n
    if mv ≥ r.index then do
      let lim ← t.ops.sub (← t.ops.add r.index r.end) r.pos
      if mv < lim then do
        let d ← t.ops.sub mv r.index
        let q ← t.ops.add r.pos d
        return (.ok mv, { r with pos := q, index := mv })
      else seekInnerN t dev r sf
    else seekInnerN t dev r sf
  | .end _ => seekInnerN t dev r sf
  | .current d => do
    let remaining ← t.ops.sub r.end r.pos
    if d ≥ 0 then
      if t.cast d.toNat ≤ remaining then do
        let i ← t.ops.add r.index (t.cast d.toNat)
        let q ← t.ops.add r.pos (t.cast d.toNat)
        return (.ok i, { r with index := i, pos := q })
      else seekInnerN t dev r (.current (d - remaining))
    else seekInnerN t dev r sf

/-- One call, as `stepCall`. -/
def stepN (fuel : Nat) (r : LAcc R) : Call R → Rust (Out × LAcc R)
  | .op (.read n) => do
    let (x, r) ← readN t dev r n
    match x with
    | .error e => .ok (.err e, r)
    | .ok l => .ok (.bytes l, r)
  | .op (.readExact n) => do
    let (x, r) ← readExact (readN t dev) fuel r n
    match x with
    | .error e => .ok (.err e, r)
    | .ok l => .ok (.bytes l, r)
  | .op .fillBuf => do
    let (x, r) ← fillBufN t dev r
    match x with
    | .error e => .ok (.err e, r)
    | .ok l => .ok (.shown l, r)
  | .op (.consume k) => do
    let w ← data r
    let r ← consumeN t r (w.take k).length
    return (.bytes (w.take k), r)
  | .op (.grow k) => do return (.unit, ← growN t r k)
  | .op .reset => do return (.unit, ← resetBufferPositionN t r)
  | .op (.seek sf) => do
    let (x, r) ← seekN t dev r sf
    match x with
    | .error e => .ok (.err e, r)
    | .ok n => .ok (.pos n, r)
  | .consume k => do
    let w ← data r
    let r ← consumeN t r k
    return (.bytes (w.take k), r)
  | .getMut f => .ok (.unit, { r with inner := f r.inner })

/-- A history of calls. -/
def runN (fuel : Nat) (r : LAcc R) : List (Call R) → Rust (List Out × LAcc R)
  | [] => .ok ([], r)
  | c :: cs => do
    let (o, r) ← stepN t dev fuel r c
    let (os, r) ← runN fuel r cs
    return (o :: os, r)

/-! ### the specification -/

/-- A queue of at most `size` bytes in front of a reader, the position reported, and how many bytes at the front of the
buffer have been taken since it was last moved. -/
structure NQueue (R : Type) where
  inner : R
  q : List U8
  size : Nat
  pos : Nat
  gap : Nat

/-- The position `k` bytes further on. -/
def NQueue.ahead (b : NQueue R) (k : Nat) : Rust Nat :=
  if b.pos + k < 2 ^ t.bits then .ok (b.pos + k)
  else if t.checks then .error .overflow
  else .ok ((b.pos + k) % 2 ^ t.bits)

/-- Fill up the queue with one read, if there is room. -/
def NQueue.fill (b : NQueue R) : Except IoErr (List U8) × NQueue R :=
  if b.q.length < b.size then
    match dev.read b.inner (b.size - b.q.length) with
    | (.error e, s) => (.error e, { b with inner := s, gap := 0 })
    | (.ok l, s) => (.ok (b.q ++ l), { b with inner := s, q := b.q ++ l, gap := 0 })
  else (.ok b.q, b)

/-- Take `k` bytes, and advance the position by as many. -/
def NQueue.take (b : NQueue R) (k : Nat) : Rust (NQueue R) := do
  let p ← b.ahead t k
  return { b with q := b.q.drop k, pos := p, gap := b.gap + min k b.q.length }

/-- As `Queue.read`. -/
def NQueue.read (b : NQueue R) (n : Nat) : Rust (Except IoErr (List U8) × NQueue R) :=
  if n < b.q.length then do return (.ok (b.q.take n), ← b.take t n)
  else if b.size < n then
    match dev.read b.inner (n - b.q.length) with
    | (.error e, s) => .ok (.error e, { b with inner := s })
    | (.ok l, s) => do
      let p ← b.ahead t (b.q ++ l).length
      return (.ok (b.q ++ l), { b with inner := s, q := [], pos := p, gap := 0 })
  else
    match b.fill dev with
    | (.error e, b) => .ok (.error e, b)
    | (.ok l, b) => do return (.ok (l.take n), ← b.take t (min n l.length))

/-- As `Queue.leave`; the new position loses its high bits. -/
def NQueue.leave (b : NQueue R) (sf : SeekFrom) : Except IoErr Nat × NQueue R :=
  match dev.seek b.inner sf with
  | (.error e, s) => (.error e, { b with inner := s })
  | (.ok m, s) =>
    match ({ b with inner := s, q := [], pos := m % 2 ^ t.bits, gap := 0 } : NQueue R).fill dev with
    | (.error e, b) => (.error e, b)
    | (.ok _, b) => (.ok m, b)

/-- The goal and the distance lose their high bits, and the end of the queue too; looking for the latter, the checked build
adds all that is before it in the buffer. -/
def NQueue.seek (b : NQueue R) : SeekFrom → Rust (Except IoErr Nat × NQueue R)
  | .start n =>
    let goal := n % 2 ^ t.bits
    if goal < b.pos then .ok (b.leave t dev (.start n))
    else if t.checks ∧ 2 ^ t.bits ≤ b.pos + b.gap + b.q.length then .error .overflow
    else if goal < (b.pos + b.q.length) % 2 ^ t.bits then do return (.ok goal, ← b.take t (goal - b.pos))
    else .ok (b.leave t dev (.start n))
  | .end d => .ok (b.leave t dev (.end d))
  | .current d =>
    let k := d.toNat % 2 ^ t.bits
    if d < 0 then .ok (b.leave t dev (.current d))
    else if k ≤ b.q.length then do
      let b ← b.take t k
      return (.ok b.pos, b)
    else .ok (b.leave t dev (.current (d - b.q.length)))

def NQueue.step (fuel : Nat) (b : NQueue R) : Call R → Rust (Out × NQueue R)
  | .op (.read n) => do
    let (x, b) ← b.read t dev n
    return (outBytes x, b)
  | .op (.readExact n) => do
    let (x, b) ← readExact (NQueue.read t dev) fuel b n
    return (outBytes x, b)
  | .op .fillBuf =>
    .ok (match (b.fill dev).1 with
      | .error e => .err e
      | .ok l => .shown l, (b.fill dev).2)
  | .op (.consume k) => do return (.bytes (b.q.take k), ← b.take t (min k b.q.length))
  | .op (.grow k) => .ok (.unit, { b with size := b.size + k })
  | .op .reset => .ok (.unit, { b with gap := 0 })
  | .op (.seek sf) => do
    let (x, b) ← b.seek t dev sf
    return (match x with
      | .error e => .err e
      | .ok n => .pos n, b)
  | .consume k => do return (.bytes (b.q.take k), ← b.take t k)
  | .getMut f => .ok (.unit, { b with inner := f b.inner })

def NQueue.run (fuel : Nat) (b : NQueue R) : List (Call R) → Rust (List Out × NQueue R)
  | [] => .ok ([], b)
  | c :: cs => do
    let (o, b) ← b.step t dev fuel c
    let (os, b) ← b.run fuel cs
    return (o :: os, b)

/-! ### the proof -/

/-- What matters of an `AccReader`. -/
def nview (r : LAcc R) : NQueue R := ⟨r.inner, win r, r.buf.length, r.index, r.pos⟩

/-- In order, no longer than a buffer can be, and at a position that is a `usize`. -/
structure Neat (b : Nat) (r : LAcc R) : Prop where
  tidy : Tidy r
  short : 2 * r.buf.length < 2 ^ b
  low : r.index < 2 ^ b

/-- A call of `AccReader` is the call of the queue. -/
def NAgree {X : Type} (f : Rust (X × LAcc R)) (g : Rust (X × NQueue R)) : Prop :=
  match g with
  | .error p => f = .error p
  | .ok (x, b) => ∃ r', f = .ok (x, r') ∧ Neat t.bits r' ∧ nview r' = b

variable {t dev}

theorem t_add {x y : Nat} (h : x + y < 2 ^ t.bits) : t.ops.add x y = .ok (x + y) := narrowAcc_add h

theorem t_sub {x y : Nat} (h : y ≤ x) : t.ops.sub x y = .ok (x - y) := narrowAcc_sub h

theorem resetN_eq {r : LAcc R} (h : Tidy r) : resetBufferPositionN t r = resetBufferPosition r := by
  unfold resetBufferPositionN resetBufferPosition
  rw [t_sub h.1, usub_ok h.1]

theorem fillN_eq (hb : Bounded dev) {r : LAcc R} (h : Neat t.bits r) : fillBufN t dev r = fillBuf dev r := by
  unfold fillBufN fillBuf
  by_cases hc : r.pos ≠ 0 ∨ r.end ≠ r.buf.length
  · rw [if_pos hc, if_pos hc, resetN_eq h.tidy]
    obtain ⟨r1, a1, a2, a3, a4, a5⟩ := h.tidy.reset
    have e3 : r1.buf.length = r.buf.length := congrArg Queue.size a5
    have hs := h.short
    have h2 := a2.2
    rw [a1]
    simp only [ok_bind, sliceFrom_ok h2]
    cases hr : dev.read r1.inner (r1.buf.drop r1.end).length with
    | mk x s =>
      cases x with
      | error e => rfl
      | ok l =>
        have hl := hb r1.inner _ l (by rw [hr])
        rw [List.length_drop] at hl
        simp only
        rw [t_add (by omega)]
        rfl
  · rw [if_neg hc, if_neg hc]

theorem nfill_fill (r : LAcc R) : (nview r).fill dev = (((view r).fill dev).1, ⟨((view r).fill dev).2.inner,
    ((view r).fill dev).2.q, r.buf.length, ((view r).fill dev).2.pos, if (win r).length < r.buf.length then 0 else r.pos⟩) := by
  unfold NQueue.fill Queue.fill
  by_cases hc : (win r).length < r.buf.length
  · rw [if_pos (show (nview r).q.length < (nview r).size from hc), if_pos (show (view r).q.length < (view r).size from hc), if_pos hc]
    change (match dev.read r.inner (r.buf.length - (win r).length) with
      | (.error e, s) => _
      | (.ok l, s) => _) = ((match dev.read r.inner (r.buf.length - (win r).length) with
      | (.error e, s) => _
      | (.ok l, s) => _ : Except IoErr (List U8) × Queue R).1, _)
    cases hr : dev.read r.inner (r.buf.length - (win r).length) with
    | mk x s =>
      have hr' : dev.read (view r).inner ((view r).size - (view r).q.length) = (x, s) := hr
      rw [hr']
      cases x <;> rfl
  · rw [if_neg (show ¬ (nview r).q.length < (nview r).size from hc), if_neg (show ¬ (view r).q.length < (view r).size from hc), if_neg hc]
    rfl

theorem fillN_agree (hb : Bounded dev) {r : LAcc R} (h : Neat t.bits r) :
    ∃ r', fillBufN t dev r = .ok (((nview r).fill dev).1, r') ∧ Neat t.bits r' ∧ nview r' = ((nview r).fill dev).2 := by
  rw [fillN_eq hb h]
  obtain ⟨r1, a1, a2, a3⟩ := fill_does hb h.tidy
  have hsz : r1.buf.length = r.buf.length := by
    have := congrArg Queue.size a3
    rw [show (view r1).size = r1.buf.length from rfl] at this
    rw [this]
    unfold Queue.fill
    split
    · split <;> rfl
    · rfl
  have hp : r1.pos = if (win r).length < r.buf.length then 0 else r.pos := by
    have hl := h.tidy.length
    have g1 := h.tidy.1
    have g2 := h.tidy.2
    unfold fillBuf at a1
    by_cases hc : r.pos ≠ 0 ∨ r.end ≠ r.buf.length
    · rw [if_pos hc] at a1
      rw [if_pos (by omega)]
      obtain ⟨r2, b1, b2, b3, b4, b5⟩ := h.tidy.reset
      rw [b1] at a1
      simp only [ok_bind, sliceFrom_ok b2.2] at a1
      generalize dev.read r2.inner (r2.buf.drop r2.end).length = y at a1
      obtain ⟨x, s⟩ := y
      cases x with
      | error e =>
        simp only [Except.ok.injEq, Prod.mk.injEq] at a1
        rw [← a1.2]; exact b3
      | ok l =>
        simp only at a1
        generalize data _ = z at a1
        cases z with
        | error p => cases a1
        | ok w =>
          simp only [ok_bind, pure_eq_ok, Except.ok.injEq, Prod.mk.injEq] at a1
          rw [← a1.2]; exact b3
    · rw [if_neg hc, h.tidy.data] at a1
      rw [if_neg (by omega)]
      simp only [ok_bind, pure_eq_ok, Except.ok.injEq, Prod.mk.injEq] at a1
      rw [← a1.2]
  have key := nfill_fill (dev := dev) r
  have hidx : r1.index = r.index := by
    have := congrArg Queue.pos a3
    rw [show (view r1).pos = r1.index from rfl] at this
    rw [this]
    unfold Queue.fill
    split
    · split <;> rfl
    · rfl
  refine ⟨r1, ?_, ⟨a2, by rw [hsz]; exact h.short, by rw [hidx]; exact h.low⟩, ?_⟩
  · rw [a1, key]
  · have i1 : r1.inner = ((view r).fill dev).2.inner := congrArg Queue.inner a3
    have i2 : win r1 = ((view r).fill dev).2.q := congrArg Queue.q a3
    have i3 : r1.index = ((view r).fill dev).2.pos := congrArg Queue.pos a3
    rw [key]
    simp only [nview, i1, i2, i3, hsz, hp]

theorem ahead_lt {b : NQueue R} {k i : Nat} (h : b.ahead t k = .ok i) : i < 2 ^ t.bits := by
  unfold NQueue.ahead at h
  split at h
  · cases h; assumption
  · split at h
    · cases h
    · cases h; exact Nat.mod_lt _ (Nat.two_pow_pos _)

/-- `consume` takes from the queue. -/
theorem consumeN_agree {r : LAcc R} (h : Neat t.bits r) {k : Nat} (hk : r.pos + k < 2 ^ t.bits) :
    (∀ p, (nview r).take t k = .error p → consumeN t r k = .error p) ∧
    (∀ b, (nview r).take t k = .ok b → ∃ r', consumeN t r k = .ok r' ∧ Neat t.bits r' ∧ nview r' = b) := by
  have hl := h.tidy.length
  have hp := h.tidy.1
  have hadd : t.ops.add r.index k = (nview r).ahead t k := rfl
  simp only [consumeN, t_add hk, ok_bind, hadd, NQueue.take]
  cases ha : (nview r).ahead t k with
  | error p => exact ⟨fun q hq => by simpa only [error_bind, Except.error.injEq] using hq, fun _ h => (nomatch h)⟩
  | ok i =>
    refine ⟨fun _ h => (nomatch h), fun b hb => ?_⟩
    simp only [ok_bind, pure_eq_ok, Except.ok.injEq] at hb ⊢
    obtain ⟨c1, c2⟩ := h.tidy.consume k
    have c3 := congrArg Queue.q c2
    refine ⟨_, rfl, ⟨⟨c1.1, c1.2⟩, h.short, ahead_lt ha⟩, ?_⟩
    rw [← hb]
    simp only [nview, NQueue.mk.injEq, true_and]
    refine ⟨c3, ?_⟩
    omega

theorem readN_agree (hb : Bounded dev) {r : LAcc R} (h : Neat t.bits r) {n : Nat} (hn : 2 * n < 2 ^ t.bits) :
    NAgree t (readN t dev r n) ((nview r).read t dev n) := by
  have hl := h.tidy.length
  have g1 := h.tidy.1
  have g2 := h.tidy.2
  have g3 := h.short
  have hq : (nview r).q = win r := rfl
  have hsz : (nview r).size = r.buf.length := rfl
  unfold readN NQueue.read
  rw [t_sub g1]
  simp only [ok_bind]
  by_cases h1 : n < r.end - r.pos
  · rw [if_pos h1, if_pos (show n < (nview r).q.length by rw [hq]; omega), t_add (by omega)]
    have hs : sliceRange r.buf r.pos (r.pos + n) = .ok ((win r).take n) := by
      simp only [sliceRange]
      rw [if_pos (by omega)]
      simp only [win, Except.ok.injEq]
      rw [List.take_take]
      congr 1; omega
    simp only [ok_bind, hs]
    have hln : ((win r).take n).length = n := by rw [List.length_take]; omega
    rw [hln]
    obtain ⟨c1, c2⟩ := consumeN_agree h (k := n) (by omega)
    cases ht : (nview r).take t n with
    | error p => rw [c1 p ht]; rfl
    | ok b =>
      obtain ⟨r', d1, d2, d3⟩ := c2 b ht
      rw [d1]
      exact ⟨r', rfl, d2, d3⟩
  · rw [if_neg h1, if_neg (show ¬ n < (nview r).q.length by rw [hq]; omega)]
    by_cases h2 : n > r.buf.length
    · rw [if_pos h2, if_pos (show (nview r).size < n from h2)]
      have hs : sliceRange r.buf r.pos r.end = .ok (win r) := h.tidy.data
      rw [hs, usub_ok (show r.end - r.pos ≤ n by omega)]
      simp only [ok_bind]
      rw [List.take_of_length_le (show (win r).length ≤ n by omega), show r.end - r.pos = (nview r).q.length by rw [hq]; exact hl.symm]
      change NAgree t (match dev.read r.inner _ with
        | (.error e, inner) => _
        | (.ok l, inner) => _) (match dev.read r.inner _ with
        | (.error e, inner) => _
        | (.ok l, inner) => _)
      cases hr : dev.read r.inner (n - (nview r).q.length) with
      | mk x s =>
        cases x with
        | error e => exact ⟨_, rfl, ⟨h.tidy, h.short, h.low⟩, rfl⟩
        | ok l =>
          have hll := hb r.inner _ l (by rw [hr])
          rw [hq] at hll
          simp only
          rw [t_add (by omega)]
          simp only [ok_bind]
          have hneat : Neat t.bits ({ r with inner := s } : LAcc R) := ⟨h.tidy, h.short, h.low⟩
          obtain ⟨c1, c2⟩ := consumeN_agree hneat (k := l.length + (win r).length) (by simp only; omega)
          have hah : ({ nview r with inner := s } : NQueue R).ahead t (l.length + (win r).length) =
              (nview r).ahead t ((nview r).q ++ l).length := by
            rw [hq, List.length_append, Nat.add_comm]; rfl
          have htk : (nview ({ r with inner := s } : LAcc R)).take t (l.length + (win r).length) = (do
              let p ← (nview r).ahead t ((nview r).q ++ l).length
              return { nview r with inner := s, q := [], pos := p, gap := r.pos + (win r).length }) := by
            rw [← hah]
            unfold NQueue.take
            change (({ nview r with inner := s } : NQueue R).ahead t (l.length + (win r).length) >>= _) = _
            cases ({ nview r with inner := s } : NQueue R).ahead t (l.length + (win r).length) with
            | error p => rfl
            | ok p =>
              simp only [ok_bind, pure_eq_ok, Except.ok.injEq]
              have hw : win ({ r with inner := s } : LAcc R) = win r := rfl
              simp only [nview, hw, NQueue.mk.injEq, true_and]
              exact ⟨List.drop_eq_nil_of_le (by omega), by omega⟩
          cases ha : (nview r).ahead t ((nview r).q ++ l).length with
          | error p =>
            rw [ha] at htk
            rw [c1 p htk]; rfl
          | ok p =>
            rw [ha] at htk
            obtain ⟨r', d1, d2, d3⟩ := c2 _ htk
            rw [d1]
            simp only [ok_bind, resetN_eq d2.tidy]
            obtain ⟨r2, f1, f2, f3, f4, f5⟩ := d2.tidy.reset
            rw [f1]
            have e1 : r2.inner = r'.inner := congrArg Queue.inner f5
            have e2 : win r2 = win r' := congrArg Queue.q f5
            have e3 : r2.buf.length = r'.buf.length := congrArg Queue.size f5
            have e4 : r2.index = r'.index := congrArg Queue.pos f5
            refine ⟨r2, rfl, ⟨f2, by rw [e3]; exact d2.short, by rw [e4]; exact d2.low⟩, ?_⟩
            have i1 : r'.inner = s := congrArg NQueue.inner d3
            have i2 : win r' = [] := congrArg NQueue.q d3
            have i3 : r'.buf.length = r.buf.length := congrArg NQueue.size d3
            have i4 : r'.index = p := congrArg NQueue.pos d3
            simp only [nview, e1, e2, e3, e4, f3, i1, i2, i3, i4]
    · rw [if_neg h2, if_neg (show ¬ (nview r).size < n from h2)]
      obtain ⟨r1, a1, a2, a3⟩ := fillN_agree hb h
      rw [a1]
      simp only [ok_bind]
      cases hf : (nview r).fill dev with
      | mk x b =>
        rw [hf] at a3
        simp only at a3
        cases x with
        | error e => exact ⟨r1, rfl, a2, a3⟩
        | ok l =>
          have hlb : l = b.q := by
            revert hf
            unfold NQueue.fill
            split
            · split <;> intro hf <;> cases hf
              rfl
            · intro hf; cases hf; rfl
          have hlw : l = win r1 := by rw [hlb, ← a3]; rfl
          have hw1 := a2.tidy.length
          have k1 := a2.tidy.1
          have k2 := a2.tidy.2
          have k3 := a2.short
          simp only [List.length_take]
          obtain ⟨c1, c2⟩ := consumeN_agree a2 (k := min n l.length) (by rw [hlw]; omega)
          rw [a3] at c1 c2
          cases ht : b.take t (min n l.length) with
          | error p => rw [c1 p ht]; rfl
          | ok b' =>
            obtain ⟨r', d1, d2, d3⟩ := c2 b' ht
            rw [d1]
            exact ⟨r', rfl, d2, d3⟩

theorem leaveN_agree (hb : Bounded dev) {r : LAcc R} (h : Neat t.bits r) (sf : SeekFrom) :
    NAgree t (seekInnerN t dev r sf) (.ok ((nview r).leave t dev sf)) := by
  unfold seekInnerN NQueue.leave
  change NAgree t (match dev.seek r.inner _ with
    | (.error e, inner) => _
    | (.ok l, inner) => _) (.ok (match dev.seek r.inner _ with
    | (.error e, inner) => _
    | (.ok l, inner) => _))
  cases hr : dev.seek r.inner sf with
  | mk x s =>
    cases x with
    | error e => exact ⟨_, rfl, ⟨h.tidy, h.short, h.low⟩, rfl⟩
    | ok m =>
      simp only
      have ht : Neat t.bits ({ r with inner := s, index := t.cast m, pos := 0, «end» := 0 } : LAcc R) :=
        ⟨⟨Nat.le_refl _, Nat.zero_le _⟩, h.short, Nat.mod_lt _ (Nat.two_pow_pos _)⟩
      have hv : nview ({ r with inner := s, index := t.cast m, pos := 0, «end» := 0 } : LAcc R) =
          { nview r with inner := s, q := [], pos := m % 2 ^ t.bits, gap := 0 } := by
        simp [nview, win, Target.cast]
      obtain ⟨r1, a1, a2, a3⟩ := fillN_agree hb ht
      rw [hv] at a1 a3
      rw [a1]
      simp only [ok_bind]
      cases hf : ({ nview r with inner := s, q := [], pos := m % 2 ^ t.bits, gap := 0 } : NQueue R).fill dev with
      | mk x b =>
        rw [hf] at a3
        simp only at a3
        cases x with
        | error e => exact ⟨r1, rfl, a2, a3⟩
        | ok l => exact ⟨r1, rfl, a2, a3⟩

theorem mod_once {x m : Nat} (h1 : m ≤ x) (h2 : x < 2 * m) : x % m = x - m := by
  rw [Nat.mod_eq_sub_mod h1, Nat.mod_eq_of_lt (by omega)]

theorem seekN_agree (hb : Bounded dev) {r : LAcc R} (h : Neat t.bits r) (sf : SeekFrom) :
    NAgree t (seekN t dev r sf) ((nview r).seek t dev sf) := by
  have hl := h.tidy.length
  have g1 := h.tidy.1
  have g2 := h.tidy.2
  have g3 := h.short
  have hq : (nview r).q = win r := rfl
  have hp : (nview r).pos = r.index := rfl
  have hg : (nview r).gap = r.pos := rfl
  have hM := Nat.two_pow_pos t.bits
  have hi := h.low
  have inside : ∀ k, k ≤ (win r).length → r.index + k < 2 ^ t.bits →
      (nview r).take t k = .ok (nview ({ r with pos := r.pos + k, index := r.index + k } : LAcc R)) ∧
      Neat t.bits ({ r with pos := r.pos + k, index := r.index + k } : LAcc R) := by
    intro k hk hki
    obtain ⟨c1, c2⟩ := skip_view h.tidy k hk
    have c3 := congrArg Queue.q c2
    refine ⟨?_, ⟨c1, h.short, hki⟩⟩
    unfold NQueue.take NQueue.ahead
    rw [hp, if_pos hki]
    simp only [ok_bind, pure_eq_ok, Except.ok.injEq, hq, hg]
    simp only [nview, NQueue.mk.injEq, true_and]
    exact ⟨c3.symm, by omega⟩
  cases sf with
  | «end» d => exact leaveN_agree hb h (.end d)
  | start n =>
    suffices key : ∀ mv, mv < 2 ^ t.bits → NAgree t
        (if mv ≥ r.index then do
          let lim ← t.ops.sub (← t.ops.add r.index r.end) r.pos
          if mv < lim then do
            let d ← t.ops.sub mv r.index
            let q ← t.ops.add r.pos d
            return (.ok mv, { r with pos := q, index := mv })
          else seekInnerN t dev r (.start n)
        else seekInnerN t dev r (.start n))
        (if mv < r.index then .ok ((nview r).leave t dev (.start n))
        else if t.checks ∧ 2 ^ t.bits ≤ r.index + r.pos + (win r).length then .error .overflow
        else if mv < (r.index + (win r).length) % 2 ^ t.bits then do return (.ok mv, ← (nview r).take t (mv - r.index))
        else .ok ((nview r).leave t dev (.start n))) from key _ (Nat.mod_lt n hM)
    intro mv hmv
    by_cases h1 : mv ≥ r.index
    · rw [if_pos h1, if_neg (show ¬ mv < r.index by omega)]
      by_cases ho : r.index + r.end < 2 ^ t.bits
      · rw [if_neg (by omega), t_add ho]
        simp only [ok_bind]
        rw [t_sub (by omega), Nat.mod_eq_of_lt (by omega)]
        simp only [ok_bind]
        by_cases h2 : mv < r.index + r.end - r.pos
        · rw [if_pos h2, if_pos (by omega), t_sub h1]
          simp only [ok_bind]
          rw [t_add (by omega)]
          obtain ⟨c1, c2⟩ := inside (mv - r.index) (by omega) (by omega)
          rw [c1]
          rw [show r.index + (mv - r.index) = mv by omega] at c2 ⊢
          exact ⟨_, rfl, c2, rfl⟩
        · rw [if_neg h2, if_neg (by omega)]
          exact leaveN_agree hb h _
      · cases hc : t.checks with
        | true =>
          have ha : t.ops.add r.index r.end = .error .overflow := by
            simp only [Target.ops, narrowAcc, if_neg ho, hc, if_true]
          rw [if_pos ⟨rfl, by omega⟩, ha]
          rfl
        | false =>
          have ha : t.ops.add r.index r.end = .ok (r.index + r.end - 2 ^ t.bits) := by
            simp only [Target.ops, narrowAcc, if_neg ho, hc, Bool.false_eq_true, if_false]
            rw [mod_once (by omega) (by omega)]
          rw [if_neg (fun h => (nomatch h.1)), ha]
          simp only [ok_bind]
          by_cases h3 : r.pos ≤ r.index + r.end - 2 ^ t.bits
          · rw [t_sub h3, mod_once (by omega) (by omega)]
            simp only [ok_bind]
            rw [if_neg (by omega), if_neg (by omega)]
            exact leaveN_agree hb h _
          · have hs : t.ops.sub (r.index + r.end - 2 ^ t.bits) r.pos = .ok (r.index + r.end - r.pos) := by
              simp only [Target.ops, narrowAcc, if_neg h3, hc, Bool.false_eq_true, if_false, Except.ok.injEq]
              omega
            rw [hs, Nat.mod_eq_of_lt (by omega)]
            simp only [ok_bind]
            by_cases h2 : mv < r.index + r.end - r.pos
            · rw [if_pos h2, if_pos (by omega), t_sub h1]
              simp only [ok_bind]
              rw [t_add (by omega)]
              obtain ⟨c1, c2⟩ := inside (mv - r.index) (by omega) (by omega)
              rw [c1]
              rw [show r.index + (mv - r.index) = mv by omega] at c2 ⊢
              exact ⟨_, rfl, c2, rfl⟩
            · rw [if_neg h2, if_neg (by omega)]
              exact leaveN_agree hb h _
    · rw [if_neg h1, if_pos (by omega)]
      exact leaveN_agree hb h _
  | current d =>
    suffices key : ∀ k, NAgree t
        (if d ≥ 0 then
          if k ≤ r.end - r.pos then do
            let i ← t.ops.add r.index k
            let q ← t.ops.add r.pos k
            return (.ok i, { r with index := i, pos := q })
          else seekInnerN t dev r (.current (d - (r.end - r.pos : Nat)))
        else seekInnerN t dev r (.current d))
        (if d < 0 then .ok ((nview r).leave t dev (.current d))
        else if k ≤ (win r).length then do
          let b ← (nview r).take t k
          return (.ok b.pos, b)
        else .ok ((nview r).leave t dev (.current (d - (win r).length)))) by
      have := key (d.toNat % 2 ^ t.bits)
      simp only [seekN]
      rw [t_sub g1]
      exact this
    intro k
    by_cases h1 : d ≥ 0
    · rw [if_pos h1, if_neg (show ¬ d < 0 by omega)]
      by_cases h2 : k ≤ r.end - r.pos
      · rw [if_pos h2, if_pos (by omega)]
        obtain ⟨c1, c2⟩ := skip_view h.tidy k (by omega)
        have c3 := congrArg Queue.q c2
        have hadd : t.ops.add r.index k = (nview r).ahead t k := rfl
        rw [hadd, t_add (show r.pos + k < 2 ^ t.bits by omega)]
        unfold NQueue.take
        cases ha : (nview r).ahead t k with
        | error p => rfl
        | ok i =>
          simp only [ok_bind, pure_eq_ok]
          refine ⟨_, rfl, ⟨⟨by simp only; omega, h.tidy.2⟩, h.short, ahead_lt ha⟩, ?_⟩
          simp only [nview, NQueue.mk.injEq, true_and]
          exact ⟨c3, by omega⟩
      · rw [if_neg h2, if_neg (by omega), hl]
        exact leaveN_agree hb h _
    · rw [if_neg h1, if_pos (by omega)]
      exact leaveN_agree hb h _

theorem readExactN_agree (hb : Bounded dev) (fuel : Nat) {r : LAcc R} (h : Neat t.bits r) {n : Nat} (hn : 2 * n < 2 ^ t.bits) :
    NAgree t (readExact (readN t dev) fuel r n) (readExact (NQueue.read t dev) fuel (nview r) n) := by
  induction fuel generalizing r n with
  | zero => rfl
  | succ fuel ih =>
    unfold readExact
    by_cases h0 : n = 0
    · rw [if_pos h0, if_pos h0]; exact ⟨r, rfl, h, rfl⟩
    · rw [if_neg h0, if_neg h0]
      have hr := readN_agree hb h hn
      unfold NAgree at hr
      cases hx : (nview r).read t dev n with
      | error p => rw [hx] at hr; simp only at hr; rw [hr]; rfl
      | ok y =>
        obtain ⟨x, b⟩ := y
        rw [hx] at hr
        obtain ⟨r1, a1, a2, a3⟩ := hr
        rw [a1]
        subst a3
        simp only [ok_bind]
        cases x with
        | error e =>
          by_cases he : e = .interrupted
          · subst he; exact ih a2 hn
          · cases e <;> first | exact absurd rfl he | exact ⟨r1, rfl, a2, rfl⟩
        | ok l =>
          cases l with
          | nil => exact ⟨r1, rfl, a2, rfl⟩
          | cons x l =>
            simp only
            have hi := ih a2 (n := n - (x :: l).length) (by omega)
            unfold NAgree at hi ⊢
            cases hg : readExact (NQueue.read t dev) fuel (nview r1) (n - (x :: l).length) with
            | error p => rw [hg] at hi; simp only at hi; rw [hi]; rfl
            | ok y =>
              rw [hg] at hi
              obtain ⟨y, b⟩ := y
              obtain ⟨r2, b1, b2, b3⟩ := hi
              rw [b1]
              simp only [ok_bind]
              cases y with
              | error e => exact ⟨r2, rfl, b2, b3⟩
              | ok l2 => exact ⟨r2, rfl, b2, b3⟩

/-- The arguments are lengths of slices, or no longer than one can be. -/
def Fits (b size : Nat) : Call R → Prop
  | .op (.read n) | .op (.readExact n) | .consume n => 2 * n < 2 ^ b
  | .op (.grow k) => 2 * (size + k) < 2 ^ b
  | _ => True

theorem stepN_agree (hb : Bounded dev) (fuel : Nat) {r : LAcc R} (h : Neat t.bits r) (c : Call R)
    (hf : Fits t.bits r.buf.length c) : NAgree t (stepN t dev fuel r c) ((nview r).step t dev fuel c) := by
  have hq : (nview r).q = win r := rfl
  have hl := h.tidy.length
  have g1 := h.tidy.1
  have g2 := h.tidy.2
  have g3 := h.short
  have takes : ∀ k, r.pos + k < 2 ^ t.bits → ∀ l : List U8,
      NAgree t (do let r ← consumeN t r k; return (Out.bytes l, r)) (do return (Out.bytes l, ← (nview r).take t k)) := by
    intro k hk l
    obtain ⟨c1, c2⟩ := consumeN_agree h hk
    cases ht : (nview r).take t k with
    | error p => rw [c1 p ht]; rfl
    | ok b =>
      obtain ⟨r', d1, d2, d3⟩ := c2 b ht
      rw [d1]
      exact ⟨r', rfl, d2, d3⟩
  cases c with
  | getMut f => exact ⟨_, rfl, ⟨h.tidy, h.short, h.low⟩, rfl⟩
  | consume k =>
    simp only [Fits] at hf
    simp only [stepN, NQueue.step, h.tidy.data, ok_bind, hq]
    exact takes k (by omega) _
  | op o =>
    cases o with
    | read n =>
      have hi := readN_agree hb h (n := n) hf
      simp only [stepN, NQueue.step]
      unfold NAgree at hi
      cases hg : (nview r).read t dev n with
      | error p => rw [hg] at hi; simp only at hi; rw [hi]; rfl
      | ok y =>
        rw [hg] at hi
        obtain ⟨y, b⟩ := y
        obtain ⟨r2, b1, b2, b3⟩ := hi
        rw [b1]
        refine ⟨r2, ?_, b2, b3⟩
        cases y <;> rfl
    | readExact n =>
      have hi := readExactN_agree hb fuel h (n := n) hf
      simp only [stepN, NQueue.step]
      unfold NAgree at hi
      cases hg : readExact (NQueue.read t dev) fuel (nview r) n with
      | error p => rw [hg] at hi; simp only at hi; rw [hi]; rfl
      | ok y =>
        rw [hg] at hi
        obtain ⟨y, b⟩ := y
        obtain ⟨r2, b1, b2, b3⟩ := hi
        rw [b1]
        refine ⟨r2, ?_, b2, b3⟩
        cases y <;> rfl
    | fillBuf =>
      obtain ⟨r1, a1, a2, a3⟩ := fillN_agree hb h
      simp only [stepN, NQueue.step, a1, ok_bind, NAgree]
      refine ⟨r1, ?_, a2, a3⟩
      cases ((nview r).fill dev).1 <;> rfl
    | consume k =>
      simp only [stepN, NQueue.step, h.tidy.data, ok_bind, hq, List.length_take]
      exact takes _ (by omega) _
    | grow k =>
      simp only [Fits] at hf
      simp only [stepN, growN, t_add (show r.buf.length + k < 2 ^ t.bits by omega), ok_bind, pure_eq_ok, Nat.add_sub_cancel_left,
        List.take_of_length_le (Nat.le_add_right r.buf.length k)]
      refine ⟨_, rfl, ⟨⟨h.tidy.1, ?_⟩, ?_, h.low⟩, ?_⟩
      · simp only [List.length_append, List.length_replicate]; omega
      · simp only [List.length_append, List.length_replicate]; omega
      · simp only [nview, NQueue.mk.injEq, true_and, and_true, List.length_append, List.length_replicate]
        simp only [win]
        rw [List.drop_append_of_le_length (by omega), List.take_append_of_le_length (by rw [List.length_drop]; omega)]
    | reset =>
      obtain ⟨r1, a1, a2, a3, _, a5⟩ := h.tidy.reset
      have e3 : r1.buf.length = r.buf.length := congrArg Queue.size a5
      have e4 : r1.index = r.index := congrArg Queue.pos a5
      simp only [stepN, resetN_eq h.tidy, a1, ok_bind, pure_eq_ok]
      refine ⟨r1, rfl, ⟨a2, by rw [e3]; exact h.short, by rw [e4]; exact h.low⟩, ?_⟩
      have e1 : r1.inner = r.inner := congrArg Queue.inner a5
      have e2 : win r1 = win r := congrArg Queue.q a5
      simp only [nview, e1, e2, e3, e4, a3]
    | seek sf =>
      have hi := seekN_agree hb h sf
      simp only [stepN, NQueue.step]
      unfold NAgree at hi
      cases hg : (nview r).seek t dev sf with
      | error p => rw [hg] at hi; simp only at hi; rw [hi]; rfl
      | ok y =>
        rw [hg] at hi
        obtain ⟨y, b⟩ := y
        obtain ⟨r2, b1, b2, b3⟩ := hi
        rw [b1]
        refine ⟨r2, ?_, b2, b3⟩
        cases y <;> rfl

/-! #### sizes, and which panics there are -/

/-- By how much a call lets the buffer grow. -/
def grownBy : Call R → Nat
  | .op (.grow k) => k
  | _ => 0

/-- By how much a history does. -/
def grows (cs : List (Call R)) : Nat := (cs.map grownBy).sum

theorem ntake_size {b b' : NQueue R} {k : Nat} (h : b.take t k = .ok b') : b'.size = b.size := by
  unfold NQueue.take at h
  cases ha : b.ahead t k with
  | error p => rw [ha] at h; cases h
  | ok i => rw [ha] at h; cases h; rfl

theorem nfill_size (b : NQueue R) : (b.fill dev).2.size = b.size := by
  unfold NQueue.fill
  split
  · split <;> rfl
  · rfl

theorem nread_size {b b' : NQueue R} {n : Nat} {x : Except IoErr (List U8)} (h : b.read t dev n = .ok (x, b')) :
    b'.size = b.size := by
  unfold NQueue.read at h
  split at h
  · cases ht : b.take t n with
    | error p => rw [ht] at h; cases h
    | ok b1 => rw [ht] at h; cases h; exact ntake_size ht
  · split at h
    · split at h
      · cases h; rfl
      · cases ha : b.ahead t (b.q ++ _).length with
        | error p => rw [ha] at h; cases h
        | ok i => rw [ha] at h; cases h; rfl
    · have hs := nfill_size (dev := dev) b
      generalize b.fill dev = y at h hs
      obtain ⟨y, b1⟩ := y
      cases y with
      | error e => cases h; exact hs
      | ok l =>
        simp only at h hs
        cases ht : b1.take t (min n l.length) with
        | error p => rw [ht] at h; cases h
        | ok b2 => rw [ht] at h; cases h; rw [ntake_size ht, hs]

theorem nleave_size (b : NQueue R) (sf : SeekFrom) : (b.leave t dev sf).2.size = b.size := by
  unfold NQueue.leave
  split
  · rfl
  · rename_i m s _
    have hs := nfill_size (dev := dev) ({ b with inner := s, q := [], pos := m % 2 ^ t.bits, gap := 0 } : NQueue R)
    generalize ({ b with inner := s, q := [], pos := m % 2 ^ t.bits, gap := 0 } : NQueue R).fill dev = y at hs ⊢
    obtain ⟨y, b1⟩ := y
    cases y <;> exact hs

theorem nseek_size {b b' : NQueue R} {sf : SeekFrom} {x : Except IoErr Nat} (h : b.seek t dev sf = .ok (x, b')) :
    b'.size = b.size := by
  have leaves : ∀ sf, Except.ok (b.leave t dev sf) = (Except.ok (x, b') : Rust _) → b'.size = b.size := by
    intro sf h
    rw [Except.ok.injEq] at h
    rw [← nleave_size (t := t) (dev := dev) b sf, h]
  cases sf with
  | «end» d => exact leaves _ h
  | start n =>
    simp only [NQueue.seek] at h
    split at h
    · exact leaves _ h
    · split at h
      · cases h
      · split at h
        · cases ht : b.take t (n % 2 ^ t.bits - b.pos) with
          | error p => rw [ht] at h; cases h
          | ok b1 => rw [ht] at h; cases h; exact ntake_size ht
        · exact leaves _ h
  | current d =>
    simp only [NQueue.seek] at h
    split at h
    · exact leaves _ h
    · split at h
      · cases ht : b.take t (d.toNat % 2 ^ t.bits) with
        | error p => rw [ht] at h; cases h
        | ok b1 => rw [ht] at h; cases h; exact ntake_size ht
      · exact leaves _ h

theorem nreadExact_size (fuel : Nat) {b b' : NQueue R} {n : Nat} {x : Except IoErr (List U8)}
    (h : readExact (NQueue.read t dev) fuel b n = .ok (x, b')) : b'.size = b.size := by
  induction fuel generalizing b b' n x with
  | zero => cases h
  | succ fuel ih =>
    unfold readExact at h
    by_cases h0 : n = 0
    · rw [if_pos h0] at h; cases h; rfl
    · rw [if_neg h0] at h
      cases hr : b.read t dev n with
      | error p => rw [hr] at h; cases h
      | ok y =>
        obtain ⟨y, b1⟩ := y
        have hs := nread_size hr
        rw [hr] at h
        simp only [ok_bind] at h
        cases y with
        | error e =>
          cases e <;> first | (exact (ih h).trans hs) | (cases h; exact hs)
        | ok l =>
          cases l with
          | nil => cases h; exact hs
          | cons a l =>
            simp only at h
            cases hg : readExact (NQueue.read t dev) fuel b1 (n - (a :: l).length) with
            | error p => rw [hg] at h; cases h
            | ok z =>
              obtain ⟨z, b2⟩ := z
              rw [hg] at h
              have := (ih hg).trans hs
              cases z <;> (cases h; exact this)

theorem nstep_size {fuel : Nat} {b b' : NQueue R} {c : Call R} {o : Out} (h : b.step t dev fuel c = .ok (o, b')) :
    b'.size = b.size + grownBy c := by
  cases c with
  | getMut f => cases h; rfl
  | consume k =>
    simp only [NQueue.step] at h
    cases ht : b.take t k with
    | error p => rw [ht] at h; cases h
    | ok b1 => rw [ht] at h; cases h; exact ntake_size ht
  | op op =>
    cases op with
    | read n =>
      simp only [NQueue.step] at h
      cases hr : b.read t dev n with
      | error p => rw [hr] at h; cases h
      | ok y => rw [hr] at h; cases h; exact nread_size hr
    | readExact n =>
      simp only [NQueue.step] at h
      cases hr : readExact (NQueue.read t dev) fuel b n with
      | error p => rw [hr] at h; cases h
      | ok y => rw [hr] at h; cases h; exact nreadExact_size fuel hr
    | fillBuf =>
      simp only [NQueue.step, Except.ok.injEq, Prod.mk.injEq] at h
      rw [← h.2, nfill_size]; rfl
    | consume k =>
      simp only [NQueue.step] at h
      cases ht : b.take t (min k b.q.length) with
      | error p => rw [ht] at h; cases h
      | ok b1 => rw [ht] at h; cases h; exact ntake_size ht
    | grow k => cases h; rfl
    | reset => cases h; rfl
    | seek sf =>
      simp only [NQueue.step] at h
      cases hr : b.seek t dev sf with
      | error p => rw [hr] at h; cases h
      | ok y => rw [hr] at h; cases h; exact nseek_size hr

theorem runN_agree (hb : Bounded dev) (fuel : Nat) {r : LAcc R} (h : Neat t.bits r) (cs : List (Call R))
    (hg : 2 * (r.buf.length + grows cs) < 2 ^ t.bits)
    (hn : ∀ n, .op (.read n) ∈ cs ∨ .op (.readExact n) ∈ cs ∨ .consume n ∈ cs → 2 * n < 2 ^ t.bits) :
    NAgree t (runN t dev fuel r cs) ((nview r).run t dev fuel cs) := by
  induction cs generalizing r with
  | nil => exact ⟨r, rfl, h, rfl⟩
  | cons c cs ih =>
    have hgs : grows (c :: cs) = grownBy c + grows cs := by simp [grows]
    have hf : Fits t.bits r.buf.length c := by
      cases c with
      | getMut f => trivial
      | consume k => exact hn k (.inr (.inr (List.mem_cons_self ..)))
      | op o =>
        cases o with
        | read n => exact hn n (.inl (List.mem_cons_self ..))
        | readExact n => exact hn n (.inr (.inl (List.mem_cons_self ..)))
        | grow k =>
          rw [hgs] at hg
          simp only [grownBy] at hg
          simp only [Fits]
          omega
        | _ => trivial
    have hi := stepN_agree hb fuel h c hf
    simp only [runN, NQueue.run]
    unfold NAgree at hi
    cases hs : (nview r).step t dev fuel c with
    | error p => rw [hs] at hi; simp only at hi; rw [hi]; rfl
    | ok y =>
      obtain ⟨o, b⟩ := y
      have hsz := nstep_size hs
      rw [hs] at hi
      obtain ⟨r1, b1, b2, b3⟩ := hi
      subst b3
      have hsz : r1.buf.length = r.buf.length + grownBy c := hsz
      rw [b1]
      simp only [ok_bind]
      have hj := ih b2 (by omega) (fun n hm => hn n (hm.imp (List.mem_cons_of_mem _) (Or.imp (List.mem_cons_of_mem _)
        (List.mem_cons_of_mem _))))
      unfold NAgree at hj
      cases hk : (nview r1).run t dev fuel cs with
      | error p => rw [hk] at hj; simp only at hj; rw [hj]; rfl
      | ok z =>
        obtain ⟨os, b'⟩ := z
        rw [hk] at hj
        obtain ⟨r2, c1, c2, c3⟩ := hj
        rw [c1]
        exact ⟨r2, rfl, c2, c3⟩

/-! #### against the queue without bounds -/

/-- The same but for the position. -/
structure Alike (b : NQueue R) (q : Queue R) : Prop where
  inner : b.inner = q.inner
  held : b.q = q.q
  size : b.size = q.size

/-- What a call that does not seek may do: overflow, in a build that checks, or what the queue without bounds does. -/
def Mostly (t : Acc.Target) {X : Type} (f : Rust (X × NQueue R)) (g : Rust (X × Queue R)) : Prop :=
  (t.checks = true ∧ f = .error .overflow) ∨
  match g with
  | .error p => f = .error p
  | .ok (x, q) => ∃ b, f = .ok (x, b) ∧ Alike b q

theorem ntake_mostly {b : NQueue R} {q : Queue R} (h : Alike b q) (k : Nat) {X : Type} (x : X) (q' : Queue R)
    (hi : q'.inner = q.inner) (hq : q'.q = q.q.drop k) (hz : q'.size = q.size) :
    Mostly t (do return (x, ← b.take t k)) (.ok (x, q')) := by
  unfold NQueue.take NQueue.ahead
  by_cases h1 : b.pos + k < 2 ^ t.bits
  · rw [if_pos h1]
    exact .inr ⟨_, rfl, ⟨h.inner.trans hi.symm, by rw [hq, ← h.held], h.size.trans hz.symm⟩⟩
  · rw [if_neg h1]
    cases hc : t.checks with
    | true => exact .inl ⟨hc, rfl⟩
    | false => exact .inr ⟨_, rfl, ⟨h.inner.trans hi.symm, by rw [hq, ← h.held], h.size.trans hz.symm⟩⟩

theorem nfill_alike {b : NQueue R} {q : Queue R} (h : Alike b q) :
    (b.fill dev).1 = (q.fill dev).1 ∧ Alike (b.fill dev).2 (q.fill dev).2 := by
  obtain ⟨h1, h2, h3⟩ := h
  unfold NQueue.fill Queue.fill
  rw [h1, h2, h3]
  by_cases hc : q.q.length < q.size
  · rw [if_pos hc, if_pos hc]
    cases dev.read q.inner (q.size - q.q.length) with
    | mk x s => cases x <;> exact ⟨rfl, ⟨rfl, rfl, rfl⟩⟩
  · rw [if_neg hc, if_neg hc]
    exact ⟨rfl, ⟨h1, h2, h3⟩⟩

theorem nread_mostly {b : NQueue R} {q : Queue R} (h : Alike b q) (n : Nat) :
    Mostly t (b.read t dev n) (.ok (q.read dev n)) := by
  obtain ⟨h1, h2, h3⟩ := h
  unfold NQueue.read Queue.read
  rw [h1, h2, h3]
  by_cases hc : n < q.q.length
  · rw [if_pos hc, if_pos hc]
    exact ntake_mostly ⟨h1, h2, h3⟩ n _ _ rfl rfl rfl
  · rw [if_neg hc, if_neg hc]
    by_cases hc2 : q.size < n
    · rw [if_pos hc2, if_pos hc2]
      cases dev.read q.inner (n - q.q.length) with
      | mk x s =>
        cases x with
        | error e => exact .inr ⟨_, rfl, ⟨rfl, rfl, rfl⟩⟩
        | ok l =>
          simp only [NQueue.ahead]
          by_cases h4 : b.pos + (q.q ++ l).length < 2 ^ t.bits
          · rw [if_pos h4]
            exact .inr ⟨_, rfl, ⟨rfl, rfl, rfl⟩⟩
          · rw [if_neg h4]
            cases hk : t.checks with
            | true => exact .inl ⟨hk, rfl⟩
            | false => exact .inr ⟨_, rfl, ⟨rfl, rfl, rfl⟩⟩
    · rw [if_neg hc2, if_neg hc2]
      obtain ⟨f1, f2⟩ := nfill_alike (dev := dev) (b := b) (q := q) ⟨h1, h2, h3⟩
      have hq : ∀ l q1, q.fill dev = (.ok l, q1) → l = q1.q := by
        intro l q1
        unfold Queue.fill
        split
        · split <;> intro hf <;> cases hf
          rfl
        · intro hf; cases hf; rfl
      cases hb : b.fill dev with
      | mk x b1 =>
        cases hq' : q.fill dev with
        | mk y q1 =>
          rw [hb, hq'] at f1 f2
          simp only at f1 f2
          subst f1
          cases x with
          | error e => exact .inr ⟨_, rfl, f2⟩
          | ok l =>
            refine ntake_mostly f2 (min n l.length) _ _ rfl ?_ rfl
            have := hq l q1 hq'
            simp only [Queue.take]
            rw [← this]
            by_cases hn : n ≤ l.length
            · rw [Nat.min_eq_left hn]
            · rw [Nat.min_eq_right (by omega), List.drop_length, List.drop_eq_nil_of_le (by omega)]

theorem nreadExact_mostly (fuel : Nat) {b : NQueue R} {q : Queue R} (h : Alike b q) (n : Nat) :
    Mostly t (readExact (NQueue.read t dev) fuel b n) (readExact (fun b n => .ok (Queue.read dev b n)) fuel q n) := by
  induction fuel generalizing b q n with
  | zero => exact .inr rfl
  | succ fuel ih =>
    unfold readExact
    by_cases h0 : n = 0
    · rw [if_pos h0, if_pos h0]; exact .inr ⟨b, rfl, h⟩
    · rw [if_neg h0, if_neg h0]
      simp only [ok_bind]
      have hm := nread_mostly (t := t) (dev := dev) h n
      generalize q.read dev n = y at hm ⊢
      obtain ⟨x, q1⟩ := y
      rcases hm with ⟨k1, k2⟩ | k
      · rw [k2]; exact .inl ⟨k1, rfl⟩
      · obtain ⟨b1, k1, k2⟩ := k
        rw [k1]
        simp only [ok_bind]
        cases x with
        | error e =>
          by_cases he : e = .interrupted
          · subst he; exact ih k2 n
          · cases e <;> first | exact absurd rfl he | exact .inr ⟨b1, rfl, k2⟩
        | ok l =>
          cases l with
          | nil => exact .inr ⟨b1, rfl, k2⟩
          | cons a l =>
            simp only
            rcases ih k2 (n - (a :: l).length) with ⟨m1, m2⟩ | m
            · rw [m2]; exact .inl ⟨m1, rfl⟩
            · cases hg : readExact (fun b n => .ok (Queue.read dev b n)) fuel q1 (n - (a :: l).length) with
              | error p => rw [hg] at m; simp only at m; rw [m]; exact .inr rfl
              | ok z =>
                obtain ⟨z, q2⟩ := z
                rw [hg] at m
                obtain ⟨b2, m1, m2⟩ := m
                rw [m1]
                simp only [ok_bind]
                cases z with
                | error e => exact .inr ⟨b2, rfl, m2⟩
                | ok l2 => exact .inr ⟨b2, rfl, m2⟩

/-- Not a seek. -/
def NoSeek : Call R → Prop
  | .op (.seek _) => False
  | _ => True

theorem nstep_mostly (fuel : Nat) {b : NQueue R} {q : Queue R} (h : Alike b q) (c : Call R) (hc : NoSeek c) :
    Mostly t (b.step t dev fuel c) (q.step dev fuel c) := by
  cases c with
  | getMut f =>
    refine .inr ⟨_, rfl, ⟨?_, h.held, h.size⟩⟩
    simp only [h.inner]
  | consume k =>
    simp only [NQueue.step, Queue.step]
    rw [h.held]
    exact ntake_mostly h k _ _ rfl rfl rfl
  | op o =>
    cases o with
    | read n =>
      simp only [NQueue.step, Queue.step]
      have hm := nread_mostly (t := t) (dev := dev) h n
      generalize q.read dev n = y at hm ⊢
      obtain ⟨x, q1⟩ := y
      rcases hm with ⟨k1, k2⟩ | ⟨b1, k1, k2⟩
      · rw [k2]; exact .inl ⟨k1, rfl⟩
      · rw [k1]; exact .inr ⟨b1, rfl, k2⟩
    | readExact n =>
      simp only [NQueue.step, Queue.step]
      rcases nreadExact_mostly (t := t) (dev := dev) fuel h n with ⟨k1, k2⟩ | k
      · rw [k2]; exact .inl ⟨k1, rfl⟩
      · cases hg : readExact (fun b n => .ok (Queue.read dev b n)) fuel q n with
        | error p => rw [hg] at k; simp only at k; rw [k]; exact .inr rfl
        | ok z =>
          obtain ⟨z, q2⟩ := z
          rw [hg] at k
          obtain ⟨b2, m1, m2⟩ := k
          rw [m1]
          exact .inr ⟨b2, rfl, m2⟩
    | fillBuf =>
      obtain ⟨f1, f2⟩ := nfill_alike (dev := dev) h
      simp only [NQueue.step, Queue.step]
      rw [f1]
      exact .inr ⟨_, rfl, f2⟩
    | consume k =>
      simp only [NQueue.step, Queue.step]
      rw [h.held]
      refine ntake_mostly h (min k q.q.length) _ _ rfl ?_ rfl
      simp only [Queue.take]
      by_cases hn : k ≤ q.q.length
      · rw [Nat.min_eq_left hn]
      · rw [Nat.min_eq_right (by omega), List.drop_length, List.drop_eq_nil_of_le (by omega)]
    | grow k =>
      refine .inr ⟨_, rfl, ⟨h.inner, h.held, ?_⟩⟩
      simp only [h.size]
    | reset => exact .inr ⟨_, rfl, ⟨h.inner, h.held, h.size⟩⟩
    | seek sf => exact absurd hc (by simp [NoSeek])

theorem nrun_mostly (fuel : Nat) {b : NQueue R} {q : Queue R} (h : Alike b q) (cs : List (Call R)) (hc : ∀ c ∈ cs, NoSeek c) :
    Mostly t (b.run t dev fuel cs) (q.run dev fuel cs) := by
  induction cs generalizing b q with
  | nil => exact .inr ⟨b, rfl, h⟩
  | cons c cs ih =>
    simp only [NQueue.run, Queue.run]
    rcases nstep_mostly (t := t) (dev := dev) fuel h c (hc c (List.mem_cons_self ..)) with ⟨k1, k2⟩ | k
    · rw [k2]; exact .inl ⟨k1, rfl⟩
    · cases hg : q.step dev fuel c with
      | error p => rw [hg] at k; simp only at k; rw [k]; exact .inr rfl
      | ok z =>
        obtain ⟨o, q1⟩ := z
        rw [hg] at k
        obtain ⟨b1, m1, m2⟩ := k
        rw [m1]
        simp only [ok_bind]
        rcases ih m2 (fun c hm => hc c (List.mem_cons_of_mem _ hm)) with ⟨k1, k2⟩ | k
        · rw [k2]; exact .inl ⟨k1, rfl⟩
        · cases hg : q1.run dev fuel cs with
          | error p => rw [hg] at k; simp only at k; rw [k]; exact .inr rfl
          | ok z =>
            obtain ⟨os, q2⟩ := z
            rw [hg] at k
            obtain ⟨b2, n1, n2⟩ := k
            rw [n1]
            exact .inr ⟨b2, rfl, n2⟩

/-! ### C127 -/

theorem withCapacity_neat (cap : Nat) (s : R) (h : 2 * cap < 2 ^ t.bits) : Neat t.bits (withCapacity cap s) ∧
    nview (withCapacity cap s) = ⟨s, [], cap, 0, 0⟩ := by
  refine ⟨⟨⟨Nat.le_refl _, Nat.zero_le _⟩, ?_, Nat.two_pow_pos _⟩, ?_⟩
  · simp only [withCapacity, List.length_replicate]; exact h
  · simp [nview, win, withCapacity]

/-- **C127, exactly** On a target with any width of `usize`, with and without overflow checks, over any reader whose reads
return no more than was asked for, `AccReader` is a queue whose position has `b` bits: every history has the outcomes of
that queue, panics included, what is buffered is what is in it, and the inner reader has got the same calls. Buffers and
slices are at most half the address space, as they are on every target. Missing for C127: that the position is that of
the stream, which is false. -/
theorem c127_exact_partial (hb : Bounded dev) (s : R) (cap fuel : Nat) (cs : List (Call R))
    (hg : 2 * (cap + grows cs) < 2 ^ t.bits)
    (hn : ∀ n, .op (.read n) ∈ cs ∨ .op (.readExact n) ∈ cs ∨ .consume n ∈ cs → 2 * n < 2 ^ t.bits) :
    match (⟨s, [], cap, 0, 0⟩ : NQueue R).run t dev fuel cs with
    | .error p => runN t dev fuel (withCapacity cap s) cs = .error p
    | .ok (os, b) => ∃ r, runN t dev fuel (withCapacity cap s) cs = .ok (os, r) ∧ r.inner = b.inner ∧
        data r = .ok b.q ∧ r.buf.length = b.size ∧ r.index = b.pos := by
  obtain ⟨h1, h2⟩ := withCapacity_neat (t := t) cap s (by omega)
  have hl : (withCapacity cap s).buf.length = cap := by simp [withCapacity]
  have h := runN_agree hb fuel h1 cs (by rw [hl]; exact hg) hn
  rw [h2] at h
  unfold NAgree at h
  cases hq : (⟨s, [], cap, 0, 0⟩ : NQueue R).run t dev fuel cs with
  | error p => rw [hq] at h; exact h
  | ok y =>
    obtain ⟨os, b⟩ := y
    rw [hq] at h
    obtain ⟨r, a1, a2, a3⟩ := h
    subst a3
    exact ⟨r, a1, rfl, a2.tidy.data, rfl, rfl⟩

/-- **C127 without seeks** There every history has, on every target, the outcomes it has in the model without bounds; or it
panics because the position overflows, in builds that check for that. Missing for C127: seeks. -/
theorem c127_noseek_partial (hb : Bounded dev) (s : R) (cap fuel : Nat) (cs : List (Call R))
    (hg : 2 * (cap + grows cs) < 2 ^ t.bits)
    (hn : ∀ n, .op (.read n) ∈ cs ∨ .op (.readExact n) ∈ cs ∨ .consume n ∈ cs → 2 * n < 2 ^ t.bits)
    (hs : ∀ sf, .op (.seek sf) ∉ cs) :
    (t.checks = true ∧ runN t dev fuel (withCapacity cap s) cs = .error .overflow) ∨
    match runCalls dev fuel (withCapacity cap s) cs with
    | .error p => runN t dev fuel (withCapacity cap s) cs = .error p
    | .ok (os, r) => ∃ r', runN t dev fuel (withCapacity cap s) cs = .ok (os, r') ∧ r'.inner = r.inner ∧
        data r' = data r ∧ r'.buf.length = r.buf.length := by
  have h1 := c127_exact_partial (t := t) hb s cap fuel cs hg hn
  have h2 := c137_queue hb s cap fuel cs
  have hm := nrun_mostly (t := t) (dev := dev) fuel (b := ⟨s, [], cap, 0, 0⟩) (q := ⟨s, [], cap, 0⟩) ⟨rfl, rfl, rfl⟩ cs (by
    intro c hc
    cases c with
    | op o => cases o <;> first | trivial | exact absurd hc (hs _)
    | _ => trivial)
  rcases hm with ⟨k1, k2⟩ | k
  · rw [k2] at h1; exact .inl ⟨k1, h1⟩
  · refine .inr ?_
    cases hq : (⟨s, [], cap, 0⟩ : Queue R).run dev fuel cs with
    | error p =>
      rw [hq] at h2 k
      simp only at k
      obtain ⟨rfl, h3, _⟩ := h2
      rw [k] at h1
      rw [h3]
      exact h1
    | ok y =>
      obtain ⟨os, q⟩ := y
      rw [hq] at h2 k
      obtain ⟨b, k1, k2⟩ := k
      rw [k1] at h1
      obtain ⟨r, a1, a2, a3, a4, _⟩ := h2
      obtain ⟨r', c1, c2, c3, c4, _⟩ := h1
      rw [a1]
      exact ⟨r', c1, by rw [c2, a2, k2.inner], by rw [c3, a3, k2.held], by rw [c4, a4, k2.size]⟩

/-! ### over a `Source`, the code is that of `Verif.Acc.Narrow` -/

/-- A scripted source, whose positions are `u64`, as a reader. -/
def source64 : Dev Source := ⟨Source.read, seekU64⟩

theorem resetN_link (t : Acc.Target) (r : Acc) :
    resetBufferPositionN t (ofAcc r) = (t.ops.resetBufferPosition r).map ofAcc := by
  unfold resetBufferPositionN AccOps.resetBufferPosition
  simp only [ofAcc]
  cases t.ops.sub r.end r.pos with
  | error p => rfl
  | ok w =>
    simp only [ok_bind]
    generalize (if w > 0 then copyWithin0 r.buf r.pos r.end else Except.ok r.buf) = b
    cases b <;> rfl

theorem consumeN_link (t : Acc.Target) (r : Acc) (k : Nat) :
    consumeN t (ofAcc r) k = (t.ops.consume r k).map ofAcc := by
  unfold consumeN AccOps.consume
  simp only [ofAcc]
  cases t.ops.add r.pos k with
  | error p => rfl
  | ok w =>
    simp only [ok_bind]
    cases t.ops.add r.index k <;> rfl

theorem fillN_link (t : Acc.Target) (r : Acc) : fillBufN t source64 (ofAcc r) = both (t.ops.fillBuf r) := by
  unfold fillBufN AccOps.fillBuf
  simp only [resetN_link]
  simp only [show (ofAcc r).pos = r.pos from rfl, show (ofAcc r).end = r.end from rfl,
    show (ofAcc r).buf = r.buf from rfl]
  by_cases hc : r.pos ≠ 0 ∨ r.end ≠ r.buf.length
  · rw [if_pos hc, if_pos hc]
    cases t.ops.resetBufferPosition r with
    | error p => rfl
    | ok r1 =>
      show (sliceFrom r1.buf r1.end >>= _) = both (sliceFrom r1.buf r1.end >>= _)
      cases sliceFrom r1.buf r1.end with
      | error p => rfl
      | ok room =>
        simp only [ok_bind, source64, ofAcc]
        cases r1.inner.read room.length with
        | mk x s =>
          cases x with
          | error e => rfl
          | ok l =>
            simp only
            cases t.ops.add r1.end l.length with
            | error p => rfl
            | ok en =>
              simp only [ok_bind, Live.data, Acc.data]
              generalize sliceRange _ _ _ = w
              cases w <;> rfl
  · rw [if_neg hc, if_neg hc]
    simp only [Live.data, Acc.data, ofAcc]
    generalize sliceRange _ _ _ = w
    cases w <;> rfl

theorem readN_link (t : Acc.Target) (r : Acc) (n : Nat) : readN t source64 (ofAcc r) n = both (t.ops.read r n) := by
  unfold readN AccOps.read
  simp only [show (ofAcc r).pos = r.pos from rfl, show (ofAcc r).end = r.end from rfl,
    show (ofAcc r).buf = r.buf from rfl, fillN_link]
  cases t.ops.sub r.end r.pos with
  | error p => rfl
  | ok w =>
    simp only [ok_bind]
    by_cases h1 : n < w
    · rw [if_pos h1, if_pos h1]
      cases t.ops.add r.pos n with
      | error p => rfl
      | ok hi =>
        simp only [ok_bind]
        cases sliceRange r.buf r.pos hi with
        | error p => rfl
        | ok l =>
          simp only [ok_bind, consumeN_link]
          cases t.ops.consume r l.length <;> rfl
    · rw [if_neg h1, if_neg h1]
      by_cases h2 : n > r.buf.length
      · rw [if_pos h2, if_pos h2]
        cases sliceRange r.buf r.pos r.end with
        | error p => rfl
        | ok l =>
          simp only [ok_bind]
          cases usub n w with
          | error p => rfl
          | ok room =>
            simp only [ok_bind]
            rw [show source64.read (ofAcc r).inner room = r.inner.read room from rfl]
            cases r.inner.read room with
            | mk x s =>
              cases x with
              | error e => rfl
              | ok l2 =>
                simp only
                cases t.ops.add l2.length (l.take n).length with
                | error p => rfl
                | ok total =>
                  simp only [ok_bind]
                  show (consumeN t (ofAcc { r with inner := s }) total >>= _) = both (t.ops.consume { r with inner := s } total >>= _)
                  rw [consumeN_link]
                  cases t.ops.consume { r with inner := s } total with
                  | error p => rfl
                  | ok r1 =>
                    show (resetBufferPositionN t (ofAcc r1) >>= _) = both (t.ops.resetBufferPosition r1 >>= _)
                    rw [resetN_link]
                    cases t.ops.resetBufferPosition r1 <;> rfl
      · rw [if_neg h2, if_neg h2]
        cases t.ops.fillBuf r with
        | error p => rfl
        | ok v =>
          obtain ⟨x, r1⟩ := v
          cases x with
          | error e => rfl
          | ok rem =>
            show (consumeN t (ofAcc r1) (rem.take n).length >>= _) = both (t.ops.consume r1 (rem.take n).length >>= _)
            rw [consumeN_link]
            cases t.ops.consume r1 (rem.take n).length <;> rfl

theorem seekInnerN_link (t : Acc.Target) (r : Acc) (sf : SeekFrom) :
    seekInnerN t source64 (ofAcc r) sf = both (t.seekInner r sf) := by
  unfold seekInnerN Target.seekInner
  rw [show source64.seek (ofAcc r).inner sf = seekU64 r.inner sf from rfl]
  cases seekU64 r.inner sf with
  | mk x s =>
    cases x with
    | error e => rfl
    | ok sz =>
      simp only
      rw [show ({ ofAcc r with inner := s, index := t.cast sz, pos := 0, «end» := 0 } : LAcc Source) =
        ofAcc { r with inner := s, index := t.cast sz, pos := 0, «end» := 0 } from rfl, fillN_link]
      cases t.ops.fillBuf _ with
      | error p => rfl
      | ok v =>
        obtain ⟨y, r1⟩ := v
        cases y <;> rfl

theorem seekN_link (t : Acc.Target) (r : Acc) (sf : SeekFrom) : seekN t source64 (ofAcc r) sf = both (t.seek r sf) := by
  unfold seekN Target.seek
  simp only [seekInnerN_link, show (ofAcc r).pos = r.pos from rfl, show (ofAcc r).end = r.end from rfl,
    show (ofAcc r).index = r.index from rfl]
  cases sf with
  | start n =>
    simp only
    by_cases h : t.cast n ≥ r.index
    · rw [if_pos h, if_pos h]
      cases t.ops.add r.index r.end with
      | error p => rfl
      | ok sum =>
        simp only [ok_bind]
        cases t.ops.sub sum r.pos with
        | error p => rfl
        | ok lim =>
          simp only [ok_bind]
          by_cases h2 : t.cast n < lim
          · rw [if_pos h2, if_pos h2]
            cases t.ops.sub (t.cast n) r.index with
            | error p => rfl
            | ok d =>
              simp only [ok_bind]
              cases t.ops.add r.pos d <;> rfl
          · rw [if_neg h2, if_neg h2]
    · rw [if_neg h, if_neg h]
  | «end» d => rfl
  | current d =>
    simp only
    cases t.ops.sub r.end r.pos with
    | error p => rfl
    | ok lim =>
      simp only [ok_bind]
      by_cases h : d ≥ 0
      · rw [if_pos h, if_pos h]
        by_cases h2 : t.cast d.toNat ≤ lim
        · rw [if_pos h2, if_pos h2]
          cases t.ops.add r.index (t.cast d.toNat) with
          | error p => rfl
          | ok i =>
            simp only [ok_bind]
            cases t.ops.add r.pos (t.cast d.toNat) <;> rfl
        · rw [if_neg h2, if_neg h2]
      · rw [if_neg h, if_neg h]

theorem readExactN_link (t : Acc.Target) (fuel : Nat) (r : Acc) (n : Nat) :
    readExact (readN t source64) fuel (ofAcc r) n = both (readExact t.ops.read fuel r n) := by
  induction fuel generalizing r n with
  | zero => rfl
  | succ fuel ih =>
    unfold readExact
    by_cases h0 : n = 0
    · rw [if_pos h0, if_pos h0]; rfl
    · rw [if_neg h0, if_neg h0, readN_link]
      cases t.ops.read r n with
      | error p => rfl
      | ok v =>
        obtain ⟨x, r1⟩ := v
        simp only [both, ok_bind]
        cases x with
        | error e => cases e <;> first | exact ih r1 n | rfl
        | ok l =>
          cases l with
          | nil => rfl
          | cons a l =>
            simp only
            rw [ih]
            cases readExact t.ops.read fuel r1 _ with
            | error p => rfl
            | ok v =>
              obtain ⟨y, r2⟩ := v
              cases y <;> rfl

theorem stepN_link (t : Acc.Target) (fuel : Nat) (r : Acc) (o : Op) :
    stepN t source64 fuel (ofAcc r) (.op o) = both (t.step fuel r o) := by
  cases o with
  | read n =>
    simp only [stepN, Target.step, AccOps.step, readN_link]
    cases t.ops.read r n with
    | error p => rfl
    | ok v => obtain ⟨x, r1⟩ := v; cases x <;> rfl
  | readExact n =>
    simp only [stepN, Target.step, AccOps.step, readExactN_link]
    cases readExact t.ops.read fuel r n with
    | error p => rfl
    | ok v => obtain ⟨x, r1⟩ := v; cases x <;> rfl
  | fillBuf =>
    simp only [stepN, Target.step, AccOps.step, fillN_link]
    cases t.ops.fillBuf r with
    | error p => rfl
    | ok v => obtain ⟨x, r1⟩ := v; cases x <;> rfl
  | consume k =>
    simp only [stepN, Target.step, AccOps.step, consumeN_link]
    rw [show Live.data (ofAcc r) = Acc.data r from rfl]
    cases Acc.data r with
    | error p => rfl
    | ok w =>
      simp only [ok_bind]
      cases t.ops.consume r (w.take k).length <;> rfl
  | grow k =>
    simp only [stepN, Target.step, AccOps.step, growN, AccOps.grow]
    rw [show (ofAcc r).buf = r.buf from rfl]
    cases t.ops.add r.buf.length k <;> rfl
  | reset =>
    simp only [stepN, Target.step, AccOps.step, resetN_link]
    cases t.ops.resetBufferPosition r <;> rfl
  | seek sf =>
    simp only [stepN, Target.step, seekN_link]
    cases t.seek r sf with
    | error p => rfl
    | ok v => obtain ⟨x, r1⟩ := v; cases x <;> rfl

/-- The histories of `Verif.Acc.Narrow`. -/
theorem runN_link (t : Acc.Target) (fuel : Nat) (r : Acc) (ops : List Op) :
    runN t source64 fuel (ofAcc r) (ops.map .op) = both (t.run fuel r ops) := by
  induction ops generalizing r with
  | nil => rfl
  | cons o ops ih =>
    simp only [List.map_cons, runN, Target.run, stepN_link]
    cases t.step fuel r o with
    | error p => rfl
    | ok v =>
      obtain ⟨x, r1⟩ := v
      show (runN t source64 fuel (ofAcc r1) (ops.map .op) >>= _) = both (t.run fuel r1 ops >>= _)
      rw [ih]
      cases t.run fuel r1 ops <;> rfl

theorem source64_bounded : Bounded source64 := by
  intro s n l h
  exact ((Source.read_spec s n).ok l h).2.1

/-- The queue of 4 bits over a stream of 40 bytes: at the sixteenth byte the position is 0 again, or the reader panics; and a
seek to 18 goes to byte 2 of it. -/
example :
    let s : Source := ⟨(List.range 40).map (BitVec.ofNat 8), 0, fun _ => ⟨none, 99⟩, 0⟩
    let cs : List (Call Source) := [.op (.read 7), .op (.read 7), .op (.read 2), .op (.seek (.current 0)), .op .fillBuf,
      .op (.seek (.start 18)), .op (.read 2)]
    ((⟨s, [], 7, 0, 0⟩ : NQueue Source).run ⟨4, false⟩ source64 9 cs).map Prod.fst =
      .ok [.bytes [0, 1, 2, 3, 4, 5, 6], .bytes [7, 8, 9, 10, 11, 12, 13], .bytes [14, 15], .pos 0,
        .shown [16, 17, 18, 19, 20, 21, 22], .pos 2, .bytes [18, 19]] ∧
    ((⟨s, [], 7, 0, 0⟩ : NQueue Source).run ⟨4, true⟩ source64 9 cs).map Prod.fst = .error .overflow ∧
    2 * (7 + grows cs) < 2 ^ 4 ∧ grows cs = 0 := by
  decide +kernel

end Verif.Live
