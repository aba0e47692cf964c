import Verif.Acc.Props
import Verif.Data.Arith

/-!
# C102: the arithmetic of `AccReader` in 64 bits

`Model.lean` adds positions as unbounded naturals. Here the same functions with every addition on `usize`
checked, over inner readers that report positions as `u64`.
-/

namespace Verif.Acc
open Verif Verif.Io Verif.Data

/-- An inner reader answers a seek with a `u64`: a target beyond is an error. -/
def seekU64 (s : Source) (sf : SeekFrom) : Except IoErr Nat × Source :=
  if (s.script s.clock).fail = none ∧ 2 ^ 64 ≤ s.target sf then
    (.error .invalidInput, { s with clock := s.clock + 1 })
  else s.seek sf

/-- accreader.rs:91-94 -/
def growC (r : Acc) (len : Nat) : Rust Acc := do
  let l ← uadd r.buf.length len
  return { r with buf := r.buf ++ List.replicate (l - r.buf.length) 0 }

/-- accreader.rs:159-163 -/
def consumeC (r : Acc) (amt : Nat) : Rust Acc := do
  let p ← uadd r.pos amt
  let i ← uadd r.index amt
  return { r with pos := min p r.end, index := i }

/-- accreader.rs:142-157 -/
def fillBufC (r : Acc) : Rust (Except IoErr (List U8) × Acc) :=
  if r.pos ≠ 0 ∨ r.end ≠ r.buf.length then do
    let r ← resetBufferPosition r
    let room ← sliceFrom r.buf r.end
    match r.inner.read room.length with
    | (.error e, inner) => .ok (.error e, { r with inner })
    | (.ok l, inner) => do
      let en ← uadd r.end l.length
      let r := { r with
        inner
        buf := r.buf.take r.end ++ l ++ r.buf.drop en
        «end» := en }
      let w ← data r
      return (.ok w, r)
  else do
    let w ← data r
    return (.ok w, r)

/-- accreader.rs:98-138 -/
def readC (r : Acc) (n : Nat) : Rust (Except IoErr (List U8) × Acc) := do
  let w ← usub r.end r.pos
  if n < w then do
    let hi ← uadd r.pos n
    let l ← sliceRange r.buf r.pos hi
    let r ← consumeC r l.length
    return (.ok l, r)
  else if n > r.buf.length then do
    let l ← sliceRange r.buf r.pos r.end
    let l := l.take n
    let room ← usub n w
    match r.inner.read room with
    | (.error e, inner) => .ok (.error e, { r with inner })
    | (.ok l2, inner) => do
      let total ← uadd l2.length l.length
      let r ← consumeC { r with inner } total
      let r ← resetBufferPosition r
      return (.ok (l ++ l2), r)
  else do
    let (x, r) ← fillBufC r
    match x with
    | .error e => .ok (.error e, r)
    | .ok rem => do
      let r ← consumeC r (rem.take n).length
      return (.ok (rem.take n), r)

/-- accreader.rs:194-203 -/
def seekInnerC (r : Acc) (sf : SeekFrom) : Rust (Except IoErr Nat × Acc) :=
  match seekU64 r.inner sf with
  | (.error e, inner) => .ok (.error e, { r with inner })
  | (.ok sz, inner) => do
    let (x, r) ← fillBufC { r with inner, index := sz, pos := 0, «end» := 0 }
    match x with
    | .error e => .ok (.error e, r)
    | .ok _ => .ok (.ok sz, r)

/-- accreader.rs:167-204 -/
def seekC (r : Acc) (sf : SeekFrom) : Rust (Except IoErr Nat × Acc) :=
  match sf with
  | .start n =>
    if n ≥ r.index then do
      let lim ← usub (← uadd r.index r.end) r.pos
      if n < lim then do
        let p ← uadd r.pos (n - r.index)
        return (.ok n, { r with pos := p, index := n })
      else seekInnerC r sf
    else seekInnerC r sf
  | .end _ => seekInnerC r sf
  | .current d => do
    let remaining ← usub r.end r.pos
    if d ≥ 0 then
      if d.toNat ≤ remaining then do
        let i ← uadd r.index d.toNat
        let p ← uadd r.pos d.toNat
        return (.ok i, { r with index := i, pos := p })
      else seekInnerC r (.current (d - remaining))
    else seekInnerC r sf

def stepC (fuel : Nat) (r : Acc) : Op → Rust (Out × Acc)
  | .read n => do
    let (x, r) ← readC r n
    match x with
    | .error e => .ok (.err e, r)
    | .ok l => .ok (.bytes l, r)
  | .readExact n => do
    let (x, r) ← readExact readC fuel r n
    match x with
    | .error e => .ok (.err e, r)
    | .ok l => .ok (.bytes l, r)
  | .fillBuf => do
    let (x, r) ← fillBufC r
    match x with
    | .error e => .ok (.err e, r)
    | .ok l => .ok (.shown l, r)
  | .consume k => do
    let w ← data r
    return (.bytes (w.take k), ← consumeC r (w.take k).length)
  | .grow k => do return (.unit, ← growC r k)
  | .reset => do return (.unit, ← resetBufferPosition r)
  | .seek sf => do
    let (x, r) ← seekC r sf
    match x with
    | .error e => .ok (.err e, r)
    | .ok n => .ok (.pos n, r)

def runC (fuel : Nat) (r : Acc) : List Op → Rust (List Out × Acc)
  | [] => .ok ([], r)
  | op :: ops => do
    let (o, r) ← stepC fuel r op
    let (os, r) ← runC fuel r ops
    return (o :: os, r)

/-! ### the checked functions do what the others do -/

/-- The position is in the stream, or behind it with an empty buffer, below a limit `M`. -/
def Sane (M : Nat) (dat : List U8) (r : Acc) : Prop := r.index ≤ dat.length ∨ (r.pos = 0 ∧ r.index < M)

/-- Stream and buffer are not larger than half the limit. -/
structure Small (M : Nat) (dat : List U8) (r : Acc) : Prop where
  inv : Inv dat r
  sane : Sane M dat r
  len : 2 * dat.length ≤ M
  cap : 2 * r.buf.length < M

section
variable {M : Nat}

theorem Small.sum {dat : List U8} {r : Acc} (h : Small M dat r) : r.index + r.end < M := by
  have := h.inv.inData
  have := h.inv.pe
  have := h.inv.eb
  have := h.len
  have := h.cap
  rcases h.sane with h1 | ⟨h1, h2⟩ <;> omega

theorem Small.room {dat : List U8} {r : Acc} (h : Small M dat r) {l : List U8} (hl : At dat r.index l) :
    r.index + l.length < M := by
  have hl2 := congrArg List.length hl
  rw [List.length_take, List.length_drop] at hl2
  have := h.len
  have := h.cap
  rcases h.sane with h1 | ⟨h1, h2⟩ <;> omega

theorem consumeC_ok {r : Acc} {k : Nat} (h1 : r.pos + k < 2 ^ 64) (h2 : r.index + k < 2 ^ 64) :
    consumeC r k = .ok (consume r k) := by
  simp only [consumeC, uadd_ok h1, uadd_ok h2, ok_bind, pure_eq_ok]
  rfl

theorem fillBufC_ok {dat : List U8} {r : Acc} (h : Inv dat r) (hc : 2 * r.buf.length < 2 ^ 64) :
    fillBufC r = fillBuf r := by
  unfold fillBufC fillBuf
  by_cases hc1 : r.pos ≠ 0 ∨ r.end ≠ r.buf.length
  · rw [if_pos hc1, if_pos hc1]
    obtain ⟨r1, a1, a2, a3, a4, a5, a6, a7, a8⟩ := reset_inv h
    have heb := a2.eb
    rw [a1]
    simp only [ok_bind, sliceFrom_ok heb]
    have hrs := Source.read_spec r1.inner (r1.buf.drop r1.end).length
    generalize r1.inner.read (r1.buf.drop r1.end).length = y at hrs
    obtain ⟨x, s'⟩ := y
    cases x with
    | error e => rfl
    | ok l =>
      have := (hrs.ok l rfl).2.1
      rw [List.length_drop] at this
      simp only
      rw [uadd_ok (by omega)]
      rfl
  · rw [if_neg hc1, if_neg hc1]

theorem fillBuf_pos {r r' : Acc} {x : Except IoErr (List U8)} (h : fillBuf r = .ok (x, r')) : r'.pos = 0 := by
  unfold fillBuf at h
  by_cases hc : r.pos ≠ 0 ∨ r.end ≠ r.buf.length
  · rw [if_pos hc] at h
    cases hr : resetBufferPosition r with
    | error e => rw [hr] at h; cases h
    | ok r1 =>
      rw [hr] at h
      have h1 : r1.pos = 0 := by
        unfold resetBufferPosition at hr
        cases hu : usub r.end r.pos with
        | error e => rw [hu] at hr; cases hr
        | ok w =>
          rw [hu] at hr
          simp only [ok_bind] at hr
          generalize (if w > 0 then copyWithin0 r.buf r.pos r.end else .ok r.buf) = y at hr
          cases y with
          | error e => cases hr
          | ok b => cases hr; rfl
      simp only [ok_bind] at h
      cases hs : sliceFrom r1.buf r1.end with
      | error e => rw [hs] at h; cases h
      | ok room =>
        rw [hs] at h
        simp only [ok_bind] at h
        generalize r1.inner.read room.length = y at h
        obtain ⟨x, s'⟩ := y
        cases x with
        | error e => cases h; exact h1
        | ok l =>
          simp only at h
          generalize hq : ({ r1 with
            inner := s'
            buf := r1.buf.take r1.end ++ l ++ r1.buf.drop (r1.end + l.length)
            «end» := r1.end + l.length } : Acc) = q at h
          have hqp : q.pos = 0 := by rw [← hq]; exact h1
          cases hd : data q with
          | error e => rw [hd] at h; cases h
          | ok w => rw [hd] at h; cases h; exact hqp
  · rw [if_neg hc] at h
    cases hd : data r with
    | error e => rw [hd] at h; cases h
    | ok w => rw [hd] at h; cases h; omega

theorem Sane.fillBuf {dat : List U8} {r r' : Acc} {x : Except IoErr (List U8)} (h : Inv dat r) (hs : r.index < M)
    (hx : fillBuf r = .ok (x, r')) : Sane M dat r' := by
  obtain ⟨y, r1, a1, a2⟩ := fillBuf_spec h
  rw [hx] at a1
  cases a1
  exact .inr ⟨fillBuf_pos hx, by rw [a2.index]; exact hs⟩

theorem Small.index {dat : List U8} {r : Acc} (h : Small M dat r) : r.index < M := by
  have := h.len
  have := h.cap
  rcases h.sane with h1 | ⟨h1, h2⟩ <;> omega

theorem Sane.moved {dat : List U8} {r r' : Acc} {l : List U8} (h : Sane M dat r) (hat : At dat r.index l)
    (hi : r'.index = r.index + l.length) (h0 : dat.length < r.index → r'.pos = 0) : Sane M dat r' := by
  have hl2 := congrArg List.length hat
  rw [List.length_take, List.length_drop] at hl2
  by_cases hc : r.index ≤ dat.length
  · exact .inl (by omega)
  · rcases h with h | ⟨h1, h2⟩
    · exact absurd h hc
    · exact .inr ⟨h0 (by omega), by omega⟩

theorem Small.read {dat : List U8} {r : Acc} (h : Small M dat r) {n : Nat} {x : Except IoErr (List U8)} {r' : Acc}
    (hx : Acc.read r n = .ok (x, r')) : Small M dat r' := by
  have hpe := h.inv.pe
  have heb := h.inv.eb
  have hcap := h.cap
  obtain ⟨y, r1, a1, a2⟩ := read_spec h.inv n
  rw [hx] at a1
  cases a1
  refine ⟨a2.inv, ?_, h.len, by rw [a2.len]; exact hcap⟩
  -- behind the end of the stream the buffer is and stays empty
  have hz : dat.length < r.index → r'.pos = 0 := by
    intro hlt
    have hid := h.inv.inData
    have hp0 : r.pos = 0 := by
      rcases h.sane with h1 | ⟨h1, _⟩ <;> omega
    have hw0 : r.end - r.pos = 0 := by omega
    unfold Acc.read at hx
    rw [usub_ok hpe] at hx
    simp only [ok_bind] at hx
    rw [if_neg (by omega)] at hx
    by_cases h2 : n > r.buf.length
    · rw [if_pos h2] at hx
      have hs : sliceRange r.buf r.pos r.end = .ok (win r) := data_ok h.inv
      rw [hs, usub_ok (by omega)] at hx
      simp only [ok_bind] at hx
      generalize r.inner.read (n - (r.end - r.pos)) = y at hx
      obtain ⟨x', s'⟩ := y
      cases x' with
      | error e => cases hx; exact hp0
      | ok l2 =>
        simp only at hx
        generalize consume { r with inner := s' } (l2.length + ((win r).take n).length) = q at hx
        unfold resetBufferPosition at hx
        cases hu : usub q.end q.pos with
        | error e => rw [hu] at hx; cases hx
        | ok w =>
          rw [hu] at hx
          simp only [ok_bind] at hx
          generalize (if w > 0 then copyWithin0 q.buf q.pos q.end else .ok q.buf) = z at hx
          cases z with
          | error e => cases hx
          | ok b => cases hx; rfl
    · rw [if_neg h2] at hx
      obtain ⟨x', r1, c1, c2⟩ := fillBuf_spec h.inv
      rw [c1] at hx
      simp only [ok_bind] at hx
      have hp := fillBuf_pos c1
      cases x' with
      | error e => cases hx; exact hp
      | ok rem =>
        cases hx
        have hw := win_length c2.inv
        have hid2 := c2.inv.inData
        rw [c2.index] at hid2
        have hr0 : rem.length = 0 := by rw [(c2.shown rem rfl).1, hw]; omega
        have : (rem.take n).length = 0 := by rw [List.length_take]; omega
        simp only [consume, this, hp]
        omega
  cases x with
  | error e =>
    obtain ⟨b1, -⟩ := a2.error e rfl
    exact Sane.moved (l := []) h.sane (by simp [At]) (by simpa using b1) hz
  | ok l =>
    obtain ⟨b1, -, b3, -⟩ := a2.ok l rfl
    exact Sane.moved h.sane b1 b3 hz

theorem Small.readExact {dat : List U8} (fuel : Nat) {r : Acc} (h : Small M dat r) {n : Nat}
    {x : Except IoErr (List U8)} {r' : Acc} (hx : readExact Acc.read fuel r n = .ok (x, r')) : Small M dat r' := by
  induction fuel generalizing r n x r' with
  | zero => cases hx
  | succ fuel ih =>
    unfold Io.readExact at hx
    by_cases h0 : n = 0
    · rw [if_pos h0] at hx; cases hx; exact h
    · rw [if_neg h0] at hx
      cases hr : Acc.read r n with
      | error e => rw [hr] at hx; cases hx
      | ok y =>
        obtain ⟨x1, r1⟩ := y
        have hs := h.read hr
        simp only [hr, ok_bind] at hx
        cases x1 with
        | error e =>
          cases e with
          | interrupted => exact ih hs hx
          | _ => cases hx; exact hs
        | ok l =>
          cases l with
          | nil => cases hx; exact hs
          | cons b l =>
            simp only at hx
            cases hr2 : Io.readExact Acc.read fuel r1 (n - (b :: l).length) with
            | error e => rw [hr2] at hx; cases hx
            | ok z =>
              obtain ⟨x2, r2⟩ := z
              have := ih hs hr2
              rw [hr2] at hx
              cases x2 <;> (cases hx; exact this)

/-- `read_exact` over a `read` that does what `read` does, on small states and for requests that `P` admits. -/
theorem readExact_congr {dat : List U8} (rd : Acc → Nat → Rust (Except IoErr (List U8) × Acc)) (P : Nat → Prop)
    (hP : ∀ a b, P a → b ≤ a → P b) (hrd : ∀ r n, Small M dat r → P n → rd r n = Acc.read r n)
    (fuel : Nat) {r : Acc} (h : Small M dat r) {n : Nat} (hn : P n) :
    readExact rd fuel r n = readExact Acc.read fuel r n := by
  induction fuel generalizing r n with
  | zero => rfl
  | succ fuel ih =>
    unfold Io.readExact
    by_cases h0 : n = 0
    · rw [if_pos h0, if_pos h0]
    · rw [if_neg h0, if_neg h0, hrd r n h hn]
      cases hr : Acc.read r n with
      | error e => rfl
      | ok y =>
        obtain ⟨x, r1⟩ := y
        have hs := h.read hr
        simp only [ok_bind]
        cases x with
        | error e =>
          cases e with
          | interrupted => exact ih hs hn
          | _ => rfl
        | ok l =>
          cases l with
          | nil => rfl
          | cons b l =>
            simp only
            rw [ih hs (n := n - (b :: l).length) (hP _ _ hn (by omega))]

end

theorem readC_ok {dat : List U8} {r : Acc} (h : Small (2 ^ 64) dat r) {n : Nat} (hn : n < 2 ^ 63) :
    readC r n = read r n := by
  have hpe := h.inv.pe
  have heb := h.inv.eb
  have hcap := h.cap
  have hwl := win_length h.inv
  have hat := h.inv.at
  unfold readC read
  rw [usub_ok hpe]
  simp only [ok_bind]
  by_cases h1 : n < r.end - r.pos
  · rw [if_pos h1, if_pos h1, uadd_ok (by omega)]
    simp only [ok_bind]
    have hs : sliceRange r.buf r.pos (r.pos + n) = .ok ((r.buf.drop r.pos).take n) := by
      rw [sliceRange, if_pos (by omega), Nat.add_sub_cancel_left]
    rw [hs]
    simp only [ok_bind]
    have hll : ((r.buf.drop r.pos).take n).length ≤ n := List.length_take_le _ _
    have := h.sum
    rw [consumeC_ok (by omega) (by omega)]
    rfl
  · rw [if_neg h1, if_neg h1]
    by_cases h2 : n > r.buf.length
    · rw [if_pos h2, if_pos h2]
      have hs : sliceRange r.buf r.pos r.end = .ok (win r) := data_ok h.inv
      rw [hs, usub_ok (by omega)]
      simp only [ok_bind]
      have hrs := Source.read_spec r.inner (n - (r.end - r.pos))
      generalize r.inner.read (n - (r.end - r.pos)) = y at hrs
      obtain ⟨x, s'⟩ := y
      cases x with
      | error e => rfl
      | ok l2 =>
        simp only
        obtain ⟨b1, b2, b3, b4⟩ := hrs.ok l2 rfl
        rw [h.inv.src, h.inv.ip, ← hwl] at b1
        have htk : (win r).take n = win r := List.take_of_length_le (by omega)
        have hroom := h.room (hat.append b1)
        rw [List.length_append] at hroom
        rw [htk, uadd_ok (by omega)]
        simp only [ok_bind]
        rw [consumeC_ok (by simp only; omega) (by simp only; omega)]
        rfl
    · rw [if_neg h2, if_neg h2, fillBufC_ok h.inv h.cap]
      obtain ⟨x, r1, a1, a2⟩ := fillBuf_spec h.inv
      rw [a1]
      simp only [ok_bind]
      cases x with
      | error e => rfl
      | ok rem =>
        simp only
        have hp := fillBuf_pos a1
        have hat1 := a2.inv.at
        rw [← (a2.shown rem rfl).1, a2.index] at hat1
        have hroom := h.room (hat1.take n)
        have hll : (rem.take n).length ≤ n := List.length_take_le _ _
        rw [consumeC_ok (by omega) (by rw [a2.index]; exact hroom)]
        rfl
theorem readExactC_ok {dat : List U8} (fuel : Nat) {r : Acc} (h : Small (2 ^ 64) dat r) {n : Nat} (hn : n < 2 ^ 63) :
    readExact readC fuel r n = readExact read fuel r n :=
  readExact_congr readC (· < 2 ^ 63) (fun _ _ => by omega) (fun _ _ h hn => readC_ok h hn) fuel h hn

/-- A seek that fails because the target is no `u64`. -/
def Refused (r r' : Acc) (x : Except IoErr Nat) : Prop :=
  x = .error .invalidInput ∧ r' = { r with inner := { r.inner with clock := r.inner.clock + 1 } }

theorem Refused.inv {M : Nat} {dat : List U8} {r r' : Acc} {x : Except IoErr Nat} (h : Small M dat r)
    (hr : Refused r r' x) : Small M dat r' := by
  obtain ⟨-, rfl⟩ := hr
  exact ⟨⟨h.inv.src, h.inv.pe, h.inv.eb, h.inv.ip, h.inv.win⟩, h.sane, h.len, h.cap⟩

theorem Small.seekInner {M : Nat} {dat : List U8} {r : Acc} (h : Small M dat r) {sf : SeekFrom} {x : Except IoErr Nat}
    {r' : Acc} (hx : seekInner r sf = .ok (x, r')) (hlt : r'.index < M) : Small M dat r' := by
  obtain ⟨x', r1, a1, a2⟩ := seekInner_spec h.inv sf
  rw [hx] at a1
  cases a1
  refine ⟨a2.inv, ?_, h.len, by rw [a2.len]; exact h.cap⟩
  unfold Acc.seekInner at hx
  obtain ⟨s1, s2, s3, s4, s5, s6, s7⟩ := source_seek r.inner sf
  cases hs : r.inner.seek sf with
  | mk y s' =>
    rw [hs] at s1 s4 hx
    cases y with
    | error e =>
      cases hx
      exact h.sane
    | ok sz =>
      obtain ⟨g1, g2⟩ := s4 sz rfl
      have hinv : Inv dat ({ r with inner := s', index := sz, pos := 0, «end» := 0 } : Acc) :=
        ⟨s1.trans h.inv.src, Nat.le_refl _, Nat.zero_le _, by simp only at g2 ⊢; omega, by simp [win]⟩
      obtain ⟨z, r1, c1, c2⟩ := fillBuf_spec hinv
      have hp := fillBuf_pos c1
      simp only [c1, ok_bind] at hx
      cases z <;> (cases hx; exact .inr ⟨hp, hlt⟩)

theorem Small.consume {M : Nat} {dat : List U8} {r : Acc} (h : Small M dat r) {k : Nat} (hk : k ≤ r.end - r.pos) :
    Small M dat (consume r k) := by
  have hid := h.inv.inData
  have hpe := h.inv.pe
  obtain ⟨c1, c2, c3⟩ := consume_inv h.inv hk
  refine ⟨c1, ?_, h.len, h.cap⟩
  rcases h.sane with h1 | ⟨h1, h2⟩
  · exact .inl (by rw [c2]; omega)
  · by_cases h0 : k = 0
    · subst h0
      refine .inr ⟨?_, by rw [c2]; exact h2⟩
      simp only [Acc.consume]; omega
    · exact .inl (by rw [c2]; omega)

theorem Small.seek {M : Nat} {dat : List U8} {r : Acc} (h : Small M dat r) {sf : SeekFrom} {x : Except IoErr Nat}
    {r' : Acc} (hx : seek r sf = .ok (x, r')) (hlt : r'.index < M) : Small M dat r' := by
  have hpe := h.inv.pe
  have heb := h.inv.eb
  cases sf with
  | start n =>
    unfold Acc.seek at hx
    simp only at hx
    by_cases hn : n ≥ r.index
    · rw [if_pos hn, usub_ok (by omega)] at hx
      simp only [ok_bind] at hx
      by_cases hn2 : n < r.index + r.end - r.pos
      · rw [if_pos hn2] at hx
        cases hx
        have he : ({ r with pos := r.pos + (n - r.index), index := n } : Acc) = Acc.consume r (n - r.index) := by
          simp only [Acc.consume]
          rw [show min (r.pos + (n - r.index)) r.end = r.pos + (n - r.index) by omega,
            show r.index + (n - r.index) = n by omega]
        rw [he]
        exact h.consume (by omega)
      · rw [if_neg hn2] at hx; exact h.seekInner hx hlt
    · rw [if_neg hn] at hx; exact h.seekInner hx hlt
  | «end» d => exact h.seekInner hx hlt
  | current d =>
    unfold Acc.seek at hx
    simp only [usub_ok hpe, ok_bind] at hx
    by_cases hd : d ≥ 0
    · rw [if_pos hd] at hx
      by_cases hd2 : d.toNat ≤ r.end - r.pos
      · rw [if_pos hd2] at hx
        cases hx
        have he : ({ r with index := r.index + d.toNat, pos := r.pos + d.toNat } : Acc) = Acc.consume r d.toNat := by
          simp only [Acc.consume]
          rw [show min (r.pos + d.toNat) r.end = r.pos + d.toNat by omega]
        rw [he]
        exact h.consume hd2
      · rw [if_neg hd2] at hx; exact h.seekInner hx hlt
    · rw [if_neg hd] at hx; exact h.seekInner hx hlt

theorem seekInnerC_ok {dat : List U8} {r : Acc} (h : Small (2 ^ 64) dat r) (sf : SeekFrom) :
    ∃ x r', seekInnerC r sf = .ok (x, r') ∧ Small (2 ^ 64) dat r' ∧ (seekInner r sf = .ok (x, r') ∨ Refused r r' x) := by
  by_cases hc : (r.inner.script r.inner.clock).fail = none ∧ 2 ^ 64 ≤ r.inner.target sf
  · have : Refused r { r with inner := { r.inner with clock := r.inner.clock + 1 } } (.error .invalidInput) := ⟨rfl, rfl⟩
    refine ⟨_, _, ?_, this.inv h, .inr this⟩
    unfold seekInnerC seekU64
    rw [if_pos hc]
  · obtain ⟨x, r', a1, a2⟩ := seekInner_spec h.inv sf
    have he : seekInnerC r sf = seekInner r sf := by
      unfold seekInnerC seekInner seekU64
      rw [if_neg hc]
      obtain ⟨s1, s2, s3, s4, s5, s6, s7⟩ := source_seek r.inner sf
      cases hs : r.inner.seek sf with
      | mk y s' =>
        rw [hs] at s1 s4
        cases y with
        | error e => rfl
        | ok sz =>
          obtain ⟨g1, g2⟩ := s4 sz rfl
          have hinv : Inv dat ({ r with inner := s', index := sz, pos := 0, «end» := 0 } : Acc) :=
            ⟨s1.trans h.inv.src, Nat.le_refl _, Nat.zero_le _, by simp only at g2 ⊢; omega, by simp [win]⟩
          simp only
          rw [fillBufC_ok hinv h.cap]
          rfl
    refine ⟨x, r', he.trans a1, ⟨a2.inv, ?_, h.len, by rw [a2.len]; exact h.cap⟩, .inl a1⟩
    unfold seekInner at a1
    obtain ⟨s1, s2, s3, s4, s5, s6, s7⟩ := source_seek r.inner sf
    have hlt : ∀ sz : Nat, (r.inner.seek sf).1 = .ok sz → sz < 2 ^ 64 := by
      intro sz hsz
      obtain ⟨g1, -⟩ := s4 sz hsz
      by_cases hf : (r.inner.script r.inner.clock).fail = none
      · have : ¬ (2 ^ 64 ≤ r.inner.target sf) := fun h' => hc ⟨hf, h'⟩
        omega
      · unfold Source.seek at hsz
        cases hf' : (r.inner.script r.inner.clock).fail with
        | none => exact absurd hf' hf
        | some e => rw [hf'] at hsz; cases hsz
    cases hs : r.inner.seek sf with
    | mk y s' =>
      rw [hs] at s1 s4 s5 a1 hlt
      cases y with
      | error e =>
        cases a1
        exact h.sane
      | ok sz =>
        obtain ⟨g1, g2⟩ := s4 sz rfl
        have := hlt sz rfl
        have hinv : Inv dat ({ r with inner := s', index := sz, pos := 0, «end» := 0 } : Acc) :=
          ⟨s1.trans h.inv.src, Nat.le_refl _, Nat.zero_le _, by simp only at g2 ⊢; omega, by simp [win]⟩
        obtain ⟨z, r1, c1, c2⟩ := fillBuf_spec hinv
        have hsn := Sane.fillBuf hinv this c1
        simp only [c1, ok_bind] at a1
        cases z <;> (cases a1; exact hsn)

theorem seekC_ok {dat : List U8} {r : Acc} (h : Small (2 ^ 64) dat r) (sf : SeekFrom) :
    ∃ x r', seekC r sf = .ok (x, r') ∧ Small (2 ^ 64) dat r' ∧ (seek r sf = .ok (x, r') ∨ Refused r r' x) := by
  have hpe := h.inv.pe
  have heb := h.inv.eb
  have hsum := h.sum
  have hid := h.inv.inData
  have hwl := win_length h.inv
  have hlen := h.len
  have hin : ∀ k, k ≤ r.end - r.pos → Small (2 ^ 64) dat (consume r k) := by
    intro k hk
    obtain ⟨c1, c2, c3⟩ := consume_inv h.inv hk
    refine ⟨c1, ?_, hlen, h.cap⟩
    rcases h.sane with h1 | ⟨h1, h2⟩
    · exact .inl (by rw [c2]; omega)
    · by_cases h0 : k = 0
      · subst h0
        refine .inr ⟨?_, by rw [c2]; exact h2⟩
        simp only [consume]; omega
      · exact .inl (by rw [c2]; omega)
  cases sf with
  | start n =>
    unfold seekC seek
    simp only
    by_cases hn : n ≥ r.index
    · rw [if_pos hn, if_pos hn, uadd_ok hsum]
      simp only [ok_bind]
      rw [usub_ok (by omega)]
      simp only [ok_bind]
      by_cases hn2 : n < r.index + r.end - r.pos
      · rw [if_pos hn2, if_pos hn2, uadd_ok (by omega)]
        refine ⟨_, _, rfl, ?_, .inl rfl⟩
        have he : ({ r with pos := r.pos + (n - r.index), index := n } : Acc) = consume r (n - r.index) := by
          simp only [consume]
          rw [show min (r.pos + (n - r.index)) r.end = r.pos + (n - r.index) by omega,
            show r.index + (n - r.index) = n by omega]
        rw [he]
        exact hin _ (by omega)
      · rw [if_neg hn2, if_neg hn2]; exact seekInnerC_ok h _
    · rw [if_neg hn, if_neg hn]; exact seekInnerC_ok h _
  | «end» d => exact seekInnerC_ok h _
  | current d =>
    unfold seekC seek
    simp only [usub_ok hpe, ok_bind]
    by_cases hd : d ≥ 0
    · rw [if_pos hd, if_pos hd]
      by_cases hd2 : d.toNat ≤ r.end - r.pos
      · rw [if_pos hd2, if_pos hd2, uadd_ok (by omega)]
        simp only [ok_bind]
        rw [uadd_ok (by omega)]
        refine ⟨_, _, rfl, ?_, .inl rfl⟩
        have he : ({ r with index := r.index + d.toNat, pos := r.pos + d.toNat } : Acc) = consume r d.toNat := by
          simp only [consume]
          rw [show min (r.pos + d.toNat) r.end = r.pos + d.toNat by omega]
        rw [he]
        exact hin _ hd2
      · rw [if_neg hd2, if_neg hd2]; exact seekInnerC_ok h _
    · rw [if_neg hd, if_neg hd]; exact seekInnerC_ok h _

/-- The caller's buffers are slices (below 2^63 bytes), and so is the reader's own after growing. -/
def Fits (cap : Nat) : Op → Prop
  | .read n => n < 2 ^ 63
  | .readExact n => n < 2 ^ 63
  | .grow k => cap + k < 2 ^ 63
  | _ => True

theorem stepC_spec {dat : List U8} (fuel : Nat) {r : Acc} (h : Small (2 ^ 64) dat r) (op : Op) (hf : Fits r.buf.length op) :
    (stepC fuel r op = .error .fuel ∧ ∃ n, op = .readExact n) ∨
    ∃ o r', stepC fuel r op = .ok (o, r') ∧ Small (2 ^ 64) dat r' ∧ Explains dat r.index op o r'.index ∧
      r'.buf.length = r.buf.length + grown [op] := by
  have hspec := step_spec fuel h.inv op
  -- the calls that do what `step` does
  have same : stepC fuel r op = step fuel r op → (∀ o r', step fuel r op = .ok (o, r') → Small (2 ^ 64) dat r') →
      (stepC fuel r op = .error .fuel ∧ ∃ n, op = .readExact n) ∨
      ∃ o r', stepC fuel r op = .ok (o, r') ∧ Small (2 ^ 64) dat r' ∧ Explains dat r.index op o r'.index ∧
        r'.buf.length = r.buf.length + grown [op] := by
    intro he hs
    rw [he]
    rcases hspec with h1 | ⟨o, r', a1, a2, a3, a4, a5⟩
    · exact .inl h1
    · exact .inr ⟨o, r', a1, hs o r' a1, a3, a5⟩
  cases op with
  | read n =>
    have g1 := readC_ok h hf
    refine same (by simp only [stepC, step, g1]; rfl) ?_
    intro o r' ho
    simp only [step] at ho
    cases hr : read r n with
    | error e => rw [hr] at ho; cases ho
    | ok y =>
      obtain ⟨x, r1⟩ := y
      rw [hr] at ho
      have := h.read hr
      cases x <;> (cases ho; exact this)
  | readExact n =>
    have g1 := readExactC_ok fuel h hf
    refine same (by simp only [stepC, step, g1]; rfl) ?_
    intro o r' ho
    simp only [step] at ho
    cases hr : readExact read fuel r n with
    | error e => rw [hr] at ho; cases ho
    | ok y =>
      obtain ⟨x, r1⟩ := y
      rw [hr] at ho
      have := h.readExact fuel hr
      cases x <;> (cases ho; exact this)
  | fillBuf =>
    refine same (by simp only [stepC, step, fillBufC_ok h.inv h.cap]; rfl) ?_
    intro o r' ho
    obtain ⟨x, r1, a1, a2⟩ := fillBuf_spec h.inv
    simp only [step, a1, ok_bind] at ho
    have : Small (2 ^ 64) dat r1 := ⟨a2.inv, Sane.fillBuf h.inv h.index a1, h.len, by rw [a2.len]; exact h.cap⟩
    cases x <;> (cases ho; exact this)
  | consume k =>
    have hwl := win_length h.inv
    have hpe := h.inv.pe
    have heb := h.inv.eb
    have hcap := h.cap
    have hlk : ((win r).take k).length ≤ r.end - r.pos := by rw [List.length_take]; omega
    have hroom := h.room (h.inv.at.take k)
    obtain ⟨c1, c2, c3⟩ := consume_inv h.inv hlk
    refine same ?_ ?_
    · simp only [stepC, step, data_ok h.inv, ok_bind, consumeC_ok (r := r) (k := ((win r).take k).length) (by omega) hroom]
    · intro o r' ho
      simp only [step, data_ok h.inv, ok_bind, pure_eq_ok] at ho
      cases ho
      refine ⟨c1, Sane.moved h.sane (h.inv.at.take k) c2 ?_, h.len, h.cap⟩
      intro hlt
      have := h.inv.inData
      have hp0 : r.pos = 0 := by
        rcases h.sane with h1 | ⟨h1, _⟩ <;> omega
      simp only [consume, hp0]
      omega
  | grow k =>
    have hf : r.buf.length + k < 2 ^ 63 := hf
    have hg : growC r k = .ok (grow r k) := by
      simp only [growC, uadd_ok (show r.buf.length + k < 2 ^ 64 by omega), ok_bind, pure_eq_ok, Nat.add_sub_cancel_left]
      rfl
    refine same (by simp only [stepC, step, hg, ok_bind, pure_eq_ok]) ?_
    intro o r' ho
    cases ho
    exact ⟨(grow_inv h.inv k).1, h.sane, h.len, by simp only [grow, List.length_append, List.length_replicate]; omega⟩
  | reset =>
    refine same rfl ?_
    intro o r' ho
    obtain ⟨r1, b1, b2, b3, _, b5, b6, _, _⟩ := reset_inv h.inv
    simp only [step, b1, ok_bind, pure_eq_ok] at ho
    cases ho
    exact ⟨b2, .inr ⟨b3, by rw [b6]; exact h.index⟩, h.len, by rw [b5]; exact h.cap⟩
  | seek sf =>
    right
    obtain ⟨x, r', a1, a2, a3⟩ := seekC_ok h sf
    simp only [stepC, a1, ok_bind]
    rcases a3 with a3 | ⟨rfl, rfl⟩
    · simp only [step, a3, ok_bind] at hspec
      cases x with
      | error e =>
        rcases hspec with ⟨h1, _⟩ | ⟨o, r'', b1, b2, b3, b4, b5⟩
        · cases h1
        · cases b1; exact ⟨_, _, rfl, a2, b3, b5⟩
      | ok m =>
        rcases hspec with ⟨h1, _⟩ | ⟨o, r'', b1, b2, b3, b4, b5⟩
        · cases h1
        · cases b1; exact ⟨_, _, rfl, a2, b3, b5⟩
    · exact ⟨_, _, rfl, a2, .inl rfl, rfl⟩

theorem runC_spec {dat : List U8} (fuel : Nat) {r : Acc} (h : Small (2 ^ 64) dat r) (ops : List Op)
    (hn : ∀ n, .read n ∈ ops ∨ .readExact n ∈ ops → n < 2 ^ 63) (hg : r.buf.length + grown ops < 2 ^ 63) :
    (runC fuel r ops = .error .fuel ∧ ∃ n, .readExact n ∈ ops) ∨
    ∃ os r', runC fuel r ops = .ok (os, r') ∧ ExplainsAll dat r.index ops os r'.index ∧ Small (2 ^ 64) dat r' := by
  induction ops generalizing r with
  | nil => exact .inr ⟨[], r, rfl, rfl, h⟩
  | cons op ops ih =>
    have hgs : grown (op :: ops) = grown [op] + grown ops := by cases op <;> simp [grown]
    have hf : Fits r.buf.length op := by
      cases op with
      | read n => exact hn n (by simp)
      | readExact n => exact hn n (by simp)
      | grow k => simp only [Fits]; simp only [grown] at hg; omega
      | _ => exact trivial
    rcases stepC_spec fuel h op hf with ⟨h1, n, h2⟩ | ⟨o, r1, a1, a2, a3, a4⟩
    · left
      exact ⟨by simp only [runC, h1, error_bind], n, by simp [h2]⟩
    · rcases ih a2 (fun n hn' => hn n (hn'.imp (by simp_all) (by simp_all))) (by omega) with ⟨h1, n, h2⟩ | ⟨os, r2, b1, b2, b3⟩
      · left
        exact ⟨by simp only [runC, a1, h1, ok_bind, error_bind], n, by simp [h2]⟩
      · right
        exact ⟨o :: os, r2, by simp only [runC, a1, b1, ok_bind, pure_eq_ok], ⟨_, a3, b2⟩, b3⟩

/-! ### C102 -/

/-- What the calls of `grow` in a history ask for together. -/
def growth (ops : List Op) : Nat := (ops.map fun op => match op with | .grow k => k | _ => 0).sum

theorem grown_growth (ops : List Op) : grown ops = growth ops := by
  induction ops with
  | nil => rfl
  | cons op ops ih =>
    have : growth (op :: ops) = growth [op] + growth ops := by simp [growth]
    rw [this, ← ih]
    cases op <;> simp [grown, growth]

/-- **C102** With 64-bit arithmetic: over every stream of at most 2^63 bytes and every reader, with buffers below 2^63
bytes (a `Vec` or slice cannot be larger) and consuming no more than is shown, no history of calls overflows or panics otherwise, wherever its seeks
lead, and it is still explained by a cursor on the stream. -/
theorem c102_overflow (s : Source) (h0 : s.pos = 0) (hd : s.data.length ≤ 2 ^ 63) (cap fuel : Nat) (ops : List Op)
    (hg : cap + growth ops < 2 ^ 63) (hn : ∀ n, .read n ∈ ops ∨ .readExact n ∈ ops → n < 2 ^ 63) :
    (runC fuel (withCapacity cap s) ops = .error .fuel ∧ ∃ n, .readExact n ∈ ops) ∨
    ∃ os r p, runC fuel (withCapacity cap s) ops = .ok (os, r) ∧ ExplainsAll s.data 0 ops os p := by
  have hb : (withCapacity cap s).buf.length = cap := by simp [withCapacity]
  have hs : Small (2 ^ 64) s.data (withCapacity cap s) :=
    ⟨withCapacity_inv cap s h0, .inl (Nat.zero_le _), by omega, by rw [hb]; omega⟩
  rcases runC_spec fuel hs ops hn (by rw [hb, grown_growth]; exact hg) with h | ⟨os, r, h1, h2, h3⟩
  · exact .inl h
  · exact .inr ⟨os, r, _, h1, h2⟩

example : sampleSource.pos = 0 ∧ sampleSource.data.length ≤ 2 ^ 63 ∧ 5 + growth [.read 2, .grow 3] < 2 ^ 63 ∧
    outs (runC 20 (withCapacity 5 sampleSource)
      [.read 2, .seek (.start 60), .fillBuf, .seek (.current 1), .read 3, .seek (.start 4), .read 1]) =
    outs (run 20 (withCapacity 5 sampleSource)
      [.read 2, .seek (.start 60), .fillBuf, .seek (.current 1), .read 3, .seek (.start 4), .read 1]) := by
  decide +kernel

/-- Beyond the contract: consuming `usize::MAX` bytes overflows once anything has been consumed. -/
theorem c102_contract (r : Acc) (h : 0 < r.index ∨ 0 < r.pos) : consumeC r (2 ^ 64 - 1) = .error .overflow := by
  by_cases h1 : r.pos + (2 ^ 64 - 1) < 2 ^ 64
  · have h2 : uadd r.index (2 ^ 64 - 1) = .error .overflow := if_neg (by omega)
    simp only [consumeC, uadd_ok h1, h2, ok_bind, error_bind]
  · have h2 : uadd r.pos (2 ^ 64 - 1) = .error .overflow := if_neg h1
    simp only [consumeC, h2, error_bind]

example : 0 < (consume (withCapacity 5 sampleSource) 2).index := by decide

end Verif.Acc
