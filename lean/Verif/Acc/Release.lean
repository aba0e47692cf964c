import Verif.Acc.Overflow
import Verif.BitRead.Release

/-!
# C117, C118: `AccReader` in builds without overflow checks

`Overflow.lean` has the additions on `usize` panic when they overflow, as in builds with overflow checks.
Here the same functions over a choice of arithmetic, which in release builds wraps around.
-/

namespace Verif.Acc
open Verif Verif.Io Verif.Data Verif.BitRead

/-- The operators `+` and `-` on `usize` of a build. -/
structure AccOps where
  add : Nat → Nat → Rust Nat
  sub : Nat → Nat → Rust Nat

/-- With overflow checks. -/
def checkedAcc : AccOps := ⟨uadd, usub⟩

/-- Without: the results are taken modulo 2^64. -/
def wrappingAcc : AccOps where
  add a b := .ok ((a + b) % 2 ^ 64)
  sub a b := .ok (if b ≤ a then a - b else a + 2 ^ 64 - b)

/-- A call: one of the histories of `Model.lean`, or `consume` with an arbitrary argument. -/
inductive RawOp
  | op (o : Op) | consume (k : Nat)

namespace AccOps
variable (p : AccOps)

/-- accreader.rs:61-73 -/
def resetBufferPosition (r : Acc) : Rust Acc := do
  let w ← p.sub r.end r.pos
  let buf ← (if w > 0 then copyWithin0 r.buf r.pos r.end else .ok r.buf)
  return { r with buf, «end» := w, pos := 0 }

/-- accreader.rs:91-94; `Vec::resize` to fewer bytes truncates -/
def grow (r : Acc) (len : Nat) : Rust Acc := do
  let l ← p.add r.buf.length len
  return { r with buf := r.buf.take l ++ List.replicate (l - r.buf.length) 0 }

/-- accreader.rs:159-163 -/
def consume (r : Acc) (amt : Nat) : Rust Acc := do
  let q ← p.add r.pos amt
  let i ← p.add r.index amt
  return { r with pos := min q r.end, index := i }

/-- accreader.rs:142-157 -/
def fillBuf (r : Acc) : Rust (Except IoErr (List U8) × Acc) :=
  if r.pos ≠ 0 ∨ r.end ≠ r.buf.length then do
    let r ← p.resetBufferPosition r
    let room ← sliceFrom r.buf r.end
    match r.inner.read room.length with
    | (.error e, inner) => .ok (.error e, { r with inner })
    | (.ok l, inner) => do
      let en ← p.add r.end l.length
      let r := { r with
        inner
        buf := r.buf.take r.end ++ l ++ r.buf.drop en
        «end» := en }
      let w ← data r
      return (.ok w, r)
  else do
    let w ← data r
    return (.ok w, r)

/-- accreader.rs:98-138 -/
def read (r : Acc) (n : Nat) : Rust (Except IoErr (List U8) × Acc) := do
  let w ← p.sub r.end r.pos
  if n < w then do
    let hi ← p.add r.pos n
    let l ← sliceRange r.buf r.pos hi
    let r ← p.consume r l.length
    return (.ok l, r)
  else if n > r.buf.length then do
    let l ← sliceRange r.buf r.pos r.end
    let l := l.take n
    let room ← usub n w
    match r.inner.read room with
    | (.error e, inner) => .ok (.error e, { r with inner })
    | (.ok l2, inner) => do
      let total ← p.add l2.length l.length
      let r ← p.consume { r with inner } total
      let r ← p.resetBufferPosition r
      return (.ok (l ++ l2), r)
  else do
    let (x, r) ← p.fillBuf r
    match x with
    | .error e => .ok (.error e, r)
    | .ok rem => do
      let r ← p.consume r (rem.take n).length
      return (.ok (rem.take n), r)

/-- accreader.rs:194-203 -/
def seekInner (r : Acc) (sf : SeekFrom) : Rust (Except IoErr Nat × Acc) :=
  match seekU64 r.inner sf with
  | (.error e, inner) => .ok (.error e, { r with inner })
  | (.ok sz, inner) => do
    let (x, r) ← p.fillBuf { r with inner, index := sz, pos := 0, «end» := 0 }
    match x with
    | .error e => .ok (.error e, r)
    | .ok _ => .ok (.ok sz, r)

/-- accreader.rs:167-204 -/
def seek (r : Acc) (sf : SeekFrom) : Rust (Except IoErr Nat × Acc) :=
  match sf with
  | .start n =>
    if n ≥ r.index then do
      let lim ← p.sub (← p.add r.index r.end) r.pos
      if n < lim then do
        let d ← p.sub n r.index
        let q ← p.add r.pos d
        return (.ok n, { r with pos := q, index := n })
      else p.seekInner r sf
    else p.seekInner r sf
  | .end _ => p.seekInner r sf
  | .current d => do
    let remaining ← p.sub r.end r.pos
    if d ≥ 0 then
      if d.toNat ≤ remaining then do
        let i ← p.add r.index d.toNat
        let q ← p.add r.pos d.toNat
        return (.ok i, { r with index := i, pos := q })
      else p.seekInner r (.current (d - remaining))
    else p.seekInner r sf

def step (fuel : Nat) (r : Acc) : RawOp → Rust (Out × Acc)
  | .op (.read n) => do
    let (x, r) ← p.read r n
    match x with
    | .error e => .ok (.err e, r)
    | .ok l => .ok (.bytes l, r)
  | .op (.readExact n) => do
    let (x, r) ← readExact p.read fuel r n
    match x with
    | .error e => .ok (.err e, r)
    | .ok l => .ok (.bytes l, r)
  | .op .fillBuf => do
    let (x, r) ← p.fillBuf r
    match x with
    | .error e => .ok (.err e, r)
    | .ok l => .ok (.shown l, r)
  | .op (.consume k) => do
    let w ← data r
    return (.bytes (w.take k), ← p.consume r (w.take k).length)
  | .op (.grow k) => do return (.unit, ← p.grow r k)
  | .op .reset => do return (.unit, ← p.resetBufferPosition r)
  | .op (.seek sf) => do
    let (x, r) ← p.seek r sf
    match x with
    | .error e => .ok (.err e, r)
    | .ok n => .ok (.pos n, r)
  | .consume k => do return (.unit, ← p.consume r k)

def run (fuel : Nat) (r : Acc) : List RawOp → Rust (List Out × Acc)
  | [] => .ok ([], r)
  | op :: ops => do
    let (o, r) ← p.step fuel r op
    let (os, r) ← run fuel r ops
    return (o :: os, r)

end AccOps

/-! ### with overflow checks these are the functions of `Overflow.lean` -/

theorem checkedAcc_grow (r : Acc) (n : Nat) : checkedAcc.grow r n = growC r n := by
  unfold AccOps.grow growC checkedAcc
  dsimp only
  cases h : uadd r.buf.length n with
  | error e => rfl
  | ok l =>
    have hl : r.buf.length ≤ l := by
      unfold uadd at h
      split at h <;> cases h
      omega
    simp only [ok_bind, List.take_of_length_le hl]

theorem checkedAcc_seek (r : Acc) (sf : SeekFrom) : checkedAcc.seek r sf = seekC r sf := by
  unfold AccOps.seek seekC
  cases sf with
  | start n =>
    dsimp only
    by_cases h : n ≥ r.index
    · simp only [h, if_true, checkedAcc, usub_ok h, ok_bind]
      rfl
    · simp only [h, if_false]
      rfl
  | «end» d => rfl
  | current d => rfl

theorem checkedAcc_step (fuel : Nat) (r : Acc) (o : Op) : checkedAcc.step fuel r (.op o) = stepC fuel r o := by
  cases o with
  | grow k => simp only [AccOps.step, stepC, checkedAcc_grow]
  | seek sf => simp only [AccOps.step, stepC, checkedAcc_seek]; rfl
  | _ => rfl

theorem checkedAcc_run (fuel : Nat) (r : Acc) (ops : List Op) :
    checkedAcc.run fuel r (ops.map .op) = runC fuel r ops := by
  induction ops generalizing r with
  | nil => rfl
  | cons o os ih =>
    simp only [List.map_cons, AccOps.run, runC, checkedAcc_step, ih]

/-! ### what succeeds with checks succeeds without -/

structure AccOps.Le (p q : AccOps) : Prop where
  add : ∀ a b, Upto (p.add a b) (q.add a b)
  sub : ∀ a b, Upto (p.sub a b) (q.sub a b)

section
variable {p q : AccOps} (h : p.Le q)
include h

theorem AccOps.Le.resetBufferPosition (r : Acc) : Upto (p.resetBufferPosition r) (q.resetBufferPosition r) :=
  Upto.bind (h.sub _ _) (fun _ => Upto.refl _)

theorem AccOps.Le.grow (r : Acc) (n : Nat) : Upto (p.grow r n) (q.grow r n) :=
  Upto.bind (h.add _ _) (fun _ => Upto.refl _)

theorem AccOps.Le.consume (r : Acc) (n : Nat) : Upto (p.consume r n) (q.consume r n) :=
  Upto.bind (h.add _ _) (fun _ => Upto.bind (h.add _ _) (fun _ => Upto.refl _))

theorem AccOps.Le.fillBuf (r : Acc) : Upto (p.fillBuf r) (q.fillBuf r) := by
  unfold AccOps.fillBuf
  refine Upto.ite ?_ (Upto.refl _)
  refine Upto.bind (h.resetBufferPosition r) (fun r => Upto.bind (Upto.refl _) (fun room => ?_))
  generalize r.inner.read room.length = y
  obtain ⟨x, s⟩ := y
  cases x with
  | error e => exact Upto.refl _
  | ok l => exact Upto.bind (h.add _ _) (fun _ => Upto.refl _)

theorem AccOps.Le.read (r : Acc) (n : Nat) : Upto (p.read r n) (q.read r n) := by
  unfold AccOps.read
  refine Upto.bind (h.sub _ _) (fun w => Upto.ite ?_ (Upto.ite ?_ ?_))
  · exact Upto.bind (h.add _ _) (fun hi => Upto.bind (Upto.refl _) (fun l =>
      Upto.bind (h.consume _ _) (fun _ => Upto.refl _)))
  · refine Upto.bind (Upto.refl _) (fun l => Upto.bind (Upto.refl _) (fun room => ?_))
    generalize r.inner.read room = y
    obtain ⟨x, s⟩ := y
    cases x with
    | error e => exact Upto.refl _
    | ok l2 =>
      exact Upto.bind (h.add _ _) (fun _ => Upto.bind (h.consume _ _) (fun _ =>
        Upto.bind (h.resetBufferPosition _) (fun _ => Upto.refl _)))
  · refine Upto.bind (h.fillBuf r) (fun y => ?_)
    obtain ⟨x, r⟩ := y
    cases x with
    | error e => exact Upto.refl _
    | ok rem => exact Upto.bind (h.consume _ _) (fun _ => Upto.refl _)

theorem AccOps.Le.readExact (fuel : Nat) (r : Acc) (n : Nat) :
    Upto (readExact p.read fuel r n) (readExact q.read fuel r n) := by
  induction fuel generalizing r n with
  | zero => exact Upto.refl _
  | succ fuel ih =>
    unfold Io.readExact
    refine Upto.ite (Upto.refl _) (Upto.bind (h.read r n) (fun y => ?_))
    obtain ⟨x, r⟩ := y
    cases x with
    | error e => cases e <;> first | exact ih _ _ | exact Upto.refl _
    | ok l =>
      cases l with
      | nil => exact Upto.refl _
      | cons a l => exact Upto.bind (ih _ _) (fun _ => Upto.refl _)

theorem AccOps.Le.seekInner (r : Acc) (sf : SeekFrom) : Upto (p.seekInner r sf) (q.seekInner r sf) := by
  unfold AccOps.seekInner
  generalize seekU64 r.inner sf = y
  obtain ⟨x, s⟩ := y
  cases x with
  | error e => exact Upto.refl _
  | ok sz => exact Upto.bind (h.fillBuf _) (fun _ => Upto.refl _)

theorem AccOps.Le.seek (r : Acc) (sf : SeekFrom) : Upto (p.seek r sf) (q.seek r sf) := by
  unfold AccOps.seek
  cases sf with
  | start n =>
    refine Upto.ite ?_ (h.seekInner _ _)
    refine Upto.bind (h.add _ _) (fun _ => Upto.bind (h.sub _ _) (fun lim => Upto.ite ?_ (h.seekInner _ _)))
    exact Upto.bind (h.sub _ _) (fun _ => Upto.bind (h.add _ _) (fun _ => Upto.refl _))
  | «end» d => exact h.seekInner _ _
  | current d =>
    refine Upto.bind (h.sub _ _) (fun w => Upto.ite (Upto.ite ?_ (h.seekInner _ _)) (h.seekInner _ _))
    exact Upto.bind (h.add _ _) (fun _ => Upto.bind (h.add _ _) (fun _ => Upto.refl _))

theorem AccOps.Le.step (fuel : Nat) (r : Acc) (o : RawOp) : Upto (p.step fuel r o) (q.step fuel r o) := by
  cases o with
  | consume k => exact Upto.bind (h.consume _ _) (fun _ => Upto.refl _)
  | op o =>
    cases o with
    | read n => exact Upto.bind (h.read _ _) (fun _ => Upto.refl _)
    | readExact n => exact Upto.bind (h.readExact _ _ _) (fun _ => Upto.refl _)
    | fillBuf => exact Upto.bind (h.fillBuf _) (fun _ => Upto.refl _)
    | consume k => exact Upto.bind (Upto.refl _) (fun _ => Upto.bind (h.consume _ _) (fun _ => Upto.refl _))
    | grow k => exact Upto.bind (h.grow _ _) (fun _ => Upto.refl _)
    | reset => exact Upto.bind (h.resetBufferPosition _) (fun _ => Upto.refl _)
    | seek sf => exact Upto.bind (h.seek _ _) (fun _ => Upto.refl _)

theorem AccOps.Le.run (fuel : Nat) (r : Acc) (ops : List RawOp) : Upto (p.run fuel r ops) (q.run fuel r ops) := by
  induction ops generalizing r with
  | nil => exact Upto.refl _
  | cons o os ih => exact Upto.bind (h.step _ _ _) (fun _ => Upto.bind (ih _) (fun _ => Upto.refl _))

end

theorem wrappingAcc_le : checkedAcc.Le wrappingAcc where
  add a b x h := by
    simp only [checkedAcc, uadd] at h
    split at h
    · cases h; simp only [wrappingAcc, Nat.mod_eq_of_lt (by assumption)]
    · exact nomatch h
  sub a b x h := by
    simp only [checkedAcc, usub] at h
    split at h
    · cases h; simp only [wrappingAcc, if_pos (by assumption)]
    · exact nomatch h

/-- **C117** In a build without overflow checks `AccReader` does what it does in a build with them: over every reader,
from every state, a history of calls that ends there with these results and this state ends so here too. -/
theorem c117_agrees (fuel : Nat) (r r' : Acc) (ops : List Op) (os : List Out) (h : runC fuel r ops = .ok (os, r')) :
    wrappingAcc.run fuel r (ops.map .op) = .ok (os, r') :=
  wrappingAcc_le.run fuel r _ _ (by rw [checkedAcc_run]; exact h)

example : ∃ os r, runC 20 (withCapacity 5 sampleSource) [.read 2, .seek (.start 4), .fillBuf, .grow 3, .readExact 3] =
    .ok (os, r) ∧ os.length = 5 := ⟨_, _, rfl, rfl⟩

/-- So within the bounds of C102 it is explained by a cursor on the stream, and does not panic. -/
theorem c117_cursor (s : Source) (h0 : s.pos = 0) (hd : s.data.length ≤ 2 ^ 63) (cap fuel : Nat) (ops : List Op)
    (hg : cap + growth ops < 2 ^ 63) (hn : ∀ n, .read n ∈ ops ∨ .readExact n ∈ ops → n < 2 ^ 63)
    (hf : runC fuel (withCapacity cap s) ops ≠ .error .fuel) :
    ∃ os r p, wrappingAcc.run fuel (withCapacity cap s) (ops.map .op) = .ok (os, r) ∧
      ExplainsAll s.data 0 ops os p := by
  rcases c102_overflow s h0 hd cap fuel ops hg hn with ⟨h, -⟩ | ⟨os, r, p, h, he⟩
  · exact absurd h hf
  · exact ⟨os, r, p, c117_agrees _ _ _ _ _ h, he⟩

example : sampleSource.pos = 0 ∧ sampleSource.data.length ≤ 2 ^ 63 ∧ 5 + growth [.read 2, .seek (.start 4), .grow 3] < 2 ^ 63 ∧
    (match runC 20 (withCapacity 5 sampleSource) [.read 2, .seek (.start 4), .grow 3] with | .ok _ => true | .error _ => false) = true := by
  decide

/-! ### C118: what is left without the checks -/

/-- Positions in order, in a buffer of `n` bytes. -/
structure Held (n : Nat) (r : Acc) : Prop where
  pe : r.pos ≤ r.end
  eb : r.end ≤ r.buf.length
  len : r.buf.length = n
  idx : r.index < 2 ^ 64

section
variable {n : Nat} {r : Acc}

theorem Held.sub (h : Held n r) : wrappingAcc.sub r.end r.pos = .ok (r.end - r.pos) := by
  simp only [wrappingAcc, if_pos h.pe]

theorem Held.reset (h : Held n r) : ∃ r', wrappingAcc.resetBufferPosition r = .ok r' ∧ Held n r' ∧
    r'.inner = r.inner ∧ r'.index = r.index := by
  have h1 := h.pe
  have h2 := h.eb
  have h3 := h.len
  unfold AccOps.resetBufferPosition
  rw [h.sub]
  simp only [ok_bind]
  by_cases hw : r.end - r.pos > 0
  · have hs : sliceRange r.buf r.pos r.end = .ok ((r.buf.drop r.pos).take (r.end - r.pos)) := if_pos ⟨h1, h2⟩
    rw [if_pos hw]
    simp only [copyWithin0, hs, ok_bind, pure_eq_ok]
    refine ⟨_, rfl, ⟨Nat.zero_le _, ?_, ?_, h.idx⟩, rfl, rfl⟩
    · simp only [List.length_append, List.length_take, List.length_drop]; omega
    · simp only [List.length_append, List.length_take, List.length_drop]; omega
  · rw [if_neg hw]
    exact ⟨_, rfl, ⟨Nat.zero_le _, by simp only; omega, h3, h.idx⟩, rfl, rfl⟩

theorem Held.consume (h : Held n r) (k : Nat) : ∃ r', wrappingAcc.consume r k = .ok r' ∧ Held n r' :=
  ⟨_, rfl, Nat.min_le_right _ _, h.eb, h.len, Nat.mod_lt _ (by decide)⟩

theorem Held.data (h : Held n r) : data r = .ok ((r.buf.drop r.pos).take (r.end - r.pos)) := if_pos ⟨h.pe, h.eb⟩

theorem Held.fillBuf (h : Held n r) (hn : n < 2 ^ 64) :
    ∃ x r', wrappingAcc.fillBuf r = .ok (x, r') ∧ Held n r' := by
  unfold AccOps.fillBuf
  by_cases hc : r.pos ≠ 0 ∨ r.end ≠ r.buf.length
  · rw [if_pos hc]
    obtain ⟨r1, a1, a2, -, -⟩ := h.reset
    have b1 := a2.pe
    have b2 := a2.eb
    have b3 := a2.len
    rw [a1]
    simp only [ok_bind, sliceFrom_ok b2]
    have hrs := Source.read_spec r1.inner (r1.buf.drop r1.end).length
    generalize r1.inner.read (r1.buf.drop r1.end).length = y at hrs
    obtain ⟨x, s'⟩ := y
    cases x with
    | error e => exact ⟨_, _, rfl, b1, b2, b3, a2.idx⟩
    | ok l =>
      have hl := (hrs.ok l rfl).2.1
      rw [List.length_drop] at hl
      have ha : wrappingAcc.add r1.end l.length = .ok (r1.end + l.length) := by
        simp only [wrappingAcc]; rw [Nat.mod_eq_of_lt (by omega)]
      simp only [ha, ok_bind]
      have hk : Held n { r1 with
          inner := s'
          buf := r1.buf.take r1.end ++ l ++ r1.buf.drop (r1.end + l.length)
          «end» := r1.end + l.length } := by
        refine ⟨by simp only; omega, ?_, ?_, a2.idx⟩ <;>
          simp only [List.length_append, List.length_take, List.length_drop] <;> omega
      rw [hk.data]
      exact ⟨_, _, rfl, hk⟩
  · rw [if_neg hc, h.data]
    exact ⟨_, _, rfl, h⟩

theorem Held.read (h : Held n r) (hn : n < 2 ^ 64) (k : Nat) :
    ∃ x r', wrappingAcc.read r k = .ok (x, r') ∧ Held n r' := by
  have h1 := h.pe
  have h2 := h.eb
  have h3 := h.len
  unfold AccOps.read
  rw [h.sub]
  simp only [ok_bind]
  by_cases c1 : k < r.end - r.pos
  · rw [if_pos c1]
    have ha : wrappingAcc.add r.pos k = .ok (r.pos + k) := by
      simp only [wrappingAcc]; rw [Nat.mod_eq_of_lt (by omega)]
    have hs : sliceRange r.buf r.pos (r.pos + k) = .ok ((r.buf.drop r.pos).take k) := by
      rw [sliceRange, if_pos (by omega), Nat.add_sub_cancel_left]
    simp only [ha, hs, ok_bind]
    obtain ⟨r1, a1, a2⟩ := h.consume ((r.buf.drop r.pos).take k).length
    rw [a1]
    exact ⟨_, _, rfl, a2⟩
  · rw [if_neg c1]
    by_cases c2 : k > r.buf.length
    · have hs : sliceRange r.buf r.pos r.end = .ok ((r.buf.drop r.pos).take (r.end - r.pos)) := h.data
      rw [if_pos c2, hs, ok_bind, usub_ok (by omega)]
      simp only [ok_bind]
      generalize r.inner.read (k - (r.end - r.pos)) = y
      obtain ⟨x, s'⟩ := y
      cases x with
      | error e => exact ⟨_, _, rfl, h1, h2, h3, h.idx⟩
      | ok l2 =>
        have hk : Held n { r with inner := s' } := ⟨h1, h2, h3, h.idx⟩
        simp only [wrappingAcc, ok_bind]
        obtain ⟨r1, a1, a2⟩ := hk.consume ((l2.length + (((r.buf.drop r.pos).take (r.end - r.pos)).take k).length) % 2 ^ 64)
        simp only [wrappingAcc] at a1
        rw [a1]
        simp only [ok_bind]
        obtain ⟨r2, d1, d2, -⟩ := a2.reset
        simp only [wrappingAcc] at d1
        rw [d1]
        exact ⟨_, _, rfl, d2⟩
    · rw [if_neg c2]
      obtain ⟨x, r1, a1, a2⟩ := h.fillBuf hn
      rw [a1]
      cases x with
      | error e => exact ⟨_, _, rfl, a2⟩
      | ok rem =>
        simp only [ok_bind]
        obtain ⟨r2, d1, d2⟩ := a2.consume (rem.take k).length
        rw [d1]
        exact ⟨_, _, rfl, d2⟩

theorem Held.readExact (h : Held n r) (hn : n < 2 ^ 64) (fuel k : Nat) :
    readExact wrappingAcc.read fuel r k = .error .fuel ∨
    ∃ x r', readExact wrappingAcc.read fuel r k = .ok (x, r') ∧ Held n r' := by
  induction fuel generalizing r k with
  | zero => exact .inl rfl
  | succ fuel ih =>
    unfold Io.readExact
    by_cases hk : k = 0
    · rw [if_pos hk]; exact .inr ⟨_, _, rfl, h⟩
    · rw [if_neg hk]
      obtain ⟨x, r1, a1, a2⟩ := h.read hn k
      rw [a1]
      simp only [ok_bind]
      cases x with
      | error e => cases e <;> first | exact ih a2 _ | exact .inr ⟨_, _, rfl, a2⟩
      | ok l =>
        cases l with
        | nil => exact .inr ⟨_, _, rfl, a2⟩
        | cons a l =>
          simp only
          rcases ih a2 (k - (a :: l).length) with g | ⟨y, r2, g1, g2⟩
          · rw [g]; exact .inl rfl
          · rw [g1]
            cases y <;> exact .inr ⟨_, _, rfl, g2⟩

theorem seekU64_lt {s : Source} {sf : SeekFrom} {sz : Nat} (h : (seekU64 s sf).1 = .ok sz) : sz < 2 ^ 64 := by
  unfold seekU64 at h
  split at h
  · exact nomatch h
  · next hc =>
    unfold Source.seek at h
    cases hf : (s.script s.clock).fail with
    | some e => rw [hf] at h; exact nomatch h
    | none =>
      rw [hf] at h
      simp only at h
      split at h
      · exact nomatch h
      · have : ¬ 2 ^ 64 ≤ s.target sf := fun h' => hc ⟨hf, h'⟩
        simp only [Except.ok.injEq] at h
        omega

theorem Held.seekInner (h : Held n r) (hn : n < 2 ^ 64) (sf : SeekFrom) :
    ∃ x r', wrappingAcc.seekInner r sf = .ok (x, r') ∧ Held n r' := by
  unfold AccOps.seekInner
  have hz := fun sz => seekU64_lt (s := r.inner) (sf := sf) (sz := sz)
  generalize seekU64 r.inner sf = y at hz
  obtain ⟨x, s'⟩ := y
  cases x with
  | error e => exact ⟨_, _, rfl, h.pe, h.eb, h.len, h.idx⟩
  | ok sz =>
    have hk : Held n { r with inner := s', index := sz, pos := 0, «end» := 0 } :=
      ⟨Nat.le_refl _, Nat.zero_le _, h.len, hz sz rfl⟩
    obtain ⟨z, r1, a1, a2⟩ := hk.fillBuf hn
    simp only [a1, ok_bind]
    cases z <;> exact ⟨_, _, rfl, a2⟩

theorem Held.seek (h : Held n r) (hn : n < 2 ^ 64) (sf : SeekFrom) (hs : ∀ m, sf = .start m → m < 2 ^ 64) :
    ∃ x r', wrappingAcc.seek r sf = .ok (x, r') ∧ Held n r' := by
  have h1 := h.pe
  have h2 := h.eb
  have h3 := h.len
  have h4 := h.idx
  unfold AccOps.seek
  cases sf with
  | start m =>
    have hm := hs m rfl
    simp only
    by_cases c1 : m ≥ r.index
    · rw [if_pos c1]
      have hl : ∃ lim, wrappingAcc.sub ((r.index + r.end) % 2 ^ 64) r.pos = .ok lim ∧
          (lim = r.index + (r.end - r.pos) ∨ lim + 2 ^ 64 = r.index + (r.end - r.pos)) := by
        refine ⟨_, rfl, ?_⟩
        split <;> omega
      obtain ⟨lim, l1, l2⟩ := hl
      have ha : wrappingAcc.add r.index r.end = .ok ((r.index + r.end) % 2 ^ 64) := rfl
      simp only [ha, l1, ok_bind]
      by_cases c2 : m < lim
      · have hb : wrappingAcc.sub m r.index = .ok (m - r.index) := by simp only [wrappingAcc, if_pos c1]
        have hc : wrappingAcc.add r.pos (m - r.index) = .ok (r.pos + (m - r.index)) := by
          simp only [wrappingAcc]; rw [Nat.mod_eq_of_lt (by omega)]
        rw [if_pos c2]
        simp only [hb, hc, ok_bind, pure_eq_ok]
        exact ⟨_, _, rfl, by simp only; omega, h2, h3, hm⟩
      · rw [if_neg c2]; exact h.seekInner hn _
    · rw [if_neg c1]; exact h.seekInner hn _
  | «end» d => exact h.seekInner hn _
  | current d =>
    simp only [h.sub, ok_bind]
    by_cases c1 : d ≥ 0
    · rw [if_pos c1]
      by_cases c2 : d.toNat ≤ r.end - r.pos
      · have ha : wrappingAcc.add r.index d.toNat = .ok ((r.index + d.toNat) % 2 ^ 64) := rfl
        have hc : wrappingAcc.add r.pos d.toNat = .ok (r.pos + d.toNat) := by
          simp only [wrappingAcc]; rw [Nat.mod_eq_of_lt (by omega)]
        rw [if_pos c2]
        simp only [ha, hc, ok_bind, pure_eq_ok]
        exact ⟨_, _, rfl, by simp only; omega, h2, h3, Nat.mod_lt _ (by decide)⟩
      · rw [if_neg c2]; exact h.seekInner hn _
    · rw [if_neg c1]; exact h.seekInner hn _

theorem Held.grow (h : Held n r) (k : Nat) (hk : n + k < 2 ^ 64) :
    ∃ r', wrappingAcc.grow r k = .ok r' ∧ Held (n + k) r' := by
  have h2 := h.eb
  have h3 := h.len
  have ha : wrappingAcc.add r.buf.length k = .ok (r.buf.length + k) := by
    simp only [wrappingAcc]; rw [Nat.mod_eq_of_lt (by omega)]
  simp only [AccOps.grow, ha, ok_bind, pure_eq_ok]
  refine ⟨_, rfl, h.pe, ?_, ?_, h.idx⟩ <;>
    simp only [List.length_append, List.length_take, List.length_replicate] <;> omega

end

/-- By how many bytes a call grows the buffer. -/
def RawOp.grows : RawOp → Nat
  | .op (.grow k) => k
  | _ => 0

theorem Held.step {n : Nat} {r : Acc} (h : Held n r) (fuel : Nat) (o : RawOp) (hn : n + o.grows < 2 ^ 64)
    (hs : ∀ m, o = .op (.seek (.start m)) → m < 2 ^ 64) :
    (wrappingAcc.step fuel r o = .error .fuel ∧ ∃ k, o = .op (.readExact k)) ∨
    ∃ y r', wrappingAcc.step fuel r o = .ok (y, r') ∧ Held (n + o.grows) r' := by
  cases o with
  | consume k =>
    obtain ⟨r1, a1, a2⟩ := h.consume k
    simp only [AccOps.step, a1, ok_bind]
    exact .inr ⟨_, _, rfl, a2⟩
  | op o =>
    cases o with
    | read k =>
      obtain ⟨x, r1, a1, a2⟩ := h.read hn k
      simp only [AccOps.step, a1, ok_bind]
      cases x <;> exact .inr ⟨_, _, rfl, a2⟩
    | readExact k =>
      simp only [AccOps.step]
      rcases h.readExact hn fuel k with g | ⟨x, r1, a1, a2⟩
      · rw [g]; exact .inl ⟨rfl, k, rfl⟩
      · simp only [a1, ok_bind]
        cases x <;> exact .inr ⟨_, _, rfl, a2⟩
    | fillBuf =>
      obtain ⟨x, r1, a1, a2⟩ := h.fillBuf hn
      simp only [AccOps.step, a1, ok_bind]
      cases x <;> exact .inr ⟨_, _, rfl, a2⟩
    | consume k =>
      simp only [AccOps.step, h.data, ok_bind]
      obtain ⟨r1, a1, a2⟩ := h.consume (((r.buf.drop r.pos).take (r.end - r.pos)).take k).length
      simp only [a1, ok_bind]
      exact .inr ⟨_, _, rfl, a2⟩
    | grow k =>
      obtain ⟨r1, a1, a2⟩ := h.grow k hn
      simp only [AccOps.step, a1, ok_bind]
      exact .inr ⟨_, _, rfl, a2⟩
    | reset =>
      obtain ⟨r1, a1, a2, -⟩ := h.reset
      simp only [AccOps.step, a1, ok_bind]
      exact .inr ⟨_, _, rfl, a2⟩
    | seek sf =>
      obtain ⟨x, r1, a1, a2⟩ := h.seek hn sf (fun m hm => hs m (by rw [hm]))
      simp only [AccOps.step, a1, ok_bind]
      cases x <;> exact .inr ⟨_, _, rfl, a2⟩

theorem Held.run {n : Nat} {r : Acc} (h : Held n r) (fuel : Nat) (ops : List RawOp)
    (hn : n + (ops.map RawOp.grows).sum < 2 ^ 64) (hs : ∀ m, .op (.seek (.start m)) ∈ ops → m < 2 ^ 64) :
    (wrappingAcc.run fuel r ops = .error .fuel ∧ ∃ k, .op (.readExact k) ∈ ops) ∨
    ∃ os r', wrappingAcc.run fuel r ops = .ok (os, r') ∧ Held (n + (ops.map RawOp.grows).sum) r' := by
  induction ops generalizing n r with
  | nil => exact .inr ⟨[], r, rfl, h⟩
  | cons o ops ih =>
    simp only [List.map_cons, List.sum_cons] at hn ⊢
    rcases h.step fuel o (by omega) (fun m hm => hs m (by simp [hm])) with ⟨g, k, hk⟩ | ⟨y, r1, a1, a2⟩
    · exact .inl ⟨by simp only [AccOps.run, g, error_bind], k, by simp [hk]⟩
    · rcases ih a2 (by omega) (fun m hm => hs m (List.mem_cons_of_mem _ hm)) with ⟨g, k, hk⟩ | ⟨os, r2, b1, b2⟩
      · exact .inl ⟨by simp only [AccOps.run, a1, g, ok_bind, error_bind], k, List.mem_cons_of_mem _ hk⟩
      · refine .inr ⟨y :: os, r2, by simp only [AccOps.run, a1, b1, ok_bind, pure_eq_ok], ?_⟩
        rw [← Nat.add_assoc]
        exact b2

/-- What C118 claims: in a build without overflow checks too, no history of calls (but for a `read_exact` on a reader
that never delivers) panics, and none takes back what has been consumed. -/
def C118 : Prop :=
  ∀ (s : Source) (cap fuel : Nat) (ops : List RawOp), cap < 2 ^ 63 → (∀ k, .op (.readExact k) ∉ ops) →
    (∀ m, .op (.seek (.start m)) ∈ ops → m < 2 ^ 64) →
    (∃ os r, wrappingAcc.run fuel (withCapacity cap s) ops = .ok (os, r)) ∧
    ∀ k os r r', wrappingAcc.run fuel (withCapacity cap s) ops = .ok (os, r) →
      wrappingAcc.consume r k = .ok r' → r.pos ≤ r'.pos

/-- **C118, partial** Over every stream (of any length) and reader, with a buffer below 2^63 bytes to the end (beyond,
`Vec::resize` panics, unless the sum wraps), no history of calls panics: seeks and reads of any size, and `consume` by any amount, leave the positions in order. What is missing:
`grow` beyond, and that `consume` moves forward. -/
theorem c118_partial (s : Source) (cap fuel : Nat) (ops : List RawOp)
    (hn : cap + (ops.map RawOp.grows).sum < 2 ^ 63) (hs : ∀ m, .op (.seek (.start m)) ∈ ops → m < 2 ^ 64) :
    (wrappingAcc.run fuel (withCapacity cap s) ops = .error .fuel ∧ ∃ k, .op (.readExact k) ∈ ops) ∨
    ∃ os r, wrappingAcc.run fuel (withCapacity cap s) ops = .ok (os, r) ∧ r.pos ≤ r.end ∧
      r.end ≤ r.buf.length ∧ r.buf.length = cap + (ops.map RawOp.grows).sum := by
  have h : Held cap (withCapacity cap s) :=
    ⟨Nat.le_refl _, Nat.zero_le _, by simp [withCapacity], by simp [withCapacity]⟩
  rcases h.run fuel ops (by omega) hs with g | ⟨os, r, g1, g2⟩
  · exact .inl g
  · exact .inr ⟨os, r, g1, g2.pe, g2.eb, g2.len⟩

example : 5 + ([.op .fillBuf, .consume (2 ^ 64 - 1), .op (.grow 7), .op (.read 3)].map RawOp.grows).sum < 2 ^ 63 := by
  decide

/-- Exactly: `grow` keeps what is buffered unless the sum of the lengths wraps to less than that, and then `data` panics. -/
theorem c118_grow_partial (r r' : Acc) (len : Nat) (h1 : r.pos ≤ r.end) (h2 : r.end ≤ r.buf.length)
    (h : wrappingAcc.grow r len = .ok r') :
    data r' = if r.end ≤ (r.buf.length + len) % 2 ^ 64 then data r else .error .slice := by
  have ha : wrappingAcc.add r.buf.length len = .ok ((r.buf.length + len) % 2 ^ 64) := rfl
  simp only [AccOps.grow, ha, ok_bind, pure_eq_ok] at h
  generalize (r.buf.length + len) % 2 ^ 64 = m at h
  cases h
  simp only [data, sliceRange, List.length_append, List.length_take, List.length_replicate]
  by_cases hm : r.end ≤ m
  · rw [if_pos hm, if_pos (by omega), if_pos (by omega)]
    congr 1
    rw [List.drop_append_of_le_length (by rw [List.length_take]; omega),
      List.take_append_of_le_length (by rw [List.length_drop, List.length_take]; omega), List.drop_take, List.take_take]
    congr 1
    omega
  · rw [if_neg hm, if_neg (by omega)]

example : ∃ r', wrappingAcc.grow (withCapacity 5 sampleSource) 7 = .ok r' := ⟨_, rfl⟩

/-- Exactly: `consume` moves to `pos + amt` modulo 2^64 or the end of what is buffered; so it moves back just when the
sum wraps. -/
theorem c118_consume_partial (r r' : Acc) (k : Nat) (h1 : r.pos ≤ r.end) (hp : r.pos < 2 ^ 64) (hk : k < 2 ^ 64)
    (h : wrappingAcc.consume r k = .ok r') : r'.pos < r.pos ↔ 2 ^ 64 ≤ r.pos + k := by
  simp only [AccOps.consume, wrappingAcc, ok_bind, pure_eq_ok] at h
  cases h
  simp only
  omega

example : ∃ r', wrappingAcc.consume (withCapacity 5 sampleSource) (2 ^ 64 - 1) = .ok r' := ⟨_, rfl⟩

/-- A stream of four bytes, delivered in one read. -/
def fourBytes : Source := ⟨[1, 2, 3, 4], 0, fun _ => ⟨none, 7⟩, 0⟩

/-- C118 fails: after two of four bytes, `consume(usize::MAX)` has the second shown again; and with the buffer full
`grow(usize::MAX)` cuts it, so that the next `fill_buf` panics. -/
theorem c118_fails :
    outs (wrappingAcc.run 9 (withCapacity 4 fourBytes)
      [.op (.read 2), .op .fillBuf]) = some [.bytes [1, 2], .shown [3, 4]] ∧
    outs (wrappingAcc.run 9 (withCapacity 4 fourBytes)
      [.op (.read 2), .consume (2 ^ 64 - 1), .op .fillBuf]) = some [.bytes [1, 2], .unit, .shown [2, 3, 4]] ∧
    wrappingAcc.run 9 (withCapacity 4 fourBytes) [.op .fillBuf, .op (.grow (2 ^ 64 - 1)), .op .fillBuf] =
      .error .slice ∧ ¬ C118 := by
  have hb : wrappingAcc.run 9 (withCapacity 4 fourBytes) [.op .fillBuf, .op (.grow (2 ^ 64 - 1)), .op .fillBuf] =
      .error .slice := rfl
  refine ⟨by decide +kernel, by decide +kernel, hb, ?_⟩
  intro h
  obtain ⟨⟨os, r, g⟩, -⟩ := h fourBytes 4 9 [.op .fillBuf, .op (.grow (2 ^ 64 - 1)), .op .fillBuf] (by decide)
    (by simp) (by simp)
  rw [hb] at g
  exact nomatch g

end Verif.Acc
