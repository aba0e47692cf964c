import Verif.Live.Queue

/-!
# C141: `AccReader` over readers that keep no contract

`Read::read` gets a slice, of which it may do what it likes with every byte, and returns a number, which the type does not
bound. Here the inner reader is any function of its state and the slice: it may look at what the slice holds, write behind
the bytes it counts, count bytes it did not write, and count more bytes than the slice has.
-/

namespace Verif.Live
open Verif Verif.Io Verif.Acc

variable {R : Type}

/-- A `Read + Seek` implementation that gets the slice. The result is the number returned, the slice afterwards and what
becomes of the reader; a slice keeps its length. -/
structure Wild (R : Type) where
  read : R → List U8 → Except IoErr Nat × List U8 × R
  seek : R → SeekFrom → Except IoErr Nat × R
  kept : ∀ r s, (read r s).2.1.length = s.length

/-! ### the model -/

/-- accreader.rs:142-157 -/
def wFill (w : Wild R) (r : LAcc R) : Rust (Except IoErr (List U8) × LAcc R) :=
  if r.pos ≠ 0 ∨ r.end ≠ r.buf.length then do
    let r ← resetBufferPosition r
    let room ← sliceFrom r.buf r.end
    match w.read r.inner room with
    | (.error e, s, inner) => .ok (.error e, { r with inner, buf := r.buf.take r.end ++ s })
    | (.ok k, s, inner) => do
      let r := { r with inner, buf := r.buf.take r.end ++ s, «end» := r.end + k }
      let l ← data r
      return (.ok l, r)
  else do
    let l ← data r
    return (.ok l, r)

/-- accreader.rs:98-138, into the buffer `out`; the result has the buffer afterwards. -/
def wRead (w : Wild R) (r : LAcc R) (out : List U8) : Rust (Except IoErr Nat × List U8 × LAcc R) := do
  let held ← usub r.end r.pos
  if out.length < held then do
    let l ← sliceRange r.buf r.pos (r.pos + out.length)
    return (.ok l.length, l ++ out.drop l.length, consume r l.length)
  else if out.length > r.buf.length then do
    let l ← sliceRange r.buf r.pos r.end
    let l := l.take out.length
    let out := l ++ out.drop l.length
    let room ← sliceFrom out held
    match w.read r.inner room with
    | (.error e, s, inner) => .ok (.error e, out.take held ++ s, { r with inner })
    | (.ok k, s, inner) => do
      let r ← resetBufferPosition (consume { r with inner } (k + l.length))
      return (.ok (k + l.length), out.take held ++ s, r)
  else do
    let (x, r) ← wFill w r
    match x with
    | .error e => .ok (.error e, out, r)
    | .ok rem =>
      let l := rem.take out.length
      .ok (.ok l.length, l ++ out.drop l.length, consume r l.length)

/-- `std::io::default_read_exact` -/
def wReadExact (w : Wild R) : Nat → LAcc R → List U8 → Rust (Except IoErr Unit × List U8 × LAcc R)
  | 0, _, _ => .error .fuel
  | fuel + 1, r, out =>
    if out = [] then .ok (.ok (), [], r) else do
      let (x, out, r) ← wRead w r out
      match x with
      | .error .interrupted => wReadExact w fuel r out
      | .error e => .ok (.error e, out, r)
      | .ok 0 => .ok (.error .unexpectedEof, out, r)
      | .ok (n + 1) => do
        let rest ← sliceFrom out (n + 1)
        let (x, rest, r) ← wReadExact w fuel r rest
        return (x, out.take (n + 1) ++ rest, r)

/-- accreader.rs:194-203 -/
def wSeekInner (w : Wild R) (r : LAcc R) (sf : SeekFrom) : Rust (Except IoErr Nat × LAcc R) :=
  match w.seek r.inner sf with
  | (.error e, inner) => .ok (.error e, { r with inner })
  | (.ok sz, inner) => do
    let (x, r) ← wFill w { r with inner, index := sz, pos := 0, «end» := 0 }
    match x with
    | .error e => .ok (.error e, r)
    | .ok _ => .ok (.ok sz, r)

/-- accreader.rs:167-204 -/
def wSeek (w : Wild R) (r : LAcc R) (sf : SeekFrom) : Rust (Except IoErr Nat × LAcc R) :=
  match sf with
  | .start n =>
    if n ≥ r.index then do
      let lim ← usub (r.index + r.end) r.pos
      if n < lim then .ok (.ok n, { r with pos := r.pos + (n - r.index), index := n })
      else wSeekInner w r sf
    else wSeekInner w r sf
  | .end _ => wSeekInner w r sf
  | .current d => do
    let remaining ← usub r.end r.pos
    if d ≥ 0 then
      if d.toNat ≤ remaining then
        .ok (.ok (r.index + d.toNat), { r with index := r.index + d.toNat, pos := r.pos + d.toNat })
      else wSeekInner w r (.current (d - remaining))
    else wSeekInner w r sf

/-- A call of the public API, with the buffers given to it. -/
inductive WCall (R : Type)
  | read (out : List U8) | readExact (out : List U8) | fillBuf | consume (k : Nat) | grow (k : Nat) | reset
  | seek (sf : SeekFrom) | getMut (f : R → R)

/-- What a call returns, and the buffer given to it afterwards. -/
inductive WOut
  | got (n : Nat) (out : List U8) | filled (out : List U8) | failed (e : IoErr) (out : List U8)
  | shown (l : List U8) | pos (n : Nat) | unit
  deriving DecidableEq, Repr

def WOut.ofRead (x : Except IoErr Nat) (out : List U8) : WOut :=
  match x with
  | .error e => .failed e out
  | .ok n => .got n out

def WOut.ofExact (x : Except IoErr Unit) (out : List U8) : WOut :=
  match x with
  | .error e => .failed e out
  | .ok _ => .filled out

def WOut.ofFill (x : Except IoErr (List U8)) : WOut :=
  match x with
  | .error e => .failed e []
  | .ok l => .shown l

def WOut.ofSeek (x : Except IoErr Nat) : WOut :=
  match x with
  | .error e => .failed e []
  | .ok n => .pos n

/-- One call. -/
def wStep (w : Wild R) (fuel : Nat) (r : LAcc R) : WCall R → Rust (WOut × LAcc R)
  | .read out => do
    let (x, out, r) ← wRead w r out
    return (.ofRead x out, r)
  | .readExact out => do
    let (x, out, r) ← wReadExact w fuel r out
    return (.ofExact x out, r)
  | .fillBuf => do
    let (x, r) ← wFill w r
    return (.ofFill x, r)
  | .consume k => .ok (.unit, consume r k)
  | .grow k => .ok (.unit, grow r k)
  | .reset => do return (.unit, ← resetBufferPosition r)
  | .seek sf => do
    let (x, r) ← wSeek w r sf
    return (.ofSeek x, r)
  | .getMut f => .ok (.unit, { r with inner := f r.inner })

/-- A history of calls. -/
def wRun (w : Wild R) (fuel : Nat) (r : LAcc R) : List (WCall R) → Rust (List WOut × LAcc R)
  | [] => .ok ([], r)
  | c :: cs => do
    let (o, r) ← wStep w fuel r c
    let (os, r) ← wRun w fuel r cs
    return (o :: os, r)

/-! ### the specification

A queue in front of the reader. When it is filled up the reader gets *some* slice with as many bytes as there is room:
nothing is said of what it holds. A call that panics is `none`. -/

/-- Filling the queue: the reader's count decides; too high a count is a panic. -/
def Fills (w : Wild R) (b : Queue R) (y : Option (Except IoErr (List U8) × Queue R)) : Prop :=
  if b.q.length < b.size then
    ∃ s, s.length = b.size - b.q.length ∧
      y = match w.read b.inner s with
        | (.error e, _, i) => some (.error e, { b with inner := i })
        | (.ok k, s', i) =>
          if s.length < k then none
          else some (.ok (b.q ++ s'.take k), { b with inner := i, q := b.q ++ s'.take k })
  else y = some (.ok b.q, b)

/-- Reading into `out`: small requests from the queue; large ones from the queue and then from the reader, which gets the
rest of `out` and whose count is passed on as it is. -/
def Gets (w : Wild R) (b : Queue R) (out : List U8) (y : Option (Except IoErr Nat × List U8 × Queue R)) : Prop :=
  if out.length < b.q.length then y = some (.ok out.length, b.q.take out.length, b.take out.length)
  else if b.size < out.length then
    y = match w.read b.inner (out.drop b.q.length) with
      | (.error e, s, i) => some (.error e, b.q ++ s, { b with inner := i })
      | (.ok k, s, i) => some (.ok (b.q.length + k), b.q ++ s, { b with inner := i, q := [], pos := b.pos + (b.q.length + k) })
  else ∃ z, Fills w b z ∧
    y = z.map fun z => match z.1 with
      | .error e => (.error e, out, z.2)
      | .ok l => (.ok (min out.length l.length), l.take out.length ++ out.drop l.length, z.2.take out.length)

/-- The loop of `read_exact`: a count above what is left is a panic; `.fuel` if it is still going on after `fuel`
calls. -/
def GetsAll (w : Wild R) : Nat → Queue R → List U8 → Rust (Except IoErr Unit × List U8 × Queue R) → Prop
  | 0, _, _, y => y = .error .fuel
  | fuel + 1, b, out, y =>
    if out = [] then y = .ok (.ok (), [], b)
    else ∃ z, Gets w b out z ∧ match z with
      | none => y = .error .slice
      | some (.error e, out', b') =>
        if e = .interrupted then GetsAll w fuel b' out' y else y = .ok (.error e, out', b')
      | some (.ok n, out', b') =>
        if n = 0 then y = .ok (.error .unexpectedEof, out', b')
        else if out.length < n then y = .error .slice
        else ∃ z', GetsAll w fuel b' (out'.drop n) z' ∧
          y = match z' with
            | .error p => .error p
            | .ok (x, rest, b'') => .ok (x, out'.take n ++ rest, b'')

/-- Giving up the queue for a seek of the reader. -/
def Leaves (w : Wild R) (b : Queue R) (sf : SeekFrom) (y : Option (Except IoErr Nat × Queue R)) : Prop :=
  match w.seek b.inner sf with
  | (.error e, i) => y = some (.error e, { b with inner := i })
  | (.ok m, i) => ∃ z, Fills w { b with inner := i, q := [], pos := m } z ∧
    y = z.map fun z => match z.1 with
      | .error e => (.error e, z.2)
      | .ok _ => (.ok m, z.2)

/-- Seeking: in the queue if the goal is in it. -/
def Goes (w : Wild R) (b : Queue R) (sf : SeekFrom) (y : Option (Except IoErr Nat × Queue R)) : Prop :=
  match sf with
  | .start n =>
    if b.pos ≤ n ∧ n < b.pos + b.q.length then y = some (.ok n, b.take (n - b.pos)) else Leaves w b (.start n) y
  | .end d => Leaves w b (.end d) y
  | .current d =>
    if d < 0 then Leaves w b (.current d) y
    else if d.toNat ≤ b.q.length then y = some (.ok (b.pos + d.toNat), b.take d.toNat)
    else Leaves w b (.current (d - b.q.length)) y

/-- `none` is a panic because of a slice. -/
def orPanic {X : Type} : Option X → Rust X
  | none => .error .slice
  | some x => .ok x

/-- One call of the queue. -/
def Steps (w : Wild R) (fuel : Nat) (b : Queue R) (c : WCall R) (y : Rust (WOut × Queue R)) : Prop :=
  match c with
  | .read out => ∃ z, Gets w b out z ∧ y = orPanic (z.map fun z => (.ofRead z.1 z.2.1, z.2.2))
  | .readExact out => ∃ z, GetsAll w fuel b out z ∧ y = z.map fun z => (.ofExact z.1 z.2.1, z.2.2)
  | .fillBuf => ∃ z, Fills w b z ∧ y = orPanic (z.map fun z => (.ofFill z.1, z.2))
  | .consume k => y = .ok (.unit, { b with q := b.q.drop k, pos := b.pos + k })
  | .grow k => y = .ok (.unit, { b with size := b.size + k })
  | .reset => y = .ok (.unit, b)
  | .seek sf => ∃ z, Goes w b sf z ∧ y = orPanic (z.map fun z => (.ofSeek z.1, z.2))
  | .getMut f => y = .ok (.unit, { b with inner := f b.inner })

/-- A history of calls of the queue. -/
def Runs (w : Wild R) (fuel : Nat) : Queue R → List (WCall R) → Rust (List WOut × Queue R) → Prop
  | b, [], y => y = .ok ([], b)
  | b, c :: cs, y => ∃ z, Steps w fuel b c z ∧ match z with
    | .error p => y = .error p
    | .ok (o, b') => ∃ z', Runs w fuel b' cs z' ∧ y = z'.map fun z' => (o :: z'.1, z'.2)

/-! ### the proof -/

variable {w : Wild R}

theorem wFill_spec {r : LAcc R} (h : Tidy r) : ∃ y, Fills w (view r) y ∧ match y with
    | none => wFill w r = .error .slice
    | some (x, b) => ∃ r', wFill w r = .ok (x, r') ∧ Tidy r' ∧ view r' = b ∧ ∀ l, x = .ok l → l = b.q := by
  have hl := h.length
  unfold wFill Fills
  by_cases hc : r.pos ≠ 0 ∨ r.end ≠ r.buf.length
  · rw [if_pos hc]
    have hroom : (win r).length < r.buf.length := by have := h.1; have := h.2; omega
    simp only [if_pos (show (view r).q.length < (view r).size from hroom)]
    obtain ⟨r1, a1, a2, a3, a4, a5⟩ := h.reset
    have e1 : r1.inner = r.inner := congrArg Queue.inner a5
    have e2 : win r1 = win r := congrArg Queue.q a5
    have e3 : r1.buf.length = r.buf.length := congrArg Queue.size a5
    have e4 : r1.index = r.index := congrArg Queue.pos a5
    have hw1 : r1.buf.take r1.end = win r := by rw [← e2]; simp [win, a3]
    rw [a1]
    simp only [ok_bind, sliceFrom_ok a2.2]
    have hroomlen : (r1.buf.drop r1.end).length = r.buf.length - (win r).length := by
      rw [List.length_drop, e3, a4]
    have hk := w.kept r.inner (r1.buf.drop r1.end)
    refine ⟨_, ⟨r1.buf.drop r1.end, hroomlen, rfl⟩, ?_⟩
    rw [e1]
    simp only [hw1]
    change match (match w.read r.inner (r1.buf.drop r1.end) with
      | (.error e, _, i) => some (Except.error e, ({ view r with inner := i } : Queue R))
      | (.ok k, s', i) => if (r1.buf.drop r1.end).length < k then none else
        some (.ok ((view r).q ++ s'.take k), { view r with inner := i, q := (view r).q ++ s'.take k })) with
      | none => _
      | some (x, b) => _
    cases hr : w.read r.inner (r1.buf.drop r1.end) with
    | mk x t =>
      obtain ⟨s, i⟩ := t
      rw [hr] at hk
      simp only at hk
      have hlen : (win r ++ s).length = r.buf.length := by rw [List.length_append, hk, hroomlen]; omega
      cases x with
      | error e =>
        have ht : Tidy (⟨i, win r ++ s, r1.pos, r1.end, r1.index⟩ : LAcc R) :=
          ⟨by simp only [a3]; omega, by simp only [hlen]; omega⟩
        refine ⟨_, rfl, ht, ?_, fun l hl => nomatch hl⟩
        simp only [view, hlen, e4, Queue.mk.injEq, true_and, and_true]
        simp only [win, a3, List.drop_zero, Nat.sub_zero, a4]
        exact List.take_left
      | ok k =>
        simp only
        by_cases hkk : (r1.buf.drop r1.end).length < k
        · rw [if_pos hkk]
          simp only [data, sliceRange]
          rw [if_neg (by rw [hlen]; omega)]
          rfl
        · rw [if_neg hkk]
          have ht : Tidy (⟨i, win r ++ s, r1.pos, r1.end + k, r1.index⟩ : LAcc R) :=
            ⟨by simp only [a3]; omega, by simp only [hlen]; omega⟩
          have hwin : win (⟨i, win r ++ s, r1.pos, r1.end + k, r1.index⟩ : LAcc R) = win r ++ s.take k := by
            simp only [win, a3, List.drop_zero, Nat.sub_zero, a4]
            exact List.take_length_add_append ..
          rw [ht.data]
          simp only [ok_bind, pure_eq_ok, hwin]
          refine ⟨_, rfl, ht, ?_, fun l hl => by cases hl; rfl⟩
          rw [view, hwin]
          simp only [hlen, e4]
          rfl
  · rw [if_neg hc]
    have hroom : ¬ (win r).length < r.buf.length := by
      have := h.1; have := h.2; omega
    simp only [if_neg (show ¬ (view r).q.length < (view r).size from hroom), h.data]
    exact ⟨_, rfl, r, rfl, h, rfl, fun l hl => by cases hl; rfl⟩

theorem wRead_spec {r : LAcc R} (h : Tidy r) (out : List U8) : ∃ y, Gets w (view r) out y ∧ match y with
    | none => wRead w r out = .error .slice
    | some (x, out', b) => out'.length = out.length ∧ ∃ r', wRead w r out = .ok (x, out', r') ∧ Tidy r' ∧ view r' = b := by
  have hl := h.length
  have hq : (view r).q = win r := rfl
  unfold wRead Gets
  rw [usub_ok h.1]
  simp only [ok_bind]
  by_cases h1 : out.length < r.end - r.pos
  · rw [if_pos h1]; simp only [if_pos (show out.length < (view r).q.length by rw [hq]; omega)]
    refine ⟨_, rfl, ?_⟩
    have hs : sliceRange r.buf r.pos (r.pos + out.length) = .ok ((win r).take out.length) := by
      have := h.2
      simp only [sliceRange]
      rw [if_pos (by omega)]
      simp only [win, Except.ok.injEq]
      rw [List.take_take]
      congr 1; omega
    rw [hs]
    simp only [ok_bind, pure_eq_ok]
    have hln : ((win r).take out.length).length = out.length := by rw [List.length_take]; omega
    rw [hln, List.drop_length, List.append_nil]
    obtain ⟨c1, c2⟩ := take_view h out.length (by omega)
    exact ⟨by rw [hq]; exact hln, _, rfl, c1, c2⟩
  · rw [if_neg h1]; simp only [if_neg (show ¬ out.length < (view r).q.length by rw [hq]; omega)]
    by_cases h2 : out.length > r.buf.length
    · rw [if_pos h2]; simp only [if_pos (show (view r).size < out.length from h2)]
      have hs : sliceRange r.buf r.pos r.end = .ok (win r) := h.data
      rw [hs]
      simp only [ok_bind]
      rw [List.take_of_length_le (show (win r).length ≤ out.length by omega)]
      rw [sliceFrom_ok (by rw [List.length_append, List.length_drop]; omega)]
      simp only [ok_bind]
      rw [← hl, List.drop_left, List.take_left]
      refine ⟨_, rfl, ?_⟩
      rw [hq]
      have hi : (view r).inner = r.inner := rfl
      rw [hi]
      have hk := w.kept r.inner (out.drop (win r).length)
      cases hr : w.read r.inner (out.drop (win r).length) with
      | mk x t =>
        obtain ⟨s, i⟩ := t
        rw [hr] at hk
        simp only [List.length_drop] at hk
        have hlen : (win r ++ s).length = out.length := by rw [List.length_append, hk]; omega
        cases x with
        | error e => exact ⟨hlen, _, rfl, h, rfl⟩
        | ok k =>
          have ht : Tidy ({ r with inner := i } : LAcc R) := h
          obtain ⟨c1, c2⟩ := ht.consume (k + (win r).length)
          obtain ⟨r1, d1, d2, _, _, d5⟩ := c1.reset
          simp only [d1, ok_bind, pure_eq_ok]
          refine ⟨hlen, r1, by rw [Nat.add_comm k], d2, d5.trans (c2.trans ?_)⟩
          have hwn : win ({ r with inner := i } : LAcc R) = win r := rfl
          simp only [view, hwn, Queue.mk.injEq, true_and]
          refine ⟨List.drop_eq_nil_of_le (by omega), by omega⟩
    · rw [if_neg h2]; simp only [if_neg (show ¬ (view r).size < out.length from h2)]
      obtain ⟨z, f1, f2⟩ := wFill_spec (w := w) h
      refine ⟨_, ⟨z, f1, rfl⟩, ?_⟩
      cases z with
      | none => simp only [f2]; rfl
      | some z =>
        obtain ⟨x, b⟩ := z
        obtain ⟨r1, a1, a2, a3, a4⟩ := f2
        simp only [a1, Option.map_some]
        cases x with
        | error e => exact ⟨rfl, r1, rfl, a2, a3⟩
        | ok l =>
          have hlb := a4 l rfl
          have hlw : l = win r1 := by rw [hlb, ← a3]; rfl
          obtain ⟨c1, c2⟩ := a2.consume (l.take out.length).length
          refine ⟨?_, _, ?_, c1, c2.trans ?_⟩
          · simp only [List.length_append, List.length_take, List.length_drop]; omega
          · simp only [ok_bind]
            congr 3
            · rw [List.length_take]
            · by_cases hn : out.length ≤ l.length
              · rw [List.drop_eq_nil_of_le (by rw [List.length_take]; omega), List.drop_eq_nil_of_le (by omega)]
              · rw [List.length_take, Nat.min_eq_right (by omega)]
          · rw [← a3, hlw]
            simp only [Queue.take, view, Queue.mk.injEq, true_and, List.length_take]
            refine ⟨?_, trivial⟩
            by_cases hn : out.length ≤ (win r1).length
            · rw [Nat.min_eq_left hn]
            · rw [Nat.min_eq_right (by omega), List.drop_length, List.drop_eq_nil_of_le (by omega)]

/-- The call ends as the queue's. -/
def Ends {X : Type} (f : Rust (X × LAcc R)) (y : Rust (X × Queue R)) : Prop :=
  match y with
  | .error p => f = .error p
  | .ok (x, b) => ∃ r', f = .ok (x, r') ∧ Tidy r' ∧ view r' = b

theorem wReadExact_spec (fuel : Nat) {r : LAcc R} (h : Tidy r) (out : List U8) : ∃ y, GetsAll w fuel (view r) out y ∧
    match y with
    | .error p => wReadExact w fuel r out = .error p
    | .ok (x, out', b) => out'.length = out.length ∧
      ∃ r', wReadExact w fuel r out = .ok (x, out', r') ∧ Tidy r' ∧ view r' = b := by
  induction fuel generalizing r out with
  | zero => exact ⟨_, rfl, rfl⟩
  | succ fuel ih =>
    unfold wReadExact GetsAll
    by_cases h0 : out = []
    · rw [if_pos h0]; simp only [if_pos h0]; exact ⟨_, rfl, by rw [h0], r, rfl, h, rfl⟩
    · rw [if_neg h0]; simp only [if_neg h0]
      obtain ⟨z, z1, z2⟩ := wRead_spec (w := w) h out
      cases z with
      | none =>
        simp only at z2
        exact ⟨_, ⟨none, z1, rfl⟩, by rw [z2]; rfl⟩
      | some z =>
        obtain ⟨x, out', b⟩ := z
        obtain ⟨hlen, r1, a1, a2, rfl⟩ := z2
        rw [a1]
        simp only [ok_bind]
        cases x with
        | error e =>
          by_cases he : e = .interrupted
          · subst he
            obtain ⟨y, y1, y2⟩ := ih a2 out'
            refine ⟨y, ⟨_, z1, by simp only [if_true]; exact y1⟩, ?_⟩
            rw [← hlen]
            exact y2
          · refine ⟨.ok (.error e, out', view r1), ⟨_, z1, by simp only [if_neg he]⟩, hlen, r1, ?_, a2, rfl⟩
            cases e <;> first | exact absurd rfl he | rfl
        | ok n =>
          cases n with
          | zero => exact ⟨.ok (.error .unexpectedEof, out', view r1), ⟨_, z1, by simp only [if_true]⟩, hlen, r1, rfl, a2, rfl⟩
          | succ n =>
            by_cases hn : out.length < n + 1
            · refine ⟨_, ⟨_, z1, by simp only [if_neg (Nat.succ_ne_zero n), if_pos hn]; rfl⟩, ?_⟩
              simp only [sliceFrom]
              rw [if_neg (by omega)]
              rfl
            · obtain ⟨y, y1, y2⟩ := ih a2 (out'.drop (n + 1))
              refine ⟨_, ⟨_, z1, by simp only [if_neg (Nat.succ_ne_zero n), if_neg hn]; exact ⟨y, y1, rfl⟩⟩, ?_⟩
              simp only [sliceFrom_ok (show n + 1 ≤ out'.length by omega), ok_bind]
              cases y with
              | error p => simp only at y2; rw [y2]; rfl
              | ok y =>
                obtain ⟨x, rest, b⟩ := y
                obtain ⟨y2, r2, y3, y4, y5⟩ := y2
                rw [y3]
                simp only [List.length_drop] at y2
                exact ⟨by simp only [List.length_append, List.length_take]; omega, r2, rfl, y4, y5⟩

theorem wSeekInner_spec {r : LAcc R} (h : Tidy r) (sf : SeekFrom) : ∃ y, Leaves w (view r) sf y ∧
    Ends (wSeekInner w r sf) (orPanic y) := by
  unfold wSeekInner Leaves
  change ∃ y, (match w.seek r.inner sf with
    | (.error e, i) => _
    | (.ok l, i) => _) ∧ _
  cases hr : w.seek r.inner sf with
  | mk x i =>
    cases x with
    | error e => exact ⟨_, rfl, _, rfl, h, rfl⟩
    | ok m =>
      simp only
      have ht : Tidy ({ r with inner := i, index := m, pos := 0, «end» := 0 } : LAcc R) :=
        ⟨Nat.le_refl _, Nat.zero_le _⟩
      have hv : view ({ r with inner := i, index := m, pos := 0, «end» := 0 } : LAcc R) =
          { view r with inner := i, q := [], pos := m } := by
        simp [view, win]
      obtain ⟨z, f1, f2⟩ := wFill_spec (w := w) ht
      rw [hv] at f1
      refine ⟨_, ⟨z, f1, rfl⟩, ?_⟩
      cases z with
      | none => simp only at f2; rw [f2]; rfl
      | some z =>
        obtain ⟨x, b⟩ := z
        obtain ⟨r1, a1, a2, a3, _⟩ := f2
        rw [a1]
        cases x with
        | error e => exact ⟨r1, rfl, a2, a3⟩
        | ok l => exact ⟨r1, rfl, a2, a3⟩

theorem wSeek_spec {r : LAcc R} (h : Tidy r) (sf : SeekFrom) : ∃ y, Goes w (view r) sf y ∧
    Ends (wSeek w r sf) (orPanic y) := by
  have hl := h.length
  have hpe := h.1
  have hq : (view r).q = win r := rfl
  have hp : (view r).pos = r.index := rfl
  cases sf with
  | «end» d => exact wSeekInner_spec h (.end d)
  | start n =>
    simp only [wSeek, Goes, hq, hp]
    by_cases h1 : n ≥ r.index
    · rw [if_pos h1, usub_ok (show r.pos ≤ r.index + r.end by omega)]
      simp only [ok_bind]
      by_cases h2 : n < r.index + r.end - r.pos
      · rw [if_pos h2]; simp only [if_pos (show r.index ≤ n ∧ n < r.index + (win r).length by omega)]
        obtain ⟨c1, c2⟩ := skip_view h (n - r.index) (by omega)
        rw [show r.index + (n - r.index) = n by omega] at c1 c2
        exact ⟨_, rfl, _, rfl, c1, c2⟩
      · rw [if_neg h2]; simp only [if_neg (show ¬ (r.index ≤ n ∧ n < r.index + (win r).length) by omega)]
        exact wSeekInner_spec h _
    · rw [if_neg h1]; simp only [if_neg (show ¬ (r.index ≤ n ∧ n < r.index + (win r).length) by omega)]
      exact wSeekInner_spec h _
  | current d =>
    simp only [wSeek, Goes, hq, hp]
    rw [usub_ok h.1]
    simp only [ok_bind]
    by_cases h1 : d ≥ 0
    · rw [if_pos h1]; simp only [if_neg (show ¬ d < 0 by omega)]
      by_cases h2 : d.toNat ≤ r.end - r.pos
      · rw [if_pos h2]; simp only [if_pos (show d.toNat ≤ (win r).length by omega)]
        obtain ⟨c1, c2⟩ := skip_view h d.toNat (by omega)
        exact ⟨_, rfl, _, rfl, c1, c2⟩
      · rw [if_neg h2]; simp only [if_neg (show ¬ d.toNat ≤ (win r).length by omega)]; rw [← hl]
        exact wSeekInner_spec h _
    · rw [if_neg h1]; simp only [if_pos (show d < 0 by omega)]
      exact wSeekInner_spec h _

theorem wStep_spec (fuel : Nat) {r : LAcc R} (h : Tidy r) (c : WCall R) : ∃ y, Steps w fuel (view r) c y ∧
    Ends (wStep w fuel r c) y := by
  cases c with
  | read out =>
    obtain ⟨z, z1, z2⟩ := wRead_spec (w := w) h out
    refine ⟨_, ⟨z, z1, rfl⟩, ?_⟩
    cases z with
    | none => simp only at z2; simp only [wStep, z2]; rfl
    | some z =>
      obtain ⟨_, r1, a1, a2, a3⟩ := z2
      simp only [wStep, a1]
      exact ⟨r1, rfl, a2, a3⟩
  | readExact out =>
    obtain ⟨z, z1, z2⟩ := wReadExact_spec (w := w) fuel h out
    refine ⟨_, ⟨z, z1, rfl⟩, ?_⟩
    cases z with
    | error p => simp only at z2; simp only [wStep, z2]; rfl
    | ok z =>
      obtain ⟨_, r1, a1, a2, a3⟩ := z2
      simp only [wStep, a1]
      exact ⟨r1, rfl, a2, a3⟩
  | fillBuf =>
    obtain ⟨z, z1, z2⟩ := wFill_spec (w := w) h
    refine ⟨_, ⟨z, z1, rfl⟩, ?_⟩
    cases z with
    | none => simp only at z2; simp only [wStep, z2]; rfl
    | some z =>
      obtain ⟨r1, a1, a2, a3, _⟩ := z2
      simp only [wStep, a1]
      exact ⟨r1, rfl, a2, a3⟩
  | consume k =>
    obtain ⟨c1, c2⟩ := h.consume k
    exact ⟨_, rfl, _, rfl, c1, c2⟩
  | grow k =>
    obtain ⟨r1, a1, a2, a3⟩ := stepCall_agree (dev := ⟨fun s _ => (.ok [], s), fun s _ => (.ok 0, s)⟩)
      (fun _ _ _ hl => by cases hl; exact Nat.zero_le _) 0 h (.op (.grow k))
    simp only [stepCall, step, Except.ok.injEq, Prod.mk.injEq] at a1 a3
    exact ⟨_, rfl, r1, by simp only [wStep, a1.2], a2, a3⟩
  | reset =>
    obtain ⟨r1, a1, a2, _, _, a5⟩ := h.reset
    exact ⟨_, rfl, r1, by simp only [wStep, a1]; rfl, a2, a5⟩
  | seek sf =>
    obtain ⟨z, z1, z2⟩ := wSeek_spec (w := w) h sf
    refine ⟨_, ⟨z, z1, rfl⟩, ?_⟩
    cases z with
    | none => simp only [Ends, orPanic] at z2; simp only [wStep, z2]; rfl
    | some z =>
      obtain ⟨r1, a1, a2, a3⟩ := z2
      simp only [wStep, a1]
      exact ⟨r1, rfl, a2, a3⟩
  | getMut f => exact ⟨_, rfl, _, rfl, h, rfl⟩

theorem wRun_spec (fuel : Nat) {r : LAcc R} (h : Tidy r) (cs : List (WCall R)) : ∃ y, Runs w fuel (view r) cs y ∧
    Ends (wRun w fuel r cs) y := by
  induction cs generalizing r with
  | nil => exact ⟨_, rfl, r, rfl, h, rfl⟩
  | cons c cs ih =>
    obtain ⟨z, z1, z2⟩ := wStep_spec (w := w) fuel h c
    cases z with
    | error p =>
      simp only [Ends] at z2
      exact ⟨.error p, ⟨_, z1, rfl⟩, by simp only [Ends, wRun, z2]; rfl⟩
    | ok z =>
      obtain ⟨o, b⟩ := z
      obtain ⟨r1, a1, a2, rfl⟩ := z2
      obtain ⟨y, y1, y2⟩ := ih a2
      refine ⟨_, ⟨_, z1, y, y1, rfl⟩, ?_⟩
      cases y with
      | error p => simp only [Ends] at y2; simp only [wRun, a1, ok_bind, y2]; rfl
      | ok y =>
        obtain ⟨os, b⟩ := y
        obtain ⟨r2, b1, b2, b3⟩ := y2
        simp only [wRun, a1, ok_bind, b1]
        exact ⟨r2, rfl, b2, b3⟩

/-- **C141** Whatever the inner reader does with the slices it gets and whatever it returns: every history of calls ends as
that of the queue. So a count that is too high is a panic when the buffer is filled and is passed on when the reader reads
into the caller's buffer; nothing else panics; bytes behind the count are not shown, they only reach the caller's own
buffer. -/
theorem c141_wild (w : Wild R) (s : R) (cap fuel : Nat) (cs : List (WCall R)) :
    ∃ y, Runs w fuel ⟨s, [], cap, 0⟩ cs y ∧ match y with
      | .error p => wRun w fuel (withCapacity cap s) cs = .error p
      | .ok (os, b) => ∃ r, wRun w fuel (withCapacity cap s) cs = .ok (os, r) ∧ r.inner = b.inner ∧
          data r = .ok b.q ∧ r.buf.length = b.size ∧ wSeek w r (.current 0) = .ok (.ok b.pos, r) := by
  obtain ⟨h1, h2⟩ := withCapacity_tidy cap s
  obtain ⟨y, y1, y2⟩ := wRun_spec (w := w) fuel h1 cs
  rw [h2] at y1
  refine ⟨y, y1, ?_⟩
  cases y with
  | error p => exact y2
  | ok y =>
    obtain ⟨os, b⟩ := y
    obtain ⟨r, a1, a2, rfl⟩ := y2
    refine ⟨r, a1, rfl, a2.data, rfl, ?_⟩
    unfold wSeek
    simp only [usub_ok a2.1, ok_bind]
    simp [view]

/-! ### readers that do not count too much -/

/-- The contract of `Read` as far as the count goes. -/
def Honest (w : Wild R) : Prop := ∀ r s k, (w.read r s).1 = .ok k → k ≤ s.length

theorem fills_honest (hw : Honest w) {b : Queue R} {y : Option (Except IoErr (List U8) × Queue R)}
    (h : Fills w b y) : y ≠ none := by
  unfold Fills at h
  split at h
  · obtain ⟨s, _, rfl⟩ := h
    have hk := hw b.inner s
    cases hr : w.read b.inner s with
    | mk x t =>
      rw [hr] at hk
      cases x with
      | error e => simp
      | ok k =>
        have := hk k rfl
        simp only
        rw [if_neg (by omega)]
        simp
  · rw [h]; simp

theorem gets_honest (hw : Honest w) {b : Queue R} {out : List U8} {y : Option (Except IoErr Nat × List U8 × Queue R)}
    (h : Gets w b out y) : ∃ z, y = some z ∧ ∀ n, z.1 = .ok n → n ≤ out.length := by
  unfold Gets at h
  split at h
  · exact ⟨_, h, fun n hn => by cases hn; exact Nat.le_refl _⟩
  · split at h
    · have hk := hw b.inner (out.drop b.q.length)
      cases hr : w.read b.inner (out.drop b.q.length) with
      | mk x t =>
        rw [hr] at hk h
        cases x with
        | error e => exact ⟨_, h, fun n hn => nomatch hn⟩
        | ok k =>
          have := hk k rfl
          rw [List.length_drop] at this
          exact ⟨_, h, fun n hn => by cases hn; omega⟩
    · obtain ⟨z, z1, rfl⟩ := h
      cases z with
      | none => exact absurd rfl (fills_honest hw z1)
      | some z =>
        refine ⟨_, rfl, ?_⟩
        intro n hn
        obtain ⟨x, b'⟩ := z
        cases x with
        | error e => exact nomatch hn
        | ok l =>
          simp only [Except.ok.injEq] at hn
          omega

theorem getsAll_honest (hw : Honest w) {fuel : Nat} {b : Queue R} {out : List U8}
    {y : Rust (Except IoErr Unit × List U8 × Queue R)} (h : GetsAll w fuel b out y) {p : Panic} (hp : y = .error p) :
    p = .fuel := by
  induction fuel generalizing b out y p with
  | zero => rw [show y = .error .fuel from h] at hp; cases hp; rfl
  | succ fuel ih =>
    unfold GetsAll at h
    split at h
    · rw [h] at hp; exact nomatch hp
    · obtain ⟨z, z1, z2⟩ := h
      obtain ⟨z, rfl, z3⟩ := gets_honest hw z1
      obtain ⟨x, out', b'⟩ := z
      cases x with
      | error e =>
        simp only at z2
        split at z2
        · exact ih z2 hp
        · rw [z2] at hp; exact nomatch hp
      | ok n =>
        have := z3 n rfl
        simp only at z2
        split at z2
        · rw [z2] at hp; exact nomatch hp
        · rw [if_neg (by omega)] at z2
          obtain ⟨z', z4, rfl⟩ := z2
          cases z' with
          | error q => cases hp; exact ih z4 rfl
          | ok q => exact nomatch hp

theorem runs_honest (hw : Honest w) {fuel : Nat} {b : Queue R} {cs : List (WCall R)} {y : Rust (List WOut × Queue R)}
    (h : Runs w fuel b cs y) {p : Panic} (hp : y = .error p) : p = .fuel ∧ ∃ out, .readExact out ∈ cs := by
  induction cs generalizing b y p with
  | nil => rw [show y = .ok ([], b) from h] at hp; exact nomatch hp
  | cons c cs ih =>
    obtain ⟨z, z1, z2⟩ := h
    cases z with
    | ok z =>
      obtain ⟨o, b'⟩ := z
      obtain ⟨z', z3, rfl⟩ := z2
      cases z' with
      | error q =>
        cases hp
        obtain ⟨a1, out, a2⟩ := ih z3 rfl
        exact ⟨a1, out, List.mem_cons_of_mem _ a2⟩
      | ok q => exact nomatch hp
    | error q =>
      simp only at z2
      rw [z2] at hp
      cases hp
      cases c with
      | read out =>
        obtain ⟨z, z3, z4⟩ := z1
        obtain ⟨z, rfl, _⟩ := gets_honest hw z3
        exact nomatch z4
      | readExact out =>
        obtain ⟨z, z3, z4⟩ := z1
        cases z with
        | ok z => exact nomatch z4
        | error q => cases z4; exact ⟨getsAll_honest hw z3 rfl, out, List.mem_cons_self ..⟩
      | fillBuf =>
        obtain ⟨z, z3, z4⟩ := z1
        have := fills_honest hw z3
        cases z with
        | none => exact absurd rfl this
        | some z => exact nomatch z4
      | seek sf =>
        obtain ⟨z, z3, z4⟩ := z1
        have hl : ∀ sf, Leaves w b sf z → z ≠ none := by
          intro sf hl
          unfold Leaves at hl
          split at hl
          · rw [hl]; simp
          · obtain ⟨v, v1, rfl⟩ := hl
            have := fills_honest hw v1
            cases v with
            | none => exact absurd rfl this
            | some v => simp
        have hz : z ≠ none := by
          unfold Goes at z3
          split at z3
          · split at z3
            · rw [z3]; simp
            · exact hl _ z3
          · exact hl _ z3
          · split at z3
            · exact hl _ z3
            · split at z3
              · rw [z3]; simp
              · exact hl _ z3
        cases z with
        | none => exact absurd rfl hz
        | some z => exact nomatch z4
      | consume k => exact nomatch z1
      | grow k => exact nomatch z1
      | reset => exact nomatch z1
      | getMut f => exact nomatch z1

/-- **C141, no panics** A reader that counts no more bytes than the slice has makes no call panic, whatever it writes. -/
theorem c141_honest (hw : Honest w) (s : R) (cap fuel : Nat) (cs : List (WCall R)) {p : Panic}
    (h : wRun w fuel (withCapacity cap s) cs = .error p) : p = .fuel ∧ ∃ out, .readExact out ∈ cs := by
  obtain ⟨y, y1, y2⟩ := c141_wild w s cap fuel cs
  cases y with
  | error q =>
    simp only at y2
    rw [y2] at h
    cases h
    exact runs_honest hw y1 rfl
  | ok y =>
    obtain ⟨os, b⟩ := y
    obtain ⟨r, a1, _⟩ := y2
    rw [a1] at h
    exact nomatch h

/-! ### readers that only scribble -/

/-- What `w` counts is what `dev` returns; what it writes behind that does not matter. -/
structure Quiet (w : Wild R) (dev : Dev R) : Prop where
  read : ∀ r s, match w.read r s with
    | (.error e, _, i) => dev.read r s.length = (.error e, i)
    | (.ok k, s', i) => k ≤ s.length ∧ dev.read r s.length = (.ok (s'.take k), i)
  seek : ∀ r sf, w.seek r sf = dev.seek r sf

/-- The call without what the caller's buffer holds. -/
def WCall.call : WCall R → Call R
  | .read out => .op (.read out.length)
  | .readExact out => .op (.readExact out.length)
  | .fillBuf => .op .fillBuf
  | .consume k => .consume k
  | .grow k => .op (.grow k)
  | .reset => .op .reset
  | .seek sf => .op (.seek sf)
  | .getMut f => .getMut f

/-- The same result: the bytes are at the beginning of the caller's buffer. -/
def WOut.Same : WOut → Out → Prop
  | .got n out, .bytes l => n = l.length ∧ out.take n = l
  | .filled out, .bytes l => out = l
  | .failed e _, .err e' => e = e'
  | .shown l, .shown l' => l = l'
  | .pos n, .pos n' => n = n'
  | .unit, .unit => True
  | .unit, .bytes _ => True
  | _, _ => False

def SameAll : List WOut → List Out → Prop
  | [], [] => True
  | x :: xs, y :: ys => x.Same y ∧ SameAll xs ys
  | _, _ => False

variable {dev : Dev R}

theorem Quiet.bounded (h : Quiet w dev) : Bounded dev := by
  intro r n l hl
  have hr := h.read r (List.replicate n 0)
  have hk := w.kept r (List.replicate n 0)
  rw [List.length_replicate] at hr hk
  cases hx : w.read r (List.replicate n 0) with
  | mk x t =>
    obtain ⟨s, i⟩ := t
    rw [hx] at hr hk
    cases x with
    | error e => simp only at hr; rw [hr] at hl; exact nomatch hl
    | ok k =>
      simp only at hr hk
      rw [hr.2] at hl
      simp only [Except.ok.injEq] at hl
      rw [← hl, List.length_take]; omega

theorem fills_quiet (h : Quiet w dev) {b : Queue R} {y : Option (Except IoErr (List U8) × Queue R)}
    (hy : Fills w b y) : y = some (b.fill dev) := by
  unfold Fills at hy
  unfold Queue.fill
  split at hy
  · rename_i hc
    rw [if_pos hc]
    obtain ⟨s, hs, rfl⟩ := hy
    have hr := h.read b.inner s
    rw [hs] at hr
    cases hx : w.read b.inner s with
    | mk x t =>
      obtain ⟨s', i⟩ := t
      rw [hx] at hr
      cases x with
      | error e => simp only at hr ⊢; rw [hr]
      | ok k =>
        simp only at hr ⊢
        rw [if_neg (by omega), hr.2]
  · rename_i hc
    rw [if_neg hc, hy]

/-- The bytes counted at the beginning of the buffer. -/
def delivered (x : Except IoErr Nat) (out : List U8) : Except IoErr (List U8) := x.map fun n => out.take n

theorem gets_quiet (h : Quiet w dev) {b : Queue R} {out : List U8} {y : Option (Except IoErr Nat × List U8 × Queue R)}
    (hy : Gets w b out y) : ∃ x out', y = some (x, out', (b.read dev out.length).2) ∧ out'.length = out.length ∧
      delivered x out' = (b.read dev out.length).1 ∧ ∀ n, x = .ok n → n ≤ out.length := by
  unfold Gets at hy
  unfold Queue.read
  by_cases h1 : out.length < b.q.length
  · rw [if_pos h1] at hy ⊢
    have hl : (b.q.take out.length).length = out.length := by rw [List.length_take]; omega
    refine ⟨_, _, hy, hl, ?_, fun n hn => by cases hn; exact Nat.le_refl _⟩
    simp only [delivered, Except.map]
    rw [List.take_of_length_le (by omega)]
  · rw [if_neg h1] at hy ⊢
    by_cases h2 : b.size < out.length
    · rw [if_pos h2] at hy ⊢
      have hr := h.read b.inner (out.drop b.q.length)
      have hk := w.kept b.inner (out.drop b.q.length)
      rw [List.length_drop] at hr hk
      cases hx : w.read b.inner (out.drop b.q.length) with
      | mk x t =>
        obtain ⟨s, i⟩ := t
        rw [hx] at hr hk hy
        simp only at hr hk hy
        have hlen : (b.q ++ s).length = out.length := by rw [List.length_append, hk]; omega
        cases x with
        | error e =>
          simp only at hr hy
          rw [hr]
          exact ⟨_, _, hy, hlen, rfl, fun n hn => nomatch hn⟩
        | ok k =>
          simp only at hr hy
          rw [hr.2]
          refine ⟨.ok (b.q.length + k), _, ?_, hlen, ?_, fun n hn => by simp only [Except.ok.injEq] at hn; omega⟩
          · rw [hy]
            simp only [List.length_append, List.length_take, Option.some.injEq, Prod.mk.injEq, true_and, Queue.mk.injEq]
            omega
          · simp only [delivered, Except.map]
            rw [List.take_length_add_append]
    · rw [if_neg h2] at hy ⊢
      obtain ⟨z, z1, rfl⟩ := hy
      rw [fills_quiet h z1]
      simp only [Option.map_some]
      cases hf : b.fill dev with
      | mk x b' =>
        cases x with
        | error e => exact ⟨_, _, rfl, rfl, rfl, fun n hn => nomatch hn⟩
        | ok l =>
          refine ⟨_, _, rfl, ?_, ?_, fun n hn => by cases hn; omega⟩
          · simp only [List.length_append, List.length_take, List.length_drop]; omega
          · simp only [delivered, Except.map, Except.ok.injEq]
            rw [← List.length_take]
            exact List.take_left

theorem getsAll_quiet (h : Quiet w dev) {fuel : Nat} {b : Queue R} {out : List U8}
    {y : Rust (Except IoErr Unit × List U8 × Queue R)} (hy : GetsAll w fuel b out y) :
    match readExact (fun b n => .ok (Queue.read dev b n)) fuel b out.length with
    | .error p => y = .error p
    | .ok (.error e, b') => ∃ out', y = .ok (.error e, out', b')
    | .ok (.ok l, b') => y = .ok (.ok (), l, b') := by
  induction fuel generalizing b out y with
  | zero => exact hy
  | succ fuel ih =>
    unfold GetsAll at hy
    unfold readExact
    by_cases h0 : out = []
    · rw [if_pos h0] at hy
      rw [if_pos (by rw [h0]; rfl)]
      exact hy
    · rw [if_neg h0] at hy
      rw [if_neg (fun hl => h0 (List.length_eq_zero_iff.mp hl))]
      obtain ⟨z, z1, z2⟩ := hy
      obtain ⟨x, out', rfl, c1, c2, c3⟩ := gets_quiet h z1
      simp only [ok_bind]
      rw [← c2]
      cases x with
      | error e =>
        simp only at z2
        by_cases he : e = .interrupted
        · subst he
          rw [if_pos rfl] at z2
          have := ih z2
          rw [c1] at this
          exact this
        · rw [if_neg he] at z2
          cases e <;> first | exact absurd rfl he | exact ⟨_, z2⟩
      | ok n =>
        have hn := c3 n rfl
        simp only at z2
        simp only [delivered, Except.map]
        cases n with
        | zero =>
          rw [if_pos rfl] at z2
          exact ⟨_, z2⟩
        | succ n =>
          rw [if_neg (Nat.succ_ne_zero n), if_neg (by omega)] at z2
          obtain ⟨z', z3, rfl⟩ := z2
          have hi := ih z3
          rw [List.length_drop, c1] at hi
          have hlt : (out'.take (n + 1)).length = n + 1 := by rw [List.length_take]; omega
          cases ho : out'.take (n + 1) with
          | nil => rw [ho] at hlt; exact nomatch hlt
          | cons a l =>
            rw [ho] at hlt
            simp only [hlt]
            cases hg : readExact (fun b n => .ok (Queue.read dev b n)) fuel (b.read dev out.length).2 (out.length - (n + 1)) with
            | error p =>
              rw [hg] at hi
              simp only at hi
              rw [hi]
              rfl
            | ok v =>
              rw [hg] at hi
              obtain ⟨v, b'⟩ := v
              cases v with
              | error e =>
                obtain ⟨o2, hi⟩ := hi
                rw [hi]
                exact ⟨_, rfl⟩
              | ok l2 =>
                simp only at hi
                rw [hi]
                rfl

theorem goes_quiet (h : Quiet w dev) {b : Queue R} {sf : SeekFrom} {y : Option (Except IoErr Nat × Queue R)}
    (hy : Goes w b sf y) : y = some (b.seek dev sf) := by
  have hl : ∀ sf, Leaves w b sf y → y = some (b.leave dev sf) := by
    intro sf hl
    unfold Leaves at hl
    unfold Queue.leave
    rw [h.seek] at hl
    cases hx : dev.seek b.inner sf with
    | mk x i =>
      rw [hx] at hl
      cases x with
      | error e => exact hl
      | ok m =>
        obtain ⟨z, z1, rfl⟩ := hl
        rw [fills_quiet h z1]
        simp only [Option.map_some]
        cases hf : ({ b with inner := i, q := [], pos := m } : Queue R).fill dev with
        | mk x b' => cases x <;> rfl
  unfold Goes at hy
  unfold Queue.seek
  cases sf with
  | start n =>
    simp only at hy ⊢
    split at hy
    · rename_i hc; rw [if_pos hc]; exact hy
    · rename_i hc; rw [if_neg hc]; exact hl _ hy
  | «end» d => exact hl _ hy
  | current d =>
    simp only at hy ⊢
    split at hy
    · rename_i hc; rw [if_pos hc]; exact hl _ hy
    · rename_i hc
      rw [if_neg hc]
      split at hy
      · rename_i hc; rw [if_pos hc]; exact hy
      · rename_i hc; rw [if_neg hc]; exact hl _ hy

theorem steps_quiet (h : Quiet w dev) {fuel : Nat} {b : Queue R} {c : WCall R} {y : Rust (WOut × Queue R)}
    (hy : Steps w fuel b c y) :
    match b.step dev fuel c.call with
    | .error p => y = .error p
    | .ok (o, b') => ∃ v, y = .ok (v, b') ∧ v.Same o := by
  cases c with
  | read out =>
    obtain ⟨z, z1, rfl⟩ := hy
    obtain ⟨x, out', rfl, c1, c2, c3⟩ := gets_quiet h z1
    refine ⟨_, rfl, ?_⟩
    simp only [← c2]
    cases x with
    | error e => exact rfl
    | ok n =>
      have := c3 n rfl
      exact ⟨by rw [List.length_take]; omega, rfl⟩
  | readExact out =>
    obtain ⟨z, z1, rfl⟩ := hy
    have hi := getsAll_quiet h z1
    simp only [WCall.call, Queue.step]
    cases hg : readExact (fun b n => .ok (Queue.read dev b n)) fuel b out.length with
    | error p => rw [hg] at hi; simp only at hi; rw [hi]; rfl
    | ok v =>
      rw [hg] at hi
      obtain ⟨v, b'⟩ := v
      cases v with
      | error e =>
        obtain ⟨o, rfl⟩ := hi
        exact ⟨_, rfl, rfl⟩
      | ok l =>
        simp only at hi
        subst hi
        exact ⟨_, rfl, rfl⟩
  | fillBuf =>
    obtain ⟨z, z1, rfl⟩ := hy
    rw [fills_quiet h z1]
    refine ⟨_, rfl, ?_⟩
    cases (b.fill dev).1 <;> exact rfl
  | consume k => exact ⟨_, hy, trivial⟩
  | grow k => exact ⟨_, hy, trivial⟩
  | reset => exact ⟨_, hy, trivial⟩
  | seek sf =>
    obtain ⟨z, z1, rfl⟩ := hy
    rw [goes_quiet h z1]
    refine ⟨_, rfl, ?_⟩
    cases (b.seek dev sf).1 <;> exact rfl
  | getMut f => exact ⟨_, hy, trivial⟩

theorem runs_quiet (h : Quiet w dev) {fuel : Nat} {b : Queue R} {cs : List (WCall R)} {y : Rust (List WOut × Queue R)}
    (hy : Runs w fuel b cs y) :
    match b.run dev fuel (cs.map WCall.call) with
    | .error p => y = .error p
    | .ok (os, b') => ∃ vs, y = .ok (vs, b') ∧ SameAll vs os := by
  induction cs generalizing b y with
  | nil => exact ⟨_, hy, trivial⟩
  | cons c cs ih =>
    obtain ⟨z, z1, z2⟩ := hy
    have hs := steps_quiet h z1
    simp only [List.map_cons, Queue.run]
    cases hq : b.step dev fuel c.call with
    | error p =>
      rw [hq] at hs
      simp only at hs
      subst hs
      exact z2
    | ok q =>
      rw [hq] at hs
      obtain ⟨o, b'⟩ := q
      obtain ⟨v, rfl, hv⟩ := hs
      obtain ⟨z', z3, rfl⟩ := z2
      have hi := ih z3
      simp only [ok_bind]
      cases hr : b'.run dev fuel (cs.map WCall.call) with
      | error p => rw [hr] at hi; simp only at hi; rw [hi]; rfl
      | ok t =>
        rw [hr] at hi
        obtain ⟨os, b''⟩ := t
        obtain ⟨vs, rfl, hvs⟩ := hi
        exact ⟨_, rfl, hv, hvs⟩

/-- **C141, scribbling** A reader that writes what it likes behind the bytes it counts gives the results of one that leaves
the rest of the slice alone, which is what `Verif.Live.Model` and `Verif.Acc.Model` assume. -/
theorem c141_quiet (h : Quiet w dev) (s : R) (cap fuel : Nat) (cs : List (WCall R)) :
    match runCalls dev fuel (withCapacity cap s) (cs.map WCall.call) with
    | .error p => wRun w fuel (withCapacity cap s) cs = .error p
    | .ok (os, r) => ∃ vs r', wRun w fuel (withCapacity cap s) cs = .ok (vs, r') ∧ SameAll vs os ∧
        r'.inner = r.inner ∧ data r' = data r ∧ r'.buf.length = r.buf.length ∧
        ∃ n, wSeek w r' (.current 0) = .ok (.ok n, r') ∧ Stands dev r n := by
  obtain ⟨y, y1, y2⟩ := c141_wild w s cap fuel cs
  have hr := runs_quiet h y1
  have hq := c137_queue h.bounded s cap fuel (cs.map WCall.call)
  cases hb : (⟨s, [], cap, 0⟩ : Queue R).run dev fuel (cs.map WCall.call) with
  | error p =>
    rw [hb] at hr hq
    obtain ⟨rfl, q2, _⟩ := hq
    simp only at hr
    subst hr
    rw [q2]
    exact y2
  | ok t =>
    rw [hb] at hr hq
    obtain ⟨os, b⟩ := t
    obtain ⟨vs, rfl, hvs⟩ := hr
    obtain ⟨r, q1, q2, q3, q4, q5⟩ := hq
    obtain ⟨r', p1, p2, p3, p4, p5⟩ := y2
    rw [q1]
    exact ⟨vs, r', p1, hvs, p2.trans q2.symm, p3.trans q3.symm, p4.trans q4.symm, _, p5, q5⟩

/-! ### examples -/

/-- Counts up from its state; writes the whole slice but counts at most two bytes. -/
def scribbler : Wild Nat where
  read r s := (.ok (min 2 s.length), (List.range s.length).map fun i => BitVec.ofNat 8 (r + i), r + min 2 s.length)
  seek r _ := (.error .invalidInput, r)
  kept r s := by simp

/-- The same without what is not counted. -/
def counter : Dev Nat where
  read r n := (.ok ((List.range (min 2 n)).map fun i => BitVec.ofNat 8 (r + i)), r + min 2 n)
  seek r _ := (.error .invalidInput, r)

theorem scribbler_quiet : Quiet scribbler counter where
  read r s := by
    refine ⟨Nat.min_le_right .., ?_⟩
    simp only [counter, ← List.map_take, List.take_range]
    rw [Nat.min_eq_left (Nat.min_le_right 2 s.length)]
  seek _ _ := rfl

example : Honest scribbler := fun r s k h => by
  simp only [scribbler, Except.ok.injEq] at h; omega

/-- The caller's buffer gets what the reader scribbles only in a read that goes past the queue. -/
example : ∃ r, wRun scribbler 9 (withCapacity 4 7) [.fillBuf, .read [0, 0, 0], .read [0, 0, 0, 0, 0], .fillBuf] =
    .ok ([.shown [7, 8], .got 3 [7, 8, 9], .got 3 [10, 11, 12, 13, 14], .shown [13, 14]], r) := ⟨_, rfl⟩

/-- Counts one byte more than the slice has. -/
def liar : Wild Unit where
  read _ s := (.ok (s.length + 1), s, ())
  seek r _ := (.ok 3, r)
  kept _ _ := rfl

example : wRun liar 9 (withCapacity 4 ()) [.fillBuf] = .error .slice := rfl
example : wRun liar 9 (withCapacity 4 ()) [.seek (.end 0)] = .error .slice := rfl
example : wRun liar 9 (withCapacity 4 ()) [.readExact [0, 0, 0, 0, 0]] = .error .slice := rfl
example : ∃ r, wRun liar 9 (withCapacity 4 ()) [.read [1, 2, 3, 4, 5], .consume 2] = .ok ([.got 6 [1, 2, 3, 4, 5], .unit], r) :=
  ⟨_, rfl⟩

end Verif.Live
