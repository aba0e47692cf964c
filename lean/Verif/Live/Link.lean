import Verif.Live.Model

/-!
# Over a `Source`, the model of `AccReader` is the one of `Verif.Acc`
-/

namespace Verif.Live
open Verif Verif.Io Verif.Acc

/-- A scripted source as a reader. -/
def sourceDev : Dev Source := ⟨Source.read, Source.seek⟩

/-- The same state in the other model. -/
def ofAcc (r : Acc) : LAcc Source := ⟨r.inner, r.buf, r.pos, r.end, r.index⟩

/-- The same outcome in the other model. -/
def both {α : Type} : Rust (α × Acc) → Rust (α × LAcc Source)
  | .error p => .error p
  | .ok (x, r) => .ok (x, ofAcc r)

theorem reset_link (r : Acc) : Live.resetBufferPosition (ofAcc r) = (Acc.resetBufferPosition r).map ofAcc := by
  unfold Live.resetBufferPosition Acc.resetBufferPosition
  simp only [ofAcc]
  cases usub r.end r.pos with
  | error p => rfl
  | ok w =>
    simp only [ok_bind]
    generalize (if w > 0 then copyWithin0 r.buf r.pos r.end else Except.ok r.buf) = b
    cases b <;> rfl

theorem fillBuf_link (r : Acc) : Live.fillBuf sourceDev (ofAcc r) = both (Acc.fillBuf r) := by
  unfold Live.fillBuf Acc.fillBuf
  simp only [reset_link]
  simp only [show (ofAcc r).pos = r.pos from rfl, show (ofAcc r).end = r.end from rfl,
    show (ofAcc r).buf = r.buf from rfl]
  by_cases hc : r.pos ≠ 0 ∨ r.end ≠ r.buf.length
  · rw [if_pos hc, if_pos hc]
    cases Acc.resetBufferPosition r with
    | error p => rfl
    | ok r1 =>
      show (sliceFrom r1.buf r1.end >>= _) = both (sliceFrom r1.buf r1.end >>= _)
      cases sliceFrom r1.buf r1.end with
      | error p => rfl
      | ok room =>
        simp only [ok_bind, sourceDev, ofAcc]
        cases r1.inner.read room.length with
        | mk x s =>
          cases x with
          | error e => rfl
          | ok l =>
            simp only [Live.data, Acc.data]
            generalize sliceRange _ _ _ = w
            cases w <;> rfl
  · rw [if_neg hc, if_neg hc]
    simp only [Live.data, Acc.data, ofAcc]
    generalize sliceRange _ _ _ = w
    cases w <;> rfl

theorem read_link (r : Acc) (n : Nat) : Live.read sourceDev (ofAcc r) n = both (Acc.read r n) := by
  unfold Live.read Acc.read
  simp only [show (ofAcc r).pos = r.pos from rfl, show (ofAcc r).end = r.end from rfl,
    show (ofAcc r).buf = r.buf from rfl, fillBuf_link]
  cases usub r.end r.pos with
  | error p => rfl
  | ok w =>
    simp only [ok_bind]
    by_cases h1 : n < w
    · rw [if_pos h1, if_pos h1]
      cases sliceRange r.buf r.pos (r.pos + n) <;> rfl
    · rw [if_neg h1, if_neg h1]
      by_cases h2 : n > r.buf.length
      · rw [if_pos h2, if_pos h2]
        cases sliceRange r.buf r.pos r.end with
        | error p => rfl
        | ok l =>
          simp only [ok_bind]
          cases usub n w with
          | error p => rfl
          | ok room =>
            simp only [ok_bind, sourceDev, ofAcc]
            cases r.inner.read room with
            | mk x s =>
              cases x with
              | error e => rfl
              | ok l2 =>
                simp only
                rw [show (Live.consume { inner := s, buf := r.buf, pos := r.pos, «end» := r.end, index := r.index }
                  (l2.length + (l.take n).length)) = ofAcc (Acc.consume { r with inner := s }
                  (l2.length + (l.take n).length)) from rfl, reset_link]
                cases Acc.resetBufferPosition _ <;> rfl
      · rw [if_neg h2, if_neg h2]
        cases Acc.fillBuf r with
        | error p => rfl
        | ok v =>
          obtain ⟨x, r1⟩ := v
          cases x <;> rfl

theorem seekInner_link (r : Acc) (sf : SeekFrom) :
    Live.seekInner sourceDev (ofAcc r) sf = both (Acc.seekInner r sf) := by
  unfold Live.seekInner Acc.seekInner
  simp only [sourceDev, show (ofAcc r).inner = r.inner from rfl]
  cases r.inner.seek sf with
  | mk x s =>
    cases x with
    | error e => rfl
    | ok sz =>
      simp only
      rw [show ({ ofAcc r with inner := s, index := sz, pos := 0, «end» := 0 } : LAcc Source) =
        ofAcc { r with inner := s, index := sz, pos := 0, «end» := 0 } from rfl]
      rw [show (⟨Source.read, Source.seek⟩ : Dev Source) = sourceDev from rfl, fillBuf_link]
      cases Acc.fillBuf _ with
      | error p => rfl
      | ok v =>
        obtain ⟨y, r1⟩ := v
        cases y <;> rfl

theorem seek_link (r : Acc) (sf : SeekFrom) : Live.seek sourceDev (ofAcc r) sf = both (Acc.seek r sf) := by
  unfold Live.seek Acc.seek
  simp only [seekInner_link, show (ofAcc r).pos = r.pos from rfl, show (ofAcc r).end = r.end from rfl,
    show (ofAcc r).index = r.index from rfl]
  cases sf with
  | start n =>
    simp only
    by_cases h : n ≥ r.index
    · rw [if_pos h, if_pos h]
      cases usub (r.index + r.end) r.pos with
      | error p => rfl
      | ok lim =>
        simp only [ok_bind]
        by_cases h2 : n < lim
        · rw [if_pos h2, if_pos h2]; rfl
        · rw [if_neg h2, if_neg h2]
    · rw [if_neg h, if_neg h]
  | «end» d => rfl
  | current d =>
    simp only
    cases usub r.end r.pos with
    | error p => rfl
    | ok lim =>
      simp only [ok_bind]
      by_cases h : d ≥ 0
      · rw [if_pos h, if_pos h]
        by_cases h2 : d.toNat ≤ lim
        · rw [if_pos h2, if_pos h2]; rfl
        · rw [if_neg h2, if_neg h2]
      · rw [if_neg h, if_neg h]

theorem readExact_link (fuel : Nat) (r : Acc) (n : Nat) :
    readExact (Live.read sourceDev) fuel (ofAcc r) n = both (readExact Acc.read fuel r n) := by
  induction fuel generalizing r n with
  | zero => rfl
  | succ fuel ih =>
    unfold readExact
    by_cases h0 : n = 0
    · rw [if_pos h0, if_pos h0]; rfl
    · rw [if_neg h0, if_neg h0, read_link]
      cases Acc.read r n with
      | error p => rfl
      | ok v =>
        obtain ⟨x, r1⟩ := v
        simp only [both, ok_bind]
        cases x with
        | error e => cases e <;> first | exact ih r1 n | rfl
        | ok l =>
          cases l with
          | nil => rfl
          | cons a l =>
            simp only
            rw [ih]
            cases readExact Acc.read fuel r1 _ with
            | error p => rfl
            | ok v =>
              obtain ⟨y, r2⟩ := v
              cases y <;> rfl

theorem step_link (fuel : Nat) (r : Acc) (op : Op) : Live.step sourceDev fuel (ofAcc r) op = both (Acc.step fuel r op) := by
  cases op with
  | read n =>
    simp only [Live.step, Acc.step, read_link]
    cases Acc.read r n with
    | error p => rfl
    | ok v => obtain ⟨x, r1⟩ := v; cases x <;> rfl
  | readExact n =>
    simp only [Live.step, Acc.step, readExact_link]
    cases readExact Acc.read fuel r n with
    | error p => rfl
    | ok v => obtain ⟨x, r1⟩ := v; cases x <;> rfl
  | fillBuf =>
    simp only [Live.step, Acc.step, fillBuf_link]
    cases Acc.fillBuf r with
    | error p => rfl
    | ok v => obtain ⟨x, r1⟩ := v; cases x <;> rfl
  | consume k =>
    simp only [Live.step, Acc.step, Live.data, Acc.data, ofAcc]
    generalize sliceRange _ _ _ = w
    cases w <;> rfl
  | grow k => rfl
  | reset =>
    simp only [Live.step, Acc.step, reset_link]
    cases Acc.resetBufferPosition r <;> rfl
  | seek sf =>
    simp only [Live.step, Acc.step, seek_link]
    cases Acc.seek r sf with
    | error p => rfl
    | ok v => obtain ⟨x, r1⟩ := v; cases x <;> rfl

/-- Every history, over every scripted source: the same outcomes in both models. -/
theorem run_link (fuel : Nat) (r : Acc) (ops : List Op) :
    Live.run sourceDev fuel (ofAcc r) ops = both (Acc.run fuel r ops) := by
  induction ops generalizing r with
  | nil => rfl
  | cons op ops ih =>
    simp only [Live.run, Acc.run, step_link]
    cases Acc.step fuel r op with
    | error p => rfl
    | ok v =>
      obtain ⟨o, r1⟩ := v
      simp only [both, ok_bind, ih]
      cases Acc.run fuel r1 ops <;> rfl

/-- A read in pieces, and a seek that fails. -/
example : ∃ r, Acc.run 9 (Acc.withCapacity 3 ⟨[1, 2, 3, 4], 0, fun k => ⟨if k = 2 then some (.other 7) else none, k⟩, 0⟩)
    [.read 2, .read 2, .seek (.start 9), .seek (.current 1)] = .ok ([.bytes [1], .bytes [2, 3], .err (.other 7), .pos 4], r) ∧
    Live.run sourceDev 9 (withCapacity 3 ⟨[1, 2, 3, 4], 0, fun k => ⟨if k = 2 then some (.other 7) else none, k⟩, 0⟩)
      [.read 2, .read 2, .seek (.start 9), .seek (.current 1)] =
      .ok ([.bytes [1], .bytes [2, 3], .err (.other 7), .pos 4], ofAcc r) := ⟨_, rfl, rfl⟩

end Verif.Live
