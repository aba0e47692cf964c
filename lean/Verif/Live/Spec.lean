import Verif.Acc.Spec
import Verif.Live.Model

/-!
# Specification: streams that grow, and a cursor on them
-/

namespace Verif.Live
open Verif Verif.Io Verif.Acc

variable {R : Type}

/-- Where a seek asks to go, at position `p` of a stream of `t` bytes. -/
def aim (p t : Nat) : SeekFrom → Int
  | .start n => n
  | .end d => t + d
  | .current d => p + d

/-- Relative and backward. -/
def Back : SeekFrom → Prop
  | .current d => d < 0
  | _ => False

/-- The contracts of `Read` and `Seek` over a stream that may grow during and between calls. It stands at `pos`, has
`len` bytes by now, and in the end its bytes are `dat`: bytes that are there neither change nor vanish. `read` returns
no byte only if none was asked for, or none was there behind the position when it was called. Relative seeks backward
may lead elsewhere than they say, as those of an `AccReader` do (C26). -/
structure Grows (dev : Dev R) (dat : List U8) (pos len : R → Nat) : Prop where
  within : ∀ r, len r ≤ dat.length
  read_len : ∀ r n, len r ≤ len (dev.read r n).2
  read_ok : ∀ r n l, (dev.read r n).1 = .ok l → At dat (pos r) l ∧ l.length ≤ n ∧
    pos (dev.read r n).2 = pos r + l.length ∧
    (l ≠ [] → pos r + l.length ≤ len (dev.read r n).2) ∧ (l = [] → n = 0 ∨ len r ≤ pos r)
  read_err : ∀ r n e, (dev.read r n).1 = .error e → pos (dev.read r n).2 = pos r
  seek_len : ∀ r sf, len r ≤ len (dev.seek r sf).2
  seek_ok : ∀ r sf m, (dev.seek r sf).1 = .ok m → pos (dev.seek r sf).2 = m ∧
    ∃ t, len r ≤ t ∧ t ≤ len (dev.seek r sf).2 ∧ (Back sf ∨ (m : Int) = aim (pos r) t sf)
  seek_err : ∀ r sf e, (dev.seek r sf).1 = .error e → pos (dev.seek r sf).2 = pos r

/-- The errors the calls of a reader return. -/
def Dev.Fails (dev : Dev R) (e : IoErr) : Prop :=
  (∃ r n, (dev.read r n).1 = .error e) ∨ ∃ r sf, (dev.seek r sf).1 = .error e

/-- A reader that never fails: its reads return, and its seeks if the target is not before the start. -/
structure Dev.Healthy (dev : Dev R) (pos len : R → Nat) : Prop where
  read : ∀ r n, ∃ l, (dev.read r n).1 = .ok l
  seek : ∀ r sf, (∀ t, len r ≤ t → 0 ≤ aim (pos r) t sf) → ∃ m, (dev.seek r sf).1 = .ok m

/-- `op`, called at position `p` of a stream that has `n` bytes then, returns `out` when it has `n'` bytes and leads to
position `p'`. Where backward relative seeks lead is left open (see C26). -/
def Sees (fails : IoErr → Prop) (dat : List U8) (n p : Nat) : Op → Out → Nat → Nat → Prop
  | .read k, .bytes l, n', p' => At dat p l ∧ l.length ≤ k ∧ p' = p + l.length ∧ (l ≠ [] → p' ≤ n') ∧
      (l = [] → k = 0 ∨ n ≤ p)
  | .read _, .err e, _, p' => p' = p ∧ fails e
  | .readExact k, .bytes l, n', p' => At dat p l ∧ l.length = k ∧ p' = p + k ∧ (l ≠ [] → p' ≤ n')
  | .readExact k, .err e, _, p' => p ≤ p' ∧ p' < p + k ∧ (fails e ∨ e = .unexpectedEof ∧ n ≤ p')
  | .fillBuf, .shown l, n', p' => At dat p l ∧ p' = p ∧ (l ≠ [] → p + l.length ≤ n') ∧ (l = [] → n ≤ p)
  | .fillBuf, .err e, _, p' => p' = p ∧ fails e
  | .consume k, .bytes l, n', p' => At dat p l ∧ l.length ≤ k ∧ p' = p + l.length ∧ (l ≠ [] → p' ≤ n')
  | .grow _, .unit, _, p' => p' = p
  | .reset, .unit, _, p' => p' = p
  | .seek sf, .pos m, n', p' => p' = m ∧ ((∃ d < 0, sf = .current d) ∨ ∃ t, n ≤ t ∧ t ≤ n' ∧ (m : Int) = aim p t sf)
  | .seek sf, .err e, n', p' => fails e ∧
      (p' = p ∨ (∃ d < 0, sf = .current d) ∨ ∃ t, n ≤ t ∧ t ≤ n' ∧ (p' : Int) = aim p t sf)
  | _, _, _, _ => False

/-- The same for a whole history, during which the stream grows. -/
def SeesAll (fails : IoErr → Prop) (dat : List U8) : Nat → Nat → List Op → List Out → Nat → Nat → Prop
  | n, p, [], [], n', p' => n' = n ∧ p' = p
  | n, p, op :: ops, o :: os, n', p' =>
    ∃ m q, n ≤ m ∧ Sees fails dat n p op o m q ∧ SeesAll fails dat m q ops os n' p'
  | _, _, _, _, _, _ => False

end Verif.Live
