import Verif.Acc.Model

/-!
# Specification: a cursor on the bytes of the stream
-/

namespace Verif.Acc
open Verif Verif.Io

/-- `l` is what the stream holds from position `p`. -/
def At (data : List U8) (p : Nat) (l : List U8) : Prop := l = (data.drop p).take l.length

/-- Where a seek from position `p` may lead. Backward relative seeks are left open (see C26). -/
def Lands (data : List U8) (p : Nat) : SeekFrom → Nat → Prop
  | .start n, m => m = n
  | .end d, m => (m : Int) = data.length + d
  | .current d, m => 0 ≤ d → (m : Int) = p + d

/-- `op`, called at position `p` and returning `out`, leads to position `p'`. -/
def Explains (data : List U8) (p : Nat) : Op → Out → Nat → Prop
  | .read n, .bytes l, p' => At data p l ∧ l.length ≤ n ∧ (l = [] → n = 0 ∨ data.length ≤ p) ∧
      p' = p + l.length
  | .read _, .err _, p' => p' = p
  | .readExact n, .bytes l, p' => At data p l ∧ l.length = n ∧ p' = p + n
  | .readExact n, .err _, p' => p ≤ p' ∧ p' < p + n
  | .fillBuf, .shown l, p' => At data p l ∧ p' = p
  | .fillBuf, .err _, p' => p' = p
  | .consume k, .bytes l, p' => At data p l ∧ l.length ≤ k ∧ p' = p + l.length
  | .grow _, .unit, p' => p' = p
  | .reset, .unit, p' => p' = p
  | .seek sf, .pos m, p' => p' = m ∧ Lands data p sf m
  | .seek sf, .err _, p' => p' = p ∨ Lands data p sf p'
  | _, _, _ => False

/-- The same for a whole history. -/
def ExplainsAll (data : List U8) : Nat → List Op → List Out → Nat → Prop
  | p, [], [], p' => p' = p
  | p, op :: ops, o :: os, p' => ∃ q, Explains data p op o q ∧ ExplainsAll data q ops os p'
  | _, _, _, _ => False

end Verif.Acc
