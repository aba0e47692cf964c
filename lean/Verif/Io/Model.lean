import Verif.Prelude

/-!
# Readers and writers supplied by the caller

Models of arbitrary implementations of `std::io::Read`, `Seek` and `Write` that keep the contracts of
those traits: a fixed byte string with a position, and a *script* saying for the `k`-th call whether it
fails and how short it is. Theorems quantify over all scripts. Nothing here is code of rust-av.
-/

namespace Verif.Io
open Verif

/-- `std::io::ErrorKind`, as far as it is told apart. -/
inductive IoErr | unexpectedEof | interrupted | invalidInput | writeZero | other (n : Nat)
  deriving DecidableEq, Repr

/-- What one call does: fail, or transfer at most `len + 1` bytes. -/
structure Act where
  fail : Option IoErr
  len : Nat
  deriving DecidableEq, Repr

/-- A `Read + Seek` object. -/
structure Source where
  data : List U8
  pos : Nat
  script : Nat → Act
  clock : Nat

/-- `std::io::SeekFrom` -/
inductive SeekFrom | start (n : Nat) | «end» (d : Int) | current (d : Int)
  deriving DecidableEq, Repr

namespace Source

/-- Contract of `Read::read` into a buffer of `n` bytes: some bytes (none only if none were asked for or
none are left) or an error and nothing read. -/
def read (s : Source) (n : Nat) : Except IoErr (List U8) × Source :=
  match (s.script s.clock).fail with
  | some e => (.error e, { s with clock := s.clock + 1 })
  | none =>
    let l := (s.data.drop s.pos).take (min n ((s.script s.clock).len + 1))
    (.ok l, { s with pos := s.pos + l.length, clock := s.clock + 1 })

/-- Target of a seek. -/
def target (s : Source) : SeekFrom → Int
  | .start n => n
  | .end d => s.data.length + d
  | .current d => s.pos + d

/-- Contract of `Seek::seek`: the new position (possibly behind the end), or an error (always for a
target before the start) and no move. -/
def seek (s : Source) (sf : SeekFrom) : Except IoErr Nat × Source :=
  match (s.script s.clock).fail with
  | some e => (.error e, { s with clock := s.clock + 1 })
  | none =>
    if s.target sf < 0 then (.error .invalidInput, { s with clock := s.clock + 1 })
    else (.ok (s.target sf).toNat, { s with pos := (s.target sf).toNat, clock := s.clock + 1 })

end Source

/-- `Read::read_exact` (default method of std) over any `read`: retry when interrupted, fail with
`UnexpectedEof` when `read` returns no byte. For at most `fuel` calls. -/
def readExact (read : R → Nat → Rust (Except IoErr (List U8) × R)) :
    Nat → R → Nat → Rust (Except IoErr (List U8) × R)
  | 0, _, _ => .error .fuel
  | fuel + 1, r, n =>
    if n = 0 then .ok (.ok [], r)
    else do
      let (x, r) ← read r n
      match x with
      | .error .interrupted => readExact read fuel r n
      | .error e => .ok (.error e, r)
      | .ok [] => .ok (.error .unexpectedEof, r)
      | .ok l => do
        let (y, r) ← readExact read fuel r (n - l.length)
        match y with
        | .error e => .ok (.error e, r)
        | .ok l2 => .ok (.ok (l ++ l2), r)

/-- What a `read` may do, seen from outside. -/
structure ReadSpec (s s' : Source) (n : Nat) (x : Except IoErr (List U8)) : Prop where
  data : s'.data = s.data
  script : s'.script = s.script
  clock : s'.clock = s.clock + 1
  ok : ∀ l, x = .ok l → l = (s.data.drop s.pos).take l.length ∧ l.length ≤ n ∧
    s'.pos = s.pos + l.length ∧ (l = [] → n = 0 ∨ s.data.length ≤ s.pos)
  error : ∀ e, x = .error e → s'.pos = s.pos ∧ (s.script s.clock).fail = some e

theorem Source.read_spec (s : Source) (n : Nat) : ReadSpec s (s.read n).2 n (s.read n).1 := by
  unfold Source.read
  cases h : (s.script s.clock).fail with
  | some e => exact ⟨rfl, rfl, rfl, fun l h => by simp at h, fun e' h' => ⟨rfl, by simp_all⟩⟩
  | none =>
    refine ⟨rfl, rfl, rfl, ?_, fun e h => by simp at h⟩
    intro l hl
    simp only [Except.ok.injEq] at hl
    subst hl
    refine ⟨?_, ?_, rfl, ?_⟩
    · rw [List.length_take, List.length_drop]
      rw [List.take_eq_take_iff]
      simp only [List.length_drop]; omega
    · rw [List.length_take]; omega
    · intro h0
      have := congrArg List.length h0
      simp only [List.length_take, List.length_drop, List.length_nil] at this
      omega

end Verif.Io
