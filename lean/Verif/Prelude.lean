/-!
# Rust embedding used by all models

`Rust α` is the outcome of a Rust call: a value or a panic. Nothing here models rust-av itself; these
are the semantics of the language and standard library constructs the source uses.
-/

namespace Verif

/-- Reasons for which the modelled code stops without returning. -/
inductive Panic where
  /-- `slice[i]` with `i` out of range. -/
  | index
  /-- `slice[a..b]` out of range, or `copy_from_slice` length mismatch. -/
  | slice
  /-- integer overflow or underflow (a panic with overflow checks, wrap-around without). -/
  | overflow
  /-- shift amount at least the width (a panic with overflow checks, masked without). -/
  | shift
  /-- failed `assert!`. -/
  | assert
  /-- `unwrap` on `None`/`Err`. -/
  | unwrap
  /-- `panic!`. -/
  | explicit
  /-- `unimplemented!`. -/
  | unimplemented
  /-- `chunks(0)`. -/
  | chunkZero
  /-- undefined behaviour: `unsafe` code leaves the bounds of its slices. -/
  | ub
  /-- not a Rust outcome: the step budget of a model of an unbounded loop is used up. -/
  | fuel
  deriving DecidableEq, Repr

/-- Result of a Rust call that may panic. -/
abbrev Rust (α : Type u) := Except Panic α

/-- A byte. -/
abbrev U8 := BitVec 8

deriving instance DecidableEq for Except

/-- `a - b` on `usize`. -/
def usub (a b : Nat) : Rust Nat := if b ≤ a then .ok (a - b) else .error .overflow

/-- `assert!(b)`. -/
def rassert (b : Bool) : Rust Unit := if b then .ok () else .error .assert

/-- `l[i]` on a slice. -/
def idx (l : List α) (i : Nat) : Rust α :=
  match l[i]? with
  | some a => .ok a
  | none => .error .index

/-- `&l[i..]`. -/
def sliceFrom (l : List α) (i : Nat) : Rust (List α) :=
  if i ≤ l.length then .ok (l.drop i) else .error .slice

/-- `&l[a..b]`. -/
def sliceRange (l : List α) (a b : Nat) : Rust (List α) :=
  if a ≤ b ∧ b ≤ l.length then .ok ((l.drop a).take (b - a)) else .error .slice

@[simp] theorem usub_ok {a b : Nat} (h : b ≤ a) : usub a b = .ok (a - b) := by simp [usub, h]
@[simp] theorem rassert_true {b : Bool} (h : b = true) : rassert b = .ok () := by simp [rassert, h]
@[simp] theorem sliceFrom_ok {l : List α} {i : Nat} (h : i ≤ l.length) :
    sliceFrom l i = .ok (l.drop i) := by simp [sliceFrom, h]
theorem idx_ok {l : List α} {i : Nat} (h : i < l.length) : idx l i = .ok l[i] := by
  simp [idx, h]

@[simp] theorem ok_bind (a : α) (f : α → Rust β) : (Except.ok a >>= f) = f a := rfl
@[simp] theorem error_bind (e : Panic) (f : α → Rust β) :
    ((Except.error e : Rust α) >>= f) = .error e := rfl
@[simp] theorem pure_eq_ok (a : α) : (pure a : Rust α) = .ok a := rfl

end Verif
