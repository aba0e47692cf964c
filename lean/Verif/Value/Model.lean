import Verif.Pixel.Model
import Verif.Audio.Model

/-!
# Model of `data/src/value.rs`

`i64` and `u64` are bit vectors of 64 bits; references and `Arc`s are the values they point to.
-/

namespace Verif.Value
open Verif Verif.Pixel Verif.Audio

/-- value.rs:10-26 -/
inductive Value
  | I64 (v : BitVec 64) | U64 (v : BitVec 64) | Str (v : String) | Bool (v : _root_.Bool)
  | Pair (a b : BitVec 64) | Formaton (v : Formaton) | Soniton (v : Soniton)
  deriving DecidableEq, Repr

/-- value.rs:28-32 -/
def Value.ofI64 (v : BitVec 64) : Value := .I64 v
/-- value.rs:34-38 -/
def Value.ofU64 (v : BitVec 64) : Value := .U64 v
/-- value.rs:40-44 -/
def Value.ofStr (v : String) : Value := .Str v
/-- value.rs:46-50 -/
def Value.ofBool (v : _root_.Bool) : Value := .Bool v
/-- value.rs:52-56 -/
def Value.ofPair (v : BitVec 64 × BitVec 64) : Value := .Pair v.1 v.2
/-- value.rs:58-62 -/
def Value.ofFormaton (v : Pixel.Formaton) : Value := .Formaton v
/-- value.rs:64-68 -/
def Value.ofSoniton (v : Audio.Soniton) : Value := .Soniton v

/-- The values `set_option` can be called with: the types that have `Into<Value>`. -/
inductive Raw
  | i64 (v : BitVec 64) | u64 (v : BitVec 64) | str (v : String) | bool (v : Bool)
  | pair (v : BitVec 64 × BitVec 64) | formaton (v : Formaton) | soniton (v : Soniton) | value (v : Value)
  deriving DecidableEq, Repr

/-- `val.into()`; `Value` itself by the reflexive `From` of std -/
def Raw.into : Raw → Value
  | .i64 v => .ofI64 v
  | .u64 v => .ofU64 v
  | .str v => .ofStr v
  | .bool v => .ofBool v
  | .pair v => .ofPair v
  | .formaton v => .ofFormaton v
  | .soniton v => .ofSoniton v
  | .value v => v

end Verif.Value
