import Verif.Value.Model

/-!
# Property C75
-/

namespace Verif.Value
open Verif Verif.Pixel Verif.Audio

/-- What a consumer of options reads from a value: at most one of these is there. -/
structure Reading where
  i64 : Option (BitVec 64)
  u64 : Option (BitVec 64)
  str : Option String
  bool : Option Bool
  pair : Option (BitVec 64 × BitVec 64)
  formaton : Option Formaton
  soniton : Option Soniton
  deriving DecidableEq

def nothing : Reading := ⟨none, none, none, none, none, none, none⟩

/-- Matching on a value. -/
def reading (v : Value) : Reading :=
  { i64 := match v with | .I64 x => some x | _ => none
    u64 := match v with | .U64 x => some x | _ => none
    str := match v with | .Str x => some x | _ => none
    bool := match v with | .Bool x => some x | _ => none
    pair := match v with | .Pair x y => some (x, y) | _ => none
    formaton := match v with | .Formaton x => some x | _ => none
    soniton := match v with | .Soniton x => some x | _ => none }

/-- C75. Converting a value of a supported type gives an option value that is read back as this value under
this type and under no other, the two parts of a pair in order. -/
theorem c75_value :
    (∀ v, reading (Value.ofI64 v) = { nothing with i64 := some v }) ∧
    (∀ v, reading (Value.ofU64 v) = { nothing with u64 := some v }) ∧
    (∀ v, reading (Value.ofStr v) = { nothing with str := some v }) ∧
    (∀ v, reading (Value.ofBool v) = { nothing with bool := some v }) ∧
    (∀ v, reading (Value.ofPair v) = { nothing with pair := some v }) ∧
    (∀ v, reading (Value.ofFormaton v) = { nothing with formaton := some v }) ∧
    (∀ v, reading (Value.ofSoniton v) = { nothing with soniton := some v }) :=
  ⟨fun _ => rfl, fun _ => rfl, fun _ => rfl, fun _ => rfl, fun _ => rfl, fun _ => rfl, fun _ => rfl⟩

/-- C75, for the values options are set with (`val.into()`): the conversion is chosen by the type of the value,
and a `Value` is passed on as it is. -/
theorem c75_into :
    (∀ v, reading (Raw.i64 v).into = { nothing with i64 := some v }) ∧
    (∀ v, reading (Raw.u64 v).into = { nothing with u64 := some v }) ∧
    (∀ v, reading (Raw.str v).into = { nothing with str := some v }) ∧
    (∀ v, reading (Raw.bool v).into = { nothing with bool := some v }) ∧
    (∀ v, reading (Raw.pair v).into = { nothing with pair := some v }) ∧
    (∀ v, reading (Raw.formaton v).into = { nothing with formaton := some v }) ∧
    (∀ v, reading (Raw.soniton v).into = { nothing with soniton := some v }) ∧
    (∀ v, (Raw.value v).into = v) :=
  ⟨fun _ => rfl, fun _ => rfl, fun _ => rfl, fun _ => rfl, fun _ => rfl, fun _ => rfl, fun _ => rfl, fun _ => rfl⟩

example : (reading (Raw.u64 5).into).u64 = some 5 ∧ (reading (Raw.u64 5).into).i64 = none := by decide

example : (reading (Value.ofPair (3, 4))).pair = some (3, 4) ∧ (reading (Value.ofPair (3, 4))).i64 = none := by decide

end Verif.Value
