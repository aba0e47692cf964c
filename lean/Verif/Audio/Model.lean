import Verif.Data.Arith

/-! # Model of `data/src/audiosample.rs` -/

namespace Verif.Audio
open Verif Verif.Data

/-- audiosample.rs:8-23 -/
structure Soniton where
  bits : Nat
  be : Bool
  packed : Bool
  planar : Bool
  float : Bool
  signed : Bool
  deriving DecidableEq, Repr

/-- audiosample.rs:39-48 -/
def Soniton.new (bits : Nat) (be packed planar float signed : Bool) : Soniton :=
  { bits, be, packed, planar, float, signed }

/-- audiosample.rs:52-60 -/
def Soniton.getAudioSize (f : Soniton) (length alignment : Nat) : Rust Nat := do
  let s ← (if f.packed then do roundToByte (← umul length f.bits)
    else do umul length (← roundToByte f.bits))
  align s alignment

/-- `Display` of `bool` (used in audiosample.rs:63-79) -/
def showBool (b : Bool) : String := if b then "true" else "false"

/-- audiosample.rs:63-79 (the text written) -/
def Soniton.display (f : Soniton) : String :=
  let fmt := if f.float then "float" else if f.signed then "int" else "uint"
  let «end» := if f.be then "BE" else "LE"
  "(" ++ toString f.bits ++ " bps, " ++ «end» ++ " planar: " ++ showBool f.packed ++ " packed: " ++
    showBool f.planar ++ " " ++ fmt ++ ")"

/-- audiosample.rs:84-148 -/
inductive ChannelType
  | C | L | R | Cs | Ls | Rs | Lss | Rss | LFE | Lc | Rc | Lh | Rh | Ch | LFE2 | Lw | Rw | Ov | Lhs | Rhs
  | Chs | Ll | Rl | Cl | Lt | Rt | Lo | Ro
  deriving DecidableEq, Repr

namespace ChannelType

/-- `ch as i32`: the declaration order, audiosample.rs:84-148 -/
def code (c : ChannelType) : Nat := c.ctorIdx

/-- audiosample.rs:152-164 -/
def isCenter : ChannelType → Bool
  | C | Ch | Cl | Ov | LFE | LFE2 | Cs | Chs => true
  | _ => false

/-- audiosample.rs:167-181 -/
def isLeft : ChannelType → Bool
  | L | Ls | Lss | Lc | Lh | Lw | Lhs | Ll | Lt | Lo => true
  | _ => false

/-- audiosample.rs:184-198 -/
def isRight : ChannelType → Bool
  | R | Rs | Rss | Rc | Rh | Rw | Rhs | Rl | Rt | Ro => true
  | _ => false

/-- audiosample.rs:201-235 (the text written) -/
def display : ChannelType → String
  | C => "C" | L => "L" | R => "R" | Cs => "Cs" | Ls => "Ls" | Rs => "Rs" | Lss => "Lss" | Rss => "Rss"
  | LFE => "LFE" | Lc => "Lc" | Rc => "Rc" | Lh => "Lh" | Rh => "Rh" | Ch => "Ch" | LFE2 => "LFE2"
  | Lw => "Lw" | Rw => "Rw" | Ov => "Ov" | Lhs => "Lhs" | Rhs => "Rhs" | Chs => "Chs" | Ll => "Ll"
  | Rl => "Rl" | Cl => "Cl" | Lt => "Lt" | Rt => "Rt" | Lo => "Lo" | Ro => "Ro"

end ChannelType

/-- audiosample.rs:238-241 -/
structure ChannelMap where
  ids : List ChannelType
  deriving DecidableEq, Repr

namespace ChannelMap

/-- audiosample.rs:245-247 -/
def new : ChannelMap := { ids := [] }

/-- audiosample.rs:250-252 -/
def addChannel (m : ChannelMap) (ch : ChannelType) : ChannelMap := { m with ids := m.ids ++ [ch] }

/-- audiosample.rs:255-259 -/
def addChannels (m : ChannelMap) : List ChannelType → ChannelMap
  | [] => m
  | ch :: chs => addChannels (m.addChannel ch) chs

/-- audiosample.rs:262-264 -/
def len (m : ChannelMap) : Nat := m.ids.length

/-- audiosample.rs:267-269 -/
def isEmpty (m : ChannelMap) : Bool := m.ids.isEmpty

/-- audiosample.rs:272-274 -/
def getChannel (m : ChannelMap) (i : Nat) : Rust ChannelType := idx m.ids i

/-- audiosample.rs:278-283: the loop from index `i` -/
def findFrom (t : ChannelType) : Nat → List ChannelType → Option Nat
  | _, [] => none
  | i, c :: cs => if c.code = t.code then some (i % 256) else findFrom t (i + 1) cs

/-- audiosample.rs:277-284; the index is cast to `u8` -/
def findChannelId (m : ChannelMap) (t : ChannelType) : Option Nat := findFrom t 0 m.ids

/-- audiosample.rs:297-306 -/
def defaultMap : Nat → Rust ChannelMap
  | 1 => .ok { ids := [.C] }
  | 2 => .ok { ids := [.R, .L] }
  | _ => .error .unimplemented

end ChannelMap

namespace formats
/-- audiosample.rs:314-321 -/
def U8 : Soniton := { bits := 8, be := false, packed := false, planar := false, float := false, signed := false }
/-- audiosample.rs:324-331 -/
def S16 : Soniton := { bits := 16, be := false, packed := false, planar := false, float := false, signed := true }
/-- audiosample.rs:334-341 -/
def S32 : Soniton := { bits := 32, be := false, packed := false, planar := false, float := false, signed := true }
/-- audiosample.rs:344-351 -/
def F32 : Soniton := { bits := 32, be := false, packed := false, planar := false, float := true, signed := true }
/-- audiosample.rs:354-361 -/
def F64 : Soniton := { bits := 64, be := false, packed := false, planar := false, float := true, signed := true }
end formats

end Verif.Audio
