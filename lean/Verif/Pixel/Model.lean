import Verif.Data.Arith

/-!
# Model of `data/src/pixel.rs`

`u8` fields are naturals (theorems needing the bound state it). `[Option<Chromaton>; 5]` is a list;
`Formaton::new` and the predefined formats give it length five.
-/

namespace Verif.Pixel
open Verif Verif.Data

/-- pixel.rs:16-21 -/
inductive YUVRange | Limited | Full
  deriving DecidableEq, Repr

/-- pixel.rs:23-30 (the text written) -/
def YUVRange.display : YUVRange → String
  | Limited => "Limited range"
  | Full => "Full range"

/-- pixel.rs:42-165 -/
inductive MatrixCoefficients
  | Identity | BT709 | Unspecified | Reserved | BT470M | BT470BG | ST170M | ST240M | YCgCo
  | BT2020NonConstantLuminance | BT2020ConstantLuminance | ST2085
  | ChromaticityDerivedNonConstantLuminance | ChromaticityDerivedConstantLuminance | ICtCp | PqC2
  | YCgCoRe | YCgCoRo
  deriving DecidableEq, Repr

namespace MatrixCoefficients

/-- `ToPrimitive::to_u32`: the discriminant, pixel.rs:42-165 -/
def toU32 : MatrixCoefficients → Nat
  | Identity => 0 | BT709 => 1 | Unspecified => 2 | Reserved => 3 | BT470M => 4 | BT470BG => 5
  | ST170M => 6 | ST240M => 7 | YCgCo => 8 | BT2020NonConstantLuminance => 9
  | BT2020ConstantLuminance => 10 | ST2085 => 11 | ChromaticityDerivedNonConstantLuminance => 12
  | ChromaticityDerivedConstantLuminance => 13 | ICtCp => 14 | PqC2 => 15 | YCgCoRe => 16
  | YCgCoRo => 17

/-- `FromPrimitive::from_u32` (derived): the value with that discriminant, pixel.rs:42-165 -/
def fromU32 : Nat → Option MatrixCoefficients
  | 0 => some Identity | 1 => some BT709 | 2 => some Unspecified | 3 => some Reserved
  | 4 => some BT470M | 5 => some BT470BG | 6 => some ST170M | 7 => some ST240M | 8 => some YCgCo
  | 9 => some BT2020NonConstantLuminance | 10 => some BT2020ConstantLuminance | 11 => some ST2085
  | 12 => some ChromaticityDerivedNonConstantLuminance
  | 13 => some ChromaticityDerivedConstantLuminance | 14 => some ICtCp | 15 => some PqC2
  | 16 => some YCgCoRe | 17 => some YCgCoRo | _ => none

/-- pixel.rs:167-198 (the text written) -/
def display : MatrixCoefficients → String
  | Identity => "Identity" | BT709 => "ITU BT.709" | Unspecified => "Unspecified"
  | Reserved => "Reserved" | BT470M => "ITU BT.470M" | BT470BG => "ITU BT.470BG"
  | ST170M => "SMPTE ST-170M" | ST240M => "SMPTE ST-240M" | YCgCo => "YCgCo"
  | BT2020NonConstantLuminance => "ITU BT.2020 (Non Constant Luminance)"
  | BT2020ConstantLuminance => "ITU BT.2020 (Constant Luminance)" | ST2085 => "SMPTE ST-2085"
  | ChromaticityDerivedNonConstantLuminance => "Chromaticity Derived (Non Constant Luminance)"
  | ChromaticityDerivedConstantLuminance => "Chromaticity Derived (Constant Luminance)"
  | ICtCp => "ICtCp" | PqC2 => "PQ-C2" | YCgCoRe => "YCgCo-Re" | YCgCoRo => "YCgCo-Ro"

end MatrixCoefficients

/-- pixel.rs:213-287 -/
inductive ColorPrimaries
  | Reserved0 | BT709 | Unspecified | Reserved | BT470M | BT470BG | ST170M | ST240M | Film | BT2020
  | ST428 | P3DCI | P3Display | Tech3213
  deriving DecidableEq, Repr

namespace ColorPrimaries

/-- `ToPrimitive::to_u32`: the discriminant, pixel.rs:213-287 -/
def toU32 : ColorPrimaries → Nat
  | Reserved0 => 0 | BT709 => 1 | Unspecified => 2 | Reserved => 3 | BT470M => 4 | BT470BG => 5
  | ST170M => 6 | ST240M => 7 | Film => 8 | BT2020 => 9 | ST428 => 10 | P3DCI => 11 | P3Display => 12
  | Tech3213 => 22

/-- `FromPrimitive::from_u32` (derived): the value with that discriminant, pixel.rs:213-287 -/
def fromU32 : Nat → Option ColorPrimaries
  | 0 => some Reserved0 | 1 => some BT709 | 2 => some Unspecified | 3 => some Reserved
  | 4 => some BT470M | 5 => some BT470BG | 6 => some ST170M | 7 => some ST240M | 8 => some Film
  | 9 => some BT2020 | 10 => some ST428 | 11 => some P3DCI | 12 => some P3Display | 22 => some Tech3213
  | _ => none

/-- pixel.rs:289-308 (the text written) -/
def display : ColorPrimaries → String
  | Reserved0 => "Identity" | BT709 => "ITU BT.709" | Unspecified => "Unspecified"
  | Reserved => "Reserved" | BT470M => "ITU BT.470M" | BT470BG => "ITU BT.470BG"
  | ST170M => "SMPTE ST-170M" | ST240M => "SMPTE ST-240M" | Film => "Film" | BT2020 => "ITU BT.2020"
  | ST428 => "SMPTE ST-428" | P3DCI => "DCI P3" | P3Display => "Display P3"
  | Tech3213 => "EBU Tech3213"

end ColorPrimaries

/-- pixel.rs:319-398 -/
inductive TransferCharacteristic
  | Reserved0 | BT1886 | Unspecified | Reserved | BT470M | BT470BG | ST170M | ST240M | Linear
  | Logarithmic100 | Logarithmic316 | XVYCC | BT1361E | SRGB | BT2020Ten | BT2020Twelve
  | PerceptualQuantizer | ST428 | HybridLogGamma
  deriving DecidableEq, Repr

namespace TransferCharacteristic

/-- `ToPrimitive::to_u32`: the discriminant, pixel.rs:319-398 -/
def toU32 : TransferCharacteristic → Nat
  | Reserved0 => 0 | BT1886 => 1 | Unspecified => 2 | Reserved => 3 | BT470M => 4 | BT470BG => 5
  | ST170M => 6 | ST240M => 7 | Linear => 8 | Logarithmic100 => 9 | Logarithmic316 => 10 | XVYCC => 11
  | BT1361E => 12 | SRGB => 13 | BT2020Ten => 14 | BT2020Twelve => 15 | PerceptualQuantizer => 16
  | ST428 => 17 | HybridLogGamma => 18

/-- `FromPrimitive::from_u32` (derived): the value with that discriminant, pixel.rs:319-398 -/
def fromU32 : Nat → Option TransferCharacteristic
  | 0 => some Reserved0 | 1 => some BT1886 | 2 => some Unspecified | 3 => some Reserved
  | 4 => some BT470M | 5 => some BT470BG | 6 => some ST170M | 7 => some ST240M | 8 => some Linear
  | 9 => some Logarithmic100 | 10 => some Logarithmic316 | 11 => some XVYCC | 12 => some BT1361E
  | 13 => some SRGB | 14 => some BT2020Ten | 15 => some BT2020Twelve | 16 => some PerceptualQuantizer
  | 17 => some ST428 | 18 => some HybridLogGamma | _ => none

/-- pixel.rs:400-424 (the text written) -/
def display : TransferCharacteristic → String
  | Reserved0 => "Identity" | BT1886 => "ITU BT.1886" | Unspecified => "Unspecified"
  | Reserved => "Reserved" | BT470M => "ITU BT.470M" | BT470BG => "ITU BT.470BG"
  | ST170M => "SMPTE ST-170M" | ST240M => "SMPTE ST-240M" | Linear => "Linear"
  | Logarithmic100 => "Logarithmic 100:1 range" | Logarithmic316 => "Logarithmic 316:1 range"
  | XVYCC => "XVYCC" | BT1361E => "ITU BT.1361 Extended Color Gamut" | SRGB => "sRGB"
  | BT2020Ten => "ITU BT.2020 for 10bit systems" | BT2020Twelve => "ITU BT.2020 for 12bit systems"
  | PerceptualQuantizer => "Perceptual Quantizer" | ST428 => "SMPTE ST-428"
  | HybridLogGamma => "Hybrid Log-Gamma"

end TransferCharacteristic

/-- pixel.rs:433-441 -/
inductive ChromaLocation
  | Unspecified | Left | Center | TopLeft | Top | BottomLeft | Bottom
  deriving DecidableEq, Repr

/-- pixel.rs:443-456 (the text written) -/
def ChromaLocation.display : ChromaLocation → String
  | Unspecified => "Unspecified" | Left => "Left" | Center => "Center" | TopLeft => "TopLeft"
  | Top => "Top" | BottomLeft => "BottomLeft" | Bottom => "Bottom"

/-- pixel.rs:461-475 -/
inductive YUVSystem | YCbCr (range : YUVRange) | YCoCg | ICtCp
  deriving DecidableEq, Repr

/-- pixel.rs:477-486 (the text written) -/
def YUVSystem.display : YUVSystem → String
  | YCbCr range => "YCbCr (" ++ range.display ++ ")"
  | YCoCg => "YCbCg"
  | ICtCp => "ICtCp"

/-- pixel.rs:491-501 -/
inductive TrichromaticEncodingSystem | RGB | YUV (system : YUVSystem) | XYZ
  deriving DecidableEq, Repr

/-- pixel.rs:503-512 (the text written) -/
def TrichromaticEncodingSystem.display : TrichromaticEncodingSystem → String
  | YUV system => system.display
  | RGB => "RGB"
  | XYZ => "XYZ"

/-- pixel.rs:517-532 -/
inductive ColorModel | Trichromatic (system : TrichromaticEncodingSystem) | CMYK | HSV | LAB
  deriving DecidableEq, Repr

/-- pixel.rs:534-543 (the text written) -/
def ColorModel.display : ColorModel → String
  | Trichromatic system => system.display
  | CMYK => "CMYK"
  | HSV => "HSV"
  | LAB => "LAB"

/-- pixel.rs:547-552 -/
def ColorModel.getDefaultComponents : ColorModel → Nat
  | CMYK => 4
  | _ => 3

/-- pixel.rs:560-577 -/
structure Chromaton where
  h_ss : Nat
  v_ss : Nat
  packed : Bool
  depth : Nat
  shift : Nat
  comp_offs : Nat
  next_elem : Nat
  deriving DecidableEq, Repr

namespace Chromaton

/-- pixel.rs:585-603 -/
def new (h_ss v_ss : Nat) (packed : Bool) (depth shift comp_offs next_elem : Nat) : Chromaton :=
  { h_ss, v_ss, packed, depth, shift, comp_offs, next_elem }

/-- pixel.rs:606-608 -/
def yuv8 (h_ss v_ss comp_offs : Nat) : Chromaton := new h_ss v_ss false 8 0 comp_offs 1

/-- pixel.rs:611-613 -/
def yuvhb (h_ss v_ss depth comp_offs : Nat) : Chromaton := new h_ss v_ss false depth 0 comp_offs 1

/-- pixel.rs:616-618 -/
def packrgb (depth shift comp_offs next_elem : Nat) : Chromaton :=
  new 0 0 true depth shift comp_offs next_elem

/-- pixel.rs:621-623 -/
def pal8 (comp_offs : Nat) : Chromaton := new 0 0 true 8 0 comp_offs 3

/-- pixel.rs:626-628 -/
def getSubsampling (c : Chromaton) : Nat × Nat := (c.h_ss, c.v_ss)
/-- pixel.rs:631-633 -/
def isPacked (c : Chromaton) : Bool := c.packed
/-- pixel.rs:636-638 -/
def getDepth (c : Chromaton) : Nat := c.depth
/-- pixel.rs:641-643 -/
def getShift (c : Chromaton) : Nat := c.shift
/-- pixel.rs:646-648 -/
def getOffset (c : Chromaton) : Nat := c.comp_offs
/-- pixel.rs:651-653 -/
def getStep (c : Chromaton) : Nat := c.next_elem

/-- `(v + ((1 << ss) - 1)) >> ss`, the expression of pixel.rs:657, 662 and 674 -/
def subsampled (v ss : Nat) : Rust Nat := do
  let m ← usub (← ushl 1 ss) 1
  ushr (← uadd v m) ss

/-- pixel.rs:656-658 -/
def getWidth (c : Chromaton) (width : Nat) : Rust Nat := subsampled width c.h_ss

/-- pixel.rs:661-663 -/
def getHeight (c : Chromaton) (height : Nat) : Rust Nat := subsampled height c.v_ss

/-- pixel.rs:666-669 -/
def getLinesize (c : Chromaton) (width alignment : Nat) : Rust Nat := do
  let d := c.depth
  let bits ← usub (← uadd (← umul (← c.getWidth width) d) d) 1
  align (← ushr bits 3) alignment

/-- pixel.rs:673-676 -/
def getDataSize (c : Chromaton) (width height align : Nat) : Rust Nat := do
  let nh ← subsampled height c.v_ss
  umul (← c.getLinesize width align) nh

/-- `{:X}` (pixel.rs:684) -/
def hexUpper (n : Nat) : String := String.ofList ((Nat.toDigits 16 n).map Char.toUpper)

/-- pixel.rs:682: `((1 << depth) - 1) << shift` on `i32`. Shifting by 32 or more panics; `1 << 31` is the
least `i32` and subtracting one from it overflows. -/
def mask (c : Chromaton) : Rust Nat :=
  if c.depth ≥ 32 then .error .shift
  else if c.depth = 31 then .error .overflow
  else if c.shift ≥ 32 then .error .shift
  else .ok ((2 ^ c.depth - 1) * 2 ^ c.shift % 2 ^ 32)

/-- pixel.rs:679-692 (the text written) -/
def display (c : Chromaton) : Rust String := do
  let pfmt ← (if c.packed then do
      let mask ← c.mask
      return "packed(+" ++ toString c.comp_offs ++ "," ++ hexUpper mask ++ ", step " ++
        toString c.next_elem ++ ")"
    else .ok ("planar(" ++ toString c.comp_offs ++ "," ++ toString c.next_elem ++ ")"))
  return "(" ++ toString c.h_ss ++ "x" ++ toString c.v_ss ++ ", " ++ pfmt ++ ")"

end Chromaton

/-- pixel.rs:701-725 -/
structure Formaton where
  model : ColorModel
  primaries : ColorPrimaries
  xfer : TransferCharacteristic
  matrix : MatrixCoefficients
  chroma_location : ChromaLocation
  components : Nat
  comp_info : List (Option Chromaton)
  elem_size : Nat
  be : Bool
  alpha : Bool
  palette : Bool
  deriving DecidableEq, Repr

namespace Formaton

/-- `c[i] = v` (pixel.rs:743-745) -/
def setIdx (c : List α) (i : Nat) (v : α) : Rust (List α) :=
  if i < c.length then .ok (c.set i v) else .error .index

/-- pixel.rs:743-745: the loop from index `i` -/
def storeFrom : Nat → List Chromaton → List (Option Chromaton) → Rust (List (Option Chromaton))
  | _, [], c => .ok c
  | i, v :: vs, c => do storeFrom (i + 1) vs (← setIdx c i (some v))

/-- pixel.rs:729-762 -/
def new (model : ColorModel) (components : List Chromaton) (elem_size : Nat) (be alpha palette : Bool) :
    Rust Formaton :=
  if components.length > 5 then .error .explicit
  else do
    let c ← storeFrom 0 components (List.replicate 5 none)
    return {
      model
      primaries := .Unspecified
      xfer := .Unspecified
      matrix := .Unspecified
      chroma_location := .Unspecified
      components := components.length % 256
      comp_info := c
      elem_size, be, alpha, palette }

/-- pixel.rs:777-779 -/
def sumDepth : Nat → List (Option Chromaton) → Rust Nat
  | d, [] => .ok d
  | d, none :: cs => sumDepth d cs
  | d, some c :: cs => if d + c.depth < 256 then sumDepth (d + c.depth) cs else .error .overflow

/-- pixel.rs:775-781; the sum is a `u8` -/
def getTotalDepth (f : Formaton) : Rust Nat := sumDepth 0 f.comp_info

/-- pixel.rs:770-772 -/
def getPrimaries (f : Formaton) : ColorPrimaries := f.primaries
/-- pixel.rs:798-800 -/
def getXfer (f : Formaton) : TransferCharacteristic := f.xfer
/-- pixel.rs:817-819 -/
def getMatrix (f : Formaton) : MatrixCoefficients := f.matrix

/-- A call of a method taking `mut self` on a variable of a `Copy` type: the method works on a copy; the
result is that of the method and the variable afterwards (pixel.rs:784-786 and the setters after it). -/
def byValue (f : Formaton) (method : Formaton → α × Formaton) : α × Formaton :=
  let (r, _copy) := method f
  (r, f)

/-- pixel.rs:784-786: the caller's variable after the call -/
def setPrimaries (f : Formaton) (pc : ColorPrimaries) : Unit × Formaton :=
  byValue f fun self => ((), { self with primaries := pc })

/-- pixel.rs:789-795 -/
def setPrimariesFromU32 (f : Formaton) (pc : Nat) : Option ColorPrimaries × Formaton :=
  byValue f fun self =>
    match ColorPrimaries.fromU32 pc with
    | some pc => (some pc, { self with primaries := pc })
    | none => (none, self)

/-- pixel.rs:803-805 -/
def setXfer (f : Formaton) (tc : TransferCharacteristic) : Unit × Formaton :=
  byValue f fun self => ((), { self with xfer := tc })

/-- pixel.rs:808-814 -/
def setXferFromU32 (f : Formaton) (tc : Nat) : Option TransferCharacteristic × Formaton :=
  byValue f fun self =>
    match TransferCharacteristic.fromU32 tc with
    | some tc => (some tc, { self with xfer := tc })
    | none => (none, self)

/-- pixel.rs:822-824 -/
def setMatrix (f : Formaton) (mc : MatrixCoefficients) : Unit × Formaton :=
  byValue f fun self => ((), { self with matrix := mc })

/-- pixel.rs:827-833 -/
def setMatrixFromU32 (f : Formaton) (mc : Nat) : Option MatrixCoefficients × Formaton :=
  byValue f fun self =>
    match MatrixCoefficients.fromU32 mc with
    | some mc => (some mc, { self with matrix := mc })
    | none => (none, self)

/-- pixel.rs:836-838 -/
def getNumComp (f : Formaton) : Nat := f.components

/-- pixel.rs:840-845 -/
def getChromaton (f : Formaton) (i : Nat) : Rust (Option Chromaton) :=
  if i < f.comp_info.length then idx f.comp_info i else .ok none

/-- pixel.rs:765-767 -/
def getModel (f : Formaton) : ColorModel := f.model
/-- pixel.rs:848-850 -/
def isBe (f : Formaton) : Bool := f.be
/-- pixel.rs:853-855 -/
def hasAlpha (f : Formaton) : Bool := f.alpha
/-- pixel.rs:858-860 -/
def isPaletted (f : Formaton) : Bool := f.palette
/-- pixel.rs:863-865 -/
def getElemSize (f : Formaton) : Nat := f.elem_size
/-- pixel.rs:868-870, and `into_iter`, pixel.rs:881-888: the items of the iterator -/
def iter (f : Formaton) : List (Option Chromaton) := f.comp_info

/-- pixel.rs:873-879 -/
def index (f : Formaton) (i : Nat) : Rust (Option Chromaton) := idx f.comp_info i

/-- pixel.rs:899-903: the loop -/
def displayComps : String → List (Option Chromaton) → Rust String
  | str, [] => .ok str
  | str, none :: cs => displayComps str cs
  | str, some chr :: cs => do displayComps (str ++ " " ++ (← chr.display)) cs

/-- pixel.rs:890-906 (the text written) -/
def display (f : Formaton) : Rust String := do
  let «end» := if f.be then "BE" else "LE"
  let palstr := if f.palette then "palette " else ""
  let astr := if f.alpha then "alpha " else ""
  let str := "Formaton for " ++ f.model.display ++ " (" ++ palstr ++ astr ++ "elem " ++ «end» ++ " size " ++
    toString f.elem_size ++ "): "
  return "[" ++ (← displayComps str f.comp_info) ++ "]"

end Formaton

/-! ### predefined formats -/

namespace formats

/-- pixel.rs:920-938 -/
def YUV444 : Formaton :=
  { model := .Trichromatic (.YUV (.YCbCr .Limited)), primaries := .Unspecified, xfer := .Unspecified
    matrix := .Unspecified, chroma_location := .Unspecified, components := 3
    comp_info := [some (.new 0 0 false 8 0 0 1), some (.yuv8 0 0 1), some (.yuv8 0 0 2), none, none]
    elem_size := 0, be := false, alpha := false, palette := false }

/-- pixel.rs:941-959 -/
def YUV422 : Formaton :=
  { model := .Trichromatic (.YUV (.YCbCr .Limited)), primaries := .Unspecified, xfer := .Unspecified
    matrix := .Unspecified, chroma_location := .Unspecified, components := 3
    comp_info := [some (.new 0 0 false 8 0 0 1), some (.yuv8 0 1 1), some (.yuv8 0 1 2), none, none]
    elem_size := 0, be := false, alpha := false, palette := false }

/-- pixel.rs:962-980 -/
def YUV420 : Formaton :=
  { model := .Trichromatic (.YUV (.YCbCr .Limited)), primaries := .Unspecified, xfer := .Unspecified
    matrix := .Unspecified, chroma_location := .Unspecified, components := 3
    comp_info := [some (.new 0 0 false 8 0 0 1), some (.yuv8 1 1 1), some (.yuv8 1 1 2), none, none]
    elem_size := 0, be := false, alpha := false, palette := false }

/-- pixel.rs:983-1001 -/
def YUV411 : Formaton :=
  { model := .Trichromatic (.YUV (.YCbCr .Limited)), primaries := .Unspecified, xfer := .Unspecified
    matrix := .Unspecified, chroma_location := .Unspecified, components := 3
    comp_info := [some (.new 0 0 false 8 0 0 1), some (.yuv8 2 0 1), some (.yuv8 2 0 2), none, none]
    elem_size := 0, be := false, alpha := false, palette := false }

/-- pixel.rs:1004-1022 -/
def YUV410 : Formaton :=
  { model := .Trichromatic (.YUV (.YCbCr .Limited)), primaries := .Unspecified, xfer := .Unspecified
    matrix := .Unspecified, chroma_location := .Unspecified, components := 3
    comp_info := [some (.new 0 0 false 8 0 0 1), some (.yuv8 2 1 1), some (.yuv8 2 1 2), none, none]
    elem_size := 0, be := false, alpha := false, palette := false }

/-- pixel.rs:1025-1043 -/
def YUV444_10 : Formaton :=
  { model := .Trichromatic (.YUV (.YCbCr .Limited)), primaries := .Unspecified, xfer := .Unspecified
    matrix := .Unspecified, chroma_location := .Unspecified, components := 3
    comp_info := [some (.new 0 0 false 10 0 0 1), some (.yuvhb 0 0 1 10), some (.yuvhb 0 0 2 10), none, none]
    elem_size := 0, be := false, alpha := false, palette := false }

/-- pixel.rs:1046-1064 -/
def YUV422_10 : Formaton :=
  { model := .Trichromatic (.YUV (.YCbCr .Limited)), primaries := .Unspecified, xfer := .Unspecified
    matrix := .Unspecified, chroma_location := .Unspecified, components := 3
    comp_info := [some (.new 0 0 false 10 0 0 1), some (.yuvhb 0 1 1 10), some (.yuvhb 0 1 2 10), none, none]
    elem_size := 0, be := false, alpha := false, palette := false }

/-- pixel.rs:1067-1085 -/
def YUV420_10 : Formaton :=
  { model := .Trichromatic (.YUV (.YCbCr .Limited)), primaries := .Unspecified, xfer := .Unspecified
    matrix := .Unspecified, chroma_location := .Unspecified, components := 3
    comp_info := [some (.new 0 0 false 10 0 0 1), some (.yuvhb 1 1 1 10), some (.yuvhb 1 1 2 10), none, none]
    elem_size := 0, be := false, alpha := false, palette := false }

/-- pixel.rs:1088-1106 -/
def YUV411_10 : Formaton :=
  { model := .Trichromatic (.YUV (.YCbCr .Limited)), primaries := .Unspecified, xfer := .Unspecified
    matrix := .Unspecified, chroma_location := .Unspecified, components := 3
    comp_info := [some (.new 0 0 false 10 0 0 1), some (.yuvhb 2 0 1 10), some (.yuvhb 2 0 2 10), none, none]
    elem_size := 0, be := false, alpha := false, palette := false }

/-- pixel.rs:1109-1127 -/
def YUV410_10 : Formaton :=
  { model := .Trichromatic (.YUV (.YCbCr .Limited)), primaries := .Unspecified, xfer := .Unspecified
    matrix := .Unspecified, chroma_location := .Unspecified, components := 3
    comp_info := [some (.new 0 0 false 10 0 0 1), some (.yuvhb 2 1 1 10), some (.yuvhb 2 1 2 10), none, none]
    elem_size := 0, be := false, alpha := false, palette := false }

/-- pixel.rs:1130-1148 -/
def PAL8 : Formaton :=
  { model := .Trichromatic .RGB, primaries := .Unspecified, xfer := .Unspecified
    matrix := .Unspecified, chroma_location := .Unspecified, components := 3
    comp_info := [some (.pal8 0), some (.pal8 1), some (.pal8 2), none, none]
    elem_size := 3, be := false, alpha := false, palette := true }

/-- pixel.rs:1151-1169 -/
def RGB565 : Formaton :=
  { model := .Trichromatic .RGB, primaries := .Unspecified, xfer := .Unspecified
    matrix := .Unspecified, chroma_location := .Unspecified, components := 3
    comp_info := [some (.packrgb 5 11 0 2), some (.packrgb 6 5 0 2), some (.packrgb 5 0 0 2), none, none]
    elem_size := 2, be := false, alpha := false, palette := false }

/-- pixel.rs:1172-1190 -/
def RGB24 : Formaton :=
  { model := .Trichromatic .RGB, primaries := .Unspecified, xfer := .Unspecified
    matrix := .Unspecified, chroma_location := .Unspecified, components := 3
    comp_info := [some (.packrgb 8 0 2 3), some (.packrgb 8 0 1 3), some (.packrgb 8 0 0 3), none, none]
    elem_size := 3, be := false, alpha := false, palette := false }

/-- pixel.rs:1193-1211 -/
def RGBA : Formaton :=
  { model := .Trichromatic .RGB, primaries := .Unspecified, xfer := .Unspecified
    matrix := .Unspecified, chroma_location := .Unspecified, components := 4
    comp_info := [some (.packrgb 8 0 3 4), some (.packrgb 8 0 2 4), some (.packrgb 8 0 1 4), some (.packrgb 8 0 0 4), none]
    elem_size := 4, be := false, alpha := true, palette := false }

/-- pixel.rs:1214-1232 -/
def RGB48 : Formaton :=
  { model := .Trichromatic .RGB, primaries := .Unspecified, xfer := .Unspecified
    matrix := .Unspecified, chroma_location := .Unspecified, components := 3
    comp_info := [some (.packrgb 16 0 2 6), some (.packrgb 16 0 1 6), some (.packrgb 16 0 0 6), none, none]
    elem_size := 6, be := false, alpha := false, palette := false }

/-- pixel.rs:1235-1253 -/
def RGBA64 : Formaton :=
  { model := .Trichromatic .RGB, primaries := .Unspecified, xfer := .Unspecified
    matrix := .Unspecified, chroma_location := .Unspecified, components := 4
    comp_info := [some (.packrgb 16 0 3 8), some (.packrgb 16 0 2 8), some (.packrgb 16 0 1 8), some (.packrgb 16 0 0 8), none]
    elem_size := 8, be := false, alpha := true, palette := false }

end formats

end Verif.Pixel
