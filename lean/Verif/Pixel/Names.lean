import Verif.Pixel.Props
import Verif.Audio.Props
import Verif.Frame.Props

/-!
# C146: texts name what they stand for

The texts of the code points are compared with the documents that the library's comments name for the code numbers
(tables 2 to 4 of ITU-T H.273), and the texts of the remaining enumerations with the names in order of declaration.
-/

namespace Verif.Pixel
open Verif

/-- A phrase occurs in a text. -/
def occurs (phrase text : List Char) : Bool :=
  match text with
  | [] => phrase.isEmpty
  | _ :: r => phrase.isPrefixOf text || occurs phrase r

/-- The text contains all phrases of one of the alternatives. -/
def Mentions (alternatives : List (List String)) (text : String) : Prop :=
  ∃ a ∈ alternatives, ∀ p ∈ a, occurs p.toList text.toList = true

instance (a : List (List String)) (t : String) : Decidable (Mentions a t) :=
  inferInstanceAs (Decidable (∃ _ ∈ _, ∀ _ ∈ _, _))

/-- What the matrix coefficients of a number are called, by the comments on pixel.rs:43-165 (any one alternative). -/
def matrixNames : List (Nat × List (List String)) :=
  [(0, [["Identity"]]), (1, [["BT.709"], ["BT.1361"], ["RP 177"]]), (2, [["Unspecified"]]), (3, [["Reserved"]]),
   (4, [["BT.470M"], ["FCC"], ["73.682"]]), (5, [["BT.470BG"], ["BT.601", "625"], ["BT.1700", "PAL"], ["sYCC"]]),
   (6, [["BT.601", "525"], ["BT.1700", "NTSC"], ["ST-170M"]]), (7, [["ST-240M"]]), (8, [["YCgCo"]]),
   (9, [["BT.2020", "Non Constant"]]), (10, [["BT.2020", "(Constant"]]), (11, [["ST-2085"]]),
   (12, [["Chromaticity Derived", "Non Constant"]]), (13, [["Chromaticity Derived", "(Constant"]]), (14, [["ICtCp"]]),
   (15, [["IPT-C2"], ["PQ-C2"]]), (16, [["YCgCo-Re"]]), (17, [["YCgCo-Ro"]])]

/-- What the primaries of a number are called, by the comments on pixel.rs:212-287. Numbers 11, 12 and 22 are known as
DCI P3, Display P3 and EBU Tech 3213. -/
def primariesNames : List (Nat × List (List String)) :=
  [(0, [["Reserved"]]), (1, [["BT.709"], ["BT.1361"], ["sRGB"], ["RP 177"]]), (2, [["Unspecified"]]),
   (3, [["Reserved"]]), (4, [["BT.470M"], ["FCC"], ["73.682"]]),
   (5, [["BT.470BG"], ["BT.601", "625"], ["BT.1700", "PAL"]]), (6, [["BT.601", "525"], ["BT.1700", "NTSC"], ["ST-170M"]]),
   (7, [["ST-240M"]]), (8, [["Film"]]), (9, [["BT.2020"], ["BT.2100"]]), (10, [["ST-428"]]), (11, [["RP 431"], ["DCI P3"]]),
   (12, [["EG 432"], ["Display P3"]]), (22, [["Tech3213"]])]

/-- What the transfer characteristic of a number is called, by the comments on pixel.rs:320-398. -/
def transferNames : List (Nat × List (List String)) :=
  [(0, [["Reserved"]]), (1, [["BT.709"], ["BT.1361", "Conventional"]]), (2, [["Unspecified"]]), (3, [["Reserved"]]),
   (4, [["BT.470M"], ["FCC"], ["73.682"], ["BT.1700", "PAL"]]), (5, [["BT.470BG"]]),
   (6, [["BT.601"], ["BT.1358"], ["BT.1700", "NTSC"], ["ST-170M"]]), (7, [["ST-240M"]]), (8, [["Linear"]]),
   (9, [["Logarithmic", "100:1"]]), (10, [["Logarithmic", "316:1"]]), (11, [["61966-2-4"], ["XVYCC"]]),
   (12, [["BT.1361", "Extended"]]), (13, [["sRGB"], ["sYCC"]]), (14, [["BT.2020", "10"]]), (15, [["BT.2020", "12"]]),
   (16, [["ST-2084"], ["Perceptual Quantizer"]]), (17, [["ST-428"]]), (18, [["STD-B67"], ["Hybrid Log-Gamma"]])]

/-- **C146**: the text of every code point mentions what is documented for its number. -/
def C146 : Prop :=
  (∀ e ∈ matrixNames, ∃ p, MatrixCoefficients.fromU32 e.1 = some p ∧ Mentions e.2 p.display) ∧
  (∀ e ∈ primariesNames, ∃ p, ColorPrimaries.fromU32 e.1 = some p ∧ Mentions e.2 p.display) ∧
  (∀ e ∈ transferNames, ∃ p, TransferCharacteristic.fromU32 e.1 = some p ∧ Mentions e.2 p.display)

/-- The tables have one entry for each code point. -/
theorem c146_tables :
    (∀ p : MatrixCoefficients, ∃ e ∈ matrixNames, MatrixCoefficients.fromU32 e.1 = some p) ∧
    (∀ p : ColorPrimaries, ∃ e ∈ primariesNames, ColorPrimaries.fromU32 e.1 = some p) ∧
    (∀ p : TransferCharacteristic, ∃ e ∈ transferNames, TransferCharacteristic.fromU32 e.1 = some p) ∧
    (matrixNames.map (·.1)).Nodup ∧ (primariesNames.map (·.1)).Nodup ∧ (transferNames.map (·.1)).Nodup := by
  refine ⟨fun p => ?_, fun p => ?_, fun p => ?_, by decide, by decide, by decide⟩ <;> cases p <;> decide +kernel

/-- **C146**, partial: C146 holds but for the two reserved numbers 0 and for transfer characteristic 1. -/
theorem c146_partial :
    (∀ e ∈ matrixNames, ∃ p, MatrixCoefficients.fromU32 e.1 = some p ∧ Mentions e.2 p.display) ∧
    (∀ e ∈ primariesNames, e.1 ≠ 0 → ∃ p, ColorPrimaries.fromU32 e.1 = some p ∧ Mentions e.2 p.display) ∧
    (∀ e ∈ transferNames, e.1 ≠ 0 → e.1 ≠ 1 →
      ∃ p, TransferCharacteristic.fromU32 e.1 = some p ∧ Mentions e.2 p.display) := by
  have key : ∀ {α : Type} (o : Option α) (d : α → String) (a : List (List String)),
      (match o with | none => false | some p => decide (Mentions a (d p))) = true → ∃ p, o = some p ∧ Mentions a (d p) := by
    intro α o d a h
    cases o with
    | none => cases h
    | some p => exact ⟨p, rfl, by simpa using h⟩
  refine ⟨fun e he => key _ _ _ ?_, fun e he h => key _ _ _ ?_, fun e he h0 h1 => key _ _ _ ?_⟩
  · revert e; decide +kernel
  · revert e; decide +kernel
  · revert e; decide +kernel

example : Mentions [["BT.2020", "10"]] TransferCharacteristic.BT2020Ten.display ∧
    ¬ Mentions [["BT.2020", "10"]] TransferCharacteristic.BT2020Twelve.display := by decide +kernel

/-- **C146** fails: transfer characteristic 1 is documented as that of BT.709 (the same as numbers 6, 14 and 15), a curve
of cameras, but shown as "ITU BT.1886", a curve of displays; the reserved numbers 0 are shown as "Identity". -/
theorem c146_fails : ¬ C146 ∧
    (∀ p, TransferCharacteristic.fromU32 1 = some p → p.display = "ITU BT.1886") ∧
    (∀ p, TransferCharacteristic.fromU32 0 = some p → p.display = "Identity") ∧
    (∀ p, ColorPrimaries.fromU32 0 = some p → p.display = "Identity") := by
  refine ⟨fun h => ?_, ?_, ?_, ?_⟩
  · obtain ⟨p, hp, hm⟩ := h.2.2 (1, [["BT.709"], ["BT.1361", "Conventional"]]) (by decide)
    cases hp
    exact absurd hm (by decide +kernel)
  · rintro p h; cases h; rfl
  · rintro p h; cases h; rfl
  · rintro p h; cases h; rfl

/-! ### the other enumerations -/

/-- Names in order of declaration, pixel.rs:428-440. -/
def locationNames : List String := ["Unspecified", "Left", "Center", "TopLeft", "Top", "BottomLeft", "Bottom"]

/-- Names in order of declaration, audiosample.rs:84-150. -/
def channelNames : List String :=
  ["C", "L", "R", "Cs", "Ls", "Rs", "Lss", "Rss", "LFE", "Lc", "Rc", "Lh", "Rh", "Ch", "LFE2", "Lw", "Rw", "Ov", "Lhs",
   "Rhs", "Chs", "Ll", "Rl", "Cl", "Lt", "Rt", "Lo", "Ro"]

/-- Names in order of declaration, frame.rs:43-57. -/
def frameTypeNames : List String := ["I", "P", "B", "Skip", "x"]

/-- **C146**: chroma locations, channels and frame types are shown under their names. -/
theorem c146_names :
    (∀ l : ChromaLocation, locationNames[l.ctorIdx]? = some l.display) ∧
    (∀ c : Audio.ChannelType, channelNames[c.ctorIdx]? = some c.display) ∧
    (∀ t : Frame.FrameType, frameTypeNames[t.ctorIdx]? = some t.display) := by
  refine ⟨fun l => ?_, fun c => ?_, fun t => ?_⟩
  · cases l <;> rfl
  · cases c <;> rfl
  · cases t <;> rfl

/-- **C146**: the text of a range says which it is, also within the text of a colour model. -/
theorem c146_range (r : YUVRange) :
    Mentions [[if r = .Full then "Full" else "Limited"]] r.display ∧
    Mentions [[if r = .Full then "Full" else "Limited"]] (ColorModel.Trichromatic (.YUV (.YCbCr r))).display ∧
    ¬ Mentions [[if r = .Full then "Limited" else "Full"]] (ColorModel.Trichromatic (.YUV (.YCbCr r))).display := by
  cases r <;> decide +kernel

example : YUVRange.Full.display = "Full range" := rfl

end Verif.Pixel
