import Verif.Text.Numeral
import Verif.Demux.Model
import Verif.Codec.Model
import Verif.Codebook.Model

/-! # C77, C79: texts of errors and of stream descriptions -/

namespace Verif.Text
open Verif

/-! ### C77 -/

/-- **C77**, muxing and demuxing errors. Texts agree exactly for equal errors and for any two wrapped I/O errors;
the cause of an error is the wrapped I/O error, if it is one. -/
theorem c77_format :
    (∀ a b : Demux.Err, a.display = b.display ↔ a = b ∨ ∃ e f, a = .Io e ∧ b = .Io f) ∧
    (∀ a : Demux.Err, ∀ e, a.source = some e ↔ a = .Io e) ∧
    (∀ e, Demux.Err.fromIo e = .Io e ∧ (Demux.Err.fromIo e).source = some e) := by
  refine ⟨?_, ?_, fun e => ⟨rfl, rfl⟩⟩
  · intro a b
    constructor
    · intro h
      have hl := congrArg String.toList h
      cases a <;> cases b <;> simp only [Demux.Err.display, String.toList_append, toList_toString] at hl
      case InvalidData.InvalidData => exact .inl rfl
      case Io.Io => exact .inr ⟨_, _, rfl, rfl⟩
      case MoreDataNeeded.MoreDataNeeded m n =>
        exact .inl (by rw [(numeral_inj (c := ' ') (d := ' ') (by decide) (by decide) hl).1])
      case InvalidData.Io | Io.InvalidData => cases hl
      case InvalidData.MoreDataNeeded | Io.MoreDataNeeded => exact (numeral_ne (by decide) hl.symm).elim
      case MoreDataNeeded.InvalidData | MoreDataNeeded.Io => exact (numeral_ne (by decide) hl).elim
    · rintro (rfl | ⟨e, f, rfl, rfl⟩)
      · rfl
      · simp only [Demux.Err.display]
  · intro a e
    cases a <;> simp [Demux.Err.source]

theorem append_left_inj (p f g : String) (h : p ++ f = p ++ g) : f = g := by
  have hl := congrArg String.toList h
  rw [String.toList_append, String.toList_append] at hl
  exact String.ext (List.append_cancel_left hl)

theorem unsupported_ne (f s : String) (hs : s.toList.head? ≠ some 'U') (h : "Unsupported feature " ++ f = s) : False := by
  apply hs
  rw [← h, String.toList_append, List.head?_append,
    show "Unsupported feature ".toList.head? = some 'U' by decide +kernel]
  rfl

/-- **C77**, coding errors: different errors have different texts. -/
theorem c77_codec (a b : Codec.Err) (h : a.display = b.display) : a = b := by
  cases a with
  | Unsupported f =>
    cases b with
    | Unsupported g =>
      exact congrArg _ (append_left_inj "Unsupported feature " f g h)
    | _ => exact (unsupported_ne f _ (by decide +kernel) h).elim
  | InvalidData | MoreDataNeeded | ConfigurationIncomplete | ConfigurationInvalid =>
    cases b with
    | Unsupported f => exact (unsupported_ne f _ (by decide +kernel) h.symm).elim
    | _ => first | rfl | exact absurd h (by decide +kernel)

/-- **C77**, frame and codebook errors. -/
theorem c77_small : (∀ a b : Frame.FrameError, a.display = b.display → a = b) ∧
    (∀ a b : Codebook.CodebookError, a.display = b.display → a = b) := by
  constructor <;> intro a b <;> cases a <;> cases b <;> decide

/-- **C77**: the texts. -/
theorem c77_texts :
    Demux.Err.InvalidData.display = "Invalid Data" ∧
    (∀ n, (Demux.Err.MoreDataNeeded n).display = toString n ++ " more bytes needed") ∧
    (∀ e, (Demux.Err.Io e).display = "I/O error") ∧
    Codec.Err.InvalidData.display = "Invalid Data" ∧
    Codec.Err.MoreDataNeeded.display = "Additional data needed" ∧
    Codec.Err.ConfigurationIncomplete.display = "Configuration Incomplete" ∧
    Codec.Err.ConfigurationInvalid.display = "Configuration Invalid" ∧
    (∀ f, (Codec.Err.Unsupported f).display = "Unsupported feature " ++ f) ∧
    Frame.FrameError.InvalidIndex.display = "Invalid Index" ∧
    Frame.FrameError.InvalidConversion.display = "Invalid Conversion" ∧
    Codebook.CodebookError.invalidCodebook.display = "Invalid Codebook" ∧
    Codebook.CodebookError.invalidCode.display = "Invalid Code" :=
  ⟨rfl, fun _ => rfl, fun _ => rfl, rfl, rfl, rfl, rfl, fun _ => rfl, rfl, rfl, rfl, rfl⟩

example : (Demux.Err.MoreDataNeeded 120).display = "120 more bytes needed" ∧
    (Codec.Err.Unsupported "lossless").display = "Unsupported feature lossless" := by decide

/-! ### C79 -/

open Frame

/-- **C79.** The text of a video description determines width and height, that of an audio description the rate
and the number of channels, and no video has the text of an audio. -/
theorem c79_texts :
    (∀ v w : VideoInfo, v.display = w.display ↔ v.getWidth = w.getWidth ∧ v.getHeight = w.getHeight) ∧
    (∀ a b : AudioInfo, a.display = b.display ↔
      a.getSampleRate = b.getSampleRate ∧ a.getChannelsNumber = b.getChannelsNumber) ∧
    (∀ (v : VideoInfo) (a : AudioInfo), (MediaKind.fromVideo v).display = v.display ∧
      (MediaKind.fromAudio a).display = a.display ∧ v.display ≠ a.display) := by
  refine ⟨fun v w => ⟨fun h => ?_, fun h => ?_⟩, fun a b => ⟨fun h => ?_, fun h => ?_⟩, fun v a => ⟨rfl, rfl, fun h => ?_⟩⟩
  · have hl := congrArg String.toList h
    simp only [VideoInfo.display, String.toList_append, toList_toString, List.append_assoc] at hl
    obtain ⟨h1, h2⟩ := numeral_inj (c := 'x') (d := 'x') (by decide) (by decide) hl
    exact ⟨h1, toDigits_inj (List.cons.inj h2).2⟩
  · simp only [VideoInfo.getWidth, VideoInfo.getHeight] at h
    simp only [VideoInfo.display, h.1, h.2]
  · have hl := congrArg String.toList h
    simp only [AudioInfo.display, String.toList_append, toList_toString, List.append_assoc] at hl
    obtain ⟨h1, h2⟩ := numeral_inj (c := ' ') (d := ' ') (by decide) (by decide) hl
    have h2 : ['H', 'z', ',', ' '] ++ _ = ['H', 'z', ',', ' '] ++ _ := (List.cons.inj h2).2
    have h2 := List.append_cancel_left h2
    exact ⟨h1, (numeral_inj (c := ' ') (d := ' ') (by decide) (by decide) h2).1⟩
  · simp only [AudioInfo.getSampleRate] at h
    simp only [AudioInfo.display, h.1, h.2]
  · have hl := congrArg String.toList h
    simp only [VideoInfo.display, AudioInfo.display, String.toList_append, toList_toString, List.append_assoc] at hl
    obtain ⟨h1, h2⟩ := numeral_inj (c := 'x') (d := ' ') (by decide) (by decide) hl
    cases (List.cons.inj h2).1

/-- **C79.** A media kind is either video or audio, and gives the description it was made from. -/
theorem c79_kinds :
    (∀ k : MediaKind, (k.isVideo = true ↔ k.isAudio = false) ∧ (k.isVideo = true ↔ k.getVideoInfo.isSome = true) ∧
      (k.isAudio = true ↔ k.getAudioInfo.isSome = true)) ∧
    (∀ (k : MediaKind) v, k.getVideoInfo = some v ↔ k = .fromVideo v) ∧
    (∀ (k : MediaKind) a, k.getAudioInfo = some a ↔ k = .fromAudio a) := by
  refine ⟨fun k => ?_, fun k v => ?_, fun k a => ?_⟩ <;> cases k <;>
    simp [MediaKind.isVideo, MediaKind.isAudio, MediaKind.getVideoInfo, MediaKind.getAudioInfo,
      MediaKind.fromVideo, MediaKind.fromAudio]

/-- **C79.** Frame type names are distinct. -/
theorem c79_frame_types (a b : FrameType) (h : a.display = b.display) : a = b := by
  revert h; cases a <;> cases b <;> decide

example : VideoInfo.display ⟨1920, 1080, false, .I, Pixel.formats.YUV420, 24⟩ = "1920x1080" ∧
    AudioInfo.display (.new 10 48000 ⟨[.L, .R]⟩ Audio.formats.S16 none) = "48000 Hz, 2 ch" := by decide

end Verif.Text
