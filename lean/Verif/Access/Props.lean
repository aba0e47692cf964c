import Verif.Pixel.Props
import Verif.Stream.Model
import Verif.Packet.Model
import Verif.Demux.Model
import Verif.Mux.Model

/-! # C78, C80: constructors, accessors, setters -/

namespace Verif.Access
open Verif Verif.Pixel Verif.Audio Verif.Frame

/-- **C78**, video descriptions. The constructor succeeds exactly if the depths of the components add up to a
`u8`, and every accessor then gives what was passed. -/
theorem c78_video (w h : Nat) (fl : Bool) (ft : FrameType) (f : Formaton) :
    ((depths f).sum < 256 → ∃ v, VideoInfo.new w h fl ft f = .ok v ∧ v.getWidth = w ∧ v.getHeight = h ∧
      v.isFlipped = fl ∧ v.getFrameType = ft ∧ v.getFormat = f ∧ v.bits = (depths f).sum) ∧
    (256 ≤ (depths f).sum → VideoInfo.new w h fl ft f = .error .overflow) := by
  obtain ⟨h1, h2⟩ := c63_total_partial f
  constructor
  · intro hs
    refine ⟨⟨w, h, fl, ft, f, (depths f).sum⟩, ?_, rfl, rfl, rfl, rfl, rfl, rfl⟩
    simp only [VideoInfo.new, h1 hs, ok_bind, pure_eq_ok]
  · intro hs
    simp only [VideoInfo.new, h2 hs, error_bind]

/-- **C78**, video setters: each changes its own dimension and nothing else. -/
theorem c78_video_setters (v : VideoInfo) (n : Nat) :
    ((v.setWidth n).getWidth = n ∧ (v.setWidth n).getHeight = v.getHeight ∧ (v.setWidth n).isFlipped = v.isFlipped ∧
      (v.setWidth n).getFrameType = v.getFrameType ∧ (v.setWidth n).getFormat = v.getFormat ∧
      (v.setWidth n).bits = v.bits) ∧
    ((v.setHeight n).getHeight = n ∧ (v.setHeight n).getWidth = v.getWidth ∧ (v.setHeight n).isFlipped = v.isFlipped ∧
      (v.setHeight n).getFrameType = v.getFrameType ∧ (v.setHeight n).getFormat = v.getFormat ∧
      (v.setHeight n).bits = v.bits) :=
  ⟨⟨rfl, rfl, rfl, rfl, rfl, rfl⟩, ⟨rfl, rfl, rfl, rfl, rfl, rfl⟩⟩

example : ∃ v, VideoInfo.new 640 480 true .P formats.YUV420 = .ok v ∧ v.bits = 24 ∧ (v.setWidth 320).getWidth = 320 ∧
    (v.setWidth 320).getHeight = 480 := ⟨_, rfl, by decide⟩

/-- **C78**, audio descriptions. -/
theorem c78_audio (n r : Nat) (m : ChannelMap) (f : Soniton) (b : Option Nat) :
    let a := AudioInfo.new n r m f b
    a.getSamples = n ∧ a.getSampleRate = r ∧ a.getFormat = f ∧ a.getBlockLen = b ∧ a.map = m ∧
    a.getChannelsNumber = m.ids.length :=
  ⟨rfl, rfl, rfl, rfl, rfl, rfl⟩

/-- **C78**, sample formats. -/
theorem c78_soniton (bits : Nat) (be packed planar float signed : Bool) :
    let f := Soniton.new bits be packed planar float signed
    f.bits = bits ∧ f.be = be ∧ f.packed = packed ∧ f.planar = planar ∧ f.float = float ∧ f.signed = signed :=
  ⟨rfl, rfl, rfl, rfl, rfl, rfl⟩

/-- **C78**, components: what the general and the special constructors give. -/
theorem c78_chromaton (hs vs : Nat) (p : Bool) (d s o n : Nat) :
    (let c := Chromaton.new hs vs p d s o n
     c.getSubsampling = (hs, vs) ∧ c.isPacked = p ∧ c.getDepth = d ∧ c.getShift = s ∧ c.getOffset = o ∧ c.getStep = n) ∧
    (let c := Chromaton.yuv8 hs vs o
     c.getSubsampling = (hs, vs) ∧ c.isPacked = false ∧ c.getDepth = 8 ∧ c.getShift = 0 ∧ c.getOffset = o ∧
      c.getStep = 1) ∧
    (let c := Chromaton.yuvhb hs vs d o
     c.getSubsampling = (hs, vs) ∧ c.isPacked = false ∧ c.getDepth = d ∧ c.getShift = 0 ∧ c.getOffset = o ∧
      c.getStep = 1) ∧
    (let c := Chromaton.packrgb d s o n
     c.getSubsampling = (0, 0) ∧ c.isPacked = true ∧ c.getDepth = d ∧ c.getShift = s ∧ c.getOffset = o ∧
      c.getStep = n) ∧
    (let c := Chromaton.pal8 o
     c.getSubsampling = (0, 0) ∧ c.isPacked = true ∧ c.getDepth = 8 ∧ c.getShift = 0 ∧ c.getOffset = o ∧
      c.getStep = 3) :=
  ⟨⟨rfl, rfl, rfl, rfl, rfl, rfl⟩, ⟨rfl, rfl, rfl, rfl, rfl, rfl⟩, ⟨rfl, rfl, rfl, rfl, rfl, rfl⟩,
    ⟨rfl, rfl, rfl, rfl, rfl, rfl⟩, ⟨rfl, rfl, rfl, rfl, rfl, rfl⟩⟩

/-- **C78**, pixel formats: accessors of a constructed format. The iterator gives five entries, the components in
order and then nothing; indexing and `get_chromaton` give the same entries, and behind the fifth one
indexing panics where `get_chromaton` gives none. -/
theorem c78_formaton (model : ColorModel) (cs : List Chromaton) (es : Nat) (be al pa : Bool) (f : Formaton)
    (h : Formaton.new model cs es be al pa = .ok f) :
    f.getModel = model ∧ f.getElemSize = es ∧ f.isBe = be ∧ f.hasAlpha = al ∧ f.isPaletted = pa ∧
    f.getPrimaries = .Unspecified ∧ f.getXfer = .Unspecified ∧ f.getMatrix = .Unspecified ∧
    f.iter.length = 5 ∧ f.iter.filterMap id = cs ∧
    (∀ i, i < 5 → f.index i = .ok cs[i]? ∧ f.getChromaton i = .ok cs[i]?) ∧
    (∀ i, 5 ≤ i → f.index i = .error .index ∧ f.getChromaton i = .ok none) := by
  obtain ⟨h1, h2⟩ := c62_new model cs es be al pa
  by_cases hl : 5 < cs.length
  · rw [h1 hl] at h; cases h
  · obtain ⟨g, hg, g1, g2, g3, rfl, rfl, rfl, rfl, rfl, g4, g5, g6, g7⟩ := h2 (by omega)
    rw [h] at hg
    cases hg
    have hidx : ∀ i, i < 5 → f.index i = .ok cs[i]? := by
      intro i hi
      have := g3 i
      rw [Formaton.getChromaton, if_pos (by omega)] at this
      exact this
    have hget : ∀ i : Nat, i < 5 → f.comp_info[i]? = some cs[i]? := by
      intro i hi
      have := hidx i hi
      rw [Formaton.index, idx_ok (by omega)] at this
      rw [List.getElem?_eq_getElem (by omega), Except.ok.inj this]
    refine ⟨rfl, rfl, rfl, rfl, rfl, g4, g5, g6, g2, ?_, fun i hi => ⟨hidx i hi, g3 i⟩, fun i hi => ⟨?_, ?_⟩⟩
    · rw [Formaton.iter]
      obtain ⟨a, b, c, d, e, hL⟩ : ∃ a b c d e, f.comp_info = [a, b, c, d, e] := by
        match hm : f.comp_info, g2 with
        | [a, b, c, d, e], _ => exact ⟨a, b, c, d, e, rfl⟩
      rw [hL] at hget ⊢
      have i0 := hget 0 (by omega)
      have i1 := hget 1 (by omega)
      have i2 := hget 2 (by omega)
      have i3 := hget 3 (by omega)
      have i4 := hget 4 (by omega)
      simp only [List.getElem?_cons_zero, List.getElem?_cons_succ, Option.some.injEq] at i0 i1 i2 i3 i4
      subst i0 i1 i2 i3 i4
      match cs, hl with
      | [], _ => rfl
      | [_], _ => rfl
      | [_, _], _ => rfl
      | [_, _, _], _ => rfl
      | [_, _, _, _], _ => rfl
      | [_, _, _, _, _], _ => rfl
      | _ :: _ :: _ :: _ :: _ :: _ :: _, hl => simp at hl
    · rw [Formaton.index, idx]
      simp [List.getElem?_eq_none (show f.comp_info.length ≤ i by omega)]
    · rw [Formaton.getChromaton, if_neg (by omega)]

example : ∃ f, Formaton.new (.Trichromatic .RGB) [.packrgb 8 0 0 3, .packrgb 8 0 1 3, .packrgb 8 0 2 3] 3 false false false = .ok f ∧
    f.index 1 = .ok (some (.packrgb 8 0 1 3)) ∧ f.index 3 = .ok none := ⟨_, rfl, by decide⟩

/-- **C78**, streams and packets. -/
theorem c78_stream (p : Stream.CodecParams) (tb : Rational64) (n : Nat) :
    (let s := Stream.Stream.fromParams p tb
     s.params = p ∧ s.timebase = tb ∧ s.id = -1 ∧ s.index = 0 ∧ s.start = none ∧ s.duration = none ∧
      s.user_private = none ∧ s.getExtradata = p.extradata) ∧
    (Packet.withCapacity n = Packet.new) ∧
    (let k := Packet.new
     k.data = [] ∧ k.pos = none ∧ k.stream_index = -1 ∧ k.is_key = false ∧ k.is_corrupted = false ∧
      k.t.pts = none ∧ k.t.dts = none ∧ k.t.duration = none ∧ k.t.timebase = none ∧ k.t.user_private = none) ∧
    (Packet.zeroed n).data.length = n ∧ (∀ b ∈ (Packet.zeroed n).data, b = 0) ∧
    { Packet.zeroed n with data := [] } = Packet.new := by
  refine ⟨⟨rfl, rfl, rfl, rfl, rfl, rfl, rfl, rfl⟩, rfl, ⟨rfl, rfl, rfl, rfl, rfl, rfl, rfl, rfl, rfl, rfl⟩, ?_, ?_, rfl⟩
  · simp [Packet.zeroed]
  · intro b hb
    exact (List.mem_replicate.1 hb).2

example : (Packet.zeroed 3).data = [0, 0, 0] ∧ (Packet.withCapacity 3).data = [] := by decide

/-- **C78**, contexts: a new one holds what was passed and nothing else. -/
theorem c78_contexts {D R M W : Type} (d : D) (r : R) (m : M) (s : W) :
    (let c := Demux.Context.new d r
     c.demuxer = d ∧ c.reader = r ∧ c.info.duration = none ∧ c.info.timebase = none ∧ c.info.streams = [] ∧
      c.user_private = none) ∧
    (let c := Mux.Context.new m (Mux.Writer.new s)
     c.muxer = m ∧ c.intoWriter.writer = s ∧ c.intoWriter.position = 0 ∧ c.user_private = none) :=
  ⟨⟨rfl, rfl, rfl, rfl, rfl, rfl⟩, ⟨rfl, rfl, rfl, rfl⟩⟩

/-! ### C80 -/

/-- **C80** fails: the derived default says stream 0, `new` says no stream. -/
theorem c80_fails : Packet.default ≠ Packet.new ∧ Packet.default.stream_index = 0 ∧ Packet.new.stream_index = -1 := by
  decide

/-- **C80**, partial: in full, `Packet::default() = Packet::new()`. That holds but for the stream index. -/
theorem c80_default_partial : { Packet.default with stream_index := -1 } = Packet.new := rfl

example : Packet.default.data = [] ∧ Packet.default.pos = none ∧ Packet.default.is_key = false := by decide

end Verif.Access
