import Verif.Frame.Lemmas
import Verif.Audio.Props

/-! # C47–C50, C58, C65, C73: frames -/

namespace Verif.Frame
open Verif Verif.Data Verif.Audio Verif.Pixel

/-- The components of a format. -/
def comps (f : Formaton) : List Chromaton := f.comp_info.filterMap id

/-! ### C47: default frames -/

/-- The plane a component gets: its stride, and that many zero bytes for each of its rows. -/
def PlaneOf (w h : Nat) (c : Chromaton) (p : Plane) : Prop :=
  c.getLinesize w 32 = .ok p.linesize ∧
    ∃ ch, c.getHeight h = .ok ch ∧ p.buf = List.replicate (p.linesize * ch) 0

def PlanesOf (w h : Nat) : List Chromaton → List Plane → Prop
  | [], [] => True
  | c :: cs, p :: ps => PlaneOf w h c p ∧ PlanesOf w h cs ps
  | _, _ => False

theorem PlanesOf.get {w h : Nat} {cs : List Chromaton} {ps : List Plane} (hp : PlanesOf w h cs ps) :
    ps.length = cs.length ∧ ∀ (i : Nat) c, cs[i]? = some c → ∃ p : Plane, ps[i]? = some p ∧ PlaneOf w h c p := by
  induction cs generalizing ps with
  | nil =>
    cases ps with
    | nil => simp
    | cons p ps => exact hp.elim
  | cons c cs ih =>
    cases ps with
    | nil => exact hp.elim
    | cons p ps =>
      obtain ⟨h1, h2⟩ := hp
      obtain ⟨h3, h4⟩ := ih h2
      refine ⟨by simp [h3], fun i d hd => ?_⟩
      cases i with
      | zero => simp at hd; subst hd; exact ⟨p, rfl, h1⟩
      | succ i => simpa using h4 i d (by simpa using hd)

theorem getDataSize_inv {c : Chromaton} {w h a z : Nat} (hz : c.getDataSize w h a = .ok z) :
    ∃ ls ch, c.getLinesize w a = .ok ls ∧ c.getHeight h = .ok ch ∧ z = ls * ch := by
  simp only [Chromaton.getDataSize] at hz
  cases h1 : Chromaton.subsampled h c.v_ss with
  | error e => simp [h1] at hz
  | ok ch =>
    cases h2 : c.getLinesize w a with
    | error e => simp [h1, h2] at hz
    | ok ls =>
      simp only [h1, h2, ok_bind, umul] at hz
      split at hz
      · exact ⟨ls, ch, rfl, h1, by simpa using hz.symm⟩
      · simp at hz

theorem pushPlane_zero {b : DefaultFrameBuffer} {n k ls : Nat} (hb : b.buf = List.replicate n 0) (hk : k ≤ n) :
    b.pushPlane k ls = .ok ⟨List.replicate (n - k) 0, b.planes ++ [⟨List.replicate k 0, ls⟩]⟩ := by
  simp [DefaultFrameBuffer.pushPlane, DefaultFrameBuffer.splitTo, hb, hk]

theorem sizeFrom_mono {w h a : Nat} (cs : List (Option Chromaton)) {s t : Nat}
    (ht : VideoInfo.sizeFrom w h a s cs = .ok t) : s ≤ t := by
  induction cs generalizing s with
  | nil => simp [VideoInfo.sizeFrom] at ht; omega
  | cons o cs ih =>
    cases o with
    | none => exact ih ht
    | some c =>
      simp only [VideoInfo.sizeFrom] at ht
      cases hz : c.getDataSize w h a with
      | error e => simp [hz] at ht
      | ok z =>
        simp only [hz, ok_bind, uadd] at ht
        split at ht
        · have := ih ht; omega
        · simp at ht

theorem videoPlanes_spec {w h : Nat} (cs : List (Option Chromaton)) {s t : Nat} (b : DefaultFrameBuffer)
    (ht : VideoInfo.sizeFrom w h 32 s cs = .ok t) (hb : b.buf = List.replicate (t - s) 0) :
    ∃ ps, DefaultFrameBuffer.videoPlanes w h b cs = .ok { buf := [], planes := b.planes ++ ps } ∧
      PlanesOf w h (cs.filterMap id) ps ∧ (ps.map (·.buf.length)).sum = t - s := by
  induction cs generalizing s b with
  | nil =>
    simp only [VideoInfo.sizeFrom, Except.ok.injEq] at ht
    subst ht
    refine ⟨[], ?_, trivial, by simp⟩
    simp only [DefaultFrameBuffer.videoPlanes, List.append_nil]
    rw [Nat.sub_self, List.replicate_zero] at hb
    rw [← hb]
  | cons o cs ih =>
    cases o with
    | none => exact ih b ht hb
    | some c =>
      simp only [VideoInfo.sizeFrom] at ht
      cases hz : c.getDataSize w h 32 with
      | error e => simp [hz] at ht
      | ok z =>
        simp only [hz, ok_bind, uadd] at ht
        split at ht
        · obtain ⟨ls, ch, h1, h2, h3⟩ := getDataSize_inv hz
          have hm := sizeFrom_mono cs ht
          simp only [DefaultFrameBuffer.videoPlanes, ALIGNMENT, hz, h1, ok_bind]
          rw [pushPlane_zero hb (by omega), ok_bind]
          obtain ⟨ps, a1, a2, a3⟩ := ih (s := s + z) ⟨List.replicate (t - s - z) 0, b.planes ++
            [⟨List.replicate z 0, ls⟩]⟩ ht (by simp only; congr 1; omega)
          refine ⟨{ buf := List.replicate z 0, linesize := ls } :: ps, by rw [a1]; simp, ⟨⟨h1, ch, h2, ?_⟩, a2⟩, ?_⟩
          · rw [h3]
          · simp [a3]; omega
        · simp at ht

/-- **C47**, video: whenever the size of the picture is a `usize`, the frame has one zeroed plane per component with
the component's stride and `stride * height` bytes, and the planes occupy exactly that size. -/
theorem c47_video (v : VideoInfo) (t : Option TimeInfo) (s : Nat) (hs : v.size 32 = .ok s) :
    ∃ f : Frame, newDefaultFrame (.Video v) t = .ok f ∧ f.kind = .Video v ∧ f.t = t.getD .default ∧
      f.planes.length = (comps v.format).length ∧
      (∀ (i : Nat) c, (comps v.format)[i]? = some c → ∃ p : Plane, f.planes[i]? = some p ∧ PlaneOf v.width v.height c p) ∧
      (f.planes.map (·.buf.length)).sum = s := by
  obtain ⟨ps, a1, a2, a3⟩ := videoPlanes_spec v.format.comp_info ⟨List.replicate s 0, []⟩ (s := 0) (t := s) hs rfl
  simp only [newDefaultFrame, DefaultFrameBuffer.new, ALIGNMENT, hs, ok_bind, a1, pure_eq_ok, List.nil_append]
  exact ⟨_, rfl, rfl, rfl, a2.get.1, a2.get.2, a3⟩

/-- Dimensions and component definitions in a realistic range. -/
structure Realistic (v : VideoInfo) : Prop where
  width : v.width ≤ 2 ^ 24
  height : v.height ≤ 2 ^ 24
  number : v.format.comp_info.length ≤ 5
  comp : ∀ c, some c ∈ v.format.comp_info → 0 < c.depth ∧ c.depth < 256 ∧ c.h_ss < 32 ∧ c.v_ss < 32

theorem subsampled_le {v ss : Nat} (hv : v ≤ 2 ^ 24) (hs : ss < 32) :
    ∃ r, Chromaton.subsampled v ss = .ok r ∧ r ≤ 2 ^ 24 ∧ v + 2 ^ ss ≤ 2 ^ 64 ∧ r = (v + (2 ^ ss - 1)) / 2 ^ ss := by
  have hp := Nat.two_pow_pos ss
  have h32 : 2 ^ ss ≤ 2 ^ 32 := Nat.pow_le_pow_right (by omega) (by omega)
  have hle : v + 2 ^ ss ≤ 2 ^ 64 := by omega
  refine ⟨_, subsampled_eq hle (by omega), ?_, hle, rfl⟩
  refine Nat.le_of_lt_succ ((Nat.div_lt_iff_lt_mul hp).2 ?_)
  have : v * 1 ≤ v * 2 ^ ss := Nat.mul_le_mul_left _ hp
  have : v * 2 ^ ss ≤ 2 ^ 24 * 2 ^ ss := Nat.mul_le_mul_right _ hv
  rw [Nat.succ_mul]
  by_cases h0 : v = 0
  · omega
  · have : v - 1 ≤ (v - 1) * 2 ^ ss := Nat.le_mul_of_pos_right _ hp
    have e : (v - 1) * 2 ^ ss + 2 ^ ss = v * 2 ^ ss := by
      rw [← Nat.succ_mul, Nat.succ_eq_add_one, Nat.sub_add_cancel (by omega)]
    omega

theorem getDataSize_le {c : Chromaton} {w h : Nat} (hw : w ≤ 2 ^ 24) (hh : h ≤ 2 ^ 24)
    (hc : 0 < c.depth ∧ c.depth < 256 ∧ c.h_ss < 32 ∧ c.v_ss < 32) :
    ∃ z, c.getDataSize w h 32 = .ok z ∧ z ≤ 2 ^ 55 := by
  obtain ⟨cw, a1, a2, a3, a4⟩ := subsampled_le hw hc.2.2.1
  obtain ⟨ch, b1, b2, _, _⟩ := subsampled_le hh hc.2.2.2
  have hm : cw * c.depth ≤ 2 ^ 24 * 255 := Nat.mul_le_mul a2 (by omega)
  have hf : Fits c w 5 := ⟨by omega, a3, hc.1, by rw [← a4]; omega⟩
  have hl := getLinesize_eq hf
  rw [← a4] at hl
  have hr := (roundUp_bounds ((cw * c.depth + c.depth - 1) / 8) (2 ^ 5) (by omega)).2
  generalize ((cw * c.depth + c.depth - 1) / 8 + 2 ^ 5 - 1) / 2 ^ 5 * 2 ^ 5 = ls at *
  have hls : ls ≤ 2 ^ 30 := by omega
  have : ls * ch ≤ 2 ^ 30 * 2 ^ 24 := Nat.mul_le_mul hls b2
  refine ⟨ls * ch, ?_, by omega⟩
  exact c46_data_size hl b1 (by omega)

theorem sizeFrom_le {w h B : Nat} (hB : B = 2 ^ 55) (hw : w ≤ 2 ^ 24) (hh : h ≤ 2 ^ 24) (cs : List (Option Chromaton)) (s : Nat)
    (hc : ∀ c, some c ∈ cs → 0 < c.depth ∧ c.depth < 256 ∧ c.h_ss < 32 ∧ c.v_ss < 32)
    (hs : s + cs.length * B < 2 ^ 64) : ∃ t, VideoInfo.sizeFrom w h 32 s cs = .ok t := by
  induction cs generalizing s with
  | nil => exact ⟨s, rfl⟩
  | cons o cs ih =>
    simp only [List.length_cons, Nat.succ_mul] at hs
    cases o with
    | none => exact ih s (fun c hm => hc c (by simp [hm])) (by omega)
    | some c =>
      obtain ⟨z, h1, h2⟩ := getDataSize_le hw hh (hc c (by simp))
      rw [← hB] at h2
      obtain ⟨t, h3⟩ := ih (s + z) (fun c hm => hc c (by simp [hm])) (by omega)
      exact ⟨t, by simp only [VideoInfo.sizeFrom, h1, ok_bind, uadd_ok (show s + z < 2 ^ 64 by omega), h3]⟩

/-- **C47.** Creating a default video frame never panics in the realistic range. -/
theorem c47_no_panic (v : VideoInfo) (t : Option TimeInfo) (hv : Realistic v) :
    ∃ s f, v.size 32 = .ok s ∧ newDefaultFrame (.Video v) t = .ok f := by
  obtain ⟨s, hs⟩ := sizeFrom_le rfl hv.width hv.height v.format.comp_info 0 hv.comp (by have := hv.number; omega)
  obtain ⟨f, hf, _⟩ := c47_video v t s hs
  exact ⟨s, f, hs, hf⟩

theorem audioPlanes_spec {a : AudioInfo} {z : Nat} (hz : a.format.getAudioSize a.samples 32 = .ok z) (n : Nat)
    (b : DefaultFrameBuffer) (hb : b.buf = List.replicate (z * n) 0) :
    DefaultFrameBuffer.audioPlanes a b n = .ok ⟨[], b.planes ++ List.replicate n ⟨List.replicate z 0, z⟩⟩ := by
  induction n generalizing b with
  | zero =>
    simp only [Nat.mul_zero, List.replicate_zero] at hb
    simp [DefaultFrameBuffer.audioPlanes, ← hb]
  | succ n ih =>
    simp only [DefaultFrameBuffer.audioPlanes, ALIGNMENT, hz, ok_bind]
    rw [pushPlane_zero hb (by rw [Nat.mul_succ]; omega), ok_bind, ih _ (by
      simp only; congr 1; rw [Nat.mul_succ]; omega)]
    simp [List.replicate_succ]

/-- **C47**, audio: one zeroed plane per channel, each holding all samples of a channel, or one plane for all
channels; the planes occupy exactly the size of the frame. -/
theorem c47_audio (a : AudioInfo) (t : Option TimeInfo) (z s : Nat)
    (hz : a.format.getAudioSize a.samples 32 = .ok z) (hs : a.size 32 = .ok s) :
    ∃ f : Frame, newDefaultFrame (.Audio a) t = .ok f ∧ f.kind = .Audio a ∧ f.t = t.getD .default ∧
      s = z * a.map.len ∧
      f.planes = (if a.format.planar then List.replicate a.map.len { buf := List.replicate z 0, linesize := z }
        else [{ buf := List.replicate s 0, linesize := s }]) ∧
      (f.planes.map (·.buf.length)).sum = s := by
  have hs' : s = z * a.map.len := by
    simp only [AudioInfo.size, hz, ok_bind, umul] at hs
    split at hs
    · simpa using hs.symm
    · simp at hs
  simp only [newDefaultFrame, DefaultFrameBuffer.new, ALIGNMENT, hs, ok_bind]
  by_cases hp : a.format.planar
  · rw [if_pos hp, audioPlanes_spec hz _ _ (by rw [hs'])]
    refine ⟨_, rfl, rfl, rfl, hs', by simp [hp], ?_⟩
    simp only [List.nil_append, List.map_replicate, List.length_replicate, List.sum_replicate_nat]
    rw [hs', Nat.mul_comm]
  · rw [if_neg hp, pushPlane_zero rfl (Nat.le_refl s)]
    refine ⟨_, rfl, rfl, rfl, hs', by simp [hp], by simp⟩

/-- A 43 by 3 picture in 4:2:0. -/
def exampleVideo : VideoInfo := ⟨43, 3, false, .I, formats.YUV420, 24⟩

example : Realistic exampleVideo ∧ exampleVideo.size 32 = .ok 320 ∧
    (newDefaultFrame (.Video exampleVideo) none).toOption.map (fun f => f.planes.map (fun p => (p.linesize, p.buf.length))) =
      some [(64, 192), (32, 64), (32, 64)] := by
  refine ⟨⟨by decide, by decide, by decide, ?_⟩, by decide, by decide +kernel⟩
  intro c hc
  simp [exampleVideo, formats.YUV420] at hc
  rcases hc with rfl | rfl | rfl <;> decide

example : (newDefaultFrame (.Audio (.new 42 48000 ⟨[.R, .L]⟩ { formats.S16 with planar := true } none)) none).toOption.map
    (fun f => f.planes.map (fun p => (p.linesize, p.buf.length))) = some [(96, 96), (96, 96)] := by decide +kernel

/-! ### C48: bounds of copies -/

/-- **C48**, partial: in full, the copies never leave their slices. `copy_plane`, through which all copies go, leaves
them exactly when some copied row is narrower than the width on either side (which no caller checks, `c48_fails`);
otherwise it succeeds, and with a zero line size it panics. -/
theorem c48_copy_plane_partial (dst : List U8) (dls : Nat) (src : List U8) (sls w h : Nat) :
    (dls = 0 ∨ sls = 0 → copyPlane dst dls src sls w h = .error .chunkZero) ∧
    (0 < dls → 0 < sls →
      ((∃ r, Touched dst.length dls src.length sls h r ∧ ¬ RowFits dst.length dls src.length sls w r) →
        copyPlane dst dls src sls w h = .error .ub) ∧
      ((∀ r, Touched dst.length dls src.length sls h r → RowFits dst.length dls src.length sls w r) →
        ∃ out, copyPlane dst dls src sls w h = .ok out ∧ out.length = dst.length)) := by
  refine ⟨?_, fun hd hs => ⟨fun ⟨r, h1, h2⟩ => copyPlane_ub hd hs h1 h2, fun hr => ?_⟩⟩
  · intro h0
    by_cases hd : dls = 0
    · simp [copyPlane, chunks, hd]
    · rcases h0 with h0 | h0
      · exact absurd h0 hd
      · simp [copyPlane, chunks, hd, h0]
  · obtain ⟨out, a1, a2, _⟩ := copyPlane_spec hd hs hr
    exact ⟨out, a1, a2⟩

/-- A 34 by 2 picture in 4:2:0: its second plane is one row of 32 bytes, of which 17 are used. -/
def smallVideo : VideoInfo := ⟨34, 2, false, .I, formats.YUV420, 24⟩

/-- **C48** fails, reading: copying the second plane of a default frame to a buffer of the size of the picture reads
34 bytes from the plane's only row of 32 bytes. -/
theorem c48_fails : ∃ f p, newDefaultFrame (.Video smallVideo) none = .ok f ∧ f.planes[1]? = some p ∧
    p.buf.length = 32 ∧ p.linesize = 32 ∧
    copyPlaneToBuffer f 1 (List.replicate 68 0) 34 = .error .ub := by
  have h : (match newDefaultFrame (.Video smallVideo) none with
    | .ok f => match f.planes[1]? with
      | some p => decide (p.buf.length = 32 ∧ p.linesize = 32 ∧
          copyPlaneToBuffer f 1 (List.replicate 68 0) 34 = .error .ub)
      | none => false
    | .error _ => false) = true := by decide +kernel
  cases hf : newDefaultFrame (.Video smallVideo) none with
  | error e => simp [hf] at h
  | ok f =>
    cases hp : f.planes[1]? with
    | none => simp [hf, hp] at h
    | some p => simp only [hf, hp, decide_eq_true_eq] at h; exact ⟨f, p, rfl, hp, h⟩

/-- **C48** fails, writing: a destination plane that is too small is overrun instead of refused. -/
theorem c48_overrun_fails : ∃ f, newDefaultFrame (.Video smallVideo) none = .ok f ∧
    copyFrameToBuffer f [[0]] [34] = .error .ub := by
  have h : (match newDefaultFrame (.Video smallVideo) none with
    | .ok f => decide (copyFrameToBuffer f [[0]] [34] = .error .ub)
    | .error _ => false) = true := by decide +kernel
  cases hf : newDefaultFrame (.Video smallVideo) none with
  | error e => simp [hf] at h
  | ok f => simp only [hf, decide_eq_true_eq] at h; exact ⟨f, rfl, h⟩

/-! ### C49: copies of frames -/

/-- Plane `i` of `out` shows in its first `ch` rows of `cw` bytes the picture of `src`, and `dst` elsewhere. -/
def Shows (dst : List U8) (dls : Nat) (src : List U8) (sls cw ch : Nat) (out : List U8) : Prop :=
  out.length = dst.length ∧ (∀ y < ch, ∀ x < cw, out[y * dls + x]? = src[y * sls + x]?) ∧
    ∀ i, ¬ (i / dls < ch ∧ i % dls < cw) → out[i]? = dst[i]?

/-- Component `i` has the dimensions `dims[i]`. -/
def DimsOf (w h : Nat) : List (Option Chromaton) → List (Nat × Nat) → Prop
  | _, [] => True
  | some c :: cs, (cw, ch) :: ds => c.getWidth w = .ok cw ∧ c.getHeight h = .ok ch ∧ DimsOf w h cs ds
  | _, _ => False

/-- Slices with strides, having room for pictures of the given dimensions. -/
def AllRoomy : List (List U8) → List Nat → List (Nat × Nat) → Prop
  | [], [], [] => True
  | d :: ds, l :: ls, (cw, ch) :: cs => Roomy d.length l cw ch ∧ AllRoomy ds ls cs
  | _, _, _ => False

/-- All planes are copied. -/
def AllShow : List (List U8) → List Nat → List (List U8) → List Nat → List (Nat × Nat) → List (List U8) → Prop
  | [], [], [], [], [], [] => True
  | d :: ds, dl :: dls, s :: ss, sl :: sls, (cw, ch) :: cs, o :: os =>
    Shows d dl s sl cw ch o ∧ AllShow ds dls ss sls cs os
  | _, _, _, _, _, _ => False

theorem copyOut_spec (w h : Nat) (dims : List (Nat × Nat)) (dst : List (List U8)) (dls : List Nat) (ps : List Plane)
    (cs : List (Option Chromaton)) (hc : DimsOf w h cs dims) (hd : AllRoomy dst dls dims)
    (hs : AllRoomy (ps.map (·.buf)) (ps.map (·.linesize)) dims) :
    ∃ out, copyOut w h dst dls ps cs = .ok out ∧
      AllShow dst dls (ps.map (·.buf)) (ps.map (·.linesize)) dims out := by
  induction dims generalizing dst dls ps cs with
  | nil =>
    cases dst <;> cases dls <;> cases ps <;> first | exact hd.elim | exact hs.elim | skip
    exact ⟨[], by unfold copyOut; rfl, trivial⟩
  | cons cd dims ih =>
    obtain ⟨cw, ch⟩ := cd
    cases dst <;> cases dls <;> first | exact hd.elim | skip
    cases ps with
    | nil => exact hs.elim
    | cons p ps =>
    match cs, hc with
    | some c :: cs, hc =>
      obtain ⟨c1, c2, c3⟩ := hc
      obtain ⟨d1, d2⟩ := hd
      obtain ⟨s1, s2⟩ := hs
      obtain ⟨o, o1, o2⟩ := copyPlane_roomy d1 s1
      obtain ⟨os, p1, p2⟩ := ih _ _ ps cs c3 d2 s2
      exact ⟨o :: os, by simp only [copyOut, c1, c2, ok_bind, o1, p1, pure_eq_ok], o2, p2⟩

theorem copyIn_spec (w h : Nat) (dims : List (Nat × Nat)) (src : List (List U8)) (sls : List Nat) (ps : List Plane)
    (cs : List (Option Chromaton)) (hc : DimsOf w h cs dims) (hs : AllRoomy src sls dims)
    (hp : AllRoomy (ps.map (·.buf)) (ps.map (·.linesize)) dims) :
    ∃ out, copyIn w h ps src sls cs = .ok out ∧ out.map (·.linesize) = ps.map (·.linesize) ∧
      AllRoomy (out.map (·.buf)) (out.map (·.linesize)) dims ∧
      AllShow (ps.map (·.buf)) (ps.map (·.linesize)) src sls dims (out.map (·.buf)) := by
  induction dims generalizing src sls ps cs with
  | nil =>
    cases src <;> cases sls <;> cases ps <;> first | exact hs.elim | exact hp.elim | skip
    exact ⟨[], by unfold copyIn; rfl, rfl, trivial, trivial⟩
  | cons cd dims ih =>
    obtain ⟨cw, ch⟩ := cd
    cases src <;> cases sls <;> first | exact hs.elim | skip
    cases ps with
    | nil => exact hp.elim
    | cons p ps =>
    match cs, hc with
    | some c :: cs, hc =>
      obtain ⟨c1, c2, c3⟩ := hc
      obtain ⟨d1, d2⟩ := hp
      obtain ⟨s1, s2⟩ := hs
      obtain ⟨o, o1, o2⟩ := copyPlane_roomy d1 s1
      obtain ⟨os, p1, p2, p3, p4⟩ := ih _ _ ps cs c3 s2 d2
      refine ⟨{ p with buf := o } :: os, by simp only [copyIn, c1, c2, ok_bind, o1, p1, pure_eq_ok],
        by simp [p2], ⟨?_, p3⟩, o2, p4⟩
      show Roomy o.length p.linesize cw ch
      rw [o2.1]; exact d1

/-- **C49.** With room on both sides, `copy_frame_to_buffer` copies the picture of every plane to its destination and
changes nothing else; `copy_from_slice` is the converse. -/
theorem c49_copies (f : Frame) (v : VideoInfo) (hk : f.kind = .Video v) (dims : List (Nat × Nat))
    (hc : DimsOf v.width v.height v.format.comp_info dims)
    (hp : AllRoomy (f.planes.map (·.buf)) (f.planes.map (·.linesize)) dims)
    (bufs : List (List U8)) (ls : List Nat) (hb : AllRoomy bufs ls dims) :
    (∃ out, copyFrameToBuffer f bufs ls = .ok out ∧
      AllShow bufs ls (f.planes.map (·.buf)) (f.planes.map (·.linesize)) dims out) ∧
    (∃ f', copyFromSlice f bufs ls = .ok f' ∧ f'.kind = f.kind ∧ f'.t = f.t ∧
      f'.planes.map (·.linesize) = f.planes.map (·.linesize) ∧
      AllShow (f.planes.map (·.buf)) (f.planes.map (·.linesize)) bufs ls dims (f'.planes.map (·.buf))) := by
  constructor
  · obtain ⟨out, h1, h2⟩ := copyOut_spec _ _ dims bufs ls f.planes _ hc hb hp
    exact ⟨out, by simp only [copyFrameToBuffer, hk, h1], h2⟩
  · obtain ⟨out, h1, h2, h3, h4⟩ := copyIn_spec _ _ dims bufs ls f.planes _ hc hb hp
    exact ⟨{ f with planes := out }, by simp only [copyFromSlice, hk, h1, ok_bind, pure_eq_ok], rfl, rfl, h2, h4⟩

/-- The pictures of `out` (stride `ols`) and `src` (stride `sls`) agree. -/
def SamePictures : List (List U8) → List Nat → List (List U8) → List Nat → List (Nat × Nat) → Prop
  | [], [], [], [], [] => True
  | o :: os, ol :: ols, s :: ss, sl :: sls, (cw, ch) :: cs =>
    (∀ y < ch, ∀ x < cw, o[y * ol + x]? = s[y * sl + x]?) ∧ SamePictures os ols ss sls cs
  | _, _, _, _, _ => False

theorem AllShow.same {dims : List (Nat × Nat)} : ∀ {dst : List (List U8)} {dls : List Nat} {mid : List (List U8)}
    {mls : List Nat} {src : List (List U8)} {sls : List Nat} {old : List (List U8)} {out : List (List U8)},
    AllShow old mls src sls dims mid → AllShow dst dls mid mls dims out → SamePictures out dls src sls dims := by
  induction dims with
  | nil =>
    intro dst dls mid mls src sls old out h1 h2
    cases old <;> cases mls <;> cases src <;> cases sls <;> cases mid <;> first | exact h1.elim | skip
    cases dst <;> cases dls <;> cases out <;> first | exact h2.elim | skip
    trivial
  | cons cd dims ih =>
    intro dst dls mid mls src sls old out h1 h2
    obtain ⟨cw, ch⟩ := cd
    cases old <;> cases mls <;> cases src <;> cases sls <;> cases mid <;> first | exact h1.elim | skip
    cases dst <;> cases dls <;> cases out <;> first | exact h2.elim | skip
    exact ⟨fun y hy x hx => by rw [h2.1.2.1 y hy x hx, h1.1.2.1 y hy x hx], ih h1.2 h2.2⟩

/-- **C49.** Copying in and then out, with any strides, restores every row. -/
theorem c49_roundtrip (f : Frame) (v : VideoInfo) (hk : f.kind = .Video v) (dims : List (Nat × Nat))
    (hc : DimsOf v.width v.height v.format.comp_info dims)
    (hp : AllRoomy (f.planes.map (·.buf)) (f.planes.map (·.linesize)) dims)
    (src : List (List U8)) (sls : List Nat) (hs : AllRoomy src sls dims)
    (dst : List (List U8)) (dls : List Nat) (hd : AllRoomy dst dls dims) :
    ∃ f' out, copyFromSlice f src sls = .ok f' ∧ copyFrameToBuffer f' dst dls = .ok out ∧
      SamePictures out dls src sls dims := by
  obtain ⟨ps, h1, h2, h3, h4⟩ := copyIn_spec _ _ dims src sls f.planes _ hc hs hp
  obtain ⟨out, g1, g2⟩ := copyOut_spec _ _ dims dst dls ps _ hc hd h3
  refine ⟨{ f with planes := ps }, out, by simp only [copyFromSlice, hk, h1, ok_bind, pure_eq_ok],
    by simp only [copyFrameToBuffer, hk, g1], ?_⟩
  rw [h2] at g2
  exact h4.same g2

/-- Planes of default frames have room for their component when it has at least 8 bits and at least one column. -/
theorem default_roomy {w h : Nat} (cs : List Chromaton) (ps : List Plane) (hp : PlanesOf w h cs ps)
    (hc : ∀ c ∈ cs, 8 ≤ c.depth ∧ Fits c w 5) (hw : 0 < w) :
    ∃ dims, DimsOf w h (cs.map some) dims ∧ AllRoomy (ps.map (·.buf)) (ps.map (·.linesize)) dims := by
  induction cs generalizing ps with
  | nil =>
    cases ps with
    | nil => exact ⟨[], trivial, trivial⟩
    | cons p ps => exact hp.elim
  | cons c cs ih =>
    cases ps with
    | nil => exact hp.elim
    | cons p ps =>
      obtain ⟨⟨a1, ch, a2, a3⟩, b⟩ := hp
      obtain ⟨dims, h1, h2⟩ := ih ps b (fun c hm => hc c (by simp [hm]))
      obtain ⟨hd, hf⟩ := hc c (by simp)
      obtain ⟨cw, ls, e1, e2, _, e4⟩ := c46_linesize_partial hf
      rw [a1] at e2
      obtain rfl : p.linesize = ls := by simpa using e2
      have h8 := e4 (Or.inl hd)
      have hle : cw ≤ p.linesize := by
        have : cw * 8 ≤ cw * c.depth := Nat.mul_le_mul_left _ hd
        omega
      have hcw : 0 < cw := by
        have e : cw = (w + (2 ^ c.h_ss - 1)) / 2 ^ c.h_ss := by
          have := subsampled_eq hf.width hf.ss
          unfold Chromaton.getWidth at e1
          rw [e1] at this; simpa using this
        rw [e]
        exact Nat.div_pos (by omega) (Nat.two_pow_pos _)
      refine ⟨(cw, ch) :: dims, ⟨e1, a2, h1⟩, ⟨Nat.lt_of_lt_of_le hcw hle, hle, fun y hy => ?_⟩, h2⟩
      show y * p.linesize + cw ≤ p.buf.length
      rw [a3, List.length_replicate]
      have : (y + 1) * p.linesize ≤ ch * p.linesize := Nat.mul_le_mul_right _ hy
      rw [Nat.succ_mul, Nat.mul_comm ch] at this
      omega

/-- **C49.** Default frames meet the hypotheses on the frame. -/
theorem c49_default (v : VideoInfo) (t : Option TimeInfo) (s : Nat) (hs : v.size 32 = .ok s) (cs : List Chromaton)
    (hf : v.format.comp_info = cs.map some ++ List.replicate (5 - cs.length) none)
    (hc : ∀ c ∈ cs, 8 ≤ c.depth ∧ Fits c v.width 5) (hw : 0 < v.width) :
    ∃ f dims, newDefaultFrame (.Video v) t = .ok f ∧ f.kind = .Video v ∧
      DimsOf v.width v.height v.format.comp_info dims ∧
      AllRoomy (f.planes.map (·.buf)) (f.planes.map (·.linesize)) dims := by
  obtain ⟨ps, a1, a2, _⟩ := videoPlanes_spec v.format.comp_info ⟨List.replicate s 0, []⟩ (s := 0) (t := s) hs rfl
  have e : v.format.comp_info.filterMap id = cs := by
    rw [hf, List.filterMap_append, List.filterMap_map]
    simp [Function.comp_def]
  rw [e] at a2
  obtain ⟨dims, d1, d2⟩ := default_roomy cs ps a2 hc hw
  have hdims : ∀ (cs : List (Option Chromaton)) (dims rest), DimsOf v.width v.height cs dims →
      DimsOf v.width v.height (cs ++ rest) dims := by
    intro cs
    induction cs with
    | nil => intro dims rest h; cases dims <;> first | (unfold DimsOf; trivial) | exact h.elim
    | cons o cs ih =>
      intro dims rest h
      cases dims with
      | nil => unfold DimsOf; trivial
      | cons d dims =>
        cases o with
        | none => exact h.elim
        | some c => exact ⟨h.1, h.2.1, ih dims rest h.2.2⟩
  refine ⟨⟨.Video v, ps, t.getD .default⟩, dims, ?_, rfl, ?_, d2⟩
  · simp only [newDefaultFrame, DefaultFrameBuffer.new, ALIGNMENT, hs, ok_bind, a1, pure_eq_ok, List.nil_append]
  · rw [hf]; exact hdims _ _ _ d1

example : ∃ f, newDefaultFrame (.Video ⟨3, 2, false, .I, formats.YUV420, 24⟩) none = .ok f ∧
    ∃ f', copyFromSlice f [[1, 2, 3, 0, 4, 5, 6], [7, 8], [9, 10, 0]] [4, 2, 3] = .ok f' ∧
      copyFrameToBuffer f' [List.replicate 6 0, List.replicate 2 0, List.replicate 2 0] [3, 2, 2] =
        .ok [[1, 2, 3, 4, 5, 6], [7, 8], [9, 10]] := by
  have h : (match newDefaultFrame (.Video ⟨3, 2, false, .I, formats.YUV420, 24⟩) none with
    | .ok f => match copyFromSlice f [[1, 2, 3, 0, 4, 5, 6], [7, 8], [9, 10, 0]] [4, 2, 3] with
      | .ok f' => decide (copyFrameToBuffer f' [List.replicate 6 0, List.replicate 2 0, List.replicate 2 0] [3, 2, 2] =
        .ok [[1, 2, 3, 4, 5, 6], [7, 8], [9, 10]])
      | .error _ => false
    | .error _ => false) = true := by decide +kernel
  cases hf : newDefaultFrame (.Video ⟨3, 2, false, .I, formats.YUV420, 24⟩) none with
  | error e => simp [hf] at h
  | ok f =>
    cases hp : copyFromSlice f [[1, 2, 3, 0, 4, 5, 6], [7, 8], [9, 10, 0]] [4, 2, 3] with
    | error e => simp only [hf, hp, Bool.false_eq_true] at h
    | ok f' => simp only [hf, hp, decide_eq_true_eq] at h; exact ⟨f, rfl, f', hp, h⟩

/-! ### C73: whole samples -/

/-- **C73** fails: of a line of two 16-bit samples only two of the four bytes are copied. -/
theorem c73_fails : ∃ (v : VideoInfo) (p : Plane), v.width = 2 ∧ v.height = 1 ∧
    v.format.comp_info.head? = some (some (.new 0 0 false 16 0 0 1)) ∧
    p.buf = [1, 2, 3, 4] ∧ p.linesize = 4 ∧
    copyFrameToBuffer ⟨.Video v, [p], .default⟩ [[0, 0, 0, 0]] [4] = .ok [[1, 2, 0, 0]] :=
  ⟨⟨2, 1, false, .I, { formats.YUV420 with components := 1, comp_info := [some (.new 0 0 false 16 0 0 1), none,
    none, none, none] }, 16⟩, ⟨[1, 2, 3, 4], 4⟩, by decide⟩

/-! ### C50: single planes -/

/-- **C50**, partial: in full, `copy_plane_to_buffer(i)` copies the rows and columns of component `i`. Proved for
components as large as the picture. -/
theorem c50_plane_partial (f : Frame) (v : VideoInfo) (hk : f.kind = .Video v) (i : Nat) (p : Plane)
    (hp : f.planes[i]? = some p) (c : Chromaton) (hw : c.getWidth v.width = .ok v.width)
    (hh : c.getHeight v.height = .ok v.height) (dst : List U8) (dls : Nat)
    (rd : Roomy dst.length dls v.width v.height) (rs : Roomy p.buf.length p.linesize v.width v.height) :
    ∃ out cw ch, c.getWidth v.width = .ok cw ∧ c.getHeight v.height = .ok ch ∧
      copyPlaneToBuffer f i dst dls = .ok out ∧ Shows dst dls p.buf p.linesize cw ch out := by
  obtain ⟨out, h1, h2⟩ := copyPlane_roomy rd rs
  exact ⟨out, _, _, hw, hh, by simp only [copyPlaneToBuffer, hk, hp, h1], h2⟩

/-- **C50** fails: for a 4 by 2 picture in 4:2:0 whose chroma planes hold one row of two samples (stride 4), all
four bytes of the row are copied. -/
theorem c50_fails : ∃ (f : Frame) (p : Plane), f.kind = .Video ⟨4, 2, false, .I, formats.YUV420, 24⟩ ∧
    f.planes[1]? = some p ∧ p.buf = [1, 2, 3, 4] ∧ p.linesize = 4 ∧
    (Chromaton.yuv8 1 1 1).getWidth 4 = .ok 2 ∧ formats.YUV420.getChromaton 1 = .ok (some (.yuv8 1 1 1)) ∧
    copyPlaneToBuffer f 1 [0, 0, 0, 0] 4 = .ok [1, 2, 3, 4] :=
  ⟨⟨.Video ⟨4, 2, false, .I, formats.YUV420, 24⟩, [⟨List.replicate 8 0, 4⟩, ⟨[1, 2, 3, 4], 4⟩, ⟨[1, 2, 3, 4], 4⟩],
    .default⟩, ⟨[1, 2, 3, 4], 4⟩, by decide⟩

/-! ### C58: equality of stream information -/

/-- **C58.** Equality is decided by exactly the listed fields. -/
theorem c58_decided :
    (∀ a b : VideoInfo, a.eq b = true ↔ a.width = b.width ∧ a.height = b.height ∧ a.format = b.format) ∧
    (∀ a b : AudioInfo, a.eq b = true ↔ a.sample_rate = b.sample_rate ∧ a.map = b.map ∧ a.format = b.format) := by
  constructor
  · intro a b; simp [VideoInfo.eq, and_assoc]
  · intro a b; simp [AudioInfo.eq, and_assoc]

/-- **C58.** It is an equivalence, also on `MediaKind`. -/
theorem c58_equivalence :
    (∀ a : MediaKind, a.eq a = true) ∧ (∀ a b : MediaKind, a.eq b = b.eq a) ∧
    (∀ a b c : MediaKind, a.eq b = true → b.eq c = true → a.eq c = true) := by
  obtain ⟨h1, h2⟩ := c58_decided
  refine ⟨?_, ?_, ?_⟩
  · rintro (a | a)
    · exact (h1 a a).2 ⟨rfl, rfl, rfl⟩
    · exact (h2 a a).2 ⟨rfl, rfl, rfl⟩
  · rintro (a | a) (b | b)
    · exact Bool.eq_iff_iff.2 ⟨fun h => by
        obtain ⟨x, y, z⟩ := (h1 a b).1 h; exact (h1 b a).2 ⟨x.symm, y.symm, z.symm⟩, fun h => by
        obtain ⟨x, y, z⟩ := (h1 b a).1 h; exact (h1 a b).2 ⟨x.symm, y.symm, z.symm⟩⟩
    · rfl
    · rfl
    · exact Bool.eq_iff_iff.2 ⟨fun h => by
        obtain ⟨x, y, z⟩ := (h2 a b).1 h; exact (h2 b a).2 ⟨x.symm, y.symm, z.symm⟩, fun h => by
        obtain ⟨x, y, z⟩ := (h2 b a).1 h; exact (h2 a b).2 ⟨x.symm, y.symm, z.symm⟩⟩
  · rintro (a | a) (b | b) (c | c) h g <;> first
      | exact (Bool.false_ne_true h).elim
      | exact (Bool.false_ne_true g).elim
      | skip
    · obtain ⟨x, y, z⟩ := (h1 a b).1 h
      obtain ⟨x', y', z'⟩ := (h1 b c).1 g
      exact (h1 a c).2 ⟨x.trans x', y.trans y', z.trans z'⟩
    · obtain ⟨x, y, z⟩ := (h2 a b).1 h
      obtain ⟨x', y', z'⟩ := (h2 b c).1 g
      exact (h2 a c).2 ⟨x.trans x', y.trans y', z.trans z'⟩

/-- **C58.** The other fields do not matter. -/
theorem c58_insensitive :
    (∀ (a : VideoInfo) fl ft bits, a.eq { a with flipped := fl, frame_type := ft, bits := bits } = true) ∧
    (∀ (a : AudioInfo) n bl, a.eq { a with samples := n, block_len := bl } = true) :=
  ⟨fun a _ _ _ => (c58_decided.1 a _).2 ⟨rfl, rfl, rfl⟩, fun a _ _ => (c58_decided.2 a _).2 ⟨rfl, rfl, rfl⟩⟩

example : MediaKind.eq (.Video exampleVideo) (.Video { exampleVideo with frame_type := .P }) = true ∧
    MediaKind.eq (.Video exampleVideo) (.Video smallVideo) = false := by decide

/-! ### C65: typed views -/

theorem align32_dvd {v r : Nat} (h : align v 32 = .ok r) : 32 ∣ r := by
  by_cases ho : v + 32 < 2 ^ 64
  · have := align_pow (v := v) (k := 5) ho
    rw [show (2 : Nat) ^ 5 = 32 from rfl, h] at this
    obtain rfl : r = _ := by simpa using this
    exact ⟨_, Nat.mul_comm _ _⟩
  · rw [align_overflow (by omega)] at h; simp at h

theorem linesize_dvd {c : Chromaton} {w ls : Nat} (h : c.getLinesize w 32 = .ok ls) : 32 ∣ ls := by
  simp only [Chromaton.getLinesize, bind, Except.bind] at h
  repeat (split at h; · simp at h)
  exact align32_dvd h

theorem audioSize_dvd {f : Soniton} {n z : Nat} (h : f.getAudioSize n 32 = .ok z) : 32 ∣ z := by
  simp only [Soniton.getAudioSize, bind, Except.bind] at h
  split at h
  · simp at h
  · exact align32_dvd h

theorem planes_dvd {k : MediaKind} {b : DefaultFrameBuffer} (h : DefaultFrameBuffer.new k = .ok b) :
    ∀ p ∈ b.planes, 32 ∣ p.buf.length := by
  cases k with
  | Video v =>
    cases hs : v.size 32 with
    | error e => simp [DefaultFrameBuffer.new, ALIGNMENT, hs] at h
    | ok s =>
      obtain ⟨ps, a1, a2, a3⟩ := videoPlanes_spec v.format.comp_info ⟨List.replicate s 0, []⟩ (s := 0) (t := s) hs rfl
      clear a3
      simp only [DefaultFrameBuffer.new, ALIGNMENT, hs, ok_bind, a1, List.nil_append, Except.ok.injEq] at h
      subst h
      simp only
      clear a1
      generalize v.format.comp_info.filterMap id = cs at a2
      induction cs generalizing ps with
      | nil => cases ps <;> first | exact a2.elim | simp
      | cons c cs ih =>
        cases ps with
        | nil => exact a2.elim
        | cons p ps =>
          obtain ⟨⟨x1, ch, _, x3⟩, y⟩ := a2
          intro q hq
          rcases List.mem_cons.1 hq with rfl | hq
          · rw [x3, List.length_replicate]
            exact Nat.dvd_mul_right_of_dvd (linesize_dvd x1) _
          · exact ih ps y q hq
  | Audio a =>
    cases hz : a.format.getAudioSize a.samples 32 with
    | error e => simp [DefaultFrameBuffer.new, ALIGNMENT, AudioInfo.size, hz] at h
    | ok z =>
      cases hs : a.size 32 with
      | error e => simp [DefaultFrameBuffer.new, ALIGNMENT, hs] at h
      | ok s =>
        obtain ⟨f, e1, _, _, e2, e3, _⟩ := c47_audio a none z s hz hs
        simp only [newDefaultFrame, h, ok_bind, pure_eq_ok, Except.ok.injEq] at e1
        subst e1
        simp only at e3
        rw [e3]
        intro p hp
        split at hp
        · rw [(List.mem_replicate.1 hp).2, List.length_replicate]; exact audioSize_dvd hz
        · rw [List.mem_singleton.1 hp, List.length_replicate, e2]
          exact Nat.dvd_mul_right_of_dvd (audioSize_dvd hz) _

theorem chunksAux_exact {n : Nat} (fuel : Nat) (l : List U8) (h : n ∣ l.length) :
    ∀ c ∈ chunksAux n fuel l, c.length = n := by
  induction fuel generalizing l with
  | zero => intro c hc; simp [chunksAux] at hc
  | succ fuel ih =>
    intro c hc
    by_cases hl : l = []
    · subst hl; simp [chunksAux] at hc
    · rw [chunksAux_cons _ _ _ hl] at hc
      have hle : n ≤ l.length := Nat.le_of_dvd (List.length_pos_iff.2 hl) h
      rcases List.mem_cons.1 hc with rfl | hc
      · rw [List.length_take]; omega
      · exact ih (l.drop n) (by rw [List.length_drop]; exact Nat.dvd_sub h (Nat.dvd_refl n)) c hc

/-- Address of plane `i`: the planes of a default frame lie one behind the other in one allocation. -/
def addrOf (b : DefaultFrameBuffer) (base i : Nat) : Nat := base + ((b.planes.take i).map (·.buf.length)).sum

/-- **C65.** Views of elements of 1, 2 or 4 bytes of an aligned plane succeed and cover the whole plane; on a
misaligned plane that is not empty they fail with `InvalidConversion`, on a missing one with `InvalidIndex`. -/
theorem c65_views (k : MediaKind) (b : DefaultFrameBuffer) (hb : DefaultFrameBuffer.new k = .ok b) (eo : Bool)
    (addr sz i : Nat) (hsz : sz = 1 ∨ sz = 2 ∨ sz = 4) :
    (b.count ≤ i → asSlice eo b addr sz i = .error .InvalidIndex ∧ b.linesize i = .error .InvalidIndex) ∧
    (∀ p, b.planes[i]? = some p → b.linesize i = .ok p.linesize ∧
      (addr % sz ≠ 0 → p.buf ≠ [] → asSlice eo b addr sz i = .error .InvalidConversion) ∧
      (addr % sz = 0 → ∃ es, asSlice eo b addr sz i = .ok es ∧ es.flatten = p.buf ∧ ∀ e ∈ es, e.length = sz)) := by
  constructor
  · intro hi
    have : b.planes[i]? = none := List.getElem?_eq_none hi
    simp [asSlice, DefaultFrameBuffer.asSliceInner, DefaultFrameBuffer.linesize, this]
  · intro p hp
    have h32 := planes_dvd hb p (List.mem_of_getElem? hp)
    have hd : sz ∣ p.buf.length := by
      refine Nat.dvd_trans ?_ h32
      rcases hsz with rfl | rfl | rfl <;> decide
    refine ⟨by simp [DefaultFrameBuffer.linesize, hp], fun ha hne => ?_, fun ha => ?_⟩
    · simp [asSlice, DefaultFrameBuffer.asSliceInner, hp, asSliceOf, ha, hne]
    · have hpos : 0 < sz := by omega
      refine ⟨chunksAux sz p.buf.length p.buf, ?_, chunksAux_flatten hpos _ _ (Nat.le_refl _),
        chunksAux_exact _ _ hd⟩
      simp [asSlice, DefaultFrameBuffer.asSliceInner, hp, asSliceOf, ha, Nat.mod_eq_zero_of_dvd hd]

/-- **C65.** If the allocation is aligned, so is every plane. -/
theorem c65_aligned (k : MediaKind) (b : DefaultFrameBuffer) (hb : DefaultFrameBuffer.new k = .ok b)
    (base sz i : Nat) (hsz : sz = 1 ∨ sz = 2 ∨ sz = 4) (ha : base % sz = 0) : addrOf b base i % sz = 0 := by
  have h32 : ∀ p ∈ b.planes.take i, 32 ∣ p.buf.length := fun p hp => planes_dvd hb p (List.mem_of_mem_take hp)
  have hs : 32 ∣ ((b.planes.take i).map (·.buf.length)).sum := by
    generalize b.planes.take i = ps at h32
    induction ps with
    | nil => simp
    | cons p ps ih =>
      simp only [List.map_cons, List.sum_cons]
      exact Nat.dvd_add (h32 p (by simp)) (ih fun q hq => h32 q (by simp [hq]))
  have hd : sz ∣ 32 := by rcases hsz with rfl | rfl | rfl <;> decide
  exact Nat.mod_eq_zero_of_dvd (Nat.dvd_add (Nat.dvd_of_mod_eq_zero ha) (Nat.dvd_trans hd hs))

example (eo : Bool) : ∃ b, DefaultFrameBuffer.new (.Audio (.new 3 48000 ⟨[.C]⟩ formats.F32 none)) = .ok b ∧
    (asSlice eo b 64 4 0).toOption.map List.length = some 8 := by
  exact ⟨⟨[], [⟨List.replicate 32 0, 32⟩]⟩, by decide +kernel, by cases eo <;> decide +kernel⟩

end Verif.Frame
