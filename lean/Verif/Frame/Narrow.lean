import Verif.Frame.Release

/-!
# C125, C126: `av-data` on targets with any width of `usize`

The functions of `av-data` that compute sizes, with a `usize` of `b` bits, `b ≤ 64`, with and without overflow checks.
`!m` is taken with 64 bits in `Arith.align`: on operands of `b` bits the conjunction is the same (`land_unot_narrow`).
-/

namespace Verif.Frame
open Verif Verif.Data Verif.Audio Verif.Pixel

/-- The operators of a `usize` of `b` bits. Shifts by too many places panic, or use the number modulo `b` (a power of
two in every target). -/
def narrow (b : Nat) (checks : Bool) : Arith where
  add x y := if x + y < 2 ^ b then .ok (x + y) else if checks then .error .overflow else .ok ((x + y) % 2 ^ b)
  sub x y := if y ≤ x then .ok (x - y) else if checks then .error .overflow else .ok (x + 2 ^ b - y)
  mul x y := if x * y < 2 ^ b then .ok (x * y) else if checks then .error .overflow else .ok (x * y % 2 ^ b)
  shl x s := if s < b then .ok (x <<< s % 2 ^ b) else if checks then .error .shift else .ok (x <<< (s % b) % 2 ^ b)
  shr x s := if s < b then .ok (x >>> s) else if checks then .error .shift else .ok (x >>> (s % b))
  add8 x y := if x + y < 256 then .ok (x + y) else if checks then .error .overflow else .ok ((x + y) % 256)

/-- With 64 bits these are the operators of `Release`. -/
theorem narrow_64 : narrow 64 true = checked ∧ narrow 64 false = wrapping := by
  constructor
  · unfold narrow checked uadd umul ushl ushr usub
    simp
  · unfold narrow wrapping
    simp only [Arith.mk.injEq, Bool.false_eq_true, if_false]
    refine ⟨?_, ?_, ?_, ?_, ?_, ?_⟩
    · funext x y
      split
      · rw [Nat.mod_eq_of_lt (by assumption)]
      · rfl
    · funext x y
      split <;> rfl
    · funext x y
      split
      · rw [Nat.mod_eq_of_lt (by assumption)]
      · rfl
    · funext x y
      split
      · rw [Nat.mod_eq_of_lt (by assumption : y < 64)]
      · rfl
    · funext x y
      split
      · rw [Nat.mod_eq_of_lt (by assumption : y < 64)]
      · rfl
    · funext x y
      split
      · rw [Nat.mod_eq_of_lt (by assumption)]
      · rfl

/-- `x & !m` does not depend on the width of the operands. -/
theorem land_unot_narrow {b x m : Nat} (hb : b ≤ 64) (hx : x < 2 ^ b) (hm : m < 2 ^ b) :
    x &&& unot m = x &&& (2 ^ b - (m + 1)) := by
  have h64 : 2 ^ b ≤ 2 ^ 64 := Nat.pow_le_pow_right (by omega) hb
  apply Nat.eq_of_testBit_eq
  intro i
  rw [Nat.testBit_and, Nat.testBit_and, unot, Nat.testBit_two_pow_sub_succ (by omega), Nat.testBit_two_pow_sub_succ hm]
  by_cases hi : i < b
  · simp [hi, show i < 64 by omega]
  · rw [Nat.testBit_lt_two_pow (Nat.lt_of_lt_of_le hx (Nat.pow_le_pow_right (by omega) (by omega)))]
    simp

theorem one_shl {b s : Nat} (hs : s < b) : 1 <<< s % 2 ^ b = 2 ^ s := by
  rw [Nat.shiftLeft_eq, Nat.one_mul, Nat.mod_eq_of_lt (Nat.pow_lt_pow_right (by omega) hs)]

/-- What a narrow target computes with checks, a wider one does, with and without. -/
theorem narrow_wider {b c : Nat} (hb : b ≤ c) (checks : Bool) : (narrow b true).Agree (narrow c checks) := by
  have hp : 2 ^ b ≤ 2 ^ c := Nat.pow_le_pow_right (by omega) hb
  refine ⟨?_, ?_, ?_, ?_, ?_, ?_⟩
  · intro x y v h
    simp only [narrow] at h ⊢
    split at h
    · rw [if_pos (by omega)]; exact h
    · simp at h
  · intro x y v h
    simp only [narrow] at h ⊢
    split at h
    · rw [if_pos (by assumption)]; exact h
    · simp at h
  · intro x y v h
    simp only [narrow] at h ⊢
    split at h
    · rw [if_pos (by omega)]; exact h
    · simp at h
  · intro s v h
    simp only [narrow] at h ⊢
    split at h
    · rename_i hs
      rw [if_pos (by omega), one_shl (by omega)]
      rwa [one_shl hs] at h
    · simp at h
  · intro x s v h
    simp only [narrow] at h ⊢
    split at h
    · rw [if_pos (by omega)]; exact h
    · simp at h
  · intro x y v h
    simp only [narrow] at h ⊢
    split at h
    · rw [if_pos (by assumption)]; exact h
    · simp at h

/-- **C125.** Whatever a function of `av-data` that computes sizes returns on a target with `b` bits and overflow
checks, it returns without checks, and on every wider target: in particular on those of 64 bits, for which the
other theorems are. -/
theorem c125_agrees (b c : Nat) (hb : b ≤ c) (checks : Bool) :
    (∀ (f : Soniton) l a v, (narrow b true).getAudioSize f l a = .ok v → (narrow c checks).getAudioSize f l a = .ok v) ∧
    (∀ (x : Chromaton) w v, (narrow b true).getWidth x w = .ok v → (narrow c checks).getWidth x w = .ok v) ∧
    (∀ (x : Chromaton) h v, (narrow b true).getHeight x h = .ok v → (narrow c checks).getHeight x h = .ok v) ∧
    (∀ (x : Chromaton) w a v, (narrow b true).getLinesize x w a = .ok v → (narrow c checks).getLinesize x w a = .ok v) ∧
    (∀ (x : Chromaton) w h a v, (narrow b true).getDataSize x w h a = .ok v →
      (narrow c checks).getDataSize x w h a = .ok v) ∧
    (∀ w h fl ft fo v, (narrow b true).newVideoInfo w h fl ft fo = .ok v →
      (narrow c checks).newVideoInfo w h fl ft fo = .ok v) ∧
    (∀ (i : VideoInfo) a v, (narrow b true).videoSize i a = .ok v → (narrow c checks).videoSize i a = .ok v) ∧
    (∀ (i : AudioInfo) a v, (narrow b true).audioSize i a = .ok v → (narrow c checks).audioSize i a = .ok v) ∧
    (∀ k t f, (narrow b true).newDefaultFrame k t = .ok f → (narrow c checks).newDefaultFrame k t = .ok f) ∧
    (∀ f d l v, (narrow b true).copyFrameToBuffer f d l = .ok v → (narrow c checks).copyFrameToBuffer f d l = .ok v) ∧
    (∀ f s l v, (narrow b true).copyFromSlice f s l = .ok v → (narrow c checks).copyFromSlice f s l = .ok v) :=
  (narrow_wider hb checks).all

example : ∃ f, (narrow 16 true).newDefaultFrame (.Video smallVideo) none = .ok f ∧ f.planes.length = 3 ∧
    newDefaultFrame (.Video smallVideo) none = .ok f :=
  match h : (narrow 16 true).newDefaultFrame (.Video smallVideo) none with
  | .ok f => ⟨f, rfl, by
      have : ((narrow 16 true).newDefaultFrame (.Video smallVideo) none).map (·.planes.length) = .ok 3 := by decide +kernel
      rw [h] at this; simpa [Except.map] using this, by
      have := (c125_agrees 16 64 (by omega) true).2.2.2.2.2.2.2.2.1 _ _ _ h
      rw [narrow_64.1] at this
      rwa [← checked_model.2.2.2.2.2.2.2.2.1]⟩
  | .error e => by
      have : ((narrow 16 true).newDefaultFrame (.Video smallVideo) none).map (·.planes.length) = .ok 3 := by decide +kernel
      rw [h] at this; cases this

/-! ### C126: where it returns -/

/-- The component's columns and rows, and the bits of a line with its padding to `2^k` bytes, are numbers of `b` bits. -/
structure FitsIn (b : Nat) (c : Chromaton) (w h k : Nat) : Prop where
  hss : c.h_ss < b
  vss : c.v_ss < b
  width : w + 2 ^ c.h_ss ≤ 2 ^ b
  height : h + 2 ^ c.v_ss ≤ 2 ^ b
  pos : 0 < c.depth
  bits : (w + (2 ^ c.h_ss - 1)) / 2 ^ c.h_ss * c.depth + c.depth + 2 ^ k < 2 ^ b

theorem narrow_subsampled {b v ss : Nat} (h : v + 2 ^ ss ≤ 2 ^ b) (hs : ss < b) :
    (narrow b true).subsampled v ss = .ok ((v + (2 ^ ss - 1)) / 2 ^ ss) := by
  have := Nat.two_pow_pos ss
  simp only [Arith.subsampled, narrow, if_pos hs, one_shl hs, ok_bind, if_pos (show 1 ≤ 2 ^ ss by omega),
    if_pos (show v + (2 ^ ss - 1) < 2 ^ b by omega), Nat.shiftRight_eq_div_pow]

theorem narrow_align {b v k : Nat} (hb : b ≤ 64) (h : v + 2 ^ k < 2 ^ b) :
    (narrow b true).align v (2 ^ k) = .ok ((v + 2 ^ k - 1) / 2 ^ k * 2 ^ k) := by
  have h64 : 2 ^ b ≤ 2 ^ 64 := Nat.pow_le_pow_right (by omega) hb
  have := Nat.two_pow_pos k
  have e := align_pow (v := v) (k := k) (by omega)
  simp only [align, uadd_ok (show v + 2 ^ k < 2 ^ 64 by omega), usub_ok (show 1 ≤ v + 2 ^ k by omega),
    usub_ok (show 1 ≤ 2 ^ k by omega), ok_bind] at e
  simp only [Arith.align, narrow, if_pos h, ok_bind, if_pos (show 1 ≤ v + 2 ^ k by omega),
    if_pos (show 1 ≤ 2 ^ k by omega)]
  exact e

theorem narrow_linesize {b : Nat} {c : Chromaton} {w h k : Nat} (hb : b ≤ 64) (hk : 3 < b) (f : FitsIn b c w h k) :
    (narrow b true).getLinesize c w (2 ^ k) = .ok
      ((((w + (2 ^ c.h_ss - 1)) / 2 ^ c.h_ss * c.depth + c.depth - 1) / 8 + 2 ^ k - 1) / 2 ^ k * 2 ^ k) := by
  have h1 := f.bits
  have h2 := f.pos
  have := Nat.two_pow_pos k
  simp only [Arith.getLinesize, Arith.getWidth, narrow_subsampled f.width f.hss, ok_bind]
  generalize (w + (2 ^ c.h_ss - 1)) / 2 ^ c.h_ss = cw at *
  have e1 : (narrow b true).mul cw c.depth = .ok (cw * c.depth) := by
    simp only [narrow]; rw [if_pos (by omega)]
  have e2 : (narrow b true).add (cw * c.depth) c.depth = .ok (cw * c.depth + c.depth) := by
    simp only [narrow]; rw [if_pos (by omega)]
  have e3 : (narrow b true).sub (cw * c.depth + c.depth) 1 = .ok (cw * c.depth + c.depth - 1) := by
    simp only [narrow]; rw [if_pos (by omega)]
  have e4 : (narrow b true).shr (cw * c.depth + c.depth - 1) 3 = .ok ((cw * c.depth + c.depth - 1) / 8) := by
    simp only [narrow]; rw [if_pos hk, Nat.shiftRight_eq_div_pow]
  rw [e1, ok_bind, e2, ok_bind, e3, ok_bind, e4, ok_bind, narrow_align hb (by omega)]

theorem FitsIn.wide {b : Nat} {c : Chromaton} {w h k : Nat} (hb : b ≤ 64) (f : FitsIn b c w h k) : Fits c w k := by
  have h64 : 2 ^ b ≤ 2 ^ 64 := Nat.pow_le_pow_right (by omega) hb
  exact ⟨Nat.lt_of_lt_of_le f.hss hb, Nat.le_trans f.width h64, f.pos, Nat.lt_of_lt_of_le f.bits h64⟩

/-- The size of a component's data, if it is a number of `b` bits. -/
theorem narrow_dataSize {b : Nat} {c : Chromaton} {w h k z : Nat} (hb : b ≤ 64) (hk : 3 < b) (f : FitsIn b c w h k)
    (hz : c.getDataSize w h (2 ^ k) = .ok z) (hs : z < 2 ^ b) : (narrow b true).getDataSize c w h (2 ^ k) = .ok z := by
  obtain ⟨ls, ch, h1, h2, rfl⟩ := getDataSize_inv hz
  have h64 : 2 ^ b ≤ 2 ^ 64 := Nat.pow_le_pow_right (by omega) hb
  rw [getLinesize_eq (f.wide hb)] at h1
  simp only [Chromaton.getHeight, subsampled_eq (Nat.le_trans f.height h64) (Nat.lt_of_lt_of_le f.vss hb)] at h2
  simp only [Except.ok.injEq] at h1 h2
  simp only [Arith.getDataSize, narrow_subsampled f.height f.vss, narrow_linesize hb hk f, ok_bind, h1, h2]
  simp only [narrow, if_pos hs]

theorem narrow_sizeFrom {b : Nat} {w h : Nat} (hb : b ≤ 64) (hk : 3 < b) (cs : List (Option Chromaton)) :
    (∀ c, some c ∈ cs → FitsIn b c w h 5) → ∀ s t, VideoInfo.sizeFrom w h 32 s cs = .ok t → t < 2 ^ b →
      (narrow b true).sizeFrom w h 32 s cs = .ok t := by
  induction cs with
  | nil => intro _ s t h _; exact h
  | cons o cs ih =>
    intro hc s t hs ht
    cases o with
    | none => exact ih (fun c hm => hc c (by simp [hm])) s t hs ht
    | some c =>
      simp only [VideoInfo.sizeFrom] at hs
      cases hz : c.getDataSize w h 32 with
      | error e => rw [hz] at hs; cases hs
      | ok z =>
        rw [hz, ok_bind] at hs
        cases ha : uadd s z with
        | error e => rw [ha] at hs; cases hs
        | ok r =>
          rw [ha, ok_bind] at hs
          have hr : r = s + z := by
            simp only [uadd] at ha
            split at ha
            · simpa using ha.symm
            · cases ha
          have hle := sizeFrom_mono cs hs
          have e := narrow_dataSize hb hk (hc c (by simp)) (k := 5) hz (by omega)
          simp only [Arith.sizeFrom]
          rw [show (32 : Nat) = 2 ^ 5 from rfl, e, ok_bind]
          have e2 : (narrow b true).add s z = .ok r := by
            simp only [narrow]; rw [if_pos (by omega), hr]
          rw [e2, ok_bind]
          exact ih (fun c hm => hc c (by simp [hm])) r t hs ht

theorem narrow_videoPlanes {b : Nat} {w h : Nat} (hb : b ≤ 64) (hk : 3 < b) (cs : List (Option Chromaton)) :
    (∀ c, some c ∈ cs → FitsIn b c w h 5) → ∀ s t, VideoInfo.sizeFrom w h 32 s cs = .ok t → t < 2 ^ b →
      ∀ buf, (narrow b true).videoPlanes w h buf cs = DefaultFrameBuffer.videoPlanes w h buf cs := by
  induction cs with
  | nil => intro _ s t h _ buf; rfl
  | cons o cs ih =>
    intro hc s t hs ht buf
    cases o with
    | none => exact ih (fun c hm => hc c (by simp [hm])) s t hs ht buf
    | some c =>
      simp only [VideoInfo.sizeFrom] at hs
      cases hz : c.getDataSize w h 32 with
      | error e => rw [hz] at hs; cases hs
      | ok z =>
        rw [hz, ok_bind] at hs
        cases ha : uadd s z with
        | error e => rw [ha] at hs; cases hs
        | ok r =>
          rw [ha, ok_bind] at hs
          have hr : r = s + z := by
            simp only [uadd] at ha
            split at ha
            · simpa using ha.symm
            · cases ha
          have hle := sizeFrom_mono cs hs
          have f := hc c (by simp)
          have e := narrow_dataSize hb hk f (k := 5) hz (by omega)
          simp only [Arith.videoPlanes, DefaultFrameBuffer.videoPlanes, ALIGNMENT]
          have e2 : (narrow b true).getLinesize c w 32 = c.getLinesize w 32 := by
            rw [show (32 : Nat) = 2 ^ 5 from rfl, narrow_linesize hb hk f, getLinesize_eq (f.wide hb)]
          rw [hz, show (narrow b true).getDataSize c w h 32 = .ok z from e, e2]
          simp only [ok_bind]
          congr 1
          funext ls
          congr 1
          funext buf'
          exact ih (fun c hm => hc c (by simp [hm])) r t hs ht buf'

/-- **C126**, partial: in full, on every target, in every build, a default frame can be made for every picture and be
copied to and from buffers with the lengths and strides of its own planes without leaving a slice. Proved for
pictures whose size, and whose lines measured in bits, are numbers of the target's `usize`, and components of at
least 8 bits. The frame is the same on all targets. -/
theorem c126_partial (b : Nat) (hb : 3 < b) (hb' : b ≤ 64) (checks : Bool) (v : VideoInfo) (t : Option TimeInfo) (s : Nat)
    (hs : v.size 32 = .ok s) (hsb : s < 2 ^ b) (cs : List Chromaton)
    (hf : v.format.comp_info = cs.map some ++ List.replicate (5 - cs.length) none)
    (hc : ∀ c ∈ cs, 8 ≤ c.depth ∧ FitsIn b c v.width v.height 5) (hw : 0 < v.width) :
    ∃ f, newDefaultFrame (.Video v) t = .ok f ∧ (narrow b checks).newDefaultFrame (.Video v) t = .ok f ∧
      ∀ bufs : List (List U8), bufs.map (·.length) = f.planes.map (·.buf.length) →
        (∃ out, copyFrameToBuffer f bufs (f.planes.map (·.linesize)) = .ok out ∧
          (narrow b checks).copyFrameToBuffer f bufs (f.planes.map (·.linesize)) = .ok out) ∧
        ∃ f', copyFromSlice f bufs (f.planes.map (·.linesize)) = .ok f' ∧
          (narrow b checks).copyFromSlice f bufs (f.planes.map (·.linesize)) = .ok f' := by
  obtain ⟨_, _, _, _, _, _, _, _, a9, a10, a11⟩ := c125_agrees b b (Nat.le_refl _) checks
  obtain ⟨f, dims, h1, h2, h3, h4⟩ := c49_default v t s hs cs hf (fun c hm => ⟨(hc c hm).1, (hc c hm).2.wide hb'⟩) hw
  have hcs : ∀ c, some c ∈ v.format.comp_info → FitsIn b c v.width v.height 5 := by
    intro c hm
    rw [hf] at hm
    simp only [List.mem_append, List.mem_map, Option.some.injEq, exists_eq_right, List.mem_replicate, reduceCtorEq,
      and_false, or_false] at hm
    exact (hc c hm).2
  have hw2 : ∀ c, some c ∈ v.format.comp_info → (narrow b true).getWidth c v.width = c.getWidth v.width ∧
      (narrow b true).getHeight c v.height = c.getHeight v.height := by
    intro c hm
    have g := hcs c hm
    have h64 : 2 ^ b ≤ 2 ^ 64 := Nat.pow_le_pow_right (by omega) hb'
    simp only [Arith.getWidth, Arith.getHeight, Chromaton.getWidth, Chromaton.getHeight]
    rw [narrow_subsampled g.width g.hss, narrow_subsampled g.height g.vss,
      subsampled_eq (Nat.le_trans g.width h64) (Nat.lt_of_lt_of_le g.hss hb'),
      subsampled_eq (Nat.le_trans g.height h64) (Nat.lt_of_lt_of_le g.vss hb')]
    exact ⟨rfl, rfl⟩
  have n1 : (narrow b true).newDefaultFrame (.Video v) t = .ok f := by
    rw [← h1]
    simp only [Arith.newDefaultFrame, newDefaultFrame, Arith.newBuffer, DefaultFrameBuffer.new, Arith.videoSize,
      ALIGNMENT]
    rw [narrow_sizeFrom hb' hb _ hcs 0 s hs hsb, hs]
    simp only [ok_bind]
    rw [narrow_videoPlanes hb' hb _ hcs 0 s hs hsb]
  have nout : ∀ (ds : List (List U8)) ls ps (cc : List (Option Chromaton)),
      (∀ c, some c ∈ cc → (narrow b true).getWidth c v.width = c.getWidth v.width ∧
        (narrow b true).getHeight c v.height = c.getHeight v.height) →
      (narrow b true).copyOut v.width v.height ds ls ps cc = copyOut v.width v.height ds ls ps cc := by
    intro ds
    induction ds with
    | nil => intro ls ps cc _; rfl
    | cons d ds ih =>
      intro ls ps cc hcc
      cases ls <;> cases ps <;> cases cc <;> try rfl
      rename_i o cc
      cases o with
      | none => rfl
      | some c =>
        simp only [Arith.copyOut, copyOut, ih _ _ cc (fun c hm => hcc c (by simp [hm])), (hcc c (by simp)).1,
          (hcc c (by simp)).2]
  have nin : ∀ (ps : List Plane) ss ls (cc : List (Option Chromaton)),
      (∀ c, some c ∈ cc → (narrow b true).getWidth c v.width = c.getWidth v.width ∧
        (narrow b true).getHeight c v.height = c.getHeight v.height) →
      (narrow b true).copyIn v.width v.height ps ss ls cc = copyIn v.width v.height ps ss ls cc := by
    intro ps
    induction ps with
    | nil => intro ss ls cc _; rfl
    | cons p ps ih =>
      intro ss ls cc hcc
      cases ss <;> cases ls <;> cases cc <;> try rfl
      rename_i o cc
      cases o with
      | none => rfl
      | some c =>
        simp only [Arith.copyIn, copyIn, ih _ _ cc (fun c hm => hcc c (by simp [hm])), (hcc c (by simp)).1,
          (hcc c (by simp)).2]
  refine ⟨f, h1, a9 _ _ _ n1, fun bufs hbu => ?_⟩
  obtain ⟨⟨out, c1, _⟩, f', c2, _⟩ := c49_copies f v h2 dims h3 h4 bufs (f.planes.map (·.linesize))
    (h4.congr (by rw [hbu, List.map_map]; rfl))
  refine ⟨⟨out, c1, a10 _ _ _ _ ?_⟩, f', c2, a11 _ _ _ _ ?_⟩
  · rw [← c1]
    simp only [Arith.copyFrameToBuffer, copyFrameToBuffer, h2]
    rw [nout _ _ _ _ hw2]
  · rw [← c2]
    simp only [Arith.copyFromSlice, copyFromSlice, h2]
    rw [nin _ _ _ _ hw2]

/-- A picture of 49248 by 87211: 8-bit grey, 4 GiB and 32 bytes. -/
def bigVideo : VideoInfo := ⟨49248, 87211, false, .I, gray8, 8⟩

/-- **C126** fails on 32-bit targets: the size wraps to 32, so without overflow checks the frame gets a plane of 32
bytes with lines of 49248, and copying a line into it or out of it overruns it. With checks it panics. With 64 bits it
is a frame like any other. -/
theorem c126_fails :
    (∃ f, (narrow 32 false).newDefaultFrame (.Video bigVideo) none = .ok f ∧
      f.planes = [⟨List.replicate 32 0, 49248⟩] ∧
      (narrow 32 false).copyFrameToBuffer f [List.replicate 32 0] [49248] = .error .ub ∧
      (narrow 32 false).copyFromSlice f [List.replicate 32 0] [49248] = .error .ub) ∧
    (narrow 32 true).newDefaultFrame (.Video bigVideo) none = .error .overflow ∧
    bigVideo.size 32 = .ok (2 ^ 32 + 32) :=
  ⟨⟨⟨.Video bigVideo, [⟨List.replicate 32 0, 49248⟩], .default⟩, by decide +kernel⟩, by decide +kernel, by decide +kernel⟩

example : ∃ s, smallVideo.size 32 = .ok s ∧ s < 2 ^ 16 ∧ smallVideo.format.comp_info =
      [Chromaton.yuv8 0 0 0, .yuv8 1 1 1, .yuv8 1 1 2].map some ++ List.replicate 2 none ∧
    ∀ c ∈ [Chromaton.yuv8 0 0 0, .yuv8 1 1 1, .yuv8 1 1 2], 8 ≤ c.depth ∧ FitsIn 16 c smallVideo.width smallVideo.height 5 := by
  refine ⟨_, (by decide +kernel : smallVideo.size 32 = .ok 192), by decide, by decide, ?_⟩
  intro c hc
  simp only [List.mem_cons, List.not_mem_nil, or_false] at hc
  rcases hc with rfl | rfl | rfl <;>
    exact ⟨by decide, ⟨by decide, by decide, by decide, by decide, by decide, by decide⟩⟩

end Verif.Frame
