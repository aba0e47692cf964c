import Verif.Pixel.Model

/-! # C45, C46, C51–C53, C62, C63, C68–C71: pixel formats -/

namespace Verif.Pixel
open Verif Verif.Data

/-! ### C45: dimensions of a component -/

theorem subsampled_eq {v ss : Nat} (h : v + 2 ^ ss ≤ 2 ^ 64) (hs : ss < 64) :
    Chromaton.subsampled v ss = .ok ((v + (2 ^ ss - 1)) / 2 ^ ss) := by
  have := Nat.two_pow_pos ss
  simp only [Chromaton.subsampled, ushl_one hs, usub_ok (show 1 ≤ 2 ^ ss by omega), ok_bind,
    uadd_ok (show v + (2 ^ ss - 1) < 2 ^ 64 by omega), ushr_ok hs]

theorem ceil_cover {v b : Nat} (hb : 0 < b) :
    (∀ x < v, x / b < (v + (b - 1)) / b) ∧ ∀ y < (v + (b - 1)) / b, ∃ x < v, x / b = y := by
  constructor
  · intro x hx
    rw [Nat.lt_iff_add_one_le, Nat.le_div_iff_mul_le hb, Nat.add_mul]
    have := Nat.div_mul_le_self x b
    omega
  · intro y hy
    rw [Nat.lt_iff_add_one_le, Nat.le_div_iff_mul_le hb, Nat.add_mul] at hy
    exact ⟨y * b, by omega, Nat.mul_div_cancel y hb⟩

/-- **C45.** Sample `x / 2^ss` exists for every column `x`, and every sample belongs to some column. The same for
rows. -/
theorem c45_dimensions (c : Chromaton) (w h : Nat) (hw : w + 2 ^ c.h_ss ≤ 2 ^ 64) (hh : h + 2 ^ c.v_ss ≤ 2 ^ 64)
    (hs : c.h_ss < 64) (vs : c.v_ss < 64) :
    ∃ cw ch, c.getWidth w = .ok cw ∧ c.getHeight h = .ok ch ∧
      (∀ x < w, x / 2 ^ c.h_ss < cw) ∧ (∀ y < cw, ∃ x < w, x / 2 ^ c.h_ss = y) ∧
      (∀ x < h, x / 2 ^ c.v_ss < ch) ∧ (∀ y < ch, ∃ x < h, x / 2 ^ c.v_ss = y) := by
  have a := ceil_cover (v := w) (Nat.two_pow_pos c.h_ss)
  have b := ceil_cover (v := h) (Nat.two_pow_pos c.v_ss)
  exact ⟨_, _, subsampled_eq hw hs, subsampled_eq hh vs, a.1, a.2, b.1, b.2⟩

example : (Chromaton.yuv8 1 1 1).getWidth 43 = .ok 22 ∧ (Chromaton.yuv8 2 0 1).getWidth 5 = .ok 2 := by decide

/-! ### C46, C69: strides -/

/-- No intermediate result of `get_linesize` overflows, and the depth is not zero. -/
structure Fits (c : Chromaton) (w k : Nat) : Prop where
  ss : c.h_ss < 64
  width : w + 2 ^ c.h_ss ≤ 2 ^ 64
  pos : 0 < c.depth
  bits : (w + (2 ^ c.h_ss - 1)) / 2 ^ c.h_ss * c.depth + c.depth + 2 ^ k < 2 ^ 64

theorem getLinesize_eq {c : Chromaton} {w k : Nat} (f : Fits c w k) :
    c.getLinesize w (2 ^ k) = .ok
      ((((w + (2 ^ c.h_ss - 1)) / 2 ^ c.h_ss * c.depth + c.depth - 1) / 8 + 2 ^ k - 1) / 2 ^ k * 2 ^ k) := by
  have h1 := f.bits
  have h2 := f.pos
  have := Nat.two_pow_pos k
  simp only [Chromaton.getLinesize, Chromaton.getWidth, subsampled_eq f.width f.ss, ok_bind]
  generalize (w + (2 ^ c.h_ss - 1)) / 2 ^ c.h_ss = cw at *
  rw [umul_ok (by omega), ok_bind, uadd_ok (by omega), ok_bind, usub_ok (by omega), ok_bind, ushr_ok (by omega),
    ok_bind]
  exact align_pow (by omega)

/-- **C46**, partial: in full, the stride holds the bits of a line for every component. Proved for depths of at
least 8 bits, and below for line lengths that end in the last bits of a byte. -/
theorem c46_linesize_partial {c : Chromaton} {w k : Nat} (f : Fits c w k) :
    ∃ cw ls, c.getWidth w = .ok cw ∧ c.getLinesize w (2 ^ k) = .ok ls ∧ 2 ^ k ∣ ls ∧
      (8 ≤ c.depth ∨ cw * c.depth % 8 = 0 ∨ 8 < cw * c.depth % 8 + c.depth → cw * c.depth ≤ 8 * ls) := by
  refine ⟨_, _, subsampled_eq f.width f.ss, getLinesize_eq f, ⟨_, Nat.mul_comm _ _⟩, ?_⟩
  generalize (w + (2 ^ c.h_ss - 1)) / 2 ^ c.h_ss = cw at *
  intro h
  have h2 := f.pos
  have hr := (roundUp_bounds ((cw * c.depth + c.depth - 1) / 8) (2 ^ k) (Nat.two_pow_pos k)).1
  omega

/-- **C46**, partial: exactly when the stride holds the bits of a line. Apart from the line lengths above, it does when
the number of whole bytes of the line is not a multiple of the alignment. -/
theorem c46_exact_partial {c : Chromaton} {w k : Nat} (f : Fits c w k) :
    ∃ cw ls, c.getWidth w = .ok cw ∧ c.getLinesize w (2 ^ k) = .ok ls ∧
      (cw * c.depth ≤ 8 * ls ↔
        cw * c.depth % 8 = 0 ∨ 8 < cw * c.depth % 8 + c.depth ∨ ¬ 2 ^ k ∣ cw * c.depth / 8) := by
  refine ⟨_, _, subsampled_eq f.width f.ss, getLinesize_eq f, ?_⟩
  generalize (w + (2 ^ c.h_ss - 1)) / 2 ^ c.h_ss = cw at *
  have h2 := f.pos
  obtain ⟨r1, r2⟩ := roundUp_bounds ((cw * c.depth + c.depth - 1) / 8) (2 ^ k) (Nat.two_pow_pos k)
  by_cases hs : cw * c.depth % 8 = 0 ∨ 8 < cw * c.depth % 8 + c.depth
  · constructor
    · intro _
      rcases hs with hs | hs
      · exact .inl hs
      · exact .inr (.inl hs)
    · intro _; omega
  · have hF : (cw * c.depth + c.depth - 1) / 8 = cw * c.depth / 8 := by omega
    rw [hF] at r1 r2 ⊢
    generalize hls : (cw * c.depth / 8 + 2 ^ k - 1) / 2 ^ k * 2 ^ k = ls at *
    have hdiv : 2 ^ k ∣ ls := ⟨_, by rw [← hls, Nat.mul_comm]⟩
    constructor
    · intro hle
      refine .inr (.inr ?_)
      rintro ⟨q, hq⟩
      obtain ⟨q', hq'⟩ := hdiv
      have : q < q' := by
        refine Nat.lt_of_mul_lt_mul_left (a := 2 ^ k) ?_
        omega
      have := Nat.mul_le_mul_left (2 ^ k) this
      rw [Nat.mul_succ] at this
      omega
    · rintro (h | h | h)
      · omega
      · omega
      · have : ls ≠ cw * c.depth / 8 := fun e => h (e ▸ hdiv)
        omega

/-- **C46.** The data size is the stride times the component height. -/
theorem c46_data_size {c : Chromaton} {w h a ls ch : Nat} (hl : c.getLinesize w a = .ok ls)
    (hh : c.getHeight h = .ok ch) (ho : ls * ch < 2 ^ 64) : c.getDataSize w h a = .ok (ls * ch) := by
  unfold Chromaton.getHeight at hh
  simp only [Chromaton.getDataSize, hh, hl, ok_bind, umul_ok ho]

/-- **C46** fails: at one bit per sample a line of 257 samples does not fit its stride of 32 bytes. -/
theorem c46_fails : ∃ (c : Chromaton) (w : Nat), c.depth = 1 ∧ Fits c w 5 ∧
    ∃ cw ls, c.getWidth w = .ok cw ∧ c.getLinesize w (2 ^ 5) = .ok ls ∧ 8 * ls < cw * c.depth :=
  ⟨.new 0 0 true 1 0 0 1, 257, rfl, ⟨by decide, by decide, by decide, by decide⟩, 257, 32, by decide, by decide,
    by decide⟩

example : Fits (.yuv8 1 1 1) 43 5 ∧ (Chromaton.yuv8 1 1 1).getLinesize 43 (2 ^ 5) = .ok 32 ∧
    (Chromaton.yuv8 1 1 1).getDataSize 43 3 (2 ^ 5) = .ok 64 :=
  ⟨⟨by decide, by decide, by decide, by decide⟩, by decide, by decide⟩

/-- **C69**, partial: in full, the stride is the least multiple of the alignment that holds a line ("the minimal
stride") for every component. Proved for 8 bits. -/
theorem c69_minimal_partial {c : Chromaton} {w k : Nat} (f : Fits c w k) (hd : c.depth = 8) :
    ∃ cw ls, c.getWidth w = .ok cw ∧ c.getLinesize w (2 ^ k) = .ok ls ∧
      ∀ m, 2 ^ k ∣ m → cw * c.depth ≤ 8 * m → ls ≤ m := by
  refine ⟨_, _, subsampled_eq f.width f.ss, getLinesize_eq f, ?_⟩
  rw [hd]
  generalize (w + (2 ^ c.h_ss - 1)) / 2 ^ c.h_ss = cw at *
  rintro m ⟨q, rfl⟩ hm
  have hp := Nat.two_pow_pos k
  rw [show (cw * 8 + 8 - 1) / 8 = cw by omega]
  have : (cw + 2 ^ k - 1) / 2 ^ k ≤ q := by
    refine Nat.le_of_lt_succ ((Nat.div_lt_iff_lt_mul hp).2 ?_)
    rw [Nat.succ_mul, Nat.mul_comm q]; omega
  rw [Nat.mul_comm]; exact Nat.mul_le_mul_left _ this

/-- **C69**, partial: exactly when the stride is minimal; always up to 8 bits. -/
theorem c69_exact_partial {c : Chromaton} {w k : Nat} (f : Fits c w k) :
    ∃ cw ls, c.getWidth w = .ok cw ∧ c.getLinesize w (2 ^ k) = .ok ls ∧
      ((∀ m, 2 ^ k ∣ m → cw * c.depth ≤ 8 * m → ls ≤ m) ↔
        ¬ ∃ m, 2 ^ k ∣ m ∧ cw * c.depth ≤ 8 * m ∧ 8 * m + 8 < cw * c.depth + c.depth) ∧
      (c.depth ≤ 8 → ∀ m, 2 ^ k ∣ m → cw * c.depth ≤ 8 * m → ls ≤ m) := by
  refine ⟨_, _, subsampled_eq f.width f.ss, getLinesize_eq f, ?_⟩
  generalize (w + (2 ^ c.h_ss - 1)) / 2 ^ c.h_ss = cw at *
  have h2 := f.pos
  have hp := Nat.two_pow_pos k
  have r1 := (roundUp_bounds ((cw * c.depth + c.depth - 1) / 8) (2 ^ k) hp).1
  have hmin : ∀ m, 2 ^ k ∣ m → (cw * c.depth + c.depth - 1) / 8 ≤ m →
      ((cw * c.depth + c.depth - 1) / 8 + 2 ^ k - 1) / 2 ^ k * 2 ^ k ≤ m := by
    rintro m ⟨q, rfl⟩ hm
    have : ((cw * c.depth + c.depth - 1) / 8 + 2 ^ k - 1) / 2 ^ k ≤ q := by
      refine Nat.le_of_lt_succ ((Nat.div_lt_iff_lt_mul hp).2 ?_)
      rw [Nat.succ_mul, Nat.mul_comm q]; omega
    rw [Nat.mul_comm]; exact Nat.mul_le_mul_left _ this
  refine ⟨⟨?_, fun h m hd hm => ?_⟩, fun hd m hm hle => hmin m hm (by omega)⟩
  · rintro h ⟨m, m1, m2, m3⟩
    have := h m m1 m2
    omega
  · refine hmin m hd ?_
    have := h ∘ fun h3 => ⟨m, hd, hm, h3⟩
    have h3 : ¬ 8 * m + 8 < cw * c.depth + c.depth := this
    omega

/-- 257 one-bit samples, as in `c46_fails`, and 10-bit samples with strides of a multiple of 32. -/
example : (2 ^ 5 ∣ 257 * 1 / 8) ∧ (¬ ∃ m, 2 ^ 5 ∣ m ∧ 43 * 10 ≤ 8 * m ∧ 8 * m + 8 < 43 * 10 + 10) ∧
    (Chromaton.yuvhb 0 0 10 0).getLinesize 43 (2 ^ 5) = .ok 64 := by
  refine ⟨by decide, ?_, by decide⟩
  rintro ⟨m, _, h2, h3⟩
  omega

/-- **C69** fails for 16 bits: one sample gets three bytes. -/
theorem c69_fails : ∃ (c : Chromaton) (w : Nat), c.depth = 16 ∧ Fits c w 0 ∧
    c.getWidth w = .ok 1 ∧ c.getLinesize w (2 ^ 0) = .ok 3 :=
  ⟨.new 0 0 false 16 0 0 1, 1, rfl, ⟨by decide, by decide, by decide, by decide⟩, by decide, by decide⟩

/-! ### C51: code points -/

/-- **C51.** Matrix coefficients: exactly the code points 0 to 17, both ways. -/
theorem c51_matrix :
    (∀ n, (MatrixCoefficients.fromU32 n).isSome ↔ n ≤ 17) ∧
    (∀ n m, MatrixCoefficients.fromU32 n = some m ↔ m.toU32 = n) := by
  refine ⟨fun n => ?_, fun n m => ⟨fun h => ?_, fun h => ?_⟩⟩
  · unfold MatrixCoefficients.fromU32; split <;> simp_all; omega
  · unfold MatrixCoefficients.fromU32 at h; split at h <;> simp at h <;> subst h <;> rfl
  · subst h; cases m <;> rfl

/-- **C51.** Colour primaries: exactly the code points 0 to 12 and 22, both ways. -/
theorem c51_primaries :
    (∀ n, (ColorPrimaries.fromU32 n).isSome ↔ n ≤ 12 ∨ n = 22) ∧
    (∀ n m, ColorPrimaries.fromU32 n = some m ↔ m.toU32 = n) := by
  refine ⟨fun n => ?_, fun n m => ⟨fun h => ?_, fun h => ?_⟩⟩
  · unfold ColorPrimaries.fromU32; split <;> simp_all; omega
  · unfold ColorPrimaries.fromU32 at h; split at h <;> simp at h <;> subst h <;> rfl
  · subst h; cases m <;> rfl

/-- **C51.** Transfer characteristics: exactly the code points 0 to 18, both ways. -/
theorem c51_transfer :
    (∀ n, (TransferCharacteristic.fromU32 n).isSome ↔ n ≤ 18) ∧
    (∀ n m, TransferCharacteristic.fromU32 n = some m ↔ m.toU32 = n) := by
  refine ⟨fun n => ?_, fun n m => ⟨fun h => ?_, fun h => ?_⟩⟩
  · unfold TransferCharacteristic.fromU32; split <;> simp_all; omega
  · unfold TransferCharacteristic.fromU32 at h; split at h <;> simp at h <;> subst h <;> rfl
  · subst h; cases m <;> rfl

/-- **C51.** The code points are those published in ITU-T H.273 (2024), tables 2 to 4. -/
theorem c51_published :
    (List.range 18).map MatrixCoefficients.fromU32 = [some .Identity, some .BT709, some .Unspecified, some .Reserved,
      some .BT470M, some .BT470BG, some .ST170M, some .ST240M, some .YCgCo, some .BT2020NonConstantLuminance,
      some .BT2020ConstantLuminance, some .ST2085, some .ChromaticityDerivedNonConstantLuminance,
      some .ChromaticityDerivedConstantLuminance, some .ICtCp, some .PqC2, some .YCgCoRe, some .YCgCoRo] ∧
    (List.range 13).map ColorPrimaries.fromU32 = [some .Reserved0, some .BT709, some .Unspecified, some .Reserved,
      some .BT470M, some .BT470BG, some .ST170M, some .ST240M, some .Film, some .BT2020, some .ST428, some .P3DCI,
      some .P3Display] ∧
    ColorPrimaries.fromU32 22 = some .Tech3213 ∧
    (List.range 19).map TransferCharacteristic.fromU32 = [some .Reserved0, some .BT1886, some .Unspecified,
      some .Reserved, some .BT470M, some .BT470BG, some .ST170M, some .ST240M, some .Linear, some .Logarithmic100,
      some .Logarithmic316, some .XVYCC, some .BT1361E, some .SRGB, some .BT2020Ten, some .BT2020Twelve,
      some .PerceptualQuantizer, some .ST428, some .HybridLogGamma] := by decide

example : ColorPrimaries.fromU32 22 = some .Tech3213 ∧ ColorPrimaries.fromU32 13 = none := by decide

/-! ### C52: setters -/

/-- **C52**, partial: in full, the getters return what was set. They do only if the value was there before; the
`_from_u32` variants report whether the code point is valid. -/
theorem c52_setters_partial (f : Formaton) :
    (∀ p, (f.setPrimaries p).2.getPrimaries = p ↔ f.getPrimaries = p) ∧
    (∀ p, (f.setXfer p).2.getXfer = p ↔ f.getXfer = p) ∧
    (∀ p, (f.setMatrix p).2.getMatrix = p ↔ f.getMatrix = p) ∧
    (∀ n, (f.setPrimariesFromU32 n).1 = ColorPrimaries.fromU32 n) ∧
    (∀ n, (f.setXferFromU32 n).1 = TransferCharacteristic.fromU32 n) ∧
    (∀ n, (f.setMatrixFromU32 n).1 = MatrixCoefficients.fromU32 n) := by
  refine ⟨fun _ => .rfl, fun _ => .rfl, fun _ => .rfl, fun n => ?_, fun n => ?_, fun n => ?_⟩
  · unfold Formaton.setPrimariesFromU32 Formaton.byValue; cases ColorPrimaries.fromU32 n <;> rfl
  · unfold Formaton.setXferFromU32 Formaton.byValue; cases TransferCharacteristic.fromU32 n <;> rfl
  · unfold Formaton.setMatrixFromU32 Formaton.byValue; cases MatrixCoefficients.fromU32 n <;> rfl

/-- **C52** fails for every setter: they take the format by value and change a copy. -/
theorem c52_fails : ∃ f : Formaton,
    (f.setPrimaries .BT709).2.getPrimaries ≠ .BT709 ∧ (f.setXfer .SRGB).2.getXfer ≠ .SRGB ∧
    (f.setMatrix .BT709).2.getMatrix ≠ .BT709 ∧
    (f.setPrimariesFromU32 1).1 = some .BT709 ∧ (f.setPrimariesFromU32 1).2.getPrimaries ≠ .BT709 ∧
    (f.setXferFromU32 13).1 = some .SRGB ∧ (f.setXferFromU32 13).2.getXfer ≠ .SRGB ∧
    (f.setMatrixFromU32 1).1 = some .BT709 ∧ (f.setMatrixFromU32 1).2.getMatrix ≠ .BT709 :=
  ⟨formats.YUV420, by decide⟩

/-! ### C53: predefined formats -/

/-- What `4:a:b` denotes: in a block of 4 by 2 pixels, `a` samples in the first row, and a second row of samples
unless `b = 0`. -/
def Denotes (a b : Nat) (c : Chromaton) : Prop := 4 / 2 ^ c.h_ss = a ∧ 2 / 2 ^ c.v_ss = if b = 0 then 1 else 2

instance : Decidable (Denotes a b c) := inferInstanceAs (Decidable (_ ∧ _))

/-- Three planes, the first in full size and the others subsampled as `4:a:b`, all of the same depth. -/
def IsYuv (a b depth : Nat) (f : Formaton) : Prop :=
  ∃ y u v, f.comp_info = [some y, some u, some v, none, none] ∧ f.components = 3 ∧ Denotes 4 4 y ∧
    Denotes a b u ∧ Denotes a b v ∧ y.depth = depth ∧ u.depth = depth ∧ v.depth = depth ∧
    ¬ y.packed ∧ ¬ u.packed ∧ ¬ v.packed

/-- Bits of component `c` in an element. -/
def occupies (c : Chromaton) : List Nat := (List.range c.depth).map (8 * c.comp_offs + c.shift + ·)

/-- Components lie inside the element, in pairwise different bits. -/
def IsPacked (f : Formaton) : Prop :=
  (∀ c ∈ f.comp_info.filterMap id, c.packed ∧ c.next_elem = f.elem_size ∧ ∀ b ∈ occupies c, b < 8 * f.elem_size) ∧
  (f.comp_info.filterMap id).Pairwise (fun c d => ∀ b ∈ occupies c, b ∉ occupies d) ∧
  f.components = (f.comp_info.filterMap id).length

instance : Decidable (IsPacked f) := inferInstanceAs (Decidable (_ ∧ _ ∧ _))

/-- A planar format that stores component `i` in plane `i`, little-endian, without alpha or palette. -/
def IsPlanar (f : Formaton) : Prop :=
  (∀ c ∈ f.comp_info.filterMap id, c.shift = 0 ∧ c.next_elem = 1) ∧
  (f.comp_info.filterMap id).map (·.comp_offs) = List.range f.components ∧
  f.model = .Trichromatic (.YUV (.YCbCr .Limited)) ∧ f.elem_size = 0 ∧ f.be = false ∧ f.alpha = false ∧
  f.palette = false

instance : Decidable (IsPlanar f) := inferInstanceAs (Decidable (_ ∧ _ ∧ _ ∧ _ ∧ _ ∧ _ ∧ _))

/-- Packed components in full resolution, each with the width and the first bit given by `lay`. -/
def IsRgb (lay : List (Nat × Nat)) (bytes : Nat) (palette : Bool) (f : Formaton) : Prop :=
  IsPacked f ∧ f.comp_info.map (Option.map fun c => (c.depth, 8 * c.comp_offs + c.shift)) =
    lay.map some ++ List.replicate (5 - lay.length) none ∧
  (∀ c ∈ f.comp_info.filterMap id, c.h_ss = 0 ∧ c.v_ss = 0) ∧
  f.model = .Trichromatic .RGB ∧ f.elem_size = bytes ∧ f.be = false ∧ f.alpha = decide (lay.length = 4) ∧
  f.palette = palette

instance : Decidable (IsRgb lay bytes palette f) := inferInstanceAs (Decidable (_ ∧ _ ∧ _ ∧ _ ∧ _ ∧ _ ∧ _ ∧ _))

/-- **C53**, partial: in full, every predefined format matches its name. Proved for these: subsampling and depth
of the planar formats; depth and position of the components of the packed formats, most significant first. -/
theorem c53_formats_partial :
    IsYuv 4 4 8 formats.YUV444 ∧ IsYuv 2 0 8 formats.YUV420 ∧ IsYuv 1 1 8 formats.YUV411 ∧
    IsYuv 1 0 8 formats.YUV410 ∧
    (∀ f ∈ [formats.YUV444, formats.YUV422, formats.YUV420, formats.YUV411, formats.YUV410], IsPlanar f) ∧
    IsRgb [(5, 11), (6, 5), (5, 0)] 2 false formats.RGB565 ∧
    IsRgb [(8, 16), (8, 8), (8, 0)] 3 false formats.RGB24 ∧
    IsRgb [(8, 24), (8, 16), (8, 8), (8, 0)] 4 false formats.RGBA ∧
    IsRgb [(8, 0), (8, 8), (8, 16)] 3 true formats.PAL8 := by
  refine ⟨⟨_, _, _, rfl, by decide⟩, ⟨_, _, _, rfl, by decide⟩, ⟨_, _, _, rfl, by decide⟩,
    ⟨_, _, _, rfl, by decide⟩, by decide, by decide, by decide, by decide, by decide⟩

/-- A format with all its components changed, the first excepted. -/
def mapChroma (g : Chromaton → Chromaton) (f : Formaton) : Formaton :=
  { f with comp_info := match f.comp_info with
      | [] => []
      | y :: cs => y :: cs.map (Option.map g) }

/-- Depth and offset exchanged. -/
def swapDepth (c : Chromaton) : Chromaton := { c with depth := c.comp_offs, comp_offs := c.depth }

/-- The directions exchanged. -/
def swapDir (c : Chromaton) : Chromaton := { c with h_ss := c.v_ss, v_ss := c.h_ss }

/-- **C53**, partial: what is wrong with the other formats, and nothing else is. 4:2:2 has the directions of its
chroma components exchanged; the 10-bit formats have depth and offset of the chroma components exchanged; the
16-bit RGB formats give offsets in samples, not in bytes. -/
theorem c53_wrong_partial :
    IsYuv 2 2 8 (mapChroma swapDir formats.YUV422) ∧
    IsYuv 4 4 10 (mapChroma swapDepth formats.YUV444_10) ∧
    IsYuv 2 2 10 (mapChroma (swapDir ∘ swapDepth) formats.YUV422_10) ∧
    IsYuv 2 0 10 (mapChroma swapDepth formats.YUV420_10) ∧
    IsYuv 1 1 10 (mapChroma swapDepth formats.YUV411_10) ∧
    IsYuv 1 0 10 (mapChroma swapDepth formats.YUV410_10) ∧
    (∀ f ∈ [formats.YUV444_10, formats.YUV422_10, formats.YUV420_10, formats.YUV411_10, formats.YUV410_10],
      IsPlanar (mapChroma swapDepth f)) ∧
    IsRgb [(16, 32), (16, 16), (16, 0)] 6 false
      { formats.RGB48 with
        comp_info := formats.RGB48.comp_info.map (Option.map fun c => { c with comp_offs := 2 * c.comp_offs }) } ∧
    IsRgb [(16, 48), (16, 32), (16, 16), (16, 0)] 8 false
      { formats.RGBA64 with
        comp_info := formats.RGBA64.comp_info.map (Option.map fun c => { c with comp_offs := 2 * c.comp_offs }) } := by
  refine ⟨⟨_, _, _, rfl, by decide⟩, ⟨_, _, _, rfl, by decide⟩, ⟨_, _, _, rfl, by decide⟩,
    ⟨_, _, _, rfl, by decide⟩, ⟨_, _, _, rfl, by decide⟩, ⟨_, _, _, rfl, by decide⟩, by decide, by decide, by decide⟩

/-- **C53** The predefined formats leave the colour description open. -/
theorem c53_colour : ∀ f ∈ [formats.YUV444, formats.YUV422, formats.YUV420, formats.YUV411, formats.YUV410,
      formats.YUV444_10, formats.YUV422_10, formats.YUV420_10, formats.YUV411_10, formats.YUV410_10,
      formats.PAL8, formats.RGB565, formats.RGB24, formats.RGBA, formats.RGB48, formats.RGBA64],
    f.primaries = .Unspecified ∧ f.xfer = .Unspecified ∧ f.matrix = .Unspecified ∧
      f.chroma_location = .Unspecified := by decide

theorem not_isYuv {a b d : Nat} {f : Formaton} {y u v : Chromaton}
    (hf : f.comp_info = [some y, some u, some v, none, none]) (h : ¬ (Denotes a b u ∧ u.depth = d)) :
    ¬ IsYuv a b d f := by
  rintro ⟨y', u', v', h1, _, _, h2, _, _, h3, _⟩
  rw [hf] at h1
  simp only [List.cons.injEq, Option.some.injEq] at h1
  obtain ⟨_, rfl, _⟩ := h1
  exact h ⟨h2, h3⟩

/-- **C53** fails: 4:2:2 halves the height instead of the width, the 10-bit formats have chroma depths 1 and 2,
and the components of the 16-bit RGB formats overlap. -/
theorem c53_fails :
    ¬ IsYuv 2 2 8 formats.YUV422 ∧ ¬ IsYuv 4 4 10 formats.YUV444_10 ∧ ¬ IsYuv 2 2 10 formats.YUV422_10 ∧
    ¬ IsYuv 2 0 10 formats.YUV420_10 ∧ ¬ IsYuv 1 1 10 formats.YUV411_10 ∧ ¬ IsYuv 1 0 10 formats.YUV410_10 ∧
    ¬ IsPacked formats.RGB48 ∧ ¬ IsPacked formats.RGBA64 :=
  ⟨not_isYuv rfl (by decide), not_isYuv rfl (by decide), not_isYuv rfl (by decide), not_isYuv rfl (by decide),
    not_isYuv rfl (by decide), not_isYuv rfl (by decide), by decide, by decide⟩

/-! ### C62: construction -/

theorem storeFrom_spec (vs : List Chromaton) (pre : List (Option Chromaton)) (k : Nat) (h : vs.length ≤ k) :
    Formaton.storeFrom pre.length vs (pre ++ List.replicate k none) =
      .ok (pre ++ vs.map some ++ List.replicate (k - vs.length) none) := by
  induction vs generalizing pre k with
  | nil => simp [Formaton.storeFrom]
  | cons v vs ih =>
    match k, h with
    | k + 1, h =>
      have h' : vs.length ≤ k := by simpa using h
      have := ih (pre ++ [some v]) k h'
      simp only [List.length_append, List.length_cons, List.length_nil, List.append_assoc,
        List.cons_append, List.nil_append] at this
      rw [Formaton.storeFrom, Formaton.setIdx, if_pos (by simp), ok_bind,
        List.set_append_right _ _ (Nat.le_refl _), Nat.sub_self, List.replicate_succ, List.set_cons_zero, this]
      simp

/-- **C62.** `new` stores the components in order and panics exactly for more than five. -/
theorem c62_new (model : ColorModel) (cs : List Chromaton) (es : Nat) (be al pa : Bool) :
    (5 < cs.length → Formaton.new model cs es be al pa = .error .explicit) ∧
    (cs.length ≤ 5 → ∃ f, Formaton.new model cs es be al pa = .ok f ∧ f.getNumComp = cs.length ∧
      f.comp_info.length = 5 ∧ (∀ i, f.getChromaton i = .ok cs[i]?) ∧
      f.model = model ∧ f.elem_size = es ∧ f.be = be ∧ f.alpha = al ∧ f.palette = pa ∧
      f.primaries = .Unspecified ∧ f.xfer = .Unspecified ∧ f.matrix = .Unspecified ∧
      f.chroma_location = .Unspecified) := by
  constructor
  · intro h; simp [Formaton.new, h]
  · intro h
    have hs := storeFrom_spec cs [] 5 h
    simp only [List.length_nil, List.nil_append] at hs
    rw [Formaton.new, if_neg (by omega), hs]
    refine ⟨_, rfl, Nat.mod_eq_of_lt (by omega), by simp; omega, fun i => ?_, rfl, rfl, rfl, rfl, rfl, rfl, rfl,
      rfl, rfl⟩
    simp only [Formaton.getChromaton, idx]
    by_cases h1 : i < cs.length
    · rw [if_pos (by simp; omega), List.getElem?_append_left (by simpa using h1)]
      simp [h1]
    · by_cases h2 : i < 5
      · rw [if_pos (by simp; omega), List.getElem?_append_right (by simp; omega)]
        have : i - cs.length < 5 - cs.length := by omega
        simp [this, List.getElem?_eq_none (Nat.le_of_not_lt h1)]
      · rw [if_neg (by simp; omega), List.getElem?_eq_none (Nat.le_of_not_lt h1)]

example : (Formaton.new .CMYK [.yuv8 0 0 0, .yuv8 0 0 1] 1 false true false).toOption.map
    (fun f => (f.getNumComp, f.getChromaton 1, f.getChromaton 2)) =
      some (2, .ok (some (.yuv8 0 0 1)), .ok none) := by decide

/-! ### C63: total depth -/

/-- Depths of the components. -/
def depths (f : Formaton) : List Nat := (f.comp_info.filterMap id).map (·.depth)

theorem sumDepth_spec (cs : List (Option Chromaton)) (d : Nat) :
    (d + ((cs.filterMap id).map (·.depth)).sum < 256 →
      Formaton.sumDepth d cs = .ok (d + ((cs.filterMap id).map (·.depth)).sum)) ∧
    (d < 256 → 256 ≤ d + ((cs.filterMap id).map (·.depth)).sum → Formaton.sumDepth d cs = .error .overflow) := by
  induction cs generalizing d with
  | nil => simp [Formaton.sumDepth]
  | cons c cs ih =>
    cases c with
    | none => simpa [Formaton.sumDepth] using ih d
    | some c =>
      have := ih (d + c.depth)
      simp only [Formaton.sumDepth, List.filterMap_cons, id, List.map_cons, List.sum_cons]
      constructor
      · intro h
        rw [if_pos (by omega), this.1 (by omega), Nat.add_assoc]
      · intro hd h
        by_cases hc : d + c.depth < 256
        · rw [if_pos hc, this.2 hc (by omega)]
        · rw [if_neg hc]

/-- **C63**, partial: in full, `get_total_depth` is the sum of the depths for every format. It is exactly when the
sum is below 256 (otherwise the `u8` overflows). -/
theorem c63_total_partial (f : Formaton) :
    ((depths f).sum < 256 → f.getTotalDepth = .ok (depths f).sum) ∧
    (256 ≤ (depths f).sum → f.getTotalDepth = .error .overflow) := by
  have := sumDepth_spec f.comp_info 0
  simp only [Nat.zero_add] at this
  exact ⟨this.1, this.2 (by omega)⟩

/-- **C63** fails: four components of 64 bits. -/
theorem c63_fails : ∃ f : Formaton, (depths f).sum = 256 ∧ (∀ d ∈ depths f, d = 64) ∧
    f.getTotalDepth = .error .overflow :=
  ⟨{ formats.RGBA with comp_info := [some (.new 0 0 false 64 0 0 8), some (.new 0 0 false 64 0 1 8),
      some (.new 0 0 false 64 0 2 8), some (.new 0 0 false 64 0 3 8), none] }, by decide⟩

example : formats.YUV420.getTotalDepth = .ok 24 := by decide

/-! ### C70, C71: texts -/

/-- **C70.** The texts of the code points are distinct within each enumeration. -/
theorem c70_names_distinct :
    (∀ a b : MatrixCoefficients, a.display = b.display → a = b) ∧
    (∀ a b : ColorPrimaries, a.display = b.display → a = b) ∧
    (∀ a b : TransferCharacteristic, a.display = b.display → a = b) ∧
    (∀ a b : ChromaLocation, a.display = b.display → a = b) ∧
    (∀ a b : ColorModel, a.display = b.display → a = b) := by
  refine ⟨?_, ?_, ?_, ?_, ?_⟩
  · intro a b; cases a <;> cases b <;> decide
  · intro a b; cases a <;> cases b <;> decide
  · intro a b; cases a <;> cases b <;> decide
  · intro a b; cases a <;> cases b <;> decide
  · intro a b
    rcases a with (_ | ((_ | _) | _ | _) | _) | _ | _ | _ <;>
      rcases b with (_ | ((_ | _) | _ | _) | _) | _ | _ | _ <;> decide

/-- **C72** fails: YCoCg is shown under a name of its own ("YCbCg"); all other models under theirs. -/
theorem c72_fails : YUVSystem.YCoCg.display = "YCbCg" ∧
    (ColorModel.Trichromatic (.YUV .YCoCg)).display ≠ "YCoCg" := by decide

/-- **C72**, partial: in full, the text of every colour model is its name. Missing: YCoCg. -/
theorem c72_models_partial :
    ColorModel.CMYK.display = "CMYK" ∧ ColorModel.HSV.display = "HSV" ∧ ColorModel.LAB.display = "LAB" ∧
    (ColorModel.Trichromatic .RGB).display = "RGB" ∧ (ColorModel.Trichromatic .XYZ).display = "XYZ" ∧
    (ColorModel.Trichromatic (.YUV .ICtCp)).display = "ICtCp" ∧
    ∀ r, ("YCbCr".toList.isPrefixOf (ColorModel.Trichromatic (.YUV (.YCbCr r))).display.toList) = true := by
  refine ⟨rfl, rfl, rfl, rfl, rfl, rfl, fun r => ?_⟩
  cases r <;> decide

/-! ### C130: texts of reserved code points -/

/-- A text that says that its code point is reserved. -/
def saysReserved (s : String) : Bool := "Reserved".toList.isPrefixOf s.toList

/-- The code points ITU-T H.273 reserves for future use (tables 2 to 4, among those the library knows). -/
def reservedPrimaries : List Nat := [0, 3]

/-- See `reservedPrimaries`. -/
def reservedTransfer : List Nat := [0, 3]

/-- See `reservedPrimaries`; 0 is the identity matrix here. -/
def reservedMatrix : List Nat := [3]

/-- **C130**: the text of a code point says that it is reserved exactly for those that H.273 reserves. -/
def C130 : Prop :=
  (∀ n p, ColorPrimaries.fromU32 n = some p → (saysReserved p.display ↔ n ∈ reservedPrimaries)) ∧
  (∀ n p, TransferCharacteristic.fromU32 n = some p → (saysReserved p.display ↔ n ∈ reservedTransfer)) ∧
  (∀ n p, MatrixCoefficients.fromU32 n = some p → (saysReserved p.display ↔ n ∈ reservedMatrix))

/-- **C130**, partial: C130 holds for the matrix coefficients, and for all other code points but 0. Code point 2 is
shown as unspecified everywhere. Missing, and false: code point 0. -/
theorem c130_partial :
    (∀ n p, ColorPrimaries.fromU32 n = some p → n ≠ 0 → (saysReserved p.display ↔ n ∈ reservedPrimaries)) ∧
    (∀ n p, TransferCharacteristic.fromU32 n = some p → n ≠ 0 → (saysReserved p.display ↔ n ∈ reservedTransfer)) ∧
    (∀ n p, MatrixCoefficients.fromU32 n = some p → (saysReserved p.display ↔ n ∈ reservedMatrix)) ∧
    (∀ p, ColorPrimaries.fromU32 2 = some p → p.display = "Unspecified") ∧
    (∀ p, TransferCharacteristic.fromU32 2 = some p → p.display = "Unspecified") ∧
    (∀ p, MatrixCoefficients.fromU32 2 = some p → p.display = "Unspecified") := by
  refine ⟨fun n p h => ?_, fun n p h => ?_, fun n p h => ?_, ?_, ?_, ?_⟩
  · rw [c51_primaries.2] at h; subst h; cases p <;> decide
  · rw [c51_transfer.2] at h; subst h; cases p <;> decide
  · rw [c51_matrix.2] at h; subst h; cases p <;> decide
  · intro p h; rw [c51_primaries.2] at h; cases p <;> first | rfl | exact absurd h (by decide)
  · intro p h; rw [c51_transfer.2] at h; cases p <;> first | rfl | exact absurd h (by decide)
  · intro p h; rw [c51_matrix.2] at h; cases p <;> first | rfl | exact absurd h (by decide)

example : ColorPrimaries.fromU32 3 = some .Reserved ∧ saysReserved ColorPrimaries.Reserved.display = true := by decide

/-- **C130** fails: the reserved code point 0 of primaries and of transfer characteristics is shown as "Identity", the
name of matrix 0. -/
theorem c130_fails : ¬ C130 ∧
    (∀ p, ColorPrimaries.fromU32 0 = some p → p.display = MatrixCoefficients.Identity.display) ∧
    (∀ p, TransferCharacteristic.fromU32 0 = some p → p.display = MatrixCoefficients.Identity.display) := by
  refine ⟨fun h => ?_, ?_, ?_⟩
  · exact absurd ((h.1 0 .Reserved0 rfl).2 (by decide)) (by decide)
  · rintro p h; cases h; rfl
  · rintro p h; cases h; rfl

/-- **C71**, partial: in full, formatting a component or format never panics. It does not exactly when the
component is planar, or its depth is below 31 bits and its shift below 32. -/
theorem c71_display_partial (c : Chromaton) :
    (∃ s, c.display = .ok s) ↔ c.packed = false ∨ c.depth < 31 ∧ c.shift < 32 := by
  unfold Chromaton.display Chromaton.mask
  cases c.packed with
  | false => simp
  | true =>
    by_cases h1 : c.depth ≥ 32
    · simp [h1]; try omega
    · by_cases h2 : c.depth = 31
      · simp [h2]
      · by_cases h3 : c.shift ≥ 32
        · simp [h1, h2, h3]
        · simp [h1, h2, h3]; omega

theorem displayComps_ok (cs : List (Option Chromaton)) (s : String) :
    (∃ t, Formaton.displayComps s cs = .ok t) ↔ ∀ c, some c ∈ cs → ∃ t, c.display = .ok t := by
  induction cs generalizing s with
  | nil => simp [Formaton.displayComps]
  | cons o cs ih =>
    cases o with
    | none => simp [Formaton.displayComps, ih]
    | some c =>
      cases hc : c.display with
      | error e => simp [Formaton.displayComps, hc]
      | ok t => simp [Formaton.displayComps, hc, ih]

/-- The text in front of the components. -/
def Formaton.heading (f : Formaton) : String :=
  "Formaton for " ++ f.model.display ++ " (" ++ (if f.palette then "palette " else "") ++
    (if f.alpha then "alpha " else "") ++ "elem " ++ (if f.be then "BE" else "LE") ++ " size " ++
    toString f.elem_size ++ "): "

theorem Formaton.display_eq (f : Formaton) :
    f.display = do return "[" ++ (← displayComps f.heading f.comp_info) ++ "]" := rfl

/-- **C71**, partial: the same for formats. -/
theorem c71_format_partial (f : Formaton) :
    (∃ s, f.display = .ok s) ↔ ∀ c, some c ∈ f.comp_info → c.packed = false ∨ c.depth < 31 ∧ c.shift < 32 := by
  simp only [← c71_display_partial, ← displayComps_ok f.comp_info (f.heading)]
  rw [Formaton.display_eq]
  cases Formaton.displayComps f.heading f.comp_info with
  | error e => simp
  | ok t => simp

/-- **C71** fails: a packed component of 32 bits (for instance floating point) cannot be formatted. -/
theorem c71_fails : ∃ c : Chromaton, c.packed ∧ c.depth = 32 ∧ c.display = .error .shift :=
  ⟨.packrgb 32 0 0 16, by decide⟩

example : formats.RGB565.display =
    .ok "[Formaton for RGB (elem LE size 2):  (0x0, packed(+0,F800, step 2)) (0x0, packed(+0,7E0, step 2)) (0x0, packed(+0,1F, step 2))]" := by
  decide +kernel

end Verif.Pixel
