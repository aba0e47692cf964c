import Verif.Audio.Model

/-! # C43, C44, C54, C55, C64: audio formats and channel maps -/

namespace Verif.Audio
open Verif Verif.Data

/-- **C43.** Aligning to a power of two gives the least multiple not below the value. -/
theorem c43_align {v k : Nat} (h : v + 2 ^ k < 2 ^ 64) :
    ∃ r, align v (2 ^ k) = .ok r ∧ 2 ^ k ∣ r ∧ v ≤ r ∧ ∀ m, 2 ^ k ∣ m → v ≤ m → r ≤ m := by
  have hp := Nat.two_pow_pos k
  have hb := roundUp_bounds v (2 ^ k) hp
  refine ⟨_, align_pow h, ⟨_, Nat.mul_comm _ _⟩, hb.1, ?_⟩
  rintro m ⟨q, rfl⟩ hm
  have : (v + 2 ^ k - 1) / 2 ^ k ≤ q := by
    refine Nat.le_of_lt_succ ((Nat.div_lt_iff_lt_mul hp).2 ?_)
    rw [Nat.succ_mul, Nat.mul_comm q]; omega
  rw [Nat.mul_comm]; exact Nat.mul_le_mul_left _ this

example : align 37 (2 ^ 5) = .ok 64 ∧ 37 + 2 ^ 5 < 2 ^ 64 := by decide

/-- Bytes that `n` samples occupy: consecutive bits when packed, whole bytes each otherwise. -/
def needs (f : Soniton) (n : Nat) : Nat :=
  if f.packed then (n * f.bits + 7) / 8 else n * ((f.bits + 7) / 8)

theorem getAudioSize_eq {f : Soniton} {n k : Nat} (hb : f.bits < 256)
    (ho : n * (f.bits + 7) + 7 + 2 ^ k < 2 ^ 64) :
    f.getAudioSize n (2 ^ k) = .ok ((needs f n + 2 ^ k - 1) / 2 ^ k * 2 ^ k) := by
  rw [Nat.mul_add] at ho
  have hp := Nat.two_pow_pos k
  unfold Soniton.getAudioSize needs
  cases f.packed with
  | true =>
    have h1 : n * f.bits < 2 ^ 64 := by omega
    simp only [if_true, roundToByte, umul_ok h1, ok_bind, uadd_ok (show n * f.bits + 7 < 2 ^ 64 by omega),
      ushr_ok (show 3 < 64 by omega)]
    exact align_pow (by omega)
  | false =>
    have h1 : (f.bits + 7) / 8 ≤ f.bits + 7 := Nat.div_le_self _ _
    have h2 := Nat.mul_le_mul_left n h1
    rw [Nat.mul_add] at h2
    simp only [roundToByte, uadd_ok (show f.bits + 7 < 2 ^ 64 by omega),
      ushr_ok (show 3 < 64 by omega), ok_bind, Bool.false_eq_true, if_false, Nat.reducePow]
    rw [umul_ok (by omega)]
    exact align_pow (by omega)

/-- **C44.** The size holds `n` samples, is a multiple of the alignment, and is less than one alignment
unit larger than needed. -/
theorem c44_audio_size {f : Soniton} {n k : Nat} (hb : f.bits < 256)
    (ho : n * (f.bits + 7) + 7 + 2 ^ k < 2 ^ 64) :
    ∃ r, f.getAudioSize n (2 ^ k) = .ok r ∧
      n * f.bits ≤ 8 * r ∧
      (f.packed = false → ∀ i < n, ∃ b, f.bits ≤ 8 * b ∧ 8 * b < f.bits + 8 ∧ i * b + b ≤ r) ∧
      2 ^ k ∣ r ∧ r < needs f n + 2 ^ k := by
  have hp := Nat.two_pow_pos k
  have hr := roundUp_bounds (needs f n) (2 ^ k) hp
  refine ⟨_, getAudioSize_eq hb ho, ?_, ?_, ⟨_, Nat.mul_comm _ _⟩, hr.2⟩
  · refine Nat.le_trans ?_ (Nat.mul_le_mul_left 8 hr.1)
    unfold needs
    cases f.packed with
    | true => simp only [if_true]; omega
    | false =>
      simp only [Bool.false_eq_true, if_false]
      rw [Nat.mul_comm 8, Nat.mul_assoc]
      exact Nat.mul_le_mul_left n (by omega)
  · intro hf i hi
    refine ⟨(f.bits + 7) / 8, by omega, by omega, Nat.le_trans ?_ hr.1⟩
    simp only [needs, hf, Bool.false_eq_true, if_false]
    rw [← Nat.succ_mul]
    exact Nat.mul_le_mul_right _ hi

example : (Soniton.new 20 false true false false true).getAudioSize 3 (2 ^ 2) = .ok 8 ∧
    (Soniton.new 20 false false false false true).getAudioSize 3 (2 ^ 2) = .ok 12 := by decide

/-- **C54.** Every channel type is exactly one of left, right, centre. -/
theorem c54_classified (c : ChannelType) :
    (c.isLeft ∧ ¬ c.isRight ∧ ¬ c.isCenter) ∨ (¬ c.isLeft ∧ c.isRight ∧ ¬ c.isCenter) ∨
      (¬ c.isLeft ∧ ¬ c.isRight ∧ c.isCenter) := by
  cases c <;> decide

/-- **C54.** The classification agrees with the names: left and right names start with `L` and `R`, except the
low frequency channels, and the centre channels are all others. -/
theorem c54_named (c : ChannelType) :
    (c.isLeft ↔ c.display.toList.head? = some 'L' ∧ c ≠ .LFE ∧ c ≠ .LFE2) ∧
    (c.isRight ↔ c.display.toList.head? = some 'R') := by
  cases c <;> decide

/-- **C54.** Names are distinct. -/
theorem c54_names_distinct (c d : ChannelType) (h : c.display = d.display) : c = d := by
  revert h; cases c <;> cases d <;> decide

example : ChannelType.Lss.isLeft = true ∧ ChannelType.LFE.isCenter = true := by decide

/-- Additions to a map. -/
inductive Add
  | one (c : ChannelType) | many (cs : List ChannelType)

/-- The map after the additions. -/
def build (m : ChannelMap) : List Add → ChannelMap
  | [] => m
  | .one c :: as => build (m.addChannel c) as
  | .many cs :: as => build (m.addChannels cs) as

/-- The channels named by the additions, in order. -/
def named : List Add → List ChannelType
  | [] => []
  | .one c :: as => c :: named as
  | .many cs :: as => cs ++ named as

theorem addChannels_ids (m : ChannelMap) (cs : List ChannelType) : (m.addChannels cs).ids = m.ids ++ cs := by
  induction cs generalizing m with
  | nil => simp [ChannelMap.addChannels]
  | cons c cs ih => simp [ChannelMap.addChannels, ih, ChannelMap.addChannel]

theorem build_ids (m : ChannelMap) (as : List Add) : (build m as).ids = m.ids ++ named as := by
  induction as generalizing m with
  | nil => simp [build, named]
  | cons a as ih =>
    cases a with
    | one c => simp [build, named, ih, ChannelMap.addChannel]
    | many cs => simp [build, named, ih, addChannels_ids]

/-- **C55.** `len` and `get_channel` give the channels in order of addition. -/
theorem c55_channels (as : List Add) :
    (build .new as).len = (named as).length ∧
    ((build .new as).isEmpty = true ↔ named as = []) ∧
    (∀ i c, (named as)[i]? = some c → (build .new as).getChannel i = .ok c) ∧
    (∀ i, (named as).length ≤ i → (build .new as).getChannel i = .error .index) := by
  have h := build_ids .new as
  simp only [ChannelMap.new, List.nil_append] at h
  refine ⟨by simp [ChannelMap.len, ChannelMap.new, h], by simp [ChannelMap.isEmpty, ChannelMap.new, h], ?_, ?_⟩
  · intro i c hc
    simp [ChannelMap.getChannel, idx, ChannelMap.new, h, hc]
  · intro i hi
    simp [ChannelMap.getChannel, idx, ChannelMap.new, h, List.getElem?_eq_none hi]

theorem code_inj {c d : ChannelType} (h : c.code = d.code) : c = d := by
  revert h; cases c <;> cases d <;> decide

theorem findFrom_some (t : ChannelType) (k : Nat) (l : List ChannelType) (i : Nat)
    (hi : l[i]? = some t) (hf : ∀ j < i, l[j]? ≠ some t) : ChannelMap.findFrom t k l = some ((k + i) % 256) := by
  induction l generalizing k i with
  | nil => simp at hi
  | cons c cs ih =>
    unfold ChannelMap.findFrom
    cases i with
    | zero => simp at hi; simp [hi]
    | succ i =>
      have h0 : c ≠ t := fun h => hf 0 (by omega) (by simp [h])
      rw [if_neg (fun h => h0 (code_inj h)), ih (k + 1) i (by simpa using hi)
        (fun j hj => by simpa using hf (j + 1) (by omega))]
      congr 2; omega

theorem findFrom_none (t : ChannelType) (k : Nat) (l : List ChannelType) :
    ChannelMap.findFrom t k l = none ↔ t ∉ l := by
  induction l generalizing k with
  | nil => simp [ChannelMap.findFrom]
  | cons c cs ih =>
    unfold ChannelMap.findFrom
    by_cases h : c.code = t.code
    · rw [if_pos h]; simp [code_inj h]
    · rw [if_neg h, ih]
      have : t ≠ c := fun e => h (by rw [e])
      simp [this]

/-- **C55**, partial: in full, `find_channel_id(t)` is the position of the first `t`. Proved when that position
is below 256 (the result type is `u8`; see `c55_fails`). -/
theorem c55_find_partial (as : List Add) (t : ChannelType) :
    ((build .new as).findChannelId t = none ↔ t ∉ named as) ∧
    ∀ i, (named as)[i]? = some t → (∀ j < i, (named as)[j]? ≠ some t) → i < 256 →
      (build .new as).findChannelId t = some i := by
  have h := build_ids .new as
  simp only [ChannelMap.new, List.nil_append] at h
  simp only [ChannelMap.findChannelId, ChannelMap.new, h]
  refine ⟨findFrom_none .., fun i hi hf hl => ?_⟩
  rw [findFrom_some t 0 _ i hi hf, Nat.zero_add, Nat.mod_eq_of_lt hl]

theorem find_behind (n : Nat) : ChannelMap.findFrom .L 0 (List.replicate n .C ++ [.L]) = some (n % 256) := by
  rw [findFrom_some .L 0 _ n (by simp), Nat.zero_add]
  intro j hj
  rw [List.getElem?_append_left (by simpa using hj)]
  simp [hj]

/-- **C55**, partial: for every list of channels, what is returned is the position of the first `t` modulo 256. -/
theorem c55_exact_partial (as : List Add) (t : ChannelType) (r : Option Nat) :
    (build .new as).findChannelId t = r ↔
      (t ∉ named as ∧ r = none) ∨
      ∃ i, (named as)[i]? = some t ∧ (∀ j < i, (named as)[j]? ≠ some t) ∧ r = some (i % 256) := by
  have h := build_ids .new as
  simp only [ChannelMap.new, List.nil_append] at h
  simp only [ChannelMap.findChannelId, ChannelMap.new, h]
  have some_case : ∀ i, (named as)[i]? = some t → (∀ j < i, (named as)[j]? ≠ some t) →
      ChannelMap.findFrom t 0 (named as) = some (i % 256) := by
    intro i hi hf
    rw [findFrom_some t 0 _ i hi hf, Nat.zero_add]
  constructor
  · rintro rfl
    by_cases ht : t ∈ named as
    · right
      have hex : ∃ i : Nat, (named as)[i]? = some t := List.mem_iff_getElem?.1 ht
      have hmin : ∀ n : Nat, (named as)[n]? = some t → ∃ i : Nat, (named as)[i]? = some t ∧
          ∀ j < i, (named as)[j]? ≠ some t := by
        intro n
        induction n using Nat.strongRecOn with
        | _ n ih =>
          intro hn
          by_cases hj : ∃ j, j < n ∧ (named as)[j]? = some t
          · obtain ⟨j, j1, j2⟩ := hj; exact ih j j1 j2
          · exact ⟨n, hn, fun j j1 j2 => hj ⟨j, j1, j2⟩⟩
      obtain ⟨n, hn⟩ := hex
      obtain ⟨i, i1, i2⟩ := hmin n hn
      exact ⟨i, i1, i2, some_case i i1 i2⟩
    · exact .inl ⟨ht, (findFrom_none ..).2 ht⟩
  · rintro (⟨ht, rfl⟩ | ⟨i, i1, i2, rfl⟩)
    · exact (findFrom_none ..).2 ht
    · exact some_case i i1 i2

/-- **C55** fails behind position 255: the position is truncated to 8 bits. -/
theorem c55_fails : ∃ as t, (build .new as).findChannelId t = some 0 ∧
    (build .new as).getChannel 0 = .ok .C ∧ t ≠ .C ∧ t ∈ named as := by
  have key : ∀ n, 0 < n → (build .new [.many (List.replicate n .C), .one .L]).findChannelId .L = some (n % 256) ∧
      (build .new [.many (List.replicate n .C), .one .L]).getChannel 0 = .ok .C ∧
      ChannelType.L ∈ named [.many (List.replicate n .C), .one .L] := by
    intro n hn
    refine ⟨?_, ?_, by simp [named]⟩
    · rw [ChannelMap.findChannelId, build_ids]
      exact find_behind n
    · refine (c55_channels _).2.2.1 0 .C ?_
      simp only [named]
      rw [List.getElem?_append_left (by simpa using hn)]
      simp [hn]
  obtain ⟨h1, h2, h3⟩ := key 256 (by omega)
  exact ⟨_, .L, h1, h2, by decide, h3⟩

example : (build .new [.many [.L, .R], .one .C]).findChannelId .C = some 2 ∧
    (build .new [.many [.L, .R], .one .C]).findChannelId .Ls = none := by decide

/-- **C55.** Default maps exist for one and two channels, have as many channels as asked for, and these are the
documented ones: the centre; right and left. -/
theorem c55_default (n : Nat) :
    (∀ m, ChannelMap.defaultMap n = .ok m → m.len = n ∧ m.ids.Nodup ∧
      (n = 1 → m.getChannel 0 = .ok .C) ∧ (n = 2 → m.getChannel 0 = .ok .R ∧ m.getChannel 1 = .ok .L)) ∧
    ((∃ m, ChannelMap.defaultMap n = .ok m) ↔ n = 1 ∨ n = 2) := by
  match n with
  | 0 => simp [ChannelMap.defaultMap]
  | 1 => simp [ChannelMap.defaultMap, ChannelMap.len, ChannelMap.getChannel, idx]
  | 2 => simp [ChannelMap.defaultMap, ChannelMap.len, ChannelMap.getChannel, idx]
  | n + 3 => simp [ChannelMap.defaultMap]

example : ∃ m, ChannelMap.defaultMap 2 = .ok m ∧ m.findChannelId .L = some 1 := ⟨_, rfl, by decide⟩

/-- What the text should say: every flag after its own name. -/
def described (f : Soniton) : String :=
  "(" ++ toString f.bits ++ " bps, " ++ (if f.be then "BE" else "LE") ++ " planar: " ++ showBool f.planar ++
    " packed: " ++ showBool f.packed ++ " " ++ (if f.float then "float" else if f.signed then "int" else "uint") ++
    ")"

/-- **C64**, partial: in full, the text is `described f` for every format. It is exactly when both flags agree. -/
theorem c64_display_partial (f : Soniton) : f.display = described f ↔ f.packed = f.planar := by
  constructor
  · intro h
    simp only [Soniton.display, described, String.ext_iff, String.toList_append, List.append_assoc,
      List.append_cancel_left_eq] at h
    revert h
    cases f.packed <;> cases f.planar <;> simp [showBool]
  · intro h
    simp only [Soniton.display, described, h]

/-- **C64** fails: the two flags are swapped. -/
theorem c64_fails : ∃ f : Soniton, f.packed = false ∧ f.planar = true ∧
    f.display = "(16 bps, LE planar: false packed: true int)" := by
  refine ⟨Soniton.new 16 false false true false true, rfl, rfl, ?_⟩
  decide

/-! ### C81 -/

/-- **C81.** Every predefined sample format has the width, the signedness and the kind its name says, is neither
packed nor planar, and is stored in native (little-endian) order. -/
theorem c81_formats :
    (∀ f ∈ [formats.U8, formats.S16, formats.S32, formats.F32, formats.F64],
      f.be = false ∧ f.packed = false ∧ f.planar = false) ∧
    (formats.U8.bits = 8 ∧ formats.U8.signed = false ∧ formats.U8.float = false) ∧
    (formats.S16.bits = 16 ∧ formats.S16.signed = true ∧ formats.S16.float = false) ∧
    (formats.S32.bits = 32 ∧ formats.S32.signed = true ∧ formats.S32.float = false) ∧
    (formats.F32.bits = 32 ∧ formats.F32.signed = true ∧ formats.F32.float = true) ∧
    (formats.F64.bits = 64 ∧ formats.F64.signed = true ∧ formats.F64.float = true) := by decide

/-- **C81.** `n` samples of a predefined format take `n` times its bytes, when not aligned. -/
theorem c81_sizes (n : Nat) (hn : n < 2 ^ 56) :
    formats.U8.getAudioSize n 1 = .ok n ∧ formats.S16.getAudioSize n 1 = .ok (2 * n) ∧
    formats.S32.getAudioSize n 1 = .ok (4 * n) ∧ formats.F32.getAudioSize n 1 = .ok (4 * n) ∧
    formats.F64.getAudioSize n 1 = .ok (8 * n) := by
  have key : ∀ f : Soniton, f.bits < 256 → f.packed = false → f.bits ≤ 64 →
      f.getAudioSize n 1 = .ok (n * ((f.bits + 7) / 8)) := by
    intro f hb hp hl
    have hm : n * (f.bits + 7) ≤ n * 71 := Nat.mul_le_mul_left n (by omega)
    have := getAudioSize_eq (f := f) (n := n) (k := 0) hb (by omega)
    simpa [needs, hp] using this
  refine ⟨?_, ?_, ?_, ?_, ?_⟩ <;> rw [key _ (by decide) rfl (by decide)] <;> congr 1 <;> simp [formats.U8,
    formats.S16, formats.S32, formats.F32, formats.F64, Nat.mul_comm]

example : formats.S16.getAudioSize 1000 1 = .ok 2000 := by decide

end Verif.Audio
