import Verif.Frame.Narrow

/-!
# C111 and C126, exactly: default frames without overflow checks

What a default video frame is, and when its copies stay inside its planes, for every picture, however large, on a target
with a `usize` of any width.
-/

namespace Verif.Frame
open Verif Verif.Data Verif.Pixel

/-- The number a computation returns. -/
def val (x : Rust Nat) : Nat :=
  match x with
  | .ok v => v
  | .error _ => 0

/-- Columns of a component. -/
def colsOf (b : Nat) (v : VideoInfo) (c : Chromaton) : Nat := val ((narrow b false).getWidth c v.width)
/-- Rows of a component. -/
def rowsOf (b : Nat) (v : VideoInfo) (c : Chromaton) : Nat := val ((narrow b false).getHeight c v.height)
/-- Line size of a component. -/
def lineOf (b : Nat) (v : VideoInfo) (c : Chromaton) : Nat := val ((narrow b false).getLinesize c v.width 32)
/-- Bytes of its plane, as many as a `usize` shows. -/
def bytesOf (b : Nat) (v : VideoInfo) (c : Chromaton) : Nat := lineOf b v c * rowsOf b v c % 2 ^ b

/-- Copying lines of `w` bytes stays inside a plane of `sz` bytes with lines of `ls`: they fit the lines, also the last
one if it is not whole. -/
def Stays (ls sz w : Nat) : Prop := 0 < ls ∧ (sz = 0 ∨ (w ≤ ls ∧ (sz % ls = 0 ∨ w ≤ sz % ls)))

instance (ls sz w : Nat) : Decidable (Stays ls sz w) := by unfold Stays; infer_instance

/-- Copying the component of a default frame. -/
def staysOf (b : Nat) (v : VideoInfo) (c : Chromaton) : Bool :=
  decide (Stays (lineOf b v c) (bytesOf b v c) (colsOf b v c))

/-- What becomes of a copy: the first component that cannot be copied decides. -/
def Outcome (b : Nat) (v : VideoInfo) (cs : List Chromaton) (x : Rust α) : Prop :=
  match cs.find? (fun c => !staysOf b v c) with
  | none => ∃ out, x = .ok out
  | some c => x = .error (if lineOf b v c = 0 then .chunkZero else .ub)

/-! ### without checks nothing in the sizes panics -/

theorem narrow_ops (b x y : Nat) :
    (∃ r, (narrow b false).add x y = .ok r) ∧ (∃ r, (narrow b false).sub x y = .ok r) ∧
    (∃ r, (narrow b false).mul x y = .ok r) ∧ (∃ r, (narrow b false).shl x y = .ok r) ∧
    (∃ r, (narrow b false).shr x y = .ok r) := by
  simp only [narrow, Bool.false_eq_true, if_false]
  refine ⟨?_, ?_, ?_, ?_, ?_⟩ <;> (split <;> exact ⟨_, rfl⟩)

theorem narrow_mul (b x y : Nat) : (narrow b false).mul x y = .ok (x * y % 2 ^ b) := by
  simp only [narrow, Bool.false_eq_true, if_false]
  split
  · rw [Nat.mod_eq_of_lt (by assumption)]
  · rfl

theorem narrow_add (b x y : Nat) : (narrow b false).add x y = .ok ((x + y) % 2 ^ b) := by
  simp only [narrow, Bool.false_eq_true, if_false]
  split
  · rw [Nat.mod_eq_of_lt (by assumption)]
  · rfl

theorem subsampled_ok (b v ss : Nat) : ∃ r, (narrow b false).subsampled v ss = .ok r := by
  obtain ⟨x1, h1⟩ := (narrow_ops b 1 ss).2.2.2.1
  obtain ⟨x2, h2⟩ := (narrow_ops b x1 1).2.1
  obtain ⟨x3, h3⟩ := (narrow_ops b v x2).1
  obtain ⟨x4, h4⟩ := (narrow_ops b x3 ss).2.2.2.2
  exact ⟨x4, by simp only [Arith.subsampled, h1, h2, h3, h4, ok_bind]⟩

theorem align_ok (b v a : Nat) : ∃ r, (narrow b false).align v a = .ok r := by
  obtain ⟨x1, h1⟩ := (narrow_ops b v a).1
  obtain ⟨x2, h2⟩ := (narrow_ops b x1 1).2.1
  obtain ⟨x3, h3⟩ := (narrow_ops b a 1).2.1
  exact ⟨_, by simp only [Arith.align, h1, h2, h3, ok_bind, pure_eq_ok]; rfl⟩

theorem colsOf_eq (b : Nat) (v : VideoInfo) (c : Chromaton) :
    (narrow b false).getWidth c v.width = .ok (colsOf b v c) := by
  obtain ⟨r, h⟩ := subsampled_ok b v.width c.h_ss
  unfold colsOf
  simp only [Arith.getWidth, h, val]

theorem rowsOf_eq (b : Nat) (v : VideoInfo) (c : Chromaton) :
    (narrow b false).getHeight c v.height = .ok (rowsOf b v c) := by
  obtain ⟨r, h⟩ := subsampled_ok b v.height c.v_ss
  unfold rowsOf
  simp only [Arith.getHeight, h, val]

theorem lineOf_eq (b : Nat) (v : VideoInfo) (c : Chromaton) :
    (narrow b false).getLinesize c v.width 32 = .ok (lineOf b v c) := by
  obtain ⟨x2, h2⟩ := (narrow_ops b (colsOf b v c) c.depth).2.2.1
  obtain ⟨x3, h3⟩ := (narrow_ops b x2 c.depth).1
  obtain ⟨x4, h4⟩ := (narrow_ops b x3 1).2.1
  obtain ⟨x5, h5⟩ := (narrow_ops b x4 3).2.2.2.2
  obtain ⟨x6, h6⟩ := align_ok b x5 32
  have : (narrow b false).getLinesize c v.width 32 = .ok x6 := by
    simp only [Arith.getLinesize, colsOf_eq, h2, h3, h4, h5, h6, ok_bind]
  unfold lineOf
  rw [this]
  rfl

theorem bytesOf_eq (b : Nat) (v : VideoInfo) (c : Chromaton) :
    (narrow b false).getDataSize c v.width v.height 32 = .ok (bytesOf b v c) := by
  have := rowsOf_eq b v c
  unfold Arith.getHeight at this
  simp only [Arith.getDataSize, this, lineOf_eq, ok_bind, narrow_mul]
  rfl

/-! ### the frame -/

theorem sizeFrom_eq (b : Nat) (v : VideoInfo) (cs : List (Option Chromaton)) : ∀ s, s < 2 ^ b →
    (narrow b false).sizeFrom v.width v.height 32 s cs =
      .ok ((s + ((cs.filterMap id).map (bytesOf b v)).sum) % 2 ^ b) := by
  induction cs with
  | nil => intro s hs; simp only [Arith.sizeFrom, List.filterMap_nil, List.map_nil, List.sum_nil, Nat.add_zero,
      Nat.mod_eq_of_lt hs]
  | cons o cs ih =>
    intro s hs
    cases o with
    | none => simpa [Arith.sizeFrom] using ih s hs
    | some c =>
      simp only [Arith.sizeFrom, bytesOf_eq, ok_bind, narrow_add, List.filterMap_cons, id_eq, List.map_cons, List.sum_cons]
      rw [ih _ (Nat.mod_lt _ (Nat.two_pow_pos b)), Nat.mod_add_mod, Nat.add_assoc]

theorem videoPlanes_eq (b : Nat) (v : VideoInfo) (cs : List (Option Chromaton)) : ∀ (n : Nat) (ps : List Plane),
    (narrow b false).videoPlanes v.width v.height ⟨List.replicate n 0, ps⟩ cs =
      if ((cs.filterMap id).map (bytesOf b v)).sum ≤ n then
        .ok ⟨List.replicate (n - ((cs.filterMap id).map (bytesOf b v)).sum) 0,
          ps ++ (cs.filterMap id).map (fun c => ⟨List.replicate (bytesOf b v c) 0, lineOf b v c⟩)⟩
      else .error .assert := by
  induction cs with
  | nil => intro n ps; simp [Arith.videoPlanes]
  | cons o cs ih =>
    intro n ps
    cases o with
    | none => simpa [Arith.videoPlanes] using ih n ps
    | some c =>
      simp only [Arith.videoPlanes, ALIGNMENT, bytesOf_eq, lineOf_eq, ok_bind, List.filterMap_cons, id_eq, List.map_cons,
        List.sum_cons]
      by_cases hn : bytesOf b v c ≤ n
      · rw [pushPlane_zero rfl hn, ok_bind, ih]
        by_cases h2 : ((cs.filterMap id).map (bytesOf b v)).sum ≤ n - bytesOf b v c
        · rw [if_pos h2, if_pos (by omega), Nat.sub_sub, List.append_assoc]
          rfl
        · rw [if_neg h2, if_neg (by omega)]
      · rw [if_neg (by omega)]
        simp only [DefaultFrameBuffer.pushPlane, DefaultFrameBuffer.splitTo, List.length_replicate, if_neg hn, error_bind]

/-! ### the copies -/

theorem copyPlane_like (d s : List U8) (ls w h : Nat) (hl : s.length = d.length) (hb : d.length ≤ ls * h) :
    if Stays ls d.length w then ∃ out, copyPlane d ls s ls w h = .ok out ∧ out.length = d.length
    else copyPlane d ls s ls w h = .error (if ls = 0 then .chunkZero else .ub) := by
  by_cases h0 : ls = 0
  · rw [if_neg (fun hs => by have := hs.1; omega), if_pos h0]
    exact (c48_exact_partial ..).2 (.zero (.inl h0))
  have hp : 0 < ls := by omega
  rw [if_neg h0]
  have hdm : d.length / ls * ls + d.length % ls = d.length := by rw [Nat.mul_comm]; exact Nat.div_add_mod _ _
  by_cases hs : Stays ls d.length w
  · rw [if_pos hs]
    have hc := (c48_exact_partial d ls s ls w h _).1 rfl
    generalize copyPlane d ls s ls w h = x at hc
    cases hc with
    | zero hz => omega
    | done _ _ _ h1 _ => exact ⟨_, rfl, h1⟩
    | @outside y _ _ a3 a4 a5 a6 =>
      exfalso
      rw [hl] at a6
      rcases hs.2 with hz | ⟨hw, hz⟩
      · omega
      · have h1 : d.length < y * ls + w := by omega
        by_cases hy : y < d.length / ls
        · have : (y + 1) * ls ≤ d.length / ls * ls := Nat.mul_le_mul_right _ hy
          rw [Nat.succ_mul] at this
          omega
        · have h2 : d.length / ls * ls ≤ y * ls := Nat.mul_le_mul_right _ (Nat.le_of_not_lt hy)
          have hy2 : y = d.length / ls := by
            have : ¬ d.length / ls + 1 ≤ y := by
              intro hh
              have h3 : (d.length / ls + 1) * ls ≤ y * ls := Nat.mul_le_mul_right _ hh
              rw [Nat.succ_mul] at h3
              have := Nat.mod_lt d.length hp
              omega
            omega
          rw [← hy2] at hdm
          omega
  · rw [if_neg hs]
    apply (c48_exact_partial ..).2
    unfold Stays at hs
    have hsz : d.length ≠ 0 := fun hz => hs ⟨hp, .inl hz⟩
    by_cases hw : w ≤ ls
    · have hm : d.length % ls ≠ 0 ∧ d.length % ls < w := by
        constructor
        · exact fun hz => hs ⟨hp, .inr ⟨hw, .inl hz⟩⟩
        · exact Nat.lt_of_not_le fun hz => hs ⟨hp, .inr ⟨hw, .inr hz⟩⟩
      refine .outside (y := d.length / ls) hp hp ?_ (by omega) (by omega) (by omega)
      apply Nat.lt_of_not_le
      intro hh
      have : h * ls ≤ d.length / ls * ls := Nat.mul_le_mul_right _ hh
      rw [Nat.mul_comm] at this
      omega
    · refine .outside (y := 0) hp hp ?_ (by omega) (by omega) (by omega)
      apply Nat.pos_of_ne_zero
      intro hh
      rw [hh] at hb
      omega

theorem bytesOf_le (b : Nat) (v : VideoInfo) (c : Chromaton) : bytesOf b v c ≤ lineOf b v c * rowsOf b v c := Nat.mod_le _ _

theorem copyOut_like (b : Nat) (v : VideoInfo) (rest : List (Option Chromaton)) (cs : List Chromaton) :
    ∀ (ps : List Plane) (ds : List (List U8)), ps.map (·.buf.length) = cs.map (bytesOf b v) →
      ps.map (·.linesize) = cs.map (lineOf b v) → ds.map (·.length) = cs.map (bytesOf b v) →
      Outcome b v cs ((narrow b false).copyOut v.width v.height ds (cs.map (lineOf b v)) ps (cs.map some ++ rest)) := by
  induction cs with
  | nil =>
    intro ps ds _ _ hd
    cases ds with
    | nil => exact ⟨[], by unfold Arith.copyOut; rfl⟩
    | cons d ds => cases hd
  | cons c cs ih =>
    intro ps ds h1 h2 h3
    cases ps with
    | nil => cases h1
    | cons p ps =>
    cases ds with
    | nil => cases h3
    | cons d ds =>
    simp only [List.map_cons, List.cons.injEq] at h1 h2 h3
    have hi := ih ps ds h1.2 h2.2 h3.2
    have hp := copyPlane_like d p.buf (lineOf b v c) (colsOf b v c) (rowsOf b v c) (by omega)
      (by rw [h3.1]; exact bytesOf_le b v c)
    rw [h3.1] at hp
    unfold Outcome at hi ⊢
    simp only [List.find?_cons, List.map_cons, List.cons_append, Arith.copyOut, colsOf_eq, rowsOf_eq, ok_bind, h2.1]
    by_cases hs : Stays (lineOf b v c) (bytesOf b v c) (colsOf b v c)
    · rw [if_pos hs] at hp
      obtain ⟨out, hp, _⟩ := hp
      simp only [staysOf, hs, decide_true, Bool.not_true, hp, ok_bind]
      simp only [staysOf] at hi
      split at hi
      · next heq =>
        rw [heq]
        obtain ⟨os, hi⟩ := hi
        exact ⟨out :: os, by rw [hi]; rfl⟩
      · next heq => rw [heq]; rw [hi]; rfl
    · rw [if_neg hs] at hp
      simp only [staysOf, hs, decide_false, Bool.not_false, hp, error_bind]

theorem copyIn_like (b : Nat) (v : VideoInfo) (rest : List (Option Chromaton)) (cs : List Chromaton) :
    ∀ (ps : List Plane) (ds : List (List U8)), ps.map (·.buf.length) = cs.map (bytesOf b v) →
      ps.map (·.linesize) = cs.map (lineOf b v) → ds.map (·.length) = cs.map (bytesOf b v) →
      Outcome b v cs ((narrow b false).copyIn v.width v.height ps ds (cs.map (lineOf b v)) (cs.map some ++ rest)) := by
  induction cs with
  | nil =>
    intro ps ds h1 _ _
    cases ps with
    | nil => exact ⟨[], by unfold Arith.copyIn; rfl⟩
    | cons p ps => cases h1
  | cons c cs ih =>
    intro ps ds h1 h2 h3
    cases ps with
    | nil => cases h1
    | cons p ps =>
    cases ds with
    | nil => cases h3
    | cons d ds =>
    simp only [List.map_cons, List.cons.injEq] at h1 h2 h3
    have hi := ih ps ds h1.2 h2.2 h3.2
    have hp := copyPlane_like p.buf d (lineOf b v c) (colsOf b v c) (rowsOf b v c) (by omega)
      (by rw [h1.1]; exact bytesOf_le b v c)
    rw [h1.1] at hp
    unfold Outcome at hi ⊢
    simp only [List.find?_cons, List.map_cons, List.cons_append, Arith.copyIn, colsOf_eq, rowsOf_eq, ok_bind, h2.1]
    by_cases hs : Stays (lineOf b v c) (bytesOf b v c) (colsOf b v c)
    · rw [if_pos hs] at hp
      obtain ⟨out, hp, _⟩ := hp
      simp only [staysOf, hs, decide_true, Bool.not_true, hp, ok_bind]
      simp only [staysOf] at hi
      split at hi
      · next heq =>
        rw [heq]
        obtain ⟨os, hi⟩ := hi
        exact ⟨_, by rw [hi]; rfl⟩
      · next heq => rw [heq]; rw [hi]; rfl
    · rw [if_neg hs] at hp
      simp only [staysOf, hs, decide_false, Bool.not_false, hp, error_bind]

/-- **C126**, partial (false as it stands, `c126_fails`), exactly without overflow checks: a default frame can be made
unless the planes together have `2^b` bytes or more, each with the bytes a `usize` shows; then `split_to` panics.
Copies of a frame that was made succeed exactly if no component has wrapped in such a way that its last line is too
short; otherwise they leave a plane, or a line size has become zero. -/
theorem c126_exact_partial (b : Nat) (v : VideoInfo) (t : Option TimeInfo) (cs : List Chromaton)
    (hf : v.format.comp_info = cs.map some ++ List.replicate (5 - cs.length) none) :
    if (cs.map (bytesOf b v)).sum < 2 ^ b then
      ∃ f, (narrow b false).newDefaultFrame (.Video v) t = .ok f ∧ f.kind = .Video v ∧
        f.planes = cs.map (fun c => ⟨List.replicate (bytesOf b v c) 0, lineOf b v c⟩) ∧
        ∀ bufs : List (List U8), bufs.map (·.length) = f.planes.map (·.buf.length) →
          Outcome b v cs ((narrow b false).copyFrameToBuffer f bufs (f.planes.map (·.linesize))) ∧
          Outcome b v cs ((narrow b false).copyFromSlice f bufs (f.planes.map (·.linesize)))
    else (narrow b false).newDefaultFrame (.Video v) t = .error .assert := by
  have hfm : v.format.comp_info.filterMap id = cs := by
    rw [hf, List.filterMap_append, List.filterMap_map]
    simp [Function.comp_def]
  have hsz : (narrow b false).videoSize v ALIGNMENT = .ok ((cs.map (bytesOf b v)).sum % 2 ^ b) := by
    have := sizeFrom_eq b v v.format.comp_info 0 (Nat.two_pow_pos b)
    rw [hfm, Nat.zero_add] at this
    exact this
  have hvp := videoPlanes_eq b v v.format.comp_info ((cs.map (bytesOf b v)).sum % 2 ^ b) []
  rw [hfm] at hvp
  by_cases hlt : (cs.map (bytesOf b v)).sum < 2 ^ b
  · rw [if_pos hlt]
    rw [Nat.mod_eq_of_lt hlt] at hsz hvp
    rw [if_pos (Nat.le_refl _), List.nil_append] at hvp
    refine ⟨_, by simp only [Arith.newDefaultFrame, Arith.newBuffer, hsz, ok_bind, hvp, pure_eq_ok]; rfl, rfl, rfl, ?_⟩
    intro bufs hb
    simp only [List.map_map, Function.comp_def, List.length_replicate] at hb
    have e1 : (cs.map (fun c => (⟨List.replicate (bytesOf b v c) 0, lineOf b v c⟩ : Plane))).map (·.linesize) =
        cs.map (lineOf b v) := by simp [Function.comp_def]
    have e2 : (cs.map (fun c => (⟨List.replicate (bytesOf b v c) 0, lineOf b v c⟩ : Plane))).map (·.buf.length) =
        cs.map (bytesOf b v) := by simp [Function.comp_def]
    dsimp only
    rw [e1]
    constructor
    · have := copyOut_like b v (List.replicate (5 - cs.length) none) cs _ bufs e2 e1 hb
      rw [← hf] at this
      exact this
    · have := copyIn_like b v (List.replicate (5 - cs.length) none) cs _ bufs e2 e1 hb
      rw [← hf] at this
      unfold Outcome at this ⊢
      simp only [Arith.copyFromSlice]
      split at this
      · obtain ⟨os, h⟩ := this
        exact ⟨_, by rw [h]; rfl⟩
      · rw [this]; rfl
  · rw [if_neg hlt]
    have : ¬ (cs.map (bytesOf b v)).sum ≤ (cs.map (bytesOf b v)).sum % 2 ^ b := by
      have := Nat.mod_lt (cs.map (bytesOf b v)).sum (Nat.two_pow_pos b)
      omega
    rw [if_neg this] at hvp
    simp only [Arith.newDefaultFrame, Arith.newBuffer, hsz, ok_bind, hvp, error_bind]

/-- **C111**, partial (false as it stands, `c111_fails`), exactly: the same with 64 bits, for builds without overflow
checks. -/
theorem c111_exact_partial (v : VideoInfo) (t : Option TimeInfo) (cs : List Chromaton)
    (hf : v.format.comp_info = cs.map some ++ List.replicate (5 - cs.length) none) :
    if (cs.map (bytesOf 64 v)).sum < 2 ^ 64 then
      ∃ f, wrapping.newDefaultFrame (.Video v) t = .ok f ∧ f.kind = .Video v ∧
        f.planes = cs.map (fun c => ⟨List.replicate (bytesOf 64 v c) 0, lineOf 64 v c⟩) ∧
        ∀ bufs : List (List U8), bufs.map (·.length) = f.planes.map (·.buf.length) →
          Outcome 64 v cs (wrapping.copyFrameToBuffer f bufs (f.planes.map (·.linesize))) ∧
          Outcome 64 v cs (wrapping.copyFromSlice f bufs (f.planes.map (·.linesize)))
    else wrapping.newDefaultFrame (.Video v) t = .error .assert := by
  have := c126_exact_partial 64 v t cs hf
  rwa [narrow_64.2] at this

/-- The picture of `c111_fails` wraps so that its only line is too short. 2^63 - 1 rows of 32 bytes wrap to whole lines:
the frame is smaller than the picture, but copies stay inside it. Two such components panic. -/
example : staysOf 64 tallVideo (.new 0 0 false 8 0 0 1) = false ∧ bytesOf 64 tallVideo (.new 0 0 false 8 0 0 1) = 32 ∧
    lineOf 64 tallVideo (.new 0 0 false 8 0 0 1) = 96 ∧
    staysOf 64 { tallVideo with width := 32, height := 2 ^ 63 - 1 } (.new 0 0 false 8 0 0 1) = true ∧
    bytesOf 64 { tallVideo with width := 32, height := 2 ^ 63 - 1 } (.new 0 0 false 8 0 0 1) = 2 ^ 64 - 32 ∧
    ¬ (([.new 0 0 false 8 0 0 1, .new 0 0 false 8 0 0 1] : List Chromaton).map
      (bytesOf 64 { tallVideo with width := 32, height := 2 ^ 63 - 1 })).sum < 2 ^ 64 := by decide +kernel

example : tallVideo.format.comp_info = [Chromaton.new 0 0 false 8 0 0 1].map some ++ List.replicate (5 - 1) none := rfl

end Verif.Frame
