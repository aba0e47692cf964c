import Verif.Frame.Props

/-! # C48, C50 and C73: exactly what the copies of frames do, for every argument -/

namespace Verif.Frame
open Verif Verif.Data Verif.Pixel

/-- What becomes of a copy of `w` columns and `h` rows into `dst`: a panic when a line size is zero; undefined
behaviour when a row that exists on both sides is too short on one of them; otherwise each of these rows is replaced
in its first `w` bytes. -/
inductive Copied (dst : List U8) (dls : Nat) (src : List U8) (sls w h : Nat) : Rust (List U8) → Prop
  | zero : dls = 0 ∨ sls = 0 → Copied dst dls src sls w h (.error .chunkZero)
  | outside {y : Nat} : 0 < dls → 0 < sls → y < h → y * dls < dst.length → y * sls < src.length →
      (dls < w ∨ sls < w ∨ dst.length < y * dls + w ∨ src.length < y * sls + w) →
      Copied dst dls src sls w h (.error .ub)
  | done {out : List U8} : 0 < dls → 0 < sls →
      (∀ y, y < h → y * dls < dst.length → y * sls < src.length →
        w ≤ dls ∧ w ≤ sls ∧ y * dls + w ≤ dst.length ∧ y * sls + w ≤ src.length) →
      out.length = dst.length →
      (∀ y x, x < dls → y * dls + x < dst.length → out[y * dls + x]? =
        if y < h ∧ y * sls < src.length ∧ x < w then src[y * sls + x]? else dst[y * dls + x]?) →
      Copied dst dls src sls w h (.ok out)

/-- The outcome is determined. -/
theorem Copied.unique {dst src : List U8} {dls sls w h : Nat} {a b : Rust (List U8)}
    (ha : Copied dst dls src sls w h a) (hb : Copied dst dls src sls w h b) : a = b := by
  cases ha with
  | zero h0 => cases hb <;> first | rfl | omega
  | outside a1 a2 a3 a4 a5 a6 =>
    cases hb with
    | zero h0 => omega
    | outside => rfl
    | done b1 b2 b3 => have := b3 _ a3 a4 a5; omega
  | done a1 a2 a3 a4 a5 =>
    cases hb with
    | zero h0 => omega
    | outside b1 b2 b3 b4 b5 b6 => have := a3 _ b3 b4 b5; omega
    | done b1 b2 b3 b4 b5 =>
      congr 1
      apply List.ext_getElem?
      intro i
      by_cases hi : i < dst.length
      · have hd : i / dls * dls + i % dls = i := by rw [Nat.mul_comm]; exact Nat.div_add_mod i dls
        have e1 := a5 (i / dls) (i % dls) (Nat.mod_lt _ a1) (by omega)
        have e2 := b5 (i / dls) (i % dls) (Nat.mod_lt _ a1) (by omega)
        rw [hd] at e1 e2
        rw [e1, e2]
      · rw [List.getElem?_eq_none (by omega), List.getElem?_eq_none (by omega)]

/-- **C48**, partial (false as it stands, `c48_fails`): the outcome of `copy_plane`, through which all copies go, for
all arguments. -/
theorem c48_exact_partial (dst : List U8) (dls : Nat) (src : List U8) (sls w h : Nat) (x : Rust (List U8)) :
    copyPlane dst dls src sls w h = x ↔ Copied dst dls src sls w h x := by
  have key : Copied dst dls src sls w h (copyPlane dst dls src sls w h) := by
    obtain ⟨c1, c2⟩ := c48_copy_plane_partial dst dls src sls w h
    by_cases h0 : dls = 0 ∨ sls = 0
    · rw [c1 h0]; exact .zero h0
    · have hd : 0 < dls := by omega
      have hs : 0 < sls := by omega
      by_cases hr : ∀ r, Touched dst.length dls src.length sls h r → RowFits dst.length dls src.length sls w r
      · obtain ⟨out, a1, a2, a3⟩ := copyPlane_spec hd hs hr
        rw [a1]
        refine .done hd hs (fun y y1 y2 y3 => hr y ⟨y1, y2, y3⟩) a2 ?_
        intro y x hx hi
        have e1 : (y * dls + x) / dls = y := by
          rw [Nat.mul_comm, Nat.mul_add_div hd, Nat.div_eq_of_lt hx, Nat.add_zero]
        have e2 : (y * dls + x) % dls = x := by rw [Nat.mul_comm, Nat.mul_add_mod, Nat.mod_eq_of_lt hx]
        rw [a3 _ hi, e1, e2]
      · obtain ⟨r, hr⟩ := Classical.not_forall.1 hr
        obtain ⟨ht, hn⟩ := Classical.not_imp.1 hr
        rw [copyPlane_ub hd hs ht hn]
        refine .outside hd hs ht.1 ht.2.1 ht.2.2 ?_
        unfold RowFits at hn
        omega
  constructor
  · rintro rfl; exact key
  · intro hx; exact key.unique hx

example : Copied [0, 0, 0, 0, 0] 3 [1, 2, 3, 4] 2 2 9 (.ok [1, 2, 0, 3, 4]) ∧
    Copied [0, 0, 0, 0, 0] 3 [1, 2, 3] 2 2 9 (.error .ub) :=
  ⟨(c48_exact_partial ..).1 (by decide), (c48_exact_partial ..).1 (by decide)⟩

/-- **C50**, partial (false as it stands, `c50_fails`): `copy_plane_to_buffer` for all frames and arguments. The plane
is copied as if it had the columns and rows of the picture, whatever its component. -/
theorem c50_exact_partial (f : Frame) (i : Nat) (dst : List U8) (dls : Nat) (x : Rust (List U8)) :
    copyPlaneToBuffer f i dst dls = x ↔
      match f.kind with
      | .Audio _ => x = .error .unimplemented
      | .Video v => match f.planes[i]? with
        | none => x = .error .unwrap
        | some p => Copied dst dls p.buf p.linesize v.width v.height x := by
  unfold copyPlaneToBuffer
  cases f.kind with
  | Audio a => exact eq_comm
  | Video v =>
    cases f.planes[i]? with
    | none => exact eq_comm
    | some p => exact c48_exact_partial ..

/-- Component `c` (if there is one) of a `w` by `h` picture is copied to `out`. -/
def PlaneCopied (w h : Nat) (c : Option (Option Chromaton)) (dst : List U8) (dls : Nat) (src : List U8) (sls : Nat)
    (out : List U8) : Prop :=
  ∃ chroma cw ch, c = some (some chroma) ∧ chroma.getWidth w = .ok cw ∧ chroma.getHeight h = .ok ch ∧
    Copied dst dls src sls cw ch (.ok out)

theorem planeCopied_cons {w h : Nat} {chroma : Chromaton} {dst : List U8} {dls : Nat} {src : List U8} {sls : Nat}
    {out : List U8} :
    (do copyPlane dst dls src sls (← chroma.getWidth w) (← chroma.getHeight h)) = .ok out ↔
      PlaneCopied w h (some (some chroma)) dst dls src sls out := by
  unfold PlaneCopied
  constructor
  · intro hx
    cases hw : chroma.getWidth w with
    | error e => rw [hw] at hx; cases hx
    | ok cw =>
      cases hh : chroma.getHeight h with
      | error e => rw [hw, hh] at hx; cases hx
      | ok ch =>
        rw [hw, hh] at hx
        exact ⟨chroma, cw, ch, rfl, hw, hh, (c48_exact_partial ..).1 hx⟩
  · rintro ⟨c, cw, ch, hc, hw, hh, hx⟩
    cases hc
    rw [hw, hh]
    exact (c48_exact_partial ..).2 hx

/-- How many planes `copy_frame_to_buffer` copies. -/
def copyCount (dst : List (List U8)) (dls : List Nat) (ps : List Plane) (cs : List (Option Chromaton)) : Nat :=
  min (min dst.length dls.length) (min ps.length cs.length)

theorem copyOut_iff (w h : Nat) (cs : List (Option Chromaton)) : ∀ (dst : List (List U8)) (dls : List Nat)
    (ps : List Plane) (out : List (List U8)),
    copyOut w h dst dls ps cs = .ok out ↔ out.length = dst.length ∧
      ∀ (i : Nat) (d : List U8), dst[i]? = some d → ∃ o, out[i]? = some o ∧
        (copyCount dst dls ps cs ≤ i → o = d) ∧
        (i < copyCount dst dls ps cs → ∀ (l : Nat) (p : Plane), dls[i]? = some l → ps[i]? = some p →
          PlaneCopied w h cs[i]? d l p.buf p.linesize o) := by
  have stop : ∀ (dst out : List (List U8)), (Except.ok dst : Rust (List (List U8))) = .ok out ↔
      out.length = dst.length ∧ ∀ (i : Nat) (d : List U8), dst[i]? = some d → ∃ o, out[i]? = some o ∧ o = d := by
    intro dst out
    constructor
    · intro e; cases e
      exact ⟨rfl, fun i d hd => ⟨d, hd, rfl⟩⟩
    · rintro ⟨h1, h2⟩
      congr 1
      apply List.ext_getElem?
      intro i
      cases hd : dst[i]? with
      | none =>
        have := List.getElem?_eq_none_iff.1 hd
        rw [List.getElem?_eq_none (by omega)]
      | some d => obtain ⟨o, ho, rfl⟩ := h2 i d hd; rw [ho]
  induction cs with
  | nil =>
    intro dst dls ps out
    have h0 : copyOut w h dst dls ps [] = .ok dst := by
      cases dst <;> cases dls <;> cases ps <;> rfl
    rw [h0, stop]
    simp [copyCount]
  | cons c cs ih =>
    intro dst dls ps out
    cases dst with
    | nil =>
      rw [show copyOut w h [] dls ps (c :: cs) = .ok [] by cases dls <;> cases ps <;> rfl, stop]
      simp
    | cons d ds =>
    cases dls with
    | nil =>
      rw [show copyOut w h (d :: ds) [] ps (c :: cs) = .ok (d :: ds) by cases ps <;> rfl, stop]
      simp [copyCount]
    | cons l ls =>
    cases ps with
    | nil =>
      rw [show copyOut w h (d :: ds) (l :: ls) [] (c :: cs) = .ok (d :: ds) from rfl, stop]
      simp [copyCount]
    | cons p ps =>
    have hcount : copyCount (d :: ds) (l :: ls) (p :: ps) (c :: cs) = copyCount ds ls ps cs + 1 := by
      simp only [copyCount, List.length_cons]; omega
    rw [hcount]
    have split : (out.length = (d :: ds).length ∧ ∀ (i : Nat) (d' : List U8), (d :: ds)[i]? = some d' → ∃ o, out[i]? = some o ∧
          (copyCount ds ls ps cs + 1 ≤ i → o = d') ∧
          (i < copyCount ds ls ps cs + 1 → ∀ (l' : Nat) (p' : Plane), (l :: ls)[i]? = some l' → (p :: ps)[i]? = some p' →
            PlaneCopied w h (c :: cs)[i]? d' l' p'.buf p'.linesize o)) ↔
        ∃ o os, out = o :: os ∧ PlaneCopied w h (some c) d l p.buf p.linesize o ∧
          copyOut w h ds ls ps cs = .ok os := by
      constructor
      · rintro ⟨h1, h2⟩
        cases out with
        | nil => simp at h1
        | cons o os =>
          obtain ⟨o', e1, _, e3⟩ := h2 0 d rfl
          cases e1
          refine ⟨o, os, rfl, e3 (by omega) l p rfl rfl, (ih ..).2 ⟨by simpa using h1, ?_⟩⟩
          intro i d' hd'
          obtain ⟨o', f1, f2, f3⟩ := h2 (i + 1) d' hd'
          exact ⟨o', f1, fun hle => f2 (by omega), fun hlt l' p' hl hp => f3 (by omega) l' p' hl hp⟩
      · rintro ⟨o, os, rfl, g1, g2⟩
        obtain ⟨i1, i2⟩ := (ih ..).1 g2
        refine ⟨by simp [i1], ?_⟩
        intro i d' hd'
        cases i with
        | zero =>
          cases hd'
          refine ⟨o, rfl, fun hle => by omega, fun _ l' p' hl hp => ?_⟩
          cases hl; cases hp
          exact g1
        | succ i =>
          obtain ⟨o', f1, f2, f3⟩ := i2 i d' hd'
          exact ⟨o', f1, fun hle => f2 (by omega), fun hlt l' p' hl hp => f3 (by omega) l' p' hl hp⟩
    rw [split]
    cases c with
    | none =>
      constructor
      · intro e; cases e
      · rintro ⟨_, _, _, ⟨_, _, _, e, _⟩, _⟩; cases e
    | some c =>
      have hstep : copyOut w h (d :: ds) (l :: ls) (p :: ps) (some c :: cs) =
          (do copyPlane d l p.buf p.linesize (← c.getWidth w) (← c.getHeight h)) >>= fun o => do
            return o :: (← copyOut w h ds ls ps cs) := by
        simp only [copyOut]
        cases c.getWidth w with
        | error e => rfl
        | ok cw =>
          cases c.getHeight h with
          | error e => rfl
          | ok ch => rfl
      rw [hstep]
      constructor
      · intro e
        cases hx : (do copyPlane d l p.buf p.linesize (← c.getWidth w) (← c.getHeight h)) with
        | error er => rw [hx] at e; cases e
        | ok o =>
          rw [hx] at e
          simp only [ok_bind] at e
          cases hy : copyOut w h ds ls ps cs with
          | error er => rw [hy] at e; cases e
          | ok os =>
            rw [hy] at e
            cases e
            exact ⟨o, os, rfl, planeCopied_cons.1 hx, rfl⟩
      · rintro ⟨o, os, rfl, g1, g2⟩
        rw [planeCopied_cons.2 g1, g2]
        rfl

/-- **C48**, partial: `copy_frame_to_buffer` for all frames and arguments. It returns exactly when the frame is a video
frame and each plane it copies (as many as there are destinations, line sizes, planes and entries of the format) has a
component and can be copied with that component's columns and rows; it then leaves the other destinations alone. -/
theorem c48_frame_partial (f : Frame) (dst : List (List U8)) (dls : List Nat) (out : List (List U8)) :
    copyFrameToBuffer f dst dls = .ok out ↔ ∃ v, f.kind = .Video v ∧ out.length = dst.length ∧
      ∀ (i : Nat) (d : List U8), dst[i]? = some d → ∃ o, out[i]? = some o ∧
        (copyCount dst dls f.planes v.format.comp_info ≤ i → o = d) ∧
        (i < copyCount dst dls f.planes v.format.comp_info → ∀ (l : Nat) (p : Plane), dls[i]? = some l → f.planes[i]? = some p →
          PlaneCopied v.width v.height v.format.comp_info[i]? d l p.buf p.linesize o) := by
  unfold copyFrameToBuffer
  cases f.kind with
  | Audio a => simp
  | Video v =>
    simp only [copyOut_iff]
    constructor
    · intro h; exact ⟨v, rfl, h⟩
    · rintro ⟨v', e, h⟩; cases e; exact h

theorem copyIn_iff (w h : Nat) (ps : List Plane) : ∀ (src : List (List U8)) (sls : List Nat)
    (cs : List (Option Chromaton)) (qs : List Plane),
    copyIn w h ps src sls cs = .ok qs ↔ qs.length = ps.length ∧
      ∀ (i : Nat) (p : Plane), ps[i]? = some p → ∃ s l o, src[i]? = some s ∧ sls[i]? = some l ∧ qs[i]? = some { p with buf := o } ∧
        PlaneCopied w h cs[i]? p.buf p.linesize s l o := by
  induction ps with
  | nil =>
    intro src sls cs qs
    rw [show copyIn w h [] src sls cs = .ok [] by unfold copyIn; rfl]
    constructor
    · intro e; cases e; exact ⟨rfl, fun i p hp => by simp at hp⟩
    · rintro ⟨h1, _⟩
      rw [List.length_nil, List.length_eq_zero_iff] at h1
      rw [h1]
  | cons p ps ih =>
    intro src sls cs qs
    have fail : copyIn w h (p :: ps) src sls cs = .error .unwrap →
        (src[0]? = none ∨ sls[0]? = none ∨ ∀ c, cs[0]? ≠ some (some c)) →
        (copyIn w h (p :: ps) src sls cs = .ok qs ↔ qs.length = (p :: ps).length ∧
          ∀ (i : Nat) (p' : Plane), (p :: ps)[i]? = some p' → ∃ s l o, src[i]? = some s ∧ sls[i]? = some l ∧
            qs[i]? = some { p' with buf := o } ∧ PlaneCopied w h cs[i]? p'.buf p'.linesize s l o) := by
      intro e h0
      rw [e]
      constructor
      · intro h; cases h
      · rintro ⟨_, h2⟩
        obtain ⟨s, l, o, a1, a2, _, c, _, _, a4, _⟩ := h2 0 p rfl
        rcases h0 with h0 | h0 | h0
        · rw [h0] at a1; cases a1
        · rw [h0] at a2; cases a2
        · exact absurd a4 (h0 c)
    cases src with
    | nil => exact fail (by unfold copyIn; rfl) (.inl rfl)
    | cons s ss =>
    cases sls with
    | nil => exact fail (by unfold copyIn; rfl) (.inr (.inl rfl))
    | cons l ls =>
    cases cs with
    | nil => exact fail (by unfold copyIn; rfl) (.inr (.inr (fun c e => by simp at e)))
    | cons c cs =>
    cases c with
    | none => exact fail (by unfold copyIn; rfl) (.inr (.inr (fun c e => by simp at e)))
    | some c =>
      have hstep : copyIn w h (p :: ps) (s :: ss) (l :: ls) (some c :: cs) =
          (do copyPlane p.buf p.linesize s l (← c.getWidth w) (← c.getHeight h)) >>= fun o => do
            return { p with buf := o } :: (← copyIn w h ps ss ls cs) := by
        simp only [copyIn]
        cases c.getWidth w with
        | error e => rfl
        | ok cw =>
          cases c.getHeight h with
          | error e => rfl
          | ok ch => rfl
      rw [hstep]
      constructor
      · intro e
        cases hx : (do copyPlane p.buf p.linesize s l (← c.getWidth w) (← c.getHeight h)) with
        | error er => rw [hx] at e; cases e
        | ok o =>
          rw [hx] at e
          simp only [ok_bind] at e
          cases hy : copyIn w h ps ss ls cs with
          | error er => rw [hy] at e; cases e
          | ok os =>
            rw [hy] at e
            cases e
            obtain ⟨i1, i2⟩ := (ih ..).1 hy
            refine ⟨by simp [i1], ?_⟩
            intro i p' hp
            cases i with
            | zero => cases hp; exact ⟨s, l, o, rfl, rfl, rfl, planeCopied_cons.1 hx⟩
            | succ i => exact i2 i p' hp
      · rintro ⟨h1, h2⟩
        cases qs with
        | nil => simp at h1
        | cons q qs =>
          obtain ⟨s', l', o, a1, a2, a3, a4⟩ := h2 0 p rfl
          cases a1; cases a2; cases a3
          rw [planeCopied_cons.2 a4, (ih ss ls cs qs).2 ⟨by simpa using h1, fun i p' hp => h2 (i + 1) p' hp⟩]
          rfl

/-- **C48**, partial: `copy_from_slice` for all frames and arguments. It returns exactly when the frame is a video
frame and every plane of it has a slice, a line size and a component and can be copied with the component's columns
and rows; kind, times and line sizes stay. -/
theorem c48_slice_partial (f f' : Frame) (src : List (List U8)) (sls : List Nat) :
    copyFromSlice f src sls = .ok f' ↔ ∃ v, f.kind = .Video v ∧ f'.kind = f.kind ∧ f'.t = f.t ∧
      f'.planes.length = f.planes.length ∧
      ∀ (i : Nat) (p : Plane), f.planes[i]? = some p → ∃ s l o, src[i]? = some s ∧ sls[i]? = some l ∧
        f'.planes[i]? = some { p with buf := o } ∧
        PlaneCopied v.width v.height v.format.comp_info[i]? p.buf p.linesize s l o := by
  unfold copyFromSlice
  cases hk : f.kind with
  | Audio a => simp
  | Video v =>
    have hx : (do let planes ← copyIn v.width v.height f.planes src sls v.format.comp_info
                  return { f with planes } : Rust Frame) = .ok f' ↔
        copyIn v.width v.height f.planes src sls v.format.comp_info = .ok f'.planes ∧ f'.kind = f.kind ∧
          f'.t = f.t := by
      cases copyIn v.width v.height f.planes src sls v.format.comp_info with
      | error e => simp
      | ok qs =>
        simp only [ok_bind, pure_eq_ok, Except.ok.injEq]
        constructor
        · rintro rfl; exact ⟨rfl, rfl, rfl⟩
        · rintro ⟨rfl, h1, h2⟩
          cases f'; simp_all
    rw [hk] at hx
    simp only
    rw [hx, copyIn_iff]
    constructor
    · rintro ⟨⟨a1, a2⟩, a3, a4⟩; exact ⟨v, rfl, a3, a4, a1, a2⟩
    · rintro ⟨v', e, a3, a4, a1, a2⟩; cases e; exact ⟨⟨a1, a2⟩, a3, a4⟩

/-- **C73**, partial (false as it stands, `c73_fails`): in each row of each plane copied, the bytes from the component's
number of columns on stay as they were, however many bytes a sample has. -/
theorem c73_exact_partial (f : Frame) (v : VideoInfo) (hk : f.kind = .Video v) (dst : List (List U8)) (dls : List Nat)
    (out : List (List U8)) (h : copyFrameToBuffer f dst dls = .ok out) (i : Nat) (d o : List U8) (l : Nat)
    (hd : dst[i]? = some d) (ho : out[i]? = some o) (hl : dls[i]? = some l) (c : Chromaton) (cw : Nat)
    (hc : v.format.comp_info[i]? = some (some c)) (hw : c.getWidth v.width = .ok cw) (y x : Nat) (hx : cw ≤ x)
    (hxl : x < l) (hin : y * l + x < d.length) : o[y * l + x]? = d[y * l + x]? := by
  obtain ⟨v', hk', h1, h2⟩ := (c48_frame_partial ..).1 h
  rw [hk] at hk'
  cases hk'
  obtain ⟨o', e1, e2, e3⟩ := h2 i d hd
  rw [ho] at e1
  cases e1
  by_cases hi : i < copyCount dst dls f.planes v.format.comp_info
  · have hp : i < f.planes.length := by unfold copyCount at hi; omega
    obtain ⟨c', cw', ch, g1, g2, g3, g4⟩ := e3 hi l _ hl (List.getElem?_eq_getElem hp)
    rw [hc] at g1
    cases g1
    rw [hw] at g2
    cases g2
    cases g4 with
    | done a1 a2 a3 a4 a5 => rw [a5 y x hxl hin, if_neg (by omega)]
  · rw [e2 (by omega)]

/-- A 3 by 1 picture of one component with 16 bits per sample. -/
def deepVideo : VideoInfo :=
  ⟨3, 1, false, .I, { formats.YUV420 with comp_info := [some (.new 0 0 false 16 0 0 1), none, none, none, none] }, 16⟩

example : copyFrameToBuffer ⟨.Video deepVideo, [⟨[1, 2, 3, 4, 5, 6], 6⟩], .default⟩ [List.replicate 6 0, [9]] [6] =
    .ok [[1, 2, 3, 0, 0, 0], [9]] := by decide

example : copyFromSlice ⟨.Video deepVideo, [⟨[1, 2, 3, 4, 5, 6], 6⟩], .default⟩ [[7, 8, 9], [0]] [3, 1] =
    .ok ⟨.Video deepVideo, [⟨[7, 8, 9, 4, 5, 6], 6⟩], .default⟩ := by rfl

end Verif.Frame
