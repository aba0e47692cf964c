import Verif.Live.Queue

/-!
# C140: an `AccReader` inside another one

`AccReader<AccReader<R>>`: the inner one is the `Read + Seek` object of the outer one.
-/

namespace Verif.Live
open Verif Verif.Io Verif.Acc

variable {R A B : Type} {dev : Dev R} {dat : List U8} {pos len : R → Nat}

/-- An `AccReader` as the reader inside another one. If it panicked the outer one would, too; it never does, and
`unused` is not returned (`c140_partial`). -/
def accDev (unused : IoErr) (dev : Dev R) : Dev (LAcc R) where
  read r n := match read dev r n with
    | .ok p => p
    | .error _ => (.error unused, r)
  seek r sf := match seek dev r sf with
    | .ok p => p
    | .error _ => (.error unused, r)

/-! ### Readers that correspond to each other -/

/-- `φ` maps states of one reader to states of another one that does the same, at least if `S` when it comes to seeks. -/
structure Over (φ : A → B) (da : Dev A) (db : Dev B) (S : Prop) : Prop where
  read : ∀ a n, db.read (φ a) n = ((da.read a n).1, φ (da.read a n).2)
  seek : S → ∀ a sf, db.seek (φ a) sf = ((da.seek a sf).1, φ (da.seek a sf).2)

def LAcc.over (φ : A → B) (r : LAcc A) : LAcc B := ⟨φ r.inner, r.buf, r.pos, r.end, r.index⟩

/-- The same outcome over the other reader. -/
def onto (φ : A → B) {α : Type} : Rust (α × LAcc A) → Rust (α × LAcc B)
  | .error p => .error p
  | .ok (x, r) => .ok (x, r.over φ)

variable {φ : A → B} {da : Dev A} {db : Dev B} {S : Prop}

theorem reset_over (φ : A → B) (r : LAcc A) :
    resetBufferPosition (r.over φ) = (resetBufferPosition r).map (LAcc.over φ) := by
  unfold resetBufferPosition
  simp only [LAcc.over]
  cases usub r.end r.pos with
  | error p => rfl
  | ok w =>
    simp only [ok_bind]
    generalize (if w > 0 then copyWithin0 r.buf r.pos r.end else Except.ok r.buf) = b
    cases b <;> rfl

theorem fillBuf_over (h : Over φ da db S) (r : LAcc A) : fillBuf db (r.over φ) = onto φ (fillBuf da r) := by
  unfold fillBuf
  simp only [reset_over]
  simp only [show (r.over φ).pos = r.pos from rfl, show (r.over φ).end = r.end from rfl,
    show (r.over φ).buf = r.buf from rfl]
  by_cases hc : r.pos ≠ 0 ∨ r.end ≠ r.buf.length
  · rw [if_pos hc, if_pos hc]
    cases resetBufferPosition r with
    | error p => rfl
    | ok r1 =>
      show (sliceFrom r1.buf r1.end >>= _) = onto φ (sliceFrom r1.buf r1.end >>= _)
      cases sliceFrom r1.buf r1.end with
      | error p => rfl
      | ok room =>
        simp only [ok_bind, LAcc.over, h.read]
        cases da.read r1.inner room.length with
        | mk x s =>
          cases x with
          | error e => rfl
          | ok l =>
            simp only [data]
            generalize sliceRange _ _ _ = w
            cases w <;> rfl
  · rw [if_neg hc, if_neg hc]
    simp only [data, LAcc.over]
    generalize sliceRange _ _ _ = w
    cases w <;> rfl

theorem read_over (h : Over φ da db S) (r : LAcc A) (n : Nat) : read db (r.over φ) n = onto φ (read da r n) := by
  unfold read
  simp only [show (r.over φ).pos = r.pos from rfl, show (r.over φ).end = r.end from rfl,
    show (r.over φ).buf = r.buf from rfl, fillBuf_over h]
  cases usub r.end r.pos with
  | error p => rfl
  | ok w =>
    simp only [ok_bind]
    by_cases h1 : n < w
    · rw [if_pos h1, if_pos h1]
      cases sliceRange r.buf r.pos (r.pos + n) <;> rfl
    · rw [if_neg h1, if_neg h1]
      by_cases h2 : n > r.buf.length
      · rw [if_pos h2, if_pos h2]
        cases sliceRange r.buf r.pos r.end with
        | error p => rfl
        | ok l =>
          simp only [ok_bind]
          cases usub n w with
          | error p => rfl
          | ok room =>
            simp only [ok_bind, LAcc.over, h.read]
            cases da.read r.inner room with
            | mk x s =>
              cases x with
              | error e => rfl
              | ok l2 =>
                simp only
                rw [show (consume { inner := φ s, buf := r.buf, pos := r.pos, «end» := r.end, index := r.index }
                  (l2.length + (l.take n).length)) = (consume { r with inner := s }
                  (l2.length + (l.take n).length)).over φ from rfl, reset_over]
                cases resetBufferPosition (consume { r with inner := s } (l2.length + (l.take n).length)) <;> rfl
      · rw [if_neg h2, if_neg h2]
        cases fillBuf da r with
        | error p => rfl
        | ok v =>
          obtain ⟨x, r1⟩ := v
          cases x <;> rfl

theorem seekInner_over (h : Over φ da db S) (hs : S) (r : LAcc A) (sf : SeekFrom) :
    seekInner db (r.over φ) sf = onto φ (seekInner da r sf) := by
  unfold seekInner
  simp only [show (r.over φ).inner = φ r.inner from rfl, h.seek hs]
  cases da.seek r.inner sf with
  | mk x s =>
    cases x with
    | error e => rfl
    | ok sz =>
      simp only
      rw [show ({ r.over φ with inner := φ s, index := sz, pos := 0, «end» := 0 } : LAcc B) =
        ({ r with inner := s, index := sz, pos := 0, «end» := 0 } : LAcc A).over φ from rfl, fillBuf_over h]
      cases fillBuf da { r with inner := s, index := sz, pos := 0, «end» := 0 } with
      | error p => rfl
      | ok v =>
        obtain ⟨y, r1⟩ := v
        cases y <;> rfl

theorem seek_over (h : Over φ da db S) (hs : S) (r : LAcc A) (sf : SeekFrom) :
    seek db (r.over φ) sf = onto φ (seek da r sf) := by
  unfold seek
  simp only [seekInner_over h hs, show (r.over φ).pos = r.pos from rfl, show (r.over φ).end = r.end from rfl,
    show (r.over φ).index = r.index from rfl]
  cases sf with
  | start n =>
    simp only
    by_cases h : n ≥ r.index
    · rw [if_pos h, if_pos h]
      cases usub (r.index + r.end) r.pos with
      | error p => rfl
      | ok lim =>
        simp only [ok_bind]
        by_cases h2 : n < lim
        · rw [if_pos h2, if_pos h2]; rfl
        · rw [if_neg h2, if_neg h2]
    · rw [if_neg h, if_neg h]
  | «end» d => rfl
  | current d =>
    simp only
    cases usub r.end r.pos with
    | error p => rfl
    | ok lim =>
      simp only [ok_bind]
      by_cases h : d ≥ 0
      · rw [if_pos h, if_pos h]
        by_cases h2 : d.toNat ≤ lim
        · rw [if_pos h2, if_pos h2]; rfl
        · rw [if_neg h2, if_neg h2]
      · rw [if_neg h, if_neg h]

theorem readExact_over (h : Over φ da db S) (fuel : Nat) (r : LAcc A) (n : Nat) :
    readExact (read db) fuel (r.over φ) n = onto φ (readExact (read da) fuel r n) := by
  induction fuel generalizing r n with
  | zero => rfl
  | succ fuel ih =>
    unfold readExact
    by_cases h0 : n = 0
    · rw [if_pos h0, if_pos h0]; rfl
    · rw [if_neg h0, if_neg h0, read_over h]
      cases read da r n with
      | error p => rfl
      | ok v =>
        obtain ⟨x, r1⟩ := v
        simp only [onto, ok_bind]
        cases x with
        | error e => cases e <;> first | exact ih r1 n | rfl
        | ok l =>
          cases l with
          | nil => rfl
          | cons a l =>
            simp only
            rw [ih]
            cases readExact (read da) fuel r1 _ with
            | error p => rfl
            | ok v =>
              obtain ⟨y, r2⟩ := v
              cases y <;> rfl

theorem step_over (h : Over φ da db S) (fuel : Nat) (r : LAcc A) (op : Op) (hs : (∃ sf, op = .seek sf) → S) :
    step db fuel (r.over φ) op = onto φ (step da fuel r op) := by
  cases op with
  | read n =>
    simp only [step, read_over h]
    cases read da r n with
    | error p => rfl
    | ok v => obtain ⟨x, r1⟩ := v; cases x <;> rfl
  | readExact n =>
    simp only [step, readExact_over h]
    cases readExact (read da) fuel r n with
    | error p => rfl
    | ok v => obtain ⟨x, r1⟩ := v; cases x <;> rfl
  | fillBuf =>
    simp only [step, fillBuf_over h]
    cases fillBuf da r with
    | error p => rfl
    | ok v => obtain ⟨x, r1⟩ := v; cases x <;> rfl
  | consume k =>
    simp only [step, data, LAcc.over]
    generalize sliceRange _ _ _ = w
    cases w <;> rfl
  | grow k => rfl
  | reset =>
    simp only [step, reset_over]
    cases resetBufferPosition r <;> rfl
  | seek sf =>
    simp only [step, seek_over h (hs ⟨sf, rfl⟩)]
    cases seek da r sf with
    | error p => rfl
    | ok v => obtain ⟨x, r1⟩ := v; cases x <;> rfl

theorem run_over (h : Over φ da db S) (fuel : Nat) (r : LAcc A) (ops : List Op)
    (hs : (∃ sf, .seek sf ∈ ops) → S) : run db fuel (r.over φ) ops = onto φ (run da fuel r ops) := by
  induction ops generalizing r with
  | nil => rfl
  | cons op ops ih =>
    simp only [run]
    rw [step_over h fuel r op (fun ⟨sf, e⟩ => hs ⟨sf, by simp [e]⟩)]
    cases step da fuel r op with
    | error p => rfl
    | ok v =>
      obtain ⟨o, r1⟩ := v
      simp only [onto, ok_bind, ih r1 fun ⟨sf, e⟩ => hs ⟨sf, by simp [e]⟩]
      cases run da fuel r1 ops <;> rfl

/-! ### `AccReader` keeps the contracts, except when a read fails during a seek -/

/-- A reader whose reads never fail. -/
def ReadsReturn (dev : Dev R) : Prop := ∀ r n, ∃ l, (dev.read r n).1 = .ok l

theorem acc_read (unused : IoErr) (hg : Grows dev dat pos len) {r : LAcc R} (h : Inv dat pos len r) (n : Nat) :
    RSpec dev dat pos len r ((accDev unused dev).read r n).2 n ((accDev unused dev).read r n).1 := by
  obtain ⟨x, r', a1, a2⟩ := read_spec hg h n
  simp only [accDev, a1]
  exact a2

theorem acc_seek (unused : IoErr) (hg : Grows dev dat pos len) {r : LAcc R} (h : Inv dat pos len r) (sf : SeekFrom) :
    SeekSpec dev dat pos len r ((accDev unused dev).seek r sf).2 (goal pos r sf) (Back sf)
      ((accDev unused dev).seek r sf).1 := by
  obtain ⟨x, r', a1, a2⟩ := seek_spec hg h sf
  simp only [accDev, a1]
  exact a2

theorem seekInner_stays (hg : Grows dev dat pos len) (hr : ReadsReturn dev) {r : LAcc R}
    {sf : SeekFrom} {e : IoErr} {r' : LAcc R} (hs : seekInner dev r sf = .ok (.error e, r')) : r'.index = r.index := by
  have hok := hg.seek_ok r.inner sf
  unfold seekInner at hs
  cases hd : dev.seek r.inner sf with
  | mk x s' =>
    rw [hd] at hs hok
    cases x with
    | error e' => simp only [Except.ok.injEq, Prod.mk.injEq] at hs; rw [← hs.2]
    | ok sz =>
      obtain ⟨g1, t, g2, g3, g4⟩ := hok sz rfl
      have hinv : Inv dat pos len ({ r with inner := s', index := sz, pos := 0, «end» := 0 } : LAcc R) := by
        refine ⟨Nat.le_refl _, Nat.zero_le _, ?_, ?_, .inl rfl⟩
        · simp only at g1 ⊢; omega
        · simp [win]
      obtain ⟨y, r1, a1, a2⟩ := fillBuf_spec hg hinv
      simp only [a1, ok_bind] at hs
      cases y with
      | ok l => simp at hs
      | error e' =>
        obtain ⟨_, _, n, hn⟩ := a2.error e' rfl
        obtain ⟨l, hl⟩ := hr s' n
        rw [hn] at hl
        exact nomatch hl

theorem seek_stays (hg : Grows dev dat pos len) (hr : ReadsReturn dev) {r : LAcc R} (h : Inv dat pos len r)
    {sf : SeekFrom} {e : IoErr} {r' : LAcc R} (hs : seek dev r sf = .ok (.error e, r')) : r'.index = r.index := by
  unfold seek at hs
  cases sf with
  | start n =>
    simp only at hs
    split at hs
    · rw [usub_ok (by have := h.pe; omega)] at hs
      simp only [ok_bind] at hs
      split at hs
      · simp at hs
      · exact seekInner_stays hg hr hs
    · exact seekInner_stays hg hr hs
  | «end» d => exact seekInner_stays hg hr hs
  | current d =>
    simp only [usub_ok h.pe, ok_bind] at hs
    split at hs
    · split at hs
      · simp at hs
      · exact seekInner_stays hg hr hs
    · exact seekInner_stays hg hr hs

open Classical in
/-- The inner `AccReader`, in the states it can get into; its seeks are switched off unless `S`. -/
noncomputable def innerDev (unused off : IoErr) (hg : Grows dev dat pos len) (S : Prop) :
    Dev {r : LAcc R // Inv dat pos len r} where
  read r n := (((accDev unused dev).read r.1 n).1, ⟨((accDev unused dev).read r.1 n).2, (acc_read unused hg r.2 n).inv⟩)
  seek r sf :=
    if S then
      (((accDev unused dev).seek r.1 sf).1, ⟨((accDev unused dev).seek r.1 sf).2, (acc_seek unused hg r.2 sf).inv⟩)
    else (.error off, r)

theorem inner_over (unused off : IoErr) (hg : Grows dev dat pos len) (S : Prop) :
    Over Subtype.val (innerDev unused off hg S) (accDev unused dev) S where
  read _ _ := rfl
  seek hs a sf := by simp only [innerDev, if_pos hs]

theorem inner_grows (unused off : IoErr) (hg : Grows dev dat pos len) (S : Prop) (hr : S → ReadsReturn dev) :
    Grows (innerDev unused off hg S) dat (fun r => r.1.index) (fun r => len r.1.inner) := by
  constructor
  · intro r; exact hg.within _
  · intro r n; exact (acc_read unused hg r.2 n).grown
  · intro r n l h
    obtain ⟨a1, a2, a3, a4, a5⟩ := (acc_read unused hg r.2 n).ok l h
    exact ⟨a1, a2, a3, fun hl => by have := a4 hl; rw [a3] at this; exact this, a5⟩
  · intro r n e h
    exact ((acc_read unused hg r.2 n).error e h).1
  · intro r sf
    by_cases hs : S
    · simp only [innerDev, if_pos hs]; exact (acc_seek unused hg r.2 sf).grown
    · simp only [innerDev, if_neg hs]; exact Nat.le_refl _
  · intro r sf m h
    by_cases hs : S
    · simp only [innerDev, if_pos hs] at h ⊢
      obtain ⟨a1, t, a2, a3, a4⟩ := (acc_seek unused hg r.2 sf).ok m h
      refine ⟨a1, t, a2, a3, ?_⟩
      rcases a4 with a4 | a4
      · exact .inl a4
      · cases sf with
        | start n => exact .inr a4
        | «end» d => exact .inr a4
        | current d =>
          by_cases hd : 0 ≤ d
          · simp only [goal, if_pos hd] at a4; exact .inr a4
          · exact .inl (by simp only [Back]; omega)
    · simp only [innerDev, if_neg hs] at h; exact nomatch h
  · intro r sf e h
    by_cases hs : S
    · simp only [innerDev, if_pos hs] at h ⊢
      obtain ⟨x, r', a1, _⟩ := seek_spec hg r.2 sf
      simp only [accDev, a1] at h ⊢
      subst h
      exact seek_stays hg (hr hs) r.2 a1
    · simp only [innerDev, if_neg hs]

theorem inner_fails (unused off : IoErr) (hg : Grows dev dat pos len) (S : Prop) {e : IoErr}
    (h : (innerDev unused off hg S).Fails e) : dev.Fails e ∨ e = off := by
  rcases h with ⟨r, n, h⟩ | ⟨r, sf, h⟩
  · exact .inl ((acc_read unused hg r.2 n).error e h).2.2
  · by_cases hs : S
    · simp only [innerDev, if_pos hs] at h
      exact .inl ((acc_seek unused hg r.2 sf).error e h).1
    · simp only [innerDev, if_neg hs, Except.error.injEq] at h
      exact .inr h.symm

/-! ### Errors -/

theorem Sees.mono {f g : IoErr → Prop} {n p n' p' : Nat} {op : Op} {o : Out} (h : Sees f dat n p op o n' p')
    (hfg : ∀ e, o = .err e → f e → g e) : Sees g dat n p op o n' p' := by
  cases op <;> cases o <;> simp only [Sees] at h ⊢
  all_goals first
    | exact h
    | exact ⟨h.1, hfg _ rfl h.2⟩
    | exact ⟨hfg _ rfl h.1, h.2⟩
    | exact ⟨h.1, h.2.1, h.2.2.imp (hfg _ rfl) id⟩

theorem SeesAll.mono {f g : IoErr → Prop} {n p n' p' : Nat} {ops : List Op} {os : List Out}
    (h : SeesAll f dat n p ops os n' p') (hfg : ∀ e, .err e ∈ os → f e → g e) : SeesAll g dat n p ops os n' p' := by
  induction ops generalizing n p os with
  | nil => cases os <;> exact h
  | cons op ops ih =>
    cases os with
    | nil => exact h
    | cons o os =>
      obtain ⟨m, q, a1, a2, a3⟩ := h
      exact ⟨m, q, a1, a2.mono fun e he => hfg e (by simp [he]), ih a3 fun e he => hfg e (by simp [he])⟩

/-- An error that is not among the results. -/
theorem fresh (os : List Out) : ∃ e : IoErr, .err e ∉ os := by
  have : ∃ k, ∀ n, Out.err (.other n) ∈ os → n < k := by
    induction os with
    | nil => exact ⟨0, by simp⟩
    | cons o os ih =>
      obtain ⟨k, hk⟩ := ih
      cases o with
      | err e =>
        cases e with
        | other m =>
          refine ⟨max k (m + 1), ?_⟩
          intro n hn
          rcases List.mem_cons.mp hn with h | h
          · simp only [Out.err.injEq, IoErr.other.injEq] at h; omega
          · have := hk n h; omega
        | _ => exact ⟨k, fun n hn => hk n (by simpa using hn)⟩
      | _ => exact ⟨k, fun n hn => hk n (by simpa using hn)⟩
  obtain ⟨k, hk⟩ := this
  exact ⟨.other k, fun h => absurd (hk k h) (by omega)⟩

/-! ### Twice buffered -/

/-- What C133 says, of two readers one in the other. -/
def Twice (unused : IoErr) (dev : Dev R) (dat : List U8) (len : R → Nat) (s : R) (cap₁ cap₂ fuel : Nat)
    (ops : List Op) : Prop :=
  (run (accDev unused dev) fuel (withCapacity cap₂ (withCapacity cap₁ s)) ops = .error .fuel ∧
    ∃ n, .readExact n ∈ ops) ∨
  ∃ os r p, run (accDev unused dev) fuel (withCapacity cap₂ (withCapacity cap₁ s)) ops = .ok (os, r) ∧
    SeesAll dev.Fails dat (len s) 0 ops os (len r.inner.inner) p ∧ Stands (accDev unused dev) r p

/-- **C140** An `AccReader` over an `AccReader` keeps the promises of C133. -/
def C140 : Prop := ∀ (R : Type) (dev : Dev R) (dat : List U8) (pos len : R → Nat), Grows dev dat pos len →
  ∀ s, pos s = 0 → ∀ cap₁ cap₂, 0 < cap₁ → 0 < cap₂ → ∀ unused fuel ops, Twice unused dev dat len s cap₁ cap₂ fuel ops

/-- **C140, partial** For every history without seeks, whatever fails, and for every history over a reader whose reads do
not fail: no history panics, neither in the outer nor in the inner reader; every byte delivered or shown is the one at
the position, and errors are those of `R`. Missing: seeks over readers that fail, for which C140 is false. -/
theorem c140_partial (hg : Grows dev dat pos len) (s : R) (h0 : pos s = 0) (cap₁ cap₂ : Nat) (hcap : 0 < cap₂)
    (unused : IoErr) (fuel : Nat) (ops : List Op) (hs : (∃ sf, .seek sf ∈ ops) → ReadsReturn dev) :
    Twice unused dev dat len s cap₁ cap₂ fuel ops ∧
    ∀ os r, run (accDev unused dev) fuel (withCapacity cap₂ (withCapacity cap₁ s)) ops = .ok (os, r) →
      ∀ n sf, ∃ x y, read dev r.inner n = .ok x ∧ seek dev r.inner sf = .ok y := by
  have hi := withCapacity_inv (dat := dat) (len := len) cap₁ s h0
  let S : Prop := ∃ sf, Op.seek sf ∈ ops
  have link : ∀ off, run (accDev unused dev) fuel (withCapacity cap₂ (withCapacity cap₁ s)) ops =
      onto Subtype.val (run (innerDev unused off hg S) fuel (withCapacity cap₂ ⟨withCapacity cap₁ s, hi⟩) ops) := fun off =>
    run_over (inner_over unused off hg S) fuel (withCapacity cap₂ ⟨withCapacity cap₁ s, hi⟩) ops id
  have spec : ∀ off, _ := fun off => run_spec (inner_grows unused off hg S hs) fuel
    (withCapacity_inv (dat := dat) (len := fun r : {r : LAcc R // Inv dat pos len r} => len r.1.inner) cap₂
      ⟨withCapacity cap₁ s, hi⟩ rfl) (by simpa [withCapacity] using hcap) ops
  have l0 := link (.other 0)
  rcases spec (.other 0) with ⟨e1, e2⟩ | ⟨os, r, a1, a2, _, _, _⟩
  · rw [e1] at l0
    refine ⟨.inl ⟨l0, e2⟩, ?_⟩
    intro os r hr
    rw [hr] at l0
    exact nomatch l0
  · rw [a1] at l0
    obtain ⟨off, hoff⟩ := fresh os
    have l1 := link off
    rcases spec off with ⟨e1, e2⟩ | ⟨os', r', b1, b2, _, _, b3⟩
    · rw [e1, l0] at l1; exact nomatch l1
    · rw [b1] at l1
      have hos : os = os' := by
        rw [l0] at l1
        simp only [onto, Except.ok.injEq, Prod.mk.injEq] at l1
        exact l1.1
      subst hos
      refine ⟨.inr ⟨os, r'.over Subtype.val, r'.index, l1, ?_, ?_⟩, ?_⟩
      · refine b3.mono ?_
        intro e he hf
        rcases inner_fails unused off hg S hf with hf | rfl
        · exact hf
        · exact absurd he hoff
      · unfold Stands seek
        simp only [show (r'.over Subtype.val).pos = r'.pos from rfl, show (r'.over Subtype.val).end = r'.end from rfl,
          show (r'.over Subtype.val).index = r'.index from rfl, usub_ok b2.pe, ok_bind]
        simp [LAcc.over]
      · intro os r2 hr n sf
        rw [hr] at l1
        simp only [onto, Except.ok.injEq, Prod.mk.injEq] at l1
        obtain ⟨_, rfl⟩ := l1
        obtain ⟨x, q, c1, _⟩ := read_spec hg r'.inner.2 n
        obtain ⟨y, q', c2, _⟩ := seek_spec hg r'.inner.2 sf
        exact ⟨_, _, c1, c2⟩

/-- A reader whose second and later calls fail, and one that grows. -/
example : Twice .interrupted (feedDev [1, 2, 3, 4, 5, 6] (fun k => if k % 3 = 1 then ⟨some (.other 5), 0⟩ else ⟨none, 1⟩) fun _ => 1)
    [1, 2, 3, 4, 5, 6] (fun f => min f.avail 6) ⟨0, 1, 0⟩ 3 4 9 [.read 2, .fillBuf, .readExact 3, .read 9] :=
  (c140_partial (feed_grows _ _ _) _ rfl 3 4 (by decide) _ _ _ (fun ⟨_, h⟩ => by simp at h)).1

example : ReadsReturn (feedDev [1, 2, 3, 4, 5, 6] (fun _ => ⟨none, 1⟩) fun _ => 1) :=
  fun r n => (feed_healthy _ _ _ fun _ => rfl).read r n

/-- Eight bytes; the third call fails. -/
def stumbling : Dev Feed := feedDev [1, 2, 3, 4, 5, 6, 7, 8] (fun k => if k = 2 then ⟨some (.other 5), 0⟩ else ⟨none, 9⟩) fun _ => 0

/-- **C140 fails** If a read fails when the inner reader refills its buffer after a seek, it has moved, but the outer one
believes that it has not: behind the bytes it holds it delivers bytes from elsewhere. -/
theorem c140_fails : ¬ C140 := by
  intro h
  have hs := h Feed stumbling _ _ _ (feed_grows _ _ _) ⟨0, 8, 0⟩ rfl 4 4 (by decide) (by decide) .interrupted 9
    [.read 1, .seek (.start 6), .read 3, .read 2]
  have hr : ∃ r, run (accDev .interrupted stumbling) 9 (withCapacity 4 (withCapacity 4 ⟨0, 8, 0⟩))
      [.read 1, .seek (.start 6), .read 3, .read 2] =
      .ok ([.bytes [1], .err (.other 5), .bytes [2, 3, 4], .bytes [7, 8]], r) := ⟨_, rfl⟩
  obtain ⟨r, hr⟩ := hr
  rcases hs with ⟨h1, _⟩ | ⟨os, r', p, h1, h2, _⟩
  · rw [hr] at h1; exact nomatch h1
  · rw [hr] at h1
    simp only [Except.ok.injEq, Prod.mk.injEq] at h1
    obtain ⟨rfl, rfl⟩ := h1
    obtain ⟨m1, q1, _, b1, m2, q2, _, b2, m3, q3, _, b3, m4, q4, _, b4, _⟩ := h2
    simp only [Sees] at b1 b2 b3 b4
    obtain ⟨_, _, rfl, _⟩ := b1
    obtain ⟨hat, _, rfl, _⟩ := b3
    obtain ⟨hat4, _⟩ := b4
    rcases b2.2 with rfl | ⟨d, _, hd⟩ | ⟨t, _, _, ht⟩
    · revert hat4; unfold At; decide
    · exact nomatch hd
    · simp only [aim] at ht
      have : q2 = 6 := by omega
      subst this
      revert hat; unfold At; decide

/-! ### a queue in front of a queue -/

/-- The queue of C137 as a reader. -/
def queueDev (dev : Dev R) : Dev (Queue R) := ⟨Queue.read dev, Queue.seek dev⟩

theorem queue_bounded (hb : Bounded dev) : Bounded (queueDev dev) := by
  intro b n l h
  simp only [queueDev, Queue.read] at h
  split at h
  · cases h; exact List.length_take_le ..
  · split at h
    · split at h
      · exact nomatch h
      · rename_i l2 s hr
        cases h
        have := hb b.inner (n - b.q.length) l2 (by rw [hr])
        rw [List.length_append]; omega
    · split at h
      · exact nomatch h
      · cases h; exact List.length_take_le ..

/-- The inner `AccReader`, in the states it can get into. -/
def tidyDev (unused : IoErr) (dev : Dev R) (hb : Bounded dev) : Dev {r : LAcc R // Tidy r} where
  read r n := (((accDev unused dev).read r.1 n).1, ⟨((accDev unused dev).read r.1 n).2, by
    obtain ⟨r', a1, a2, _⟩ := read_does hb r.2 n
    simp only [accDev, a1]
    exact a2⟩)
  seek r sf := (((accDev unused dev).seek r.1 sf).1, ⟨((accDev unused dev).seek r.1 sf).2, by
    obtain ⟨r', a1, a2, _⟩ := seek_does hb r.2 sf
    simp only [accDev, a1]
    exact a2⟩)

theorem tidy_over (unused : IoErr) (hb : Bounded dev) :
    Over Subtype.val (tidyDev unused dev hb) (accDev unused dev) True := ⟨fun _ _ => rfl, fun _ _ _ => rfl⟩

theorem tidy_view (unused : IoErr) (hb : Bounded dev) :
    Over (fun r => view r.1) (tidyDev unused dev hb) (queueDev dev) True where
  read r n := by
    obtain ⟨r', a1, _, a3⟩ := read_does hb r.2 n
    simp only [tidyDev, accDev, a1, queueDev, a3]
  seek _ r sf := by
    obtain ⟨r', a1, _, a3⟩ := seek_does hb r.2 sf
    simp only [tidyDev, accDev, a1, queueDev, a3]

theorem runCalls_ops (dev : Dev R) (fuel : Nat) (r : LAcc R) (ops : List Op) :
    runCalls dev fuel r (ops.map .op) = run dev fuel r ops := by
  induction ops generalizing r with
  | nil => rfl
  | cons op ops ih => simp only [List.map_cons, runCalls, run, stepCall, ih]

/-- **C140, partial** What two readers do one in the other, whatever `R` does and whatever fails: they are a queue in
front of a queue. In particular, neither panics. Missing: C140 asks for more, which is false if a refill fails after a
seek. -/
theorem c140_queues_partial (hb : Bounded dev) (s : R) (cap₁ cap₂ : Nat) (unused : IoErr) (fuel : Nat) (ops : List Op) :
    match (⟨⟨s, [], cap₁, 0⟩, [], cap₂, 0⟩ : Queue (Queue R)).run (queueDev dev) fuel (ops.map .op) with
    | .error p => p = .fuel ∧
        run (accDev unused dev) fuel (withCapacity cap₂ (withCapacity cap₁ s)) ops = .error .fuel ∧ ∃ n, .readExact n ∈ ops
    | .ok (os, b) => ∃ r, run (accDev unused dev) fuel (withCapacity cap₂ (withCapacity cap₁ s)) ops = .ok (os, r) ∧
        data r = .ok b.q ∧ r.buf.length = b.size ∧ Stands (accDev unused dev) r b.pos ∧
        data r.inner = .ok b.inner.q ∧ r.inner.buf.length = b.inner.size ∧ Stands dev r.inner b.inner.pos ∧
        r.inner.inner = b.inner.inner := by
  obtain ⟨t1, t2⟩ := withCapacity_tidy cap₁ s
  have o1 := run_over (tidy_over unused hb) fuel (withCapacity cap₂ ⟨withCapacity cap₁ s, t1⟩) ops fun _ => trivial
  have o2 := run_over (tidy_view unused hb) fuel (withCapacity cap₂ ⟨withCapacity cap₁ s, t1⟩) ops fun _ => trivial
  have e2 : LAcc.over (fun r : {r : LAcc R // Tidy r} => view r.1) (withCapacity cap₂ ⟨withCapacity cap₁ s, t1⟩) =
      withCapacity cap₂ ⟨s, [], cap₁, 0⟩ := by simp only [LAcc.over, withCapacity] at t2 ⊢; rw [t2]
  rw [e2] at o2
  have hq := c137_queue (queue_bounded hb) ⟨s, [], cap₁, 0⟩ cap₂ fuel (ops.map .op)
  rw [runCalls_ops, o2] at hq
  change run (accDev unused dev) fuel (withCapacity cap₂ (withCapacity cap₁ s)) ops = _ at o1
  rw [o1]
  generalize Queue.run (queueDev dev) fuel _ _ = z at hq ⊢
  cases hx : run (tidyDev unused dev hb) fuel (withCapacity cap₂ ⟨withCapacity cap₁ s, t1⟩) ops with
  | error p =>
    rw [hx] at hq
    cases z with
    | error p' =>
      obtain ⟨h1, h2, n, h3⟩ := hq
      simp only [onto, Except.error.injEq] at h2 ⊢
      exact ⟨h1, h2, n, by simpa using h3⟩
    | ok y =>
      obtain ⟨r, h1, _⟩ := hq
      exact nomatch h1
  | ok y =>
    obtain ⟨os, q⟩ := y
    rw [hx] at hq
    cases z with
    | error p' => exact nomatch hq.2.1
    | ok z =>
      obtain ⟨r, h1, h2, h3, h4, h5⟩ := hq
      simp only [onto, Except.ok.injEq, Prod.mk.injEq] at h1
      obtain ⟨e1, rfl⟩ := h1
      refine ⟨q.over Subtype.val, by rw [← e1]; rfl, h3, h4, ?_, ?_⟩
      · unfold Stands at h5 ⊢
        simp only [seek] at h5 ⊢
        change (do let remaining ← usub q.end q.pos; _) = _ at h5
        cases hu : usub q.end q.pos with
        | error p => rw [hu] at h5; exact nomatch h5
        | ok w =>
          rw [hu] at h5
          change (do let remaining ← usub q.end q.pos; _) = _
          rw [hu]
          simp [LAcc.over] at h5 ⊢
          exact h5
      · have hi : view q.inner.1 = _ := h2
        rw [← hi]
        exact ⟨q.inner.2.data, rfl, q.inner.2.stands, rfl⟩

/-- The history of `c140_fails`: the inner reader has moved to position 6, the outer one stands at 1. -/
example : (⟨⟨⟨0, 8, 0⟩, [], 4, 0⟩, [], 4, 0⟩ : Queue (Queue Feed)).run (queueDev stumbling) 9
      ([Op.read 1, .seek (.start 6)].map .op) =
    .ok ([.bytes [1], .err (.other 5)], ⟨⟨⟨6, 8, 3⟩, [], 4, 6⟩, [2, 3, 4], 4, 1⟩) := rfl

example : Bounded stumbling := fun s n l h => ((feed_grows _ _ _).read_ok s n l h).2.1

end Verif.Live
