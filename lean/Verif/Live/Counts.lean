import Verif.Live.Wild
import Verif.Acc.Release

/-!
# C151: counts that are too high, with and without overflow checks

`Wild.lean` has the sums of counts unbounded. Here `AccReader` over readers that keep no contract, with the arithmetic on
`usize` of a build: a count close to 2^64 makes `self.end += read` overflow.
-/

namespace Verif.Live
open Verif Verif.Io Verif.Data
open Verif.Acc (AccOps checkedAcc wrappingAcc copyWithin0)

variable {R : Type}

/-! ### the model -/

section model
variable (p : AccOps)

/-- accreader.rs:61-73 -/
def pReset (r : LAcc R) : Rust (LAcc R) := do
  let n ← p.sub r.end r.pos
  let buf ← (if n > 0 then copyWithin0 r.buf r.pos r.end else .ok r.buf)
  return { r with buf, «end» := n, pos := 0 }

/-- accreader.rs:91-94; `Vec::resize` to fewer bytes truncates -/
def pGrow (r : LAcc R) (len : Nat) : Rust (LAcc R) := do
  let l ← p.add r.buf.length len
  return { r with buf := r.buf.take l ++ List.replicate (l - r.buf.length) 0 }

/-- accreader.rs:159-163 -/
def pConsume (r : LAcc R) (amt : Nat) : Rust (LAcc R) := do
  let q ← p.add r.pos amt
  let i ← p.add r.index amt
  return { r with pos := min q r.end, index := i }

/-- accreader.rs:142-157 -/
def pFill (w : Wild R) (r : LAcc R) : Rust (Except IoErr (List U8) × LAcc R) :=
  if r.pos ≠ 0 ∨ r.end ≠ r.buf.length then do
    let r ← pReset p r
    let room ← sliceFrom r.buf r.end
    match w.read r.inner room with
    | (.error e, s, inner) => .ok (.error e, { r with inner, buf := r.buf.take r.end ++ s })
    | (.ok k, s, inner) => do
      let en ← p.add r.end k
      let r := { r with inner, buf := r.buf.take r.end ++ s, «end» := en }
      let l ← data r
      return (.ok l, r)
  else do
    let l ← data r
    return (.ok l, r)

/-- accreader.rs:98-138, into the buffer `out`; the result has the buffer afterwards. -/
def pRead (w : Wild R) (r : LAcc R) (out : List U8) : Rust (Except IoErr Nat × List U8 × LAcc R) := do
  let held ← p.sub r.end r.pos
  if out.length < held then do
    let hi ← p.add r.pos out.length
    let l ← sliceRange r.buf r.pos hi
    let r ← pConsume p r l.length
    return (.ok l.length, l ++ out.drop l.length, r)
  else if out.length > r.buf.length then do
    let l ← sliceRange r.buf r.pos r.end
    let l := l.take out.length
    let out := l ++ out.drop l.length
    let room ← sliceFrom out held
    match w.read r.inner room with
    | (.error e, s, inner) => .ok (.error e, out.take held ++ s, { r with inner })
    | (.ok k, s, inner) => do
      let total ← p.add k l.length
      let r ← pConsume p { r with inner } total
      let r ← pReset p r
      return (.ok total, out.take held ++ s, r)
  else do
    let (x, r) ← pFill p w r
    match x with
    | .error e => .ok (.error e, out, r)
    | .ok rem => do
      let l := rem.take out.length
      let r ← pConsume p r l.length
      return (.ok l.length, l ++ out.drop l.length, r)

/-- `std::io::default_read_exact` -/
def pReadExact (w : Wild R) : Nat → LAcc R → List U8 → Rust (Except IoErr Unit × List U8 × LAcc R)
  | 0, _, _ => .error .fuel
  | fuel + 1, r, out =>
    if out = [] then .ok (.ok (), [], r) else do
      let (x, out, r) ← pRead p w r out
      match x with
      | .error .interrupted => pReadExact w fuel r out
      | .error e => .ok (.error e, out, r)
      | .ok 0 => .ok (.error .unexpectedEof, out, r)
      | .ok (n + 1) => do
        let rest ← sliceFrom out (n + 1)
        let (x, rest, r) ← pReadExact w fuel r rest
        return (x, out.take (n + 1) ++ rest, r)

/-- accreader.rs:194-203 -/
def pSeekInner (w : Wild R) (r : LAcc R) (sf : SeekFrom) : Rust (Except IoErr Nat × LAcc R) :=
  match w.seek r.inner sf with
  | (.error e, inner) => .ok (.error e, { r with inner })
  | (.ok sz, inner) => do
    let (x, r) ← pFill p w { r with inner, index := sz, pos := 0, «end» := 0 }
    match x with
    | .error e => .ok (.error e, r)
    | .ok _ => .ok (.ok sz, r)

/-- accreader.rs:167-204 -/
def pSeek (w : Wild R) (r : LAcc R) (sf : SeekFrom) : Rust (Except IoErr Nat × LAcc R) :=
  match sf with
  | .start n =>
    if n ≥ r.index then do
      let sum ← p.add r.index r.end
      let lim ← p.sub sum r.pos
      if n < lim then do
        let d ← p.sub n r.index
        let q ← p.add r.pos d
        return (.ok n, { r with pos := q, index := n })
      else pSeekInner p w r sf
    else pSeekInner p w r sf
  | .end _ => pSeekInner p w r sf
  | .current d => do
    let remaining ← p.sub r.end r.pos
    if d ≥ 0 then
      if d.toNat ≤ remaining then do
        let i ← p.add r.index d.toNat
        let q ← p.add r.pos d.toNat
        return (.ok i, { r with index := i, pos := q })
      else pSeekInner p w r (.current (d - remaining))
    else pSeekInner p w r sf

/-- One call. -/
def pStep (w : Wild R) (fuel : Nat) (r : LAcc R) : WCall R → Rust (WOut × LAcc R)
  | .read out => do
    let (x, out, r) ← pRead p w r out
    return (.ofRead x out, r)
  | .readExact out => do
    let (x, out, r) ← pReadExact p w fuel r out
    return (.ofExact x out, r)
  | .fillBuf => do
    let (x, r) ← pFill p w r
    return (.ofFill x, r)
  | .consume k => do
    let r ← pConsume p r k
    return (.unit, r)
  | .grow k => do
    let r ← pGrow p r k
    return (.unit, r)
  | .reset => do
    let r ← pReset p r
    return (.unit, r)
  | .seek sf => do
    let (x, r) ← pSeek p w r sf
    return (.ofSeek x, r)
  | .getMut f => .ok (.unit, { r with inner := f r.inner })

/-- A history of calls. -/
def pRun (w : Wild R) (fuel : Nat) (r : LAcc R) : List (WCall R) → Rust (List WOut × LAcc R)
  | [] => .ok ([], r)
  | c :: cs => do
    let (o, r) ← pStep p w fuel r c
    let (os, r) ← pRun w fuel r cs
    return (o :: os, r)

end model

/-! ### what all builds have in common -/

/-- Arithmetic of a build: right if the result fits, otherwise wrapped or, if `o`, a panic. -/
structure Arith (p : AccOps) (o : Prop) : Prop where
  add : ∀ a b, a + b < 2 ^ 64 → p.add a b = .ok (a + b)
  sub : ∀ a b, b ≤ a → p.sub a b = .ok (a - b)
  add' : ∀ a b, p.add a b = .ok ((a + b) % 2 ^ 64) ∨ o ∧ p.add a b = .error .overflow
  sub' : ∀ a b, p.sub a b = .ok (if b ≤ a then a - b else a + 2 ^ 64 - b) ∨ o ∧ p.sub a b = .error .overflow

theorem arith_checked : Arith checkedAcc True where
  add a b h := by simp only [checkedAcc, uadd, if_pos h]
  sub a b h := by simp only [checkedAcc, usub_ok h]
  add' a b := by
    simp only [checkedAcc, uadd]
    split
    · rename_i h; exact Or.inl (by rw [Nat.mod_eq_of_lt h])
    · exact Or.inr ⟨trivial, rfl⟩
  sub' a b := by
    by_cases h : b ≤ a
    · left; simp only [checkedAcc, usub_ok h, if_pos h]
    · right; simp [checkedAcc, usub, h]

theorem arith_wrapping : Arith wrappingAcc False where
  add a b h := by simp only [wrappingAcc, Nat.mod_eq_of_lt h]
  sub a b h := by simp only [wrappingAcc, if_pos h]
  add' a b := .inl rfl
  sub' a b := .inl rfl

/-- The numbers the reader returns are of their types. -/
structure Typed (w : Wild R) : Prop where
  read : ∀ r s k, s.length < 2 ^ 64 → (w.read r s).1 = .ok k → k < 2 ^ 64
  seek : ∀ r sf m, (w.seek r sf).1 = .ok m → m < 2 ^ 64

/-- The numbers of a call are of their types. -/
def WCall.typed : WCall R → Prop
  | .seek (.start n) => n < 2 ^ 64
  | _ => True

/-- What a call adds to the buffer. -/
def WCall.grown : WCall R → Nat
  | .grow k => k
  | _ => 0

/-- The window is in the buffer, and the numbers are of their types. -/
structure Fit (L : Nat) (r : LAcc R) : Prop where
  tidy : Tidy r
  len : r.buf.length = L
  small : L < 2 ^ 64
  index : r.index < 2 ^ 64

/-- Panics of a build in which overflow panics if `o`. -/
def Told (o : Prop) (e : Panic) : Prop := e = .slice ∨ e = .fuel ∨ o ∧ e = .overflow

/-- Ends in a good state, or with one of the panics. -/
def Sane {X : Type} (o : Prop) (L : Nat) (f : Rust (X × LAcc R)) : Prop :=
  match f with
  | .ok (_, r) => Fit L r
  | .error e => Told o e

/-- The same for `read`, which returns the buffer too. -/
def Sane3 {X Y : Type} (o : Prop) (L : Nat) (f : Rust (X × Y × LAcc R)) : Prop :=
  match f with
  | .ok (_, _, r) => Fit L r
  | .error e => Told o e

variable {p : AccOps} {o : Prop} {w : Wild R} {L : Nat}

theorem pReset_fit (hp : Arith p o) {r : LAcc R} (h : Fit L r) : ∃ r', pReset p r = .ok r' ∧ Fit L r' ∧ r'.pos = 0 ∧
    r'.end = (win r).length ∧ view r' = view r := by
  obtain ⟨r', a1, a2, a3, a4, a5⟩ := h.tidy.reset
  have e : pReset p r = resetBufferPosition r := by
    unfold pReset resetBufferPosition
    rw [hp.sub _ _ h.tidy.1, usub_ok h.tidy.1]
  exact ⟨r', e.trans a1, ⟨a2, (congrArg Queue.size a5).trans h.len, h.small, Nat.lt_of_le_of_lt (Nat.le_of_eq (congrArg Queue.pos a5)) h.index⟩, a3, a4, a5⟩

theorem pConsume_sane (hp : Arith p o) {r : LAcc R} (h : Fit L r) (k : Nat) :
    (∃ r', pConsume p r k = .ok r' ∧ Fit L r' ∧ r'.buf = r.buf ∧ r'.end = r.end ∧ r'.inner = r.inner ∧
      r'.pos = min ((r.pos + k) % 2 ^ 64) r.end ∧ r'.index = (r.index + k) % 2 ^ 64) ∨
      o ∧ pConsume p r k = .error .overflow := by
  unfold pConsume
  rcases hp.add' r.pos k with e | ⟨ho, e⟩
  · rcases hp.add' r.index k with e' | ⟨ho, e'⟩
    · left
      rw [e, e']
      refine ⟨_, rfl, ⟨⟨Nat.min_le_right .., h.tidy.2⟩, h.len, h.small, ?_⟩, rfl, rfl, rfl, rfl, rfl⟩
      exact Nat.mod_lt _ (by decide)
    · right; rw [e, e']; exact ⟨ho, rfl⟩
  · right; rw [e]; exact ⟨ho, rfl⟩

/-- What `fill_buf` makes of a count. -/
def Makes (p : AccOps) (w : Wild R) (r : LAcc R) (s : List U8) (f : Rust (Except IoErr (List U8) × LAcc R)) : Prop :=
  match w.read r.inner s with
  | (.error e, _, i) => ∃ r', f = .ok (.error e, r') ∧ Tidy r' ∧ view r' = ⟨i, win r, r.buf.length, r.index⟩
  | (.ok k, s', i) =>
    match p.add (win r).length k with
    | .error e => f = .error e
    | .ok m => if m ≤ r.buf.length then
        ∃ r', f = .ok (.ok ((win r ++ s').take m), r') ∧ Tidy r' ∧
          view r' = ⟨i, (win r ++ s').take m, r.buf.length, r.index⟩
      else f = .error .slice

theorem pFill_makes (hp : Arith p o) {r : LAcc R} (h : Fit L r) :
    if (win r).length < L then ∃ s, s.length = L - (win r).length ∧ Makes p w r s (pFill p w r)
    else pFill p w r = .ok (.ok (win r), r) := by
  have hl := h.tidy.length
  have hL := h.len
  have ht1 := h.tidy.1
  have ht2 := h.tidy.2
  unfold pFill
  by_cases hc : r.pos ≠ 0 ∨ r.end ≠ r.buf.length
  · rw [if_pos hc, if_pos (by omega)]
    obtain ⟨r1, a1, a2, a3, a4, a5⟩ := pReset_fit hp h
    have e1 : r1.inner = r.inner := congrArg Queue.inner a5
    have e2 : win r1 = win r := congrArg Queue.q a5
    have e3 : r1.buf.length = r.buf.length := congrArg Queue.size a5
    have e4 : r1.index = r.index := congrArg Queue.pos a5
    have hw1 : r1.buf.take r1.end = win r := by rw [← e2]; simp [win, a3]
    have hlen1 : (r1.buf.drop r1.end).length = L - (win r).length := by rw [List.length_drop, e3, hL, a4]
    refine ⟨r1.buf.drop r1.end, hlen1, ?_⟩
    rw [a1]
    simp only [ok_bind, sliceFrom_ok a2.tidy.2, e1, hw1]
    have hk := w.kept r.inner (r1.buf.drop r1.end)
    unfold Makes
    cases hr : w.read r.inner (r1.buf.drop r1.end) with
    | mk x t =>
      obtain ⟨s, i⟩ := t
      rw [hr] at hk
      simp only at hk
      have hlen : (win r ++ s).length = r.buf.length := by rw [List.length_append, hk, hlen1]; omega
      cases x with
      | error e =>
        have ht : Tidy (⟨i, win r ++ s, r1.pos, r1.end, r1.index⟩ : LAcc R) :=
          ⟨by simp only [a3]; omega, by simp only [hlen]; omega⟩
        refine ⟨_, rfl, ht, ?_⟩
        simp only [view, hlen, e4, Queue.mk.injEq, true_and, and_true]
        simp only [win, a3, List.drop_zero, Nat.sub_zero, a4]
        exact List.take_left
      | ok k =>
        simp only [a4]
        cases hm : p.add (win r).length k with
        | error e => rfl
        | ok m =>
          simp only [ok_bind]
          by_cases hmm : m ≤ r.buf.length
          · rw [if_pos hmm]
            have ht : Tidy (⟨i, win r ++ s, r1.pos, m, r1.index⟩ : LAcc R) :=
              ⟨by simp only [a3]; omega, by simp only [hlen]; omega⟩
            have hwin : win (⟨i, win r ++ s, r1.pos, m, r1.index⟩ : LAcc R) = (win r ++ s).take m := by
              simp only [win, a3, List.drop_zero, Nat.sub_zero]
            rw [ht.data]
            simp only [ok_bind, pure_eq_ok, hwin]
            refine ⟨_, rfl, ht, ?_⟩
            rw [view, hwin]
            simp only [hlen, e4]
          · rw [if_neg hmm]
            simp only [data, sliceRange]
            rw [if_neg (by rw [hlen]; omega)]
            rfl
  · rw [if_neg hc, if_neg (by omega), h.tidy.data]
    rfl

theorem fit_of_view {r r' : LAcc R} (h : Fit L r) (ht : Tidy r') {i : R} {l : List U8}
    (hv : view r' = ⟨i, l, r.buf.length, r.index⟩) : Fit L r' :=
  ⟨ht, (congrArg Queue.size hv).trans h.len, h.small, by
    have := congrArg Queue.pos hv
    have h' := h.index
    simp only [view] at this
    omega⟩

theorem pFill_sane (hp : Arith p o) {r : LAcc R} (h : Fit L r) : Sane o L (pFill p w r) := by
  have hf := pFill_makes (w := w) hp h
  by_cases hc : (win r).length < L
  · rw [if_pos hc] at hf
    obtain ⟨s, _, hm⟩ := hf
    unfold Makes at hm
    cases hr : w.read r.inner s with
    | mk x t =>
      obtain ⟨s', i⟩ := t
      rw [hr] at hm
      cases x with
      | error e =>
        obtain ⟨r', e1, e2, e3⟩ := hm
        rw [e1]; exact fit_of_view h e2 e3
      | ok k =>
        simp only at hm
        rcases hp.add' (win r).length k with e | ⟨ho, e⟩
        · rw [e] at hm
          simp only at hm
          by_cases hmm : ((win r).length + k) % 2 ^ 64 ≤ r.buf.length
          · rw [if_pos hmm] at hm
            obtain ⟨r', e1, e2, e3⟩ := hm
            rw [e1]; exact fit_of_view h e2 e3
          · rw [if_neg hmm] at hm
            rw [hm]; exact Or.inl rfl
        · rw [e] at hm
          simp only at hm
          rw [hm]; exact Or.inr (Or.inr ⟨ho, rfl⟩)
  · rw [if_neg hc] at hf
    rw [hf]; exact h

theorem pRead_sane (hp : Arith p o) {r : LAcc R} (h : Fit L r) (out : List U8) : Sane3 o L (pRead p w r out) := by
  have ht1 := h.tidy.1
  have ht2 := h.tidy.2
  have hL := h.len
  have hl := h.tidy.length
  have hs := h.small
  unfold pRead
  rw [hp.sub _ _ ht1]
  simp only [ok_bind]
  by_cases h1 : out.length < r.end - r.pos
  · rw [if_pos h1, hp.add _ _ (by omega)]
    simp only [ok_bind]
    have hs : sliceRange r.buf r.pos (r.pos + out.length) = .ok ((r.buf.drop r.pos).take (r.pos + out.length - r.pos)) := by
      simp only [sliceRange]; rw [if_pos (by omega)]
    rw [hs]
    simp only [ok_bind]
    rcases pConsume_sane hp h ((r.buf.drop r.pos).take (r.pos + out.length - r.pos)).length with ⟨r', e, hr, _⟩ | ⟨ho, e⟩
    · rw [e]; exact hr
    · rw [e]; exact Or.inr (Or.inr ⟨ho, rfl⟩)
  · rw [if_neg h1]
    by_cases h2 : out.length > r.buf.length
    · rw [if_pos h2]
      have hs : sliceRange r.buf r.pos r.end = .ok (win r) := h.tidy.data
      rw [hs]
      simp only [ok_bind]
      rw [List.take_of_length_le (show (win r).length ≤ out.length by omega)]
      rw [sliceFrom_ok (by rw [List.length_append, List.length_drop]; omega)]
      simp only [ok_bind]
      cases hr : w.read r.inner ((win r ++ out.drop (win r).length).drop (r.end - r.pos)) with
      | mk x t =>
        obtain ⟨s, i⟩ := t
        have hi : Fit L ({ r with inner := i } : LAcc R) := ⟨h.tidy, h.len, h.small, h.index⟩
        cases x with
        | error e => exact hi
        | ok k =>
          simp only
          rcases hp.add' k (win r).length with e | ⟨ho, e⟩
          · rw [e]
            simp only [ok_bind]
            rcases pConsume_sane hp hi ((k + (win r).length) % 2 ^ 64) with ⟨r', e, hr, _⟩ | ⟨ho, e⟩
            · rw [e]
              simp only [ok_bind]
              obtain ⟨r2, a1, a2, _⟩ := pReset_fit hp hr
              rw [a1]; exact a2
            · rw [e]; exact Or.inr (Or.inr ⟨ho, rfl⟩)
          · rw [e]; exact Or.inr (Or.inr ⟨ho, rfl⟩)
    · rw [if_neg h2]
      have hf := pFill_sane (w := w) hp h
      cases hx : pFill p w r with
      | error e => rw [hx] at hf; exact hf
      | ok t =>
        obtain ⟨x, r1⟩ := t
        rw [hx] at hf
        simp only [Sane] at hf
        cases x with
        | error e => exact hf
        | ok rem =>
          simp only [ok_bind]
          rcases pConsume_sane hp hf (rem.take out.length).length with ⟨r', e, hr, _⟩ | ⟨ho, e⟩
          · rw [e]; exact hr
          · rw [e]; exact Or.inr (Or.inr ⟨ho, rfl⟩)

theorem pReadExact_sane (hp : Arith p o) (fuel : Nat) {r : LAcc R} (h : Fit L r) (out : List U8) :
    Sane3 o L (pReadExact p w fuel r out) := by
  induction fuel generalizing r out with
  | zero => exact Or.inr (Or.inl rfl)
  | succ fuel ih =>
    unfold pReadExact
    by_cases ho : out = []
    · rw [if_pos ho]; exact h
    · rw [if_neg ho]
      have hr := pRead_sane (w := w) hp h out
      cases hx : pRead p w r out with
      | error e => rw [hx] at hr; exact hr
      | ok t =>
        obtain ⟨x, out', r1⟩ := t
        rw [hx] at hr
        simp only [Sane3] at hr
        simp only [ok_bind]
        cases x with
        | error e => cases e <;> first | exact ih hr out' | exact hr
        | ok n =>
          cases n with
          | zero => exact hr
          | succ n =>
            simp only [sliceFrom]
            by_cases hn : n + 1 ≤ out'.length
            · rw [if_pos hn]
              simp only [ok_bind]
              have hi := ih hr (out'.drop (n + 1))
              cases hy : pReadExact p w fuel r1 (out'.drop (n + 1)) with
              | error e => rw [hy] at hi; exact hi
              | ok t => rw [hy] at hi; exact hi
            · rw [if_neg hn]; exact Or.inl rfl

theorem pSeekInner_sane (hp : Arith p o) (hw : Typed w) {r : LAcc R} (h : Fit L r) (sf : SeekFrom) :
    Sane o L (pSeekInner p w r sf) := by
  unfold pSeekInner
  cases hs : w.seek r.inner sf with
  | mk x i =>
    cases x with
    | error e => exact ⟨h.tidy, h.len, h.small, h.index⟩
    | ok m =>
      have hm := hw.seek r.inner sf m (by rw [hs])
      have hi : Fit L (⟨i, r.buf, 0, 0, m⟩ : LAcc R) := ⟨⟨Nat.le_refl _, Nat.zero_le _⟩, h.len, h.small, hm⟩
      have hf := pFill_sane (w := w) hp hi
      simp only
      cases hx : pFill p w (⟨i, r.buf, 0, 0, m⟩ : LAcc R) with
      | error e => rw [hx] at hf; exact hf
      | ok t =>
        obtain ⟨x, r1⟩ := t
        rw [hx] at hf
        cases x <;> exact hf

theorem pSeek_sane (hp : Arith p o) (hw : Typed w) {r : LAcc R} (h : Fit L r) (sf : SeekFrom)
    (hsf : (WCall.seek sf : WCall R).typed) : Sane o L (pSeek p w r sf) := by
  have ht1 := h.tidy.1
  have ht2 := h.tidy.2
  have hL := h.len
  have hs := h.small
  have hx := h.index
  have hin := fun sf => pSeekInner_sane hp hw h sf
  unfold pSeek
  cases sf with
  | start n =>
    simp only [WCall.typed] at hsf
    simp only
    by_cases hn : n ≥ r.index
    · rw [if_pos hn]
      rcases hp.add' r.index r.end with e | ⟨ho, e⟩
      · rw [e]
        simp only [ok_bind]
        rcases hp.sub' ((r.index + r.end) % 2 ^ 64) r.pos with e' | ⟨ho, e'⟩
        · rw [e']
          simp only [ok_bind]
          by_cases hlt : n < (if r.pos ≤ (r.index + r.end) % 2 ^ 64 then (r.index + r.end) % 2 ^ 64 - r.pos
              else (r.index + r.end) % 2 ^ 64 + 2 ^ 64 - r.pos)
          · rw [if_pos hlt, hp.sub _ _ hn]
            have hb : r.pos + (n - r.index) ≤ r.end := by
              by_cases hw : r.index + r.end < 2 ^ 64
              · rw [Nat.mod_eq_of_lt hw, if_pos (by omega)] at hlt
                omega
              · have hm : (r.index + r.end) % 2 ^ 64 = r.index + r.end - 2 ^ 64 := by
                  rw [Nat.mod_eq_sub_mod (by omega), Nat.mod_eq_of_lt (by omega)]
                rw [hm] at hlt
                split at hlt <;> omega
            simp only [ok_bind]
            rw [hp.add _ _ (by omega)]
            exact ⟨⟨hb, ht2⟩, hL, hs, hsf⟩
          · rw [if_neg hlt]; exact hin _
        · rw [e']; exact Or.inr (Or.inr ⟨ho, rfl⟩)
      · rw [e]; exact Or.inr (Or.inr ⟨ho, rfl⟩)
    · rw [if_neg hn]; exact hin _
  | «end» d => exact hin _
  | current d =>
    simp only
    rw [hp.sub _ _ ht1]
    simp only [ok_bind]
    by_cases hd : d ≥ 0
    · rw [if_pos hd]
      by_cases hd2 : d.toNat ≤ r.end - r.pos
      · rw [if_pos hd2]
        rcases hp.add' r.index d.toNat with e | ⟨ho, e⟩
        · rw [e]
          simp only [ok_bind]
          rw [hp.add _ _ (by omega)]
          exact ⟨⟨by simp only; omega, ht2⟩, hL, hs, Nat.mod_lt _ (by decide)⟩
        · rw [e]; exact Or.inr (Or.inr ⟨ho, rfl⟩)
      · rw [if_neg hd2]; exact hin _
    · rw [if_neg hd]; exact hin _

theorem pStep_sane (hp : Arith p o) (hw : Typed w) (fuel : Nat) {r : LAcc R} (h : Fit L r) (c : WCall R) (hc : c.typed)
    (hg : L + c.grown < 2 ^ 64) : Sane o (L + c.grown) (pStep p w fuel r c) := by
  cases c with
  | read out =>
    have hx := pRead_sane (w := w) hp h out
    simp only [pStep]
    cases hy : pRead p w r out with
    | error e => rw [hy] at hx; exact hx
    | ok t => rw [hy] at hx; exact hx
  | readExact out =>
    have hx := pReadExact_sane (w := w) hp fuel h out
    simp only [pStep]
    cases hy : pReadExact p w fuel r out with
    | error e => rw [hy] at hx; exact hx
    | ok t => rw [hy] at hx; exact hx
  | fillBuf =>
    have hx := pFill_sane (w := w) hp h
    simp only [pStep]
    cases hy : pFill p w r with
    | error e => rw [hy] at hx; exact hx
    | ok t => rw [hy] at hx; exact hx
  | consume k =>
    simp only [pStep]
    rcases pConsume_sane hp h k with ⟨r', e, hr, _⟩ | ⟨ho, e⟩
    · rw [e]; exact hr
    · rw [e]; exact Or.inr (Or.inr ⟨ho, rfl⟩)
  | grow k =>
    have hL := h.len
    simp only [WCall.grown] at hg ⊢
    simp only [pStep, pGrow, hL, hp.add _ _ hg, ok_bind, pure_eq_ok]
    have ht := h.tidy.2
    refine ⟨⟨h.tidy.1, ?_⟩, ?_, hg, h.index⟩ <;>
      simp only [List.length_append, List.length_take, List.length_replicate] <;> omega
  | reset =>
    obtain ⟨r', a1, a2, _⟩ := pReset_fit hp h
    simp only [pStep, a1]
    exact a2
  | seek sf =>
    have hx := pSeek_sane hp hw h sf hc
    simp only [pStep]
    cases hy : pSeek p w r sf with
    | error e => rw [hy] at hx; exact hx
    | ok t => rw [hy] at hx; exact hx
  | getMut f => exact ⟨h.tidy, h.len, h.small, h.index⟩

theorem pRun_sane (hp : Arith p o) (hw : Typed w) (fuel : Nat) (cs : List (WCall R)) {r : LAcc R} (h : Fit L r)
    (hc : ∀ c ∈ cs, c.typed) (hg : L + (cs.map WCall.grown).sum < 2 ^ 64) :
    Sane o (L + (cs.map WCall.grown).sum) (pRun p w fuel r cs) := by
  induction cs generalizing r L with
  | nil => exact h
  | cons c cs ih =>
    simp only [List.map_cons, List.sum_cons] at hg ⊢
    have hx := pStep_sane (w := w) hp hw fuel h c (hc c List.mem_cons_self) (by omega)
    simp only [pRun]
    cases hy : pStep p w fuel r c with
    | error e => rw [hy] at hx; exact hx
    | ok t =>
      obtain ⟨out, r1⟩ := t
      rw [hy] at hx
      simp only [Sane] at hx
      have hi := ih hx (fun c hc' => hc c (List.mem_cons_of_mem _ hc')) (by omega)
      rw [Nat.add_assoc] at hi
      simp only [ok_bind]
      cases hz : pRun p w fuel r1 cs with
      | error e => rw [hz] at hi; exact hi
      | ok t => rw [hz] at hi; exact hi

theorem fit_start (cap : Nat) (s : R) (h : cap < 2 ^ 64) : Fit cap (withCapacity cap s) :=
  ⟨(withCapacity_tidy cap s).1, by simp [withCapacity], h, by simp [withCapacity]⟩

/-! ### with overflow checks the functions are those of `Wild.lean`, or panic -/

/-- The same, or an overflow. -/
def OrOver {X : Type} (f g : Rust X) : Prop := f = .error .overflow ∨ f = g

theorem OrOver.bind {X Y : Type} {f g : Rust X} (h : OrOver f g) {k l : X → Rust Y} (hk : ∀ x, OrOver (k x) (l x)) :
    OrOver (f >>= k) (g >>= l) := by
  rcases h with h | h
  · left; rw [h]; rfl
  · rw [h]
    cases g with
    | error e => right; rfl
    | ok x => exact hk x

theorem OrOver.bind_ok {X Y : Type} {f : Rust X} {x : X} (h : OrOver f (.ok x)) {k : X → Rust Y} {g : Rust Y}
    (hk : OrOver (k x) g) : OrOver (f >>= k) g := by
  rcases h with h | h
  · left; rw [h]; rfl
  · rw [h]; exact hk

theorem OrOver.refl {X : Type} (f : Rust X) : OrOver f f := .inr rfl

theorem add_over (a b : Nat) : OrOver (checkedAcc.add a b) (.ok (a + b)) := by
  simp only [checkedAcc, uadd]
  split
  · exact .inr rfl
  · exact .inl rfl

theorem consume_checks (r : LAcc R) (k : Nat) : OrOver (pConsume checkedAcc r k) (.ok (consume r k)) := by
  exact (add_over _ _).bind_ok ((add_over _ _).bind_ok (.refl _))

theorem grow_checks (r : LAcc R) (k : Nat) : OrOver (pGrow checkedAcc r k) (.ok (grow r k)) := by
  unfold pGrow
  rcases add_over r.buf.length k with h | h
  · left; rw [h]; rfl
  · right
    rw [h]
    simp only [ok_bind, pure_eq_ok, grow]
    rw [List.take_of_length_le (by omega), Nat.add_sub_cancel_left]

theorem fill_checks (w : Wild R) (r : LAcc R) : OrOver (pFill checkedAcc w r) (wFill w r) := by
  unfold pFill wFill
  by_cases hc : r.pos ≠ 0 ∨ r.end ≠ r.buf.length
  · rw [if_pos hc, if_pos hc]
    refine (OrOver.refl _).bind fun r1 => (OrOver.refl _).bind fun room => ?_
    cases w.read r1.inner room with
    | mk x t =>
      cases x with
      | error e => exact .refl _
      | ok k => exact (add_over r1.end k).bind_ok (.refl _)
  · rw [if_neg hc, if_neg hc]; exact .refl _

theorem read_checks (w : Wild R) (r : LAcc R) (out : List U8) : OrOver (pRead checkedAcc w r out) (wRead w r out) := by
  unfold pRead wRead
  refine (OrOver.refl _).bind fun held => ?_
  by_cases h1 : out.length < held
  · rw [if_pos h1, if_pos h1]
    rcases add_over r.pos out.length with h | h
    · left; rw [h]; rfl
    · rw [h]
      refine (OrOver.refl (sliceRange r.buf r.pos (r.pos + out.length))).bind fun l => ?_
      exact (consume_checks r l.length).bind_ok (.refl _)
  · rw [if_neg h1, if_neg h1]
    by_cases h2 : out.length > r.buf.length
    · rw [if_pos h2, if_pos h2]
      refine (OrOver.refl _).bind fun l => (OrOver.refl _).bind fun room => ?_
      cases w.read r.inner room with
      | mk x t =>
        obtain ⟨s, i⟩ := t
        cases x with
        | error e => exact .refl _
        | ok k =>
          simp only
          rcases add_over k (l.take out.length).length with h | h
          · left; rw [h]; rfl
          · rw [h]
            exact (consume_checks { r with inner := i } (k + (l.take out.length).length)).bind_ok (.refl _)
    · rw [if_neg h2, if_neg h2]
      refine (fill_checks w r).bind fun t => ?_
      obtain ⟨x, r1⟩ := t
      cases x with
      | error e => exact .refl _
      | ok rem => exact (consume_checks r1 (rem.take out.length).length).bind_ok (.refl _)

theorem readExact_checks (w : Wild R) (fuel : Nat) (r : LAcc R) (out : List U8) :
    OrOver (pReadExact checkedAcc w fuel r out) (wReadExact w fuel r out) := by
  induction fuel generalizing r out with
  | zero => exact .refl _
  | succ fuel ih =>
    unfold pReadExact wReadExact
    by_cases ho : out = []
    · rw [if_pos ho, if_pos ho]; exact .refl _
    · rw [if_neg ho, if_neg ho]
      refine (read_checks w r out).bind fun t => ?_
      obtain ⟨x, out', r1⟩ := t
      cases x with
      | error e => cases e <;> first | exact ih r1 out' | exact .refl _
      | ok n =>
        cases n with
        | zero => exact .refl _
        | succ n => exact (OrOver.refl _).bind fun rest => (ih r1 rest).bind fun t => .refl _

theorem seekInner_checks (w : Wild R) (r : LAcc R) (sf : SeekFrom) :
    OrOver (pSeekInner checkedAcc w r sf) (wSeekInner w r sf) := by
  unfold pSeekInner wSeekInner
  cases w.seek r.inner sf with
  | mk x i =>
    cases x with
    | error e => exact .refl _
    | ok m => exact (fill_checks w _).bind fun t => .refl _

theorem seek_checks (w : Wild R) (r : LAcc R) (sf : SeekFrom) : OrOver (pSeek checkedAcc w r sf) (wSeek w r sf) := by
  have hin := fun sf => seekInner_checks w r sf
  unfold pSeek wSeek
  cases sf with
  | start n =>
    simp only
    by_cases hn : n ≥ r.index
    · rw [if_pos hn, if_pos hn]
      rcases add_over r.index r.end with h | h
      · left; rw [h]; rfl
      · rw [h]
        refine (OrOver.refl (usub (r.index + r.end) r.pos)).bind fun lim => ?_
        by_cases hl : n < lim
        · rw [if_pos hl, if_pos hl, arith_checked.sub _ _ hn]
          exact (add_over r.pos (n - r.index)).bind_ok (.refl _)
        · rw [if_neg hl, if_neg hl]; exact hin _
    · rw [if_neg hn, if_neg hn]; exact hin _
  | «end» d => exact hin _
  | current d =>
    refine (OrOver.refl _).bind fun rem => ?_
    by_cases hd : d ≥ 0
    · rw [if_pos hd, if_pos hd]
      by_cases hd2 : d.toNat ≤ rem
      · rw [if_pos hd2, if_pos hd2]
        exact (add_over r.index d.toNat).bind_ok ((add_over _ _).bind_ok (.refl _))
      · rw [if_neg hd2, if_neg hd2]; exact hin _
    · rw [if_neg hd, if_neg hd]; exact hin _

theorem step_checks (w : Wild R) (fuel : Nat) (r : LAcc R) (c : WCall R) :
    OrOver (pStep checkedAcc w fuel r c) (wStep w fuel r c) := by
  cases c with
  | read out => exact (read_checks w r out).bind fun t => .refl _
  | readExact out => exact (readExact_checks w fuel r out).bind fun t => .refl _
  | fillBuf => exact (fill_checks w r).bind fun t => .refl _
  | consume k => exact (consume_checks r k).bind_ok (.refl _)
  | grow k => exact (grow_checks r k).bind_ok (.refl _)
  | reset => exact (OrOver.refl (resetBufferPosition r)).bind fun t => .refl _
  | seek sf => exact (seek_checks w r sf).bind fun t => .refl _
  | getMut f => exact .refl _

/-- **C151**: with overflow checks every history ends as in `Wild.lean`, where sums are unbounded, or panics because of an
overflow. -/
theorem c151_agree (w : Wild R) (fuel : Nat) (r : LAcc R) (cs : List (WCall R)) :
    pRun checkedAcc w fuel r cs = .error .overflow ∨ pRun checkedAcc w fuel r cs = wRun w fuel r cs := by
  change OrOver _ _
  induction cs generalizing r with
  | nil => exact .refl _
  | cons c cs ih => exact (step_checks w fuel r c).bind fun t => (ih t.2).bind fun t => .refl _

/-! ### C151 -/

/-- **C151**, in every build: whatever the reader does, the window stays in the buffer, and the calls end in nothing but
a panic because of a slice, or, with overflow checks, because of an overflow (or never, `.fuel`). -/
theorem c151_safe (w : Wild R) (hw : Typed w) (s : R) (cap fuel : Nat) (cs : List (WCall R)) (hc : ∀ c ∈ cs, c.typed)
    (hg : cap + (cs.map WCall.grown).sum < 2 ^ 64) :
    (match pRun checkedAcc w fuel (withCapacity cap s) cs with
      | .ok (_, r) => r.pos ≤ r.end ∧ r.end ≤ r.buf.length ∧ r.buf.length = cap + (cs.map WCall.grown).sum
      | .error e => e = .slice ∨ e = .fuel ∨ e = .overflow) ∧
    match pRun wrappingAcc w fuel (withCapacity cap s) cs with
      | .ok (_, r) => r.pos ≤ r.end ∧ r.end ≤ r.buf.length ∧ r.buf.length = cap + (cs.map WCall.grown).sum
      | .error e => e = .slice ∨ e = .fuel := by
  have h0 := fit_start cap s (by omega)
  constructor
  · have h1 := pRun_sane arith_checked hw fuel cs h0 hc hg
    cases hx : pRun checkedAcc w fuel (withCapacity cap s) cs with
    | error e => rw [hx] at h1; exact h1.imp_right (Or.imp_right And.right)
    | ok t => rw [hx] at h1; exact ⟨h1.tidy.1, h1.tidy.2, h1.len⟩
  · have h1 := pRun_sane arith_wrapping hw fuel cs h0 hc hg
    cases hx : pRun wrappingAcc w fuel (withCapacity cap s) cs with
    | error e => rw [hx] at h1; exact h1.imp_right (fun h => h.elim id fun h => h.1.elim)
    | ok t => rw [hx] at h1; exact ⟨h1.tidy.1, h1.tidy.2, h1.len⟩

/-- **C151**, partial, with overflow checks: after any history a count is right, and the bytes counted are shown behind
the bytes buffered before, or the call panics. -/
theorem c151_checked_partial (w : Wild R) (hw : Typed w) (s : R) (cap fuel : Nat) (cs : List (WCall R))
    (hc : ∀ c ∈ cs, c.typed) (hg : cap + (cs.map WCall.grown).sum < 2 ^ 64) (os : List WOut) (r : LAcc R)
    (hr : pRun checkedAcc w fuel (withCapacity cap s) cs = .ok (os, r)) (q : List U8) (hq : data r = .ok q)
    (hroom : q.length < r.buf.length) :
    ∃ sl, sl.length = r.buf.length - q.length ∧ ∀ k s' i, w.read r.inner sl = (.ok k, s', i) →
      (k ≤ sl.length → ∃ r', pFill checkedAcc w r = .ok (.ok (q ++ s'.take k), r') ∧ data r' = .ok (q ++ s'.take k)) ∧
      (sl.length < k → ∃ e, pFill checkedAcc w r = .error e) := by
  have h1 := pRun_sane arith_checked hw fuel cs (fit_start cap s (by omega)) hc hg
  rw [hr] at h1
  simp only [Sane] at h1
  have hL := h1.len
  have hsm := h1.small
  rw [h1.tidy.data] at hq
  cases hq
  have hf := pFill_makes (w := w) arith_checked h1
  rw [if_pos (by omega)] at hf
  obtain ⟨sl, hsl, hm⟩ := hf
  refine ⟨sl, by omega, fun k s' i hread => ?_⟩
  have hkept := w.kept r.inner sl
  unfold Makes at hm
  rw [hread] at hm hkept
  simp only at hm hkept
  constructor
  · intro hk
    rw [arith_checked.add _ _ (by omega)] at hm
    simp only at hm
    rw [if_pos (by omega), List.take_length_add_append] at hm
    obtain ⟨r', e1, e2, e3⟩ := hm
    exact ⟨r', e1, by rw [e2.data]; exact congrArg (fun b => Except.ok b) (congrArg Queue.q e3)⟩
  · intro hk
    rcases arith_checked.add' (win r).length k with e | ⟨_, e⟩
    · by_cases hov : (win r).length + k < 2 ^ 64
      · rw [e, Nat.mod_eq_of_lt hov] at hm
        simp only at hm
        rw [if_neg (by omega)] at hm
        exact ⟨_, hm⟩
      · simp only [checkedAcc, uadd, if_neg hov] at e
        exact nomatch e
    · rw [e] at hm
      exact ⟨_, hm⟩

/-- **C151**, partial, without overflow checks: a count that is too high is noticed unless its sum with the bytes buffered
overflows; then the last buffered bytes are lost, as many as the count is below 2^64. -/
theorem c151_wrapping_partial (w : Wild R) (hw : Typed w) (s : R) (cap fuel : Nat) (cs : List (WCall R))
    (hc : ∀ c ∈ cs, c.typed) (hg : cap + (cs.map WCall.grown).sum < 2 ^ 64) (os : List WOut) (r : LAcc R)
    (hr : pRun wrappingAcc w fuel (withCapacity cap s) cs = .ok (os, r)) (q : List U8) (hq : data r = .ok q)
    (hroom : q.length < r.buf.length) :
    ∃ sl, sl.length = r.buf.length - q.length ∧ ∀ k s' i, w.read r.inner sl = (.ok k, s', i) →
      (k ≤ sl.length → ∃ r', pFill wrappingAcc w r = .ok (.ok (q ++ s'.take k), r') ∧ data r' = .ok (q ++ s'.take k)) ∧
      (sl.length < k → q.length + k < 2 ^ 64 → pFill wrappingAcc w r = .error .slice) ∧
      (2 ^ 64 ≤ q.length + k → ∃ r', pFill wrappingAcc w r = .ok (.ok (q.take (q.length - (2 ^ 64 - k))), r') ∧
        data r' = .ok (q.take (q.length - (2 ^ 64 - k)))) := by
  have h1 := pRun_sane arith_wrapping hw fuel cs (fit_start cap s (by omega)) hc hg
  rw [hr] at h1
  simp only [Sane] at h1
  have hL := h1.len
  have hsm := h1.small
  rw [h1.tidy.data] at hq
  cases hq
  have hf := pFill_makes (w := w) arith_wrapping h1
  rw [if_pos (by omega)] at hf
  obtain ⟨sl, hsl, hm⟩ := hf
  refine ⟨sl, by omega, fun k s' i hread => ?_⟩
  have hkept := w.kept r.inner sl
  have hk64 := hw.read r.inner sl k (by omega) (by rw [hread])
  unfold Makes at hm
  rw [hread] at hm hkept
  simp only at hm hkept
  refine ⟨fun hk => ?_, fun hk hov => ?_, fun hov => ?_⟩
  · rw [arith_wrapping.add _ _ (by omega)] at hm
    simp only at hm
    rw [if_pos (by omega), List.take_length_add_append] at hm
    obtain ⟨r', e1, e2, e3⟩ := hm
    exact ⟨r', e1, by rw [e2.data]; exact congrArg (fun b => Except.ok b) (congrArg Queue.q e3)⟩
  · rw [arith_wrapping.add _ _ hov] at hm
    simp only at hm
    rw [if_neg (by omega)] at hm
    exact hm
  · have hmod : ((win r).length + k) % 2 ^ 64 = (win r).length - (2 ^ 64 - k) := by
      rw [Nat.mod_eq_sub_mod hov, Nat.mod_eq_of_lt (by omega)]; omega
    have hadd : wrappingAcc.add (win r).length k = .ok ((win r).length - (2 ^ 64 - k)) := by
      simp only [wrappingAcc, hmod]
    rw [hadd] at hm
    simp only at hm
    rw [if_pos (by omega), List.take_append_of_le_length (by omega)] at hm
    obtain ⟨r', e1, e2, e3⟩ := hm
    exact ⟨r', e1, by rw [e2.data]; exact congrArg (fun b => Except.ok b) (congrArg Queue.q e3)⟩

/-- A reader that fills the first slice with 1, 2, 3 … and then counts `k`. -/
def miscounts (k : Nat) : Wild Bool where
  read b s := if b then (.ok k, s, true) else (.ok s.length, (List.range s.length).map (fun i => BitVec.ofNat 8 (i + 1)), true)
  seek b _ := (.ok 0, b)
  kept b s := by cases b <;> simp

theorem miscounts_typed (k : Nat) (hk : k < 2 ^ 64) : Typed (miscounts k) where
  read b s n hs h := by
    cases b <;> simp only [miscounts, Bool.false_eq_true, if_true, if_false] at h <;> cases h
    · exact hs
    · exact hk
  seek b sf m h := by cases h; decide

/-- After the history `cs`, if there is room, a count above the slice's length panics in `fill_buf`. -/
def Noticed (p : AccOps) (w : Wild R) (fuel cap : Nat) (s : R) (cs : List (WCall R)) : Prop :=
  ∀ os r, pRun p w fuel (withCapacity cap s) cs = .ok (os, r) → r.end - r.pos < r.buf.length →
    ∃ sl, sl.length = r.buf.length - (r.end - r.pos) ∧ ∀ k s' i, w.read r.inner sl = (.ok k, s', i) → sl.length < k →
      ∃ e, pFill p w r = .error e

/-- **C151**, partial: with overflow checks such counts are noticed after any history. -/
theorem c151_noticed_partial (w : Wild R) (hw : Typed w) (s : R) (cap fuel : Nat) (cs : List (WCall R))
    (hc : ∀ c ∈ cs, c.typed) (hg : cap + (cs.map WCall.grown).sum < 2 ^ 64) : Noticed checkedAcc w fuel cap s cs := by
  intro os r hr hroom
  have h1 := pRun_sane arith_checked hw fuel cs (fit_start cap s (by omega)) hc hg
  rw [hr] at h1
  simp only [Sane] at h1
  have hL := h1.len
  have hl : (Live.win r).length = r.end - r.pos := by
    have := h1.tidy.1; have := h1.tidy.2; simp [Live.win]; omega
  obtain ⟨sl, h2, h3⟩ := c151_checked_partial w hw s cap fuel cs hc hg os r hr _ h1.tidy.data (by omega)
  exact ⟨sl, by omega, fun k s' i h hk => (h3 k s' i h).2 hk⟩

/-- **C151 is false** without overflow checks: four bytes are buffered and one of them is consumed; the reader then counts
2^64 - 1 bytes into a slice of one. `fill_buf` returns two of the three bytes. -/
theorem c151_fails : ¬ ∀ (w : Wild Bool), Typed w → Noticed wrappingAcc w 0 4 false [.fillBuf, .consume 1] := by
  intro h
  obtain ⟨sl, h1, h2⟩ := h (miscounts (2 ^ 64 - 1)) (miscounts_typed _ (by decide)) _ _ rfl (by decide)
  obtain ⟨e, he⟩ := h2 (2 ^ 64 - 1) sl true rfl (by rw [h1]; decide +kernel)
  revert he
  have : pFill wrappingAcc (miscounts (2 ^ 64 - 1)) ⟨true, [1, 2, 3, 4], 1, 4, 1⟩ =
      .ok (.ok [2, 3], ⟨true, [2, 3, 4, 4], 0, 2, 1⟩) := by rfl
  intro he
  exact nomatch he.symm.trans this

/-- In the same build a read that is larger than the buffer passes the count on, and `consume` steps back: of the bytes
1, 2, 3 the first was consumed; after a read that counts 2^64 - 3 it is shown again. -/
theorem c151_again_fails : ∃ os r, pRun wrappingAcc (miscounts (2 ^ 64 - 3)) 0 (withCapacity 3 false)
    [.fillBuf, .consume 1, .read [0, 0, 0, 0]] = .ok (os, r) ∧
      os = [.shown [1, 2, 3], .unit, .got (2 ^ 64 - 1) [2, 3, 0, 0]] ∧ data r = .ok [1, 2, 3] :=
  ⟨_, _, rfl, rfl, rfl⟩

/-- The hypotheses of the theorems are met after the same history; with overflow checks the count is noticed. -/
example : ∃ os r, pRun checkedAcc (miscounts (2 ^ 64 - 1)) 0 (withCapacity 4 false) [.fillBuf, .consume 1] = .ok (os, r) ∧
    data r = .ok [2, 3, 4] ∧ r.buf.length = 4 ∧ Typed (miscounts (2 ^ 64 - 1)) ∧
    pFill checkedAcc (miscounts (2 ^ 64 - 1)) r = .error .overflow :=
  ⟨_, _, rfl, rfl, rfl, miscounts_typed _ (by decide), rfl⟩

example : ∃ os r, pRun wrappingAcc (miscounts (2 ^ 64 - 1)) 0 (withCapacity 4 false)
      [.fillBuf, .consume 1, .fillBuf, .seek (.start 2), .grow 2] = .ok (os, r) ∧
    os = [.shown [1, 2, 3, 4], .unit, .shown [2, 3], .pos 2, .unit] ∧ data r = .ok [3] ∧ r.buf.length = 6 :=
  ⟨_, _, rfl, rfl, rfl, rfl⟩

end Verif.Live
