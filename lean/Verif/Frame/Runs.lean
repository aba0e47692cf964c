import Verif.Frame.Buffers

/-!
# C172: frames copied one after the other with the same iterators

An application that keeps the slices of many frames in one sequence passes the iterators by reference
(`Iterator::by_ref`), copies a frame and goes on with the next one. Iterators may also have no end
(`iter::repeat(stride)`). What matters is how many items a copy takes.

`Zip` is modelled as `std` documents it. Its variant for slices' own iterators may take items in another order; those
are passed by value, and nobody sees them afterwards.
-/

namespace Verif.Frame
open Verif Verif.Data Verif.Pixel

/-! ### the application -/

/-- `Iterator::take` of `std`: the number of items still allowed, and the iterator. -/
def Iter.limited {σ α : Type} (it : Iter σ α) : Iter (Nat × σ) α where
  next := fun (n, s) =>
    match n with
    | 0 => .ok (none, (0, s))
    | n + 1 => do
      let (a, s) ← it.next s
      return (a, (n, s))

/-- `iter::repeat` -/
def repeatIter (α : Type) : Iter α α := ⟨fun a => .ok (some a, a)⟩

namespace Buffer
variable {B σ τ : Type} (b : Buffer B)

/-- One frame after the other is filled by `copy_from_slice` (frame.rs:531-558). -/
def fillAll (si : Iter σ (List U8)) (li : Iter τ Nat) : List (Held B) → σ → τ → Rust (List (Held B) × σ × τ)
  | [], s, t => .ok ([], s, t)
  | f :: fs, s, t => do
    let (s, t, f) ← b.copyFromSlice si li f s t
    let (fs, r) ← fillAll si li fs s t
    return (f :: fs, r)

/-- One frame after the other is shown by `copy_frame_to_buffer` (frame.rs:503-527): for each the destinations taken,
as they are afterwards. -/
def showAll (di : Iter σ (List U8)) (li : Iter τ Nat) : List (Held B) → σ → τ → Rust (List (List (List U8)) × σ × τ)
  | [], s, t => .ok ([], s, t)
  | f :: fs, s, t => do
    let (done, s, t, _) ← b.copyFrameToBuffer di li f s t
    let (ds, r) ← showAll di li fs s t
    return (done :: ds, r)

/-- The same with `dst.by_ref().take(k)`, where `k` is the number given beside the frame. -/
def showAllTake (di : Iter σ (List U8)) (li : Iter τ Nat) :
    List (Held B × Nat) → σ → τ → Rust (List (List (List U8)) × σ × τ)
  | [], s, t => .ok ([], s, t)
  | (f, k) :: fs, s, t => do
    let (done, s, t, _) ← b.copyFrameToBuffer di.limited li f (k, s) t
    let (ds, r) ← showAllTake di li fs s.2 t
    return (done :: ds, r)

end Buffer

/-! ### specification -/

/-- The iterator gives these items, whatever it gives afterwards, and has then come to `s'`. -/
def Iter.Gives {σ α : Type} (it : Iter σ α) : σ → List α → σ → Prop
  | s, [], s' => s = s'
  | s, a :: l, s' => ∃ s1, it.next s = .ok (some a, s1) ∧ it.Gives s1 l s'

/-- Everything that the iterator gives in so many calls, also behind its end. -/
def Iter.called {σ α : Type} (it : Iter σ α) : Nat → σ → Rust (List α × σ)
  | 0, s => .ok ([], s)
  | m + 1, s => do
    let (a, s) ← it.next s
    let (l, s) ← it.called m s
    return (a.toList ++ l, s)

/-- How many planes a copy reaches: those that the format has an entry for. -/
def planesOf (kind : MediaKind) (ps : List Plane) : Nat :=
  match kind with
  | .Video v => min ps.length v.format.comp_info.length
  | .Audio _ => 0

/-- What `copy_frame_to_buffer` does with the iterators after the last plane: it asks for one more destination and, if
there is one, for one more line size. -/
def oneMore {σ τ : Type} (di : Iter σ (List U8)) (li : Iter τ Nat) (s : σ) (t : τ) : Rust (List (List U8) × σ × τ) := do
  let (d, s) ← di.next s
  match d with
  | none => return ([], s, t)
  | some d =>
    let (_, t) ← li.next t
    return ([d], s, t)

/-- A frame and what the application means it to be copied from or to. -/
structure Job (B : Type) where
  frame : Held B
  planes : List Plane
  slices : List (List U8)
  lines : List Nat

/-- The frame of a job, by its planes. -/
def Job.plain {B : Type} (j : Job B) : Frame := ⟨j.frame.kind, j.planes, j.frame.t⟩

/-- The buffer shows the planes, and there is a slice and a line size for each of them. -/
structure Job.Set {B : Type} (j : Job B) (R : B → List Plane → Prop) : Prop where
  shows : R j.frame.buf j.planes
  slices : j.slices.length = j.planes.length
  lines : j.lines.length = j.planes.length

/-! ### proofs -/

theorem gives_append {σ α : Type} {it : Iter σ α} {l m : List α} : ∀ {s s' : σ}, it.Gives s (l ++ m) s' →
    ∃ s1, it.Gives s l s1 ∧ it.Gives s1 m s' := by
  induction l with
  | nil => intro s s' h; exact ⟨s, rfl, h⟩
  | cons a l ih =>
    rintro s s' ⟨s1, e, h⟩
    obtain ⟨s2, h1, h2⟩ := ih h
    exact ⟨s2, ⟨s1, e, h1⟩, h2⟩

theorem gives_repeat {α : Type} (a : α) (n : Nat) : (repeatIter α).Gives a (List.replicate n a) a := by
  induction n with
  | zero => rfl
  | succ n ih => exact ⟨a, rfl, ih⟩

theorem gives_list {α : Type} (l m : List α) : (listIter α).Gives (l ++ m) l m := by
  induction l with
  | nil => rfl
  | cons a l ih => exact ⟨l ++ m, rfl, ih⟩

theorem gives_limited {σ α : Type} {it : Iter σ α} {l : List α} : ∀ {s s' : σ}, it.Gives s l s' →
    it.limited.Gives (l.length, s) l (0, s') := by
  induction l with
  | nil => rintro s s' rfl; rfl
  | cons a l ih =>
    rintro s s' ⟨s1, e, h⟩
    refine ⟨(l.length, s1), ?_, ih h⟩
    simp only [Iter.limited, List.length_cons, e, ok_bind]; rfl

/-- **C172** `take(n)` gives at most `n` items however often it is asked, and has then asked its iterator at most `n`
times. -/
theorem c172_limit {σ α : Type} (it : Iter σ α) (m : Nat) : ∀ (n : Nat) (s : σ) (l : List α) (n' : Nat) (s' : σ),
    it.limited.called m (n, s) = .ok (l, (n', s')) → l.length ≤ n ∧ it.called (min m n) s = .ok (l, s') := by
  induction m with
  | zero => rintro n s l n' s' ⟨⟩; exact ⟨Nat.zero_le _, by rw [Nat.zero_min]; rfl⟩
  | succ m ih =>
    intro n s l n' s' e
    cases n with
    | zero =>
      have e' : (it.limited.called m (0, s)) = .ok (l, (n', s')) := by
        simp only [Iter.called, Iter.limited, ok_bind] at e ⊢
        cases h : it.limited.called m (0, s) with
        | error x => simp only [Iter.limited] at h; rw [h] at e; cases e
        | ok r =>
          simp only [Iter.limited] at h
          rw [h] at e ⊢
          obtain ⟨l', r⟩ := r
          simpa [pure_eq_ok] using e
      have := ih 0 s l n' s' e'
      simpa using this
    | succ n =>
      rw [show min (m + 1) (n + 1) = min m n + 1 by omega]
      simp only [Iter.called] at e ⊢
      rw [show it.limited.next (n + 1, s) = (do let (a, s) ← it.next s; return (a, (n, s))) from rfl] at e
      cases h : it.next s with
      | error x => rw [h] at e; cases e
      | ok r =>
      obtain ⟨a, s1⟩ := r
      rw [h] at e
      simp only [ok_bind, pure_eq_ok] at e ⊢
      cases h2 : it.limited.called m (n, s1) with
      | error x => rw [h2] at e; cases e
      | ok r =>
      obtain ⟨l2, n2, s2⟩ := r
      rw [h2] at e
      obtain ⟨a1, a2⟩ := ih n s1 l2 n2 s2 h2
      rw [a2]
      cases e
      refine ⟨?_, rfl⟩
      cases a <;> simp <;> omega

/-- Asked five times, `repeat(7).take(2)` gives two items. -/
example : (repeatIter Nat).limited.called 5 (2, 7) = .ok ([7, 7], (0, 7)) := rfl

section
variable {B σ τ : Type} {b : Buffer B} {R : B → List Plane → Prop}

theorem inLoop_gives (hb : b.Lawful R) {si : Iter σ (List U8)} {li : Iter τ Nat} {w h : Nat} (todo : List Plane) :
    ∀ (before : List Plane) (s : σ) (t : τ) (x : B) (src : List (List U8)) (sls : List Nat)
      (cs : List (Option Chromaton)) (s' : σ) (t' : τ), R x (before ++ todo) → src.length = todo.length →
      sls.length = todo.length → si.Gives s src s' → li.Gives t sls t' →
    match copyIn w h todo src sls cs with
    | .error e => b.inLoop si li w h todo.length before.length s t x cs = .error e
    | .ok qs => ∃ x', b.inLoop si li w h todo.length before.length s t x cs = .ok (s', t', x') ∧
        R x' (before ++ qs) := by
  induction todo with
  | nil =>
    intro before s t x src sls cs s' t' hx l1 l2 hs hl
    cases src with
    | cons _ _ => cases l1
    | nil =>
    cases sls with
    | cons _ _ => cases l2
    | nil =>
    cases hs
    cases hl
    rw [show copyIn w h [] [] [] cs = .ok [] by unfold copyIn; rfl]
    exact ⟨x, rfl, hx⟩
  | cons p ps ih =>
    intro before s t x src sls cs s' t' hx l1 l2 hs hl
    have hp : (before ++ p :: ps)[before.length]? = some p := by
      rw [List.getElem?_append_right (Nat.le_refl _), Nat.sub_self]; rfl
    obtain ⟨x1, g1, hx1⟩ := hb.linesize hx hp
    obtain ⟨back, g2, hback⟩ := hb.mutSlice hx1 hp
    simp only [List.length_cons, Buffer.inLoop]
    rw [g1]; simp only [ok_bind, unwrapR]
    cases sls with
    | nil => cases l2
    | cons l ls =>
      obtain ⟨t1, e1, hl⟩ := hl
      rw [e1]; simp only [ok_bind, unwrapO]; rw [g2]; simp only [ok_bind]
      cases src with
      | nil => cases l1
      | cons d ds =>
        obtain ⟨s1, e2, hs⟩ := hs
        rw [e2]; simp only [ok_bind]
        cases cs with
        | nil =>
          rw [show copyIn w h (p :: ps) (d :: ds) (l :: ls) [] = .error .unwrap by unfold copyIn; rfl]
          rfl
        | cons c cs =>
          cases c with
          | none =>
            rw [show copyIn w h (p :: ps) (d :: ds) (l :: ls) (none :: cs) = .error .unwrap by unfold copyIn; rfl]
            rfl
          | some c =>
            simp only [copyIn, List.head?_cons, List.tail_cons, ok_bind]
            cases hw : c.getWidth w with
            | error e => simp only [error_bind]
            | ok cw =>
            cases hh : c.getHeight h with
            | error e => simp only [ok_bind, error_bind]
            | ok ch =>
            simp only [ok_bind]
            cases hc : copyPlane p.buf p.linesize d l cw ch with
            | error e => simp only [error_bind]
            | ok o =>
              simp only [ok_bind]
              have hset : (before ++ p :: ps).set before.length { p with buf := o } =
                  (before ++ [{ p with buf := o }]) ++ ps := by
                rw [List.set_append_right _ _ (Nat.le_refl _), Nat.sub_self, List.append_assoc]; rfl
              have := ih (before ++ [{ p with buf := o }]) s1 t1 (back o) ds ls cs s' t'
                (by rw [← hset]; exact hback o (copyPlane_length hc))
                (by simpa using l1) (by simpa using l2) hs hl
              rw [List.length_append, List.length_singleton] at this
              cases ho : copyIn w h ps ds ls cs with
              | error e =>
                rw [ho] at this
                simp only at this
                rw [this]
                rfl
              | ok qs =>
                rw [ho] at this
                simp only at this
                obtain ⟨x3, a1, a4⟩ := this
                rw [a1]
                refine ⟨x3, rfl, ?_⟩
                rw [List.append_assoc] at a4
                exact a4

theorem outLoop_gives (hb : b.Lawful R) {di : Iter σ (List U8)} {li : Iter τ Nat} {w h : Nat} {ps : List Plane}
    (cs : List (Option Chromaton)) : ∀ (i : Nat) (s : σ) (t : τ) (x : B) (dst : List (List U8)) (dls : List Nat)
      (s' : σ) (t' : τ), R x ps → dst.length = min (ps.length - i) cs.length → dls.length = dst.length →
      di.Gives s dst s' → li.Gives t dls t' →
    match copyOut w h dst dls (ps.drop i) cs with
    | .error e => b.outLoop di li w h ps.length i s t x cs = .error e
    | .ok out => ∃ x', R x' ps ∧ b.outLoop di li w h ps.length i s t x cs =
        (oneMore di li s' t').map fun r => (out ++ r.1, r.2.1, r.2.2, x') := by
  have stop : ∀ (i : Nat) (s : σ) (t : τ) (x : B) (cs : List (Option Chromaton)),
      min (ps.length - i) cs.length = 0 → b.outLoop di li w h ps.length i s t x cs =
        (oneMore di li s t).map fun r => ([] ++ r.1, r.2.1, r.2.2, x) := by
    intro i s t x cs h0
    unfold Buffer.outLoop oneMore
    cases di.next s with
    | error e => cases cs <;> rfl
    | ok r =>
      obtain ⟨d, s1⟩ := r
      cases d with
      | none => cases cs <;> rfl
      | some d =>
        simp only [ok_bind]
        cases li.next t with
        | error e => cases cs <;> rfl
        | ok r =>
          obtain ⟨l, t1⟩ := r
          cases l with
          | none => cases cs <;> rfl
          | some l =>
            simp only [ok_bind]
            by_cases hi : ps.length ≤ i
            · rw [if_pos hi]; rfl
            · rw [if_neg hi]
              cases cs with
              | nil => rfl
              | cons c cs => simp only [List.length_cons] at h0; omega
  induction cs with
  | nil =>
    intro i s t x dst dls s' t' hx l1 l2 hd hl
    cases dst with
    | cons _ _ => simp at l1
    | nil =>
    cases dls with
    | cons _ _ => cases l2
    | nil =>
    cases hd; cases hl
    rw [show copyOut w h [] [] (ps.drop i) [] = .ok [] by unfold copyOut; rfl]
    exact ⟨x, hx, stop i s t x [] (by simp)⟩
  | cons c cs ih =>
    intro i s t x dst dls s' t' hx l1 l2 hd hl
    cases dst with
    | nil =>
      cases dls with
      | cons _ _ => cases l2
      | nil =>
      cases hd; cases hl
      rw [show copyOut w h [] [] (ps.drop i) (c :: cs) = .ok [] by unfold copyOut; rfl]
      exact ⟨x, hx, stop i s t x (c :: cs) l1.symm⟩
    | cons d ds =>
      cases dls with
      | nil => cases l2
      | cons l ls =>
        simp only [List.length_cons] at l1 l2
        have hi : ¬ ps.length ≤ i := by omega
        obtain ⟨s1, e1, hd⟩ := hd
        obtain ⟨t1, e2, hl⟩ := hl
        unfold Buffer.outLoop
        rw [e1]; simp only [ok_bind]; rw [e2]; simp only [ok_bind]
        have hp : ps[i]? = some ps[i] := List.getElem?_eq_getElem (by omega)
        obtain ⟨x1, g1, hx1⟩ := hb.slice hx hp
        obtain ⟨x2, g2, hx2⟩ := hb.linesize hx1 hp
        rw [if_neg hi, g1]; simp only [ok_bind, unwrapR]; rw [g2]; simp only [ok_bind]
        rw [List.drop_eq_getElem_cons (by omega)]
        cases c with
        | none => simp only [copyOut, unwrapO]; rfl
        | some c =>
          simp only [copyOut, unwrapO, ok_bind]
          cases hw : c.getWidth w with
          | error e => simp only [error_bind]
          | ok cw =>
          cases hh : c.getHeight h with
          | error e => simp only [ok_bind, error_bind]
          | ok ch =>
          simp only [ok_bind]
          cases hc : copyPlane d l ps[i].buf ps[i].linesize cw ch with
          | error e => simp only [error_bind]
          | ok o =>
            simp only [ok_bind]
            have := ih (i + 1) s1 t1 x2 ds ls s' t' hx2 (by omega) (by omega) hd hl
            cases ho : copyOut w h ds ls (ps.drop (i + 1)) cs with
            | error e =>
              rw [ho] at this
              simp only at this
              rw [this]
              rfl
            | ok out =>
              rw [ho] at this
              simp only at this
              obtain ⟨x3, a1, a2⟩ := this
              refine ⟨x3, a1, ?_⟩
              rw [a2]
              cases oneMore di li s' t' <;> rfl

/-- **C172** `copy_from_slice` takes one slice and one line size for each plane and no more, from any iterators: also
from ones that go on, that have no end, or that would panic afterwards. The frame gets what it gets from these slices
alone. -/
theorem c172_in_partial (hb : b.Lawful R) (f : Held B) (ps : List Plane) (hf : R f.buf ps)
    (si : Iter σ (List U8)) (li : Iter τ Nat) (s s' : σ) (t t' : τ) (src : List (List U8)) (sls : List Nat)
    (h1 : src.length = ps.length) (h2 : sls.length = ps.length) (hs : si.Gives s src s') (hl : li.Gives t sls t') :
    match Frame.copyFromSlice ⟨f.kind, ps, f.t⟩ src sls with
    | .error e => b.copyFromSlice si li f s t = .error e
    | .ok f' => ∃ x', b.copyFromSlice si li f s t = .ok (s', t', { f with buf := x' }) ∧ R x' f'.planes := by
  simp only [Frame.copyFromSlice, Buffer.copyFromSlice]
  cases hk : f.kind with
  | Audio a => rfl
  | Video v =>
    obtain ⟨x1, g1, hx1⟩ := hb.count hf
    simp only [g1, ok_bind]
    have := inLoop_gives (w := v.width) (h := v.height) hb ps [] s t x1 src sls v.format.comp_info s' t' hx1 h1 h2 hs hl
    cases hc : copyIn v.width v.height ps src sls v.format.comp_info with
    | error e =>
      rw [hc] at this
      simp only [List.length_nil] at this
      rw [this]
      rfl
    | ok qs =>
      rw [hc] at this
      simp only [List.length_nil] at this
      obtain ⟨x', a1, a2⟩ := this
      rw [a1]
      exact ⟨x', by rw [← hk]; rfl, a2⟩

/-- **C172** What `copy_frame_to_buffer` takes, exactly: one destination and one line size for each plane, and then one
more destination, and one more line size if there was another destination. The destination too many is left as it
was. -/
theorem c172_out_exact_partial (hb : b.Lawful R) (f : Held B) (ps : List Plane) (hf : R f.buf ps)
    (di : Iter σ (List U8)) (li : Iter τ Nat) (s s' : σ) (t t' : τ) (dst : List (List U8)) (dls : List Nat)
    (h1 : dst.length = planesOf f.kind ps) (h2 : dls.length = dst.length) (hd : di.Gives s dst s')
    (hl : li.Gives t dls t') :
    match Frame.copyFrameToBuffer ⟨f.kind, ps, f.t⟩ dst dls with
    | .error e => b.copyFrameToBuffer di li f s t = .error e
    | .ok out => ∃ x', R x' ps ∧ b.copyFrameToBuffer di li f s t =
        (oneMore di li s' t').map fun r => (out ++ r.1, r.2.1, r.2.2, x') := by
  simp only [Frame.copyFrameToBuffer, Buffer.copyFrameToBuffer]
  cases hk : f.kind with
  | Audio a => rfl
  | Video v =>
    obtain ⟨x1, g1, hx1⟩ := hb.count hf
    simp only [g1, ok_bind]
    rw [hk] at h1
    have := outLoop_gives (w := v.width) (h := v.height) hb v.format.comp_info 0 s t x1 dst dls s' t' hx1
      (by simpa [planesOf] using h1) h2 hd hl
    exact this

/-- **C172** Frames filled one after the other from the same iterators: each gets its own slices, those that follow its
predecessor's, and the iterators go on behind the last frame's. -/
theorem c172_in_all_partial (hb : b.Lawful R) (si : Iter σ (List U8)) (li : Iter τ Nat) (js : List (Job B)) :
    ∀ (s s' : σ) (t t' : τ) (fs : List Frame), (∀ j ∈ js, j.Set R) →
      si.Gives s (js.flatMap (·.slices)) s' → li.Gives t (js.flatMap (·.lines)) t' →
      js.map (fun j => Frame.copyFromSlice j.plain j.slices j.lines) = fs.map .ok →
    ∃ xs : List B, b.fillAll si li (js.map (·.frame)) s t =
        .ok ((js.zip xs).map (fun q => { q.1.frame with buf := q.2 }), s', t') ∧
      xs.length = js.length ∧ ∀ (i : Nat) x (f : Frame), xs[i]? = some x → fs[i]? = some f → R x f.planes := by
  induction js with
  | nil =>
    rintro s s' t t' fs - rfl rfl e
    cases fs with
    | cons _ _ => cases e
    | nil => exact ⟨[], rfl, rfl, fun i x f h => by simp at h⟩
  | cons j js ih =>
    intro s s' t t' fs hj hs hl e
    cases fs with
    | nil => cases e
    | cons f fs =>
    simp only [List.map_cons, List.cons.injEq] at e
    rw [List.flatMap_cons] at hs hl
    obtain ⟨s1, hs1, hs2⟩ := gives_append hs
    obtain ⟨t1, hl1, hl2⟩ := gives_append hl
    have hs := hj j (List.mem_cons_self ..)
    have one := c172_in_partial hb j.frame j.planes hs.shows si li s s1 t t1 j.slices j.lines hs.slices hs.lines hs1 hl1
    rw [show Frame.copyFromSlice ⟨j.frame.kind, j.planes, j.frame.t⟩ j.slices j.lines = .ok f from e.1] at one
    obtain ⟨x', a1, a2⟩ := one
    obtain ⟨xs, b1, b2, b3⟩ := ih s1 s' t1 t' fs (fun k hk => hj k (List.mem_cons_of_mem _ hk)) hs2 hl2 e.2
    refine ⟨x' :: xs, ?_, by simp [b2], ?_⟩
    · simp only [List.map_cons, Buffer.fillAll, a1, ok_bind, b1, List.zip_cons_cons]; rfl
    · intro i x g hx hg
      cases i with
      | zero => cases hx; cases hg; exact a2
      | succ i => exact b3 i x g hx hg

/-- **C172** Frames shown one after the other, each with `dst.by_ref().take(k)` for its `k` planes: each is copied to
its own destinations, and both iterators go on behind the last frame's. -/
theorem c172_take_partial (hb : b.Lawful R) (di : Iter σ (List U8)) (li : Iter τ Nat) (js : List (Job B)) :
    ∀ (s s' : σ) (t t' : τ) (outs : List (List (List U8))), (∀ j ∈ js, j.Set R) →
      (∀ j ∈ js, planesOf j.frame.kind j.planes = j.planes.length) →
      di.Gives s (js.flatMap (·.slices)) s' → li.Gives t (js.flatMap (·.lines)) t' →
      js.map (fun j => Frame.copyFrameToBuffer j.plain j.slices j.lines) = outs.map .ok →
    b.showAllTake di li (js.map fun j => (j.frame, j.planes.length)) s t = .ok (outs, s', t') := by
  induction js with
  | nil =>
    rintro s s' t t' outs - - rfl rfl e
    cases outs with
    | cons _ _ => cases e
    | nil => rfl
  | cons j js ih =>
    intro s s' t t' outs hj hk hs hl e
    cases outs with
    | nil => cases e
    | cons out outs =>
    simp only [List.map_cons, List.cons.injEq] at e
    rw [List.flatMap_cons] at hs hl
    obtain ⟨s1, hs1, hs2⟩ := gives_append hs
    obtain ⟨t1, hl1, hl2⟩ := gives_append hl
    have hs := hj j (List.mem_cons_self ..)
    have hlen := hk j (List.mem_cons_self ..)
    have hg := gives_limited hs1
    rw [hs.slices] at hg
    have one := c172_out_exact_partial hb j.frame j.planes hs.shows di.limited li (j.planes.length, s) (0, s1) t t1
      j.slices j.lines (by rw [hs.slices, hlen]) (by rw [hs.slices, hs.lines]) hg hl1
    rw [show Frame.copyFrameToBuffer ⟨j.frame.kind, j.planes, j.frame.t⟩ j.slices j.lines = .ok out from e.1] at one
    obtain ⟨x', -, a2⟩ := one
    have b1 := ih s1 s' t1 t' outs (fun k h => hj k (List.mem_cons_of_mem _ h))
      (fun k h => hk k (List.mem_cons_of_mem _ h)) hs2 hl2 e.2
    simp only [List.map_cons, Buffer.showAllTake, a2]
    simp only [oneMore, Iter.limited, ok_bind, pure_eq_ok, Except.map, List.append_nil, b1]

end

/-! ### without `take` -/

/-- A grey picture of one row of two. -/
def greyInfo : VideoInfo :=
  ⟨2, 1, false, .I, { formats.YUV420 with comp_info := [some (.new 0 0 false 8 0 0 1), none, none, none, none] }, 8⟩

/-- Two such pictures. -/
def greys : List (Held DefaultFrameBuffer) :=
  [⟨.Video greyInfo, ⟨[], [⟨[10, 11], 2⟩]⟩, .default⟩, ⟨.Video greyInfo, ⟨[], [⟨[20, 21], 2⟩]⟩, .default⟩]

/-- **C172** fails for `copy_frame_to_buffer`: of three destinations, the first picture takes two, and the second one
arrives in the third. Of two destinations, the second picture is not copied at all, and nothing is reported. -/
theorem c172_fails :
    defaultBuffer.showAll (listIter _) (listIter _) greys [[0, 0], [0, 0], [0, 0]] [2, 2, 2] =
      .ok ([[[10, 11], [0, 0]], [[20, 21]]], [], []) ∧
    defaultBuffer.showAll (listIter _) (repeatIter _) greys [[0, 0], [0, 0]] 2 =
      .ok ([[[10, 11], [0, 0]], []], [], 2) := by
  decide +kernel

/-! ### samples -/

/-- The two pictures with their destinations. -/
def greyJobs : List (Job DefaultFrameBuffer) :=
  greys.map fun f => ⟨f, f.buf.planes, [[7, 8]], [2]⟩

example : (∀ j ∈ greyJobs, j.Set (fun b ps => b.planes = ps)) ∧
    (∀ j ∈ greyJobs, planesOf j.frame.kind j.planes = j.planes.length) ∧
    greyJobs.map (fun j => Frame.copyFromSlice j.plain j.slices j.lines) =
      (greyJobs.map fun j => { j.plain with planes := [⟨[7, 8], 2⟩] }).map .ok ∧
    greyJobs.map (fun j => Frame.copyFrameToBuffer j.plain j.slices j.lines) =
      [[[10, 11]], [[20, 21]]].map .ok := by
  refine ⟨?_, by decide +kernel, by decide +kernel, by decide +kernel⟩
  intro j hj
  simp only [greyJobs, greys, List.map_cons, List.map_nil, List.mem_cons, List.not_mem_nil, or_false] at hj
  rcases hj with rfl | rfl <;> exact ⟨rfl, rfl, rfl⟩

example : (listIter _).Gives [[7, 8], [7, 8], [9]] (greyJobs.flatMap (·.slices)) [[9]] ∧
    (repeatIter _).Gives 2 (greyJobs.flatMap (·.lines)) 2 :=
  ⟨gives_list [[7, 8], [7, 8]] [[9]], gives_repeat 2 2⟩

example : (defaultBuffer.fillAll (listIter _) (repeatIter _) greys [[7, 8], [6, 5], [9]] 2).map
      (fun r => (r.1.map (·.buf.planes.map (·.buf)), r.2)) = .ok ([[[7, 8]], [[6, 5]]], [[9]], 2) ∧
    defaultBuffer.showAllTake (listIter _) (repeatIter _) (greys.map fun f => (f, 1)) [[7, 8], [6, 5], [9]] 2 =
      .ok ([[[10, 11]], [[20, 21]]], [[9]], 2) := by decide +kernel

example : (planesOf (.Video greyInfo) [⟨[10, 11], 2⟩] = 1) ∧
    oneMore (listIter (List U8)) (listIter Nat) [[1], [2]] [3, 4] = .ok ([[1]], [[2]], [4]) := by decide +kernel

end Verif.Frame
