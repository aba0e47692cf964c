import Verif.Acc.Offset

/-!
# C101: consuming more than is buffered, and every history over every reader

`consume` (accreader.rs:159-163) stops at the end of the buffered bytes but adds the whole amount to
`index`. Together with the inner readers that do not stand at their start (C67) this leaves readers
whose positions are wrong by a constant. Here that constant is followed through every history of calls,
with seeks, over every inner reader.
-/

namespace Verif.Acc
open Verif Verif.Io

/-! ### histories with any `consume` -/

/-- `step` without the contract of `BufRead::consume`: `consume(k)` is called with any `k`. What it
returns here are the bytes dropped from the front of `data()`. -/
def stepAny (fuel : Nat) (r : Acc) : Op → Rust (Out × Acc)
  | .consume k => do
    let w ← data r
    return (.bytes (w.take k), consume r k)
  | op => step fuel r op

def runAny (fuel : Nat) (r : Acc) : List Op → Rust (List Out × Acc)
  | [] => .ok ([], r)
  | op :: ops => do
    let (o, r) ← stepAny fuel r op
    let (os, r) ← runAny fuel r ops
    return (o :: os, r)

/-! ### specification -/

/-- What a caller can see of a reader: it stands at byte `p` of the stream, reports its position as
`p + e`, and has the next `b` bytes buffered. -/
structure View where
  p : Nat
  e : Int
  b : Nat

/-- Whether a seek stays in the buffer: forward from the current position, to a target that the reader
*believes* to be buffered. -/
def View.Stays (v : View) : SeekFrom → Prop
  | .start n => (v.p : Int) + v.e ≤ n ∧ (n : Int) < v.p + v.e + v.b
  | .end _ => False
  | .current d => 0 ≤ d ∧ d ≤ v.b

/-- Where the inner reader is sent by a seek that does not stay in the buffer. -/
def View.target (len : Nat) (v : View) : SeekFrom → Int
  | .start n => n
  | .end d => len + d
  | .current d => if 0 ≤ d then v.p + d else v.p + v.b + d

/-- `op`, called in view `v` and returning `out`, leads to view `v'`. -/
def Moves (dat : List U8) (v : View) : Op → Out → View → Prop
  | .consume k, .bytes l, v' => At dat v.p l ∧ l.length = min k v.b ∧
      v' = ⟨v.p + l.length, v.e + (k - l.length : Nat), v.b - l.length⟩
  | .read n, .bytes l, v' => Explains dat v.p (.read n) (.bytes l) v'.p ∧ v'.e = v.e ∧ (n ≤ v.b → l.length = n)
  | .read _, .err _, v' => v' = v
  | .fillBuf, .shown l, v' => At dat v.p l ∧ v.b ≤ l.length ∧ v' = ⟨v.p, v.e, l.length⟩
  | .fillBuf, .err _, v' => v' = v
  | .grow _, .unit, v' => v' = v
  | .reset, .unit, v' => v' = v
  | .seek sf, .pos m, v' =>
      (v.Stays sf ∧ (∃ k, v' = ⟨v.p + k, v.e, v.b - k⟩ ∧ (m : Int) = v.p + k + v.e ∧
        match sf with | .start n => m = n | .current d => (k : Int) = d | .end _ => False)) ∨
      (¬ v.Stays sf ∧ v'.p = m ∧ v'.e = 0 ∧ (m : Int) = v.target dat.length sf)
  | .seek sf, .err _, v' => ¬ v.Stays sf ∧
      (v' = v ∨ v'.e = 0 ∧ (v'.p : Int) = v.target dat.length sf)
  | op, out, v' => Explains dat v.p op out v'.p ∧ v'.e = v.e

def MovesAll (dat : List U8) : View → List Op → List Out → View → Prop
  | v, [], [], v' => v' = v
  | v, op :: ops, o :: os, v' => ∃ u, Moves dat v op o u ∧ MovesAll dat u ops os v'
  | _, _, _, _ => False

/-- The view is right: what the reader says and shows. -/
def Shows (dat : List U8) (r : Acc) (v : View) : Prop :=
  (∃ n, streamPosition r = .ok (.ok n, r) ∧ (n : Int) = v.p + v.e) ∧
  (∃ w, data r = .ok w ∧ At dat v.p w ∧ w.length = v.b) ∧
  r.inner.data = dat ∧ r.inner.pos = v.p + v.b

/-! ### two readers that differ in `index` only -/

inductive Rel (e : Int) : Acc → Acc → Prop
  | mk (inner : Source) (buf : List U8) (pos en i j : Nat) (h : (i : Int) = j + e) :
    Rel e ⟨inner, buf, pos, en, i⟩ ⟨inner, buf, pos, en, j⟩

inductive Both (e : Int) : Rust (X × Acc) → Rust (X × Acc) → Prop
  | err (x : Panic) : Both e (.error x) (.error x)
  | ok (x : X) {r q : Acc} (h : Rel e r q) : Both e (.ok (x, r)) (.ok (x, q))

theorem Both.bind {e : Int} {a b : Rust (X × Acc)} {f g : X × Acc → Rust (Y × Acc)} (h : Both e a b)
    (hf : ∀ x r q, Rel e r q → Both e (f (x, r)) (g (x, q))) : Both e (a >>= f) (b >>= g) := by
  cases h with
  | err x => exact .err x
  | ok x h => exact hf x _ _ h

theorem Both.pure_bind {e : Int} {m : Rust Z} {f g : Z → Rust (Y × Acc)}
    (hf : ∀ z, m = .ok z → Both e (f z) (g z)) : Both e (m >>= f) (m >>= g) := by
  cases m with
  | error x => exact .err x
  | ok z => exact hf z rfl

theorem reset_rel {e : Int} {r q : Acc} (h : Rel e r q) :
    (∃ x, resetBufferPosition r = .error x ∧ resetBufferPosition q = .error x) ∨
    (∃ r1 q1, resetBufferPosition r = .ok r1 ∧ resetBufferPosition q = .ok q1 ∧ Rel e r1 q1) := by
  cases h with
  | mk inner buf pos en i j h =>
    unfold resetBufferPosition
    dsimp only
    cases usub en pos with
    | error x => exact .inl ⟨x, rfl, rfl⟩
    | ok w =>
      simp only [ok_bind]
      cases (if w > 0 then copyWithin0 buf pos en else .ok buf) with
      | error x => exact .inl ⟨x, rfl, rfl⟩
      | ok b => exact .inr ⟨_, _, rfl, rfl, .mk inner b 0 w i j h⟩

theorem fillBuf_rel {e : Int} {r q : Acc} (h : Rel e r q) : Both e (fillBuf r) (fillBuf q) := by
  have hr := reset_rel h
  cases h with
  | mk inner buf pos en i j h =>
    unfold fillBuf
    dsimp only
    by_cases hc : pos ≠ 0 ∨ en ≠ buf.length
    · rw [if_pos hc, if_pos hc]
      rcases hr with ⟨x, h1, h2⟩ | ⟨r1, q1, h1, h2, h3⟩
      · rw [h1, h2]; exact .err x
      · rw [h1, h2]
        simp only [ok_bind]
        cases h3 with
        | mk inner buf pos en i j h =>
          refine Both.pure_bind fun room _ => ?_
          dsimp only
          generalize inner.read room.length = y
          obtain ⟨x, s'⟩ := y
          cases x with
          | error e => exact .ok _ (.mk _ _ _ _ _ _ h)
          | ok l =>
            dsimp only
            exact Both.pure_bind (m := sliceRange (buf.take en ++ l ++ buf.drop (en + l.length)) pos (en + l.length))
              fun w _ => .ok _ (.mk _ _ _ _ _ _ h)
    · rw [if_neg hc, if_neg hc]
      exact Both.pure_bind (m := sliceRange buf pos en) fun w _ => .ok _ (.mk _ _ _ _ _ _ h)

theorem consume_rel {e : Int} {r q : Acc} (h : Rel e r q) (k : Nat) : Rel e (consume r k) (consume q k) := by
  cases h with
  | mk inner buf pos en i j h => exact .mk _ _ _ _ _ _ (by simp only; omega)

theorem read_rel {e : Int} {r q : Acc} (h : Rel e r q) (n : Nat) : Both e (read r n) (read q n) := by
  have hf := fillBuf_rel h
  have hk := consume_rel h
  cases h with
  | mk inner buf pos en i j h =>
    unfold read
    dsimp only
    refine Both.pure_bind fun w _ => ?_
    by_cases h1 : n < w
    · rw [if_pos h1, if_pos h1]
      exact Both.pure_bind fun l _ => .ok _ (hk _)
    · rw [if_neg h1, if_neg h1]
      by_cases h2 : n > buf.length
      · rw [if_pos h2, if_pos h2]
        refine Both.pure_bind fun l _ => ?_
        refine Both.pure_bind fun room _ => ?_
        generalize inner.read room = y
        obtain ⟨x, s'⟩ := y
        cases x with
        | error e => exact .ok _ (.mk _ _ _ _ _ _ h)
        | ok l2 =>
          dsimp only
          rcases reset_rel (consume_rel (Rel.mk s' buf pos en i j h) (l2.length + (l.take n).length)) with
            ⟨x, g1, g2⟩ | ⟨r1, q1, g1, g2, g3⟩
          · rw [g1, g2]; exact .err x
          · rw [g1, g2]; exact .ok _ g3
      · rw [if_neg h2, if_neg h2]
        refine Both.bind hf fun x r1 q1 h3 => ?_
        cases x with
        | error e => exact .ok _ h3
        | ok l => exact .ok _ (consume_rel h3 _)

theorem readExact_rel {e : Int} (fuel : Nat) {r q : Acc} (h : Rel e r q) (n : Nat) :
    Both e (readExact read fuel r n) (readExact read fuel q n) := by
  induction fuel generalizing r q n with
  | zero => exact .err _
  | succ fuel ih =>
    unfold readExact
    by_cases hn : n = 0
    · rw [if_pos hn, if_pos hn]; exact .ok _ h
    · rw [if_neg hn, if_neg hn]
      refine Both.bind (read_rel h n) fun x r1 q1 h1 => ?_
      cases x with
      | error e =>
        cases e with
        | interrupted => exact ih h1 n
        | _ => exact .ok _ h1
      | ok l =>
        cases l with
        | nil => exact .ok _ h1
        | cons b l =>
          refine Both.bind (ih h1 _) fun y r2 q2 h2 => ?_
          cases y <;> exact .ok _ h2

theorem data_rel {e : Int} {r q : Acc} (h : Rel e r q) : data r = data q := by
  cases h; rfl

theorem win_rel {e : Int} {r q : Acc} (h : Rel e r q) : win r = win q := by
  cases h; rfl

theorem step_rel {e : Int} (fuel : Nat) {r q : Acc} (h : Rel e r q) (op : Op) (hop : isSeek op = false) :
    Both e (step fuel r op) (step fuel q op) := by
  cases op with
  | read n =>
    refine Both.bind (read_rel h n) fun x r1 q1 h1 => ?_
    cases x <;> exact .ok _ h1
  | readExact n =>
    refine Both.bind (readExact_rel fuel h n) fun x r1 q1 h1 => ?_
    cases x <;> exact .ok _ h1
  | fillBuf =>
    refine Both.bind (fillBuf_rel h) fun x r1 q1 h1 => ?_
    cases x <;> exact .ok _ h1
  | consume n =>
    unfold step
    rw [data_rel h]
    exact Both.pure_bind (m := data q) fun w _ => .ok _ (consume_rel h _)
  | grow n =>
    cases h with
    | mk inner buf pos en i j h => exact .ok _ (.mk _ _ _ _ _ _ h)
  | reset =>
    unfold step
    rcases reset_rel h with ⟨x, g1, g2⟩ | ⟨r1, q1, g1, g2, g3⟩
    · rw [g1, g2]; exact .err x
    · rw [g1, g2]; exact .ok _ g3
  | seek sf => cases hop

/-! ### one step -/

/-- `r` is the reader whose twin `q` would report the right positions. -/
def Twin (dat : List U8) (r : Acc) (v : View) : Prop :=
  ∃ q, Rel v.e r q ∧ Inv dat q ∧ q.index = v.p ∧ (win q).length = v.b

theorem Twin.shows {dat : List U8} {r : Acc} {v : View} (h : Twin dat r v) : Shows dat r v := by
  obtain ⟨q, h1, h2, h3, h4⟩ := h
  have hd := data_ok h2
  have hwl := win_length h2
  have hpe := h2.pe
  have hip := h2.ip
  have hat := h2.at
  have hsrc := h2.src
  rw [h3] at hat hip
  cases h1 with
  | mk inner buf pos en i j h =>
    simp only at h3 hpe hip hwl hsrc
    subst h3
    refine ⟨⟨i, ?_, h⟩, ⟨_, hd, hat, h4⟩, hsrc, ?_⟩
    · unfold streamPosition seek
      simp only [usub_ok hpe, ok_bind]
      simp
    · simp only; omega

theorem withCapacity_twin (cap : Nat) (s : Source) :
    Twin s.data (withCapacity cap s) ⟨s.pos, -s.pos, 0⟩ := by
  refine ⟨{ withCapacity cap s with index := s.pos }, (.mk _ _ _ _ _ _ (by simp only; omega)), ⟨rfl, Nat.le_refl _, Nat.zero_le _, ?_, ?_⟩, rfl, ?_⟩
  · simp [withCapacity]
  · simp [win, withCapacity]
  · simp [win, withCapacity]

theorem consume_twin {dat : List U8} {r : Acc} {v : View} (h : Twin dat r v) (k : Nat) :
    Twin dat (consume r k) ⟨v.p + min k v.b, v.e + (k - min k v.b : Nat), v.b - min k v.b⟩ := by
  obtain ⟨q, h1, h2, h3, h4⟩ := h
  have hwl := win_length h2
  have hpe := h2.pe
  obtain ⟨c1, c2, c3⟩ := consume_inv h2 (k := min k v.b) (by omega)
  refine ⟨consume q (min k v.b), ?_, c1, by rw [c2, h3], by rw [c3, List.length_drop, h4]⟩
  cases h1 with
  | mk inner buf pos en i j h =>
    simp only at hwl hpe
    unfold consume
    simp only
    rw [show min (pos + min k v.b) en = min (pos + k) en by omega]
    exact .mk _ _ _ _ _ _ (by omega)

theorem step_twin {dat : List U8} (fuel : Nat) {r : Acc} {v : View} (h : Twin dat r v) (op : Op)
    (hop : isSeek op = false) (hc : ∀ k, op ≠ .consume k) :
    (step fuel r op = .error .fuel ∧ ∃ n, op = .readExact n) ∨
    ∃ o r' v', step fuel r op = .ok (o, r') ∧ Twin dat r' v' ∧ Moves dat v op o v' := by
  obtain ⟨q, h1, h2, h3, h4⟩ := h
  have hb := step_rel fuel h1 op hop
  rcases step_spec fuel h2 op with ⟨g1, g2⟩ | ⟨o, q', g1, g2, g3, _, _⟩
  · left
    rw [g1] at hb
    generalize step fuel r op = y at hb
    cases hb
    exact ⟨rfl, g2⟩
  · right
    rw [g1] at hb
    generalize hy : step fuel r op = y at hb
    cases hb with
    | ok _ hr =>
      rename_i r'
      rw [h3] at g3
      refine ⟨o, r', ⟨q'.index, v.e, (win q').length⟩, rfl, ⟨q', hr, g2, rfl, rfl⟩, ?_⟩
      cases op with
      | consume k => exact absurd rfl (hc k)
      | seek sf => cases hop
      | read n =>
        obtain ⟨x, q2, b1, b2⟩ := read_spec h2 n
        simp only [step, b1, ok_bind] at g1
        cases x with
        | error e =>
          cases g1
          show _ = v
          rw [(b2.error e rfl).2.1, h4, (b2.error e rfl).1, h3]
        | ok l =>
          cases g1
          refine ⟨g3, rfl, fun hn => ?_⟩
          rw [(b2.ok l rfl).2.2.2.2 (by omega), List.length_take]
          omega
      | readExact n => cases o <;> exact ⟨g3, rfl⟩
      | fillBuf =>
        obtain ⟨x, q2, b1, b2⟩ := fillBuf_spec h2
        simp only [step, b1, ok_bind] at g1
        cases x with
        | error e =>
          cases g1
          show _ = v
          rw [(b2.error e rfl).1, h4, b2.index, h3]
        | ok l =>
          cases g1
          have := (b2.shown l rfl).2.1.length_le
          refine ⟨g3.1, by omega, ?_⟩
          rw [g3.2, (b2.shown l rfl).1]
      | grow k =>
        cases g1
        obtain ⟨_, c2⟩ := grow_inv h2 k
        show _ = v
        rw [c2, h4]
        cases v
        simp only at h3
        simp only [grow, h3]
      | reset =>
        obtain ⟨q2, b1, _, _, _, _, b6, _, b8⟩ := reset_inv h2
        simp only [step, b1, ok_bind, pure_eq_ok] at g1
        cases g1
        show _ = v
        rw [b8, h4, b6, h3]

theorem seekInner_twin {dat : List U8} {r : Acc} {v : View} (h : Twin dat r v) (sf : SeekFrom) :
    ∃ x r', seekInner r sf = .ok (x, r') ∧
      (∀ m, x = .ok m → ∃ b, Twin dat r' ⟨m, 0, b⟩ ∧ (m : Int) = r.inner.target sf) ∧
      (∀ e, x = .error e → Twin dat r' v ∨ ∃ p b, Twin dat r' ⟨p, 0, b⟩ ∧ (p : Int) = r.inner.target sf) := by
  have hd := (h.shows).2.2.1
  obtain ⟨s1, s2, s3, s4, s5, s6, s7⟩ := source_seek r.inner sf
  unfold seekInner
  cases hs : r.inner.seek sf with
  | mk x s' =>
    rw [hs] at s1 s2 s3 s4 s5 s6 s7
    simp only at s1 s2 s3 s4 s5 s6 s7
    cases x with
    | error e =>
      refine ⟨_, _, rfl, (fun m h => nomatch h), fun e' he' => .inl ?_⟩
      obtain ⟨g1, _⟩ := s5 e rfl
      obtain ⟨q, h1, h2, h3, h4⟩ := h
      cases h1 with
      | mk inner buf pos en i j h =>
        refine ⟨⟨s', buf, pos, en, j⟩, .mk _ _ _ _ _ _ h, ⟨s1.trans h2.src, h2.pe, h2.eb, ?_, h2.win⟩, h3, h4⟩
        have := h2.ip
        simp only at this g1 ⊢
        omega
    | ok sz =>
      obtain ⟨g1, g2⟩ := s4 sz rfl
      have hinv : Inv dat ({ r with inner := s', index := sz, pos := 0, «end» := 0 } : Acc) := by
        refine ⟨s1.trans hd, Nat.le_refl _, Nat.zero_le _, ?_, ?_⟩
        · simp only; omega
        · simp [win]
      obtain ⟨y, r1, a1, a2⟩ := fillBuf_spec hinv
      simp only [a1, ok_bind]
      have ht : Twin dat r1 ⟨sz, 0, (win r1).length⟩ :=
        ⟨r1, .mk _ _ _ _ _ _ (by simp), a2.inv, a2.index, rfl⟩
      cases y with
      | error e =>
        exact ⟨_, _, rfl, (fun m h => nomatch h), fun e' _ => .inr ⟨sz, _, ht, g1⟩⟩
      | ok l =>
        refine ⟨_, _, rfl, ?_, (fun m h => nomatch h)⟩
        intro m hm
        cases hm
        exact ⟨_, ht, g1⟩

theorem seek_twin {dat : List U8} {r : Acc} {v : View} (h : Twin dat r v) (sf : SeekFrom) :
    ∃ x r' v', seek r sf = .ok (x, r') ∧ Twin dat r' v' ∧
      Moves dat v (.seek sf) (match x with | .ok m => .pos m | .error e => .err e) v' := by
  -- leaving the buffer
  have hout : ∀ sf', ¬ v.Stays sf → r.inner.target sf' = v.target dat.length sf →
      ∃ x r' v', seekInner r sf' = .ok (x, r') ∧ Twin dat r' v' ∧
        Moves dat v (.seek sf) (match x with | .ok m => .pos m | .error e => .err e) v' := by
    intro sf' hns ht
    obtain ⟨x, r', a1, a2, a3⟩ := seekInner_twin h sf'
    cases x with
    | ok m =>
      obtain ⟨b, b1, b2⟩ := a2 m rfl
      exact ⟨_, r', _, a1, b1, .inr ⟨hns, rfl, rfl, by rw [b2, ht]⟩⟩
    | error e =>
      rcases a3 e rfl with b1 | ⟨p, b, b1, b2⟩
      · exact ⟨_, r', v, a1, b1, hns, .inl rfl⟩
      · exact ⟨_, r', _, a1, b1, hns, .inr ⟨rfl, by rw [b2, ht]⟩⟩
  -- staying
  have hin : ∀ k, k ≤ v.b → ∃ r', consume r k = r' ∧ Twin dat r' ⟨v.p + k, v.e, v.b - k⟩ := by
    intro k hk
    have := consume_twin h k
    rw [show min k v.b = k by omega] at this
    rw [show v.e + ((k - k : Nat) : Int) = v.e by omega] at this
    exact ⟨_, rfl, this⟩
  obtain ⟨⟨n0, -, hn0⟩, -, hdat, hipos⟩ := h.shows
  obtain ⟨q, h1, h2, h3, h4⟩ := id h
  have hwl := win_length h2
  have hpe := h2.pe
  cases h1 with
  | mk inner buf pos en i j hij =>
  simp only at h3 hwl hpe hdat hipos
  cases sf with
  | start n =>
    unfold seek
    simp only
    by_cases hn : n ≥ i
    · rw [if_pos hn, usub_ok (by omega)]
      simp only [ok_bind]
      by_cases hn2 : n < i + en - pos
      · rw [if_pos hn2]
        obtain ⟨r', c1, c2⟩ := hin (n - i) (by omega)
        have he : (⟨inner, buf, pos + (n - i), en, n⟩ : Acc) = r' := by
          rw [← c1]
          simp only [consume]
          rw [show min (pos + (n - i)) en = pos + (n - i) by omega, show i + (n - i) = n by omega]
        rw [he]
        refine ⟨_, _, _, rfl, c2, .inl ⟨?_, n - i, rfl, ?_, rfl⟩⟩
        · simp only [View.Stays]; omega
        · omega
      · rw [if_neg hn2]
        refine hout _ ?_ rfl
        simp only [View.Stays]; omega
    · rw [if_neg hn]
      refine hout _ ?_ rfl
      simp only [View.Stays]; omega
  | «end» d =>
    refine hout _ (fun hf => hf) ?_
    simp only [Source.target, View.target, hdat]
  | current d =>
    unfold seek
    simp only [usub_ok hpe, ok_bind]
    by_cases hd : d ≥ 0
    · rw [if_pos hd]
      by_cases hd2 : d.toNat ≤ en - pos
      · rw [if_pos hd2]
        obtain ⟨r', c1, c2⟩ := hin d.toNat (by omega)
        have he : (⟨inner, buf, pos + d.toNat, en, i + d.toNat⟩ : Acc) = r' := by
          rw [← c1]
          simp only [consume]
          rw [show min (pos + d.toNat) en = pos + d.toNat by omega]
        rw [he]
        refine ⟨_, _, _, rfl, c2, .inl ⟨?_, d.toNat, rfl, ?_, ?_⟩⟩
        · simp only [View.Stays]; omega
        · omega
        · simp only; omega
      · rw [if_neg hd2]
        refine hout _ ?_ ?_
        · simp only [View.Stays]; omega
        · simp only [Source.target, View.target, if_pos hd]; omega
    · rw [if_neg hd]
      refine hout _ ?_ ?_
      · simp only [View.Stays]; omega
      · simp only [Source.target, View.target, if_neg hd]; omega

theorem stepAny_twin {dat : List U8} (fuel : Nat) {r : Acc} {v : View} (h : Twin dat r v) (op : Op) :
    (stepAny fuel r op = .error .fuel ∧ ∃ n, op = .readExact n) ∨
    ∃ o r' v', stepAny fuel r op = .ok (o, r') ∧ Twin dat r' v' ∧ Moves dat v op o v' := by
  cases op with
  | consume k =>
    right
    obtain ⟨-, ⟨w, h2, h3, h4⟩, -, -⟩ := h.shows
    refine ⟨.bytes (w.take k), consume r k, _, by simp only [stepAny, h2, ok_bind, pure_eq_ok], consume_twin h k, h3.take k, ?_, ?_⟩
    · rw [List.length_take, h4]
    · rw [List.length_take, h4]
  | seek sf =>
    right
    obtain ⟨x, r', v', a1, a2, a3⟩ := seek_twin h sf
    cases x with
    | ok m => exact ⟨_, _, v', by simp only [stepAny, step, a1, ok_bind], a2, a3⟩
    | error e => exact ⟨_, _, v', by simp only [stepAny, step, a1, ok_bind], a2, a3⟩
  | read n => exact step_twin fuel h (.read n) rfl (fun k hk => nomatch hk)
  | readExact n => exact step_twin fuel h (.readExact n) rfl (fun k hk => nomatch hk)
  | fillBuf => exact step_twin fuel h .fillBuf rfl (fun k hk => nomatch hk)
  | grow n => exact step_twin fuel h (.grow n) rfl (fun k hk => nomatch hk)
  | reset => exact step_twin fuel h .reset rfl (fun k hk => nomatch hk)

theorem runAny_twin {dat : List U8} (fuel : Nat) {r : Acc} {v : View} (h : Twin dat r v) (ops : List Op) :
    (runAny fuel r ops = .error .fuel ∧ ∃ n, .readExact n ∈ ops) ∨
    ∃ os r' v', runAny fuel r ops = .ok (os, r') ∧ Twin dat r' v' ∧ MovesAll dat v ops os v' := by
  induction ops generalizing r v with
  | nil => exact .inr ⟨[], r, v, rfl, h, rfl⟩
  | cons op ops ih =>
    rcases stepAny_twin fuel h op with ⟨h1, n, h2⟩ | ⟨o, r1, v1, a1, a2, a3⟩
    · left
      exact ⟨by simp only [runAny, h1, error_bind], n, by simp [h2]⟩
    · rcases ih a2 with ⟨h1, n, h2⟩ | ⟨os, r2, v2, b1, b2, b3⟩
      · left
        exact ⟨by simp only [runAny, a1, h1, ok_bind, error_bind], n, by simp [h2]⟩
      · right
        exact ⟨o :: os, r2, v2, by simp only [runAny, a1, b1, ok_bind, pure_eq_ok], b2, v1, a3, b3⟩

/-! ### C101 -/

/-- By how much the calls of `consume` in a history exceed what they dropped. -/
def excess : List Op → List Out → Nat
  | .consume k :: ops, .bytes l :: os => (k - l.length) + excess ops os
  | _ :: ops, _ :: os => excess ops os
  | _, _ => 0

theorem MovesAll.excess {dat : List U8} {v v' : View} {ops : List Op} {os : List Out}
    (h : MovesAll dat v ops os v') (hs : ∀ op ∈ ops, isSeek op = false) : v'.e = v.e + (excess ops os : Nat) := by
  induction ops generalizing v os with
  | nil =>
    cases os with
    | nil => cases h; simp [Acc.excess]
    | cons o os => cases h
  | cons op ops ih =>
    cases os with
    | nil => cases h
    | cons o os =>
      obtain ⟨u, h1, h2⟩ := h
      have := ih h2 fun op' h' => hs op' (by simp [h'])
      have hop := hs op (by simp)
      cases op with
      | consume k =>
        cases o with
        | bytes l =>
          obtain ⟨-, -, rfl⟩ := h1
          simp only [Acc.excess] at this ⊢
          omega
        | _ => exact h1.1.elim
      | fillBuf =>
        cases o with
        | shown l =>
          obtain ⟨-, -, rfl⟩ := h1
          simpa only [Acc.excess] using this
        | err e => cases h1; exact this
        | _ => exact h1.1.elim
      | grow k =>
        cases o with
        | unit => cases h1; exact this
        | _ => exact h1.1.elim
      | reset =>
        cases o with
        | unit => cases h1; exact this
        | _ => exact h1.1.elim
      | read n =>
        cases o with
        | bytes l => rw [this, h1.2.1]; rfl
        | err e => cases h1; exact this
        | _ => exact h1.1.elim
      | readExact n => cases o <;> (rw [this, h1.2]; rfl)
      | seek sf => cases hop

/-- **C101** fails: whatever happened before, with any bytes `w` buffered, consuming more than `w` leaves a reader
that reports the position `p + k`, while the next byte it delivers is that at `p + w.length`. Of the
byte 3 it believes to stand behind byte 6, and `seek(Start(6))` finds byte 3. -/
theorem c101_fails :
    (∀ dat cap script ops os r p w k, Reachable dat cap script ops os r → StandsAt dat r p → data r = .ok w →
      w.length < k → streamPosition (consume r k) = .ok (.ok (p + k), consume r k) ∧
        ¬ StandsAt dat (consume r k) (p + w.length)) ∧
    ∃ r, runAny 20 (withCapacity 3 ⟨sampleData, 0, fun _ => ⟨none, 100⟩, 0⟩)
      [.fillBuf, .consume 6, .seek (.current 0), .fillBuf, .seek (.start 6), .read 1] =
      .ok ([.shown [0, 1, 2], .bytes [0, 1, 2], .pos 6, .shown [3, 4, 5], .pos 6, .bytes [3]], r) := by
  refine ⟨?_, _, rfl⟩
  intro dat cap script ops os r p w k hr hp hw hk
  obtain ⟨h1, _, _, _⟩ := hr.inv
  have hpp : p = r.index := by
    have := hp.1
    rw [h1.position] at this
    cases this; rfl
  have hs : streamPosition (consume r k) = .ok (.ok (p + k), consume r k) := by
    unfold streamPosition seek
    have := h1.pe
    simp only [consume]
    rw [usub_ok (by omega)]
    simp [hpp]
  refine ⟨hs, fun hc => ?_⟩
  have := hc.1
  rw [hs] at this
  simp only [Except.ok.injEq, Prod.mk.injEq, and_true] at this
  omega

/-- What holds of **C101** and **C67** (both are false): every history — with seeks, and with any amounts consumed — over every inner
reader, wherever that stands at first. No call panics, every byte delivered or shown is the one at the true
position `p`, and the positions reported are `p + e`, where `e` starts at minus the position of the inner reader, grows by
what is consumed in excess of the buffered bytes, and becomes 0 with the first seek that leaves the
buffer; which seeks stay in the buffer is decided by the reported, not by the true position.
Missing (and false): `e = 0` throughout. -/
theorem c101_exact_partial (s : Source) (cap fuel : Nat) (ops : List Op) :
    (runAny fuel (withCapacity cap s) ops = .error .fuel ∧ ∃ n, .readExact n ∈ ops) ∨
    ∃ os r v, runAny fuel (withCapacity cap s) ops = .ok (os, r) ∧
      MovesAll s.data ⟨s.pos, -s.pos, 0⟩ ops os v ∧ Shows s.data r v := by
  rcases runAny_twin fuel (withCapacity_twin cap s) ops with h | ⟨os, r, v, h1, h2, h3⟩
  · exact .inl h
  · exact .inr ⟨os, r, v, h1, h3, h2.shows⟩

/-- What holds of **C101**: without seeks the position reported is wrong by exactly the sum of the excesses, less the
position the inner reader started at.
Missing (and false): that it is not wrong. -/
theorem c101_excess_partial (s : Source) (cap fuel : Nat) (ops : List Op) (hs : ∀ op ∈ ops, isSeek op = false)
    (os : List Out) (r : Acc) (hr : runAny fuel (withCapacity cap s) ops = .ok (os, r)) :
    ∃ p n w, streamPosition r = .ok (.ok n, r) ∧ n + s.pos = p + excess ops os ∧
      data r = .ok w ∧ At s.data p w ∧ r.inner.pos = p + w.length := by
  rcases c101_exact_partial s cap fuel ops with ⟨h, _⟩ | ⟨os', r', v, h1, h2, ⟨n, h3, h4⟩, ⟨w, h5, h6, h7⟩, -, h8⟩
  · rw [hr] at h; cases h
  · rw [hr] at h1
    cases h1
    have := h2.excess hs
    exact ⟨v.p, n, w, h3, by simp only at this; omega, h5, h6, by omega⟩

example : ∃ r, runAny 20 (withCapacity 3 ⟨sampleData, 10, fun _ => ⟨none, 100⟩, 0⟩)
      [.fillBuf, .consume 6, .read 1, .consume 5] =
      .ok ([.shown [10, 11, 12], .bytes [10, 11, 12], .bytes [13], .bytes [14, 15]], r) ∧
    excess [.fillBuf, .consume 6, .read 1, .consume 5]
      [.shown [10, 11, 12], .bytes [10, 11, 12], .bytes [13], .bytes [14, 15]] = 6 ∧
    streamPosition r = .ok (.ok 12, r) := ⟨_, rfl, rfl, rfl⟩

example : ∃ r, runAny 20 (withCapacity 3 ⟨sampleData, 10, fun _ => ⟨none, 100⟩, 0⟩)
      [.fillBuf, .seek (.start 1), .read 1, .seek (.start 30), .seek (.current 0), .read 1] =
      .ok ([.shown [10, 11, 12], .pos 1, .bytes [11], .pos 30, .pos 30, .bytes [30]], r) := ⟨_, rfl⟩

end Verif.Acc
