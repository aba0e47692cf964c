import Verif.Acc.Lemmas

/-! # C23–C30, C67: AccReader -/

namespace Verif.Acc
open Verif Verif.Io

/-- Bytes the calls add to the buffer. -/
def grown : List Op → Nat
  | [] => 0
  | .grow k :: ops => k + grown ops
  | _ :: ops => grown ops

theorem step_spec {dat : List U8} (fuel : Nat) {r : Acc} (h : Inv dat r) (op : Op) :
    (step fuel r op = .error .fuel ∧ ∃ n, op = .readExact n) ∨
    ∃ o r', step fuel r op = .ok (o, r') ∧ Inv dat r' ∧ Explains dat r.index op o r'.index ∧
      r'.inner.script = r.inner.script ∧ r'.buf.length = r.buf.length + grown [op] := by
  cases op with
  | read n =>
    right
    obtain ⟨x, r', a1, a2⟩ := read_spec h n
    simp only [step, a1, ok_bind]
    cases x with
    | error e => exact ⟨_, _, rfl, a2.inv, (a2.error e rfl).1, a2.script, a2.len⟩
    | ok l =>
      obtain ⟨b1, b2, b3, b4, _⟩ := a2.ok l rfl
      exact ⟨_, _, rfl, a2.inv, ⟨b1, b2, b4, b3⟩, a2.script, a2.len⟩
  | readExact n =>
    simp only [step]
    rcases readExact_spec fuel h n with hf | ⟨x, r', a1, a2, a3, a4, a5⟩
    · left; rw [hf]; exact ⟨rfl, n, rfl⟩
    · right
      rw [a1]
      simp only [ok_bind]
      cases x with
      | error e => exact ⟨_, _, rfl, a2, ⟨(a5 e rfl).1, (a5 e rfl).2.1⟩, a3.1, a3.2⟩
      | ok l => exact ⟨_, _, rfl, a2, a4 l rfl, a3.1, a3.2⟩
  | fillBuf =>
    right
    obtain ⟨x, r', a1, a2⟩ := fillBuf_spec h
    simp only [step, a1, ok_bind]
    cases x with
    | error e => exact ⟨_, _, rfl, a2.inv, a2.index, a2.script, a2.len⟩
    | ok l =>
      refine ⟨_, _, rfl, a2.inv, ⟨?_, a2.index⟩, a2.script, a2.len⟩
      rw [(a2.shown l rfl).1, ← a2.index]; exact a2.inv.at
  | consume k =>
    right
    obtain ⟨c1, c2, _⟩ := consume_inv h (k := ((win r).take k).length)
      (by rw [List.length_take, win_length h]; omega)
    refine ⟨.bytes ((win r).take k), _, by simp only [step, data_ok h, ok_bind, pure_eq_ok], c1,
      ⟨h.at.take k, ?_, c2⟩, rfl, rfl⟩
    rw [List.length_take]; omega
  | grow k =>
    right
    exact ⟨_, _, rfl, (grow_inv h k).1, rfl, rfl, by simp [grow, grown]⟩
  | reset =>
    right
    obtain ⟨r', a1, a2, a3, a4, a5, a6, a7, a8⟩ := reset_inv h
    exact ⟨.unit, _, by simp only [step, a1, ok_bind, pure_eq_ok], a2, a6, by rw [a7], a5⟩
  | seek sf =>
    right
    obtain ⟨x, r', a1, a2⟩ := seek_spec h sf
    have hlands : ∀ m : Nat, (m : Int) = seekTarget r sf → Lands dat r.index sf m := by
      intro m hm
      cases sf with
      | start n => simp only [seekTarget] at hm; simp only [Lands]; omega
      | «end» d => rw [← h.src]; exact hm
      | current d =>
        intro hd
        simp only [seekTarget, if_pos hd] at hm
        exact hm
    simp only [step, a1, ok_bind]
    cases x with
    | error e =>
      refine ⟨_, _, rfl, a2.inv, ?_, a2.script, a2.len⟩
      exact (a2.error e rfl).1.imp (·.1) (hlands _)
    | ok n =>
      obtain ⟨b1, b2⟩ := a2.ok n rfl
      exact ⟨_, _, rfl, a2.inv, ⟨b2, hlands n b1⟩, a2.script, a2.len⟩

theorem run_spec {dat : List U8} (fuel : Nat) {r : Acc} (h : Inv dat r) (ops : List Op) :
    (run fuel r ops = .error .fuel ∧ ∃ n, .readExact n ∈ ops) ∨
    ∃ os r', run fuel r ops = .ok (os, r') ∧ Inv dat r' ∧ ExplainsAll dat r.index ops os r'.index ∧
      r'.inner.script = r.inner.script ∧ r'.buf.length = r.buf.length + grown ops := by
  induction ops generalizing r with
  | nil => exact .inr ⟨[], r, rfl, h, rfl, rfl, rfl⟩
  | cons op ops ih =>
    rcases step_spec fuel h op with ⟨h1, n, h2⟩ | ⟨o, r1, a1, a2, a3, a4, a5⟩
    · left
      refine ⟨by simp only [run, h1, error_bind], n, by simp [h2]⟩
    · rcases ih a2 with ⟨h1, n, h2⟩ | ⟨os, r2, b1, b2, b3, b4, b5⟩
      · left
        exact ⟨by simp only [run, a1, h1, ok_bind, error_bind], n, by simp [h2]⟩
      · right
        refine ⟨o :: os, r2, by simp only [run, a1, b1, ok_bind, pure_eq_ok], b2, ⟨_, a3, b3⟩, b4.trans a4, ?_⟩
        rw [b5, a5]
        have : grown (op :: ops) = grown [op] + grown ops := by cases op <;> simp [grown]
        rw [this]; omega

/-- `r` is an `AccReader` of capacity `cap` over a stream holding `dat` after some history; the
inner reader was at its start and behaves as `script` says. -/
def Reachable (dat : List U8) (cap : Nat) (script : Nat → Act) (ops : List Op) (os : List Out) (r : Acc) :
    Prop :=
  ∃ s fuel, s.data = dat ∧ s.pos = 0 ∧ s.script = script ∧ run fuel (withCapacity cap s) ops = .ok (os, r)

theorem Reachable.inv {dat cap script ops os r} (h : Reachable dat cap script ops os r) :
    Inv dat r ∧ ExplainsAll dat 0 ops os r.index ∧ r.inner.script = script ∧
      r.buf.length = cap + grown ops := by
  obtain ⟨s, fuel, h1, h2, h3, h4⟩ := h
  have hi := withCapacity_inv cap s h2
  rw [h1] at hi
  rcases run_spec fuel hi ops with ⟨h5, _⟩ | ⟨os', r', b1, b2, b3, b4, b5⟩
  · rw [h5] at h4; cases h4
  · rw [b1] at h4
    cases h4
    exact ⟨b2, b3, b4.trans h3, by simpa [withCapacity] using b5⟩

/-- Seen from outside, `r` stands at position `p` of the stream `dat`: it says so without any I/O, and
every further history is explained by a cursor starting at `p` (the only way not to return is a
`read_exact` that is interrupted for ever). -/
def StandsAt (dat : List U8) (r : Acc) (p : Nat) : Prop :=
  streamPosition r = .ok (.ok p, r) ∧
  ∀ fuel ops, (run fuel r ops = .error .fuel ∧ ∃ n, .readExact n ∈ ops) ∨
    ∃ os r' p', run fuel r ops = .ok (os, r') ∧ ExplainsAll dat p ops os p'

theorem Inv.position {dat r} (h : Inv dat r) : streamPosition r = .ok (.ok r.index, r) := by
  unfold streamPosition seek
  simp only [usub_ok h.pe, ok_bind]
  simp

theorem Inv.standsAt {dat r} (h : Inv dat r) : StandsAt dat r r.index := by
  refine ⟨h.position, ?_⟩
  intro fuel ops
  rcases run_spec fuel h ops with h1 | ⟨os, r', b1, _, b3, _⟩
  · exact .inl h1
  · exact .inr ⟨os, r', _, b1, b3⟩

/-! ### the sample of the examples -/

def sampleData : List U8 := (List.range 40).map (BitVec.ofNat 8)
/-- Short reads of 3, 1, 8, 3, 1, 8, … bytes; every sixth call is interrupted. -/
def sampleScript : Nat → Act := fun k => ⟨if k % 6 = 5 then some .interrupted else none, [2, 0, 7].getD (k % 3) 0⟩
def sampleSource : Source := ⟨sampleData, 0, sampleScript, 0⟩
def sampleOps : List Op :=
  [.read 2, .fillBuf, .consume 3, .read 9, .grow 4, .fillBuf, .read 3, .reset, .seek (.start 30), .readExact 5,
   .seek (.current 2), .read 100, .seek (.start 1), .read 2]

/-- What the calls return. -/
def outs (x : Rust (List Out × Acc)) : Option (List Out) :=
  match x with
  | .ok (os, _) => some os
  | .error _ => none

example : outs (run 20 (withCapacity 5 sampleSource) sampleOps) =
    some [.bytes [0, 1], .shown [2, 3], .bytes [2, 3], .bytes [4, 5, 6, 7, 8, 9, 10, 11], .unit,
      .shown [12, 13, 14], .bytes [12, 13, 14], .unit, .err .interrupted, .bytes [15, 16, 17, 18, 19], .pos 22,
      .bytes [22, 23, 24, 25], .err .interrupted, .bytes [26, 27]] := by decide

/-! ### C23 -/

/-- **C23** For every stream, capacity and behaviour of the inner reader, and every history of calls
(including seeks of every kind, and failures), the calls do not panic, and everything delivered and
shown is explained by a cursor moving over the bytes of the stream. -/
theorem c23_fidelity (s : Source) (h0 : s.pos = 0) (cap fuel : Nat) (ops : List Op) :
    (run fuel (withCapacity cap s) ops = .error .fuel ∧ ∃ n, .readExact n ∈ ops) ∨
    ∃ os r p, run fuel (withCapacity cap s) ops = .ok (os, r) ∧ ExplainsAll s.data 0 ops os p ∧
      StandsAt s.data r p := by
  rcases run_spec fuel (withCapacity_inv cap s h0) ops with h1 | ⟨os, r', b1, b2, b3, _⟩
  · exact .inl h1
  · exact .inr ⟨os, r', _, b1, b3, b2.standsAt⟩

/-- The bytes delivered, in order. -/
def delivered : List Out → List U8
  | [] => []
  | .bytes l :: os => l ++ delivered os
  | _ :: os => delivered os

def isSeek : Op → Bool
  | .seek _ => true
  | _ => false

theorem delivered_spec {dat : List U8} {p p' : Nat} {ops : List Op} {os : List Out}
    (h : ExplainsAll dat p ops os p') (hs : ∀ op ∈ ops, isSeek op = false) (he : ∀ e, .err e ∉ os) :
    At dat p (delivered os) ∧ p' = p + (delivered os).length := by
  induction ops generalizing p os with
  | nil =>
    cases os with
    | nil => cases h; exact ⟨by simp [At, delivered], by simp [delivered]⟩
    | cons o os => exact absurd h id
  | cons op ops ih =>
    cases os with
    | nil => exact absurd h id
    | cons o os =>
      obtain ⟨q, h1, h2⟩ := h
      obtain ⟨i1, i2⟩ := ih h2 (fun o ho => hs o (by simp [ho])) (fun e he' => he e (by simp [he']))
      have hs0 := hs op (by simp)
      have key : (∃ l, o = .bytes l ∧ At dat p l ∧ q = p + l.length) ∨ ((∀ l, o ≠ .bytes l) ∧ q = p) := by
        cases op <;> cases o <;> simp only [Explains] at h1
        case read.bytes => exact .inl ⟨_, rfl, h1.1, h1.2.2.2⟩
        case read.err e => exact absurd (List.mem_cons_self) (he e)
        case readExact.bytes => exact .inl ⟨_, rfl, h1.1, by rw [h1.2.1]; exact h1.2.2⟩
        case readExact.err e => exact absurd (List.mem_cons_self) (he e)
        case fillBuf.shown => exact .inr ⟨fun l hl => (nomatch hl), h1.2⟩
        case fillBuf.err e => exact absurd (List.mem_cons_self) (he e)
        case consume.bytes => exact .inl ⟨_, rfl, h1.1, h1.2.2⟩
        case grow.unit => exact .inr ⟨fun l hl => (nomatch hl), h1⟩
        case reset.unit => exact .inr ⟨fun l hl => (nomatch hl), h1⟩
        all_goals cases hs0
      rcases key with ⟨l, rfl, k1, k2⟩ | ⟨k1, k2⟩
      · subst k2
        refine ⟨k1.append i1, ?_⟩
        simp only [delivered, List.length_append]; omega
      · have : delivered (o :: os) = delivered os := by
          cases o with
          | bytes l => exact absurd rfl (k1 l)
          | _ => rfl
        rw [this, ← k2]
        exact ⟨i1, i2⟩

/-- **C23** Without seeks and reported errors the concatenation of everything delivered is a prefix
of the stream: nothing is lost, repeated or out of order. -/
theorem c23_concat (s : Source) (h0 : s.pos = 0) (cap fuel : Nat) (ops : List Op) (os : List Out) (r : Acc)
    (hs : ∀ op ∈ ops, isSeek op = false) (hr : run fuel (withCapacity cap s) ops = .ok (os, r))
    (he : ∀ e, .err e ∉ os) :
    delivered os = s.data.take (delivered os).length ∧ StandsAt s.data r (delivered os).length := by
  rcases run_spec fuel (withCapacity_inv cap s h0) ops with ⟨h1, _⟩ | ⟨os', r', b1, b2, b3, _⟩
  · rw [hr] at h1; cases h1
  · rw [hr] at b1
    cases b1
    obtain ⟨i1, i2⟩ := delivered_spec b3 hs he
    have h00 : (withCapacity cap s).index = 0 := rfl
    rw [h00] at i1 i2
    refine ⟨by simpa [At] using i1, ?_⟩
    have := b2.standsAt
    rwa [i2, Nat.zero_add] at this

example : ∃ r, run 20 (withCapacity 5 sampleSource) [.read 2, .fillBuf, .consume 3, .readExact 9] =
    .ok ([.bytes [0, 1], .shown [2, 3], .bytes [2, 3], .bytes [4, 5, 6, 7, 8, 9, 10, 11, 12]], r) := ⟨_, rfl⟩

/-! ### C24 -/

/-- Position according to the results: the last seek's, plus everything delivered since. -/
def posAfter : Nat → List Out → Nat
  | p, [] => p
  | p, .bytes l :: os => posAfter (p + l.length) os
  | _, .pos m :: os => posAfter m os
  | p, _ :: os => posAfter p os

/-- Failing calls that leave the position where it was. -/
def keepsOnError : Op → Bool
  | .seek _ | .readExact _ => false
  | _ => true

theorem posAfter_spec {dat : List U8} {p p' : Nat} {ops : List Op} {os : List Out}
    (h : ExplainsAll dat p ops os p')
    (he : ∀ x ∈ ops.zip os, ∀ e, x.2 = .err e → keepsOnError x.1 = true) : p' = posAfter p os := by
  induction ops generalizing p os with
  | nil =>
    cases os with
    | nil => cases h; rfl
    | cons o os => exact absurd h id
  | cons op ops ih =>
    cases os with
    | nil => exact absurd h id
    | cons o os =>
      obtain ⟨q, h1, h2⟩ := h
      have := ih h2 (fun x hx => he x (by rw [List.zip_cons_cons]; exact List.mem_cons_of_mem _ hx))
      have he0 := he (op, o) (by rw [List.zip_cons_cons]; exact List.mem_cons_self)
      rw [this]
      cases op <;> cases o <;> simp only [Explains] at h1 <;>
        first
        | (simp only [posAfter]; congr 1; omega)
        | (simp only [posAfter]; rw [h1])
        | (have := he0 _ rfl; cases this)

/-- **C24** After every history `stream_position` is the last seek's result (0 at first) plus the number
of bytes delivered since, and asking for it changes nothing. (A failing `seek` or `read_exact` does not
tell the caller how far it got, so histories containing one are excluded; for them see C29.) -/
theorem c24_position (dat : List U8) (cap : Nat) (script : Nat → Act) (ops : List Op) (os : List Out)
    (r : Acc) (hr : Reachable dat cap script ops os r)
    (he : ∀ x ∈ ops.zip os, ∀ e, x.2 = .err e → keepsOnError x.1 = true) :
    streamPosition r = .ok (.ok (posAfter 0 os), r) := by
  obtain ⟨h1, h2, _, _⟩ := hr.inv
  rw [h1.position, posAfter_spec h2 he]

example : ∃ os r, Reachable sampleData 5 sampleScript
    [.seek (.start 30), .readExact 5, .seek (.current 2), .read 3, .read 2] os r ∧
    (∀ x ∈ ([.seek (.start 30), .readExact 5, .seek (.current 2), .read 3, .read 2] : List Op).zip os,
      ∀ e, x.2 = .err e → keepsOnError x.1 = true) ∧ posAfter 0 os = 39 :=
  ⟨_, _, ⟨sampleSource, 20, rfl, rfl, rfl, rfl⟩, by
    intro x hx
    revert x
    simp [keepsOnError], by decide⟩

/-! ### C25, C26 -/

/-- **C25** After every history: `seek(Start(n))`, if it succeeds, returns `n` and the reader stands at
`n`; `seek(End(d))` the same with `len + d`; if that is negative the result is an error and neither
position nor buffered data change. -/
theorem c25_absolute (dat : List U8) (cap : Nat) (script : Nat → Act) (ops : List Op) (os : List Out)
    (r : Acc) (hr : Reachable dat cap script ops os r) :
    (∀ n, ∃ x r', seek r (.start n) = .ok (x, r') ∧ (∀ m, x = .ok m → m = n ∧ StandsAt dat r' n)) ∧
    (∀ d : Int, ∃ x r', seek r (.end d) = .ok (x, r') ∧
      (∀ m, x = .ok m → (m : Int) = dat.length + d ∧ StandsAt dat r' m) ∧
      (dat.length + d < 0 → ∃ e p, x = .error e ∧ StandsAt dat r p ∧ StandsAt dat r' p ∧ data r' = data r)) := by
  obtain ⟨h1, _, _, _⟩ := hr.inv
  refine ⟨?_, ?_⟩
  · intro n
    obtain ⟨x, r', a1, a2⟩ := seek_spec h1 (.start n)
    refine ⟨x, r', a1, ?_⟩
    intro m hm
    obtain ⟨b1, b2⟩ := a2.ok m hm
    have : m = n := by simp only [seekTarget] at b1; omega
    subst this
    have hst := a2.inv.standsAt
    rw [b2] at hst
    exact ⟨rfl, hst⟩
  · intro d
    obtain ⟨x, r', a1, a2⟩ := seek_spec h1 (.end d)
    refine ⟨x, r', a1, ?_, ?_⟩
    · intro m hm
      obtain ⟨b1, b2⟩ := a2.ok m hm
      have hst := a2.inv.standsAt
      rw [b2] at hst
      exact ⟨by rw [b1, seekTarget, h1.src], hst⟩
    · intro hneg
      obtain ⟨e, b1, b2, b3⟩ := a2.neg (by rw [seekTarget, h1.src]; exact hneg)
      have hst := a2.inv.standsAt
      rw [b2] at hst
      exact ⟨e, _, b1, h1.standsAt, hst, by rw [data_ok h1, data_ok a2.inv, b3]⟩

/-- **C25** Unless the inner reader fails, absolute seeks to non-negative targets succeed. -/
theorem c25_succeeds (dat : List U8) (cap : Nat) (script : Nat → Act) (ops : List Op) (os : List Out)
    (r : Acc) (hr : Reachable dat cap script ops os r) (hok : ∀ c, (script c).fail = none) :
    (∀ n, ∃ r', seek r (.start n) = .ok (.ok n, r')) ∧
    (∀ d : Int, 0 ≤ dat.length + d → ∃ r', seek r (.end d) = .ok (.ok (dat.length + d).toNat, r')) := by
  obtain ⟨h1, _, h3, _⟩ := hr.inv
  refine ⟨?_, ?_⟩
  · intro n
    obtain ⟨x, r', a1, a2⟩ := seek_spec h1 (.start n)
    have := a2.healthy (by rw [h3]; exact hok) (by simp only [seekTarget]; omega)
    rw [this] at a1
    exact ⟨r', a1⟩
  · intro d hd
    obtain ⟨x, r', a1, a2⟩ := seek_spec h1 (.end d)
    have := a2.healthy (by rw [h3]; exact hok) (by rw [seekTarget, h1.src]; exact hd)
    rw [this, seekTarget, h1.src] at a1
    exact ⟨r', a1⟩

/-- A reader in the middle of its stream, with buffered data, over a healthy reader. -/
def healthy : Nat → Act := fun k => ⟨none, k % 4⟩

example : ∃ os r, Reachable sampleData 5 healthy [.read 2, .seek (.start 30), .fillBuf, .fillBuf] os r ∧
    (∀ c, (healthy c).fail = none) ∧ data r = .ok [30, 31, 32, 33, 34] :=
  ⟨_, _, ⟨⟨sampleData, 0, healthy, 0⟩, 20, rfl, rfl, rfl, rfl⟩, fun _ => rfl, by decide⟩

/-- **C26** fails: with two bytes buffered, `seek(Current(-1))` at position 2 leads to 3. -/
theorem c26_fails : ∃ (os : List Out) (r r' : Acc), Reachable sampleData 4 healthy [.fillBuf, .fillBuf, .read 1] os r ∧
    streamPosition r = .ok (.ok 1, r) ∧ data r = .ok [1, 2] ∧ seek r (.current (-1)) = .ok (.ok 2, r') ∧
    streamPosition r' = .ok (.ok 2, r') :=
  ⟨_, _, _, ⟨⟨sampleData, 0, healthy, 0⟩, 20, rfl, rfl, rfl, rfl⟩, rfl, rfl, rfl, rfl⟩

/-- **C26** (partial) After every history at any position `p`: a successful `seek(Current(d))` with
`d ≥ 0` returns `p + d` and the reader stands there. A successful one with `d < 0` leads to `p + k + d`
where `k` is the number of buffered bytes. Missing, and false: `p + d` for `d < 0`. -/
theorem c26_relative_partial (dat : List U8) (cap : Nat) (script : Nat → Act) (ops : List Op) (os : List Out)
    (r : Acc) (hr : Reachable dat cap script ops os r) (d : Int) :
    ∃ p w x r', StandsAt dat r p ∧ data r = .ok w ∧ seek r (.current d) = .ok (x, r') ∧
      (∀ m, x = .ok m → StandsAt dat r' m ∧
        (m : Int) = if 0 ≤ d then p + d else p + w.length + d) ∧
      ((∀ c, (script c).fail = none) → 0 ≤ d → ∃ m, x = .ok m) := by
  obtain ⟨h1, _, h3, _⟩ := hr.inv
  obtain ⟨x, r', a1, a2⟩ := seek_spec h1 (.current d)
  refine ⟨_, _, x, r', h1.standsAt, data_ok h1, a1, ?_, ?_⟩
  · intro m hm
    obtain ⟨b1, b2⟩ := a2.ok m hm
    have hst := a2.inv.standsAt
    rw [b2] at hst
    refine ⟨hst, ?_⟩
    rw [b1, seekTarget, h1.ip, win_length h1]
    split
    · rfl
    · omega
  · intro hok hd
    have := a2.healthy (by rw [h3]; exact hok) (by simp only [seekTarget, if_pos hd]; omega)
    exact ⟨_, this⟩

/-! ### C27 -/

/-- **C27** After every history, at any position `p`: `data()` shows the stream at `p`, and its length is
`capacity()`; `fill_buf` returns the new `data()`, which extends the old one, or an error leaving `data()`
unchanged; `grow` and `reset_buffer_position` change neither data nor position; consuming `k` bytes of it
drops exactly these from `data()` and advances by `k`. -/
theorem c27_window (dat : List U8) (cap : Nat) (script : Nat → Act) (ops : List Op) (os : List Out)
    (r : Acc) (hr : Reachable dat cap script ops os r) :
    ∃ p w, StandsAt dat r p ∧ data r = .ok w ∧ At dat p w ∧ capacity r = .ok w.length ∧
      (∃ x r', fillBuf r = .ok (x, r') ∧ StandsAt dat r' p ∧
        (∀ l, x = .ok l → data r' = .ok l ∧ w <+: l) ∧ (∀ e, x = .error e → data r' = .ok w)) ∧
      (∀ k, data (grow r k) = .ok w ∧ StandsAt dat (grow r k) p) ∧
      (∃ r', resetBufferPosition r = .ok r' ∧ data r' = .ok w ∧ StandsAt dat r' p) ∧
      (∀ k, k ≤ w.length → data (consume r k) = .ok (w.drop k) ∧ StandsAt dat (consume r k) (p + k)) := by
  obtain ⟨h1, _, _, _⟩ := hr.inv
  refine ⟨r.index, win r, h1.standsAt, data_ok h1, h1.at, ?_, ?_, ?_, ?_, ?_⟩
  · rw [capacity, usub_ok h1.pe, win_length h1]
  · obtain ⟨x, r', a1, a2⟩ := fillBuf_spec h1
    have hst := a2.inv.standsAt
    rw [a2.index] at hst
    refine ⟨x, r', a1, hst, ?_, ?_⟩
    · intro l hl
      obtain ⟨b1, b2, _⟩ := a2.shown l hl
      exact ⟨by rw [data_ok a2.inv, b1], b2⟩
    · intro e he
      rw [data_ok a2.inv, (a2.error e he).1]
  · intro k
    obtain ⟨g1, g2⟩ := grow_inv h1 k
    exact ⟨by rw [data_ok g1, g2], g1.standsAt⟩
  · obtain ⟨r', a1, a2, a3, a4, a5, a6, a7, a8⟩ := reset_inv h1
    have hst := a2.standsAt
    rw [a6] at hst
    exact ⟨r', a1, by rw [data_ok a2, a8], hst⟩
  · intro k hk
    obtain ⟨c1, c2, c3⟩ := consume_inv h1 (k := k) (by rw [← win_length h1]; exact hk)
    have hst := c1.standsAt
    rw [c2] at hst
    exact ⟨by rw [data_ok c1, c3], hst⟩

example : ∃ os r, Reachable sampleData 5 sampleScript [.read 2, .seek (.start 30), .fillBuf] os r ∧
    data r = .ok [30, 31, 32, 33, 34] ∧ r.buf.length = 5 :=
  ⟨_, _, ⟨sampleSource, 20, rfl, rfl, rfl, rfl⟩, by decide, by decide⟩

/-! ### C28 -/

/-- **C28** After every history at any position `p`: a `read` into a non-empty buffer that returns 0 bytes
means that `p` is at (or behind) the end of the stream; a `fill_buf` that does not extend the window
although there is room (the window is shorter than the initial capacity plus everything grown since) means
that the window reaches the end. -/
theorem c28_eof (dat : List U8) (cap : Nat) (script : Nat → Act) (ops : List Op) (os : List Out)
    (r : Acc) (hr : Reachable dat cap script ops os r) :
    ∃ p w, StandsAt dat r p ∧ data r = .ok w ∧
      (∀ n r', read r n = .ok (.ok [], r') → 0 < n → dat.length ≤ p) ∧
      (∀ r', fillBuf r = .ok (.ok w, r') → w.length < cap + grown ops → dat.length ≤ p + w.length) := by
  obtain ⟨h1, _, _, h4⟩ := hr.inv
  refine ⟨r.index, win r, h1.standsAt, data_ok h1, ?_, ?_⟩
  · intro n r' hn h0
    obtain ⟨x, r1, a1, a2⟩ := read_spec h1 n
    rw [a1] at hn
    cases hn
    have := (a2.ok [] rfl).2.2.2.1 rfl
    omega
  · intro r' hf hroom
    obtain ⟨x, r1, a1, a2⟩ := fillBuf_spec h1
    rw [a1] at hf
    cases hf
    exact (a2.shown _ rfl).2.2 rfl (by rw [h4]; exact hroom)

example : ∃ os r r', Reachable sampleData 5 healthy [.seek (.start 38), .grow 3] os r ∧
    fillBuf r = .ok (.ok [38, 39], r') ∧ data r = .ok [38, 39] :=
  ⟨_, _, _, ⟨⟨sampleData, 0, healthy, 0⟩, 20, rfl, rfl, rfl, rfl⟩, rfl, by decide⟩

/-! ### C29 -/

/-- **C29** After every history at any position `p`, with window `w`, whenever a call reports an error:
it is the inner reader's error (or `InvalidInput` for a seek before the start); after `read` and `fill_buf`
position and data are unchanged; after `seek` likewise, or the reader stands at the seek's target. -/
theorem c29_errors (dat : List U8) (cap : Nat) (script : Nat → Act) (ops : List Op) (os : List Out)
    (r : Acc) (hr : Reachable dat cap script ops os r) :
    ∃ p w, StandsAt dat r p ∧ data r = .ok w ∧
      (∀ n e r', read r n = .ok (.error e, r') →
        (∃ c, (script c).fail = some e) ∧ StandsAt dat r' p ∧ data r' = .ok w) ∧
      (∀ e r', fillBuf r = .ok (.error e, r') →
        (∃ c, (script c).fail = some e) ∧ StandsAt dat r' p ∧ data r' = .ok w) ∧
      (∀ sf e r', seek r sf = .ok (.error e, r') → ((∃ c, (script c).fail = some e) ∨ e = .invalidInput) ∧
        ((StandsAt dat r' p ∧ data r' = .ok w) ∨ ∃ t, StandsAt dat r' t ∧ Lands dat p sf t)) := by
  obtain ⟨h1, _, h3, _⟩ := hr.inv
  refine ⟨r.index, win r, h1.standsAt, data_ok h1, ?_, ?_, ?_⟩
  · intro n e r' hn
    obtain ⟨x, r1, a1, a2⟩ := read_spec h1 n
    rw [a1] at hn
    cases hn
    obtain ⟨b1, b2, b3, _⟩ := a2.error e rfl
    have hst := a2.inv.standsAt
    rw [b1] at hst
    exact ⟨⟨_, by rw [← h3]; exact b3⟩, hst, by rw [data_ok a2.inv, b2]⟩
  · intro e r' hf
    obtain ⟨x, r1, a1, a2⟩ := fillBuf_spec h1
    rw [a1] at hf
    cases hf
    obtain ⟨b1, b2, _⟩ := a2.error e rfl
    have hst := a2.inv.standsAt
    rw [a2.index] at hst
    exact ⟨⟨_, by rw [← h3]; exact b2⟩, hst, by rw [data_ok a2.inv, b1]⟩
  · intro sf e r' hs
    obtain ⟨x, r1, a1, a2⟩ := seek_spec h1 sf
    rw [a1] at hs
    cases hs
    obtain ⟨b1, b2⟩ := a2.error e rfl
    refine ⟨?_, ?_⟩
    · rcases b2 with ⟨c, hc⟩ | ⟨_, hc⟩
      · exact .inl ⟨c, by rw [← h3]; exact hc⟩
      · exact .inr hc
    · have hst := a2.inv.standsAt
      rcases b1 with ⟨g1, g2⟩ | g1
      · rw [g1] at hst
        exact .inl ⟨hst, by rw [data_ok a2.inv, g2]⟩
      · refine .inr ⟨_, hst, ?_⟩
        cases sf with
        | start n => simp only [seekTarget] at g1; simp only [Lands]; omega
        | «end» d => rw [← h1.src]; exact g1
        | current d =>
          intro hd
          simp only [seekTarget, if_pos hd] at g1
          exact g1

example : ∃ os r r', Reachable sampleData 5 sampleScript
    [.read 2, .fillBuf, .fillBuf, .consume 2, .fillBuf, .consume 2, .fillBuf, .consume 2] os r ∧
    fillBuf r = .ok (.error .interrupted, r') ∧ data r = .ok [8, 9] :=
  ⟨_, _, _, ⟨sampleSource, 20, rfl, rfl, rfl, rfl⟩, rfl, by decide⟩

/-! ### C30 -/

/-- **C30** After every history at any position `p`, over an inner reader that does not fail except by
interruptions: `read_exact(n)` returns the next `n` bytes and stands behind them if there are so many,
and otherwise reports `UnexpectedEof` — unless it is interrupted for ever. -/
theorem c30_readExact (dat : List U8) (cap : Nat) (script : Nat → Act) (ops : List Op) (os : List Out)
    (r : Acc) (hr : Reachable dat cap script ops os r)
    (hok : ∀ c, (script c).fail = none ∨ (script c).fail = some .interrupted) (n fuel : Nat) :
    readExact read fuel r n = .error .fuel ∨
    ∃ p r', StandsAt dat r p ∧
      (readExact read fuel r n = .ok (.ok ((dat.drop p).take n), r') ∧ (n = 0 ∨ p + n ≤ dat.length) ∧
        StandsAt dat r' (p + n) ∨
       readExact read fuel r n = .ok (.error .unexpectedEof, r') ∧ n ≠ 0 ∧ dat.length < p + n) := by
  obtain ⟨h1, _, h3, _⟩ := hr.inv
  rcases readExact_spec fuel h1 n with hf | ⟨x, r', a1, a2, a3, a4, a5⟩
  · exact .inl hf
  · right
    refine ⟨r.index, r', h1.standsAt, ?_⟩
    cases x with
    | ok l =>
      obtain ⟨b1, b2, b3⟩ := a4 l rfl
      have hst := a2.standsAt
      rw [b3] at hst
      left
      unfold At at b1
      rw [b2] at b1
      refine ⟨by rw [a1, b1], ?_, hst⟩
      have := congrArg List.length b1
      rw [b2, List.length_take, List.length_drop] at this
      omega
    | error e =>
      obtain ⟨b1, b2, b3, b4⟩ := a5 e rfl
      obtain ⟨c1, c2⟩ := b4 (by rw [h3]; exact hok)
      right
      exact ⟨by rw [a1, c1], by omega, c2⟩

/-- **C30** It terminates when the inner reader stops failing at some call: `n` calls that deliver, and
the failing ones, suffice. -/
theorem c30_terminates (dat : List U8) (cap : Nat) (script : Nat → Act) (ops : List Op) (os : List Out)
    (r : Acc) (hr : Reachable dat cap script ops os r) (N : Nat)
    (hN : ∀ c, N ≤ c → (script c).fail = none) (n fuel : Nat) (hf : n + N < fuel) :
    readExact read fuel r n ≠ .error .fuel := by
  obtain ⟨h1, _, h3, _⟩ := hr.inv
  exact readExact_fuel fuel h1 n N (by rw [h3]; exact hN) (by omega)

/-- The stream from `p` cut into pieces. -/
def pieces (dat : List U8) : Nat → List Nat → List Out
  | _, [] => []
  | p, n :: ns => .bytes ((dat.drop p).take n) :: pieces dat (p + n) ns

theorem splits_spec {dat : List U8} (fuel : Nat) {r : Acc} (h : Inv dat r) (ns : List Nat)
    (hok : ∀ c, (r.inner.script c).fail = none) (hn : ∀ n ∈ ns, n < fuel)
    (hin : r.index + ns.sum ≤ dat.length) :
    ∃ r', run fuel r (ns.map .readExact) = .ok (pieces dat r.index ns, r') ∧ Inv dat r' ∧
      r'.index = r.index + ns.sum := by
  induction ns generalizing r with
  | nil => exact ⟨r, rfl, h, rfl⟩
  | cons n ns ih =>
    rw [List.sum_cons] at hin
    have hfu := readExact_fuel fuel h n 0 (fun c _ => hok c) (by have := hn n (by simp); omega)
    rcases readExact_spec fuel h n with hf | ⟨x, r1, a1, a2, a3, a4, a5⟩
    · exact absurd hf hfu
    · cases x with
      | error e =>
        have := (a5 e rfl).2.2.2 (fun c => .inl (hok c))
        omega
      | ok l =>
        obtain ⟨b1, b2, b3⟩ := a4 l rfl
        obtain ⟨r2, c1, c2, c3⟩ := ih a2 (by rw [a3.1]; exact hok) (fun n hn' => hn n (by simp [hn'])) (by omega)
        unfold At at b1
        rw [b2] at b1
        refine ⟨r2, ?_, c2, by rw [c3, b3, List.sum_cons]; omega⟩
        simp only [List.map_cons, run, step, a1, ok_bind, c1, pure_eq_ok, pieces, b3, ← b1]

/-- **C30** After any history, over a healthy inner reader, any sequence of `read_exact` calls that
fits cuts the stream into exactly these pieces. -/
theorem c30_splits (dat : List U8) (cap : Nat) (script : Nat → Act) (ops : List Op) (os : List Out)
    (r : Acc) (hr : Reachable dat cap script ops os r) (hok : ∀ c, (script c).fail = none)
    (ns : List Nat) (fuel : Nat) (hn : ∀ n ∈ ns, n < fuel) :
    ∃ p, StandsAt dat r p ∧ (p + ns.sum ≤ dat.length →
      ∃ r', run fuel r (ns.map .readExact) = .ok (pieces dat p ns, r') ∧ StandsAt dat r' (p + ns.sum)) := by
  obtain ⟨h1, _, h3, _⟩ := hr.inv
  refine ⟨r.index, h1.standsAt, ?_⟩
  intro hin
  obtain ⟨r', a1, a2, a3⟩ := splits_spec fuel h1 ns (by rw [h3]; exact hok) hn hin
  have hst := a2.standsAt
  rw [a3] at hst
  exact ⟨r', a1, hst⟩

example : pieces sampleData 1 [2, 0, 7, 20] = [.bytes [1, 2], .bytes [], .bytes [3, 4, 5, 6, 7, 8, 9],
    .bytes [10, 11, 12, 13, 14, 15, 16, 17, 18, 19, 20, 21, 22, 23, 24, 25, 26, 27, 28, 29]] ∧
    ∃ os r, Reachable sampleData 3 healthy [.read 1] os r ∧ streamPosition r = .ok (.ok 1, r) :=
  ⟨by decide, _, _, ⟨⟨sampleData, 0, healthy, 0⟩, 20, rfl, rfl, rfl, rfl⟩, rfl⟩

/-! ### C67 -/

/-- **C67** fails: over a reader standing at byte 10 the position starts at 0, and after a `fill_buf` a
`seek(Start(1))` leads to byte 11. -/
theorem c67_fails : ∃ r, run 20 (withCapacity 5 ⟨sampleData, 10, healthy, 0⟩)
    [.seek (.current 0), .fillBuf, .fillBuf, .seek (.start 1), .read 1] =
    .ok ([.pos 0, .shown [10], .shown [10, 11, 12], .pos 1, .bytes [11]], r) := ⟨_, rfl⟩

end Verif.Acc
