import Verif.Acc.Until

/-!
# C147: length, rewinding and parts of the stream

`Seek::stream_len`, `rewind` and `seek_relative` are default methods of std that see the reader through `seek`;
`Read::take` is an adapter of std that sees it through `read`. They are modelled over `AccReader`.
-/

namespace Verif.Acc
open Verif Verif.Io

/-- `Seek::stream_len` (default method of std): where the end is; back again unless the reader stood there. -/
def streamLen (r : Acc) : Rust (Except IoErr Nat × Acc) := do
  let (x, r) ← streamPosition r
  match x with
  | .error e => .ok (.error e, r)
  | .ok old => do
    let (x, r) ← seek r (.end 0)
    match x with
    | .error e => .ok (.error e, r)
    | .ok len =>
      if old ≠ len then do
        let (x, r) ← seek r (.start old)
        match x with
        | .error e => .ok (.error e, r)
        | .ok _ => .ok (.ok len, r)
      else .ok (.ok len, r)

/-- `Seek::rewind` (default method of std) -/
def rewind (r : Acc) : Rust (Except IoErr Unit × Acc) := do
  let (x, r) ← seek r (.start 0)
  return (x.map fun _ => (), r)

/-- `Seek::seek_relative` (default method of std) -/
def seekRelative (r : Acc) (d : Int) : Rust (Except IoErr Unit × Acc) := do
  let (x, r) ← seek r (.current d)
  return (x.map fun _ => (), r)

/-- `Read::read` of `std::io::Take`: at most `limit` bytes in all. -/
def takeRead (t : Acc × Nat) (n : Nat) : Rust (Except IoErr (List U8) × (Acc × Nat)) :=
  if t.2 = 0 then .ok (.ok [], t)
  else do
    let (x, r) ← read t.1 (min n t.2)
    match x with
    | .error e => .ok (.error e, (r, t.2))
    | .ok l => do
      let limit ← usub t.2 l.length
      return (.ok l, (r, limit))

/-- `Read::read_to_end` (default method of std) of `Take`, as `readToEnd`. -/
def takeToEnd (size : Nat → Nat) : Nat → Acc × Nat → Rust ((Option IoErr × List U8) × (Acc × Nat))
  | 0, _ => .error .fuel
  | fuel + 1, t => do
    let (x, t) ← takeRead t (size fuel)
    match x with
    | .error .interrupted => takeToEnd size fuel t
    | .error e => .ok ((some e, []), t)
    | .ok [] => .ok ((none, []), t)
    | .ok l => do
      let ((e, m), t) ← takeToEnd size fuel t
      return ((e, l ++ m), t)

/-! ### C147 -/

/-- **C147** After every history, `stream_len` returns the length of the stream, and the reader stands where it stood.
Unless the inner reader fails it succeeds; if it fails, the error is passed on and the reader stands where it stood or at
the end. -/
theorem c147_len (dat : List U8) (cap : Nat) (script : Nat → Act) (ops : List Op) (os : List Out)
    (r : Acc) (hr : Reachable dat cap script ops os r) :
    ∃ p x r', StandsAt dat r p ∧ streamLen r = .ok (x, r') ∧
      (∀ n, x = .ok n → n = dat.length ∧ StandsAt dat r' p) ∧
      (∀ e, x = .error e → (∃ c, (script c).fail = some e) ∧ (StandsAt dat r' p ∨ StandsAt dat r' dat.length)) ∧
      ((∀ c, (script c).fail = none) → x = .ok dat.length) := by
  obtain ⟨h1, _, h3, _⟩ := hr.inv
  obtain ⟨x, r1, a1, a2⟩ := seek_spec h1 (.end 0)
  have ht : seekTarget r (.end 0) = dat.length := by simp [seekTarget, h1.src]
  rw [ht] at a2
  refine ⟨r.index, ?_⟩
  unfold streamLen
  simp only [h1.position, a1, ok_bind]
  cases x with
  | error e =>
    obtain ⟨b1, b2⟩ := a2.error e rfl
    refine ⟨_, _, h1.standsAt, rfl, fun n hn => (nomatch hn), fun e' he => ?_, fun hok => ?_⟩
    · cases he
      refine ⟨?_, ?_⟩
      · rcases b2 with b2 | ⟨b2, _⟩
        · rw [← h3]; exact b2
        · omega
      · rcases b1 with ⟨b1, _⟩ | b1
        · left; rw [← b1]; exact a2.inv.standsAt
        · right
          have : r1.index = dat.length := by omega
          rw [← this]; exact a2.inv.standsAt
    · have := a2.healthy (by rw [h3]; exact hok) (by omega)
      cases this
  | ok len =>
    obtain ⟨b1, b2⟩ := a2.ok len rfl
    have hl : len = dat.length := by omega
    subst hl
    simp only
    by_cases he : r.index = dat.length
    · rw [if_neg (by simpa using he)]
      refine ⟨_, _, h1.standsAt, rfl, fun n hn => ?_, fun e h => (nomatch h), fun _ => rfl⟩
      cases hn
      refine ⟨rfl, ?_⟩
      rw [he, ← b2]; exact a2.inv.standsAt
    · rw [if_pos he]
      obtain ⟨y, r2, c1, c2⟩ := seek_spec a2.inv (.start r.index)
      simp only [c1, ok_bind]
      simp only [seekTarget] at c2
      cases y with
      | error e =>
        obtain ⟨d1, d2⟩ := c2.error e rfl
        refine ⟨_, _, h1.standsAt, rfl, fun n hn => (nomatch hn), fun e' h => ?_, fun hok => ?_⟩
        · cases h
          refine ⟨?_, ?_⟩
          · rcases d2 with d2 | ⟨d2, _⟩
            · rw [a2.script, h3] at d2; exact d2
            · omega
          · rcases d1 with ⟨d1, _⟩ | d1
            · right; rw [← b2, ← d1]; exact c2.inv.standsAt
            · left
              have : r2.index = r.index := by omega
              rw [← this]; exact c2.inv.standsAt
        · have := c2.healthy (by rw [a2.script, h3]; exact hok) (by omega)
          cases this
      | ok m =>
        obtain ⟨d1, d2⟩ := c2.ok m rfl
        refine ⟨_, _, h1.standsAt, rfl, fun n hn => ?_, fun e h => (nomatch h), fun _ => rfl⟩
        cases hn
        refine ⟨rfl, ?_⟩
        have : r2.index = r.index := by omega
        rw [← this]; exact c2.inv.standsAt

example : ∃ os r r', Reachable sampleData 5 healthy [.readExact 2, .fillBuf] os r ∧ streamPosition r = .ok (.ok 2, r) ∧
    streamLen r = .ok (.ok 40, r') ∧ streamPosition r' = .ok (.ok 2, r') :=
  ⟨_, _, _, ⟨⟨sampleData, 0, healthy, 0⟩, 20, rfl, rfl, rfl, rfl⟩, rfl, rfl, rfl⟩

/-- A reader whose fifth call fails. -/
def failsFifth : Nat → Act := fun k => ⟨if k = 4 then some (.other 1) else none, 2⟩

/-- A failing `stream_len` may leave the reader at the end. -/
example : ∃ os r r', Reachable sampleData 5 failsFifth [.read 2, .fillBuf] os r ∧ streamPosition r = .ok (.ok 2, r) ∧
    streamLen r = .ok (.error (.other 1), r') ∧ streamPosition r' = .ok (.ok 40, r') :=
  ⟨_, _, _, ⟨⟨sampleData, 0, failsFifth, 0⟩, 20, rfl, rfl, rfl, rfl⟩, rfl, rfl, rfl⟩

/-- **C147** After every history, a successful `rewind` leads to the beginning: everything is delivered once more. It
succeeds unless the inner reader fails. -/
theorem c147_rewind (dat : List U8) (cap : Nat) (script : Nat → Act) (ops : List Op) (os : List Out)
    (r : Acc) (hr : Reachable dat cap script ops os r) :
    ∃ x r', rewind r = .ok (x, r') ∧
      (x = .ok () → StandsAt dat r' 0 ∧ ∀ size, (∀ k, 0 < size k) →
        (∀ fuel l r'', readToEnd size fuel r' = .ok ((none, l), r'') → l = dat) ∧
        ((∀ c, (script c).fail = none) → ∀ fuel, dat.length < fuel →
          ∃ r'', readToEnd size fuel r' = .ok ((none, dat), r''))) ∧
      (∀ e, x = .error e → ∃ c, (script c).fail = some e) := by
  obtain ⟨h1, _, h3, _⟩ := hr.inv
  obtain ⟨x, r1, a1, a2⟩ := seek_spec h1 (.start 0)
  unfold rewind
  simp only [a1, ok_bind, pure_eq_ok]
  simp only [seekTarget] at a2
  refine ⟨_, _, rfl, fun hx => ?_, fun e he => ?_⟩
  · cases x with
    | error e => cases hx
    | ok n =>
      obtain ⟨b1, b2⟩ := a2.ok n rfl
      have h0 : r1.index = 0 := by omega
      refine ⟨h0 ▸ a2.inv.standsAt, fun size hs => ⟨fun fuel l r'' hl => ?_, fun hok fuel hfu => ?_⟩⟩
      · rcases readToEnd_spec size hs fuel a2.inv with hf | ⟨e2, l2, r2, c1, _, _, _, c5, _⟩
        · rw [hf] at hl; cases hl
        · rw [c1] at hl
          simp only [Except.ok.injEq, Prod.mk.injEq] at hl
          obtain ⟨⟨rfl, rfl⟩, _⟩ := hl
          simpa [h0] using c5 rfl
      · rcases readToEnd_spec size hs fuel a2.inv with hf | ⟨e2, l2, r2, c1, _, _, _, c5, c6⟩
        · refine absurd hf (readToEnd_fuel size fuel a2.inv 0 (fun c _ => ?_) (by omega))
          rw [a2.script, h3, hok c]; exact fun h => (nomatch h)
        · cases e2 with
          | none => rw [c5 rfl, h0] at c1; exact ⟨r2, c1⟩
          | some e2 =>
            obtain ⟨_, c, hc⟩ := c6 e2 rfl
            rw [a2.script, h3, hok c] at hc
            cases hc
  · cases x with
    | ok n => cases he
    | error e' =>
      cases he
      rcases (a2.error _ rfl).2 with b | ⟨b, _⟩
      · rw [← h3]; exact b
      · omega

example : ∃ os r r', Reachable sampleData 5 healthy [.read 2, .seek (.start 30), .fillBuf] os r ∧
    rewind r = .ok (.ok (), r') ∧ given (readToEnd (fun k => k % 7 + 1) 60 r') = some (none, sampleData) :=
  ⟨_, _, _, ⟨⟨sampleData, 0, healthy, 0⟩, 20, rfl, rfl, rfl, rfl⟩, rfl, by decide +kernel⟩

/-- **C147** After every history, a successful `seek_relative` forwards moves by that much, and one by nothing does not
touch the inner reader. (Backwards see C26.) -/
theorem c147_relative (dat : List U8) (cap : Nat) (script : Nat → Act) (ops : List Op) (os : List Out)
    (r : Acc) (hr : Reachable dat cap script ops os r) (d : Nat) :
    ∃ p x r', StandsAt dat r p ∧ seekRelative r d = .ok (x, r') ∧ (x = .ok () → StandsAt dat r' (p + d)) ∧
      (∀ e, x = .error e → (∃ c, (script c).fail = some e) ∧ (StandsAt dat r' p ∨ StandsAt dat r' (p + d))) ∧
      (d = 0 → x = .ok () ∧ r' = r) := by
  obtain ⟨h1, _, h3, _⟩ := hr.inv
  obtain ⟨x, r1, a1, a2⟩ := seek_spec h1 (.current d)
  have hd : (0 : Int) ≤ d := by omega
  simp only [seekTarget, if_pos hd] at a2
  unfold seekRelative
  simp only [a1, ok_bind, pure_eq_ok]
  refine ⟨r.index, _, _, h1.standsAt, rfl, fun hx => ?_, fun e he => ?_, fun h0 => ?_⟩
  · cases x with
    | error e => cases hx
    | ok n =>
      obtain ⟨b1, b2⟩ := a2.ok n rfl
      have : r1.index = r.index + d := by omega
      exact this ▸ a2.inv.standsAt
  · cases x with
    | ok n => cases he
    | error e' =>
      cases he
      obtain ⟨b1, b2⟩ := a2.error _ rfl
      refine ⟨?_, ?_⟩
      · rcases b2 with b | ⟨b, _⟩
        · rw [← h3]; exact b
        · omega
      · rcases b1 with ⟨b1, _⟩ | b1
        · left; rw [← b1]; exact a2.inv.standsAt
        · right
          have : r1.index = r.index + d := by omega
          exact this ▸ a2.inv.standsAt
  · subst h0
    have hp := h1.position
    unfold streamPosition at hp
    have e0 : ((0 : Nat) : Int) = 0 := rfl
    rw [e0, hp] at a1
    cases a1
    exact ⟨rfl, rfl⟩

example : ∃ os r r', Reachable sampleData 5 healthy [.readExact 2, .fillBuf] os r ∧ seekRelative r 20 = .ok (.ok (), r') ∧
    streamPosition r' = .ok (.ok 22, r') :=
  ⟨_, _, _, ⟨⟨sampleData, 0, healthy, 0⟩, 20, rfl, rfl, rfl, rfl⟩, rfl, rfl⟩

/-! ### parts -/

theorem takeToEnd_spec {dat : List U8} (size : Nat → Nat) (hs : ∀ k, 0 < size k) (fuel : Nat) {r : Acc} (h : Inv dat r)
    (n : Nat) :
    takeToEnd size fuel (r, n) = .error .fuel ∨
    ∃ e l r', takeToEnd size fuel (r, n) = .ok ((e, l), (r', n - l.length)) ∧ Inv dat r' ∧ At dat r.index l ∧
      l.length ≤ n ∧ r'.index = r.index + l.length ∧ r'.inner.script = r.inner.script ∧
      (e = none → l = (dat.drop r.index).take n) ∧
      (∀ e', e = some e' → e' ≠ .interrupted ∧ ∃ c, (r.inner.script c).fail = some e') := by
  induction fuel generalizing r n with
  | zero => exact .inl rfl
  | succ fuel ih =>
    unfold takeToEnd takeRead
    by_cases hn : n = 0
    · subst hn
      right
      simp only [if_true, ok_bind]
      exact ⟨none, [], r, rfl, h, by simp [At], by simp, by simp, rfl, fun _ => by simp, fun _ h => (nomatch h)⟩
    simp only [if_neg hn]
    obtain ⟨x, r1, a1, a2⟩ := read_spec h (min (size fuel) n)
    simp only [a1, ok_bind]
    cases x with
    | error e =>
      obtain ⟨b1, _, b2, _⟩ := a2.error e rfl
      simp only [ok_bind]
      by_cases hi : e = .interrupted
      · subst hi
        simp only
        rcases ih a2.inv n with hf | ⟨e2, l2, r2, c1, c2, c3, c4, c5, c6, c7, c8⟩
        · exact .inl hf
        · right
          rw [b1] at c3 c5 c7
          rw [a2.script] at c8 c6
          exact ⟨e2, l2, r2, c1, c2, c3, c4, c5, c6, c7, c8⟩
      · right
        refine ⟨some e, [], r1, ?_, a2.inv, by simp [At], by simp, by simp [b1], a2.script, fun h => (nomatch h), ?_⟩
        · cases e <;> first | rfl | exact absurd rfl hi
        · intro e' he
          cases he
          exact ⟨hi, _, b2⟩
    | ok l =>
      obtain ⟨b1, b2, b3, b4, _⟩ := a2.ok l rfl
      have hln : l.length ≤ n := by omega
      simp only [usub_ok hln, ok_bind, pure_eq_ok]
      cases l with
      | nil =>
        right
        refine ⟨none, [], r1, rfl, a2.inv, by simp [At], by simp, by simpa using b3, a2.script, fun _ => ?_,
          fun _ h => (nomatch h)⟩
        rcases b4 rfl with b | b
        · have := hs fuel; omega
        · simp [List.drop_eq_nil_of_le b]
      | cons c cs =>
        simp only
        rcases ih a2.inv (n - (c :: cs).length) with hf | ⟨e2, l2, r2, c1, c2, c3, c4, c5, c6, c7, c8⟩
        · left; simp only [hf, error_bind]
        · right
          rw [b3] at c3 c5 c7
          rw [a2.script] at c8 c6
          refine ⟨e2, c :: cs ++ l2, r2, ?_, c2, ?_, ?_, ?_, c6, ?_, c8⟩
          · simp only [c1, ok_bind]
            rw [List.length_append, Nat.sub_sub]
          · unfold At at b1 c3 ⊢
            rw [List.length_append, List.take_add, ← b1, List.drop_drop, ← c3]
          · rw [List.length_append]; omega
          · rw [c5, List.length_append]; omega
          · intro he
            have hn2 : n = (c :: cs).length + (n - (c :: cs).length) := by omega
            rw [hn2, List.take_add, List.drop_drop, ← c7 he]
            unfold At at b1
            rw [← b1]

theorem takeToEnd_fuel {dat : List U8} (size : Nat → Nat) (fuel : Nat) {r : Acc} (h : Inv dat r) (n N : Nat)
    (hN : ∀ c, N ≤ c → (r.inner.script c).fail ≠ some .interrupted) (hf : n + (N - r.inner.clock) < fuel) :
    takeToEnd size fuel (r, n) ≠ .error .fuel := by
  induction fuel generalizing r n with
  | zero => omega
  | succ fuel ih =>
    unfold takeToEnd takeRead
    by_cases hn : n = 0
    · subst hn
      simp only [if_true, ok_bind]
      exact fun h => (nomatch h)
    simp only [if_neg hn]
    obtain ⟨x, r1, a1, a2⟩ := read_spec h (min (size fuel) n)
    simp only [a1, ok_bind]
    cases x with
    | error e =>
      obtain ⟨b1, _, b3, b4⟩ := a2.error e rfl
      simp only [ok_bind]
      by_cases hi : e = .interrupted
      · subst hi
        have hc : r.inner.clock < N := by
          apply Decidable.byContradiction
          intro hh
          exact hN _ (by omega) b3
        exact ih a2.inv n (by rw [a2.script]; exact hN) (by omega)
      · cases e <;> first | exact absurd rfl hi | (intro hh; cases hh)
    | ok l =>
      obtain ⟨_, b2, _, _, _⟩ := a2.ok l rfl
      have hln : l.length ≤ n := by omega
      simp only [usub_ok hln, ok_bind, pure_eq_ok]
      cases l with
      | nil => exact fun h => (nomatch h)
      | cons c cs =>
        simp only
        have hck := a2.clock
        have := ih a2.inv (n - (c :: cs).length) (by rw [a2.script]; exact hN)
          (by simp only [List.length_cons] at hln ⊢; omega)
        intro hh
        cases hr : takeToEnd size fuel (r1, n - (c :: cs).length) with
        | error p =>
          rw [hr] at this hh
          simp only [error_bind, Except.error.injEq] at hh
          exact this (by rw [hh])
        | ok y => rw [hr] at hh; cases hh

/-- **C147** After every history, reading all of `take(n)` delivers the next `n` bytes of the stream, or those left, and
the reader stands right behind them, however large the single reads are. -/
theorem c147_take (dat : List U8) (cap : Nat) (script : Nat → Act) (ops : List Op) (os : List Out)
    (r : Acc) (hr : Reachable dat cap script ops os r) (size : Nat → Nat) (hs : ∀ k, 0 < size k) (n : Nat) :
    ∃ p, StandsAt dat r p ∧
      (∀ fuel e l r' k, takeToEnd size fuel (r, n) = .ok ((e, l), (r', k)) → StandsAt dat r' (p + l.length) ∧
        k + l.length = n ∧ (e = none → l = (dat.drop p).take n) ∧
        (∀ e', e = some e' → l = (dat.drop p).take l.length ∧ e' ≠ .interrupted ∧ ∃ c, (script c).fail = some e')) ∧
      (∀ fuel er, takeToEnd size fuel (r, n) = .error er → er = .fuel) ∧
      (∀ N, (∀ c, N ≤ c → (script c).fail ≠ some .interrupted) →
        ∀ fuel, n + N < fuel → ∃ x, takeToEnd size fuel (r, n) = .ok x) := by
  obtain ⟨h1, _, h3, _⟩ := hr.inv
  refine ⟨r.index, h1.standsAt, ?_, ?_, ?_⟩
  · intro fuel e l r' k hx
    rcases takeToEnd_spec size hs fuel h1 n with hf | ⟨e2, l2, r2, c1, c2, c3, c4, c5, c6, c7, c8⟩
    · rw [hf] at hx; cases hx
    · rw [c1] at hx
      simp only [Except.ok.injEq, Prod.mk.injEq] at hx
      obtain ⟨⟨rfl, rfl⟩, rfl, rfl⟩ := hx
      have hst := c2.standsAt
      rw [c5] at hst
      refine ⟨hst, by omega, c7, fun e' he => ?_⟩
      obtain ⟨f1, f2⟩ := c8 e' he
      rw [h3] at f2
      exact ⟨c3, f1, f2⟩
  · intro fuel er hx
    rcases takeToEnd_spec size hs fuel h1 n with hf | ⟨e2, l2, r2, c1, _⟩
    · rw [hf] at hx; cases hx; rfl
    · rw [c1] at hx; cases hx
  · intro N hN fuel hfu
    have := takeToEnd_fuel size fuel h1 n N (by rw [h3]; exact hN) (by omega)
    rcases takeToEnd_spec size hs fuel h1 n with hf | ⟨e2, l2, r2, c1, _⟩
    · exact absurd hf this
    · exact ⟨_, c1⟩

example : ∃ os r, Reachable sampleData 5 sampleScript [.read 2, .fillBuf] os r ∧
    (takeToEnd (fun k => k % 7 + 1) 60 (r, 9)).toOption.map (·.1) = some (none, [2, 3, 4, 5, 6, 7, 8, 9, 10]) ∧
    (takeToEnd (fun k => k % 7 + 1) 60 (r, 100)).toOption.map (·.1) = some (none, sampleData.drop 2) :=
  ⟨_, _, ⟨sampleSource, 20, rfl, rfl, rfl, rfl⟩, by decide +kernel, by decide +kernel⟩

end Verif.Acc
