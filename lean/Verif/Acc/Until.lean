import Verif.Acc.Props

/-!
# C107: the adapters of std over an `AccReader`

`BufRead::read_until` and `Read::read_to_end` are default methods of std that see the reader through `fill_buf`,
`consume` and `read` only (accreader.rs:97-164).
-/

namespace Verif.Acc
open Verif Verif.Io

/-- `BufRead::read_until` (default method of std), for at most `fuel` calls of `fill_buf`: the error if there is one,
and the bytes appended to the caller's vector (which stay there after an error). -/
def readUntil : Nat → Acc → U8 → Rust ((Option IoErr × List U8) × Acc)
  | 0, _, _ => .error .fuel
  | fuel + 1, r, d => do
    let (x, r) ← fillBuf r
    match x with
    | .error .interrupted => readUntil fuel r d
    | .error e => .ok ((some e, []), r)
    | .ok avail =>
      match avail.findIdx? (· == d) with
      | some i => .ok ((none, avail.take (i + 1)), consume r (i + 1))
      | none =>
        if avail.length = 0 then .ok ((none, []), consume r 0)
        else do
          let ((e, l), r) ← readUntil fuel (consume r avail.length) d
          return ((e, avail ++ l), r)

/-- `Read::read_to_end` (default method of std), for at most `fuel` calls of `read`, into buffers of sizes chosen
by `size` (std chooses them by the vector's spare capacity; never 0): the error if there is one, and the bytes
appended to the caller's vector. -/
def readToEnd (size : Nat → Nat) : Nat → Acc → Rust ((Option IoErr × List U8) × Acc)
  | 0, _ => .error .fuel
  | fuel + 1, r => do
    let (x, r) ← read r (size fuel)
    match x with
    | .error .interrupted => readToEnd size fuel r
    | .error e => .ok ((some e, []), r)
    | .ok l =>
      if l.length = 0 then .ok ((none, []), r)
      else do
        let ((e, l'), r) ← readToEnd size fuel r
        return ((e, l ++ l'), r)

/-! ### specification -/

/-- The bytes up to the first `d`, with it; all of them if there is none. -/
def upto (d : U8) : List U8 → List U8
  | [] => []
  | b :: bs => if b = d then [b] else b :: upto d bs

/-! ### lemmas -/

theorem upto_found {d : U8} {l : List U8} {i : Nat} (h : l.findIdx? (· == d) = some i) (rest : List U8) :
    upto d (l ++ rest) = l.take (i + 1) ∧ i < l.length := by
  induction l generalizing i with
  | nil => simp at h
  | cons b bs ih =>
    rw [List.findIdx?_cons] at h
    by_cases hb : b = d
    · simp only [hb, BEq.rfl, if_true, Option.some.injEq] at h
      subst h
      simp [upto, hb]
    · have hbf : (b == d) = false := by simpa using hb
      simp only [hbf, Bool.false_eq_true, if_false, Option.map_eq_some_iff] at h
      obtain ⟨j, hj, rfl⟩ := h
      obtain ⟨h1, h2⟩ := ih hj
      simp only [List.cons_append, upto, if_neg hb, List.take_succ_cons, h1, List.length_cons]
      exact ⟨trivial, by omega⟩

theorem upto_missing {d : U8} {l : List U8} (h : l.findIdx? (· == d) = none) (rest : List U8) :
    upto d (l ++ rest) = l ++ upto d rest := by
  induction l with
  | nil => rfl
  | cons b bs ih =>
    rw [List.findIdx?_cons] at h
    by_cases hb : b = d
    · simp [hb] at h
    · have hbf : (b == d) = false := by simpa using hb
      simp only [hbf, Bool.false_eq_true, if_false, Option.map_eq_none_iff] at h
      simp only [List.cons_append, upto, if_neg hb, ih h]

theorem At.split {dat : List U8} {p : Nat} {l : List U8} (h : At dat p l) :
    dat.drop p = l ++ dat.drop (p + l.length) := by
  unfold At at h
  conv => lhs; rw [← List.take_append_drop l.length (dat.drop p)]
  rw [← h, List.drop_drop]

theorem At.nil (dat : List U8) (p : Nat) : At dat p [] := by simp [At]

theorem readUntil_spec {dat : List U8} (d : U8) (fuel : Nat) {r : Acc} (h : Inv dat r) (hc : 0 < r.buf.length) :
    readUntil fuel r d = .error .fuel ∨
    ∃ e l r', readUntil fuel r d = .ok ((e, l), r') ∧ Inv dat r' ∧ At dat r.index l ∧ r'.index = r.index + l.length ∧
      (e = none → l = upto d (dat.drop r.index)) ∧
      (∀ e', e = some e' → d ∉ l ∧ e' ≠ .interrupted ∧ ∃ c, (r.inner.script c).fail = some e') := by
  induction fuel generalizing r with
  | zero => exact .inl rfl
  | succ fuel ih =>
    unfold readUntil
    obtain ⟨x, r1, a1, a2⟩ := fillBuf_spec h
    rw [a1]
    simp only [ok_bind]
    cases x with
    | error e =>
      obtain ⟨b1, b2, b3⟩ := a2.error e rfl
      by_cases hi : e = .interrupted
      · subst hi
        simp only
        rcases ih a2.inv (by rw [a2.len]; exact hc) with hf | ⟨e, l, r2, c1, c2, c3, c4, c5, c6⟩
        · exact .inl hf
        · rw [a2.index] at c3 c4 c5
          rw [a2.script] at c6
          exact .inr ⟨e, l, r2, c1, c2, c3, c4, c5, c6⟩
      · have hm : (match (Except.error e : Except IoErr (List U8)) with
            | .error .interrupted => readUntil fuel r1 d
            | .error e => (.ok ((some e, []), r1) : Rust ((Option IoErr × List U8) × Acc))
            | .ok avail =>
              match avail.findIdx? (· == d) with
              | some i => .ok ((none, avail.take (i + 1)), consume r1 (i + 1))
              | none =>
                if avail.length = 0 then .ok ((none, []), consume r1 0)
                else do
                  let ((e, l), r) ← readUntil fuel (consume r1 avail.length) d
                  return ((e, avail ++ l), r)) = .ok ((some e, []), r1) := by
          cases e <;> first | rfl | exact absurd rfl hi
        refine .inr ⟨some e, [], r1, hm, a2.inv, .nil _ _, by rw [a2.index]; rfl, (fun h => nomatch h), ?_⟩
        intro e' he
        cases he
        exact ⟨by simp, hi, _, b2⟩
    | ok avail =>
      obtain ⟨b1, b2, b3⟩ := a2.shown avail rfl
      have hat : At dat r.index avail := by rw [b1, ← a2.index]; exact a2.inv.at
      have hlen : avail.length = r1.end - r1.pos := by rw [b1]; exact win_length a2.inv
      simp only
      cases hf : avail.findIdx? (· == d) with
      | some i =>
        obtain ⟨g1, g2⟩ := upto_found hf (dat.drop (r.index + avail.length))
        obtain ⟨k1, k2, k3⟩ := consume_inv a2.inv (k := i + 1) (by omega)
        refine .inr ⟨none, avail.take (i + 1), consume r1 (i + 1), rfl, k1, hat.take _, ?_, ?_, (fun e h => nomatch h)⟩
        · rw [k2, a2.index, List.length_take]; omega
        · intro _; rw [hat.split, g1]
      | none =>
        simp only
        by_cases h0 : avail.length = 0
        · rw [if_pos h0]
          obtain ⟨k1, k2, k3⟩ := consume_inv a2.inv (k := 0) (by omega)
          have he : avail = [] := List.length_eq_zero_iff.1 h0
          have hw : win r = [] := by
            obtain ⟨t, ht⟩ := b2
            rw [he] at ht
            exact (List.append_eq_nil_iff.1 ht).1
          have hend := b3 (by rw [he, hw]) (by rw [hw]; exact hc)
          refine .inr ⟨none, [], consume r1 0, rfl, k1, .nil _ _, ?_, ?_, (fun e h => nomatch h)⟩
          · rw [k2, a2.index]; rfl
          · intro _
            rw [hw] at hend
            rw [List.drop_eq_nil_of_le (by simpa using hend)]
            rfl
        · rw [if_neg h0]
          obtain ⟨k1, k2, k3⟩ := consume_inv a2.inv (k := avail.length) (by omega)
          have hcl : (consume r1 avail.length).buf.length = r.buf.length := a2.len
          rcases ih k1 (by rw [hcl]; exact hc) with hf' | ⟨e, l, r2, c1, c2, c3, c4, c5, c6⟩
          · left; rw [hf']; rfl
          · right
            rw [k2, a2.index] at c3 c4 c5
            refine ⟨e, avail ++ l, r2, by rw [c1]; rfl, c2, hat.append c3, ?_, ?_, ?_⟩
            · rw [c4, List.length_append]; omega
            · intro he
              rw [hat.split, upto_missing hf, c5 he]
            · intro e' he
              obtain ⟨f1, f2, f3⟩ := c6 e' he
              refine ⟨?_, f2, ?_⟩
              · rw [List.mem_append]
                rintro (hm | hm)
                · rw [List.findIdx?_eq_none_iff] at hf
                  have := hf d hm
                  simp at this
                · exact f1 hm
              · obtain ⟨c, hc'⟩ := f3
                refine ⟨c, ?_⟩
                rw [← a2.script]; exact hc'

theorem readUntil_fuel {dat : List U8} (d : U8) (fuel : Nat) {r : Acc} (h : Inv dat r) (N : Nat)
    (hN : ∀ c, N ≤ c → (r.inner.script c).fail ≠ some .interrupted)
    (hf : (dat.length - r.index) + (N - r.inner.clock) < fuel) :
    readUntil fuel r d ≠ .error .fuel := by
  induction fuel generalizing r with
  | zero => omega
  | succ fuel ih =>
    unfold readUntil
    obtain ⟨x, r1, a1, a2⟩ := fillBuf_spec h
    rw [a1]
    simp only [ok_bind]
    cases x with
    | error e =>
      obtain ⟨b1, b2, b3⟩ := a2.error e rfl
      by_cases hi : e = .interrupted
      · subst hi
        have hc : r.inner.clock < N := by
          apply Decidable.byContradiction
          intro hh
          exact hN _ (by omega) b2
        exact ih a2.inv (by rw [a2.script]; exact hN) (by rw [a2.index]; omega)
      · cases e <;> first | exact absurd rfl hi | (intro hh; cases hh)
    | ok avail =>
      obtain ⟨b1, b2, b3⟩ := a2.shown avail rfl
      have hat : At dat r.index avail := by rw [b1, ← a2.index]; exact a2.inv.at
      have hlen : avail.length = r1.end - r1.pos := by rw [b1]; exact win_length a2.inv
      simp only
      cases hfi : avail.findIdx? (· == d) with
      | some i => intro hh; cases hh
      | none =>
        simp only
        by_cases h0 : avail.length = 0
        · rw [if_pos h0]; intro hh; cases hh
        · rw [if_neg h0]
          obtain ⟨k1, k2, k3⟩ := consume_inv a2.inv (k := avail.length) (by omega)
          have hle : r.index + avail.length ≤ dat.length := by
            have := congrArg List.length hat
            rw [List.length_take, List.length_drop] at this
            omega
          have hck := a2.clock
          have hcc : (consume r1 avail.length).inner.clock = r1.inner.clock := rfl
          have hcs : (consume r1 avail.length).inner.script = r1.inner.script := rfl
          have := ih k1 (by rw [hcs, a2.script]; exact hN) (by rw [k2, a2.index, hcc]; omega)
          intro hh
          cases hr : readUntil fuel (consume r1 avail.length) d with
          | error p =>
            rw [hr] at this hh
            simp only [error_bind, Except.error.injEq] at hh
            exact this (by rw [hh])
          | ok y => rw [hr] at hh; cases hh

theorem readToEnd_spec {dat : List U8} (size : Nat → Nat) (hs : ∀ k, 0 < size k) (fuel : Nat) {r : Acc} (h : Inv dat r) :
    readToEnd size fuel r = .error .fuel ∨
    ∃ e l r', readToEnd size fuel r = .ok ((e, l), r') ∧ Inv dat r' ∧ At dat r.index l ∧ r'.index = r.index + l.length ∧
      (e = none → l = dat.drop r.index) ∧
      (∀ e', e = some e' → e' ≠ .interrupted ∧ ∃ c, (r.inner.script c).fail = some e') := by
  induction fuel generalizing r with
  | zero => exact .inl rfl
  | succ fuel ih =>
    unfold readToEnd
    obtain ⟨x, r1, a1, a2⟩ := read_spec h (size fuel)
    rw [a1]
    simp only [ok_bind]
    cases x with
    | error e =>
      obtain ⟨b1, b2, b3, b4⟩ := a2.error e rfl
      by_cases hi : e = .interrupted
      · subst hi
        simp only
        rcases ih a2.inv with hf | ⟨e, l, r2, c1, c2, c3, c4, c5, c6⟩
        · exact .inl hf
        · rw [b1] at c3 c4 c5
          rw [a2.script] at c6
          exact .inr ⟨e, l, r2, c1, c2, c3, c4, c5, c6⟩
      · have hm : (match (Except.error e : Except IoErr (List U8)) with
            | .error .interrupted => readToEnd size fuel r1
            | .error e => (.ok ((some e, []), r1) : Rust ((Option IoErr × List U8) × Acc))
            | .ok l =>
              if l.length = 0 then .ok ((none, []), r1)
              else do
                let ((e, l'), r) ← readToEnd size fuel r1
                return ((e, l ++ l'), r)) = .ok ((some e, []), r1) := by
          cases e <;> first | rfl | exact absurd rfl hi
        refine .inr ⟨some e, [], r1, hm, a2.inv, .nil _ _, by rw [b1]; rfl, (fun h => nomatch h), ?_⟩
        intro e' he
        cases he
        exact ⟨hi, _, b3⟩
    | ok l =>
      obtain ⟨b1, b2, b3, b4, _⟩ := a2.ok l rfl
      simp only
      by_cases h0 : l.length = 0
      · rw [if_pos h0]
        have he : l = [] := List.length_eq_zero_iff.1 h0
        have hend : dat.length ≤ r.index := by
          have := hs fuel
          rcases b4 he with hh | hh
          · omega
          · exact hh
        refine .inr ⟨none, [], r1, rfl, a2.inv, .nil _ _, by rw [b3, h0]; rfl, ?_, (fun e h => nomatch h)⟩
        intro _
        rw [List.drop_eq_nil_of_le hend]
      · rw [if_neg h0]
        rcases ih a2.inv with hf' | ⟨e, l', r2, c1, c2, c3, c4, c5, c6⟩
        · left; rw [hf']; rfl
        · right
          rw [b3] at c3 c4 c5
          refine ⟨e, l ++ l', r2, by rw [c1]; rfl, c2, b1.append c3, ?_, ?_, ?_⟩
          · rw [c4, List.length_append]; omega
          · intro he
            rw [b1.split, c5 he]
          · intro e' he
            rw [← a2.script]
            exact c6 e' he

theorem readToEnd_fuel {dat : List U8} (size : Nat → Nat) (fuel : Nat) {r : Acc} (h : Inv dat r)
    (N : Nat) (hN : ∀ c, N ≤ c → (r.inner.script c).fail ≠ some .interrupted)
    (hf : (dat.length - r.index) + (N - r.inner.clock) < fuel) :
    readToEnd size fuel r ≠ .error .fuel := by
  induction fuel generalizing r with
  | zero => omega
  | succ fuel ih =>
    unfold readToEnd
    obtain ⟨x, r1, a1, a2⟩ := read_spec h (size fuel)
    rw [a1]
    simp only [ok_bind]
    cases x with
    | error e =>
      obtain ⟨b1, b2, b3, b4⟩ := a2.error e rfl
      by_cases hi : e = .interrupted
      · subst hi
        have hc : r.inner.clock < N := by
          apply Decidable.byContradiction
          intro hh
          exact hN _ (by omega) b3
        exact ih a2.inv (by rw [a2.script]; exact hN) (by rw [b1]; omega)
      · cases e <;> first | exact absurd rfl hi | (intro hh; cases hh)
    | ok l =>
      obtain ⟨b1, b2, b3, b4, _⟩ := a2.ok l rfl
      simp only
      by_cases h0 : l.length = 0
      · rw [if_pos h0]; intro hh; cases hh
      · rw [if_neg h0]
        have hle : r.index + l.length ≤ dat.length := by
          have := congrArg List.length b1
          rw [List.length_take, List.length_drop] at this
          omega
        have hck := a2.clock
        have := ih a2.inv (by rw [a2.script]; exact hN) (by rw [b3]; omega)
        intro hh
        cases hr : readToEnd size fuel r1 with
        | error p =>
          rw [hr] at this hh
          simp only [error_bind, Except.error.injEq] at hh
          exact this (by rw [hh])
        | ok y => rw [hr] at hh; cases hh

/-! ### C107 -/

/-- **C107** After every history, `read_until(d)` over an `AccReader` whose buffer has room for a byte appends the
bytes of the stream at its position up to the first `d`, with it, or to the end, and stands behind them; if the inner
reader fails, the bytes before stay appended, the reader stands behind them, and the failure is reported. Interruptions
are retried; once they cease it returns. -/
theorem c107_readUntil (dat : List U8) (cap : Nat) (script : Nat → Act) (ops : List Op) (os : List Out)
    (r : Acc) (hr : Reachable dat cap script ops os r) (hc : 0 < cap + grown ops) (d : U8) :
    ∃ p, StandsAt dat r p ∧
      (∀ fuel e l r', readUntil fuel r d = .ok ((e, l), r') → StandsAt dat r' (p + l.length) ∧
        (e = none → l = upto d (dat.drop p)) ∧
        (∀ e', e = some e' → l = (dat.drop p).take l.length ∧ d ∉ l ∧ e' ≠ .interrupted ∧
          ∃ c, (script c).fail = some e')) ∧
      (∀ fuel er, readUntil fuel r d = .error er → er = .fuel) ∧
      (∀ N, (∀ c, N ≤ c → (script c).fail ≠ some .interrupted) →
        ∀ fuel, dat.length + N < fuel → ∃ x, readUntil fuel r d = .ok x) := by
  obtain ⟨h1, _, h3, h4⟩ := hr.inv
  rw [← h4] at hc
  refine ⟨r.index, h1.standsAt, ?_, ?_, ?_⟩
  · intro fuel e l r' hx
    rcases readUntil_spec d fuel h1 hc with hf | ⟨e2, l2, r2, c1, c2, c3, c4, c5, c6⟩
    · rw [hf] at hx; cases hx
    · rw [c1] at hx
      simp only [Except.ok.injEq, Prod.mk.injEq] at hx
      obtain ⟨⟨rfl, rfl⟩, rfl⟩ := hx
      have hst := c2.standsAt
      rw [c4] at hst
      refine ⟨hst, c5, ?_⟩
      intro e' he
      obtain ⟨f1, f2, f3⟩ := c6 e' he
      rw [h3] at f3
      exact ⟨c3, f1, f2, f3⟩
  · intro fuel er hx
    rcases readUntil_spec d fuel h1 hc with hf | ⟨e2, l2, r2, c1, _⟩
    · rw [hf] at hx; cases hx; rfl
    · rw [c1] at hx; cases hx
  · intro N hN fuel hfu
    have := readUntil_fuel d fuel h1 N (by rw [h3]; exact hN) (by omega)
    rcases readUntil_spec d fuel h1 hc with hf | ⟨e2, l2, r2, c1, _⟩
    · exact absurd hf this
    · exact ⟨_, c1⟩

/-- **C107** After every history, `read_to_end` appends the rest of the stream and stands behind it, whatever sizes
the single reads have; if the inner reader fails, the bytes before stay appended, the reader stands behind them,
and the failure is reported. Interruptions are retried; once they cease it returns. -/
theorem c107_readToEnd (dat : List U8) (cap : Nat) (script : Nat → Act) (ops : List Op) (os : List Out)
    (r : Acc) (hr : Reachable dat cap script ops os r) (size : Nat → Nat) (hs : ∀ k, 0 < size k) :
    ∃ p, StandsAt dat r p ∧
      (∀ fuel e l r', readToEnd size fuel r = .ok ((e, l), r') → StandsAt dat r' (p + l.length) ∧
        (e = none → l = dat.drop p) ∧
        (∀ e', e = some e' → l = (dat.drop p).take l.length ∧ e' ≠ .interrupted ∧
          ∃ c, (script c).fail = some e')) ∧
      (∀ fuel er, readToEnd size fuel r = .error er → er = .fuel) ∧
      (∀ N, (∀ c, N ≤ c → (script c).fail ≠ some .interrupted) →
        ∀ fuel, dat.length + N < fuel → ∃ x, readToEnd size fuel r = .ok x) := by
  obtain ⟨h1, _, h3, _⟩ := hr.inv
  refine ⟨r.index, h1.standsAt, ?_, ?_, ?_⟩
  · intro fuel e l r' hx
    rcases readToEnd_spec size hs fuel h1 with hf | ⟨e2, l2, r2, c1, c2, c3, c4, c5, c6⟩
    · rw [hf] at hx; cases hx
    · rw [c1] at hx
      simp only [Except.ok.injEq, Prod.mk.injEq] at hx
      obtain ⟨⟨rfl, rfl⟩, rfl⟩ := hx
      have hst := c2.standsAt
      rw [c4] at hst
      refine ⟨hst, c5, ?_⟩
      intro e' he
      obtain ⟨f1, f2⟩ := c6 e' he
      rw [h3] at f2
      exact ⟨c3, f1, f2⟩
  · intro fuel er hx
    rcases readToEnd_spec size hs fuel h1 with hf | ⟨e2, l2, r2, c1, _⟩
    · rw [hf] at hx; cases hx; rfl
    · rw [c1] at hx; cases hx
  · intro N hN fuel hfu
    have := readToEnd_fuel size fuel h1 N (by rw [h3]; exact hN) (by omega)
    rcases readToEnd_spec size hs fuel h1 with hf | ⟨e2, l2, r2, c1, _⟩
    · exact absurd hf this
    · exact ⟨_, c1⟩

/-- The result without the reader. -/
def given (x : Rust ((Option IoErr × List U8) × Acc)) : Option (Option IoErr × List U8) := x.toOption.map (·.1)

example : ∃ os r, Reachable sampleData 5 sampleScript [.read 2, .fillBuf] os r ∧ 0 < 5 + grown [.read 2, .fillBuf] ∧
    given (readUntil 60 r 12) = some (none, [2, 3, 4, 5, 6, 7, 8, 9, 10, 11, 12]) ∧
    given (readToEnd (fun k => k % 7 + 1) 60 r) = some (none, sampleData.drop 2) :=
  ⟨_, _, ⟨sampleSource, 20, rfl, rfl, rfl, rfl⟩, by decide, by decide +kernel, by decide +kernel⟩

/-- A reader without room in its buffer shows nothing, which std takes for the end of the stream. -/
example : given (readUntil 60 (withCapacity 0 sampleSource) 12) = some (none, []) := by decide +kernel

end Verif.Acc
