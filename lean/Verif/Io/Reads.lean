import Verif.Acc.Lemmas

/-!
# Readers seen from outside

What the callers of `Read::read` may rely on, for any kind of reader; `Source` and `AccReader` are instances. Also
`BufRead::fill_buf`.
-/

namespace Verif.Io
open Verif

/-- `rem r` is what the reader has still to deliver; a read hands over a piece of it, or fails and loses nothing.
`fails` are the errors that occur. If `bounded`, at most `budget r` calls fail from now on. -/
structure Reader (R : Type) where
  read : R → Nat → Rust (Except IoErr (List U8) × R)
  Inv : R → Prop
  rem : R → List U8
  fails : IoErr → Prop
  bounded : Prop
  budget : R → Nat
  spec : ∀ r n, Inv r → ∃ x r', read r n = .ok (x, r') ∧ Inv r' ∧
    (∀ l, x = .ok l → rem r = l ++ rem r' ∧ l.length ≤ n ∧ (l = [] → n = 0 ∨ rem r = []) ∧
      (bounded → budget r' ≤ budget r)) ∧
    (∀ e, x = .error e → rem r' = rem r ∧ fails e ∧ (bounded → budget r' < budget r))

/-- `BufRead::fill_buf`: shows the front of what is still to be delivered, and delivers nothing. -/
structure Shower {R : Type} (rd : Reader R) where
  fillBuf : R → Rust (Except IoErr (List U8) × R)
  spec : ∀ r, rd.Inv r → ∃ x r', fillBuf r = .ok (x, r') ∧ rd.Inv r' ∧ rd.rem r' = rd.rem r ∧
    (∀ l, x = .ok l → l <+: rd.rem r) ∧ (∀ e, x = .error e → rd.fails e)

/-- After call `N` no call fails. -/
def QuietFrom (script : Nat → Act) (N : Nat) : Prop := ∀ c, N ≤ c → (script c).fail = none

/-- Any `Read` object with the given script. -/
def sourceReader (script : Nat → Act) (N : Nat) : Reader Source where
  read s n := .ok (s.read n)
  Inv s := s.script = script
  rem s := s.data.drop s.pos
  fails e := ∃ c, (script c).fail = some e
  bounded := QuietFrom script N
  budget s := N - s.clock
  spec := by
    intro s n hs
    have h := s.read_spec n
    generalize hy : s.read n = y at h
    obtain ⟨x, s'⟩ := y
    refine ⟨x, s', by simp only, h.script.trans hs, fun l hl => ?_, fun e he => ?_⟩
    · obtain ⟨h1, h2, h3, h4⟩ := h.ok l hl
      refine ⟨?_, h2, fun h0 => ?_, fun _ => ?_⟩
      · rw [h.data, h3, ← List.drop_drop]
        conv => lhs; rw [← List.take_append_drop l.length (s.data.drop s.pos)]
        rw [← h1]
      · exact (h4 h0).imp_right fun h5 => List.drop_eq_nil_of_le h5
      · rw [h.clock]; omega
    · obtain ⟨h1, h2⟩ := h.error e he
      refine ⟨by rw [h.data, h1], ⟨_, by rw [← hs]; exact h2⟩, fun hq => ?_⟩
      rw [h.clock]
      have : s.clock < N := by
        apply Decidable.byContradiction
        intro hn
        rw [hs, hq _ (Nat.le_of_not_lt hn)] at h2
        cases h2
      omega

theorem at_drop {dat l : List U8} {p : Nat} (h : Acc.At dat p l) : dat.drop p = l ++ dat.drop (p + l.length) := by
  unfold Acc.At at h
  rw [← List.drop_drop]
  conv => lhs; rw [← List.take_append_drop l.length (dat.drop p)]
  rw [← h]

/-- Any `AccReader` in a reachable state, over such an object. -/
def accReader (dat : List U8) (script : Nat → Act) (N : Nat) : Reader Acc.Acc where
  read := Acc.read
  Inv r := Acc.Inv dat r ∧ r.inner.script = script
  rem r := dat.drop r.index
  fails e := ∃ c, (script c).fail = some e
  bounded := QuietFrom script N
  budget r := N - r.inner.clock
  spec := by
    intro r n ⟨hi, hs⟩
    obtain ⟨x, r', a1, a2⟩ := Acc.read_spec hi n
    refine ⟨x, r', a1, ⟨a2.inv, a2.script.trans hs⟩, fun l hl => ?_, fun e he => ?_⟩
    · obtain ⟨h1, h2, h3, h4, _⟩ := a2.ok l hl
      refine ⟨by rw [h3]; exact at_drop h1, h2, fun h0 => ?_, fun _ => ?_⟩
      · exact (h4 h0).imp_right fun h5 => List.drop_eq_nil_of_le h5
      · rcases a2.clock with hc | hc <;> rw [hc] <;> omega
    · obtain ⟨h1, _, h2, h3⟩ := a2.error e he
      refine ⟨by rw [h1], ⟨_, by rw [← hs]; exact h2⟩, fun hq => ?_⟩
      rw [h3]
      have : r.inner.clock < N := by
        apply Decidable.byContradiction
        intro hn
        rw [hs, hq _ (Nat.le_of_not_lt hn)] at h2
        cases h2
      omega

/-- `fill_buf` of `AccReader`. -/
def accShower (dat : List U8) (script : Nat → Act) (N : Nat) : Shower (accReader dat script N) where
  fillBuf := Acc.fillBuf
  spec := by
    intro r ⟨hi, hs⟩
    obtain ⟨x, r', a1, a2⟩ := Acc.fillBuf_spec hi
    refine ⟨x, r', a1, ⟨a2.inv, a2.script.trans hs⟩, ?_, fun l hl => ?_, fun e he => ?_⟩
    · show dat.drop r'.index = dat.drop r.index
      rw [a2.index]
    · have := (a2.shown l hl).1
      have h1 := a2.inv.at
      rw [← this, a2.index] at h1
      exact ⟨_, (at_drop h1).symm⟩
    · exact ⟨_, by rw [← hs]; exact (a2.error e he).2.1⟩

/-- `read_exact` through any reader: exactly the next `n` bytes, or an error: `UnexpectedEof` after delivering
everything that was left, or a failure of the reader other than an interruption. -/
theorem readExact_reader {R : Type} (rd : Reader R) (fuel : Nat) (r : R) (n : Nat) (hi : rd.Inv r) :
    (readExact rd.read fuel r n = .error .fuel ∧ ¬ (rd.bounded ∧ n + rd.budget r < fuel)) ∨
    ∃ x r', readExact rd.read fuel r n = .ok (x, r') ∧ rd.Inv r' ∧ (rd.bounded → rd.budget r' ≤ rd.budget r) ∧
      (∀ l, x = .ok l → l.length = n ∧ rd.rem r = l ++ rd.rem r') ∧
      (∀ e, x = .error e → (e = .unexpectedEof ∧ (rd.rem r).length < n ∧ rd.rem r' = []) ∨
        (rd.fails e ∧ e ≠ .interrupted ∧ ∃ l, rd.rem r = l ++ rd.rem r' ∧ l.length < n)) := by
  induction fuel generalizing r n with
  | zero => exact .inl ⟨rfl, fun h => by omega⟩
  | succ fuel ih =>
    unfold readExact
    by_cases h0 : n = 0
    · rw [if_pos h0]
      refine .inr ⟨_, _, rfl, hi, fun _ => Nat.le_refl _, ?_, (fun e he => nomatch he)⟩
      intro l hl
      cases hl
      exact ⟨h0.symm, rfl⟩
    · rw [if_neg h0]
      obtain ⟨x, r1, a1, a2, a3, a4⟩ := rd.spec r n hi
      rw [a1]
      simp only [ok_bind]
      cases x with
      | error e =>
        obtain ⟨b1, b2, b3⟩ := a4 e rfl
        by_cases he : e = .interrupted
        · subst he
          simp only
          rcases ih r1 n a2 with ⟨c1, c2⟩ | ⟨x, r', c1, c2, c5, c3, c4⟩
          · exact .inl ⟨c1, fun ⟨hb, hf⟩ => c2 ⟨hb, by have := b3 hb; omega⟩⟩
          · refine .inr ⟨x, r', c1, c2, fun hb => by have := b3 hb; have := c5 hb; omega, ?_, ?_⟩
            · rw [← b1]; exact c3
            · rw [← b1]; exact c4
        · refine .inr ⟨.error e, r1, ?_, a2, fun hb => Nat.le_of_lt (b3 hb), (fun l hl => nomatch hl), ?_⟩
          · cases e <;> first | rfl | exact absurd rfl he
          · intro e' he'
            cases he'
            exact .inr ⟨b2, he, [], by simp [b1], by simpa using Nat.pos_of_ne_zero h0⟩
      | ok l =>
        obtain ⟨b1, b2, b3, b4⟩ := a3 l rfl
        cases l with
        | nil =>
          refine .inr ⟨.error .unexpectedEof, r1, rfl, a2, b4, (fun l hl => nomatch hl), ?_⟩
          intro e he
          cases he
          have h := (b3 rfl).resolve_left h0
          rw [h] at b1
          exact .inl ⟨rfl, by rw [h]; simpa using Nat.pos_of_ne_zero h0, by simpa using b1.symm⟩
        | cons y ys =>
          simp only
          have hl : 0 < (y :: ys).length := by simp
          rcases ih r1 (n - (y :: ys).length) a2 with ⟨c1, c2⟩ | ⟨x, r', c1, c2, c5, c3, c4⟩
          · rw [c1]
            exact .inl ⟨rfl, fun ⟨hb, hf⟩ => c2 ⟨hb, by have := b4 hb; omega⟩⟩
          · rw [c1]
            simp only [ok_bind]
            have hbud : rd.bounded → rd.budget r' ≤ rd.budget r := fun hb => Nat.le_trans (c5 hb) (b4 hb)
            cases x with
            | error e =>
              refine .inr ⟨_, _, rfl, c2, hbud, (fun l hl => nomatch hl), ?_⟩
              intro e' he'
              cases he'
              rcases c4 e rfl with ⟨d1, d2, d3⟩ | ⟨d1, d2, l, d3, d4⟩
              · exact .inl ⟨d1, by rw [b1, List.length_append]; omega, d3⟩
              · exact .inr ⟨d1, d2, (y :: ys) ++ l, by rw [b1, d3, List.append_assoc], by
                  rw [List.length_append]; omega⟩
            | ok l2 =>
              obtain ⟨d1, d2⟩ := c3 l2 rfl
              refine .inr ⟨_, _, rfl, c2, hbud, ?_, (fun e he => nomatch he)⟩
              intro l hl
              cases hl
              exact ⟨by rw [List.length_append]; omega, by rw [b1, d2, List.append_assoc]⟩

end Verif.Io
