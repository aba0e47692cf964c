import Verif.Io.Model

/-!
# Writers supplied by the caller

A `Write + Seek` object: bytes with a position, a script of failures and short writes, and the number of successful
flushes. Nothing here is code of rust-av.
-/

namespace Verif.Io
open Verif

/-- Contents after writing `l` at position `p`: bytes there are replaced, a gap behind the end is filled with zeros. -/
def overwrite (data : List U8) (p : Nat) (l : List U8) : List U8 :=
  if l = [] then data else data.take p ++ List.replicate (p - data.length) 0 ++ l ++ data.drop (p + l.length)

structure Sink where
  data : List U8
  pos : Nat
  script : Nat → Act
  clock : Nat
  flushes : Nat

namespace Sink

/-- Contract of `Write::write`: a prefix of the buffer is written (possibly nothing), or an error and nothing
written. The script says how long a prefix at most. -/
def write (s : Sink) (l : List U8) : Except IoErr Nat × Sink :=
  match (s.script s.clock).fail with
  | some e => (.error e, { s with clock := s.clock + 1 })
  | none =>
    let k := min l.length (s.script s.clock).len
    (.ok k, { s with data := overwrite s.data s.pos (l.take k), pos := s.pos + k, clock := s.clock + 1 })

/-- Contract of `Write::flush`. -/
def flush (s : Sink) : Except IoErr Unit × Sink :=
  match (s.script s.clock).fail with
  | some e => (.error e, { s with clock := s.clock + 1 })
  | none => (.ok (), { s with clock := s.clock + 1, flushes := s.flushes + 1 })

/-- Target of a seek. -/
def target (s : Sink) : SeekFrom → Int
  | .start n => n
  | .end d => s.data.length + d
  | .current d => s.pos + d

/-- Contract of `Seek::seek`. -/
def seek (s : Sink) (sf : SeekFrom) : Except IoErr Nat × Sink :=
  match (s.script s.clock).fail with
  | some e => (.error e, { s with clock := s.clock + 1 })
  | none =>
    if s.target sf < 0 then (.error .invalidInput, { s with clock := s.clock + 1 })
    else (.ok (s.target sf).toNat, { s with pos := (s.target sf).toNat, clock := s.clock + 1 })

end Sink

/-- `Write::write_all` (default method of std) over any `write`: retry when interrupted, fail with `WriteZero` when
`write` takes nothing. For at most `fuel` calls. -/
def writeAll (write : W → List U8 → Rust (Except IoErr Nat × W)) :
    Nat → W → List U8 → Rust (Except IoErr Unit × W)
  | 0, _, _ => .error .fuel
  | fuel + 1, w, l =>
    if l = [] then .ok (.ok (), w)
    else do
      let (x, w) ← write w l
      match x with
      | .error .interrupted => writeAll write fuel w l
      | .error e => .ok (.error e, w)
      | .ok 0 => .ok (.error .writeZero, w)
      | .ok k => do
        let rest ← sliceFrom l k
        writeAll write fuel w rest

/-! ### laws -/

theorem overwrite_nil (d : List U8) (p : Nat) : overwrite d p [] = d := by simp [overwrite]

theorem overwrite_length {d l : List U8} {p : Nat} (hl : l ≠ []) :
    (overwrite d p l).length = max d.length (p + l.length) := by
  simp only [overwrite, if_neg hl, List.length_append, List.length_take, List.length_replicate, List.length_drop]
  omega

theorem overwrite_append (d : List U8) (p : Nat) (a b : List U8) :
    overwrite (overwrite d p a) (p + a.length) b = overwrite d p (a ++ b) := by
  by_cases ha : a = []
  · subst ha; simp [overwrite_nil]
  by_cases hb : b = []
  · subst hb; simp [overwrite_nil]
  have hab : a ++ b ≠ [] := by simp [ha]
  have hl := overwrite_length (d := d) (p := p) ha
  have hpre : (d.take p ++ List.replicate (p - d.length) 0 ++ a).length = p + a.length := by
    simp only [List.length_append, List.length_take, List.length_replicate]; omega
  have e : overwrite d p a = (d.take p ++ List.replicate (p - d.length) 0 ++ a) ++ d.drop (p + a.length) := by
    simp only [overwrite, if_neg ha]
  rw [overwrite, if_neg hb, hl, show p + a.length - max d.length (p + a.length) = 0 by omega,
    List.replicate_zero, List.append_nil, e, ← hpre, List.take_left, ← List.drop_drop, List.drop_left,
    hpre, List.drop_drop, overwrite, if_neg hab]
  simp only [List.append_assoc, List.length_append, Nat.add_assoc]

/-- Writing at the end appends. -/
theorem overwrite_end (d l : List U8) : overwrite d d.length l = d ++ l := by
  by_cases hl : l = []
  · subst hl; simp [overwrite_nil]
  · simp [overwrite, hl]

/-- `write_all` to any sink: everything, or a prefix and the error. -/
theorem Sink.writeAll_spec (fuel : Nat) (s : Sink) (l : List U8) (N : Nat) :
    (writeAll (fun s l => .ok (Sink.write s l)) fuel s l = .error .fuel ∧
      ¬ ((∀ c, N ≤ c → (s.script c).fail = none) ∧ l.length + (N - s.clock) < fuel)) ∨
    ∃ x s', writeAll (fun s l => .ok (Sink.write s l)) fuel s l = .ok (x, s') ∧
      s'.script = s.script ∧ s'.flushes = s.flushes ∧ s.clock ≤ s'.clock ∧
      (x = .ok () → s'.data = overwrite s.data s.pos l ∧ s'.pos = s.pos + l.length) ∧
      (∀ e, x = .error e → e ≠ .interrupted ∧
        (∃ k, k < l.length ∧ s'.data = overwrite s.data s.pos (l.take k) ∧ s'.pos = s.pos + k) ∧
        ∃ c, (s.script c).fail = some e ∨ (e = .writeZero ∧ (s.script c).len = 0)) := by
  induction fuel generalizing s l with
  | zero => exact .inl ⟨rfl, fun h => by omega⟩
  | succ fuel ih =>
    unfold writeAll
    by_cases h0 : l = []
    · rw [if_pos h0]
      subst h0
      exact .inr ⟨_, _, rfl, rfl, rfl, Nat.le_refl _, fun _ => ⟨(overwrite_nil _ _).symm, rfl⟩, (fun e he => nomatch he)⟩
    · rw [if_neg h0]
      have hlen : 0 < l.length := List.length_pos_iff.2 h0
      simp only [ok_bind, Sink.write]
      cases hf : (s.script s.clock).fail with
      | some e =>
        simp only
        by_cases he : e = .interrupted
        · subst he
          simp only
          rcases ih { s with clock := s.clock + 1 } l with ⟨c1, c2⟩ | ⟨x, s', c1, c2, c3, c4, c5, c6⟩
          · refine .inl ⟨c1, fun ⟨hq, hb⟩ => c2 ⟨hq, ?_⟩⟩
            have : s.clock < N := by
              apply Decidable.byContradiction
              intro hn
              rw [hq _ (Nat.le_of_not_lt hn)] at hf
              cases hf
            simp only; omega
          · exact .inr ⟨x, s', c1, c2, c3, by simp only at c4; omega, c5, c6⟩
        · refine .inr ⟨.error e, { s with clock := s.clock + 1 }, ?_, rfl, rfl, by simp, (fun h => nomatch h), ?_⟩
          · cases e <;> first | rfl | exact absurd rfl he
          · intro e' he'
            cases he'
            exact ⟨he, ⟨0, hlen, by simp [overwrite_nil], rfl⟩, s.clock, .inl hf⟩
      | none =>
        simp only
        generalize hk : min l.length (s.script s.clock).len = k
        cases k with
        | zero =>
          refine .inr ⟨.error .writeZero, _, rfl, rfl, rfl, by simp, (fun h => nomatch h), ?_⟩
          intro e he
          cases he
          exact ⟨by simp, ⟨0, hlen, by simp [overwrite_nil], rfl⟩, s.clock, .inr ⟨rfl, by omega⟩⟩
        | succ k =>
          simp only
          rw [sliceFrom_ok (by omega)]
          simp only [ok_bind]
          have htl : (l.take (k + 1)).length = k + 1 := by rw [List.length_take]; omega
          have hov : ∀ m, overwrite (overwrite s.data s.pos (l.take (k + 1))) (s.pos + (k + 1)) ((l.drop (k + 1)).take m) =
              overwrite s.data s.pos (l.take (k + 1 + m)) := by
            intro m
            conv => lhs; arg 2; rw [← htl]
            rw [overwrite_append, List.take_add (i := k + 1) (j := m)]
          rcases ih ⟨overwrite s.data s.pos (l.take (k + 1)), s.pos + (k + 1), s.script, s.clock + 1,
              s.flushes⟩ (l.drop (k + 1)) with ⟨c1, c2⟩ | ⟨x, s', c1, c2, c3, c4, c5, c6⟩
          · refine .inl ⟨c1, fun ⟨hq, hb⟩ => c2 ⟨hq, ?_⟩⟩
            simp only [List.length_drop]; omega
          · refine .inr ⟨x, s', c1, c2, c3, by simp only at c4; omega, fun hx => ?_, fun e he => ?_⟩
            · obtain ⟨d1, d2⟩ := c5 hx
              have := hov (l.drop (k + 1)).length
              rw [List.take_length] at this
              simp only [List.length_drop] at d1 d2 this
              refine ⟨by rw [d1, this, show k + 1 + (l.length - (k + 1)) = l.length by omega, List.take_length], ?_⟩
              rw [d2]; omega
            · obtain ⟨d1, ⟨m, d2, d3, d4⟩, d5⟩ := c6 e he
              simp only [List.length_drop] at d2
              refine ⟨d1, ⟨k + 1 + m, by omega, ?_, by simp only at d4; omega⟩, d5⟩
              rw [d3]; exact hov m

end Verif.Io
