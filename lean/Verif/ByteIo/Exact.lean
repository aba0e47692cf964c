import Verif.ByteIo.Props
import Verif.Acc.Props

/-! # C61 and C74: exactly what typed peeks and interrupted typed reads do -/

namespace Verif.ByteIo
open Verif Verif.Io Verif.Bytes

variable {R : Type}

/-! ### C74 -/

/-- The call returned no byte: it failed, or there was none. -/
def Nothing (x : Rust (Except IoErr (List U8) × R)) : Prop :=
  ∃ r, x = .ok (.ok [], r) ∨ ∃ e, x = .ok (.error e, r)

theorem getBuffer_lost (rd : Reader R) (fuel : Nat) (r : R) (n : Nat) (hi : rd.Inv r) (e : IoErr) (r' : R)
    (h : getBuffer rd.read fuel r n = .ok (.error e, r')) :
    rd.Inv r' ∧ ∃ l, l.length < n ∧ rd.rem r = l ++ rd.rem r' ∧ (l = [] ↔ Nothing (rd.read r n)) := by
  induction fuel generalizing r n with
  | zero => cases h
  | succ fuel ih =>
    unfold getBuffer at h
    by_cases h0 : n = 0
    · rw [if_pos h0] at h; cases h
    · rw [if_neg h0] at h
      obtain ⟨x, r1, a1, a2, a3, a4⟩ := rd.spec r n hi
      rw [a1] at h ⊢
      simp only [ok_bind] at h
      cases x with
      | error e' =>
        cases h
        exact ⟨a2, [], by simp only [List.length_nil]; omega, (a4 _ rfl).1.symm,
          fun _ => ⟨_, .inr ⟨_, rfl⟩⟩, fun _ => rfl⟩
      | ok l =>
        obtain ⟨b1, b2, b3, _⟩ := a3 l rfl
        cases l with
        | nil =>
          cases h
          exact ⟨a2, [], by simp only [List.length_nil]; omega, b1, fun _ => ⟨_, .inl rfl⟩, fun _ => rfl⟩
        | cons y ys =>
          simp only at h
          cases hg : getBuffer rd.read fuel r1 (n - (y :: ys).length) with
          | error p => rw [hg] at h; cases h
          | ok v =>
            obtain ⟨z, r2⟩ := v
            rw [hg] at h
            simp only [ok_bind] at h
            cases z with
            | ok l2 => cases h
            | error e2 =>
              cases h
              obtain ⟨c1, l, c2, c3, _⟩ := ih r1 _ a2 hg
              refine ⟨c1, (y :: ys) ++ l, ?_, by rw [b1, c3, List.append_assoc], ?_⟩
              · rw [List.length_append]; omega
              · constructor
                · intro h; simp at h
                · rintro ⟨_, h | ⟨_, h⟩⟩ <;> cases h

/-- **C74**, partial (false as it stands, `c74_fails`): exactly what is lost. A typed read of any type, through any
reader, that fails has taken a proper part of the value's bytes off the stream, and nothing if and only if its first
call of `read` returned no byte. Any typed read made next returns the value of the bytes behind that part. -/
theorem c74_exact_partial (t : Typed) (ht : t ∈ typed) (rd : Reader R) (fuel : Nat) (r r' : R) (hi : rd.Inv r)
    (e : IoErr) (he : t.get rd.read fuel r = .ok (.error e, r')) :
    ∃ j, j < t.acc.bytes ∧ rd.rem r' = (rd.rem r).drop j ∧ j ≤ (rd.rem r).length ∧
      (j = 0 ↔ Nothing (rd.read r t.acc.bytes)) ∧
      ∀ t2 ∈ typed, ∀ fuel2, t2.acc.bytes < fuel2 → ∀ v r'', t2.get rd.read fuel2 r' = .ok (.ok v, r'') →
        v.toNat = posValue t2.acc.order t2.acc.bytes ((rd.rem r).drop j) ∧
        rd.rem r'' = (rd.rem r).drop (j + t2.acc.bytes) := by
  rw [typed_get ht] at he
  unfold get at he
  cases hg : getBuffer rd.read fuel r t.acc.bytes with
  | error p => rw [hg] at he; cases he
  | ok v =>
    obtain ⟨x, r1⟩ := v
    rw [hg] at he
    simp only [ok_bind] at he
    cases x with
    | ok l =>
      simp only at he
      cases hv : t.acc.get l with
      | error p => rw [hv] at he; cases he
      | ok v => rw [hv] at he; cases he
    | error e2 =>
      cases he
      obtain ⟨a1, l, a2, a3, a4⟩ := getBuffer_lost rd fuel r _ hi _ _ hg
      have hd : rd.rem r' = (rd.rem r).drop l.length := by rw [a3, List.drop_left]
      refine ⟨l.length, a2, hd, by rw [a3, List.length_append]; omega, ?_, ?_⟩
      · rw [← a4]; exact List.length_eq_zero_iff
      · intro t2 ht2 fuel2 hf2 v r'' hv
        obtain ⟨x, r3, b1, _, b3, _⟩ := c60_get t2 ht2 rd fuel2 hf2 r' a1
        rw [hv] at b1
        cases b1
        obtain ⟨_, c2, c3⟩ := b3 v rfl
        rw [hd] at c2 c3
        exact ⟨c2, by rw [c3, List.drop_drop]⟩

/-- Of four bytes the first three come one by one; then the reader is interrupted. They are lost. -/
example : ∃ s' s'', get_u32b (sourceReader (fun c => ⟨if c = 3 then some .interrupted else none, 0⟩) 4).read 9
      ⟨[1, 2, 3, 4, 5], 0, fun c => ⟨if c = 3 then some .interrupted else none, 0⟩, 0⟩ = .ok (.error .interrupted, s') ∧
    get_u16b (sourceReader (fun c => ⟨if c = 3 then some .interrupted else none, 0⟩) 4).read 9 s' =
      .ok (.ok 0x0405, s'') := ⟨_, _, rfl, rfl⟩

/-! ### C61 -/

/-- A peek, repeated up to `k` times while it reports the end of the file. -/
def peekAgain (t : Typed) (fill : FillFn R) : Nat → R → Rust (Except IoErr (BitVec (8 * t.acc.bytes)) × R)
  | 0, r => t.peek fill r
  | k + 1, r => do
    let (x, r) ← t.peek fill r
    match x with
    | .error .unexpectedEof => peekAgain t fill k r
    | x => .ok (x, r)

theorem acc_peek {t : Typed} (ht : t ∈ typed) {dat : List U8} {script : Nat → Act}
    (hs : ∀ k, (script k).fail = none) (r : Acc.Acc) (hi : Acc.Inv dat r) (hsc : r.inner.script = script) :
    ∃ r', Acc.Inv dat r' ∧ r'.inner.script = script ∧ r'.index = r.index ∧ r'.buf.length = r.buf.length ∧
      (Acc.win r).length ≤ (Acc.win r').length ∧
      ((Acc.win r').length = (Acc.win r).length → (Acc.win r).length < r.buf.length →
        dat.length ≤ r.index + (Acc.win r).length) ∧
      ((Acc.win r').length < t.acc.bytes → t.peek Acc.fillBuf r = .ok (.error .unexpectedEof, r')) ∧
      (t.acc.bytes ≤ (Acc.win r').length → ∃ v, t.peek Acc.fillBuf r = .ok (.ok v, r') ∧
        v.toNat = posValue t.acc.order t.acc.bytes (dat.drop r.index)) := by
  obtain ⟨x, r', f1, f⟩ := Acc.fillBuf_spec hi
  cases x with
  | error e =>
    obtain ⟨_, hf, _⟩ := f.error e rfl
    rw [hsc, hs] at hf
    cases hf
  | ok l =>
    obtain ⟨s1, s2, s3⟩ := f.shown l rfl
    subst s1
    refine ⟨r', f.inv, f.script.trans hsc, f.index, f.len, s2.length_le, ?_, ?_, ?_⟩
    · intro h1 h2
      exact s3 (s2.eq_of_length h1.symm).symm h2
    · intro hlt
      rw [typed_peek ht]
      simp only [peek, f1, ok_bind, if_pos hlt]
    · intro hle
      obtain ⟨v, c1, c2⟩ := (c03_get_value t.acc (typed_mem ht) (Acc.win r')).1 hle
      refine ⟨v, ?_, ?_⟩
      · rw [typed_peek ht]
        simp only [peek, f1, ok_bind, if_neg (Nat.not_lt.2 hle), c1, pure_eq_ok]
      · have h1 := f.inv.at
        rw [f.index] at h1
        rw [c2, at_drop h1]
        unfold posValue
        congr 1
        apply List.map_congr_left
        intro i hi
        rw [List.mem_range] at hi
        simp only [List.getD_eq_getElem?_getD]
        rw [List.getElem?_append_left (by omega)]

/-- **C61**, partial (false as it stands, `c61_fails`): exactly when an `AccReader` can be peeked. For every type, in
every reachable state over a source that does not fail: if the buffer is as large as the type and the stream still
holds that many bytes, repeating the peek while it reports the end gives the value of the next bytes, at the latest
after as many attempts as the type has bytes. If not, every attempt reports the end: also in front of any number of
bytes, when the buffer is too small. -/
theorem c61_exact_partial (t : Typed) (ht : t ∈ typed) (dat : List U8) (cap : Nat) (script : Nat → Act)
    (hs : ∀ k, (script k).fail = none) (ops : List Acc.Op) (os : List Acc.Out) (r : Acc.Acc)
    (hr : Acc.Reachable dat cap script ops os r) :
    (t.acc.bytes ≤ cap + Acc.grown ops ∧ t.acc.bytes ≤ (dat.drop r.index).length →
      ∃ v r', peekAgain t Acc.fillBuf t.acc.bytes r = .ok (.ok v, r') ∧
        v.toNat = posValue t.acc.order t.acc.bytes (dat.drop r.index)) ∧
    (cap + Acc.grown ops < t.acc.bytes ∨ (dat.drop r.index).length < t.acc.bytes →
      ∀ k, ∃ r', peekAgain t Acc.fillBuf k r = .ok (.error .unexpectedEof, r')) := by
  obtain ⟨hi, hx, hsc, hl⟩ := hr.inv
  rw [← hl]
  clear hr hl hx
  constructor
  · have key : ∀ (k : Nat) (r : Acc.Acc), Acc.Inv dat r → r.inner.script = script →
        t.acc.bytes ≤ r.buf.length → t.acc.bytes ≤ (dat.drop r.index).length →
        t.acc.bytes - (Acc.win r).length ≤ k → ∃ v r', peekAgain t Acc.fillBuf k r = .ok (.ok v, r') ∧
          v.toNat = posValue t.acc.order t.acc.bytes (dat.drop r.index) := by
      intro k
      induction k with
      | zero =>
        intro r hi hsc h1 h2 h3
        obtain ⟨r', a1, a2, a3, a4, a5, a6, a7, a8⟩ := acc_peek ht hs r hi hsc
        obtain ⟨v, b1, b2⟩ := a8 (by omega)
        exact ⟨v, r', b1, b2⟩
      | succ k ih =>
        intro r hi hsc h1 h2 h3
        obtain ⟨r', a1, a2, a3, a4, a5, a6, a7, a8⟩ := acc_peek ht hs r hi hsc
        by_cases hw : t.acc.bytes ≤ (Acc.win r').length
        · obtain ⟨v, b1, b2⟩ := a8 hw
          exact ⟨v, r', by simp only [peekAgain, b1, ok_bind], b2⟩
        · have b1 := a7 (by omega)
          have hgrew : (Acc.win r).length < (Acc.win r').length := by
            apply Decidable.byContradiction
            intro hn
            have := a6 (by omega) (by omega)
            rw [List.length_drop] at h2
            omega
          obtain ⟨v, r'', c1, c2⟩ := ih r' a1 a2 (by omega) (by rw [a3]; exact h2) (by omega)
          refine ⟨v, r'', by simp only [peekAgain, b1, ok_bind]; exact c1, by rw [← a3]; exact c2⟩
    rintro ⟨h1, h2⟩
    exact key _ r hi hsc h1 h2 (by omega)
  · intro h k
    induction k generalizing r with
    | zero =>
      obtain ⟨r', a1, a2, a3, a4, a5, a6, a7, a8⟩ := acc_peek ht hs r hi hsc
      have hb := a1.eb
      have hw := Acc.win_length a1
      have hin := a1.inData
      clear a8
      exact ⟨r', a7 (by rw [List.length_drop] at h; omega)⟩
    | succ k ih =>
      obtain ⟨r', a1, a2, a3, a4, a5, a6, a7, a8⟩ := acc_peek ht hs r hi hsc
      have hb := a1.eb
      have hw := Acc.win_length a1
      have hin := a1.inData
      clear a8
      have b1 := a7 (by rw [List.length_drop] at h; omega)
      obtain ⟨r'', c1⟩ := ih r' a1 a2 (by rw [a3, a4]; exact h)
      exact ⟨r'', by simp only [peekAgain, b1, ok_bind]; exact c1⟩

/-- The reader of `c61_fails` shows the value at the second attempt; one of capacity 1 never does. -/
example :
    (∃ v r', peekAgain ⟨⟨"u16l", 2, .little, Bytes.get_u16l, Bytes.put_u16l⟩, get_u16l, peek_u16l⟩ Acc.fillBuf 2
      (Acc.withCapacity 8 ⟨[1, 2, 3], 0, fun _ => ⟨none, 0⟩, 0⟩) = .ok (.ok v, r') ∧
      v.toNat = posValue .little 2 [1, 2, 3]) ∧
    ∀ k, ∃ r', peekAgain ⟨⟨"u16l", 2, .little, Bytes.get_u16l, Bytes.put_u16l⟩, get_u16l, peek_u16l⟩ Acc.fillBuf k
      (Acc.withCapacity 1 ⟨[1, 2, 3], 0, fun _ => ⟨none, 0⟩, 0⟩) = .ok (.error .unexpectedEof, r') :=
  ⟨(c61_exact_partial _ (by simp [typed]) [1, 2, 3] 8 (fun _ => ⟨none, 0⟩) (fun _ => rfl) [] [] _
      ⟨⟨[1, 2, 3], 0, fun _ => ⟨none, 0⟩, 0⟩, 0, rfl, rfl, rfl, rfl⟩).1 (by decide),
    (c61_exact_partial _ (by simp [typed]) [1, 2, 3] 1 (fun _ => ⟨none, 0⟩) (fun _ => rfl) [] [] _
      ⟨⟨[1, 2, 3], 0, fun _ => ⟨none, 0⟩, 0⟩, 0, rfl, rfl, rfl, rfl⟩).2 (by decide)⟩

end Verif.ByteIo
