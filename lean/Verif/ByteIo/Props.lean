import Verif.ByteIo.Model
import Verif.Io.Reads
import Verif.Bytes.Props

/-! # C60, C61, C74: typed reads from streams -/

namespace Verif.ByteIo
open Verif Verif.Io Verif.Bytes

variable {R : Type}

/-- `typed` covers exactly the types of the slice functions. -/
theorem typed_acc : typed.map (·.acc) = accessors := rfl

theorem typed_mem {t : Typed} (ht : t ∈ typed) : t.acc ∈ accessors := by
  rw [← typed_acc]; exact List.mem_map_of_mem ht

theorem typed_get {t : Typed} (ht : t ∈ typed) (read : ReadFn R) (fuel : Nat) (r : R) :
    t.get read fuel r = get t.acc.get t.acc.bytes read fuel r := by
  simp only [typed, List.mem_cons, List.not_mem_nil, or_false] at ht
  rcases ht with rfl | rfl | rfl | rfl | rfl | rfl | rfl | rfl | rfl | rfl | rfl | rfl | rfl | rfl | rfl | rfl | rfl | rfl <;>
    rfl

theorem typed_peek {t : Typed} (ht : t ∈ typed) (fill : FillFn R) (r : R) :
    t.peek fill r = peek t.acc.get t.acc.bytes fill r := by
  simp only [typed, List.mem_cons, List.not_mem_nil, or_false] at ht
  rcases ht with rfl | rfl | rfl | rfl | rfl | rfl | rfl | rfl | rfl | rfl | rfl | rfl | rfl | rfl | rfl | rfl | rfl | rfl <;>
    rfl

theorem getBuffer_reader (rd : Reader R) (fuel : Nat) (r : R) (n : Nat) (hi : rd.Inv r) (hn : n < fuel) :
    ∃ x r', getBuffer rd.read fuel r n = .ok (x, r') ∧ rd.Inv r' ∧
      (∀ l, x = .ok l → l.length = n ∧ rd.rem r = l ++ rd.rem r') ∧
      (∀ e, x = .error e → (e = .unexpectedEof ∧ (rd.rem r).length < n ∧ rd.rem r' = []) ∨ rd.fails e) := by
  induction fuel generalizing r n with
  | zero => omega
  | succ fuel ih =>
    unfold getBuffer
    by_cases h0 : n = 0
    · rw [if_pos h0]
      refine ⟨_, _, rfl, hi, ?_, (fun e he => nomatch he)⟩
      intro l hl
      cases hl
      exact ⟨h0.symm, rfl⟩
    · rw [if_neg h0]
      obtain ⟨x, r1, a1, a2, a3, a4⟩ := rd.spec r n hi
      rw [a1]
      simp only [ok_bind]
      cases x with
      | error e =>
        refine ⟨.error e, r1, rfl, a2, (fun l hl => nomatch hl), ?_⟩
        intro e' he'
        cases he'
        exact .inr (a4 e rfl).2.1
      | ok l =>
        obtain ⟨b1, b2, b3, _⟩ := a3 l rfl
        cases l with
        | nil =>
          refine ⟨.error .unexpectedEof, r1, rfl, a2, (fun l hl => nomatch hl), ?_⟩
          intro e he
          cases he
          have h := (b3 rfl).resolve_left h0
          rw [h] at b1
          exact .inl ⟨rfl, by rw [h]; simpa using Nat.pos_of_ne_zero h0, by simpa using b1.symm⟩
        | cons y ys =>
          have hl : 0 < (y :: ys).length := by simp
          obtain ⟨x, r', c1, c2, c3, c4⟩ := ih r1 (n - (y :: ys).length) a2 (by omega)
          simp only [c1, ok_bind]
          cases x with
          | error e =>
            refine ⟨_, _, rfl, c2, (fun l hl => nomatch hl), ?_⟩
            intro e' he'
            cases he'
            rcases c4 e rfl with ⟨d1, d2, d3⟩ | d1
            · exact .inl ⟨d1, by rw [b1, List.length_append]; omega, d3⟩
            · exact .inr d1
          | ok l2 =>
            obtain ⟨d1, d2⟩ := c3 l2 rfl
            refine ⟨_, _, rfl, c2, ?_, (fun e he => nomatch he)⟩
            intro l hl
            cases hl
            exact ⟨by rw [List.length_append]; omega, by rw [b1, d2, List.append_assoc]⟩

theorem posValue_append (o : Order) (k : Nat) (l m : List U8) (hl : l.length = k) :
    posValue o k (l ++ m) = posValue o k l := by
  unfold posValue
  congr 1
  apply List.map_congr_left
  intro i hi
  rw [List.mem_range] at hi
  simp only [List.getD_eq_getElem?_getD]
  rw [List.getElem?_append_left (by omega)]

/-- **C60.** For every type, through any reader with any splitting of the reads, the read never panics or loops; it
returns the positional value of the next bytes and advances by exactly them, or fails: with `UnexpectedEof` when fewer
bytes were left, or with an error of the reader. -/
theorem c60_get (t : Typed) (ht : t ∈ typed) (rd : Reader R) (fuel : Nat) (hf : t.acc.bytes < fuel) (r : R)
    (hi : rd.Inv r) :
    ∃ x r', t.get rd.read fuel r = .ok (x, r') ∧ rd.Inv r' ∧
      (∀ v, x = .ok v → t.acc.bytes ≤ (rd.rem r).length ∧
        v.toNat = posValue t.acc.order t.acc.bytes (rd.rem r) ∧ rd.rem r' = (rd.rem r).drop t.acc.bytes) ∧
      (∀ e, x = .error e → (e = .unexpectedEof ∧ (rd.rem r).length < t.acc.bytes ∧ rd.rem r' = []) ∨ rd.fails e) := by
  rw [typed_get ht]
  obtain ⟨x, r', a1, a2, a3, a4⟩ := getBuffer_reader rd fuel r t.acc.bytes hi hf
  simp only [get, a1, ok_bind]
  cases x with
  | error e =>
    refine ⟨_, _, rfl, a2, (fun v hv => nomatch hv), ?_⟩
    intro e' he
    cases he
    exact a4 e rfl
  | ok l =>
    obtain ⟨b1, b2⟩ := a3 l rfl
    obtain ⟨v, c1, c2⟩ := (c03_get_value t.acc (typed_mem ht) l).1 (by omega)
    simp only [c1, ok_bind, pure_eq_ok]
    refine ⟨_, _, rfl, a2, ?_, (fun e he => nomatch he)⟩
    intro v' hv
    cases hv
    refine ⟨by rw [b2, List.length_append]; omega, ?_, ?_⟩
    · rw [c2, b2, posValue_append _ _ _ _ b1]
    · rw [b2, ← b1, List.drop_left]

/-- Values of consecutive slices of `l`; `none` when it is too short. -/
def slices : List Typed → List U8 → Option (List Nat)
  | [], _ => some []
  | t :: ts, l =>
    if l.length < t.acc.bytes then none
    else (slices ts (l.drop t.acc.bytes)).map (posValue t.acc.order t.acc.bytes l :: ·)

/-- **C60.** A sequence of typed reads from a reader that does not fail is slicing the stream; if the stream is too
short, the sequence ends with `UnexpectedEof`. -/
theorem c60_sequence (ts : List Typed) (ht : ∀ t ∈ ts, t ∈ typed) (rd : Reader R) (hq : ∀ e, ¬ rd.fails e)
    (fuel : Nat) (hf : 8 < fuel) (r : R) (hi : rd.Inv r) :
    (∀ vs, slices ts (rd.rem r) = some vs → ∃ r', getMany rd.read fuel r ts = .ok (.ok vs, r') ∧
      rd.rem r' = (rd.rem r).drop (ts.map (·.acc.bytes)).sum) ∧
    (slices ts (rd.rem r) = none → ∃ r', getMany rd.read fuel r ts = .ok (.error .unexpectedEof, r')) := by
  induction ts generalizing r with
  | nil =>
    refine ⟨fun vs h => ?_, fun h => by simp [slices] at h⟩
    simp only [slices, Option.some.injEq] at h
    subst h
    exact ⟨r, rfl, by simp⟩
  | cons t ts ih =>
    have ht1 := ht t (by simp)
    have h8 : t.acc.bytes ≤ 8 := by
      have h : ∀ a ∈ accessors, a.bytes ≤ 8 := by simp [accessors]
      exact h _ (typed_mem ht1)
    obtain ⟨x, r1, a1, a2, a3, a4⟩ := c60_get t ht1 rd fuel (by omega) r hi
    simp only [getMany, a1, ok_bind, slices]
    cases x with
    | error e =>
      rcases a4 e rfl with ⟨b1, b2, _⟩ | b1
      · rw [if_pos b2]
        exact ⟨fun vs h => (nomatch h), fun _ => ⟨r1, by rw [b1]⟩⟩
      · exact absurd b1 (hq e)
    | ok v =>
      obtain ⟨b1, b2, b3⟩ := a3 v rfl
      obtain ⟨i1, i2⟩ := ih (fun t h => ht t (by simp [h])) r1 a2
      rw [if_neg (by omega), ← b3]
      refine ⟨fun vs h => ?_, fun h => ?_⟩
      · obtain ⟨vs', h1, rfl⟩ := Option.map_eq_some_iff.1 h
        obtain ⟨r', j1, j2⟩ := i1 vs' h1
        refine ⟨r', by rw [← b2]; simp only [j1, ok_bind], ?_⟩
        rw [j2, b3, List.drop_drop, List.map_cons, List.sum_cons]
      · obtain ⟨r', j1⟩ := i2 (Option.map_eq_none_iff.1 h)
        exact ⟨r', by simp only [j1, ok_bind]⟩

/-- Reads of at most two bytes each. -/
def short : Nat → Act := fun c => ⟨none, c % 2⟩

example : (match getMany (sourceReader short 0).read 9 ⟨[1, 2, 3, 4, 5, 6, 7, 8], 0, short, 0⟩ (typed.drop 3 |>.take 3) with
    | .ok (x, s) => decide (x = .error .unexpectedEof ∧ s.pos = 8)
    | _ => false) = true ∧
  (match getMany (sourceReader short 0).read 9 ⟨[1, 2, 3, 4, 5, 6, 7, 8], 0, short, 0⟩ (typed.drop 3 |>.take 2) with
    | .ok (x, s) => decide (x = .ok [0x0102, 0x06050403] ∧ s.pos = 6)
    | _ => false) = true := by decide

example : ∀ e, ¬ (sourceReader short 0).fails e := fun e ⟨c, hc⟩ => by simp [short] at hc

/-! ### C61 -/

/-- **C61**, partial: in full, a peek fails only when fewer bytes remain in the stream. Here: a successful peek returns
the value of the next bytes and consumes nothing, so that the matching read returns the same value; a peek that fails
consumes nothing; `UnexpectedEof` says that the slice *shown by the buffer* is too short (not that the stream is,
`c61_fails`). -/
theorem c61_peek_partial (t : Typed) (ht : t ∈ typed) (rd : Reader R) (sh : Shower rd) (r : R) (hi : rd.Inv r) :
    ∃ x r', t.peek sh.fillBuf r = .ok (x, r') ∧ rd.Inv r' ∧ rd.rem r' = rd.rem r ∧
      (∀ v, x = .ok v → t.acc.bytes ≤ (rd.rem r).length ∧
        v.toNat = posValue t.acc.order t.acc.bytes (rd.rem r) ∧
        ∀ fuel, t.acc.bytes < fuel → ∀ y r'', t.get rd.read fuel r' = .ok (.ok y, r'') → y = v) ∧
      (∀ e, x = .error e → rd.fails e ∨ (e = .unexpectedEof ∧
        ∃ l, sh.fillBuf r = .ok (.ok l, r') ∧ l.length < t.acc.bytes)) := by
  rw [typed_peek ht]
  obtain ⟨x, r', a1, a2, a3, a4, a5⟩ := sh.spec r hi
  simp only [peek, a1, ok_bind]
  cases x with
  | error e =>
    refine ⟨_, _, rfl, a2, a3, (fun v hv => nomatch hv), ?_⟩
    intro e' he
    cases he
    exact .inl (a5 e rfl)
  | ok l =>
    by_cases hl : l.length < t.acc.bytes
    · simp only [if_pos hl]
      refine ⟨_, _, rfl, a2, a3, (fun v hv => nomatch hv), ?_⟩
      intro e he
      cases he
      exact .inr ⟨rfl, l, rfl, hl⟩
    · obtain ⟨v, c1, c2⟩ := (c03_get_value t.acc (typed_mem ht) l).1 (by omega)
      simp only [if_neg hl, c1, ok_bind, pure_eq_ok]
      refine ⟨_, _, rfl, a2, a3, ?_, (fun e he => nomatch he)⟩
      intro v' hv
      cases hv
      have hval : v.toNat = posValue t.acc.order t.acc.bytes (rd.rem r) := by
        obtain ⟨m, hm⟩ := a4 l rfl
        rw [c2, ← hm]
        unfold posValue
        congr 1
        apply List.map_congr_left
        intro i hi
        rw [List.mem_range] at hi
        simp only [List.getD_eq_getElem?_getD]
        rw [List.getElem?_append_left (by omega)]
      refine ⟨?_, hval, ?_⟩
      · have := (a4 l rfl).length_le; omega
      · intro fuel hf y r'' hy
        obtain ⟨x, r3, b1, _, b3, _⟩ := c60_get t ht rd fuel hf r' a2
        rw [b1] at hy
        simp only [Except.ok.injEq, Prod.mk.injEq] at hy
        obtain ⟨hx, _⟩ := hy
        apply BitVec.eq_of_toNat_eq
        rw [(b3 y hx).2.1, a3, hval]

/-- **C61** holds for one-byte types on `AccReader`s with a buffer: no spurious end of file. -/
theorem c61_byte_partial (t : Typed) (ht : t ∈ typed) (h1 : t.acc.bytes = 1) (dat : List U8) (script : Nat → Act)
    (N : Nat) (r : Acc.Acc) (hi : (accReader dat script N).Inv r) (hc : 0 < r.buf.length)
    (hq : ∀ e, ¬ (accReader dat script N).fails e) (r' : Acc.Acc) (e : IoErr)
    (he : t.peek Acc.fillBuf r = .ok (.error e, r')) : (accReader dat script N).rem r = [] := by
  obtain ⟨x, r2, a1, _, _, _, a5⟩ := c61_peek_partial t ht _ (accShower dat script N) r hi
  have he' : t.peek (accShower dat script N).fillBuf r = .ok (.error e, r') := he
  rw [he'] at a1
  simp only [Except.ok.injEq, Prod.mk.injEq] at a1
  obtain ⟨rfl, rfl⟩ := a1
  rcases a5 e rfl with h | ⟨_, l, h2, h3⟩
  · exact absurd h (hq e)
  · obtain ⟨x, r3, b1, b2⟩ := Acc.fillBuf_spec hi.1
    have h2' : Acc.fillBuf r = .ok (.ok l, r') := h2
    rw [h2'] at b1
    simp only [Except.ok.injEq, Prod.mk.injEq] at b1
    obtain ⟨rfl, rfl⟩ := b1
    obtain ⟨_, c2, c3⟩ := b2.shown l rfl
    have hl : l = [] := List.eq_nil_of_length_eq_zero (by omega)
    subst hl
    have hw : Acc.win r = [] := List.prefix_nil.1 c2
    have := c3 hw.symm (by rw [hw]; exact hc)
    rw [hw] at this
    exact List.drop_eq_nil_of_le (by simpa using this)

/-- **C61** fails: with three bytes in the stream, a reader delivering them one by one makes `peek_u16l` report the end
of the file. -/
theorem c61_fails :
    let s : Source := ⟨[1, 2, 3], 0, fun _ => ⟨none, 0⟩, 0⟩
    ∃ r', peek_u16l Acc.fillBuf (Acc.withCapacity 8 s) = .ok (.error .unexpectedEof, r') ∧
      s.data.length = 3 ∧ ∀ c, (s.script c).fail = none := by
  exact ⟨_, rfl, rfl, fun _ => rfl⟩

example : ∃ r', peek_u16l Acc.fillBuf (Acc.withCapacity 8 ⟨[1, 2, 3], 0, short, 1⟩) = .ok (.ok 0x0201, r') := ⟨_, rfl⟩

/-! ### C74: interrupted reads -/

/-- **C74** fails: when the second read is interrupted, the byte read before is lost: `get_u16l` fails with
`Interrupted`, and repeating it returns bytes 1 and 2 instead of 0 and 1. -/
theorem c74_fails : ∃ (script : Nat → Act) (s' s'' : Source),
    (∀ c, (script c).fail = none ∨ (script c).fail = some .interrupted) ∧
    get_u16l (sourceReader script 2).read 9 ⟨[1, 2, 3, 4], 0, script, 0⟩ = .ok (.error .interrupted, s') ∧
    get_u16l (sourceReader script 2).read 9 s' = .ok (.ok 0x0302, s'') := by
  refine ⟨fun c => ⟨if c = 1 then some .interrupted else none, 0⟩, _, _, fun c => ?_, rfl, rfl⟩
  simp only; split <;> simp

/-- **C74**, partial: one-byte reads lose nothing. -/
theorem c74_byte_partial (t : Typed) (ht : t ∈ typed) (h1 : t.acc.bytes = 1) (rd : Reader R) (fuel : Nat)
    (hf : 1 < fuel) (r r' : R) (hi : rd.Inv r) (e : IoErr) (he : t.get rd.read fuel r = .ok (.error e, r')) :
    rd.rem r' = rd.rem r := by
  rw [typed_get ht] at he
  obtain ⟨fuel, rfl⟩ : ∃ k, fuel = k + 2 := ⟨fuel - 2, by omega⟩
  unfold get at he
  have hg : getBuffer rd.read (fuel + 2) r t.acc.bytes = getBuffer rd.read (fuel + 2) r 1 := by rw [h1]
  rw [hg] at he
  unfold getBuffer at he
  obtain ⟨x, r1, a1, a2, a3, a4⟩ := rd.spec r 1 hi
  rw [if_neg (by decide), a1] at he
  simp only [ok_bind] at he
  cases x with
  | error e' =>
    simp only [ok_bind, Except.ok.injEq, Prod.mk.injEq] at he
    rw [← he.2]
    exact (a4 e' rfl).1
  | ok l =>
    obtain ⟨b1, b2, b3, _⟩ := a3 l rfl
    cases l with
    | nil =>
      simp only [ok_bind, Except.ok.injEq, Prod.mk.injEq] at he
      rw [← he.2, b1]; rfl
    | cons y ys =>
      have : (y :: ys).length = 1 := by simp at b2 ⊢; omega
      simp only [this, Nat.sub_self] at he
      unfold getBuffer at he
      simp only [if_true, ok_bind, List.append_nil] at he
      cases hv : t.acc.get (y :: ys) with
      | error p => simp [hv] at he
      | ok v => simp [hv] at he

/-- A byte that an interruption delays. -/
example : ∃ t ∈ typed, t.acc.bytes = 1 ∧ ∃ r', t.get (sourceReader (fun c => ⟨if c = 0 then some .interrupted else none, 0⟩) 1).read 9
    ⟨[7, 8], 0, fun c => ⟨if c = 0 then some .interrupted else none, 0⟩, 0⟩ = .ok (.error .interrupted, r') :=
  ⟨_, List.mem_cons_self, rfl, _, rfl⟩

end Verif.ByteIo
