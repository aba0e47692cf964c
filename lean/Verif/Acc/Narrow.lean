import Verif.Acc.Release

/-!
# C127: `AccReader` on targets with any width of `usize`

The functions of `Release.lean` with a `usize` of `b` bits, and `seek` with its conversions `as usize` (accreader.rs:170,
182-184, 196), which are the identity on 64-bit targets only. Lengths of buffers are below `2^(b-1)` on every target.
-/

namespace Verif.Acc
open Verif Verif.Io Verif.Data Verif.BitRead

/-- The operators of a `usize` of `b` bits. -/
def narrowAcc (b : Nat) (checks : Bool) : AccOps where
  add x y := if x + y < 2 ^ b then .ok (x + y) else if checks then .error .overflow else .ok ((x + y) % 2 ^ b)
  sub x y := if y ≤ x then .ok (x - y) else if checks then .error .overflow else .ok (x + 2 ^ b - y)

/-- With 64 bits these are the operators of `Release`. -/
theorem narrowAcc_64 : narrowAcc 64 true = checkedAcc ∧ narrowAcc 64 false = wrappingAcc := by
  constructor
  · unfold narrowAcc checkedAcc uadd usub
    simp
  · unfold narrowAcc wrappingAcc
    simp only [AccOps.mk.injEq, Bool.false_eq_true, if_false]
    refine ⟨?_, ?_⟩
    · funext x y
      split
      · rw [Nat.mod_eq_of_lt (by assumption)]
      · rfl
    · funext x y
      split <;> rfl

/-- A target: the width of its `usize`, and whether overflow is checked. -/
structure Target where
  bits : Nat
  checks : Bool

namespace Target
variable (t : Target)

def ops : AccOps := narrowAcc t.bits t.checks

/-- `n as usize`, for a `u64` and for an `i64` that is not negative -/
def cast (n : Nat) : Nat := n % 2 ^ t.bits

/-- accreader.rs:194-203 -/
def seekInner (r : Acc) (sf : SeekFrom) : Rust (Except IoErr Nat × Acc) :=
  match seekU64 r.inner sf with
  | (.error e, inner) => .ok (.error e, { r with inner })
  | (.ok sz, inner) => do
    let (x, r) ← t.ops.fillBuf { r with inner, index := t.cast sz, pos := 0, «end» := 0 }
    match x with
    | .error e => .ok (.error e, r)
    | .ok _ => .ok (.ok sz, r)

/-- accreader.rs:167-204 -/
def seek (r : Acc) (sf : SeekFrom) : Rust (Except IoErr Nat × Acc) :=
  match sf with
  | .start n => do
    let mv := t.cast n
    if mv ≥ r.index then do
      let lim ← t.ops.sub (← t.ops.add r.index r.end) r.pos
      if mv < lim then do
        let d ← t.ops.sub mv r.index
        let q ← t.ops.add r.pos d
        return (.ok mv, { r with pos := q, index := mv })
      else t.seekInner r sf
    else t.seekInner r sf
  | .end _ => t.seekInner r sf
  | .current d => do
    let remaining ← t.ops.sub r.end r.pos
    if d ≥ 0 then
      if t.cast d.toNat ≤ remaining then do
        let i ← t.ops.add r.index (t.cast d.toNat)
        let q ← t.ops.add r.pos (t.cast d.toNat)
        return (.ok i, { r with index := i, pos := q })
      else t.seekInner r (.current (d - remaining))
    else t.seekInner r sf

def step (fuel : Nat) (r : Acc) : Op → Rust (Out × Acc)
  | .seek sf => do
    let (x, r) ← t.seek r sf
    match x with
    | .error e => .ok (.err e, r)
    | .ok n => .ok (.pos n, r)
  | op => t.ops.step fuel r (.op op)

def run (fuel : Nat) (r : Acc) : List Op → Rust (List Out × Acc)
  | [] => .ok ([], r)
  | op :: ops => do
    let (o, r) ← t.step fuel r op
    let (os, r) ← run fuel r ops
    return (o :: os, r)

end Target

/-! ### where positions fit, it does what the unbounded model does -/

section
variable {b : Nat} {checks : Bool}

theorem narrowAcc_add {x y : Nat} (h : x + y < 2 ^ b) : (narrowAcc b checks).add x y = .ok (x + y) := by
  simp only [narrowAcc, if_pos h]

theorem narrowAcc_sub {x y : Nat} (h : y ≤ x) : (narrowAcc b checks).sub x y = .ok (x - y) := by
  simp only [narrowAcc, if_pos h]

theorem narrow_reset {r : Acc} (h : r.pos ≤ r.end) :
    (narrowAcc b checks).resetBufferPosition r = resetBufferPosition r := by
  unfold AccOps.resetBufferPosition resetBufferPosition
  rw [narrowAcc_sub h, usub_ok h]

theorem narrow_consume {r : Acc} {k : Nat} (h1 : r.pos + k < 2 ^ b) (h2 : r.index + k < 2 ^ b) :
    (narrowAcc b checks).consume r k = .ok (consume r k) := by
  simp only [AccOps.consume, narrowAcc_add h1, narrowAcc_add h2, ok_bind, pure_eq_ok]
  rfl

theorem narrow_fillBuf {dat : List U8} {r : Acc} (h : Inv dat r) (hc : 2 * r.buf.length < 2 ^ b) :
    (narrowAcc b checks).fillBuf r = fillBuf r := by
  unfold AccOps.fillBuf fillBuf
  by_cases hc1 : r.pos ≠ 0 ∨ r.end ≠ r.buf.length
  · rw [if_pos hc1, if_pos hc1, narrow_reset h.pe]
    obtain ⟨r1, a1, a2, a3, a4, a5, a6, a7, a8⟩ := reset_inv h
    have heb := a2.eb
    rw [a1]
    simp only [ok_bind, sliceFrom_ok heb]
    have hrs := Source.read_spec r1.inner (r1.buf.drop r1.end).length
    generalize r1.inner.read (r1.buf.drop r1.end).length = y at hrs
    obtain ⟨x, s'⟩ := y
    cases x with
    | error e => rfl
    | ok l =>
      have := (hrs.ok l rfl).2.1
      rw [List.length_drop] at this
      simp only
      rw [narrowAcc_add (by omega)]
      rfl
  · rw [if_neg hc1, if_neg hc1]

theorem narrow_read {dat : List U8} {r : Acc} (h : Small (2 ^ b) dat r) {n : Nat} (hn : 2 * n < 2 ^ b) :
    (narrowAcc b checks).read r n = read r n := by
  have hpe := h.inv.pe
  have heb := h.inv.eb
  have hcap := h.cap
  have hwl := win_length h.inv
  have hat := h.inv.at
  unfold AccOps.read read
  rw [usub_ok hpe, narrowAcc_sub hpe]
  simp only [ok_bind]
  by_cases h1 : n < r.end - r.pos
  · rw [if_pos h1, if_pos h1, narrowAcc_add (by omega)]
    simp only [ok_bind]
    have hs : sliceRange r.buf r.pos (r.pos + n) = .ok ((r.buf.drop r.pos).take n) := by
      rw [sliceRange, if_pos (by omega), Nat.add_sub_cancel_left]
    rw [hs]
    simp only [ok_bind]
    have hll : ((r.buf.drop r.pos).take n).length ≤ n := List.length_take_le _ _
    have := h.sum
    rw [narrow_consume (by omega) (by omega)]
    rfl
  · rw [if_neg h1, if_neg h1]
    by_cases h2 : n > r.buf.length
    · rw [if_pos h2, if_pos h2]
      have hs : sliceRange r.buf r.pos r.end = .ok (win r) := data_ok h.inv
      rw [hs, usub_ok (by omega)]
      simp only [ok_bind]
      have hrs := Source.read_spec r.inner (n - (r.end - r.pos))
      generalize r.inner.read (n - (r.end - r.pos)) = y at hrs
      obtain ⟨x, s'⟩ := y
      cases x with
      | error e => rfl
      | ok l2 =>
        simp only
        obtain ⟨b1, b2, b3, b4⟩ := hrs.ok l2 rfl
        rw [h.inv.src, h.inv.ip, ← hwl] at b1
        have htk : (win r).take n = win r := List.take_of_length_le (by omega)
        have hroom := h.room (hat.append b1)
        rw [List.length_append] at hroom
        rw [htk, narrowAcc_add (by omega)]
        simp only [ok_bind]
        rw [narrow_consume (by simp only; omega) (by simp only; omega)]
        simp only [ok_bind]
        rw [narrow_reset (Nat.min_le_right _ _)]
    · rw [if_neg h2, if_neg h2, narrow_fillBuf h.inv h.cap]
      obtain ⟨x, r1, a1, a2⟩ := fillBuf_spec h.inv
      rw [a1]
      simp only [ok_bind]
      cases x with
      | error e => rfl
      | ok rem =>
        simp only
        have hp := fillBuf_pos a1
        have hat1 := a2.inv.at
        rw [← (a2.shown rem rfl).1, a2.index] at hat1
        have hroom := h.room (hat1.take n)
        have hll : (rem.take n).length ≤ n := List.length_take_le _ _
        rw [narrow_consume (by omega) (by rw [a2.index]; exact hroom)]
        rfl

theorem seekInner_index {dat : List U8} {r r' : Acc} {sf : SeekFrom} {x : Except IoErr Nat} (h : Inv dat r)
    {sz : Nat} {s' : Source} (hs : r.inner.seek sf = (.ok sz, s')) (hx : seekInner r sf = .ok (x, r')) : r'.index = sz := by
  obtain ⟨s1, s2, s3, s4, s5, s6, s7⟩ := source_seek r.inner sf
  rw [hs] at s1 s4
  obtain ⟨g1, g2⟩ := s4 sz rfl
  have hinv : Inv dat ({ r with inner := s', index := sz, pos := 0, «end» := 0 } : Acc) :=
    ⟨s1.trans h.src, Nat.le_refl _, Nat.zero_le _, by simp only at g2 ⊢; omega, by simp [win]⟩
  obtain ⟨z, r1, c1, c2⟩ := fillBuf_spec hinv
  unfold seekInner at hx
  simp only [hs, c1, ok_bind] at hx
  cases z <;> (cases hx; exact c2.index)

theorem narrow_seekInner {dat : List U8} {r : Acc} (hb : b ≤ 64) (h : Small (2 ^ b) dat r) (sf : SeekFrom)
    (hlt : ∀ x r', seekInner r sf = .ok (x, r') → r'.index < 2 ^ b) :
    Target.seekInner ⟨b, checks⟩ r sf = seekInner r sf := by
  have h64 : 2 ^ b ≤ 2 ^ 64 := Nat.pow_le_pow_right (by omega) hb
  obtain ⟨x, r', a1, a2⟩ := seekInner_spec h.inv sf
  have hl := hlt x r' a1
  obtain ⟨s1, s2, s3, s4, s5, s6, s7⟩ := source_seek r.inner sf
  have hidx := fun sz s' hs => seekInner_index h.inv (sz := sz) (s' := s') hs a1
  have hc : ¬ ((r.inner.script r.inner.clock).fail = none ∧ 2 ^ 64 ≤ r.inner.target sf) := by
    rintro ⟨h1, h2⟩
    have : r.inner.seek sf = (.ok (r.inner.target sf).toNat,
        { r.inner with pos := (r.inner.target sf).toNat, clock := r.inner.clock + 1 }) := by
      simp only [Source.seek, h1]
      rw [if_neg (by omega)]
    have := hidx _ _ this
    omega
  unfold Target.seekInner seekInner seekU64
  rw [if_neg hc]
  cases hs : r.inner.seek sf with
  | mk y s' =>
    rw [hs] at s1 s4
    cases y with
    | error e => rfl
    | ok sz =>
      have hi := hidx sz s' hs
      obtain ⟨g1, g2⟩ := s4 sz rfl
      have hinv : Inv dat ({ r with inner := s', index := sz, pos := 0, «end» := 0 } : Acc) :=
        ⟨s1.trans h.inv.src, Nat.le_refl _, Nat.zero_le _, by simp only at g2 ⊢; omega, by simp [win]⟩
      simp only [Target.cast]
      rw [Nat.mod_eq_of_lt (by omega)]
      simp only [Target.ops]
      rw [narrow_fillBuf hinv h.cap]
      rfl

/-- The argument of a seek can be converted. -/
def ArgFits (b : Nat) : SeekFrom → Prop
  | .start n => n < 2 ^ b
  | .current d => d < 2 ^ b
  | .end _ => True

theorem narrow_seek {dat : List U8} {r : Acc} (hb : b ≤ 64) (h : Small (2 ^ b) dat r) (sf : SeekFrom) (ha : ArgFits b sf)
    (hlt : ∀ x r', seek r sf = .ok (x, r') → r'.index < 2 ^ b) : Target.seek ⟨b, checks⟩ r sf = seek r sf := by
  have hpe := h.inv.pe
  have heb := h.inv.eb
  have hsum := h.sum
  cases sf with
  | start n =>
    have hn' : n < 2 ^ b := ha
    unfold Target.seek seek at *
    simp only [Target.cast, Nat.mod_eq_of_lt hn', Target.ops] at hlt ⊢
    by_cases hn : n ≥ r.index
    · rw [if_pos hn] at hlt ⊢
      rw [if_pos hn, narrowAcc_add hsum]
      simp only [ok_bind]
      rw [usub_ok (by omega)] at hlt ⊢
      rw [narrowAcc_sub (by omega)]
      simp only [ok_bind] at hlt ⊢
      by_cases hn2 : n < r.index + r.end - r.pos
      · rw [if_pos hn2, if_pos hn2, narrowAcc_sub hn]
        simp only [ok_bind]
        rw [narrowAcc_add (by omega)]
        rfl
      · rw [if_neg hn2] at hlt ⊢
        rw [if_neg hn2]; exact narrow_seekInner hb h _ hlt
    · rw [if_neg hn] at hlt ⊢
      rw [if_neg hn]; exact narrow_seekInner hb h _ hlt
  | «end» d => exact narrow_seekInner hb h _ hlt
  | current d =>
    have hd' : d < 2 ^ b := ha
    have hdn : d.toNat < 2 ^ b := by
      have : ((2 ^ b : Nat) : Int) = (2 : Int) ^ b := by simp
      have := Nat.two_pow_pos b
      omega
    unfold Target.seek seek at *
    simp only [Target.cast, Nat.mod_eq_of_lt hdn, Target.ops, usub_ok hpe, narrowAcc_sub hpe, ok_bind] at hlt ⊢
    by_cases hd : d ≥ 0
    · rw [if_pos hd] at hlt ⊢
      rw [if_pos hd]
      by_cases hd2 : d.toNat ≤ r.end - r.pos
      · rw [if_pos hd2] at hlt ⊢
        have hi := hlt _ _ rfl
        simp only at hi
        rw [if_pos hd2, narrowAcc_add hi]
        simp only [ok_bind]
        rw [narrowAcc_add (by omega)]
        rfl
      · rw [if_neg hd2] at hlt ⊢
        rw [if_neg hd2]; exact narrow_seekInner hb h _ hlt
    · rw [if_neg hd] at hlt ⊢
      rw [if_neg hd]; exact narrow_seekInner hb h _ hlt

/-- The caller's buffers are slices of the target, and so is the reader's own after growing. -/
def OpFits (b cap : Nat) : Op → Prop
  | .read n => 2 * n < 2 ^ b
  | .readExact n => 2 * n < 2 ^ b
  | .grow k => 2 * (cap + k) < 2 ^ b
  | .seek sf => ArgFits b sf
  | _ => True

theorem narrow_step {dat : List U8} (hb : b ≤ 64) (fuel : Nat) {r : Acc} (h : Small (2 ^ b) dat r) (op : Op)
    (hf : OpFits b r.buf.length op) (hlt : ∀ o r', step fuel r op = .ok (o, r') → r'.index < 2 ^ b) :
    Target.step ⟨b, checks⟩ fuel r op = step fuel r op ∧ ∀ o r', step fuel r op = .ok (o, r') → Small (2 ^ b) dat r' := by
  have hcap := h.cap
  cases op with
  | read n =>
    refine ⟨by simp only [Target.step, Target.ops, AccOps.step, step, narrow_read h hf]; rfl, fun o r' ho => ?_⟩
    simp only [step] at ho
    cases hr : read r n with
    | error e => rw [hr] at ho; cases ho
    | ok y =>
      obtain ⟨x, r1⟩ := y
      rw [hr] at ho
      have := h.read hr
      cases x <;> (cases ho; exact this)
  | readExact n =>
    refine ⟨?_, fun o r' ho => ?_⟩
    · simp only [Target.step, Target.ops, AccOps.step, step]
      rw [readExact_congr (M := 2 ^ b) (dat := dat) (narrowAcc b checks).read (2 * · < 2 ^ b) (fun _ _ => by omega)
        (fun _ _ h hn => narrow_read h hn) fuel h hf]
      rfl
    · simp only [step] at ho
      cases hr : readExact read fuel r n with
      | error e => rw [hr] at ho; cases ho
      | ok y =>
        obtain ⟨x, r1⟩ := y
        rw [hr] at ho
        have := h.readExact fuel hr
        cases x <;> (cases ho; exact this)
  | fillBuf =>
    refine ⟨by simp only [Target.step, Target.ops, AccOps.step, step, narrow_fillBuf h.inv h.cap]; rfl, fun o r' ho => ?_⟩
    obtain ⟨x, r1, a1, a2⟩ := fillBuf_spec h.inv
    simp only [step, a1, ok_bind] at ho
    have : Small (2 ^ b) dat r1 := ⟨a2.inv, Sane.fillBuf h.inv h.index a1, h.len, by rw [a2.len]; exact h.cap⟩
    cases x <;> (cases ho; exact this)
  | consume k =>
    have hwl := win_length h.inv
    have hpe := h.inv.pe
    have heb := h.inv.eb
    have hlk : ((win r).take k).length ≤ r.end - r.pos := by rw [List.length_take]; omega
    have hroom := h.room (h.inv.at.take k)
    refine ⟨?_, fun o r' ho => ?_⟩
    · simp only [Target.step, Target.ops, AccOps.step, step, data_ok h.inv, ok_bind,
        narrow_consume (b := b) (checks := checks) (r := r) (k := ((win r).take k).length) (by omega) hroom]
    · simp only [step, data_ok h.inv, ok_bind, pure_eq_ok] at ho
      cases ho
      exact h.consume hlk
  | grow k =>
    have hf : 2 * (r.buf.length + k) < 2 ^ b := hf
    refine ⟨?_, fun o r' ho => ?_⟩
    · simp only [Target.step, Target.ops, AccOps.step, step, AccOps.grow,
        narrowAcc_add (b := b) (checks := checks) (show r.buf.length + k < 2 ^ b by omega), ok_bind, pure_eq_ok, Nat.add_sub_cancel_left,
        List.take_of_length_le (Nat.le_add_right _ _)]
      rfl
    · cases ho
      exact ⟨(grow_inv h.inv k).1, h.sane, h.len, by
        simp only [grow, List.length_append, List.length_replicate]; omega⟩
  | reset =>
    refine ⟨by simp only [Target.step, Target.ops, AccOps.step, step, narrow_reset h.inv.pe], fun o r' ho => ?_⟩
    obtain ⟨r1, b1, b2, b3, _, b5, b6, _, _⟩ := reset_inv h.inv
    simp only [step, b1, ok_bind, pure_eq_ok] at ho
    cases ho
    exact ⟨b2, .inr ⟨b3, by rw [b6]; exact h.index⟩, h.len, by rw [b5]; exact h.cap⟩
  | seek sf =>
    have hlt' : ∀ x r', seek r sf = .ok (x, r') → r'.index < 2 ^ b := by
      intro x r' hx
      cases x with
      | error e => exact hlt (.err e) r' (by simp only [step, hx, ok_bind])
      | ok n => exact hlt (.pos n) r' (by simp only [step, hx, ok_bind])
    refine ⟨by simp only [Target.step, step, narrow_seek hb h sf hf hlt']; rfl, fun o r' ho => ?_⟩
    simp only [step] at ho
    cases hr : seek r sf with
    | error e => rw [hr] at ho; cases ho
    | ok y =>
      obtain ⟨x, r1⟩ := y
      rw [hr] at ho
      have := h.seek hr (hlt' x r1 hr)
      cases x <;> (cases ho; exact this)

end

/-- After every part of the history the position is a `usize` of the target. -/
def StaysBelow (b fuel : Nat) (r : Acc) (ops : List Op) : Prop :=
  ∀ ops1 ops2 os r1, ops = ops1 ++ ops2 → run fuel r ops1 = .ok (os, r1) → r1.index < 2 ^ b

theorem StaysBelow.tail {b fuel : Nat} {r r1 : Acc} {op : Op} {o : Out} {ops : List Op}
    (h : StaysBelow b fuel r (op :: ops)) (hs : step fuel r op = .ok (o, r1)) : StaysBelow b fuel r1 ops := by
  intro ops1 ops2 os r2 he hr
  exact h (op :: ops1) ops2 (o :: os) r2 (by rw [he]; rfl) (by simp only [run, hs, hr, ok_bind, pure_eq_ok])

theorem narrow_run {dat : List U8} {b : Nat} {checks : Bool} (hb : b ≤ 64) (fuel : Nat) {r : Acc} (h : Small (2 ^ b) dat r) (ops : List Op)
    (hn : ∀ n, .read n ∈ ops ∨ .readExact n ∈ ops → 2 * n < 2 ^ b) (ha : ∀ sf, .seek sf ∈ ops → ArgFits b sf)
    (hg : 2 * (r.buf.length + growth ops) < 2 ^ b) (hbelow : StaysBelow b fuel r ops) :
    Target.run ⟨b, checks⟩ fuel r ops = run fuel r ops := by
  induction ops generalizing r with
  | nil => rfl
  | cons op ops ih =>
    have hgs : growth (op :: ops) = growth [op] + growth ops := by simp [growth]
    have hf : OpFits b r.buf.length op := by
      cases op with
      | read n => exact hn n (by simp)
      | readExact n => exact hn n (by simp)
      | grow k =>
        simp only [OpFits]
        have : growth [Op.grow k] = k := by simp [growth]
        omega
      | seek sf => exact ha sf (by simp)
      | _ => exact trivial
    have hlt : ∀ o r', step fuel r op = .ok (o, r') → r'.index < 2 ^ b := fun o r' hs =>
      hbelow [op] ops [o] r' rfl (by simp only [run, hs, ok_bind, pure_eq_ok])
    obtain ⟨e, hp⟩ := narrow_step (checks := checks) hb fuel h op hf hlt
    simp only [Target.run, run, e]
    rcases step_spec fuel h.inv op with ⟨h1, -⟩ | ⟨o, r1, a1, a2, a3, a4, a5⟩
    · rw [h1]; rfl
    · rw [a1]
      simp only [ok_bind]
      rw [ih (hp o r1 a1) (fun n hn' => hn n (hn'.imp (by simp_all) (by simp_all))) (fun sf hm => ha sf (by simp [hm]))
        (by rw [a5, grown_growth]; omega) (hbelow.tail a1)]

/-! ### C127 -/

/-- What C127 claims: over every stream, on every target, what a history of calls returns is explained by a cursor on
the stream, and (but for a `read_exact` on a reader that never delivers) nothing panics. -/
def C127 (b : Nat) (checks : Bool) : Prop :=
  ∀ (s : Source), s.pos = 0 → ∀ (cap fuel : Nat) (ops : List Op), 2 * (cap + growth ops) < 2 ^ b →
    (∀ n, .read n ∈ ops ∨ .readExact n ∈ ops → 2 * n < 2 ^ b) →
    (Target.run ⟨b, checks⟩ fuel (withCapacity cap s) ops = .error .fuel ∧ ∃ n, .readExact n ∈ ops) ∨
    ∃ os r p, Target.run ⟨b, checks⟩ fuel (withCapacity cap s) ops = .ok (os, r) ∧ ExplainsAll s.data 0 ops os p

/-- **C127**, partial: on every target, with and without overflow checks, over streams of at most half the address
space, while no seek leads to a position that is no `usize` (nor asks to go so far). Missing: longer streams and
farther seeks. -/
theorem c127_partial (b : Nat) (hb : b ≤ 64) (checks : Bool) (s : Source) (h0 : s.pos = 0)
    (hd : 2 * s.data.length ≤ 2 ^ b) (cap fuel : Nat) (ops : List Op) (hg : 2 * (cap + growth ops) < 2 ^ b)
    (hn : ∀ n, .read n ∈ ops ∨ .readExact n ∈ ops → 2 * n < 2 ^ b) (ha : ∀ sf, .seek sf ∈ ops → ArgFits b sf)
    (hbelow : StaysBelow b fuel (withCapacity cap s) ops) :
    (Target.run ⟨b, checks⟩ fuel (withCapacity cap s) ops = .error .fuel ∧ ∃ n, .readExact n ∈ ops) ∨
    ∃ os r p, Target.run ⟨b, checks⟩ fuel (withCapacity cap s) ops = .ok (os, r) ∧ ExplainsAll s.data 0 ops os p ∧
      run fuel (withCapacity cap s) ops = .ok (os, r) := by
  have hl : (withCapacity cap s).buf.length = cap := by simp [withCapacity]
  have hs : Small (2 ^ b) s.data (withCapacity cap s) :=
    ⟨withCapacity_inv cap s h0, .inl (Nat.zero_le _), hd, by rw [hl]; omega⟩
  have e := narrow_run (checks := checks) hb fuel hs ops hn ha (by rw [hl]; exact hg) hbelow
  rcases run_spec fuel hs.inv ops with ⟨h1, h2⟩ | ⟨os, r, h1, h2, h3, -⟩
  · exact .inl ⟨e.trans h1, h2⟩
  · exact .inr ⟨os, r, _, e.trans h1, h3, h1⟩

example : 2 * fourBytes.data.length ≤ 2 ^ 16 ∧ StaysBelow 16 9 (withCapacity 3 fourBytes) [.read 2, .seek (.start 1)] := by
  refine ⟨by decide, ?_⟩
  intro ops1 ops2 os r1 he hr
  match ops1, he with
  | [], _ => cases hr; decide
  | [op], he =>
    simp only [List.cons_append, List.cons.injEq] at he
    obtain ⟨rfl, -⟩ := he
    cases hr; decide
  | [op, op2], he =>
    simp only [List.cons_append, List.cons.injEq] at he
    obtain ⟨rfl, rfl, -⟩ := he
    cases hr; decide
  | _ :: _ :: _ :: _, he => simp at he

/-- C127 fails on 32-bit targets, in every build: with four bytes buffered, a seek to 4 GiB + 2 answers 2 and the byte
there is read; a seek by 4 GiB + 1 moves by one; and after a seek to 4 GiB the position is 0. -/
theorem c127_fails (checks : Bool) :
    outs (Target.run ⟨32, checks⟩ 9 (withCapacity 4 fourBytes) [.fillBuf, .seek (.start (2 ^ 32 + 2)), .read 1]) =
      some [.shown [1, 2, 3, 4], .pos 2, .bytes [3]] ∧
    outs (Target.run ⟨32, checks⟩ 9 (withCapacity 4 fourBytes) [.fillBuf, .seek (.current (2 ^ 32 + 1)), .read 1]) =
      some [.shown [1, 2, 3, 4], .pos 1, .bytes [2]] ∧
    outs (Target.run ⟨32, checks⟩ 9 (withCapacity 4 fourBytes) [.seek (.start (2 ^ 32)), .seek (.current 0)]) =
      some [.pos (2 ^ 32), .pos 0] ∧ ¬ C127 32 checks := by
  have key : outs (Target.run ⟨32, checks⟩ 9 (withCapacity 4 fourBytes) [.seek (.start (2 ^ 32)), .seek (.current 0)]) =
      some [.pos (2 ^ 32), .pos 0] := by cases checks <;> decide +kernel
  refine ⟨by cases checks <;> decide +kernel, by cases checks <;> decide +kernel, key, ?_⟩
  intro h
  rcases h fourBytes rfl 4 9 [.seek (.start (2 ^ 32)), .seek (.current 0)] (by decide) (by simp) with ⟨-, n, hn⟩ | ⟨os, r, p, h1, h2⟩
  · simp at hn
  · rw [h1] at key
    simp only [outs, Option.some.injEq] at key
    subst key
    obtain ⟨q, e1, q2, e2, -⟩ := h2
    simp [Explains, Lands] at e1 e2
    omega

/-- Exactly: with overflow checks, `consume` panics at the end of the address space, of the buffer or of the stream. -/
theorem c127_consume_partial (b : Nat) (r : Acc) (k : Nat) :
    (narrowAcc b true).consume r k = .error .overflow ↔ 2 ^ b ≤ r.pos + k ∨ 2 ^ b ≤ r.index + k := by
  by_cases h1 : r.pos + k < 2 ^ b
  · by_cases h2 : r.index + k < 2 ^ b
    · rw [narrow_consume h1 h2]
      simp only [reduceCtorEq, false_iff]
      omega
    · have e2 : (narrowAcc b true).add r.index k = .error .overflow := by
        simp only [narrowAcc, if_neg h2, if_true]
      simp only [AccOps.consume, narrowAcc_add h1, e2, ok_bind, error_bind, true_iff]
      omega
  · have e2 : (narrowAcc b true).add r.pos k = .error .overflow := by
      simp only [narrowAcc, if_neg h1, if_true]
    simp only [AccOps.consume, e2, error_bind, true_iff]
    omega

/-- A byte behind 64 KiB, with 16 bits. -/
example : (narrowAcc 16 true).consume ⟨fourBytes, [1, 2, 3], 1, 3, 2 ^ 16 - 2⟩ 1 = .ok ⟨fourBytes, [1, 2, 3], 2, 3, 2 ^ 16 - 1⟩ ∧
    (narrowAcc 16 true).consume ⟨fourBytes, [1, 2, 3], 1, 3, 2 ^ 16 - 2⟩ 2 = .error .overflow := ⟨rfl, rfl⟩

end Verif.Acc
