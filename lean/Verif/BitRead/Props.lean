import Verif.BitRead.History

/-! # C04–C12: bit readers -/

namespace Verif.BitRead
open Verif Verif.Bytes

/-- A sample stream used by the examples: 24 bytes, i.e. 16 data bytes and 8 bytes of padding. -/
def sample : List U8 :=
  [0x5a, 0xc3, 0x81, 0x7e, 0x12, 0x34, 0x56, 0x78, 0x9a, 0xbc, 0xde, 0xf0, 0x0f, 0x1e, 0x2d, 0x3c,
   0, 0, 0, 0, 0, 0, 0, 0]

def sampleOps : List Op :=
  [.get32 3, .getBit, .peek64 64, .get64 50, .get32 31, .skip 9, .align, .peekBit, .get32 7, .get64 1]

/-- **C04** Every result of any in-data history on the little-endian reader is the value of the
next bits of the stream (least significant bit of each byte first, first bit least significant). -/
theorem c04_le_stream (buf : List U8) (ops : List Op) (hw : within buf 0 ops) :
    ∃ r0 r, new .le buf = .ok r0 ∧ run .le r0 ops = .ok ((specRun .le buf 0 ops).1, r) := by
  obtain ⟨r0, h1, h2, _, h3⟩ := new_spec .le buf
  obtain ⟨r, h4, _, _⟩ := run_within h3 ops (by rw [h2]; exact hw)
  rw [h2] at h4
  exact ⟨r0, r, h1, h4⟩

example : within sample 0 sampleOps := by decide
example : (do return (← run .le (← new .le sample) sampleOps).1) =
    .ok [some 2, some 1, some 12071163507730029621, some 390606470257717, some 2062707169, none, none,
      some 1, some 15, some 0] := by decide
example : valueAt .le [0x5a, 0xc3] 4 8 = 0x35 := by decide

/-- **C05** The same for the big-endian reader (most significant bit of each byte first, first bit
most significant). -/
theorem c05_be_stream (buf : List U8) (ops : List Op) (hw : within buf 0 ops) :
    ∃ r0 r, new .be buf = .ok r0 ∧ run .be r0 ops = .ok ((specRun .be buf 0 ops).1, r) := by
  obtain ⟨r0, h1, h2, _, h3⟩ := new_spec .be buf
  obtain ⟨r, h4, _, _⟩ := run_within h3 ops (by rw [h2]; exact hw)
  rw [h2] at h4
  exact ⟨r0, r, h1, h4⟩

example : within sample 0 sampleOps := by decide
example : (do return (← run .be (← new .be sample) sampleOps).1) =
    .ok [some 2, some 1, some 12409695028946233225, some 757427675106581, some 1326667675, none, none,
      some 0, some 7, some 1] := by decide
example : valueAt .be [0x5a, 0xc3] 4 8 = 0xac := by decide

/-- **C06** After any in-data history `consumed` is the number of bits passed and `available` the
rest of the buffer. -/
theorem c06_position (e : Endian) (buf : List U8) (ops : List Op) (hw : within buf 0 ops) :
    ∃ r0 vs r, new e buf = .ok r0 ∧ run e r0 ops = .ok (vs, r) ∧
      consumed r = .ok (specRun e buf 0 ops).2 ∧
      available r = .ok (8 * buf.length - (specRun e buf 0 ops).2) := by
  obtain ⟨r0, h1, h2, _, h3⟩ := new_spec e buf
  obtain ⟨r, h4, h5, h6⟩ := run_within h3 ops (by rw [h2]; exact hw)
  rw [h2] at h6
  refine ⟨r0, _, r, h1, h4, h6.consumed, ?_⟩
  rw [h6.available, h5, h2]

example : (specRun .le sample 0 sampleOps).2 = 104 := by decide

/-- **C07** In every state, reachable or not, a peek returns what the corresponding read would
return and leaves the reader as it is (it panics exactly when the read would). -/
theorem c07_peek (e : Endian) (r : Reader) (n : Nat) :
    step e r .peekBit = (do return ((← step e r .getBit).1, r)) ∧
    step e r (.peek32 n) = (do return ((← step e r (.get32 n)).1, r)) ∧
    step e r (.peek64 n) = (do return ((← step e r (.get64 n)).1, r)) := by
  refine ⟨?_, ?_, ?_⟩
  · simp only [step, peek_bit]
    cases get_bit e r <;> rfl
  · simp only [step, peek_bits_32]
    cases get_bits_32 e r n <;> rfl
  · simp only [step, peek_bits_64]
    cases get_bits_64 e r n <;> rfl

/-- The read a peek looks ahead to. -/
def readOf : Op → Op
  | .peekBit => .getBit
  | .peek32 n => .get32 n
  | .peek64 n => .get64 n
  | op => op

def isPeek : Op → Bool
  | .peekBit | .peek32 _ | .peek64 _ => true
  | _ => false

/-- **C07** Inserting a peek (of a width that fits) anywhere into any history changes no other result
and no later state; the inserted result is that of the read. -/
theorem c07_insert (e : Endian) (buf : List U8) (pre post : List Op) (pk : Op)
    (hpk : isPeek pk = true) (hw : widthOk pk) (ho : ∀ op ∈ pre ++ post, widthOk op) :
    ∃ r0 vpre r1 v r2 vpost r, new e buf = .ok r0 ∧ run e r0 pre = .ok (vpre, r1) ∧
      step e r1 (readOf pk) = .ok (v, r2) ∧
      run e r0 (pre ++ post) = .ok (vpre ++ vpost, r) ∧
      run e r0 (pre ++ pk :: post) = .ok (vpre ++ v :: vpost, r) := by
  obtain ⟨r0, h1, h2, _, h3⟩ := new_spec e buf
  obtain ⟨vpre, r1, h4, _, h5⟩ := run_weak h3.weak pre (fun o h => ho o (by simp [h]))
  obtain ⟨vpost, r, h6, _, _⟩ := run_weak h5 post (fun o h => ho o (by simp [h]))
  have hw' : widthOk (readOf pk) := by cases pk <;> simp_all [widthOk, readOf]
  obtain ⟨v, r2, h7, _, _, _⟩ := step_weak h5 (readOf pk) hw'
  have hpeek : step e r1 pk = .ok (v, r1) := by
    cases pk with
    | peekBit => rw [(c07_peek e r1 0).1]; simp only [readOf] at h7; rw [h7]; rfl
    | peek32 n => rw [(c07_peek e r1 n).2.1]; simp only [readOf] at h7; rw [h7]; rfl
    | peek64 n => rw [(c07_peek e r1 n).2.2]; simp only [readOf] at h7; rw [h7]; rfl
    | _ => simp [isPeek] at hpk
  refine ⟨r0, vpre, r1, v, r2, vpost, r, h1, h4, h7, ?_, ?_⟩
  · rw [run_append]
    simp only [h4, h6, ok_bind, pure_eq_ok]
  · rw [run_append]
    simp only [h4, run, hpeek, h6, ok_bind, pure_eq_ok]

example : isPeek (.peek64 64) = true ∧ widthOk (.peek64 64) ∧
    ∀ op ∈ ([.get32 3, .skip 500] ++ [.get64 64] : List Op), widthOk op := by decide

/-- **C08** From every reachable state `align_bits` moves to the next multiple of 8 (so by at most 7
bits), and a second call changes nothing. -/
theorem c08_align (e : Endian) (buf : List U8) (r : Reader) (hr : Reachable e buf r) :
    ∃ r' p, align_bits e r = .ok r' ∧ consumed r = .ok p ∧ consumed r' = .ok (alignUp p) ∧
      align_bits e r' = .ok r' := by
  obtain ⟨hw, hb⟩ := hr.weak
  have h1 := hw.left_le
  have h2 := hw.left_idx
  have e1 : ∀ x : Nat, x &&& 7 = x % 8 := fun x => Nat.and_two_pow_sub_one_eq_mod x 3
  refine ⟨skipRem e r (r.left % 8), r.index * 8 - r.left, ?_, ?_, ?_, ?_⟩
  · rw [align_bits, e1]
    simp [skip_bits, show ¬ r.left < r.left % 8 by omega]
  · exact usub_ok h2
  · unfold consumed
    simp only [skipRem_index, skipRem_left]
    rw [usub_ok (by omega)]
    congr 1
    unfold alignUp
    omega
  · rw [align_bits, e1]
    have e2 : (skipRem e r (r.left % 8)).left % 8 = 0 := by simp; omega
    rw [e2]
    have e3 : ∀ r : Reader, skipRem e r 0 = r := by
      intro r
      cases e <;> simp [skipRem, checkedShl, checkedShr]
    simp [skip_bits, e3]

theorem c08_alignUp_minimal (p q : Nat) (h8 : q % 8 = 0) (hq : p ≤ q) :
    alignUp p % 8 = 0 ∧ p ≤ alignUp p ∧ alignUp p ≤ q ∧ alignUp p < p + 8 := by
  unfold alignUp; omega

example : ∃ r, Reachable .be sample r ∧ consumed r = .ok 13 := by
  refine ⟨_, ⟨_, [.get32 5, .get64 8], _, rfl, by decide, rfl⟩, by decide⟩

/-- Total distance of reads and skips. -/
def distance : List Op → Nat
  | [] => 0
  | .getBit :: ops => 1 + distance ops
  | .get32 n :: ops | .get64 n :: ops | .skip n :: ops => n + distance ops
  | _ :: ops => distance ops

/-- Reads and skips only. -/
def isMove : Op → Bool
  | .getBit | .get32 _ | .get64 _ | .skip _ => true
  | _ => false

theorem specRun_moves (e : Endian) (buf : List U8) (p : Nat) (ms : List Op)
    (h : ∀ op ∈ ms, isMove op = true) : (specRun e buf p ms).2 = p + distance ms := by
  induction ms generalizing p with
  | nil => rfl
  | cons op ms ih =>
    have := ih (nextPos p op) (fun o ho => h o (by simp [ho]))
    simp only [specRun, this]
    have hop := h op (by simp)
    cases op <;> simp_all [isMove, nextPos, distance] <;> omega

/-- **C09** Skipping `n` bits, at any point of any in-data history, is the same for everything that
follows as reading (or skipping) them away in any number of pieces. -/
theorem c09_skip_eq_discard (e : Endian) (buf : List U8) (pre post pieces : List Op) (n : Nat)
    (hm : ∀ op ∈ pieces, isMove op = true) (hd : distance pieces = n)
    (hw1 : within buf 0 (pre ++ .skip n :: post)) (hw2 : within buf 0 (pre ++ (pieces ++ post))) :
    ∃ r0 vpre vpieces vpost r1 r2, new e buf = .ok r0 ∧ vpieces.length = pieces.length ∧
      run e r0 (pre ++ .skip n :: post) = .ok (vpre ++ none :: vpost, r1) ∧
      run e r0 (pre ++ (pieces ++ post)) = .ok (vpre ++ (vpieces ++ vpost), r2) ∧
      consumed r1 = consumed r2 := by
  obtain ⟨r0, h1, h2, _, h3⟩ := new_spec e buf
  obtain ⟨r1, a1, a2, a3⟩ := run_within h3 _ (by rw [h2]; exact hw1)
  obtain ⟨r2, b1, b2, b3⟩ := run_within h3 _ (by rw [h2]; exact hw2)
  rw [h2] at a1 a3 b1 b3
  have hpos := specRun_moves e buf (specRun e buf 0 pre).2 pieces hm
  have hlen : ∀ p (l : List Op), (specRun e buf p l).1.length = l.length := by
    intro p l
    induction l generalizing p with
    | nil => rfl
    | cons o l ih => simp [specRun, ih]
  refine ⟨r0, (specRun e buf 0 pre).1, (specRun e buf (specRun e buf 0 pre).2 pieces).1,
    (specRun e buf ((specRun e buf 0 pre).2 + n) post).1, r1, r2, h1, hlen _ _, ?_, ?_, ?_⟩
  · rw [a1, specRun_append]
    simp only [specRun, specVal, nextPos]
  · rw [b1, specRun_append, specRun_append, hpos, hd]
  · rw [a3.consumed, b3.consumed, specRun_append, specRun_append, specRun_append, hpos, hd]
    simp only [specRun, nextPos]

example : (∀ op ∈ [Op.get32 30, .getBit, .skip 40], isMove op = true) ∧
    distance [Op.get32 30, .getBit, .skip 40] = 71 ∧
    within sample 0 ([.get32 3] ++ .skip 71 :: [.get64 50]) ∧
    within sample 0 ([.get32 3] ++ ([.get32 30, .getBit, .skip 40] ++ [.get64 50])) := by decide

/-- `op` reads `n` bits through one of the three read methods. -/
def IsRead (n : Nat) (op : Op) : Prop :=
  (op = .get64 n ∧ n ≤ 64) ∨ (op = .get32 n ∧ n ≤ 32) ∨ (op = .getBit ∧ n = 1)

theorem IsRead.spec {n op} (h : IsRead n op) (e : Endian) (buf : List U8) (p : Nat) :
    widthOk op ∧ reach p op = p + n ∧ specVal e buf p op = some (valueAt e buf p n) ∧
      nextPos p op = p + n := by
  rcases h with ⟨rfl, h⟩ | ⟨rfl, h⟩ | ⟨rfl, rfl⟩
  · exact ⟨h, rfl, rfl, rfl⟩
  · exact ⟨h, rfl, rfl, rfl⟩
  · exact ⟨trivial, rfl, rfl, rfl⟩

theorem valueAt_lt (e : Endian) (buf : List U8) (p n : Nat) : valueAt e buf p n < 2 ^ n := by
  rw [valueAt_eq]; exact bitsVal_lt _ _ _

theorem valueAt_add (e : Endian) (buf : List U8) (p a b : Nat) :
    valueAt e buf p (a + b) =
      match e with
      | .le => valueAt e buf p a + 2 ^ a * valueAt e buf (p + a) b
      | .be => valueAt e buf p a * 2 ^ b + valueAt e buf (p + a) b := by
  induction b with
  | zero => cases e <;> simp [valueAt]
  | succ b ih =>
    rw [← Nat.add_assoc a b 1]
    cases e
    · show valueAt .le buf p (a + b) + (bit .le buf (p + (a + b))).toNat * 2 ^ (a + b) = _
      simp only [valueAt] at ih ⊢
      rw [ih, Nat.mul_add, ← Nat.add_assoc p a b, Nat.pow_add, Nat.mul_left_comm, Nat.add_assoc]
    · show 2 * valueAt .be buf p (a + b) + (bit .be buf (p + (a + b))).toNat = _
      simp only [valueAt] at ih ⊢
      rw [ih, Nat.mul_add, Nat.pow_succ, Nat.mul_comm (2 ^ b) 2, Nat.mul_left_comm,
        ← Nat.add_assoc p a b, Nat.add_assoc]

/-- **C10** After any in-data history, reading `a` then `b` bits through any mixture of the read
methods gives the two parts of reading `a+b` bits at once: low part first (little-endian), high part
first (big-endian). With `b = 0` this also says the 32- and 64-bit methods agree. -/
theorem c10_compose (e : Endian) (buf : List U8) (pre : List Op) (a b : Nat) (oa ob oab : Op)
    (hpre : within buf 0 pre) (ha : IsRead a oa) (hb : IsRead b ob) (hab : IsRead (a + b) oab)
    (hin : (specRun e buf 0 pre).2 + (a + b) + 64 ≤ 8 * buf.length) :
    ∃ r0 vpre x y r1 r2, new e buf = .ok r0 ∧ x < 2 ^ a ∧ y < 2 ^ b ∧
      run e r0 (pre ++ [oa, ob]) = .ok (vpre ++ [some x, some y], r1) ∧
      run e r0 (pre ++ [oab]) = .ok (vpre ++ [some (match e with
        | .le => x + 2 ^ a * y
        | .be => x * 2 ^ b + y)], r2) ∧
      consumed r1 = consumed r2 := by
  obtain ⟨r0, h1, h2, _, h3⟩ := new_spec e buf
  have p1 := ha.spec e buf (specRun e buf 0 pre).2
  have p2 := hb.spec e buf ((specRun e buf 0 pre).2 + a)
  have p3 := hab.spec e buf (specRun e buf 0 pre).2
  have w1 : within buf 0 (pre ++ [oa, ob]) := by
    rw [within_append e]
    refine ⟨hpre, p1.1, by rw [p1.2.1]; omega, ?_⟩
    rw [p1.2.2.2]
    exact ⟨p2.1, by rw [p2.2.1]; omega, trivial⟩
  have w2 : within buf 0 (pre ++ [oab]) := by
    rw [within_append e]
    exact ⟨hpre, p3.1, by rw [p3.2.1]; omega, trivial⟩
  obtain ⟨r1, a1, a2, a3⟩ := run_within h3 _ (by rw [h2]; exact w1)
  obtain ⟨r2, b1, b2, b3⟩ := run_within h3 _ (by rw [h2]; exact w2)
  rw [h2] at a1 a3 b1 b3
  refine ⟨r0, (specRun e buf 0 pre).1, valueAt e buf (specRun e buf 0 pre).2 a,
    valueAt e buf ((specRun e buf 0 pre).2 + a) b, r1, r2, h1, valueAt_lt .., valueAt_lt .., ?_, ?_, ?_⟩
  · rw [a1, specRun_append]
    simp only [specRun, p1.2.2.1, p1.2.2.2, p2.2.2.1]
  · rw [b1, specRun_append]
    simp only [specRun, p3.2.2.1, valueAt_add]
  · rw [a3.consumed, b3.consumed, specRun_append, specRun_append]
    simp only [specRun, p1.2.2.2, p2.2.2.2, p3.2.2.2, Nat.add_assoc]

/-- **C10** The 32- and 64-bit read functions agree. -/
theorem c10_agree (e : Endian) (buf : List U8) (pre : List Op) (n : Nat) (hn : n ≤ 32)
    (hpre : within buf 0 pre) (hin : (specRun e buf 0 pre).2 + n + 64 ≤ 8 * buf.length) :
    ∃ r0 vs r1 r2, new e buf = .ok r0 ∧ run e r0 (pre ++ [.get32 n]) = .ok (vs, r1) ∧
      run e r0 (pre ++ [.get64 n]) = .ok (vs, r2) ∧ consumed r1 = consumed r2 := by
  obtain ⟨r0, h1, h2, _, h3⟩ := new_spec e buf
  have w1 : within buf 0 (pre ++ [.get32 n]) := by
    rw [within_append e]; exact ⟨hpre, hn, hin, trivial⟩
  have w2 : within buf 0 (pre ++ [.get64 n]) := by
    rw [within_append e]; exact ⟨hpre, (by simp only [widthOk]; omega), hin, trivial⟩
  obtain ⟨r1, a1, a2, a3⟩ := run_within h3 _ (by rw [h2]; exact w1)
  obtain ⟨r2, b1, b2, b3⟩ := run_within h3 _ (by rw [h2]; exact w2)
  rw [h2] at a1 a3 b1 b3
  refine ⟨r0, _, r1, r2, h1, a1, ?_, ?_⟩
  · rw [b1, specRun_append, specRun_append]; simp only [specRun, specVal]
  · rw [a3.consumed, b3.consumed, specRun_append, specRun_append]; simp only [specRun, nextPos]

example : within sample 0 [.get32 3] ∧ IsRead 20 (.get32 20) ∧ IsRead 40 (.get64 40) ∧
    IsRead 60 (.get64 60) ∧ (specRun .be sample 0 [.get32 3]).2 + (20 + 40) + 64 ≤ 8 * sample.length := by
  refine ⟨by decide, .inr (.inl ⟨rfl, by decide⟩), .inl ⟨rfl, by decide⟩, .inl ⟨rfl, by decide⟩, by decide⟩

/-- **C11** No history of calls (each with `n` within the width of its result) panics, on any buffer,
whatever is skipped or overread; and in every state so reached the next call returns a value below
`2^n`. -/
theorem c11_no_panic (e : Endian) (buf : List U8) (ops : List Op) (op : Op)
    (ho : ∀ op ∈ ops, widthOk op) (hop : widthOk op) :
    ∃ r0 vs r v r', new e buf = .ok r0 ∧ run e r0 ops = .ok (vs, r) ∧ step e r op = .ok (v, r') ∧
      ∀ x, v = some x → x < 2 ^ opBits op := by
  obtain ⟨r0, h1, _, _, h3⟩ := new_spec e buf
  obtain ⟨vs, r, h4, _, h5⟩ := run_weak h3.weak ops ho
  obtain ⟨v, r', h6, _, _, h7⟩ := step_weak h5 op hop
  exact ⟨r0, vs, r, v, r', h1, h4, h6, h7⟩

example : (∀ op ∈ [Op.get32 32, .skip 100000, .get64 64, .align], widthOk op) ∧
    widthOk (.get64 64) := by decide

/-- **C11** When nothing more can be loaded, the bits of a read behind the `left` cached ones are 0
(`resultBit` maps reading order to bits of the result). -/
theorem c11_zero_bits (e : Endian) (buf : List U8) (r : Reader) (hr : Reachable e buf r)
    (hc : buf.length < r.index + 8) (n : Nat) (hn : n ≤ 64) :
    (∃ v r', get_bits_64 e r n = .ok (v, r') ∧
      ∀ j, r.left ≤ j → j < n → v.getLsbD (resultBit e n j) = false) ∧
    (n ≤ 32 → ∃ v r', get_bits_32 e r n = .ok (v, r') ∧
      ∀ j, r.left ≤ j → j < n → v.getLsbD (resultBit e n j) = false) ∧
    (r.left = 0 → ∃ r', get_bit e r = .ok (false, r')) := by
  obtain ⟨hw, hb⟩ := hr.weak
  have hcr : canRefill r = false := by simp [canRefill, hb]; omega
  have conv : ∀ {w} (v : BitVec w), ZeroTail e n r.left v → ∀ j, r.left ≤ j → j < n →
      v.getLsbD (resultBit e n j) = false := by
    intro w v hz j h1 h2
    cases e
    · exact hz j h2 (by simpa [ridx] using h1)
    · exact hz (n - 1 - j) (by omega) (by simp only [ridx]; omega)
  refine ⟨?_, ?_, ?_⟩
  · obtain ⟨v, r', h1, _, _, _, h2⟩ := get64_weak hw (n := n) hn
    exact ⟨v, r', h1, conv v (h2 hcr)⟩
  · intro hn
    obtain ⟨v, r', h1, _, _, _, h2⟩ := get32_weak hw (n := n) hn
    exact ⟨v, r', h1, conv v (h2 hcr)⟩
  · intro hl
    obtain ⟨b, r', h1, _, _, h2⟩ := getBit_weak hw
    exact ⟨r', by rw [h1, h2 hcr hl]⟩

example : ∃ r, Reachable .le [1, 2, 3, 4, 5, 6, 7, 8] r ∧ ([1, 2, 3, 4, 5, 6, 7, 8] : List U8).length < r.index + 8 ∧
    r.left = 24 := by
  refine ⟨_, ⟨_, [.get64 40], _, rfl, by decide, rfl⟩, by decide, by decide⟩

/-! ### C12 is false -/

/-- 16 bytes of ones; after reading 96 bits with the 32-bit function 32 bits are reported available. -/
def c12buf : List U8 := List.replicate 16 0xff
def c12ops : List Op := [.get32 32, .get32 1, .get32 31, .get32 32]

/-- **C12 fails**: `available` reports 32 bits, all of them 1 in the buffer, but every further 32-bit
read returns 0 and does not move, for ever: `while available() > 0 { get_bits_32(n) }` does not
terminate. -/
theorem c12_fails (e : Endian) : ∃ r0 vs r, new e c12buf = .ok r0 ∧
    run e r0 c12ops = .ok (vs, r) ∧ available r = .ok 32 ∧ consumed r = .ok 96 ∧
    (∀ i, i < 128 → bit e c12buf i = true) ∧
    ∀ (n k : Nat), n ≤ 32 →
      run e r (List.replicate k (.get32 n)) = .ok (List.replicate k (some 0), r) := by
  have hb : ∀ i, i < 128 → bit e c12buf i = true := by cases e <;> decide
  obtain ⟨r, h1, h2, h3, h4⟩ : ∃ r, (do run e (← new e c12buf) c12ops) =
      .ok ([some (2 ^ 32 - 1), some 1, some (2 ^ 31 - 1), some (2 ^ 32 - 1)], r) ∧
      available r = .ok 32 ∧ consumed r = .ok 96 ∧
      r = ⟨c12buf, 12, 0, 0⟩ := by
    cases e
    · exact ⟨⟨c12buf, 12, 0, 0⟩, by decide, by decide, by decide, rfl⟩
    · exact ⟨⟨c12buf, 12, 0, 0⟩, by decide, by decide, by decide, rfl⟩
  obtain ⟨r0, a1, _, _, _⟩ := new_spec e c12buf
  rw [a1] at h1
  refine ⟨r0, _, r, a1, h1, h2, h3, hb, ?_⟩
  intro n k hn
  have hstep : step e r (.get32 n) = .ok (some 0, r) := by
    subst h4
    have hs : Synced e ⟨c12buf, 12, 0, 0⟩ 96 := by
      refine ⟨by simp, by simp, by decide, by simp, ?_⟩
      intro j _
      cases e <;> simp [cacheBit]
    obtain ⟨v, r', b1, b2, b3, b4, b5⟩ := get32_spec hs hn
    have hr' : r'.index = 12 := by
      rw [b3]; simp [canRefill, c12buf]
    have hv : v.toNat = 0 := by
      have : v = 0 := by
        apply BitVec.eq_of_getLsbD_eq
        intro i _
        rw [b5 i, lbit_ge (by omega)]
        simp
      rw [this]; rfl
    have hp := b4.pos
    have hl : r'.left = 0 := by rw [hr'] at hp; omega
    have hc : r'.cache = 0 := by
      have hz := b4.zero
      cases e
      · apply BitVec.eq_of_getLsbD_eq
        intro i _
        have := hz i (by omega)
        simp only [cacheBit] at this
        simp [this]
      · apply BitVec.eq_of_getMsbD_eq
        intro i _
        have := hz i (by omega)
        simp only [cacheBit] at this
        simp [this]
    have : r' = ⟨c12buf, 12, 0, 0⟩ := by
      cases r'; simp only at b2 hr' hl hc; subst b2 hr' hl hc; rfl
    simp only [step, b1, ok_bind, pure_eq_ok, hv, this]
  induction k with
  | zero => rfl
  | succ k ih => simp only [List.replicate_succ, run, hstep, ih, ok_bind, pure_eq_ok]

/-- **C12 fails** for skips: skipping exactly to the end of a 24-byte buffer leaves the cache of its
first 8 bytes behind; `available` still says 64, and those first bytes are read again. -/
theorem c12_skip_to_end_fails : ∃ r0 vs r, new .le sample = .ok r0 ∧
    run .le r0 [.skip 192] = .ok (vs, r) ∧ available r = .ok 64 ∧ consumed r = .ok 128 ∧
    (step .le r (.get64 64)).toOption.map (·.1) = some (some (valueAt .le sample 0 64)) ∧
    valueAt .le sample 0 64 ≠ valueAt .le sample 128 64 := by
  refine ⟨_, _, _, rfl, rfl, ?_⟩
  decide

/-- **C12 fails**: skipping past the end makes `available` itself panic (subtraction underflow). -/
theorem c12_available_panics : ∃ r0 vs r, new .le sample = .ok r0 ∧
    run .le r0 [.skip 300] = .ok (vs, r) ∧ available r = .error .overflow := by
  refine ⟨_, _, _, rfl, rfl, ?_⟩
  decide

/-- **C12, partial** On buffers of whole 8-byte words, accessed only with `get_bit`, `get_bits_64`,
`align_bits`, skips of at most 64 bits and the matching peeks, every bit of the buffer (no padding
needed) is delivered and `available` counts exactly the bits that remain, so a read loop ends after
the last bit.
Missing for C12: the 32-bit functions, longer skips, and other buffer lengths, for which it is false. -/
theorem c12_whole_words_partial (e : Endian) (buf : List U8) (hl : buf.length % 8 = 0)
    (ops : List Op) (hw : withinWhole buf 0 ops) :
    ∃ r0 r, new e buf = .ok r0 ∧ run e r0 ops = .ok ((specRun e buf 0 ops).1, r) ∧
      consumed r = .ok (specRun e buf 0 ops).2 ∧
      available r = .ok (8 * buf.length - (specRun e buf 0 ops).2) := by
  obtain ⟨r0, h1, h2, h3, h4⟩ := new_spec e buf
  obtain ⟨r, a1, a2, a3, _⟩ := run_whole h4 (by rw [h2]; exact hl) (by rw [h3]; split <;> rfl) ops
    (by rw [h2]; exact hw)
  rw [h2] at a1 a3
  exact ⟨r0, r, h1, a1, a3.consumed, by rw [a3.available, a2, h2]⟩

example : sample.length % 8 = 0 ∧ withinWhole sample 0 [.get64 64, .get64 64, .getBit, .get64 63] ∧
    (specRun .be sample 0 [.get64 64, .get64 64, .getBit, .get64 63]).2 = 8 * sample.length := by decide

end Verif.BitRead
