import Verif.BitRead.Exact
import Verif.Acc.Props
import Verif.Conform.BitRead

/-!
# Property C153: the benchmarks of the library, on every input

/repo/benches/bitstream.rs, /repo/benches/format.rs and /repo/bitstream/benches/bitread.rs use the readers on fixed inputs.
Here the inputs are arbitrary.
-/

namespace Verif.Conform
open Verif Verif.Io
open Verif.BitRead (Endian Cur Follows Reader Op within widthOk nextPos reach specRun new run available)

/-! ### /repo/benches/bitstream.rs: `while reader.available() > 0` -/

theorem round_loaded (buf : List U8) (i : Nat) :
    (Cur.run .le buf ⟨i + 8, i + 8, 8 * i⟩ benchRound).2 = ⟨i + 8, i + 8, 8 * (i + 8)⟩ := by
  have hl : ∀ k, k ≤ 64 → Cur.left ⟨i + 8, i + 8, 8 * i + k⟩ = 64 - k := by intro k hk; simp only [Cur.left]; omega
  have hs : ∀ k n, k + n ≤ 64 → Cur.skip buf.length ⟨i + 8, i + 8, 8 * i + k⟩ n = ⟨i + 8, i + 8, 8 * i + (k + n)⟩ := by
    intro k n h
    rw [Cur.skip, if_pos (by rw [hl k (by omega)]; omega), Cur.drop]
    congr 1
    simp only
    omega
  have hg : ∀ k n, k + n < 64 → Cur.next buf.length ⟨i + 8, i + 8, 8 * i + k⟩ (.get32 n) = ⟨i + 8, i + 8, 8 * i + (k + n)⟩ := by
    intro k n h
    rw [Cur.next, Cur.prepare, if_neg (by rw [hl k (by omega)]; omega), Cur.drop]
    congr 1
    simp only
    omega
  have h0 : (⟨i + 8, i + 8, 8 * i⟩ : Cur) = ⟨i + 8, i + 8, 8 * i + 0⟩ := rfl
  rw [h0]
  simp only [benchRound, Cur.run]
  have n1 : ∀ k n, Cur.next buf.length ⟨i + 8, i + 8, 8 * i + k⟩ (.skip n) = Cur.skip buf.length ⟨i + 8, i + 8, 8 * i + k⟩ n :=
    fun _ _ => rfl
  have n2 : ∀ c n, Cur.next buf.length c (.peek32 n) = c := fun _ _ => rfl
  rw [n1, hs 0 1 (by omega), hg 1 1 (by omega), n1, hs 2 3 (by omega), hg 5 3 (by omega), n1, hs 8 5 (by omega),
    hg 13 5 (by omega), n1, hs 18 7 (by omega), hg 25 7 (by omega), n1, hs 32 11 (by omega), hg 43 11 (by omega), n2, n1,
    hs 54 10 (by omega)]
  congr 1

theorem left_none (i : Nat) : Cur.left ⟨i, i, 8 * i⟩ = 0 := by simp only [Cur.left]; omega

theorem round_next (buf : List U8) (i : Nat) (h : i + 8 ≤ buf.length) :
    (Cur.run .le buf ⟨i, i, 8 * i⟩ benchRound).2 = ⟨i + 8, i + 8, 8 * (i + 8)⟩ := by
  -- the first skip loads; from there on as above
  have h1 : Cur.next buf.length ⟨i, i, 8 * i⟩ (.skip 1) = Cur.next buf.length ⟨i + 8, i + 8, 8 * i⟩ (.skip 1) := by
    have hl : Cur.left ⟨i + 8, i + 8, 8 * i⟩ = 64 := by simp only [Cur.left]; omega
    rw [Cur.next, Cur.next, Cur.skip, Cur.skip, left_none, hl]
    rw [if_neg (by omega), if_pos (by omega : 1 ≤ 64)]
    simp only [Nat.sub_zero, Nat.add_zero, Nat.mul_zero, show ¬ (1 > 64) by omega, if_false, h, if_true, Cur.drop]
    congr 1
    omega
  rw [← round_loaded buf i]
  simp only [benchRound, Cur.run]
  rw [h1]

theorem round_stuck (buf : List U8) (i : Nat) (h : buf.length < i + 8) :
    (Cur.run .le buf ⟨i, i, 8 * i⟩ benchRound).2 = ⟨i, i, 8 * i⟩ := by
  have hs : ∀ n, n ≤ 64 → Cur.next buf.length ⟨i, i, 8 * i⟩ (.skip n) = ⟨i, i, 8 * i⟩ := by
    intro n hn
    rw [Cur.next, Cur.skip, left_none]
    by_cases h0 : n ≤ 0
    · rw [if_pos h0, Cur.drop]
      congr 1
      simp only
      omega
    · rw [if_neg h0]
      simp only [Nat.sub_zero, show ¬ (n > 64) by omega, if_false, Nat.add_zero, Nat.mul_zero, show ¬ i + 8 ≤ buf.length by omega,
        Cur.drop]
      congr 1
      omega
  have hg : ∀ n, Cur.next buf.length ⟨i, i, 8 * i⟩ (.get32 n) = ⟨i, i, 8 * i⟩ := by
    intro n
    have hld : Cur.load buf.length 4 ⟨i, i, 8 * i⟩ = ⟨i, i, 8 * i⟩ := by rw [Cur.load, if_neg (by simp only; omega)]
    simp only [Cur.next, Cur.prepare, hld]
    rw [ite_self, Cur.drop]
    congr 1
    simp only
    omega
  have n2 : ∀ c n, Cur.next buf.length c (.peek32 n) = c := fun _ _ => rfl
  simp only [benchRound, Cur.run]
  rw [hs _ (by omega), hg, hs _ (by omega), hg, hs _ (by omega), hg, hs _ (by omega), hg, hs _ (by omega), hg, n2,
    hs _ (by omega)]

theorem benchRound_ok : ∀ op ∈ benchRound, widthOk op := by decide

/-- What is left is reported before each round of 64 bits. -/
def reports : Nat → List Nat
  | 0 => []
  | k + 1 => 64 * (k + 1) :: reports k

theorem loop_step {r : Reader} {c : Cur} {i : Nat} {buf : List U8} (hb : r.buffer = buf) (hf : Follows .le r c) (a fuel : Nat)
    (ha : available r = .ok a) (h0 : 0 < a) (hc : (Cur.run .le buf c benchRound).2 = ⟨i, i, 8 * i⟩) :
    ∃ r', r'.buffer = buf ∧ Follows .le r' ⟨i, i, 8 * i⟩ ∧
      benchLoop (fuel + 1) r = (do let xs ← benchLoop fuel r'; return a :: xs) := by
  obtain ⟨r', a1, a2, a3⟩ := BitRead.run_follows hf benchRound benchRound_ok
  rw [hb] at a1 a2 a3
  rw [hc] at a3
  refine ⟨r', a2, a3, ?_⟩
  simp only [benchLoop, ha, ok_bind]
  rw [if_pos h0]
  simp only [a1, ok_bind]

theorem loop_words (buf : List U8) : ∀ (k fuel i : Nat) (r : Reader), r.buffer = buf → Follows .le r ⟨i, i, 8 * i⟩ →
    buf.length = i + 8 * k → k < fuel → benchLoop fuel r = .ok (reports k) := by
  intro k
  induction k with
  | zero =>
    intro fuel i r hb hf hl hfu
    obtain ⟨f, rfl⟩ : ∃ f, fuel = f + 1 := ⟨fuel - 1, by omega⟩
    have ha := hf.available
    rw [hb, if_pos (by simp only; omega)] at ha
    have : 8 * (buf.length - i) + Cur.left ⟨i, i, 8 * i⟩ = 0 := by simp only [Cur.left]; omega
    rw [this] at ha
    simp only [benchLoop, ha, ok_bind]
    rfl
  | succ k ih =>
    intro fuel i r hb hf hl hfu
    obtain ⟨f, rfl⟩ : ∃ f, fuel = f + 1 := ⟨fuel - 1, by omega⟩
    have ha := hf.available
    rw [hb, if_pos (by simp only; omega)] at ha
    have : 8 * (buf.length - i) + Cur.left ⟨i, i, 8 * i⟩ = 64 * (k + 1) := by simp only [Cur.left]; omega
    rw [this] at ha
    obtain ⟨r', b1, b2, b3⟩ := loop_step hb hf _ f ha (by omega) (round_next buf i (by omega))
    rw [b3, ih f (i + 8) r' b1 b2 (by omega) (by omega)]
    rfl

theorem loop_stuck (buf : List U8) (i : Nat) (h1 : i < buf.length) (h2 : buf.length < i + 8) :
    ∀ (fuel : Nat) (r : Reader), r.buffer = buf → Follows .le r ⟨i, i, 8 * i⟩ → benchLoop fuel r = .error .fuel := by
  intro fuel
  induction fuel with
  | zero => intro r _ _; rfl
  | succ f ih =>
    intro r hb hf
    have ha := hf.available
    rw [hb, if_pos (by simp only; omega)] at ha
    obtain ⟨r', b1, b2, b3⟩ := loop_step hb hf _ f ha (by simp only; omega) (round_stuck buf i h2)
    rw [b3, ih r' b1 b2]
    rfl

theorem loop_never (buf : List U8) : ∀ (k fuel i : Nat) (r : Reader), r.buffer = buf → Follows .le r ⟨i, i, 8 * i⟩ →
    buf.length / 8 = i / 8 + k → i % 8 = 0 → buf.length % 8 ≠ 0 → benchLoop fuel r = .error .fuel := by
  intro k
  induction k with
  | zero =>
    intro fuel i r hb hf hl hi hne
    exact loop_stuck buf i (by omega) (by omega) fuel r hb hf
  | succ k ih =>
    intro fuel i r hb hf hl hi hne
    cases fuel with
    | zero => rfl
    | succ f =>
      have ha := hf.available
      rw [hb, if_pos (by simp only; omega)] at ha
      obtain ⟨r', b1, b2, b3⟩ := loop_step hb hf _ f ha (by simp only; omega) (round_next buf i (by omega))
      rw [b3, ih f (i + 8) r' b1 b2 (by omega) (by omega) hne]
      rfl

theorem start_first (buf : List U8) (h : 8 ≤ buf.length) : Cur.start buf.length = ⟨0 + 8, 0 + 8, 8 * 0⟩ := by
  simp only [Cur.start, Cur.load]
  rw [if_pos (by omega)]

/-- C153 fails: the loop of the benchmark on an input of another length than whole words goes on for ever (on the bytes
behind the last whole word). -/
theorem c153_fails (buf : List U8) (h : buf.length % 8 ≠ 0) (fuel : Nat) :
    (do benchLoop fuel (← new .le buf)) = .error .fuel := by
  obtain ⟨r0, h1, h2, h3⟩ := BitRead.new_follows .le buf
  rw [h1, ok_bind]
  by_cases h8 : 8 ≤ buf.length
  · rw [start_first buf h8] at h3
    cases fuel with
    | zero => rfl
    | succ f =>
      have ha := h3.available
      rw [h2, if_pos (by simp only; omega)] at ha
      obtain ⟨r', b1, b2, b3⟩ := loop_step h2 h3 _ f ha (by simp only [Cur.left]; omega) (round_loaded buf 0)
      rw [b3, loop_never buf (buf.length / 8 - 1) f 8 r' b1 b2 (by omega) (by omega) h]
      rfl
  · have h0 : Cur.start buf.length = ⟨0, 0, 8 * 0⟩ := by
      simp only [Cur.start, Cur.load]
      rw [if_neg (by omega)]
    rw [h0] at h3
    exact loop_stuck buf 0 (by omega) (by omega) fuel r0 h2 h3

example : ([0x55, 0x55, 0x55] : List U8).length % 8 ≠ 0 ∧ (List.replicate 17 (0x55 : U8)).length % 8 ≠ 0 := by decide

/-- C153, partial: on every input of whole words it ends after as many rounds as there are words, and before each round
64 bits less are available. Missing: other lengths, for which it is false. -/
theorem c153_partial (buf : List U8) (k : Nat) (h : buf.length = 8 * k) (fuel : Nat) (hf : k < fuel) :
    (do benchLoop fuel (← new .le buf)) = .ok (reports k) := by
  obtain ⟨r0, h1, h2, h3⟩ := BitRead.new_follows .le buf
  rw [h1, ok_bind]
  cases k with
  | zero =>
    have h0 : Cur.start buf.length = ⟨0, 0, 8 * 0⟩ := by
      simp only [Cur.start, Cur.load]
      rw [if_neg (by omega)]
    rw [h0] at h3
    exact loop_words buf 0 fuel 0 r0 h2 h3 (by omega) hf
  | succ k =>
    rw [start_first buf (by omega)] at h3
    obtain ⟨f, rfl⟩ : ∃ f, fuel = f + 1 := ⟨fuel - 1, by omega⟩
    have ha := h3.available
    rw [h2, if_pos (by simp only; omega)] at ha
    have : 8 * (buf.length - (0 + 8)) + Cur.left ⟨0 + 8, 0 + 8, 8 * 0⟩ = 64 * (k + 1) := by simp only [Cur.left]; omega
    rw [this] at ha
    obtain ⟨r', b1, b2, b3⟩ := loop_step h2 h3 _ f ha (by omega) (round_loaded buf 0)
    rw [b3, loop_words buf k f 8 r' b1 b2 (by omega) (by omega)]
    rfl

/-- The input of the benchmark (bitstream.rs:4). -/
example : (List.replicate 16 (0b01010101 : U8)).length = 8 * 2 ∧ reports 2 = [128, 64] := by decide

/-! ### /repo/bitstream/benches/bitread.rs -/

/-- `for l in 0..31 { rr.get_bits_32(l); } rr.get_bit(); for l in 0..31 { rr.get_bits_32(l); }` (bitread.rs:20-28). -/
def bench32 : List Op := (List.replicate 1024 ((List.range 31).map .get32 ++ [.getBit] ++ (List.range 31).map .get32)).flatten

/-- `for l in 0..31 { rr.get_bits_64(l); } rr.get_bit(); for l in 32..63 { rr.get_bits_64(l); }` (bitread.rs:35-43). -/
def bench64 : List Op :=
  (List.replicate 1024 ((List.range 31).map .get64 ++ [.getBit] ++ (List.range' 32 31).map .get64)).flatten

/-- `for l in 0..31 { rr.get_bits_64(l); rr.get_bit(); rr.get_bits_32(l); }` (bitread.rs:50-56). -/
def benchMix : List Op := (List.replicate 1024 ((List.range 31).flatMap fun l => [.get64 l, .getBit, .get32 l])).flatten

/-- How far a call moves, for calls that only read. -/
def readsBits : Op → Option Nat
  | .getBit => some 1
  | .get32 n => if n ≤ 32 then some n else none
  | .get64 n => if n ≤ 64 then some n else none
  | _ => none

/-- The bits of a sequence of such calls. -/
def totalBits : List Op → Option Nat
  | [] => some 0
  | op :: ops => do return (← readsBits op) + (← totalBits ops)

theorem totalBits_within (buf : List U8) : ∀ (ops : List Op) (p t : Nat), totalBits ops = some t →
    p + t + 64 ≤ 8 * buf.length → within buf p ops := by
  intro ops
  induction ops with
  | nil => intro p t _ _; trivial
  | cons op ops ih =>
    intro p t h hle
    rw [totalBits] at h
    cases hr : readsBits op with
    | none => rw [hr] at h; cases h
    | some n =>
      cases ht : totalBits ops with
      | none => rw [hr, ht] at h; cases h
      | some m =>
        rw [hr, ht] at h
        cases h
        have key : widthOk op ∧ reach p op = p + n ∧ nextPos p op = p + n := by
          cases op with
          | getBit => cases hr; exact ⟨trivial, rfl, rfl⟩
          | get32 k =>
            simp only [readsBits] at hr
            by_cases hk : k ≤ 32
            · rw [if_pos hk] at hr; cases hr; exact ⟨hk, rfl, rfl⟩
            · rw [if_neg hk] at hr; cases hr
          | get64 k =>
            simp only [readsBits] at hr
            by_cases hk : k ≤ 64
            · rw [if_pos hk] at hr; cases hr; exact ⟨hk, rfl, rfl⟩
            · rw [if_neg hk] at hr; cases hr
          | _ => cases hr
        refine ⟨key.1, by rw [key.2.1]; omega, ?_⟩
        rw [key.2.2]
        exact ih _ _ ht (by omega)

theorem totalBits_append : ∀ (a b : List Op) (s t : Nat), totalBits a = some s → totalBits b = some t →
    totalBits (a ++ b) = some (s + t) := by
  intro a
  induction a with
  | nil => intro b s t h1 h2; cases h1; simpa using h2
  | cons op a ih =>
    intro b s t h1 h2
    rw [totalBits] at h1
    cases hr : readsBits op with
    | none => rw [hr] at h1; cases h1
    | some n =>
      cases ht : totalBits a with
      | none => rw [hr, ht] at h1; cases h1
      | some m =>
        rw [hr, ht] at h1
        cases h1
        rw [List.cons_append, totalBits, hr, ih b m t ht h2]
        exact congrArg some (Nat.add_assoc n m t).symm

theorem totalBits_rounds (ops : List Op) (t : Nat) (h : totalBits ops = some t) :
    ∀ n, totalBits (List.replicate n ops).flatten = some (n * t) := by
  intro n
  induction n with
  | zero => simp [totalBits]
  | succ n ih =>
    rw [List.replicate_succ, List.flatten_cons, totalBits_append _ _ _ _ h ih, Nat.add_mul, Nat.one_mul, Nat.add_comm]

theorem bench32_bits : totalBits bench32 = some 953344 :=
  totalBits_rounds _ 931 (by decide) 1024

theorem bench64_bits : totalBits bench64 = some 1969152 :=
  totalBits_rounds _ 1923 (by decide) 1024

theorem benchMix_bits : totalBits benchMix = some 984064 :=
  totalBits_rounds _ 961 (by decide +kernel) 1024

/-- C153: with both readers, on every input with 246152 bytes or more, the three loops end without a panic, and every call
in them returns the bits that follow. (The benchmark has 262144 bytes.) -/
theorem c153_reads (e : Endian) (buf : List U8) (h : 246152 ≤ buf.length) (ops : List Op)
    (ho : ops = bench32 ∨ ops = bench64 ∨ ops = benchMix) :
    ∃ r0 r, new e buf = .ok r0 ∧ run e r0 ops = .ok ((specRun e buf 0 ops).1, r) := by
  have hw : within buf 0 ops := by
    rcases ho with rfl | rfl | rfl
    · exact totalBits_within buf _ 0 _ bench32_bits (by omega)
    · exact totalBits_within buf _ 0 _ bench64_bits (by omega)
    · exact totalBits_within buf _ 0 _ benchMix_bits (by omega)
  cases e with
  | le =>
    obtain ⟨r0, r, h1, h2⟩ := BitRead.c04_le_stream buf ops hw
    exact ⟨r0, r, h1, h2⟩
  | be =>
    obtain ⟨r0, r, h1, h2⟩ := BitRead.c05_be_stream buf ops hw
    exact ⟨r0, r, h1, h2⟩

/-- The buffer of the benchmark (bitread.rs:7). -/
example : (List.replicate 2048 ((List.range 128).map (BitVec.ofNat 8))).flatten.length = 262144 := by
  rw [List.length_flatten, List.map_replicate, List.sum_replicate_nat, List.length_map, List.length_range]

/-! ### /repo/benches/format.rs -/

theorem pieces_ones (dat : List U8) : ∀ n p, p + n = dat.length →
    Acc.pieces dat p (List.replicate n 1) = (dat.drop p).map (fun b => .bytes [b]) := by
  intro n
  induction n with
  | zero => intro p h; rw [List.drop_eq_nil_of_le (by omega)]; rfl
  | succ n ih =>
    intro p h
    rw [List.replicate_succ, Acc.pieces, ih (p + 1) (by omega), List.drop_eq_getElem_cons (by omega)]
    rfl

/-- C153: with any capacity and any reader that does not fail, the loop of `read_exact` with one byte gets every byte of
every input. -/
theorem c153_bytes (dat : List U8) (cap : Nat) (script : Nat → Act) (hs : ∀ k, (script k).fail = none) :
    ∃ r, Acc.run 2 (Acc.withCapacity cap ⟨dat, 0, script, 0⟩) (List.replicate dat.length (.readExact 1)) =
      .ok (dat.map (fun b => .bytes [b]), r) := by
  have hi : Acc.Inv dat (Acc.withCapacity cap ⟨dat, 0, script, 0⟩) := Acc.withCapacity_inv cap ⟨dat, 0, script, 0⟩ rfl
  obtain ⟨r, h1, _⟩ := Acc.splits_spec 2 hi (List.replicate dat.length 1) hs
    (by intro n hn; rw [List.eq_of_mem_replicate hn]; omega)
    (by simp [Acc.withCapacity])
  refine ⟨r, ?_⟩
  have h0 : (Acc.withCapacity cap (⟨dat, 0, script, 0⟩ : Source)).index = 0 := rfl
  rw [List.map_replicate, h0, pieces_ones dat dat.length 0 (by omega), List.drop_zero] at h1
  exact h1

/-- The input and the capacity of the benchmark (format.rs:7, 11). -/
example : ∃ r, Acc.run 2 (Acc.withCapacity 5 ⟨List.replicate 16 0b01010101, 0, fun _ => ⟨none, 999⟩, 0⟩)
    (List.replicate 16 (.readExact 1)) = .ok (List.replicate 16 (.bytes [0b01010101]), r) :=
  c153_bytes (List.replicate 16 0b01010101) 5 _ (fun _ => rfl)

end Verif.Conform
