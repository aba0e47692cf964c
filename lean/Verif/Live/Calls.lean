import Verif.Live.Queue

/-!
# Properties C148 and C149: how often `AccReader` asks the reader below it

The point of a buffer is that the reader below is asked rarely. `counted` adds a counter of the calls to any reader.
-/

namespace Verif.Live
open Verif Verif.Io Verif.Acc

variable {R : Type} {dev : Dev R}

/-- The same reader, counting the calls it gets. -/
def counted (dev : Dev R) : Dev (R × Nat) where
  read s n := ((dev.read s.1 n).1, (dev.read s.1 n).2, s.2 + 1)
  seek s sf := ((dev.seek s.1 sf).1, (dev.seek s.1 sf).2, s.2 + 1)

theorem counted_bounded (hb : Bounded dev) : Bounded (counted dev) := fun s n l h => hb s.1 n l h

/-- The calls made for a call: the counter afterwards is the counter before and `k`. -/
def Asks {X : Type} (f : Rust (X × LAcc (R × Nat))) (r : LAcc (R × Nat)) (k : Nat) : Prop :=
  ∃ x r', f = .ok (x, r') ∧ r'.inner.2 = r.inner.2 + k

theorem asks_of {X : Type} {f : Rust (X × LAcc (R × Nat))} {g : X × Queue (R × Nat)} {r : LAcc (R × Nat)} {k : Nat}
    (h : Does f g) (hk : g.2.inner.2 = r.inner.2 + k) : Asks f r k := by
  obtain ⟨r', h1, _, h3⟩ := h
  refine ⟨g.1, r', h1, ?_⟩
  have : r'.inner = g.2.inner := congrArg Queue.inner h3
  rw [this, hk]

theorem fill_count (b : Queue (R × Nat)) :
    (b.fill (counted dev)).2.inner.2 = b.inner.2 + if b.q.length < b.size then 1 else 0 := by
  unfold Queue.fill
  by_cases h : b.q.length < b.size
  · rw [if_pos h, if_pos h]
    simp only [counted]
    cases (dev.read b.inner.1 (b.size - b.q.length)).1 <;> rfl
  · rw [if_neg h, if_neg h]; rfl

theorem read_count (b : Queue (R × Nat)) (n : Nat) :
    (b.read (counted dev) n).2.inner.2 =
      b.inner.2 + if n < b.q.length then 0 else if b.size < n then 1 else if b.q.length < b.size then 1 else 0 := by
  unfold Queue.read
  by_cases h : n < b.q.length
  · rw [if_pos h, if_pos h]; rfl
  · rw [if_neg h, if_neg h]
    by_cases h2 : b.size < n
    · rw [if_pos h2, if_pos h2]
      simp only [counted]
      cases (dev.read b.inner.1 (n - b.q.length)).1 <;> rfl
    · rw [if_neg h2, if_neg h2, ← fill_count (dev := dev) b]
      cases hf : b.fill (counted dev) with
      | mk x c => cases x <;> rfl

theorem leave_count (b : Queue (R × Nat)) (sf : SeekFrom) :
    (b.leave (counted dev) sf).2.inner.2 =
      b.inner.2 + match (dev.seek b.inner.1 sf).1 with
        | .error _ => 1
        | .ok _ => if 0 < b.size then 2 else 1 := by
  unfold Queue.leave
  have e1 : (counted dev).seek b.inner sf = ((dev.seek b.inner.1 sf).1, (dev.seek b.inner.1 sf).2, b.inner.2 + 1) := rfl
  rw [e1]
  cases hs : (dev.seek b.inner.1 sf).1 with
  | error e => rfl
  | ok m =>
    have h := fill_count (dev := dev) ⟨((dev.seek b.inner.1 sf).2, b.inner.2 + 1), [], b.size, m⟩
    simp only [List.length_nil] at h
    simp only
    cases hf : Queue.fill (counted dev) ⟨((dev.seek b.inner.1 sf).2, b.inner.2 + 1), [], b.size, m⟩ with
    | mk x c =>
      rw [hf] at h
      simp only at h
      cases x <;> simp only [h] <;> split <;> omega

theorem tidy_of_run {dev : Dev R} (hb : Bounded dev) {fuel cap : Nat} {s : R} {cs : List (Call R)} {os : List Out} {r : LAcc R}
    (h : runCalls dev fuel (withCapacity cap s) cs = .ok (os, r)) : Tidy r := by
  have ha := runCalls_agree hb fuel (withCapacity_tidy cap s).1 cs
  unfold Agree at ha
  cases hq : (view (withCapacity cap s)).run dev fuel cs with
  | error p => rw [hq] at ha; rw [ha] at h; cases h
  | ok y =>
    rw [hq] at ha
    obtain ⟨r', a1, a2, _⟩ := ha
    rw [a1] at h
    cases h
    exact a2

/-- **C148, single calls.** After any history over any reader whose reads return no more than was asked for, with the bytes
`w` buffered: a read of fewer bytes than that does not ask the inner reader, any other asks it once, or not at all when it
wants exactly what a full buffer holds; `fill_buf` asks once, or not at all when the buffer is full. A seek into the buffered
bytes does not ask; any other costs the inner seek and, when that succeeds and the buffer has room at all, one read.
`consume`, `grow`, `reset_buffer_position`, `data` and the position never ask: they have no inner reader in their type but
to keep it. -/
theorem c148_calls (hb : Bounded dev) (s : R) (cap fuel : Nat) (cs : List (Call (R × Nat))) (os : List Out)
    (r : LAcc (R × Nat)) (h : runCalls (counted dev) fuel (withCapacity cap (s, 0)) cs = .ok (os, r)) :
    ∃ w, data r = .ok w ∧
    (∀ n, Asks (read (counted dev) r n) r
      (if n < w.length then 0 else if n = w.length ∧ w.length = r.buf.length then 0 else 1)) ∧
    Asks (fillBuf (counted dev) r) r (if w.length = r.buf.length then 0 else 1) ∧
    (∀ n, r.index ≤ n → n < r.index + w.length → Asks (seek (counted dev) r (.start n)) r 0) ∧
    (∀ k : Nat, k ≤ w.length → Asks (seek (counted dev) r (.current k)) r 0) ∧
    (∀ sf, Asks (seek (counted dev) r sf) r 0 ∨ Asks (seek (counted dev) r sf) r 1 ∨
      Asks (seek (counted dev) r sf) r 2) ∧
    (∀ k, (consume r k).inner = r.inner) ∧ (∀ k, (grow r k).inner = r.inner) ∧
    (∀ r', resetBufferPosition r = .ok r' → r'.inner = r.inner) := by
  have hb' := counted_bounded hb
  have ht := tidy_of_run hb' h
  have hle : (win r).length ≤ r.buf.length := by rw [ht.length]; have := ht.2; omega
  refine ⟨win r, ht.data, fun n => ?_, ?_, fun n h1 h2 => ?_, fun k hk => ?_, fun sf => ?_, fun _ => rfl, fun _ => rfl,
    fun r' hr => ?_⟩
  · refine asks_of (read_does hb' ht n) ?_
    rw [read_count]
    change r.inner.2 + (if n < (win r).length then 0 else if r.buf.length < n then 1
      else if (win r).length < r.buf.length then 1 else 0) = _
    by_cases a1 : n < (win r).length
    · rw [if_pos a1, if_pos a1]
    · rw [if_neg a1, if_neg a1]
      congr 1
      by_cases a2 : r.buf.length < n
      · rw [if_pos a2, if_neg (by omega)]
      · rw [if_neg a2]
        by_cases a3 : (win r).length < r.buf.length
        · rw [if_pos a3, if_neg (by omega)]
        · rw [if_neg a3, if_pos (by omega)]
  · refine asks_of (fill_does hb' ht) ?_
    rw [fill_count]
    change r.inner.2 + (if (win r).length < r.buf.length then 1 else 0) = _
    congr 1
    by_cases a3 : (win r).length < r.buf.length
    · rw [if_pos a3, if_neg (by omega)]
    · rw [if_neg a3, if_pos (by omega)]
  · refine asks_of (seek_does hb' ht _) ?_
    simp only [Queue.seek]
    rw [if_pos (show (view r).pos ≤ n ∧ n < (view r).pos + (view r).q.length from ⟨h1, h2⟩)]; rfl
  · refine asks_of (seek_does hb' ht _) ?_
    simp only [Queue.seek]
    rw [if_neg (by omega), if_pos (show (k : Int).toNat ≤ (view r).q.length from hk)]; rfl
  · have hl : ∀ g, (Queue.leave (counted dev) (view r) g).2.inner.2 = r.inner.2 + 1 ∨
        (Queue.leave (counted dev) (view r) g).2.inner.2 = r.inner.2 + 2 := by
      intro g
      rw [leave_count]
      split
      · exact .inl rfl
      · by_cases hs : 0 < (view r).size
        · rw [if_pos hs]; exact .inr rfl
        · rw [if_neg hs]; exact .inl rfl
    have hd := seek_does hb' ht sf
    have key : (Queue.seek (counted dev) (view r) sf).2.inner.2 = r.inner.2 + 0 ∨
        (Queue.seek (counted dev) (view r) sf).2.inner.2 = r.inner.2 + 1 ∨
        (Queue.seek (counted dev) (view r) sf).2.inner.2 = r.inner.2 + 2 := by
      cases sf with
      | «end» d => exact .inr (hl _)
      | start n =>
        simp only [Queue.seek]
        split
        · exact .inl rfl
        · exact .inr (hl _)
      | current d =>
        simp only [Queue.seek]
        split
        · exact .inr (hl _)
        · split
          · exact .inl rfl
          · exact .inr (hl _)
    rcases key with k | k | k
    · exact .inl (asks_of hd k)
    · exact .inr (.inl (asks_of hd k))
    · exact .inr (.inr (asks_of hd k))
  · obtain ⟨r1, a1, _, _, _, a5⟩ := ht.reset
    rw [a1] at hr
    cases hr
    exact congrArg Queue.inner a5

/-! ### many reads -/

/-- A reader of the bytes `dat` that returns as many bytes as are asked for, until the end of the stream. -/
structure Prompt (dev : Dev R) (dat : List U8) (at' : R → Nat) : Prop where
  read : ∀ s n, (dev.read s n).1 = .ok ((dat.drop (at' s)).take n)
  step : ∀ s n, at' (dev.read s n).2 = at' s + ((dat.drop (at' s)).take n).length

theorem Prompt.bounded {dat : List U8} {at' : R → Nat} (h : Prompt dev dat at') : Bounded dev := by
  intro s n l hl
  rw [h.read] at hl
  cases hl
  rw [List.length_take]; omega

/-- One read after another: what each returned, as long as none fails. -/
def reads (dev : Dev R) (r : LAcc R) : List Nat → Rust (Except IoErr (List (List U8)) × LAcc R)
  | [] => .ok (.ok [], r)
  | n :: ns => do
    match ← read dev r n with
    | (.error e, r) => .ok (.error e, r)
    | (.ok l, r) =>
      match ← reads dev r ns with
      | (.error e, r) => .ok (.error e, r)
      | (.ok ls, r) => .ok (.ok (l :: ls), r)

/-- What the calls to come are paid from. -/
def potential (dat : List U8) (at' : R → Nat) (K : Nat) (b : Queue (R × Nat)) : Nat :=
  if at' b.inner.1 < dat.length then K + min (b.size - b.q.length) K
  else if b.q = [] then 0 else K

theorem read_pays {dat : List U8} {at' : R → Nat} (hp : Prompt dev dat at') (b : Queue (R × Nat)) (N n : Nat)
    (hq : b.q.length ≤ b.size) (hN : N < b.size) (hn : n ≤ N) :
    ∃ l b', b.read (counted dev) n = (.ok l, b') ∧ b'.size = b.size ∧ b'.q.length ≤ b'.size ∧
      b.inner.2 ≤ b'.inner.2 ∧
      (b'.inner.2 - b.inner.2) * (b.size - N) + potential dat at' (b.size - N) b' ≤
        potential dat at' (b.size - N) b + l.length + if l = [] then b.size - N else 0 := by
  obtain ⟨⟨s, c⟩, q, size, pos⟩ := b
  simp only at hq hN
  have hK : 0 < size - N := by omega
  simp only [Queue.read]
  by_cases h1 : n < q.length
  · rw [if_pos h1]
    refine ⟨_, _, rfl, rfl, ?_, Nat.le_refl _, ?_⟩
    · simp only [Queue.take, List.length_drop]; omega
    · have hne : q ≠ [] := by intro h; rw [h] at h1; simp at h1
      have hne' : q.drop n ≠ [] := by
        intro h; have := congrArg List.length h; rw [List.length_drop] at this; simp at this; omega
      simp only [potential, Queue.take, Nat.sub_self, Nat.zero_mul, Nat.zero_add, hne, hne', if_false, List.length_drop,
        List.length_take]
      by_cases he : at' s < dat.length
      · rw [if_pos he, if_pos he]; split <;> omega
      · rw [if_neg he, if_neg he]; omega
  · rw [if_neg h1, if_neg (by omega)]
    have hroom : q.length < size := by omega
    have hr : (counted dev).read (s, c) (size - q.length) =
        (.ok ((dat.drop (at' s)).take (size - q.length)), (dev.read s (size - q.length)).2, c + 1) := by
      simp only [counted, hp.read]
    have hs := hp.step s (size - q.length)
    simp only [Queue.fill]
    rw [if_pos hroom, hr]
    simp only
    generalize hm : (dat.drop (at' s)).take (size - q.length) = m at *
    have hml : m.length = min (size - q.length) (dat.length - at' s) := by
      rw [← hm, List.length_take, List.length_drop]
    refine ⟨_, _, rfl, rfl, ?_, by simp only [Queue.take]; omega, ?_⟩
    · simp only [Queue.take, List.length_drop, List.length_append]; omega
    · simp only [potential, Queue.take, hs, List.length_drop, List.length_append, List.length_take,
        show c + 1 - c = 1 by omega, Nat.one_mul]
      have hnil : ∀ (x : List U8), x = [] ↔ x.length = 0 := fun x => List.length_eq_zero_iff.symm
      by_cases he : at' s < dat.length
      · rw [if_pos he]
        by_cases he' : at' s + m.length < dat.length
        · rw [if_pos he']
          have : m.length = size - q.length := by omega
          split <;> omega
        · rw [if_neg he']
          split <;> split <;> omega
      · rw [if_neg he, if_neg (by omega)]
        have hm0 : m = [] := by rw [hnil]; omega
        have hd : (q ++ m).drop n = [] := by
          rw [hm0, List.append_nil]; exact List.drop_eq_nil_of_le (by omega)
        rw [if_pos hd]
        by_cases hq0 : q = []
        · rw [if_pos hq0, if_pos (by rw [hm0, hq0]; simp)]; omega
        · rw [if_neg hq0]; omega

theorem reads_pay {dat : List U8} {at' : R → Nat} (hp : Prompt dev dat at') (N : Nat) (ns : List Nat)
    (hn : ∀ n ∈ ns, n ≤ N) (r : LAcc (R × Nat)) (ht : Tidy r) (hN : N < r.buf.length) :
    ∃ ls r', reads (counted dev) r ns = .ok (.ok ls, r') ∧ r.inner.2 ≤ r'.inner.2 ∧
      (r'.inner.2 - r.inner.2) * (r.buf.length - N) ≤
        potential dat at' (r.buf.length - N) (view r) + ls.flatten.length +
          (r.buf.length - N) * (ls.filter (·.isEmpty)).length := by
  have hb' := counted_bounded hp.bounded
  induction ns generalizing r with
  | nil => exact ⟨[], r, rfl, Nat.le_refl _, by simp⟩
  | cons n ns ih =>
    have hle : (view r).q.length ≤ (view r).size := by
      change (win r).length ≤ r.buf.length
      rw [ht.length]; have := ht.2; omega
    obtain ⟨l, b', a1, a2, a3, a4, a5⟩ := read_pays hp (view r) N n hle hN (hn n (by simp))
    obtain ⟨r1, c1, c2, c3⟩ := read_does hb' ht n
    rw [a1] at c1 c3
    simp only at c1 c3
    subst c3
    have hsz : r1.buf.length = r.buf.length := a2
    obtain ⟨ls, r2, d1, d2, d3⟩ := ih (fun m hm => hn m (by simp [hm])) r1 c2 (by rw [hsz]; exact hN)
    rw [hsz] at d3
    refine ⟨l :: ls, r2, by simp only [reads, c1, d1, ok_bind], ?_, ?_⟩
    · have : r.inner.2 ≤ r1.inner.2 := a4
      omega
    · have e1 : (r2.inner.2 - r.inner.2) = (r1.inner.2 - r.inner.2) + (r2.inner.2 - r1.inner.2) := by
        have : r.inner.2 ≤ r1.inner.2 := a4
        omega
      have a5' : (r1.inner.2 - r.inner.2) * (r.buf.length - N) + potential dat at' (r.buf.length - N) (view r1) ≤
        potential dat at' (r.buf.length - N) (view r) + l.length + if l = [] then r.buf.length - N else 0 := a5
      rw [e1, Nat.add_mul]
      simp only [List.flatten_cons, List.length_append]
      cases l with
      | nil =>
        simp only [List.isEmpty_nil, List.filter_cons_of_pos, List.length_cons, Nat.mul_add, Nat.mul_one]
        simp only [if_true] at a5'
        omega
      | cons x l =>
        rw [List.filter_cons_of_neg (by simp)]
        simp only [reduceCtorEq, if_false] at a5'
        omega

/-- **C148, many reads.** Over a reader that returns what is asked for until the end of its stream, after any history: any
number of reads of at most `N` bytes, for `N` below the buffer's size, succeed, and ask the inner reader at most twice, once
for every read that returned nothing, and once for each `size - N` bytes delivered. -/
theorem c148_amortised {dat : List U8} {at' : R → Nat} (hp : Prompt dev dat at') (s : R) (cap fuel : Nat)
    (cs : List (Call (R × Nat))) (os : List Out) (r : LAcc (R × Nat))
    (h : runCalls (counted dev) fuel (withCapacity cap (s, 0)) cs = .ok (os, r))
    (N : Nat) (hN : N < r.buf.length) (ns : List Nat) (hn : ∀ n ∈ ns, n ≤ N) :
    ∃ ls r', reads (counted dev) r ns = .ok (.ok ls, r') ∧
      r'.inner.2 ≤ r.inner.2 + 2 + (ls.filter (·.isEmpty)).length + ls.flatten.length / (r.buf.length - N) := by
  have ht := tidy_of_run (counted_bounded hp.bounded) h
  obtain ⟨ls, r', a1, a2, a3⟩ := reads_pay hp N ns hn r ht hN
  refine ⟨ls, r', a1, ?_⟩
  have hK : 0 < r.buf.length - N := by omega
  have hpot : potential dat at' (r.buf.length - N) (view r) ≤ 2 * (r.buf.length - N) := by
    unfold potential; split
    · omega
    · split <;> omega
  generalize r.buf.length - N = K at *
  have h4 : (r'.inner.2 - r.inner.2 - 2 - (ls.filter (·.isEmpty)).length) * K ≤ ls.flatten.length := by
    rw [Nat.sub_mul, Nat.sub_mul, Nat.mul_comm _ K, Nat.mul_comm (ls.filter _).length K]
    rw [Nat.mul_comm _ K] at a3
    omega
  have h5 := (Nat.le_div_iff_mul_le hK).2 h4
  omega

/-- Bytes in memory. -/
def memory (dat : List U8) : Dev Nat where
  read s n := (.ok ((dat.drop s).take n), s + ((dat.drop s).take n).length)
  seek s sf :=
    match sf with
    | .start n => (.ok n, n)
    | .end d => (.ok (dat.length + d).toNat, (dat.length + d).toNat)
    | .current d => (.ok (s + d).toNat, (s + d).toNat)

theorem memory_prompt (dat : List U8) : Prompt (memory dat) dat id := ⟨fun _ _ => rfl, fun _ _ => rfl⟩

/- 24 bytes through a buffer of 8, in pieces of 2: the bound is 2 + 1 + 24/6 calls; the reader is asked six times. -/
example : (∀ n ∈ List.replicate 13 2, n ≤ 2) ∧
    (match reads (counted (memory ((List.range 24).map (BitVec.ofNat 8)))) (withCapacity 8 (0, 0)) (List.replicate 13 2) with
      | .ok (.ok ls, r) => (ls.flatten.length, (ls.filter (·.isEmpty)).length, r.inner.2)
      | _ => (0, 0, 0)) = (24, 1, 6) := by decide +kernel

/- The single calls, after a history that leaves 3 of 8 bytes buffered. -/
example : (match runCalls (counted (memory ((List.range 24).map (BitVec.ofNat 8)))) 9 (withCapacity 8 (0, 0))
      [.op .fillBuf, .op (.read 5)] with
    | .ok (_, r) => (match data r with | .ok w => w.length | _ => 0, r.inner.2,
        (match read (counted (memory [])) r 2 with | .ok (_, r) => r.inner.2 | _ => 0),
        (match read (counted (memory [])) r 3 with | .ok (_, r) => r.inner.2 | _ => 0),
        match seek (counted (memory [])) r (.start 0) with | .ok (_, r) => r.inner.2 | _ => 0)
    | _ => (0, 0, 0, 0, 0)) = (3, 1, 1, 2, 3) := by decide +kernel

/-! ### C149: `fill_buf` with bytes buffered -/

/-- **C149, what it does.** After any history, `fill_buf` asks the inner reader exactly if fewer bytes are buffered than the
buffer holds: with nothing buffered it asks, as the documentation of `BufRead` has it, but it also asks with bytes
buffered, unless they are as many as the buffer can hold. When it asks, it returns what is buffered followed by what
the reader returned, or the reader's error, with what is buffered untouched. -/
theorem c149_exact_partial (hb : Bounded dev) (s : R) (cap fuel : Nat) (cs : List (Call R)) (os : List Out) (r : LAcc R)
    (h : runCalls dev fuel (withCapacity cap s) cs = .ok (os, r)) :
    ∃ w, data r = .ok w ∧ w.length ≤ r.buf.length ∧
      if w.length = r.buf.length then ∃ r', fillBuf dev r = .ok (.ok w, r') ∧ r'.inner = r.inner ∧ data r' = .ok w
      else ∃ r', r'.inner = (dev.read r.inner (r.buf.length - w.length)).2 ∧
        match (dev.read r.inner (r.buf.length - w.length)).1 with
        | .error e => fillBuf dev r = .ok (.error e, r') ∧ data r' = .ok w
        | .ok l => fillBuf dev r = .ok (.ok (w ++ l), r') ∧ data r' = .ok (w ++ l) := by
  have ht := tidy_of_run hb h
  have hle : (win r).length ≤ r.buf.length := by rw [ht.length]; have := ht.2; omega
  refine ⟨win r, ht.data, hle, ?_⟩
  obtain ⟨r', a1, a2, a3⟩ := fill_does hb ht
  by_cases hf : (win r).length = r.buf.length
  · rw [if_pos hf]
    have e : (view r).fill dev = (.ok (win r), view r) := by
      unfold Queue.fill
      rw [if_neg (by simp only [view]; omega)]; rfl
    rw [e] at a1 a3
    exact ⟨r', a1, congrArg Queue.inner a3, by rw [a2.data]; exact congrArg Except.ok (congrArg Queue.q a3)⟩
  · rw [if_neg hf]
    unfold Queue.fill at a1 a3
    rw [if_pos (by simp only [view]; omega)] at a1 a3
    simp only [view] at a1 a3
    refine ⟨r', ?_⟩
    cases hr : dev.read r.inner (r.buf.length - (win r).length) with
    | mk x s' =>
      rw [hr] at a1 a3
      cases x with
      | error e =>
        exact ⟨congrArg Queue.inner a3, a1, by rw [a2.data]; exact congrArg Except.ok (congrArg Queue.q a3)⟩
      | ok l =>
        exact ⟨congrArg Queue.inner a3, a1, by rw [a2.data]; exact congrArg Except.ok (congrArg Queue.q a3)⟩

/-- A connection: three bytes arrive, then it breaks. -/
def broken : Dev Nat where
  read s n := if s = 0 then (.ok ([1, 2, 3].take n), 1) else (.error (.other 32), s + 1)
  seek s _ := (.error (.other 32), s)

theorem broken_bounded : Bounded broken := by
  intro s n l h
  simp only [broken] at h
  split at h
  · cases h; rw [List.length_take]; omega
  · cases h

/-- **C149 fails.** "`fill_buf` asks the inner reader only when nothing is buffered": after one byte of three is used,
`fill_buf` asks again, and the caller gets the connection's error instead of the two bytes that are there (`data` has them). -/
theorem c149_fails : ∃ r, runCalls broken 0 (withCapacity 4096 0) [.op .fillBuf, .op (.consume 1)] =
      .ok ([.shown [1, 2, 3], .bytes [1]], r) ∧ data r = .ok [2, 3] ∧
    ∃ r', fillBuf broken r = .ok (.error (.other 32), r') ∧ data r' = .ok [2, 3] := by
  have h := c137_queue broken_bounded 0 4096 0 [.op .fillBuf, .op (.consume 1)]
  have e : (⟨0, [], 4096, 0⟩ : Queue Nat).run broken 0 [.op .fillBuf, .op (.consume 1)] =
      .ok ([.shown [1, 2, 3], .bytes [1]], ⟨1, [2, 3], 4096, 1⟩) := by rfl
  rw [e] at h
  obtain ⟨r, h1, h2, h3, h4, _⟩ := h
  refine ⟨r, h1, h3, ?_⟩
  obtain ⟨w, b1, b2, b3⟩ := c149_exact_partial broken_bounded 0 4096 0 _ _ r h1
  rw [h3] at b1
  cases b1
  rw [if_neg (by rw [h4]; decide)] at b3
  obtain ⟨r', _, c2⟩ := b3
  rw [h2, h4] at c2
  exact ⟨r', c2.1, c2.2⟩

/- Both cases of the exact statement occur. -/
example : (match runCalls (memory [1, 2, 3, 4, 5]) 0 (withCapacity 4 0) [.op .fillBuf] with
    | .ok (_, r) => match data r with | .ok w => decide (w.length = r.buf.length) | _ => false
    | _ => false) = true ∧
    (match runCalls (memory [1, 2, 3, 4, 5]) 0 (withCapacity 4 0) [.op .fillBuf, .op (.consume 1)] with
    | .ok (_, r) => match fillBuf (memory [1, 2, 3, 4, 5]) r with | .ok (.ok w, _) => decide (w = [2, 3, 4, 5]) | _ => false
    | _ => false) = true := by decide +kernel

end Verif.Live
