import Verif.Frame.Model

/-!
# Property C168: frames and packets that are shared

Frames and packets are handed over as `Arc`s (`ArcFrame`, `ArcPacket`): a decoder may keep the frame it returns, an encoder the frame it
is sent and a muxer the packet it is to write, while the application goes on using its own. The other models take an `Arc<T>` for a `T`
(DESIGN.md). This file says why: it has the memory of the `Arc`s with their counts, and shows that each holder sees a value of its own.
-/

namespace Verif.Shared
open Verif

/-- What an `Arc` points to: the value and the number of `Arc`s that point to it (`std::sync::Arc`, frame.rs:582, packet.rs:83). -/
structure Cell (α : Type) where
  val : α
  strong : Nat

/-- The memory of all `Arc`s of a type, and the `Arc`s themselves, wherever they are kept: an address, or nothing if the `Arc` was
dropped. `next` is the first address that was never used. -/
structure Mem (α : Type) where
  cells : Nat → Option (Cell α)
  next : Nat
  arcs : List (Option Nat)

/-- No `Arc` was made yet. -/
def Mem.empty : Mem α := ⟨fun _ => none, 0, []⟩

/-- What can be done with the `i`-th `Arc` ever made (methods of `std::sync::Arc`; frame.rs:582, packet.rs:83). -/
inductive Op (α : Type)
  | new (v : α) | clone (i : Nat) | drop (i : Nat) | get (i : Nat) | getMut (i : Nat) (f : α → α) | makeMut (i : Nat) (f : α → α)
  | tryUnwrap (i : Nat)

/-- What it returns: nothing, the value read or taken out, whether the value may be written. -/
inductive Out (α : Type) | unit | val (v : α) | may (b : Bool)

def Mem.store (h : Mem α) (a : Nat) (c : Option (Cell α)) : Mem α := { h with cells := fun b => if b = a then c else h.cells b }

/-- `Drop for Arc`: the count goes down, and at 0 the value is freed. Using a value that was freed is undefined behaviour. -/
def Mem.release (h : Mem α) (a : Nat) : Rust (Mem α) :=
  match h.cells a with
  | none => .error .ub
  | some c => if c.strong = 1 then .ok (h.store a none) else .ok (h.store a (some { c with strong := c.strong - 1 }))

/-- The `i`-th `Arc`, if it was not dropped. -/
def Mem.arc (h : Mem α) (i : Nat) : Option Nat := h.arcs[i]?.join

/-- The cell it points to. Reading a value that was freed is undefined behaviour. -/
def Mem.deref (h : Mem α) (a : Nat) : Rust (Cell α) :=
  match h.cells a with
  | none => .error .ub
  | some c => .ok c

/-- One call (`Arc::new`, `clone`, `drop`, `deref`, `get_mut`, `make_mut`, `try_unwrap` of std, without weak pointers). A call on an
`Arc` that was dropped or moved out is rejected by the compiler; here it does nothing. -/
def step (h : Mem α) : Op α → Rust (Out α × Mem α)
  | .new v => .ok (.unit, { (h.store h.next (some ⟨v, 1⟩)) with next := h.next + 1, arcs := h.arcs ++ [some h.next] })
  | .clone i =>
    match h.arc i with
    | none => .ok (.unit, h)
    | some a => do
      let c ← h.deref a
      return (.unit, { (h.store a (some { c with strong := c.strong + 1 })) with arcs := h.arcs ++ [some a] })
  | .drop i =>
    match h.arc i with
    | none => .ok (.unit, h)
    | some a => do
      let h ← h.release a
      return (.unit, { h with arcs := h.arcs.set i none })
  | .get i =>
    match h.arc i with
    | none => .ok (.unit, h)
    | some a => do
      let c ← h.deref a
      return (.val c.val, h)
  | .getMut i f =>
    match h.arc i with
    | none => .ok (.unit, h)
    | some a => do
      let c ← h.deref a
      if c.strong = 1 then return (.may true, h.store a (some { c with val := f c.val }))
      else return (.may false, h)
  | .makeMut i f =>
    match h.arc i with
    | none => .ok (.unit, h)
    | some a => do
      let c ← h.deref a
      if c.strong = 1 then return (.unit, h.store a (some { c with val := f c.val }))
      else do
        let h := { (h.store h.next (some ⟨f c.val, 1⟩)) with next := h.next + 1 }
        let h ← h.release a
        return (.unit, { h with arcs := h.arcs.set i (some (h.next - 1)) })
  | .tryUnwrap i =>
    match h.arc i with
    | none => .ok (.unit, h)
    | some a => do
      let c ← h.deref a
      if c.strong = 1 then return (.val c.val, { (h.store a none) with arcs := h.arcs.set i none })
      else return (.may false, h)

/-- A history of calls by all holders, in the order in which they take place. -/
def run (h : Mem α) : List (Op α) → Rust (List (Out α) × Mem α)
  | [] => .ok ([], h)
  | op :: ops => do
    let (o, h) ← step h op
    let (os, h) ← run h ops
    return (o :: os, h)

/-! ### specification -/

/-- Everyone has a value of their own. The number says who share: those that were made from one another. -/
structure Own (α : Type) where
  vals : List (Option (Nat × α))
  next : Nat

/-- What the `i`-th has. -/
def Own.at (s : Own α) (i : Nat) : Option (Nat × α) := s.vals[i]?.join

/-- No one else has the number `n`. -/
def Own.alone (s : Own α) (n i : Nat) : Prop := ∀ j v, s.at j = some (n, v) → j = i

open Classical in
/-- One call: a copy is a copy, and a change changes one's own value. -/
noncomputable def Own.step (s : Own α) : Op α → Out α × Own α
  | .new v => (.unit, ⟨s.vals ++ [some (s.next, v)], s.next + 1⟩)
  | .clone i =>
    match s.at i with
    | none => (.unit, s)
    | some (n, v) => (.unit, { s with vals := s.vals ++ [some (n, v)] })
  | .drop i =>
    match s.at i with
    | none => (.unit, s)
    | some _ => (.unit, { s with vals := s.vals.set i none })
  | .get i =>
    match s.at i with
    | none => (.unit, s)
    | some (_, v) => (.val v, s)
  | .getMut i f =>
    match s.at i with
    | none => (.unit, s)
    | some (n, v) => if s.alone n i then (.may true, { s with vals := s.vals.set i (some (n, f v)) }) else (.may false, s)
  | .makeMut i f =>
    match s.at i with
    | none => (.unit, s)
    | some (n, v) =>
      if s.alone n i then (.unit, { s with vals := s.vals.set i (some (n, f v)) })
      else (.unit, ⟨s.vals.set i (some (s.next, f v)), s.next + 1⟩)
  | .tryUnwrap i =>
    match s.at i with
    | none => (.unit, s)
    | some (n, v) => if s.alone n i then (.val v, { s with vals := s.vals.set i none }) else (.may false, s)

noncomputable def Own.run (s : Own α) : List (Op α) → List (Out α) × Own α
  | [] => ([], s)
  | op :: ops => ((s.step op).1 :: (Own.run (s.step op).2 ops).1, (Own.run (s.step op).2 ops).2)

/-- The `Arc` a call is made on. -/
def Op.on : Op α → Option Nat
  | .new _ => none
  | .clone i | .drop i | .get i | .getMut i _ | .makeMut i _ | .tryUnwrap i => some i

/-! ### proofs -/

/-- The memory and the values, in step: counts are right, and values are where the addresses say. -/
structure Match (h : Mem α) (s : Own α) : Prop where
  next : h.next = s.next
  arcs : h.arcs = s.vals.map (·.map Prod.fst)
  count : ∀ a c, h.cells a = some c → c.strong = h.arcs.count (some a) ∧ 0 < c.strong
  held : ∀ i n v, s.at i = some (n, v) → ∃ k, h.cells n = some ⟨v, k⟩
  fresh : ∀ a, h.next ≤ a → h.cells a = none

theorem Match.arc {h : Mem α} {s : Own α} (m : Match h s) (i : Nat) : h.arc i = (s.at i).map Prod.fst := by
  rw [Mem.arc, Own.at, m.arcs, List.getElem?_map]
  cases s.vals[i]? <;> rfl

theorem count_one {l : List (Option Nat)} {a i : Nat} (hi : l[i]?.join = some a) :
    l.count (some a) = 1 ↔ ∀ j, l[j]?.join = some a → j = i := by
  induction l generalizing i with
  | nil => simp at hi
  | cons x l ih =>
    rw [List.count_cons]
    cases i with
    | zero =>
      simp only [List.getElem?_cons_zero, Option.join_some] at hi
      subst hi
      simp only [beq_self_eq_true, if_true]
      constructor
      · intro h j hj
        cases j with
        | zero => rfl
        | succ j =>
          simp only [List.getElem?_cons_succ] at hj
          have : some a ∈ l := by
            cases hl : l[j]? with
            | none => rw [hl] at hj; cases hj
            | some y => rw [hl] at hj; simp only [Option.join_some] at hj; subst hj; exact List.mem_of_getElem? hl
          have := List.count_pos_iff.2 this
          omega
      · intro h
        have : l.count (some a) = 0 := by
          rw [List.count_eq_zero]
          intro hm
          obtain ⟨j, hj⟩ := List.getElem?_of_mem hm
          have := h (j + 1) (by simp [hj])
          omega
        omega
    | succ i =>
      simp only [List.getElem?_cons_succ] at hi
      have hp : 0 < l.count (some a) := by
        apply List.count_pos_iff.2
        cases hl : l[i]? with
        | none => rw [hl] at hi; cases hi
        | some y => rw [hl] at hi; simp only [Option.join_some] at hi; subst hi; exact List.mem_of_getElem? hl
      by_cases hx : x = some a
      · subst hx
        simp only [beq_self_eq_true, if_true]
        constructor
        · intro h; omega
        · intro h
          have := h 0 (by simp)
          omega
      · have : (x == some a) = false := by simpa using hx
        simp only [this, Bool.false_eq_true, if_false, Nat.add_zero]
        rw [ih hi]
        constructor
        · intro h j hj
          cases j with
          | zero => simp only [List.getElem?_cons_zero, Option.join_some] at hj; exact absurd hj hx
          | succ j => rw [h j (by simpa using hj)]
        · intro h j hj
          have := h (j + 1) (by simpa using hj)
          omega

theorem Match.alone {h : Mem α} {s : Own α} (m : Match h s) {i n : Nat} {v : α} {c : Cell α} (hi : s.at i = some (n, v))
    (hc : h.cells n = some c) : c.strong = 1 ↔ s.alone n i := by
  have ha : h.arcs[i]?.join = some n := by
    have := m.arc i
    rw [hi] at this
    exact this
  rw [(m.count _ _ hc).1, count_one ha]
  constructor
  · intro h j v hj
    have := m.arc j
    rw [hj] at this
    exact h j this
  · intro h j hj
    have := m.arc j
    rw [Mem.arc, hj] at this
    cases hs : s.at j with
    | none => rw [hs] at this; cases this
    | some p =>
      rw [hs] at this
      simp only [Option.map_some, Option.some.injEq] at this
      exact h j p.2 (by rw [hs, this])

theorem Match.zero {h : Mem α} {s : Own α} (m : Match h s) {a : Nat} (ha : h.cells a = none) : h.arcs.count (some a) = 0 := by
  rw [List.count_eq_zero]
  intro hm
  obtain ⟨i, hi⟩ := List.getElem?_of_mem hm
  have h1 : h.arc i = some a := by rw [Mem.arc, hi]; rfl
  rw [m.arc] at h1
  cases hs : s.at i with
  | none => rw [hs] at h1; cases h1
  | some p =>
    rw [hs] at h1
    simp only [Option.map_some, Option.some.injEq] at h1
    obtain ⟨k, hk⟩ := m.held i p.1 p.2 hs
    rw [h1, ha] at hk
    cases hk

theorem Match.below {h : Mem α} {s : Own α} (m : Match h s) {a : Nat} {c : Cell α} (ha : h.cells a = some c) : a < h.next := by
  rcases Nat.lt_or_ge a h.next with h1 | h1
  · exact h1
  · rw [m.fresh a h1] at ha; cases ha

theorem at_lt {s : Own α} {i : Nat} {x : Nat × α} (h : s.at i = some x) : i < s.vals.length := by
  rcases Nat.lt_or_ge i s.vals.length with h1 | h1
  · exact h1
  · rw [Own.at, List.getElem?_eq_none h1] at h; cases h

theorem at_set (s : Own α) {i : Nat} (hi : i < s.vals.length) (y : Option (Nat × α)) (k j : Nat) :
    (Own.mk (s.vals.set i y) k).at j = if j = i then y else s.at j := by
  simp only [Own.at, List.getElem?_set]
  by_cases h : i = j
  · subst h; simp [hi]
  · have h' : ¬ j = i := fun e => h e.symm
    simp only [h, h', if_false]

theorem at_append (s : Own α) (y : Option (Nat × α)) (k j : Nat) :
    (Own.mk (s.vals ++ [y]) k).at j = if j = s.vals.length then y else s.at j := by
  simp only [Own.at]
  rcases Nat.lt_trichotomy j s.vals.length with h | h | h
  · rw [List.getElem?_append_left h, if_neg (by omega)]
  · subst h; simp
  · rw [List.getElem?_append_right (by omega), if_neg (by omega), List.getElem?_eq_none (by simp; omega),
      List.getElem?_eq_none (by omega)]

theorem set_map (l : List (Option (Nat × α))) (i : Nat) (y : Option (Nat × α)) :
    (l.set i y).map (·.map Prod.fst) = (l.map (·.map Prod.fst)).set i (y.map Prod.fst) := List.map_set

theorem set_same {l : List (Option Nat)} {i n : Nat} (hi : l[i]?.join = some n) : l.set i (some n) = l := by
  have hl : l[i]? = some (some n) := by
    cases h : l[i]? with
    | none => rw [h] at hi; cases hi
    | some x => rw [h] at hi; simp only [Option.join_some] at hi; rw [hi]
  obtain ⟨h1, h2⟩ := List.getElem?_eq_some_iff.1 hl
  rw [← h2, List.set_getElem_self]

/-- Counts after the `i`-th `Arc`, which pointed to `n`, has become `y`. -/
theorem count_set {l : List (Option Nat)} {i n : Nat} (hi : l[i]?.join = some n) (y : Option Nat) (a : Nat) :
    (l.set i y).count (some a) = l.count (some a) - (if n = a then 1 else 0) + (if y = some a then 1 else 0) := by
  have hl : l[i]? = some (some n) := by
    cases h : l[i]? with
    | none => rw [h] at hi; cases hi
    | some x => rw [h] at hi; simp only [Option.join_some] at hi; rw [hi]
  obtain ⟨h1, h2⟩ := List.getElem?_eq_some_iff.1 hl
  rw [List.count_set h1, h2]
  simp only [beq_iff_eq, Option.some.injEq]

theorem count_get {l : List (Option Nat)} {i n : Nat} (hi : l[i]?.join = some n) : 0 < l.count (some n) := by
  apply List.count_pos_iff.2
  cases h : l[i]? with
  | none => rw [h] at hi; cases hi
  | some x => rw [h] at hi; simp only [Option.join_some] at hi; rw [hi] at h; exact List.mem_of_getElem? h

/-- The cell after one of its `Arc`s is gone. -/
def Cell.less (v : α) (k : Nat) : Option (Cell α) := if k = 1 then none else some ⟨v, k - 1⟩

theorem release_less {h : Mem α} {n : Nat} {v : α} {k : Nat} (hc : h.cells n = some ⟨v, k⟩) :
    h.release n = .ok (h.store n (Cell.less v k)) := by
  simp only [Mem.release, hc, Cell.less]
  split <;> rfl

/-- The `i`-th `Arc` writes, alone. -/
theorem match_write {h : Mem α} {s : Own α} (m : Match h s) {i n : Nat} {v w : α} {k : Nat} (hi : s.at i = some (n, v))
    (hc : h.cells n = some ⟨v, k⟩) (hal : s.alone n i) :
    Match (h.store n (some ⟨w, k⟩)) { s with vals := s.vals.set i (some (n, w)) } := by
  have hn := m.below hc
  have ha : h.arc i = some n := by rw [m.arc, hi]; rfl
  refine ⟨m.next, ?_, ?_, ?_, ?_⟩
  · rw [set_map, ← m.arcs]
    simp only [Mem.store, Option.map_some]
    exact (set_same ha).symm
  · intro a c h1
    simp only [Mem.store] at h1 ⊢
    by_cases h2 : a = n
    · subst h2
      simp only [if_true, Option.some.injEq] at h1
      subst h1
      have := m.count _ _ hc
      exact this
    · rw [if_neg h2] at h1
      exact m.count _ _ h1
  · intro j n' w' hj
    rw [at_set s (at_lt hi)] at hj
    simp only [Mem.store]
    by_cases h2 : j = i
    · rw [if_pos h2] at hj
      cases hj
      exact ⟨k, if_pos rfl⟩
    · rw [if_neg h2] at hj
      have h3 : n' ≠ n := fun e => by subst e; exact h2 (hal j w' hj)
      rw [if_neg h3]
      exact m.held _ _ _ hj
  · intro a h1
    simp only [Mem.store] at h1 ⊢
    rw [if_neg (by omega)]
    exact m.fresh a h1

/-- The `i`-th `Arc` is gone. -/
theorem match_drop {h : Mem α} {s : Own α} (m : Match h s) {i n : Nat} {v : α} {k : Nat} (hi : s.at i = some (n, v))
    (hc : h.cells n = some ⟨v, k⟩) :
    Match { (h.store n (Cell.less v k)) with arcs := h.arcs.set i none } { s with vals := s.vals.set i none } := by
  have hn := m.below hc
  have ha : h.arc i = some n := by rw [m.arc, hi]; rfl
  refine ⟨m.next, by rw [set_map, ← m.arcs]; rfl, ?_, ?_, ?_⟩
  · intro a c h1
    simp only [Mem.store] at h1 ⊢
    rw [count_set ha]
    by_cases h2 : a = n
    · subst h2
      simp only [if_true, Cell.less] at h1
      split at h1
      · cases h1
      · cases h1
        have := m.count _ _ hc
        simp only at this
        simp
        omega
    · rw [if_neg h2] at h1
      have h2' : ¬ n = a := fun e => h2 e.symm
      simpa [h2'] using m.count _ _ h1
  · intro j n' w' hj
    rw [at_set s (at_lt hi)] at hj
    simp only [Mem.store]
    by_cases h2 : j = i
    · rw [if_pos h2] at hj
      cases hj
    · rw [if_neg h2] at hj
      by_cases h3 : n' = n
      · subst h3
        obtain ⟨k', hk'⟩ := m.held _ _ _ hj
        rw [hc] at hk'
        cases hk'
        have hk : k ≠ 1 := fun e => h2 (((m.alone hi hc).1 e) j _ hj)
        rw [if_pos rfl, Cell.less, if_neg hk]
        exact ⟨_, rfl⟩
      · rw [if_neg h3]
        exact m.held _ _ _ hj
  · intro a h1
    simp only [Mem.store] at h1 ⊢
    rw [if_neg (by omega)]
    exact m.fresh a h1

/-- The `i`-th `Arc` gets a value of its own. -/
theorem match_split {h : Mem α} {s : Own α} (m : Match h s) {i n : Nat} {v w : α} {k : Nat} (hi : s.at i = some (n, v))
    (hc : h.cells n = some ⟨v, k⟩) :
    Match { ((h.store h.next (some ⟨w, 1⟩)).store n (Cell.less v k)) with next := h.next + 1, arcs := h.arcs.set i (some h.next) }
      ⟨s.vals.set i (some (s.next, w)), s.next + 1⟩ := by
  have hn := m.below hc
  have ha : h.arc i = some n := by rw [m.arc, hi]; rfl
  refine ⟨by rw [m.next], by rw [set_map, ← m.arcs, ← m.next]; rfl, ?_, ?_, ?_⟩
  · intro a c h1
    simp only [Mem.store] at h1 ⊢
    rw [count_set ha]
    by_cases h2 : a = n
    · subst h2
      simp only [if_true, Cell.less] at h1
      split at h1
      · cases h1
      · cases h1
        have := m.count _ _ hc
        simp only at this
        have h3 : ¬ h.next = a := by omega
        simp [h3]
        omega
    · rw [if_neg h2] at h1
      have h2' : ¬ n = a := fun e => h2 e.symm
      by_cases h3 : a = h.next
      · subst h3
        simp only [if_true, Option.some.injEq] at h1
        subst h1
        rw [m.zero (m.fresh _ (Nat.le_refl _))]
        simp
      · rw [if_neg h3] at h1
        have h3' : ¬ h.next = a := fun e => h3 e.symm
        simpa [h2', h3'] using m.count _ _ h1
  · intro j n' w' hj
    rw [at_set s (at_lt hi)] at hj
    simp only [Mem.store]
    by_cases h2 : j = i
    · rw [if_pos h2] at hj
      cases hj
      rw [← m.next, if_neg (by omega), if_pos rfl]
      exact ⟨1, rfl⟩
    · rw [if_neg h2] at hj
      by_cases h3 : n' = n
      · subst h3
        obtain ⟨k', hk'⟩ := m.held _ _ _ hj
        rw [hc] at hk'
        cases hk'
        have hk : k ≠ 1 := fun e => h2 (((m.alone hi hc).1 e) j _ hj)
        rw [if_pos rfl, Cell.less, if_neg hk]
        exact ⟨_, rfl⟩
      · obtain ⟨k', hk'⟩ := m.held _ _ _ hj
        have := m.below hk'
        rw [if_neg h3, if_neg (by omega)]
        exact ⟨k', hk'⟩
  · intro a h1
    simp only [Mem.store] at h1 ⊢
    rw [if_neg (by omega), if_neg (by omega)]
    exact m.fresh a (by omega)

/-- One call, in step. -/
theorem step_match {h : Mem α} {s : Own α} (m : Match h s) (op : Op α) :
    ∃ h', step h op = .ok ((s.step op).1, h') ∧ Match h' (s.step op).2 := by
  have hnone : ∀ {i}, s.at i = none → h.arc i = none := fun hi => by rw [m.arc, hi]; rfl
  have hsome : ∀ {i n v}, s.at i = some (n, v) → h.arc i = some n ∧ ∃ k, h.cells n = some ⟨v, k⟩ := fun {i n v} hi =>
    ⟨by rw [m.arc, hi]; rfl, m.held _ _ _ hi⟩
  have hlen : h.arcs.length = s.vals.length := by rw [m.arcs, List.length_map]
  cases op with
  | new v =>
    refine ⟨_, rfl, ?_, ?_, ?_, ?_, ?_⟩
    · simp only [m.next, Own.step]
    · simp only [Own.step, List.map_append, m.arcs, m.next, List.map_cons, List.map_nil, Option.map_some]
    · intro a c ha
      simp only [Mem.store] at ha ⊢
      rw [List.count_append, List.count_singleton]
      by_cases hc : a = h.next
      · subst hc
        simp only [if_true, Option.some.injEq] at ha
        subst ha
        rw [m.zero (m.fresh _ (Nat.le_refl _))]
        simp
      · rw [if_neg hc] at ha
        have hc' : ¬ h.next = a := fun e => hc e.symm
        simpa [hc'] using m.count a c ha
    · intro i n w hi
      simp only [Own.step] at hi
      rw [at_append] at hi
      simp only [Mem.store]
      by_cases hc : i = s.vals.length
      · rw [if_pos hc] at hi
        cases hi
        exact ⟨1, by rw [m.next, if_pos rfl]⟩
      · rw [if_neg hc] at hi
        obtain ⟨k, hk⟩ := m.held _ _ _ hi
        have := m.below hk
        exact ⟨k, by rw [if_neg (by omega)]; exact hk⟩
    · intro a ha
      simp only [Mem.store] at ha ⊢
      rw [if_neg (by omega)]
      exact m.fresh a (by omega)
  | clone i =>
    cases hi : s.at i with
    | none => exact ⟨h, by simp only [step, hnone hi, Own.step, hi], by simpa only [Own.step, hi] using m⟩
    | some p =>
      obtain ⟨n, v⟩ := p
      obtain ⟨h1, k, h2⟩ := hsome hi
      have hn := m.below h2
      refine ⟨_, by simp only [step, h1, Mem.deref, h2, ok_bind, pure_eq_ok, Own.step, hi]; rfl, ?_⟩
      simp only [Own.step, hi]
      refine ⟨m.next, by simp only [List.map_append, m.arcs, List.map_cons, List.map_nil, Option.map_some], ?_, ?_, ?_⟩
      · intro a c ha
        simp only [Mem.store] at ha ⊢
        rw [List.count_append, List.count_singleton]
        by_cases hc : a = n
        · subst hc
          simp only [if_true, Option.some.injEq] at ha
          subst ha
          have := m.count _ _ h2
          simp only [beq_self_eq_true, if_true]
          simp only at this
          omega
        · rw [if_neg hc] at ha
          have hc' : ¬ n = a := fun e => hc e.symm
          simpa [hc'] using m.count a c ha
      · intro j n' w hj
        rw [at_append] at hj
        have : s.at j = some (n', w) ∨ (n' = n ∧ w = v) := by
          by_cases hc : j = s.vals.length
          · rw [if_pos hc] at hj; cases hj; exact .inr ⟨rfl, rfl⟩
          · rw [if_neg hc] at hj; exact .inl hj
        simp only [Mem.store]
        clear hj
        rcases this with hj | ⟨rfl, rfl⟩
        · by_cases hc : n' = n
          · subst hc
            obtain ⟨k', hk'⟩ := m.held _ _ _ hj
            rw [h2] at hk'
            cases hk'
            exact ⟨k + 1, by simp⟩
          · rw [if_neg hc]
            exact m.held _ _ _ hj
        · exact ⟨k + 1, by simp⟩
      · intro a ha
        simp only [Mem.store] at ha ⊢
        rw [if_neg (by omega)]
        exact m.fresh a ha
  | drop i =>
    cases hi : s.at i with
    | none => exact ⟨h, by simp only [step, hnone hi, Own.step, hi], by simpa only [Own.step, hi] using m⟩
    | some p =>
      obtain ⟨n, v⟩ := p
      obtain ⟨h1, k, h2⟩ := hsome hi
      refine ⟨_, by simp only [step, h1, release_less h2, ok_bind, pure_eq_ok, Own.step, hi]; rfl, ?_⟩
      simp only [Own.step, hi]
      exact match_drop m hi h2
  | get i =>
    cases hi : s.at i with
    | none => exact ⟨h, by simp only [step, hnone hi, Own.step, hi], by simpa only [Own.step, hi] using m⟩
    | some p =>
      obtain ⟨n, v⟩ := p
      obtain ⟨h1, k, h2⟩ := hsome hi
      exact ⟨h, by simp only [step, h1, Mem.deref, h2, ok_bind, pure_eq_ok, Own.step, hi], by simpa only [Own.step, hi] using m⟩
  | getMut i f =>
    cases hi : s.at i with
    | none => exact ⟨h, by simp only [step, hnone hi, Own.step, hi], by simpa only [Own.step, hi] using m⟩
    | some p =>
      obtain ⟨n, v⟩ := p
      obtain ⟨h1, k, h2⟩ := hsome hi
      by_cases hk : k = 1
      · have ha := (m.alone hi h2).1 hk
        refine ⟨_, by simp only [step, h1, Mem.deref, h2, ok_bind, pure_eq_ok, Own.step, hi, if_pos hk, if_pos ha]; rfl, ?_⟩
        simpa only [Own.step, hi, if_pos ha] using match_write m hi h2 ha
      · have ha : ¬ s.alone n i := fun e => hk ((m.alone hi h2).2 e)
        exact ⟨h, by simp only [step, h1, Mem.deref, h2, ok_bind, pure_eq_ok, Own.step, hi, if_neg hk, if_neg ha],
          by simpa only [Own.step, hi, if_neg ha] using m⟩
  | makeMut i f =>
    cases hi : s.at i with
    | none => exact ⟨h, by simp only [step, hnone hi, Own.step, hi], by simpa only [Own.step, hi] using m⟩
    | some p =>
      obtain ⟨n, v⟩ := p
      obtain ⟨h1, k, h2⟩ := hsome hi
      by_cases hk : k = 1
      · have ha := (m.alone hi h2).1 hk
        refine ⟨_, by simp only [step, h1, Mem.deref, h2, ok_bind, pure_eq_ok, Own.step, hi, if_pos hk, if_pos ha]; rfl, ?_⟩
        simpa only [Own.step, hi, if_pos ha] using match_write m hi h2 ha
      · have ha : ¬ s.alone n i := fun e => hk ((m.alone hi h2).2 e)
        have hn := m.below h2
        have h3 : ({ (h.store h.next (some ⟨f v, 1⟩)) with next := h.next + 1 } : Mem α).cells n = some ⟨v, k⟩ := by
          simp only [Mem.store]
          rw [if_neg (by omega)]
          exact h2
        refine ⟨_, by simp only [step, h1, Mem.deref, h2, ok_bind, pure_eq_ok, Own.step, hi, if_neg hk, if_neg ha, release_less h3]; rfl, ?_⟩
        simp only [Own.step, hi, if_neg ha]
        exact match_split m hi h2
  | tryUnwrap i =>
    cases hi : s.at i with
    | none => exact ⟨h, by simp only [step, hnone hi, Own.step, hi], by simpa only [Own.step, hi] using m⟩
    | some p =>
      obtain ⟨n, v⟩ := p
      obtain ⟨h1, k, h2⟩ := hsome hi
      by_cases hk : k = 1
      · have ha := (m.alone hi h2).1 hk
        refine ⟨_, by simp only [step, h1, Mem.deref, h2, ok_bind, pure_eq_ok, Own.step, hi, if_pos hk, if_pos ha]; rfl, ?_⟩
        have := match_drop m hi h2
        rw [Cell.less, if_pos hk] at this
        simpa only [Own.step, hi, if_pos ha] using this
      · have ha : ¬ s.alone n i := fun e => hk ((m.alone hi h2).2 e)
        exact ⟨h, by simp only [step, h1, Mem.deref, h2, ok_bind, pure_eq_ok, Own.step, hi, if_neg hk, if_neg ha],
          by simpa only [Own.step, hi, if_neg ha] using m⟩

theorem match_empty : Match (Mem.empty : Mem α) ⟨[], 0⟩ := ⟨rfl, rfl, (fun _ _ h => nomatch h), (fun _ _ _ h => nomatch h), fun _ _ => rfl⟩

theorem run_match {h : Mem α} {s : Own α} (m : Match h s) (ops : List (Op α)) :
    ∃ h', run h ops = .ok ((s.run ops).1, h') ∧ Match h' (s.run ops).2 := by
  induction ops generalizing h s with
  | nil => exact ⟨h, rfl, m⟩
  | cons op ops ih =>
    obtain ⟨h1, a, m1⟩ := step_match m op
    obtain ⟨h2, b, m2⟩ := ih m1
    exact ⟨h2, by simp only [run, a, b, ok_bind, pure_eq_ok, Own.run], m2⟩

/-- A call on another `Arc` leaves what the `j`-th has. -/
theorem own_keeps (s : Own α) (op : Op α) {j : Nat} {x : Nat × α} (hj : s.at j = some x) (ho : op.on ≠ some j) :
    (s.step op).2.at j = some x := by
  have hlt := at_lt hj
  have happ : ∀ y k, (Own.mk (s.vals ++ [y]) k).at j = some x := fun y k => by rw [at_append, if_neg (by omega), hj]
  have hset : ∀ {i : Nat} {p : Nat × α} y k, s.at i = some p → i ≠ j → (Own.mk (s.vals.set i y) k).at j = some x :=
    fun y k hi hne => by rw [at_set s (at_lt hi), if_neg (fun e => hne e.symm), hj]
  cases op with
  | new v => exact happ _ _
  | clone i =>
    simp only [Own.step]
    cases hi : s.at i with
    | none => exact hj
    | some p => exact happ _ _
  | drop i =>
    have hne : i ≠ j := fun e => ho (by rw [Op.on, e])
    simp only [Own.step]
    cases hi : s.at i with
    | none => exact hj
    | some p => exact hset _ _ hi hne
  | get i =>
    simp only [Own.step]
    cases s.at i <;> exact hj
  | getMut i f =>
    have hne : i ≠ j := fun e => ho (by rw [Op.on, e])
    simp only [Own.step]
    cases hi : s.at i with
    | none => exact hj
    | some p => simp only; split; exact hset _ _ hi hne; exact hj
  | makeMut i f =>
    have hne : i ≠ j := fun e => ho (by rw [Op.on, e])
    simp only [Own.step]
    cases hi : s.at i with
    | none => exact hj
    | some p => simp only; split <;> exact hset _ _ hi hne
  | tryUnwrap i =>
    have hne : i ≠ j := fun e => ho (by rw [Op.on, e])
    simp only [Own.step]
    cases hi : s.at i with
    | none => exact hj
    | some p => simp only; split; exact hset _ _ hi hne; exact hj

theorem own_run_keeps (s : Own α) (ops : List (Op α)) {j : Nat} {x : Nat × α} (hj : s.at j = some x) (ho : ∀ op ∈ ops, op.on ≠ some j) :
    (s.run ops).2.at j = some x := by
  induction ops generalizing s with
  | nil => exact hj
  | cons op ops ih =>
    exact ih _ (own_keeps s op hj (ho op (List.mem_cons_self ..))) fun o h => ho o (List.mem_cons_of_mem _ h)

/-- **C168, values.** In every history of calls by all holders, the calls return what they would if each had a value of its own. Nothing
that was freed is used. -/
theorem c168_values (ops : List (Op α)) : ∃ h, run Mem.empty ops = .ok ((Own.run ⟨[], 0⟩ ops).1, h) := by
  obtain ⟨h, a, _⟩ := run_match match_empty ops
  exact ⟨h, a⟩

/-- **C168, holders.** What one holder reads stays as it is through any calls of the others. -/
theorem c168_holders (ops ops' : List (Op α)) (os os' : List (Out α)) (h h' : Mem α) (j : Nat) (v : α)
    (hr : run Mem.empty ops = .ok (os, h)) (hg : step h (.get j) = .ok (.val v, h)) (ho : ∀ op ∈ ops', op.on ≠ some j)
    (hr' : run h ops' = .ok (os', h')) : step h' (.get j) = .ok (.val v, h') := by
  obtain ⟨_, a, m⟩ := run_match match_empty ops
  rw [hr] at a
  cases a
  obtain ⟨_, b, m'⟩ := run_match m ops'
  rw [hr'] at b
  cases b
  generalize (Own.run (⟨[], 0⟩ : Own α) ops).2 = s at m m'
  cases hj : s.at j with
  | none =>
    simp only [step, m.arc, hj, Option.map_none] at hg
    cases hg
  | some p =>
    obtain ⟨n, w⟩ := p
    obtain ⟨k, hk⟩ := m.held _ _ _ hj
    simp only [step, m.arc, hj, Option.map_some, Mem.deref, hk, ok_bind, pure_eq_ok] at hg
    cases hg
    have hj' := own_run_keeps s ops' hj ho
    obtain ⟨k', hk'⟩ := m'.held _ _ _ hj'
    simp only [step, m'.arc, hj', Option.map_some, Mem.deref, hk', ok_bind, pure_eq_ok]

/-- **C168, reuse.** A holder may write, and take the value out, exactly if no one else holds it; so a pool gets its frames back as soon as
the codec has dropped them. -/
theorem c168_reuse (ops : List (Op α)) (os : List (Out α)) (h : Mem α) (hr : run Mem.empty ops = .ok (os, h)) (i a : Nat)
    (hi : h.arc i = some a) (f : α → α) :
    ((∃ h', step h (.getMut i f) = .ok (.may true, h')) ↔ ∀ j, h.arc j = some a → j = i) ∧
    ((∃ v h', step h (.tryUnwrap i) = .ok (.val v, h')) ↔ ∀ j, h.arc j = some a → j = i) := by
  obtain ⟨_, b, m⟩ := run_match match_empty ops
  rw [hr] at b
  cases b
  generalize (Own.run (⟨[], 0⟩ : Own α) ops).2 = s at m
  have h1 := m.arc i
  rw [hi] at h1
  cases hs : s.at i with
  | none => rw [hs] at h1; cases h1
  | some p =>
    rw [hs] at h1
    simp only [Option.map_some, Option.some.injEq] at h1
    obtain ⟨n, v⟩ := p
    simp only at h1
    subst h1
    obtain ⟨k, hk⟩ := m.held _ _ _ hs
    have hc := (m.count _ _ hk).1
    simp only at hc
    have h2 : k = 1 ↔ ∀ j, h.arc j = some a → j = i := by rw [hc]; exact count_one hi
    simp only [← h2, step, hi, Mem.deref, hk, ok_bind, pure_eq_ok]
    by_cases h3 : k = 1
    · simp only [h3, if_true]
      exact ⟨⟨fun _ => trivial, fun _ => ⟨_, rfl⟩⟩, ⟨fun _ => trivial, fun _ => ⟨_, _, rfl⟩⟩⟩
    · simp only [h3, if_false, iff_false]
      exact ⟨fun ⟨_, e⟩ => by simp at e, fun ⟨_, _, e⟩ => by simp at e⟩

/-- **C168, memory.** After every history, exactly the values that an `Arc` points to are in memory: none is freed too early, and none is
left over. -/
theorem c168_memory (ops : List (Op α)) (os : List (Out α)) (h : Mem α) (hr : run Mem.empty ops = .ok (os, h)) (a : Nat) :
    (∃ c, h.cells a = some c) ↔ ∃ j, h.arc j = some a := by
  obtain ⟨_, b, m⟩ := run_match match_empty ops
  rw [hr] at b
  cases b
  constructor
  · rintro ⟨c, hc⟩
    obtain ⟨h1, h2⟩ := m.count _ _ hc
    obtain ⟨j, hj⟩ := List.getElem?_of_mem (List.count_pos_iff.1 (h1 ▸ h2))
    exact ⟨j, by rw [Mem.arc, hj]; rfl⟩
  · rintro ⟨j, hj⟩
    cases hc : h.cells a with
    | some c => exact ⟨c, rfl⟩
    | none =>
      have := count_get hj
      rw [m.zero hc] at this
      omega

/-- An application that draws into one frame again and again, and an encoder that keeps what it is sent: `Arc` 0 is the application's,
1 the encoder's. While the encoder has it, the application may not draw and takes a second frame, 2, of which the encoder gets 3. When the
encoder has dropped the first, the application draws into it; the encoder still reads what it was sent. -/
example : ∃ h, run Mem.empty [.new 10, .clone 0, .getMut 0 (· + 1), .new 20, .clone 2, .get 1, .drop 1, .getMut 0 (· + 1), .get 0, .get 3,
      .makeMut 2 (· + 5), .get 3, .get 2, .tryUnwrap 3] =
    .ok ([.unit, .unit, .may false, .unit, .unit, .val 10, .unit, .may true, .val 11, .val 20, .unit, .val 20, .val 25, .val 20], h) ∧
    h.arcs = [some 0, none, some 2, none] := ⟨_, rfl, rfl⟩

/-- The hypotheses of `c168_holders`, `c168_reuse` and `c168_memory`. -/
example : ∃ os h, run Mem.empty [.new 10, .clone 0] = .ok (os, h) ∧ step h (.get 1) = .ok (.val 10, h) ∧ h.arc 1 = some 0 ∧
    (∀ op ∈ [Op.makeMut 0 (· + 1), .drop 0], op.on ≠ some 1) ∧
    ∃ os' h', run h [.makeMut 0 (· + 1), .drop 0] = .ok (os', h') ∧ step h' (.get 1) = .ok (.val 10, h') :=
  ⟨_, _, rfl, rfl, rfl, by simp [Op.on], _, _, rfl, rfl⟩

end Verif.Shared
