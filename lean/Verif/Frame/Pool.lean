import Verif.Frame.Shared

/-!
# Property C169: encoding from a pool of frames

An application draws its pictures into frames of a pool and sends them to an encoder that keeps them for a while. It draws into a frame
of the pool that `Arc::get_mut` lets it write, and makes a new frame only if there is none.
-/

namespace Verif.Shared
open Verif

/-- The frames of the pool and those the encoder keeps, oldest first. -/
structure Studio (α : Type) where
  mem : Mem α
  pool : List Nat
  kept : List Nat

/-- Draws into the first frame that may be written (`Arc::get_mut`; frame.rs:582). -/
def draw (h : Mem α) (v : α) : List Nat → Rust (Option Nat × Mem α)
  | [] => .ok (none, h)
  | i :: is => do
    let (o, h) ← step h (.getMut i fun _ => v)
    match o with
    | .may true => return (some i, h)
    | _ => draw h v is

/-- The encoder clones the `Arc` it is sent (`Encoder::send_frame`, encoder.rs:17-18). -/
def send (s : Studio α) (i : Nat) : Rust (Studio α) := do
  let (_, h) ← step s.mem (.clone i)
  return { s with mem := h, kept := s.kept ++ [s.mem.arcs.length] }

/-- A picture is drawn and sent. -/
def picture (s : Studio α) (v : α) : Rust (Studio α) := do
  let (x, h) ← draw s.mem v s.pool
  match x with
  | some i => send { s with mem := h } i
  | none => do
    let i := h.arcs.length
    let (_, h) ← step h (.new v)
    send { s with mem := h, pool := s.pool ++ [i] } i

/-- The encoder reads the oldest frame it keeps, if there is one, and drops it (`Encoder::receive_packet`, encoder.rs:19-20). -/
def encode (s : Studio α) : Rust (List α × Studio α) :=
  match s.kept with
  | [] => .ok ([], s)
  | j :: js => do
    let (o, h) ← step s.mem (.get j)
    let (_, h) ← step h (.drop j)
    return (match o with | .val v => [v] | _ => [], { s with mem := h, kept := js })

/-- When what happens: a picture is drawn and sent, or a frame is encoded. -/
inductive Turn (α : Type) | picture (v : α) | encode

/-- The pictures the encoder reads, and the studio afterwards. -/
def studio (s : Studio α) : List (Turn α) → Rust (List α × Studio α)
  | [] => .ok ([], s)
  | .picture v :: ts => do studio (← picture s v) ts
  | .encode :: ts => do
    let (l, s) ← encode s
    let (l', s) ← studio s ts
    return (l ++ l', s)

/-! ### specification -/

/-- The pictures of a history. -/
def pictures : List (Turn α) → List α
  | [] => []
  | .picture v :: ts => v :: pictures ts
  | .encode :: ts => pictures ts

/-- What an encoder with a queue of values reads. -/
def values (q : List α) : List (Turn α) → List α
  | [] => []
  | .picture v :: ts => values (q ++ [v]) ts
  | .encode :: ts => q.take 1 ++ values (q.drop 1) ts

/-- Never more than `k` frames are kept when a picture is drawn, with `n` at the beginning. -/
def AtMost (k : Nat) : Nat → List (Turn α) → Prop
  | _, [] => True
  | n, .picture _ :: ts => n ≤ k ∧ AtMost k (n + 1) ts
  | n, .encode :: ts => AtMost k (n - 1) ts

/-- The most frames kept when a picture is drawn, and one more; `p` so far, and `n` kept now. -/
def most (p : Nat) : Nat → List (Turn α) → Nat
  | _, [] => p
  | n, .picture _ :: ts => most (max p (n + 1)) (n + 1) ts
  | n, .encode :: ts => most p (n - 1) ts

/-! ### proofs -/

theorem length_le_of_subset {l l' : List Nat} (hn : l.Nodup) (hs : ∀ x ∈ l, x ∈ l') : l.length ≤ l'.length := by
  induction l generalizing l' with
  | nil => exact Nat.zero_le _
  | cons a l ih =>
    obtain ⟨h1, h2⟩ := List.nodup_cons.1 hn
    have ha := hs a (List.mem_cons_self ..)
    have := ih (l' := l'.erase a) h2 fun x hx => by
      have hne : x ≠ a := fun e => h1 (e ▸ hx)
      exact (List.mem_erase_of_ne hne).2 (hs x (List.mem_cons_of_mem _ hx))
    rw [List.length_erase_of_mem ha] at this
    have := List.length_pos_of_mem ha
    simp only [List.length_cons]
    omega

/-- The studio and the values: the pool's frames have different numbers, the encoder's the values to come, and there are no others. -/
structure Orderly (o : Own α) (pool kept : List Nat) (q : List α) : Prop where
  live : ∀ i ∈ pool, ∃ x, o.at i = some x
  apart : ∀ i ∈ pool, ∀ j ∈ pool, ∀ n v w, o.at i = some (n, v) → o.at j = some (n, w) → i = j
  once : pool.Nodup
  held : kept.map (fun j => (o.at j).map Prod.snd) = q.map some
  keptOnce : kept.Nodup
  other : ∀ i ∈ pool, i ∉ kept
  all : ∀ i x, o.at i = some x → i ∈ pool ∨ i ∈ kept
  next : ∀ i n v, o.at i = some (n, v) → n < o.next
  keptApart : ∀ i ∈ kept, ∀ j ∈ kept, ∀ n v w, o.at i = some (n, v) → o.at j = some (n, w) → i = j
  twin : ∀ j ∈ kept, ∀ n v, o.at j = some (n, v) → ∃ i ∈ pool, ∃ w, o.at i = some (n, w)

theorem draw_spec {h : Mem α} {o : Own α} (m : Match h o) (v : α) (pool : List Nat) (hp : ∀ i ∈ pool, ∃ x, o.at i = some x) :
    ∃ x h', draw h v pool = .ok (x, h') ∧
      ((x = none ∧ Match h' o ∧ ∀ i ∈ pool, ∀ n w, o.at i = some (n, w) → ¬ o.alone n i) ∨
        ∃ i n w, x = some i ∧ i ∈ pool ∧ o.at i = some (n, w) ∧ o.alone n i ∧
          Match h' { o with vals := o.vals.set i (some (n, v)) }) := by
  induction pool generalizing h with
  | nil => exact ⟨_, _, rfl, .inl ⟨rfl, m, fun i hi => nomatch hi⟩⟩
  | cons i pool ih =>
    obtain ⟨⟨n, w⟩, hi⟩ := hp i (List.mem_cons_self ..)
    obtain ⟨h1, a, m1⟩ := step_match m (.getMut i fun _ => v)
    simp only [Own.step, hi] at a m1
    by_cases hal : o.alone n i
    · rw [if_pos hal] at a m1
      exact ⟨_, _, by simp only [draw, a, ok_bind, pure_eq_ok], .inr ⟨i, n, w, rfl, List.mem_cons_self .., hi, hal, m1⟩⟩
    · rw [if_neg hal] at a m1
      obtain ⟨x, h', b, c⟩ := ih m1 fun j hj => hp j (List.mem_cons_of_mem _ hj)
      refine ⟨x, h', by simp only [draw, a, ok_bind, b], ?_⟩
      rcases c with ⟨c1, c2, c3⟩ | ⟨j, n', w', c1, c2, c3⟩
      · refine .inl ⟨c1, c2, fun j hj n' w' hj' => ?_⟩
        rcases List.mem_cons.1 hj with rfl | hj
        · rw [hi] at hj'; cases hj'; exact hal
        · exact c3 j hj n' w' hj'
      · exact .inr ⟨j, n', w', c1, List.mem_cons_of_mem _ c2, c3⟩

/-- Sending the frame `i` of the pool, alone. -/
theorem send_spec {h : Mem α} {o : Own α} (m : Match h o) {pool kept : List Nat} {q : List α} (r : Orderly o pool kept q) {i n : Nat} {v : α}
    (hi : o.at i = some (n, v)) (hp : i ∈ pool) (hal : o.alone n i) :
    ∃ s' o', send ⟨h, pool, kept⟩ i = .ok s' ∧ s'.pool = pool ∧ s'.kept.length = kept.length + 1 ∧
      Match s'.mem o' ∧ Orderly o' s'.pool s'.kept (q ++ [v]) := by
  obtain ⟨h1, a, m1⟩ := step_match m (.clone i)
  simp only [Own.step, hi] at a m1
  have hl : h.arcs.length = o.vals.length := by rw [m.arcs, List.length_map]
  have hat := at_append o (some (n, v)) o.next
  have hold : ∀ j x, o.at j = some x → (Own.mk (o.vals ++ [some (n, v)]) o.next).at j = some x := fun j x hj => by
    rw [hat, if_neg (by have := at_lt hj; omega), hj]
  have hkept : ∀ j ∈ kept, ∃ x, o.at j = some x := fun j hj => by
    have : (o.at j).map Prod.snd ∈ q.map some := r.held ▸ List.mem_map_of_mem hj
    obtain ⟨x, _, hx⟩ := List.mem_map.1 this
    cases ho : o.at j with
    | none => rw [ho] at hx; cases hx
    | some y => exact ⟨y, rfl⟩
  have hback : ∀ j, j ≠ o.vals.length → ∀ x, (Own.mk (o.vals ++ [some (n, v)]) o.next).at j = some x → o.at j = some x := fun j hj x hx => by
    rwa [hat, if_neg hj] at hx
  have hin : ∀ j ∈ pool, j ≠ o.vals.length := fun j hj => by
    obtain ⟨x, hx⟩ := r.live j hj
    have := at_lt hx
    omega
  refine ⟨⟨h1, pool, kept ++ [h.arcs.length]⟩, _, by simp only [send, a, ok_bind, pure_eq_ok], rfl, by simp, m1, ?_⟩
  rw [hl]
  refine ⟨fun j hj => ?_, fun j hj k hk n' w w' h2 h3 => ?_, r.once, ?_, ?_, fun j hj hk => ?_, fun j x hx => ?_, fun j n' w hj => ?_,
    fun j hj k hk n' w w' h2 h3 => ?_, fun j hj n' w h2 => ?_⟩
  · obtain ⟨x, hx⟩ := r.live j hj
    exact ⟨x, hold j x hx⟩
  · exact r.apart j hj k hk n' w w' (hback j (hin j hj) _ h2) (hback k (hin k hk) _ h3)
  · rw [List.map_append, List.map_append, ← r.held]
    congr 1
    · exact List.map_congr_left fun j hj => by
        obtain ⟨x, hx⟩ := hkept j hj
        rw [hold j x hx, hx]
    · simp only [List.map_cons, List.map_nil, hat, if_true, Option.map_some]
  · rw [List.nodup_append]
    refine ⟨r.keptOnce, by simp, fun j hj k hk => ?_⟩
    simp only [List.mem_singleton] at hk
    obtain ⟨x, hx⟩ := hkept j hj
    have := at_lt hx
    omega
  · rcases List.mem_append.1 hk with hk | hk
    · exact r.other j hj hk
    · exact hin j hj (by simpa using hk)
  · by_cases hj : j = o.vals.length
    · exact .inr (List.mem_append_right _ (by simp [hj]))
    · rcases r.all j x (hback j hj x hx) with h4 | h4
      · exact .inl h4
      · exact .inr (List.mem_append_left _ h4)
  · by_cases hj' : j = o.vals.length
    · rw [hat, if_pos hj'] at hj
      cases hj
      exact r.next i n v hi
    · exact r.next j n' w (hback j hj' _ hj)
  · have hnew : ∀ j, j ∈ kept → ∀ u, o.at j = some (n, u) → False := fun j hj u hu =>
      r.other i hp (hal j u hu ▸ hj)
    rw [hat] at h2 h3
    by_cases e2 : j = o.vals.length
    · by_cases e3 : k = o.vals.length
      · rw [e2, e3]
      · rw [if_pos e2] at h2
        rw [if_neg e3] at h3
        cases h2
        exact (hnew k ((List.mem_append.1 hk).resolve_right (by simpa using e3)) _ h3).elim
    · rw [if_neg e2] at h2
      by_cases e3 : k = o.vals.length
      · rw [if_pos e3] at h3
        cases h3
        exact (hnew j ((List.mem_append.1 hj).resolve_right (by simpa using e2)) _ h2).elim
      · rw [if_neg e3] at h3
        exact r.keptApart j ((List.mem_append.1 hj).resolve_right (by simpa using e2)) k
          ((List.mem_append.1 hk).resolve_right (by simpa using e3)) _ _ _ h2 h3
  · rw [hat] at h2
    by_cases e2 : j = o.vals.length
    · rw [if_pos e2] at h2
      cases h2
      exact ⟨i, hp, v, hold i _ hi⟩
    · rw [if_neg e2] at h2
      obtain ⟨k, hk, u, hu⟩ := r.twin j ((List.mem_append.1 hj).resolve_right (by simpa using e2)) _ _ h2
      exact ⟨k, hk, u, hold k _ hu⟩

theorem Orderly.of_kept {o : Own α} {pool kept : List Nat} {q : List α} (r : Orderly o pool kept q) : ∀ j ∈ kept, ∃ x, o.at j = some x := by
  intro j hj
  have : (o.at j).map Prod.snd ∈ q.map some := r.held ▸ List.mem_map_of_mem hj
  obtain ⟨x, _, hx⟩ := List.mem_map.1 this
  cases ho : o.at j with
  | none => rw [ho] at hx; cases hx
  | some y => exact ⟨y, rfl⟩

/-- A frame of the pool is drawn into. -/
theorem orderly_write {o : Own α} {pool kept : List Nat} {q : List α} (r : Orderly o pool kept q) {i n : Nat} {w : α} (v : α)
    (hi : o.at i = some (n, w)) (hp : i ∈ pool) : Orderly { o with vals := o.vals.set i (some (n, v)) } pool kept q := by
  have hat := at_set o (at_lt hi) (some (n, v)) o.next
  have hnum : ∀ j n' w', (Own.mk (o.vals.set i (some (n, v))) o.next).at j = some (n', w') → ∃ u, o.at j = some (n', u) := by
    intro j n' w' hj
    rw [hat] at hj
    by_cases h : j = i
    · rw [if_pos h] at hj
      cases hj
      exact ⟨w, h ▸ hi⟩
    · rw [if_neg h] at hj
      exact ⟨w', hj⟩
  refine ⟨fun j hj => ?_, fun j hj k hk n' u u' h2 h3 => ?_, r.once, ?_, r.keptOnce, r.other, fun j x hx => ?_, fun j n' u hj => ?_,
    fun j hj k hk n' u u' h2 h3 => ?_, fun j hj n' u h2 => ?_⟩
  · rw [hat]
    split
    · exact ⟨_, rfl⟩
    · exact r.live j hj
  · obtain ⟨_, h4⟩ := hnum _ _ _ h2
    obtain ⟨_, h5⟩ := hnum _ _ _ h3
    exact r.apart j hj k hk _ _ _ h4 h5
  · rw [← r.held]
    exact List.map_congr_left fun j hj => by
      rw [hat, if_neg (fun e : j = i => r.other i hp (e ▸ hj))]
  · obtain ⟨_, h4⟩ := hnum j x.1 x.2 hx
    exact r.all j _ h4
  · obtain ⟨_, h4⟩ := hnum _ _ _ hj
    exact r.next j _ _ h4
  · obtain ⟨_, h4⟩ := hnum _ _ _ h2
    obtain ⟨_, h5⟩ := hnum _ _ _ h3
    exact r.keptApart j hj k hk _ _ _ h4 h5
  · obtain ⟨_, h4⟩ := hnum _ _ _ h2
    obtain ⟨k, hk, u', hu⟩ := r.twin j hj _ _ h4
    refine ⟨k, hk, ?_⟩
    rw [hat]
    by_cases e : k = i
    · subst e
      rw [hi] at hu
      cases hu
      rw [if_pos rfl]
      exact ⟨v, rfl⟩
    · rw [if_neg e]
      exact ⟨u', hu⟩

/-- A frame is made. -/
theorem orderly_new {o : Own α} {pool kept : List Nat} {q : List α} (r : Orderly o pool kept q) (v : α) :
    Orderly ⟨o.vals ++ [some (o.next, v)], o.next + 1⟩ (pool ++ [o.vals.length]) kept q := by
  have hat := at_append o (some (o.next, v)) (o.next + 1)
  have hold : ∀ j x, o.at j = some x → (Own.mk (o.vals ++ [some (o.next, v)]) (o.next + 1)).at j = some x := fun j x hj => by
    rw [hat, if_neg (by have := at_lt hj; omega), hj]
  have hin : ∀ j ∈ pool, j ≠ o.vals.length := fun j hj => by
    obtain ⟨x, hx⟩ := r.live j hj
    have := at_lt hx
    omega
  have hkin : ∀ j ∈ kept, j ≠ o.vals.length := fun j hj => by
    obtain ⟨x, hx⟩ := r.of_kept j hj
    have := at_lt hx
    omega
  refine ⟨fun j hj => ?_, fun j hj k hk n' u u' h2 h3 => ?_, ?_, ?_, r.keptOnce, fun j hj hk => ?_, fun j x hx => ?_, fun j n' u hj => ?_,
    fun j hj k hk n' u u' h2 h3 => ?_, fun j hj n' u h2 => ?_⟩
  · rcases List.mem_append.1 hj with hj | hj
    · obtain ⟨x, hx⟩ := r.live j hj
      exact ⟨x, hold j x hx⟩
    · simp only [List.mem_singleton] at hj
      rw [hat, if_pos hj]
      exact ⟨_, rfl⟩
  · rw [hat] at h2 h3
    by_cases e2 : j = o.vals.length
    · by_cases e3 : k = o.vals.length
      · rw [e2, e3]
      · rw [if_pos e2] at h2
        rw [if_neg e3] at h3
        cases h2
        exact absurd (r.next _ _ _ h3) (Nat.lt_irrefl _)
    · rw [if_neg e2] at h2
      by_cases e3 : k = o.vals.length
      · rw [if_pos e3] at h3
        cases h3
        exact absurd (r.next _ _ _ h2) (Nat.lt_irrefl _)
      · rw [if_neg e3] at h3
        have hj' : j ∈ pool := (List.mem_append.1 hj).resolve_right (by simpa using e2)
        have hk' : k ∈ pool := (List.mem_append.1 hk).resolve_right (by simpa using e3)
        exact r.apart j hj' k hk' _ _ _ h2 h3
  · rw [List.nodup_append]
    refine ⟨r.once, by simp, fun j hj k hk => ?_⟩
    simp only [List.mem_singleton] at hk
    rw [hk]
    exact hin j hj
  · rw [← r.held]
    exact List.map_congr_left fun j hj => by rw [hat, if_neg (hkin j hj)]
  · rcases List.mem_append.1 hj with hj | hj
    · exact r.other j hj hk
    · exact hkin j hk (by simpa using hj)
  · rw [hat] at hx
    by_cases e : j = o.vals.length
    · exact .inl (List.mem_append_right _ (by simp [e]))
    · rw [if_neg e] at hx
      rcases r.all j x hx with h4 | h4
      · exact .inl (List.mem_append_left _ h4)
      · exact .inr h4
  · rw [hat] at hj
    by_cases e : j = o.vals.length
    · rw [if_pos e] at hj
      cases hj
      exact Nat.lt_succ_self _
    · rw [if_neg e] at hj
      exact Nat.lt_succ_of_lt (r.next _ _ _ hj)
  · rw [hat, if_neg (hkin j hj)] at h2
    rw [hat, if_neg (hkin k hk)] at h3
    exact r.keptApart j hj k hk _ _ _ h2 h3
  · rw [hat, if_neg (hkin j hj)] at h2
    obtain ⟨k, hk, u', hu⟩ := r.twin j hj _ _ h2
    exact ⟨k, List.mem_append_left _ hk, u', hold k _ hu⟩

/-- If no frame of the pool may be written, the encoder keeps as many. -/
theorem orderly_busy {o : Own α} {pool kept : List Nat} {q : List α} (r : Orderly o pool kept q)
    (hb : ∀ i ∈ pool, ∀ n w, o.at i = some (n, w) → ¬ o.alone n i) : pool.length ≤ kept.length := by
  let num : Nat → Nat := fun i => ((o.at i).map Prod.fst).getD 0
  have h1 : (pool.map num).Nodup := by
    rw [List.nodup_iff_pairwise_ne, List.pairwise_map]
    have h2 := List.nodup_iff_pairwise_ne.1 r.once
    refine (List.pairwise_iff_forall_sublist).2 fun {i j} hij e => ?_
    have hne := (List.pairwise_iff_forall_sublist).1 h2 hij
    have hi : i ∈ pool := hij.subset (by simp)
    have hj : j ∈ pool := hij.subset (by simp)
    obtain ⟨⟨a, b⟩, hx⟩ := r.live i hi
    obtain ⟨⟨c, d⟩, hy⟩ := r.live j hj
    simp only [num, hx, hy, Option.map_some, Option.getD_some] at e
    subst e
    exact hne (r.apart i hi j hj _ _ _ hx hy)
  have h2 : ∀ x ∈ pool.map num, x ∈ kept.map num := by
    intro x hx
    obtain ⟨i, hi, rfl⟩ := List.mem_map.1 hx
    obtain ⟨⟨a, b⟩, hx⟩ := r.live i hi
    have := hb i hi a b hx
    simp only [Own.alone, Classical.not_forall] at this
    obtain ⟨j, w, hj, hne⟩ := this
    refine List.mem_map.2 ⟨j, ?_, by simp only [num, hx, hj, Option.map_some, Option.getD_some]⟩
    rcases r.all j _ hj with h3 | h3
    · exact absurd (r.apart j h3 i hi _ _ _ hj hx) hne
    · exact h3
  have := length_le_of_subset h1 h2
  simpa using this

/-- The encoder keeps no more frames than the pool has; fewer if one may be written. -/
theorem orderly_free {o : Own α} {pool kept : List Nat} {q : List α} (r : Orderly o pool kept q) :
    kept.length ≤ pool.length ∧
    ∀ {i n w}, o.at i = some (n, w) → i ∈ pool → o.alone n i → kept.length + 1 ≤ pool.length := by
  let num : Nat → Nat := fun i => ((o.at i).map Prod.fst).getD 0
  have hnum : ∀ j n v, o.at j = some (n, v) → num j = n := fun j n v hj => by
    simp only [num, hj, Option.map_some, Option.getD_some]
  have h1 : (kept.map num).Nodup := by
    rw [List.nodup_iff_pairwise_ne, List.pairwise_map]
    have h2 := List.nodup_iff_pairwise_ne.1 r.keptOnce
    refine (List.pairwise_iff_forall_sublist).2 fun {j k} hjk e => ?_
    have hne := (List.pairwise_iff_forall_sublist).1 h2 hjk
    have hj : j ∈ kept := hjk.subset (by simp)
    have hk : k ∈ kept := hjk.subset (by simp)
    obtain ⟨⟨a, b⟩, hx⟩ := r.of_kept j hj
    obtain ⟨⟨c, d⟩, hy⟩ := r.of_kept k hk
    rw [hnum _ _ _ hx, hnum _ _ _ hy] at e
    subst e
    exact hne (r.keptApart j hj k hk _ _ _ hx hy)
  have h2 : ∀ x ∈ kept.map num, x ∈ pool.map num := by
    intro x hx
    obtain ⟨j, hj, rfl⟩ := List.mem_map.1 hx
    obtain ⟨⟨a, b⟩, hx⟩ := r.of_kept j hj
    obtain ⟨k, hk, u, hu⟩ := r.twin j hj a b hx
    exact List.mem_map.2 ⟨k, hk, by rw [hnum _ _ _ hx, hnum _ _ _ hu]⟩
  refine ⟨by simpa using length_le_of_subset h1 h2, fun {i n w} hi hp hal => ?_⟩
  have h3 : ((i :: kept).map num).Nodup := by
    rw [List.map_cons, List.nodup_cons]
    refine ⟨fun hm => ?_, h1⟩
    obtain ⟨j, hj, e⟩ := List.mem_map.1 hm
    obtain ⟨⟨a, b⟩, hx⟩ := r.of_kept j hj
    rw [hnum _ _ _ hx, hnum _ _ _ hi] at e
    subst e
    exact r.other i hp (hal j b hx ▸ hj)
  have := length_le_of_subset (l' := pool.map num) h3 fun x hx => by
    rcases List.mem_cons.1 hx with rfl | hx
    · exact List.mem_map_of_mem hp
    · exact h2 x hx
  simpa using this

theorem picture_spec {s : Studio α} {o : Own α} {q : List α} (m : Match s.mem o) (r : Orderly o s.pool s.kept q) (v : α) :
    ∃ s' o', picture s v = .ok s' ∧ Match s'.mem o' ∧ Orderly o' s'.pool s'.kept (q ++ [v]) ∧ s'.kept.length = s.kept.length + 1 ∧
      (s'.pool.length = s.pool.length ∧ s.kept.length + 1 ≤ s.pool.length ∨
        s'.pool.length = s.pool.length + 1 ∧ s.pool.length ≤ s.kept.length) := by
  obtain ⟨x, h, a, b⟩ := draw_spec m v s.pool r.live
  rcases b with ⟨rfl, m1, hb⟩ | ⟨i, n, w, rfl, hi, ho, hal, m1⟩
  · obtain ⟨h2, c, m2⟩ := step_match m1 (.new v)
    have r2 := orderly_new r v
    have hl : h.arcs.length = o.vals.length := by rw [m1.arcs, List.length_map]
    obtain ⟨s', o', d1, d2, d3, d4, d5⟩ := send_spec m2 r2 (i := o.vals.length) (n := o.next) (v := v) (by
      have := at_append o (some (o.next, v)) (o.next + 1) o.vals.length
      rwa [if_pos rfl] at this) (List.mem_append_right _ (by simp)) (fun j w hj => by
      simp only [Own.step] at hj
      rw [at_append] at hj
      by_cases e : j = o.vals.length
      · exact e
      · rw [if_neg e] at hj
        exact absurd (r.next _ _ _ hj) (Nat.lt_irrefl _))
    refine ⟨s', o', ?_, d4, d5, d3, .inr ⟨by rw [d2, List.length_append]; rfl, orderly_busy r hb⟩⟩
    simp only [picture, a, ok_bind, c, hl]
    exact d1
  · have r1 := orderly_write r v ho hi
    obtain ⟨s', o', d1, d2, d3, d4, d5⟩ := send_spec m1 r1 (i := i) (n := n) (v := v) (by rw [at_set o (at_lt ho), if_pos rfl]) hi
      (fun j u hj => by
        rw [at_set o (at_lt ho)] at hj
        by_cases e : j = i
        · exact e
        · rw [if_neg e] at hj
          exact hal j u hj)
    refine ⟨s', o', ?_, d4, d5, d3, .inl ⟨by rw [d2], (orderly_free r).2 ho hi hal⟩⟩
    simp only [picture, a, ok_bind]
    exact d1

theorem encode_spec {s : Studio α} {o : Own α} {q : List α} (m : Match s.mem o) (r : Orderly o s.pool s.kept q) :
    ∃ s' o', encode s = .ok (q.take 1, s') ∧ Match s'.mem o' ∧ Orderly o' s'.pool s'.kept (q.drop 1) ∧
      s'.kept.length = s.kept.length - 1 ∧ s'.pool = s.pool := by
  obtain ⟨h, pool, kept⟩ := s
  cases kept with
  | nil =>
    have : q = [] := by simpa using r.held.symm
    subst this
    exact ⟨_, o, rfl, m, r, rfl, rfl⟩
  | cons j js =>
    cases q with
    | nil => have := r.held; simp at this
    | cons v q =>
      have hh := r.held
      simp only [List.map_cons, List.cons.injEq] at hh
      obtain ⟨⟨n, w⟩, hj⟩ := r.of_kept j (List.mem_cons_self ..)
      rw [hj] at hh
      simp only [Option.map_some, Option.some.injEq] at hh
      obtain ⟨rfl, hq⟩ := hh
      obtain ⟨h1, a, m1⟩ := step_match m (.get j)
      simp only [Own.step, hj] at a m1
      obtain ⟨h2, b, m2⟩ := step_match m1 (.drop j)
      simp only [Own.step, hj] at b m2
      obtain ⟨k1, k2⟩ := List.nodup_cons.1 r.keptOnce
      have hat := at_set o (at_lt hj) none o.next
      have hback : ∀ i x, (Own.mk (o.vals.set j none) o.next).at i = some x → i ≠ j ∧ o.at i = some x := fun i x hx => by
        rw [hat] at hx
        by_cases e : i = j
        · rw [if_pos e] at hx; cases hx
        · rw [if_neg e] at hx; exact ⟨e, hx⟩
      have hpool : ∀ i ∈ pool, i ≠ j := fun i hi e => r.other i hi (e ▸ List.mem_cons_self ..)
      refine ⟨⟨h2, pool, js⟩, _, by simp only [encode, a, b, ok_bind, pure_eq_ok, List.take_succ_cons, List.take_zero], m2, ?_, rfl, rfl⟩
      refine ⟨fun i hi => ?_, fun i hi k hk n' u u' h2 h3 => ?_, r.once, ?_, k2, fun i hi hk => ?_, fun i x hx => ?_, fun i n' u hi => ?_,
        fun i hi k hk n' u u' h2 h3 => ?_, fun i hi n' u h2 => ?_⟩
      · rw [hat, if_neg (hpool i hi)]
        exact r.live i hi
      · exact r.apart i hi k hk _ _ _ (hback _ _ h2).2 (hback _ _ h3).2
      · rw [List.drop_succ_cons, List.drop_zero, ← hq]
        exact List.map_congr_left fun i hi => by rw [hat, if_neg (fun e : i = j => k1 (e ▸ hi))]
      · exact r.other i hi (List.mem_cons_of_mem _ hk)
      · obtain ⟨h3, h4⟩ := hback _ _ hx
        rcases r.all i x h4 with h5 | h5
        · exact .inl h5
        · exact .inr ((List.mem_cons.1 h5).resolve_left h3)
      · exact r.next _ _ _ (hback _ _ hi).2
      · exact r.keptApart i (List.mem_cons_of_mem _ hi) k (List.mem_cons_of_mem _ hk) _ _ _ (hback _ _ h2).2 (hback _ _ h3).2
      · obtain ⟨k, hk, u', hu⟩ := r.twin i (List.mem_cons_of_mem _ hi) _ _ (hback _ _ h2).2
        exact ⟨k, hk, u', by rw [hat, if_neg (hpool k hk)]; exact hu⟩

theorem studio_spec {s : Studio α} {o : Own α} {q : List α} (m : Match s.mem o) (r : Orderly o s.pool s.kept q) (ts : List (Turn α)) :
    ∃ s', studio s ts = .ok (Shared.values q ts, s') ∧
      s'.pool.length = most s.pool.length s.kept.length ts := by
  induction ts generalizing s o q with
  | nil => exact ⟨s, rfl, rfl⟩
  | cons t ts ih =>
    cases t with
    | picture v =>
      obtain ⟨s1, o1, a, m1, r1, b, c⟩ := picture_spec m r v
      obtain ⟨s', d, e⟩ := ih m1 r1
      refine ⟨s', by simp only [studio, a, ok_bind, d, Shared.values], ?_⟩
      rw [e, b, most]
      have := (orderly_free r).1
      congr 1
      rcases c with ⟨c1, c2⟩ | ⟨c1, c2⟩ <;> rw [c1, Nat.max_def] <;> split <;> omega
    | encode =>
      obtain ⟨s1, o1, a, m1, r1, b, c⟩ := encode_spec m r
      obtain ⟨s', d, e⟩ := ih m1 r1
      refine ⟨s', by simp only [studio, a, ok_bind, d, pure_eq_ok, Shared.values], ?_⟩
      rw [e, b, c, most]

/-- The studio at the beginning. -/
def Studio.empty : Studio α := ⟨Mem.empty, [], []⟩

theorem orderly_empty : Orderly (⟨[], 0⟩ : Own α) [] [] [] := by
  refine ⟨(fun i h => nomatch h), (fun i h => nomatch h), .nil, rfl, .nil, (fun i h => nomatch h), (fun i x h => nomatch h), (fun i n v h => nomatch h),
    (fun i h => nomatch h), fun i h => nomatch h⟩

theorem values_prefix (q : List α) (ts : List (Turn α)) : Shared.values q ts <+: q ++ pictures ts := by
  induction ts generalizing q with
  | nil => exact List.nil_prefix
  | cons t ts ih =>
    cases t with
    | picture v =>
      have := ih (q ++ [v])
      simpa [Shared.values, pictures] using this
    | encode =>
      have := ih (q.drop 1)
      simp only [Shared.values, pictures]
      have h := (List.prefix_append_right_inj (q.take 1)).2 this
      rwa [← List.append_assoc, List.take_append_drop] at h

/-- **C169, pictures.** Whenever the encoder gets round to it, it reads the pictures as they were sent, in order: those an encoder that
takes copies reads, the first of all. Drawing into the frames again disturbs none. -/
theorem c169_pictures (ts : List (Turn α)) :
    ∃ s, studio Studio.empty ts = .ok (Shared.values [] ts, s) ∧ Shared.values [] ts <+: pictures ts := by
  obtain ⟨s, a, _⟩ := studio_spec (s := Studio.empty) match_empty orderly_empty ts
  exact ⟨s, a, values_prefix [] ts⟩

theorem most_le (k p n : Nat) (ts : List (Turn α)) : most p n ts ≤ k + 1 ↔ p ≤ k + 1 ∧ AtMost k n ts := by
  induction ts generalizing p n with
  | nil => simp [most, AtMost]
  | cons t ts ih =>
    cases t with
    | picture v =>
      rw [most, ih, AtMost, Nat.max_le]
      constructor
      · rintro ⟨⟨a, b⟩, c⟩; exact ⟨a, by omega, c⟩
      · rintro ⟨a, b, c⟩; exact ⟨⟨a, by omega⟩, c⟩
    | encode => rw [most, ih, AtMost]

/-- **C169, frames.** The pool has as many frames as the encoder ever kept when a picture was drawn, and one more: it has at most `k + 1`,
however many pictures there are, if that were never more than `k`, and not otherwise. -/
theorem c169_frames (ts : List (Turn α)) (l : List α) (s : Studio α) (h : studio Studio.empty ts = .ok (l, s)) :
    s.pool.length = most 0 0 ts ∧ ∀ k, s.pool.length ≤ k + 1 ↔ AtMost k 0 ts := by
  obtain ⟨s', a, b⟩ := studio_spec (s := Studio.empty) match_empty orderly_empty ts
  rw [h] at a
  cases a
  refine ⟨b, fun k => ?_⟩
  rw [b, most_le]
  exact ⟨fun h => h.2, fun h => ⟨Nat.zero_le _, h⟩⟩

/-- Seven pictures and an encoder that keeps up to two: three frames. -/
example : (∃ s, studio Studio.empty [.picture 1, .picture 2, .picture 3, .encode, .encode, .picture 4, .encode, .picture 5, .encode,
      .picture 6, .encode, .picture 7, .encode, .encode, .encode] = .ok ([1, 2, 3, 4, 5, 6, 7], s) ∧ s.pool.length = 3) ∧
    AtMost 2 0 [.picture 1, .picture 2, .picture 3, .encode, .encode, .picture 4, .encode, .picture 5, .encode,
      .picture 6, .encode, .picture 7, .encode, .encode, .encode] :=
  ⟨⟨_, rfl, rfl⟩, by simp [AtMost]⟩

end Verif.Shared
