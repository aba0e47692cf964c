import Verif.Codebook.Exact

/-!
# Property C158: parsers over several bit readers

Code that reads headers and payloads does not call one reader with a list of calls: which bits it reads next depends on those it
has read, it copies readers to look ahead and to come back (bitread.rs:152: they are `Copy`), and it opens readers of either
order over other buffers. Parsers are programs here; each of their readers goes its own way along its buffer.
-/

namespace Verif.Codebook
open Verif Verif.BitRead

variable {S α : Type}

/-- The code of a parser. Readers have numbers in the order in which they are made. -/
inductive Parse (S α : Type)
  | ret (a : α)
  | panic (p : Panic)
  | make (e : Endian) (buf : List U8) (k : Parse S α)
  | copy (i : Nat) (k : Parse S α)
  | bits (i : Nat) (op : Op) (k : Option Nat → Parse S α)
  | code (i : Nat) (b : Made S) (k : Except CodebookError S → Parse S α)
  | consumed (i : Nat) (k : Nat → Parse S α)
  | available (i : Nat) (k : Nat → Parse S α)

/-- Each reader with its order. A number without a reader is a panic; Rust has no such programs. -/
def Parse.run (fuel : Nat) : Parse S α → List (Endian × Reader) → Rust (α × List (Endian × Reader))
  | .ret a, rs => .ok (a, rs)
  | .panic p, _ => .error p
  | .make e buf k, rs => do
    let r ← BitRead.new e buf
    k.run fuel (rs ++ [(e, r)])
  | .copy i k, rs =>
    match rs[i]? with
    | none => .error .explicit
    | some x => k.run fuel (rs ++ [x])
  | .bits i op k, rs =>
    match rs[i]? with
    | none => .error .explicit
    | some (e, r) => do
      let (v, r) ← step e r op
      (k v).run fuel (rs.set i (e, r))
  | .code i b k, rs =>
    match rs[i]? with
    | none => .error .explicit
    | some (e, r) => do
      let (x, r) ← readCb e fuel b.cb r
      (k x).run fuel (rs.set i (e, r))
  | .consumed i k, rs =>
    match rs[i]? with
    | none => .error .explicit
    | some (_, r) => do (k (← BitRead.consumed r)).run fuel rs
  | .available i k, rs =>
    match rs[i]? with
    | none => .error .explicit
    | some (_, r) => do (k (← BitRead.available r)).run fuel rs

/-! ### specification -/

/-- A buffer with the order of its bits and a cursor. -/
structure Tape where
  e : Endian
  buf : List U8
  cur : Cur

/-- The same program on tapes: bits and codewords at the cursor. -/
def Parse.onTapes : Parse S α → List Tape → Rust (α × List Tape)
  | .ret a, ts => .ok (a, ts)
  | .panic p, _ => .error p
  | .make e buf k, ts => k.onTapes (ts ++ [⟨e, buf, .start buf.length⟩])
  | .copy i k, ts =>
    match ts[i]? with
    | none => .error .explicit
    | some t => k.onTapes (ts ++ [t])
  | .bits i op k, ts =>
    match ts[i]? with
    | none => .error .explicit
    | some t => (k (t.cur.value t.e t.buf op)).onTapes (ts.set i { t with cur := t.cur.next t.buf.length op })
  | .code i b k, ts =>
    match ts[i]? with
    | none => .error .explicit
    | some t => do
      let (x, c) ← decode b.mode t.e t.buf 26 (bookOf b.mode b.ds) t.cur
      (k x).onTapes (ts.set i { t with cur := c })
  | .consumed i k, ts =>
    match ts[i]? with
    | none => .error .explicit
    | some t => (k (8 * t.cur.idx - t.cur.left)).onTapes ts
  | .available i k, ts =>
    match ts[i]? with
    | none => .error .explicit
    | some t => do (k (← t.cur.avail t.buf.length)).onTapes ts

/-- Widths the methods allow, and codebooks that were made from codewords that decode. -/
def Parse.Allowed : Parse S α → Prop
  | .ret _ => True
  | .panic _ => True
  | .make _ _ k => k.Allowed
  | .copy _ k => k.Allowed
  | .bits _ op k => widthOk op ∧ ∀ v, (k v).Allowed
  | .code _ b k => b.Sound ∧ ∀ x, (k x).Allowed
  | .consumed _ k => ∀ n, (k n).Allowed
  | .available _ k => ∀ n, (k n).Allowed

/-- The reader stands where the tape says. -/
def Tape.Shows (t : Tape) (x : Endian × Reader) : Prop :=
  x.1 = t.e ∧ x.2.buffer = t.buf ∧ BitRead.Follows t.e x.2 t.cur

/-- All of them do. -/
def Show (ts : List Tape) (rs : List (Endian × Reader)) : Prop :=
  ts.length = rs.length ∧ ∀ (i : Nat) (t : Tape) (x : Endian × Reader), ts[i]? = some t → rs[i]? = some x → t.Shows x

/-! ### proof -/

theorem Show.add {ts : List Tape} {rs : List (Endian × Reader)} (h : Show ts rs) {t : Tape} {x : Endian × Reader}
    (hx : t.Shows x) : Show (ts ++ [t]) (rs ++ [x]) := by
  refine ⟨by simp [h.1], ?_⟩
  intro i t' x' ht hr
  by_cases hi : i < ts.length
  · rw [List.getElem?_append_left hi] at ht
    rw [List.getElem?_append_left (by rw [← h.1]; exact hi)] at hr
    exact h.2 i t' x' ht hr
  · rw [List.getElem?_append_right (by omega)] at ht
    rw [List.getElem?_append_right (by rw [← h.1]; omega), ← h.1] at hr
    cases hj : i - ts.length with
    | zero => rw [hj] at ht hr; cases ht; cases hr; exact hx
    | succ j => rw [hj] at ht; simp at ht

theorem Show.put {ts : List Tape} {rs : List (Endian × Reader)} (h : Show ts rs) (i : Nat) {t : Tape} {x : Endian × Reader}
    (hx : t.Shows x) : Show (ts.set i t) (rs.set i x) := by
  refine ⟨by simp [h.1], ?_⟩
  intro j t' x' ht hr
  rw [List.getElem?_set] at ht hr
  by_cases hj : i = j
  · subst hj
    rw [if_pos rfl] at ht hr
    split at ht
    · split at hr
      · cases ht; cases hr; exact hx
      · cases hr
    · cases ht
  · rw [if_neg hj] at ht hr
    exact h.2 j t' x' ht hr

/-- Either both have one with this number, or neither. -/
theorem Show.get {ts : List Tape} {rs : List (Endian × Reader)} (h : Show ts rs) (i : Nat) :
    (ts[i]? = none ∧ rs[i]? = none) ∨ ∃ t x, ts[i]? = some t ∧ rs[i]? = some x ∧ t.Shows x := by
  by_cases hi : i < ts.length
  · have h1 : ts[i]? = some ts[i] := List.getElem?_eq_getElem hi
    have h2 : rs[i]? = some (rs[i]'(by rw [← h.1]; exact hi)) := List.getElem?_eq_getElem _
    exact .inr ⟨_, _, h1, h2, h.2 i _ _ h1 h2⟩
  · exact .inl ⟨List.getElem?_eq_none (by omega), List.getElem?_eq_none (by rw [← h.1]; omega)⟩

/-- The answer of the readers is that of the tapes. -/
def SameRun (x : Rust (α × List Tape)) (y : Rust (α × List (Endian × Reader))) : Prop :=
  match x with
  | .error p => y = .error p
  | .ok (a, ts) => ∃ rs, y = .ok (a, rs) ∧ Show ts rs

theorem parse_same {fuel : Nat} (hfu : 26 ≤ fuel) (p : Parse S α) : p.Allowed →
    ∀ (ts : List Tape) (rs : List (Endian × Reader)), Show ts rs → SameRun (p.onTapes ts) (p.run fuel rs) := by
  induction p with
  | ret a => intro _ ts rs h; exact ⟨rs, rfl, h⟩
  | panic p => intro _ ts rs h; rfl
  | make e buf k ih =>
    intro ha ts rs h
    obtain ⟨r, h1, h2, h3⟩ := new_follows e buf
    simp only [Parse.onTapes, Parse.run, h1, ok_bind]
    exact ih ha _ _ (h.add ⟨rfl, h2, h3⟩)
  | copy i k ih =>
    intro ha ts rs h
    rcases h.get i with ⟨h1, h2⟩ | ⟨t, x, h1, h2, h3⟩
    · simp only [Parse.onTapes, Parse.run, h1, h2]; rfl
    · simp only [Parse.onTapes, Parse.run, h1, h2]
      exact ih ha _ _ (h.add h3)
  | bits i op k ih =>
    intro ha ts rs h
    rcases h.get i with ⟨h1, h2⟩ | ⟨t, x, h1, h2, h3⟩
    · simp only [Parse.onTapes, Parse.run, h1, h2]; rfl
    · obtain ⟨e, r⟩ := x
      obtain ⟨g1, g2, g3⟩ := h3
      simp only at g1 g2 g3
      subst g1
      obtain ⟨r1, a1, a2, a3⟩ := step_follows g3 op ha.1
      simp only [Parse.onTapes, Parse.run, h1, h2, a1, ok_bind]
      rw [g2] at a2 a3 ⊢
      exact ih _ (ha.2 _) _ _ (h.put i ⟨rfl, a2, a3⟩)
  | code i b k ih =>
    intro ha ts rs h
    rcases h.get i with ⟨h1, h2⟩ | ⟨t, x, h1, h2, h3⟩
    · simp only [Parse.onTapes, Parse.run, h1, h2]; rfl
    · obtain ⟨e, r⟩ := x
      obtain ⟨g1, g2, g3⟩ := h3
      simp only at g1 g2 g3
      subst g1
      obtain ⟨⟨b1, b2, b3, b4, ord, b5, b6⟩, ha2⟩ := ha
      have one := c17_exact_partial b5 b1 b2 b3 b4 b6 hfu t.e r t.cur g3
      rw [g2] at one
      simp only [Parse.onTapes, Parse.run, h1, h2]
      cases hd : decode b.mode t.e t.buf 26 (bookOf b.mode b.ds) t.cur with
      | error p => rw [hd] at one; simp only at one; simp only [one, error_bind]; rfl
      | ok y =>
        obtain ⟨x, c⟩ := y
        rw [hd] at one
        simp only at one
        obtain ⟨r1, a1, a2, a3⟩ := one
        simp only [a1, ok_bind]
        exact ih _ (ha2 _) _ _ (h.put i ⟨rfl, a2, a3⟩)
  | consumed i k ih =>
    intro ha ts rs h
    rcases h.get i with ⟨h1, h2⟩ | ⟨t, x, h1, h2, h3⟩
    · simp only [Parse.onTapes, Parse.run, h1, h2]; rfl
    · obtain ⟨e, r⟩ := x
      simp only [Parse.onTapes, Parse.run, h1, h2, h3.2.2.consumed, ok_bind]
      exact ih _ (ha _) _ _ h
  | available i k ih =>
    intro ha ts rs h
    rcases h.get i with ⟨h1, h2⟩ | ⟨t, x, h1, h2, h3⟩
    · simp only [Parse.onTapes, Parse.run, h1, h2]; rfl
    · obtain ⟨e, r⟩ := x
      obtain ⟨g1, g2, g3⟩ := h3
      simp only at g1 g2 g3
      have := g3.available
      rw [g2] at this
      simp only [Parse.onTapes, Parse.run, h1, h2, Cur.avail]
      by_cases hc : t.cur.idx ≤ t.buf.length
      · rw [if_pos hc] at this ⊢
        simp only [this, ok_bind]
        exact ih _ (ha _) _ _ h
      · rw [if_neg hc] at this ⊢
        simp only [this, error_bind]; rfl

/-- C158. Whatever a parser does with bit readers of both orders, with copies of them and with codebooks, depending on all that
it has read: it computes what the same parser computes on tapes, each with its own cursor, and it panics where that does. At the
end `consumed` and `available` of every reader are those of its tape. -/
theorem c158_programs (p : Parse S α) (hp : p.Allowed) {fuel : Nat} (hfu : 26 ≤ fuel) :
    match p.onTapes [] with
    | .error e => p.run fuel [] = .error e
    | .ok (a, ts) => ∃ rs, p.run fuel [] = .ok (a, rs) ∧ rs.length = ts.length ∧
        ∀ (i : Nat) (t : Tape), ts[i]? = some t → ∃ e r, rs[i]? = some (e, r) ∧ e = t.e ∧ r.buffer = t.buf ∧
          consumed r = .ok (8 * t.cur.idx - t.cur.left) ∧ available r = t.cur.avail t.buf.length := by
  have h := parse_same hfu p hp [] [] ⟨rfl, fun i t x h => by simp at h⟩
  revert h
  cases p.onTapes [] with
  | error e => exact id
  | ok v =>
    obtain ⟨a, ts⟩ := v
    rintro ⟨rs, h1, h2⟩
    refine ⟨rs, h1, h2.1.symm, ?_⟩
    intro i t ht
    rcases h2.get i with ⟨g1, _⟩ | ⟨t', x, g1, g2, g3, g4, g5⟩
    · rw [ht] at g1; cases g1
    · rw [ht] at g1
      cases g1
      refine ⟨x.1, x.2, g2, g3, g4, g5.consumed, ?_⟩
      have := g5.available
      rw [g4] at this
      rw [this]
      rfl

/-- Looks ahead for a mark of eight bits; behind it come codewords until one says that numbers follow, in the other order, from
a buffer of their own. -/
def sampleParser (b : Made Nat) : Parse Nat (List Nat) :=
  .make .be [0xa5, 0xb7, 0xff, 0x80, 0, 0, 0, 0, 0, 0, 0] (.copy 0 (.bits 1 (.get32 8) fun
    | some 0xa5 => .bits 0 (.skip 8) fun _ => .code 0 b fun
      | .ok x => .code 0 b fun
        | .ok y => .make .le [0xc3, 1, 0, 0, 0, 0, 0, 0] (.bits 2 (.get64 6) fun v => .consumed 0 fun m => .available 1 fun n =>
            .ret ([x, y, m, n] ++ v.toList))
        | .error _ => .ret []
      | .error _ => .ret []
    | _ => .panic .explicit))

/-- C158 on it. -/
example : (∃ cb, (sampleParser ⟨.msb, book, cb⟩).Allowed) ∧
    (match (sampleParser ⟨.msb, book, ⟨[], [], 0⟩⟩).onTapes [] with
      | .ok (l, ts) => decide (l = [101, 102, 13, 80, 3] ∧ ts.map (fun t => t.cur.src) = [13, 8, 6])
      | _ => false) = true := by
  constructor
  · obtain ⟨T, h, _⟩ := new_ok insOrder_valid (m := .msb) (ds := book) (by decide) (by decide) (by decide) (by decide)
    obtain ⟨cb, hb⟩ : ∃ cb, Made.Sound ⟨.msb, book, cb⟩ := ⟨_, show WF .msb book by decide, show PrefixFree .msb book by decide,
      show Fits .msb book by decide, show used book ≠ [] by decide, insOrder, insOrder_valid, h⟩
    refine ⟨cb, show (8 : Nat) ≤ 32 by decide, fun v => ?_⟩
    simp only
    split
    · refine ⟨trivial, fun _ => ⟨hb, fun x => ?_⟩⟩
      cases x with
      | error _ => trivial
      | ok x =>
        refine ⟨hb, fun y => ?_⟩
        cases y with
        | error _ => trivial
        | ok y => exact ⟨show (6 : Nat) ≤ 64 by decide, fun _ _ _ => trivial⟩
    · trivial
  · decide +kernel

end Verif.Codebook
