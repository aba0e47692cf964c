import Verif.BitRead.Narrow
import Verif.Codebook.Release
import Verif.Codebook.Overlap

/-!
# C131: codebooks on targets with any width of `usize`

Codes, lengths and entries of the table have the same types everywhere; but offsets into the table, numbers of
symbols, and the positions of the bit reader are `usize`. Here the functions of `codebook.rs` over a `usize` of `b`
bits, with and without overflow checks. Casts from `u32` to `usize` keep the value, that is, `b` is at least 32 (the
crate needs `HashMap`, which targets with fewer bits do not have).
-/

namespace Verif.Codebook
open Verif Verif.BitRead Verif.Data

/-- A target: the width of `usize`, and whether the build has overflow checks. -/
structure BookTarget where
  b : Nat
  checks : Bool

namespace BookTarget
variable (t : BookTarget)

/-- The operators on `u8` and `u32`, and those of the bit reader. -/
def ops : BookOps :=
  { (if t.checks then checkedBook else wrappingBook) with reader := narrowOps t.b t.checks }

/-- `usize + usize` -/
def add (x y : Nat) : Rust Nat := (narrowOps t.b t.checks).add x y

/-- codebook.rs:114-136 -/
def fillLutMsb (table : List Nat) (off code bits lutBits symidx : Nat) (esc : Bool) :
    Rust (List Nat) :=
  if !esc then do
    let fillLen ← t.ops.sub8 lutBits bits
    let fillSize ← t.ops.shl 1 fillLen
    let fillCode ← t.ops.shl code fillLen
    (List.range fillSize).foldlM (init := table) fun l j => do
      let i ← t.ops.add fillCode j
      let k ← t.add i off
      setIdx l k (leafVal symidx bits)
  else do
    let k ← t.add code off
    setIdx table k (escVal symidx bits)

/-- codebook.rs:138-160 -/
def fillLutLsb (table : List Nat) (off code bits lutBits symidx : Nat) (esc : Bool) :
    Rust (List Nat) :=
  if !esc then do
    let fillLen ← t.ops.sub8 lutBits bits
    let fillSize ← t.ops.shl 1 fillLen
    let fillCode := code
    let step ← t.ops.sub8 lutBits fillLen
    (List.range fillSize).foldlM (init := table) fun l j => do
      let s ← t.ops.shl j step
      let i ← t.ops.add fillCode s
      let k ← t.add i off
      setIdx l k (leafVal symidx bits)
  else do
    let k ← t.add code off
    setIdx table k (escVal symidx bits)

/-- codebook.rs:162-177 -/
def fillLut (m : Mode) (table : List Nat) (off code bits lutBits symidx : Nat) (esc : Bool) :
    Rust (List Nat) :=
  match m with
  | .msb => t.fillLutMsb table off code bits lutBits symidx esc
  | .lsb => t.fillLutLsb table off code bits lutBits symidx esc

/-- codebook.rs:179-186; `Vec::reserve` panics if the entries, of four bytes each, take more than `isize::MAX` bytes. -/
def resizeTable (table : List Nat) (bits : Nat) : Rust (List Nat × Nat) := do
  let add ← t.ops.shl 1 bits
  if 2 ^ (t.b - 1) ≤ 4 * (table.length + add) then .error .explicit
  else do
    let len ← t.add table.length add
    return (table ++ List.replicate (len - table.length) FILL, table.length % 2 ^ 32)

/-- codebook.rs:269-281, 343-355 -/
def allocBucket (m : Mode) (table : List Nat) (off key : Nat) (b : CodeBucket) :
    Rust (List Nat × CodeBucket) := do
  let maxlen := min b.maxlen MAX_LUT_BITS
  let (table, newOff) ← t.resizeTable table maxlen
  let table ← t.fillLut m table off key maxlen MAX_LUT_BITS newOff true
  return (table, { b with offset := newOff })

/-- codebook.rs:246-264 -/
def escStep (m : Mode) (off maxlen : Nat) (st : List Nat × EscapeCodes) (c : Code) :
    Rust (List Nat × EscapeCodes) :=
  if c.bits ≤ MAX_LUT_BITS then do
    let table ← t.fillLut m st.1 off c.code c.bits maxlen (c.idx % 2 ^ 32) false
    return (table, st.2)
  else do
    let ckey ← t.ops.extractLutPart c.code c.bits MAX_LUT_BITS m
    let cval ← t.ops.extractEscPart c.code c.bits MAX_LUT_BITS m
    return (st.1, addEscCode st.2 ckey cval (c.bits - MAX_LUT_BITS) c.idx)

/-- codebook.rs:267-282 -/
def allocStep (m : Mode) (off : Nat) (st : List Nat × EscapeCodes) (kb : Nat × CodeBucket) :
    Rust (List Nat × EscapeCodes) := do
  let (table, b) ← t.allocBucket m st.1 off kb.1 kb.2
  return (table, st.2 ++ [(kb.1, b)])

/-- codebook.rs:238-289 -/
def buildEscLut (ord : Order) (m : Mode) :
    Nat → List Nat → List Nat → CodeBucket → Rust (List Nat)
  | 0, _, _, _ => .error .fuel
  | fuel + 1, path, table, bucket => do
    let maxlen := min bucket.maxlen MAX_LUT_BITS
    let (table, esc) ← bucket.codes.foldlM (t.escStep m bucket.offset maxlen) (table, [])
    let (table, esc) ← (ord path 0 esc).foldlM (t.allocStep m bucket.offset) (table, [])
    (ord path 1 esc).foldlM
      (fun l kb => buildEscLut ord m fuel (path ++ [kb.1]) l kb.2) table

/-- codebook.rs:300-315 -/
def gatherStep (m : Mode) (st : Gather) (d : Desc S) : Rust Gather := do
  let maxbits := max d.bits st.maxbits
  let esc ← (if d.bits > MAX_LUT_BITS then do
      let ckey ← t.ops.extractLutPart d.code d.bits MAX_LUT_BITS m
      let cval ← t.ops.extractEscPart d.code d.bits MAX_LUT_BITS m
      return addEscCode st.esc ckey cval (d.bits - MAX_LUT_BITS) st.symidx
    else .ok st.esc)
  let symidx ← (if d.bits > 0 then t.add st.symidx 1 else .ok st.symidx)
  return { maxbits, esc, symidx }

/-- codebook.rs:330-360 -/
def fillStep (m : Mode) (maxbits : Nat) (st : Fill) (d : Desc S) : Rust Fill :=
  if d.bits = 0 then .ok st
  else do
    let (table, esc) ← (if d.bits ≤ MAX_LUT_BITS then do
        let table ← t.fillLut m st.table 0 d.code d.bits maxbits st.symidx false
        return (table, st.esc)
      else do
        let ckey ← t.ops.extractLutPart d.code d.bits MAX_LUT_BITS m
        let ent ← idx st.table ckey
        if ent = FILL then
          match st.esc.get ckey with
          | some b => do
            let (table, b) ← t.allocBucket m st.table 0 ckey b
            return (table, st.esc.put ckey b)
          | none => .ok (st.table, st.esc)
        else .ok (st.table, st.esc))
    let symidx ← t.ops.add st.symidx 1
    return { table, esc, symidx }

/-- codebook.rs:291-378 -/
def new (ord : Order) (m : Mode) (cb : List (Desc S)) :
    Rust (Except CodebookError (Codebook S)) := do
  let g ← cb.foldlM (t.gatherStep m) { maxbits := 0, esc := [], symidx := 0 }
  if g.maxbits = 0 then .ok (.error .invalidCodebook)
  else do
    let maxbits := if g.maxbits > MAX_LUT_BITS then MAX_LUT_BITS else g.maxbits
    let f ← cb.foldlM (t.fillStep m maxbits)
      { table := List.replicate (1 <<< maxbits) FILL, esc := g.esc, symidx := 0 }
    let table ← (ord [] 1 f.esc).foldlM
      (fun l kb => t.buildEscLut ord m 26 [kb.1] l kb.2) f.table
    return .ok {
      table, lutBits := maxbits,
      syms := (cb.filter (fun d => decide (d.bits > 0))).map (·.sym) }

/-- codebook.rs:385-403 -/
def readLoop (e : Endian) (table : List Nat) :
    Nat → Nat → Nat → Reader → Rust (Except CodebookError Nat × Reader)
  | 0, _, _, _ => .error .fuel
  | fuel + 1, off, lutBits, r => do
    let (v, _) ← (narrowOps t.b t.checks).get_bits_32 e r lutBits
    let k ← t.add v.toNat off
    let ent ← idx table k
    if ent = FILL then .ok (.error .invalidCode, r)
    else do
      let bits := ent &&& 0x7F
      let esc := (ent &&& 0x80) != 0
      let next := ent >>> 8
      let avail ← (narrowOps t.b t.checks).available r
      if bits > avail % 2 ^ 32 then .ok (.error .invalidCode, r)
      else do
        let r ← (narrowOps t.b t.checks).skip_bits e r (if esc then lutBits else bits)
        if esc then readLoop e table fuel next bits r
        else .ok (.ok next, r)

/-- codebook.rs:380-406 -/
def readCb (e : Endian) (fuel : Nat) (cb : Codebook S) (r : Reader) :
    Rust (Except CodebookError S × Reader) := do
  let (res, r) ← t.readLoop e cb.table fuel 0 cb.lutBits r
  match res with
  | .ok i => do
    let s ← idx cb.syms i
    return (.ok s, r)
  | .error err => .ok (.error err, r)

end BookTarget

/-! ### Construction -/

/-- What `x` returns is not shorter than `n`; if it is shorter than `K`, `y` returns it as well, and otherwise, from something
shorter than `K` on, `y` finds that it does not fit. Where `x` panics, `y` does so (if `checks` holds). -/
structure Lim (checks : Bool) (K : Nat) (len : α → Nat) (n : Nat) (x y : Rust α) : Prop where
  ok : ∀ a, x = .ok a → n ≤ len a ∧ (len a < K → y = .ok a) ∧ (n < K → K ≤ len a → y = .error .explicit)
  error : ∀ p, x = .error p → n < K → checks = true → y = .error p ∨ y = .error .explicit ∨ y = .error .overflow

section
variable {checks : Bool} {K n : Nat} {len : α → Nat}

theorem Lim.refl {a : α} (h : n ≤ len a) (hk : len a = n) : Lim checks K len n (.ok a) (.ok a) where
  ok := by intro c hc; cases hc; exact ⟨h, fun _ => rfl, fun _ _ => by omega⟩
  error _ h := nomatch h

theorem Lim.panic {p : Panic} : Lim checks K len n (.error p : Rust α) (.error p) where
  ok _ h := nomatch h
  error _ h _ _ := by cases h; exact .inl rfl

theorem Lim.bind {la : α → Nat} {lb : β → Nat} {x y : Rust α} {f g : α → Rust β}
    (h : Lim checks K la n x y) (k : ∀ a, Lim checks K lb (la a) (f a) (g a)) : Lim checks K lb n (x >>= f) (y >>= g) where
  ok := by
    intro c hc
    cases hx : x with
    | error _ => rw [hx] at hc; exact nomatch hc
    | ok a =>
      rw [hx] at hc
      obtain ⟨h1, h2, h3⟩ := h.ok a hx
      obtain ⟨k1, k2, k3⟩ := (k a).ok c hc
      refine ⟨by omega, fun hl => ?_, fun hn hl => ?_⟩
      · rw [h2 (by omega)]
        exact k2 hl
      · by_cases ha : la a < K
        · rw [h2 ha]
          exact k3 ha hl
        · rw [h3 hn (by omega)]
          rfl
  error := by
    intro p hp hn hc
    cases hx : x with
    | error q =>
      rw [hx] at hp
      cases hp
      rcases h.error _ hx hn hc with h | h | h <;> rw [h]
      · exact .inl rfl
      · exact .inr (.inl rfl)
      · exact .inr (.inr rfl)
    | ok a =>
      rw [hx] at hp
      obtain ⟨h1, h2, h3⟩ := h.ok a hx
      by_cases ha : la a < K
      · rw [h2 ha]
        exact (k a).error p hp ha hc
      · rw [h3 hn (by omega)]
        exact .inr (.inl rfl)

/-- The same computation in front. -/
theorem Lim.val {lb : β → Nat} {x : Rust α} {f g : α → Rust β}
    (k : ∀ a, Lim checks K lb n (f a) (g a)) : Lim checks K lb n (x >>= f) (x >>= g) := by
  cases x with
  | error p => exact Lim.panic
  | ok a => exact k a

theorem Lim.ite {la : α → Nat} {c : Prop} [Decidable c] {x y z w : Rust α}
    (h1 : Lim checks K la n x y) (h2 : Lim checks K la n z w) :
    Lim checks K la n (if c then x else z) (if c then y else w) := by
  split <;> assumption

theorem Lim.foldlM {la : β → Nat} {f g : β → α → Rust β} (h : ∀ s x, Lim checks K la (la s) (f s x) (g s x))
    (l : List α) (s : β) : Lim checks K la (la s) (l.foldlM f s) (l.foldlM g s) := by
  induction l generalizing s with
  | nil => exact Lim.refl (Nat.le_refl _) rfl
  | cons x l ih =>
    simp only [List.foldlM_cons]
    exact Lim.bind (h s x) fun _ => ih _

end

theorem setIdx_len {l l' : List Nat} {i v : Nat} (h : setIdx l i v = .ok l') : i < l.length ∧ l'.length = l.length := by
  unfold setIdx at h
  split at h
  · cases h; exact ⟨by assumption, by simp⟩
  · exact nomatch h

/-- The arithmetic of a build. -/
def buildOps (checks : Bool) : BookOps := if checks then checkedBook else wrappingBook

section
variable (t : BookTarget) (ht : 32 ≤ t.b)

theorem ops_sub8 : t.ops.sub8 = (buildOps t.checks).sub8 := rfl
theorem ops_shl : t.ops.shl = (buildOps t.checks).shl := rfl
theorem ops_add : t.ops.add = (buildOps t.checks).add := rfl
theorem ops_lutPart : t.ops.extractLutPart = (buildOps t.checks).extractLutPart := rfl
theorem ops_escPart : t.ops.extractEscPart = (buildOps t.checks).extractEscPart := rfl

include ht

theorem pow_parts : 2 ^ t.b = 8 * 2 ^ (t.b - 3) ∧ 2 ^ (t.b - 1) = 4 * 2 ^ (t.b - 3) := by
  obtain ⟨k, hk⟩ : ∃ k, t.b = k + 3 := ⟨t.b - 3, by omega⟩
  rw [hk, show k + 3 - 1 = k + 2 by omega, show k + 3 - 3 = k by omega, Nat.pow_add, Nat.pow_add]
  omega

omit ht in
theorem addu_ok {x y : Nat} (h : x + y < 2 ^ t.b) : t.add x y = .ok (x + y) :=
  (narrow_exact t.b t.checks).add x y h

omit ht in
theorem addu_panics {x y : Nat} (h : 2 ^ t.b ≤ x + y) (hc : t.checks = true) : t.add x y = .error .overflow := by
  unfold BookTarget.add narrowOps
  rw [hc]
  simp only
  simp only [if_true]; rw [if_neg (by omega)]

theorem fit_set (l : List Nat) (i off v : Nat) :
    Lim t.checks (2 ^ (t.b - 3)) List.length l.length (setIdx l (i + off) v) (do let k ← t.add i off; setIdx l k v) where
  ok := by
    intro l' h
    obtain ⟨h1, h2⟩ := setIdx_len h
    refine ⟨by omega, fun hl => ?_, fun _ _ => by omega⟩
    have := (pow_parts t ht).1
    rw [addu_ok t (by omega), ok_bind, h]
  error := by
    intro p h hn hc
    by_cases ha : i + off < 2 ^ t.b
    · rw [addu_ok t ha, ok_bind, h]
      exact .inl rfl
    · rw [addu_panics t (by omega) hc]
      exact .inr (.inr rfl)

theorem fit_fillLut (m : Mode) (l : List Nat) (off code bits lb si : Nat) (esc : Bool) :
    Lim t.checks (2 ^ (t.b - 3)) List.length l.length ((buildOps t.checks).fillLut m l off code bits lb si esc)
      (t.fillLut m l off code bits lb si esc) := by
  cases m
  · exact Lim.ite (Lim.val fun _ => Lim.val fun _ => Lim.val fun _ =>
      Lim.foldlM (fun _ _ => Lim.val fun _ => fit_set t ht _ _ _ _) _ _) (fit_set t ht _ _ _ _)
  · exact Lim.ite (Lim.val fun _ => Lim.val fun _ => Lim.val fun _ =>
      Lim.foldlM (fun _ _ => Lim.val fun _ => Lim.val fun _ => fit_set t ht _ _ _ _) _ _)
      (fit_set t ht _ _ _ _)

theorem fit_resize (l : List Nat) (bits : Nat) :
    Lim t.checks (2 ^ (t.b - 3)) (fun x : List Nat × Nat => x.1.length) l.length ((buildOps t.checks).resizeTable l bits)
      (t.resizeTable l bits) := by
  refine Lim.val fun add => ⟨?_, fun _ h => nomatch h⟩
  intro a ha
  cases ha
  have := pow_parts t ht
  simp only [List.length_append, List.length_replicate]
  refine ⟨by omega, fun hl => ?_, fun _ hl => ?_⟩
  · rw [if_neg (by omega), addu_ok t (by omega), ok_bind, Nat.add_sub_cancel_left]
    rfl
  · rw [if_pos (by omega)]

theorem fit_allocBucket (m : Mode) (l : List Nat) (off key : Nat) (b : CodeBucket) :
    Lim t.checks (2 ^ (t.b - 3)) (fun x : List Nat × CodeBucket => x.1.length) l.length
      ((buildOps t.checks).allocBucket m l off key b) (t.allocBucket m l off key b) :=
  Lim.bind (fit_resize t ht _ _) fun _ => Lim.bind (fit_fillLut t ht _ _ _ _ _ _ _ _) fun _ => Lim.refl (Nat.le_refl _) rfl

theorem fit_escStep (m : Mode) (off ml : Nat) (st : List Nat × EscapeCodes) (c : Code) :
    Lim t.checks (2 ^ (t.b - 3)) (fun x : List Nat × EscapeCodes => x.1.length) st.1.length
      ((buildOps t.checks).escStep m off ml st c) (t.escStep m off ml st c) :=
  Lim.ite (Lim.bind (fit_fillLut t ht _ _ _ _ _ _ _ _) fun _ => Lim.refl (Nat.le_refl _) rfl)
    (Lim.val fun _ => Lim.val fun _ => Lim.refl (Nat.le_refl _) rfl)

theorem fit_buildEscLut (ord : Order) (m : Mode) (fuel : Nat) (path l : List Nat) (b : CodeBucket) :
    Lim t.checks (2 ^ (t.b - 3)) List.length l.length ((buildOps t.checks).buildEscLut ord m fuel path l b)
      (t.buildEscLut ord m fuel path l b) := by
  induction fuel generalizing path l b with
  | zero => exact Lim.panic
  | succ fuel ih =>
    exact Lim.bind (Lim.foldlM (fit_escStep t ht m _ _) _ (l, [])) fun s =>
      Lim.bind (Lim.foldlM (la := fun x : List Nat × EscapeCodes => x.1.length)
        (fun _ _ => Lim.bind (fit_allocBucket t ht _ _ _ _ _) fun _ => Lim.refl (Nat.le_refl _) rfl) _ (s.1, [])) fun _ =>
        Lim.foldlM (fun _ _ => ih _ _ _) _ _

omit ht in
theorem same_gather (m : Mode) (ds : List (Desc S)) : ∀ st : Gather, st.symidx + ds.length < 2 ^ t.b →
    ds.foldlM (t.gatherStep m) st = ds.foldlM ((buildOps t.checks).gatherStep m) st := by
  induction ds with
  | nil => intro st _; rfl
  | cons d ds ih =>
    intro st hn
    rw [List.length_cons] at hn
    simp only [List.foldlM_cons]
    have h1 : t.gatherStep m st d = (buildOps t.checks).gatherStep m st d := by
      unfold BookTarget.gatherStep BookOps.gatherStep
      rw [ops_lutPart, ops_escPart, addu_ok t (by omega)]
      simp only
      generalize (if d.bits > MAX_LUT_BITS then _ else _ : Rust EscapeCodes) = x
      cases x with
      | error _ => rfl
      | ok esc => simp only [ok_bind]; split <;> rfl
    rw [h1]
    cases h2 : (buildOps t.checks).gatherStep m st d with
    | error p => rfl
    | ok st' =>
      simp only [ok_bind]
      refine ih st' ?_
      have : st'.symidx ≤ st.symidx + 1 := by
        revert h2
        unfold BookOps.gatherStep
        generalize (if d.bits > MAX_LUT_BITS then _ else _ : Rust EscapeCodes) = x
        intro h2
        cases x with
        | error _ => exact nomatch h2
        | ok esc =>
          cases h2
          simp only
          split <;> omega
      omega

theorem fit_fillStep (m : Mode) (mb : Nat) (st : Fill) (d : Desc S) :
    Lim t.checks (2 ^ (t.b - 3)) (fun f : Fill => f.table.length) st.table.length ((buildOps t.checks).fillStep m mb st d)
      (t.fillStep m mb st d) := by
  refine Lim.ite (Lim.refl (Nat.le_refl _) rfl) (Lim.bind (la := fun x : List Nat × EscapeCodes => x.1.length)
    (Lim.ite (Lim.bind (fit_fillLut t ht _ _ _ _ _ _ _ _) fun _ => Lim.refl (Nat.le_refl _) rfl)
    (Lim.val fun ckey => Lim.val fun _ => Lim.ite ?_ (Lim.refl (Nat.le_refl _) rfl)))
    fun _ => Lim.val fun _ => Lim.refl (Nat.le_refl _) rfl)
  cases st.esc.get ckey with
  | none => exact Lim.refl (Nat.le_refl _) rfl
  | some b => exact Lim.bind (fit_allocBucket t ht _ _ _ _ _) fun _ => Lim.refl (Nat.le_refl _) rfl

/-- Construction on a target and with a table of any size. -/
theorem fit_new (ord : Order) (m : Mode) (ds : List (Desc S)) (hn : ds.length < 2 ^ t.b) :
    Lim t.checks (2 ^ (t.b - 3))
      (fun x : Except CodebookError (Codebook S) => match x with | .ok cb => cb.table.length | .error _ => 0) 0
      ((buildOps t.checks).new ord m ds) (t.new ord m ds) := by
  unfold BookOps.new BookTarget.new
  rw [same_gather t m ds _ (by simpa using hn)]
  refine Lim.val fun g => Lim.ite (Lim.refl (Nat.le_refl _) rfl) ?_
  have h10 : (if g.maxbits > MAX_LUT_BITS then MAX_LUT_BITS else g.maxbits) ≤ 10 := by
    unfold MAX_LUT_BITS; split <;> omega
  simp only
  generalize (if g.maxbits > MAX_LUT_BITS then MAX_LUT_BITS else g.maxbits) = mb at h10 ⊢
  have hk : 2 ^ 29 ≤ 2 ^ (t.b - 3) := Nat.pow_le_pow_right (by decide) (by omega)
  have hmb : 2 ^ mb ≤ 2 ^ 10 := Nat.pow_le_pow_right (by decide) h10
  have h := Lim.bind (lb := fun x : Except CodebookError (Codebook S) => match x with | .ok cb => cb.table.length | .error _ => 0)
    (Lim.foldlM (fit_fillStep t ht m mb) ds
      { table := List.replicate (1 <<< mb) FILL, esc := g.esc, symidx := 0 }) fun f =>
    Lim.bind (Lim.foldlM (fun s (x : Nat × CodeBucket) => fit_buildEscLut t ht ord m 26 [x.1] s x.2)
      (ord [] 1 f.esc) f.table) fun l =>
    Lim.refl (a := (.ok { table := l, lutBits := mb, syms := (ds.filter (fun d => decide (d.bits > 0))).map (·.sym) } :
      Except CodebookError (Codebook S))) (Nat.le_refl _) rfl
  have h1 : (List.replicate (1 <<< mb) FILL).length < 2 ^ (t.b - 3) := by
    rw [List.length_replicate, Nat.one_shiftLeft]; omega
  refine ⟨fun a ha => ?_, fun p hp _ hc => ?_⟩
  · obtain ⟨_, h2, h3⟩ := h.ok a ha
    exact ⟨Nat.zero_le _, h2, fun _ => h3 h1⟩
  · exact h.error p hp h1 hc

end

/-- **C131, construction with overflow checks, exactly.** On every target with at least 32 bits: what `Codebook::new` returns on the
model it returns on the target if the entries of the table, of four bytes each, fit into half the address space, and otherwise it
panics; where it panics on the model, it panics on the target (perhaps because the table has become too large before, or because
the position of an entry that does not exist overflows). -/
theorem c131_new_checked (b : Nat) (ht : 32 ≤ b) (ord : Order) (m : Mode) (ds : List (Desc S)) (hn : ds.length < 2 ^ b) :
    (new ord m ds = .ok (.error .invalidCodebook) → BookTarget.new ⟨b, true⟩ ord m ds = .ok (.error .invalidCodebook)) ∧
    (∀ cb, new ord m ds = .ok (.ok cb) →
      (4 * cb.table.length < 2 ^ (b - 1) → BookTarget.new ⟨b, true⟩ ord m ds = .ok (.ok cb)) ∧
      (2 ^ (b - 1) ≤ 4 * cb.table.length → BookTarget.new ⟨b, true⟩ ord m ds = .error .explicit)) ∧
    ∀ p, new ord m ds = .error p → BookTarget.new ⟨b, true⟩ ord m ds = .error p ∨
      BookTarget.new ⟨b, true⟩ ord m ds = .error .explicit ∨ BookTarget.new ⟨b, true⟩ ord m ds = .error .overflow := by
  rw [← checkedBook_new]
  have h := fit_new ⟨b, true⟩ ht ord m ds hn
  have hp := pow_parts ⟨b, true⟩ ht
  simp only at hp
  refine ⟨fun ha => ?_, fun cb hcb => ?_, fun p hq => h.error p hq (Nat.two_pow_pos _) rfl⟩
  · exact (h.ok _ ha).2.1 (Nat.two_pow_pos _)
  · obtain ⟨_, h2, h3⟩ := h.ok _ hcb
    simp only at h2 h3
    exact ⟨fun hl => h2 (by omega), fun hl => h3 (Nat.two_pow_pos _) (by omega)⟩

/-- **C131, construction without overflow checks, exactly:** the same with the books of C116. -/
theorem c131_new_unchecked (b : Nat) (ht : 32 ≤ b) (ord : Order) (m : Mode) (ds : List (Desc S)) (hn : ds.length < 2 ^ b) :
    (wrappingBook.new ord m ds = .ok (.error .invalidCodebook) →
      BookTarget.new ⟨b, false⟩ ord m ds = .ok (.error .invalidCodebook)) ∧
    ∀ cb, wrappingBook.new ord m ds = .ok (.ok cb) →
      (4 * cb.table.length < 2 ^ (b - 1) → BookTarget.new ⟨b, false⟩ ord m ds = .ok (.ok cb)) ∧
      (2 ^ (b - 1) ≤ 4 * cb.table.length → BookTarget.new ⟨b, false⟩ ord m ds = .error .explicit) := by
  have h := fit_new ⟨b, false⟩ ht ord m ds hn
  have hp := pow_parts ⟨b, false⟩ ht
  simp only at hp
  refine ⟨fun ha => ?_, fun cb hcb => ?_⟩
  · exact (h.ok _ ha).2.1 (Nat.two_pow_pos _)
  · obtain ⟨_, h2, h3⟩ := h.ok _ hcb
    simp only at h2 h3
    exact ⟨fun hl => h2 (by omega), fun hl => h3 (Nat.two_pow_pos _) (by omega)⟩

/-- **C131** What `Codebook::new` returns on the model it returns on every target with at least 32 bits, with and
without overflow checks, if the table fits into the address space. -/
theorem c131_new (t : BookTarget) (ht : 32 ≤ t.b) (ord : Order) (m : Mode) (ds : List (Desc S)) (hn : ds.length < 2 ^ t.b) :
    (new ord m ds = .ok (.error .invalidCodebook) → t.new ord m ds = .ok (.error .invalidCodebook)) ∧
    ∀ cb, new ord m ds = .ok (.ok cb) → 4 * cb.table.length < 2 ^ (t.b - 1) → t.new ord m ds = .ok (.ok cb) := by
  obtain ⟨b, checks⟩ := t
  cases checks with
  | true =>
    obtain ⟨h1, h2, _⟩ := c131_new_checked b ht ord m ds hn
    exact ⟨h1, fun cb h => (h2 cb h).1⟩
  | false =>
    obtain ⟨h1, h2⟩ := c131_new_unchecked b ht ord m ds hn
    rw [← checkedBook_new]
    exact ⟨fun h => h1 (Upto.new wrappingBook_le ord m ds _ h), fun cb h => (h2 cb (Upto.new wrappingBook_le ord m ds _ h)).1⟩

example : (match new insOrder .msb lightBook with
    | .ok (.ok cb) => decide (4 * cb.table.length < 2 ^ 31)
    | _ => false) = true := by decide +kernel

/-- Overflow checks make a difference: a codeword that is too long. -/
example : BookTarget.new ⟨32, true⟩ insOrder .msb [(⟨0, 42, 0⟩ : Desc Nat)] = .error .shift ∧
    (match BookTarget.new ⟨32, false⟩ insOrder .msb [(⟨0, 42, 0⟩ : Desc Nat)] with | .ok _ => true | .error _ => false) = true :=
  ⟨by decide +kernel, by decide +kernel⟩

/-! A book that is too large: all words of 20 bits, each followed by ten zeros. -/

/-- The codewords. -/
def wideBook : List (Desc Nat) := (List.range (2 ^ 20)).map fun i => ⟨i * 1024, 30, i⟩

theorem used_wideBook : used wideBook = wideBook := by
  unfold used
  rw [List.filter_eq_self]
  intro d hd
  obtain ⟨i, _, rfl⟩ := List.mem_map.mp hd
  rfl

theorem wideBook_wf : WF .msb wideBook := by
  intro d hd
  rw [used_wideBook] at hd
  obtain ⟨i, hi, rfl⟩ := List.mem_map.mp hd
  have := List.mem_range.mp hi
  exact ⟨by show 30 ≤ 41; decide, by show i * 1024 < 2 ^ 30; omega⟩

theorem take_word (i : Nat) : (codeBits .msb (i * 1024) 30).take 20 = codeBits .msb i 20 := by
  apply List.ext_getElem
  · simp [codeBits]
  intro j h1 h2
  simp only [codeBits_length] at h2
  simp only [List.getElem_take, codeBits, List.getElem_map, List.getElem_range]
  rw [show (1024 : Nat) = 2 ^ 10 from rfl, ← Nat.shiftLeft_eq, Nat.testBit_shiftLeft]
  have : 30 - 1 - j ≥ 10 := by omega
  simp only [this, decide_true, Bool.true_and]
  congr 1
  omega

theorem pairwise_range {p : Nat → Nat → Prop} {n : Nat} (h : ∀ i j, i < j → j < n → p i j) : (List.range n).Pairwise p := by
  rw [List.pairwise_iff_getElem]
  intro i j hi hj hij
  simp only [List.length_range] at hi hj
  simp only [List.getElem_range]
  exact h i j hij hj

theorem wideBook_pf : PrefixFree .msb wideBook := by
  unfold PrefixFree
  rw [used_wideBook]
  unfold wideBook
  rw [List.pairwise_map]
  refine pairwise_range fun i j hij hj => ?_
  have hne : codeBits .msb (i * 1024) 30 ≠ codeBits .msb (j * 1024) 30 := by
    intro h
    have := codeBits_inj (by omega) (by omega) h
    omega
  exact ⟨fun h => hne (h.eq_of_length (by simp [codeBits_length])),
    fun h => hne (h.eq_of_length (by simp [codeBits_length])).symm⟩

theorem le_foldl_max (l : List Nat) (a : Nat) : a ≤ l.foldl max a ∧ ∀ x ∈ l, x ≤ l.foldl max a := by
  induction l generalizing a with
  | nil => exact ⟨Nat.le_refl _, nofun⟩
  | cons y l ih =>
    obtain ⟨h1, h2⟩ := ih (max a y)
    simp only [List.foldl_cons]
    refine ⟨by omega, fun x hx => ?_⟩
    rcases List.mem_cons.mp hx with rfl | hx
    · omega
    · exact h2 x hx

theorem sum_ge {α : Type} [BEq α] [LawfulBEq α] (f : α → Nat) {l l' : List α} (h : l.Nodup) (hm : ∀ x ∈ l, x ∈ l') :
    (l.map f).sum ≤ (l'.map f).sum := by
  induction l generalizing l' with
  | nil => simp
  | cons a l ih =>
    rw [List.nodup_cons] at h
    have ha := hm a (by simp)
    have hp := (List.perm_cons_erase ha).map f
    rw [hp.sum_nat, List.map_cons, List.map_cons, List.sum_cons, List.sum_cons]
    have := ih (l' := l'.erase a) h.2 fun x hx => (List.mem_erase_of_ne (by rintro rfl; exact h.1 hx)).mpr (hm x (by simp [hx]))
    omega

theorem wideBook_size : 2 ^ 30 ≤ tableSize .msb wideBook := by
  have hw : ∀ i, i < 2 ^ 20 → codeBits .msb (i * 1024) 30 ∈ wordsOf .msb wideBook := by
    intro i hi
    unfold wordsOf
    rw [used_wideBook]
    exact List.mem_map.mpr ⟨⟨i * 1024, 30, i⟩, List.mem_map.mpr ⟨i, List.mem_range.mpr hi, rfl⟩, rfl⟩
  unfold tableSize
  have hnd : ((List.range (2 ^ 20)).map fun i => codeBits .msb i 20).Nodup := by
    unfold List.Nodup
    rw [List.pairwise_map]
    refine pairwise_range fun i j hij hj h => ?_
    have := codeBits_inj (by omega) (by omega) h
    omega
  refine Nat.le_trans ?_ (sum_ge (fun p => 2 ^ min 10 (longestRest (wordsOf .msb wideBook) p)) hnd ?_)
  · rw [List.map_map]
    have : (List.range (2 ^ 20)).map ((fun p => 2 ^ min 10 (longestRest (wordsOf .msb wideBook) p)) ∘
        fun i => codeBits .msb i 20) = (List.range (2 ^ 20)).map fun _ => 1024 := by
      refine List.map_congr_left fun i hi => ?_
      have hi := List.mem_range.mp hi
      have h10 : 10 ≤ longestRest (wordsOf .msb wideBook) (codeBits .msb i 20) := by
        unfold longestRest
        refine (le_foldl_max _ 0).2 10 (List.mem_map.mpr ⟨codeBits .msb (i * 1024) 30, List.mem_filter.mpr ⟨hw i hi, ?_⟩, ?_⟩)
        · rw [decide_eq_true_eq, ← take_word]
          exact List.take_prefix _ _
        · rw [codeBits_length, codeBits_length]
      simp only [Function.comp_apply]
      rw [Nat.min_eq_left h10]
    rw [this, List.map_const', List.sum_replicate_nat, List.length_range]
    decide
  · intro p hp
    obtain ⟨i, hi, rfl⟩ := List.mem_map.mp hp
    have hi := List.mem_range.mp hi
    unfold heads
    rw [List.mem_eraseDups]
    refine List.mem_flatMap.mpr ⟨_, hw i hi, List.mem_map.mpr ⟨20, List.mem_filter.mpr ⟨?_, by decide⟩, take_word i⟩⟩
    rw [codeBits_length]
    decide

/-- **C131 fails** for building as well, on every target of 32 bits: a million codewords, none starting another, twelve megabytes of
descriptions, cannot be made into a book, as the table takes more than two gigabytes. -/
theorem c131_new_fails (ord : Order) (hord : ord.Valid) (checks : Bool) :
    (∃ cb, new ord .msb wideBook = .ok (.ok cb)) ∧ BookTarget.new ⟨32, checks⟩ ord .msb wideBook = .error .explicit := by
  have hlen : wideBook.length = 2 ^ 20 := by rw [wideBook, List.length_map, List.length_range]
  have hne : used wideBook ≠ [] := by
    intro h
    rw [used_wideBook] at h
    rw [h] at hlen
    exact absurd hlen (by decide)
  obtain ⟨T, _, h1, _⟩ := newTotal hord (m := .msb) wideBook_wf (Nat.le_refl _) (fun d h => (wideBook_wf d h).1)
    (by rw [used_wideBook, hlen]; decide) hne
  generalize (Codebook.mk T _ _ : Codebook Nat) = cb at h1
  have hs := (c132_size ord hord .msb wideBook wideBook_wf cb h1).2 wideBook_pf
  have hw := wideBook_size
  have hbig : 2 ^ (32 - 1) ≤ 4 * cb.table.length := by rw [hs]; omega
  refine ⟨⟨cb, h1⟩, ?_⟩
  have hn : wideBook.length < 2 ^ 32 := by rw [hlen]; decide
  cases checks with
  | true => exact ((c131_new_checked 32 (by decide) ord .msb wideBook hn).2.1 cb h1).2 hbig
  | false =>
    rw [← checkedBook_new] at h1
    exact ((c131_new_unchecked 32 (by decide) ord .msb wideBook hn).2 cb (Upto.new wrappingBook_le ord .msb wideBook _ h1)).2 hbig

/-! ### Decoding -/

/-- `available` on a target, where the number of bits is a `usize`. -/
theorem narrow_available (b : Nat) (checks : Bool) (r : Reader) (a : Nat) (h : available r = .ok a)
    (ha : a < 2 ^ b) : (narrowOps b checks).available r = .ok a := by
  have ho := narrow_exact b checks
  unfold available at h
  cases hs : usub r.buffer.length r.index with
  | error _ => rw [hs] at h; exact nomatch h
  | ok k =>
    rw [hs] at h
    simp only [ok_bind, pure_eq_ok, Except.ok.injEq] at h
    unfold Ops.available
    rw [exact_sub ho _ _ _ hs]
    simp only [ok_bind]
    rw [ho.mul _ _ (by omega)]
    simp only [ok_bind]
    rw [ho.add _ _ (by omega), h]

/-- Without overflow checks it is right modulo `2^b`. -/
theorem unchecked_available (b : Nat) (r : Reader) (a : Nat) (h : available r = .ok a) :
    (narrowOps b false).available r = .ok (a % 2 ^ b) := by
  have ho := narrow_exact b false
  unfold available at h
  cases hs : usub r.buffer.length r.index with
  | error _ => rw [hs] at h; exact nomatch h
  | ok k =>
    rw [hs] at h
    simp only [ok_bind, pure_eq_ok, Except.ok.injEq] at h
    unfold Ops.available
    rw [exact_sub ho _ _ _ hs]
    simp only [ok_bind]
    have hm : ∀ x, (if x < 2 ^ b then Except.ok x else if false = true then .error .overflow else .ok (x % 2 ^ b) : Rust Nat) =
        .ok (x % 2 ^ b) := by
      intro x
      split
      · rw [Nat.mod_eq_of_lt (by assumption)]
      · rfl
    simp only [narrowOps, hm, ok_bind]
    rw [Nat.mod_add_mod, h]

/-- A skip leaves no more bits than there were. -/
theorem available_skip {e : Endian} {r r' : Reader} {c : Cur} {n a a' : Nat} (h : Follows e r c)
    (h' : Follows e r' (c.next r.buffer.length (.skip n))) (hb : r'.buffer = r.buffer) (ha : available r = .ok a)
    (ha' : available r' = .ok a') : a' ≤ a := by
  have l1 := h.left
  have l2 := h'.left
  have i1 := h.idx
  have i2 := h'.idx
  have m1 := h.lim_idx
  unfold available usub at ha ha'
  rw [hb] at ha'
  split at ha
  · split at ha'
    · cases ha; cases ha'
      suffices hc : (r.buffer.length - (c.skip r.buffer.length n).idx) * 8 + (c.skip r.buffer.length n).left ≤
          (r.buffer.length - c.idx) * 8 + c.left by
        rw [l1.1, l2.1, i1, i2]; exact hc
      unfold Cur.skip
      by_cases h1 : n ≤ c.left
      · rw [if_pos h1]; simp only [Cur.drop, Cur.left]; omega
      · rw [if_neg h1]
        dsimp only
        generalize (if n - c.left > 64 then (n - c.left) / 8 else 0) = j
        by_cases h2 : c.idx + j + 8 ≤ r.buffer.length
        · rw [if_pos h2]; simp only [Cur.left]; omega
        · rw [if_neg h2]; simp only [Cur.drop, Cur.left]; omega
    · exact nomatch ha'
  · exact nomatch ha

section
variable (t : BookTarget)

theorem narrow_readLoop (e : Endian) (table : List Nat) (htab : table.length ≤ 2 ^ t.b) (len most : Nat)
    (hav : ∀ r a, available r = .ok a → a ≤ most →
      ∃ a', (narrowOps t.b t.checks).available r = .ok a' ∧ a' % 2 ^ 32 = a % 2 ^ 32) (fuel : Nat) :
    ∀ (off lb : Nat) (r : Reader) (c : Cur), lb ≤ 127 → Follows e r c → r.buffer.length = len →
    (∀ a, available r = .ok a → a ≤ most) → max len c.idx + 16 * fuel + 128 < 2 ^ t.b →
    Upto (readLoop e table fuel off lb r) (t.readLoop e table fuel off lb r) := by
  have ho := narrow_exact t.b t.checks
  induction fuel with
  | zero => intro _ _ _ _ _ _ _ _ _; exact Upto.refl _
  | succ fuel ih =>
    intro off lb r c hlb hr hlen hmost hb x hx
    have hidx := hr.idx
    have hleft := hr.left.2.2
    unfold readLoop peek_bits_32 at hx
    unfold BookTarget.readLoop
    dsimp only at hx ⊢
    cases hg : get_bits_32 e r lb with
    | error _ => rw [hg] at hx; exact nomatch hx
    | ok y =>
      rw [hg] at hx
      rw [exact_get_bits_32 ho e r lb (by omega) (by omega) y hg]
      simp only [ok_bind, pure_eq_ok] at hx ⊢
      cases hi : idx table (y.1.toNat + off) with
      | error _ => rw [hi] at hx; exact nomatch hx
      | ok ent =>
        have hlt : y.1.toNat + off < table.length := by
          unfold idx at hi
          cases hj : table[y.1.toNat + off]? with
          | none => rw [hj] at hi; exact nomatch hi
          | some _ => exact (List.getElem?_eq_some_iff.mp hj).1
        rw [hi] at hx
        rw [addu_ok t (by omega)]
        simp only [ok_bind, hi] at hx ⊢
        by_cases hf : ent = FILL
        · rw [if_pos hf] at hx ⊢; exact hx
        · rw [if_neg hf] at hx ⊢
          cases ha : available r with
          | error _ => rw [ha] at hx; exact nomatch hx
          | ok a =>
            rw [ha] at hx
            obtain ⟨a', ha1, ha2⟩ := hav r a ha (hmost a ha)
            rw [ha1]
            simp only [ok_bind, ha2] at hx ⊢
            have h7 : ent &&& 0x7F ≤ 127 := Nat.and_le_right
            by_cases hc : (ent &&& 0x7F) > a % 2 ^ 32
            · rw [if_pos hc] at hx ⊢; exact hx
            · rw [if_neg hc] at hx ⊢
              generalize hn : (if ((ent &&& 0x80) != 0) = true then lb else ent &&& 0x7F) = n at hx ⊢
              have hn127 : n ≤ 127 := by split at hn <;> omega
              obtain ⟨r1, c1, c2, c3⟩ := step_follows hr (.skip n) trivial
              have hni := Cur.next_idx r.buffer.length c (.skip n)
              simp only [jumpOf] at hni
              cases hs : skip_bits e r n with
              | error _ => rw [hs] at hx; exact nomatch hx
              | ok r2 =>
                simp only [step, hs, ok_bind, pure_eq_ok, Except.ok.injEq, Prod.mk.injEq] at c1
                obtain ⟨_, rfl⟩ := c1
                rw [hs] at hx
                rw [exact_skip_bits ho e r n (by omega) (by omega) r2 hs]
                simp only [ok_bind] at hx ⊢
                split at hx
                · rename_i hesc
                  rw [if_pos hesc]
                  exact ih _ _ r2 _ h7 c3 (by rw [c2, hlen]) (fun a' ha' => Nat.le_trans (available_skip hr c3 c2 ha ha') (hmost a ha))
                    (by omega) x hx
                · rename_i hesc
                  rw [if_neg hesc]
                  exact hx

theorem narrow_readCb (e : Endian) (fuel : Nat) (cb : Codebook S) (htab : cb.table.length ≤ 2 ^ t.b)
    (hlb : cb.lutBits ≤ 127) (r : Reader) (c : Cur) (hr : Follows e r c)
    (most : Nat) (hmost : ∀ a, available r = .ok a → a ≤ most)
    (hav : ∀ r' a, available r' = .ok a → a ≤ most →
      ∃ a', (narrowOps t.b t.checks).available r' = .ok a' ∧ a' % 2 ^ 32 = a % 2 ^ 32)
    (hb : max r.buffer.length c.idx + 16 * fuel + 128 < 2 ^ t.b) :
    Upto (readCb e fuel cb r) (t.readCb e fuel cb r) :=
  Upto.bind (narrow_readLoop t e cb.table htab _ most hav fuel 0 cb.lutBits r c hlb hr rfl hmost hb) fun _ => Upto.refl _

end

/-- **C131**: on a target with `b` bits, with books and buffers that fit into its address space, a new reader reads a
codeword as on the model. -/
def C131 (t : BookTarget) : Prop :=
  ∀ (ord : Order), ord.Valid → ∀ (m : Mode) (ds : List (Desc Nat)), WF m ds → Fits m ds → ∀ cb,
    new ord m ds = .ok (.ok cb) → 4 * cb.table.length < 2 ^ (t.b - 1) → ∀ e buf, buf.length < 2 ^ (t.b - 1) →
    ∃ r0, BitRead.new e buf = .ok r0 ∧ (narrowOps t.b t.checks).new e buf = .ok r0 ∧
      t.readCb e 26 cb r0 = readCb e 26 cb r0

theorem reachable_follows {e : Endian} {buf : List U8} {r : Reader} (h : Reachable e buf r) :
    ∃ c, Follows e r c ∧ r.buffer = buf := by
  obtain ⟨r0, ops, vs, h1, h2, h3⟩ := h
  obtain ⟨r1, a1, a2, a3⟩ := new_follows e buf
  rw [h1] at a1; cases a1
  obtain ⟨r', b1, b2, b3⟩ := run_follows a3 ops h2
  rw [h3] at b1; cases b1
  exact ⟨_, b3, b2.trans a2⟩

/-- **C131, partial** On every target with at least 32 bits and in both builds, what `read_cb` returns on the model, in
any reachable state, it returns on the target, if buffer and position amount to less than `2^b` bits (with some
margin). Missing: longer buffers, for which C131 is false with overflow checks. -/
theorem c131_partial (t : BookTarget) (ht : 32 ≤ t.b) (ord : Order) (m : Mode) (ds : List (Desc S)) (cb : Codebook S)
    (hcb : new ord m ds = .ok (.ok cb)) (hl : 4 * cb.table.length < 2 ^ (t.b - 1)) (e : Endian) (buf : List U8)
    (r : Reader) (hr : Reachable e buf r) (fuel : Nat)
    (hb : 8 * (max buf.length r.index + 16 * fuel) + 1024 < 2 ^ t.b) :
    Upto (readCb e fuel cb r) (t.readCb e fuel cb r) := by
  obtain ⟨c, h1, h2⟩ := reachable_follows hr
  have hp := pow_parts t ht
  have hlb := new_lutBits ord m ds cb hcb
  have hi := h1.idx
  refine narrow_readCb t e fuel cb (by omega) (by omega) r c h1 (2 ^ t.b - 1) (fun a ha => ?_)
    (fun r' a ha hm => ⟨a, narrow_available _ _ r' a ha (by omega), rfl⟩) (by rw [h2]; omega)
  have hl := h1.left
  unfold available usub at ha
  split at ha
  · cases ha
    rw [h2]
    omega
  · exact nomatch ha

/-- **C131, partial** Without overflow checks this holds for every buffer: `available` wraps, but `read_cb` looks only at
its lowest 32 bits. -/
theorem c131_unchecked_partial (b : Nat) (ht : 32 ≤ b) (ord : Order) (m : Mode) (ds : List (Desc S)) (cb : Codebook S)
    (hcb : new ord m ds = .ok (.ok cb)) (hl : 4 * cb.table.length < 2 ^ (b - 1)) (e : Endian) (buf : List U8)
    (r : Reader) (hr : Reachable e buf r) (fuel : Nat) (hb : max buf.length r.index + 16 * fuel + 128 < 2 ^ b) :
    Upto (readCb e fuel cb r) (BookTarget.readCb ⟨b, false⟩ e fuel cb r) := by
  obtain ⟨c, h1, h2⟩ := reachable_follows hr
  have hp := pow_parts ⟨b, false⟩ ht
  have hlb := new_lutBits ord m ds cb hcb
  have hi := h1.idx
  simp only at hp
  refine narrow_readCb ⟨b, false⟩ e fuel cb (by simp only; omega) (by omega) r c h1 (8 * buf.length + 64)
    (fun a ha => ?_) (fun r' a ha _ => ⟨_, unchecked_available b r' a ha, ?_⟩) (by rw [h2]; simp only; omega)
  · have hl := h1.left
    unfold available usub at ha
    split at ha
    · cases ha; rw [h2]; omega
    · exact nomatch ha
  exact Nat.mod_mod_of_dvd _ (Nat.pow_dvd_pow 2 ht)

/-- **C131, partial** With overflow checks, exactly what happens: while the number of bits left fits into a `usize`, `read_cb`
returns what it returns on the model, however long the buffer; in front of more bits it panics, unless it finds that no
codeword begins there. Missing: C131 is false in the second case. -/
theorem c131_exact_partial (b : Nat) (ht : 32 ≤ b) (ord : Order) (m : Mode) (ds : List (Desc S)) (cb : Codebook S)
    (hcb : new ord m ds = .ok (.ok cb)) (hl : 4 * cb.table.length < 2 ^ (b - 1)) (e : Endian) (buf : List U8)
    (r : Reader) (hr : Reachable e buf r) (fuel : Nat) (hb : max buf.length r.index + 16 * fuel + 128 < 2 ^ b)
    (a : Nat) (ha : available r = .ok a) (x : Except CodebookError S × Reader) (hx : readCb e fuel cb r = .ok x) :
    (a < 2 ^ b → BookTarget.readCb ⟨b, true⟩ e fuel cb r = .ok x) ∧
    (2 ^ b ≤ a → BookTarget.readCb ⟨b, true⟩ e fuel cb r = .error .overflow ∨
      BookTarget.readCb ⟨b, true⟩ e fuel cb r = .ok x ∧ x = (.error .invalidCode, r)) := by
  obtain ⟨c, h1, h2⟩ := reachable_follows hr
  have hp := pow_parts ⟨b, true⟩ ht
  have hlb := new_lutBits ord m ds cb hcb
  have hi := h1.idx
  simp only at hp
  refine ⟨fun hab => ?_, fun hab => ?_⟩
  · refine narrow_readCb ⟨b, true⟩ e fuel cb (by simp only; omega) (by omega) r c h1 a
      (fun a' ha' => by rw [ha] at ha'; cases ha'; exact Nat.le_refl _)
      (fun r' a' ha' hm => ⟨a', narrow_available _ _ r' a' ha' (by simp only; omega), rfl⟩) (by rw [h2]; simp only; omega) x hx
  · have hov : (narrowOps b true).available r = .error .overflow := by
      rw [BitRead.narrow_available, if_pos]
      refine ⟨rfl, fun h => ?_⟩
      unfold available usub at ha
      rw [if_pos h.1] at ha
      cases ha
      omega
    have ho := narrow_exact b true
    have hleft := h1.left.2.2
    cases fuel with
    | zero => exact nomatch hx
    | succ fuel =>
      unfold readCb readLoop peek_bits_32 at hx
      unfold BookTarget.readCb BookTarget.readLoop
      dsimp only at hx ⊢
      cases hg : get_bits_32 e r cb.lutBits with
      | error _ => rw [hg] at hx; exact nomatch hx
      | ok y =>
        rw [hg] at hx
        rw [exact_get_bits_32 ho e r cb.lutBits (by omega) (by omega) y hg]
        simp only [ok_bind, pure_eq_ok] at hx ⊢
        cases hj : idx cb.table (y.1.toNat + 0) with
        | error _ => rw [hj] at hx; exact nomatch hx
        | ok ent =>
          have hlt : y.1.toNat + 0 < cb.table.length := by
            unfold idx at hj
            cases hk : cb.table[y.1.toNat + 0]? with
            | none => rw [hk] at hj; exact nomatch hj
            | some _ => exact (List.getElem?_eq_some_iff.mp hk).1
          rw [hj] at hx
          rw [addu_ok ⟨b, true⟩ (by simp only; omega)]
          simp only [ok_bind, hj] at hx ⊢
          by_cases hf : ent = FILL
          · rw [if_pos hf] at hx ⊢
            simp only [ok_bind, Except.ok.injEq] at hx ⊢
            exact .inr ⟨hx, hx.symm⟩
          · rw [if_neg hf]
            rw [hov]
            exact .inl rfl

/-- A new reader of 512 MiB: eight bytes are loaded, the others not. -/
example : (2 ^ 29 - 8) * 8 + 64 = 2 ^ 32 ∧ max (2 ^ 29) 8 + 16 * 26 + 128 < 2 ^ 32 := by decide

/-- A book of two codewords of one bit. -/
def oneBit : List (Desc Nat) := [⟨0, 1, 10⟩, ⟨1, 1, 11⟩]

/-- Its table. -/
def oneBitBook : Codebook Nat := ⟨[leafVal 0 1, leafVal 1 1], [10, 11], 1⟩

theorem oneBit_new : new insOrder .msb oneBit = .ok (.ok oneBitBook) := by decide +kernel

/-- **C131 fails** for `usize` of 32 bits and builds with overflow checks: in front of every buffer of 512 MiB or more
`read_cb` panics, though on the model it returns. -/
theorem c131_read_fails (e : Endian) (buf : List U8) (h1 : 2 ^ 29 ≤ buf.length) (h2 : buf.length < 2 ^ 32) :
    ∃ r0 x, BitRead.new e buf = .ok r0 ∧ (narrowOps 32 true).new e buf = .ok r0 ∧
      readCb e 26 oneBitBook r0 = .ok x ∧
      BookTarget.readCb ⟨32, true⟩ e 26 oneBitBook r0 = .error .overflow := by
  obtain ⟨r0, a1, a2, a3, a4, _⟩ := c123_available_fails e buf h1 h2
  have hreach : Reachable e buf r0 := ⟨r0, [], [], a1, by simp, rfl⟩
  obtain ⟨c, f1, f2⟩ := reachable_follows hreach
  obtain ⟨res, r', _, b1, _⟩ := c83_read_total insOrder insOrder_valid .msb oneBit (by decide) (by decide) oneBitBook
    oneBit_new e buf r0 hreach _ a3 26 (by decide)
  refine ⟨r0, _, a1, a2 true, b1, ?_⟩
  have hleft := f1.left.2.2
  have hi : r0.index ≤ 8 := by
    unfold available usub at a3
    rw [f2] at a3
    split at a3
    · simp only [ok_bind, pure_eq_ok, Except.ok.injEq] at a3
      omega
    · exact nomatch a3
  have hg : ∃ y, peek_bits_32 e r0 1 = .ok y := by
    cases h : peek_bits_32 e r0 1 with
    | error _ =>
      rw [show (26 : Nat) = 25 + 1 from rfl] at b1
      unfold readCb readLoop at b1
      rw [show oneBitBook.lutBits = 1 from rfl, h] at b1
      exact nomatch b1
    | ok y => exact ⟨y, rfl⟩
  obtain ⟨y, hy⟩ := hg
  have hlt := (peek32_lt (v := y.1) (r' := y.2) (by omega) hy).2
  unfold peek_bits_32 at hy
  dsimp only at hy
  unfold BookTarget.readCb BookTarget.readLoop
  dsimp only [oneBitBook]
  cases hgb : get_bits_32 e r0 1 with
  | error _ => rw [hgb] at hy; exact nomatch hy
  | ok z =>
    rw [hgb] at hy
    simp only [ok_bind, pure_eq_ok, Except.ok.injEq] at hy
    subst hy
    rw [exact_get_bits_32 (narrow_exact 32 true) e r0 1 (by omega) (by omega) z hgb]
    simp only [ok_bind]
    rw [addu_ok ⟨32, true⟩ (by simp only at hlt ⊢; omega)]
    have hz : z.1.toNat = 0 ∨ z.1.toNat = 1 := by simp only at hlt; omega
    simp only [ok_bind, Nat.add_zero]
    rcases hz with hz | hz <;> rw [hz, a4] <;> rfl

/-- The hypotheses of `c131_partial` and `c131_unchecked_partial`: the book of two codewords of one bit in front of eight
bytes. -/
example : new insOrder .msb oneBit = .ok (.ok oneBitBook) ∧ 4 * oneBitBook.table.length < 2 ^ (32 - 1) ∧
    (∃ r, Reachable .be (List.replicate 8 0x5A) r ∧ 8 * (max 8 r.index + 16 * 26) + 1024 < 2 ^ 32 ∧
      ∃ r', BookTarget.readCb ⟨32, true⟩ .be 26 oneBitBook r = .ok (.ok 10, r')) := by
  refine ⟨oneBit_new, by decide, ?_⟩
  refine ⟨⟨List.replicate 8 0x5A, 8, 0x5A5A5A5A5A5A5A5A#64, 64⟩, ⟨_, [], [], rfl, by simp, rfl⟩, by decide, ?_⟩
  refine ⟨⟨List.replicate 8 0x5A, 8, 0xB4B4B4B4B4B4B4B4#64, 63⟩, ?_⟩
  decide +kernel

/-- So C131 is false for 32 bits and overflow checks. -/
theorem c131_fails : ¬ C131 ⟨32, true⟩ := by
  intro h
  obtain ⟨r0, x, h1, _, h3, h4⟩ := c131_read_fails .be (List.replicate (2 ^ 29) 0)
    (by rw [List.length_replicate]; exact Nat.le_refl _) (by rw [List.length_replicate]; decide)
  obtain ⟨r1, k1, _, k3⟩ := h insOrder insOrder_valid .msb oneBit (by decide) (by decide) oneBitBook oneBit_new
    (by decide) .be (List.replicate (2 ^ 29) 0) (by rw [List.length_replicate]; decide)
  rw [h1] at k1
  cases k1
  rw [h3, h4] at k3
  exact nomatch k3

end Verif.Codebook
