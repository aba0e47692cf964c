import Verif.BitRead.Release
import Verif.Codebook.Props

/-!
# C115, C116: codebooks in builds without overflow checks

The functions of `codebook.rs` that compute, for any arithmetic (see `Verif.BitRead.Release`). The checked one gives
the model (for `read_cb` as long as the positions of the reader stay below `2^61`).
-/

namespace Verif.Codebook
open Verif Verif.BitRead Verif.Data

/-- The operators `codebook.rs` uses without saying how they overflow, and those of the bit reader. -/
structure BookOps where
  /-- of the bit reader -/
  reader : Ops
  /-- `u8 - u8` -/
  sub8 : Nat → Nat → Rust Nat
  /-- `u32 << u8`, `u32 << u32` -/
  shl : Nat → Nat → Rust Nat
  /-- `u32 >> u8` -/
  shr : Nat → Nat → Rust Nat
  /-- `u32 + u32` -/
  add : Nat → Nat → Rust Nat

/-- With overflow checks. -/
def checkedBook : BookOps := ⟨checkedOps, usub, shl32, shr32, add32⟩

/-- Without. -/
def wrappingBook : BookOps where
  reader := wrappingOps
  sub8 a b := .ok (if b ≤ a then a - b else a + 2 ^ 8 - b)
  shl x n := .ok ((x <<< (n % 32)) % 2 ^ 32)
  shr x n := .ok (x >>> (n % 32))
  add x y := .ok ((x + y) % 2 ^ 32)

namespace BookOps
variable (o : BookOps)

/-- codebook.rs:114-136 -/
def fillLutMsb (table : List Nat) (off code bits lutBits symidx : Nat) (esc : Bool) :
    Rust (List Nat) :=
  if !esc then do
    let fillLen ← o.sub8 lutBits bits
    let fillSize ← o.shl 1 fillLen
    let fillCode ← o.shl code fillLen
    (List.range fillSize).foldlM (init := table) fun t j => do
      let i ← o.add fillCode j
      setIdx t (i + off) (leafVal symidx bits)
  else setIdx table (code + off) (escVal symidx bits)

/-- codebook.rs:138-160 -/
def fillLutLsb (table : List Nat) (off code bits lutBits symidx : Nat) (esc : Bool) :
    Rust (List Nat) :=
  if !esc then do
    let fillLen ← o.sub8 lutBits bits
    let fillSize ← o.shl 1 fillLen
    let fillCode := code
    let step ← o.sub8 lutBits fillLen
    (List.range fillSize).foldlM (init := table) fun t j => do
      let s ← o.shl j step
      let i ← o.add fillCode s
      setIdx t (i + off) (leafVal symidx bits)
  else setIdx table (code + off) (escVal symidx bits)

/-- codebook.rs:162-177 -/
def fillLut (m : Mode) (table : List Nat) (off code bits lutBits symidx : Nat) (esc : Bool) :
    Rust (List Nat) :=
  match m with
  | .msb => o.fillLutMsb table off code bits lutBits symidx esc
  | .lsb => o.fillLutLsb table off code bits lutBits symidx esc

/-- codebook.rs:179-186 (the length of the table is unbounded, as in the model) -/
def resizeTable (table : List Nat) (bits : Nat) : Rust (List Nat × Nat) := do
  let add ← o.shl 1 bits
  return (table ++ List.replicate add FILL, table.length % 2 ^ 32)

/-- codebook.rs:188-193 (`1 << lut_bits` is not zero, so that subtracting 1 cannot overflow) -/
def extractLutPart (code bits lutBits : Nat) (m : Mode) : Rust Nat :=
  match m with
  | .msb => do o.shr code (← o.sub8 bits lutBits)
  | .lsb => do return code &&& ((← o.shl 1 lutBits) - 1)

/-- codebook.rs:195-200 -/
def extractEscPart (code bits lutBits : Nat) (m : Mode) : Rust Nat :=
  match m with
  | .msb => do return code &&& ((← o.shl 1 (← o.sub8 bits lutBits)) - 1)
  | .lsb => o.shr code lutBits

/-- codebook.rs:269-281, 343-355 -/
def allocBucket (m : Mode) (table : List Nat) (off key : Nat) (b : CodeBucket) :
    Rust (List Nat × CodeBucket) := do
  let maxlen := min b.maxlen MAX_LUT_BITS
  let (table, newOff) ← o.resizeTable table maxlen
  let table ← o.fillLut m table off key maxlen MAX_LUT_BITS newOff true
  return (table, { b with offset := newOff })

/-- codebook.rs:246-264 -/
def escStep (m : Mode) (off maxlen : Nat) (st : List Nat × EscapeCodes) (c : Code) :
    Rust (List Nat × EscapeCodes) :=
  if c.bits ≤ MAX_LUT_BITS then do
    let table ← o.fillLut m st.1 off c.code c.bits maxlen (c.idx % 2 ^ 32) false
    return (table, st.2)
  else do
    let ckey ← o.extractLutPart c.code c.bits MAX_LUT_BITS m
    let cval ← o.extractEscPart c.code c.bits MAX_LUT_BITS m
    return (st.1, addEscCode st.2 ckey cval (c.bits - MAX_LUT_BITS) c.idx)

/-- codebook.rs:267-282 -/
def allocStep (m : Mode) (off : Nat) (st : List Nat × EscapeCodes) (kb : Nat × CodeBucket) :
    Rust (List Nat × EscapeCodes) := do
  let (table, b) ← o.allocBucket m st.1 off kb.1 kb.2
  return (table, st.2 ++ [(kb.1, b)])

/-- codebook.rs:238-289 -/
def buildEscLut (ord : Order) (m : Mode) :
    Nat → List Nat → List Nat → CodeBucket → Rust (List Nat)
  | 0, _, _, _ => .error .fuel
  | fuel + 1, path, table, bucket => do
    let maxlen := min bucket.maxlen MAX_LUT_BITS
    let (table, esc) ← bucket.codes.foldlM (o.escStep m bucket.offset maxlen) (table, [])
    let (table, esc) ← (ord path 0 esc).foldlM (o.allocStep m bucket.offset) (table, [])
    (ord path 1 esc).foldlM
      (fun t kb => buildEscLut ord m fuel (path ++ [kb.1]) t kb.2) table

/-- codebook.rs:300-315 -/
def gatherStep (m : Mode) (st : Gather) (d : Desc S) : Rust Gather := do
  let maxbits := max d.bits st.maxbits
  let esc ← (if d.bits > MAX_LUT_BITS then do
      let ckey ← o.extractLutPart d.code d.bits MAX_LUT_BITS m
      let cval ← o.extractEscPart d.code d.bits MAX_LUT_BITS m
      return addEscCode st.esc ckey cval (d.bits - MAX_LUT_BITS) st.symidx
    else .ok st.esc)
  return { maxbits, esc, symidx := if d.bits > 0 then st.symidx + 1 else st.symidx }

/-- codebook.rs:330-360 -/
def fillStep (m : Mode) (maxbits : Nat) (st : Fill) (d : Desc S) : Rust Fill :=
  if d.bits = 0 then .ok st
  else do
    let (table, esc) ← (if d.bits ≤ MAX_LUT_BITS then do
        let table ← o.fillLut m st.table 0 d.code d.bits maxbits st.symidx false
        return (table, st.esc)
      else do
        let ckey ← o.extractLutPart d.code d.bits MAX_LUT_BITS m
        let ent ← idx st.table ckey
        if ent = FILL then
          match st.esc.get ckey with
          | some b => do
            let (table, b) ← o.allocBucket m st.table 0 ckey b
            return (table, st.esc.put ckey b)
          | none => .ok (st.table, st.esc)
        else .ok (st.table, st.esc))
    let symidx ← o.add st.symidx 1
    return { table, esc, symidx }

/-- codebook.rs:291-378 -/
def new (ord : Order) (m : Mode) (cb : List (Desc S)) :
    Rust (Except CodebookError (Codebook S)) := do
  let g ← cb.foldlM (o.gatherStep m) { maxbits := 0, esc := [], symidx := 0 }
  if g.maxbits = 0 then .ok (.error .invalidCodebook)
  else do
    let maxbits := if g.maxbits > MAX_LUT_BITS then MAX_LUT_BITS else g.maxbits
    let f ← cb.foldlM (o.fillStep m maxbits)
      { table := List.replicate (1 <<< maxbits) FILL, esc := g.esc, symidx := 0 }
    let table ← (ord [] 1 f.esc).foldlM
      (fun t kb => o.buildEscLut ord m 26 [kb.1] t kb.2) f.table
    return .ok {
      table, lutBits := maxbits,
      syms := (cb.filter (fun d => decide (d.bits > 0))).map (·.sym) }

/-- codebook.rs:385-403 -/
def readLoop (e : Endian) (table : List Nat) :
    Nat → Nat → Nat → Reader → Rust (Except CodebookError Nat × Reader)
  | 0, _, _, _ => .error .fuel
  | fuel + 1, off, lutBits, r => do
    let (v, _) ← o.reader.get_bits_32 e r lutBits
    let ent ← idx table (v.toNat + off)
    if ent = FILL then .ok (.error .invalidCode, r)
    else do
      let bits := ent &&& 0x7F
      let esc := (ent &&& 0x80) != 0
      let next := ent >>> 8
      let avail ← o.reader.available r
      if bits > avail % 2 ^ 32 then .ok (.error .invalidCode, r)
      else do
        let r ← o.reader.skip_bits e r (if esc then lutBits else bits)
        if esc then readLoop e table fuel next bits r
        else .ok (.ok next, r)

/-- codebook.rs:380-406 -/
def readCb (e : Endian) (fuel : Nat) (cb : Codebook S) (r : Reader) :
    Rust (Except CodebookError S × Reader) := do
  let (res, r) ← o.readLoop e cb.table fuel 0 cb.lutBits r
  match res with
  | .ok i => do
    let s ← idx cb.syms i
    return (.ok s, r)
  | .error err => .ok (.error err, r)

end BookOps

/-! ### The checked operators give the model -/

theorem checkedBook_new (ord : Order) (m : Mode) (ds : List (Desc S)) : checkedBook.new ord m ds = new ord m ds := by
  have hb : ∀ fuel path t b, checkedBook.buildEscLut ord m fuel path t b = buildEscLut ord m fuel path t b := by
    intro fuel
    induction fuel with
    | zero => intro _ _ _; rfl
    | succ fuel ih =>
      intro path t b
      simp only [BookOps.buildEscLut, buildEscLut, ih]
      cases m <;> rfl
  simp only [BookOps.new, new, hb]
  cases m <;> rfl

/-! ### Agreement -/

theorem Upto.foldlM {f g : β → α → Rust β} (h : ∀ s x, Upto (f s x) (g s x)) (l : List α) (s : β) :
    Upto (l.foldlM f s) (l.foldlM g s) := by
  induction l generalizing s with
  | nil => exact Upto.refl _
  | cons x l ih =>
    simp only [List.foldlM_cons]
    exact Upto.bind (h s x) fun _ => ih _

/-- One arithmetic refines another. -/
structure BookOps.Le (p q : BookOps) : Prop where
  reader : p.reader.Le q.reader
  sub8 : ∀ a b, Upto (p.sub8 a b) (q.sub8 a b)
  shl : ∀ a b, Upto (p.shl a b) (q.shl a b)
  shr : ∀ a b, Upto (p.shr a b) (q.shr a b)
  add : ∀ a b, Upto (p.add a b) (q.add a b)

theorem wrappingBook_le : checkedBook.Le wrappingBook where
  reader := wrapping_le
  sub8 a b x h := by
    simp only [checkedBook, usub] at h
    split at h
    · cases h; simp only [wrappingBook, if_pos (by assumption)]
    · exact nomatch h
  shl a b x h := by
    simp only [checkedBook, shl32] at h
    split at h
    · cases h; simp only [wrappingBook, Nat.mod_eq_of_lt (by assumption)]
    · exact nomatch h
  shr a b x h := by
    simp only [checkedBook, shr32] at h
    split at h
    · cases h; simp only [wrappingBook, Nat.mod_eq_of_lt (by assumption)]
    · exact nomatch h
  add a b x h := by
    simp only [checkedBook, add32] at h
    split at h
    · cases h; simp only [wrappingBook, Nat.mod_eq_of_lt (by assumption)]
    · exact nomatch h

section
variable {p q : BookOps} (h : p.Le q)
include h

theorem Upto.fillLut (m : Mode) (t : List Nat) (off code bits lb si : Nat) (esc : Bool) :
    Upto (p.fillLut m t off code bits lb si esc) (q.fillLut m t off code bits lb si esc) := by
  cases m
  · exact Upto.ite (Upto.bind (h.sub8 _ _) fun _ => Upto.bind (h.shl _ _) fun _ => Upto.bind (h.shl _ _) fun _ =>
      Upto.foldlM (fun _ _ => Upto.bind (h.add _ _) fun _ => Upto.refl _) _ _) (Upto.refl _)
  · exact Upto.ite (Upto.bind (h.sub8 _ _) fun _ => Upto.bind (h.shl _ _) fun _ => Upto.bind (h.sub8 _ _) fun _ =>
      Upto.foldlM (fun _ _ => Upto.bind (h.shl _ _) fun _ => Upto.bind (h.add _ _) fun _ => Upto.refl _) _ _)
      (Upto.refl _)

theorem Upto.extractLutPart (code bits lb : Nat) (m : Mode) :
    Upto (p.extractLutPart code bits lb m) (q.extractLutPart code bits lb m) := by
  cases m
  · exact Upto.bind (h.sub8 _ _) fun _ => h.shr _ _
  · exact Upto.bind (h.shl _ _) fun _ => Upto.refl _

theorem Upto.extractEscPart (code bits lb : Nat) (m : Mode) :
    Upto (p.extractEscPart code bits lb m) (q.extractEscPart code bits lb m) := by
  cases m
  · exact Upto.bind (h.sub8 _ _) fun _ => Upto.bind (h.shl _ _) fun _ => Upto.refl _
  · exact h.shr _ _

theorem Upto.allocBucket (m : Mode) (t : List Nat) (off key : Nat) (b : CodeBucket) :
    Upto (p.allocBucket m t off key b) (q.allocBucket m t off key b) :=
  Upto.bind (Upto.bind (h.shl _ _) fun _ => Upto.refl _) fun _ =>
    Upto.bind (Upto.fillLut h _ _ _ _ _ _ _ _) fun _ => Upto.refl _

theorem Upto.escStep (m : Mode) (off ml : Nat) (st : List Nat × EscapeCodes) (c : Code) :
    Upto (p.escStep m off ml st c) (q.escStep m off ml st c) :=
  Upto.ite (Upto.bind (Upto.fillLut h _ _ _ _ _ _ _ _) fun _ => Upto.refl _)
    (Upto.bind (Upto.extractLutPart h _ _ _ _) fun _ => Upto.bind (Upto.extractEscPart h _ _ _ _) fun _ => Upto.refl _)

theorem Upto.buildEscLut (ord : Order) (m : Mode) (fuel : Nat) (path t : List Nat) (b : CodeBucket) :
    Upto (p.buildEscLut ord m fuel path t b) (q.buildEscLut ord m fuel path t b) := by
  induction fuel generalizing path t b with
  | zero => exact Upto.refl _
  | succ fuel ih =>
    exact Upto.bind (Upto.foldlM (Upto.escStep h m _ _) _ _) fun _ =>
      Upto.bind (Upto.foldlM (fun _ _ => Upto.bind (Upto.allocBucket h _ _ _ _ _) fun _ => Upto.refl _) _ _) fun _ =>
        Upto.foldlM (fun _ _ => ih _ _ _) _ _

theorem Upto.gatherStep (m : Mode) (st : Gather) (d : Desc S) :
    Upto (p.gatherStep m st d) (q.gatherStep m st d) :=
  Upto.bind (Upto.ite (Upto.bind (Upto.extractLutPart h _ _ _ _) fun _ =>
    Upto.bind (Upto.extractEscPart h _ _ _ _) fun _ => Upto.refl _) (Upto.refl _)) fun _ => Upto.refl _

theorem Upto.fillStep (m : Mode) (mb : Nat) (st : Fill) (d : Desc S) :
    Upto (p.fillStep m mb st d) (q.fillStep m mb st d) := by
  refine Upto.ite (Upto.refl _) (Upto.bind (Upto.ite (Upto.bind (Upto.fillLut h _ _ _ _ _ _ _ _) fun _ => Upto.refl _)
    (Upto.bind (Upto.extractLutPart h _ _ _ _) fun ckey => Upto.bind (Upto.refl _) fun _ => Upto.ite ?_ (Upto.refl _)))
    fun _ => Upto.bind (h.add _ _) fun _ => Upto.refl _)
  cases st.esc.get ckey with
  | none => exact Upto.refl _
  | some b => exact Upto.bind (Upto.allocBucket h _ _ _ _ _) fun _ => Upto.refl _

theorem Upto.new (ord : Order) (m : Mode) (ds : List (Desc S)) : Upto (p.new ord m ds) (q.new ord m ds) :=
  Upto.bind (Upto.foldlM (Upto.gatherStep h m) _ _) fun _ => Upto.ite (Upto.refl _)
    (Upto.bind (Upto.foldlM (Upto.fillStep h m _) _ _) fun _ =>
      Upto.bind (Upto.foldlM (fun _ _ => Upto.buildEscLut h _ _ _ _ _ _) _ _) fun _ => Upto.refl _)

end

/-! ### Reading -/

/-- What the unbounded reader returns, that of a build without checks returns. -/
theorem upto_get32 (e : Endian) (r : Reader) (n : Nat) (h : r.index + 8 < 2 ^ 64) (hl : r.left ≤ 64) :
    Upto (get_bits_32 e r n) (wrappingOps.get_bits_32 e r n) := by
  have := Upto.get_bits_32 wrapping_le e r n
  rw [show checkedOps.get_bits_32 e r n = get_bits_32C e r n by cases e <;> rfl, get_bits_32C_eq e r n h hl] at this
  exact this

theorem upto_skip (e : Endian) (r : Reader) (n : Nat) (h : r.index + n / 8 < 2 ^ 61) :
    Upto (skip_bits e r n) (wrappingOps.skip_bits e r n) := by
  have := Upto.skip_bits wrapping_le e r n
  rw [show checkedOps.skip_bits e r n = skip_bitsC e r n by cases e <;> rfl, skip_bitsC_eq e r n h] at this
  exact this

theorem upto_available (r : Reader) (h : r.buffer.length < 2 ^ 60) (hl : r.left ≤ 64) :
    Upto (available r) (wrappingOps.available r) := by
  have := Upto.available wrapping_le r
  rw [show checkedOps.available r = availableC r from rfl] at this
  refine fun x hx => this x ?_
  unfold available at hx
  unfold availableC
  by_cases hc : r.index ≤ r.buffer.length
  · rw [usub_ok hc] at hx ⊢
    have e1 : (r.buffer.length - r.index) * 8 < 2 ^ 64 := by omega
    have e2 : (r.buffer.length - r.index) * 8 + r.left < 2 ^ 64 := by omega
    simpa only [ok_bind, umul_ok e1, uadd_ok e2, pure_eq_ok] using hx
  · simp [usub, hc] at hx

theorem upto_readLoop (e : Endian) (table : List Nat) (fuel : Nat) : ∀ (off lb : Nat) (r : Reader), lb ≤ 127 →
    r.left ≤ 64 → max r.buffer.length r.index + 16 * fuel < 2 ^ 60 →
    Upto (readLoop e table fuel off lb r) (wrappingBook.readLoop e table fuel off lb r) := by
  induction fuel with
  | zero => intro _ _ _ _ _ _; exact Upto.refl _
  | succ fuel ih =>
    intro off lb r hlb hl hb x hx
    unfold readLoop peek_bits_32 at hx
    unfold BookOps.readLoop
    dsimp only at hx ⊢
    cases hg : get_bits_32 e r lb with
    | error _ => rw [hg] at hx; exact nomatch hx
    | ok y =>
      rw [hg] at hx
      rw [show wrappingBook.reader = wrappingOps from rfl, upto_get32 e r lb (by omega) hl y hg]
      simp only [ok_bind, pure_eq_ok] at hx ⊢
      cases hi : idx table (y.1.toNat + off) with
      | error _ => rw [hi] at hx; exact nomatch hx
      | ok ent =>
        rw [hi] at hx
        simp only [ok_bind] at hx ⊢
        by_cases hf : ent = FILL
        · rw [if_pos hf] at hx ⊢; exact hx
        · rw [if_neg hf] at hx ⊢
          cases ha : available r with
          | error _ => rw [ha] at hx; exact nomatch hx
          | ok a =>
            rw [ha] at hx
            rw [upto_available r (by omega) hl a ha]
            simp only [ok_bind] at hx ⊢
            have h7 : ent &&& 0x7F ≤ 127 := Nat.and_le_right
            by_cases hc : (ent &&& 0x7F) > a % 2 ^ 32
            · rw [if_pos hc] at hx ⊢; exact hx
            · rw [if_neg hc] at hx ⊢
              generalize hn : (if ((ent &&& 0x80) != 0) = true then lb else ent &&& 0x7F) = n at hx ⊢
              have hn127 : n ≤ 127 := by split at hn <;> omega
              obtain ⟨r1, c1, c2⟩ := wrapping_skip e r n (by omega) hl
              cases hs : skip_bits e r n with
              | error _ => rw [hs] at hx; exact nomatch hx
              | ok r2 =>
                rw [hs] at hx
                have c3 := upto_skip e r n (by omega) r2 hs
                rw [c3] at c1 ⊢
                simp only [Except.ok.injEq] at c1
                subst c1
                simp only [ok_bind] at hx ⊢
                split at hx
                · rename_i hesc
                  rw [if_pos hesc]
                  refine ih _ _ r2 h7 c2.left ?_ x hx
                  have := c2.index
                  rw [c2.buffer]
                  omega
                · rename_i hesc
                  rw [if_neg hesc]
                  exact hx

theorem upto_readCb (e : Endian) (fuel : Nat) (cb : Codebook S) (r : Reader) (hlb : cb.lutBits ≤ 127) (hl : r.left ≤ 64)
    (hb : max r.buffer.length r.index + 16 * fuel < 2 ^ 60) :
    Upto (readCb e fuel cb r) (wrappingBook.readCb e fuel cb r) :=
  Upto.bind (upto_readLoop e cb.table fuel 0 cb.lutBits r hlb hl hb) fun _ => Upto.refl _

theorem new_lutBits (ord : Order) (m : Mode) (ds : List (Desc S)) (cb : Codebook S)
    (h : new ord m ds = .ok (.ok cb)) : cb.lutBits ≤ 10 := by
  unfold new at h
  cases h1 : ds.foldlM (gatherStep m) { maxbits := 0, esc := [], symidx := 0 } with
  | error _ => rw [h1] at h; exact nomatch h
  | ok g =>
    rw [h1] at h
    simp only [ok_bind] at h
    split at h
    · exact nomatch h
    · generalize hm : (if g.maxbits > MAX_LUT_BITS then MAX_LUT_BITS else g.maxbits) = mb at h
      cases h2 : ds.foldlM (fillStep m mb) { table := List.replicate (1 <<< mb) FILL, esc := g.esc, symidx := 0 } with
      | error _ => rw [h2] at h; exact nomatch h
      | ok f =>
        rw [h2] at h
        simp only [ok_bind] at h
        cases h3 : (ord [] 1 f.esc).foldlM (fun t kb => buildEscLut ord m 26 [kb.1] t kb.2) f.table with
        | error _ => rw [h3] at h; exact nomatch h
        | ok t =>
          rw [h3] at h
          simp only [ok_bind, pure_eq_ok, Except.ok.injEq] at h
          subst h
          simp only
          unfold MAX_LUT_BITS at hm
          split at hm <;> omega

/-- **C115** What `Codebook::new` returns in a build with overflow checks, it returns in a build without; and so does
`read_cb` of such a book on every reader (reached by any history) that stands at most `2^59` bytes behind the start. -/
theorem c115_agrees (ord : Order) (m : Mode) (ds : List (Desc S)) :
    (∀ res, new ord m ds = .ok res → wrappingBook.new ord m ds = .ok res) ∧
    ∀ cb, new ord m ds = .ok (.ok cb) → ∀ e fuel r x, r.left ≤ 64 → r.buffer.length ≤ 2 ^ 59 → r.index ≤ 2 ^ 59 →
      fuel ≤ 2 ^ 32 → readCb e fuel cb r = .ok x → wrappingBook.readCb e fuel cb r = .ok x := by
  refine ⟨fun res h => ?_, fun cb h e fuel r x hl hb hi hf hx => ?_⟩
  · rw [← checkedBook_new] at h
    exact Upto.new wrappingBook_le ord m ds res h
  · exact upto_readCb e fuel cb r (by have := new_lutBits ord m ds cb h; omega) hl (by omega) x hx

/-- Words of one and of two levels. -/
def lightBook : List (Desc Nat) := [⟨0b000000001, 9, 100⟩, ⟨0b111111111110, 12, 103⟩, ⟨0b111111111111, 12, 104⟩]

/-- Two words of `lightBook`, of two levels and of one. -/
example : (match new insOrder .msb lightBook with
    | .ok (.ok cb) => (do
      let r0 ← BitRead.new .be [0b01011111, 0b11111100, 0b00000001, 0, 0, 0, 0, 0, 0, 0, 0, 0]
      let (_, r) ← run .be r0 [.get32 3]
      let (x, r1) ← readCb .be 26 cb r
      let (y, r2) ← readCb .be 26 cb r1
      return decide (r.left ≤ 64 ∧ r.index ≤ 2 ^ 59) && decide (x = .ok 103 ∧ y = .ok 100 ∧ r2.left ≤ 64))
    | _ => .error .assert) = Except.ok true := by decide +kernel

/-! ### Decoding -/

theorem within_skipped {buf : List U8} : ∀ (ops : List Op) (p : Nat), within buf p ops →
    p + 8 * skipped ops ≤ max p (8 * buf.length) ∧ ∀ op ∈ ops, widthOk op := by
  intro ops
  induction ops with
  | nil => intro p _; exact ⟨by simp only [skipped]; omega, by simp⟩
  | cons op ops ih =>
    intro p h
    obtain ⟨h1, h2, h3⟩ := h
    obtain ⟨a1, a2⟩ := ih _ h3
    refine ⟨?_, ?_⟩
    · cases op <;> simp only [skipped, jumpOf, nextPos, reach, alignUp] at * <;> omega
    · intro o ho
      rcases List.mem_cons.mp ho with e | e
      · subst e; exact h1
      · exact a2 o e

/-- **C116, partial** Also in a build without overflow checks a prefix-free book (of lengths up to 41 bits in MSB mode)
is made and decodes each of its codewords, behind every in-data history. Missing: longer codewords, for which C116 is
false. -/
theorem c116_partial (ord : Order) (hord : ord.Valid) (m : Mode) (ds : List (Desc S)) (hwf : WF m ds)
    (hpf : PrefixFree m ds) (hfit : Fits m ds) (d : Desc S) (hd : d ∈ used ds)
    (buf : List U8) (pre : List Op) (hpre : within buf 0 pre)
    (hin : (specRun (endianOf m) buf 0 pre).2 + d.bits + 64 ≤ 8 * buf.length)
    (h32 : 8 * buf.length < 2 ^ 32)
    (hbits : streamBits (endianOf m) buf (specRun (endianOf m) buf 0 pre).2 d.bits = codeBits m d.code d.bits)
    (fuel : Nat) (hfu : 26 ≤ fuel) (hfu2 : fuel ≤ 2 ^ 32) :
    ∃ cb r0 vs r r', wrappingBook.new ord m ds = .ok (.ok cb) ∧ wrappingOps.new (endianOf m) buf = .ok r0 ∧
      wrappingOps.run (endianOf m) r0 pre = .ok (vs, r) ∧
      wrappingBook.readCb (endianOf m) fuel cb r = .ok (.ok d.sym, r') ∧
      wrappingOps.consumed r' = .ok ((specRun (endianOf m) buf 0 pre).2 + d.bits) := by
  obtain ⟨T, a1, _⟩ := new_ok hord hwf hpf hfit (List.ne_nil_of_mem hd)
  obtain ⟨r0, a2, n2, _, n3⟩ := new_spec (endianOf m) buf
  obtain ⟨r, a3, m2, m3⟩ := run_within n3 pre (by rw [n2]; exact hpre)
  rw [n2] at a3 m2 m3
  obtain ⟨r', a4, k2, k3⟩ := readCb_code hord hwf hpf hfit a1 hd hfu m3 (by rw [m2]; exact hbits)
    (by rw [m2]; exact hin) (by rw [m2]; exact h32)
  obtain ⟨b1, b2⟩ := within_skipped pre 0 hpre
  obtain ⟨r0', vs', r1, c1, c2, c3, c4, c5, c6⟩ := c99_partial (endianOf m) buf pre b2 (by omega)
  rw [a2] at c2
  simp only [Except.ok.injEq] at c2
  subst c2
  rw [a3] at c4
  simp only [Except.ok.injEq, Prod.mk.injEq] at c4
  obtain ⟨rfl, rfl⟩ := c4
  obtain ⟨d1, d2, _, _⟩ := c112_agrees (endianOf m) buf pre r0 r _ c1 c3
  obtain ⟨r0', f1, f2, f3⟩ := new_follows (endianOf m) buf
  rw [a2] at f1
  simp only [Except.ok.injEq] at f1
  subst f1
  obtain ⟨r1, g1, g2, g3⟩ := run_follows f3 pre b2
  rw [a3] at g1
  simp only [Except.ok.injEq, Prod.mk.injEq] at g1
  obtain ⟨_, rfl⟩ := g1
  have hi : (Cur.start buf.length).idx ≤ buf.length := by
    unfold Cur.start Cur.load
    split
    · simp only; omega
    · simp
  have hidx := (runC_eq f3 pre b2 (by rw [f2]; omega)).2
  rw [f2] at hidx g2 g3
  have hri := g3.idx
  obtain ⟨e1, e2⟩ := c115_agrees ord m ds
  refine ⟨_, r0, _, r, r', e1 _ a1, d1, d2,
    e2 _ a1 _ fuel r _ g3.left.2.2 (by rw [g2]; omega) (by omega) hfu2 a4, ?_⟩
  have hc := k3.consumed
  have hidx' := k3.idx_le
  rw [k2, m2] at hidx'
  unfold consumed usub at hc
  split at hc
  · rename_i hle
    simp only [Except.ok.injEq] at hc
    simp only [Ops.consumed, wrappingOps, ok_bind]
    rw [Nat.mod_eq_of_lt (by omega), if_pos hle, hc]
  · exact nomatch hc

example : WF .msb book ∧ PrefixFree .msb book ∧ Fits .msb book ∧ ⟨0b111111111110, 12, 103⟩ ∈ used book ∧
    within msbStream 0 [.get32 3] ∧
    (specRun .be msbStream 0 [.get32 3]).2 + 12 + 64 ≤ 8 * msbStream.length ∧
    8 * msbStream.length < 2 ^ 32 ∧
    streamBits .be msbStream (specRun .be msbStream 0 [.get32 3]).2 12 =
      codeBits .msb 0b111111111110 12 := by decide

/-- A codeword of 42 bits: 39 zeros and 101. -/
def longWord : List (Desc Nat) := [⟨5, 42, 7⟩]

/-- **C116 fails** Without overflow checks a book with one 42-bit codeword is made, though with them `Codebook::new` panics.
It rejects the codeword and returns its symbol for other bits (0000000101 and 32 zeros). -/
theorem c116_fails : PrefixFree .msb longWord ∧ Fits .msb longWord ∧
    new insOrder .msb longWord = .error .shift ∧
    ∃ cb r0 r1 r2 r3, wrappingBook.new insOrder .msb longWord = .ok (.ok cb) ∧
      streamBits .be ([0, 0, 0, 0, 1, 0x40] ++ List.replicate 18 0) 0 42 = codeBits .msb 5 42 ∧
      wrappingOps.new .be ([0, 0, 0, 0, 1, 0x40] ++ List.replicate 18 0) = .ok r0 ∧
      wrappingBook.readCb .be 26 cb r0 = .ok (.error .invalidCode, r1) ∧
      streamBits .be ([1, 0x40] ++ List.replicate 22 0) 0 42 ≠ codeBits .msb 5 42 ∧
      wrappingOps.new .be ([1, 0x40] ++ List.replicate 22 0) = .ok r2 ∧
      wrappingBook.readCb .be 26 cb r2 = .ok (.ok 7, r3) := by
  refine ⟨by decide, by decide, rfl, ?_⟩
  have key : (match wrappingBook.new insOrder .msb longWord with
      | .ok (.ok cb) => (do
        let r0 ← wrappingOps.new .be ([0, 0, 0, 0, 1, 0x40] ++ List.replicate 18 0)
        let (x, _) ← wrappingBook.readCb .be 26 cb r0
        let r2 ← wrappingOps.new .be ([1, 0x40] ++ List.replicate 22 0)
        let (y, _) ← wrappingBook.readCb .be 26 cb r2
        return (x, y))
      | _ => .error .assert) = Except.ok (.error .invalidCode, .ok 7) := by decide +kernel
  cases h : wrappingBook.new insOrder .msb longWord with
  | error _ => rw [h] at key; exact nomatch key
  | ok res =>
    rw [h] at key
    cases res with
    | error _ => exact nomatch key
    | ok cb =>
      simp only [] at key
      cases h0 : wrappingOps.new .be ([0, 0, 0, 0, 1, 0x40] ++ List.replicate 18 0) with
      | error _ => rw [h0] at key; exact nomatch key
      | ok r0 =>
        rw [h0] at key
        simp only [ok_bind] at key
        cases h1 : wrappingBook.readCb .be 26 cb r0 with
        | error _ => rw [h1] at key; exact nomatch key
        | ok x =>
          rw [h1] at key
          simp only [ok_bind] at key
          cases h2 : wrappingOps.new .be ([1, 0x40] ++ List.replicate 22 0) with
          | error _ => rw [h2] at key; exact nomatch key
          | ok r2 =>
            rw [h2] at key
            simp only [ok_bind] at key
            cases h3 : wrappingBook.readCb .be 26 cb r2 with
            | error _ => rw [h3] at key; exact nomatch key
            | ok y =>
              rw [h3] at key
              simp only [ok_bind, pure_eq_ok, Except.ok.injEq, Prod.mk.injEq] at key
              obtain ⟨x1, x2⟩ := x
              obtain ⟨y1, y2⟩ := y
              simp only at key
              obtain ⟨rfl, rfl⟩ := key
              exact ⟨cb, r0, x2, r2, y2, rfl, by decide, rfl, h1, by decide, rfl, h3⟩

end Verif.Codebook
