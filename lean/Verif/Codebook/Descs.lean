import Verif.Codebook.Props

/-!
# C92, C93: the ways to describe a codebook

`Codebook::new` takes any `CodebookDescReader`. The model of `Codebook::new` in `Model.lean` takes the
list of entries; here it is written against the trait, with the calls where the code makes them, and the
implementations of the trait are modelled.
-/

namespace Verif.Codebook
open Verif Verif.BitRead

/-- codebook.rs:65-79: the trait `CodebookDescReader<S>` -/
structure DescReader (S : Type u) where
  bits : Nat → Rust Nat
  code : Nat → Rust Nat
  sym : Nat → Rust S
  len : Nat
  isEmpty : Bool

/-- codebook.rs:407-424, 444-461: `Vec<FullCodebookDesc<S>>` and `&[FullCodebookDesc<S>]` -/
def fullReader (l : List (Desc S)) : DescReader S where
  bits i := do return (← idx l i).bits
  code i := do return (← idx l i).code
  sym i := do return (← idx l i).sym
  len := l.length
  isEmpty := l.isEmpty

/-- codebook.rs:426-442, 462-478: `Vec<ShortCodebookDesc>` and `&[ShortCodebookDesc]` (pairs of code and
length); `sym` does not look at the entry -/
def shortReader (l : List (Nat × Nat)) : DescReader Nat where
  bits i := do return (← idx l i).2
  code i := do return (← idx l i).1
  sym i := .ok (i % 2 ^ 32)
  len := l.length
  isEmpty := l.isEmpty

/-- codebook.rs:480-509: `TableCodebookDescReader<CodeType, SymType>`; `as_` is the cast of a `usize` to
`SymType`, and the codes are given as the numbers `Into<u32>` makes of them -/
def tableReader (as_ : Nat → S) (bits codes : List Nat) : DescReader S where
  bits i := idx bits i
  code i := idx codes i
  sym i := .ok (as_ i)
  len := bits.length
  isEmpty := bits.isEmpty

/-- codebook.rs:300-315: the first loop asks for the code of the entries longer than 10 bits only -/
def gatherStepR (m : Mode) (d : DescReader S) (st : Gather) (i : Nat) : Rust Gather := do
  let bits ← d.bits i
  let code ← (if bits > MAX_LUT_BITS then d.code i else .ok 0)
  gatherStep m st { code, bits, sym := () }

/-- codebook.rs:330-360: the second loop asks for every code, also that of an unused entry -/
def fillStepR (m : Mode) (maxbits : Nat) (d : DescReader S) (st : Fill) (i : Nat) : Rust Fill := do
  let bits ← d.bits i
  let code ← d.code i
  fillStep m maxbits st { code, bits, sym := () }

/-- codebook.rs:366-370 -/
def symStepR (d : DescReader S) (syms : List S) (i : Nat) : Rust (List S) := do
  let bits ← d.bits i
  if bits > 0 then do
    let s ← d.sym i
    return syms ++ [s]
  else return syms

/-- codebook.rs:291-378 -/
def newR (ord : Order) (m : Mode) (d : DescReader S) :
    Rust (Except CodebookError (Codebook S)) := do
  let g ← (List.range d.len).foldlM (gatherStepR m d) { maxbits := 0, esc := [], symidx := 0 }
  if g.maxbits = 0 then .ok (.error .invalidCodebook)
  else do
    let maxbits := if g.maxbits > MAX_LUT_BITS then MAX_LUT_BITS else g.maxbits
    let f ← (List.range d.len).foldlM (fillStepR m maxbits d)
      { table := List.replicate (1 <<< maxbits) FILL, esc := g.esc, symidx := 0 }
    let table ← (ord [] 1 f.esc).foldlM
      (fun t kb => buildEscLut ord m 26 [kb.1] t kb.2) f.table
    let syms ← (List.range d.len).foldlM (symStepR d) []
    return .ok { table, lutBits := maxbits, syms }

/-! ### the readers and the lists of entries -/

/-- The reader answers with the entries of the list. -/
structure Presents (d : DescReader S) (l : List (Desc S)) : Prop where
  len : d.len = l.length
  entry : ∀ i e, l[i]? = some e → d.bits i = .ok e.bits ∧ d.code i = .ok e.code ∧ d.sym i = .ok e.sym

theorem foldlM_range {l : List α} {f : β → Nat → Rust β} {g : β → α → Rust β}
    (h : ∀ i e s, l[i]? = some e → f s i = g s e) (s : β) :
    (List.range l.length).foldlM f s = l.foldlM g s := by
  have key : ∀ k, k ≤ l.length → (List.range k).foldlM f s = (l.take k).foldlM g s := by
    intro k
    induction k with
    | zero => intro _; rfl
    | succ k ih =>
      intro hk
      have hk' : k < l.length := by omega
      rw [List.range_succ, List.take_succ_eq_append_getElem hk', List.foldlM_append, List.foldlM_append,
        ih (by omega)]
      congr 1
      funext s'
      simp only [List.foldlM_cons, List.foldlM_nil]
      rw [h k l[k] s' (List.getElem?_eq_getElem hk')]
  have := key l.length (Nat.le_refl _)
  rwa [List.take_length] at this

theorem gatherStep_unit (m : Mode) (st : Gather) (e : Desc S) :
    gatherStep m st { code := if e.bits > MAX_LUT_BITS then e.code else 0, bits := e.bits, sym := () } =
      gatherStep m st e := by
  unfold gatherStep
  by_cases h : e.bits > MAX_LUT_BITS <;> simp [h]

theorem symFold (l : List (Desc S)) (s : List S) :
    l.foldlM (m := Except Panic)
      (fun syms e => if e.bits > 0 then .ok (syms ++ [e.sym]) else .ok syms) s =
      .ok (s ++ (l.filter fun d => decide (d.bits > 0)).map (·.sym)) := by
  induction l generalizing s with
  | nil => simp [pure_eq_ok]
  | cons e l ih =>
    rw [List.foldlM_cons]
    by_cases h : e.bits > 0
    · simp [h, ok_bind, ih]
    · simp only [h, if_false, ok_bind, ih]
      simp [h]

theorem newR_eq {d : DescReader S} {l : List (Desc S)} (h : Presents d l) (ord : Order) (m : Mode) :
    newR ord m d = new ord m l := by
  unfold newR new
  rw [h.len]
  rw [foldlM_range (g := gatherStep m) (l := l)]
  · congr 1
    funext g
    split
    · rfl
    · dsimp only
      rw [foldlM_range (g := fillStep m (if g.maxbits > MAX_LUT_BITS then MAX_LUT_BITS else g.maxbits))
        (l := l)]
      · congr 1
        funext f
        congr 1
        funext t
        rw [foldlM_range
          (g := fun syms e => if e.bits > 0 then .ok (syms ++ [e.sym]) else .ok syms) (l := l)]
        · rw [symFold]; rfl
        · intro i e s hi
          obtain ⟨h1, h2, h3⟩ := h.entry i e hi
          unfold symStepR
          simp [h1, h3, ok_bind, pure_eq_ok]
      · intro i e s hi
        obtain ⟨h1, h2, h3⟩ := h.entry i e hi
        unfold fillStepR fillStep
        simp [h1, h2, ok_bind]
  · intro i e s hi
    obtain ⟨h1, h2, h3⟩ := h.entry i e hi
    rw [← gatherStep_unit]
    unfold gatherStepR
    simp only [h1, ok_bind, h2]
    by_cases hb : e.bits > MAX_LUT_BITS <;> simp [hb, ok_bind]

theorem full_presents (l : List (Desc S)) : Presents (fullReader l) l :=
  ⟨rfl, fun i e h => by simp [fullReader, idx_some h, ok_bind, pure_eq_ok]⟩

theorem short_presents (l : List (Nat × Nat)) : Presents (shortReader l) (shortDescs l) := by
  refine ⟨by simp [shortReader, shortDescs], ?_⟩
  intro i e h
  simp only [shortDescs, List.getElem?_mapIdx, Option.map_eq_some_iff] at h
  obtain ⟨a, h1, h2⟩ := h
  subst h2
  simp [shortReader, idx_some h1, ok_bind, pure_eq_ok]

/-- The entries of two tables. -/
def tableDescs (as_ : Nat → S) (bits codes : List Nat) : List (Desc S) :=
  (bits.zip codes).mapIdx fun i bc => { code := bc.2, bits := bc.1, sym := as_ i }

theorem table_presents (as_ : Nat → S) {bits codes : List Nat} (h : bits.length ≤ codes.length) :
    Presents (tableReader as_ bits codes) (tableDescs as_ bits codes) := by
  refine ⟨by simp [tableReader, tableDescs]; omega, ?_⟩
  intro i e h
  simp only [tableDescs, List.getElem?_mapIdx, Option.map_eq_some_iff, List.getElem?_zip_eq_some] at h
  obtain ⟨a, ⟨h1, h2⟩, h3⟩ := h
  subst h3
  simp [tableReader, idx_some h1, idx_some h2]

/-! ### C92 -/

/-- **C92** What `Codebook::new` makes of a description depends on the lengths, codes and symbols the
description answers with, and on nothing else: a reader that answers with the entries of a list makes the
book of that list, whether the reader is a `Vec`, a slice or a type of the caller's. -/
theorem c92_reader (ord : Order) (m : Mode) (d : DescReader S) (l : List (Desc S)) (hlen : d.len = l.length)
    (hent : ∀ i e, l[i]? = some e →
      d.bits i = .ok e.bits ∧ d.code i = .ok e.code ∧ d.sym i = .ok e.sym) :
    newR ord m d = newR ord m (fullReader l) ∧ newR ord m d = new ord m l :=
  have h := newR_eq ⟨hlen, hent⟩ ord m
  ⟨h.trans (newR_eq (full_presents l) ord m).symm, h⟩

/-- A reader that is none of the crate's: unary codes, computed. -/
def unary (n : Nat) : DescReader Nat where
  bits i := .ok (i + 1)
  code i := .ok (2 ^ (i + 1) - 2)
  sym i := .ok (1000 + i)
  len := n
  isEmpty := n = 0

example : (unary 3).len = [(⟨0, 1, 1000⟩ : Desc Nat), ⟨2, 2, 1001⟩, ⟨6, 3, 1002⟩].length ∧
    ∀ i e, [(⟨0, 1, 1000⟩ : Desc Nat), ⟨2, 2, 1001⟩, ⟨6, 3, 1002⟩][i]? = some e →
      (unary 3).bits i = .ok e.bits ∧ (unary 3).code i = .ok e.code ∧ (unary 3).sym i = .ok e.sym := by
  refine ⟨rfl, fun i e h => ?_⟩
  match i with
  | 0 => simp at h; subst h; decide
  | 1 => simp at h; subst h; decide
  | 2 => simp at h; subst h; decide
  | i + 3 => simp at h

/-- **C92** Descriptions without symbols: if after any in-data history the next bits are the codeword of
entry number `i` of a list of `ShortCodebookDesc`, `read_cb` returns `i` (as `u32`) and leaves the reader
exactly behind the codeword. -/
theorem c92_short (ord : Order) (hord : ord.Valid) (m : Mode) (l : List (Nat × Nat))
    (hwf : ∀ cb ∈ l, 0 < cb.2 → cb.2 ≤ maxLen m ∧ cb.1 < 2 ^ cb.2)
    (hpf : PrefixFree m (shortDescs l)) (hfit : Fits m (shortDescs l))
    (i code bits : Nat) (hi : l[i]? = some (code, bits)) (hb : 0 < bits)
    (buf : List U8) (pre : List Op) (hpre : within buf 0 pre)
    (hin : (specRun (endianOf m) buf 0 pre).2 + bits + 64 ≤ 8 * buf.length)
    (h32 : 8 * buf.length < 2 ^ 32)
    (hbits : streamBits (endianOf m) buf (specRun (endianOf m) buf 0 pre).2 bits = codeBits m code bits)
    (fuel : Nat) (hfu : 26 ≤ fuel) :
    ∃ cb r0 vs r r', newR ord m (shortReader l) = .ok (.ok cb) ∧
      BitRead.new (endianOf m) buf = .ok r0 ∧ run (endianOf m) r0 pre = .ok (vs, r) ∧
      readCb (endianOf m) fuel cb r = .ok (.ok (i % 2 ^ 32), r') ∧
      StandsAt (endianOf m) buf r' ((specRun (endianOf m) buf 0 pre).2 + bits) := by
  rw [newR_eq (short_presents l)]
  refine decode_one hord m (shortDescs l) ?_ hpf hfit ⟨code, bits, i % 2 ^ 32⟩ ?_ buf pre hpre hin h32 hbits
    fuel hfu
  · intro d hd
    simp only [used, List.mem_filter, decide_eq_true_eq] at hd
    obtain ⟨hd, hd0⟩ := hd
    obtain ⟨j, hj, hjd⟩ := List.mem_iff_getElem.mp hd
    simp only [shortDescs, List.getElem_mapIdx] at hjd
    subst hjd
    exact hwf _ (List.getElem_mem _) hd0
  · simp only [used, List.mem_filter, decide_eq_true_eq]
    refine ⟨List.mem_of_getElem? (i := i) ?_, hb⟩
    simp [shortDescs, List.getElem?_mapIdx, hi]

/-- Four codewords and two unused entries. -/
def shortBook : List (Nat × Nat) :=
  [(0b0, 1), (0, 0), (0b10, 2), (0b110, 3), (0, 0), (0b111111111110, 12), (0b111111111111, 12)]

example : (∀ cb ∈ shortBook, 0 < cb.2 → cb.2 ≤ maxLen .msb ∧ cb.1 < 2 ^ cb.2) ∧
    PrefixFree .msb (shortDescs shortBook) ∧ Fits .msb (shortDescs shortBook) ∧
    shortBook[5]? = some (0b111111111110, 12) ∧ within msbStream 0 [.get32 3] ∧
    (specRun .be msbStream 0 [.get32 3]).2 + 12 + 64 ≤ 8 * msbStream.length ∧
    streamBits .be msbStream (specRun .be msbStream 0 [.get32 3]).2 12 =
      codeBits .msb 0b111111111110 12 := by decide

/-- **C92** `is_empty` of the crate's descriptions tells whether `len` is 0. -/
theorem c92_empty (l : List (Desc S)) (s : List (Nat × Nat)) (as_ : Nat → S) (bits codes : List Nat) :
    ((fullReader l).isEmpty = true ↔ (fullReader l).len = 0) ∧
    ((shortReader s).isEmpty = true ↔ (shortReader s).len = 0) ∧
    ((tableReader as_ bits codes).isEmpty = true ↔ (tableReader as_ bits codes).len = 0) := by
  simp [fullReader, shortReader, tableReader]

/-! ### C93 -/

/-- The full statement of C93: a book described by two tables decodes the codeword of entry `i` to the
symbol `i`. -/
def TableDecodes (w : Nat) : Prop :=
  ∀ (ord : Order) (m : Mode) (bits codes : List Nat), ord.Valid → bits.length ≤ codes.length →
    WF m (tableDescs (· % 2 ^ w) bits codes) → PrefixFree m (tableDescs (· % 2 ^ w) bits codes) →
    Fits m (tableDescs (· % 2 ^ w) bits codes) →
    ∀ (i code n : Nat), bits[i]? = some n → codes[i]? = some code → 0 < n →
    ∀ (buf : List U8), n + 64 ≤ 8 * buf.length → 8 * buf.length < 2 ^ 32 →
      streamBits (endianOf m) buf 0 n = codeBits m code n →
      ∃ cb r0 r', newR ord m (tableReader (· % 2 ^ w) bits codes) = .ok (.ok cb) ∧
        BitRead.new (endianOf m) buf = .ok r0 ∧
        readCb (endianOf m) 26 cb r0 = .ok (.ok i, r')

/-- **C93** (as far as it holds) With a code for every length, `read_cb` returns the number of the entry
cast to the type of the symbols, and leaves the reader exactly behind the codeword. Missing: for a type
that does not hold all the numbers the symbol is not the number of the entry (`c93_fails`). -/
theorem c93_table_partial (ord : Order) (hord : ord.Valid) (m : Mode) (as_ : Nat → S)
    (bits codes : List Nat) (hlen : bits.length ≤ codes.length)
    (hwf : WF m (tableDescs as_ bits codes)) (hpf : PrefixFree m (tableDescs as_ bits codes))
    (hfit : Fits m (tableDescs as_ bits codes))
    (i code n : Nat) (hi : bits[i]? = some n) (hc : codes[i]? = some code) (hb : 0 < n)
    (buf : List U8) (pre : List Op) (hpre : within buf 0 pre)
    (hin : (specRun (endianOf m) buf 0 pre).2 + n + 64 ≤ 8 * buf.length)
    (h32 : 8 * buf.length < 2 ^ 32)
    (hbits : streamBits (endianOf m) buf (specRun (endianOf m) buf 0 pre).2 n = codeBits m code n)
    (fuel : Nat) (hfu : 26 ≤ fuel) :
    ∃ cb r0 vs r r', newR ord m (tableReader as_ bits codes) = .ok (.ok cb) ∧
      BitRead.new (endianOf m) buf = .ok r0 ∧ run (endianOf m) r0 pre = .ok (vs, r) ∧
      readCb (endianOf m) fuel cb r = .ok (.ok (as_ i), r') ∧
      StandsAt (endianOf m) buf r' ((specRun (endianOf m) buf 0 pre).2 + n) := by
  rw [newR_eq (table_presents as_ hlen)]
  refine decode_one hord m _ hwf hpf hfit ⟨code, n, as_ i⟩ ?_ buf pre hpre hin h32 hbits fuel hfu
  simp only [used, List.mem_filter, decide_eq_true_eq]
  refine ⟨List.mem_of_getElem? (i := i) ?_, hb⟩
  have hz : (bits.zip codes)[i]? = some (n, code) := List.getElem?_zip_eq_some.mpr ⟨hi, hc⟩
  simp only [tableDescs, List.getElem?_mapIdx, hz, Option.map_some]

example : [1, 0, 2, 3].length ≤ [0b0, 0, 0b10, 0b110].length ∧
    WF .msb (tableDescs (· % 256) [1, 0, 2, 3] [0b0, 0, 0b10, 0b110]) ∧
    PrefixFree .msb (tableDescs (· % 256) [1, 0, 2, 3] [0b0, 0, 0b10, 0b110]) ∧
    Fits .msb (tableDescs (· % 256) [1, 0, 2, 3] [0b0, 0, 0b10, 0b110]) ∧
    streamBits .be [0b10000000, 0, 0, 0, 0, 0, 0, 0, 0, 0] (specRun .be [0b10000000, 0, 0, 0, 0, 0, 0, 0, 0, 0] 0 []).2 2
      = codeBits .msb 0b10 2 := by decide

/-- 257 entries, all but the first and the last unused. -/
def wideBits : List Nat := 1 :: List.replicate 255 0 ++ [1]
def wideCodes : List Nat := 0 :: List.replicate 255 0 ++ [1]

/-- **C93** fails: in a book of 257 entries with `u8` symbols, the codeword of entry 256 decodes to 0, the
symbol of entry 0. -/
theorem c93_fails : ¬ TableDecodes 8 := by
  intro h
  have hv : ∃ cb r0 vs r r', newR insOrder .msb (tableReader (· % 2 ^ 8) wideBits wideCodes) = .ok (.ok cb) ∧
      BitRead.new .be [0x80, 0, 0, 0, 0, 0, 0, 0, 0] = .ok r0 ∧ run .be r0 [] = .ok (vs, r) ∧
      readCb .be 26 cb r = .ok (.ok (256 % 2 ^ 8), r') ∧ _ :=
    c93_table_partial insOrder insOrder_valid .msb (· % 2 ^ 8) wideBits wideCodes (by decide +kernel)
      (by decide +kernel) (by decide +kernel) (by decide +kernel) 256 1 1 (by decide +kernel)
      (by decide +kernel) (by decide) [0x80, 0, 0, 0, 0, 0, 0, 0, 0] [] (by decide) (by decide) (by decide)
      (by decide) 26 (by decide)
  obtain ⟨cb, r0, vs, r, r', h1, h2, h3, h4, _⟩ := hv
  obtain ⟨cb', r0', r1, g1, g2, g3⟩ := h insOrder .msb wideBits wideCodes insOrder_valid (by decide +kernel)
      (by decide +kernel) (by decide +kernel) (by decide +kernel) 256 1 1 (by decide +kernel)
      (by decide +kernel) (by decide) [0x80, 0, 0, 0, 0, 0, 0, 0, 0] (by decide) (by decide) (by decide)
  rw [h1] at g1
  rw [show endianOf .msb = Endian.be from rfl] at g2 g3
  rw [h2] at g2
  simp only [Except.ok.injEq] at g1 g2
  subst g1 g2
  simp only [run, Except.ok.injEq, Prod.mk.injEq] at h3
  obtain ⟨_, h3⟩ := h3
  subst h3
  rw [h4] at g3
  simp at g3

/-- **C93** Fewer codes than lengths never make a book: the code of every entry is asked for, also that of
an unused one. -/
theorem c93_missing_codes (ord : Order) (m : Mode) (as_ : Nat → S) (bits codes : List Nat)
    (hlen : codes.length < bits.length) (cb : Codebook S) :
    newR ord m (tableReader as_ bits codes) ≠ .ok (.ok cb) := by
  intro h
  unfold newR at h
  cases hg : (List.range (tableReader as_ bits codes).len).foldlM
      (gatherStepR m (tableReader as_ bits codes)) { maxbits := 0, esc := [], symidx := 0 } with
  | error e => rw [hg] at h; cases h
  | ok g =>
    rw [hg] at h
    simp only [ok_bind] at h
    split at h
    · cases h
    · generalize hmb : (if g.maxbits > MAX_LUT_BITS then MAX_LUT_BITS else g.maxbits) = mb at h
      generalize hst : ({ table := List.replicate (1 <<< mb) FILL, esc := g.esc, symidx := 0 } : Fill) = st at h
      have key : ∀ f, (List.range (tableReader as_ bits codes).len).foldlM
          (fillStepR m mb (tableReader as_ bits codes)) st ≠ .ok f := by
        intro f hf
        have hr : List.range (tableReader as_ bits codes).len = List.range codes.length ++
            codes.length :: List.range' (codes.length + 1) (bits.length - codes.length - 1) := by
          show List.range bits.length = _
          rw [List.range_eq_range', List.range_eq_range',
            show bits.length = codes.length + ((bits.length - codes.length - 1) + 1) by omega,
            ← List.range'_append_1]
          simp [List.range'_succ]
        rw [hr, List.foldlM_append] at hf
        cases h1 : (List.range codes.length).foldlM (fillStepR m mb (tableReader as_ bits codes)) st with
        | error e => rw [h1] at hf; cases hf
        | ok f1 =>
          rw [h1] at hf
          simp only [ok_bind, List.foldlM_cons] at hf
          have : fillStepR m mb (tableReader as_ bits codes) f1 codes.length = .error .index := by
            unfold fillStepR tableReader
            simp [idx, hlen, ok_bind, error_bind]
          rw [this] at hf
          cases hf
      cases hf : (List.range (tableReader as_ bits codes).len).foldlM
          (fillStepR m mb (tableReader as_ bits codes)) st with
      | error e => rw [hf] at h; cases h
      | ok f => exact key f hf

example : [5].length < [1, 0].length := by decide

end Verif.Codebook
