import Verif.Codebook.Fails
import Verif.BitRead.Exact

/-!
# `read_cb` in every state of the reader, also at and behind the end of the buffer

The specification works on a list of bit strings with symbols and on the cursor of `Verif.BitRead.Exact`. There are
no tables, no escapes and no packed entries in it. From it follow the exact forms of C17, C21 and C66, and C103
(histories that mix bit reads and codebook reads, possibly of several codebooks).
-/

namespace Verif.BitRead

/-- The bits said to be left: those of the bytes not yet loaded and the loaded ones. Behind the end of the buffer the
number does not exist. -/
def Cur.avail (len : Nat) (c : Cur) : Rust Nat :=
  if c.idx ≤ len then .ok (8 * (len - c.idx) + c.left) else .error .overflow

theorem Follows.avail {e r c} (h : Follows e r c) : BitRead.available r = c.avail r.buffer.length := h.available

end Verif.BitRead

namespace Verif.Codebook
open Verif Verif.BitRead

/-- Codewords in reading order and their symbols. -/
abbrev Book (S : Type) := List (List Bool × S)

/-- How many bits are looked at: as many as the longest codeword has, but no more than ten. -/
def Book.width (B : Book S) : Nat := min ((B.map fun x => x.1.length).foldl max 0) 10

/-- What is behind `s` in the codewords starting with `s`. -/
def Book.behind (B : Book S) (s : List Bool) : Book S :=
  (B.filter fun x => s.isPrefixOf x.1).map fun x => (x.1.drop s.length, x.2)

/-- The next `w` bits, without moving: those of the loaded bytes, and zeros behind them. A reader of the other byte
order shows them in reverse. -/
def window (m : Mode) (e : Endian) (buf : List U8) (c : Cur) (w : Nat) : List Bool :=
  let s := streamBits e (buf.take (c.prepare buf.length (.peek32 w)).lim) c.src w
  if e = endianOf m then s else s.reverse

/-- Decoding in at most `k` looks. If a codeword is in view it is taken, provided that enough bits are said to be
left. If some longer ones begin with the view, the view is passed over and the same is done with what is behind it in
these, provided that the bits said to be left *before* passing over are enough for the *next* look. -/
def decode (m : Mode) (e : Endian) (buf : List U8) :
    Nat → Book S → Cur → Rust (Except CodebookError S × Cur)
  | 0, _, c => .ok (.error .invalidCode, c)
  | k + 1, B, c =>
    match B.find? fun x => x.1.isPrefixOf (window m e buf c B.width) with
    | some (s, x) => do
      let a ← c.avail buf.length
      if s.length ≤ a % 2 ^ 32 then .ok (.ok x, c.skip buf.length s.length) else .ok (.error .invalidCode, c)
    | none =>
      if (B.behind (window m e buf c B.width)).isEmpty then .ok (.error .invalidCode, c)
      else do
        let a ← c.avail buf.length
        if (B.behind (window m e buf c B.width)).width ≤ a % 2 ^ 32 then
          decode m e buf k (B.behind (window m e buf c B.width)) (c.skip buf.length B.width)
        else .ok (.error .invalidCode, c)

/-- The codewords and symbols of a description. -/
def bookOf (m : Mode) (ds : List (Desc S)) : Book S := (used ds).map fun d => (codeBits m d.code d.bits, d.sym)

/-! ### helper lemmas -/

/-- The codes of a node as bit strings. -/
def strs (m : Mode) (f : Nat → S) (L : List Code) : Book S := L.map fun c => (codeBits m c.code c.bits, f c.idx)

theorem strs_width (m : Mode) (f : Nat → S) (L : List Code) : (strs m f L).width = nb L := by
  unfold Book.width strs nb maxlen
  rw [List.map_map, List.foldl_map]
  simp only [Function.comp, codeBits_length]

/-- The codewords behind a value of ten bits that is no codeword's start. -/
theorem strs_behind {m : Mode} {f : Nat → S} {L : List Code} (hwf : CWF (maxLen m) L) {v : Nat} (hv : v < 2 ^ nb L)
    (hno : ∀ c ∈ L, c.bits ≤ nb L → top m (nb L) c.bits v ≠ c.code) :
    (strs m f L).behind (codeBits m v (nb L)) = strs m f (sub m L v) := by
  unfold Book.behind strs sub
  rw [List.filter_map, List.map_map, List.map_map]
  have hf : L.filter ((fun x : List Bool × S => (codeBits m v (nb L)).isPrefixOf x.1) ∘
      fun c => (codeBits m c.code c.bits, f c.idx)) = L.filter fun c => long c && decide (keyOf m c = v) := by
    apply List.filter_congr
    intro c hc
    obtain ⟨h1, h2, h3, h4⟩ := hwf c hc
    rw [Bool.eq_iff_iff]
    simp only [Function.comp, List.isPrefixOf_iff_prefix, prefix_iff hv h3, long, Bool.and_eq_true, decide_eq_true_eq]
    constructor
    · intro ⟨a1, a2⟩
      by_cases hb : 10 < c.bits
      · refine ⟨hb, ?_⟩
        rw [nb_of_long hc hb] at a2
        exact a2
      · exfalso
        have := bits_le_nb hc (by omega)
        have he : c.bits = nb L := by omega
        refine hno c hc this ?_
        rw [← he] at a2 ⊢
        rw [← a2, top_top (Nat.le_refl _) (Nat.le_refl _)]
        exact top_self h3
    · intro ⟨a1, a2⟩
      rw [nb_of_long hc a1]
      exact ⟨by omega, a2⟩
  rw [hf]
  apply List.map_congr_left
  intro c hc
  simp only [long, List.mem_filter, Bool.and_eq_true, decide_eq_true_eq] at hc
  simp only [Function.comp, tailOf, codeBits_length, nb_of_long hc.1 hc.2.1,
    codeBits_rest (show 10 ≤ c.bits by omega)]

theorem strs_find {m : Mode} {f : Nat → S} {L : List Code} (hpf : PF m L) (hwf : CWF (maxLen m) L) {v : Nat}
    (hv : v < 2 ^ nb L) {c : Code} (hc : c ∈ L) (hb : c.bits ≤ nb L) (ht : top m (nb L) c.bits v = c.code) :
    (strs m f L).find? (fun x => x.1.isPrefixOf (codeBits m v (nb L))) =
      some (codeBits m c.code c.bits, f c.idx) := by
  have hit : ∀ c' ∈ L, (codeBits m c'.code c'.bits).isPrefixOf (codeBits m v (nb L)) = true ↔
      c'.bits ≤ nb L ∧ top m (nb L) c'.bits v = c'.code := by
    intro c' hc'
    rw [List.isPrefixOf_iff_prefix, prefix_iff (hwf c' hc').2.2.1 hv]
  unfold strs
  rw [List.find?_map]
  cases hf : L.find? ((fun x : List Bool × S => x.1.isPrefixOf (codeBits m v (nb L))) ∘
      fun c => (codeBits m c.code c.bits, f c.idx)) with
  | none =>
    rw [List.find?_eq_none] at hf
    exact absurd ((hit c hc).mpr ⟨hb, ht⟩) (hf c hc)
  | some c' =>
    have h1 := List.mem_of_find?_eq_some hf
    have h2 := List.find?_some hf
    obtain ⟨h3, h4⟩ := (hit c' h1).mp h2
    rw [hit_unique hpf h1 hc h3 hb h4 ht]
    rfl

theorem strs_find_none {m : Mode} {f : Nat → S} {L : List Code} (hwf : CWF (maxLen m) L) {v : Nat} (hv : v < 2 ^ nb L)
    (hno : ∀ c ∈ L, c.bits ≤ nb L → top m (nb L) c.bits v ≠ c.code) :
    (strs m f L).find? (fun x => x.1.isPrefixOf (codeBits m v (nb L))) = none := by
  rw [List.find?_eq_none]
  intro x hx
  obtain ⟨c, hc, rfl⟩ := List.mem_map.mp hx
  simp only [List.isPrefixOf_iff_prefix, prefix_iff (hwf c hc).2.2.1 hv]
  exact fun h => hno c hc h.1 h.2

theorem codeBits_other (c n : Nat) : codeBits .lsb c n = (codeBits .msb c n).reverse := by
  apply List.ext_getElem
  · simp [codeBits_length]
  intro j h1 h2
  simp only [codeBits_length] at h1
  simp only [codeBits, List.getElem_map, List.getElem_range, List.getElem_reverse, List.length_map, List.length_range]
  congr 1; omega

/-- The view is what the peeked number says, read in the order of the codebook. -/
theorem window_code (m : Mode) (e : Endian) (buf : List U8) (c : Cur) (w : Nat) :
    window m e buf c w =
      codeBits m (valueAt e (buf.take (c.prepare buf.length (.peek32 w)).lim) c.src w) w := by
  unfold window
  cases m <;> cases e <;> simp only [endianOf, if_true, reduceCtorEq, if_false]
  · have := streamBits_eq .lsb (buf.take (c.prepare buf.length (.peek32 w)).lim) c.src w
    simp only [endianOf] at this
    rw [this, codeBits_other, List.reverse_reverse]
  · exact streamBits_eq .msb ..
  · exact streamBits_eq .lsb ..
  · have := streamBits_eq .msb (buf.take (c.prepare buf.length (.peek32 w)).lim) c.src w
    simp only [endianOf] at this
    rw [this, codeBits_other]

/-- What the loop returns is what the specification returns. -/
def Agrees (e : Endian) (f : Nat → S) (L : List Code) (r : Reader)
    (a : Rust (Except CodebookError Nat × Reader)) (b : Rust (Except CodebookError S × Cur)) : Prop :=
  match b with
  | .error p => a = .error p
  | .ok (x, c) => ∃ x' r', a = .ok (x', r') ∧ x'.map f = x ∧ (∀ i, x' = .ok i → ∃ c ∈ L, c.idx = i) ∧
      r'.buffer = r.buffer ∧ Follows e r' c

theorem peek_follows {e r c} (h : Follows e r c) {n : Nat} (hn : n ≤ 10) :
    ∃ v, peek_bits_32 e r n = .ok (v, r) ∧
      v.toNat = valueAt e (r.buffer.take (c.prepare r.buffer.length (.peek32 n)).lim) c.src n := by
  obtain ⟨v, r', a1, a2, a3, a4⟩ := get32_follows h (n := n) (by omega)
  exact ⟨v, by simp [peek_bits_32, a1], a4⟩

theorem readLoop_decode {e : Endian} {m : Mode} {T : List Nat} {F : Nat → Prop} (f : Nat → S) (fuel : Nat)
    {d off : Nat} (hd : d ≤ fuel) {L : List Code} (hpf : PF m L) (hwf : CWF (maxLen m) L) (h : NodeOK m d T F off L)
    (r : Reader) (c : Cur) (hr : Follows e r c) :
    Agrees e f L r (readLoop e T fuel off (nb L) r) (decode m e r.buffer d (strs m f L) c) := by
  induction d generalizing fuel off L r c with
  | zero => exact absurd h id
  | succ d ih =>
    obtain ⟨fuel, rfl⟩ : ∃ k, fuel = k + 1 := ⟨fuel - 1, by omega⟩
    obtain ⟨v, hpk, hval⟩ := peek_follows hr (nb_le L)
    obtain ⟨_, hv⟩ := peek32_lt (nb_le L) hpk
    have hw : window m e r.buffer c (strs m f L).width = codeBits m v.toNat (nb L) := by
      rw [strs_width, window_code, hval]
    unfold readLoop decode
    rw [hw, hpk]
    simp only [ok_bind, hr.avail]
    rw [Nat.add_comm v.toNat off]
    obtain ⟨_, hcase⟩ := h v.toNat hv
    rcases hcase with ⟨a, h1, h2, h3, h4⟩ | ⟨hno, hcase⟩
    · rw [idx_some h4, strs_find hpf hwf hv h1 h2 h3]
      obtain ⟨x1, x2, x3, x4⟩ := leafVal_dec (hwf a h1).2.2.2 (show a.bits ≤ 10 by have := nb_le L; omega)
      simp only [ok_bind, x1, x2, x3, x4, if_false, Bool.false_eq_true, codeBits_length]
      cases c.avail r.buffer.length with
      | error p => rfl
      | ok n =>
        simp only [ok_bind]
        by_cases hle : a.bits ≤ n % 2 ^ 32
        · rw [if_pos hle, if_neg (by omega)]
          obtain ⟨r', s1, s2, s3⟩ := skip_follows hr a.bits
          rw [s1]
          exact ⟨_, _, rfl, rfl, fun i hi => ⟨a, h1, by cases hi; rfl⟩, s2, s3⟩
        · rw [if_neg hle, if_pos (by omega)]
          exact ⟨_, _, rfl, rfl, (fun i hi => nomatch hi), rfl, hr⟩
    · rw [strs_find_none hwf hv hno, strs_behind hwf hv hno]
      simp only
      rcases hcase with ⟨h1, h2⟩ | ⟨hne, o, h2, h3, h4⟩
      · rw [idx_some h2, h1]
        simp only [ok_bind, if_true]
        exact ⟨_, _, rfl, rfl, (fun i hi => nomatch hi), rfl, hr⟩
      · rw [idx_some h3]
        obtain ⟨x1, x2, x3, x4⟩ := escVal_dec h2 (nb_le (sub m L v.toNat))
        have he : (strs m f (sub m L v.toNat)).isEmpty = false := by
          cases hs : sub m L v.toNat with
          | nil => exact absurd hs hne
          | cons _ _ => rfl
        simp only [ok_bind, x1, x2, x3, x4, if_false, if_true, he, Bool.false_eq_true, strs_width]
        cases c.avail r.buffer.length with
        | error p => rfl
        | ok n =>
          simp only [ok_bind]
          by_cases hle : nb (sub m L v.toNat) ≤ n % 2 ^ 32
          · rw [if_pos hle, if_neg (by omega)]
            obtain ⟨r', s1, s2, s3⟩ := skip_follows hr (nb L)
            rw [s1]
            simp only [ok_bind]
            have hw : CWF (maxLen m) (sub m L v.toNat) := by
              intro c hc
              have := hwf.sub (m := m) v.toNat c hc
              exact ⟨this.1, by omega, this.2.2⟩
            have := ih fuel (by omega) (hpf.sub v.toNat) hw h4 r' _ s3
            rw [s2] at this
            unfold Agrees at this ⊢
            split
            · rename_i p hp
              rw [hp] at this
              exact this
            · rename_i x c' hx
              rw [hx] at this
              simp only at this
              obtain ⟨x', r2, a1, a2, a3, a4, a5⟩ := this
              refine ⟨x', r2, a1, a2, fun i hi => ?_, a4.trans s2, a5⟩
              obtain ⟨b, hb, hbi⟩ := a3 i hi
              obtain ⟨b', hb', _, _, rfl⟩ := mem_sub.mp hb
              exact ⟨b', hb', hbi⟩
          · rw [if_neg hle, if_pos (by omega)]
            exact ⟨_, _, rfl, rfl, (fun i hi => nomatch hi), rfl, hr⟩

theorem strs_bookOf {m : Mode} {ds : List (Desc S)} {k : Nat} {f : Nat → S}
    (hf : ∀ j d, (used ds)[j]? = some d → f (k + j) = d.sym) : strs m f (codesFrom k ds) = bookOf m ds := by
  unfold strs bookOf
  induction ds generalizing k with
  | nil => rfl
  | cons d ds ih =>
    by_cases h0 : d.bits = 0
    · have hu : used (d :: ds) = used ds := by simp [used, h0]
      rw [hu] at hf ⊢
      simp only [codesFrom, h0, if_true]
      exact ih hf
    · have hu : used (d :: ds) = d :: used ds := by simp [used, show 0 < d.bits by omega]
      rw [hu] at hf ⊢
      simp only [codesFrom, h0, if_false, List.map_cons]
      rw [ih (k := k + 1) (fun j e he => by rw [← hf (j + 1) e (by simpa using he)]; congr 1; omega)]
      rw [show f k = d.sym from hf 0 d rfl]

/-! ### the statements -/

/-- `read_cb` in every state of the reader that a history of calls can lead to, for every codebook with codewords
that decode: what it returns and where it leaves the reader, or that it panics because the reader is behind the end
of the buffer. -/
theorem c17_exact_partial {ord : Order} {m : Mode} {ds : List (Desc S)} {cb : Codebook S} (hord : ord.Valid)
    (hwf : WF m ds) (hpf : PrefixFree m ds) (hfit : Fits m ds) (hne : used ds ≠ [])
    (hcb : new ord m ds = .ok (.ok cb)) {fuel : Nat} (hfu : 26 ≤ fuel) (e : Endian) (r : Reader) (c : Cur)
    (hr : Follows e r c) :
    match decode m e r.buffer 26 (bookOf m ds) c with
    | .error p => readCb e fuel cb r = .error p
    | .ok (x, c') => ∃ r', readCb e fuel cb r = .ok (x, r') ∧ r'.buffer = r.buffer ∧ Follows e r' c' := by
  obtain ⟨T, h1, h2⟩ := new_ok hord hwf hpf hfit hne
  rw [hcb] at h1
  simp only [Except.ok.injEq] at h1
  subst h1
  obtain ⟨d0, hd0⟩ := List.exists_mem_of_ne_nil _ hne
  let f : Nat → S := fun i => (((used ds)[i]?).map (·.sym)).getD d0.sym
  have hf : ∀ j d, (used ds)[j]? = some d → f (0 + j) = d.sym := by
    intro j d hd
    simp only [f, Nat.zero_add, hd, Option.map_some, Option.getD_some]
  have key := readLoop_decode f fuel hfu (codesFrom_PF hwf hpf) (codesFrom_CWF hwf hfit.2) h2 r c hr
  rw [strs_bookOf hf] at key
  unfold Agrees at key
  unfold readCb
  split
  · rename_i p hp
    rw [hp] at key
    simp only at key
    simp only [key, error_bind]
  · rename_i x c' hx
    rw [hx] at key
    simp only at key
    obtain ⟨x', r', a1, a2, a3, a4, a5⟩ := key
    refine ⟨r', ?_, a4, a5⟩
    simp only [a1, ok_bind]
    cases x' with
    | error err => rw [← a2]; rfl
    | ok i =>
      obtain ⟨b, hb, hbi⟩ := a3 i rfl
      obtain ⟨_, d, hd, _⟩ := mem_codesFrom hb
      rw [hbi, Nat.sub_zero] at hd
      have hs : ((used ds).map (·.sym))[i]? = some d.sym := by simp [hd]
      have hfi := hf i d hd
      rw [Nat.zero_add] at hfi
      simp only [idx_some hs, ok_bind, pure_eq_ok, ← a2, Except.map, hfi]

example : WF .msb book ∧ PrefixFree .msb book ∧ Fits .msb book ∧ used book ≠ [] ∧
    ((bookOf .msb book).map fun x => (x.1.length, x.2)) = [(1, 100), (2, 101), (3, 102), (12, 103), (12, 104)] := by
  decide

/-- Eight bytes `ff`, of which one is left. The view is `1111111100`, which no codeword of `book` begins like. A book
with `111111110011` finds it there: passing over ten bits of the eight leaves four of them, and the first two of these
are taken for the end of the codeword. Behind the end, looking up a codeword panics. -/
example : decode .msb .be (List.replicate 8 0xff) 26 (bookOf .msb book) ⟨8, 8, 56⟩ =
      .ok (.error .invalidCode, ⟨8, 8, 56⟩) ∧
    decode .msb .be (List.replicate 8 0xff) 26 (bookOf .msb [⟨0b111111110011, 12, 1⟩]) ⟨8, 8, 56⟩ =
      .ok (.ok 1, ⟨8, 8, 62⟩) ∧
    decode .msb .be (List.replicate 8 0) 26 (bookOf .msb book) ⟨9, 8, 64⟩ = .error .overflow := by decide

/-! ### C103: mixed histories -/

/-- A codebook with the description it was made from. -/
structure Made (S : Type) where
  mode : Mode
  ds : List (Desc S)
  cb : Codebook S

/-- It was made, with some hash map order, from codewords that decode. -/
def Made.Sound (b : Made S) : Prop :=
  WF b.mode b.ds ∧ PrefixFree b.mode b.ds ∧ Fits b.mode b.ds ∧ used b.ds ≠ [] ∧
    ∃ ord : Order, ord.Valid ∧ new ord b.mode b.ds = .ok (.ok b.cb)

/-- A call of a bit reader, or of `read_cb` with some codebook. -/
inductive Call (S : Type)
  | bits (op : Op)
  | code (b : Made S)

def Call.Allowed : Call S → Prop
  | .bits op => widthOk op
  | .code b => b.Sound

/-- What a call returns. -/
abbrev Answer (S : Type) := Option Nat ⊕ Except CodebookError S

/-- The calls one after the other, on one reader. -/
def runCalls (e : Endian) (fuel : Nat) : Reader → List (Call S) → Rust (List (Answer S) × Reader)
  | r, [] => .ok ([], r)
  | r, .bits op :: cs => do
    let (v, r) ← step e r op
    let (vs, r) ← runCalls e fuel r cs
    return (.inl v :: vs, r)
  | r, .code b :: cs => do
    let (x, r) ← readCb e fuel b.cb r
    let (vs, r) ← runCalls e fuel r cs
    return (.inr x :: vs, r)

/-- What they should return: bits and codewords at the cursor. -/
def specCalls (e : Endian) (buf : List U8) : Cur → List (Call S) → Rust (List (Answer S) × Cur)
  | c, [] => .ok ([], c)
  | c, .bits op :: cs => do
    let (vs, d) ← specCalls e buf (c.next buf.length op) cs
    return (.inl (c.value e buf op) :: vs, d)
  | c, .code b :: cs => do
    let (x, c) ← decode b.mode e buf 26 (bookOf b.mode b.ds) c
    let (vs, d) ← specCalls e buf c cs
    return (.inr x :: vs, d)

theorem runCalls_follows {e : Endian} {fuel : Nat} (hfu : 26 ≤ fuel) (cs : List (Call S))
    (hcs : ∀ x ∈ cs, x.Allowed) (r : Reader) (c : Cur) (hr : Follows e r c) :
    match specCalls e r.buffer c cs with
    | .error p => runCalls e fuel r cs = .error p
    | .ok (vs, d) => ∃ r', runCalls e fuel r cs = .ok (vs, r') ∧ r'.buffer = r.buffer ∧ Follows e r' d := by
  induction cs generalizing r c with
  | nil => exact ⟨r, rfl, rfl, hr⟩
  | cons x cs ih =>
    have hx := hcs x (by simp)
    have hcs' : ∀ x ∈ cs, x.Allowed := fun y hy => hcs y (by simp [hy])
    cases x with
    | bits op =>
      obtain ⟨r1, a1, a2, a3⟩ := step_follows hr op hx
      have key := ih hcs' r1 _ a3
      rw [a2] at key
      simp only [specCalls, runCalls, a1, ok_bind]
      cases hs : specCalls e r.buffer (c.next r.buffer.length op) cs with
      | error p => rw [hs] at key; simp only at key; simp only [key, error_bind]
      | ok y =>
        obtain ⟨vs, d⟩ := y
        rw [hs] at key
        simp only at key
        obtain ⟨r', b1, b2, b3⟩ := key
        exact ⟨r', by simp only [b1, ok_bind, pure_eq_ok], b2, b3⟩
    | code b =>
      obtain ⟨h1, h2, h3, h4, ord, h5, h6⟩ := hx
      have one := c17_exact_partial h5 h1 h2 h3 h4 h6 hfu e r c hr
      simp only [specCalls, runCalls]
      cases hd : decode b.mode e r.buffer 26 (bookOf b.mode b.ds) c with
      | error p => rw [hd] at one; simp only at one; simp only [one, error_bind]
      | ok y =>
        obtain ⟨x, c1⟩ := y
        rw [hd] at one
        simp only at one
        obtain ⟨r1, a1, a2, a3⟩ := one
        have key := ih hcs' r1 c1 a3
        rw [a2] at key
        simp only [a1, ok_bind]
        cases hs : specCalls e r.buffer c1 cs with
        | error p => rw [hs] at key; simp only at key; simp only [key, error_bind]
        | ok y =>
          obtain ⟨vs, d⟩ := y
          rw [hs] at key
          simp only at key
          obtain ⟨r', b1, b2, b3⟩ := key
          exact ⟨r', by simp only [b1, ok_bind, pure_eq_ok], b2, b3⟩

/-- **C103** On every buffer, every history of bit reads, peeks, skips, alignments and codebook reads, with any number
of codebooks of either mode on either reader, returns what the cursor says and ends where the cursor ends; and it
panics exactly when the cursor says so, namely when a codeword is looked up behind the end of the buffer. -/
theorem c103_histories (e : Endian) (buf : List U8) {fuel : Nat} (hfu : 26 ≤ fuel) (cs : List (Call S))
    (hcs : ∀ x ∈ cs, x.Allowed) :
    ∃ r0, BitRead.new e buf = .ok r0 ∧
      match specCalls e buf (.start buf.length) cs with
      | .error p => runCalls e fuel r0 cs = .error p
      | .ok (vs, d) => ∃ r, runCalls e fuel r0 cs = .ok (vs, r) ∧ consumed r = .ok (8 * d.idx - d.left) ∧
          available r = d.avail buf.length := by
  obtain ⟨r0, h1, h2, h3⟩ := new_follows e buf
  have key := runCalls_follows hfu cs hcs r0 _ h3
  rw [h2] at key
  refine ⟨r0, h1, ?_⟩
  split
  · rename_i p hp
    rw [hp] at key
    exact key
  · rename_i vs d hs
    rw [hs] at key
    obtain ⟨r, a1, a2, a3⟩ := key
    exact ⟨r, a1, a3.consumed, by rw [a3.avail, a2]⟩

example : (Call.bits (.get64 7) : Call Nat).Allowed ∧ ∃ cb, (Call.code ⟨.msb, book, cb⟩).Allowed ∧
    (Call.code ⟨.msb, book, cb⟩ : Call Nat) ≠ .bits .align := by
  obtain ⟨T, h, _⟩ := new_ok insOrder_valid (m := .msb) (ds := book) (by decide) (by decide) (by decide) (by decide)
  exact ⟨show 7 ≤ 64 by decide, _, ⟨show WF .msb book by decide, show PrefixFree .msb book by decide,
    show Fits .msb book by decide, show used book ≠ [] by decide, insOrder, insOrder_valid, h⟩, nofun⟩

end Verif.Codebook

/-! ### C104: progress -/

namespace Verif.BitRead

/-- The position `consumed` reports. -/
def Cur.pos (c : Cur) : Nat := 8 * c.idx - c.left

/-- Nothing loaded is left and too few bytes remain for loading more. -/
def Cur.Dry (len : Nat) (c : Cur) : Prop := c.left = 0 ∧ len < c.idx + 8

/-- The loaded bytes end at the next one to load, unless there are too few for loading more. -/
def Cur.Ok (len : Nat) (c : Cur) : Prop :=
  c.lim ≤ c.idx ∧ c.src ≤ 8 * c.lim ∧ (c.idx + 8 ≤ len → c.lim = c.idx)

theorem Follows.ok {e r c} (h : Follows e r c) : c.Ok r.buffer.length := ⟨h.lim_idx, h.left.2.1, h.more⟩

theorem Cur.skip_ok {len n : Nat} {c : Cur} (h : c.Ok len) (hn : n ≤ 64) : (c.skip len n).Ok len := by
  obtain ⟨h1, h2, h3⟩ := h
  unfold Cur.skip Cur.Ok Cur.drop
  by_cases hl : n ≤ c.left
  · simp only [hl, if_true]
    exact ⟨h1, by omega, h3⟩
  · have hj : ¬ n - c.left > 64 := by omega
    simp only [hl, if_false, hj, Nat.add_zero]
    by_cases hc : c.idx + 8 ≤ len
    · simp only [hc, if_true]
      exact ⟨by omega, by omega, fun _ => trivial⟩
    · simp only [hc, if_false]
      exact ⟨h1, by omega, fun h => h.elim⟩

theorem Cur.skip_dry {len n : Nat} {c : Cur} (h : c.Ok len) (hd : c.Dry len) (hn : n ≤ 64) : c.skip len n = c := by
  obtain ⟨h1, h2, h3⟩ := h
  obtain ⟨d1, d2⟩ := hd
  have hs : c.src = 8 * c.lim := by unfold Cur.left at d1; omega
  unfold Cur.skip Cur.drop
  by_cases hl : n ≤ c.left
  · simp only [hl, if_true, hs]
    rw [Nat.min_eq_right (by omega), ← hs]
  · have hj : ¬ n - c.left > 64 := by omega
    have hc : ¬ c.idx + 8 ≤ len := by omega
    simp only [hl, if_false, hj, Nat.add_zero, hc, hs]
    rw [Nat.min_eq_right (by omega), ← hs]

theorem Cur.skip_pos {len n : Nat} {c : Cur} (h : c.Ok len) (hn : n ≤ 64) :
    c.pos ≤ (c.skip len n).pos ∧ (0 < n → ¬ c.Dry len → c.pos < (c.skip len n).pos) := by
  obtain ⟨h1, h2, h3⟩ := h
  unfold Cur.skip Cur.Dry Cur.pos Cur.drop
  by_cases hl : n ≤ c.left
  · simp only [hl, if_true]
    unfold Cur.left at *
    simp only at *
    omega
  · have hj : ¬ n - c.left > 64 := by omega
    simp only [hl, if_false, hj, Nat.add_zero]
    by_cases hc : c.idx + 8 ≤ len
    · simp only [hc, if_true]
      unfold Cur.left at *
      simp only at *
      omega
    · simp only [hc, if_false]
      unfold Cur.left at *
      simp only at *
      omega

end Verif.BitRead

namespace Verif.Codebook
open Verif Verif.BitRead

theorem Book.width_le (B : Book S) : B.width ≤ 10 := by unfold Book.width; omega

theorem window_length (m : Mode) (e : Endian) (buf : List U8) (c : Cur) (w : Nat) :
    (window m e buf c w).length = w := by rw [window_code, codeBits_length]

/-- Where decoding ends. -/
theorem decode_pos {m : Mode} {e : Endian} {buf : List U8} (k : Nat) {B : Book S} {c c' : Cur}
    {x : Except CodebookError S} (hc : c.Ok buf.length) (h : decode m e buf k B c = .ok (x, c')) :
    c'.Ok buf.length ∧ c.pos ≤ c'.pos ∧ (c.Dry buf.length → c' = c) ∧
      (∀ s, x = .ok s → (∀ y ∈ B, y.1 ≠ []) → ¬ c.Dry buf.length → c.pos < c'.pos) := by
  induction k generalizing B c with
  | zero => cases h; exact ⟨hc, Nat.le_refl _, fun _ => rfl, fun s h => nomatch h⟩
  | succ k ih =>
    unfold decode at h
    split at h
    · rename_i s y hf
      have hp := List.find?_some hf
      simp only at hp
      have hl := (List.isPrefixOf_iff_prefix.mp hp).length_le
      rw [window_length] at hl
      have hw := B.width_le
      cases ha : c.avail buf.length with
      | error p => rw [ha] at h; cases h
      | ok a =>
        rw [ha] at h
        simp only [ok_bind] at h
        split at h
        · cases h
          obtain ⟨p1, p2⟩ := Cur.skip_pos (n := s.length) hc (by omega)
          refine ⟨Cur.skip_ok hc (by omega), p1, fun hd => Cur.skip_dry hc hd (by omega), fun _ _ hB hd => ?_⟩
          exact p2 (List.length_pos_iff.mpr (hB _ (List.mem_of_find?_eq_some hf))) hd
        · cases h
          exact ⟨hc, Nat.le_refl _, fun _ => rfl, fun s h => nomatch h⟩
    · rename_i hf
      split at h
      · cases h; exact ⟨hc, Nat.le_refl _, fun _ => rfl, fun s h => nomatch h⟩
      · cases ha : c.avail buf.length with
        | error p => rw [ha] at h; cases h
        | ok a =>
          rw [ha] at h
          simp only [ok_bind] at h
          split at h
          · have hw := B.width_le
            obtain ⟨p1, p2⟩ := Cur.skip_pos (n := B.width) hc (by omega)
            obtain ⟨i1, i2, i3, i4⟩ := ih (Cur.skip_ok hc (by omega)) h
            refine ⟨i1, by omega, fun hd => ?_, fun s hs hB hd => ?_⟩
            · rw [Cur.skip_dry hc hd (by omega)] at i3
              exact i3 hd
            · have h0 : 0 < B.width := by
                rcases Nat.eq_zero_or_pos B.width with h0 | h0
                · exfalso
                  rename_i hne _
                  cases hB' : B with
                  | nil => rw [hB'] at hne; exact hne rfl
                  | cons y B' =>
                    have h1 := hB y (by rw [hB']; simp)
                    have h2 : y.1.length ≤ B.width := by
                      unfold Book.width at h0 ⊢
                      rw [hB'] at h0 ⊢
                      have key : ∀ (l : List Nat) a, a ≤ l.foldl max a := by
                        intro l
                        induction l with
                        | nil => intro a; exact Nat.le_refl _
                        | cons b l ih => intro a; exact Nat.le_trans (Nat.le_max_left a b) (ih _)
                      have := key (B'.map fun x => x.1.length) (max 0 y.1.length)
                      simp only [List.map_cons, List.foldl_cons] at h0 ⊢
                      omega
                    have := List.length_pos_iff.mpr h1
                    omega
                · exact h0
              exact Nat.lt_of_lt_of_le (p2 h0 hd) i2
          · cases h
            exact ⟨hc, Nat.le_refl _, fun _ => rfl, fun s h => nomatch h⟩

/-- A state that calls of both kinds lead to. -/
def Visited (S : Type) (e : Endian) (buf : List U8) (r : Reader) : Prop :=
  ∃ (r0 : Reader) (fuel : Nat) (cs : List (Call S)) (vs : List (Answer S)), BitRead.new e buf = .ok r0 ∧ 26 ≤ fuel ∧
    (∀ x ∈ cs, x.Allowed) ∧ runCalls e fuel r0 cs = .ok (vs, r)

theorem Visited.follows {e : Endian} {buf : List U8} {r : Reader} (h : Visited S e buf r) :
    ∃ c, Follows e r c ∧ r.buffer = buf := by
  obtain ⟨r0, fuel, cs, vs, h1, h2, h3, h4⟩ := h
  obtain ⟨r0', a1, a2, a3⟩ := new_follows e buf
  rw [h1] at a1
  cases a1
  have key := runCalls_follows h2 cs h3 r0 _ a3
  split at key
  · rw [key] at h4; cases h4
  · obtain ⟨r', b1, b2, b3⟩ := key
    rw [h4] at b1
    cases b1
    exact ⟨_, b3, b2.trans a2⟩

/-- The reader has nothing loaded left, and fewer than eight bytes to load. -/
def RunDry (r : Reader) : Prop := r.left = 0 ∧ r.buffer.length < r.index + 8

/-- **C104** (partial) In every state that a history of bit reads and codebook reads leads to: if the reader has run dry, `read_cb` moves
nothing at all, whatever it returns; otherwise every symbol it returns has moved it forward, and nothing moves it
backward. Missing, and false: progress when the reader has run dry (`c104_fails`). -/
theorem c104_progress_partial {ord : Order} {m : Mode} {ds : List (Desc S)} {cb : Codebook S} (hord : ord.Valid)
    (hwf : WF m ds) (hpf : PrefixFree m ds) (hfit : Fits m ds) (hne : used ds ≠ [])
    (hcb : new ord m ds = .ok (.ok cb)) {fuel : Nat} (hfu : 26 ≤ fuel) (e : Endian) (buf : List U8) (r r' : Reader)
    (hr : Visited S e buf r) (x : Except CodebookError S) (h : readCb e fuel cb r = .ok (x, r')) :
    ∃ p p', consumed r = .ok p ∧ consumed r' = .ok p' ∧ p ≤ p' ∧ (RunDry r → p' = p) ∧
      (¬ RunDry r → ∀ s, x = .ok s → p < p') := by
  obtain ⟨c, hc, hb⟩ := hr.follows
  have key := c17_exact_partial hord hwf hpf hfit hne hcb hfu e r c hc
  have hdry : RunDry r ↔ c.Dry r.buffer.length := by
    unfold RunDry Cur.Dry
    rw [hc.left.1, hc.idx]
  split at key
  · rw [key] at h; cases h
  · rename_i y c' hd
    obtain ⟨r2, a1, a2, a3⟩ := key
    rw [h] at a1
    simp only [Except.ok.injEq, Prod.mk.injEq] at a1
    obtain ⟨rfl, rfl⟩ := a1
    obtain ⟨i1, i2, i3, i4⟩ := decode_pos 26 hc.ok hd
    refine ⟨_, _, hc.consumed, a3.consumed, i2, fun h => by rw [i3 (hdry.mp h)], fun h s hs => ?_⟩
    refine i4 s hs ?_ (fun h' => h (hdry.mpr h'))
    intro y hy h0
    obtain ⟨d, hd, rfl⟩ := List.mem_map.mp hy
    have : d.bits > 0 := by simpa [used] using (List.mem_filter.mp hd).2
    have hl : (codeBits m d.code d.bits).length = 0 := by
      simp only at h0
      rw [h0]; rfl
    rw [codeBits_length] at hl
    omega

/-- A codeword and then seven bits: the history is one of C103, and the reader not dry. -/
example : ∃ r, Visited Nat .be (List.replicate 16 0) r ∧ ¬ RunDry r := by
  obtain ⟨r0, h1, h2, h3⟩ := new_follows .be (List.replicate 16 0)
  obtain ⟨T, h, _⟩ := new_ok insOrder_valid (m := .msb) (ds := book) (by decide) (by decide) (by decide) (by decide)
  have hall : ∀ x ∈ [Call.code ⟨.msb, book, ⟨T, (used book).map (·.sym), nb (codesFrom 0 book)⟩⟩, .bits (.get64 7)],
      x.Allowed := by
    intro x hx
    simp only [List.mem_cons, List.not_mem_nil, or_false] at hx
    rcases hx with rfl | rfl
    · exact ⟨show WF .msb book by decide, show PrefixFree .msb book by decide, show Fits .msb book by decide,
        show used book ≠ [] by decide, insOrder, insOrder_valid, h⟩
    · exact show 7 ≤ 64 by decide
  have key := runCalls_follows (Nat.le_refl 26) _ hall r0 _ h3
  rw [h2] at key
  have hs : specCalls .be (List.replicate 16 0) (.start 16)
      [Call.code ⟨.msb, book, ⟨T, (used book).map (·.sym), nb (codesFrom 0 book)⟩⟩, .bits (.get64 7)] =
      .ok ([.inr (.ok 100), .inl (some 0)], ⟨8, 8, 8⟩) := by
    have hd : decode .msb .be (List.replicate 16 0) 26 (bookOf .msb book) (.start 16) = .ok (.ok 100, ⟨8, 8, 1⟩) := by
      decide +kernel
    have hv : (⟨8, 8, 1⟩ : Cur).value .be (List.replicate 16 0) (.get64 7) = some 0 ∧
      (⟨8, 8, 1⟩ : Cur).next 16 (.get64 7) = ⟨8, 8, 8⟩ := by decide +kernel
    simp only [specCalls, hd, ok_bind, List.length_replicate, hv.1, hv.2, pure_eq_ok]
  rw [show (List.replicate 16 (0 : U8)).length = 16 from rfl, hs] at key
  obtain ⟨r, a1, a2, a3⟩ := key
  refine ⟨r, ⟨r0, 26, _, _, h1, Nat.le_refl _, hall, a1⟩, fun hd => ?_⟩
  have := a3.left.1
  rw [hd.1] at this
  exact absurd this (by decide)

theorem PrefixFree.eq {m : Mode} {ds : List (Desc S)} (h : PrefixFree m ds) {a b : Desc S} (ha : a ∈ used ds)
    (hb : b ∈ used ds) (hp : codeBits m a.code a.bits <+: codeBits m b.code b.bits ∨
      codeBits m b.code b.bits <+: codeBits m a.code a.bits) : a = b := by
  unfold PrefixFree at h
  generalize used ds = L at *
  induction L with
  | nil => cases ha
  | cons c L ih =>
    rw [List.pairwise_cons] at h
    rcases List.mem_cons.mp ha with ha' | ha' <;> rcases List.mem_cons.mp hb with hb' | hb'
    · rw [ha', hb']
    · rw [ha'] at hp
      rcases hp with hp | hp
      · exact absurd hp (h.1 b hb').1
      · exact absurd hp (h.1 b hb').2
    · rw [hb'] at hp
      rcases hp with hp | hp
      · exact absurd hp (h.1 a ha').2
      · exact absurd hp (h.1 a ha').1
    · exact ih h.2 ha' hb'

theorem codeBits_zero (m : Mode) (n : Nat) : codeBits m 0 n = List.replicate n false := by
  apply List.ext_getElem
  · simp [codeBits_length]
  · intro j _ _
    simp [codeBits]

/-- A dry reader shows zeros. -/
theorem window_dry {m : Mode} {e : Endian} {buf : List U8} {c : Cur} (hd : c.Dry buf.length) (w : Nat) :
    window m e buf c w = List.replicate w false := by
  obtain ⟨d1, d2⟩ := hd
  rw [window_code, ← codeBits_zero]
  congr 1
  have hl : (c.prepare buf.length (.peek32 w)).lim = c.lim := by
    unfold Cur.prepare Cur.load
    simp only [show ¬ c.idx + 8 ≤ buf.length by omega, if_false, ite_self]
  rw [hl, valueAt_eq]
  apply Nat.eq_of_testBit_eq
  intro i
  rw [bitsVal_testBit, Nat.zero_testBit]
  have : ∀ j, bit e (buf.take c.lim) (c.src + j) = false := by
    intro j
    rw [bit_take]
    unfold lbit
    have : ¬ c.src + j < c.lim * 8 := by unfold Cur.left at d1; omega
    simp [this]
  simp [this]

/-- Decoding with a dry reader finds the codeword of zeros. -/
theorem decode_dry {m : Mode} {ds : List (Desc S)} (hpf : PrefixFree m ds) {d : Desc S} (hd : d ∈ used ds)
    (h0 : d.code = 0) (h10 : d.bits ≤ 10) {e : Endian} {buf : List U8} {c : Cur} (hc : c.Ok buf.length)
    (hdry : c.Dry buf.length) (ha : d.bits ≤ 8 * (buf.length - c.idx)) (k : Nat) :
    decode m e buf (k + 1) (bookOf m ds) c = .ok (.ok d.sym, c) := by
  have hidx : c.idx ≤ buf.length := by
    have : d.bits > 0 := by simpa [used] using (List.mem_filter.mp hd).2
    omega
  have hw : d.bits ≤ (bookOf m ds).width := by
    unfold Book.width bookOf
    rw [List.map_map]
    have key : ∀ (l : List (Desc S)) (a : Nat), (a ≤ (l.map ((fun x : List Bool × S => x.1.length) ∘
        fun d => (codeBits m d.code d.bits, d.sym))).foldl max a) ∧ ∀ y ∈ l, y.bits ≤
        (l.map ((fun x : List Bool × S => x.1.length) ∘ fun d => (codeBits m d.code d.bits, d.sym))).foldl max a := by
      intro l
      induction l with
      | nil => intro a; exact ⟨Nat.le_refl _, fun y hy => nomatch hy⟩
      | cons z l ih =>
        intro a
        obtain ⟨i1, i2⟩ := ih (max a z.bits)
        simp only [List.map_cons, List.foldl_cons, Function.comp, codeBits_length] at i1 i2 ⊢
        refine ⟨by omega, fun y hy => ?_⟩
        rcases List.mem_cons.mp hy with rfl | hy
        · omega
        · exact i2 y hy
    have := (key (used ds) 0).2 d hd
    omega
  have hz : ∀ n k, n ≤ k → List.replicate n false <+: List.replicate k false := by
    intro n k h
    exact ⟨List.replicate (k - n) false, by rw [List.replicate_append_replicate]; congr 1; omega⟩
  unfold decode
  rw [window_dry hdry]
  generalize (bookOf m ds).width = w at *
  have hfind : (bookOf m ds).find? (fun x => x.1.isPrefixOf (List.replicate w false)) =
      some (codeBits m d.code d.bits, d.sym) := by
    unfold bookOf
    rw [List.find?_map]
    cases hf : (used ds).find? ((fun x : List Bool × S => x.1.isPrefixOf (List.replicate w false)) ∘
        fun d => (codeBits m d.code d.bits, d.sym)) with
    | none =>
      rw [List.find?_eq_none] at hf
      refine absurd ?_ (hf d hd)
      simp only [Function.comp, h0, codeBits_zero, List.isPrefixOf_iff_prefix]
      exact hz _ _ hw
    | some y =>
      have h1 := List.mem_of_find?_eq_some hf
      have h2 := List.find?_some hf
      simp only [Function.comp] at h2
      rw [List.isPrefixOf_iff_prefix] at h2
      have hy : codeBits m y.code y.bits = List.replicate y.bits false := by
        rw [List.eq_replicate_iff]
        exact ⟨codeBits_length .., fun b hb => List.eq_of_mem_replicate (h2.subset hb)⟩
      have : y = d := hpf.eq h1 hd (by
        rw [hy, h0, codeBits_zero]
        rcases Nat.le_total y.bits d.bits with h | h
        · exact .inl (hz _ _ h)
        · exact .inr (hz _ _ h))
      rw [this]
      rfl
  rw [hfind]
  obtain ⟨d1, d2⟩ := hdry
  simp only [Cur.avail, hidx, if_true, ok_bind, codeBits_length]
  rw [d1, if_pos, Cur.skip_dry hc ⟨d1, d2⟩ (by omega)]
  rw [Nat.mod_eq_of_lt (by omega)]
  omega

/-- **C104** fails: with any book that has a codeword of zeros (up to ten bits), on any buffer whose length is not a
multiple of eight, after reading the whole words `read_cb` returns the symbol of that codeword again and again,
without end and without moving, whatever the bytes that are left. -/
theorem c104_fails {ord : Order} {m : Mode} {ds : List (Desc S)} {cb : Codebook S} (hord : ord.Valid)
    (hwf : WF m ds) (hpf : PrefixFree m ds) (hfit : Fits m ds) (hcb : new ord m ds = .ok (.ok cb)) {d : Desc S}
    (hd : d ∈ used ds) (h0 : d.code = 0) (h10 : d.bits ≤ 10) {fuel : Nat} (hfu : 26 ≤ fuel) (e : Endian)
    (buf : List U8) (hb : d.bits ≤ 8 * (buf.length % 8)) :
    ∃ r0 vs r, BitRead.new e buf = .ok r0 ∧ run e r0 (List.replicate (buf.length / 8) (.get64 64)) = .ok (vs, r) ∧
      consumed r = .ok (64 * (buf.length / 8)) ∧
      ∀ n, ∃ r', readMany e fuel cb n r = .ok (List.replicate n (.ok d.sym), r') ∧
        consumed r' = .ok (64 * (buf.length / 8)) := by
  obtain ⟨r0, h1, h2, h3⟩ := new_follows e buf
  have hok : ∀ op ∈ List.replicate (buf.length / 8) (Op.get64 64), widthOk op := by
    intro op h
    rw [List.eq_of_mem_replicate h]
    exact Nat.le_refl 64
  obtain ⟨r, a1, a2, a3⟩ := run_follows h3 _ hok
  rw [h2] at a1 a2 a3
  have hcur : (Cur.run e buf (Cur.start buf.length) (List.replicate (buf.length / 8) (.get64 64))).2 =
      ⟨8 * (buf.length / 8), 8 * (buf.length / 8), 64 * (buf.length / 8)⟩ := by
    generalize hk : buf.length / 8 = k
    have hlen : 8 * k ≤ buf.length := by omega
    cases k with
    | zero =>
      have : ¬ 8 ≤ buf.length := by omega
      simp [Cur.run, Cur.start, Cur.load, this]
    | succ k =>
      have hs : Cur.start buf.length = ⟨8, 8, 0⟩ := by
        simp [Cur.start, Cur.load, show 8 ≤ buf.length by omega]
      rw [hs]
      have hn : (⟨8, 8, 0⟩ : Cur).next buf.length (.get64 64) = ⟨8, 8, 64⟩ := by
        simp [Cur.next, Cur.prepare, Cur.left, Cur.drop]
      simp only [List.replicate_succ, Cur.run, hn]
      have := Cur.words e buf k 1 (by omega) (by omega)
      simp only [Nat.mul_one] at this
      rw [this]
      congr 1 <;> omega
  rw [hcur] at a3
  generalize hc : (⟨8 * (buf.length / 8), 8 * (buf.length / 8), 64 * (buf.length / 8)⟩ : Cur) = c at *
  have hdry : c.Dry buf.length := by
    rw [← hc]
    unfold Cur.Dry Cur.left
    simp only
    omega
  have hav : d.bits ≤ 8 * (buf.length - c.idx) := by rw [← hc]; simp only; omega
  have hpos : ∀ r', Follows e r' c → consumed r' = .ok (64 * (buf.length / 8)) := by
    intro r' h
    rw [h.consumed, hdry.1, ← hc]
    simp only [Except.ok.injEq]
    omega
  refine ⟨r0, _, r, h1, a1, hpos r a3, fun n => ?_⟩
  clear a1
  induction n generalizing r with
  | zero => exact ⟨r, rfl, hpos r a3⟩
  | succ n ih =>
    have one := c17_exact_partial hord hwf hpf hfit (List.ne_nil_of_mem hd) hcb hfu e r c a3
    rw [a2, decode_dry hpf hd h0 h10 (by have := a3.ok; rwa [a2] at this) hdry hav] at one
    obtain ⟨r1, b1, b2, b3⟩ := one
    obtain ⟨r2, i1, i2⟩ := ih r1 b2 b3
    exact ⟨r2, by simp only [readMany, b1, ok_bind, i1, pure_eq_ok, List.replicate_succ], i2⟩

example : (⟨0b0, 1, 100⟩ : Desc Nat) ∈ used book ∧ 1 ≤ 8 * ((List.replicate 9 (0xff : U8)).length % 8) ∧
    WF .msb book ∧ PrefixFree .msb book ∧ Fits .msb book := by decide

end Verif.Codebook
