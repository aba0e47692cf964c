import Verif.Codebook.Cells
import Verif.Codebook.Levels
import Verif.Codebook.Exact

/-!
# What a book with overlapping codes decodes to

Specification and lemmas for `Verif.Codebook.Orders` (C20 and C84), without any condition on how the codes
overlap.

A group of longer codes, with the same first 10 bits, has an entry in the first table. If a short code is written
to this entry before the group is met, the group gets no table of its own. Its offset stays 0, so that the codes,
without their first 10 bits, are written over the first table, after everything else, group by group in the
order of the hash map.
-/

namespace Verif.Codebook
open Verif Verif.BitRead

/-! ### Specification -/

/-- The words that go on after `g`, without it. -/
def after (g : List Bool) (B : Book S) : Book S :=
  (B.filter fun x => decide (g.length < x.1.length) && decide (g <+: x.1)).map fun x => (x.1.drop g.length, x.2)

/-- The word listed last among those `w` starts with. -/
def lastIn (B : Book S) (w : List Bool) : Option (List Bool × S) := B.reverse.find? fun x => decide (x.1 <+: w)

/-- Ten bits at a time for as long as some word goes on with them, then the word listed last. The result is the
symbol, if there is one, and the number of bits passed. -/
def descend : Nat → Book S → List Bool → Option S × Nat
  | 0, _, _ => (none, 0)
  | n + 1, B, data =>
    if (after (data.take 10) B).isEmpty then
      match lastIn B (data.take 10) with
      | some x => (some x.2, x.1.length)
      | none => (none, 0)
    else
      let r := descend n (after (data.take 10) B) (data.drop 10)
      (r.1, r.2 + 10)

/-- Some word of at most 10 bits that `g` starts with is listed before the first of the words that go on after
the 10 bits `g`. -/
def Spills (B : Book S) (g : List Bool) : Prop :=
  g.length = 10 ∧ (∃ x ∈ B, 10 < x.1.length ∧ g <+: x.1) ∧
    ∃ x ∈ B.takeWhile (fun x => !(decide (10 < x.1.length) && decide (g <+: x.1))), x.1 <+: g

/-- The 10 bits as an index below `2 ^ n`, written with `n` bits. -/
def low (m : Mode) (n : Nat) (w : List Bool) : Option (List Bool) :=
  match m with
  | .msb => if w.take (10 - n) = List.replicate (10 - n) false then some (w.drop (10 - n)) else none
  | .lsb => if w.drop n = List.replicate (10 - n) false then some (w.take n) else none

/-- What the words `R`, all that goes on after some 10 bits, make of the data where they are written over the
first table: nothing, or as if the 10 bits had been passed already. -/
def spilled (m : Mode) (R : Book S) (data : List Bool) : Option (Option S × Nat) :=
  match low m (min 10 ((R.map (·.1.length)).foldl max 0)) (data.take 10) with
  | none => none
  | some v =>
    if (after v R).isEmpty then (lastIn R v).map fun x => (some x.2, x.1.length)
    else
      let r := descend 25 (after v R) (data.drop 10)
      some (r.1, r.2 + 10)

/-- The decoding rule; `gs` are the groups that spill, in the order they are written. -/
def readBook (m : Mode) (B : Book S) (gs : List (List Bool)) (data : List Bool) : Option S × Nat :=
  match gs.reverse.findSome? fun g => spilled m (after g B) data with
  | some r => r
  | none =>
    match lastIn B (data.take 10) with
    | some x => (some x.2, x.1.length)
    | none => descend 26 B data

/-- All bits of the stream from position `p`. -/
def restBits (e : Endian) (buf : List U8) (p : Nat) : List Bool := streamBits e buf p (8 * buf.length - p)

instance (B : Book S) (g : List Bool) : Decidable (Spills B g) := by unfold Spills; infer_instance

/-! ### Words of codes -/

theorem findSome?_congr {f g : α → Option β} {l : List α} (h : ∀ x ∈ l, f x = g x) :
    l.findSome? f = l.findSome? g := by
  induction l with
  | nil => rfl
  | cons a l ih =>
    simp only [List.findSome?_cons, h a (List.mem_cons_self), ih fun x hx => h x (List.mem_cons_of_mem _ hx)]

def cbook (m : Mode) (L : List Code) : Book Nat := L.map fun c => (codeBits m c.code c.bits, c.idx)

theorem cbook_sub {m : Mode} {n : Nat} {L : List Code} (h : CB n L) {k : Nat} (hk : k < 2 ^ 10) :
    after (codeBits m k 10) (cbook m L) = cbook m (sub m L k) := by
  unfold cbook sub after
  rw [List.filter_map, List.map_map, List.map_map]
  have e : (L.filter ((fun x : List Bool × Nat => decide ((codeBits m k 10).length < x.1.length) &&
      decide (codeBits m k 10 <+: x.1)) ∘ fun c => (codeBits m c.code c.bits, c.idx))) =
      L.filter fun c => long c && decide (keyOf m c = k) := by
    apply List.filter_congr
    intro c hc
    simp only [Function.comp, codeBits_length, long, keyOf]
    by_cases h10 : 10 < c.bits
    · have := prefix_iff (m := m) hk (h c hc).2.2
      have e : (codeBits m k 10 <+: codeBits m c.code c.bits) ↔ top m c.bits 10 c.code = k := by
        rw [this]
        exact ⟨fun h => h.2, fun h => ⟨by omega, h⟩⟩
      by_cases hp : top m c.bits 10 c.code = k
      · have := e.mpr hp
        simp [*]
        omega
      · have := fun x => hp (e.mp x)
        simp [*]
    · simp [h10]
  rw [e]
  apply List.map_congr_left
  intro c hc
  have hl : 10 < c.bits := by
    have := (List.mem_filter.mp hc).2
    simp only [long, Bool.and_eq_true, decide_eq_true_eq] at this
    exact this.1
  simp only [Function.comp, tailOf, codeBits_length]
  rw [codeBits_rest (by omega)]

theorem cbook_nil {m : Mode} {L : List Code} : (cbook m L).isEmpty = true ↔ L = [] := by
  simp [cbook, List.isEmpty_iff]

theorem after_nil {B : Book S} {g : List Bool} (h : ∀ x ∈ B, x.1.length ≤ g.length) : after g B = [] := by
  unfold after
  rw [List.map_eq_nil_iff, List.filter_eq_nil_iff]
  intro x hx
  have := h x hx
  simp; omega

theorem width_cbook (m : Mode) (L : List Code) :
    min 10 (((cbook m L).map (·.1.length)).foldl max 0) = nb L := by
  have : ((cbook m L).map (·.1.length)).foldl max 0 = maxlen L := by
    unfold cbook maxlen
    rw [List.map_map, List.foldl_map]
    simp only [Function.comp, codeBits_length]
  rw [this, nb, Nat.min_comm]

/-- The entry found in a table of `w` bits is the word listed last. -/
theorem hit_lastIn {m : Mode} {n w i : Nat} {L : List Code} (h : CB n L) (hi : i < 2 ^ w) :
    lastIn (cbook m L) (codeBits m i w) =
      ((L.reverse.find? fun c => decide (c.bits ≤ w ∧ top m w c.bits i = c.code)).map
        fun c => (codeBits m c.code c.bits, c.idx)) := by
  unfold lastIn cbook
  rw [← List.map_reverse, List.find?_map]
  congr 1
  apply find?_congr
  intro c hc
  have := h c (List.mem_reverse.mp hc)
  simp only [Function.comp, prefix_iff this.2.2 hi]

theorem hitOf_find {m : Mode} {w i : Nat} {L : List Code} (hw : w ≤ 10)
    (hs : ∀ c ∈ L, c.bits ≤ 10 → c.bits ≤ w) :
    hitOf m w i (shorts L) = L.reverse.find? fun c => decide (c.bits ≤ w ∧ top m w c.bits i = c.code) := by
  unfold hitOf shorts
  rw [← List.filter_reverse, List.find?_filter]
  apply find?_congr
  intro c hc
  have := hs c (List.mem_reverse.mp hc)
  by_cases hb : c.bits ≤ 10
  · have := this hb
    simp [hb, this]
  · have : ¬ c.bits ≤ w := by omega
    simp [hb, this]

theorem lastIn_hit {m : Mode} {n i : Nat} {L : List Code} (h : CB n L) (hi : i < 2 ^ nb L) :
    lastIn (cbook m L) (codeBits m i (nb L)) =
      (hitOf m (nb L) i (shorts L)).map fun c => (codeBits m c.code c.bits, c.idx) := by
  rw [hit_lastIn h hi, hitOf_find (nb_le L) fun c hc hb => bits_le_nb hc hb]

/-- Only as many bits as the longest word has are looked at. -/
theorem lastIn_take {B : Book S} {w : List Bool} {n : Nat} (h : ∀ x ∈ B, x.1.length ≤ n) :
    lastIn B (w.take n) = lastIn B w := by
  unfold lastIn
  apply find?_congr
  intro x hx
  have := h x (List.mem_reverse.mp hx)
  rw [Bool.eq_iff_iff]
  simp only [decide_eq_true_eq, List.prefix_take_iff]
  exact ⟨fun h => h.1, fun h => ⟨h, this⟩⟩

/-! ### The bits of the stream -/

theorem restBits_take (m : Mode) (buf : List U8) {p n : Nat} (h : p + n ≤ 8 * buf.length) :
    (restBits (endianOf m) buf p).take n = codeBits m (valueAt (endianOf m) buf p n) n := by
  rw [← streamBits_eq]
  unfold restBits streamBits
  rw [← List.map_take, List.take_range, Nat.min_eq_left (by omega)]

theorem restBits_drop (e : Endian) (buf : List U8) (p n : Nat) :
    (restBits e buf p).drop n = restBits e buf (p + n) := by
  unfold restBits streamBits
  apply List.ext_getElem
  · simp; omega
  intro j h1 h2
  simp only [List.getElem_drop, List.getElem_map, List.getElem_range]
  congr 1; omega

theorem nb_room {L : List Code} {p N : Nat} (hne : L ≠ []) (hp : ∀ c ∈ L, p + c.bits + 64 ≤ N) :
    p + nb L + 64 ≤ N := by
  obtain ⟨c0, hc0⟩ := List.exists_mem_of_ne_nil _ hne
  have := hp c0 hc0
  have : maxlen L ≤ N - 64 - p := maxlen_le fun c hc => by have := hp c hc; omega
  unfold nb; omega

/-- What `peek_bits_32` at a table tells, in terms of the bits ahead. -/
theorem ahead {m : Mode} {L : List Code} {n : Nat} (hL : CB n L) (hne : L ≠ []) {r : Reader} {p : Nat}
    (hs : Synced (endianOf m) r p) (hp : ∀ c ∈ L, p + c.bits + 64 ≤ 8 * r.buffer.length) :
    ∃ v, peek_bits_32 (endianOf m) r (nb L) = .ok (v, r) ∧ v.toNat < 2 ^ nb L ∧
      lastIn (cbook m L) ((restBits (endianOf m) r.buffer p).take 10) =
        (hitOf m (nb L) v.toNat (shorts L)).map (fun c => (codeBits m c.code c.bits, c.idx)) ∧
      after ((restBits (endianOf m) r.buffer p).take 10) (cbook m L) = cbook m (sub m L v.toNat) ∧
      (nb L = 10 → (restBits (endianOf m) r.buffer p).take 10 = codeBits m v.toNat 10) := by
  obtain ⟨v, v1, v2, v3⟩ := peek_top hs (nb_le L)
  have hroom := nb_room hne hp
  have hnl := nb_le L
  have hv := v3 (nb L) (Nat.le_refl _) hroom
  rw [top_self v2] at hv
  have htake : (restBits (endianOf m) r.buffer p).take (nb L) = codeBits m v.toNat (nb L) := by
    rw [restBits_take m _ (by omega), hv]
  have hten : nb L = 10 → (restBits (endianOf m) r.buffer p).take 10 = codeBits m v.toNat 10 := by
    intro h
    rw [h] at htake
    exact htake
  refine ⟨v, v1, v2, ?_, ?_, hten⟩
  · rw [← lastIn_hit hL v2, ← htake]
    by_cases h10 : nb L = 10
    · rw [h10]
    · have hsh : ∀ x ∈ cbook m L, x.1.length ≤ nb L := by
        intro x hx
        obtain ⟨c, hc, rfl⟩ := List.mem_map.mp hx
        have := le_maxlen hc
        simp only [codeBits_length]
        unfold nb at *
        omega
      have e : (restBits (endianOf m) r.buffer p).take (nb L) =
          ((restBits (endianOf m) r.buffer p).take 10).take (nb L) := by
        rw [List.take_take, Nat.min_eq_left hnl]
      rw [e, lastIn_take hsh]
  · by_cases h10 : nb L = 10
    · rw [hten h10]
      exact cbook_sub hL (by rw [h10] at v2; exact v2)
    · have hsh : ∀ c ∈ L, c.bits ≤ 10 := by
        intro c hc
        have := le_maxlen hc
        unfold nb at *
        omega
      have hsub : sub m L v.toNat = [] := by
        apply Classical.byContradiction
        intro hn
        obtain ⟨c', hc'⟩ := List.exists_mem_of_ne_nil _ hn
        obtain ⟨c, q1, q2, _⟩ := mem_sub.mp hc'
        have := hsh c q1
        omega
      obtain ⟨c0, hc0⟩ := List.exists_mem_of_ne_nil _ hne
      have := hp c0 hc0
      rw [hsub, restBits_take m _ (show p + 10 ≤ 8 * r.buffer.length by omega), after_nil]
      · rfl
      · intro x hx
        obtain ⟨c, hc, rfl⟩ := List.mem_map.mp hx
        simp only [codeBits_length]
        exact hsh c hc

/-! ### Reading -/

def toRes : Option Nat → Except CodebookError Nat
  | none => .error .invalidCode
  | some i => .ok i

/-- `read_cb` below the first table. -/
theorem readLoop_descend {m : Mode} {T : List Nat} {F : Nat → Prop} (d : Nat) {fuel off : Nat}
    {L : List Code} (hfu : d ≤ fuel) (hwf : CWF (maxLen m) L) (hne : L ≠ []) (h : TrieOK m false d T F off L)
    {r : Reader} {p : Nat} (hs : Synced (endianOf m) r p)
    (hp : ∀ c ∈ L, p + c.bits + 64 ≤ 8 * r.buffer.length) (h32 : 8 * r.buffer.length < 2 ^ 32) :
    ∃ r', r'.buffer = r.buffer ∧
      readLoop (endianOf m) T fuel off (nb L) r =
        .ok (toRes (descend d (cbook m L) (restBits (endianOf m) r.buffer p)).1, r') ∧
      Synced (endianOf m) r' (p + (descend d (cbook m L) (restBits (endianOf m) r.buffer p)).2) := by
  induction d generalizing fuel off L r p with
  | zero => exact absurd h id
  | succ d ih =>
    obtain ⟨fuel, rfl⟩ : ∃ k, fuel = k + 1 := ⟨fuel - 1, by omega⟩
    obtain ⟨v, v1, v2, v3, v4, v5⟩ := ahead hwf.cb hne hs hp
    obtain ⟨_, hcase⟩ := h v.toNat v2
    have hav := hs.available
    unfold descend
    rcases hcase with ⟨c, h1, h2, h3⟩ | ⟨h1, h2, h3⟩ | ⟨h1, h2, o, h3, h4, h5⟩
    · have h2 := h2.resolve_left (by simp)
      rw [if_pos (by rw [v4, h2]; rfl), v3, h1]
      obtain ⟨k1, k2⟩ := List.mem_filter.mp (hitOf_some h1).1
      have hb : c.bits ≤ 10 := by simpa using k2
      obtain ⟨r', s1, s2, s3⟩ := skip_within hs (n := c.bits) (hp c k1)
      refine ⟨r', s2, readLoop_leaf v1 h3 (hwf c k1).2.2.2 hb hav (by have := hp c k1; omega) s1, ?_⟩
      simp only [Option.map_some, codeBits_length]
      exact s3
    · rw [if_pos (by rw [v4, h2]; rfl), v3, h1]
      exact ⟨r, rfl, readLoop_fill v1 h3, hs⟩
    · obtain ⟨hn, _, c0, c1, c2, c3⟩ := key_lt hwf h1
      have hp0 := hp c0 c1
      obtain ⟨r1, s1, s2, s3⟩ := skip_within hs (n := 10) (by omega)
      have hstep := readLoop_esc (fuel := fuel) v1 h4 h3 (nb_le _) hav
        (by have := nb_le (sub m L v.toNat); omega) (by rw [hn]; exact s1)
      have hw : CWF (maxLen m) (sub m L v.toNat) := by
        intro c hc
        have := hwf.sub (m := m) _ c hc
        exact ⟨this.1, by omega, this.2.2⟩
      obtain ⟨r', a1, a2, a3⟩ := ih (fuel := fuel) (by omega) hw h1 h5 s3
        (by
          intro c' hc'
          obtain ⟨c, b1, b2, b3, rfl⟩ := mem_sub.mp hc'
          rw [s2]
          have := hp c b1
          simp only [tailOf]; omega)
        (by rw [s2]; exact h32)
      rw [if_neg (by rw [v4, cbook_nil]; exact h1), v4]
      rw [s2] at a2 a3
      rw [restBits_drop]
      refine ⟨r', by rw [a1, s2], by rw [hstep]; exact a2, ?_⟩
      rw [show p + ((descend d (cbook m (sub m L v.toNat)) (restBits (endianOf m) r.buffer (p + 10))).2 + 10) =
        p + 10 + (descend d (cbook m (sub m L v.toNat)) (restBits (endianOf m) r.buffer (p + 10))).2 by omega]
      exact a3

/-- What an entry of the first table makes of the data. -/
def cellRead (m : Mode) (data : List Bool) : Cell → Option Nat × Nat
  | .empty => (none, 0)
  | .leaf c => (some c.idx, c.bits)
  | .node L =>
    let r := descend 25 (cbook m L) (data.drop 10)
    (r.1, r.2 + 10)

theorem low_codeBits (m : Mode) {i n : Nat} (hn : n ≤ 10) (hi : i < 2 ^ 10) :
    low m n (codeBits m i 10) = if i < 2 ^ n then some (codeBits m i n) else none := by
  have h1 : i < 2 ^ n ↔ ∀ j, n ≤ j → j < 10 → i.testBit j = false := by
    constructor
    · intro h j hj _
      exact Nat.testBit_lt_two_pow (Nat.lt_of_lt_of_le h (Nat.pow_le_pow_right (by omega) hj))
    · intro h
      apply Classical.byContradiction
      intro hge
      obtain ⟨j, hj1, hj2⟩ := Nat.exists_ge_and_testBit_of_ge_two_pow (show 2 ^ n ≤ i by omega)
      by_cases hj : j < 10
      · rw [h j hj1 hj] at hj2; cases hj2
      · rw [Nat.testBit_lt_two_pow (Nat.lt_of_lt_of_le hi (Nat.pow_le_pow_right (by omega) (by omega)))] at hj2
        cases hj2
  cases m
  · have e1 : (codeBits .msb i 10).take (10 - n) = List.replicate (10 - n) false ↔ i < 2 ^ n := by
      rw [h1, List.eq_replicate_iff]
      unfold codeBits
      rw [← List.map_take, List.take_range, Nat.min_eq_left (by omega)]
      simp only [List.length_map, List.length_range, true_and, List.mem_map, List.mem_range, forall_exists_index,
        and_imp, forall_apply_eq_imp_iff₂]
      constructor
      · intro h j h2 h3
        have := h (10 - 1 - j) (by omega)
        rwa [show 10 - 1 - (10 - 1 - j) = j by omega] at this
      · intro h j hj
        exact h _ (by omega) (by omega)
    have e2 : (codeBits .msb i 10).drop (10 - n) = codeBits .msb i n := by
      apply List.ext_getElem
      · simp [codeBits]; omega
      intro j h1 h2
      simp only [codeBits, List.getElem_drop, List.getElem_map, List.getElem_range]
      simp only [codeBits_length] at h2
      congr 1; omega
    simp only [low, e1, e2]
  · have e1 : (codeBits .lsb i 10).drop n = List.replicate (10 - n) false ↔ i < 2 ^ n := by
      rw [h1, List.eq_replicate_iff]
      simp only [List.length_drop, codeBits_length, true_and]
      constructor
      · intro h j h2 h3
        refine h _ (List.mem_iff_getElem.mpr ⟨j - n, by simp [codeBits_length]; omega, ?_⟩)
        simp only [codeBits, List.getElem_drop, List.getElem_map, List.getElem_range]
        congr 1; omega
      · intro h b hb
        obtain ⟨j, hj1, hj2⟩ := List.mem_iff_getElem.mp hb
        simp only [List.length_drop, codeBits_length] at hj1
        rw [← hj2]
        simp only [codeBits, List.getElem_drop, List.getElem_map, List.getElem_range]
        exact h _ (by omega) (by omega)
    have e2 : (codeBits .lsb i 10).take n = codeBits .lsb i n := by
      unfold codeBits
      rw [← List.map_take, List.take_range, Nat.min_eq_left (by omega)]
    simp only [low, e1, e2]

theorem spilled_speak {m : Mode} {L : List Code} {n i : Nat} (hL : CB n L) (hi : i < 2 ^ 10) {data : List Bool}
    (hd : data.take 10 = codeBits m i 10) :
    spilled m (cbook m L) data = (speak m L i).map (cellRead m data) := by
  unfold spilled speak
  rw [width_cbook, hd, low_codeBits m (nb_le L) hi]
  by_cases hlt : i < 2 ^ nb L
  · rw [if_pos hlt, if_pos hlt]
    have haf : after (codeBits m i (nb L)) (cbook m L) = cbook m (sub m L i) := by
      by_cases h10 : nb L = 10
      · rw [h10]
        exact cbook_sub hL hi
      · have hsh : ∀ c ∈ L, c.bits ≤ nb L := by
          intro c hc
          have := le_maxlen hc
          unfold nb at *
          omega
        have hsub : sub m L i = [] := by
          apply Classical.byContradiction
          intro hn
          obtain ⟨c', hc'⟩ := List.exists_mem_of_ne_nil _ hn
          obtain ⟨c, q1, q2, _⟩ := mem_sub.mp hc'
          have := hsh c q1
          have := nb_le L
          omega
        rw [hsub, after_nil]
        · rfl
        · intro x hx
          obtain ⟨c, hc, rfl⟩ := List.mem_map.mp hx
          simp only [codeBits_length]
          exact hsh c hc
    simp only [haf, cbook_nil, lastIn_hit hL hlt]
    by_cases hsub : sub m L i = []
    · rw [if_pos hsub, if_pos hsub]
      cases hitOf m (nb L) i (shorts L) with
      | none => rfl
      | some c => simp [cellRead, codeBits_length]
    · rw [if_neg hsub, if_neg hsub]
      rfl
  · rw [if_neg hlt, if_neg hlt]
    rfl

/-- What the reader needs to know of an entry. -/
def Good (m : Mode) (p N : Nat) : Cell → Prop
  | .empty => True
  | .leaf c => c.bits ≤ 10 ∧ c.idx < 2 ^ 24 ∧ p + c.bits + 64 ≤ N
  | .node L => CWF (maxLen m) L ∧ L ≠ [] ∧ p + 10 + 64 ≤ N ∧ ∀ c ∈ L, p + 10 + c.bits + 64 ≤ N

theorem topCell_good {m : Mode} {L : List Code} {ks : List Nat} {i p N : Nat} (hwf : CWF (maxLen m) L)
    (hp : ∀ c ∈ L, p + c.bits + 64 ≤ N) : Good m p N (topCell m L ks i) := by
  have hsub : ∀ (L : List Code), CWF (maxLen m) L → (∀ c ∈ L, p + c.bits + 64 ≤ N) → sub m L i ≠ [] →
      Good m p N (.node (sub m L i)) := by
    intro L hwf hp hne
    obtain ⟨_, _, c0, c1, c2, _⟩ := key_lt hwf hne
    have := hp c0 c1
    refine ⟨?_, hne, by omega, ?_⟩
    · intro c hc
      have := hwf.sub (m := m) _ c hc
      exact ⟨this.1, by omega, this.2.2⟩
    · intro c' hc'
      obtain ⟨c, b1, b2, b3, rfl⟩ := mem_sub.mp hc'
      have := hp c b1
      simp only [tailOf]; omega
  have hleaf : ∀ (L : List Code), CWF (maxLen m) L → (∀ c ∈ L, p + c.bits + 64 ≤ N) → ∀ c,
      hitOf m (nb L) i (shorts L) = some c → Good m p N (.leaf c) := by
    intro L hwf hp c h
    obtain ⟨k1, k2⟩ := List.mem_filter.mp (hitOf_some h).1
    exact ⟨by simpa using k2, (hwf c k1).2.2.2, hp c k1⟩
  unfold topCell
  cases ho : overs m L ks i with
  | some c =>
    simp only [Option.getD_some]
    unfold overs at ho
    obtain ⟨k, _, hk⟩ := List.exists_of_findSome?_eq_some ho
    have hw : CWF (maxLen m) (sub m L k) := by
      intro c hc
      have := hwf.sub (m := m) _ c hc
      exact ⟨this.1, by omega, this.2.2⟩
    have hpk : ∀ c ∈ sub m L k, p + c.bits + 64 ≤ N := by
      intro c' hc'
      obtain ⟨c, b1, b2, b3, rfl⟩ := mem_sub.mp hc'
      have := hp c b1
      simp only [tailOf]; omega
    unfold speak at hk
    split at hk
    · split at hk
      · obtain ⟨c', h1, rfl⟩ := Option.map_eq_some_iff.mp hk
        exact hleaf _ hw hpk _ h1
      · rename_i hne
        cases hk
        exact hsub _ hw hpk hne
    · cases hk
  | none =>
    simp only [Option.getD_none]
    unfold firstCell
    split
    · rename_i c h
      exact hleaf L hwf hp c h
    · split
      · trivial
      · rename_i hne
        exact hsub L hwf hp hne

/-- The entry tells what the rule tells. -/
theorem topCell_read {m : Mode} {L : List Code} {ks : List Nat} {i : Nat} {data : List Bool} (hwf : CWF (maxLen m) L)
    (hks : ∀ k ∈ ks, sub m L k ≠ []) (hi : i < 2 ^ nb L)
    (h1 : lastIn (cbook m L) (data.take 10) =
      (hitOf m (nb L) i (shorts L)).map fun c => (codeBits m c.code c.bits, c.idx))
    (h2 : after (data.take 10) (cbook m L) = cbook m (sub m L i))
    (h3 : nb L = 10 → data.take 10 = codeBits m i 10) :
    readBook m (cbook m L) (ks.map fun k => codeBits m k 10) data = cellRead m data (topCell m L ks i) := by
  have hsp : ((ks.map fun k => codeBits m k 10).reverse.findSome? fun g => spilled m (after g (cbook m L)) data) =
      (overs m L ks i).map (cellRead m data) := by
    unfold overs
    rw [← List.map_reverse, List.findSome?_map, List.map_findSome?]
    apply findSome?_congr
    intro k hk
    have hne := hks k (List.mem_reverse.mp hk)
    obtain ⟨n1, n2, _⟩ := key_lt hwf hne
    rw [n1] at n2 hi
    simp only [Function.comp]
    rw [cbook_sub hwf.cb n2, spilled_speak (hwf.cb.sub k) hi (h3 n1)]
  unfold readBook topCell
  rw [hsp]
  cases overs m L ks i with
  | some c => rfl
  | none =>
    simp only [Option.map_none, Option.getD_none, h1]
    unfold firstCell
    cases hh : hitOf m (nb L) i (shorts L) with
    | some c => simp [cellRead, codeBits_length]
    | none =>
      simp only [Option.map_none]
      rw [descend, h2]
      by_cases hs : sub m L i = []
      · rw [if_pos (cbook_nil.mpr hs), if_pos hs, h1, hh]
        rfl
      · rw [if_neg (by rw [cbook_nil]; exact hs), if_neg hs]
        rfl

theorem readLoop_top {m : Mode} {T : List Nat} {F : Nat → Prop} {fuel : Nat} {L : List Code} {ks : List Nat}
    (hfu : 26 ≤ fuel) (hwf : CWF (maxLen m) L) (hne : L ≠ []) (hks : ∀ k ∈ ks, sub m L k ≠ [])
    (h : ∀ i, i < 2 ^ nb L → CellOK m 25 T F i (topCell m L ks i)) {r : Reader} {p : Nat}
    (hs : Synced (endianOf m) r p) (hp : ∀ c ∈ L, p + c.bits + 64 ≤ 8 * r.buffer.length)
    (h32 : 8 * r.buffer.length < 2 ^ 32) :
    ∃ r', r'.buffer = r.buffer ∧
      readLoop (endianOf m) T fuel 0 (nb L) r = .ok (toRes (readBook m (cbook m L) (ks.map fun k => codeBits m k 10)
        (restBits (endianOf m) r.buffer p)).1, r') ∧
      Synced (endianOf m) r' (p + (readBook m (cbook m L) (ks.map fun k => codeBits m k 10)
        (restBits (endianOf m) r.buffer p)).2) := by
  obtain ⟨v, v1, v2, v3, v4, v5⟩ := ahead hwf.cb hne hs hp
  rw [topCell_read hwf hks v2 v3 v4 v5]
  have hc := h v.toNat v2
  have hg := topCell_good (ks := ks) (i := v.toNat) hwf hp
  have hav := hs.available
  obtain ⟨fuel, rfl⟩ : ∃ k, fuel = k + 1 := ⟨fuel - 1, by omega⟩
  cases htc : topCell m L ks v.toNat with
  | empty =>
    rw [htc] at hc
    exact ⟨r, rfl, readLoop_fill v1 (by rw [Nat.zero_add]; exact hc), hs⟩
  | leaf c =>
    rw [htc] at hc hg
    obtain ⟨g1, g2, g3⟩ := hg
    obtain ⟨r', s1, s2, s3⟩ := skip_within hs (n := c.bits) g3
    exact ⟨r', s2, readLoop_leaf v1 (by rw [Nat.zero_add]; exact hc) g2 g1 hav (by omega) s1, s3⟩
  | node S =>
    rw [htc] at hc hg
    obtain ⟨g1, g2, g3, g4⟩ := hg
    obtain ⟨o, o1, o2, o3⟩ := hc
    -- a node is met only in a table of 10 bits
    have hn : nb L = 10 := by
      have key : ∀ S, topCell m L ks v.toNat = .node S → nb L = 10 := by
        intro S hS
        unfold topCell at hS
        cases ho : overs m L ks v.toNat with
        | some c =>
          unfold overs at ho
          obtain ⟨k, hk, _⟩ := List.exists_of_findSome?_eq_some ho
          exact (key_lt hwf (hks k (List.mem_reverse.mp hk))).1
        | none =>
          rw [ho, Option.getD_none] at hS
          unfold firstCell at hS
          split at hS
          · cases hS
          · split at hS
            · cases hS
            · rename_i hne
              exact (key_lt hwf hne).1
      exact key S htc
    obtain ⟨r1, s1, s2, s3⟩ := skip_within hs (n := 10) g3
    have hstep := readLoop_esc (fuel := fuel) v1 (by rw [Nat.zero_add]; exact o2) o1 (nb_le _) hav
      (by have := nb_le S; omega) (by rw [hn]; exact s1)
    obtain ⟨r', a1, a2, a3⟩ := readLoop_descend 25 (fuel := fuel) (by omega) g1 g2 o3 s3
      (by rw [s2]; exact g4) (by rw [s2]; exact h32)
    rw [s2] at a2 a3
    refine ⟨r', by rw [a1, s2], ?_, ?_⟩
    · rw [hstep, a2]
      simp only [cellRead, restBits_drop]
    · simp only [cellRead, restBits_drop]
      rw [show p + ((descend 25 (cbook m S) (restBits (endianOf m) r.buffer (p + 10))).2 + 10) =
        p + 10 + (descend 25 (cbook m S) (restBits (endianOf m) r.buffer (p + 10))).2 by omega]
      exact a3

/-! ### Symbols instead of positions -/

def mapBook (f : S → S') (B : Book S) : Book S' := B.map fun x => (x.1, f x.2)

theorem after_map (f : S → S') (g : List Bool) (B : Book S) : after g (mapBook f B) = mapBook f (after g B) := by
  unfold after mapBook
  rw [List.filter_map, List.map_map, List.map_map]
  rfl

theorem lastIn_map (f : S → S') (B : Book S) (w : List Bool) :
    lastIn (mapBook f B) w = (lastIn B w).map fun x => (x.1, f x.2) := by
  unfold lastIn mapBook
  rw [← List.map_reverse, List.find?_map]
  rfl

theorem mapBook_isEmpty (f : S → S') (B : Book S) : (mapBook f B).isEmpty = B.isEmpty := by
  cases B <;> rfl

theorem descend_map (f : S → S') (n : Nat) (B : Book S) (data : List Bool) :
    descend n (mapBook f B) data = ((descend n B data).1.map f, (descend n B data).2) := by
  induction n generalizing B data with
  | zero => rfl
  | succ n ih =>
    simp only [descend, after_map, mapBook_isEmpty, lastIn_map, ih]
    split
    · cases lastIn B (data.take 10) <;> rfl
    · rfl

theorem spilled_map (f : S → S') (m : Mode) (B : Book S) (data : List Bool) :
    spilled m (mapBook f B) data = (spilled m B data).map fun r => (r.1.map f, r.2) := by
  have e : (mapBook f B).map (·.1.length) = B.map (·.1.length) := by
    unfold mapBook
    rw [List.map_map]
    rfl
  simp only [spilled, e, after_map, mapBook_isEmpty, lastIn_map, descend_map]
  split
  · rfl
  · split
    · rename_i v _ _
      cases lastIn B v <;> rfl
    · rfl

theorem readBook_map (f : S → S') (m : Mode) (B : Book S) (gs : List (List Bool)) (data : List Bool) :
    readBook m (mapBook f B) gs data = ((readBook m B gs data).1.map f, (readBook m B gs data).2) := by
  simp only [readBook, after_map, spilled_map, lastIn_map, descend_map]
  have : (gs.reverse.findSome? fun g => (spilled m (after g B) data).map fun r => (r.1.map f, r.2)) =
      (gs.reverse.findSome? fun g => spilled m (after g B) data).map fun r => (r.1.map f, r.2) := by
    rw [List.map_findSome?]
    rfl
  rw [this]
  cases gs.reverse.findSome? fun g => spilled m (after g B) data with
  | some r => rfl
  | none =>
    simp only [Option.map_none]
    cases lastIn B (data.take 10) <;> rfl

theorem after_mem {g : List Bool} {B : Book S} {x : List Bool × S} (h : x ∈ after g B) : ∃ y ∈ B, y.2 = x.2 := by
  obtain ⟨y, hy, rfl⟩ := List.mem_map.mp h
  exact ⟨y, (List.mem_filter.mp hy).1, rfl⟩

theorem lastIn_mem {B : Book S} {w : List Bool} {x : List Bool × S} (h : lastIn B w = some x) : x ∈ B :=
  List.mem_reverse.mp (List.mem_of_find?_eq_some h)

theorem descend_mem {n : Nat} {B : Book S} {data : List Bool} {s : S} (h : (descend n B data).1 = some s) :
    ∃ x ∈ B, x.2 = s := by
  induction n generalizing B data with
  | zero => cases h
  | succ n ih =>
    unfold descend at h
    split at h
    · cases hl : lastIn B (data.take 10) with
      | none => rw [hl] at h; cases h
      | some x =>
        rw [hl] at h
        cases h
        exact ⟨x, lastIn_mem hl, rfl⟩
    · obtain ⟨x, hx, rfl⟩ := ih h
      exact after_mem hx

theorem spilled_mem {m : Mode} {B : Book S} {data : List Bool} {r : Option S × Nat} {s : S}
    (h : spilled m B data = some r) (hr : r.1 = some s) : ∃ x ∈ B, x.2 = s := by
  unfold spilled at h
  split at h
  · cases h
  · split at h
    · obtain ⟨x, h1, rfl⟩ := Option.map_eq_some_iff.mp h
      cases hr
      exact ⟨x, lastIn_mem h1, rfl⟩
    · cases h
      obtain ⟨x, hx, rfl⟩ := descend_mem hr
      exact after_mem hx

theorem readBook_mem {m : Mode} {B : Book S} {gs : List (List Bool)} {data : List Bool} {s : S}
    (h : (readBook m B gs data).1 = some s) : ∃ x ∈ B, x.2 = s := by
  unfold readBook at h
  split at h
  · rename_i r hr
    obtain ⟨g, _, hg⟩ := List.exists_of_findSome?_eq_some hr
    obtain ⟨x, hx, rfl⟩ := spilled_mem hg h
    exact after_mem hx
  · split at h
    · rename_i x hx
      cases h
      exact ⟨x, lastIn_mem hx, rfl⟩
    · exact descend_mem h

theorem cbook_codes {m : Mode} {ds : List (Desc S)} (s0 : S) :
    mapBook (fun i => ((used ds).map (·.sym))[i]?.getD s0) (cbook m (codesFrom 0 ds)) = bookOf m ds := by
  unfold mapBook cbook bookOf
  rw [codesFrom_zipIdx, List.map_map, List.map_map]
  apply List.ext_getElem
  · simp
  intro j h1 h2
  simp only [List.getElem_map, List.getElem_zipIdx, Function.comp, Nat.zero_add]
  simp only [List.length_map] at h2
  simp [h2]

/-! ### The groups that spill -/

theorem spills_iff {B : Book S} {g : List Bool} : Spills B g ↔ g.length = 10 ∧
    ∃ pre x post, B = pre ++ x :: post ∧ (10 < x.1.length ∧ g <+: x.1) ∧
      (∀ y ∈ pre, ¬ (10 < y.1.length ∧ g <+: y.1)) ∧ ∃ s ∈ pre, s.1 <+: g := by
  unfold Spills
  constructor
  · rintro ⟨h1, ⟨x, x1, x2⟩, s, s1, s2⟩
    refine ⟨h1, ?_⟩
    have key : ∀ B : Book S, (∃ x ∈ B, 10 < x.1.length ∧ g <+: x.1) →
        ∃ x post, B = B.takeWhile (fun x => !(decide (10 < x.1.length) && decide (g <+: x.1))) ++ x :: post ∧
          10 < x.1.length ∧ g <+: x.1 := by
      intro B
      induction B with
      | nil => rintro ⟨_, h, _⟩; cases h
      | cons y B ih =>
        intro hx
        by_cases hy : 10 < y.1.length ∧ g <+: y.1
        · exact ⟨y, B, by simp [hy], hy⟩
        · obtain ⟨x, x1, x2⟩ := hx
          rcases List.mem_cons.mp x1 with rfl | x1
          · exact absurd x2 hy
          · obtain ⟨z, post, e1, e2⟩ := ih ⟨x, x1, x2⟩
            refine ⟨z, post, ?_, e2⟩
            rw [List.takeWhile_cons_of_pos (by simp only [Bool.not_eq_true', Bool.and_eq_false_imp,
              decide_eq_true_eq, decide_eq_false_iff_not]; exact fun h1 h2 => hy ⟨h1, h2⟩),
              List.cons_append, ← e1]
    obtain ⟨x, post, e1, e2⟩ := key B ⟨x, x1, x2⟩
    refine ⟨_, x, post, e1, e2, ?_, s, s1, s2⟩
    intro y hy ⟨h3, h4⟩
    have := List.all_eq_true.mp List.all_takeWhile y hy
    simp [h3, h4] at this
  · rintro ⟨h1, pre, x, post, rfl, h2, h3, s, s1, s2⟩
    refine ⟨h1, ⟨x, by simp, h2⟩, s, ?_, s2⟩
    rw [List.takeWhile_append_of_pos]
    · simp [s1]
    · intro y hy
      have := h3 y hy
      simp only [Bool.not_eq_true', Bool.and_eq_false_imp, decide_eq_true_eq, decide_eq_false_iff_not]
      exact fun h1 h2 => this ⟨h1, h2⟩

theorem spills_map (f : S → S') {B : Book S} {g : List Bool} : Spills (mapBook f B) g ↔ Spills B g := by
  unfold Spills mapBook
  rw [List.takeWhile_map]
  simp only [List.mem_map]
  constructor
  · rintro ⟨h1, ⟨_, ⟨x, x1, rfl⟩, x2⟩, _, ⟨s, s1, rfl⟩, s2⟩
    exact ⟨h1, ⟨x, x1, x2⟩, s, s1, s2⟩
  · rintro ⟨h1, ⟨x, x1, x2⟩, s, s1, s2⟩
    exact ⟨h1, ⟨_, ⟨x, x1, rfl⟩, x2⟩, _, ⟨s, s1, rfl⟩, s2⟩

theorem spills_cbook {m : Mode} {n : Nat} {L : List Code} (hL : CB n L) {k : Nat} (hk : k < 2 ^ 10) :
    Spills (cbook m L) (codeBits m k 10) ↔ Spill m L k := by
  have hlong : ∀ c ∈ L, (10 < (codeBits m c.code c.bits).length ∧ codeBits m k 10 <+: codeBits m c.code c.bits) ↔
      (10 < c.bits ∧ keyOf m c = k) := by
    intro c hc
    rw [codeBits_length, prefix_iff hk (hL c hc).2.2]
    exact ⟨fun h => ⟨h.1, h.2.2⟩, fun h => ⟨h.1, by omega, h.2⟩⟩
  have hshort : ∀ c ∈ L, codeBits m c.code c.bits <+: codeBits m k 10 ↔ (c.bits ≤ 10 ∧ top m 10 c.bits k = c.code) :=
    fun c hc => prefix_iff (hL c hc).2.2 hk
  rw [spills_iff]
  unfold Spill cbook
  constructor
  · rintro ⟨_, pre, x, post, e, h1, h2, s, s1, s2⟩
    obtain ⟨pre', rest, rfl, rfl, e2⟩ := List.map_eq_append_iff.mp e
    obtain ⟨c, post', rfl, rfl, rfl⟩ := List.map_eq_cons_iff.mp e2
    have h1 := (hlong c (by simp)).mp h1
    obtain ⟨s, s0, rfl⟩ := List.mem_map.mp s1
    refine ⟨pre', c, post', rfl, h1.1, h1.2, ?_, s, s0, (hshort s (by simp [s0])).mp s2⟩
    intro c' hc' hb hkk
    exact h2 _ (List.mem_map_of_mem hc') ((hlong c' (by simp [hc'])).mpr ⟨hb, hkk⟩)
  · rintro ⟨pre, c, post, rfl, h1, h2, h3, s, s1, s2⟩
    refine ⟨codeBits_length .., _, _, _, by rw [List.map_append, List.map_cons], (hlong c (by simp)).mpr ⟨h1, h2⟩, ?_,
      _, List.mem_map_of_mem s1, (hshort s (by simp [s1])).mpr s2⟩
    intro y hy hh
    obtain ⟨c', hc', rfl⟩ := List.mem_map.mp hy
    have := (hlong c' (by simp [hc'])).mp hh
    exact h3 c' hc' this.1 this.2

end Verif.Codebook
