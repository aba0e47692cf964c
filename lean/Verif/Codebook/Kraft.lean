import Verif.Codebook.Props

/-!
# C139: which books reject something

The sum of `2^-bits` over the entries of a prefix-free description (Kraft's sum) is at most 1. If it is 1 every string
of bits is a sequence of codewords and `read_cb` never rejects; if it is less there is a stream that is rejected.
-/

namespace Verif.Codebook
open Verif Verif.BitRead

/-- Kraft's sum, times `2^L`: each word counts for the strings of length `L` that start with it. -/
def kraft (L : Nat) (ws : List (List Bool)) : Nat := (ws.map fun w => 2 ^ (L - w.length)).sum

/-- Every string of length `L` starts with one of the words. -/
def Covers (L : Nat) (ws : List (List Bool)) : Prop := ∀ s : List Bool, s.length = L → ∃ w ∈ ws, w <+: s

/-- None of the words starts another one. -/
def Apart (ws : List (List Bool)) : Prop := ws.Pairwise fun a b => ¬ a <+: b ∧ ¬ b <+: a

/-- The rest, if the first bit is `b`. -/
def restOf (b : Bool) : List Bool → Option (List Bool)
  | [] => none
  | c :: w => if c = b then some w else none

/-- What follows the bit `b` in the words. -/
def behind (b : Bool) (ws : List (List Bool)) : List (List Bool) := ws.filterMap (restOf b)

theorem mem_behind {b : Bool} {ws : List (List Bool)} {w : List Bool} : w ∈ behind b ws ↔ b :: w ∈ ws := by
  unfold behind
  rw [List.mem_filterMap]
  constructor
  · rintro ⟨x, hx, h⟩
    cases x with
    | nil => exact nomatch h
    | cons c x =>
      simp only [restOf] at h
      split at h
      · rename_i hc
        simp only [Option.some.injEq] at h
        rw [← hc, ← h]; exact hx
      · exact nomatch h
  · intro h
    exact ⟨_, h, by simp [restOf]⟩

theorem Apart.behind {ws : List (List Bool)} (h : Apart ws) (b : Bool) : Apart (behind b ws) := by
  unfold Apart Codebook.behind
  rw [List.pairwise_filterMap]
  refine List.Pairwise.imp ?_ h
  intro x y hxy x' hx y' hy
  cases x with
  | nil => exact nomatch hx
  | cons c x =>
    cases y with
    | nil => exact nomatch hy
    | cons d y =>
      simp only [restOf] at hx hy
      split at hx
      · split at hy
        · rename_i hc hd
          simp only [Option.some.injEq] at hx hy
          subst hx hy hc hd
          simp only [List.cons_prefix_cons, true_and] at hxy
          exact hxy
        · exact nomatch hy
      · exact nomatch hx

theorem Apart.nil_only {ws : List (List Bool)} (h : Apart ws) (hn : [] ∈ ws) : ws = [[]] := by
  obtain ⟨a, b, rfl⟩ := List.append_of_mem hn
  unfold Apart at h
  rw [List.pairwise_append, List.pairwise_cons] at h
  obtain ⟨_, ⟨h1, _⟩, h2⟩ := h
  have ha : a = [] := by
    cases a with
    | nil => rfl
    | cons x a => exact absurd (List.nil_prefix) (h2 x (by simp) [] (by simp)).2
  have hb : b = [] := by
    cases b with
    | nil => rfl
    | cons x b => exact absurd (List.nil_prefix) (h1 x (by simp)).1
  rw [ha, hb]; rfl

theorem kraft_split (L : Nat) (ws : List (List Bool)) (hn : [] ∉ ws) :
    kraft (L + 1) ws = kraft L (behind false ws) + kraft L (behind true ws) := by
  induction ws with
  | nil => rfl
  | cons w ws ih =>
    have := ih (fun h => hn (List.mem_cons_of_mem _ h))
    cases w with
    | nil => exact absurd (by simp) hn
    | cons c w =>
      have e : L + 1 - (w.length + 1) = L - w.length := by omega
      unfold kraft behind at *
      cases c
      · simp only [List.map_cons, List.sum_cons, List.length_cons, List.filterMap_cons, restOf, if_true,
          Bool.false_eq_true, if_false, e] at *
        omega
      · simp only [List.map_cons, List.sum_cons, List.length_cons, List.filterMap_cons, restOf, if_true,
          Bool.true_eq_false, if_false, e] at *
        omega

theorem covers_split (L : Nat) (ws : List (List Bool)) (hn : [] ∉ ws) :
    Covers (L + 1) ws ↔ Covers L (behind false ws) ∧ Covers L (behind true ws) := by
  have one : ∀ b, Covers (L + 1) ws → Covers L (behind b ws) := by
    intro b h s hs
    obtain ⟨w, hw, hp⟩ := h (b :: s) (by simp [hs])
    cases w with
    | nil => exact absurd hw hn
    | cons c w =>
      rw [List.cons_prefix_cons] at hp
      obtain ⟨rfl, hp⟩ := hp
      exact ⟨w, mem_behind.mpr hw, hp⟩
  refine ⟨fun h => ⟨one _ h, one _ h⟩, ?_⟩
  rintro ⟨h0, h1⟩ s hs
  cases s with
  | nil => simp at hs
  | cons b s =>
    have hs : s.length = L := by simpa using hs
    have hb : Covers L (behind b ws) := by cases b <;> assumption
    obtain ⟨w, hw, hp⟩ := hb s hs
    exact ⟨b :: w, mem_behind.mp hw, by rw [List.cons_prefix_cons]; exact ⟨rfl, hp⟩⟩

theorem kraft_le (L : Nat) (ws : List (List Bool)) (ha : Apart ws) (hl : ∀ w ∈ ws, w.length ≤ L) :
    kraft L ws ≤ 2 ^ L ∧ (kraft L ws = 2 ^ L ↔ Covers L ws) := by
  induction L generalizing ws with
  | zero =>
    by_cases hn : [] ∈ ws
    · rw [ha.nil_only hn]
      exact ⟨by decide, fun _ s _ => ⟨[], by simp, List.nil_prefix⟩, fun _ => by decide⟩
    · have : ws = [] := by
        cases ws with
        | nil => rfl
        | cons w ws =>
          have := hl w (by simp)
          cases w with
          | nil => exact absurd (by simp) hn
          | cons _ _ => simp at this
      subst this
      refine ⟨by decide, fun h => absurd h (by decide), fun h => ?_⟩
      obtain ⟨w, hw, _⟩ := h [] rfl
      exact nomatch hw
  | succ L ih =>
    by_cases hn : [] ∈ ws
    · rw [ha.nil_only hn]
      have : kraft (L + 1) [[]] = 2 ^ (L + 1) := by simp [kraft]
      exact ⟨by omega, fun _ s _ => ⟨[], by simp, List.nil_prefix⟩, fun _ => this⟩
    · have hb : ∀ b, ∀ w ∈ behind b ws, w.length ≤ L := by
        intro b w hw
        have := hl _ (mem_behind.mp hw)
        simpa using this
      obtain ⟨a1, a2⟩ := ih _ (ha.behind false) (hb false)
      obtain ⟨b1, b2⟩ := ih _ (ha.behind true) (hb true)
      rw [kraft_split L ws hn, covers_split L ws hn, ← a2, ← b2]
      have : 2 ^ (L + 1) = 2 ^ L + 2 ^ L := by omega
      constructor
      · omega
      · constructor
        · intro h; omega
        · rintro ⟨h, h'⟩; omega

/-! ### Streams with given bits -/

/-- The byte with the given bits, from the least significant one. -/
def byteOf (f : Nat → Bool) : U8 := BitVec.ofBoolListLE [f 0, f 1, f 2, f 3, f 4, f 5, f 6, f 7]

theorem byteOf_bit (f : Nat → Bool) (j : Nat) (h : j < 8) : (byteOf f).getLsbD j = f j := by
  unfold byteOf
  refine Eq.trans BitVec.getLsbD_ofBoolListLE ?_
  have : j = 0 ∨ j = 1 ∨ j = 2 ∨ j = 3 ∨ j = 4 ∨ j = 5 ∨ j = 6 ∨ j = 7 := by omega
  rcases this with rfl | rfl | rfl | rfl | rfl | rfl | rfl | rfl <;> rfl

/-- `n` bytes with the bits `f` in reading order. -/
def bytesFor (e : Endian) (n : Nat) (f : Nat → Bool) : List U8 :=
  (List.range n).map fun k => byteOf fun j => f (8 * k + match e with
    | .le => j
    | .be => 7 - j)

theorem bytesFor_bit (e : Endian) (n : Nat) (f : Nat → Bool) (i : Nat) (h : i < 8 * n) :
    bit e (bytesFor e n f) i = f i := by
  have hk : i / 8 < n := by omega
  have hd : 8 * (i / 8) + i % 8 = i := by omega
  cases e with
  | le =>
    simp only [bit, bytesFor, List.getD_eq_getElem?_getD, List.getElem?_map, List.getElem?_range hk, Option.map_some,
      Option.getD_some]
    rw [byteOf_bit _ _ (by omega), hd]
  | be =>
    simp only [bit, bytesFor, List.getD_eq_getElem?_getD, List.getElem?_map, List.getElem?_range hk, Option.map_some,
      Option.getD_some]
    rw [BitVec.getMsbD]
    have h8 : i % 8 < 8 := by omega
    simp only [h8, decide_true, Bool.true_and]
    rw [byteOf_bit _ _ (by omega)]
    congr 1
    omega

theorem streamBits_for (e : Endian) (n : Nat) (s : List Bool) (h : s.length ≤ 8 * n) (k : Nat) (hk : k ≤ s.length) :
    streamBits e (bytesFor e n fun i => s.getD i false) 0 k = s.take k := by
  apply List.ext_getElem
  · simp [streamBits]; omega
  · intro i h1 h2
    have hi : i < k := by simpa [streamBits] using h1
    simp only [streamBits, List.getElem_map, List.getElem_range, Nat.zero_add, List.getElem_take]
    rw [bytesFor_bit e n _ i (by omega)]
    simp [List.getD_eq_getElem?_getD, List.getElem?_eq_getElem (show i < s.length by omega)]

/-! ### Books -/

theorem apart_words {m : Mode} {ds : List (Desc S)} (h : PrefixFree m ds) : Apart (wordsOf m ds) := by
  unfold Apart wordsOf
  rw [List.pairwise_map]
  exact h

theorem words_short {m : Mode} {ds : List (Desc S)} {L : Nat} (h : ∀ d ∈ used ds, d.bits ≤ L) :
    ∀ w ∈ wordsOf m ds, w.length ≤ L := by
  intro w hw
  unfold wordsOf at hw
  obtain ⟨d, hd, rfl⟩ := List.mem_map.mp hw
  rw [codeBits_length]
  exact h d hd

/-- Kraft's sum of a description, times `2^L`. -/
def kraftSum (L : Nat) (ds : List (Desc S)) : Nat := ((used ds).map fun d => 2 ^ (L - d.bits)).sum

theorem kraftSum_eq (m : Mode) (L : Nat) (ds : List (Desc S)) : kraftSum L ds = kraft L (wordsOf m ds) := by
  unfold kraftSum kraft wordsOf
  rw [List.map_map]
  congr 1
  apply List.map_congr_left
  intro d _
  simp only [Function.comp, codeBits_length]

/-- **C139** The Kraft sum of a prefix-free description is at most 1. -/
theorem c139_kraft (m : Mode) (ds : List (Desc S)) (hpf : PrefixFree m ds) (L : Nat) (hL : ∀ d ∈ used ds, d.bits ≤ L) :
    kraftSum L ds ≤ 2 ^ L := by
  rw [kraftSum_eq m]
  exact (kraft_le L _ (apart_words hpf) (words_short hL)).1

/-- In front of a complete book every stream is a sequence of codewords. -/
theorem parses (m : Mode) {ds : List (Desc S)} {L : Nat} (hc : Covers L (wordsOf m ds)) (e : Endian) (buf : List U8)
    (n p : Nat) : ∃ xs : List (Desc S), xs.length = n ∧ (∀ d ∈ xs, d ∈ used ds) ∧
      streamBits e buf p (encode m xs).length = encode m xs := by
  induction n generalizing p with
  | zero => exact ⟨[], rfl, by simp, rfl⟩
  | succ n ih =>
    obtain ⟨w, hw, hp⟩ := hc (streamBits e buf p L) (streamBits_length _ _ _ _)
    unfold wordsOf at hw
    obtain ⟨d, hd, rfl⟩ := List.mem_map.mp hw
    obtain ⟨xs, h1, h2, h3⟩ := ih (p + d.bits)
    have hle : d.bits ≤ L := by
      have := hp.length_le
      rwa [codeBits_length, streamBits_length] at this
    have hs : streamBits e buf p d.bits = codeBits m d.code d.bits := by
      obtain ⟨k, rfl⟩ : ∃ k, L = d.bits + k := ⟨L - d.bits, by omega⟩
      rw [streamBits_append] at hp
      have := List.prefix_append (streamBits e buf p d.bits) (streamBits e buf (p + d.bits) k)
      have hq := List.prefix_of_prefix_length_le hp this (by rw [codeBits_length, streamBits_length]; exact Nat.le_refl _)
      exact (hq.eq_of_length (by rw [codeBits_length, streamBits_length])).symm
    have he : encode m (d :: xs) = codeBits m d.code d.bits ++ encode m xs := by simp [encode]
    refine ⟨d :: xs, by simp [h1], ?_, ?_⟩
    · intro x hx
      rcases List.mem_cons.mp hx with rfl | hx
      · exact hd
      · exact h2 x hx
    · rw [he, List.length_append, codeBits_length, streamBits_append, hs, h3]

theorem encode_length_le (m : Mode) {ds : List (Desc S)} {L : Nat} (hL : ∀ d ∈ used ds, d.bits ≤ L)
    (xs : List (Desc S)) (h : ∀ d ∈ xs, d ∈ used ds) : (encode m xs).length ≤ xs.length * L := by
  induction xs with
  | nil => simp [encode]
  | cons d xs ih =>
    have he : encode m (d :: xs) = codeBits m d.code d.bits ++ encode m xs := by simp [encode]
    have := ih fun x hx => h x (List.mem_cons_of_mem _ hx)
    have := hL d (h d (by simp))
    rw [he, List.length_append, codeBits_length, List.length_cons, Nat.succ_mul]
    omega

/-- **C139** If the Kraft sum is 1, nothing is rejected: from any position, with room for `n` codewords, `n` calls of
`read_cb` return symbols, and what has been read is the sequence of their codewords. -/
theorem c139_complete (ord : Order) (hord : ord.Valid) (m : Mode) (ds : List (Desc S)) (hwf : WF m ds)
    (hpf : PrefixFree m ds) (hfit : Fits m ds) (L : Nat) (hL : ∀ d ∈ used ds, d.bits ≤ L) (hk : kraftSum L ds = 2 ^ L)
    (buf : List U8) (pre : List Op) (hpre : within buf 0 pre) (n : Nat)
    (hin : (specRun (endianOf m) buf 0 pre).2 + n * L + 64 ≤ 8 * buf.length) (h32 : 8 * buf.length < 2 ^ 32)
    (fuel : Nat) (hfu : 26 ≤ fuel) :
    ∃ xs : List (Desc S), xs.length = n ∧ (∀ d ∈ xs, d ∈ used ds) ∧
      streamBits (endianOf m) buf (specRun (endianOf m) buf 0 pre).2 (encode m xs).length = encode m xs ∧
      ∃ cb r0 vs r r', new ord m ds = .ok (.ok cb) ∧ BitRead.new (endianOf m) buf = .ok r0 ∧
        run (endianOf m) r0 pre = .ok (vs, r) ∧
        readMany (endianOf m) fuel cb n r = .ok (xs.map fun d => .ok d.sym, r') ∧
        StandsAt (endianOf m) buf r' ((specRun (endianOf m) buf 0 pre).2 + (encode m xs).length) := by
  rw [kraftSum_eq m] at hk
  have hc := (kraft_le L _ (apart_words hpf) (words_short hL)).2.mp hk
  have hne : used ds ≠ [] := by
    intro h
    have : wordsOf m ds = [] := by simp [wordsOf, h]
    obtain ⟨w, hw, _⟩ := hc (List.replicate L false) (by simp)
    rw [this] at hw
    exact nomatch hw
  obtain ⟨xs, h1, h2, h3⟩ := parses m hc (endianOf m) buf n (specRun (endianOf m) buf 0 pre).2
  have := encode_length_le m hL xs h2
  rw [h1] at this
  refine ⟨xs, h1, h2, h3, ?_⟩
  have := c15_sequence ord hord m ds hwf hpf hfit xs h2 hne buf pre hpre (by omega) h32 h3 fuel hfu
  rwa [h1] at this

/-- **C139** If the Kraft sum is less, there is a stream, with as many bits behind the codeword as one likes, that
`read_cb` rejects. -/
theorem c139_incomplete (ord : Order) (hord : ord.Valid) (m : Mode) (ds : List (Desc S)) (hwf : WF m ds)
    (hpf : PrefixFree m ds) (hfit : Fits m ds) (hne : used ds ≠ []) (L : Nat) (hL : ∀ d ∈ used ds, d.bits ≤ L)
    (hk : kraftSum L ds < 2 ^ L) (n : Nat) (hn : L + 64 ≤ 8 * n) (h32 : 8 * n < 2 ^ 32) (fuel : Nat) (hfu : 26 ≤ fuel) :
    ∃ buf : List U8, buf.length = n ∧ ∃ cb r r', new ord m ds = .ok (.ok cb) ∧ BitRead.new (endianOf m) buf = .ok r ∧
      readCb (endianOf m) fuel cb r = .ok (.error .invalidCode, r') := by
  rw [kraftSum_eq m] at hk
  have hc : ¬ Covers L (wordsOf m ds) := fun h => by
    have := (kraft_le L _ (apart_words hpf) (words_short hL)).2.mpr h
    omega
  unfold Covers at hc
  obtain ⟨s, hs⟩ := Classical.not_forall.mp hc
  obtain ⟨hl, hs⟩ := Classical.not_imp.mp hs
  refine ⟨bytesFor (endianOf m) n fun i => s.getD i false, by simp [bytesFor], ?_⟩
  have hlen : (bytesFor (endianOf m) n fun i => s.getD i false).length = n := by simp [bytesFor]
  obtain ⟨cb, r0, vs, r, res, r', a1, a2, a3, a4, a5, _⟩ := c16_reject ord hord m ds hwf hpf hfit hne
    (bytesFor (endianOf m) n fun i => s.getD i false) [] trivial
    (by intro d hd; have := hL d hd; rw [hlen]; simp only [specRun]; omega) (by rw [hlen]; exact h32) fuel hfu
  simp only [run, Except.ok.injEq, Prod.mk.injEq] at a3
  obtain ⟨_, rfl⟩ := a3
  have := a5 (by
    intro d hd he
    have hb := hL d hd
    simp only [specRun] at he
    rw [streamBits_for _ n s (by omega) d.bits (by omega)] at he
    exact hs ⟨_, by unfold wordsOf; exact List.mem_map.mpr ⟨d, hd, rfl⟩, he ▸ List.take_prefix _ _⟩)
  rw [this] at a4
  exact ⟨cb, r0, r', a1, a2, a4⟩

/-- A complete book with codewords of up to twelve bits. -/
def full : List (Desc Nat) :=
  [⟨0, 1, 0⟩, ⟨0b10, 2, 1⟩, ⟨0b110, 3, 2⟩, ⟨0b1110, 4, 3⟩, ⟨0b11110, 5, 4⟩, ⟨0b111110, 6, 5⟩, ⟨0b1111110, 7, 6⟩,
   ⟨0b11111110, 8, 7⟩, ⟨0b111111110, 9, 8⟩, ⟨0b1111111110, 10, 9⟩, ⟨0b11111111110, 11, 10⟩, ⟨0b111111111110, 12, 11⟩,
   ⟨0b111111111111, 12, 12⟩]

example : WF .msb full ∧ PrefixFree .msb full ∧ Fits .msb full ∧ (∀ d ∈ used full, d.bits ≤ 12) ∧
    kraftSum 12 full = 2 ^ 12 ∧ within (List.replicate 24 (0xB7 : U8)) 0 [.get32 3] ∧
    (specRun .be (List.replicate 24 (0xB7 : U8)) 0 [.get32 3]).2 + 10 * 12 + 64 ≤ 8 * 24 := by decide +kernel

example : used full.dropLast ≠ [] ∧ kraftSum 12 full.dropLast < 2 ^ 12 ∧ WF .msb full.dropLast ∧
    PrefixFree .msb full.dropLast ∧ Fits .msb full.dropLast ∧ 12 + 64 ≤ 8 * 10 := by decide +kernel

end Verif.Codebook
