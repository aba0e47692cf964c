import Verif.Codebook.Table

/-! # Helper lemmas: codes, buckets and the escape map -/

namespace Verif.Codebook
open Verif Verif.BitRead

/-- `a`'s codeword is a prefix of `b`'s. -/
def Pfx (m : Mode) (a b : Code) : Prop := a.bits ≤ b.bits ∧ top m b.bits a.bits b.code = a.code

def PF (m : Mode) (L : List Code) : Prop := L.Pairwise fun a b => ¬ Pfx m a b ∧ ¬ Pfx m b a

theorem PF.eq {m : Mode} {L : List Code} (h : PF m L) {a b : Code} (ha : a ∈ L) (hb : b ∈ L)
    (hp : Pfx m a b) : a = b := by
  induction L with
  | nil => cases ha
  | cons c L ih =>
    unfold PF at h
    rw [List.pairwise_cons] at h
    rcases List.mem_cons.mp ha with ha' | ha'
    · rcases List.mem_cons.mp hb with hb' | hb'
      · rw [ha', hb']
      · rw [ha'] at hp; exact absurd hp (h.1 b hb').1
    · rcases List.mem_cons.mp hb with hb' | hb'
      · rw [hb'] at hp; exact absurd hp (h.1 a ha').2
      · exact ih h.2 ha' hb'

/-- Codes a node can hold, with lengths up to `n`. -/
def CWF (n : Nat) (L : List Code) : Prop :=
  ∀ c ∈ L, 0 < c.bits ∧ c.bits ≤ n ∧ c.code < 2 ^ c.bits ∧ c.idx < 2 ^ 24

/-- First 10 bits of a long code. -/
def keyOf (m : Mode) (c : Code) : Nat := top m c.bits 10 c.code

/-- A long code without its first 10 bits. -/
def tailOf (m : Mode) (c : Code) : Code :=
  { code := rest m c.bits 10 c.code, bits := c.bits - 10, idx := c.idx }

def long (c : Code) : Bool := decide (10 < c.bits)

/-- Tails of the long codes starting with `k`. -/
def sub (m : Mode) (L : List Code) (k : Nat) : List Code :=
  (L.filter fun c => long c && decide (keyOf m c = k)).map (tailOf m)

theorem mem_sub {m : Mode} {L : List Code} {k : Nat} {c' : Code} :
    c' ∈ sub m L k ↔ ∃ c ∈ L, 10 < c.bits ∧ keyOf m c = k ∧ tailOf m c = c' := by
  simp only [sub, long, List.mem_map, List.mem_filter, Bool.and_eq_true, decide_eq_true_eq, and_assoc]

theorem sub_append (m : Mode) (L L' : List Code) (k : Nat) :
    sub m (L ++ L') k = sub m L k ++ sub m L' k := by simp [sub]

theorem sub_single_short {m : Mode} {c : Code} (h : c.bits ≤ 10) (k : Nat) : sub m [c] k = [] := by
  simp [sub, long, Nat.not_lt.mpr h]

theorem sub_single_long {m : Mode} {c : Code} (h : 10 < c.bits) (k : Nat) :
    sub m [c] k = if keyOf m c = k then [tailOf m c] else [] := by
  by_cases hk : keyOf m c = k <;> simp [sub, long, h, hk]

/-- Equal keys and a prefix of tails make a prefix. -/
theorem pfx_of_tail {m : Mode} {a b : Code} (ha : 10 < a.bits) (hb : 10 < b.bits)
    (hk : keyOf m a = keyOf m b) (h : Pfx m (tailOf m a) (tailOf m b)) : Pfx m a b := by
  obtain ⟨h1, h2⟩ := h
  simp only [tailOf] at h1 h2
  refine ⟨by omega, ?_⟩
  have hle : a.bits ≤ b.bits := by omega
  apply split_ext (m := m) (v := a.bits) (w := 10)
  · rw [top_top (by omega) hle]; exact hk.symm
  · rw [rest_top (by omega) hle]; exact h2

theorem PF.sub {m : Mode} {L : List Code} (h : PF m L) (k : Nat) : PF m (sub m L k) := by
  unfold PF Codebook.sub at *
  rw [List.pairwise_map]
  have h1 := h.filter (fun c => long c && decide (keyOf m c = k))
  refine List.Pairwise.imp_of_mem ?_ h1
  intro a b ha hb hab
  simp only [long, List.mem_filter, Bool.and_eq_true, decide_eq_true_eq] at ha hb
  exact ⟨fun hp => hab.1 (pfx_of_tail ha.2.1 hb.2.1 (by rw [ha.2.2, hb.2.2]) hp),
    fun hp => hab.2 (pfx_of_tail hb.2.1 ha.2.1 (by rw [ha.2.2, hb.2.2]) hp)⟩

theorem CWF.sub {m : Mode} {n : Nat} {L : List Code} (h : CWF n L) (k : Nat) :
    CWF (n - 10) (sub m L k) := by
  intro c' hc'
  obtain ⟨c, hc, hb, _, rfl⟩ := mem_sub.mp hc'
  obtain ⟨h1, h2, h3, h4⟩ := h c hc
  exact ⟨by simp only [tailOf]; omega, by simp only [tailOf]; omega, rest_lt h3 (by omega), h4⟩

/-! ### longest code -/

def maxlen (L : List Code) : Nat := L.foldl (fun a c => max a c.bits) 0

theorem maxlen_append (L : List Code) (c : Code) : maxlen (L ++ [c]) = max (maxlen L) c.bits := by
  simp [maxlen]

theorem foldl_max_ge (L : List Code) (a : Nat) :
    a ≤ L.foldl (fun a c => max a c.bits) a ∧ ∀ c ∈ L, c.bits ≤ L.foldl (fun a c => max a c.bits) a := by
  induction L generalizing a with
  | nil => simp
  | cons c L ih =>
    obtain ⟨h1, h2⟩ := ih (max a c.bits)
    simp only [List.foldl_cons]
    refine ⟨by omega, ?_⟩
    intro d hd
    rcases List.mem_cons.mp hd with rfl | hd
    · omega
    · exact h2 d hd

theorem le_maxlen {L : List Code} {c : Code} (h : c ∈ L) : c.bits ≤ maxlen L := (foldl_max_ge L 0).2 c h

theorem maxlen_le {L : List Code} {n : Nat} (h : ∀ c ∈ L, c.bits ≤ n) : maxlen L ≤ n := by
  have key : ∀ (L : List Code) a, a ≤ n → (∀ c ∈ L, c.bits ≤ n) →
      L.foldl (fun a c => max a c.bits) a ≤ n := by
    intro L
    induction L with
    | nil => intro a ha _; simpa using ha
    | cons c L ih =>
      intro a ha hL
      simp only [List.foldl_cons]
      exact ih _ (by have := hL c (by simp); omega) (fun d hd => hL d (by simp [hd]))
  exact key L 0 (by omega) h

/-- Width of the table of a node. -/
def nb (L : List Code) : Nat := min (maxlen L) 10

theorem nb_le (L : List Code) : nb L ≤ 10 := by unfold nb; omega

theorem bits_le_nb {L : List Code} {c : Code} (h : c ∈ L) (hb : c.bits ≤ 10) : c.bits ≤ nb L := by
  have := le_maxlen h; unfold nb; omega

theorem nb_of_long {L : List Code} {c : Code} (h : c ∈ L) (hb : 10 < c.bits) : nb L = 10 := by
  have := le_maxlen h; unfold nb; omega

/-! ### space -/

def cost1 (c : Code) : Nat := 1024 * ((c.bits - 1) / 10)

def cost (L : List Code) : Nat := (L.map cost1).sum

theorem cost_append (L L' : List Code) : cost (L ++ L') = cost L + cost L' := by
  simp [cost]

theorem cost1_long {m : Mode} {c : Code} (h : 10 < c.bits) : cost1 c = 1024 + cost1 (tailOf m c) := by
  simp only [cost1, tailOf]
  omega

/-! ### the escape map -/

def bucketOf (L : List Code) : Option CodeBucket :=
  if L = [] then none else some { maxlen := maxlen L, offset := 0, codes := L }

/-- Space all buckets of a map need. -/
def mcost (M : EscapeCodes) : Nat := (M.map fun kb => 1024 + cost kb.2.codes).sum

theorem get_none {M : EscapeCodes} {k : Nat} : EscapeCodes.get M k = none ↔ k ∉ M.map (·.1) := by
  induction M with
  | nil => simp [EscapeCodes.get]
  | cons kb M ih =>
    obtain ⟨k', b⟩ := kb
    by_cases h : k' = k
    · simp [EscapeCodes.get, h]
    · simp only [EscapeCodes.get, h, if_false, List.map_cons, List.mem_cons]
      rw [ih]
      simp [Ne.symm h]

theorem get_mem {M : EscapeCodes} {k : Nat} {b : CodeBucket} (h : EscapeCodes.get M k = some b) :
    (k, b) ∈ M := by
  induction M with
  | nil => simp [EscapeCodes.get] at h
  | cons kb M ih =>
    obtain ⟨k', b'⟩ := kb
    by_cases hk : k' = k
    · simp [EscapeCodes.get, hk] at h; simp [hk, h]
    · simp only [EscapeCodes.get, hk, if_false] at h
      exact List.mem_cons_of_mem _ (ih h)

theorem mem_get {M : EscapeCodes} {k : Nat} {b : CodeBucket} (hn : (M.map (·.1)).Nodup)
    (h : (k, b) ∈ M) : EscapeCodes.get M k = some b := by
  induction M with
  | nil => cases h
  | cons kb M ih =>
    obtain ⟨k', b'⟩ := kb
    simp only [List.map_cons, List.nodup_cons] at hn
    rcases List.mem_cons.mp h with h | h
    · cases h; simp [EscapeCodes.get]
    · have : k' ≠ k := fun e => hn.1 (e ▸ List.mem_map.mpr ⟨_, h, rfl⟩)
      simp only [EscapeCodes.get, this, if_false]
      exact ih hn.2 h

theorem get_addEscCode (M : EscapeCodes) (key code bits idx k : Nat) :
    EscapeCodes.get (addEscCode M key code bits idx) k =
      if key = k then some (((EscapeCodes.get M key).getD CodeBucket.new).addCode ⟨code, bits, idx⟩)
      else EscapeCodes.get M k := by
  induction M with
  | nil => by_cases h : key = k <;> simp [addEscCode, EscapeCodes.get, h]
  | cons kb M ih =>
    obtain ⟨k', b⟩ := kb
    by_cases h1 : k' = key
    · by_cases h2 : key = k
      · simp [addEscCode, EscapeCodes.get, h1, h2]
      · simp [addEscCode, EscapeCodes.get, h1, h2]
    · by_cases h2 : key = k
      · subst h2
        simp only [addEscCode, h1, if_false, EscapeCodes.get, ih, if_true]
      · by_cases h3 : k' = k
        · subst h3
          simp only [addEscCode, h1, if_false, EscapeCodes.get, h2, if_true]
        · simp only [addEscCode, h1, if_false, EscapeCodes.get, h3, ih]

theorem mem_keys_addEscCode {M : EscapeCodes} {key code bits idx k : Nat} :
    k ∈ (addEscCode M key code bits idx).map (·.1) ↔ k = key ∨ k ∈ M.map (·.1) := by
  induction M with
  | nil => simp [addEscCode]
  | cons kb M ih =>
    obtain ⟨k', b⟩ := kb
    by_cases h1 : k' = key
    · simp [addEscCode, h1]
    · simp only [addEscCode, h1, if_false, List.map_cons, List.mem_cons, ih]
      constructor
      · rintro (h | h | h) <;> simp [h]
      · rintro (h | h | h) <;> simp [h]

theorem nodup_addEscCode {M : EscapeCodes} {key code bits idx : Nat} (h : (M.map (·.1)).Nodup) :
    ((addEscCode M key code bits idx).map (·.1)).Nodup := by
  induction M with
  | nil => simp [addEscCode]
  | cons kb M ih =>
    obtain ⟨k', b⟩ := kb
    simp only [List.map_cons, List.nodup_cons] at h
    by_cases h1 : k' = key
    · simp only [addEscCode, h1, if_true, List.map_cons, List.nodup_cons]
      rw [← h1]; exact h
    · simp only [addEscCode, h1, if_false, List.map_cons, List.nodup_cons]
      refine ⟨fun hm => ?_, ih h.2⟩
      rcases mem_keys_addEscCode.mp hm with h2 | h2
      · exact h1 h2
      · exact h.1 h2

theorem mcost_addEscCode (M : EscapeCodes) (key code bits idx : Nat) :
    mcost (addEscCode M key code bits idx) ≤ mcost M + 1024 + cost1 ⟨code, bits, idx⟩ := by
  induction M with
  | nil => simp [addEscCode, mcost, CodeBucket.addCode, CodeBucket.new, cost]
  | cons kb M ih =>
    obtain ⟨k', b⟩ := kb
    by_cases h1 : k' = key
    · simp only [addEscCode, h1, if_true, mcost, List.map_cons, List.sum_cons, CodeBucket.addCode,
        cost_append]
      simp only [cost, List.map_cons, List.map_nil, List.sum_cons, List.sum_nil]
      omega
    · simp only [addEscCode, h1, if_false, mcost, List.map_cons, List.sum_cons] at ih ⊢
      omega

/-- `M` is the escape map of the codes `L`. -/
structure Grouped (m : Mode) (L : List Code) (M : EscapeCodes) : Prop where
  nodup : (M.map (·.1)).Nodup
  get : ∀ k, EscapeCodes.get M k = bucketOf (sub m L k)
  cost : mcost M ≤ cost L

theorem Grouped.nil (m : Mode) : Grouped m [] [] :=
  ⟨by simp, by intro k; simp [EscapeCodes.get, bucketOf, Codebook.sub], by simp [mcost, Codebook.cost]⟩

theorem Grouped.short {m : Mode} {L : List Code} {M : EscapeCodes} (h : Grouped m L M) {c : Code}
    (hc : c.bits ≤ 10) : Grouped m (L ++ [c]) M := by
  refine ⟨h.nodup, ?_, ?_⟩
  · intro k; rw [h.get, sub_append, sub_single_short hc, List.append_nil]
  · rw [cost_append]; have := h.cost; omega

theorem Grouped.long {m : Mode} {L : List Code} {M : EscapeCodes} (h : Grouped m L M) {c : Code}
    (hc : 10 < c.bits) :
    Grouped m (L ++ [c]) (addEscCode M (keyOf m c) (tailOf m c).code (c.bits - 10) c.idx) := by
  refine ⟨nodup_addEscCode h.nodup, ?_, ?_⟩
  · intro k
    rw [get_addEscCode, h.get, h.get, sub_append, sub_single_long hc]
    by_cases hk : keyOf m c = k
    · subst hk
      simp only [if_true]
      have htail : tailOf m c = ⟨(tailOf m c).code, c.bits - 10, c.idx⟩ := rfl
      unfold bucketOf
      by_cases hs : sub m L (keyOf m c) = []
      · simp only [hs, if_true, List.nil_append]
        simp [CodeBucket.addCode, CodeBucket.new, maxlen, tailOf]
        omega
      · simp only [hs, if_false, Option.getD_some, List.append_eq_nil_iff, false_and, CodeBucket.addCode,
          maxlen_append]
        simp only [← htail]
        congr 2
        simp only [tailOf]
        split <;> omega
    · simp only [hk, if_false, List.append_nil]
  · rw [cost_append]
    have h1 := mcost_addEscCode M (keyOf m c) (tailOf m c).code (c.bits - 10) c.idx
    have h2 := h.cost
    have h3 := cost1_long (m := m) hc
    have h4 : Codebook.cost [c] = cost1 c := by simp [Codebook.cost]
    have h5 : cost1 (tailOf m c) = cost1 ⟨(tailOf m c).code, c.bits - 10, c.idx⟩ := rfl
    omega

theorem bucketOf_some {L : List Code} {b : CodeBucket} (h : bucketOf L = some b) :
    L ≠ [] ∧ b.codes = L ∧ b.maxlen = maxlen L := by
  unfold bucketOf at h
  split at h
  · cases h
  · rename_i hn
    cases h
    exact ⟨hn, rfl, rfl⟩

theorem bucketOf_offset {L : List Code} {b : CodeBucket} (h : bucketOf L = some b) : b.offset = 0 := by
  unfold bucketOf at h
  split at h
  · cases h
  · cases h; rfl

/-! ### the two parts of a long code -/

theorem maxLen_le (m : Mode) : maxLen m ≤ 255 := by cases m <;> decide

theorem extractLut_ok {m : Mode} {c : Code} (h1 : 10 < c.bits) (h2 : c.bits ≤ maxLen m) :
    extractLutPart c.code c.bits MAX_LUT_BITS m = .ok (keyOf m c) := by
  cases m
  · rw [maxLen] at h2
    simp only [extractLutPart, MAX_LUT_BITS, usub_ok (show 10 ≤ c.bits by omega), ok_bind, shr32,
      show c.bits - 10 < 32 by omega, if_true, keyOf, top, Nat.shiftRight_eq_div_pow]
  · simp only [extractLutPart, MAX_LUT_BITS, shl32_one (show 10 < 32 by omega), ok_bind, pure_eq_ok,
      keyOf, top, Nat.and_two_pow_sub_one_eq_mod]

theorem extractEsc_ok {m : Mode} {c : Code} (h1 : 10 < c.bits) (h2 : c.bits ≤ maxLen m) :
    extractEscPart c.code c.bits MAX_LUT_BITS m = .ok (tailOf m c).code := by
  cases m
  · rw [maxLen] at h2
    simp only [extractEscPart, MAX_LUT_BITS, usub_ok (show 10 ≤ c.bits by omega), ok_bind,
      shl32_one (show c.bits - 10 < 32 by omega), pure_eq_ok, tailOf, rest, Nat.and_two_pow_sub_one_eq_mod]
  · simp only [extractEscPart, MAX_LUT_BITS, shr32, show (10 : Nat) < 32 by omega, if_true, tailOf, rest,
      Nat.shiftRight_eq_div_pow]

theorem nodup_subset_length {l l' : List Nat} (hn : l.Nodup) (hs : ∀ x ∈ l, x ∈ l') :
    l.length ≤ l'.length := by
  induction l generalizing l' with
  | nil => simp
  | cons a l ih =>
    rw [List.nodup_cons] at hn
    have ha := hs a (by simp)
    have h1 := ih (l' := l'.erase a) hn.2 (by
      intro x hx
      have : x ≠ a := fun e => hn.1 (e ▸ hx)
      exact (List.mem_erase_of_ne this).mpr (hs x (by simp [hx])))
    rw [List.length_erase_of_mem ha] at h1
    have : 0 < l'.length := List.length_pos_of_mem ha
    simp; omega

end Verif.Codebook
