import Verif.Codebook.Count

/-! # Helper lemmas: the table built by `build_esc_lut` is a trie of the codes -/

namespace Verif.Codebook
open Verif Verif.BitRead

/-- The table at `off` decodes the codes `L`; only entries in `F` are looked at. -/
def NodeOK (m : Mode) : Nat → List Nat → (Nat → Prop) → Nat → List Code → Prop
  | 0, _, _, _, _ => False
  | d + 1, T, F, off, L =>
    ∀ i, i < 2 ^ nb L → F (off + i) ∧
      ((∃ c ∈ L, c.bits ≤ nb L ∧ top m (nb L) c.bits i = c.code ∧
          T[off + i]? = some (leafVal c.idx c.bits)) ∨
       ((∀ c ∈ L, c.bits ≤ nb L → top m (nb L) c.bits i ≠ c.code) ∧
        ((sub m L i = [] ∧ T[off + i]? = some FILL) ∨
         (sub m L i ≠ [] ∧ ∃ o, o < 2 ^ 24 ∧ T[off + i]? = some (escVal o (nb (sub m L i))) ∧
            NodeOK m d T F o (sub m L i)))))

theorem NodeOK.mono {m : Mode} {d : Nat} {T T' : List Nat} {F F' : Nat → Prop} {off : Nat}
    {L : List Code} (h : NodeOK m d T F off L) (hF : ∀ j, F j → F' j)
    (hT : ∀ j, F j → j < T.length → T'[j]? = T[j]?) : NodeOK m d T' F' off L := by
  induction d generalizing off L with
  | zero => exact h
  | succ d ih =>
    intro i hi
    obtain ⟨hf, hcase⟩ := h i hi
    have key : ∀ v, T[off + i]? = some v → T'[off + i]? = some v := by
      intro v hv
      rw [hT _ hf (List.getElem?_eq_some_iff.mp hv).1, hv]
    refine ⟨hF _ hf, ?_⟩
    rcases hcase with ⟨c, h1, h2, h3, h4⟩ | ⟨hno, ⟨h1, h2⟩ | ⟨h1, o, h2, h3, h4⟩⟩
    · exact .inl ⟨c, h1, h2, h3, key _ h4⟩
    · exact .inr ⟨hno, .inl ⟨h1, key _ h2⟩⟩
    · exact .inr ⟨hno, .inr ⟨h1, o, h2, key _ h3, ih h4⟩⟩

/-- The last code that starts the table index `i`. -/
def hitOf (m : Mode) (w i : Nat) (L : List Code) : Option Code :=
  L.reverse.find? fun c => decide (top m w c.bits i = c.code)

theorem hitOf_snoc (m : Mode) (w i : Nat) (L : List Code) (c : Code) :
    hitOf m w i (L ++ [c]) = if top m w c.bits i = c.code then some c else hitOf m w i L := by
  unfold hitOf
  simp only [List.reverse_append, List.reverse_cons, List.reverse_nil, List.nil_append,
    List.singleton_append, List.find?_cons]
  by_cases h : top m w c.bits i = c.code <;> simp [h]

theorem hitOf_some {m : Mode} {w i : Nat} {L : List Code} {c : Code} (h : hitOf m w i L = some c) :
    c ∈ L ∧ top m w c.bits i = c.code := by
  refine ⟨List.mem_reverse.mp (List.mem_of_find?_eq_some h), ?_⟩
  simpa using List.find?_some h

theorem hitOf_none {m : Mode} {w i : Nat} {L : List Code} :
    hitOf m w i L = none ↔ ∀ c ∈ L, top m w c.bits i ≠ c.code := by
  simp [hitOf]

/-- The codes that end in the first table. -/
def shorts (L : List Code) : List Code := L.filter fun c => decide (c.bits ≤ 10)

/-- The table at `off` holds the codes `L`, overlapping or not; only entries in `F` are looked at. Among
short codes the one listed last has the entry. Where a short code and longer ones meet, the short one
has the entry if `w` (in the first table, where it is written later) and the longer ones if not. -/
def TrieOK (m : Mode) : Bool → Nat → List Nat → (Nat → Prop) → Nat → List Code → Prop
  | _, 0, _, _, _, _ => False
  | w, d + 1, T, F, off, L =>
    ∀ i, i < 2 ^ nb L → F (off + i) ∧
      ((∃ c, hitOf m (nb L) i (shorts L) = some c ∧ (w = true ∨ sub m L i = []) ∧
          T[off + i]? = some (leafVal c.idx c.bits)) ∨
       (hitOf m (nb L) i (shorts L) = none ∧ sub m L i = [] ∧ T[off + i]? = some FILL) ∨
       (sub m L i ≠ [] ∧ (w = true → hitOf m (nb L) i (shorts L) = none) ∧
          ∃ o, o < 2 ^ 24 ∧ T[off + i]? = some (escVal o (nb (sub m L i))) ∧
            TrieOK m false d T F o (sub m L i)))

theorem TrieOK.mono {m : Mode} {w : Bool} {d : Nat} {T T' : List Nat} {F F' : Nat → Prop} {off : Nat}
    {L : List Code} (h : TrieOK m w d T F off L) (hF : ∀ j, F j → F' j)
    (hT : ∀ j, F j → j < T.length → T'[j]? = T[j]?) : TrieOK m w d T' F' off L := by
  induction d generalizing w off L with
  | zero => exact h
  | succ d ih =>
    intro i hi
    obtain ⟨hf, hcase⟩ := h i hi
    have key : ∀ v, T[off + i]? = some v → T'[off + i]? = some v := by
      intro v hv
      rw [hT _ hf (List.getElem?_eq_some_iff.mp hv).1, hv]
    refine ⟨hF _ hf, ?_⟩
    rcases hcase with ⟨c, h1, h2, h3⟩ | ⟨h1, h2, h3⟩ | ⟨h1, h2, o, h3, h4, h5⟩
    · exact .inl ⟨c, h1, h2, key _ h3⟩
    · exact .inr (.inl ⟨h1, h2, key _ h3⟩)
    · exact .inr (.inr ⟨h1, h2, o, h3, key _ h4, ih h5⟩)

/-- The same where the entries that no code asks for are those of `prev`; tables below are in `F`. -/
def TrieOver (m : Mode) (w : Bool) (d : Nat) (T : List Nat) (F : Nat → Prop) (prev : Nat → Option Nat) (off : Nat)
    (L : List Code) : Prop :=
  ∀ i, i < 2 ^ nb L →
    (∃ c, hitOf m (nb L) i (shorts L) = some c ∧ (w = true ∨ sub m L i = []) ∧
        T[off + i]? = some (leafVal c.idx c.bits)) ∨
     (hitOf m (nb L) i (shorts L) = none ∧ sub m L i = [] ∧ T[off + i]? = prev i) ∨
     (sub m L i ≠ [] ∧ (w = true → hitOf m (nb L) i (shorts L) = none) ∧
        ∃ o, o < 2 ^ 24 ∧ T[off + i]? = some (escVal o (nb (sub m L i))) ∧
          TrieOK m false d T F o (sub m L i))

theorem TrieOver.ok {m : Mode} {w : Bool} {d : Nat} {T : List Nat} {F G : Nat → Prop} {prev : Nat → Option Nat}
    {off : Nat} {L : List Code} (h : TrieOver m w d T G prev off L)
    (hf : ∀ i, i < 2 ^ nb L → prev i = some FILL) (hG : ∀ j, G j → F j) (hF : ∀ i, i < 2 ^ nb L → F (off + i)) :
    TrieOK m w (d + 1) T F off L := by
  intro i hi
  have h2 := h i hi
  rw [hf i hi] at h2
  refine ⟨hF i hi, ?_⟩
  rcases h2 with h2 | h2 | ⟨k1, k2, o, k3, k4, k5⟩
  · exact .inl h2
  · exact .inr (.inl h2)
  · exact .inr (.inr ⟨k1, k2, o, k3, k4, k5.mono hG fun _ _ _ => rfl⟩)

/-- State of the construction of one node: short codes `D` are filled in, the parts `A` (key, offset)
are allocated; `w` tells whether short codes may still be written over escapes. -/
structure PInv (w : Bool) (m : Mode) (L : List Code) (T0 : List Nat) (off : Nat) (T : List Nat) (D : List Code)
    (A : List (Nat × Nat)) : Prop where
  reg : off + 2 ^ nb L ≤ T0.length
  len : T0.length ≤ T.length
  cap : T.length = T0.length + (A.map fun a => 2 ^ nb (sub m L a.1)).sum
  mem : ∀ c ∈ D, c ∈ L ∧ c.bits ≤ 10
  leaf : ∀ i c, i < 2 ^ nb L → hitOf m (nb L) i D = some c → (w = true ∨ i ∉ A.map (·.1)) →
    T[off + i]? = some (leafVal c.idx c.bits)
  keys : (A.map (·.1)).Nodup
  esc : ∀ ko ∈ A, sub m L ko.1 ≠ [] ∧ ko.2 < 2 ^ 24 ∧
    ((w = true → hitOf m (nb L) ko.1 D = none) →
      T[off + ko.1]? = some (escVal ko.2 (nb (sub m L ko.1))))
  fill : ∀ i, i < 2 ^ nb L → i ∉ A.map (·.1) → hitOf m (nb L) i D = none →
    T[off + i]? = T0[off + i]?
  part : ∀ ko ∈ A, T0.length ≤ ko.2 ∧ ko.2 + 2 ^ nb (sub m L ko.1) ≤ T.length ∧
    ∀ j, ko.2 ≤ j → j < ko.2 + 2 ^ nb (sub m L ko.1) → T[j]? = some FILL
  disj : A.Pairwise fun a b => a.2 + 2 ^ nb (sub m L a.1) ≤ b.2 ∨ b.2 + 2 ^ nb (sub m L b.1) ≤ a.2
  frame : ∀ j, j < T0.length → (j < off ∨ off + 2 ^ nb L ≤ j) → T[j]? = T0[j]?

theorem PInv.init {w : Bool} {m : Mode} {L : List Code} {T0 : List Nat} {off : Nat}
    (hr : off + 2 ^ nb L ≤ T0.length) : PInv w m L T0 off T0 [] [] where
  reg := hr
  len := Nat.le_refl _
  cap := by simp
  mem := by simp
  leaf := by simp [hitOf]
  keys := by simp
  esc := by simp
  fill := fun _ _ _ _ => rfl
  part := by simp
  disj := by simp
  frame := fun _ _ _ => rfl

/-- A short code is no prefix of a long code, so it does not hit the key of one. -/
theorem short_long {m : Mode} {L : List Code} (hpf : PF m L) {c c' : Code}
    (hc : c ∈ L) (hcb : c.bits ≤ 10) (hc' : c' ∈ L) (hb' : 10 < c'.bits) :
    top m 10 c.bits (keyOf m c') ≠ c.code := by
  intro h
  rw [keyOf, top_top hcb (by omega)] at h
  have := hpf.eq hc hc' ⟨by omega, h⟩
  subst this; omega

/-- Two codes hitting the same entry are the same. -/
theorem hit_unique {m : Mode} {L : List Code} (hpf : PF m L) {w i : Nat} {a b : Code} (ha : a ∈ L)
    (hb : b ∈ L) (haw : a.bits ≤ w) (hbw : b.bits ≤ w) (h1 : top m w a.bits i = a.code)
    (h2 : top m w b.bits i = b.code) : a = b := by
  rcases Nat.le_total a.bits b.bits with h | h
  · refine hpf.eq ha hb ⟨h, ?_⟩
    rw [← h2, top_top h hbw, h1]
  · refine (hpf.eq hb ha ⟨h, ?_⟩).symm
    rw [← h1, top_top h haw, h2]

theorem key_lt {m : Mode} {n : Nat} {L : List Code} (hwf : CWF n L) {k : Nat} (h : sub m L k ≠ []) :
    nb L = 10 ∧ k < 2 ^ nb L ∧ ∃ c ∈ L, 10 < c.bits ∧ keyOf m c = k := by
  obtain ⟨c', hc'⟩ := List.exists_mem_of_ne_nil _ h
  obtain ⟨c, h1, h2, h3, _⟩ := mem_sub.mp hc'
  have hn := nb_of_long h1 h2
  refine ⟨hn, ?_, c, h1, h2, h3⟩
  rw [hn, ← h3]
  exact top_lt (hwf c h1).2.2.1 (by omega)

theorem PInv.fillCode {w : Bool} {m : Mode} {n : Nat} {L : List Code} {T0 T : List Nat} {off : Nat}
    {D : List Code} {A : List (Nat × Nat)} (h : PInv w m L T0 off T D A) (hwA : w = true ∨ A = [])
    (hwf : CWF n L) {c : Code} (hc : c ∈ L) (hb : c.bits ≤ 10) :
    ∃ T', fillLut m T off c.code c.bits (nb L) (c.idx % 2 ^ 32) false = .ok T' ∧
      PInv w m L T0 off T' (D ++ [c]) A := by
  obtain ⟨w1, w2, w3, w4⟩ := hwf c hc
  rw [Nat.mod_eq_of_lt (by omega)]
  obtain ⟨T', f1, f2, f3, f4⟩ := fillLut_leaf (m := m) (t := T) (off := off) (s := c.idx)
    (bits_le_nb hc hb) (nb_le L) w3 (by have := h.reg; have := h.len; omega)
  have hbn := bits_le_nb hc hb
  refine ⟨T', f1, ⟨h.reg, by rw [f2]; exact h.len, by rw [f2]; exact h.cap, ?_, ?_, h.keys, ?_, ?_, ?_, h.disj, ?_⟩⟩
  · intro c' hc'
    rcases List.mem_append.mp hc' with hc' | hc'
    · exact h.mem c' hc'
    · simp only [List.mem_singleton] at hc'; subst hc'; exact ⟨hc, hb⟩
  · intro i c' hi ht hw
    rw [hitOf_snoc] at ht
    by_cases hh : top m (nb L) c.bits i = c.code
    · rw [if_pos hh] at ht
      cases ht
      exact f3 i hi hh
    · rw [if_neg hh] at ht
      rw [f4]
      · exact h.leaf i c' hi ht hw
      · intro i' _ hi' heq
        have : i' = i := by omega
        subst this; exact hh hi'
  · intro ko hko
    obtain ⟨e1, e2, e3⟩ := h.esc ko hko
    refine ⟨e1, e2, fun hnone => ?_⟩
    rcases hwA with hw | hA
    · have h0 := hnone hw
      rw [hitOf_snoc] at h0
      by_cases hh : top m (nb L) c.bits ko.1 = c.code
      · rw [if_pos hh] at h0; cases h0
      · rw [if_neg hh] at h0
        rw [f4, e3 fun _ => h0]
        intro i' _ hi' heq
        have hik : i' = ko.1 := by omega
        rw [hik] at hi'
        exact hh hi'
    · rw [hA] at hko; cases hko
  · intro i hi hA hD
    rw [hitOf_snoc] at hD
    by_cases hh : top m (nb L) c.bits i = c.code
    · rw [if_pos hh] at hD; cases hD
    · rw [if_neg hh] at hD
      rw [f4]
      · exact h.fill i hi hA hD
      · intro i' _ hi' heq
        have : i' = i := by omega
        subst this
        exact hh hi'
  · intro ko hko
    obtain ⟨p1, p2, p3⟩ := h.part ko hko
    refine ⟨p1, by rw [f2]; exact p2, ?_⟩
    intro j h1 h2
    rw [f4]
    · exact p3 j h1 h2
    · intro i' hi' _ heq
      have := h.reg; omega
  · intro j hj hj'
    rw [f4]
    · exact h.frame j hj hj'
    · intro i' hi' _ heq; omega

theorem PInv.alloc {w : Bool} {m : Mode} {n : Nat} {L : List Code} {T0 T : List Nat} {off : Nat}
    {D : List Code} {A : List (Nat × Nat)} (h : PInv w m L T0 off T D A)
    (hwf : CWF n L) {k : Nat} {b : CodeBucket} (hs : sub m L k ≠ [])
    (hw : w = true → hitOf m (nb L) k D = none)
    (hml : b.maxlen = maxlen (sub m L k)) (hk : k ∉ A.map (·.1)) (hsz : T.length < 2 ^ 24) :
    ∃ T', allocBucket m T off k b = .ok (T', { b with offset := T.length }) ∧
      PInv w m L T0 off T' D ((k, T.length) :: A) ∧ T'.length = T.length + 2 ^ nb (sub m L k) := by
  obtain ⟨k1, k2, c', k3, k4, k5⟩ := key_lt hwf hs
  have hnb : min b.maxlen MAX_LUT_BITS = nb (sub m L k) := by rw [hml]; rfl
  have hnle := nb_le (sub m L k)
  have h1024 := pow_le_1024 hnle
  have hpos := Nat.two_pow_pos (nb (sub m L k))
  have hreg := h.reg
  have hlen := h.len
  let T1 := T ++ List.replicate (2 ^ nb (sub m L k)) FILL
  have hT1 : T1.length = T.length + 2 ^ nb (sub m L k) := by simp [T1]
  have hlt : off + k < T.length := by omega
  have hset : ∀ j, j ≠ off + k → (T1.set (off + k) (escVal T.length (nb (sub m L k))))[j]? = T1[j]? :=
    fun j hj => List.getElem?_set_ne (Ne.symm hj)
  have hold : ∀ j, j < T.length → T1[j]? = T[j]? := fun j hj => List.getElem?_append_left hj
  refine ⟨T1.set (off + k) (escVal T.length (nb (sub m L k))), ?_,
    ⟨hreg, by simp; omega, ?_, h.mem, ?_, ?_, ?_, ?_, ?_, ?_, ?_⟩, by simp; omega⟩
  · unfold allocBucket resizeTable
    rw [hnb]
    simp only [shl32_one (show nb (sub m L k) < 32 by omega), ok_bind, pure_eq_ok]
    rw [Nat.mod_eq_of_lt (by omega), fillLut_esc (show off + k < T1.length by omega)]
    rfl
  · have := h.cap
    simp only [List.length_set, hT1, List.map_cons, List.sum_cons]; omega
  · intro i c hi ht hor
    have hne : i ≠ k := by
      intro e
      rcases hor with hw' | hnot
      · rw [e, hw hw'] at ht; cases ht
      · exact hnot (by simp [e])
    rw [hset _ (by omega), hold _ (by omega)]
    refine h.leaf i c hi ht (hor.imp id fun hnot hm => hnot ?_)
    simp only [List.map_cons, List.mem_cons]
    exact .inr hm
  · simp only [List.map_cons, List.nodup_cons]; exact ⟨hk, h.keys⟩
  · intro ko hko
    rcases List.mem_cons.mp hko with rfl | hko
    · refine ⟨hs, by simp only; omega, fun _ => ?_⟩
      exact List.getElem?_set_self (by omega)
    · obtain ⟨e1, e2, e3⟩ := h.esc ko hko
      have hne : ko.1 ≠ k := fun e => hk (e ▸ List.mem_map.mpr ⟨ko, hko, rfl⟩)
      refine ⟨e1, e2, fun hnone => ?_⟩
      have e4 := e3 hnone
      have := (List.getElem?_eq_some_iff.mp e4).1
      rw [hset _ (by omega), hold _ this, e4]
  · intro i hi hA hD
    simp only [List.map_cons, List.mem_cons, not_or] at hA
    rw [hset _ (by omega), hold _ (by omega)]
    exact h.fill i hi hA.2 hD
  · intro ko hko
    rcases List.mem_cons.mp hko with rfl | hko
    · refine ⟨hlen, by simp [hT1], ?_⟩
      intro j h1 h2
      simp only at h1 h2
      rw [hset _ (by omega)]
      simp only [T1]
      rw [List.getElem?_append_right h1, List.getElem?_replicate, if_pos (by omega)]
    · obtain ⟨p1, p2, p3⟩ := h.part ko hko
      refine ⟨p1, by simp only [List.length_set, hT1]; omega, ?_⟩
      intro j h1 h2
      rw [hset _ (by omega), hold _ (by omega)]
      exact p3 j h1 h2
  · rw [List.pairwise_cons]
    refine ⟨?_, h.disj⟩
    intro b hb
    have := (h.part b hb).2.1
    exact .inr this
  · intro j hj hj'
    rw [hset _ (by omega), hold _ (by omega)]
    exact h.frame j hj hj'

/-! ### the first loop of `build_esc_lut` -/

theorem escFold {m : Mode} {L : List Code} {T0 : List Nat} {off : Nat} (hwf : CWF (maxLen m) L)
    (post pre : List Code) (hL : pre ++ post = L) {T : List Nat} {M : EscapeCodes}
    (hP : PInv false m L T0 off T (shorts pre) []) (hM : Grouped m pre M) :
    ∃ T' M', post.foldlM (escStep m off (nb L)) (T, M) = .ok (T', M') ∧
      PInv false m L T0 off T' (shorts L) [] ∧ Grouped m L M' := by
  induction post generalizing pre T M with
  | nil =>
    simp only [List.append_nil] at hL
    subst hL
    exact ⟨T, M, rfl, hP, hM⟩
  | cons c post ih =>
    have hc : c ∈ L := by rw [← hL]; simp
    obtain ⟨w1, w2, w3, w4⟩ := hwf c hc
    by_cases hb : c.bits ≤ 10
    · obtain ⟨T', f1, f2⟩ := hP.fillCode (.inr rfl) hwf hc hb
      have e1 : shorts (pre ++ [c]) = shorts pre ++ [c] := by simp [shorts, hb]
      obtain ⟨T2, M2, a1, a2⟩ := ih (pre ++ [c]) (by simp [hL]) (by rw [e1]; exact f2) (hM.short hb)
      refine ⟨T2, M2, ?_, a2⟩
      simp only [List.foldlM_cons, escStep, MAX_LUT_BITS, hb, if_true, f1, ok_bind, pure_eq_ok]
      exact a1
    · have e1 : shorts (pre ++ [c]) = shorts pre := by simp [shorts, hb]
      obtain ⟨T2, M2, a1, a2⟩ := ih (pre ++ [c]) (by simp [hL]) (by rw [e1]; exact hP)
        (hM.long (by omega))
      refine ⟨T2, M2, ?_, a2⟩
      simp only [List.foldlM_cons, escStep, extractLut_ok (m := m) (show 10 < c.bits by omega) w2,
        extractEsc_ok (m := m) (show 10 < c.bits by omega) w2, ok_bind, pure_eq_ok]
      rw [if_neg (by simpa [MAX_LUT_BITS] using hb)]
      exact a1

/-! ### the second loop -/

def ofs (kb : Nat × CodeBucket) : Nat × Nat := (kb.1, kb.2.offset)

/-- Space the codes of a list of buckets need. -/
def qcost (Q : EscapeCodes) : Nat := (Q.map fun kb => cost kb.2.codes).sum

theorem allocFold {m : Mode} {L : List Code} {T0 : List Nat} {off : Nat} (hwf : CWF (maxLen m) L)
    (todo : EscapeCodes) {T : List Nat} {Q : EscapeCodes} {D : List Code}
    (hP : PInv false m L T0 off T D (Q.map ofs).reverse)
    (hQ : ∀ kb ∈ Q, IsBucket m L kb) (ht : ∀ kb ∈ todo, IsBucket m L kb)
    (hn : ((Q ++ todo).map (·.1)).Nodup) (hsz : T.length + (todo.map fun kb => 2 ^ nb kb.2.codes).sum ≤ 2 ^ 24) :
    ∃ T' Q', todo.foldlM (allocStep m off) (T, Q) = .ok (T', Q') ∧
      PInv false m L T0 off T' D (Q'.map ofs).reverse ∧ (∀ kb ∈ Q', IsBucket m L kb) ∧
      Q'.map (·.1) = (Q ++ todo).map (·.1) ∧
      T'.length = T.length + (todo.map fun kb => 2 ^ nb kb.2.codes).sum := by
  induction todo generalizing T Q with
  | nil => exact ⟨T, Q, rfl, hP, hQ, by simp, by simp⟩
  | cons kb todo ih =>
    obtain ⟨k, b⟩ := kb
    have hkb := ht (k, b) (by simp)
    have hpos := Nat.two_pow_pos (nb (sub m L k))
    have hcod : b.codes = sub m L k := hkb.2.1
    rw [List.map_cons, List.sum_cons] at hsz ⊢
    simp only [hcod] at hsz ⊢
    have hsz1 : T.length < 2 ^ 24 := by omega
    have hk : k ∉ ((Q.map ofs).reverse).map (·.1) := by
      intro hk
      simp only [List.map_reverse, List.mem_reverse, List.mem_map] at hk
      obtain ⟨_, ⟨kb', h1, rfl⟩, h2⟩ := hk
      rw [List.map_append, List.nodup_append] at hn
      exact hn.2.2 kb'.1 (List.mem_map.mpr ⟨kb', h1, rfl⟩) k (by simp) h2
    obtain ⟨T1, f1, f2, f3⟩ := hP.alloc hwf (k := k) (b := b) hkb.1 (fun h => nomatch h) hkb.2.2 hk hsz1
    obtain ⟨T2, Q2, a1, a2, a3, a4, a5⟩ := ih (T := T1) (Q := Q ++ [(k, { b with offset := T.length })])
      (by simpa [ofs] using f2)
      (by
        intro kb' hkb'
        rcases List.mem_append.mp hkb' with h | h
        · exact hQ kb' h
        · simp only [List.mem_singleton] at h; subst h; exact hkb)
      (fun kb' h => ht kb' (by simp [h])) (by simpa using hn) (by omega)
    refine ⟨T2, Q2, ?_, a2, a3, by simpa using a4, by omega⟩
    simp only [List.foldlM_cons, allocStep, f1, ok_bind, pure_eq_ok]
    exact a1

/-! ### the third loop -/

/-- What the construction of a node guarantees; `g` is the size of the node with all below it. -/
def BuildSpec (m : Mode) (d g : Nat) (build : List Nat → Rust (List Nat)) (T : List Nat) (off : Nat)
    (L : List Code) : Prop :=
  ∃ T', build T = .ok T' ∧ T.length ≤ T'.length ∧ T'.length + 2 ^ nb L = T.length + g ∧
    TrieOK m false d T' (fun j => (off ≤ j ∧ j < off + 2 ^ nb L) ∨ T.length ≤ j) off L ∧
    ∀ j, j < T.length → (j < off ∨ off + 2 ^ nb L ≤ j) → T'[j]? = T[j]?

theorem buildFold {m : Mode} {d : Nat} {build : List Nat → Nat × CodeBucket → Rust (List Nat)}
    (Q : EscapeCodes) (T : List Nat) (B : Nat) (g : List Code → Nat) (hg : ∀ kb ∈ Q, 2 ^ nb kb.2.codes ≤ g kb.2.codes)
    (hb : ∀ kb ∈ Q, ∀ T : List Nat, kb.2.offset + 2 ^ nb kb.2.codes ≤ T.length →
      (∀ i, i < 2 ^ nb kb.2.codes → T[kb.2.offset + i]? = some FILL) →
      T.length + g kb.2.codes ≤ B + 2 ^ nb kb.2.codes →
      BuildSpec m d (g kb.2.codes) (fun T => build T kb) T kb.2.offset kb.2.codes)
    (hreg : ∀ kb ∈ Q, kb.2.offset + 2 ^ nb kb.2.codes ≤ T.length)
    (hfill : ∀ kb ∈ Q, ∀ i, i < 2 ^ nb kb.2.codes → T[kb.2.offset + i]? = some FILL)
    (hdisj : Q.Pairwise fun a b => a.2.offset + 2 ^ nb a.2.codes ≤ b.2.offset ∨
      b.2.offset + 2 ^ nb b.2.codes ≤ a.2.offset)
    (hsz : T.length + (Q.map fun kb => g kb.2.codes).sum ≤ B + (Q.map fun kb => 2 ^ nb kb.2.codes).sum) :
    ∃ T', Q.foldlM build T = .ok T' ∧ T.length ≤ T'.length ∧
      T'.length + (Q.map fun kb => 2 ^ nb kb.2.codes).sum = T.length + (Q.map fun kb => g kb.2.codes).sum ∧
      (∀ kb ∈ Q, TrieOK m false d T'
        (fun j => (kb.2.offset ≤ j ∧ j < kb.2.offset + 2 ^ nb kb.2.codes) ∨ T.length ≤ j)
        kb.2.offset kb.2.codes) ∧
      ∀ j, j < T.length → (∀ kb ∈ Q, j < kb.2.offset ∨ kb.2.offset + 2 ^ nb kb.2.codes ≤ j) →
        T'[j]? = T[j]? := by
  induction Q generalizing T with
  | nil => exact ⟨T, rfl, Nat.le_refl _, by simp, by simp, fun _ _ _ => rfl⟩
  | cons kb Q ih =>
    simp only [List.map_cons, List.sum_cons] at hsz ⊢
    have hrest : (Q.map fun kb => 2 ^ nb kb.2.codes).sum ≤ (Q.map fun kb => g kb.2.codes).sum :=
      sum_le_sum fun kb' h => hg kb' (by simp [h])
    rw [List.pairwise_cons] at hdisj
    obtain ⟨T1, a1, a2, a3, a4, a5⟩ := hb kb (by simp) T (hreg kb (by simp)) (hfill kb (by simp)) (by omega)
    have hreg' : ∀ kb' ∈ Q, kb'.2.offset + 2 ^ nb kb'.2.codes ≤ T.length :=
      fun kb' h => hreg kb' (by simp [h])
    obtain ⟨T2, b1, b2, b3, b4, b5⟩ := ih T1 (fun kb' h => hg kb' (by simp [h]))
      (fun kb' h => hb kb' (by simp [h]))
      (fun kb' h => by have := hreg' kb' h; omega)
      (by
        intro kb' h i hi
        have h1 := hreg' kb' h
        have h2 := hdisj.1 kb' h
        rw [a5 _ (by omega) (by omega)]
        exact hfill kb' (by simp [h]) i hi)
      hdisj.2 (by omega)
    refine ⟨T2, ?_, by omega, by omega, ?_, ?_⟩
    · simp only at a1
      rw [List.foldlM_cons, a1]; exact b1
    · intro kb' h
      rcases List.mem_cons.mp h with rfl | h
      · refine a4.mono (fun _ h => h) ?_
        intro j hF hj
        refine b5 j hj ?_
        intro kb2 hkb2
        have h1 := hreg' kb2 hkb2
        have h2 := hdisj.1 kb2 hkb2
        omega
      · refine (b4 kb' h).mono ?_ (fun _ _ _ => rfl)
        intro j hj
        rcases hj with hj | hj
        · exact .inl hj
        · exact .inr (by omega)
    · intro j hj hnot
      rw [b5 j (by omega) (fun kb' h => hnot kb' (by simp [h])), a5 j hj (hnot kb (by simp))]

theorem qcost_perm {Q Q' : EscapeCodes} (h : Q.Perm Q') : qcost Q = qcost Q' := by
  unfold qcost
  exact (h.map _).sum_nat

theorem mcost_eq (M : EscapeCodes) : mcost M = 1024 * M.length + qcost M := by
  induction M with
  | nil => simp [mcost, qcost]
  | cons kb M ih =>
    simp only [mcost, qcost, List.map_cons, List.sum_cons, List.length_cons] at ih ⊢
    omega

theorem parts_disj {m : Mode} {L : List Code} (l : List (Nat × Nat)) (hl : l.Pairwise fun a b =>
      a.2 + 2 ^ nb (sub m L a.1) ≤ b.2 ∨ b.2 + 2 ^ nb (sub m L b.1) ≤ a.2) :
    ∀ x ∈ l, ∀ y ∈ l, x.1 ≠ y.1 →
      x.2 + 2 ^ nb (sub m L x.1) ≤ y.2 ∨ y.2 + 2 ^ nb (sub m L y.1) ≤ x.2 := by
  induction l with
  | nil => simp
  | cons z l ih =>
    rw [List.pairwise_cons] at hl
    intro x hx y hy hxy
    rcases List.mem_cons.mp hx with hx | hx
    · rcases List.mem_cons.mp hy with hy | hy
      · rw [hx, hy] at hxy; exact absurd rfl hxy
      · rw [hx]; exact hl.1 y hy
    · rcases List.mem_cons.mp hy with hy | hy
      · rw [hy]; exact (hl.1 x hx).symm
      · exact ih hl.2 x hx y hy hxy

/-- After all short codes are filled in, all parts allocated and all buckets built, the node decodes
its codes, over what was there before. -/
theorem finishNode {w : Bool} {m : Mode} {d : Nat} {L : List Code} {T0 T : List Nat} {off : Nat}
    {A : List (Nat × Nat)} {Q : EscapeCodes}
    {build : List Nat → Nat × CodeBucket → Rust (List Nat)}
    (hP : PInv w m L T0 off T (shorts L) A) (hQ : ∀ kb ∈ Q, IsBucket m L kb)
    (hA : ∀ kb ∈ Q, ofs kb ∈ A)
    (hn : (Q.map (·.1)).Nodup) (hall : ∀ k, sub m L k ≠ [] → k ∈ Q.map (·.1))
    (g : List Code → Nat) (hg : ∀ kb ∈ Q, 2 ^ nb kb.2.codes ≤ g kb.2.codes)
    (hsz : T.length + (Q.map fun kb => g kb.2.codes).sum ≤ 2 ^ 24 + (Q.map fun kb => 2 ^ nb kb.2.codes).sum)
    (hb : ∀ kb ∈ Q, ∀ T : List Nat, kb.2.offset + 2 ^ nb kb.2.codes ≤ T.length →
      (∀ i, i < 2 ^ nb kb.2.codes → T[kb.2.offset + i]? = some FILL) →
      T.length + g kb.2.codes ≤ 2 ^ 24 + 2 ^ nb kb.2.codes →
      BuildSpec m d (g kb.2.codes) (fun T => build T kb) T kb.2.offset kb.2.codes) :
    ∃ T', Q.foldlM build T = .ok T' ∧ T.length ≤ T'.length ∧
      T'.length + (Q.map fun kb => 2 ^ nb kb.2.codes).sum = T.length + (Q.map fun kb => g kb.2.codes).sum ∧
      TrieOver m w d T' (fun j => T0.length ≤ j) (fun i => T0[off + i]?) off L ∧
      ∀ j, j < T0.length → (j < off ∨ off + 2 ^ nb L ≤ j) → T'[j]? = T0[j]? := by
  have hreg := hP.reg
  have hlen := hP.len
  have hpart : ∀ kb ∈ Q, T0.length ≤ kb.2.offset ∧ kb.2.offset + 2 ^ nb kb.2.codes ≤ T.length ∧
      ∀ j, kb.2.offset ≤ j → j < kb.2.offset + 2 ^ nb kb.2.codes → T[j]? = some FILL := by
    intro kb hkb
    have := hP.part (ofs kb) (hA kb hkb)
    rw [(hQ kb hkb).2.1]
    exact this
  have hdisj : Q.Pairwise fun a b => a.2.offset + 2 ^ nb a.2.codes ≤ b.2.offset ∨
      b.2.offset + 2 ^ nb b.2.codes ≤ a.2.offset := by
    have hn' : Q.Pairwise fun a b => a.1 ≠ b.1 := by
      have := hn; unfold List.Nodup at this; rwa [List.pairwise_map] at this
    refine List.Pairwise.imp_of_mem ?_ hn'
    intro a b ha hb hab
    rw [(hQ a ha).2.1, (hQ b hb).2.1]
    exact parts_disj A hP.disj (ofs a) (hA a ha) (ofs b) (hA b hb) hab
  obtain ⟨T', a1, a2, a3, a4, a5⟩ := buildFold Q T (2 ^ 24) g hg hb (fun kb h => (hpart kb h).2.1)
    (fun kb h i hi => (hpart kb h).2.2 _ (by omega) (by omega)) hdisj hsz
  have hkeep : ∀ j, j < T0.length → T'[j]? = T[j]? := by
    intro j hj
    refine a5 j (by omega) ?_
    intro kb hkb
    have := (hpart kb hkb).1
    omega
  refine ⟨T', a1, a2, a3, ?_, ?_⟩
  · intro i hi
    have hk : T'[off + i]? = T[off + i]? := hkeep _ (by omega)
    rw [hk]
    have hAs : i ∈ A.map (·.1) → sub m L i ≠ [] := by
      intro hmem
      obtain ⟨ko, h1, h2⟩ := List.mem_map.mp hmem
      rw [← h2]; exact (hP.esc ko h1).1
    have hesc : sub m L i ≠ [] → (w = true → hitOf m (nb L) i (shorts L) = none) →
        ∃ o, o < 2 ^ 24 ∧ T[off + i]? = some (escVal o (nb (sub m L i))) ∧ TrieOK m false d T'
          (fun j => T0.length ≤ j) o (sub m L i) := by
      intro hs hw
      obtain ⟨kb, h1, h2⟩ := List.mem_map.mp (hall i hs)
      obtain ⟨e1, e2, e3⟩ := hP.esc (ofs kb) (hA kb h1)
      simp only [ofs] at e1 e2 e3
      rw [h2] at e3
      refine ⟨kb.2.offset, e2, e3 hw, ?_⟩
      have hnode := a4 kb h1
      rw [(hQ kb h1).2.1, h2] at hnode
      refine hnode.mono ?_ (fun _ _ _ => rfl)
      intro j hj
      have := (hpart kb h1).1
      omega
    cases hhit : hitOf m (nb L) i (shorts L) with
    | some c =>
      by_cases hs : w = true ∨ sub m L i = []
      · refine .inl ⟨c, rfl, hs, hP.leaf i c hi hhit (hs.imp id fun h hm => hAs hm h)⟩
      · simp only [not_or] at hs
        refine .inr (.inr ⟨hs.2, fun h => absurd h hs.1, hesc hs.2 fun h => absurd h hs.1⟩)
    | none =>
      by_cases hs : sub m L i = []
      · exact .inr (.inl ⟨rfl, hs, hP.fill i hi (fun hm => hAs hm hs) hhit⟩)
      · exact .inr (.inr ⟨hs, fun _ => rfl, hesc hs fun _ => hhit⟩)
  · intro j hj hj'
    rw [hkeep j hj, hP.frame j hj hj']

/-- What the construction of a node guarantees when something may have been there before. -/
def OverSpec (m : Mode) (d g : Nat) (build : List Nat → Rust (List Nat)) (T : List Nat) (off : Nat)
    (L : List Code) : Prop :=
  ∃ T', build T = .ok T' ∧ T.length ≤ T'.length ∧ T'.length + 2 ^ nb L = T.length + g ∧
    TrieOver m false d T' (fun j => T.length ≤ j) (fun i => T[off + i]?) off L ∧
    ∀ j, j < T.length → (j < off ∨ off + 2 ^ nb L ≤ j) → T'[j]? = T[j]?

theorem buildEscLut_node {ord : Order} (hord : ord.Valid) {m : Mode} (d fuel : Nat) (hd : d ≤ fuel)
    (ih : ∀ (path : List Nat) (b : CodeBucket) (T : List Nat), b.maxlen = maxlen b.codes →
      CWF (10 * d) b.codes → CWF (maxLen m) b.codes → b.codes ≠ [] → b.offset + 2 ^ nb b.codes ≤ T.length →
      (∀ i, i < 2 ^ nb b.codes → T[b.offset + i]? = some FILL) →
      T.length + tsize m fuel b.codes ≤ 2 ^ 24 + 2 ^ nb b.codes →
      BuildSpec m d (tsize m fuel b.codes) (fun T => buildEscLut ord m fuel path T b) T b.offset b.codes)
    (path : List Nat) (b : CodeBucket) (T : List Nat)
    (hml : b.maxlen = maxlen b.codes) (hwf : CWF (10 * (d + 1)) b.codes)
    (hd32 : CWF (maxLen m) b.codes)
    (hreg : b.offset + 2 ^ nb b.codes ≤ T.length)
    (hsz : T.length + tsize m (fuel + 1) b.codes ≤ 2 ^ 24 + 2 ^ nb b.codes) :
    OverSpec m d (tsize m (fuel + 1) b.codes) (fun T => buildEscLut ord m (fuel + 1) path T b) T b.offset
      b.codes := by
  have hnb : min b.maxlen MAX_LUT_BITS = nb b.codes := by rw [hml]; rfl
  obtain ⟨T1, M, a1, a2, a3⟩ := escFold (m := m) (T0 := T) (off := b.offset) hd32 b.codes [] rfl
    (PInv.init hreg) (Grouped.nil m)
  have hcap1 := a2.cap
  simp only [List.map_nil, List.sum_nil, Nat.add_zero] at hcap1
  have hCB : CB (maxLen m) b.codes := hd32.cb
  have hisb := a3.bucket
  have hp0 := hord path 0 M
  have hb0 : ∀ kb ∈ ord path 0 M, IsBucket m b.codes kb := fun kb h => hisb kb (hp0.mem_iff.mp h)
  have hk0 : ((ord path 0 M).map (·.1)).Perm (keys m b.codes) := (hp0.map _).trans (a3.keys hCB)
  have hs0 := sum_keys (fun l => 2 ^ nb l) hk0 hb0
  have hts : tsize m (fuel + 1) b.codes =
    2 ^ nb b.codes + ((keys m b.codes).map fun k => tsize m fuel (sub m b.codes k)).sum := rfl
  have hg : ∀ k ∈ keys m b.codes, 2 ^ nb (sub m b.codes k) ≤ tsize m fuel (sub m b.codes k) := by
    intro k hk
    obtain ⟨c', hc'⟩ := List.exists_mem_of_ne_nil _ ((mem_keys hCB).mp hk)
    have := hwf.sub (m := m) k c' hc'
    obtain ⟨f', rfl⟩ : ∃ f', fuel = f' + 1 := ⟨fuel - 1, by omega⟩
    exact Nat.le_add_right _ _
  have hsum := sum_le_sum hg
  obtain ⟨T2, Q, b1, b2, b3, b4, b6⟩ := allocFold (m := m) (T0 := T) (off := b.offset) hd32
    (ord path 0 M) (T := T1) (Q := []) (D := shorts b.codes) (by simpa using a2) (by simp)
    (fun kb h => hisb kb (hp0.mem_iff.mp h))
    (by simpa using (hp0.map (·.1)).nodup_iff.mpr a3.nodup) (by omega)
  have hp1 := hord path 1 Q
  have hkeysQ : (Q.map (·.1)).Perm (M.map (·.1)) := by
    rw [b4]; simpa using hp0.map (·.1)
  have hb1 : ∀ kb ∈ ord path 1 Q, IsBucket m b.codes kb := fun kb h => b3 kb (hp1.mem_iff.mp h)
  have hk1 : ((ord path 1 Q).map (·.1)).Perm (keys m b.codes) :=
    ((hp1.map _).trans hkeysQ).trans (a3.keys hCB)
  have hs1 := sum_keys (fun l => 2 ^ nb l) hk1 hb1
  have hs2 := sum_keys (fun l => tsize m fuel l) hk1 hb1
  obtain ⟨T3, c1, c2, c3, c4, c5⟩ := finishNode (d := d) (Q := ord path 1 Q)
    (build := fun t kb => buildEscLut ord m fuel (path ++ [kb.1]) t kb.2) b2
    (fun kb h => b3 kb (hp1.mem_iff.mp h))
    (fun kb h => by
      simp only [List.mem_reverse, List.mem_map]
      exact ⟨kb, hp1.mem_iff.mp h, rfl⟩)
    (((hp1.map (·.1)).trans hkeysQ).nodup_iff.mpr a3.nodup)
    (fun k hk => by
      rw [((hp1.map (·.1)).trans hkeysQ).mem_iff]
      apply Classical.byContradiction
      intro hnot
      have := get_none.mpr hnot
      rw [a3.get, bucketOf, if_neg hk] at this
      cases this)
    (tsize m fuel)
    (fun kb h => by
      rw [(hb1 kb h).2.1]
      exact hg _ ((mem_keys hCB).mpr (hb1 kb h).1))
    (by omega)
    (by
      intro kb hkb T h1 h2 h3
      obtain ⟨i1, i2, i3⟩ := b3 kb (hp1.mem_iff.mp hkb)
      refine ih _ kb.2 T (by rw [i2, i3]) ?_ ?_
        (by rw [i2]; exact i1) h1 h2 h3
      · rw [i2]
        intro c hc
        have := hwf.sub (m := m) kb.1 c hc
        exact ⟨this.1, by omega, this.2.2⟩
      · rw [i2]
        intro c hc
        have := hd32.sub (m := m) kb.1 c hc
        exact ⟨this.1, by omega, this.2.2⟩)
  refine ⟨T3, ?_, ?_, ?_, c4, c5⟩
  · simp only [buildEscLut, hnb, a1, ok_bind, b1]
    exact c1
  · have := a2.len; have := b2.len; omega
  · omega

theorem buildEscLut_spec {ord : Order} (hord : ord.Valid) {m : Mode} (d fuel : Nat) (hd : d ≤ fuel)
    (path : List Nat) (b : CodeBucket) (T : List Nat)
    (hml : b.maxlen = maxlen b.codes) (hwf : CWF (10 * d) b.codes)
    (hd32 : CWF (maxLen m) b.codes) (hne : b.codes ≠ [])
    (hreg : b.offset + 2 ^ nb b.codes ≤ T.length)
    (hfill : ∀ i, i < 2 ^ nb b.codes → T[b.offset + i]? = some FILL)
    (hsz : T.length + tsize m fuel b.codes ≤ 2 ^ 24 + 2 ^ nb b.codes) :
    BuildSpec m d (tsize m fuel b.codes) (fun T => buildEscLut ord m fuel path T b) T b.offset b.codes := by
  induction d generalizing fuel path b T with
  | zero =>
    obtain ⟨c, hc⟩ := List.exists_mem_of_ne_nil _ hne
    have := hwf c hc
    omega
  | succ d ih =>
    obtain ⟨fuel, rfl⟩ : ∃ f, fuel = f + 1 := ⟨fuel - 1, by omega⟩
    obtain ⟨T', a1, a2, a3, a4, a5⟩ := buildEscLut_node hord d fuel (by omega) (ih fuel (by omega)) path b T hml hwf
      hd32 hreg hsz
    exact ⟨T', a1, a2, a3, a4.ok hfill (fun _ => .inr) (fun i hi => .inl ⟨by omega, by omega⟩), a5⟩

/-- A bucket without a part of its own (its offset is 0): its codes are written over the first table. -/
theorem buildEscLut_over {ord : Order} (hord : ord.Valid) {m : Mode} (d fuel : Nat) (hd : d ≤ fuel)
    (path : List Nat) (b : CodeBucket) (T : List Nat)
    (hml : b.maxlen = maxlen b.codes) (hwf : CWF (10 * (d + 1)) b.codes)
    (hd32 : CWF (maxLen m) b.codes)
    (hreg : b.offset + 2 ^ nb b.codes ≤ T.length)
    (hsz : T.length + tsize m (fuel + 1) b.codes ≤ 2 ^ 24 + 2 ^ nb b.codes) :
    OverSpec m d (tsize m (fuel + 1) b.codes) (fun T => buildEscLut ord m (fuel + 1) path T b) T b.offset
      b.codes :=
  buildEscLut_node hord d fuel hd (buildEscLut_spec hord d fuel hd) path b T hml hwf hd32 hreg hsz

/-- For prefix-free codes no entry is contested. -/
theorem TrieOK.node {m : Mode} {w : Bool} {d : Nat} {T : List Nat} {F : Nat → Prop} {off n : Nat}
    {L : List Code} (hpf : PF m L) (hwf : CWF n L) (h : TrieOK m w d T F off L) : NodeOK m d T F off L := by
  induction d generalizing w off L n with
  | zero => exact h
  | succ d ih =>
    intro i hi
    obtain ⟨hf, hcase⟩ := h i hi
    have hno : hitOf m (nb L) i (shorts L) = none → ∀ c ∈ L, c.bits ≤ nb L → top m (nb L) c.bits i ≠ c.code := by
      intro hnone c hc hb
      have := nb_le L
      exact hitOf_none.mp hnone c (List.mem_filter.mpr ⟨hc, by simp; omega⟩)
    refine ⟨hf, ?_⟩
    rcases hcase with ⟨c, h1, h2, h3⟩ | ⟨h1, h2, h3⟩ | ⟨h1, h2, o, h3, h4, h5⟩
    · obtain ⟨k1, k2⟩ := hitOf_some h1
      obtain ⟨k3, k4⟩ := List.mem_filter.mp k1
      exact .inl ⟨c, k3, bits_le_nb k3 (by simpa using k4), k2, h3⟩
    · exact .inr ⟨hno h1, .inl ⟨h2, h3⟩⟩
    · refine .inr ⟨?_, .inr ⟨h1, o, h3, h4, ih (hpf.sub i) (hwf.sub i) h5⟩⟩
      obtain ⟨k1, k2, c', k3, k4, k5⟩ := key_lt hwf h1
      intro c hc hb ht
      rw [← k5, k1] at ht
      exact short_long hpf hc (by omega) k3 k4 ht

end Verif.Codebook
