import Verif.Codebook.New

/-! # Helper lemmas: `read_cb` walks the trie -/

namespace Verif.Codebook
open Verif Verif.BitRead

/-- What a peek of at most 10 bits returns, in any state of the reader. -/
theorem peek32_lt {e : Endian} {r r' : Reader} {n : Nat} {v : BitVec 32} (hn : n ≤ 10)
    (h : peek_bits_32 e r n = .ok (v, r')) : r' = r ∧ v.toNat < 2 ^ n := by
  simp only [peek_bits_32] at h
  cases hg : get_bits_32 e r n with
  | error p => rw [hg] at h; cases h
  | ok x =>
    rw [hg] at h
    simp only [ok_bind, pure_eq_ok, Except.ok.injEq, Prod.mk.injEq] at h
    refine ⟨h.2.symm, ?_⟩
    rw [← h.1]
    unfold get_bits_32 at hg
    by_cases h0 : n = 0
    · simp only [h0, if_true, Except.ok.injEq] at hg
      rw [← hg, h0]; simp
    · rw [if_neg h0] at hg
      cases hr : (if r.left ≤ n then refill32 e r else .ok r) with
      | error p => rw [hr] at hg; cases hg
      | ok r1 =>
        rw [hr] at hg
        obtain ⟨w, h1, h2⟩ := getVal_spec e r1 (n := n) (by omega)
        simp only [ok_bind, h1, pure_eq_ok, Except.ok.injEq] at hg
        rw [← hg]
        apply toNat_lt_of_bits
        intro i hi
        simp only [BitVec.getLsbD_setWidth]
        rw [h2]
        simp [Nat.not_lt.mpr hi]

theorem nodeEntry_unique {m : Mode} {d d' : Nat} {T T' : List Nat} {F F' : Nat → Prop} {off off' : Nat}
    {L : List Code} (hpf : PF m L) (h : NodeOK m (d + 1) T F off L) (h' : NodeOK m (d' + 1) T' F' off' L)
    {i : Nat} (hi : i < 2 ^ nb L) :
    (∃ v, T[off + i]? = some v ∧ T'[off' + i]? = some v ∧
      (v = FILL ∨ ∃ c ∈ L, v = leafVal c.idx c.bits ∧ c.bits ≤ nb L)) ∨
    (sub m L i ≠ [] ∧ ∃ o o', o < 2 ^ 24 ∧ o' < 2 ^ 24 ∧
      T[off + i]? = some (escVal o (nb (sub m L i))) ∧
      T'[off' + i]? = some (escVal o' (nb (sub m L i))) ∧
      NodeOK m d T F o (sub m L i) ∧ NodeOK m d' T' F' o' (sub m L i)) := by
  obtain ⟨_, hc⟩ := h i hi
  obtain ⟨_, hc'⟩ := h' i hi
  rcases hc with ⟨c, h1, h2, h3, h4⟩ | ⟨hno, hc⟩
  · rcases hc' with ⟨c', h1', h2', h3', h4'⟩ | ⟨hno', _⟩
    · have := hit_unique hpf h1 h1' h2 h2' h3 h3'
      subst this
      exact .inl ⟨_, h4, h4', .inr ⟨c, h1, rfl, h2⟩⟩
    · exact absurd h3 (hno' c h1 h2)
  · rcases hc' with ⟨c', h1', h2', h3', h4'⟩ | ⟨_, hc'⟩
    · exact absurd h3' (hno c' h1' h2')
    · rcases hc with ⟨h1, h2⟩ | ⟨h1, o, h2, h3, h4⟩
      · rcases hc' with ⟨_, h2'⟩ | ⟨h1', _⟩
        · exact .inl ⟨_, h2, h2', .inl rfl⟩
        · exact absurd h1 h1'
      · rcases hc' with ⟨h1', _⟩ | ⟨_, o', h2', h3', h4'⟩
        · exact absurd h1' h1
        · exact .inr ⟨h1, o, o', h2, h2', h3, h3', h4, h4'⟩

theorem idx_some {l : List α} {i : Nat} {v : α} (h : l[i]? = some v) : idx l i = .ok v := by
  simp [idx, h]

/-- Tables for the same codes read the same, whatever their layout. -/
theorem readLoop_same {e : Endian} {m : Mode} {T T' : List Nat} {F F' : Nat → Prop} (fuel : Nat)
    {d d' off off' : Nat} {L : List Code} (hpf : PF m L) (hwf : CWF (maxLen m) L)
    (h : NodeOK m d T F off L) (h' : NodeOK m d' T' F' off' L) (r : Reader) :
    readLoop e T fuel off (nb L) r = readLoop e T' fuel off' (nb L) r := by
  induction fuel generalizing d d' off off' L r with
  | zero => rfl
  | succ fuel ih =>
    obtain ⟨d, rfl⟩ : ∃ k, d = k + 1 := by
      cases d with
      | zero => exact absurd h id
      | succ d => exact ⟨d, rfl⟩
    obtain ⟨d', rfl⟩ : ∃ k, d' = k + 1 := by
      cases d' with
      | zero => exact absurd h' id
      | succ d => exact ⟨d, rfl⟩
    unfold readLoop
    cases hpk : peek_bits_32 e r (nb L) with
    | error p => rfl
    | ok x =>
      obtain ⟨v, r1⟩ := x
      obtain ⟨rfl, hv⟩ := peek32_lt (nb_le L) hpk
      simp only [ok_bind]
      rw [Nat.add_comm v.toNat off, Nat.add_comm v.toNat off']
      rcases nodeEntry_unique hpf h h' hv with ⟨ent, h1, h2, hkind⟩ | ⟨hs, o, o', ho, ho', h1, h2, h3, h4⟩
      · rw [idx_some h1, idx_some h2]
        simp only [ok_bind]
        rcases hkind with rfl | ⟨c, hc, rfl, hcb⟩
        · simp only [if_true]
        · obtain ⟨_, _, x3, _⟩ := leafVal_dec (hwf c hc).2.2.2 (show c.bits ≤ 10 by have := nb_le L; omega)
          simp only [x3, Bool.false_eq_true, if_false]
      · rw [idx_some h1, idx_some h2]
        obtain ⟨x1, x2, x3, x4⟩ := escVal_dec ho (nb_le (sub m L v.toNat))
        obtain ⟨y1, y2, y3, y4⟩ := escVal_dec ho' (nb_le (sub m L v.toNat))
        have hw : CWF (maxLen m) (sub m L v.toNat) := by
          intro c hc
          have := hwf.sub (m := m) v.toNat c hc
          exact ⟨this.1, by omega, this.2.2⟩
        simp only [ok_bind, x1, x2, x3, x4, y1, y2, y3, y4, if_false, if_true,
          fun r => ih (hpf.sub v.toNat) hw h3 h4 r]

/-- A peek at the table width gives at least the first `k` bits right, if `k` bits are in the data. -/
theorem peek_top {m : Mode} {r : Reader} {p n : Nat} (hs : Synced (endianOf m) r p) (hn : n ≤ 10) :
    ∃ v, peek_bits_32 (endianOf m) r n = .ok (v, r) ∧ v.toNat < 2 ^ n ∧
      ∀ k, k ≤ n → p + k + 64 ≤ 8 * r.buffer.length → top m n k v.toNat = valueAt (endianOf m) r.buffer p k := by
  obtain ⟨v, r', h1, h2, h3, h4, h5⟩ := get32_spec hs (n := n) (by omega)
  refine ⟨v, by simp [peek_bits_32, h1], ?_, ?_⟩
  · rw [h5.toNat]; exact bitsVal_lt _ _ _
  · intro k hk hp
    rw [h5.toNat, top_bitsVal m _ hk, valueAt_eq]
    apply bitsVal_congr
    intro j hj
    apply lbit_lt
    have hpos := hs.pos
    rw [h3]
    by_cases hc : canRefill r = true
    · by_cases hl : r.left ≤ n
      · rw [if_pos ⟨by omega, hl, hc⟩]; omega
      · rw [if_neg (by simp [hl])]; omega
    · rw [if_neg (by simp [hc])]
      simp only [canRefill, decide_eq_true_eq] at hc
      omega

/-- One step of the walk at a leaf. -/
theorem readLoop_leaf {e : Endian} {T : List Nat} {fuel off w : Nat} {r r' : Reader} {v : BitVec 32}
    {c : Code} {a : Nat} (hv : peek_bits_32 e r w = .ok (v, r))
    (hT : T[off + v.toNat]? = some (leafVal c.idx c.bits)) (hi : c.idx < 2 ^ 24) (hb : c.bits ≤ 10)
    (ha : available r = .ok a) (ha2 : c.bits ≤ a % 2 ^ 32) (hs : skip_bits e r c.bits = .ok r') :
    readLoop e T (fuel + 1) off w r = .ok (.ok c.idx, r') := by
  obtain ⟨x1, x2, x3, x4⟩ := leafVal_dec hi hb
  unfold readLoop
  rw [hv]
  simp only [ok_bind]
  rw [Nat.add_comm, idx_some hT]
  simp only [ok_bind, x1, x2, x3, x4, if_false, ha, Bool.false_eq_true, hs]
  rw [if_neg (by omega)]

/-- One step of the walk at an escape. -/
theorem readLoop_esc {e : Endian} {T : List Nat} {fuel off w o b : Nat} {r r' : Reader} {v : BitVec 32}
    {a : Nat} (hv : peek_bits_32 e r w = .ok (v, r))
    (hT : T[off + v.toNat]? = some (escVal o b)) (hi : o < 2 ^ 24) (hb : b ≤ 10)
    (ha : available r = .ok a) (ha2 : b ≤ a % 2 ^ 32) (hs : skip_bits e r w = .ok r') :
    readLoop e T (fuel + 1) off w r = readLoop e T fuel o b r' := by
  obtain ⟨x1, x2, x3, x4⟩ := escVal_dec hi hb
  conv => lhs; unfold readLoop
  rw [hv]
  simp only [ok_bind]
  rw [Nat.add_comm, idx_some hT]
  simp only [ok_bind, x1, x2, x3, x4, if_false, ha, if_true, hs]
  rw [if_neg (by omega)]

theorem readLoop_fill {e : Endian} {T : List Nat} {fuel off w : Nat} {r : Reader} {v : BitVec 32}
    (hv : peek_bits_32 e r w = .ok (v, r)) (hT : T[off + v.toNat]? = some FILL) :
    readLoop e T (fuel + 1) off w r = .ok (.error .invalidCode, r) := by
  unfold readLoop
  rw [hv]
  simp only [ok_bind]
  rw [Nat.add_comm, idx_some hT]
  simp only [ok_bind, if_true]

/-- A codeword inside the data is decoded. -/
theorem readLoop_code {m : Mode} {T : List Nat} {F : Nat → Prop} (d : Nat) {fuel off : Nat}
    {L : List Code} (hfu : d ≤ fuel) (hpf : PF m L) (hwf : CWF (maxLen m) L) (h : NodeOK m d T F off L)
    {c : Code} (hc : c ∈ L) {r : Reader} {p : Nat} (hs : Synced (endianOf m) r p)
    (hv : valueAt (endianOf m) r.buffer p c.bits = c.code)
    (hp : p + c.bits + 64 ≤ 8 * r.buffer.length) (h32 : 8 * r.buffer.length < 2 ^ 32) :
    ∃ r', readLoop (endianOf m) T fuel off (nb L) r = .ok (.ok c.idx, r') ∧ r'.buffer = r.buffer ∧
      Synced (endianOf m) r' (p + c.bits) := by
  induction d generalizing fuel off L c r p with
  | zero => exact absurd h id
  | succ d ih =>
    obtain ⟨fuel, rfl⟩ : ∃ k, fuel = k + 1 := ⟨fuel - 1, by omega⟩
    obtain ⟨v, v1, v2, v3⟩ := peek_top hs (nb_le L)
    obtain ⟨_, hcase⟩ := h v.toNat v2
    have hav := hs.available
    have hnl := nb_le L
    obtain ⟨w1, w2, w3, w4⟩ := hwf c hc
    by_cases hb : c.bits ≤ 10
    · have hbn := bits_le_nb hc hb
      have hhit : top m (nb L) c.bits v.toNat = c.code := by rw [v3 _ hbn hp, hv]
      rcases hcase with ⟨c', h1, h2, h3, h4⟩ | ⟨hno, _⟩
      · have := hit_unique hpf h1 hc h2 hbn h3 hhit
        subst this
        obtain ⟨r', s1, s2, s3⟩ := skip_within hs (n := c'.bits) hp
        exact ⟨r', readLoop_leaf v1 h4 w4 hb hav (by omega) s1, s2, s3⟩
      · exact absurd hhit (hno c hc hbn)
    · have hn := nb_of_long hc (by omega)
      have hk : v.toNat = keyOf m c := by
        have h10 := v3 10 (by omega) (by omega)
        rw [hn] at h10 v2
        rw [top_self v2] at h10
        rw [h10, keyOf, ← hv, top_valueAt m _ _ (by omega)]
      have hne : sub m L v.toNat ≠ [] := by
        rw [hk]; exact List.ne_nil_of_mem (mem_sub.mpr ⟨c, hc, by omega, rfl, rfl⟩)
      rcases hcase with ⟨c', h1, h2, h3, h4⟩ | ⟨_, ⟨h1, _⟩ | ⟨_, o, h2, h3, h4⟩⟩
      · rw [hk, hn] at h3
        exact absurd h3 (short_long hpf h1 (by omega) hc (by omega))
      · exact absurd h1 hne
      · obtain ⟨r1, s1, s2, s3⟩ := skip_within hs (n := 10) (by omega)
        have hstep := readLoop_esc (fuel := fuel) v1 h3 h2 (nb_le _) hav
          (by have := nb_le (sub m L v.toNat); omega) (by rw [hn]; exact s1)
        have hw : CWF (maxLen m) (sub m L v.toNat) := by
          intro c hc
          have := hwf.sub (m := m) v.toNat c hc
          exact ⟨this.1, by omega, this.2.2⟩
        obtain ⟨r', a1, a2, a3⟩ := ih (fuel := fuel) (by omega) (hpf.sub _) hw h4 (c := tailOf m c)
          (mem_sub.mpr ⟨c, hc, by omega, hk.symm, rfl⟩) s3
          (by
            rw [s2]
            simp only [tailOf]
            rw [← hv, rest_valueAt m _ _ (by omega)])
          (by rw [s2]; simp only [tailOf]; omega) (by rw [s2]; exact h32)
        refine ⟨r', by rw [hstep, a1]; rfl, by rw [a2, s2], ?_⟩
        have : p + 10 + (tailOf m c).bits = p + c.bits := by simp only [tailOf]; omega
        rwa [this] at a3

/-- Bits that start with no codeword are rejected. -/
theorem readLoop_reject {m : Mode} {T : List Nat} {F : Nat → Prop} (d : Nat) {fuel off : Nat}
    {L : List Code} (hfu : d ≤ fuel) (hwf : CWF (maxLen m) L) (h : NodeOK m d T F off L)
    {r : Reader} {p : Nat} (hs : Synced (endianOf m) r p)
    (hv : ∀ c ∈ L, valueAt (endianOf m) r.buffer p c.bits ≠ c.code)
    (hp : ∀ c ∈ L, p + c.bits + 64 ≤ 8 * r.buffer.length) (h32 : 8 * r.buffer.length < 2 ^ 32) :
    ∃ r', readLoop (endianOf m) T fuel off (nb L) r = .ok (.error .invalidCode, r') ∧
      r'.buffer = r.buffer ∧ ∃ q, Synced (endianOf m) r' q := by
  induction d generalizing fuel off L r p with
  | zero => exact absurd h id
  | succ d ih =>
    obtain ⟨fuel, rfl⟩ : ∃ k, fuel = k + 1 := ⟨fuel - 1, by omega⟩
    obtain ⟨v, v1, v2, v3⟩ := peek_top hs (nb_le L)
    obtain ⟨_, hcase⟩ := h v.toNat v2
    have hav := hs.available
    rcases hcase with ⟨c', h1, h2, h3, h4⟩ | ⟨_, ⟨_, h2⟩ | ⟨hne, o, h2, h3, h4⟩⟩
    · rw [v3 _ h2 (hp c' h1)] at h3
      exact absurd h3 (hv c' h1)
    · exact ⟨r, readLoop_fill v1 h2, rfl, p, hs⟩
    · obtain ⟨hn, _, c0, c1, c2, c3⟩ := key_lt hwf hne
      have hp0 := hp c0 c1
      have hk : v.toNat = valueAt (endianOf m) r.buffer p 10 := by
        have h10 := v3 10 (by omega) (by omega)
        rw [hn] at h10 v2
        rwa [top_self v2] at h10
      obtain ⟨r1, s1, s2, s3⟩ := skip_within hs (n := 10) (by omega)
      have hstep := readLoop_esc (fuel := fuel) v1 h3 h2 (nb_le _) hav
        (by have := nb_le (sub m L v.toNat); omega) (by rw [hn]; exact s1)
      have hw : CWF (maxLen m) (sub m L v.toNat) := by
        intro c hc
        have := hwf.sub (m := m) v.toNat c hc
        exact ⟨this.1, by omega, this.2.2⟩
      obtain ⟨r', a1, a2, a3⟩ := ih (fuel := fuel) (by omega) hw h4 s3
        (by
          intro c' hc' he
          obtain ⟨c, b1, b2, b3, rfl⟩ := mem_sub.mp hc'
          apply hv c b1
          rw [s2] at he
          simp only [tailOf] at he
          apply split_ext (m := m) (v := c.bits) (w := 10)
          · rw [top_valueAt m _ _ (by omega), ← hk, ← b3, keyOf]
          · rw [rest_valueAt m _ _ (by omega), he])
        (by
          intro c' hc'
          obtain ⟨c, b1, b2, b3, rfl⟩ := mem_sub.mp hc'
          rw [s2]
          have := hp c b1
          simp only [tailOf]; omega)
        (by rw [s2]; exact h32)
      exact ⟨r', by rw [hstep, a1], by rw [a2, s2], a3⟩

end Verif.Codebook
