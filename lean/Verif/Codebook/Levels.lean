import Verif.Codebook.Overlap

/-!
# C20 and C84: overlapping codes, with long ones among them

`Codebook::new` does not reject ambiguous descriptions (`c20_fails`). As long as no code of at most 10 bits is
listed before the long codes it starts, nothing is damaged: the books are the same for every hash map
order, and `read_cb` follows a simple rule.
-/

namespace Verif.Codebook
open Verif Verif.BitRead

/-! ### Specification -/

/-- No code of at most 10 bits starts a longer one, unless one with the same first 10 bits as the longer one
was listed before both. -/
def LongFirst (m : Mode) (ds : List (Desc S)) : Prop :=
  ∀ i j : Fin (used ds).length, i < j → (used ds)[i].bits ≤ 10 → 10 < (used ds)[j].bits →
    codeBits m (used ds)[i].code (used ds)[i].bits <+: codeBits m (used ds)[j].code (used ds)[j].bits →
    ∃ k : Fin (used ds).length, k < i ∧ 10 < (used ds)[k].bits ∧
      (codeBits m (used ds)[k].code (used ds)[k].bits).take 10 =
        (codeBits m (used ds)[j].code (used ds)[j].bits).take 10

instance (m : Mode) (ds : List (Desc S)) : Decidable (LongFirst m ds) := by unfold LongFirst; infer_instance

/-- The codeword comes next, among those decoded with `n + 1` look-ups. The entry listed last counts. -/
def levelMatch (e : Endian) (m : Mode) (ds : List (Desc S)) (buf : List U8) (p n : Nat) : Option (Desc S) :=
  (used ds).reverse.find? fun d => decide (10 * n < d.bits ∧ d.bits ≤ 10 * n + 10 ∧
    streamBits e buf p d.bits = codeBits m d.code d.bits)

/-- How many tens of bits of the stream agree with some longer codeword. -/
def depthAt (e : Endian) (m : Mode) (ds : List (Desc S)) (buf : List U8) (p : Nat) : Nat :=
  ((List.range 26).reverse.find? fun n => decide (∃ d ∈ used ds, 10 * n < d.bits ∧
    streamBits e buf p (10 * n) = (codeBits m d.code d.bits).take (10 * n))).getD 0

/-- The entry `read_cb` decodes to: a codeword of at most 10 bits if there is one, else one of the
longest codewords the stream does not leave at one of the look-ups. -/
def ruleMatch (e : Endian) (m : Mode) (ds : List (Desc S)) (buf : List U8) (p : Nat) : Option (Desc S) :=
  match levelMatch e m ds buf p 0 with
  | some d => some d
  | none => levelMatch e m ds buf p (depthAt e m ds buf p)

/-! ### Lists of codes -/

theorem find?_congr {l : List α} {f g : α → Bool} (h : ∀ x ∈ l, f x = g x) : l.find? f = l.find? g := by
  induction l with
  | nil => rfl
  | cons x l ih =>
    rw [List.find?_cons, List.find?_cons, h x (by simp), ih fun y hy => h y (by simp [hy])]

/-- The last code of `L` at level `n` that comes next. -/
def levelHit (m : Mode) (buf : List U8) (p n : Nat) (L : List Code) : Option Code :=
  L.reverse.find? fun c => decide (10 * n < c.bits ∧ c.bits ≤ 10 * n + 10 ∧
    valueAt (endianOf m) buf p c.bits = c.code)

/-- The stream follows some code for `n` whole look-ups, and none for more. -/
def Deep (m : Mode) (buf : List U8) (p n : Nat) (L : List Code) : Prop :=
  (∃ c ∈ L, 10 * n < c.bits ∧ top m c.bits (10 * n) c.code = valueAt (endianOf m) buf p (10 * n)) ∧
  ∀ c ∈ L, 10 * (n + 1) < c.bits →
    top m c.bits (10 * (n + 1)) c.code ≠ valueAt (endianOf m) buf p (10 * (n + 1))

/-- Agreement on `10 + n` bits is agreement on the key and on `n` bits of the tail. -/
theorem agree_tail {m : Mode} {buf : List U8} {p n : Nat} {c : Code} (hn : 10 + n ≤ c.bits)
    (hk : keyOf m c = valueAt (endianOf m) buf p 10) :
    top m c.bits (10 + n) c.code = valueAt (endianOf m) buf p (10 + n) ↔
      top m (c.bits - 10) n (rest m c.bits 10 c.code) = valueAt (endianOf m) buf (p + 10) n := by
  have e1 := rest_top (m := m) (v := c.bits) (w := 10 + n) (u := 10) (i := c.code) (by omega) hn
  have e2 := rest_valueAt m buf p (v := 10 + n) (w := 10) (by omega)
  rw [show 10 + n - 10 = n by omega] at e1 e2
  constructor
  · intro h
    rw [← e1, h, e2]
  · intro h
    apply split_ext (m := m) (v := 10 + n) (w := 10)
    · rw [top_top (by omega) hn, top_valueAt m _ _ (by omega)]; exact hk
    · rw [e1, e2, h]

theorem agree_key {m : Mode} {buf : List U8} {p n : Nat} {c : Code} (h10 : 10 ≤ n) (hn : n ≤ c.bits)
    (h : top m c.bits n c.code = valueAt (endianOf m) buf p n) :
    keyOf m c = valueAt (endianOf m) buf p 10 := by
  unfold keyOf
  rw [← top_top h10 hn, h, top_valueAt m _ _ h10]

theorem Deep.sub {m : Mode} {buf : List U8} {p n : Nat} {L : List Code} (h : Deep m buf p n L)
    (hs : sub m L (valueAt (endianOf m) buf p 10) ≠ []) :
    ∃ k, n = k + 1 ∧ Deep m buf (p + 10) k (sub m L (valueAt (endianOf m) buf p 10)) := by
  obtain ⟨c', hc'⟩ := List.exists_mem_of_ne_nil _ hs
  obtain ⟨c, h1, h2, h3, _⟩ := mem_sub.mp hc'
  cases n with
  | zero => exact absurd h3 (h.2 c h1 h2)
  | succ k =>
    refine ⟨k, rfl, ?_, ?_⟩
    · obtain ⟨a, a1, a2, a3⟩ := h.1
      have hk := agree_key (by omega) (by omega) a3
      refine ⟨tailOf m a, mem_sub.mpr ⟨a, a1, by omega, hk, rfl⟩, by simp only [tailOf]; omega, ?_⟩
      rw [show 10 * (k + 1) = 10 + 10 * k by omega] at a3
      exact (agree_tail (by omega) hk).mp a3
    · intro b' hb' hbb hag
      obtain ⟨b, b1, b2, b3, rfl⟩ := mem_sub.mp hb'
      simp only [tailOf] at hbb hag
      have := (agree_tail (n := 10 * (k + 1)) (by omega) b3).mpr hag
      rw [show 10 + 10 * (k + 1) = 10 * (k + 1 + 1) by omega] at this
      exact h.2 b b1 (by omega) this

theorem Deep.zero {m : Mode} {buf : List U8} {p n : Nat} {L : List Code} (h : Deep m buf p n L)
    (hs : Codebook.sub m L (valueAt (endianOf m) buf p 10) = []) : n = 0 := by
  cases n with
  | zero => rfl
  | succ k =>
    obtain ⟨a, a1, a2, a3⟩ := h.1
    have hk := agree_key (by omega) (by omega) a3
    exact absurd hs (List.ne_nil_of_mem (mem_sub.mpr ⟨a, a1, by omega, hk, rfl⟩))

/-- Below the first table the same code is found. -/
theorem levelHit_sub (m : Mode) (buf : List U8) (p n : Nat) (L : List Code) :
    levelHit m buf (p + 10) n (sub m L (valueAt (endianOf m) buf p 10)) =
      (levelHit m buf p (n + 1) L).map (tailOf m) := by
  unfold levelHit Codebook.sub
  rw [← List.map_reverse, List.find?_map, ← List.filter_reverse, List.find?_filter]
  congr 1
  apply find?_congr
  intro c _
  rw [Bool.eq_iff_iff]
  simp only [Function.comp]
  simp only [Bool.and_eq_true, decide_eq_true_eq]
  simp only [long, tailOf, decide_eq_true_eq]
  constructor
  · rintro ⟨⟨h1, h2⟩, h3, h4, h5⟩
    refine ⟨by omega, by omega, ?_⟩
    apply split_ext (m := m) (v := c.bits) (w := 10)
    · rw [top_valueAt m _ _ (by omega), ← h2, keyOf]
    · rw [rest_valueAt m _ _ (by omega), h5]
  · rintro ⟨h1, h2, h3⟩
    refine ⟨⟨by omega, ?_⟩, by omega, by omega, ?_⟩
    · rw [keyOf, ← h3, top_valueAt m _ _ (by omega)]
    · rw [← h3, rest_valueAt m _ _ (by omega)]

/-- The entry of a table tells the last short code that comes next. -/
theorem hitOf_level {m : Mode} {buf : List U8} {p i N : Nat} {L : List Code} (hwf : CWF N L)
    (h : ∀ c ∈ L, c.bits ≤ nb L → top m (nb L) c.bits i = valueAt (endianOf m) buf p c.bits) :
    hitOf m (nb L) i (shorts L) = levelHit m buf p 0 L := by
  unfold hitOf levelHit shorts
  rw [← List.filter_reverse, List.find?_filter]
  apply find?_congr
  intro c hc
  have hc := List.mem_reverse.mp hc
  have h0 := (hwf c hc).1
  by_cases hb : c.bits ≤ 10
  · rw [← h c hc (bits_le_nb hc hb)]
    simp [hb, h0]
  · simp [hb]

/-- What the walk does: the code found, or none. -/
def rule (m : Mode) (buf : List U8) (p n : Nat) (w : Bool) (L : List Code) : Option Code :=
  match (if w then levelHit m buf p 0 L else none) with
  | some c => some c
  | none => levelHit m buf p n L

theorem readLoop_rule {m : Mode} {T : List Nat} {F : Nat → Prop} (d : Nat) {w : Bool} {fuel off : Nat}
    {L : List Code} (hfu : d ≤ fuel) (hwf : CWF (maxLen m) L) (h : TrieOK m w d T F off L)
    {r : Reader} {p n : Nat} (hs : Synced (endianOf m) r p) (hd : Deep m r.buffer p n L)
    (hp : ∀ c ∈ L, p + c.bits + 64 ≤ 8 * r.buffer.length) (h32 : 8 * r.buffer.length < 2 ^ 32) :
    ∃ r', r'.buffer = r.buffer ∧ match rule m r.buffer p n w L with
      | none => readLoop (endianOf m) T fuel off (nb L) r = .ok (.error .invalidCode, r') ∧
          Synced (endianOf m) r' (p + 10 * n)
      | some c => readLoop (endianOf m) T fuel off (nb L) r = .ok (.ok c.idx, r') ∧
          Synced (endianOf m) r' (p + c.bits) := by
  induction d generalizing w fuel off L r p n with
  | zero => exact absurd h id
  | succ d ih =>
    obtain ⟨fuel, rfl⟩ : ∃ k, fuel = k + 1 := ⟨fuel - 1, by omega⟩
    obtain ⟨v, v1, v2, v3⟩ := peek_top hs (nb_le L)
    obtain ⟨_, hcase⟩ := h v.toNat v2
    have hav := hs.available
    have hnl := nb_le L
    have hhit : hitOf m (nb L) v.toNat (shorts L) = levelHit m r.buffer p 0 L :=
      hitOf_level hwf fun c hc hb => v3 c.bits hb (hp c hc)
    rw [hhit] at hcase
    -- a long code makes the table 10 bits wide, and the index the next 10 bits
    have hkey : (∃ c ∈ L, 10 < c.bits) → nb L = 10 ∧ v.toNat = valueAt (endianOf m) r.buffer p 10 := by
      rintro ⟨c, hc, hb⟩
      have hn := nb_of_long hc hb
      have := hp c hc
      refine ⟨hn, ?_⟩
      have h10 := v3 10 (by omega) (by omega)
      rw [hn] at h10 v2
      rwa [top_self v2] at h10
    have hzero : sub m L v.toNat = [] → n = 0 := by
      intro hsub
      by_cases hl : ∃ c ∈ L, 10 < c.bits
      · rw [(hkey hl).2] at hsub
        exact hd.zero hsub
      · cases n with
        | zero => rfl
        | succ k =>
          obtain ⟨c, c1, c2, _⟩ := hd.1
          exact absurd ⟨c, c1, by omega⟩ hl
    rcases hcase with ⟨c, h1, h2, h3⟩ | ⟨h1, h2, h3⟩ | ⟨h1, h2, o, h3, h4, h5⟩
    · -- a leaf
      have hr : rule m r.buffer p n w L = some c := by
        rcases h2 with h2 | h2
        · simp only [rule, h2, if_true, h1]
        · rw [hzero h2]
          unfold rule
          cases w <;> simp [h1]
      rw [hr]
      have hcm := List.find?_some h1
      have hc := List.mem_reverse.mp (List.mem_of_find?_eq_some h1)
      simp only [Nat.mul_zero, Nat.zero_add, decide_eq_true_eq] at hcm
      obtain ⟨r', s1, s2, s3⟩ := skip_within hs (n := c.bits) (hp c hc)
      exact ⟨r', s2, readLoop_leaf v1 h3 (hwf c hc).2.2.2 hcm.2.1 hav
        (by have := hp c hc; omega) s1, s3⟩
    · -- nothing
      have hr : rule m r.buffer p n w L = none := by
        rw [hzero h2]
        unfold rule
        cases w <;> simp [h1]
      rw [hr, hzero h2]
      exact ⟨r, rfl, readLoop_fill v1 h3, hs⟩
    · -- an escape
      obtain ⟨hn, _, c0, c1, c2, c3⟩ := key_lt hwf h1
      have hp0 := hp c0 c1
      obtain ⟨_, hk⟩ := hkey ⟨c0, c1, c2⟩
      rw [hk] at h1 h4 h5
      obtain ⟨k, rfl, hdk⟩ := hd.sub h1
      obtain ⟨r1, s1, s2, s3⟩ := skip_within hs (n := 10) (by omega)
      have hstep := readLoop_esc (fuel := fuel) v1 (by rw [hk]; exact h4) h3 (nb_le _) hav
        (by have := nb_le (sub m L (valueAt (endianOf m) r.buffer p 10)); omega) (by rw [hn]; exact s1)
      have hw : CWF (maxLen m) (sub m L (valueAt (endianOf m) r.buffer p 10)) := by
        intro c hc
        have := hwf.sub (m := m) _ c hc
        exact ⟨this.1, by omega, this.2.2⟩
      obtain ⟨r', a1, a2⟩ := ih (fuel := fuel) (by omega) hw h5 s3 (by rw [s2]; exact hdk)
        (by
          intro c' hc'
          obtain ⟨c, b1, b2, b3, rfl⟩ := mem_sub.mp hc'
          rw [s2]
          have := hp c b1
          simp only [tailOf]; omega)
        (by rw [s2]; exact h32)
      refine ⟨r', by rw [a1, s2], ?_⟩
      rw [s2] at a2
      have hr : rule m r.buffer (p + 10) k false (sub m L (valueAt (endianOf m) r.buffer p 10)) =
          (rule m r.buffer p (k + 1) w L).map (tailOf m) := by
        unfold rule
        simp only [Bool.false_eq_true, if_false, levelHit_sub]
        cases w with
        | false => simp
        | true => simp [h2 rfl]
      rw [hr] at a2
      cases hx : rule m r.buffer p (k + 1) w L with
      | none =>
        rw [hx] at a2
        simp only [Option.map_none] at a2
        refine ⟨by rw [hstep]; exact a2.1, ?_⟩
        rw [show p + 10 * (k + 1) = p + 10 + 10 * k by omega]
        exact a2.2
      | some c =>
        rw [hx] at a2
        simp only [Option.map_some] at a2
        have hcb : 10 < c.bits := by
          unfold rule at hx
          have hx' : levelHit m r.buffer p (k + 1) L = some c := by
            cases w with
            | false => simpa using hx
            | true => simpa [h2 rfl] using hx
          have := List.find?_some hx'
          simp only [decide_eq_true_eq] at this
          omega
        refine ⟨by rw [hstep]; exact a2.1, ?_⟩
        have := a2.2
        simp only [tailOf] at this
        rwa [show p + 10 + (c.bits - 10) = p + c.bits by omega] at this

/-! ### Descriptions -/

theorem longFirst_LF {m : Mode} {ds : List (Desc S)} (hwf : WF m ds) (h : LongFirst m ds) :
    LF m (codesFrom 0 ds) := by
  intro pre c post hL hb hkeys s hs hsb hit
  obtain ⟨i, hi, his⟩ := List.mem_iff_getElem.mp hs
  -- positions in the list of codes are positions in the list of entries
  have hpair : ∀ (k : Nat) (x : Code), (codesFrom 0 ds)[k]? = some x →
      ∃ hk : k < (used ds).length, (used ds)[k].code = x.code ∧ (used ds)[k].bits = x.bits := by
    intro k x hx
    have := congrArg (·[k]?) (codesFrom_pairs 0 ds)
    simp only [List.getElem?_map, hx, Option.map_some] at this
    cases hu : (used ds)[k]? with
    | none => rw [hu] at this; cases this
    | some d =>
      obtain ⟨q1, q2⟩ := List.getElem?_eq_some_iff.mp hu
      rw [hu] at this
      simp only [Option.map_some, Option.some.injEq, Prod.mk.injEq] at this
      exact ⟨q1, by rw [q2]; exact this.1.symm, by rw [q2]; exact this.2.symm⟩
  have hsi : (codesFrom 0 ds)[i]? = some s := by
    rw [hL, List.getElem?_append_left hi, List.getElem?_eq_getElem hi, his]
  have hcj : (codesFrom 0 ds)[pre.length]? = some c := by rw [hL]; simp
  obtain ⟨u1, u2, u3⟩ := hpair i s hsi
  obtain ⟨w1, w2, w3⟩ := hpair _ c hcj
  have hws := hwf _ (List.getElem_mem u1)
  have hwc := hwf _ (List.getElem_mem w1)
  rw [u2, u3] at hws
  rw [w2, w3] at hwc
  obtain ⟨k, k1, k2, k3⟩ := h ⟨i, u1⟩ ⟨pre.length, w1⟩ (by simpa using hi) (by simp [u3, hsb])
    (by simp [w3, hb]) (by
      simp only [Fin.getElem_fin, u2, u3, w2, w3]
      rw [prefix_iff hws.2 hwc.2]
      refine ⟨by omega, ?_⟩
      rw [keyOf, top_top hsb (by omega)] at hit
      exact hit)
  simp only [Fin.getElem_fin, w2, w3] at k2 k3
  have hkp : k.1 < pre.length := by
    have := Fin.lt_def.mp k1
    simp only at this
    omega
  have hx : (codesFrom 0 ds)[k.1]? = some pre[k.1] := by
    rw [hL, List.getElem?_append_left hkp, List.getElem?_eq_getElem hkp]
  obtain ⟨_, x2, x3⟩ := hpair _ _ hx
  have hwk := hwf _ (List.getElem_mem k.2)
  rw [x2, x3] at hwk
  rw [x3] at k2
  refine hkeys _ (List.getElem_mem hkp) k2 ?_
  rw [x2, x3, ← codeBits_top (by omega), ← codeBits_top (by omega)] at k3
  exact codeBits_inj (top_lt hwk.2 (by omega)) (top_lt hwc.2 (by omega)) k3

/-- Looking for a code is looking for an entry. -/
theorem find_codes {Q : Nat → Nat → Bool} {P : Desc S → Bool} (ds : List (Desc S))
    (h : ∀ d ∈ used ds, P d = Q d.code d.bits) :
    (((codesFrom 0 ds).reverse.find? fun c => Q c.code c.bits) = none ∧ (used ds).reverse.find? P = none) ∨
    ∃ c d, ((codesFrom 0 ds).reverse.find? fun c => Q c.code c.bits) = some c ∧
      (used ds).reverse.find? P = some d ∧ (used ds)[c.idx]? = some d ∧ d.bits = c.bits := by
  have h1 : ((codesFrom 0 ds).reverse.find? fun c => Q c.code c.bits) =
      ((used ds).zipIdx.reverse.find? fun x => Q x.1.code x.1.bits).map fun x => ⟨x.1.code, x.1.bits, x.2⟩ := by
    rw [codesFrom_zipIdx, ← List.map_reverse, List.find?_map]
    rfl
  have h2 : (used ds).reverse.find? P =
      ((used ds).zipIdx.reverse.find? fun x => Q x.1.code x.1.bits).map (·.1) := by
    have e1 : (used ds).reverse = (used ds).zipIdx.reverse.map (·.1) := by
      rw [List.map_reverse, List.zipIdx_map_fst]
    rw [e1, List.find?_map]
    congr 1
    apply find?_congr
    intro x hx
    have := List.mem_map_of_mem (f := fun x => x.1) (List.mem_reverse.mp hx)
    rw [List.zipIdx_map_fst] at this
    exact h x.1 this
  cases hx : (used ds).zipIdx.reverse.find? fun x => Q x.1.code x.1.bits with
  | none => rw [hx] at h1 h2; exact .inl ⟨h1, h2⟩
  | some x =>
    rw [hx] at h1 h2
    exact .inr ⟨_, _, h1, h2, List.mem_zipIdx_iff_getElem?.mp
      (List.mem_reverse.mp (List.mem_of_find?_eq_some hx)), rfl⟩

theorem stream_top {m : Mode} {buf : List U8} {p n : Nat} {c b : Nat} (hc : c < 2 ^ b) (hn : n ≤ b) :
    streamBits (endianOf m) buf p n = (codeBits m c b).take n ↔
      top m b n c = valueAt (endianOf m) buf p n := by
  rw [← codeBits_top hn, streamBits_code (top_lt hc hn)]
  exact eq_comm

theorem levelHit_levelMatch {m : Mode} {ds : List (Desc S)} (hwf : WF m ds) (buf : List U8) (p n : Nat) :
    (levelHit m buf p n (codesFrom 0 ds) = none ∧ levelMatch (endianOf m) m ds buf p n = none) ∨
    ∃ c d, levelHit m buf p n (codesFrom 0 ds) = some c ∧ levelMatch (endianOf m) m ds buf p n = some d ∧
      (used ds)[c.idx]? = some d ∧ d.bits = c.bits := by
  refine find_codes (Q := fun c b => decide (10 * n < b ∧ b ≤ 10 * n + 10 ∧
    valueAt (endianOf m) buf p b = c)) ds ?_
  intro d hd
  have := hwf d hd
  rw [Bool.eq_iff_iff]
  simp only [decide_eq_true_eq, streamBits_code this.2]

theorem depth_Deep {m : Mode} {ds : List (Desc S)} (hwf : WF m ds) (hne : used ds ≠ []) (buf : List U8) (p : Nat) :
    Deep m buf p (depthAt (endianOf m) m ds buf p) (codesFrom 0 ds) := by
  have hml := maxLen_le m
  have hpos : ∀ d ∈ used ds, 0 < d.bits := by
    intro d hd
    simpa [used] using (List.mem_filter.mp hd).2
  -- what the search says
  have hspec : ∃ n, depthAt (endianOf m) m ds buf p = n ∧
      (∃ d ∈ used ds, 10 * n < d.bits ∧ streamBits (endianOf m) buf p (10 * n) =
        (codeBits m d.code d.bits).take (10 * n)) ∧
      ∀ k, n < k → k < 26 → ¬ ∃ d ∈ used ds, 10 * k < d.bits ∧ streamBits (endianOf m) buf p (10 * k) =
        (codeBits m d.code d.bits).take (10 * k) := by
    have key : ∀ N, 0 < N → ∃ n, ((List.range N).reverse.find? fun n => decide (∃ d ∈ used ds, 10 * n < d.bits ∧
          streamBits (endianOf m) buf p (10 * n) = (codeBits m d.code d.bits).take (10 * n))) = some n ∧
        ∀ k, n < k → k < N → ¬ ∃ d ∈ used ds, 10 * k < d.bits ∧ streamBits (endianOf m) buf p (10 * k) =
          (codeBits m d.code d.bits).take (10 * k) := by
      intro N hN
      induction N with
      | zero => omega
      | succ N ih =>
        rw [List.range_succ, List.reverse_append, List.reverse_singleton, List.singleton_append, List.find?_cons]
        by_cases hx : ∃ d ∈ used ds, 10 * N < d.bits ∧ streamBits (endianOf m) buf p (10 * N) =
            (codeBits m d.code d.bits).take (10 * N)
        · refine ⟨N, by simp only [hx, decide_true], ?_⟩
          intro k h1 h2; omega
        · by_cases h0 : N = 0
          · exfalso
            apply hx
            obtain ⟨d, hd⟩ := List.exists_mem_of_ne_nil _ hne
            exact ⟨d, hd, by rw [h0]; exact hpos d hd, by rw [h0]; simp [streamBits]⟩
          · obtain ⟨n, i1, i2⟩ := ih (by omega)
            refine ⟨n, by simp only [hx, decide_false, i1], ?_⟩
            intro k h1 h2
            by_cases hk : k = N
            · rw [hk]; exact hx
            · exact i2 k h1 (by omega)
    obtain ⟨n, h1, h2⟩ := key 26 (by omega)
    refine ⟨n, by rw [depthAt, h1]; rfl, ?_, h2⟩
    have := List.find?_some h1
    simpa only [decide_eq_true_eq] using this
  obtain ⟨n, hn, ⟨d, hd, h1, h2⟩, h3⟩ := hspec
  rw [hn]
  constructor
  · obtain ⟨j, hj, hjd⟩ := List.mem_iff_getElem.mp hd
    have hc := codesFrom_get (k := 0) (show (used ds)[j]? = some d by rw [← hjd]; exact List.getElem?_eq_getElem hj)
    exact ⟨_, hc, h1, (stream_top (hwf d hd).2 (by omega)).mp h2⟩
  · intro c hc hb hag
    obtain ⟨_, d', g1, g2, g3⟩ := mem_codesFrom hc
    have hd' : d' ∈ used ds := List.mem_of_getElem? g1
    have hw := hwf d' hd'
    refine h3 (n + 1) (by omega) (by omega) ⟨d', hd', by omega, ?_⟩
    rw [stream_top hw.2 (by omega), g2, g3]
    exact hag

/-! ### The properties -/

/-- **C20, partial** What happens instead of a rejection, for ambiguous descriptions with codes of any
length: if no code of at most 10 bits is listed before the longer ones it starts, the description is
accepted, and `read_cb` decodes to an entry whose codeword comes next, chosen by a rule that does not mention the tables:
one of at most 10 bits if there is any, else one of those that need as many look-ups as any codeword that
still agrees with the data; the one listed last among these. If there is none, it fails with
`InvalidCode` after the look-ups that agreed.
Missing for C20: the rejection (false, `c20_fails`). -/
theorem c20_rule_partial (ord : Order) (hord : ord.Valid) (m : Mode) (ds : List (Desc S)) (hwf : WF m ds)
    (hlf : LongFirst m ds) (hfit : Fits m ds) (hne : used ds ≠ [])
    (buf : List U8) (pre : List Op) (hpre : within buf 0 pre)
    (hin : ∀ d ∈ used ds, (specRun (endianOf m) buf 0 pre).2 + d.bits + 64 ≤ 8 * buf.length)
    (h32 : 8 * buf.length < 2 ^ 32) (fuel : Nat) (hfu : 26 ≤ fuel) :
    ∃ cb r0 vs r r', new ord m ds = .ok (.ok cb) ∧ BitRead.new (endianOf m) buf = .ok r0 ∧
      run (endianOf m) r0 pre = .ok (vs, r) ∧
      match ruleMatch (endianOf m) m ds buf (specRun (endianOf m) buf 0 pre).2 with
      | none => readCb (endianOf m) fuel cb r = .ok (.error .invalidCode, r') ∧
          StandsAt (endianOf m) buf r' ((specRun (endianOf m) buf 0 pre).2 +
            10 * depthAt (endianOf m) m ds buf (specRun (endianOf m) buf 0 pre).2)
      | some d => readCb (endianOf m) fuel cb r = .ok (.ok d.sym, r') ∧
          StandsAt (endianOf m) buf r' ((specRun (endianOf m) buf 0 pre).2 + d.bits) := by
  obtain ⟨T, h1, h2⟩ := new_trie hord hwf (longFirst_LF hwf hlf) hfit hne
  obtain ⟨r0, n1, n2, _, n3⟩ := new_spec (endianOf m) buf
  obtain ⟨r, a1, a2, a3⟩ := run_within n3 pre (by rw [n2]; exact hpre)
  rw [n2] at a1 a2 a3
  generalize (specRun (endianOf m) buf 0 pre).2 = p at *
  obtain ⟨r', b1, b2⟩ := readLoop_rule 26 hfu (codesFrom_CWF hwf hfit.2) h2 a3
    (by rw [a2]; exact depth_Deep hwf hne buf p)
    (by
      intro c hc
      obtain ⟨_, d, g1, g2, g3⟩ := mem_codesFrom hc
      have := hin d (List.mem_of_getElem? g1)
      rw [a2]; omega)
    (by rw [a2]; exact h32)
  rw [a2] at b1 b2
  refine ⟨_, r0, _, r, r', h1, n1, a1, ?_⟩
  have hst : ∀ q, Synced (endianOf m) r' q → StandsAt (endianOf m) buf r' q := by
    intro q hq
    have := Synced.standsAt hq
    rwa [b1] at this
  have hfin : ∀ (c : Code) (d : Desc S), (used ds)[c.idx]? = some d → d.bits = c.bits →
      rule m buf p (depthAt (endianOf m) m ds buf p) true (codesFrom 0 ds) = some c →
      readCb (endianOf m) fuel ⟨T, (used ds).map (·.sym), nb (codesFrom 0 ds)⟩ r = .ok (.ok d.sym, r') ∧
        StandsAt (endianOf m) buf r' (p + d.bits) := by
    intro c d hcd hb hr
    rw [hr] at b2
    refine ⟨?_, by rw [hb]; exact hst _ b2.2⟩
    have : ((used ds).map (·.sym))[c.idx]? = some d.sym := by simp [hcd]
    simp only [readCb, b2.1, ok_bind, idx_some this]
    rfl
  unfold ruleMatch
  rcases levelHit_levelMatch hwf buf p 0 with ⟨g1, g2⟩ | ⟨c, d, g1, g2, g3, g4⟩
  · rw [g2]
    rcases levelHit_levelMatch hwf buf p (depthAt (endianOf m) m ds buf p) with ⟨k1, k2⟩ | ⟨c, d, k1, k2, k3, k4⟩
    · simp only [k2]
      simp only [rule, if_true, g1, k1] at b2
      refine ⟨?_, hst _ b2.2⟩
      simp only [readCb, b2.1, ok_bind]
    · simp only [k2]
      exact hfin c d k3 k4 (by simp only [rule, if_true, g1, k1])
  · rw [g2]
    exact hfin c d g3 g4 (by simp only [rule, if_true, g1])

/-- **C20, C84** The rule names an entry whose codeword comes next. -/
theorem ruleMatch_sound (e : Endian) (m : Mode) (ds : List (Desc S)) (buf : List U8) (p : Nat) (d : Desc S)
    (h : ruleMatch e m ds buf p = some d) :
    d ∈ used ds ∧ streamBits e buf p d.bits = codeBits m d.code d.bits := by
  have key : ∀ n, levelMatch e m ds buf p n = some d →
      d ∈ used ds ∧ streamBits e buf p d.bits = codeBits m d.code d.bits := by
    intro n hn
    have h1 := List.find?_some hn
    simp only [decide_eq_true_eq] at h1
    exact ⟨List.mem_reverse.mp (List.mem_of_find?_eq_some hn), h1.2.2⟩
  unfold ruleMatch at h
  cases h0 : levelMatch e m ds buf p 0 with
  | some d' => rw [h0] at h; cases h; exact key 0 h0
  | none => rw [h0] at h; exact key _ h

/-! ### Same behaviour for every order -/

theorem readLoop_same_trie {e : Endian} {m : Mode} {T T' : List Nat} {F F' : Nat → Prop} (fuel : Nat) {w : Bool}
    {d d' off off' : Nat} {L : List Code} (hwf : CWF (maxLen m) L)
    (h : TrieOK m w d T F off L) (h' : TrieOK m w d' T' F' off' L) (r : Reader) :
    readLoop e T fuel off (nb L) r = readLoop e T' fuel off' (nb L) r := by
  induction fuel generalizing w d d' off off' L r with
  | zero => rfl
  | succ fuel ih =>
    obtain ⟨d, rfl⟩ : ∃ k, d = k + 1 := by
      cases d with
      | zero => exact absurd h id
      | succ d => exact ⟨d, rfl⟩
    obtain ⟨d', rfl⟩ : ∃ k, d' = k + 1 := by
      cases d' with
      | zero => exact absurd h' id
      | succ d => exact ⟨d, rfl⟩
    unfold readLoop
    cases hpk : peek_bits_32 e r (nb L) with
    | error p => rfl
    | ok x =>
      obtain ⟨v, r1⟩ := x
      obtain ⟨rfl, hv⟩ := peek32_lt (nb_le L) hpk
      simp only [ok_bind]
      rw [Nat.add_comm v.toNat off, Nat.add_comm v.toNat off']
      obtain ⟨_, hc⟩ := h v.toNat hv
      obtain ⟨_, hc'⟩ := h' v.toNat hv
      rcases hc with ⟨c, h1, h2, h3⟩ | ⟨h1, h2, h3⟩ | ⟨h1, h2, o, h3, h4, h5⟩ <;>
        rcases hc' with ⟨c', h1', h2', h3'⟩ | ⟨h1', h2', h3'⟩ | ⟨h1', h2', o', h3', h4', h5'⟩
      · rw [h1] at h1'
        cases h1'
        obtain ⟨k1, k2⟩ := List.mem_filter.mp (hitOf_some h1).1
        obtain ⟨_, _, x3, _⟩ := leafVal_dec (hwf c k1).2.2.2 (by simpa using k2)
        rw [idx_some h3, idx_some h3']
        simp only [ok_bind, x3, Bool.false_eq_true, if_false]
      · rw [h1] at h1'; cases h1'
      · rcases h2 with hw | hs
        · rw [h2' hw] at h1; cases h1
        · exact absurd hs h1'
      · rw [h1] at h1'; cases h1'
      · rw [idx_some h3, idx_some h3']
        simp only [ok_bind, if_true]
      · exact absurd h2 h1'
      · rcases h2' with hw | hs
        · rw [h2 hw] at h1'; cases h1'
        · exact absurd hs h1
      · exact absurd h2' h1
      · rw [idx_some h4, idx_some h4']
        obtain ⟨x1, x2, x3, x4⟩ := escVal_dec h3 (nb_le (sub m L v.toNat))
        obtain ⟨y1, y2, y3, y4⟩ := escVal_dec h3' (nb_le (sub m L v.toNat))
        have hw : CWF (maxLen m) (sub m L v.toNat) := by
          intro c hc
          have := hwf.sub (m := m) v.toNat c hc
          exact ⟨this.1, by omega, this.2.2⟩
        simp only [ok_bind, x1, x2, x3, x4, y1, y2, y3, y4, if_false, if_true,
          fun r => ih hw h5 h5' r]

/-- **C84, partial** If no code of at most 10 bits is listed before the longer ones it starts, the book
behaves the same for every iteration order of the hash maps: with every reader, in every state,
`read_cb` has the same result and the same effect (including any panic).
Missing for C84: descriptions with a short code before a long one it starts, for which it is false
(`c84_fails`). -/
theorem c84_long_first_partial (ord ord' : Order) (hord : ord.Valid) (hord' : ord'.Valid) (m : Mode)
    (ds : List (Desc S)) (hwf : WF m ds) (hlf : LongFirst m ds) (hfit : Fits m ds) (hne : used ds ≠ []) :
    ∃ cb cb', new ord m ds = .ok (.ok cb) ∧ new ord' m ds = .ok (.ok cb') ∧
      ∀ e fuel r, readCb e fuel cb r = readCb e fuel cb' r := by
  obtain ⟨T, h1, h2⟩ := new_trie hord hwf (longFirst_LF hwf hlf) hfit hne
  obtain ⟨T', h1', h2'⟩ := new_trie hord' hwf (longFirst_LF hwf hlf) hfit hne
  refine ⟨_, _, h1, h1', ?_⟩
  intro e fuel r
  unfold readCb
  simp only [readLoop_same_trie (e := e) fuel (codesFrom_CWF hwf hfit.2) h2 h2' r]

/-- The condition covers the prefix-free descriptions and those without long codes. -/
theorem longFirst_of (m : Mode) (ds : List (Desc S)) (h : PrefixFree m ds ∨ ∀ d ∈ used ds, d.bits ≤ 10) :
    LongFirst m ds := by
  intro i j hij h1 h2 h3
  rcases h with h | h
  · exact absurd h3 (List.pairwise_iff_getElem.mp h i j i.2 j.2 hij).1
  · have := h (used ds)[j] (List.getElem_mem j.2)
    omega

/-- Two codes of 21 bits, one of 12 that starts both, repeated, and a short one that starts all of them. -/
def overlapLong : List (Desc Nat) :=
  [⟨0, 21, 1⟩, ⟨1, 21, 2⟩, ⟨0, 12, 3⟩, ⟨0, 1, 4⟩, ⟨0b110000000000, 12, 5⟩, ⟨0b110000000000, 12, 6⟩,
    ⟨0b110000000000000000000001, 24, 7⟩, ⟨0b10000000000, 11, 8⟩, ⟨0b1000000000000, 13, 9⟩]

example : insOrder.Valid ∧ revOrder.Valid ∧ WF .msb overlapLong ∧ LongFirst .msb overlapLong ∧
    ¬ PrefixFree .msb overlapLong ∧ Fits .msb overlapLong ∧ used overlapLong ≠ [] :=
  ⟨insOrder_valid, revOrder_valid, by decide, by decide, by decide, by decide, by decide⟩

/-- The short code wins over the long ones. -/
example : ruleMatch .be .msb overlapLong (List.replicate 32 0) 0 = some ⟨0, 1, 4⟩ := by decide

/-- Of the codes of 11 and 13 bits (two look-ups both) the one listed last is taken. -/
example : ruleMatch .be .msb overlapLong (0x80 :: List.replicate 32 0) 0 = some ⟨0b1000000000000, 13, 9⟩ := by
  decide

/-- The code of 12 bits comes next, but the data agrees with the code of 24 bits for two look-ups, so that
it is not found. -/
example : ruleMatch .be .msb overlapLong (0xc0 :: List.replicate 32 0) 0 = none ∧
    depthAt .be .msb overlapLong (0xc0 :: List.replicate 32 0) 0 = 2 := by decide

/-- Of two codes of the same bits the one listed last. -/
example : ruleMatch .be .msb overlapLong (0xc0 :: 0x0f :: List.replicate 32 0) 0 =
    some ⟨0b110000000000, 12, 6⟩ := by decide

/-- The witness of `c84_fails` lists a short code first. -/
example : ¬ LongFirst .msb shadowed := by decide

end Verif.Codebook
