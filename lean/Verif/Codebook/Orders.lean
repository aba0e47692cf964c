import Verif.Codebook.Spill

/-!
# C20 and C84: every description whose codes are in range

What `read_cb` decodes to, whatever the overlaps, and which books the iteration order of the hash maps
can make.
-/

namespace Verif.Codebook
open Verif Verif.BitRead

/-! ### Specification -/

/-- The groups that spill, in some order. -/
def Enumerates (gs : List (List Bool)) (B : Book S) : Prop := gs.Nodup ∧ ∀ g, g ∈ gs ↔ Spills B g

/-- Enough data, at the position after the calls `pre`, for every codeword. -/
def Room (m : Mode) (ds : List (Desc S)) (buf : List U8) (pre : List Op) : Prop :=
  within buf 0 pre ∧ 8 * buf.length < 2 ^ 32 ∧
    ∀ d ∈ used ds, (specRun (endianOf m) buf 0 pre).2 + d.bits + 64 ≤ 8 * buf.length

/-- What the rule says at the position after the calls `pre`. -/
def ruled (m : Mode) (ds : List (Desc S)) (gs : List (List Bool)) (buf : List U8) (pre : List Op) : Option S × Nat :=
  readBook m (bookOf m ds) gs (restBits (endianOf m) buf (specRun (endianOf m) buf 0 pre).2)

/-- `read_cb` follows the rule with the groups that spill written in the order `gs`. -/
def Follows (m : Mode) (ds : List (Desc S)) (gs : List (List Bool)) (cb : Codebook S) : Prop :=
  ∀ buf pre fuel, Room m ds buf pre → 26 ≤ fuel →
    ∃ r0 vs r r', BitRead.new (endianOf m) buf = .ok r0 ∧ run (endianOf m) r0 pre = .ok (vs, r) ∧
      readCb (endianOf m) fuel cb r = .ok (match (ruled m ds gs buf pre).1 with
        | some s => .ok s
        | none => .error .invalidCode, r') ∧
      StandsAt (endianOf m) buf r' ((specRun (endianOf m) buf 0 pre).2 + (ruled m ds gs buf pre).2)

/-! ### Lemmas -/

theorem perm_lift {f : α → β} {l : List α} {t : List β} (h : (l.map f).Perm t) : ∃ l' : List α, l'.Perm l ∧ l'.map f = t := by
  generalize hs : l.map f = s at h
  induction h generalizing l with
  | nil => exact ⟨l, .refl _, hs⟩
  | cons x _ ih =>
    obtain ⟨a, l0, rfl, rfl, rfl⟩ := List.map_eq_cons_iff.mp hs
    obtain ⟨l', h1, h2⟩ := ih rfl
    exact ⟨a :: l', h1.cons a, by simp [h2]⟩
  | swap x y s =>
    obtain ⟨a, l0, rfl, rfl, e⟩ := List.map_eq_cons_iff.mp hs
    obtain ⟨b, l1, rfl, rfl, rfl⟩ := List.map_eq_cons_iff.mp e
    exact ⟨b :: a :: l1, .swap .., by simp⟩
  | trans _ _ ih1 ih2 =>
    obtain ⟨l1, h1, h2⟩ := ih1 hs
    obtain ⟨l2, h3, h4⟩ := ih2 h2
    exact ⟨l2, h3.trans h1, h4⟩

theorem spills_bookOf {m : Mode} {ds : List (Desc S)} (hwf : WF m ds) (hne : used ds ≠ []) {k : Nat} (hk : k < 2 ^ 10) :
    Spills (bookOf m ds) (codeBits m k 10) ↔ Spill m (codesFrom 0 ds) k := by
  obtain ⟨d0, _⟩ := List.exists_mem_of_ne_nil _ hne
  rw [← cbook_codes d0.sym, spills_map, spills_cbook (codesFrom_CB hwf) hk]

theorem spill_key {m : Mode} {L : List Code} {k : Nat} (h : Spill m L k) : sub m L k ≠ [] := by
  obtain ⟨pre, c, post, rfl, h1, h2, _⟩ := h
  exact List.ne_nil_of_mem (mem_sub.mpr ⟨c, by simp, h1, h2, rfl⟩)

/-- The keys that spill and the groups that spill. -/
theorem enumerates_keys {m : Mode} {ds : List (Desc S)} (hwf : WF m ds) (hne : used ds ≠ []) {ks : List Nat}
    (hnd : ks.Nodup) (hks : ∀ k, k ∈ ks ↔ Spill m (codesFrom 0 ds) k) :
    Enumerates (ks.map fun k => codeBits m k 10) (bookOf m ds) := by
  have hlt : ∀ k ∈ ks, k < 2 ^ 10 := by
    intro k hk
    have := (mem_keys (codesFrom_CB hwf)).mpr (spill_key ((hks k).mp hk))
    simp only [keys, List.mem_filter, List.mem_range] at this
    exact this.1
  constructor
  · refine List.pairwise_map.mpr (hnd.imp_of_mem ?_)
    intro a b ha hb hab e
    exact hab (codeBits_inj (hlt a ha) (hlt b hb) e)
  · intro g
    constructor
    · intro hg
      obtain ⟨k, hk, rfl⟩ := List.mem_map.mp hg
      exact (spills_bookOf hwf hne (hlt k hk)).mpr ((hks k).mp hk)
    · intro hg
      obtain ⟨k, k1, k2⟩ := codeBits_onto m g
      rw [hg.1] at k1 k2
      rw [← k2] at hg ⊢
      exact List.mem_map_of_mem ((hks k).mpr ((spills_bookOf hwf hne k1).mp hg))

theorem enumerates_lift {m : Mode} {ds : List (Desc S)} (hwf : WF m ds) (hne : used ds ≠ []) {gs : List (List Bool)}
    (h : Enumerates gs (bookOf m ds)) :
    ∃ ks : List Nat, ks.Nodup ∧ (∀ k, k ∈ ks ↔ Spill m (codesFrom 0 ds) k) ∧ (ks.map fun k => codeBits m k 10) = gs := by
  have key : ∀ gs : List (List Bool), (∀ g ∈ gs, g.length = 10) →
      ∃ ks : List Nat, (∀ k ∈ ks, k < 2 ^ 10) ∧ (ks.map fun k => codeBits m k 10) = gs := by
    intro gs
    induction gs with
    | nil => exact fun _ => ⟨[], by simp, rfl⟩
    | cons g gs ih =>
      intro hg
      obtain ⟨ks, h1, h2⟩ := ih fun g h => hg g (List.mem_cons_of_mem _ h)
      obtain ⟨k, k1, k2⟩ := codeBits_onto m g
      rw [hg g List.mem_cons_self] at k1 k2
      refine ⟨k :: ks, ?_, by simp [h2, k2]⟩
      intro x hx
      rcases List.mem_cons.mp hx with rfl | hx
      · exact k1
      · exact h1 x hx
  obtain ⟨ks, h1, h2⟩ := key gs fun g hg => ((h.2 g).mp hg).1
  refine ⟨ks, ?_, ?_, h2⟩
  · have := h.1
    rw [← h2] at this
    exact (List.pairwise_map.mp this).imp fun hab e => hab (by rw [e])
  · intro k
    constructor
    · intro hk
      exact (spills_bookOf hwf hne (h1 k hk)).mp ((h.2 _).mp (by rw [← h2]; exact List.mem_map_of_mem hk))
    · intro hk
      have hlt : k < 2 ^ 10 := by
        have := (mem_keys (codesFrom_CB hwf)).mpr (spill_key hk)
        simp only [keys, List.mem_filter, List.mem_range] at this
        exact this.1
      have := (h.2 _).mpr ((spills_bookOf hwf hne hlt).mpr hk)
      rw [← h2] at this
      obtain ⟨k', e1, e2⟩ := List.mem_map.mp this
      rw [← codeBits_inj (h1 k' e1) hlt e2]
      exact e1

theorem follows_cells {m : Mode} {ds : List (Desc S)} (hwf : WF m ds) (hfit : Fits m ds) (hne : used ds ≠ [])
    {T : List Nat} {F : Nat → Prop} {ks : List Nat} (hks : ∀ k ∈ ks, Spill m (codesFrom 0 ds) k)
    (h : ∀ i, i < 2 ^ nb (codesFrom 0 ds) → CellOK m 25 T F i (topCell m (codesFrom 0 ds) ks i)) :
    Follows m ds (ks.map fun k => codeBits m k 10) ⟨T, (used ds).map (·.sym), nb (codesFrom 0 ds)⟩ := by
  rintro buf pre fuel ⟨hpre, h32, hin⟩ hfu
  unfold ruled
  obtain ⟨r0, n1, n2, _, n3⟩ := new_spec (endianOf m) buf
  obtain ⟨r, a1, a2, a3⟩ := run_within n3 pre (by rw [n2]; exact hpre)
  rw [n2] at a1 a2 a3
  generalize (specRun (endianOf m) buf 0 pre).2 = p at *
  have hcne : codesFrom 0 ds ≠ [] := by
    intro e
    have := codesFrom_length 0 ds
    rw [e] at this
    exact hne (List.length_eq_zero_iff.mp this.symm)
  obtain ⟨r', b1, b2, b3⟩ := readLoop_top hfu (codesFrom_CWF hwf hfit.2) hcne (fun k hk => spill_key (hks k hk)) h a3
    (by
      intro c hc
      obtain ⟨_, d, g1, g2, g3⟩ := mem_codesFrom hc
      have := hin d (List.mem_of_getElem? g1)
      rw [a2]; omega)
    (by rw [a2]; exact h32)
  rw [a2] at b1 b2 b3
  obtain ⟨d0, _⟩ := List.exists_mem_of_ne_nil _ hne
  rw [← cbook_codes (m := m) (ds := ds) d0.sym, readBook_map]
  refine ⟨r0, _, r, r', n1, a1, ?_, by have := Synced.standsAt b3; rwa [b1] at this⟩
  unfold readCb
  simp only [b2, ok_bind]
  cases hr : (readBook m (cbook m (codesFrom 0 ds)) (ks.map fun k => codeBits m k 10)
      (restBits (endianOf m) buf p)).1 with
  | none => rfl
  | some i =>
    obtain ⟨x, hx, rfl⟩ := readBook_mem hr
    obtain ⟨c, hc, rfl⟩ := List.mem_map.mp hx
    obtain ⟨_, d, g1, g2, g3⟩ := mem_codesFrom hc
    have hd : ((used ds).map (·.sym))[c.idx]? = some d.sym := by
      simp only [List.getElem?_map, Nat.sub_zero] at g1 ⊢
      rw [g1]; rfl
    simp only [toRes, idx_some hd, ok_bind, Option.map_some, hd, Option.getD_some]
    rfl

/-! ### The properties -/

/-- **C20, partial** What happens instead of a rejection, for every description whose codes are in range,
however they overlap: it is accepted, and `read_cb` follows the rule `readBook`, which does not mention tables. The order of the groups
that spill is the only thing the hash maps decide.
Missing for C20: the rejection (false, `c20_fails`). -/
theorem c20_exact_partial (ord : Order) (hord : ord.Valid) (m : Mode) (ds : List (Desc S)) (hwf : WF m ds)
    (hfit : Fits m ds) (hne : used ds ≠ []) :
    ∃ cb gs, new ord m ds = .ok (.ok cb) ∧ Enumerates gs (bookOf m ds) ∧ Follows m ds gs cb := by
  obtain ⟨M1, sp, h1, h2, h3⟩ := new_cells (m := m) (ds := ds) hwf hfit hne
  obtain ⟨T, t1, t2⟩ := h3 ord hord
  have hperm : ((ord [] 1 M1).map (·.1)).Perm (keys m (codesFrom 0 ds)) := ((hord [] 1 M1).map _).trans h1
  have hks : ∀ k, k ∈ ((ord [] 1 M1).map (·.1)).filter sp ↔ Spill m (codesFrom 0 ds) k := by
    intro k
    rw [List.mem_filter, hperm.mem_iff]
    constructor
    · exact fun h => (h2 k h.1).mp h.2
    · intro h
      have hm := (mem_keys (codesFrom_CB hwf)).mpr (spill_key h)
      exact ⟨hm, (h2 k hm).mpr h⟩
  have hnd : (((ord [] 1 M1).map (·.1)).filter sp).Nodup := by
    exact (hperm.nodup_iff.mpr (keys_nodup m _)).filter _
  exact ⟨_, _, t1, enumerates_keys hwf hne hnd hks, follows_cells hwf hfit hne (fun k hk => (hks k).mp hk) t2⟩

open Classical in
/-- **C84, partial** Every order of the groups that spill is the work of some iteration order of the hash maps.
With `c20_exact_partial`, these are the books that can come out of a description.
Missing for C84: that there is only one (false, `c84_fails`). -/
theorem c84_exact_partial (m : Mode) (ds : List (Desc S)) (hwf : WF m ds) (hfit : Fits m ds) (hne : used ds ≠ [])
    (gs : List (List Bool)) (hgs : Enumerates gs (bookOf m ds)) :
    ∃ ord : Order, ord.Valid ∧ ∃ cb, new ord m ds = .ok (.ok cb) ∧ Follows m ds gs cb := by
  obtain ⟨M1, sp, h1, h2, h3⟩ := new_cells (m := m) (ds := ds) hwf hfit hne
  obtain ⟨ks, k1, k2, k3⟩ := enumerates_lift hwf hne hgs
  have hk : ks.Perm ((keys m (codesFrom 0 ds)).filter sp) := by
    rw [List.perm_ext_iff_of_nodup k1 ((keys_nodup m _).filter _)]
    intro k
    rw [k2, List.mem_filter]
    constructor
    · intro h
      have hm := (mem_keys (codesFrom_CB hwf)).mpr (spill_key h)
      exact ⟨hm, (h2 k hm).mpr h⟩
    · exact fun h => (h2 k h.1).mp h.2
  have hp : (M1.map (·.1)).Perm (ks ++ (keys m (codesFrom 0 ds)).filter fun k => !sp k) :=
    h1.trans ((List.filter_append_perm sp _).symm.trans (hk.symm.append_right _))
  obtain ⟨M2, p1, p2⟩ := perm_lift hp
  let ord : Order := fun path k l => if path = [] ∧ k = 1 ∧ l = M1 then M2 else l
  have hord : ord.Valid := by
    intro path k l
    by_cases h : path = [] ∧ k = 1 ∧ l = M1
    · simp only [ord, h, and_self, if_true]
      exact p1
    · simp only [ord, h, if_false]
      exact .refl _
  obtain ⟨T, t1, t2⟩ := h3 ord hord
  refine ⟨ord, hord, _, t1, ?_⟩
  have e : ((ord [] 1 M1).map (·.1)).filter sp = ks := by
    have : ord [] 1 M1 = M2 := by simp [ord]
    rw [this, p2, List.filter_append, List.filter_filter]
    have e1 : ks.filter sp = ks := by
      rw [List.filter_eq_self]
      intro k hk
      have := (k2 k).mp hk
      exact (h2 k ((mem_keys (codesFrom_CB hwf)).mpr (spill_key this))).mpr this
    rw [e1]
    simp
  rw [e] at t2
  rw [← k3]
  exact follows_cells hwf hfit hne (fun k hk => (k2 k).mp hk) t2

/-- **C84, partial** The exact condition for decoding not to depend on the iteration order of the hash maps, for
every description whose codes are in range: the order of the groups that spill makes no difference to the rule.
Missing for C84: that it is always so (false, `c84_fails`). -/
theorem c84_iff_partial (m : Mode) (ds : List (Desc S)) (hwf : WF m ds) (hfit : Fits m ds) (hne : used ds ≠ []) :
    (∀ ord ord' : Order, ord.Valid → ord'.Valid → ∀ cb cb', new ord m ds = .ok (.ok cb) → new ord' m ds = .ok (.ok cb') →
      ∀ buf pre fuel, Room m ds buf pre → 26 ≤ fuel → ∀ r0 vs r, BitRead.new (endianOf m) buf = .ok r0 →
        run (endianOf m) r0 pre = .ok (vs, r) → ∃ x r1 r2 p, readCb (endianOf m) fuel cb r = .ok (x, r1) ∧
          readCb (endianOf m) fuel cb' r = .ok (x, r2) ∧ StandsAt (endianOf m) buf r1 p ∧
          StandsAt (endianOf m) buf r2 p) ↔
    ∀ gs gs', Enumerates gs (bookOf m ds) → Enumerates gs' (bookOf m ds) →
      ∀ buf pre, Room m ds buf pre → ruled m ds gs buf pre = ruled m ds gs' buf pre := by
  constructor
  · intro h gs gs' hgs hgs' buf pre hroom
    obtain ⟨ord, o1, cb, o2, o3⟩ := c84_exact_partial m ds hwf hfit hne gs hgs
    obtain ⟨ord', o1', cb', o2', o3'⟩ := c84_exact_partial m ds hwf hfit hne gs' hgs'
    obtain ⟨r0, vs, r, r', a1, a2, a3, a4⟩ := o3 buf pre 26 hroom (by omega)
    obtain ⟨s0, us, s, s', b1, b2, b3, b4⟩ := o3' buf pre 26 hroom (by omega)
    cases a1.symm.trans b1
    cases a2.symm.trans b2
    obtain ⟨x, r1, r2, p, c1, c2, c3, c4⟩ := h ord ord' o1 o1' cb cb' o2 o2' buf pre 26 hroom (by omega) r0 vs r a1 a2
    rw [a3] at c1
    rw [b3] at c2
    simp only [Except.ok.injEq, Prod.mk.injEq] at c1 c2
    obtain ⟨c1, rfl⟩ := c1
    obtain ⟨c2, rfl⟩ := c2
    have q1 := a4.1.symm.trans c3.1
    have q2 := b4.1.symm.trans c4.1
    simp only [Except.ok.injEq] at q1 q2
    apply Prod.ext
    · rw [← c2] at c1
      cases h1 : (ruled m ds gs buf pre).1 <;> cases h2 : (ruled m ds gs' buf pre).1 <;> rw [h1, h2] at c1 <;> cases c1 <;> rfl
    · omega
  · intro h ord ord' hord hord' cb cb' hcb hcb' buf pre fuel hroom hfu r0 vs r h1 h2
    obtain ⟨cb1, gs, o1, o2, o3⟩ := c20_exact_partial ord hord m ds hwf hfit hne
    obtain ⟨cb2, gs', o1', o2', o3'⟩ := c20_exact_partial ord' hord' m ds hwf hfit hne
    cases hcb.symm.trans o1
    cases hcb'.symm.trans o1'
    obtain ⟨_, _, _, r', a1, a2, a3, a4⟩ := o3 buf pre fuel hroom hfu
    cases h1.symm.trans a1
    cases h2.symm.trans a2
    obtain ⟨_, _, _, s', b1, b2, b3, b4⟩ := o3' buf pre fuel hroom hfu
    cases h1.symm.trans b1
    cases h2.symm.trans b2
    rw [← h gs gs' o2 o2' buf pre hroom] at b3 b4
    exact ⟨_, r', s', _, a3, b3, a4, b4⟩

/-! ### Same order, same behaviour -/

theorem readLoop_same_cells {e : Endian} {m : Mode} {T T' : List Nat} {F F' : Nat → Prop} (fuel : Nat) {n : Nat}
    (hn : n ≤ 10) {cell : Nat → Cell} (hg : ∀ i, Good m 0 (10 ^ 9) (cell i)) (h : ∀ i, i < 2 ^ n → CellOK m 25 T F i (cell i))
    (h' : ∀ i, i < 2 ^ n → CellOK m 25 T' F' i (cell i)) (r : Reader) :
    readLoop e T fuel 0 n r = readLoop e T' fuel 0 n r := by
  cases fuel with
  | zero => rfl
  | succ fuel =>
    unfold readLoop
    cases hpk : peek_bits_32 e r n with
    | error p => rfl
    | ok x =>
      obtain ⟨v, r1⟩ := x
      obtain ⟨rfl, hv⟩ := peek32_lt hn hpk
      have c1 := h v.toNat hv
      have c2 := h' v.toNat hv
      have hg := hg v.toNat
      simp only [ok_bind, Nat.add_zero]
      cases hc : cell v.toNat with
      | empty =>
        rw [hc] at c1 c2
        rw [idx_some c1, idx_some c2]
        simp only [ok_bind, if_true]
      | leaf c =>
        rw [hc] at c1 c2 hg
        obtain ⟨_, _, x3, _⟩ := leafVal_dec hg.2.1 hg.1
        rw [idx_some c1, idx_some c2]
        simp only [ok_bind, x3, Bool.false_eq_true, if_false]
      | node L =>
        rw [hc] at c1 c2 hg
        obtain ⟨o, o1, o2, o3⟩ := c1
        obtain ⟨o', o1', o2', o3'⟩ := c2
        obtain ⟨x1, x2, x3, x4⟩ := escVal_dec o1 (nb_le L)
        obtain ⟨y1, y2, y3, y4⟩ := escVal_dec o1' (nb_le L)
        rw [idx_some o2, idx_some o2']
        simp only [ok_bind, x1, x2, x3, x4, y1, y2, y3, y4, if_false, if_true,
          fun r => readLoop_same_trie (e := e) fuel hg.1 o3 o3' r]

/-- **C84, partial** If at most one group spills, the book behaves the same for every iteration order of the hash
maps: with every reader, in every state, `read_cb` has the same result and the same effect (including any panic).
Missing for C84: descriptions with several groups that spill, for which it is false (`c84_fails`). -/
theorem c84_one_group_partial (ord ord' : Order) (hord : ord.Valid) (hord' : ord'.Valid) (m : Mode) (ds : List (Desc S))
    (hwf : WF m ds) (hfit : Fits m ds) (hne : used ds ≠ [])
    (hone : ∀ g g', Spills (bookOf m ds) g → Spills (bookOf m ds) g' → g = g') :
    ∃ cb cb', new ord m ds = .ok (.ok cb) ∧ new ord' m ds = .ok (.ok cb') ∧
      ∀ e fuel r, readCb e fuel cb r = readCb e fuel cb' r := by
  obtain ⟨M1, sp, h1, h2, h3⟩ := new_cells (m := m) (ds := ds) hwf hfit hne
  obtain ⟨T, t1, t2⟩ := h3 ord hord
  obtain ⟨T', t1', t2'⟩ := h3 ord' hord'
  have hperm : ∀ ord : Order, ord.Valid → ((ord [] 1 M1).map (·.1)).Perm (keys m (codesFrom 0 ds)) :=
    fun ord hord => ((hord [] 1 M1).map _).trans h1
  -- a list without repetitions of at most one element
  have hsame : ((ord [] 1 M1).map (·.1)).filter sp = ((ord' [] 1 M1).map (·.1)).filter sp := by
    have hp := ((hperm ord hord).trans (hperm ord' hord').symm).filter sp
    have hall : ∀ k ∈ ((ord' [] 1 M1).map (·.1)).filter sp, k < 2 ^ 10 ∧ Spill m (codesFrom 0 ds) k := by
      intro k hk
      obtain ⟨k1, k2⟩ := List.mem_filter.mp hk
      have hm := (hperm ord' hord').mem_iff.mp k1
      refine ⟨?_, (h2 k hm).mp k2⟩
      simp only [keys, List.mem_filter, List.mem_range] at hm
      exact hm.1
    have hnd : (((ord' [] 1 M1).map (·.1)).filter sp).Nodup :=
      ((hperm ord' hord').nodup_iff.mpr (keys_nodup m _)).filter _
    generalize ((ord' [] 1 M1).map (·.1)).filter sp = l at *
    match l with
    | [] => exact hp.eq_nil
    | [k] => exact hp.eq_singleton
    | a :: b :: l =>
      have ha := hall a (by simp)
      have hb := hall b (by simp)
      have := hone _ _ ((spills_bookOf hwf hne ha.1).mpr ha.2) ((spills_bookOf hwf hne hb.1).mpr hb.2)
      have hab := codeBits_inj ha.1 hb.1 this
      simp [hab] at hnd
  rw [← hsame] at t2'
  refine ⟨_, _, t1, t1', ?_⟩
  intro e fuel r
  unfold readCb
  simp only [readLoop_same_cells (e := e) fuel (nb_le _) (fun i => topCell_good (codesFrom_CWF hwf hfit.2) (by
    intro c hc
    have := (codesFrom_CWF hwf hfit.2 c hc).2.1
    have : maxLen m ≤ 255 := by cases m <;> decide
    omega)) t2 t2' r]

/-! ### Examples -/

theorem spills_mem {B : Book S} {g : List Bool} (h : Spills B g) : g ∈ B.map (·.1.take 10) := by
  obtain ⟨h1, ⟨x, x1, _, x3⟩, _⟩ := h
  exact List.mem_map.mpr ⟨x, x1, by rw [← h1]; exact (List.prefix_iff_eq_take.mp x3).symm⟩

def zeros (n : Nat) : List Bool := List.replicate n false

/-- Two groups of `shadowed` spill, one word each. -/
theorem shadowed_groups : ∀ g, g ∈ [zeros 10, zeros 9 ++ [true]] ↔ Spills (bookOf .msb shadowed) g := by
  intro g
  constructor
  · intro h
    simp only [List.mem_cons, List.not_mem_nil, or_false] at h
    rcases h with rfl | rfl <;> decide
  · intro h
    have h2 := h.1
    have h1 := spills_mem h
    have e : (bookOf .msb shadowed).map (·.1.take 10) = [zeros 9, zeros 10, zeros 9 ++ [true]] := by decide
    rw [e] at h1
    simp only [List.mem_cons, List.not_mem_nil, or_false] at h1 ⊢
    rcases h1 with rfl | rfl | rfl
    · exact absurd h2 (by decide)
    · exact .inl rfl
    · exact .inr rfl

/-- Both orders are possible, and they make a difference: the rest `0` of a code of 11 bits, written last, is what
decodes zeros, with 1 bit. The codes of 9 and 11 zeros do not come out at all. -/
example : insOrder.Valid ∧ WF .msb shadowed ∧ Fits .msb shadowed ∧ used shadowed ≠ [] ∧
    Enumerates [zeros 10, zeros 9 ++ [true]] (bookOf .msb shadowed) ∧
    Enumerates [zeros 9 ++ [true], zeros 10] (bookOf .msb shadowed) ∧
    Room .msb shadowed (List.replicate 16 0) [.get32 3] ∧
    ruled .msb shadowed [zeros 10, zeros 9 ++ [true]] (List.replicate 16 0) [.get32 3] = (some 3, 1) ∧
    ruled .msb shadowed [zeros 9 ++ [true], zeros 10] (List.replicate 16 0) [.get32 3] = (some 2, 1) :=
  ⟨insOrder_valid, by decide, by decide, by decide, ⟨by decide, shadowed_groups⟩,
    ⟨by decide, fun g => by rw [← shadowed_groups, List.mem_cons, List.mem_cons, List.mem_cons, List.mem_cons]; simp [or_comm]⟩,
    ⟨by simp [within, widthOk, reach], by decide, by decide⟩, by decide, by decide⟩

/-- A code of ten zeros listed before one of 21 zeros and one of 12 zeros. -/
def oneGroup : List (Desc Nat) := [⟨0, 10, 1⟩, ⟨0, 21, 2⟩, ⟨0b000000000010, 12, 3⟩, ⟨1, 10, 4⟩, ⟨1, 1, 5⟩]

theorem oneGroup_groups : ∀ g, Spills (bookOf .msb oneGroup) g → g = zeros 10 := by
  intro g h
  have h1 := spills_mem h
  have e : (bookOf .msb oneGroup).map (·.1.take 10) = [zeros 10, zeros 10, zeros 10, zeros 9 ++ [true], [true]] := by
    decide
  rw [e] at h1
  simp only [List.mem_cons, List.not_mem_nil, or_false] at h1
  rcases h1 with rfl | rfl | rfl | rfl | rfl
  · rfl
  · rfl
  · rfl
  · exact absurd h (by decide)
  · exact absurd h (by decide)

/-- The rests, of 11 and 2 bits, are written over the first table as a table of 10 bits: zeros lead on to the rest of
the longer one, after 10 bits in all, and `10` decodes to the symbol of the other. -/
example : insOrder.Valid ∧ revOrder.Valid ∧ WF .msb oneGroup ∧ Fits .msb oneGroup ∧ used oneGroup ≠ [] ∧
    Spills (bookOf .msb oneGroup) (zeros 10) ∧
    (∀ g g', Spills (bookOf .msb oneGroup) g → Spills (bookOf .msb oneGroup) g' → g = g') ∧
    ruled .msb oneGroup [zeros 10] (List.replicate 16 0) [] = (some 2, 11) ∧
    ruled .msb oneGroup [zeros 10] (0x80 :: List.replicate 16 0) [] = (some 3, 2) ∧
    ruled .msb oneGroup [zeros 10] (0xc0 :: List.replicate 16 0) [] = (some 5, 1) ∧
    ruled .msb oneGroup [zeros 10] (0x00 :: 0x40 :: List.replicate 16 0) [] = (some 4, 10) ∧
    ruled .msb oneGroup [zeros 10] (0x01 :: List.replicate 16 0) [] = (none, 0) :=
  ⟨insOrder_valid, revOrder_valid, by decide, by decide, by decide, by decide,
    fun g g' h h' => (oneGroup_groups g h).trans (oneGroup_groups g' h').symm, by decide, by decide, by decide, by decide,
    by decide⟩

/-- The same with the bits the other way round. -/
example : low .lsb 3 [true, false, true, false, false, false, false, false, false, false] = some [true, false, true] ∧
    low .lsb 3 [true, false, true, false, false, false, false, false, false, true] = none ∧
    low .msb 3 [false, false, false, false, false, false, false, true, false, true] = some [true, false, true] ∧
    low .msb 3 [true, false, false, false, false, false, false, true, false, true] = none := by decide

/-- Without a group that spills the rule of `c20_rule_partial` remains. -/
example : ruled .msb overlapLong [] (0xc0 :: List.replicate 32 0) [] = (none, 20) ∧
    ruled .msb overlapLong [] (0xc0 :: 0x0f :: List.replicate 32 0) [] = (some 6, 12) := by decide

end Verif.Codebook
