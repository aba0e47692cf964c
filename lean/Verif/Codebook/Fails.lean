import Verif.Codebook.Props

/-! # C17, C20, C21, C66: what `read_cb` and `Codebook::new` do not guarantee -/

namespace Verif.Codebook
open Verif Verif.BitRead

theorem available_skipRem {e : Endian} {r : Reader} {n a : Nat} (hn : n ≤ r.left)
    (h : available r = .ok a) : n ≤ a ∧ available (skipRem e r n) = .ok (a - n) := by
  unfold available at h ⊢
  simp only [skipRem_buffer, skipRem_index, skipRem_left]
  cases hu : usub r.buffer.length r.index with
  | error p => rw [hu] at h; cases h
  | ok x =>
    rw [hu] at h
    simp only [ok_bind, pure_eq_ok, Except.ok.injEq] at h ⊢
    omega

/-- In any reader state whatsoever: what an answer of the loop says about the bits that were left. -/
theorem readLoop_avail {e : Endian} {m : Mode} {T : List Nat} {F : Nat → Prop} (fuel : Nat)
    {d off : Nat} {L : List Code} (hwf : CWF (maxLen m) L) (h : NodeOK m d T F off L) (r r' : Reader)
    (res : Except CodebookError Nat) (hr : readLoop e T fuel off (nb L) r = .ok (res, r')) :
    (∀ i, res = .ok i → (∀ c ∈ L, c.bits ≤ 10 ∨ c.bits ≤ r.left + 1) →
      ∃ c ∈ L, c.idx = i ∧ ∃ a, available r = .ok a ∧ c.bits ≤ a) ∧
    (∀ err, res = .error err → err = .invalidCode ∧ ((∀ c ∈ L, c.bits ≤ 10) → r' = r)) := by
  induction fuel generalizing d off L r with
  | zero => cases hr
  | succ fuel ih =>
    obtain ⟨d, rfl⟩ : ∃ k, d = k + 1 := by
      cases d with
      | zero => exact absurd h id
      | succ d => exact ⟨d, rfl⟩
    unfold readLoop at hr
    cases hpk : peek_bits_32 e r (nb L) with
    | error p => rw [hpk] at hr; cases hr
    | ok x =>
      obtain ⟨v, r1⟩ := x
      obtain ⟨rfl, hv⟩ := peek32_lt (nb_le L) hpk
      rw [hpk] at hr
      simp only [ok_bind] at hr
      rw [Nat.add_comm v.toNat off] at hr
      obtain ⟨_, hcase⟩ := h v.toNat hv
      rcases hcase with ⟨c, h1, h2, h3, h4⟩ | ⟨_, ⟨_, h2⟩ | ⟨hne, o, h2, h3, h4⟩⟩
      · rw [idx_some h4] at hr
        obtain ⟨x1, x2, x3, x4⟩ := leafVal_dec (hwf c h1).2.2.2
          (show c.bits ≤ 10 by have := nb_le L; omega)
        simp only [ok_bind, x1, x2, x3, x4, if_false, Bool.false_eq_true] at hr
        cases ha : available r1 with
        | error p => rw [ha] at hr; cases hr
        | ok a =>
          rw [ha] at hr
          simp only [ok_bind] at hr
          split at hr
          · cases hr
            exact ⟨fun i h => (nomatch h), fun err h => ⟨by cases h; rfl, fun _ => rfl⟩⟩
          · rename_i hle
            cases hs : skip_bits e r1 c.bits with
            | error p => rw [hs] at hr; cases hr
            | ok r2 =>
              rw [hs] at hr
              cases hr
              refine ⟨fun i h _ => ?_, fun err h => nomatch h⟩
              cases h
              exact ⟨c, h1, rfl, a, rfl, by have := Nat.mod_le a (2 ^ 32); omega⟩
      · rw [idx_some h2] at hr
        simp only [ok_bind, if_true] at hr
        cases hr
        exact ⟨fun i h => (nomatch h), fun err h => ⟨by cases h; rfl, fun _ => rfl⟩⟩
      · obtain ⟨hn, _, c0, c1, c2, c3⟩ := key_lt hwf hne
        rw [idx_some h3] at hr
        obtain ⟨x1, x2, x3, x4⟩ := escVal_dec h2 (nb_le (sub m L v.toNat))
        simp only [ok_bind, x1, x2, x3, x4, if_false, if_true] at hr
        have hw : CWF (maxLen m) (sub m L v.toNat) := by
          intro c hc
          have := hwf.sub (m := m) v.toNat c hc
          exact ⟨this.1, by omega, this.2.2⟩
        cases ha : available r1 with
        | error p => rw [ha] at hr; cases hr
        | ok a =>
          rw [ha] at hr
          simp only [ok_bind] at hr
          split at hr
          · cases hr
            exact ⟨fun i h => (nomatch h), fun err h => ⟨by cases h; rfl, fun _ => rfl⟩⟩
          · cases hs : skip_bits e r1 (nb L) with
            | error p => rw [hs] at hr; cases hr
            | ok r2 =>
              rw [hs] at hr
              simp only [ok_bind] at hr
              obtain ⟨i1, i2⟩ := ih hw h4 r2 hr
              refine ⟨fun i hi hall => ?_, fun err hi => ⟨(i2 err hi).1, fun hall => ?_⟩⟩
              · have hl : 10 ≤ r1.left := by have := hall c0 c1; omega
                rw [hn] at hs
                simp only [skip_bits, show ¬ r1.left < 10 by omega, if_false, Except.ok.injEq] at hs
                subst hs
                obtain ⟨g1, g2⟩ := available_skipRem (e := e) hl ha
                obtain ⟨c', j1, j2, a', j3, j4⟩ := i1 i hi (by
                  intro c' hc'
                  obtain ⟨c, b1, b2, b3, rfl⟩ := mem_sub.mp hc'
                  have := hall c b1
                  simp only [tailOf, skipRem_left]
                  omega)
                rw [g2] at j3
                cases j3
                obtain ⟨c, b1, b2, b3, rfl⟩ := mem_sub.mp j1
                refine ⟨c, b1, j2, a, rfl, ?_⟩
                simp only [tailOf] at j4
                omega
              · have := hall c0 c1; omega

/-! ### C17 -/

/-- Two codewords of 11 bits. -/
def long2 : List (Desc Nat) := [⟨0, 11, 1⟩, ⟨1, 11, 2⟩]

/-- **C17** fails: with 8 bits left a symbol with an 11-bit codeword is returned. -/
theorem c17_fails : ∃ (ds : List (Desc Nat)) (buf : List U8) (ops : List Op) (cb : Codebook Nat)
    (r0 : Reader) (vs : List (Option Nat)) (r r' : Reader) (s : Nat),
    WF .msb ds ∧ PrefixFree .msb ds ∧ Fits .msb ds ∧ new insOrder .msb ds = .ok (.ok cb) ∧
    BitRead.new .be buf = .ok r0 ∧ (∀ op ∈ ops, widthOk op) ∧ run .be r0 ops = .ok (vs, r) ∧
    buf.length % 8 = 0 ∧ available r = .ok 8 ∧ readCb .be 4 cb r = .ok (.ok s, r') ∧
    ∀ d ∈ used ds, d.sym = s → d.bits = 11 := by
  obtain ⟨cb, h⟩ : ∃ cb, new insOrder .msb long2 = .ok (.ok cb) :=
    let ⟨_, h, _⟩ := new_ok insOrder_valid (m := .msb) (ds := long2) (by decide) (by decide) (by decide)
      (by decide)
    ⟨_, h⟩
  have key : (match new insOrder .msb long2 with
      | .ok (.ok cb) => (do
        let r0 ← BitRead.new .be (List.replicate 8 0)
        let (_, r) ← run .be r0 [.get64 56]
        let a ← available r
        let (x, _) ← readCb .be 4 cb r
        return (a, x))
      | _ => .error .assert) = Except.ok (8, .ok 1) := by decide +kernel
  rw [h] at key
  simp only [bind, Except.bind, pure, Except.pure] at key
  split at key
  · cases key
  · rename_i r0 h0
    split at key
    · cases key
    · rename_i x1 h1
      split at key
      · cases key
      · rename_i a h2
        split at key
        · cases key
        · rename_i x2 h3
          simp only [Except.ok.injEq, Prod.mk.injEq] at key
          obtain ⟨rfl, k⟩ := key
          obtain ⟨vs, r⟩ := x1
          obtain ⟨res, r'⟩ := x2
          simp only at k h2 h3
          subst k
          exact ⟨long2, List.replicate 8 0, [.get64 56], cb, r0, vs, r, r', 1, by decide, by decide,
            by decide, h, h0, by decide, h1, by decide, h2, h3, by decide⟩

/-- **C17** (partial) In any reader state whatsoever in which every codeword longer than one table
(10 bits) but one bit is in the cache, a returned symbol has an entry whose codeword fits into the
available bits, and any error is `InvalidCode`. In particular this holds in every state for books whose
codewords have at most 10 bits.
Missing, and false: longer codewords when the cache holds fewer bits (`c17_fails`). -/
theorem c17_truncated_partial (ord : Order) (hord : ord.Valid) (m : Mode) (ds : List (Desc S))
    (hwf : WF m ds) (hpf : PrefixFree m ds) (hfit : Fits m ds) (hne : used ds ≠ []) (e : Endian)
    (fuel : Nat) (r r' : Reader) (res : Except CodebookError S)
    (hlong : ∀ d ∈ used ds, d.bits ≤ 10 ∨ d.bits ≤ r.left + 1) :
    ∃ cb, new ord m ds = .ok (.ok cb) ∧ (readCb e fuel cb r = .ok (res, r') →
      (∀ s, res = .ok s → ∃ d ∈ used ds, d.sym = s ∧ ∃ a, available r = .ok a ∧ d.bits ≤ a) ∧
      (∀ err, res = .error err → err = .invalidCode)) := by
  obtain ⟨T, h1, h2⟩ := new_ok hord hwf hpf hfit hne
  refine ⟨_, h1, ?_⟩
  intro hr
  unfold readCb at hr
  cases hl : readLoop e T fuel 0 (nb (codesFrom 0 ds)) r with
  | error p => simp only [hl] at hr; cases hr
  | ok x =>
    obtain ⟨res', r1⟩ := x
    simp only [hl, ok_bind] at hr
    obtain ⟨k1, k2⟩ := readLoop_avail fuel (codesFrom_CWF hwf hfit.2) h2 r r1 res' hl
    cases res' with
    | error err =>
      cases hr
      exact ⟨fun s h => (nomatch h), fun err' h => by cases h; exact (k2 err rfl).1⟩
    | ok i =>
      obtain ⟨c, hc, hi, a, ha, hb⟩ := k1 i rfl (by
        intro c hc
        obtain ⟨_, d, g1, g2, g3⟩ := mem_codesFrom hc
        have := hlong d (List.mem_of_getElem? g1)
        omega)
      obtain ⟨_, d, g1, g2, g3⟩ := mem_codesFrom hc
      have hs : ((used ds).map (·.sym))[i]? = some d.sym := by
        rw [← hi]; simpa using congrArg (Option.map (·.sym)) g1
      simp only [idx_some hs, ok_bind] at hr
      cases hr
      refine ⟨fun s h => ?_, fun err h => nomatch h⟩
      cases h
      exact ⟨d, List.mem_of_getElem? g1, rfl, a, ha, by omega⟩

example : ∃ r, Reachable .be (List.replicate 16 0) r ∧ available r = .ok 20 ∧
    ∀ d ∈ used book, d.bits ≤ 10 ∨ d.bits ≤ r.left + 1 := by
  refine ⟨_, ⟨_, [.get64 64, .get64 44], _, rfl, by decide, rfl⟩, by decide, by decide⟩

/-! ### C20 -/

/-- `0000000000` is a prefix of `00000000001`; `0000000001` is unrelated. -/
def ambiguous : List (Desc Nat) := [⟨0, 10, 1⟩, ⟨1, 11, 2⟩, ⟨1, 10, 3⟩]

/-- **C20** fails: an ambiguous description is accepted, and a codeword that has nothing to do with
the ambiguity is decoded as the symbol of another entry. -/
theorem c20_fails : ¬ PrefixFree .msb ambiguous ∧ WF .msb ambiguous ∧ Fits .msb ambiguous ∧
    ∃ (cb : Codebook Nat) (buf : List U8) (r : Reader), new insOrder .msb ambiguous = .ok (.ok cb) ∧
      BitRead.new .be buf = .ok r ∧ streamBits .be buf 0 10 = codeBits .msb 1 10 ∧
      ∃ r', readCb .be 4 cb r = .ok (.ok 2, r') ∧ consumed r' = .ok 1 := by
  refine ⟨by decide, by decide, by decide, ?_⟩
  have key : (match new insOrder .msb ambiguous with
      | .ok (.ok cb) => (do
        let r ← BitRead.new .be (0 :: 0x40 :: List.replicate 22 0)
        let (x, r') ← readCb .be 4 cb r
        let p ← consumed r'
        return (x, p))
      | _ => .error .assert) = Except.ok (.ok 2, 1) := by decide +kernel
  split at key
  · rename_i cb hcb
    simp only [bind, Except.bind, pure, Except.pure] at key
    split at key
    · cases key
    · rename_i r h0
      split at key
      · cases key
      · rename_i x h1
        split at key
        · cases key
        · rename_i p h2
          obtain ⟨res, r'⟩ := x
          simp only [Except.ok.injEq, Prod.mk.injEq] at key h2
          obtain ⟨rfl, rfl⟩ := key
          exact ⟨cb, _, r, hcb, h0, by decide, r', h1, h2⟩
  · cases key

/-! ### C21 -/

/-- **C21** fails: a rejected code beginning like a long codeword moves the reader by 10 bits. -/
theorem c21_fails : ∃ (ds : List (Desc Nat)) (buf : List U8) (cb : Codebook Nat) (r r' : Reader),
    WF .msb ds ∧ PrefixFree .msb ds ∧ Fits .msb ds ∧ new insOrder .msb ds = .ok (.ok cb) ∧
    BitRead.new .be buf = .ok r ∧ readCb .be 4 cb r = .ok (.error .invalidCode, r') ∧
    consumed r = .ok 0 ∧ consumed r' = .ok 10 := by
  have key : (match new insOrder .msb [(⟨0, 11, 1⟩ : Desc Nat)] with
      | .ok (.ok cb) => (do
        let r ← BitRead.new .be (0 :: 0x20 :: List.replicate 22 0)
        let (x, r') ← readCb .be 4 cb r
        let p ← consumed r
        let q ← consumed r'
        return (x, p, q))
      | _ => .error .assert) = Except.ok (.error .invalidCode, 0, 10) := by decide +kernel
  split at key
  · rename_i cb hcb
    simp only [bind, Except.bind, pure, Except.pure] at key
    split at key
    · cases key
    · rename_i r h0
      split at key
      · cases key
      · rename_i x h1
        split at key
        · cases key
        · rename_i p h2
          split at key
          · cases key
          · rename_i q h3
            obtain ⟨res, r'⟩ := x
            simp only [Except.ok.injEq, Prod.mk.injEq] at key h3
            obtain ⟨rfl, rfl, rfl⟩ := key
            exact ⟨_, _, cb, r, r', by decide, by decide, by decide, hcb, h0, h1, h2, h3⟩
  · cases key

/-- **C21** (partial) For books whose codewords have at most 10 bits, in any reader state whatsoever, a
`read_cb` that returns an error leaves the reader as it was. Missing, and false: longer codewords. -/
theorem c21_unmoved_partial (ord : Order) (hord : ord.Valid) (m : Mode) (ds : List (Desc S))
    (hwf : WF m ds) (hpf : PrefixFree m ds) (hfit : Fits m ds) (hne : used ds ≠ []) (e : Endian)
    (fuel : Nat) (r : Reader) (hshort : ∀ d ∈ used ds, d.bits ≤ 10) :
    ∃ cb, new ord m ds = .ok (.ok cb) ∧
      ∀ err r', readCb e fuel cb r = .ok (.error err, r') → r' = r := by
  obtain ⟨T, h1, h2⟩ := new_ok hord hwf hpf hfit hne
  refine ⟨_, h1, ?_⟩
  intro err r' hr
  unfold readCb at hr
  cases hl : readLoop e T fuel 0 (nb (codesFrom 0 ds)) r with
  | error p => simp only [hl] at hr; cases hr
  | ok x =>
    obtain ⟨res', r1⟩ := x
    simp only [hl, ok_bind] at hr
    obtain ⟨k1, k2⟩ := readLoop_avail fuel (codesFrom_CWF hwf hfit.2) h2 r r1 res' hl
    cases res' with
    | error err' =>
      cases hr
      apply (k2 err rfl).2
      intro c hc
      obtain ⟨_, d, g1, g2, g3⟩ := mem_codesFrom hc
      have := hshort d (List.mem_of_getElem? g1)
      omega
    | ok i =>
      simp only [bind, Except.bind, pure, Except.pure] at hr
      split at hr <;> cases hr

/-- Three codewords, incomplete: `11` is no codeword. -/
def short3 : List (Desc Nat) := [⟨0, 1, 5⟩, ⟨0b100, 3, 6⟩, ⟨0b101, 3, 7⟩]

example : WF .msb short3 ∧ PrefixFree .msb short3 ∧ Fits .msb short3 ∧ used short3 ≠ [] ∧
    ∀ d ∈ used short3, d.bits ≤ 10 := by decide

/-! ### C66 -/

/-- A complete book of two codewords. -/
def bits2 : List (Desc Nat) := [⟨0, 1, 5⟩, ⟨1, 1, 6⟩]

/-- **C66** fails: in front of exactly 2^32 bits every code is rejected, because the number of available
bits is truncated to 32 bits — although the next bit is a codeword (any single bit is). -/
theorem c66_fails (buf : List U8) (hl : buf.length = 2 ^ 29) :
    ∃ cb r, new insOrder .msb bits2 = .ok (.ok cb) ∧ BitRead.new .be buf = .ok r ∧
      readCb .be 4 cb r = .ok (.error .invalidCode, r) ∧
      ∃ d ∈ used bits2, streamBits .be buf 0 d.bits = codeBits .msb d.code d.bits := by
  obtain ⟨T, h1, h2⟩ := new_ok insOrder_valid (m := .msb) (ds := bits2) (by decide) (by decide)
    (by decide) (by decide)
  obtain ⟨r, n1, n2, _, n3⟩ := new_spec .be buf
  refine ⟨_, r, h1, n1, ?_, ?_⟩
  · obtain ⟨v, v1, v2, v3⟩ := peek_top (m := .msb) n3 (nb_le (codesFrom 0 bits2))
    have ha := n3.available
    rw [n2, hl] at ha
    obtain ⟨_, hcase⟩ := h2 v.toNat v2
    have hloop : readLoop .be T 4 0 (nb (codesFrom 0 bits2)) r = .ok (.error .invalidCode, r) := by
      rcases hcase with ⟨c, g1, g2, g3, g4⟩ | ⟨_, ⟨_, g2⟩ | ⟨hne, _⟩⟩
      · have hcw := codesFrom_CWF (m := .msb) (ds := bits2) (by decide) (by decide) c g1
        obtain ⟨x1, x2, x3, x4⟩ := leafVal_dec hcw.2.2.2
          (show c.bits ≤ 10 by have := nb_le (codesFrom 0 bits2); omega)
        have hp := hcw.1
        unfold readLoop
        simp only [endianOf] at v1
        rw [v1]
        simp only [ok_bind]
        rw [Nat.add_comm, idx_some g4]
        simp only [ok_bind, x1, x2, ha, if_false]
        rw [if_pos]
        omega
      · exact readLoop_fill v1 g2
      · exfalso
        apply hne
        simp [sub, codesFrom, bits2, long]
    unfold readCb
    simp only [hloop, ok_bind]
  · cases hb : bit .be buf 0 with
    | false => exact ⟨⟨0, 1, 5⟩, by decide, by simp [streamBits, hb]; decide⟩
    | true => exact ⟨⟨1, 1, 6⟩, by decide, by simp [streamBits, hb]; decide⟩

/-- **C66** (partial) Below 2^32 bits the amount of data following a codeword makes no difference: two
buffers that agree on the codeword give the same symbol and the same advance.
Missing, and false: longer buffers. -/
theorem c66_following_partial (ord : Order) (hord : ord.Valid) (m : Mode) (ds : List (Desc S))
    (hwf : WF m ds) (hpf : PrefixFree m ds) (hfit : Fits m ds) (d : Desc S) (hd : d ∈ used ds)
    (buf buf' : List U8)
    (hin : d.bits + 64 ≤ 8 * buf.length) (hin' : d.bits + 64 ≤ 8 * buf'.length)
    (h32 : 8 * buf.length < 2 ^ 32) (h32' : 8 * buf'.length < 2 ^ 32)
    (hbits : streamBits (endianOf m) buf 0 d.bits = codeBits m d.code d.bits)
    (hsame : streamBits (endianOf m) buf' 0 d.bits = streamBits (endianOf m) buf 0 d.bits)
    (fuel : Nat) (hfu : 26 ≤ fuel) :
    ∃ cb r r' s q q', new ord m ds = .ok (.ok cb) ∧ BitRead.new (endianOf m) buf = .ok r ∧
      BitRead.new (endianOf m) buf' = .ok r' ∧ readCb (endianOf m) fuel cb r = .ok (.ok s, q) ∧
      readCb (endianOf m) fuel cb r' = .ok (.ok s, q') ∧ consumed q = consumed q' := by
  obtain ⟨T, h1, _⟩ := new_ok hord hwf hpf hfit (List.ne_nil_of_mem hd)
  obtain ⟨r, n1, n2, _, n3⟩ := new_spec (endianOf m) buf
  obtain ⟨r', n1', n2', _, n3'⟩ := new_spec (endianOf m) buf'
  obtain ⟨q, b1, b2, b3⟩ := readCb_code hord hwf hpf hfit h1 hd hfu n3 (by rw [n2]; exact hbits)
    (by rw [n2]; omega) (by rw [n2]; exact h32)
  obtain ⟨q', b1', b2', b3'⟩ := readCb_code hord hwf hpf hfit h1 hd hfu n3'
    (by rw [n2', hsame]; exact hbits) (by rw [n2']; omega) (by rw [n2']; exact h32')
  exact ⟨_, r, r', _, q, q', h1, n1, n1', b1, b1', by rw [b3.consumed, b3'.consumed]⟩

example : streamBits .be (0xff :: List.replicate 20 0x12) 0 12 ≠ codeBits .msb 0b111111111110 12 ∧
    streamBits .be (0xff :: List.replicate 20 0xe7) 0 12 = codeBits .msb 0b111111111110 12 ∧
    streamBits .be (0xff :: 0xe8 :: List.replicate 9 0) 0 12 = codeBits .msb 0b111111111110 12 := by
  decide

end Verif.Codebook
