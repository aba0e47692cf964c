import Verif.Codebook.Model

/-! # Helper lemmas: `reverse_bits` -/

namespace Verif.Codebook
open Verif

theorem revTab_bits : ∀ n, n < 16 → ∃ t, revTab[n]? = some t ∧ t < 16 ∧
    ∀ j, j < 4 → t.testBit j = n.testBit (3 - j) := by
  intro n hn
  have key : ∀ n : Fin 16, ∃ t, t < 16 ∧ revTab[n.val]? = some t ∧
      ∀ j : Fin 4, t.testBit j.val = n.val.testBit (3 - j.val) := by decide
  obtain ⟨t, h1, h2, h3⟩ := key ⟨n, hn⟩
  exact ⟨t, h2, h1, fun j hj => h3 ⟨j, hj⟩⟩

theorem reverseLoop_spec (k : Nat) (ret val x : BitVec 32) (q : Nat) (hq : q + k = 8)
    (hval : val = x >>> (4 * q))
    (hret : ∀ j, j < 4 * q → ret.getLsbD j = x.getLsbD (4 * q - 1 - j)) :
    ∃ y, reverseLoop k ret val = .ok y ∧ ∀ j, j < 32 → y.getLsbD j = x.getLsbD (31 - j) := by
  induction k generalizing ret val q with
  | zero =>
    refine ⟨ret, rfl, ?_⟩
    intro j hj
    rw [hret j (by omega)]
    congr 1; omega
  | succ k ih =>
    have hn : (val &&& 0xF).toNat < 16 := by
      rw [BitVec.toNat_and]
      exact Nat.lt_of_le_of_lt Nat.and_le_right (by decide)
    obtain ⟨t, h1, h2, h3⟩ := revTab_bits _ hn
    have hidx : idx revTab (val &&& 0xF).toNat = .ok t := by unfold idx; rw [h1]
    obtain ⟨y, a1, a2⟩ := ih ((ret <<< 4) ||| BitVec.ofNat 32 t) (val >>> 4) (q + 1) (by omega)
      (by rw [hval]; rw [← BitVec.shiftRight_add]; congr 1)
      (by
        intro j hj
        rw [BitVec.getLsbD_or, BitVec.getLsbD_shiftLeft, BitVec.getLsbD_ofNat]
        by_cases h4 : j < 4
        · have e1 := h3 j h4
          have e2 : (val &&& 0xF).toNat.testBit (3 - j) = x.getLsbD (4 * (q + 1) - 1 - j) := by
            rw [BitVec.testBit_toNat, BitVec.getLsbD_and, hval, BitVec.getLsbD_ushiftRight]
            have h15 : (0xF : BitVec 32).getLsbD (3 - j) = true := by
              have : ∀ i : Fin 4, (0xF : BitVec 32).getLsbD (3 - i.val) = true := by decide
              exact this ⟨j, h4⟩
            rw [h15, Bool.and_true]
            congr 1; omega
          simp only [show j < 32 by omega, h4, decide_true, Bool.not_true, Bool.and_false, Bool.true_and]
          rw [e1, e2, Bool.false_and, Bool.false_or]
        · have ht : t.testBit j = false := Nat.testBit_lt_two_pow (by
            have : 2 ^ 4 ≤ 2 ^ j := Nat.pow_le_pow_right (by omega) (by omega)
            omega)
          simp only [show j < 32 by omega, h4, decide_true, decide_false, Bool.not_false, Bool.and_true,
            Bool.true_and, ht, Bool.or_false]
          rw [hret _ (by omega)]
          congr 1; omega)
    refine ⟨y, ?_, a2⟩
    unfold reverseLoop
    rw [hidx]
    exact a1

end Verif.Codebook
