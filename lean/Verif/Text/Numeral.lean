import Verif.Prelude

/-! # Decimal numerals in texts -/

namespace Verif.Text

theorem digits_append_inj : ∀ {a b : List Char} {c d : Char} {s t : List Char},
    (∀ x ∈ a, x.isDigit = true) → (∀ x ∈ b, x.isDigit = true) → c.isDigit = false → d.isDigit = false →
    a ++ c :: s = b ++ d :: t → a = b ∧ c :: s = d :: t := by
  intro a
  induction a with
  | nil =>
    intro b c d s t _ hb hc hd h
    cases b with
    | nil => exact ⟨rfl, h⟩
    | cons y b =>
      simp only [List.nil_append, List.cons_append, List.cons.injEq] at h
      have := hb y (by simp)
      rw [← h.1, hc] at this
      cases this
  | cons x a ih =>
    intro b c d s t ha hb hc hd h
    cases b with
    | nil =>
      simp only [List.nil_append, List.cons_append, List.cons.injEq] at h
      have := ha x (by simp)
      rw [h.1, hd] at this
      cases this
    | cons y b =>
      simp only [List.cons_append, List.cons.injEq] at h
      obtain ⟨h1, h2⟩ := ih (fun z hz => ha z (by simp [hz])) (fun z hz => hb z (by simp [hz])) hc hd h.2
      exact ⟨by rw [h.1, h1], h2⟩

theorem toDigits_inj {m n : Nat} (h : Nat.toDigits 10 m = Nat.toDigits 10 n) : m = n := by
  rw [← Nat.ofDigitChars_ten_toDigits (n := m), h, Nat.ofDigitChars_ten_toDigits]

theorem toList_toString (n : Nat) : (toString n).toList = Nat.toDigits 10 n := Nat.toList_repr

/-- A number followed by something that is not a digit can be read back. -/
theorem numeral_inj {m n : Nat} {c d : Char} {s t : List Char} (hc : c.isDigit = false) (hd : d.isDigit = false)
    (h : Nat.toDigits 10 m ++ c :: s = Nat.toDigits 10 n ++ d :: t) : m = n ∧ c :: s = d :: t := by
  obtain ⟨h1, h2⟩ := digits_append_inj
    (fun x hx => Nat.isDigit_of_mem_toDigits (by decide) (by decide) hx)
    (fun x hx => Nat.isDigit_of_mem_toDigits (by decide) (by decide) hx) hc hd h
  exact ⟨toDigits_inj h1, h2⟩

/-- A numeral begins with a digit. -/
theorem numeral_head (n : Nat) : ∃ c s, Nat.toDigits 10 n = c :: s ∧ c.isDigit = true := by
  cases h : Nat.toDigits 10 n with
  | nil => exact absurd h Nat.toDigits_ne_nil
  | cons c s =>
    exact ⟨c, s, rfl, Nat.isDigit_of_mem_toDigits (b := 10) (n := n) (by decide) (by decide) (by rw [h]; simp)⟩

theorem numeral_ne {n : Nat} {r l : List Char} (hd : l.head?.any Char.isDigit = false)
    (h : Nat.toDigits 10 n ++ r = l) : False := by
  obtain ⟨c, s, hc, hdig⟩ := numeral_head n
  rw [← h, hc] at hd
  simp [hdig] at hd

end Verif.Text
