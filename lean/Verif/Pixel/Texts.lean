import Verif.Pixel.Props

/-!
# C119, C120: what the text of a format tells

The texts of components and formats determine everything they show, and nothing more: equal texts mean equal
subsampling, storage, offset and step, and for packed components the same bits of the element.
-/

namespace Verif.Pixel
open Verif

/-! ### numbers in texts -/

/-- The value of an upper-case hexadecimal digit. -/
def hexDigit (c : Char) : Nat := if c.toNat < 58 then c.toNat - 48 else c.toNat - 55

/-- The value of an upper-case hexadecimal numeral. -/
def hexValue (l : List Char) : Nat := l.foldl (fun n c => 16 * n + hexDigit c) 0

theorem hexUpper_digit (d : Nat) (h : d < 16) :
    hexDigit d.digitChar.toUpper = d ∧ d.digitChar.toUpper ≠ ',' := by
  have : ∀ d : Fin 16, hexDigit d.val.digitChar.toUpper = d ∧ d.val.digitChar.toUpper ≠ ',' := by decide +kernel
  exact this ⟨d, h⟩

theorem hexUpper_spec (n : Nat) : hexValue (Chromaton.hexUpper n).toList = n ∧ ',' ∉ (Chromaton.hexUpper n).toList := by
  unfold Chromaton.hexUpper hexValue
  rw [String.toList_ofList]
  induction n using Nat.strongRecOn with
  | _ n ih =>
    rw [Nat.toDigits_eq_if (by decide)]
    split
    · next h => simpa [eq_comm] using hexUpper_digit n h
    · next h =>
      have hd := hexUpper_digit (n % 16) (Nat.mod_lt _ (by decide))
      obtain ⟨i1, i2⟩ := ih (n / 16) (by omega)
      rw [List.map_append, List.foldl_append, i1]
      refine ⟨?_, ?_⟩
      · simp only [List.map_cons, List.map_nil, List.foldl_cons, List.foldl_nil, hd.1]; omega
      · simp only [List.mem_append, not_or]
        exact ⟨i2, by simpa [eq_comm] using hd.2⟩

theorem decimal_inj {m n : Nat} (h : Nat.toDigits 10 m = Nat.toDigits 10 n) : m = n := by
  rw [← Nat.ofDigitChars_ten_toDigits (n := m), h, Nat.ofDigitChars_ten_toDigits]

theorem decimal_digit {n : Nat} {c : Char} (h : c.isDigit = false) : c ∉ Nat.toDigits 10 n := fun hm => by
  rw [Nat.isDigit_of_mem_toDigits (by decide) (by decide) hm] at h
  cases h

/-- A text can be cut at the first occurrence of a character. -/
theorem cut {c : Char} : ∀ {a b r s : List Char}, c ∉ a → c ∉ b → a ++ c :: r = b ++ c :: s → a = b ∧ r = s
  | [], [], _, _, _, _, h => by simpa using h
  | [], y :: b, _, _, _, hb, h => by
    simp only [List.nil_append, List.cons_append, List.cons.injEq] at h
    exact absurd (by simp [h.1]) hb
  | x :: a, [], _, _, ha, _, h => by
    simp only [List.nil_append, List.cons_append, List.cons.injEq] at h
    exact absurd (by simp [h.1]) ha
  | x :: a, y :: b, r, s, ha, hb, h => by
    simp only [List.cons_append, List.cons.injEq] at h
    obtain ⟨h1, h2⟩ := cut (fun hm => ha (by simp [hm])) (fun hm => hb (by simp [hm])) h.2
    exact ⟨by rw [h.1, h1], h2⟩

theorem cut_decimal {c : Char} (hc : c.isDigit = false) {m n : Nat} {r s : List Char}
    (h : Nat.toDigits 10 m ++ c :: r = Nat.toDigits 10 n ++ c :: s) : m = n ∧ r = s := by
  obtain ⟨h1, h2⟩ := cut (decimal_digit hc) (decimal_digit hc) h
  exact ⟨decimal_inj h1, h2⟩

theorem cut_hex {m n : Nat} {r s : List Char}
    (h : (Chromaton.hexUpper m).toList ++ ',' :: r = (Chromaton.hexUpper n).toList ++ ',' :: s) : m = n ∧ r = s := by
  obtain ⟨h1, h2⟩ := cut (hexUpper_spec m).2 (hexUpper_spec n).2 h
  exact ⟨by rw [← (hexUpper_spec m).1, h1, (hexUpper_spec n).1], h2⟩

/-! ### components -/

/-- The component occupies bit `i` of its element. -/
def Covers (c : Chromaton) (i : Nat) : Prop := c.shift ≤ i ∧ i < c.shift + c.depth

instance (c : Chromaton) (i : Nat) : Decidable (Covers c i) := inferInstanceAs (Decidable (_ ∧ _))

/-- The same subsampling, storage, offset and step; if packed, the same bits of a 32-bit element. -/
def SameLayout (c d : Chromaton) : Prop :=
  c.h_ss = d.h_ss ∧ c.v_ss = d.v_ss ∧ c.packed = d.packed ∧ c.comp_offs = d.comp_offs ∧ c.next_elem = d.next_elem ∧
  (c.packed = true → ∀ i < 32, Covers c i ↔ Covers d i)

theorem mask_bits {c : Chromaton} {m : Nat} (h : c.mask = .ok m) (i : Nat) :
    m.testBit i = decide (i < 32 ∧ Covers c i) := by
  unfold Chromaton.mask at h
  split at h
  · cases h
  split at h
  · cases h
  split at h
  · cases h
  obtain rfl := Except.ok.inj h
  rw [Nat.testBit_mod_two_pow, Nat.testBit_mul_two_pow, Nat.testBit_two_pow_sub_one]
  simp only [Covers]
  by_cases h1 : i < 32 <;> by_cases h2 : c.shift ≤ i <;> by_cases h3 : i < c.shift + c.depth <;>
    simp [h1, h2, h3] <;> omega

theorem display_packed {c : Chromaton} {s : String} (hp : c.packed = true) (h : c.display = .ok s) :
    ∃ m, c.mask = .ok m ∧ s.toList =
      '(' :: (Nat.toDigits 10 c.h_ss ++ 'x' :: (Nat.toDigits 10 c.v_ss ++ ',' :: ' ' :: 'p' :: 'a' :: 'c' :: 'k' ::
        'e' :: 'd' :: '(' :: '+' :: (Nat.toDigits 10 c.comp_offs ++ ',' :: ((Chromaton.hexUpper m).toList ++
          ',' :: ' ' :: 's' :: 't' :: 'e' :: 'p' :: ' ' :: (Nat.toDigits 10 c.next_elem ++ ')' :: [')']))))) := by
  unfold Chromaton.display at h
  cases hm : c.mask with
  | error e => simp [hp, hm] at h
  | ok m =>
    refine ⟨m, rfl, ?_⟩
    simp only [hp, hm, ok_bind, pure_eq_ok, if_true, Except.ok.injEq] at h
    subst h
    simp [toString, Nat.toList_repr]

theorem display_planar {c : Chromaton} {s : String} (hp : c.packed = false) (h : c.display = .ok s) :
    s.toList =
      '(' :: (Nat.toDigits 10 c.h_ss ++ 'x' :: (Nat.toDigits 10 c.v_ss ++ ',' :: ' ' :: 'p' :: 'l' :: 'a' :: 'n' ::
        'a' :: 'r' :: '(' :: (Nat.toDigits 10 c.comp_offs ++ ',' :: (Nat.toDigits 10 c.next_elem ++ ')' :: [')'])))) := by
  unfold Chromaton.display at h
  simp only [hp, ok_bind, pure_eq_ok, Bool.false_eq_true, if_false, Except.ok.injEq] at h
  subst h
  simp [toString, Nat.toList_repr]

/-- The text of a component, followed by anything, can be read back. -/
theorem component_read {c d : Chromaton} {s t : String} (hc : c.display = .ok s) (hd : d.display = .ok t)
    {u v : List Char} (h : s.toList ++ u = t.toList ++ v) : SameLayout c d ∧ u = v := by
  cases hp : c.packed <;> cases hq : d.packed
  · rw [display_planar hp hc, display_planar hq hd] at h
    simp only [List.cons_append, List.append_assoc, List.cons.injEq, true_and] at h
    obtain ⟨h1, h⟩ := cut_decimal (by decide) h
    obtain ⟨h2, h⟩ := cut_decimal (by decide) h
    simp only [List.cons.injEq, true_and] at h
    obtain ⟨h3, h⟩ := cut_decimal (by decide) h
    obtain ⟨h4, h⟩ := cut_decimal (by decide) h
    simp only [List.nil_append, List.cons.injEq, true_and] at h
    exact ⟨⟨h1, h2, by rw [hp, hq], h3, h4, by simp [hp]⟩, h⟩
  · obtain ⟨m, hm, hd'⟩ := display_packed hq hd
    rw [display_planar hp hc, hd'] at h
    simp only [List.cons_append, List.append_assoc, List.cons.injEq, true_and] at h
    obtain ⟨h1, h⟩ := cut_decimal (by decide) h
    obtain ⟨h2, h⟩ := cut_decimal (by decide) h
    simp at h
  · obtain ⟨m, hm, hc'⟩ := display_packed hp hc
    rw [display_planar hq hd, hc'] at h
    simp only [List.cons_append, List.append_assoc, List.cons.injEq, true_and] at h
    obtain ⟨h1, h⟩ := cut_decimal (by decide) h
    obtain ⟨h2, h⟩ := cut_decimal (by decide) h
    simp at h
  · obtain ⟨m, hm, hc'⟩ := display_packed hp hc
    obtain ⟨n, hn, hd'⟩ := display_packed hq hd
    rw [hc', hd'] at h
    simp only [List.cons_append, List.append_assoc, List.cons.injEq, true_and] at h
    obtain ⟨h1, h⟩ := cut_decimal (by decide) h
    obtain ⟨h2, h⟩ := cut_decimal (by decide) h
    simp only [List.cons.injEq, true_and] at h
    obtain ⟨h3, h⟩ := cut_decimal (by decide) h
    obtain ⟨h4, h⟩ := cut_hex h
    simp only [List.cons.injEq, true_and] at h
    obtain ⟨h5, h⟩ := cut_decimal (by decide) h
    simp only [List.nil_append, List.cons.injEq, true_and] at h
    refine ⟨⟨h1, h2, by rw [hp, hq], h3, h5, fun _ i hi => ?_⟩, h⟩
    have e := mask_bits hm i
    rw [h4, mask_bits hn i] at e
    simpa [hi] using e.symm

/-- **C119** Two components have the same text exactly if they have the same layout. -/
theorem c119_component (c d : Chromaton) (s t : String) (hc : c.display = .ok s) (hd : d.display = .ok t) :
    s = t ↔ SameLayout c d := by
  constructor
  · rintro rfl
    exact (component_read hc hd (u := []) (v := []) rfl).1
  · rintro ⟨h1, h2, h3, h4, h5, h6⟩
    rw [← String.toList_inj]
    cases hp : c.packed
    · rw [display_planar hp hc, display_planar (h3 ▸ hp) hd, h1, h2, h4, h5]
    · obtain ⟨m, hm, hc'⟩ := display_packed hp hc
      obtain ⟨n, hn, hd'⟩ := display_packed (h3 ▸ hp) hd
      have : m = n := by
        refine Nat.eq_of_testBit_eq fun i => ?_
        rw [mask_bits hm, mask_bits hn]
        by_cases hi : i < 32
        · simp [hi, h6 hp i hi]
        · simp [hi]
      rw [hc', hd', h1, h2, h4, h5, this]

/-- **C119** A packed component that has bits and whose bits all lie in the element is determined by its text. -/
theorem c119_packed (c d : Chromaton) (s : String) (hc : c.display = .ok s) (hd : d.display = .ok s)
    (hp : c.packed = true) (h0 : 0 < c.depth) (h0' : 0 < d.depth) (h1 : c.shift + c.depth ≤ 32)
    (h1' : d.shift + d.depth ≤ 32) : c = d := by
  obtain ⟨e1, e2, e3, e4, e5, e6⟩ := (c119_component c d s s hc hd).1 rfl
  have a := (e6 hp c.shift (by omega)).1 ⟨Nat.le_refl _, by omega⟩
  have b := (e6 hp d.shift (by omega)).2 ⟨Nat.le_refl _, by omega⟩
  have a' := (e6 hp (c.shift + c.depth - 1) (by omega)).1 ⟨by omega, by omega⟩
  have b' := (e6 hp (d.shift + d.depth - 1) (by omega)).2 ⟨by omega, by omega⟩
  unfold Covers at a b a' b'
  have s1 : c.shift = d.shift := by omega
  have s2 : c.depth = d.depth := by omega
  cases c; cases d; simp_all

example : (Chromaton.packrgb 5 11 0 2).display = .ok "(0x0, packed(+0,F800, step 2))" := by decide +kernel

/-- The depth of a planar component is not shown. -/
example : (Chromaton.new 1 1 false 8 0 1 1).display = (Chromaton.new 1 1 false 10 0 1 1).display := by decide +kernel

/-! ### formats -/

/-- The components that are present. -/
def present (f : Formaton) : List Chromaton := f.comp_info.filterMap id

/-- The same layouts in the same order. -/
def SameLayouts : List Chromaton → List Chromaton → Prop
  | [], [] => True
  | c :: cs, d :: ds => SameLayout c d ∧ SameLayouts cs ds
  | _, _ => False

/-- The texts of a list of components, a blank before each. -/
def componentTexts : List Chromaton → Rust (List Char)
  | [] => .ok []
  | c :: cs => do
    let s ← c.display
    return ' ' :: (s.toList ++ (← componentTexts cs))

theorem displayComps_text : ∀ (cs : List (Option Chromaton)) (s t : String), Formaton.displayComps s cs = .ok t →
    ∃ u, componentTexts (cs.filterMap id) = .ok u ∧ t.toList = s.toList ++ u
  | [], s, t, h => ⟨[], rfl, by simpa [Formaton.displayComps] using (congrArg String.toList (Except.ok.inj h)).symm⟩
  | none :: cs, s, t, h => displayComps_text cs s t h
  | some c :: cs, s, t, h => by
    unfold Formaton.displayComps at h
    cases hc : c.display with
    | error e => simp [hc] at h
    | ok w =>
      simp only [hc, ok_bind] at h
      obtain ⟨u, h1, h2⟩ := displayComps_text cs _ t h
      refine ⟨' ' :: (w.toList ++ u), ?_, ?_⟩
      · simp [componentTexts, hc, h1]
      · simp [h2]

theorem componentTexts_read : ∀ (cs ds : List Chromaton) (u v : List Char), componentTexts cs = .ok u →
    componentTexts ds = .ok v → u ++ [']'] = v ++ [']'] → SameLayouts cs ds
  | [], [], _, _, _, _, _ => trivial
  | [], d :: ds, u, v, hu, hv, h => by
    obtain rfl := Except.ok.inj hu
    unfold componentTexts at hv
    cases hd : d.display with
    | error e => simp [hd] at hv
    | ok t =>
      cases hr : componentTexts ds with
      | error e => simp [hd, hr] at hv
      | ok r =>
        simp only [hd, hr, ok_bind, pure_eq_ok, Except.ok.injEq] at hv
        subst hv
        simp at h
  | c :: cs, [], u, v, hu, hv, h => by
    obtain rfl := Except.ok.inj hv
    unfold componentTexts at hu
    cases hc : c.display with
    | error e => simp [hc] at hu
    | ok t =>
      cases hr : componentTexts cs with
      | error e => simp [hc, hr] at hu
      | ok r =>
        simp only [hc, hr, ok_bind, pure_eq_ok, Except.ok.injEq] at hu
        subst hu
        simp at h
  | c :: cs, d :: ds, u, v, hu, hv, h => by
    unfold componentTexts at hu hv
    cases hc : c.display with
    | error e => simp [hc] at hu
    | ok s =>
      cases hr : componentTexts cs with
      | error e => simp [hc, hr] at hu
      | ok r =>
        cases hd : d.display with
        | error e => simp [hd] at hv
        | ok t =>
          cases hq : componentTexts ds with
          | error e => simp [hd, hq] at hv
          | ok q =>
            simp only [hc, hr, ok_bind, pure_eq_ok, Except.ok.injEq] at hu
            simp only [hd, hq, ok_bind, pure_eq_ok, Except.ok.injEq] at hv
            subst hu hv
            simp only [List.cons_append, List.append_assoc, List.cons.injEq, true_and] at h
            obtain ⟨h1, h2⟩ := component_read hc hd h
            exact ⟨h1, componentTexts_read cs ds r q hr hq h2⟩

/-- The part of the heading in front of the element size. -/
def headText (m : ColorModel) (palette alpha be : Bool) : List Char :=
  ("Formaton for " ++ m.display ++ " (" ++ (if palette then "palette " else "") ++
    (if alpha then "alpha " else "") ++ "elem " ++ (if be then "BE" else "LE") ++ " size ").toList

/-- All colour models. -/
def allModels : List ColorModel :=
  [.Trichromatic .RGB, .Trichromatic .XYZ, .Trichromatic (.YUV (.YCbCr .Limited)), .Trichromatic (.YUV (.YCbCr .Full)),
    .Trichromatic (.YUV .YCoCg), .Trichromatic (.YUV .ICtCp), .CMYK, .HSV, .LAB]

theorem allModels_all (m : ColorModel) : m ∈ allModels := by
  rcases m with (_ | ((_ | _) | _ | _) | _) | _ | _ | _ <;> decide

theorem prefix_of_append {a b r s : List Char} (h : a ++ r = b ++ s) : a.isPrefixOf b = true ∨ b.isPrefixOf a = true := by
  simp only [List.isPrefixOf_iff_prefix]
  exact List.prefix_or_prefix_of_prefix (l₃ := b ++ s) ⟨r, h⟩ ⟨s, rfl⟩

/-- `headText`, letter by letter. -/
def headChars (m : ColorModel) (palette alpha be : Bool) : List Char :=
  "Formaton for ".toList ++ (m.display.toList ++ (' ' :: '(' :: ((if palette then "palette ".toList else []) ++
    ((if alpha then "alpha ".toList else []) ++ ('e' :: 'l' :: 'e' :: 'm' :: ' ' ::
      ((if be then ['B', 'E'] else ['L', 'E']) ++ [' ', 's', 'i', 'z', 'e', ' ']))))))

theorem headText_eq (m : ColorModel) (p a b : Bool) : headText m p a b = headChars m p a b := by
  unfold headText headChars
  cases p <;> cases a <;> cases b <;> simp

theorem headChars_distinct : ∀ m ∈ allModels, ∀ n ∈ allModels, ∀ p a b p' a' b' : Bool,
    (headChars m p a b).isPrefixOf (headChars n p' a' b') = true → m = n ∧ p = p' ∧ a = a' ∧ b = b' := by
  decide +kernel

theorem headText_distinct : ∀ m ∈ allModels, ∀ n ∈ allModels, ∀ p a b p' a' b' : Bool,
    (headText m p a b).isPrefixOf (headText n p' a' b') = true → m = n ∧ p = p' ∧ a = a' ∧ b = b' := by
  intro m hm n hn p a b p' a' b' h
  rw [headText_eq, headText_eq] at h
  exact headChars_distinct m hm n hn p a b p' a' b' h

theorem heading_text (f : Formaton) : f.heading.toList =
    headText f.model f.palette f.alpha f.be ++ (Nat.toDigits 10 f.elem_size ++ [')', ':', ' ']) := by
  unfold Formaton.heading headText
  generalize (if f.palette then "palette " else "") = p
  generalize (if f.alpha then "alpha " else "") = a
  generalize (if f.be then "BE" else "LE") = b
  generalize f.model.display = m
  simp [toString, Nat.toList_repr]

theorem format_text {f : Formaton} {s : String} (hf : f.display = .ok s) :
    ∃ u, componentTexts (present f) = .ok u ∧ s.toList =
      '[' :: (headText f.model f.palette f.alpha f.be ++ (Nat.toDigits 10 f.elem_size ++ ')' :: ':' :: ' ' ::
        (u ++ [']']))) := by
  rw [Formaton.display_eq] at hf
  cases ht : Formaton.displayComps f.heading f.comp_info with
  | error e => rw [ht] at hf; cases hf
  | ok t =>
    rw [ht] at hf
    have hs : "[" ++ t ++ "]" = s := Except.ok.inj hf
    obtain ⟨u, h1, h2⟩ := displayComps_text _ _ _ ht
    refine ⟨u, h1, ?_⟩
    rw [← hs]
    simp [h2, heading_text]

theorem componentTexts_same : ∀ (cs ds : List Chromaton) (u v : List Char), SameLayouts cs ds →
    componentTexts cs = .ok u → componentTexts ds = .ok v → u = v
  | [], [], u, v, _, hu, hv => by
    obtain rfl := Except.ok.inj hu
    exact Except.ok.inj hv
  | [], _ :: _, _, _, h, _, _ => h.elim
  | _ :: _, [], _, _, h, _, _ => h.elim
  | c :: cs, d :: ds, u, v, h, hu, hv => by
    unfold componentTexts at hu hv
    cases hc : c.display with
    | error e => simp [hc] at hu
    | ok s =>
      cases hr : componentTexts cs with
      | error e => simp [hc, hr] at hu
      | ok r =>
        cases hd : d.display with
        | error e => simp [hd] at hv
        | ok t =>
          cases hq : componentTexts ds with
          | error e => simp [hd, hq] at hv
          | ok q =>
            simp only [hc, hr, ok_bind, pure_eq_ok, Except.ok.injEq] at hu
            simp only [hd, hq, ok_bind, pure_eq_ok, Except.ok.injEq] at hv
            rw [← hu, ← hv, (c119_component c d s t hc hd).2 h.1, componentTexts_same cs ds r q h.2 hr hq]

/-- **C119** Two formats have the same text exactly if they have the same colour model, flags and element size, and
their components have the same layouts in the same order. -/
theorem c119_format (f g : Formaton) (s t : String) (hf : f.display = .ok s) (hg : g.display = .ok t) :
    s = t ↔ f.model = g.model ∧ f.palette = g.palette ∧ f.alpha = g.alpha ∧ f.be = g.be ∧ f.elem_size = g.elem_size ∧
    SameLayouts (present f) (present g) := by
  obtain ⟨u, hu, e⟩ := format_text hf
  obtain ⟨v, hv, e'⟩ := format_text hg
  refine ⟨?_, ?_⟩
  rotate_left
  · rintro ⟨h1, h2, h3, h4, h5, h6⟩
    rw [← String.toList_inj, e, e', h1, h2, h3, h4, h5, componentTexts_same _ _ u v h6 hu hv]
  rintro rfl
  rw [e] at e'
  simp only [List.cons.injEq, true_and] at e'
  have hh : f.model = g.model ∧ f.palette = g.palette ∧ f.alpha = g.alpha ∧ f.be = g.be := by
    rcases prefix_of_append e' with h | h
    · exact headText_distinct _ (allModels_all _) _ (allModels_all _) _ _ _ _ _ _ h
    · obtain ⟨h1, h2, h3, h4⟩ := headText_distinct _ (allModels_all _) _ (allModels_all _) _ _ _ _ _ _ h
      exact ⟨h1.symm, h2.symm, h3.symm, h4.symm⟩
  obtain ⟨h1, h2, h3, h4⟩ := hh
  rw [h1, h2, h3, h4, List.append_cancel_left_eq] at e'
  obtain ⟨h5, e'⟩ := cut_decimal (by decide) e'
  simp only [List.cons.injEq, true_and] at e'
  exact ⟨h1, h2, h3, h4, h5, componentTexts_read _ _ u v hu hv e'⟩

example : formats.YUV420.display = .ok
    "[Formaton for YCbCr (Limited range) (elem LE size 0):  (0x0, planar(0,1)) (1x1, planar(1,1)) (1x1, planar(2,1))]" := by
  decide +kernel

/-! ### C120: the number of components of a colour model -/

/-- The coordinates of a colour model. -/
def coordinates : ColorModel → List String
  | .Trichromatic .RGB => ["R", "G", "B"]
  | .Trichromatic .XYZ => ["X", "Y", "Z"]
  | .Trichromatic (.YUV (.YCbCr _)) => ["Y", "Cb", "Cr"]
  | .Trichromatic (.YUV .YCoCg) => ["Y", "Co", "Cg"]
  | .Trichromatic (.YUV .ICtCp) => ["I", "Ct", "Cp"]
  | .CMYK => ["C", "M", "Y", "K"]
  | .HSV => ["H", "S", "V"]
  | .LAB => ["L", "A", "B"]

/-- All predefined formats. -/
def allFormats : List Formaton :=
  [formats.YUV444, formats.YUV422, formats.YUV420, formats.YUV411, formats.YUV410, formats.YUV444_10,
    formats.YUV422_10, formats.YUV420_10, formats.YUV411_10, formats.YUV410_10, formats.PAL8, formats.RGB565,
    formats.RGB24, formats.RGBA, formats.RGB48, formats.RGBA64]

/-- **C120** A colour model has as many default components as coordinates; a predefined format has these components,
and one more if it has alpha. -/
theorem c120_components :
    (∀ m : ColorModel, m.getDefaultComponents = (coordinates m).length) ∧
    (∀ f ∈ allFormats, f.components = f.model.getDefaultComponents + (if f.alpha then 1 else 0) ∧
      f.components = (present f).length) := by
  refine ⟨fun m => ?_, by decide +kernel⟩
  have : ∀ m ∈ allModels, m.getDefaultComponents = (coordinates m).length := by decide
  exact this m (allModels_all m)

example : ColorModel.CMYK.getDefaultComponents = 4 ∧ formats.RGBA ∈ allFormats ∧ formats.RGBA.components = 4 ∧
    formats.RGBA.model.getDefaultComponents = 3 := by decide +kernel

end Verif.Pixel
