import Verif.Frame.Model
import Verif.Pixel.Props

/-! # Lemmas on chunks and row copies -/

namespace Verif.Frame
open Verif Verif.Data Verif.Audio Verif.Pixel

theorem chunksAux_cons (n fuel : Nat) (l : List U8) (h : l ≠ []) :
    chunksAux n (fuel + 1) l = l.take n :: chunksAux n fuel (l.drop n) := by
  cases l with
  | nil => exact absurd rfl h
  | cons a l => rfl

theorem chunksAux_nil (n fuel : Nat) : chunksAux n fuel [] = [] := by cases fuel <;> rfl

theorem chunksAux_flatten {n : Nat} (hn : 0 < n) (fuel : Nat) (l : List U8) (h : l.length ≤ fuel) :
    (chunksAux n fuel l).flatten = l := by
  induction fuel generalizing l with
  | zero => simp at h; subst h; rfl
  | succ fuel ih =>
    by_cases hl : l = []
    · subst hl; rfl
    · rw [chunksAux_cons n fuel l hl, List.flatten_cons, ih _ (by
        have := List.length_pos_iff.2 hl
        rw [List.length_drop]; omega), List.take_append_drop]

/-- Row `r` is copied at all. -/
def Touched (dlen dls slen sls h r : Nat) : Prop := r < h ∧ r * dls < dlen ∧ r * sls < slen

/-- Row `r` has `w` bytes on both sides. -/
def RowFits (dlen dls slen sls w r : Nat) : Prop :=
  w ≤ dls ∧ w ≤ sls ∧ r * dls + w ≤ dlen ∧ r * sls + w ≤ slen

theorem row_zero {dlen dls slen sls w : Nat} :
    (w ≤ min sls slen ∧ w ≤ min dls dlen) ↔ RowFits dlen dls slen sls w 0 := by
  simp only [RowFits, Nat.le_min, Nat.zero_mul, Nat.zero_add]
  omega

theorem rowFits_succ {dlen dls slen sls w r : Nat} (h0 : RowFits dlen dls slen sls w 0)
    (hd : (r + 1) * dls < dlen) (hs : (r + 1) * sls < slen) :
    RowFits dlen dls slen sls w (r + 1) ↔ RowFits (dlen - dls) dls (slen - sls) sls w r := by
  simp only [RowFits, Nat.succ_mul, Nat.zero_mul, Nat.zero_add] at *
  omega

theorem touched_succ {dlen dls slen sls h r : Nat} :
    Touched dlen dls slen sls (h + 1) (r + 1) ↔ Touched (dlen - dls) dls (slen - sls) sls h r := by
  simp only [Touched, Nat.succ_mul]
  omega

theorem copyRows_spec {dls sls w : Nat} (hd : 0 < dls) (hs : 0 < sls) (h fd fs : Nat) (dst src : List U8)
    (hfd : dst.length ≤ fd) (hfs : src.length ≤ fs)
    (hr : ∀ r, Touched dst.length dls src.length sls h r → RowFits dst.length dls src.length sls w r) :
    ∃ out, copyRows w h (chunksAux dls fd dst) (chunksAux sls fs src) = .ok out ∧
      out.flatten.length = dst.length ∧
      ∀ i < dst.length, out.flatten[i]? =
        if i / dls < h ∧ i / dls * sls < src.length ∧ i % dls < w then src[i / dls * sls + i % dls]?
        else dst[i]? := by
  induction h generalizing dst src fd fs with
  | zero =>
    refine ⟨_, rfl, by rw [chunksAux_flatten hd _ _ hfd], fun i _ => ?_⟩
    rw [chunksAux_flatten hd _ _ hfd, if_neg (fun hc => Nat.not_lt_zero _ hc.1)]
  | succ h ih =>
    by_cases hdn : dst = []
    · subst hdn
      refine ⟨[], by rw [chunksAux_nil]; rfl, rfl, fun i hi => by simp at hi⟩
    · have hdl := List.length_pos_iff.2 hdn
      obtain ⟨fd, rfl⟩ : ∃ k, fd = k + 1 := ⟨fd - 1, by omega⟩
      by_cases hsn : src = []
      · subst hsn
        refine ⟨chunksAux dls (fd + 1) dst, ?_, by rw [chunksAux_flatten hd _ _ hfd], fun i _ => ?_⟩
        · rw [chunksAux_nil, chunksAux_cons _ _ _ hdn]; rfl
        · rw [chunksAux_flatten hd _ _ hfd, if_neg (by simp)]
      · have hsl := List.length_pos_iff.2 hsn
        obtain ⟨fs, rfl⟩ : ∃ k, fs = k + 1 := ⟨fs - 1, by omega⟩
        have h0 : RowFits dst.length dls src.length sls w 0 :=
          hr 0 ⟨by omega, by omega, by omega⟩
        obtain ⟨out, a1, a2, a3⟩ := ih fd fs (dst.drop dls) (src.drop sls) (by rw [List.length_drop]; omega)
          (by rw [List.length_drop]; omega) (by
            intro r ht
            rw [List.length_drop, List.length_drop] at *
            have ht' := touched_succ.2 ht
            exact (rowFits_succ h0 ht'.2.1 ht'.2.2).1 (hr _ ht'))
        rw [chunksAux_cons _ _ _ hdn, chunksAux_cons _ _ _ hsn, copyRows, if_pos (by
          rw [List.length_take, List.length_take]; exact row_zero.2 h0), a1]
        refine ⟨_, rfl, ?_, ?_⟩
        · simp only [RowFits, Nat.zero_mul, Nat.zero_add] at h0
          simp only [List.flatten_cons, List.length_append, List.length_take, List.length_drop, a2]
          omega
        · intro i hi
          simp only [RowFits, Nat.zero_mul, Nat.zero_add] at h0
          obtain ⟨b1, b2, b3, b4⟩ := h0
          have hrow : (List.take w (List.take sls src) ++ List.drop w (List.take dls dst)).length =
              min dls dst.length := by
            simp only [List.length_append, List.length_take, List.length_drop]; omega
          rw [List.flatten_cons]
          by_cases hi' : i < dls
          · rw [List.getElem?_append_left (by rw [hrow]; omega), Nat.div_eq_of_lt hi', Nat.mod_eq_of_lt hi']
            by_cases hw : i < w
            · rw [if_pos ⟨by omega, by omega, hw⟩, List.getElem?_append_left (by
                simp only [List.length_take]; omega), List.take_take, List.getElem?_take_of_lt (by omega)]
              congr 1; omega
            · rw [if_neg (by omega), List.getElem?_append_right (by simp only [List.length_take]; omega)]
              simp only [List.getElem?_drop, List.length_take]
              rw [List.getElem?_take_of_lt (by omega)]
              congr 1; omega
          · obtain ⟨j, rfl⟩ : ∃ j, i = j + dls := ⟨i - dls, by omega⟩
            rw [List.getElem?_append_right (by rw [hrow]; omega), hrow,
              show j + dls - min dls dst.length = j by omega, a3 j (by rw [List.length_drop]; omega),
              Nat.add_div_right _ hd, Nat.add_mod_right]
            simp only [List.length_drop, List.getElem?_drop, Nat.succ_mul]
            have e : (j / dls < h ∧ j / dls * sls < src.length - sls ∧ j % dls < w) ↔
              ((j / dls).succ < h + 1 ∧ j / dls * sls + sls < src.length ∧ j % dls < w) := by omega
            simp only [e]
            split
            · congr 1; omega
            · congr 1; omega

theorem copyRows_ub {dls sls w : Nat} (hd : 0 < dls) (hs : 0 < sls) (h fd fs : Nat) (dst src : List U8)
    (hfd : dst.length ≤ fd) (hfs : src.length ≤ fs) (r : Nat)
    (ht : Touched dst.length dls src.length sls h r) (hr : ¬ RowFits dst.length dls src.length sls w r) :
    copyRows w h (chunksAux dls fd dst) (chunksAux sls fs src) = .error .ub := by
  induction h generalizing dst src fd fs r with
  | zero => exact absurd ht.1 (by omega)
  | succ h ih =>
    have hdl : 0 < dst.length := by have := ht.2.1; omega
    have hsl : 0 < src.length := by have := ht.2.2; omega
    obtain ⟨fd, rfl⟩ : ∃ k, fd = k + 1 := ⟨fd - 1, by omega⟩
    obtain ⟨fs, rfl⟩ : ∃ k, fs = k + 1 := ⟨fs - 1, by omega⟩
    rw [chunksAux_cons _ _ _ (List.length_pos_iff.1 hdl), chunksAux_cons _ _ _ (List.length_pos_iff.1 hsl),
      copyRows]
    by_cases h0 : RowFits dst.length dls src.length sls w 0
    · rw [if_pos (by rw [List.length_take, List.length_take]; exact row_zero.2 h0)]
      cases r with
      | zero => exact absurd h0 hr
      | succ r =>
        rw [ih fd fs (dst.drop dls) (src.drop sls) (by rw [List.length_drop]; omega)
          (by rw [List.length_drop]; omega) r (by
            rw [List.length_drop, List.length_drop]; exact touched_succ.1 ht) (by
            rw [List.length_drop, List.length_drop]
            exact fun hc => hr ((rowFits_succ h0 ht.2.1 ht.2.2).2 hc))]
        rfl
    · rw [if_neg (by rw [List.length_take, List.length_take]; exact fun hc => h0 (row_zero.1 hc))]

/-- `copy_plane` inside the bounds, byte by byte. -/
theorem copyPlane_spec {dls sls w h : Nat} {dst src : List U8} (hd : 0 < dls) (hs : 0 < sls)
    (hr : ∀ r, Touched dst.length dls src.length sls h r → RowFits dst.length dls src.length sls w r) :
    ∃ out, copyPlane dst dls src sls w h = .ok out ∧ out.length = dst.length ∧
      ∀ i < dst.length, out[i]? =
        if i / dls < h ∧ i / dls * sls < src.length ∧ i % dls < w then src[i / dls * sls + i % dls]?
        else dst[i]? := by
  obtain ⟨out, a1, a2, a3⟩ := copyRows_spec hd hs h _ _ dst src (Nat.le_refl _) (Nat.le_refl _) hr
  refine ⟨out.flatten, ?_, a2, a3⟩
  simp only [copyPlane, chunks, if_neg (Nat.ne_of_gt hd), if_neg (Nat.ne_of_gt hs), ok_bind, a1, pure_eq_ok]

theorem copyPlane_ub {dls sls w h : Nat} {dst src : List U8} (hd : 0 < dls) (hs : 0 < sls) {r : Nat}
    (ht : Touched dst.length dls src.length sls h r) (hr : ¬ RowFits dst.length dls src.length sls w r) :
    copyPlane dst dls src sls w h = .error .ub := by
  simp only [copyPlane, chunks, if_neg (Nat.ne_of_gt hd), if_neg (Nat.ne_of_gt hs), ok_bind,
    copyRows_ub hd hs h _ _ dst src (Nat.le_refl _) (Nat.le_refl _) r ht hr]
  rfl

/-- A slice of `len` bytes with a stride has room for `h` rows of `w` bytes. -/
structure Roomy (len stride w h : Nat) : Prop where
  pos : 0 < stride
  le : w ≤ stride
  rows : ∀ y < h, y * stride + w ≤ len

/-- `copy_plane` between slices with room for the picture: the picture is copied and nothing else changed. -/
theorem copyPlane_roomy {dls sls w h : Nat} {dst src : List U8} (rd : Roomy dst.length dls w h)
    (rs : Roomy src.length sls w h) :
    ∃ out, copyPlane dst dls src sls w h = .ok out ∧ out.length = dst.length ∧
      (∀ y < h, ∀ x < w, out[y * dls + x]? = src[y * sls + x]?) ∧
      ∀ i, ¬ (i / dls < h ∧ i % dls < w) → out[i]? = dst[i]? := by
  obtain ⟨out, a1, a2, a3⟩ := copyPlane_spec (w := w) (h := h) rd.pos rs.pos (dst := dst) (src := src)
    (fun r ht => ⟨rd.le, rs.le, rd.rows r ht.1, rs.rows r ht.1⟩)
  refine ⟨out, a1, a2, ?_, ?_⟩
  · intro y hy x hx
    have h1 := rd.rows y hy
    have h2 := rs.rows y hy
    have hx' : x < dls := Nat.lt_of_lt_of_le hx rd.le
    have e1 : (y * dls + x) / dls = y := by
      rw [Nat.mul_comm, Nat.mul_add_div rd.pos, Nat.div_eq_of_lt hx', Nat.add_zero]
    have e2 : (y * dls + x) % dls = x := by rw [Nat.mul_comm, Nat.mul_add_mod, Nat.mod_eq_of_lt hx']
    rw [a3 _ (by omega), e1, e2, if_pos ⟨hy, by omega, hx⟩]
  · intro i hi
    by_cases hl : i < dst.length
    · rw [a3 i hl, if_neg (fun hc => hi ⟨hc.1, hc.2.2⟩)]
    · rw [List.getElem?_eq_none (by omega), List.getElem?_eq_none (by omega)]

end Verif.Frame
