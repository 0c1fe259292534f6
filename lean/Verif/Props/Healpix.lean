import Verif.Model.Healpix
import Mathlib.Algebra.BigOperators.Group.Finset.Basic
import Mathlib.Algebra.BigOperators.Intervals
import Mathlib.Algebra.Order.BigOperators.Group.Finset
import Mathlib.Tactic.IntervalCases
import Mathlib.Tactic.Ring
import Mathlib.Tactic.Linarith

/-
C121: pixel numbers and neighbours in the healpix pixelisation.
-/
namespace Pixell
open Finset

/-- A pixel of the map with parameter nside. -/
def HpValid (nside : Nat) (p : Nat × Nat) : Prop := p.1 < hpNy nside ∧ p.2 < hpNx nside p.1

/-! ### Pixel numbers -/

theorem hpNx_pos {nside y : Nat} (hn : 1 ≤ nside) : 1 ≤ hpNx nside y := by
  unfold hpNx; split_ifs <;> omega

theorem hpOff_succ {nside y : Nat} (hn : 1 ≤ nside) (hy : y + 1 < hpNy nside) : hpOff nside (y + 1) = hpOff nside y + hpNx nside y := by
  unfold hpNy at hy
  unfold hpOff hpNx hpNpix hpNcap
  by_cases h1 : y + 1 < nside
  · rw [if_pos h1, if_pos (by omega), if_pos (by omega)]; ring
  · by_cases h2 : y < nside
    · have e : y + 1 = nside := by omega
      rw [if_neg h1, if_pos h2, if_pos h2]
      subst e
      by_cases h3 : y + 1 < 3 * (y + 1) - 1
      · rw [if_pos h3, Nat.sub_self]; ring
      · omega
    · rw [if_neg h1, if_neg h2, if_neg h2]
      obtain ⟨k, rfl⟩ : ∃ k, y = nside + k := ⟨y - nside, by omega⟩
      by_cases h3 : nside + k + 1 < 3 * nside - 1
      · rw [if_pos h3, if_pos (by omega), if_pos (by omega), show nside + k + 1 - nside = k + 1 by omega,
          show nside + k - nside = k by omega]; ring
      · rw [if_neg h3]
        by_cases h4 : nside + k < 3 * nside - 1
        · rw [if_pos h4, if_pos h4]
          have e : k + 2 = 2 * nside := by omega
          rw [show 4 * nside - 2 - (nside + k + 1) = nside - 1 by omega, show nside + k - nside = k by omega]
          obtain ⟨m, rfl⟩ : ∃ m, nside = m + 1 := ⟨nside - 1, by omega⟩
          rw [show m + 1 - 1 = m by omega]
          simp only
          have hk : k = 2 * m := by omega
          subst hk
          have : 12 * (m + 1) * (m + 1) = (2 * (m + 1) * (m + 1 + 1) + 4 * (m + 1) * (2 * m) + 4 * (m + 1)) + 4 * (m + 1) + 2 * m * (m + 1) := by ring
          omega
        · rw [if_neg h4, if_neg h4]
          obtain ⟨z, hz⟩ : ∃ z, 4 * nside - 2 - (nside + k) = z + 1 := ⟨4 * nside - 2 - (nside + k) - 1, by omega⟩
          rw [show 4 * nside - 2 - (nside + k + 1) = z by omega, hz]
          simp only
          have hzn : z + 1 < nside := by omega
          have h5 : 2 * (z + 1) * (z + 1 + 1) = 2 * z * (z + 1) + 4 * (z + 1) := by ring
          have h6 : 2 * (z + 1) * (z + 1 + 1) ≤ 2 * nside * (nside + 1) := by
            apply Nat.mul_le_mul <;> omega
          have h7 : 12 * nside * nside = 2 * nside * (nside + 1) + (10 * nside * nside - 2 * nside) := by
            have : 2 * nside ≤ 10 * nside * nside := by nlinarith
            have : 2 * nside * (nside + 1) = 2 * nside * nside + 2 * nside := by ring
            have : 12 * nside * nside = 10 * nside * nside + 2 * nside * nside := by ring
            omega
          have h8 : 4 * nside ≤ 10 * nside * nside - 2 * nside := by
            have : 6 * nside ≤ 10 * nside * nside := by nlinarith
            omega
          omega

/-- The first pixel number of a row is the number of pixels in the rows before it. -/
theorem hpOff_sum {nside y : Nat} (hn : 1 ≤ nside) (hy : y < hpNy nside) : hpOff nside y = ∑ i ∈ range y, hpNx nside i := by
  induction y with
  | zero => simp [hpOff, show 0 < nside from hn]
  | succ y ih => rw [hpOff_succ hn hy, ih (by omega), sum_range_succ]

theorem hpOff_last {nside : Nat} (hn : 1 ≤ nside) :
    hpOff nside (hpNy nside - 1) + hpNx nside (hpNy nside - 1) = hpNpix nside := by
  unfold hpNy hpOff hpNx hpNpix
  rw [if_neg (by omega), if_neg (by omega), if_neg (by omega), if_neg (by omega)]
  have : 4 * nside - 2 - (4 * nside - 1 - 1) = 0 := by omega
  rw [this]
  simp only [Nat.mul_zero, Nat.zero_mul]
  have : 4 ≤ 12 * nside * nside := by nlinarith
  omega

/-- C121: the rows follow each other without gap or overlap and together have 12·nside² pixels. -/
theorem C121_rows (nside : Nat) (hn : 1 ≤ nside) :
    (∀ y < hpNy nside, hpOff nside y = ∑ i ∈ range y, hpNx nside i) ∧ ∑ i ∈ range (hpNy nside), hpNx nside i = 12 * nside ^ 2 := by
  refine ⟨fun y hy => hpOff_sum hn hy, ?_⟩
  have h := hpOff_last hn
  have hny : 1 ≤ hpNy nside := by unfold hpNy; omega
  rw [show hpNy nside = (hpNy nside - 1) + 1 by omega, sum_range_succ, ← hpOff_sum hn (by omega), h]
  unfold hpNpix; ring

example : (List.range (hpNy 2)).map (hpNx 2) = [4, 8, 8, 8, 8, 8, 4] := by decide

theorem hpRow_unique {nside : Nat} (hn : 1 ≤ nside) {y y' pix : Nat} (hy : y < hpNy nside) (hy' : y' < hpNy nside)
    (h1 : hpOff nside y ≤ pix) (h2 : pix < hpOff nside y + hpNx nside y)
    (h1' : hpOff nside y' ≤ pix) (h2' : pix < hpOff nside y' + hpNx nside y') : y = y' := by
  have mono : ∀ a b, b < hpNy nside → a < b → hpOff nside a + hpNx nside a ≤ hpOff nside b := by
    intro a b hb hab
    rw [hpOff_sum hn (by omega), hpOff_sum hn hb, ← sum_range_succ]
    exact sum_le_sum_of_subset_of_nonneg (fun i hi => by simp only [mem_range] at *; omega) (fun _ _ _ => Nat.zero_le _)
  rcases Nat.lt_trichotomy y y' with h | h | h
  · have := mono y y' hy' h; omega
  · exact h
  · have := mono y' y hy h; omega

theorem capRow (pix : Nat) : let y := (Nat.sqrt (1 + 2 * pix) - 1) / 2; 2 * y * (y + 1) ≤ pix ∧ pix < 2 * y * (y + 1) + 4 * (y + 1) := by
  intro y
  have h1 : Nat.sqrt (1 + 2 * pix) * Nat.sqrt (1 + 2 * pix) ≤ 1 + 2 * pix := Nat.sqrt_le _
  have h2 : 1 + 2 * pix < (Nat.sqrt (1 + 2 * pix) + 1) * (Nat.sqrt (1 + 2 * pix) + 1) := Nat.lt_succ_sqrt _
  have h0 : 1 ≤ Nat.sqrt (1 + 2 * pix) := Nat.le_sqrt.mpr (by omega)
  rcases Nat.even_or_odd' (Nat.sqrt (1 + 2 * pix) - 1) with ⟨m, hm | hm⟩
  · have hs : Nat.sqrt (1 + 2 * pix) = 2 * m + 1 := by omega
    have hy : y = m := by show (Nat.sqrt (1 + 2 * pix) - 1) / 2 = m; omega
    rw [hs] at h1 h2
    rw [hy]
    constructor <;> nlinarith
  · have hs : Nat.sqrt (1 + 2 * pix) = 2 * m + 2 := by omega
    have hy : y = m := by show (Nat.sqrt (1 + 2 * pix) - 1) / 2 = m; omega
    rw [hs] at h1 h2
    rw [hy]
    constructor <;> nlinarith

theorem hpPix2y_spec {nside pix : Nat} (hn : 1 ≤ nside) (hp : pix < hpNpix nside) :
    hpPix2y Nat.sqrt nside pix < hpNy nside ∧ hpOff nside (hpPix2y Nat.sqrt nside pix) ≤ pix ∧
    pix < hpOff nside (hpPix2y Nat.sqrt nside pix) + hpNx nside (hpPix2y Nat.sqrt nside pix) := by
  unfold hpPix2y
  simp only
  have small : ∀ q, q < hpNcap nside → (Nat.sqrt (1 + 2 * q) - 1) / 2 < nside := by
    intro q hq
    have h := (capRow q).1
    by_contra hc
    have : 2 * nside * (nside + 1) ≤ 2 * ((Nat.sqrt (1 + 2 * q) - 1) / 2) * ((Nat.sqrt (1 + 2 * q) - 1) / 2 + 1) := by
      apply Nat.mul_le_mul <;> omega
    unfold hpNcap at hq
    omega
  by_cases h1 : pix < hpNcap nside
  · rw [if_pos h1]
    have hs := small pix h1
    have hc := capRow pix
    simp only at hc
    generalize (Nat.sqrt (1 + 2 * pix) - 1) / 2 = y at hs hc ⊢
    refine ⟨by unfold hpNy; omega, ?_⟩
    unfold hpOff hpNx
    rw [if_pos hs, if_pos hs]
    exact hc
  · rw [if_neg h1]
    by_cases h2 : hpNpix nside - 1 - pix < hpNcap nside
    · rw [if_pos h2]
      have hs := small _ h2
      have hc := capRow (hpNpix nside - 1 - pix)
      simp only at hc
      generalize (Nat.sqrt (1 + 2 * (hpNpix nside - 1 - pix)) - 1) / 2 = y at hs hc ⊢
      refine ⟨by unfold hpNy; omega, ?_⟩
      unfold hpOff hpNx
      rw [if_neg (by omega), if_neg (by omega), if_neg (by omega), if_neg (by omega)]
      rw [show 4 * nside - 2 - (4 * nside - 2 - y) = y by omega]
      simp only
      generalize 2 * y * (y + 1) = A at *
      omega
    · rw [if_neg h2]
      have hq : (pix - hpNcap nside) / (4 * nside) < 2 * nside - 1 := by
        rw [Nat.div_lt_iff_lt_mul (by omega)]
        have : hpNpix nside = 2 * hpNcap nside + (2 * nside - 1) * (4 * nside) := by
          unfold hpNpix hpNcap
          obtain ⟨m, rfl⟩ : ∃ m, nside = m + 1 := ⟨nside - 1, by omega⟩
          rw [show 2 * (m + 1) - 1 = 2 * m + 1 by omega]; ring
        omega
      have hd := Nat.div_add_mod (pix - hpNcap nside) (4 * nside)
      have hm := Nat.mod_lt (pix - hpNcap nside) (show 4 * nside > 0 by omega)
      generalize (pix - hpNcap nside) / (4 * nside) = q at *
      refine ⟨by unfold hpNy; omega, ?_⟩
      unfold hpOff hpNx
      rw [if_neg (by omega), if_pos (by omega), if_neg (by omega), if_pos (by omega), show nside + q - nside = q by omega]
      omega

/-- C121: the number of a pixel is below the number of pixels, and going back gives the pixel. -/
theorem C121_ravel (nside : Nat) (hn : 1 ≤ nside) (p : Nat × Nat) (hp : HpValid nside p) :
    hpRavel nside p < hpNpix nside ∧ hpUnravel Nat.sqrt nside (hpRavel nside p) = p := by
  obtain ⟨hy, hx⟩ := hp
  have hlt : hpRavel nside p < hpNpix nside := by
    unfold hpRavel
    have h1 : hpOff nside p.1 + hpNx nside p.1 ≤ hpNpix nside := by
      rcases Nat.lt_or_ge (p.1 + 1) (hpNy nside) with h | h
      · have hl := hpOff_last hn
        have hny : 1 ≤ hpNy nside := by omega
        rw [hpOff_sum hn (by omega), ← sum_range_succ] at hl ⊢
        rw [← hl]
        exact sum_le_sum_of_subset_of_nonneg (fun i hi => by simp only [mem_range] at *; omega) (fun _ _ _ => Nat.zero_le _)
      · have : p.1 = hpNy nside - 1 := by omega
        rw [this, hpOff_last hn]
    omega
  refine ⟨hlt, ?_⟩
  obtain ⟨a, b, c⟩ := hpPix2y_spec hn hlt
  have e : hpPix2y Nat.sqrt nside (hpRavel nside p) = p.1 :=
    hpRow_unique hn a hy b c (Nat.le_add_right _ _) (by unfold hpRavel; omega)
  unfold hpUnravel
  simp only
  rw [e]
  unfold hpRavel
  ext <;> simp

/-- C121: every number below 12·nside² belongs to a pixel, and numbering that pixel gives it back. -/
theorem C121_unravel (nside : Nat) (hn : 1 ≤ nside) (pix : Nat) (hp : pix < 12 * nside ^ 2) :
    HpValid nside (hpUnravel Nat.sqrt nside pix) ∧ hpRavel nside (hpUnravel Nat.sqrt nside pix) = pix := by
  obtain ⟨a, b, c⟩ := hpPix2y_spec (pix := pix) hn (by unfold hpNpix; nlinarith)
  refine ⟨⟨a, ?_⟩, ?_⟩
  · show pix - hpOff nside (hpPix2y Nat.sqrt nside pix) < hpNx nside (hpPix2y Nat.sqrt nside pix)
    omega
  · show hpOff nside (hpPix2y Nat.sqrt nside pix) + (pix - hpOff nside (hpPix2y Nat.sqrt nside pix)) = pix
    omega

example : hpUnravel Nat.sqrt 2 43 = (5, 7) ∧ hpRavel 2 (5, 7) = 43 := by decide +kernel

/-- C121: the integer square root is exact if the floating point square root is exact up to 2⁵⁰ and off by at most one
above. -/
theorem C121_isqrt (r x : Nat) (h1 : x ≤ 2 ^ 50 → r = Nat.sqrt x) (h2 : r ≤ Nat.sqrt x + 1) (h3 : Nat.sqrt x ≤ r + 1) :
    isqrtFix r x = Nat.sqrt x := by
  unfold isqrtFix
  have a : Nat.sqrt x * Nat.sqrt x ≤ x := Nat.sqrt_le _
  have b : x < (Nat.sqrt x + 1) * (Nat.sqrt x + 1) := Nat.lt_succ_sqrt _
  by_cases h : x > 2 ^ 50
  · rw [if_pos h]
    rcases (show r = Nat.sqrt x + 1 ∨ r = Nat.sqrt x ∨ r + 1 = Nat.sqrt x by omega) with e | e | e
    · rw [if_pos (by rw [e]; exact b)]; omega
    · rw [if_neg (by rw [e]; omega), if_neg (by rw [e]; omega), e]
    · rw [if_neg (by nlinarith), if_pos (by rw [e]; exact a), e]
  · rw [if_neg h]; exact h1 (by omega)

end Pixell
