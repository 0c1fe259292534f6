import Verif.Model.MeshInterp
import Mathlib.Algebra.BigOperators.Ring.Finset
import Mathlib.Algebra.Order.BigOperators.Group.Finset
import Mathlib.Tactic

/-!
C169: interpolation on a mesh reproduces the samples, functions linear in each coordinate, and stays between the samples of
the cell; refinement of the mesh stops when the interpolation is good enough where it was tested.
-/
namespace Pixell

/-- The index of a corner of a cell. -/
def corner {d : ℕ} (ix : Fin d → ℤ) (J : Finset (Fin d)) : Fin d → ℤ := fun i => ix i + if i ∈ J then 1 else 0

/-- Multilinear interpolation: the mean of the corners of the cell, with the usual weights. -/
def multilinear {d : ℕ} (y : (Fin d → ℤ) → ℚ) (ix : Fin d → ℤ) (fx : Fin d → ℚ) : ℚ :=
  ∑ J : Finset (Fin d), y (corner ix J) * ∏ i, if i ∈ J then fx i else 1 - fx i

/-- Mixed forward differences. -/
def fdiffs {d : ℕ} (y : (Fin d → ℤ) → ℚ) (I : Finset (Fin d)) (ix : Fin d → ℤ) : ℚ :=
  ∑ J ∈ I.powerset, (-1) ^ (I \ J).card * y (corner ix J)

theorem corner_insert {d : ℕ} (ix : Fin d → ℤ) {a : Fin d} {J : Finset (Fin d)} (h : a ∉ J) :
    corner ix (insert a J) = corner (ix + Pi.single a 1) J := by
  funext i
  unfold corner
  by_cases hi : i = a
  · subst hi; simp [h]
  · simp [hi]

theorem corner_empty {d : ℕ} (ix : Fin d → ℤ) : corner ix ∅ = ix := by
  funext i; simp [corner]

theorem fdiffs_insert {d : ℕ} (y : (Fin d → ℤ) → ℚ) (I : Finset (Fin d)) (ix : Fin d → ℤ) {a : Fin d} (h : a ∉ I) :
    fdiffs y (insert a I) ix = fdiffs y I (ix + Pi.single a 1) - fdiffs y I ix := by
  unfold fdiffs
  rw [Finset.sum_powerset_insert h]
  have e1 : ∀ J ∈ I.powerset, (-1 : ℚ) ^ (insert a I \ J).card * y (corner ix J) = -((-1) ^ (I \ J).card * y (corner ix J)) := by
    intro J hJ
    have hJ' : a ∉ J := fun hh => h (Finset.mem_powerset.1 hJ hh)
    rw [Finset.insert_sdiff_of_notMem _ hJ', Finset.card_insert_of_notMem (by simp [h]), pow_succ]
    ring
  have e2 : ∀ J ∈ I.powerset, (-1 : ℚ) ^ (insert a I \ insert a J).card * y (corner ix (insert a J)) =
      (-1) ^ (I \ J).card * y (corner (ix + Pi.single a 1) J) := by
    intro J hJ
    have hJ' : a ∉ J := fun hh => h (Finset.mem_powerset.1 hJ hh)
    have : insert a I \ insert a J = I \ J := by
      ext x
      simp only [Finset.mem_sdiff, Finset.mem_insert]
      constructor
      · rintro ⟨h1, h2⟩
        push Not at h2
        exact ⟨h1.resolve_left h2.1, h2.2⟩
      · rintro ⟨h1, h2⟩
        exact ⟨Or.inr h1, fun hh => hh.elim (fun e => h (e ▸ h1)) h2⟩
    rw [this, corner_insert ix hJ']
  rw [Finset.sum_congr rfl e1, Finset.sum_congr rfl e2, Finset.sum_neg_distrib]
  ring

/-- lin_derivs_forward computes the mixed differences. -/
theorem linDerivs_eq {d : ℕ} (n : Fin d → ℕ) (y : (Fin d → ℤ) → ℚ) (k : ℕ) (I : Finset (Fin d)) (hI : ∀ j ∈ I, (j : ℕ) < k)
    (ix : Fin d → ℤ) (hx : ∀ j ∈ I, ix j < (n j : ℤ) - 1) : linDerivs n y k I ix = fdiffs y I ix := by
  induction k generalizing I ix with
  | zero =>
    have : I = ∅ := Finset.eq_empty_of_forall_notMem fun j hj => absurd (hI j hj) (by omega)
    subst this
    simp [linDerivs, fdiffs, corner_empty]
  | succ k ih =>
    unfold linDerivs
    by_cases hk : k < d
    · rw [dif_pos hk]
      unfold linDerivStep
      by_cases hm : (⟨k, hk⟩ : Fin d) ∈ I
      · have hmax : ∀ j ∈ I, j ≤ (⟨k, hk⟩ : Fin d) := fun j hj => by
          have := hI j hj
          show (j : ℕ) ≤ k
          omega
        have hlt : ∀ j ∈ I.erase ⟨k, hk⟩, (j : ℕ) < k := by
          intro j hj
          obtain ⟨h1, h2⟩ := Finset.mem_erase.1 hj
          have := hI j h2
          have h3 : (j : ℕ) ≠ k := fun e => h1 (Fin.ext e)
          omega
        rw [if_pos ⟨hm, hmax⟩, if_pos (hx _ hm), ih _ hlt _ ?_, ih _ hlt _ fun j hj => hx j (Finset.mem_of_mem_erase hj)]
        · rw [← fdiffs_insert y _ ix (Finset.notMem_erase _ _), Finset.insert_erase hm]
        · intro j hj
          have h1 := Finset.ne_of_mem_erase hj
          have h2 := hx j (Finset.mem_of_mem_erase hj)
          simpa [Pi.single_apply, h1] using h2
      · rw [if_neg (fun h => hm h.1)]
        refine ih I (fun j hj => ?_) ix hx
        have := hI j hj
        have h3 : (j : ℕ) ≠ k := fun e => hm (by convert hj; exact e.symm)
        omega
    · rw [dif_neg hk]
      exact ih I (fun j hj => by have := j.2; omega) ix hx

/-- The sum of ip_linear over the coordinates of s. -/
theorem taylor_eq {d : ℕ} (y : (Fin d → ℤ) → ℚ) (fx : Fin d → ℚ) (s : Finset (Fin d)) (ix : Fin d → ℤ) :
    ∑ I ∈ s.powerset, fdiffs y I ix * ∏ i ∈ I, fx i =
      ∑ J ∈ s.powerset, y (corner ix J) * ∏ i ∈ s, if i ∈ J then fx i else 1 - fx i := by
  induction s using Finset.induction_on generalizing ix with
  | empty => simp [fdiffs]
  | insert a s ha ih =>
    rw [Finset.sum_powerset_insert ha, Finset.sum_powerset_insert ha]
    have e1 : ∀ I ∈ s.powerset, fdiffs y (insert a I) ix * ∏ i ∈ insert a I, fx i =
        fx a * (fdiffs y I (ix + Pi.single a 1) * ∏ i ∈ I, fx i) - fx a * (fdiffs y I ix * ∏ i ∈ I, fx i) := by
      intro I hI
      have hI' : a ∉ I := fun hh => ha (Finset.mem_powerset.1 hI hh)
      rw [fdiffs_insert y I ix hI', Finset.prod_insert hI']
      ring
    have e2 : ∀ J ∈ s.powerset, (y (corner ix J) * ∏ i ∈ insert a s, if i ∈ J then fx i else 1 - fx i) =
        (1 - fx a) * (y (corner ix J) * ∏ i ∈ s, if i ∈ J then fx i else 1 - fx i) := by
      intro J hJ
      have hJ' : a ∉ J := fun hh => ha (Finset.mem_powerset.1 hJ hh)
      rw [Finset.prod_insert ha, if_neg hJ']
      ring
    have e3 : ∀ J ∈ s.powerset, (y (corner ix (insert a J)) * ∏ i ∈ insert a s, if i ∈ insert a J then fx i else 1 - fx i) =
        fx a * (y (corner (ix + Pi.single a 1) J) * ∏ i ∈ s, if i ∈ J then fx i else 1 - fx i) := by
      intro J hJ
      have hJ' : a ∉ J := fun hh => ha (Finset.mem_powerset.1 hJ hh)
      rw [Finset.prod_insert ha, if_pos (Finset.mem_insert_self a J), corner_insert ix hJ']
      have : (∏ i ∈ s, if i ∈ insert a J then fx i else 1 - fx i) = ∏ i ∈ s, if i ∈ J then fx i else 1 - fx i := by
        refine Finset.prod_congr rfl fun i hi => ?_
        have : i ≠ a := fun e => ha (e ▸ hi)
        simp [this]
      rw [this]
      ring
    rw [Finset.sum_congr rfl e1, Finset.sum_congr rfl e2, Finset.sum_congr rfl e3, Finset.sum_sub_distrib, ← Finset.mul_sum,
      ← Finset.mul_sum, ← Finset.mul_sum, ← Finset.mul_sum, ih ix, ih (ix + Pi.single a 1)]
    ring

theorem ipCell_bounds {d : ℕ} {n : Fin d → ℕ} (hn : ∀ i, 2 ≤ n i) (px : Fin d → ℚ) (i : Fin d) :
    0 ≤ ipCell n px i ∧ ipCell n px i < (n i : ℤ) - 1 := by
  have := hn i
  unfold ipCell
  omega

variable {d : ℕ} {lo hi : Fin d → ℚ} {n : Fin d → ℕ}

/-- **C169_linear.** ip_linear is multilinear interpolation: the mean of the corners of the cell of x with the usual weights,
in any number of dimensions. -/
theorem C169_linear (hn : ∀ i, 2 ≤ n i) (y : (Fin d → ℤ) → ℚ) (x : Fin d → ℚ) :
    ipLinear lo hi n y x = multilinear y (ipCell n (ipPix lo hi n x)) fun i => ipPix lo hi n x i - ipCell n (ipPix lo hi n x) i := by
  unfold ipLinear multilinear
  have h := taylor_eq y (fun i => ipPix lo hi n x i - ipCell n (ipPix lo hi n x) i) Finset.univ (ipCell n (ipPix lo hi n x))
  rw [Finset.powerset_univ] at h
  rw [← h]
  refine Finset.sum_congr rfl fun I _ => ?_
  rw [linDerivs_eq n y d I (fun j _ => j.2) _ fun j _ => (ipCell_bounds hn _ j).2]

/-- Products come out of multilinear interpolation. -/
theorem multilinear_prod (g : Fin d → ℤ → ℚ) (ix : Fin d → ℤ) (fx : Fin d → ℚ) :
    multilinear (fun k => ∏ i, g i (k i)) ix fx = ∏ i, (g i (ix i + 1) * fx i + g i (ix i) * (1 - fx i)) := by
  rw [Finset.prod_add]
  unfold multilinear
  rw [Finset.powerset_univ]
  refine Finset.sum_congr rfl fun J _ => ?_
  rw [← Finset.prod_mul_distrib, ← Finset.prod_mul_prod_compl J, Finset.compl_eq_univ_sdiff]
  congr 1
  · refine Finset.prod_congr rfl fun i hi => ?_
    simp [corner, hi]
  · refine Finset.prod_congr rfl fun i hi => ?_
    have : i ∉ J := (Finset.mem_sdiff.1 hi).2
    simp [corner, this]

theorem weights_sum (fx : Fin d → ℚ) : ∑ J : Finset (Fin d), ∏ i, (if i ∈ J then fx i else 1 - fx i) = 1 := by
  have := multilinear_prod (fun _ _ => 1) (fun _ => 0) fx
  simpa [multilinear] using this

theorem gridPos_pix (hb : ∀ i, lo i < hi i) (hn : ∀ i, 2 ≤ n i) (k : Fin d → ℤ) (i : Fin d) :
    ipPix lo hi n (gridPos lo hi n k) i = k i := by
  have h1 : hi i - lo i ≠ 0 := by have := hb i; linarith
  have h2 : ((n i : ℚ) - 1) ≠ 0 := by
    have : (2 : ℚ) ≤ n i := by exact_mod_cast hn i
    linarith
  unfold ipPix gridPos
  field_simp
  ring

/-- **C169_nodes.** ip_linear reproduces the samples at all points of the mesh, the last ones included. -/
theorem C169_nodes (hb : ∀ i, lo i < hi i) (hn : ∀ i, 2 ≤ n i) (y : (Fin d → ℤ) → ℚ) (k : Fin d → ℤ)
    (hk : ∀ i, 0 ≤ k i ∧ k i < n i) : ipLinear lo hi n y (gridPos lo hi n k) = y k := by
  rw [C169_linear hn]
  have hp : ipPix lo hi n (gridPos lo hi n k) = fun i => (k i : ℚ) := funext fun i => gridPos_pix hb hn k i
  rw [hp]
  set ix := ipCell n fun i => (k i : ℚ) with hix
  have hc : ∀ i, ix i = min ((n i : ℤ) - 2) (k i) := by
    intro i
    have := hk i
    have := hn i
    simp only [hix, ipCell, Int.floor_intCast]
    omega
  unfold multilinear
  rw [Finset.sum_eq_single (Finset.univ.filter fun i => k i = (n i : ℤ) - 1)]
  · have e1 : corner ix (Finset.univ.filter fun i => k i = (n i : ℤ) - 1) = k := by
      funext i
      have := hk i
      have := hn i
      unfold corner
      rw [hc i]
      simp only [Finset.mem_filter, Finset.mem_univ, true_and]
      split_ifs <;> omega
    rw [e1, Finset.prod_eq_one, mul_one]
    intro i _
    have := hk i
    have := hn i
    simp only [Finset.mem_filter, Finset.mem_univ, true_and]
    rw [hc i]
    split_ifs with h
    · rw [show min ((n i : ℤ) - 2) (k i) = k i - 1 by omega]; push_cast; ring
    · rw [show min ((n i : ℤ) - 2) (k i) = k i by omega]; ring
  · intro J _ hJ
    obtain ⟨i, hi⟩ : ∃ i, ¬(i ∈ J ↔ k i = (n i : ℤ) - 1) := by
      by_contra hcon
      push Not at hcon
      apply hJ
      ext i
      simp [hcon i]
    rw [Finset.prod_eq_zero (Finset.mem_univ i), mul_zero]
    have := hk i
    have := hn i
    simp only
    rw [hc i]
    split_ifs with h
    · have : k i ≠ (n i : ℤ) - 1 := fun e => hi ⟨fun _ => e, fun _ => h⟩
      rw [show min ((n i : ℤ) - 2) (k i) = k i by omega]; ring
    · have : k i = (n i : ℤ) - 1 := by
        by_contra e
        exact hi ⟨fun hh => absurd hh h, fun hh => absurd hh e⟩
      rw [show min ((n i : ℤ) - 2) (k i) = k i - 1 by omega]; push_cast; ring
  · simp

/-- **C169_exact.** A function linear in each coordinate (a sum of products of linear functions of single coordinates) is
reproduced everywhere, also outside the box. -/
theorem C169_exact {κ : Type} (s : Finset κ) (c : κ → ℚ) (a b : κ → Fin d → ℚ) (hb : ∀ i, lo i < hi i) (hn : ∀ i, 2 ≤ n i)
    (x : Fin d → ℚ) :
    ipLinear lo hi n (fun k => ∑ j ∈ s, c j * ∏ i, (a j i + b j i * gridPos lo hi n k i)) x =
      ∑ j ∈ s, c j * ∏ i, (a j i + b j i * x i) := by
  rw [C169_linear hn]
  set ix := ipCell n (ipPix lo hi n x)
  set fx : Fin d → ℚ := fun i => ipPix lo hi n x i - ix i with hfx
  have h1 : multilinear (fun k => ∑ j ∈ s, c j * ∏ i, (a j i + b j i * gridPos lo hi n k i)) ix fx =
      ∑ j ∈ s, c j * multilinear (fun k => ∏ i, (a j i + b j i * gridPos lo hi n k i)) ix fx := by
    unfold multilinear
    simp only [Finset.mul_sum, Finset.sum_mul]
    rw [Finset.sum_comm]
    refine Finset.sum_congr rfl fun j _ => Finset.sum_congr rfl fun J _ => ?_
    ring
  rw [h1]
  refine Finset.sum_congr rfl fun j _ => ?_
  congr 1
  have := multilinear_prod (fun i (k : ℤ) => a j i + b j i * (k * (hi i - lo i) / ((n i : ℚ) - 1) + lo i)) ix fx
  rw [show (fun k : Fin d → ℤ => ∏ i, (a j i + b j i * gridPos lo hi n k i)) =
    fun k => ∏ i, (a j i + b j i * (k i * (hi i - lo i) / ((n i : ℚ) - 1) + lo i)) from rfl, this]
  refine Finset.prod_congr rfl fun i _ => ?_
  have g1 : hi i - lo i ≠ 0 := by have := hb i; linarith
  have g2 : ((n i : ℚ) - 1) ≠ 0 := by
    have : (2 : ℚ) ≤ n i := by exact_mod_cast hn i
    linarith
  have hx : x i = ipPix lo hi n x i * (hi i - lo i) / ((n i : ℚ) - 1) + lo i := by
    unfold ipPix; field_simp; ring
  rw [hx]
  simp only [hfx]
  push_cast
  ring

/-- **C169_between.** Inside the box the result lies between the least and the largest sample. -/
theorem C169_between (hb : ∀ i, lo i < hi i) (hn : ∀ i, 2 ≤ n i) (y : (Fin d → ℤ) → ℚ) (x : Fin d → ℚ)
    (hx : ∀ i, lo i ≤ x i ∧ x i ≤ hi i) {u v : ℚ} (hy : ∀ k : Fin d → ℤ, (∀ i, 0 ≤ k i ∧ k i < n i) → u ≤ y k ∧ y k ≤ v) :
    u ≤ ipLinear lo hi n y x ∧ ipLinear lo hi n y x ≤ v := by
  rw [C169_linear hn]
  set ix := ipCell n (ipPix lo hi n x) with hix
  set fx : Fin d → ℚ := fun i => ipPix lo hi n x i - ix i with hfx
  have hf : ∀ i, 0 ≤ fx i ∧ fx i ≤ 1 := by
    intro i
    have h2 : (2 : ℚ) ≤ n i := by exact_mod_cast hn i
    have hh := hb i
    have p0 : 0 ≤ ipPix lo hi n x i := by
      unfold ipPix
      exact mul_nonneg (div_nonneg (by linarith [hx i]) (by linarith)) (by linarith)
    have p1 : ipPix lo hi n x i ≤ (n i : ℚ) - 1 := by
      unfold ipPix
      have : (x i - lo i) / (hi i - lo i) ≤ 1 := by rw [div_le_one (by linarith)]; linarith [hx i]
      nlinarith
    have f0 : 0 ≤ ⌊ipPix lo hi n x i⌋ := Int.floor_nonneg.2 p0
    have fl := Int.floor_le (ipPix lo hi n x i)
    have fu := Int.lt_floor_add_one (ipPix lo hi n x i)
    have hn' := hn i
    simp only [hfx, hix, ipCell]
    rw [max_eq_right (by omega)]
    rcases le_total ((n i : ℤ) - 1 - 1) ⌊ipPix lo hi n x i⌋ with hc | hc
    · rw [min_eq_left hc]
      have : (((n i : ℤ) - 1 - 1 : ℤ) : ℚ) ≤ ⌊ipPix lo hi n x i⌋ := by exact_mod_cast hc
      push_cast at this ⊢
      constructor <;> linarith
    · rw [min_eq_right hc]
      constructor <;> linarith
  have hw : ∀ J : Finset (Fin d), 0 ≤ ∏ i, (if i ∈ J then fx i else 1 - fx i) := by
    intro J
    refine Finset.prod_nonneg fun i _ => ?_
    split_ifs
    · exact (hf i).1
    · linarith [(hf i).2]
  have hc : ∀ J : Finset (Fin d), u ≤ y (corner ix J) ∧ y (corner ix J) ≤ v := by
    intro J
    apply hy
    intro i
    have := ipCell_bounds hn (ipPix lo hi n x) i
    unfold corner
    rw [hix]
    split_ifs <;> omega
  have hs := weights_sum fx
  unfold multilinear
  constructor
  · calc u = u * ∑ J : Finset (Fin d), ∏ i, (if i ∈ J then fx i else 1 - fx i) := by rw [hs, mul_one]
      _ = ∑ J : Finset (Fin d), u * ∏ i, (if i ∈ J then fx i else 1 - fx i) := Finset.mul_sum _ _ _
      _ ≤ _ := Finset.sum_le_sum fun J _ => mul_le_mul_of_nonneg_right (hc J).1 (hw J)
  · calc _ ≤ ∑ J : Finset (Fin d), v * ∏ i, (if i ∈ J then fx i else 1 - fx i) :=
          Finset.sum_le_sum fun J _ => mul_le_mul_of_nonneg_right (hc J).2 (hw J)
      _ = v * ∑ J : Finset (Fin d), ∏ i, (if i ∈ J then fx i else 1 - fx i) := (Finset.mul_sum _ _ _).symm
      _ = v := by rw [hs, mul_one]

/-- ip_grad is the linear extrapolation from the lower corner. -/
theorem ipGrad_eq (hn : ∀ i, 2 ≤ n i) (y : (Fin d → ℤ) → ℚ) (x : Fin d → ℚ) :
    ipGrad lo hi n y x = y (ipCell n (ipPix lo hi n x)) + ∑ i, (y (ipCell n (ipPix lo hi n x) + Pi.single i 1) -
      y (ipCell n (ipPix lo hi n x))) * (ipPix lo hi n x i - ipCell n (ipPix lo hi n x) i) := by
  unfold ipGrad
  simp only
  rw [linDerivs_eq n y d ∅ (by simp) _ (by simp)]
  congr 1
  · simp [fdiffs, corner_empty]
  · refine Finset.sum_congr rfl fun i _ => ?_
    rw [linDerivs_eq n y d {i} (fun j _ => j.2) _ fun j _ => (ipCell_bounds hn _ j).2]
    congr 1
    have := fdiffs_insert y ∅ (ipCell n (ipPix lo hi n x)) (Finset.notMem_empty i)
    rw [show ({i} : Finset (Fin d)) = insert i ∅ from rfl, this]
    simp [fdiffs, corner_empty]

/-- **C169_grad_partial.** ip_grad reproduces linear functions everywhere, and any samples at the points of the mesh that are
not the last along an axis. -/
theorem C169_grad_partial (hb : ∀ i, lo i < hi i) (hn : ∀ i, 2 ≤ n i) :
    (∀ (c : ℚ) (b x : Fin d → ℚ), ipGrad lo hi n (fun k => c + ∑ i, b i * gridPos lo hi n k i) x = c + ∑ i, b i * x i) ∧
    ∀ (y : (Fin d → ℤ) → ℚ) (k : Fin d → ℤ), (∀ i, 0 ≤ k i ∧ k i < (n i : ℤ) - 1) →
      ipGrad lo hi n y (gridPos lo hi n k) = y k := by
  constructor
  · intro c b x
    rw [ipGrad_eq hn]
    set ix := ipCell n (ipPix lo hi n x)
    have e1 : ∀ i, (c + ∑ j, b j * gridPos lo hi n (ix + Pi.single i 1) j) - (c + ∑ j, b j * gridPos lo hi n ix j) =
        b i * ((hi i - lo i) / ((n i : ℚ) - 1)) := by
      intro i
      rw [add_sub_add_left_eq_sub, ← Finset.sum_sub_distrib, Finset.sum_eq_single i]
      · simp only [gridPos, Pi.add_apply, Pi.single_eq_same]
        push_cast
        ring
      · intro j _ hj
        simp [gridPos, hj]
      · simp
    simp only [e1]
    rw [add_assoc, ← Finset.sum_add_distrib]
    congr 1
    refine Finset.sum_congr rfl fun i _ => ?_
    have g1 : hi i - lo i ≠ 0 := by have := hb i; linarith
    have g2 : ((n i : ℚ) - 1) ≠ 0 := by
      have : (2 : ℚ) ≤ n i := by exact_mod_cast hn i
      linarith
    have hx : x i = ipPix lo hi n x i * (hi i - lo i) / ((n i : ℚ) - 1) + lo i := by
      unfold ipPix; field_simp; ring
    rw [hx]
    simp only [gridPos]
    ring
  · intro y k hk
    rw [ipGrad_eq hn]
    have hp : ipPix lo hi n (gridPos lo hi n k) = fun i => (k i : ℚ) := funext fun i => gridPos_pix hb hn k i
    have hc : ipCell n (ipPix lo hi n (gridPos lo hi n k)) = k := by
      rw [hp]
      funext i
      have := hk i
      simp only [ipCell, Int.floor_intCast]
      omega
    rw [hc, hp]
    simp

/-- **C169_grad_refuted.** At the last corner of a two-dimensional mesh ip_grad does not give the sample. -/
theorem C169_grad_refuted : ∃ y : (Fin 2 → ℤ) → ℚ,
    ipGrad (fun _ => 0) (fun _ => 1) (fun _ => 2) y (gridPos (fun _ => 0) (fun _ => 1) (fun _ => 2) fun _ => 1) ≠ y fun _ => 1 := by
  refine ⟨fun k => k 0 * k 1, ?_⟩
  decide +kernel

/-! ### build -/

/-- One turn: either the dimension was good already, or the test passes and the mesh is kept, or the mesh is refined. -/
theorem buildDim_spec {F : MeshFun d} {i : Fin d} {s s' : MeshSt d} {a a' : ℕ} (h : buildDim F i (s, a) = some (s', a')) :
    (s.bad i = false ∧ s' = s ∧ a' = a + 1) ∨
    (s.bad i = true ∧ F.fails s.n (finerMesh s.n i) = false ∧ s'.n = s.n ∧ s'.bad = Function.update s.bad i false ∧ a' = a + 1) ∨
    (s.bad i = true ∧ F.fails s.n (finerMesh s.n i) = true ∧ s'.n = finerMesh s.n i ∧ s'.bad = s.bad ∧ a' = a) := by
  unfold buildDim at h
  simp only at h
  cases hb : s.bad i
  · rw [hb] at h
    simp only [Bool.false_eq_true, if_false, Option.some.injEq, Prod.mk.injEq] at h
    exact Or.inl ⟨rfl, h.1.symm, h.2.symm⟩
  · rw [hb] at h
    simp only [if_true] at h
    by_cases h2 : (F.nout * ∏ j, finerMesh s.n i j) % 4 ≠ 0
    · rw [if_pos h2] at h; cases h
    · rw [if_neg h2] at h
      right
      cases hf : F.fails s.n (finerMesh s.n i)
      · rw [hf] at h
        simp only [Bool.false_eq_true, if_false, Option.some.injEq, Prod.mk.injEq] at h
        obtain ⟨rfl, rfl⟩ := h
        exact Or.inl ⟨rfl, rfl, rfl, rfl, rfl⟩
      · rw [hf] at h
        simp only [if_true, Option.some.injEq, Prod.mk.injEq] at h
        obtain ⟨rfl, rfl⟩ := h
        refine Or.inr ⟨rfl, rfl, rfl, ?_, rfl⟩
        rw [← hb, Function.update_eq_self]

/-- **C169_build_partial.** If build with one input stops, the interpolator it returns was within errlim of the function at
all 2n+1 points of the test mesh. -/
theorem C169_build_partial {F : MeshFun 1} (maxsize : Option ℕ) (fuel : ℕ) (nstart : Option (Fin 1 → ℕ)) {s : MeshSt 1}
    (h : buildLoop F maxsize fuel (meshStart 1 nstart) = .ok s) : F.fails s.n (finerMesh s.n 0) = false := by
  have gen : ∀ fuel (t : MeshSt 1), t.bad 0 = true → buildLoop F maxsize fuel t = .ok s →
      F.fails s.n (finerMesh s.n 0) = false := by
    intro fuel
    induction fuel with
    | zero => intro t _ h; simp [buildLoop] at h
    | succ fuel ih =>
      intro t ht h
      unfold buildLoop at h
      by_cases hl : meshTooLarge maxsize t.n = true
      · rw [if_pos hl] at h; cases h
      · rw [if_neg hl] at h
        have e : (List.finRange 1).foldlM (fun st i => buildDim F i st) (t, 0) = buildDim F 0 (t, 0) := by
          simp [List.finRange_succ, List.foldlM]
        rw [e] at h
        rcases hq : buildDim F 0 (t, 0) with _ | ⟨t', nok⟩
        · rw [hq] at h; cases h
        · rw [hq] at h
          simp only at h
          rcases buildDim_spec hq with ⟨q, -⟩ | ⟨-, q1, q2, -, q3⟩ | ⟨-, -, -, q2, q3⟩
          · rw [ht] at q; cases q
          · rw [if_pos (by omega)] at h
            cases h
            rw [q2]; exact q1
          · rw [if_neg (by omega)] at h
            exact ih t' (by rw [q2]; exact ht) h
  exact gen fuel _ rfl h

/-- **C169_outputs_refuted.** A function whose number of outputs is not a multiple of four cannot be interpolated: build
raises at the first test. -/
theorem C169_outputs_refuted (F : MeshFun (d + 1)) (h : F.nout % 4 ≠ 0) (fuel : ℕ) :
    buildLoop F none (fuel + 1) (meshStart (d + 1) none) = .error := by
  unfold buildLoop
  have hp : (F.nout * ∏ j, finerMesh (fun _ : Fin (d + 1) => 3) 0 j) % 4 ≠ 0 := by
    have e : (∏ j, finerMesh (fun _ : Fin (d + 1) => 3) 0 j) = 7 * 3 ^ d := by
      rw [Fin.prod_univ_succ]
      simp [finerMesh, Function.update]
    rw [e]
    have hodd : Nat.Coprime 4 (7 * 3 ^ d) := Nat.Coprime.mul_right (by decide) (Nat.Coprime.pow_right d (by decide))
    intro hz
    exact h (Nat.mod_eq_zero_of_dvd (hodd.dvd_of_dvd_mul_right (Nat.dvd_of_mod_eq_zero hz)))
  have h1 : (List.finRange (d + 1)).foldlM (fun st i => buildDim F i st) (meshStart (d + 1) none, 0) = none := by
    rw [List.finRange_succ, List.foldlM_cons]
    have : buildDim F 0 (meshStart (d + 1) none, 0) = none := by
      unfold buildDim meshStart
      simp only [if_true, Option.getD_none]
      rw [if_pos hp]
    rw [this]
    rfl
  rw [h1]
  simp [meshTooLarge]

/-- **C169_return_refuted.** With return_status but not return_obox the result has three parts on success and four on
failure, so that the caller cannot unpack it before knowing the status. -/
theorem C169_return_refuted : buildReturn false true = [.ip, .status, .err] ∧
    buildReturnFail false true = some [.ip, .obox, .status, .err] := by decide

/-- A function with a spike where build does not look. -/
def spike (x : Fin 1 → ℚ) (_ : Fin 4) : ℚ := if x 0 = 1 / 4 then 1 else 0

/-- **C169_accuracy_refuted.** "Constructs an interpolator object that has the required accuracy inside the provided bounding
box": the function is only looked at in ten points before build stops, whatever it is in between. Here the error is 1, where
1/10 was asked for. -/
theorem C169_accuracy_refuted : buildLoop (linearMesh (fun _ => 0) (fun _ => 1) spike (fun _ => 1 / 10) (fun _ => 0) fun _ => 0) none 1
      (meshStart 1 none) = .ok ⟨fun _ => 3, fun _ => false, some (0, 0)⟩ ∧
    |spike (fun _ => 1 / 4) 0 - ipLinear (fun _ => 0) (fun _ => 1) (fun _ => 3)
      (fun ix => spike (gridPos (fun _ => 0) (fun _ => 1) (fun _ => 3) ix) 0) (fun _ => 1 / 4)| = 1 := by
  constructor
  · set F := linearMesh (fun _ => 0) (fun _ => 1) spike (fun _ => 1 / 10) (fun _ => 0) fun _ => 0 with hF
    have h : F.fails (fun _ => 3) (finerMesh (fun _ => 3) 0) = false := by decide +kernel
    have m : ∀ k, (F.nout * k) % 4 = 0 := fun k => Nat.mul_mod_right 4 k
    have upd : ∀ b : Bool, Function.update (fun _ : Fin 1 => true) 0 b = fun _ => b := by
      intro b; funext i; rw [Subsingleton.elim i 0]; simp
    have l0 : ∀ n, F.least n = 0 := fun _ => rfl
    have l1 : ∀ n, F.largest n = 0 := fun _ => rfl
    simp [buildLoop, meshTooLarge, List.finRange_succ, List.foldlM, buildDim, meshStart, h, m, upd, l0, l1]
  · decide +kernel

/-- A function of two inputs that has to be looked at along the first again after the second was refined. -/
def ridges (x : Fin 2 → ℚ) (_ : Fin 4) : ℚ :=
  let t := 6 * x 1 - 3 * ⌊2 * x 1⌋
  if x 0 = 0 ∨ x 0 = 1 / 2 ∨ x 0 = 1 then min 1 (min t (3 - t)) else 0

/-- **C169_recheck_refuted.** With two inputs build can stop although the interpolator it returns fails the test along the
first one: dimensions found good are not tested again after others were refined. -/
theorem C169_recheck_refuted :
    let F := linearMesh (fun _ => 0) (fun _ => 1) ridges (fun _ => 1 / 10) (fun _ => 0) fun _ => 0
    ∃ s, buildLoop F none 2 (meshStart 2 none) = .ok s ∧ F.fails s.n (finerMesh s.n 0) = true := by
  intro F
  have h0 : F.fails (fun _ => 3) (finerMesh (fun _ => 3) 0) = false := by decide +kernel
  have h1 : F.fails (fun _ => 3) (finerMesh (fun _ => 3) 1) = true := by decide +kernel
  have h2 : F.fails (finerMesh (fun _ => 3) 1) (finerMesh (finerMesh (fun _ => 3) 1) 1) = false := by decide +kernel
  have h3 : F.fails (finerMesh (fun _ => 3) 1) (finerMesh (finerMesh (fun _ => 3) 1) 0) = true := by decide +kernel
  have m : ∀ k, (F.nout * k) % 4 = 0 := fun k => Nat.mul_mod_right 4 k
  have l0 : ∀ n, F.least n = 0 := fun _ => rfl
  have l1 : ∀ n, F.largest n = 0 := fun _ => rfl
  refine ⟨⟨finerMesh (fun _ => 3) 1, fun _ => false, some (0, 0)⟩, ?_, h3⟩
  have e1 : (List.finRange 2).foldlM (fun st i => buildDim F i st) (meshStart 2 none, 0) =
      some (⟨finerMesh (fun _ => 3) 1, Function.update (Function.update (fun _ => true) 0 false) 1 true, some (0, 0)⟩, 1) := by
    simp [List.finRange_succ, List.foldlM, buildDim, meshStart, h0, h1, m, l0, l1]
  have e2 : (List.finRange 2).foldlM (fun st i => buildDim F i st)
      (⟨finerMesh (fun _ => 3) 1, Function.update (Function.update (fun _ => true) 0 false) 1 true, some (0, 0)⟩, 0) =
      some (⟨finerMesh (fun _ => 3) 1, fun _ => false, some (0, 0)⟩, 2) := by
    simp [List.finRange_succ, List.foldlM, buildDim, h2, m, l0, l1]
    funext i
    fin_cases i <;> simp
  unfold buildLoop
  rw [e1]
  simp only [meshTooLarge, Bool.false_eq_true, if_false]
  unfold buildLoop
  rw [e2]
  simp [meshTooLarge]

/-- A tent with its top at 1/6. -/
def tent (x : Fin 1 → ℚ) (_ : Fin 4) : ℚ := max 0 (1 - |6 * x 0 - 1|)

/-- **C169_obox_refuted.** The box of the outputs does not contain all values found: its upper end is that of the last mesh
only. Here the function was 1 at a point of the mesh returned, but the box ends at 6/7. -/
theorem C169_obox_refuted : ∃ least largest : (Fin 1 → ℕ) → ℚ,
    (∀ m ∈ [7, 15], (∀ k : Fin m, least (fun _ => m) ≤ tent (gridPos (fun _ => 0) (fun _ => 1) (fun _ => m) fun _ => (k : ℤ)) 0 ∧
        tent (gridPos (fun _ => 0) (fun _ => 1) (fun _ => m) fun _ => (k : ℤ)) 0 ≤ largest (fun _ => m)) ∧
      (∃ k : Fin m, least (fun _ => m) = tent (gridPos (fun _ => 0) (fun _ => 1) (fun _ => m) fun _ => (k : ℤ)) 0) ∧
      ∃ k : Fin m, largest (fun _ => m) = tent (gridPos (fun _ => 0) (fun _ => 1) (fun _ => m) fun _ => (k : ℤ)) 0) ∧
    ∃ s, buildLoop (linearMesh (fun _ => 0) (fun _ => 1) tent (fun _ => 1 / 10) least largest) none 2 (meshStart 1 none) = .ok s ∧
      s.n = (fun _ => 7) ∧ s.obox = some (0, 6 / 7) ∧ tent (gridPos (fun _ => 0) (fun _ => 1) s.n fun _ => 1) 0 = 1 := by
  refine ⟨fun _ => 0, fun m => if m 0 = 7 then 1 else 6 / 7, by decide +kernel, ⟨fun _ => 7, fun _ => false, some (0, 6 / 7)⟩, ?_, rfl, rfl,
    by decide +kernel⟩
  set F := linearMesh (fun _ => 0) (fun _ => 1) tent (fun _ => 1 / 10) (fun _ => 0) (fun m => if m 0 = 7 then 1 else 6 / 7) with hF
  have u7 : finerMesh (fun _ : Fin 1 => 3) 0 = fun _ => 7 := by funext i; rw [Subsingleton.elim i 0]; simp [finerMesh]
  have u15 : finerMesh (fun _ : Fin 1 => 7) 0 = fun _ => 15 := by funext i; rw [Subsingleton.elim i 0]; simp [finerMesh]
  have h0 : F.fails (fun _ => 3) (fun _ => 7) = true := by decide +kernel
  have h1 : F.fails (fun _ => 7) (fun _ => 15) = false := by decide +kernel
  have m : ∀ k, (F.nout * k) % 4 = 0 := fun k => Nat.mul_mod_right 4 k
  have upd : ∀ b : Bool, Function.update (fun _ : Fin 1 => true) 0 b = fun _ => b := by
    intro b; funext i; rw [Subsingleton.elim i 0]; simp
  have l7 : F.largest (fun _ => 7) = 1 := by decide +kernel
  have l15 : F.largest (fun _ => 15) = 6 / 7 := by decide +kernel
  have lst : ∀ n, F.least n = 0 := fun _ => rfl
  simp [buildLoop, meshTooLarge, List.finRange_succ, List.foldlM, buildDim, meshStart, h0, h1, m, u7, u15, upd, l7, l15, lst]
  norm_num

/-- Non-vacuity: a saddle on a mesh of 3 by 4 points. -/
example : ipLinear (fun _ : Fin 2 => 0) (fun _ => 1) ![3, 4]
    (fun k => ∑ _j ∈ Finset.range 1, 2 * ∏ i, (0 + 1 * gridPos (fun _ => 0) (fun _ => 1) ![3, 4] k i)) ![1 / 5, 1 / 7] = 2 / 35 := by
  rw [C169_exact (Finset.range 1) (fun _ => 2) (fun _ _ => 0) (fun _ _ => 1) (by simp) (by intro i; fin_cases i <;> simp)]
  norm_num [Fin.prod_univ_two]

end Pixell
