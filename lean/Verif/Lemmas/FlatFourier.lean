import Verif.Model.FlatFourier
import Mathlib.Algebra.Field.GeomSum
import Mathlib.Analysis.SpecialFunctions.Complex.Arg
import Mathlib.Tactic.FieldSimp

/-
Lemmas about discrete Fourier sums and rotations of component pairs.
-/
namespace Pixell
open Complex
open scoped ComplexConjugate

theorem cis_add (a b : ℝ) : cis (a + b) = cis a * cis b := by
  unfold cis; rw [← exp_add]; congr 1; push_cast; ring

theorem cis_zero : cis 0 = 1 := by unfold cis; simp

theorem cis_eq_one (t : ℝ) : cis t = 1 ↔ ∃ m : ℤ, t = m := by
  unfold cis
  rw [exp_eq_one_iff]
  constructor
  · rintro ⟨m, h⟩
    refine ⟨m, ?_⟩
    have hp : (2 * Real.pi * I : ℂ) ≠ 0 := Complex.two_pi_I_ne_zero
    have : (2 * Real.pi * I : ℂ) * t = (2 * Real.pi * I : ℂ) * m := by linear_combination h
    have := mul_left_cancel₀ hp this
    exact_mod_cast this
  · rintro ⟨m, rfl⟩
    exact ⟨m, by push_cast; ring⟩

theorem cis_int (m : ℤ) : cis m = 1 := (cis_eq_one _).2 ⟨m, rfl⟩

theorem cis_add_int (t : ℝ) (m : ℤ) : cis (t + m) = cis t := by rw [cis_add, cis_int, mul_one]

theorem cis_neg (t : ℝ) : cis (-t) = conj (cis t) := by
  unfold cis
  rw [← exp_conj]
  congr 1
  have h2 : conj (2 : ℂ) = 2 := conj_ofNat 2
  simp only [map_mul, h2, conj_ofReal, conj_I]
  push_cast; ring

theorem cis_mul_conj (t : ℝ) : cis t * conj (cis t) = 1 := by rw [← cis_neg, ← cis_add, add_neg_cancel, cis_zero]

theorem cis_nat_mul (k : Nat) (t : ℝ) : cis (k * t) = cis t ^ k := by
  induction k with
  | zero => simp [cis_zero]
  | succ k ih => rw [pow_succ, ← ih, ← cis_add]; congr 1; push_cast; ring

/-- Orthogonality of the Fourier modes. -/
theorem cis_sum (n : Nat) (hn : 0 < n) (d : ℤ) :
    ∑ k ∈ Finset.range n, cis ((k : ℝ) * (d / n)) = if (n : ℤ) ∣ d then (n : ℂ) else 0 := by
  have hn' : (n : ℝ) ≠ 0 := by exact_mod_cast hn.ne'
  have e : ∀ k ∈ Finset.range n, cis ((k : ℝ) * (d / n)) = cis (d / n) ^ k := fun k _ => cis_nat_mul k _
  rw [Finset.sum_congr rfl e]
  by_cases h : (n : ℤ) ∣ d
  · rw [if_pos h]
    obtain ⟨q, rfl⟩ := h
    have : ((((n : ℤ) * q : ℤ) : ℝ) / n) = (q : ℤ) := by push_cast; field_simp
    rw [this, cis_int]
    simp
  · rw [if_neg h]
    have h1 : cis (d / n) ≠ 1 := by
      rw [Ne, cis_eq_one]
      rintro ⟨m, hm⟩
      apply h
      refine ⟨m, ?_⟩
      rw [div_eq_iff hn'] at hm
      have : (d : ℝ) = ((n * m : ℤ) : ℝ) := by push_cast; rw [hm]; ring
      exact_mod_cast this
    rw [geom_sum_eq h1, ← cis_nat_mul]
    have : (n : ℝ) * (d / n) = (d : ℤ) := by field_simp
    rw [this, cis_int]
    simp

theorem dvd_sub_nat {n j i : Nat} (hj : j < n) (hi : i < n) : (n : ℤ) ∣ (j : ℤ) - i ↔ i = j := by
  constructor
  · rintro ⟨q, hq⟩
    have h1 : -(n : ℤ) < n * q := by omega
    have h2 : (n : ℤ) * q < n := by omega
    have : q = 0 := by
      rcases lt_trichotomy q 0 with h | h | h
      · nlinarith
      · exact h
      · nlinarith
    rw [this] at hq; omega
  · rintro rfl; simp

/-- The backward transform of forward-transformed and multiplied data. -/
theorem idft_filter_dft (n : Nat) (x : Nat → ℂ) (p : Nat → ℂ) (j : Nat) :
    idftRaw n (fun k => dftRaw n x k * p k) j =
      ∑ i ∈ Finset.range n, x i * ∑ k ∈ Finset.range n, p k * cis ((k : ℝ) * (((j : ℤ) - i : ℤ) / n)) := by
  unfold idftRaw dftRaw
  have e1 : ∀ k ∈ Finset.range n, (∑ i ∈ Finset.range n, x i * cis (-((i : ℝ) * k / n))) * p k * cis ((j : ℝ) * k / n) =
      ∑ i ∈ Finset.range n, x i * (p k * cis ((k : ℝ) * (((j : ℤ) - i : ℤ) / n))) := by
    intro k _
    rw [Finset.sum_mul, Finset.sum_mul]
    apply Finset.sum_congr rfl
    intro i _
    have : (k : ℝ) * ((((j : ℤ) - i : ℤ) : ℝ) / n) = -((i : ℝ) * k / n) + (j : ℝ) * k / n := by push_cast; ring
    rw [this, cis_add]; ring
  rw [Finset.sum_congr rfl e1, Finset.sum_comm]
  apply Finset.sum_congr rfl
  intro i _
  rw [Finset.mul_sum]

theorem idft_dft (n : Nat) (x : Nat → ℂ) (j : Nat) (hj : j < n) : idftRaw n (dftRaw n x) j = n * x j := by
  have h := idft_filter_dft n x (fun _ => 1) j
  simp only [mul_one, one_mul] at h
  rw [show idftRaw n (dftRaw n x) j = idftRaw n (fun k => dftRaw n x k) j from rfl, h, Finset.sum_eq_single j]
  · rw [cis_sum n (by omega), if_pos (by simp), mul_comm]
  · intro i hi hne
    rw [cis_sum n (by omega), if_neg, mul_zero]
    rw [dvd_sub_nat hj (Finset.mem_range.1 hi)]; exact hne
  · intro h'; exact absurd (Finset.mem_range.2 hj) h'

theorem dft_idft (n : Nat) (y : Nat → ℂ) (k : Nat) (hk : k < n) : dftRaw n (idftRaw n y) k = n * y k := by
  unfold dftRaw idftRaw
  have e1 : ∀ j ∈ Finset.range n, (∑ i ∈ Finset.range n, y i * cis ((j : ℝ) * i / n)) * cis (-((j : ℝ) * k / n)) =
      ∑ i ∈ Finset.range n, y i * cis ((j : ℝ) * (((i : ℤ) - k : ℤ) / n)) := by
    intro j _
    rw [Finset.sum_mul]
    apply Finset.sum_congr rfl
    intro i _
    have : (j : ℝ) * ((((i : ℤ) - k : ℤ) : ℝ) / n) = (j : ℝ) * i / n + -((j : ℝ) * k / n) := by push_cast; ring
    rw [this, cis_add]; ring
  rw [Finset.sum_congr rfl e1, Finset.sum_comm]
  simp_rw [← Finset.mul_sum]
  rw [Finset.sum_eq_single k]
  · rw [cis_sum n (by omega), if_pos (by simp), mul_comm]
  · intro i hi hne
    rw [cis_sum n (by omega), if_neg, mul_zero]
    rw [dvd_sub_nat (Finset.mem_range.1 hi) hk]; exact hne.symm
  · intro h'; exact absurd (Finset.mem_range.2 hk) h'

theorem dft_congr {n : Nat} {x x' : Nat → ℂ} (h : ∀ j, j < n → x j = x' j) (k : Nat) : dftRaw n x k = dftRaw n x' k := by
  unfold dftRaw
  apply Finset.sum_congr rfl
  intro j hj
  rw [h j (Finset.mem_range.1 hj)]

theorem idft_congr {n : Nat} {x x' : Nat → ℂ} (h : ∀ j, j < n → x j = x' j) (k : Nat) : idftRaw n x k = idftRaw n x' k := by
  unfold idftRaw
  apply Finset.sum_congr rfl
  intro j hj
  rw [h j (Finset.mem_range.1 hj)]

theorem dft_mul (n : Nat) (x : Nat → ℂ) (c : ℂ) (k : Nat) : dftRaw n (fun j => x j * c) k = dftRaw n x k * c := by
  unfold dftRaw
  rw [Finset.sum_mul]
  apply Finset.sum_congr rfl
  intro j _; ring

theorem idft_mul (n : Nat) (x : Nat → ℂ) (c : ℂ) (k : Nat) : idftRaw n (fun j => x j * c) k = idftRaw n x k * c := by
  unfold idftRaw
  rw [Finset.sum_mul]
  apply Finset.sum_congr rfl
  intro j _; ring

theorem dft_sum (n m : Nat) (x : Nat → Nat → ℂ) (k : Nat) :
    dftRaw n (fun j => ∑ i ∈ Finset.range m, x j i) k = ∑ i ∈ Finset.range m, dftRaw n (fun j => x j i) k := by
  unfold dftRaw
  simp_rw [Finset.sum_mul]
  exact Finset.sum_comm

theorem idft_sum (n m : Nat) (x : Nat → Nat → ℂ) (k : Nat) :
    idftRaw n (fun j => ∑ i ∈ Finset.range m, x j i) k = ∑ i ∈ Finset.range m, idftRaw n (fun j => x j i) k := by
  unfold idftRaw
  simp_rw [Finset.sum_mul]
  exact Finset.sum_comm

/-- Transforms along different axes commute. -/
theorem dft_idft_swap (ny nx : Nat) (x : Nat → Nat → ℂ) (k j : Nat) :
    idftRaw nx (fun kx => dftRaw ny (fun jy => x jy kx) k) j = dftRaw ny (fun jy => idftRaw nx (fun kx => x jy kx) j) k := by
  unfold idftRaw
  rw [dft_sum]
  apply Finset.sum_congr rfl
  intro i _
  rw [dft_mul]

theorem idft_dft_swap (ny nx : Nat) (x : Nat → Nat → ℂ) (k j : Nat) :
    dftRaw nx (fun kx => idftRaw ny (fun jy => x jy kx) k) j = idftRaw ny (fun jy => dftRaw nx (fun kx => x jy kx) j) k := by
  unfold dftRaw
  rw [idft_sum]
  apply Finset.sum_congr rfl
  intro i _
  rw [idft_mul]

theorem ifft2_fft2 (ny nx : Nat) (x : Nat → Nat → ℂ) (jy jx : Nat) (hy : jy < ny) (hx : jx < nx) :
    ifft2 ny nx (fft2 ny nx x) jy jx = ny * nx * x jy jx := by
  unfold ifft2 fft2
  have e : ∀ ky, ky < ny → idftRaw nx (fun kx => dftRaw ny (fun jy => dftRaw nx (x jy) kx) ky) jx =
      dftRaw ny (fun jy => (nx : ℂ) * x jy jx) ky := by
    intro ky _
    rw [dft_idft_swap]
    apply dft_congr
    intro j _
    exact idft_dft nx (x j) jx hx
  rw [idft_congr e]
  rw [idft_dft ny (fun jy => (nx : ℂ) * x jy jx) jy hy]
  ring

theorem fft2_ifft2 (ny nx : Nat) (y : Nat → Nat → ℂ) (ky kx : Nat) (hy : ky < ny) (hx : kx < nx) :
    fft2 ny nx (ifft2 ny nx y) ky kx = ny * nx * y ky kx := by
  unfold ifft2 fft2
  have e : ∀ jy, jy < ny → dftRaw nx (fun jx => idftRaw ny (fun ky => idftRaw nx (y ky) jx) jy) kx =
      idftRaw ny (fun ky => (nx : ℂ) * y ky kx) jy := by
    intro jy _
    rw [idft_dft_swap]
    apply idft_congr
    intro j _
    exact dft_idft nx (y j) kx hx
  rw [dft_congr e]
  rw [dft_idft ny (fun ky => (nx : ℂ) * y ky kx) ky hy]
  ring

theorem fft2_mul (ny nx : Nat) (x : Nat → Nat → ℂ) (c : ℂ) (ky kx : Nat) :
    fft2 ny nx (fun jy jx => x jy jx * c) ky kx = fft2 ny nx x ky kx * c := by
  unfold fft2
  simp_rw [dft_mul]

theorem ifft2_mul (ny nx : Nat) (x : Nat → Nat → ℂ) (c : ℂ) (ky kx : Nat) :
    ifft2 ny nx (fun jy jx => x jy jx * c) ky kx = ifft2 ny nx x ky kx * c := by
  unfold ifft2
  simp_rw [idft_mul]

theorem fft2_congr {ny nx : Nat} {x x' : Nat → Nat → ℂ} (h : ∀ jy jx, jy < ny → jx < nx → x jy jx = x' jy jx) (ky kx : Nat) :
    fft2 ny nx x ky kx = fft2 ny nx x' ky kx := by
  unfold fft2
  exact dft_congr (fun jy hy => dft_congr (fun jx hx => h jy jx hy hx) _) _

theorem ifft2_congr {ny nx : Nat} {x x' : Nat → Nat → ℂ} (h : ∀ jy jx, jy < ny → jx < nx → x jy jx = x' jy jx) (ky kx : Nat) :
    ifft2 ny nx x ky kx = ifft2 ny nx x' ky kx := by
  unfold ifft2
  exact idft_congr (fun jy hy => idft_congr (fun jx hx => h jy jx hy hx) _) _

/-- Adjoint along one axis. -/
theorem dft_adjoint (n : Nat) (x y : Nat → ℂ) :
    ∑ k ∈ Finset.range n, dftRaw n x k * conj (y k) = ∑ j ∈ Finset.range n, x j * conj (idftRaw n y j) := by
  unfold dftRaw idftRaw
  simp_rw [map_sum, Finset.sum_mul, Finset.mul_sum]
  rw [Finset.sum_comm]
  apply Finset.sum_congr rfl
  intro j _
  apply Finset.sum_congr rfl
  intro k _
  rw [map_mul, cis_neg]; ring

/-! ### Rotations of pairs of components -/

theorem quebAngle_inverse (iau : Bool) (spin : ℤ) (ly lx : ℝ) :
    Real.cos (quebAngle true iau spin ly lx) = Real.cos (quebAngle false iau spin ly lx) ∧
    Real.sin (quebAngle true iau spin ly lx) = -Real.sin (quebAngle false iau spin ly lx) := by
  have key : ∀ z : ℂ, Real.cos (spin * arg (conj z)) = Real.cos (spin * arg z) ∧ Real.sin (spin * arg (conj z)) = -Real.sin (spin * arg z) := by
    intro z
    rw [arg_conj]
    by_cases h : arg z = Real.pi
    · rw [if_pos h, h]
      refine ⟨rfl, ?_⟩
      rw [Real.sin_int_mul_pi, neg_zero]
    · rw [if_neg h, mul_neg, Real.cos_neg, Real.sin_neg]
      exact ⟨rfl, rfl⟩
  unfold quebAngle
  have e : ∀ s : ℝ, (⟨ly, -s * lx⟩ : ℂ) = conj (⟨ly, s * lx⟩ : ℂ) := by
    intro s; apply Complex.ext <;> simp
  cases iau
  · simp only [Bool.false_eq_true, if_false, if_true]
    rw [e 1]; exact key _
  · simp only [if_true, if_false, Bool.false_eq_true]
    rw [e (-1)]; exact key _

theorem rotateComps_inverse (a b : Nat → Nat → ℝ) (hc : ∀ y x, Real.cos (b y x) = Real.cos (a y x))
    (hs : ∀ y x, Real.sin (b y x) = -Real.sin (a y x)) (i : Nat) (m : Nat → Nat → Nat → ℂ) :
    rotateComps b i (rotateComps a i m) = m ∧ rotateComps a i (rotateComps b i m) = m := by
  have h1 : ∀ t : ℝ, (Real.cos t : ℂ) * Real.cos t + Real.sin t * Real.sin t = 1 := by
    intro t
    have := Real.cos_sq_add_sin_sq t
    have h2 : ((Real.cos t ^ 2 + Real.sin t ^ 2 : ℝ) : ℂ) = 1 := by rw [this]; simp
    push_cast at h2
    push_cast
    linear_combination h2
  constructor
  · funext c y x
    unfold rotateComps
    rw [hc, hs]
    have := h1 (a y x)
    by_cases c1 : c = i
    · subst c1
      simp
      push_cast at this
      linear_combination m c y x * this
    · by_cases c2 : c = i + 1
      · subst c2
        simp
        push_cast at this
        linear_combination m (i + 1) y x * this
      · simp [c1, c2]
  · funext c y x
    unfold rotateComps
    rw [hc, hs]
    have := h1 (a y x)
    by_cases c1 : c = i
    · subst c1
      simp
      push_cast at this
      linear_combination m c y x * this
    · by_cases c2 : c = i + 1
      · subst c2
        simp
        push_cast at this
        linear_combination m (i + 1) y x * this
      · simp [c1, c2]

theorem rotateComps_comm (a b : Nat → Nat → ℝ) (i j : Nat) (h : i + 1 < j) (m : Nat → Nat → Nat → ℂ) :
    rotateComps a i (rotateComps b j m) = rotateComps b j (rotateComps a i m) := by
  funext c y x
  unfold rotateComps
  have e1 : i ≠ j := by omega
  have e2 : i ≠ j + 1 := by omega
  have e3 : i + 1 ≠ j := by omega
  have e4 : i + 1 ≠ j + 1 := by omega
  by_cases c1 : c = i
  · subst c1; simp [e1, e2, e3, e1.symm]
  · by_cases c2 : c = i + 1
    · subst c2; simp [e1, e2, e3]
    · by_cases c3 : c = j
      · subst c3; simp [e1.symm, e2.symm, e3.symm, e4.symm, Ne.symm e1]
      · by_cases c4 : c = j + 1
        · subst c4; simp [e1.symm, e2.symm, e3.symm, e4.symm]
        · simp [c1, c2, c3, c4]

/-- Groups of components one after the other, pairs for non-zero spin. -/
def GoodGroups (n : Nat) (groups : List (ℤ × Nat × Nat)) : Prop :=
  groups.Pairwise (fun g h => g.2.2 ≤ h.2.1) ∧ (∀ g ∈ groups, g.1 ≠ 0 → g.2.2 = g.2.1 + 2) ∧ (∀ g ∈ groups, g.2.2 ≤ n) ∧
  ∀ g ∈ groups, g.2.1 < g.2.2

theorem GoodGroups.tail {n : Nat} {g : ℤ × Nat × Nat} {gs : List (ℤ × Nat × Nat)} (h : GoodGroups n (g :: gs)) : GoodGroups n gs :=
  ⟨(List.pairwise_cons.1 h.1).2, fun g hg => h.2.1 g (List.mem_cons_of_mem _ hg), fun g hg => h.2.2.1 g (List.mem_cons_of_mem _ hg),
    fun g hg => h.2.2.2 g (List.mem_cons_of_mem _ hg)⟩

theorem quebLoop_cons (inv iau : Bool) (ly lx : Nat → ℝ) (g : ℤ × Nat × Nat) (gs : List (ℤ × Nat × Nat)) (m : Nat → Nat → Nat → ℂ) :
    quebLoop inv iau ly lx (g :: gs) m = quebLoop inv iau ly lx gs
      (if g.1 = 0 then m else rotateComps (fun y x => quebAngle inv iau g.1 (ly y) (lx x)) g.2.1 m) := rfl

theorem rotate_quebLoop (a : Nat → Nat → ℝ) (i : Nat) (inv iau : Bool) (ly lx : Nat → ℝ) (gs : List (ℤ × Nat × Nat))
    (h : ∀ g ∈ gs, i + 1 < g.2.1) (m : Nat → Nat → Nat → ℂ) :
    rotateComps a i (quebLoop inv iau ly lx gs m) = quebLoop inv iau ly lx gs (rotateComps a i m) := by
  induction gs generalizing m with
  | nil => rfl
  | cons g gs ih =>
    rw [quebLoop_cons, quebLoop_cons, ih (fun g hg => h g (List.mem_cons_of_mem _ hg))]
    by_cases h0 : g.1 = 0
    · rw [if_pos h0, if_pos h0]
    · rw [if_neg h0, if_neg h0, rotateComps_comm _ _ _ _ (h g List.mem_cons_self)]

theorem quebLoop_inverse (n : Nat) (inv iau : Bool) (ly lx : Nat → ℝ) (gs : List (ℤ × Nat × Nat)) (h : GoodGroups n gs)
    (m : Nat → Nat → Nat → ℂ) : quebLoop (!inv) iau ly lx gs (quebLoop inv iau ly lx gs m) = m := by
  induction gs generalizing m with
  | nil => rfl
  | cons g gs ih =>
    rw [quebLoop_cons, quebLoop_cons]
    by_cases h0 : g.1 = 0
    · rw [if_pos h0, if_pos h0]
      exact ih h.tail m
    · rw [if_neg h0, if_neg h0, rotate_quebLoop _ _ _ _ _ _ gs, ih h.tail]
      · have hq := fun y x => quebAngle_inverse iau g.1 (ly y) (lx x)
        have := rotateComps_inverse (fun y x => quebAngle false iau g.1 (ly y) (lx x)) (fun y x => quebAngle true iau g.1 (ly y) (lx x))
          (fun y x => (hq y x).1) (fun y x => (hq y x).2) g.2.1 m
        cases inv
        · exact this.1
        · exact this.2
      · intro g' hg'
        have h1 := (List.pairwise_cons.1 h.1).1 g' hg'
        have h2 := h.2.1 g List.mem_cons_self h0
        omega

end Pixell
