import Verif.Lemmas.FlatFourier
import Verif.Props.Sht
import Mathlib.Analysis.Calculus.Deriv.Mul
import Mathlib.Analysis.Calculus.Deriv.Add
import Mathlib.Analysis.SpecialFunctions.ExpDeriv
import Mathlib.Analysis.Complex.RealDeriv

/-
Properties C92 (Fourier transforms of maps: inverse, adjoint, normalization, polarization) and C93 (shifting by any
number of samples).
-/
namespace Pixell
open Complex
open scoped ComplexConjugate

/-- Specification: the inner product of two maps, Σ a·conj(b). -/
noncomputable def mapInner (ny nx : Nat) (a b : Nat → Nat → ℂ) : ℂ :=
  ∑ y ∈ Finset.range ny, ∑ x ∈ Finset.range nx, a y x * conj (b y x)

/-- Specification: the inner product of two maps with n components. -/
noncomputable def mapsInner (n ny nx : Nat) (a b : Nat → Nat → Nat → ℂ) : ℂ := ∑ c ∈ Finset.range n, mapInner ny nx (a c) (b c)

/-! ### C92 -/

theorem norm_product (nm : FNorm) (hnm : nm ≠ .off) (ny nx : Nat) (hy : 0 < ny) (hx : 0 < nx) (A : ℝ) (hA : 0 < A) :
    fftNorm nm false ny nx A * ifftNorm nm false ny nx A * (ny * nx) = 1 := by
  have h : (0 : ℝ) < ny * nx := by positivity
  have hs := Real.sqrt_pos.2 h
  have hA' := Real.sqrt_pos.2 hA
  have e := Real.mul_self_sqrt h.le
  unfold fftNorm ifftNorm
  cases nm with
  | off => exact absurd rfl hnm
  | unit =>
    simp only [ne_eq, reduceCtorEq, not_false_eq_true, if_true, if_false]
    field_simp
    linear_combination -e
  | phys =>
    simp only [ne_eq, reduceCtorEq, not_false_eq_true, if_true, if_false, Bool.false_eq_true]
    field_simp
    linear_combination -e

theorem ifft_fft_factor (nm : FNorm) (a b : Bool) (ny nx : Nat) (A : ℝ) (x : Nat → Nat → ℂ) (jy jx : Nat) (hy : jy < ny) (hx : jx < nx) :
    enmapIfft nm a ny nx A (enmapFft nm b ny nx A x) jy jx =
      ((fftNorm nm b ny nx A * ifftNorm nm a ny nx A * (ny * nx) : ℝ) : ℂ) * x jy jx := by
  unfold enmapIfft enmapFft
  rw [ifft2_mul, ifft2_fft2 ny nx x jy jx hy hx]
  push_cast; ring

theorem fft_ifft_factor (nm : FNorm) (a b : Bool) (ny nx : Nat) (A : ℝ) (y : Nat → Nat → ℂ) (ky kx : Nat) (hy : ky < ny) (hx : kx < nx) :
    enmapFft nm a ny nx A (enmapIfft nm b ny nx A y) ky kx =
      ((fftNorm nm a ny nx A * ifftNorm nm b ny nx A * (ny * nx) : ℝ) : ℂ) * y ky kx := by
  unfold enmapIfft enmapFft
  rw [fft2_mul, fft2_ifft2 ny nx y ky kx hy hx]
  push_cast; ring

/-- C92: with normalize=True or "phys", ifft undoes fft and fft undoes ifft, for every map. -/
theorem C92_inverse (nm : FNorm) (hnm : nm ≠ .off) (ny nx : Nat) (A : ℝ) (hA : 0 < A) (x : Nat → Nat → ℂ) (jy jx : Nat) (hy : jy < ny)
    (hx : jx < nx) :
    enmapIfft nm false ny nx A (enmapFft nm false ny nx A x) jy jx = x jy jx ∧
    enmapFft nm false ny nx A (enmapIfft nm false ny nx A x) jy jx = x jy jx := by
  rw [ifft_fft_factor nm false false ny nx A x jy jx hy hx, fft_ifft_factor nm false false ny nx A x jy jx hy hx,
    norm_product nm hnm ny nx (by omega) (by omega) A hA]
  simp

/-- C92: with normalize=False the round trip multiplies by the number of pixels. -/
theorem C92_unnormalized (ny nx : Nat) (A : ℝ) (x : Nat → Nat → ℂ) (jy jx : Nat) (hy : jy < ny) (hx : jx < nx) :
    enmapIfft .off false ny nx A (enmapFft .off false ny nx A x) jy jx = ny * nx * x jy jx := by
  rw [ifft_fft_factor .off false false ny nx A x jy jx hy hx]
  simp [fftNorm, ifftNorm]

theorem fft2_adjoint (ny nx : Nat) (x y : Nat → Nat → ℂ) : mapInner ny nx (fft2 ny nx x) y = mapInner ny nx x (ifft2 ny nx y) := by
  unfold mapInner fft2 ifft2
  rw [Finset.sum_comm]
  have e1 : ∀ kx ∈ Finset.range nx, ∑ ky ∈ Finset.range ny, dftRaw ny (fun jy => dftRaw nx (x jy) kx) ky * conj (y ky kx) =
      ∑ jy ∈ Finset.range ny, dftRaw nx (x jy) kx * conj (idftRaw ny (fun ky => y ky kx) jy) := fun kx _ =>
    dft_adjoint ny (fun jy => dftRaw nx (x jy) kx) (fun ky => y ky kx)
  rw [Finset.sum_congr rfl e1, Finset.sum_comm]
  apply Finset.sum_congr rfl
  intro jy _
  rw [dft_adjoint nx (x jy) (fun kx => idftRaw ny (fun ky => y ky kx) jy)]
  apply Finset.sum_congr rfl
  intro jx _
  congr 2
  unfold idftRaw
  simp_rw [Finset.sum_mul]
  rw [Finset.sum_comm]
  apply Finset.sum_congr rfl
  intro k _
  apply Finset.sum_congr rfl
  intro i _
  ring

theorem mapInner_conj (ny nx : Nat) (a b : Nat → Nat → ℂ) : mapInner ny nx a b = conj (mapInner ny nx b a) := by
  unfold mapInner
  simp_rw [map_sum, map_mul, conj_conj]
  apply Finset.sum_congr rfl; intro y _
  apply Finset.sum_congr rfl; intro x _
  ring

theorem mapInner_mul (ny nx : Nat) (a b : Nat → Nat → ℂ) (r : ℝ) :
    mapInner ny nx (fun y x => a y x * (r : ℂ)) b = (r : ℂ) * mapInner ny nx a b ∧
    mapInner ny nx a (fun y x => b y x * (r : ℂ)) = (r : ℂ) * mapInner ny nx a b := by
  unfold mapInner
  simp_rw [Finset.mul_sum]
  constructor
  · apply Finset.sum_congr rfl; intro y _
    apply Finset.sum_congr rfl; intro x _
    ring
  · apply Finset.sum_congr rfl; intro y _
    apply Finset.sum_congr rfl; intro x _
    rw [map_mul, conj_ofReal]; ring

/-- C92: fft_adjoint and ifft_adjoint are the adjoints of fft and ifft, in every normalization. -/
theorem C92_adjoint (nm : FNorm) (ny nx : Nat) (A : ℝ) (x y : Nat → Nat → ℂ) :
    mapInner ny nx (enmapFft nm false ny nx A x) y = mapInner ny nx x (fftAdjoint nm ny nx A y) ∧
    mapInner ny nx (enmapIfft nm false ny nx A y) x = mapInner ny nx y (ifftAdjoint nm ny nx A x) := by
  have n1 : fftNorm nm false ny nx A = ifftNorm nm true ny nx A := by cases nm <;> rfl
  have n2 : ifftNorm nm false ny nx A = fftNorm nm true ny nx A := by cases nm <;> rfl
  constructor
  · show mapInner ny nx (fun ky kx => fft2 ny nx x ky kx * (fftNorm nm false ny nx A : ℂ)) y =
      mapInner ny nx x (fun jy jx => ifft2 ny nx y jy jx * (ifftNorm nm true ny nx A : ℂ))
    rw [(mapInner_mul _ _ _ _ _).1, (mapInner_mul _ _ _ _ _).2, n1]
    congr 1
    exact fft2_adjoint ny nx x y
  · show mapInner ny nx (fun ky kx => ifft2 ny nx y ky kx * (ifftNorm nm false ny nx A : ℂ)) x =
      mapInner ny nx y (fun jy jx => fft2 ny nx x jy jx * (fftNorm nm true ny nx A : ℂ))
    rw [(mapInner_mul _ _ _ _ _).1, (mapInner_mul _ _ _ _ _).2, n2]
    congr 1
    rw [mapInner_conj ny nx (fun ky kx => ifft2 ny nx y ky kx), mapInner_conj ny nx y]
    congr 1
    exact (fft2_adjoint ny nx x y).symm

/-- C92: power. With normalize=True the transform keeps inner products, with "phys" it multiplies them by the pixel
area. -/
theorem C92_power (ny nx : Nat) (hy : 0 < ny) (hx : 0 < nx) (A : ℝ) (hA : 0 ≤ A) (a b : Nat → Nat → ℂ) :
    mapInner ny nx (enmapFft .unit false ny nx A a) (enmapFft .unit false ny nx A b) = mapInner ny nx a b ∧
    mapInner ny nx (enmapFft .phys false ny nx A a) (enmapFft .phys false ny nx A b) = A * mapInner ny nx a b := by
  have key : ∀ nm, mapInner ny nx (enmapFft nm false ny nx A a) (enmapFft nm false ny nx A b) =
      ((fftNorm nm false ny nx A * ifftNorm nm true ny nx A * (ny * nx) : ℝ) : ℂ) * mapInner ny nx a b := by
    intro nm
    rw [(C92_adjoint nm ny nx A a _).1, ← (mapInner_mul ny nx a b _).2]
    unfold mapInner
    apply Finset.sum_congr rfl; intro y hy'
    apply Finset.sum_congr rfl; intro x hx'
    congr 2
    unfold fftAdjoint
    rw [ifft_fft_factor nm true false ny nx A b y x (Finset.mem_range.1 hy') (Finset.mem_range.1 hx'), mul_comm]
  have h : (0 : ℝ) < ny * nx := by positivity
  have hs := Real.sqrt_pos.2 h
  have e := Real.mul_self_sqrt h.le
  have e2 := Real.mul_self_sqrt hA
  rw [key, key]
  constructor
  · have : fftNorm .unit false ny nx A * ifftNorm .unit true ny nx A * (ny * nx) = 1 := by
      unfold fftNorm ifftNorm
      simp only [ne_eq, reduceCtorEq, not_false_eq_true, if_true, if_false]
      field_simp
      linear_combination -e
    rw [this]; simp
  · have : fftNorm .phys false ny nx A * ifftNorm .phys true ny nx A * (ny * nx) = A := by
      unfold fftNorm ifftNorm
      simp only [ne_eq, reduceCtorEq, not_false_eq_true, if_true, if_false, Bool.false_eq_true]
      field_simp
      rw [pow_two, pow_two, e, e2]
    rw [this]

theorem spinHelper_groups (spin : List ℤ) (n : Nat) (h : (spinHelper (n + 1) spin n).2 = some true) :
    GoodGroups n (spinHelper (n + 1) spin n).1 := by
  by_cases hs : spin = []
  · subst hs
    rw [(C61_empty [] n n).1] at h
    cases h
  rcases C61_spin_helper spin n hs (n + 1) (by omega) with ⟨K, hK, e, hr⟩ | ⟨-, hr⟩
  · rw [hr]
    have hmono : ∀ i j, i ≤ j → spinStart spin i ≤ spinStart spin j := by
      intro i j hij
      rcases hij.lt_or_eq with h | rfl
      · exact (spinStart_lt spin h).le
      · exact le_refl _
    refine ⟨?_, ?_, ?_, ?_⟩
    · rw [List.pairwise_map]
      refine List.Pairwise.imp ?_ List.pairwise_lt_range
      intro i j hij
      exact hmono (i + 1) j hij
    · intro g hg h0
      obtain ⟨j, hj, rfl⟩ := List.mem_map.1 hg
      simp only [ne_eq] at h0 ⊢
      rw [spinStart_succ, spinWidth, if_neg h0]
    · intro g hg
      obtain ⟨j, hj, rfl⟩ := List.mem_map.1 hg
      rw [← e]
      exact hmono _ _ (List.mem_range.1 hj)
    · intro g hg
      obtain ⟨j, hj, rfl⟩ := List.mem_map.1 hg
      exact spinStart_lt spin (Nat.lt_succ_self j)
  · rw [hr] at h; cases h

theorem rotateComps_congr {a b : Nat → Nat → ℝ} {i n ny nx : Nat} (hi : i + 1 < n) {m m' : Nat → Nat → Nat → ℂ}
    (h : ∀ c y x, c < n → y < ny → x < nx → m c y x = m' c y x) (hab : ∀ y x, a y x = b y x) :
    ∀ c y x, c < n → y < ny → x < nx → rotateComps a i m c y x = rotateComps b i m' c y x := by
  intro c y x hc hy hx
  unfold rotateComps
  rw [h i y x (by omega) hy hx, h (i + 1) y x hi hy hx, h c y x hc hy hx, hab]

theorem quebLoop_congr (inv iau : Bool) (ly lx : Nat → ℝ) {n ny nx : Nat} (gs : List (ℤ × Nat × Nat)) (hg : GoodGroups n gs)
    {m m' : Nat → Nat → Nat → ℂ} (h : ∀ c y x, c < n → y < ny → x < nx → m c y x = m' c y x) :
    ∀ c y x, c < n → y < ny → x < nx → quebLoop inv iau ly lx gs m c y x = quebLoop inv iau ly lx gs m' c y x := by
  induction gs generalizing m m' with
  | nil => exact h
  | cons g gs ih =>
    rw [quebLoop_cons, quebLoop_cons]
    apply ih hg.tail
    by_cases h0 : g.1 = 0
    · rw [if_pos h0, if_pos h0]; exact h
    · rw [if_neg h0, if_neg h0]
      apply rotateComps_congr _ h (fun _ _ => rfl)
      have := hg.2.1 g List.mem_cons_self h0
      have := hg.2.2.1 g List.mem_cons_self
      omega

/-- C92, polarization: both directions raise for exactly the same numbers of components; otherwise harm2map undoes
map2harm and map2harm undoes harm2map(keep_imag=True), for every normalization, spin list, sign convention and
wavenumbers; and a real map comes back also without keep_imag. -/
theorem C92_harm (nm : FNorm) (hnm : nm ≠ .off) (iau : Bool) (spin : List ℤ) (n ny nx : Nat) (A : ℝ) (hA : 0 < A) (ly lx : Nat → ℝ)
    (keep : Bool) (m : Nat → Nat → Nat → ℂ) :
    (map2harm nm false iau spin n ny nx A ly lx m = none ↔ harm2map nm false iau spin n ny nx A ly lx keep m = none) ∧
    (∀ h, map2harm nm false iau spin n ny nx A ly lx m = some h → (keep ∨ ∀ c y x, (m c y x).im = 0) →
      ∃ r, harm2map nm false iau spin n ny nx A ly lx keep h = some r ∧ ∀ c y x, c < n → y < ny → x < nx → r c y x = m c y x) ∧
    (∀ r, harm2map nm false iau spin n ny nx A ly lx true m = some r →
      ∃ h, map2harm nm false iau spin n ny nx A ly lx r = some h ∧ ∀ c y x, c < n → y < ny → x < nx → h c y x = m c y x) := by
  unfold map2harm harm2map
  by_cases hg : (spinHelper (n + 1) spin n).2 = some true
  · simp only [hg, if_true]
    have hgood := spinHelper_groups spin n hg
    refine ⟨by simp, ?_, ?_⟩
    · intro h hh hk
      cases hh
      refine ⟨_, rfl, ?_⟩
      intro c y x hc hy hx
      have hinv := quebLoop_inverse n false iau ly lx _ hgood (fun c => enmapFft nm false ny nx A (m c))
      simp only [Bool.not_false] at hinv
      rw [hinv, (C92_inverse nm hnm ny nx A hA (m c) y x hy hx).1]
      rcases hk with hk | hk
      · rw [if_pos hk]
      · cases keep
        · rw [if_neg (by simp)]
          apply Complex.ext
          · simp
          · simp [hk c y x]
        · rfl
    · intro r hr
      cases hr
      refine ⟨_, rfl, ?_⟩
      intro c y x hc hy hx
      simp only [if_true]
      have e : ∀ c y x, c < n → y < ny → x < nx →
          enmapFft nm false ny nx A (fun y x => enmapIfft nm false ny nx A (quebLoop true iau ly lx (spinHelper (n + 1) spin n).1 m c) y x) y x =
          quebLoop true iau ly lx (spinHelper (n + 1) spin n).1 m c y x := fun c y x _ hy hx =>
        (C92_inverse nm hnm ny nx A hA _ y x hy hx).2
      rw [quebLoop_congr false iau ly lx _ hgood e c y x hc hy hx]
      have hinv := quebLoop_inverse n true iau ly lx _ hgood m
      simp only [Bool.not_true] at hinv
      rw [hinv]
  · simp only [hg, if_false]
    simp

theorem rotateComps_adjoint (a b : Nat → Nat → ℝ) (hc : ∀ y x, Real.cos (b y x) = Real.cos (a y x))
    (hs : ∀ y x, Real.sin (b y x) = -Real.sin (a y x)) (i n ny nx : Nat) (hi : i + 1 < n) (m h : Nat → Nat → Nat → ℂ) :
    mapsInner n ny nx (rotateComps a i m) h = mapsInner n ny nx m (rotateComps b i h) := by
  unfold mapsInner
  have h1 : i ∈ Finset.range n := Finset.mem_range.2 (by omega)
  have h2 : i + 1 ∈ (Finset.range n).erase i := Finset.mem_erase.2 ⟨by omega, Finset.mem_range.2 hi⟩
  rw [← Finset.add_sum_erase _ _ h1, ← Finset.add_sum_erase _ _ h2, ← Finset.add_sum_erase (Finset.range n) _ h1,
    ← Finset.add_sum_erase ((Finset.range n).erase i) _ h2, ← add_assoc, ← add_assoc]
  congr 1
  · unfold mapInner
    rw [← Finset.sum_add_distrib, ← Finset.sum_add_distrib]
    apply Finset.sum_congr rfl; intro y _
    rw [← Finset.sum_add_distrib, ← Finset.sum_add_distrib]
    apply Finset.sum_congr rfl; intro x _
    unfold rotateComps
    rw [hc, hs]
    simp only [if_true, if_neg (show ¬ i + 1 = i by omega)]
    simp only [map_sub, map_add, map_mul, conj_ofReal]
    push_cast
    ring
  · apply Finset.sum_congr rfl
    intro c hc'
    have e1 : c ≠ i + 1 := Finset.ne_of_mem_erase hc'
    have e2 : c ≠ i := Finset.ne_of_mem_erase (Finset.mem_of_mem_erase hc')
    unfold mapInner
    apply Finset.sum_congr rfl; intro y _
    apply Finset.sum_congr rfl; intro x _
    unfold rotateComps
    rw [if_neg e2, if_neg e1, if_neg e2, if_neg e1]

theorem quebLoop_adjoint (inv iau : Bool) (ly lx : Nat → ℝ) (n ny nx : Nat) (gs : List (ℤ × Nat × Nat)) (hg : GoodGroups n gs)
    (m h : Nat → Nat → Nat → ℂ) :
    mapsInner n ny nx (quebLoop inv iau ly lx gs m) h = mapsInner n ny nx m (quebLoop (!inv) iau ly lx gs h) := by
  induction gs generalizing m h with
  | nil => rfl
  | cons g gs ih =>
    rw [quebLoop_cons, quebLoop_cons]
    by_cases h0 : g.1 = 0
    · rw [if_pos h0, if_pos h0]; exact ih hg.tail m h
    · rw [if_neg h0, if_neg h0, ih hg.tail]
      have hlast := hg.2.1 g List.mem_cons_self h0
      have hle := hg.2.2.1 g List.mem_cons_self
      rw [← rotate_quebLoop]
      · have hq := fun y x => quebAngle_inverse iau g.1 (ly y) (lx x)
        cases inv
        · exact rotateComps_adjoint _ _ (fun y x => (hq y x).1) (fun y x => (hq y x).2) _ _ _ _ (by omega) _ _
        · exact rotateComps_adjoint _ _ (fun y x => (hq y x).1.symm) (fun y x => by show Real.sin (quebAngle false iau g.1 (ly y) (lx x)) = _; linarith [(hq y x).2]) _ _ _ _ (by omega) _ _
      · intro g' hg'
        have := (List.pairwise_cons.1 hg.1).1 g' hg'
        omega

theorem mapsInner_re (n ny nx : Nat) (a b : Nat → Nat → Nat → ℂ) (ha : ∀ c y x, (a c y x).im = 0) :
    (mapsInner n ny nx a (fun c y x => ((b c y x).re : ℂ))).re = (mapsInner n ny nx a b).re := by
  unfold mapsInner mapInner
  simp only [re_sum]
  apply Finset.sum_congr rfl; intro c _
  apply Finset.sum_congr rfl; intro y _
  apply Finset.sum_congr rfl; intro x _
  simp [ha]

/-- C92, polarization: map2harm_adjoint and harm2map_adjoint are the adjoints of map2harm and harm2map. With complex
maps (keep_imag=True) this is the complex inner product; for real maps, with the imaginary part dropped as by default,
its real part. -/
theorem C92_harm_adjoint (nm : FNorm) (iau : Bool) (spin : List ℤ) (n ny nx : Nat) (A : ℝ) (ly lx : Nat → ℝ)
    (m h : Nat → Nat → Nat → ℂ) (hm r : Nat → Nat → Nat → ℂ) (e1 : map2harm nm false iau spin n ny nx A ly lx m = some hm) :
    (harm2map nm true iau spin n ny nx A ly lx true h = some r → mapsInner n ny nx hm h = mapsInner n ny nx m r) ∧
    (harm2map nm true iau spin n ny nx A ly lx false h = some r → (∀ c y x, (m c y x).im = 0) →
      (mapsInner n ny nx hm h).re = (mapsInner n ny nx m r).re) ∧
    (∀ h' r', harm2map nm false iau spin n ny nx A ly lx true h' = some r' →
      ∀ hm', map2harm nm true iau spin n ny nx A ly lx m = some hm' → mapsInner n ny nx r' m = mapsInner n ny nx h' hm') := by
  unfold map2harm at e1 ⊢
  unfold harm2map
  by_cases hg : (spinHelper (n + 1) spin n).2 = some true
  · simp only [hg, if_true] at e1 ⊢
    have hgood := spinHelper_groups spin n hg
    cases e1
    have key : mapsInner n ny nx (quebLoop false iau ly lx (spinHelper (n + 1) spin n).1 fun c => enmapFft nm false ny nx A (m c)) h =
        mapsInner n ny nx m fun c y x => enmapIfft nm true ny nx A (quebLoop true iau ly lx (spinHelper (n + 1) spin n).1 h c) y x := by
      rw [quebLoop_adjoint false iau ly lx n ny nx _ hgood]
      unfold mapsInner
      apply Finset.sum_congr rfl
      intro c _
      exact (C92_adjoint nm ny nx A (m c) _).1
    refine ⟨?_, ?_, ?_⟩
    · intro e2; cases e2; exact key
    · intro e2 hre
      cases e2
      rw [key, ← mapsInner_re n ny nx m _ hre]
      rfl
    · intro h' r' e2 hm' e3
      cases e2; cases e3
      have := quebLoop_adjoint true iau ly lx n ny nx _ hgood h' (fun c => enmapFft nm true ny nx A (m c))
      rw [Bool.not_true] at this
      rw [← this]
      unfold mapsInner
      apply Finset.sum_congr rfl
      intro c _
      exact (C92_adjoint nm ny nx A (m c) _).2
  · simp only [hg, if_false] at e1
    cases e1

/-- Three components with spins 0 and 2 are accepted, two are not. -/
example : (spinHelper 4 [0, 2] 3).2 = some true ∧ (spinHelper 3 [0, 2] 2).2 = some false := by decide

/-- The transform of a single pixel map, and of two pixels. -/
example : enmapFft .off false 1 2 1 (fun _ x => if x = 0 then 3 else 1) 0 1 = 2 := by
  have h : cis (-(1 / 2)) = -1 := by
    unfold cis
    rw [show (2 * Real.pi * ((-(1 / 2) : ℝ) : ℂ) * I : ℂ) = -(Real.pi * I) by push_cast; ring, exp_neg, exp_pi_mul_I]; norm_num
  simp only [enmapFft, fft2, dftRaw, Finset.sum_range_succ, Finset.sum_range_zero, fftNorm]
  simp [cis_zero]
  rw [show (2 : ℝ)⁻¹ = 1 / 2 by norm_num, h]; norm_num

/-! ### C93 -/

theorem shiftPhase_int (n : Nat) (hn : 0 < n) (s : ℤ) (k : Nat) : shiftPhase n s false k = cis (-((k : ℝ) * s / n)) := by
  have hn' : (n : ℝ) ≠ 0 := by exact_mod_cast hn.ne'
  unfold shiftPhase fftfreq
  simp only [Bool.false_eq_true, if_false]
  by_cases h : k < (n - 1) / 2 + 1
  · rw [if_pos h]; congr 1; ring
  · rw [if_neg h, ← cis_add_int (-((k : ℝ) * s / n)) s]
    congr 1
    field_simp; ring

/-- C93: shifting by a whole number of samples is a cyclic roll, for every array and every (also negative or large)
number. -/
theorem C93_roll (n : Nat) (s : ℤ) (a : Nat → ℂ) (j : Nat) (hj : j < n) :
    fftShift n s false a j = a (((j : ℤ) - s) % n).toNat := by
  have hn : 0 < n := by omega
  have hn' : (n : ℂ) ≠ 0 := by exact_mod_cast hn.ne'
  have hlt : (((j : ℤ) - s) % n).toNat < n := by
    have := Int.emod_lt_of_pos ((j : ℤ) - s) (by omega : (0 : ℤ) < n)
    have := Int.emod_nonneg ((j : ℤ) - s) (by omega : (n : ℤ) ≠ 0)
    omega
  unfold fftShift
  rw [idft_filter_dft, Finset.sum_eq_single (((j : ℤ) - s) % n).toNat]
  · have e : ∀ k ∈ Finset.range n, shiftPhase n s false k * cis ((k : ℝ) * (((j : ℤ) - ((((j : ℤ) - s) % n).toNat : ℕ) : ℤ) / n)) =
        cis ((k : ℝ) * ((((j : ℤ) - s - ((((j : ℤ) - s) % n).toNat : ℕ) : ℤ) : ℝ) / n)) := by
      intro k _
      rw [shiftPhase_int n hn, ← cis_add]
      congr 1
      push_cast; ring
    rw [Finset.sum_congr rfl e, cis_sum n hn, if_pos]
    · field_simp
    · rw [Int.toNat_of_nonneg (Int.emod_nonneg _ (by omega))]
      exact Int.dvd_self_sub_emod
  · intro i hi hne
    have e : ∀ k ∈ Finset.range n, shiftPhase n s false k * cis ((k : ℝ) * (((j : ℤ) - i : ℤ) / n)) =
        cis ((k : ℝ) * ((((j : ℤ) - s - i : ℤ) : ℝ) / n)) := by
      intro k _
      rw [shiftPhase_int n hn, ← cis_add]
      congr 1
      push_cast; ring
    rw [Finset.sum_congr rfl e, cis_sum n hn, if_neg, mul_zero]
    intro hd
    apply hne
    have h1 : ((j : ℤ) - s) % n = (i : ℤ) % n := Int.emod_eq_emod_iff_emod_sub_eq_zero.2 (Int.emod_eq_zero_of_dvd hd)
    rw [h1, Int.emod_eq_of_lt (by omega) (by have := Finset.mem_range.1 hi; omega)]
    simp
  · intro h; exact absurd (Finset.mem_range.2 hlt) h

/-- C93: on complex arrays shifts add up; in particular shifting back restores the array. -/
theorem C93_compose (n : Nat) (s t : ℝ) (a : Nat → ℂ) (j : Nat) (hj : j < n) :
    fftShift n t false (fftShift n s false a) j = fftShift n (s + t) false a j := by
  have hn : (n : ℂ) ≠ 0 := by exact_mod_cast (by omega : n ≠ 0)
  unfold fftShift
  congr 1
  apply idft_congr
  intro k hk
  have e : dftRaw n (fun j => idftRaw n (fun k => dftRaw n a k * shiftPhase n s false k) j / n) k = dftRaw n a k * shiftPhase n s false k := by
    have := dft_mul n (idftRaw n (fun k => dftRaw n a k * shiftPhase n s false k)) ((n : ℂ)⁻¹) k
    simp only [div_eq_mul_inv]
    rw [this, dft_idft n _ k hk]
    field_simp
  rw [e, mul_assoc]
  congr 1
  simp only [shiftPhase, Bool.false_eq_true, if_false]
  rw [← cis_add]
  congr 1
  ring

/-- C93: deriv gives the derivative with respect to the shift. -/
theorem C93_deriv (n : Nat) (s : ℝ) (a : Nat → ℂ) (j : Nat) :
    HasDerivAt (fun s => fftShift n s false a j) (fftShift n s true a j) s := by
  have hp : ∀ k, HasDerivAt (fun s => shiftPhase n s false k) (shiftPhase n s true k) s := by
    intro k
    simp only [shiftPhase, Bool.false_eq_true, if_false, if_true, cis]
    have h1 : HasDerivAt (fun s : ℝ => (2 * Real.pi * ((-(fftfreq n k * s) : ℝ) : ℂ) * I : ℂ)) (-2 * Real.pi * I * fftfreq n k) s := by
      have h0 : HasDerivAt (fun s : ℝ => (s : ℂ)) 1 s := HasDerivAt.ofReal_comp (hasDerivAt_id s)
      have h2 := h0.const_mul (-2 * Real.pi * I * fftfreq n k : ℂ)
      rw [mul_one] at h2
      refine h2.congr_of_eventuallyEq (Filter.Eventually.of_forall fun s => ?_)
      push_cast; ring
    exact h1.cexp
  unfold fftShift idftRaw
  apply HasDerivAt.div_const
  apply HasDerivAt.fun_sum
  intro k _
  exact ((hp k).const_mul (dftRaw n a k)).mul_const _

theorem fftfreq_zero (n : Nat) : fftfreq n 0 = 0 := by unfold fftfreq; simp

theorem fftfreq_reflect (n k : Nat) (hn : n % 2 = 1) (h0 : 0 < k) (hk : k < n) : fftfreq n (n - k) = -fftfreq n k := by
  have hn' : (n : ℝ) ≠ 0 := by exact_mod_cast (by omega : n ≠ 0)
  unfold fftfreq
  by_cases h : k < (n - 1) / 2 + 1
  · rw [if_pos h, if_neg (by omega), Nat.cast_sub hk.le]; field_simp; ring
  · rw [if_neg h, if_pos (by omega), Nat.cast_sub hk.le]; field_simp; ring

theorem cis_freq (n k : Nat) (hn : 0 < n) (d : ℤ) : cis ((k : ℝ) * (d / n)) = cis (fftfreq n k * d) := by
  have hn' : (n : ℝ) ≠ 0 := by exact_mod_cast hn.ne'
  unfold fftfreq
  by_cases h : k < (n - 1) / 2 + 1
  · rw [if_pos h]; congr 1; ring
  · rw [if_neg h, ← cis_add_int (((k : ℝ) - n) / n * d) d]; congr 1; field_simp; ring

/-- For odd lengths the shift kernel is real. -/
theorem kernel_real (n : Nat) (hn : n % 2 = 1) (s : ℝ) (d : ℤ) :
    conj (∑ k ∈ Finset.range n, shiftPhase n s false k * cis ((k : ℝ) * (d / n))) =
      ∑ k ∈ Finset.range n, shiftPhase n s false k * cis ((k : ℝ) * (d / n)) := by
  have e : ∀ k ∈ Finset.range n, shiftPhase n s false k * cis ((k : ℝ) * (d / n)) = cis (fftfreq n k * (d - s)) := by
    intro k _
    rw [cis_freq n k (by omega)]
    simp only [shiftPhase, Bool.false_eq_true, if_false]
    rw [← cis_add]; congr 1; ring
  rw [Finset.sum_congr rfl e, map_sum]
  obtain ⟨m, rfl⟩ : ∃ m, n = m + 1 := ⟨n - 1, by omega⟩
  rw [Finset.sum_range_succ', Finset.sum_range_succ', fftfreq_zero, zero_mul, cis_zero, map_one,
    ← Finset.sum_range_reflect (fun k => cis (fftfreq (m + 1) (k + 1) * (d - s)))]
  congr 1
  apply Finset.sum_congr rfl
  intro k hk
  have hk' := Finset.mem_range.1 hk
  rw [show m - 1 - k + 1 = m + 1 - (k + 1) by omega, fftfreq_reflect (m + 1) (k + 1) hn (by omega) (by omega), neg_mul, cis_neg]

/-- C93, real arrays of odd length: the imaginary part that is dropped is zero, so the statements above carry over to
them (C93_compose_real_partial). -/
theorem C93_real_partial (n : Nat) (hn : n % 2 = 1) (s : ℝ) (a : Nat → ℝ) (j : Nat) :
    ((fftShiftReal n s false a j : ℝ) : ℂ) = fftShift n s false (fun i => (a i : ℂ)) j := by
  unfold fftShiftReal
  apply conj_eq_iff_re.1
  unfold fftShift
  rw [idft_filter_dft, map_div₀, map_sum, conj_natCast]
  congr 1
  apply Finset.sum_congr rfl
  intro i _
  rw [map_mul, conj_ofReal, kernel_real n hn s ((j : ℤ) - i)]

/-- C93, real arrays of odd length: shifts add up. -/
theorem C93_compose_real_partial (n : Nat) (hn : n % 2 = 1) (s t : ℝ) (a : Nat → ℝ) (j : Nat) (hj : j < n) :
    fftShiftReal n t false (fftShiftReal n s false a) j = fftShiftReal n (s + t) false a j := by
  have h1 : (fun i => ((fftShiftReal n s false a i : ℝ) : ℂ)) = fftShift n s false (fun i => (a i : ℂ)) :=
    funext fun i => C93_real_partial n hn s a i
  have h2 := C93_real_partial n hn t (fftShiftReal n s false a) j
  rw [h1, C93_compose n s t _ j hj, ← C93_real_partial n hn (s + t) a j] at h2
  exact_mod_cast h2

/-- C93, real arrays of any length, shifted by whole samples: also a roll. -/
theorem C93_roll_real (n : Nat) (s : ℤ) (a : Nat → ℝ) (j : Nat) (hj : j < n) :
    fftShiftReal n s false a j = a (((j : ℤ) - s) % n).toNat := by
  unfold fftShiftReal
  rw [C93_roll n s _ j hj, ofReal_re]

theorem cis_half : cis (1 / 2) = -1 := by
  unfold cis
  rw [show (2 * Real.pi * ((1 / 2 : ℝ) : ℂ) * I : ℂ) = Real.pi * I by push_cast; ring, exp_pi_mul_I]

theorem cis_quarter : cis (1 / 4) = I := by
  unfold cis
  rw [show (2 * Real.pi * ((1 / 4 : ℝ) : ℂ) * I : ℂ) = Real.pi / 2 * I by push_cast; ring, exp_pi_div_two_mul_I]

/-- The alternating array has only the highest frequency. -/
theorem dft_alternating (n : Nat) (h0 : 0 < n) (hn : n % 2 = 0) (k : Nat) (hk : k < n) :
    dftRaw n (fun i => (((-1 : ℝ) ^ i : ℝ) : ℂ)) k = if k = n / 2 then (n : ℂ) else 0 := by
  have hn' : (n : ℝ) ≠ 0 := by exact_mod_cast h0.ne'
  have h2 : ((n / 2 : ℕ) : ℝ) = n / 2 := by
    rw [Nat.cast_div (Nat.dvd_of_mod_eq_zero hn) (by norm_num)]; norm_num
  unfold dftRaw
  have e : ∀ i ∈ Finset.range n, (((-1 : ℝ) ^ i : ℝ) : ℂ) * cis (-((i : ℝ) * k / n)) = cis ((i : ℝ) * ((((n / 2 : ℕ) : ℤ) - (k : ℤ) : ℤ) / n)) := by
    intro i _
    have : (((-1 : ℝ) ^ i : ℝ) : ℂ) = cis (i * (1 / 2)) := by rw [cis_nat_mul, cis_half]; push_cast; rfl
    rw [this, ← cis_add]
    congr 1
    rw [Int.cast_sub, Int.cast_natCast, Int.cast_natCast, h2]
    field_simp
    ring
  rw [Finset.sum_congr rfl e, cis_sum n h0]
  congr 1
  apply propext
  constructor
  · rintro ⟨c, hc⟩
    have h1 : (n : ℤ) * c < n := by omega
    have h3 : -(n : ℤ) < n * c := by omega
    have : c < 1 := by nlinarith
    have : -1 < c := by nlinarith
    have : c = 0 := by omega
    subst this
    omega
  · rintro rfl; simp

/-- C93 fails for real arrays of even length: the alternating array is shifted by half a sample to zero, for every even
length; so two half steps are not a whole one, and shifting back does not restore the array. -/
theorem C93_real_refuted (n : Nat) (h0 : 0 < n) (hn : n % 2 = 0) (j : Nat) (hj : j < n) :
    fftShiftReal n (1 / 2) false (fun i => (-1) ^ i) j = 0 ∧
    fftShiftReal n (1 / 2) false (fftShiftReal n (1 / 2) false fun i => (-1) ^ i) j ≠ fftShiftReal n (1 / 2 + 1 / 2) false (fun i => (-1) ^ i) j ∧
    fftShiftReal n (-(1 / 2)) false (fftShiftReal n (1 / 2) false fun i => (-1) ^ i) j ≠ (-1) ^ j := by
  have hn' : (n : ℂ) ≠ 0 := by exact_mod_cast h0.ne'
  have hnr : (n : ℝ) ≠ 0 := by exact_mod_cast h0.ne'
  have h2 : ((n / 2 : ℕ) : ℝ) = n / 2 := by
    rw [Nat.cast_div (Nat.dvd_of_mod_eq_zero hn) (by norm_num)]; norm_num
  have z : ∀ j, fftShiftReal n (1 / 2) false (fun i => (-1) ^ i) j = 0 := by
    intro j
    unfold fftShiftReal fftShift idftRaw
    rw [Finset.sum_eq_single (n / 2)]
    · simp only
      rw [dft_alternating n h0 hn _ (by omega), if_pos rfl]
      have hf : fftfreq n (n / 2) = -(1 / 2) := by
        unfold fftfreq
        rw [if_neg (by omega), h2]; field_simp; norm_num
      simp only [shiftPhase, Bool.false_eq_true, if_false]
      rw [hf, show -(-(1 / 2) * (1 / 2 : ℝ)) = 1 / 4 by norm_num, cis_quarter, h2,
        show (j : ℝ) * (n / 2) / n = j * (1 / 2) by field_simp, cis_nat_mul, cis_half]
      have : (n : ℂ) * I * (-1) ^ j / n = ((((-1 : ℝ) ^ j : ℝ) : ℝ) : ℂ) * I := by
        push_cast; field_simp
      rw [this, re_ofReal_mul, I_re, mul_zero]
    · intro k hk hne
      simp only
      rw [dft_alternating n h0 hn _ (Finset.mem_range.1 hk), if_neg hne, zero_mul, zero_mul]
    · intro h; exact absurd (Finset.mem_range.2 (by omega)) h
  have zz : ∀ t, fftShiftReal n t false (fftShiftReal n (1 / 2) false fun i => (-1) ^ i) j = 0 := by
    intro t
    rw [show (fftShiftReal n (1 / 2) false fun i => (-1) ^ i) = fun _ => 0 from funext z]
    simp [fftShiftReal, fftShift, idftRaw, dftRaw]
  refine ⟨z j, ?_, ?_⟩
  · rw [zz, show (1 / 2 + 1 / 2 : ℝ) = ((1 : ℤ) : ℝ) by norm_num, C93_roll_real n 1 _ j hj]
    exact (pow_ne_zero _ (by norm_num)).symm
  · rw [zz]; exact (pow_ne_zero _ (by norm_num)).symm

/-- A roll by −1 of three numbers. -/
example (a : Nat → ℝ) : fftShiftReal 3 (-1 : ℤ) false a 2 = a 0 := by rw [C93_roll_real 3 (-1) a 2 (by decide)]; rfl

end Pixell
