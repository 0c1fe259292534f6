import Verif.Model.Delens
import Verif.Props.RandAlm
import Mathlib.Analysis.Real.Pi.Bounds
import Mathlib.Tactic.Linarith
import Mathlib.Tactic.FieldSimp
import Mathlib.Tactic.IntervalCases

/-!
# C161: the declination bands, components and seeds of curved lensing; lens_map_flat
-/

namespace Pixell

/-! ## Bands -/

/-- The size of the bands in whole numbers. -/
theorem bandSize_some (ny : ℕ) (r : ℚ) :
    bandSize ny (some r) = if rint |r| = 0 then 2 * ny else (2 * (ny : ℤ) / (2 * (ny / rint |r|) + 1)).toNat := by
  have hr : 0 ≤ rint |r| := by
    have h0 : (0 : ℤ) ≤ ⌊|r|⌋ := Int.floor_nonneg.2 (abs_nonneg r)
    unfold rint
    simp only
    split_ifs <;> omega
  unfold bandSize
  simp only
  by_cases h : rint |r| = 0
  · rw [if_pos h, if_pos h]
    have : ((ny : ℚ) / ((0 : ℤ) + 1 / 2)) = ((2 * ny : ℕ) : ℚ) := by push_cast; ring
    rw [this]
    unfold intTrunc
    rw [if_pos (by positivity), Int.floor_natCast, Int.toNat_natCast]
  · rw [if_neg h, if_neg h]
    generalize rint |r| = b at h hr
    rw [Int.fdiv_eq_ediv_of_nonneg _ hr]
    have hd : 0 ≤ (ny : ℤ) / b := Int.ediv_nonneg (by omega) hr
    generalize (ny : ℤ) / b = q at hd
    congr 1
    have hq : (0 : ℚ) ≤ q := by exact_mod_cast hd
    have e : (ny : ℚ) / (q + 1 / 2) = ((2 * (ny : ℤ) : ℤ) : ℚ) / ((2 * q + 1 : ℤ) : ℚ) := by
      push_cast
      rw [div_eq_div_iff (by positivity) (by positivity)]
      ring
    unfold intTrunc
    rw [if_pos (by positivity), e]
    rw [show (2 * q + 1 : ℤ) = (((2 * q + 1).toNat : ℕ) : ℤ) by omega]
    generalize (2 * q + 1).toNat = d
    exact_mod_cast Rat.floor_intCast_div_natCast (2 * (ny : ℤ)) d

/-- **C161_band_size.** The bands have at most 4/3 of the requested number of rows, and if the map has at least that many rows
more than 2/3 of it less one; a map with fewer rows is done in one band. -/
theorem C161_band_size (ny : ℕ) (r : ℚ) (hb : 2 ≤ rint |r|) :
    ((ny : ℤ) < rint |r| → ny ≤ bandSize ny (some r)) ∧
    (rint |r| ≤ ny → 3 * (bandSize ny (some r) : ℤ) ≤ 4 * rint |r| ∧ 2 * rint |r| < 3 * (bandSize ny (some r) + 1 : ℤ)) := by
  rw [bandSize_some, if_neg (by omega)]
  generalize rint |r| = b at hb
  constructor
  · intro h
    rw [Int.ediv_eq_zero_of_lt (by omega) h]
    simp
    omega
  · intro h
    have h1 := Int.mul_ediv_add_emod (ny : ℤ) b
    have h2 := Int.emod_nonneg (ny : ℤ) (b := b) (by omega)
    have h3 := Int.emod_lt_of_pos (ny : ℤ) (b := b) (by omega)
    have hq : 1 ≤ (ny : ℤ) / b := by
      rw [Int.le_ediv_iff_mul_le (by omega)]
      omega
    generalize (ny : ℤ) / b = q at *
    generalize (ny : ℤ) % b = e at *
    have hs0 : 0 ≤ 2 * (ny : ℤ) / (2 * q + 1) := Int.ediv_nonneg (by omega) (by omega)
    have h4 := Int.mul_ediv_add_emod (2 * (ny : ℤ)) (2 * q + 1)
    have h5 := Int.emod_nonneg (2 * (ny : ℤ)) (b := 2 * q + 1) (by omega)
    have h6 := Int.emod_lt_of_pos (2 * (ny : ℤ)) (b := 2 * q + 1) (by omega)
    rw [Int.toNat_of_nonneg hs0]
    generalize 2 * (ny : ℤ) / (2 * q + 1) = s at *
    generalize 2 * (ny : ℤ) % (2 * q + 1) = e' at *
    constructor <;> by_contra hc <;> push Not at hc <;> nlinarith

example : (2 : ℤ) ≤ rint |(-10 : ℚ)| ∧ bandSize 100 (some (-10)) = 9 := by decide +kernel

theorem bandsFrom_spec (ny b : ℕ) (hb : 0 < b) (k i1 : ℕ) (hk : ny ≤ i1 + k) :
    (∀ i ∈ bandsFrom ny b k i1, i1 ≤ i.1 ∧ i.1 < i.2 ∧ i.2 ≤ ny) ∧
    ∀ y, i1 ≤ y → y < ny → ∃ i ∈ bandsFrom ny b k i1, i.1 ≤ y ∧ y < i.2 := by
  induction k generalizing i1 with
  | zero =>
    refine ⟨by simp [bandsFrom], fun y h1 h2 => by omega⟩
  | succ k ih =>
    unfold bandsFrom
    by_cases h : i1 < ny
    · rw [if_pos h]
      obtain ⟨a1, a2⟩ := ih (i1 + b) (by omega)
      constructor
      · intro i hi
        rcases List.mem_cons.1 hi with rfl | hi
        · simp only
          omega
        · have := a1 i hi
          omega
      · intro y h1 h2
        by_cases hy : y < i1 + b
        · exact ⟨_, List.mem_cons_self, h1, by simp only; omega⟩
        · obtain ⟨i, hi, h3, h4⟩ := a2 y (by omega) h2
          exact ⟨i, List.mem_cons_of_mem _ hi, h3, h4⟩
    · rw [if_neg h]
      exact ⟨by simp, fun y h1 h2 => by omega⟩

/-- A row of a band has the same position as the row of the whole map. -/
theorem band_pos (ny : ℕ) (w : Axis) {i1 i2 y : ℕ} (h1 : i1 ≤ y) (h2 : y < i2) (h3 : i2 ≤ ny) :
    (sliceGeometry ny w ⟨some (i1 : ℤ), some (i2 : ℤ), none⟩).2.pix2sky ((y - i1 : ℕ) : ℚ) = w.pix2sky y := by
  simp only [sliceGeometry, expandSlice, effStep, cycle, Axis.pix2sky, sliceWcs]
  have e : min (i1 : ℤ) ny = i1 := by omega
  simp only [Int.natCast_nonneg, if_true, Option.getD_some, e, Nat.cast_sub h1]
  norm_num
  left
  ring

/-- **C161_bands.** The step size does not matter: if what is computed for a row depends on its position only, every row of the
output of lens_map_curved is the value at that row of the whole map, for every number of rows and every step size that rounds to
a number of rows other than one, and whatever the memory held before. -/
theorem C161_bands {V : Type} (ny : ℕ) (hny : 0 < ny) (w : Axis) (delta : Option ℚ) (hd : ∀ r, delta = some r → rint |r| ≠ 1)
    (f : Axis → ℕ → V) (h : ℚ → V) (hf : ∀ w j, f w j = h (w.pix2sky j)) (init : ℕ → V) :
    ∃ out, lensCurvedRows ny w delta f init = some out ∧ ∀ y < ny, out y = h (w.pix2sky y) := by
  have hpos : 0 < bandSize ny delta := by
    cases delta with
    | none => exact hny
    | some r =>
      have h1 := hd r rfl
      have hr : 0 ≤ rint |r| := by
        have h0 : (0 : ℤ) ≤ ⌊|r|⌋ := Int.floor_nonneg.2 (abs_nonneg r)
        unfold rint
        simp only
        split_ifs <;> omega
      by_cases h0 : rint |r| = 0
      · rw [bandSize_some, if_pos h0]
        omega
      · have hs := C161_band_size ny r (by omega)
        by_cases hlt : (ny : ℤ) < rint |r|
        · have := hs.1 hlt
          omega
        · have := (hs.2 (by omega)).2
          omega
  unfold lensCurvedRows lensBands
  simp only
  rw [if_neg (by omega)]
  refine ⟨_, rfl, fun y hy => ?_⟩
  obtain ⟨b1, b2⟩ := bandsFrom_spec ny (bandSize ny delta) hpos ny 0 (by omega)
  obtain ⟨i, hi, h1, h2⟩ := b2 y (Nat.zero_le _) hy
  generalize bandsFrom ny (bandSize ny delta) ny 0 = bands at *
  clear b2
  have aux : ∀ (l : List (ℕ × ℕ)) (o : ℕ → V), (∀ i ∈ l, 0 ≤ i.1 ∧ i.1 < i.2 ∧ i.2 ≤ ny) →
      (o y = h (w.pix2sky y) ∨ ∃ i ∈ l, i.1 ≤ y ∧ y < i.2) →
      l.foldl (fun out i =>
        let lw := (sliceGeometry ny w ⟨some (i.1 : ℤ), some (i.2 : ℤ), none⟩).2
        fun y => if i.1 ≤ y ∧ y < i.2 then f lw (y - i.1) else out y) o y = h (w.pix2sky y) := by
    intro l
    induction l with
    | nil =>
      intro o _ ho
      rcases ho with ho | ⟨i, hi, -⟩
      · exact ho
      · simp at hi
    | cons j l ih =>
      intro o hl ho
      rw [List.foldl_cons]
      refine ih _ (fun i hi => hl i (List.mem_cons_of_mem _ hi)) ?_
      by_cases hj : j.1 ≤ y ∧ y < j.2
      · left
        rw [if_pos hj, hf, band_pos ny w hj.1 hj.2 (hl j List.mem_cons_self).2.2]
      · rcases ho with ho | ⟨i, hi, h12⟩
        · left
          rw [if_neg hj, ho]
        · rcases List.mem_cons.1 hi with rfl | hi
          · exact absurd h12 hj
          · exact Or.inr ⟨i, hi, h12⟩
  exact aux bands init b1 (Or.inr ⟨i, hi, h1, h2⟩)

example : lensBands 7 (some 3) = some [(0, 2), (2, 4), (4, 6), (6, 7)] ∧ rint |(3 : ℚ)| ≠ 1 ∧
    lensBands 7 (some 0) = some [(0, 7)] := by decide +kernel

/-- **C161_bands_refuted.** A step of one row makes lens_map_curved fail, on a map of any height: the adjusted size of the bands
is zero. -/
theorem C161_bands_refuted (ny : ℕ) {r : ℚ} (h : rint |r| = 1) : lensBands ny (some r) = none := by
  have e : bandSize ny (some r) = 0 := by
    rw [bandSize_some, if_neg (by omega), h, Int.ediv_one, Int.ediv_eq_zero_of_lt (by omega) (by omega)]
    rfl
  simp only [lensBands, e, if_true]

example : rint |(-5 / 4 : ℚ)| = 1 := by decide +kernel

/-- **C161_tiny_refuted.** "Adjust bsize so we don't get any tiny blocks at the end" is false: 100 rows in steps of 10 rows would
be ten equal bands; after the adjustment there are twelve, and the last one has a single row. -/
theorem C161_tiny_refuted : bandsFrom 100 10 100 0 = (List.range 10).map (fun i => (10 * i, 10 * i + 10)) ∧
    lensBands 100 (some 10) = some ((List.range 11).map (fun i => (9 * i, 9 * i + 9)) ++ [(99, 100)]) := by
  decide +kernel

/-! ## Components -/

/-- What the rotation by an angle does to components with the given spins: a scalar is left alone, a component of another spin
consists of two components (q,u), and q+iu is multiplied with the phase spin·angle. -/
noncomputable def spinRotate (angle : ℝ) : List ℕ → ℕ → (ℕ → ℝ) → ℕ → ℝ
  | [], _, m => m
  | 0 :: ss, c, m => spinRotate angle ss (c + 1) m
  | (s + 1) :: ss, c, m =>
    spinRotate angle ss (c + 2) fun i =>
      if i = c then Real.cos ((s + 1 : ℕ) * angle) * m c - Real.sin ((s + 1 : ℕ) * angle) * m (c + 1)
      else if i = c + 1 then Real.sin ((s + 1 : ℕ) * angle) * m c + Real.cos ((s + 1 : ℕ) * angle) * m (c + 1) else m i

/-- **C161_pol_partial.** For the default spins, and for any number of scalars before the last two components of spin two, the
components are rotated as their spins demand, also where the angle is zero and the rotation is left out. (For other spins this is
false: `C161_pol_refuted`.) -/
theorem C161_pol_partial (k : ℕ) (angle : ℝ) (m : ℕ → ℝ) :
    lensCurvedPol (k + 2) (List.replicate k 0 ++ [2]) angle m = spinRotate angle (List.replicate k 0 ++ [2]) 0 m := by
  have hs : ∀ k c, spinRotate angle (List.replicate k 0 ++ [2]) c m = spinRotate angle [2] (c + k) m := by
    intro k
    induction k with
    | zero => intro c; rfl
    | succ k ih =>
      intro c
      rw [List.replicate_succ, List.cons_append]
      show spinRotate angle (List.replicate k 0 ++ [2]) (c + 1) m = _
      rw [ih, show c + 1 + k = c + (k + 1) by ring]
  rw [hs, Nat.zero_add]
  unfold lensCurvedPol
  funext i
  simp only [spinRotate]
  by_cases ha : angle = 0
  · rw [if_neg (by simp [ha])]
    subst ha
    by_cases h1 : i = k
    · subst h1; simp
    · by_cases h2 : i = k + 1
      · subst h2; simp
      · simp [h1, h2]
  · rw [if_pos ⟨by omega, ha⟩]
    simp only [rotatePol, show k + 2 - 2 = k by omega, show k + 2 - 1 = k + 1 by omega]
    rw [if_neg (by norm_num)]
    by_cases h1 : i = k
    · subst h1
      simp
    · by_cases h2 : i = k + 1
      · subst h2; simp
      · simp [h1, h2]

/-- **C161_pol_refuted.** The spin argument of lens_map_curved, for example [0,1,2] for five components, is used for the transform
but not for the rotation: with spin=[0,1] a vector field is rotated by twice the angle, and with spin=[0,1,2] the vector
components are not rotated at all. -/
theorem C161_pol_refuted {angle : ℝ} (h0 : 0 < angle) (h1 : angle < Real.pi / 3) :
    lensCurvedPol 3 [0, 1] angle (fun i => if i = 1 then 1 else 0) 2
      ≠ spinRotate angle [0, 1] 0 (fun i => if i = 1 then 1 else 0) 2 ∧
    lensCurvedPol 5 [0, 1, 2] angle (fun i => if i = 1 then 1 else 0) 2
      ≠ spinRotate angle [0, 1, 2] 0 (fun i => if i = 1 then 1 else 0) 2 := by
  have hpi := Real.pi_pos
  have hs : 0 < Real.sin angle := Real.sin_pos_of_pos_of_lt_pi h0 (by linarith)
  have hc : 1 / 2 < Real.cos angle := by
    rw [← Real.cos_pi_div_three]
    exact Real.cos_lt_cos_of_nonneg_of_le_pi_div_two h0.le (by linarith) h1
  constructor
  · simp only [lensCurvedPol, rotatePol, spinRotate]
    rw [if_pos ⟨by norm_num, h0.ne'⟩]
    norm_num
    rw [Real.sin_two_mul]
    intro h
    nlinarith
  · simp only [lensCurvedPol, rotatePol, spinRotate]
    rw [if_pos ⟨by norm_num, h0.ne'⟩]
    norm_num
    exact hs.ne

example : (0 : ℝ) < 1 / 10 ∧ (1 / 10 : ℝ) < Real.pi / 3 := ⟨by norm_num, by linarith [Real.pi_gt_three]⟩

/-! ## Seeds -/

theorem randAlmLens_get (a : AlmInfo) (ha : GoodLayout a) (hs : a.stride = 1) (h0 : a.mstart 0 = 0) (ncomp nl : ℕ) (hnl : 0 < nl)
    (root : ℕ → ℕ → List ℝ) (hroot : ∀ r c, (root r c).length = nl) (dp d : ℕ → ℝ) (alm : ℕ → ℕ → ℝ × ℝ)
    (halm : randAlmLens a (some ncomp) nl root dp d = some alm) (r l m : ℕ)
    (hr : r < 1 + ncomp) (h1 : m ≤ a.mmax) (h2 : m ≤ l) (h3 : l ≤ a.lmax) :
    let u : ℕ → ℕ → ℝ := fun c o => if c = 0 then dp (2 * drawPos a true l m + o) else d (2 * ((c - 1) * a.nelem + drawPos a true l m) + o)
    alm r (a.lm2ind l m)
      = (∑ c ∈ Finset.range (1 + ncomp), (root r c).getD l 0 * (if m = 0 ∧ l < a.lmax then 1 else 1 / Real.sqrt 2) * u c 0,
         ∑ c ∈ Finset.range (1 + ncomp), (root r c).getD l 0 * (if m = 0 ∧ l < a.lmax then 0 else 1 / Real.sqrt 2) * u c 1) := by
  intro u
  have hsq : Real.sqrt 2 ≠ 0 := (Real.sqrt_pos.2 (by norm_num)).ne'
  set white : ℕ → ℕ → ℝ × ℝ := fun c => if c = 0 then randAlmWhite a 1 true dp 0 else randAlmWhite a ncomp true d (c - 1) with hw
  have hwhite : ∀ c, c < 1 + ncomp → white c (a.lm2ind l m) = (u c 0, u c 1) := by
    intro c hc
    by_cases hc0 : c = 0
    · simp only [hw, u, hc0, if_true]
      rw [randAlmWhite_get a ha hs 1 true dp 0 l m (by omega) h1 h2 h3]
      simp
    · simp only [hw, u, hc0, if_false]
      rw [randAlmWhite_get a ha hs ncomp true d (c - 1) l m (by omega) h1 h2 h3]
      simp
  have hrun := (C50_lmatmul_dp a ha hs (1 + ncomp) (1 + ncomp) (nl - 1) (fun r c => (root r c).map (fun x => x / Real.sqrt 2)) id id
    (fun r r' _ _ h => h) _ _ (List.Perm.refl _) (List.Perm.refl _) white).1 l m r h1 h2 h3 hr
  have hval : lmatmulRun a (1 + ncomp) (1 + ncomp) (fun r c => (root r c).map (fun x => x / Real.sqrt 2)) id id (lmatmulVisitsDp a (nl - 1))
      (lzeroVisits a (nl - 1)) white r (a.lm2ind l m)
      = (∑ c ∈ Finset.range (1 + ncomp), (root r c).getD l 0 / Real.sqrt 2 * u c 0,
         ∑ c ∈ Finset.range (1 + ncomp), (root r c).getD l 0 / Real.sqrt 2 * u c 1) := by
    refine hrun.trans ?_
    have hget : ∀ c, ((root r c).map (fun x => x / Real.sqrt 2)).getD l 0 = (root r c).getD l 0 / Real.sqrt 2 := by
      intro c
      rw [List.getD_eq_getElem?_getD, List.getD_eq_getElem?_getD, List.getElem?_map]
      cases (root r c)[l]? <;> simp
    have hsum : ∀ n, n ≤ 1 + ncomp → ((List.range n).map fun c => ((root r c).map (fun x => x / Real.sqrt 2)).getD l 0 •
          white (id c) (a.lm2ind l m)).sum
        = (∑ c ∈ Finset.range n, (root r c).getD l 0 / Real.sqrt 2 * u c 0,
         ∑ c ∈ Finset.range n, (root r c).getD l 0 / Real.sqrt 2 * u c 1) := by
      intro n
      induction n with
      | zero => intro _; rfl
      | succ n ih =>
        intro hn
        rw [List.range_succ, List.map_append, List.sum_append, ih (by omega), Finset.sum_range_succ, Finset.sum_range_succ, List.map_singleton,
          List.sum_singleton, hget, id, hwhite n (by omega)]
        rfl
    by_cases hl : l ≤ nl - 1
    · rw [if_pos hl]
      exact hsum _ le_rfl
    · rw [if_neg hl]
      have hz : ∀ c, (root r c).getD l 0 = 0 := by
        intro c
        rw [List.getD_eq_getElem?_getD, List.getElem?_eq_none (by rw [hroot]; omega)]
        rfl
      simp only [hz, zero_div, zero_mul, Finset.sum_const_zero]
      rfl
  have hind : a.lm2ind l m < a.lmax ↔ m = 0 ∧ l < a.lmax := by
    constructor
    · intro h
      have e : a.lm2ind (a.lm2ind l m) 0 = a.lm2ind l m := by
        show a.mstart 0 + _ * a.stride = _
        rw [h0, hs]
        omega
      obtain ⟨e1, e2⟩ := ha.2 _ _ _ _ (Nat.zero_le _) (Nat.zero_le _) (by omega) h1 h2 h3 e
      exact ⟨e2.symm, by omega⟩
    · rintro ⟨rfl, h⟩
      show a.mstart 0 + l * a.stride < _
      rw [h0, hs]
      omega
  unfold randAlmLens at halm
  simp only [Option.map_some, Option.some.injEq] at halm
  rw [← halm]
  simp only
  rw [hval]
  by_cases hm : m = 0 ∧ l < a.lmax
  · rw [if_pos (hind.2 hm)]
    simp only [hm, and_self, if_true]
    refine Prod.ext ?_ ?_
    · dsimp only
      rw [Finset.sum_mul]
      refine Finset.sum_congr rfl fun c _ => ?_
      field_simp
    · simp
  · rw [if_neg (fun h => hm (hind.1 h))]
    simp only [hm, if_false]
    refine Prod.ext ?_ ?_ <;> dsimp only <;> exact Finset.sum_congr rfl fun c _ => by ring

/-- **C161_rand_partial.** With separate seeds every coefficient but that of the highest degree with m=0 is what the root of the
spectrum makes of white noise: row 0 of the noise comes from phi_seed and the others from seed; coefficients with m>0 have both
parts scaled by 1/√2, those with m=0 are real. (For l=lmax, m=0 this is false: `C161_rand_refuted`.) -/
theorem C161_rand_partial (a : AlmInfo) (ha : GoodLayout a) (hs : a.stride = 1) (h0 : a.mstart 0 = 0) (ncomp nl : ℕ) (hnl : 0 < nl)
    (root : ℕ → ℕ → List ℝ) (hroot : ∀ r c, (root r c).length = nl) (dp d : ℕ → ℝ) :
    ∃ alm, randAlmLens a (some ncomp) nl root dp d = some alm ∧ ∀ r l m, r < 1 + ncomp → m ≤ a.mmax → m ≤ l → l ≤ a.lmax →
      ¬ (m = 0 ∧ l = a.lmax) →
      let u : ℕ → ℕ → ℝ := fun c o => if c = 0 then dp (2 * drawPos a true l m + o) else d (2 * ((c - 1) * a.nelem + drawPos a true l m) + o)
      alm r (a.lm2ind l m)
        = (∑ c ∈ Finset.range (1 + ncomp), (root r c).getD l 0 * (if m = 0 then 1 else 1 / Real.sqrt 2) * u c 0,
           ∑ c ∈ Finset.range (1 + ncomp), (root r c).getD l 0 * (if m = 0 then 0 else 1 / Real.sqrt 2) * u c 1) := by
  refine ⟨_, rfl, fun r l m hr h1 h2 h3 h4 => ?_⟩
  have h := randAlmLens_get a ha hs h0 ncomp nl hnl root hroot dp d _ rfl r l m hr h1 h2 h3
  have e : (m = 0 ∧ l < a.lmax) ↔ m = 0 := ⟨fun h => h.1, fun h => ⟨h, by omega⟩⟩
  simp only [e] at h
  exact h

/-- **C161_rand_refuted.** The coefficient with l=lmax and m=0 is not real, and its real part is too small by √2: the code sets
the imaginary part of the first lmax coefficients to zero, but there are lmax+1 of them. -/
theorem C161_rand_refuted (a : AlmInfo) (ha : GoodLayout a) (hs : a.stride = 1) (h0 : a.mstart 0 = 0) :
    ∃ (root : ℕ → ℕ → List ℝ) (alm : ℕ → ℕ → ℝ × ℝ),
      (∀ r c l, (root r c).getD l 0 = if r = c ∧ l ≤ a.lmax then 1 else 0) ∧
      randAlmLens a (some 1) (a.lmax + 1) root (fun _ => 1) (fun _ => 1) = some alm ∧
      alm 0 (a.lm2ind a.lmax 0) = (1 / Real.sqrt 2, 1 / Real.sqrt 2) ∧
      ∀ l < a.lmax, alm 0 (a.lm2ind l 0) = (1, 0) := by
  have hg : ∀ r c l : ℕ, ((if r = c then List.replicate (a.lmax + 1) (1 : ℝ) else List.replicate (a.lmax + 1) 0)).getD l 0
      = if r = c ∧ l ≤ a.lmax then 1 else 0 := by
    intro r c l
    by_cases h : r = c <;> by_cases hl : l ≤ a.lmax <;> simp [h, hl, List.getD_eq_getElem?_getD]
  refine ⟨fun r c => if r = c then List.replicate (a.lmax + 1) 1 else List.replicate (a.lmax + 1) 0, _, fun r c l => hg r c l, rfl, ?_, ?_⟩
  · rw [randAlmLens_get a ha hs h0 1 (a.lmax + 1) (by omega) _ (by intro r c; split_ifs <;> simp) _ _ _ rfl 0 a.lmax 0 (by omega) (by omega)
      (by omega) le_rfl]
    simp only [hg]
    simp
  · intro l hl
    rw [randAlmLens_get a ha hs h0 1 (a.lmax + 1) (by omega) _ (by intro r c; split_ifs <;> simp) _ _ _ rfl 0 l 0 (by omega) (by omega)
      (by omega) hl.le]
    simp only [hg]
    simp [hl, hl.le]

/-- **C161_seeds_partial.** If the root of the spectrum does not mix the potential with the CMB, the potential depends on phi_seed
only and the CMB on seed only. (In general this is false: `C161_seeds_refuted`.) -/
theorem C161_seeds_partial (a : AlmInfo) (ha : GoodLayout a) (hs : a.stride = 1) (h0 : a.mstart 0 = 0) (ncomp nl : ℕ) (hnl : 0 < nl)
    (root : ℕ → ℕ → List ℝ) (hroot : ∀ r c, (root r c).length = nl) (hmix : ∀ c l, 0 < c → (root 0 c).getD l 0 = 0 ∧ (root c 0).getD l 0 = 0)
    (dp d dp' d' : ℕ → ℝ) (alm alm' : ℕ → ℕ → ℝ × ℝ) (h : randAlmLens a (some ncomp) nl root dp d = some alm)
    (h' : randAlmLens a (some ncomp) nl root dp' d' = some alm') :
    (dp = dp' → ∀ l m, m ≤ a.mmax → m ≤ l → l ≤ a.lmax → alm 0 (a.lm2ind l m) = alm' 0 (a.lm2ind l m)) ∧
    (d = d' → ∀ r l m, 0 < r → r < 1 + ncomp → m ≤ a.mmax → m ≤ l → l ≤ a.lmax → alm r (a.lm2ind l m) = alm' r (a.lm2ind l m)) := by
  constructor
  · rintro rfl l m h1 h2 h3
    rw [randAlmLens_get a ha hs h0 ncomp nl hnl root hroot dp d alm h 0 l m (by omega) h1 h2 h3,
      randAlmLens_get a ha hs h0 ncomp nl hnl root hroot dp d' alm' h' 0 l m (by omega) h1 h2 h3]
    refine Prod.ext ?_ ?_ <;> dsimp only <;> refine Finset.sum_congr rfl fun c _ => ?_ <;> by_cases hc : c = 0
    · simp [hc]
    · rw [(hmix c l (by omega)).1]; simp
    · simp [hc]
    · rw [(hmix c l (by omega)).1]; simp
  · rintro rfl r l m hr0 hr h1 h2 h3
    rw [randAlmLens_get a ha hs h0 ncomp nl hnl root hroot dp d alm h r l m hr h1 h2 h3,
      randAlmLens_get a ha hs h0 ncomp nl hnl root hroot dp' d alm' h' r l m hr h1 h2 h3]
    refine Prod.ext ?_ ?_ <;> dsimp only <;> refine Finset.sum_congr rfl fun c _ => ?_ <;> by_cases hc : c = 0
    · subst hc; rw [(hmix r l hr0).2]; simp
    · simp [hc]
    · subst hc; rw [(hmix r l hr0).2]; simp
    · simp [hc]

/-- **C161_seeds_refuted.** "Separate seeds for cmb and phi" is false for correlated spectra: with the same phi_seed, another seed
gives another potential. (The root of the spectrum is symmetric and mixes both.) And with seed equal to phi_seed the noise of the
potential and of the first CMB component are the same. -/
theorem C161_seeds_refuted (a : AlmInfo) (ha : GoodLayout a) (hs : a.stride = 1) (h0 : a.mstart 0 = 0) (hl : 0 < a.lmax) :
    ∃ (root : ℕ → ℕ → List ℝ) (alm alm' : ℕ → ℕ → ℝ × ℝ), (∀ r c, root r c = root c r) ∧
      randAlmLens a (some 1) 1 root (fun _ => 0) (fun _ => 0) = some alm ∧
      randAlmLens a (some 1) 1 root (fun _ => 0) (fun _ => 1) = some alm' ∧
      alm 0 (a.lm2ind 0 0) = (0, 0) ∧ alm' 0 (a.lm2ind 0 0) = (1, 0) := by
  refine ⟨fun r c => if r = c then [2] else [1], _, _, fun r c => by simp only [eq_comm], rfl, rfl, ?_, ?_⟩
  · rw [randAlmLens_get a ha hs h0 1 1 (by omega) _ (by intro r c; split_ifs <;> rfl) _ _ _ rfl 0 0 0 (by omega) (by omega)
      (by omega) hl.le]
    simp
  · rw [randAlmLens_get a ha hs h0 1 1 (by omega) _ (by intro r c; split_ifs <;> rfl) _ _ _ rfl 0 0 0 (by omega) (by omega)
      (by omega) hl.le]
    simp [Finset.sum_range_succ, hl]

/-! ## lens_map_flat -/

/-- **C161_flat_refuted.** lens_map_flat returns no map for any input: it asks for the interpolation mode "wrap", which there
is not (the border condition has that name). -/
theorem C161_flat_refuted (m : List (List ℚ)) (rawY rawX : List ℚ)
    (ip : String × ℕ → List (List ℚ) → List (ℚ × ℚ) → List ℚ) : lensMapFlat m rawY rawX ip = none := by
  have e : ipGetMode "wrap" 4 = none := by decide
  unfold lensMapFlat
  simp [e]

/-- **C161_flat_pad_refuted.** The padding of lens_map_flat, which is to make wrapping unnecessary, is one pixel too narrow: on an
axis of n pixels (n≥1) a position half a pixel after the last pixel gets none. -/
theorem C161_flat_pad_refuted (n : ℕ) (hn : 1 ≤ n) :
    flatPad [(n, [0, (n : ℚ) - 1 / 2])] = 0 ∧ (n : ℚ) - 1 < (n : ℚ) - 1 / 2 + flatPad [(n, [0, (n : ℚ) - 1 / 2])] := by
  have hq : (1 : ℚ) ≤ n := by exact_mod_cast hn
  have e : flatPad [(n, [0, (n : ℚ) - 1 / 2])] = 0 := by
    simp only [flatPad, List.flatMap_cons, List.flatMap_nil, List.append_nil, List.cons_append, List.nil_append, List.foldl_cons, List.foldl_nil,
      List.headD_cons]
    have h1 : max (-0 : ℚ) (0 - n) = 0 := by rw [neg_zero]; exact max_eq_left (by linarith)
    have h2 : max 0 (-((n : ℚ) - 1 / 2)) = 0 := max_eq_left (by linarith)
    rw [max_self, h1, h2, max_eq_left (by linarith)]
    simp
  rw [e]
  constructor
  · rfl
  · push_cast
    linarith

end Pixell
