import Verif.Model.Delens
import Verif.Props.Interpol
import Mathlib.Topology.MetricSpace.Contracting
import Mathlib.Analysis.Normed.Group.Basic

/-!
# C160: lensing and delensing of flat maps
-/

set_option linter.unusedSectionVars false

namespace Pixell

/-! ## Delensing undoes lensing -/

section General

variable {X P V : Type} [NormedAddCommGroup P]

/-- Two successive rounds of the iteration differ by at most L^(n+1) times the displacement. -/
theorem delens_step (ip : (X → P) → P → P) (pos : X → P) (g : X → P) {L : ℝ} (hL0 : 0 ≤ L)
    (hg : ∀ x, ip g (pos x) = g x) (hL : ∀ p q, ‖ip g p - ip g q‖ ≤ L * ‖p - q‖) (x : X) (n : ℕ) :
    ‖ip g (pos x - delensGrad ip pos g n x) - delensGrad ip pos g n x‖ ≤ L ^ (n + 1) * ‖g x‖ := by
  induction n with
  | zero =>
    have h := hL (pos x - g x) (pos x)
    rw [hg x] at h
    simpa [delensGrad] using h
  | succ n ih =>
    have e : delensGrad ip pos g (n + 1) x = ip g (pos x - delensGrad ip pos g n x) := by
      simp [delensGrad, lensMap, sub_eq_add_neg]
    rw [e]
    refine (hL _ _).trans ?_
    rw [pow_succ', mul_assoc]
    refine mul_le_mul_of_nonneg_left ?_ hL0
    rw [show pos x - ip g (pos x - delensGrad ip pos g n x) - (pos x - delensGrad ip pos g n x)
      = -(ip g (pos x - delensGrad ip pos g n x) - delensGrad ip pos g n x) by abel, norm_neg]
    exact ih

/-- **C160_delens.** Delensing undoes lensing. Let the interpolated displacement have slope at most L and the interpolated map
slope at most K, let interpolation give back the pixels, and let it reproduce the lensed map between the pixels up to ε. Then
delens_map(lens_map(m,g),g,nstep) agrees with m in every pixel up to ε+K·L^(nstep+1)·|g|, for every number of steps: the steps
lose no accuracy, and for L<1 their error vanishes geometrically. -/
theorem C160_delens [PseudoMetricSpace V] (ipm : (X → V) → P → V) (ipg : (X → P) → P → P) (pos : X → P) (m : X → V) (g : X → P)
    {L K ε : ℝ} (hL0 : 0 ≤ L) (hK0 : 0 ≤ K) (hm : ∀ x, ipm m (pos x) = m x) (hg : ∀ x, ipg g (pos x) = g x)
    (hL : ∀ p q, ‖ipg g p - ipg g q‖ ≤ L * ‖p - q‖) (hK : ∀ p q, dist (ipm m p) (ipm m q) ≤ K * ‖p - q‖)
    (hε : ∀ p, dist (ipm (lensMap ipm pos m g) p) (ipm m (p + ipg g p)) ≤ ε) (nstep : ℕ) (x : X) :
    dist (delensMap ipm ipg pos (lensMap ipm pos m g) g nstep x) (m x) ≤ ε + K * (L ^ (nstep + 1) * ‖g x‖) := by
  have hs := delens_step ipg pos g hL0 hg hL x nstep
  generalize ha : delensGrad ipg pos g nstep x = a at hs
  have e : delensMap ipm ipg pos (lensMap ipm pos m g) g nstep x = ipm (lensMap ipm pos m g) (pos x - a) := by
    simp only [delensMap]
    rw [lensMap, ha, sub_eq_add_neg]
  rw [e]
  refine (dist_triangle _ (ipm m (pos x - a + ipg g (pos x - a))) _).trans (add_le_add (hε _) ?_)
  rw [← hm x]
  refine (hK _ _).trans (mul_le_mul_of_nonneg_left ?_ hK0)
  rw [show pos x - a + ipg g (pos x - a) - pos x = ipg g (pos x - a) - a by abel]
  exact hs

/-- **C160_undisplaced.** If the slope L of the interpolated displacement is below one, every pixel has exactly one undisplaced
gradient, one that displaced by itself gives the displacement there; the result of delens_grad differs from it by at most
L^(nstep+1) times its length. -/
theorem C160_undisplaced [CompleteSpace P] (ip : (X → P) → P → P) (pos : X → P) (g : X → P) {L : ℝ} (hL0 : 0 ≤ L) (hL1 : L < 1)
    (hg : ∀ x, ip g (pos x) = g x) (hL : ∀ p q, ‖ip g p - ip g q‖ ≤ L * ‖p - q‖) (x : X) :
    ∃! a, ip g (pos x - a) = a ∧ ∀ n, ‖delensGrad ip pos g n x - a‖ ≤ L ^ (n + 1) * ‖a‖ := by
  have hc : ContractingWith ⟨L, hL0⟩ fun a => ip g (pos x - a) := by
    refine ⟨by exact_mod_cast hL1, ?_⟩
    refine LipschitzWith.of_dist_le_mul fun p q => ?_
    rw [dist_eq_norm, dist_eq_norm]
    refine (hL _ _).trans (le_of_eq ?_)
    rw [show pos x - p - (pos x - q) = -(p - q) by abel, norm_neg]
    rfl
  have hfix : ip g (pos x - ContractingWith.fixedPoint _ hc) = ContractingWith.fixedPoint _ hc := hc.fixedPoint_isFixedPt
  refine ⟨ContractingWith.fixedPoint _ hc, ⟨hfix, ?_⟩, ?_⟩
  · generalize ContractingWith.fixedPoint _ hc = a at hfix
    intro n
    induction n with
    | zero =>
      have h := hL (pos x) (pos x - a)
      rw [hg x, hfix] at h
      simpa [delensGrad] using h
    | succ n ih =>
      have e : delensGrad ip pos g (n + 1) x = ip g (pos x - delensGrad ip pos g n x) := by
        simp [delensGrad, lensMap, sub_eq_add_neg]
      have h := hL (pos x - delensGrad ip pos g n x) (pos x - a)
      rw [hfix] at h
      rw [e]
      refine h.trans ?_
      rw [pow_succ', mul_assoc]
      refine mul_le_mul_of_nonneg_left ?_ hL0
      rw [show pos x - delensGrad ip pos g n x - (pos x - a) = -(delensGrad ip pos g n x - a) by abel, norm_neg]
      exact ih
  · rintro b ⟨hb, -⟩
    exact hc.fixedPoint_unique hb

end General

/-- The hypotheses can be met, by maps that are not constant: a line, with the displacement x/2. -/
example : ∃ (ip : (ℝ → ℝ) → ℝ → ℝ) (m g : ℝ → ℝ), (∀ x, ip m x = m x) ∧ (∀ x, ip g x = g x) ∧
    (∀ p q, ‖ip g p - ip g q‖ ≤ 1 / 2 * ‖p - q‖) ∧ (∀ p q, dist (ip m p) (ip m q) ≤ 3 * ‖p - q‖) ∧
    (∀ p, dist (ip (lensMap ip id m g) p) (ip m (p + ip g p)) ≤ 0) ∧
    |delensMap ip ip id (lensMap ip id m g) g 3 1 - m 1| = 3 / 32 := by
  refine ⟨fun f => f, fun x => 3 * x, fun x => x / 2, fun _ => rfl, fun _ => rfl, fun p q => ?_, fun p q => ?_, fun p => ?_, ?_⟩
  · rw [show p / 2 - q / 2 = 1 / 2 * (p - q) by ring, norm_mul]
    simp
  · rw [dist_eq_norm, show 3 * p - 3 * q = 3 * (p - q) by ring, norm_mul]
    simp
  · simp [lensMap]
  · simp only [delensMap, delensGrad, lensMap, id]
    norm_num [abs_of_nonneg, abs_of_neg]

/-- **C160_diverge_refuted.** That the inverse of the lensing exists is not enough: with the displacement -2x on a line, lensing
twice gives back every map, but the iteration runs away from the undisplaced gradient 2x, the more the more steps, and
delens_map does not undo lens_map for any number of steps. -/
theorem C160_diverge_refuted : ∃ (ip : (ℝ → ℝ) → ℝ → ℝ) (g : ℝ → ℝ), (∀ m x, ip m x = m x) ∧
    (∀ m, lensMap ip id (lensMap ip id m g) g = m) ∧
    (∀ n x, delensGrad ip id g n x - 2 * x = -(2 ^ (n + 2) * x)) ∧
    ∀ m nstep x, delensMap ip ip id (lensMap ip id m g) g nstep x = m (x - 2 ^ (nstep + 2) * x) := by
  have hd : ∀ n x, delensGrad (fun f : ℝ → ℝ => f) id (fun x => -2 * x) n x - 2 * x = -(2 ^ (n + 2) * x) := by
    intro n x
    induction n with
    | zero => simp only [delensGrad]; ring
    | succ n ih =>
      simp only [delensGrad, lensMap, id]
      have : delensGrad (fun f : ℝ → ℝ => f) id (fun x => -2 * x) n x = 2 * x - 2 ^ (n + 2) * x := by linarith
      rw [this]
      ring
  refine ⟨fun f => f, fun x => -2 * x, fun _ _ => rfl, fun m => ?_, hd, fun m nstep x => ?_⟩
  · funext x
    simp only [lensMap, id]
    congr 1
    ring
  · have h := hd nstep x
    simp only [delensMap]
    simp only [lensMap, id]
    have : delensGrad (fun f : ℝ → ℝ => f) id (fun x => -2 * x) nstep x = 2 * x - 2 ^ (nstep + 2) * x := by linarith
    rw [this]
    congr 1
    ring

/-! ## Maps of pixels -/

section Grid

variable {K : Type} [Field K] [LinearOrder K] [IsStrictOrderedRing K] [FloorRing K]

/-- At whole numbers, inside or outside, the kernels that need no prefilter give the pixel the border condition says. -/
theorem mapCoords_int2 {t : Kernel} {order : ℕ} (h : KernelInterp t order) {b : Border} {nx ny : ℕ} (hx : BorderOK b nx)
    (hy : BorderOK b ny) (data : ℕ → K) (i j : ℤ) :
    mapCoords t order b [nx, ny] data [(i : K), (j : K)] = data ((mapBorder b ny j).toNat * nx + (mapBorder b nx i).toNat) := by
  unfold mapCoords
  have hb : ∀ n ∈ [nx, ny], BorderOK b n := by
    intro n hn
    simp at hn
    rcases hn with rfl | rfl <;> assumption
  rw [C88_value (weightLength_pos h.ok) _ (ctxAxes_ok hb), ctxAxes_len t order (by rfl)]
  simp only [ctxAxes, List.zipWith_cons_cons, List.zipWith_nil_left, ctxSpec]
  have hin : ∀ k : ℤ, ∑ j' ∈ Finset.range (weightLength t order), ctxWeight t order (j : K) j' *
        data (ravelRev [nx, ny] [(mapBorder b nx k).toNat, (mapBorder b ny (j' + ctxOffset t order (j : K))).toNat])
      = data (ravelRev [nx, ny] [(mapBorder b nx k).toNat, (mapBorder b ny j).toNat]) := fun k =>
    ctxWeight_grid (K := K) h j fun z => data (ravelRev [nx, ny] [(mapBorder b nx k).toNat, (mapBorder b ny z).toNat])
  simp only [hin]
  rw [ctxWeight_grid (K := K) h i fun z => data (ravelRev [nx, ny] [(mapBorder b nx z).toNat, (mapBorder b ny j).toNat])]
  simp [ravelRev]

theorem mapCoords_const2 {t : Kernel} {order : ℕ} (h : KernelOK t order) {b : Border} {nx ny : ℕ} (hx : BorderOK b nx)
    (hy : BorderOK b ny) (c : K) (p q : K) : mapCoords t order b [nx, ny] (fun _ => c) [p, q] = c := by
  refine C88_constant (K := K) h ?_ (by simp) c
  intro n hn
  simp at hn
  rcases hn with rfl | rfl <;> assumption

/-- The displacement of delensing is the displacement itself if that is the same everywhere. -/
theorem delensGrad_const (f : FlatGrid K) {t : Kernel} {order : ℕ} (h : KernelOK t order) {b : Border} (hx : BorderOK b f.nx)
    (hy : BorderOK b f.ny) (c : K × K) (n : ℕ) (p : ℕ × ℕ) : delensGrad (f.at2 t order b) f.pos (fun _ => c) n p = c := by
  cases n with
  | zero => rfl
  | succ n =>
    simp only [delensGrad, lensMap, FlatGrid.at2, FlatGrid.at]
    rw [mapCoords_const2 h hx hy, mapCoords_const2 h hx hy]

/-- **C160_roll.** A displacement by k pixels up and l pixels right, the same everywhere, rolls a periodic map: each pixel gets
the value of the pixel k rows and l columns further on, exactly; and delensing it gives back the map, exactly, with any number
of steps. (For the kernels without prefilter; for every size and sign of the pixels.) -/
theorem C160_roll (f : FlatGrid K) (hdy : f.dy ≠ 0) (hdx : f.dx ≠ 0) (hny : 0 < f.ny) (hnx : 0 < f.nx) {t : Kernel} {order : ℕ}
    (h : KernelInterp t order) (m : ℕ × ℕ → K) (k l : ℤ) (nstep : ℕ) {y x : ℕ} (hy : y < f.ny) (hx : x < f.nx) :
    let g : ℕ × ℕ → K × K := fun _ => (k * f.dy, l * f.dx)
    lensMap (f.at t order .cyclic) f.pos m g (y, x) = m (((y + k) % f.ny).toNat, ((x + l) % f.nx).toNat) ∧
    delensMap (f.at t order .cyclic) (f.at2 t order .cyclic) f.pos (lensMap (f.at t order .cyclic) f.pos m g) g nstep (y, x)
      = m (y, x) := by
  intro g
  have bx : BorderOK .cyclic f.nx := ⟨by decide, hnx, fun h => by cases h⟩
  have by' : BorderOK .cyclic f.ny := ⟨by decide, hny, fun h => by cases h⟩
  have hmod : ∀ (n : ℕ), 0 < n → ∀ i : ℤ, mapBorder .cyclic n i = i % n := by
    intro n hn i
    unfold mapBorder
    by_cases hi : i < 0 ∨ i ≥ n
    · rw [if_pos hi]
      simp only
      rw [Int.fmod_eq_emod_of_nonneg _ (by omega)]
    · rw [if_neg hi, Int.emod_eq_of_lt (by omega) (by omega)]
  have key : ∀ (m : ℕ × ℕ → K) (k l : ℤ) (y x : ℕ), lensMap (f.at t order .cyclic) f.pos m (fun _ => ((k : K) * f.dy, (l : K) * f.dx)) (y, x)
      = m (((y + k) % f.ny).toNat, ((x + l) % f.nx).toNat) := by
    intro m k l y x
    have e1 : (f.pix (f.pos (y, x) + ((k : K) * f.dy, (l : K) * f.dx))) = (((y + k : ℤ) : K), ((x + l : ℤ) : K)) := by
      simp only [FlatGrid.pix, FlatGrid.pos, Prod.mk_add_mk]
      push_cast
      refine Prod.ext ?_ ?_ <;> simp only <;> field_simp <;> ring
    simp only [lensMap, FlatGrid.at]
    rw [e1, mapCoords_int2 h bx by', hmod _ hny, hmod _ hnx]
    have hlt : ((x + l : ℤ) % f.nx).toNat < f.nx := by
      have h1 := Int.emod_nonneg (x + l : ℤ) (b := f.nx) (by omega)
      have h2 := Int.emod_lt_of_pos (x + l : ℤ) (b := f.nx) (by omega)
      omega
    rw [Nat.mul_comm, Nat.mul_add_div hnx, Nat.mul_add_mod, Nat.div_eq_of_lt hlt, Nat.mod_eq_of_lt hlt, Nat.add_zero]
  refine ⟨key m k l y x, ?_⟩
  simp only [delensMap]
  have e2 : (fun x => -delensGrad (f.at2 t order .cyclic) f.pos g nstep x) = fun _ => (((-k : ℤ) : K) * f.dy, ((-l : ℤ) : K) * f.dx) := by
    funext p
    rw [delensGrad_const f h.ok bx by']
    simp
  rw [e2, key]
  rw [key]
  have fin : ∀ (n : ℕ) (i : ℕ) (k : ℤ), i < n → ((((((i : ℤ) + -k) % n).toNat : ℤ) + k) % n).toNat = i := by
    intro n i k hi
    have h1 := Int.emod_nonneg (i + -k : ℤ) (b := n) (by omega)
    rw [Int.toNat_of_nonneg h1, Int.emod_add_emod, show (i : ℤ) + -k + k = i by ring, Int.emod_eq_of_lt (by omega) (by omega)]
    simp
  rw [fin _ _ _ hy, fin _ _ _ hx]

example : lensMap (FlatGrid.at (⟨2, 3, 1, 1 / 2, 7, -1 / 4⟩ : FlatGrid ℚ) .conv 3 .cyclic) (FlatGrid.pos ⟨2, 3, 1, 1 / 2, 7, -1 / 4⟩)
    (fun p => p.1 * 10 + p.2) (fun _ => (3 * (1 / 2), -2 * (-1 / 4))) (0, 0) = 11 := by decide +kernel

/-- **C160_halfpixel_refuted.** "delens_map(lens_map(imap, dpos), dpos) = imap for well-behaved fields" is false for the most
well-behaved field there is, a displacement by half a pixel everywhere: with linear interpolation a map of alternating columns
is lost completely, and with cubic convolution a map with a single bright column does not come back. -/
theorem C160_halfpixel_refuted :
    let f : FlatGrid ℚ := ⟨1, 4, 0, 1, 0, 1⟩
    let g : ℕ × ℕ → ℚ × ℚ := fun _ => (0, 1 / 2)
    (∀ x < 4, delensMap (f.at .spline 1 .cyclic) (f.at2 .spline 1 .cyclic) f.pos
        (lensMap (f.at .spline 1 .cyclic) f.pos (fun p => (-1) ^ p.2) g) g 3 (0, x) = 0) ∧
    delensMap (f.at .conv 3 .cyclic) (f.at2 .conv 3 .cyclic) f.pos
        (lensMap (f.at .conv 3 .cyclic) f.pos (fun p => if p.2 = 0 then 1 else 0) g) g 3 (0, 0) ≠ 1 := by
  decide +kernel

/-- **C160_transpose.** lens_map(trans=True) is the transpose of lens_map: for every map, every weight map and every displacement
Σ w·lens(m) = Σ m·lensᵀ(w), in whatever order the threads apply their updates. -/
theorem C160_transpose (f : FlatGrid K) (t : Kernel) (order : ℕ) (b : Border) (hnx : 1 ≤ f.nx ∧ (b = .mirror → 2 ≤ f.nx))
    (hny : 1 ≤ f.ny ∧ (b = .mirror → 2 ≤ f.ny)) (m w : ℕ × ℕ → K) (g : ℕ × ℕ → K × K) (updates : List (ℕ × K))
    (hu : updates.Perm (transUpdates b (weightLength t order) (f.samples t order w g))) :
    (f.pixels.map fun p => w p * lensMap (f.at t order b) f.pos m g p).sum
      = ∑ y ∈ Finset.range f.ny, ∑ x ∈ Finset.range f.nx, m (y, x) * f.lensTrans updates (y, x) := by
  have hs : ∀ n ∈ [f.nx, f.ny], 1 ≤ n ∧ (b = .mirror → 2 ≤ n) := by
    intro n hn
    simp at hn
    rcases hn with rfl | rfl <;> assumption
  have hsh : ∀ s ∈ f.samples t order w g, s.1.map (·.n) = [f.nx, f.ny] := by
    intro s hs
    obtain ⟨p, -, rfl⟩ := List.mem_map.1 hs
    exact ctxAxes_len t order rfl
  have h := (C88_adjoint b (weightLength t order) [f.nx, f.ny] hs _ hsh updates hu fun i => m (i / f.nx, i % f.nx)).1
  have e : (f.pixels.map fun p => w p * lensMap (f.at t order b) f.pos m g p).sum
      = ((f.samples t order w g).map fun s => s.2 * interpolAt b (weightLength t order) s.1 fun i => m (i / f.nx, i % f.nx)).sum := by
    unfold FlatGrid.samples
    rw [List.map_map]
    rfl
  rw [e, h, Finset.sum_sigma' (Finset.range f.ny) fun _ => Finset.range f.nx]
  simp only [FlatGrid.lensTrans]
  refine Finset.sum_bij' (fun i _ => (⟨i / f.nx, i % f.nx⟩ : (_ : ℕ) × ℕ)) (fun p _ => p.1 * f.nx + p.2) ?_ ?_ ?_ ?_ ?_
  · intro i hi
    have hi' : i < f.nx * f.ny := by simpa using hi
    simp only [Finset.mem_sigma, Finset.mem_range]
    exact ⟨Nat.div_lt_of_lt_mul hi', Nat.mod_lt _ hnx.1⟩
  · rintro ⟨y, x⟩ hp
    simp only [Finset.mem_sigma, Finset.mem_range] at hp
    have : (y + 1) * f.nx ≤ f.ny * f.nx := Nat.mul_le_mul_right _ hp.1
    simp only [List.prod_cons, List.prod_nil, mul_one, Finset.mem_range]
    nlinarith
  · intro i _
    simp only
    rw [Nat.mul_comm]
    exact Nat.div_add_mod i f.nx
  · rintro ⟨y, x⟩ hp
    simp only [Finset.mem_sigma, Finset.mem_range] at hp
    simp only
    rw [Nat.mul_comm, Nat.mul_add_div hnx.1, Nat.mul_add_mod, Nat.div_eq_of_lt hp.2, Nat.mod_eq_of_lt hp.2, Nat.add_zero]
  · intro i _
    simp only
    rw [Nat.mul_comm (i / f.nx), Nat.div_add_mod]

example : let f : FlatGrid ℚ := ⟨1, 3, 0, 1, 0, 1⟩
    let u := transUpdates .cyclic 2 (f.samples .spline 1 (fun p => p.2 + 1) fun _ => (0, 1 / 2))
    (f.lensTrans u (0, 0), f.lensTrans u (0, 1), f.lensTrans u (0, 2)) = (2, 3 / 2, 5 / 2) := by decide +kernel

end Grid

end Pixell
