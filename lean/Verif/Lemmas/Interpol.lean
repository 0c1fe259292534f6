import Verif.Model.Interpol
import Mathlib.Algebra.BigOperators.Intervals
import Mathlib.Algebra.BigOperators.Ring.Finset
import Mathlib.Algebra.Order.BigOperators.Ring.Finset
import Mathlib.Tactic.Ring
import Mathlib.Tactic.Linarith
import Mathlib.Tactic.FieldSimp
import Mathlib.Tactic.NormNum
import Mathlib.Tactic.Positivity

/-! # Auxiliary lemmas on the interpolation loops -/

set_option linter.unusedSectionVars false

namespace Pixell

variable {K : Type} [Field K] [LinearOrder K] [IsStrictOrderedRing K] [FloorRing K]

/-! ## Borders -/

theorem mapBorder_inside (b : Border) {n : ℕ} {i : ℤ} (h0 : 0 ≤ i) (h1 : i < n) :
    mapBorder b n i = i := by
  unfold mapBorder
  rw [if_neg (by omega)]

/-- What makes a border condition usable on an axis: some data, and two points to mirror at. -/
def BorderOK (b : Border) (n : ℕ) : Prop := b ≠ .zero ∧ 1 ≤ n ∧ (b = .mirror → 2 ≤ n)

theorem mapBorder_range {b : Border} {n : ℕ} (h : BorderOK b n) (i : ℤ) :
    0 ≤ mapBorder b n i ∧ mapBorder b n i < n := by
  obtain ⟨hz, hn, hm⟩ := h
  unfold mapBorder
  by_cases hi : i < 0 ∨ i ≥ n
  · rw [if_pos hi]
    cases b with
    | zero => exact absurd rfl hz
    | nearest => simp only; omega
    | cyclic =>
      simp only
      have h0 : (0 : ℤ) ≤ n := by omega
      rw [Int.fmod_eq_emod_of_nonneg _ h0]
      exact ⟨Int.emod_nonneg _ (by omega), Int.emod_lt_of_pos _ (by omega)⟩
    | mirror =>
      have h2 := hm rfl
      simp only
      have h0 : (0 : ℤ) ≤ 2 * n - 2 := by omega
      rw [Int.fmod_eq_emod_of_nonneg _ h0]
      have ha := Int.emod_nonneg i (b := 2 * (n : ℤ) - 2) (by omega)
      have hb := Int.emod_lt_of_pos i (b := 2 * (n : ℤ) - 2) (by omega)
      by_cases hv : i % (2 * (n : ℤ) - 2) ≥ n
      · rw [if_pos hv]; omega
      · rw [if_neg hv]; omega
  · rw [if_neg hi]; omega

/-- A mapped index is on the grid, or `-1`. -/
theorem mapBorder_lt {b : Border} {n : ℕ} (hn : 1 ≤ n) (hm : b = .mirror → 2 ≤ n) (i : ℤ) :
    mapBorder b n i < n := by
  by_cases hz : b = .zero
  · subst hz
    unfold mapBorder
    by_cases hi : i < 0 ∨ i ≥ n
    · rw [if_pos hi]; simp only; omega
    · rw [if_neg hi]; omega
  · exact (mapBorder_range ⟨hz, hn, hm⟩ i).2

/-! ## Sums over grids -/

/-- The sum over all multi-indices of a grid. -/
def gridSum : List ℕ → (List ℕ → K) → K
  | [], F => F []
  | n :: ns, F => ∑ x ∈ Finset.range n, gridSum ns fun xs => F (x :: xs)

theorem sum_range_divmod (n M : ℕ) (f : ℕ → ℕ → K) :
    ∑ g ∈ Finset.range (n * M), f (g % n) (g / n)
      = ∑ x ∈ Finset.range n, ∑ y ∈ Finset.range M, f x y := by
  induction M with
  | zero => simp
  | succ M ih =>
    rw [Nat.mul_succ, Finset.sum_range_add, ih]
    have h2 : ∀ x ∈ Finset.range n, f ((n * M + x) % n) ((n * M + x) / n) = f x M := by
      intro x hx
      have hx' := Finset.mem_range.mp hx
      have hn : 0 < n := by omega
      rw [Nat.mul_add_mod, Nat.mod_eq_of_lt hx', Nat.mul_add_div hn, Nat.div_eq_of_lt hx', add_zero]
    rw [Finset.sum_congr rfl h2, ← Finset.sum_add_distrib]
    exact Finset.sum_congr rfl fun x _ => (Finset.sum_range_succ _ _).symm

theorem sum_unravel (ns : List ℕ) (F : List ℕ → K) :
    ∑ g ∈ Finset.range ns.prod, F (unravelRev ns g) = gridSum ns F := by
  induction ns generalizing F with
  | nil => simp [gridSum, unravelRev]
  | cons n ns ih =>
    simp only [List.prod_cons, gridSum, unravelRev]
    rw [sum_range_divmod n ns.prod fun x y => F (x :: unravelRev ns y)]
    exact Finset.sum_congr rfl fun x _ => ih fun xs => F (x :: xs)

theorem gridSum_congr (ns : List ℕ) {F G : List ℕ → K}
    (h : ∀ xs, List.Forall₂ (· < ·) xs ns → F xs = G xs) : gridSum ns F = gridSum ns G := by
  induction ns generalizing F G with
  | nil => exact h [] .nil
  | cons n ns ih =>
    simp only [gridSum]
    refine Finset.sum_congr rfl fun x hx => ih fun xs hxs => h _ (.cons (Finset.mem_range.mp hx) hxs)

theorem gridSum_add (ns : List ℕ) (F G : List ℕ → K) :
    gridSum ns (fun x => F x + G x) = gridSum ns F + gridSum ns G := by
  induction ns generalizing F G with
  | nil => rfl
  | cons n ns ih =>
    simp only [gridSum, ih, Finset.sum_add_distrib]

theorem gridSum_mul (ns : List ℕ) (c : K) (F : List ℕ → K) :
    gridSum ns (fun x => c * F x) = c * gridSum ns F := by
  induction ns generalizing F with
  | nil => rfl
  | cons n ns ih =>
    simp only [gridSum, ih, Finset.mul_sum]

theorem gridSum_zero (ns : List ℕ) : gridSum ns (fun _ => (0 : K)) = 0 := by
  induction ns with
  | nil => rfl
  | cons n ns ih => simp only [gridSum, ih, Finset.sum_const_zero]

theorem gridSum_sum (ns : List ℕ) (s : Finset ℕ) (F : ℕ → List ℕ → K) :
    gridSum ns (fun x => ∑ i ∈ s, F i x) = ∑ i ∈ s, gridSum ns (F i) := by
  induction ns generalizing F with
  | nil => rfl
  | cons n ns ih =>
    simp only [gridSum, ih]
    exact Finset.sum_comm

theorem unravelRev_ravelRev : ∀ {ns xs : List ℕ}, List.Forall₂ (· < ·) xs ns →
    unravelRev ns (ravelRev ns xs) = xs ∧ ravelRev ns xs < ns.prod
  | _, _, .nil => by simp [unravelRev, ravelRev]
  | _, _, .cons (a := x) (b := n) (l₁ := xs) (l₂ := ns) hx hxs => by
    obtain ⟨h1, h2⟩ := unravelRev_ravelRev hxs
    have hn : 0 < n := by omega
    simp only [unravelRev, ravelRev, List.prod_cons]
    rw [Nat.mul_comm, Nat.mul_add_mod, Nat.mod_eq_of_lt hx, Nat.mul_add_div hn,
      Nat.div_eq_of_lt hx, add_zero, h1]
    refine ⟨rfl, ?_⟩
    calc n * ravelRev ns xs + x < n * ravelRev ns xs + n := by omega
      _ = n * (ravelRev ns xs + 1) := by ring
      _ ≤ n * ns.prod := Nat.mul_le_mul_left _ h2

theorem ravel_unravel (ns : List ℕ) (g : ℕ) (h : g < ns.prod) :
    ravelRev ns (unravelRev ns g) = g ∧ List.Forall₂ (· < ·) (unravelRev ns g) ns := by
  induction ns generalizing g with
  | nil =>
    simp only [List.prod_nil, Nat.lt_one_iff] at h
    subst h
    exact ⟨rfl, .nil⟩
  | cons n ns ih =>
    rw [List.prod_cons] at h
    have hn : 0 < n := by
      rcases Nat.eq_zero_or_pos n with h0 | h0
      · subst h0; omega
      · exact h0
    obtain ⟨h1, h2⟩ := ih (g / n) (Nat.div_lt_of_lt_mul h)
    simp only [unravelRev, ravelRev]
    rw [h1]
    refine ⟨?_, .cons (Nat.mod_lt _ hn) h2⟩
    rw [Nat.mul_comm]; exact Nat.div_add_mod g n

/-! ## The odometer -/

theorem advInds_unravel {nw : ℕ} (hw : 0 < nw) (ns : List ℕ) (h : ∀ n ∈ ns, n = nw) (k : ℕ) :
    advInds nw (unravelRev ns k) = unravelRev ns (k + 1) := by
  induction ns generalizing k with
  | nil => rfl
  | cons n ns ih =>
    have hn : n = nw := h n (by simp)
    subst hn
    have ih' := ih (fun m hm => h m (by simp [hm]))
    simp only [unravelRev, advInds]
    by_cases hc : k % n + 1 < n
    · rw [if_pos hc]
      have h1 : (k + 1) % n = k % n + 1 := by
        rw [Nat.add_mod, Nat.mod_eq_of_lt (show 1 < n by omega)]
        exact Nat.mod_eq_of_lt hc
      have h2 : (k + 1) / n = k / n := by
        rw [Nat.add_div hw, Nat.mod_eq_of_lt (show 1 < n by omega),
          Nat.div_eq_of_lt (show 1 < n by omega), if_neg (by omega)]
        omega
      rw [h1, h2]
    · rw [if_neg hc, ih']
      have hk : k % n + 1 = n := by have := Nat.mod_lt k hw; omega
      have hkk : k + 1 = n * (k / n + 1) := by
        have := Nat.div_add_mod k n
        rw [Nat.mul_add, Nat.mul_one]; omega
      rw [hkk, Nat.mul_mod_right, Nat.mul_div_cancel_left _ hw]

/-- With every cell on the grid the loop goes through all cells. -/
theorem ctxLoop_all (b : Border) {nw : ℕ} (hw : 0 < nw) (axs : List (CtxAxis K)) (ns : List ℕ)
    (hns : ∀ n ∈ ns, n = nw) (f : List ℕ → ℕ) (k j : ℕ)
    (h : ∀ i < k, ctxIndex b axs (unravelRev ns (j + i)) = some (f (unravelRev ns (j + i)))) :
    ctxLoop b nw axs k (unravelRev ns j)
      = (List.range k).map fun i =>
          (f (unravelRev ns (j + i)), ctxProd axs (unravelRev ns (j + i))) := by
  induction k generalizing j with
  | zero => rfl
  | succ k ih =>
    have h0 := h 0 (by omega)
    rw [add_zero] at h0
    rw [ctxLoop, h0, List.range_succ_eq_map, List.map_cons, List.map_map]
    simp only
    rw [advInds_unravel hw ns hns, ih (j + 1) fun i hi => by
      have := h (i + 1) (by omega)
      rw [show j + (i + 1) = j + 1 + i by omega] at this
      exact this]
    simp only [add_zero, Function.comp_def]
    congr 1
    refine List.map_congr_left fun i _ => ?_
    rw [show j + 1 + i = j + i.succ by omega]

theorem unravel_zero (ns : List ℕ) : unravelRev ns 0 = ns.map fun _ => 0 := by
  induction ns with
  | nil => rfl
  | cons n ns ih => simp [unravelRev, ih]

theorem foldl_add_eq {α : Type} (l : List α) (f : α → K) (r : K) :
    l.foldl (fun res c => res + f c) r = r + (l.map f).sum := by
  induction l generalizing r with
  | nil => simp
  | cons a l ih => rw [List.foldl_cons, ih, List.map_cons, List.sum_cons, add_assoc]

theorem listSum_range {k : ℕ} (f : ℕ → K) :
    ((List.range k).map f).sum = ∑ i ∈ Finset.range k, f i := by
  induction k with
  | zero => simp
  | succ k ih => rw [List.range_succ, List.map_append, List.sum_append, ih, Finset.sum_range_succ]; simp

/-- The value as a sum over the cells, if all cells are on the grid. -/
theorem interpolAt_sum (b : Border) {nw : ℕ} (hw : 0 < nw) (axs : List (CtxAxis K))
    (f : List ℕ → ℕ) (data : ℕ → K)
    (h : ∀ J, List.Forall₂ (· < ·) J (axs.map fun _ => nw) → ctxIndex b axs J = some (f J)) :
    interpolAt b nw axs data
      = gridSum (axs.map fun _ => nw) fun J => data (f J) * ctxProd axs J := by
  have hns : ∀ n ∈ axs.map (fun _ => nw), n = nw := by
    intro n hn
    obtain ⟨_, _, h⟩ := List.mem_map.mp hn
    exact h.symm
  have hp : (axs.map fun _ => nw).prod = nw ^ axs.length := by
    rw [List.map_const', List.prod_replicate]
  have hz : (axs.map fun _ => 0) = unravelRev (axs.map fun _ => nw) 0 := by
    rw [unravel_zero, List.map_map]; rfl
  unfold interpolAt ctxCells
  rw [foldl_add_eq, zero_add, hz,
    ctxLoop_all b hw axs _ hns f (nw ^ axs.length) 0 fun i hi => by
      rw [zero_add]
      exact h _ (ravel_unravel _ i (by rw [hp]; exact hi)).2,
    List.map_map, ← sum_unravel, hp, listSum_range]
  simp

/-! ## The specification of a sample -/

/-- The value of a sample: one sum per axis, over the context along that axis, of the weight times
the value at the mapped index.  `D` is the array as a function of the indices, last axis first. -/
def ctxSpec (b : Border) (nw : ℕ) : List (CtxAxis K) → (List ℕ → K) → K
  | [], D => D []
  | ax :: axs, D =>
    ∑ j ∈ Finset.range nw,
      ax.w j * ctxSpec b nw axs fun xs => D ((mapBorder b ax.n (j + ax.off)).toNat :: xs)

/-- The indices a cell is mapped to. -/
def cellIdx (b : Border) : List (CtxAxis K) → List ℕ → List ℕ
  | ax :: axs, j :: js => (mapBorder b ax.n (j + ax.off)).toNat :: cellIdx b axs js
  | _, _ => []

theorem ctxIndex_some {b : Border} {axs : List (CtxAxis K)} {J : List ℕ}
    (hlen : J.length = axs.length)
    (h : List.Forall₂ (fun ax (j : ℕ) => 0 ≤ mapBorder b ax.n (j + ax.off)) axs J) :
    ctxIndex b axs J = some (ravelRev (axs.map (·.n)) (cellIdx b axs J)) := by
  induction h with
  | nil => rfl
  | cons h0 _ ih =>
    simp only [List.length_cons, Nat.add_right_cancel_iff] at hlen
    simp only [ctxIndex, cellIdx, List.map_cons, ravelRev]
    rw [if_neg (by omega), ih hlen]
    rfl

theorem gridSum_cells (b : Border) (nw : ℕ) (axs : List (CtxAxis K)) (D : List ℕ → K) :
    gridSum (axs.map fun _ => nw) (fun J => D (cellIdx b axs J) * ctxProd axs J)
      = ctxSpec b nw axs D := by
  induction axs generalizing D with
  | nil => simp [gridSum, cellIdx, ctxProd, ctxSpec]
  | cons ax axs ih =>
    simp only [List.map_cons, gridSum, cellIdx, ctxProd, ctxSpec]
    refine Finset.sum_congr rfl fun j _ => ?_
    rw [← ih, ← gridSum_mul]
    exact gridSum_congr _ fun J _ => by ring

theorem ctxSpec_add (b : Border) (nw : ℕ) (axs : List (CtxAxis K)) (D E : List ℕ → K) :
    ctxSpec b nw axs (fun x => D x + E x) = ctxSpec b nw axs D + ctxSpec b nw axs E := by
  induction axs generalizing D E with
  | nil => rfl
  | cons ax axs ih =>
    simp only [ctxSpec, ← Finset.sum_add_distrib]
    refine Finset.sum_congr rfl fun j _ => ?_
    rw [ih, mul_add]

theorem ctxSpec_mul (b : Border) (nw : ℕ) (axs : List (CtxAxis K)) (c : K) (D : List ℕ → K) :
    ctxSpec b nw axs (fun x => c * D x) = c * ctxSpec b nw axs D := by
  induction axs generalizing D with
  | nil => rfl
  | cons ax axs ih =>
    simp only [ctxSpec, Finset.mul_sum]
    refine Finset.sum_congr rfl fun j _ => ?_
    rw [ih]; ring

theorem ctxSpec_zero (b : Border) (nw : ℕ) (axs : List (CtxAxis K)) :
    ctxSpec b nw axs (fun _ => (0 : K)) = 0 := by
  have := ctxSpec_mul b nw axs (0 : K) fun _ => (0 : K)
  simpa using this

theorem ctxSpec_sum (b : Border) (nw : ℕ) (axs : List (CtxAxis K)) (s : Finset ℕ)
    (D : ℕ → List ℕ → K) :
    ctxSpec b nw axs (fun x => ∑ i ∈ s, D i x) = ∑ i ∈ s, ctxSpec b nw axs (D i) := by
  induction s using Finset.induction_on with
  | empty => simp [ctxSpec_zero]
  | insert a s ha ih => simp only [Finset.sum_insert ha, ctxSpec_add, ih]

/-! ## Kernels on closed intervals -/

theorem linKernel_le {x : K} (h : x ≤ 1) : (if x < 1 then 1 - x else 0) = 1 - x := by
  by_cases h1 : x < 1
  · rw [if_pos h1]
  · rw [if_neg h1, show x = 1 from le_antisymm h (not_lt.mp h1)]; ring

theorem conv1_a {x : K} (h : x ≤ 1) : convKernel 1 x = 1 - x := by
  rw [convKernel, if_pos rfl, linKernel_le h]

theorem spl1_a {x : K} (h : x ≤ 1) : splineKernel 1 x = 1 - x := by
  rw [splineKernel, if_pos rfl, linKernel_le h]

theorem conv3_a {x : K} (h : x ≤ 1) : convKernel 3 x = 3 / 2 * x ^ 3 - 5 / 2 * x ^ 2 + 1 := by
  simp only [convKernel]
  norm_num
  by_cases h1 : x < 1
  · exact fun h => absurd h1 (not_lt.mpr h)
  · have : x = 1 := le_antisymm h (not_lt.mp h1)
    subst this
    norm_num

theorem conv3_b {x : K} (h0 : 1 ≤ x) (h : x ≤ 2) :
    convKernel 3 x = -1 / 2 * x ^ 3 + 5 / 2 * x ^ 2 - 4 * x + 2 := by
  simp only [convKernel]
  norm_num
  rw [if_neg (not_lt.mpr h0)]
  by_cases h1 : x < 2
  · rw [if_pos h1]
  · have : x = 2 := le_antisymm h (not_lt.mp h1)
    subst this
    norm_num

theorem spl2_a {x : K} (h : x ≤ 1 / 2) : splineKernel 2 x = 3 / 4 - x ^ 2 := by
  simp only [splineKernel]
  norm_num
  by_cases h1 : x < 1 / 2
  · exact fun h => absurd h1 (not_lt.mpr h)
  · have : x = 1 / 2 := le_antisymm h (not_lt.mp h1)
    subst this
    norm_num

theorem spl2_b {x : K} (h0 : 1 / 2 ≤ x) (h : x ≤ 3 / 2) :
    splineKernel 2 x = 1 / 2 * (3 / 2 - x) ^ 2 := by
  simp only [splineKernel]
  norm_num
  rw [if_neg (not_lt.mpr h0)]
  by_cases h1 : x < 3 / 2
  · rw [if_pos h1]
  · have : x = 3 / 2 := le_antisymm h (not_lt.mp h1)
    subst this
    norm_num

theorem spl3_a {x : K} (h : x ≤ 1) : splineKernel 3 x = (x * x * (x - 2) * 3 + 4) / 6 := by
  simp only [splineKernel]
  norm_num
  by_cases h1 : x < 1
  · exact fun h => absurd h1 (not_lt.mpr h)
  · have : x = 1 := le_antisymm h (not_lt.mp h1)
    subst this
    norm_num

theorem spl3_b {x : K} (h0 : 1 ≤ x) (h : x ≤ 2) : splineKernel 3 x = (2 - x) ^ 3 / 6 := by
  simp only [splineKernel]
  norm_num
  rw [if_neg (not_lt.mpr h0)]
  by_cases h1 : x < 2
  · rw [if_pos h1]
  · have : x = 2 := le_antisymm h (not_lt.mp h1)
    subst this
    norm_num

theorem spl4_a {x : K} (h : x ≤ 1 / 2) :
    splineKernel 4 x = x ^ 2 * (x ^ 2 * (1 / 4) - 5 / 8) + 115 / 192 := by
  simp only [splineKernel]
  norm_num
  by_cases h1 : x < 1 / 2
  · exact fun h => absurd h1 (not_lt.mpr h)
  · have : x = 1 / 2 := le_antisymm h (not_lt.mp h1)
    subst this
    norm_num

theorem spl4_b {x : K} (h0 : 1 / 2 ≤ x) (h : x ≤ 3 / 2) :
    splineKernel 4 x = x * (x * (x * (5 / 6 - x / 6) - 5 / 4) + 5 / 24) + 55 / 96 := by
  simp only [splineKernel]
  norm_num
  rw [if_neg (not_lt.mpr h0)]
  by_cases h1 : x < 3 / 2
  · rw [if_pos h1]
  · have : x = 3 / 2 := le_antisymm h (not_lt.mp h1)
    subst this
    norm_num

theorem spl4_c {x : K} (h0 : 3 / 2 ≤ x) (h : x ≤ 5 / 2) :
    splineKernel 4 x = (x - 5 / 2) ^ 4 / 24 := by
  simp only [splineKernel]
  norm_num
  rw [if_neg (not_lt.mpr (le_trans (by norm_num) h0)), if_neg (not_lt.mpr h0)]
  by_cases h1 : x < 5 / 2
  · rw [if_pos h1]
  · have : x = 5 / 2 := le_antisymm h (not_lt.mp h1)
    subst this
    norm_num

theorem spl5_a {x : K} (h : x ≤ 1) :
    splineKernel 5 x = x ^ 2 * (x ^ 2 * (1 / 4 - x / 12) - 1 / 2) + 11 / 20 := by
  simp only [splineKernel]
  norm_num
  by_cases h1 : x < 1
  · exact fun h => absurd h1 (not_lt.mpr h)
  · have : x = 1 := le_antisymm h (not_lt.mp h1)
    subst this
    norm_num

theorem spl5_b {x : K} (h0 : 1 ≤ x) (h : x ≤ 2) :
    splineKernel 5 x
      = x * (x * (x * (x * (x / 24 - 3 / 8) + 5 / 4) - 7 / 4) + 5 / 8) + 17 / 40 := by
  simp only [splineKernel]
  norm_num
  rw [if_neg (not_lt.mpr h0)]
  by_cases h1 : x < 2
  · rw [if_pos h1]
  · have : x = 2 := le_antisymm h (not_lt.mp h1)
    subst this
    norm_num

theorem spl5_c {x : K} (h0 : 2 ≤ x) (h : x ≤ 3) : splineKernel 5 x = (3 - x) ^ 5 / 120 := by
  simp only [splineKernel]
  norm_num
  rw [if_neg (not_lt.mpr (le_trans (by norm_num) h0)), if_neg (not_lt.mpr h0)]
  by_cases h1 : x < 3
  · rw [if_pos h1]
  · have : x = 3 := le_antisymm h (not_lt.mp h1)
    subst this
    norm_num

/-- The distance from the start of the context. -/
theorem ctxOffset_bounds {t : Kernel} {order : ℕ} (ho : order ≠ 0) (p : K) :
    ((weightLength t order : K) - 2) * (1 / 2) ≤ p - ctxOffset t order p ∧
      p - ctxOffset t order p < ((weightLength t order : K) - 2) * (1 / 2) + 1 := by
  simp only [ctxOffset, if_neg ho]
  have h1 := Int.floor_le (p - ((weightLength t order : K) - 2) * (1 / 2))
  have h2 := Int.lt_floor_add_one (p - ((weightLength t order : K) - 2) * (1 / 2))
  constructor <;> linarith

/-- The weights in terms of the distance from the start of the context. -/
theorem ctxWeight_eq {t : Kernel} {order : ℕ} (ho : order ≠ 0) (p : K) (j : ℕ) :
    ctxWeight t order p j = match t with
      | .conv => convKernel order |p - ctxOffset t order p - j|
      | .spline => splineKernel order |p - ctxOffset t order p - j| := by
  simp only [ctxWeight, if_neg ho]
  rw [show p - (j : K) - (ctxOffset t order p : K) = p - (ctxOffset t order p : K) - j by ring]
  cases t <;> rfl

/-- The position of a grid point in its context. -/
theorem ctxOffset_int (t : Kernel) {order : ℕ} (ho : order ≠ 0) (i : ℤ) :
    ctxOffset t order (i : K) = i - ((weightLength t order : ℤ) - 1) / 2 := by
  simp only [ctxOffset, if_neg ho]
  rw [Int.floor_eq_iff]
  push_cast
  generalize hw : (weightLength t order : ℤ) = w
  have hw' : (weightLength t order : K) = (w : K) := by rw [← hw]; push_cast; rfl
  rw [hw']
  have h1 : 2 * ((w - 1) / 2) ≤ w - 1 := by omega
  have h2 : w - 1 ≤ 2 * ((w - 1) / 2) + 1 := by omega
  have h1' : 2 * (((w - 1) / 2 : ℤ) : K) ≤ (w : K) - 1 := by exact_mod_cast h1
  have h2' : (w : K) - 1 ≤ 2 * (((w - 1) / 2 : ℤ) : K) + 1 := by exact_mod_cast h2
  constructor <;> linarith

end Pixell
