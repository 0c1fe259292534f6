import Verif.Props.Spline

/-!
# C89: the transposed spline filter is the adjoint of the filter
-/

set_option linter.unusedSectionVars false

namespace Pixell

variable {K : Type} [Field K] [LinearOrder K] [IsStrictOrderedRing K] [FloorRing K]

theorem sum_range_lt {M N : ℕ} (h : M ≤ N) (f : ℕ → K) :
    ∑ k ∈ Finset.range N, (if k < M then f k else 0) = ∑ k ∈ Finset.range M, f k := by
  rw [← Finset.sum_filter]
  congr 1
  ext k
  simp only [Finset.mem_filter, Finset.mem_range]
  omega

/-- Backwards recursion. -/
theorem adj_back {n : ℕ} (p : K) {c d x : ℕ → K}
    (hc : ∀ i, i + 1 < n → c i = p * (c (i + 1) - d i)) (k : ℕ) (hk : k + 1 < n) :
    ∑ i ∈ Finset.range (k + 1), c i * x i
      = (∑ i ∈ Finset.range (k + 1), d i * antiT p x i) - c (k + 1) * antiT p x k := by
  induction k with
  | zero =>
    simp only [zero_add, Finset.sum_range_one, antiT]
    rw [hc 0 hk]; ring
  | succ k ih =>
    rw [Finset.sum_range_succ, ih (by omega), Finset.sum_range_succ _ (k + 1)]
    have h := hc (k + 1) (by omega)
    simp only [antiT]
    linear_combination (x (k + 1) - antiT p x k) * h

/-- Forwards recursion. -/
theorem adj_fwd {n : ℕ} (p : K) {d a z t : ℕ → K} (hd : ∀ i, d (i + 1) = a (i + 1) + p * d i)
    (ht : ∀ i, i + 1 < n → t i = z i + p * t (i + 1)) (j : ℕ) (hj : j < n) :
    (∑ i ∈ Finset.range j, d i * z i) + d j * t j
      = d 0 * t 0 + ∑ i ∈ Finset.range j, a (i + 1) * t (i + 1) := by
  induction j with
  | zero => simp
  | succ j ih =>
    have ih' := ih (by omega)
    rw [Finset.sum_range_succ, Finset.sum_range_succ]
    have h := hd j
    have h' := ht j (by omega)
    linear_combination ih' + t (j + 1) * h - d j * h'

theorem adj_init2 (b : Border) (k m : ℕ) (p : K) (d y : ℕ → K) :
    (∑ i ∈ Finset.range (k + 1), d i * y i) + anticausalInit b (k + 2) m p d * y (k + 1)
      = ∑ i ∈ Finset.range (k + 2), d i * anticausalInitT b (k + 2) m p y i := by
  have hne : ∀ i ∈ Finset.range (k + 1), i ≠ k + 1 := fun i hi => by
    have := Finset.mem_range.mp hi; omega
  have hne' : ∀ i ∈ Finset.range k, i ≠ k := fun i hi => by
    have := Finset.mem_range.mp hi; omega
  rw [Finset.sum_range_succ _ (k + 1)]
  cases b with
  | zero =>
    simp only [anticausalInit, anticausalInitT, show k + 2 - 1 = k + 1 by omega]
    have e : ∀ v, ∀ i ∈ Finset.range (k + 1), d i * Function.update y (k + 1) v i = d i * y i :=
      fun v i hi => by rw [Function.update_of_ne (hne i hi)]
    rw [Finset.sum_congr rfl (e _), Function.update_self]
    ring
  | nearest =>
    simp only [anticausalInit, anticausalInitT, show k + 2 - 1 = k + 1 by omega,
      Nat.add_sub_cancel]
    have e : ∀ u v, ∀ i ∈ Finset.range k,
        d i * Function.update (Function.update y k u) (k + 1) v i = d i * y i := fun u v i hi => by
      have := Finset.mem_range.mp hi
      rw [Function.update_of_ne (by omega), Function.update_of_ne (by omega)]
    rw [Finset.sum_range_succ, Finset.sum_range_succ, Finset.sum_congr rfl (e _ _),
      Function.update_self, Function.update_of_ne (by omega), Function.update_self]
    ring
  | mirror =>
    simp only [anticausalInit, anticausalInitT, show k + 2 - 1 = k + 1 by omega,
      Nat.add_sub_cancel]
    have e : ∀ u v, ∀ i ∈ Finset.range k,
        d i * Function.update (Function.update y k u) (k + 1) v i = d i * y i := fun u v i hi => by
      have := Finset.mem_range.mp hi
      rw [Function.update_of_ne (by omega), Function.update_of_ne (by omega)]
    rw [Finset.sum_range_succ, Finset.sum_range_succ, Finset.sum_congr rfl (e _ _),
      Function.update_self, Function.update_of_ne (by omega), Function.update_self]
    ring
  | cyclic =>
    rw [← Finset.sum_range_succ _ (k + 1)]
    simp only [anticausalInit, anticausalInitT, show k + 2 - 1 = k + 1 by omega, listSum_range]
    simp only [mul_add, Finset.sum_add_distrib]
    generalize hV : (if m ≥ k + 2 then -p ^ 2 * y (k + 1) / (1 - p ^ (k + 2))
        else -p ^ 2 * y (k + 1)) = V
    have e1 : ∑ i ∈ Finset.range (k + 1 + 1), d i * (if i < min m (k + 2) then V * p ^ i else 0)
        = V * ∑ i ∈ Finset.range (min m (k + 2)), d i * p ^ i := by
      rw [← sum_range_lt (show min m (k + 2) ≤ k + 1 + 1 from Nat.min_le_right _ _), Finset.mul_sum]
      refine Finset.sum_congr rfl fun i _ => ?_
      by_cases h : i < min m (k + 2)
      · simp only [if_pos h]; ring
      · simp only [if_neg h]; ring
    have e2 : ∑ i ∈ Finset.range (k + 1 + 1), d i * (if i = k + 1 then -p * y i else y i)
        = (∑ i ∈ Finset.range (k + 1), d i * y i) + d (k + 1) * (-p * y (k + 1)) := by
      rw [Finset.sum_range_succ, if_pos rfl]
      congr 1
      exact Finset.sum_congr rfl fun i hi => by rw [if_neg (hne i hi)]
    rw [e1, e2, ← hV]
    by_cases h : m ≥ k + 2
    · rw [if_pos h, if_pos h, Nat.min_eq_right h]; ring
    · rw [if_neg h, if_neg h]; ring

theorem adj_init1 (b : Border) (k m : ℕ) (p : K) (a t : ℕ → K) :
    causalInit b (k + 2) m p a * t 0 + ∑ i ∈ Finset.range (k + 1), a (i + 1) * t (i + 1)
      = ∑ i ∈ Finset.range (k + 2), a i * causalInitT b (k + 2) m p t i := by
  rw [Finset.sum_range_succ' _ (k + 1)]
  cases b with
  | zero => simp only [causalInit, causalInitT]; ring
  | nearest =>
    simp only [causalInit, causalInitT]
    have e : ∀ v, ∀ i ∈ Finset.range (k + 1),
        a (i + 1) * Function.update t 0 v (i + 1) = a (i + 1) * t (i + 1) :=
      fun v i _ => by rw [Function.update_of_ne (Nat.succ_ne_zero i)]
    rw [Function.update_self, Finset.sum_congr rfl (e _)]
    ring
  | cyclic =>
    simp only [causalInit, causalInitT, listSum_range, if_true, Nat.add_one_ne_zero, if_false]
    generalize hV : (if m ≥ k + 2 then t 0 / (1 - p ^ (k + 2)) else t 0) = V
    simp only [mul_add, Finset.sum_add_distrib]
    have e : ∑ i ∈ Finset.range (k + 1), a (i + 1) *
        (if k + 2 - 1 - (i + 1) < min (k + 2) m - 1 then p ^ (k + 2 - 1 - (i + 1) + 1) * V else 0)
        = V * ∑ i ∈ Finset.range (min (k + 2) m - 1), p ^ (i + 1) * a (k + 2 - 1 - i) := by
      rw [← sum_range_lt (show min (k + 2) m - 1 ≤ k + 1 by omega), Finset.mul_sum,
        ← Finset.sum_range_reflect _ (k + 1)]
      refine Finset.sum_congr rfl fun i hi => ?_
      have := Finset.mem_range.mp hi
      rw [show k + 1 - 1 - i + 1 = k + 2 - 1 - i by omega,
        show k + 2 - 1 - (k + 2 - 1 - i) = i by omega]
      by_cases h : i < min (k + 2) m - 1
      · simp only [if_pos h]; ring
      · simp only [if_neg h]; ring
    rw [e, ← hV]
    by_cases h : m ≥ k + 2
    · rw [if_pos h, if_pos h, Nat.min_eq_left h]; ring
    · rw [if_neg h, if_neg h]; ring
  | mirror =>
    simp only [causalInit, causalInitT, listSum_range, if_true, Nat.add_one_ne_zero, if_false]
    generalize hV : (if m ≥ k + 2 then t 0 / (1 - p ^ (2 * (k + 2) - 2)) else t 0) = V
    simp only [mul_add, Finset.sum_add_distrib]
    have e : ∑ i ∈ Finset.range (k + 1), a (i + 1) *
        (if i + 1 < min m (k + 2) then p ^ (i + 1) * V else 0)
        = V * ∑ i ∈ Finset.range (min m (k + 2) - 1), p ^ (i + 1) * a (i + 1) := by
      rw [← sum_range_lt (show min m (k + 2) - 1 ≤ k + 1 by omega), Finset.mul_sum]
      refine Finset.sum_congr rfl fun i hi => ?_
      by_cases h : i + 1 < min m (k + 2)
      · rw [if_pos h, if_pos (by omega)]; ring
      · rw [if_neg h, if_neg (by omega)]; ring
    rw [e]
    by_cases h : m ≥ k + 2
    · have e2 : ∑ i ∈ Finset.range (k + 1), a (i + 1) *
          (if m ≥ k + 2 ∧ i + 1 < k + 2 - 1 then
            p ^ (min m (k + 2) + (k + 2 - 2 - (i + 1))) * V else 0)
          = V * ∑ i ∈ Finset.range k, p ^ (min m (k + 2) + i) * a (k - i) := by
        rw [Finset.sum_range_succ, if_neg (by omega), mul_zero, add_zero, Finset.mul_sum,
          ← Finset.sum_range_reflect _ k]
        refine Finset.sum_congr rfl fun i hi => ?_
        have := Finset.mem_range.mp hi
        rw [if_pos (by omega), show k + 2 - 2 - (k - 1 - i + 1) = i by omega,
          show k - 1 - i + 1 = k - i by omega]
        ring
      simp only [if_pos h, Nat.add_sub_cancel] at e2 hV ⊢
      rw [e2, ← hV, Nat.min_eq_right h, show 2 * (k + 2) - 2 = k + 2 + k by omega]
      ring
    · have e2 : ∑ i ∈ Finset.range (k + 1), a (i + 1) *
          (if m ≥ k + 2 ∧ i + 1 < k + 2 - 1 then
            p ^ (min m (k + 2) + (k + 2 - 2 - (i + 1))) * V else 0) = 0 :=
        Finset.sum_eq_zero fun i _ => by rw [if_neg (fun hh => h hh.1), mul_zero]
      rw [e2, ← hV]
      simp only [if_neg h]
      ring

theorem pole_adjoint (b : Border) {n : ℕ} (hn : 2 ≤ n) (m : ℕ) (p : K) (a x : ℕ → K) :
    ∑ i ∈ Finset.range n, poleFilter b n m p a i * x i
      = ∑ i ∈ Finset.range n, a i * poleFilterT b n m p x i := by
  obtain ⟨k, rfl⟩ : ∃ k, n = k + 2 := ⟨n - 2, by omega⟩
  set d := causal p (causalInit b (k + 2) m p a) a with hd
  set c := poleFilter b (k + 2) m p a with hc
  set y := anticausalT p (k + 2) x with hy
  set z := anticausalInitT b (k + 2) m p y with hz
  set t : ℕ → K := fun i => causalT p (k + 2) z (k + 2 - 1 - i) with ht
  have hstep : ∀ i, i + 1 < k + 2 → c i = p * (c (i + 1) - d i) := fun i hi =>
    poleFilter_step b m p a hi
  have hlast : c (k + 1) = anticausalInit b (k + 2) m p d := poleFilter_last b m p a (n := k + 2)
  have hyi : ∀ i, i < k + 1 → y i = antiT p x i := fun i hi => by
    rw [hy]; unfold anticausalT; rw [if_pos (by omega)]
  have hyl : y (k + 1) = x (k + 1) - antiT p x k := by
    rw [hy]; unfold anticausalT; rw [if_neg (by omega), if_pos rfl, Nat.add_sub_cancel]
  have hts : ∀ i, i + 1 < k + 2 → t i = z i + p * t (i + 1) := by
    intro i hi
    simp only [ht]
    rw [show k + 2 - 1 - i = (k + 2 - 1 - (i + 1)) + 1 by omega, causalT,
      show k + 2 - 1 - (k + 2 - 1 - (i + 1) + 1) = i by omega]
  have htl : t (k + 1) = z (k + 1) := by
    simp only [ht]; rw [show k + 2 - 1 - (k + 1) = 0 by omega, causalT]; rfl
  have hT : poleFilterT b (k + 2) m p x = causalInitT b (k + 2) m p t := rfl
  rw [hT, ← adj_init1 b k m p a t]
  have h1 := adj_fwd (n := k + 2) p (d := d) (a := a) (z := z) (t := t) (fun i => rfl) hts (k + 1)
    (by omega)
  have hd0 : d 0 = causalInit b (k + 2) m p a := rfl
  rw [hd0] at h1
  rw [← h1, htl, ← Finset.sum_range_succ (fun i => d i * z i) (k + 1), hz,
    ← adj_init2 b k m p d y, Finset.sum_range_succ _ (k + 1),
    adj_back (n := k + 2) p hstep k (by omega), hyl, hlast]
  have e : ∀ i ∈ Finset.range (k + 1), d i * y i = d i * antiT p x i := fun i hi => by
    rw [hyi i (Finset.mem_range.mp hi)]
  rw [Finset.sum_congr rfl e]
  ring

theorem spline_adjoint (b : Border) {n : ℕ} (hn : 2 ≤ n) (poles : List (K × ℕ)) (a x : ℕ → K) :
    ∑ i ∈ Finset.range n, splineFilter b n poles a i * x i
      = ∑ i ∈ Finset.range n, a i * splineFilterT b n poles x i := by
  simp only [splineFilter, splineFilterT]
  generalize (poles.map fun pm => (1 - pm.1) * (1 - 1 / pm.1)).prod = W
  -- the weight may be applied at either end of the transposed filter
  have hlin : ∀ (l : List (K × ℕ)) (u v : ℕ → K),
      ∑ i ∈ Finset.range n, l.foldl (fun a pm => poleFilter b n pm.2 pm.1 a) u i * v i
        = ∑ i ∈ Finset.range n, u i * l.reverse.foldl (fun x pm => poleFilterT b n pm.2 pm.1 x) v i := by
    intro l
    induction l with
    | nil => intro u v; rfl
    | cons q l ih =>
      intro u v
      simp only [List.foldl_cons, List.reverse_cons, List.foldl_append, List.foldl_nil]
      rw [ih, pole_adjoint b hn]
  have e1 := hlin poles (fun i => a i * W) x
  have e2 := hlin poles a fun i => x i * W
  -- both are the filter of `a` against `W x`
  have hL : ∀ i ∈ Finset.range n,
      poles.foldl (fun a pm => poleFilter b n pm.2 pm.1 a) (fun i => a i * W) i
        = W * poles.foldl (fun a pm => poleFilter b n pm.2 pm.1 a) a i := by
    intro i hi
    have hi' := Finset.mem_range.mp hi
    have key : ∀ (l : List (K × ℕ)) (Ψ : (ℕ → K) → ℕ → K), (∀ j < n, LinN n fun g => Ψ g j) →
        ∀ j < n, LinN n fun g => l.foldl (fun a pm => poleFilter b n pm.2 pm.1 a) (Ψ g) j := by
      intro l
      induction l with
      | nil => intro Ψ h j hj; exact h j hj
      | cons x l ih =>
        intro Ψ h j hj
        simp only [List.foldl_cons]
        exact ih (fun g => poleFilter b n x.2 x.1 (Ψ g))
          (fun j hj => (linN_poleFilter b (by omega) x.2 x.1 j hj).comp h) j hj
    obtain ⟨l, hl⟩ := key poles (fun g => g) (fun j hj => LinN.proj hj) i hi'
    have hl' : ∀ g : ℕ → K, poles.foldl (fun a pm => poleFilter b n pm.2 pm.1 a) g i
        = ∑ y ∈ Finset.range n, l y * g y := hl
    rw [hl', hl', Finset.mul_sum]
    exact Finset.sum_congr rfl fun y _ => by ring
  rw [Finset.sum_congr rfl fun i hi => by rw [hL i hi], ← e2]
  exact Finset.sum_congr rfl fun i _ => by ring

/-- The transposed filter is the adjoint of the filter, along all axes together, for every border,
every pole and every number of terms kept, provided every axis has at least two points. -/
theorem C89_filter_adjoint (b : Border) (poles : List (K × ℕ)) {shape : List ℕ}
    (hs : ∀ n ∈ shape, 2 ≤ n) (D E : List ℕ → K) :
    gridSum shape (fun x => filterAll b poles shape D x * E x)
      = gridSum shape fun x => D x * filterAllT b poles shape E x := by
  induction shape generalizing D E with
  | nil => rfl
  | cons n ns ih =>
    have hn := hs n (by simp)
    have ih' := ih fun m hm => hs m (by simp [hm])
    simp only [gridSum, filterAll, filterAllT]
    rw [← gridSum_sum]
    have e : ∀ xs, ∑ x ∈ Finset.range n,
        splineFilter b n poles (fun y => filterAll b poles ns (fun ys => D (y :: ys)) xs) x
          * E (x :: xs)
        = ∑ x ∈ Finset.range n, filterAll b poles ns (fun ys => D (x :: ys)) xs
          * splineFilterT b n poles (fun y => E (y :: xs)) x :=
      fun xs => spline_adjoint b hn poles _ fun x => E (x :: xs)
    rw [gridSum_congr ns fun xs _ => e xs, gridSum_sum]
    exact Finset.sum_congr rfl fun x _ => ih' _ _

/-- `map_coordinates` with the prefilter and its transpose, which filters after scattering, are
adjoint: for all arrays, samples, borders, poles and update orders. -/
theorem C89_adjoint (b : Border) (nw : ℕ) (poles : List (K × ℕ)) {shape : List ℕ}
    (hs : ∀ n ∈ shape, 2 ≤ n)
    (samples : List (List (CtxAxis K) × K)) (hsh : ∀ s ∈ samples, s.1.map (·.n) = shape)
    (updates : List (ℕ × K)) (hu : updates.Perm (transUpdates b nw samples)) (data : ℕ → K) :
    (samples.map fun s => s.2 * interpolAt b nw s.1 fun g =>
        filterAll b poles shape (fun x => data (ravelRev shape x)) (unravelRev shape g)).sum
      = ∑ g ∈ Finset.range shape.prod, data g *
        filterAllT b poles shape (fun x => interpolTrans updates (ravelRev shape x))
          (unravelRev shape g) := by
  rw [(C88_adjoint b nw shape (fun n hn => ⟨by have := hs n hn; omega, fun _ => hs n hn⟩) samples hsh
    updates hu _).1]
  have e1 : ∀ g ∈ Finset.range shape.prod,
      filterAll b poles shape (fun x => data (ravelRev shape x)) (unravelRev shape g)
          * interpolTrans updates g
        = (fun x => filterAll b poles shape (fun x => data (ravelRev shape x)) x
            * interpolTrans updates (ravelRev shape x)) (unravelRev shape g) := by
    intro g hg
    simp only
    rw [(ravel_unravel shape g (Finset.mem_range.mp hg)).1]
  have e2 : ∀ g ∈ Finset.range shape.prod,
      data g * filterAllT b poles shape (fun x => interpolTrans updates (ravelRev shape x))
          (unravelRev shape g)
        = (fun x => data (ravelRev shape x) * filterAllT b poles shape
            (fun x => interpolTrans updates (ravelRev shape x)) x) (unravelRev shape g) := by
    intro g hg
    simp only
    rw [(ravel_unravel shape g (Finset.mem_range.mp hg)).1]
  refine (Finset.sum_congr rfl e1).trans (Eq.trans ?_ (Finset.sum_congr rfl e2).symm)
  rw [sum_unravel shape fun x => filterAll b poles shape (fun x => data (ravelRev shape x)) x
      * interpolTrans updates (ravelRev shape x),
    sum_unravel shape fun x => data (ravelRev shape x) * filterAllT b poles shape
      (fun x => interpolTrans updates (ravelRev shape x)) x]
  exact C89_filter_adjoint b poles hs _ _

/-- A concrete case: three points, one pole, cyclic. -/
example :
    let F := splineFilter .cyclic 3 [((-1 / 4 : ℚ), 5)]
    let T := splineFilterT .cyclic 3 [((-1 / 4 : ℚ), 5)]
    F (fun i => if i = 0 then 1 else 0) 1 = -4 / 13 ∧
      T (fun i => if i = 1 then 1 else 0) 0 = -4 / 13 := by
  constructor <;>
  · norm_num [splineFilter, splineFilterT, poleFilter, poleFilterT, causalInit, causal,
      anticausalInit, anticausal, causalInitT, causalT, anticausalInitT, anticausalT, antiT,
      List.range_succ]

end Pixell
