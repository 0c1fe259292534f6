import Verif.Model.Sweeps
import Verif.Props.Ranges
import Mathlib.Tactic.Linarith
import Mathlib.Tactic.FieldSimp
import Mathlib.Tactic.Ring
import Mathlib.LinearAlgebra.Matrix.ToLinearEquiv

/-! C151: sweeps and bin edges. -/

namespace Pixell

theorem firstMax_spec (f : ℕ → ℚ) (a k : ℕ) :
    a ≤ firstMax f a k ∧ firstMax f a k ≤ a + k ∧ ∀ i, a ≤ i → i ≤ a + k → f i ≤ f (firstMax f a k) := by
  induction k with
  | zero =>
    refine ⟨le_refl _, le_refl _, ?_⟩
    intro i h1 h2
    have : i = a := by omega
    rw [this]; exact le_refl _
  | succ k ih =>
    obtain ⟨h1, h2, h3⟩ := ih
    unfold firstMax
    split
    · rename_i h
      refine ⟨by omega, by omega, ?_⟩
      intro i hi1 hi2
      by_cases hk : i = a + k + 1
      · rw [hk]
      · exact (h3 i hi1 (by omega)).trans h.le
    · rename_i h
      refine ⟨h1, by omega, ?_⟩
      intro i hi1 hi2
      by_cases hk : i = a + k + 1
      · rw [hk]; exact not_lt.1 h
      · exact h3 i hi1 (by omega)

theorem firstMax_isMaxPos (f : ℕ → ℚ) : IsMaxPos f fun a b => firstMax f a (b - a - 1) := by
  intro a b hab
  obtain ⟨h1, h2, h3⟩ := firstMax_spec f a (b - a - 1)
  refine ⟨h1, ?_, fun i hi hi' => h3 i hi (by omega)⟩
  dsimp only
  omega

theorem dedupSorted_spec (l : List ℕ) (h : l.Pairwise (· ≤ ·)) :
    (dedupSorted l).Pairwise (· < ·) ∧ (∀ x, x ∈ dedupSorted l ↔ x ∈ l) ∧ (dedupSorted l).head? = l.head? ∧
    (dedupSorted l).getLast? = l.getLast? := by
  induction l with
  | nil => simp [dedupSorted]
  | cons a l ih =>
    cases l with
    | nil => simp [dedupSorted]
    | cons b l =>
      obtain ⟨hab, hl⟩ := List.pairwise_cons.1 h
      obtain ⟨i1, i2, i3, i4⟩ := ih hl
      unfold dedupSorted
      by_cases e : a = b
      · rw [if_pos e]
        refine ⟨i1, ?_, by rw [i3, e]; rfl, by rw [i4, List.getLast?_cons_cons]⟩
        intro x
        rw [i2, e]
        simp
      · rw [if_neg e]
        have hlt : a < b := lt_of_le_of_ne (hab b List.mem_cons_self) e
        refine ⟨?_, ?_, rfl, ?_⟩
        · rw [List.pairwise_cons]
          refine ⟨?_, i1⟩
          intro x hx
          rcases List.mem_cons.1 ((i2 x).1 hx) with rfl | hx
          · exact hlt
          · exact lt_of_lt_of_le hlt ((List.pairwise_cons.1 hl).1 x hx)
        · intro x
          rw [List.mem_cons, i2, List.mem_cons (b := a)]
        · have hne : dedupSorted (b :: l) ≠ [] := by
            intro hn
            rw [hn] at i3
            simp at i3
          obtain ⟨y, t, hyt⟩ := List.exists_cons_of_ne_nil hne
          rw [hyt, List.getLast?_cons_cons, ← hyt, i4, List.getLast?_cons_cons]

/-- The turning points. -/
theorem turnsOf_spec (pos : ℕ → ℕ → ℕ) (n : ℕ) (f : ℕ → ℚ) (hpos : IsMaxPos f pos) (lim : ℚ) :
    (turnsOf pos n f lim).Pairwise (· < ·) ∧ (∀ t ∈ turnsOf pos n f lim, t < n ∧ lim < f t) ∧
    ∀ i < n, lim < f i → ∃ t ∈ turnsOf pos n f lim, f i ≤ f t ∧ ∀ j, min i t ≤ j → j ≤ max i t → lim < f j := by
  set mask := (List.range n).map fun i => decide (lim < f i) with hmask
  obtain ⟨h1, h2, h3⟩ := C26_mask2range mask
  have hlen : mask.length = n := by rw [hmask, List.length_map, List.length_range]
  have hget : ∀ i, mask[i]? = some true ↔ i < n ∧ lim < f i := by
    intro i
    rw [hmask, List.getElem?_map]
    by_cases hi : i < n
    · rw [List.getElem?_range hi]
      simp [hi]
    · rw [List.getElem?_eq_none (by rw [List.length_range]; omega)]
      simp [hi]
  have hin : ∀ r ∈ mask2range mask, r.1 ≤ pos r.1 r.2 ∧ pos r.1 r.2 < r.2 := fun r hr =>
    ⟨(hpos r.1 r.2 (h1 r hr).1).1, (hpos r.1 r.2 (h1 r hr).1).2.1⟩
  refine ⟨?_, ?_, ?_⟩
  · unfold turnsOf
    rw [List.pairwise_map]
    refine List.pairwise_iff_forall_sublist.2 ?_
    intro p q hpq
    have hlt := List.pairwise_iff_forall_sublist.1 h2 hpq
    have hp := hin p (hpq.subset List.mem_cons_self)
    have hq := hin q (hpq.subset (List.mem_cons_of_mem _ List.mem_cons_self))
    omega
  · intro t ht
    obtain ⟨r, hr, rfl⟩ := List.mem_map.1 ht
    exact (hget _).1 ((h3 _).1 ⟨r, hr, hin r hr⟩)
  · intro i hi hl
    obtain ⟨r, hr, hr1, hr2⟩ := (h3 i).2 ((hget i).2 ⟨hi, hl⟩)
    have hb := h1 r hr
    obtain ⟨_, _, hm⟩ := hpos r.1 r.2 hb.1
    have hb2 := hin r hr
    refine ⟨_, List.mem_map.2 ⟨r, hr, rfl⟩, hm i hr1 hr2, ?_⟩
    intro j hj1 hj2
    exact ((hget j).1 ((h3 j).1 ⟨r, hr, by omega, by omega⟩)).2

/-- C151: for every scan that is not constant and every positive tolerance, find_sweeps divides all samples into consecutive sweeps that are not empty: from 0 through turning points
`t` to the number of samples. Every turning point in between is within the tolerance of the extremes, and every sample within the tolerance belongs to the same
turnaround as a turning point that is at least as far out. -/
theorem C151_sweeps (pos : ℕ → ℕ → ℕ) (n : ℕ) (az : ℕ → ℚ) (tol amin amax : ℚ)
    (hpos : IsMaxPos (fun i => |az i - (amax + amin) / 2|) pos) (htol : 0 < tol) (hmin : ∀ i < n, amin ≤ az i) (hmax : ∀ i < n, az i ≤ amax)
    (hmin' : ∃ i < n, az i = amin) (hmax' : ∃ i < n, az i = amax) (hne : amin < amax) :
    ∃ t : List ℕ, findSweeps pos n az tol = some (t.zip t.tail) ∧ t.Pairwise (· < ·) ∧ t.head? = some 0 ∧ t.getLast? = some n ∧
      (∀ x ∈ t, x = 0 ∨ x = n ∨ (amax - amin) / 2 * (1 - tol) < |az x - (amax + amin) / 2|) ∧
      ∀ i < n, (amax - amin) / 2 * (1 - tol) < |az i - (amax + amin) / 2| →
        ∃ x ∈ t, x < n ∧ |az i - (amax + amin) / 2| ≤ |az x - (amax + amin) / 2| ∧
          ∀ j, min i x ≤ j → j ≤ max i x → (amax - amin) / 2 * (1 - tol) < |az j - (amax + amin) / 2| := by
  have e1 : ((List.range n).map az).min? = some amin := by
    rw [List.min?_eq_some_iff]
    refine ⟨?_, ?_⟩
    · obtain ⟨i, hi, h⟩ := hmin'
      exact List.mem_map.2 ⟨i, List.mem_range.2 hi, h⟩
    · intro x hx
      obtain ⟨i, hi, rfl⟩ := List.mem_map.1 hx
      exact hmin i (List.mem_range.1 hi)
  have e2 : ((List.range n).map az).max? = some amax := by
    rw [List.max?_eq_some_iff]
    refine ⟨?_, ?_⟩
    · obtain ⟨i, hi, h⟩ := hmax'
      exact List.mem_map.2 ⟨i, List.mem_range.2 hi, h⟩
    · intro x hx
      obtain ⟨i, hi, rfl⟩ := List.mem_map.1 hx
      exact hmax i (List.mem_range.1 hi)
  set lim := (amax - amin) / 2 * (1 - tol) with hlim
  obtain ⟨h1, h2, h3⟩ := turnsOf_spec pos n (sweepDist az amin amax) hpos lim
  set T := turnsOf pos n (sweepDist az amin amax) lim with hT
  have hTne : T ≠ [] := by
    obtain ⟨i, hi, h⟩ := hmax'
    have : lim < sweepDist az amin amax i := by
      unfold sweepDist
      rw [h, show amax - (amax + amin) / 2 = (amax - amin) / 2 by ring, abs_of_pos (by linarith), hlim]
      nlinarith
    obtain ⟨t, ht, _⟩ := h3 i hi this
    exact List.ne_nil_of_mem ht
  have hsort : (0 :: T ++ [n]).Pairwise (· ≤ ·) := by
    rw [List.cons_append, List.pairwise_cons, List.pairwise_append]
    refine ⟨fun x _ => Nat.zero_le x, h1.imp fun h => le_of_lt h, List.pairwise_singleton _ _, ?_⟩
    intro a ha b hb
    rw [List.mem_singleton.1 hb]
    exact (h2 a ha).1.le
  obtain ⟨d1, d2, d3, d4⟩ := dedupSorted_spec _ hsort
  refine ⟨dedupSorted (0 :: T ++ [n]), ?_, d1, by rw [d3]; rfl, by rw [d4, List.getLast?_append]; rfl, ?_, ?_⟩
  · unfold findSweeps
    rw [e1, e2]
    dsimp only
    rw [← hlim, ← hT, if_neg (fun h => hTne (List.isEmpty_iff.1 h))]
  · intro x hx
    rw [d2, List.cons_append, List.mem_cons, List.mem_append, List.mem_singleton] at hx
    rcases hx with h | h | h
    · exact Or.inl h
    · exact Or.inr (Or.inr (h2 x h).2)
    · exact Or.inr (Or.inl h)
  · intro i hi hl
    obtain ⟨x, hx, hle, hj⟩ := h3 i hi hl
    refine ⟨x, ?_, (h2 x hx).1, hle, hj⟩
    rw [d2, List.cons_append, List.mem_cons, List.mem_append]
    exact Or.inr (Or.inl hx)

/-- Up, down and up again. -/
example : findSweeps (fun a b => firstMax (fun i => |[0, 1, 2, 1, 0, 1, 2].getD i 0 - 1|) a (b - a - 1)) 7 (fun i => [0, 1, 2, 1, 0, 1, 2].getD i 0) (1/5) = some [(0, 2), (2, 4), (4, 6), (6, 7)] := by decide +kernel

/-- **C151 refuted (no movement).** A scan that stands still is not one sweep: the call fails, for every tolerance. -/
theorem C151_constant_refuted (pos : ℕ → ℕ → ℕ) (n : ℕ) (a tol : ℚ) : findSweeps pos n (fun _ => a) tol = none := by
  by_cases hn : n = 0
  · subst hn; rfl
  · have hp : 0 < n := Nat.pos_of_ne_zero hn
    have e1 : ((List.range n).map fun _ => a).min? = some a := by
      rw [List.min?_eq_some_iff]
      refine ⟨List.mem_map.2 ⟨0, List.mem_range.2 hp, rfl⟩, ?_⟩
      intro x hx
      obtain ⟨i, _, rfl⟩ := List.mem_map.1 hx
      exact le_refl _
    have e2 : ((List.range n).map fun _ => a).max? = some a := by
      rw [List.max?_eq_some_iff]
      refine ⟨List.mem_map.2 ⟨0, List.mem_range.2 hp, rfl⟩, ?_⟩
      intro x hx
      obtain ⟨i, _, rfl⟩ := List.mem_map.1 hx
      exact le_refl _
    have hz : ∀ i, sweepDist (fun _ => a) a a i = 0 := by
      intro i
      unfold sweepDist
      rw [show a - (a + a) / 2 = 0 by ring, abs_zero]
    have hT : turnsOf pos n (sweepDist (fun _ => a) a a) ((a - a) / 2 * (1 - tol)) = [] := by
      unfold turnsOf
      rw [List.map_eq_nil_iff, List.eq_nil_iff_forall_not_mem]
      intro r hr
      obtain ⟨h1, _, h3⟩ := C26_mask2range ((List.range n).map fun i => decide ((a - a) / 2 * (1 - tol) < sweepDist (fun _ => a) a a i))
      have h4 := (h3 r.1).1 ⟨r, hr, le_refl _, (h1 r hr).1⟩
      rw [List.getElem?_map] at h4
      cases h5 : (List.range n)[r.1]? with
      | none => rw [h5] at h4; simp at h4
      | some i =>
        rw [h5] at h4
        simp only [Option.map_some, hz] at h4
        rw [show (a - a) / 2 * (1 - tol) = 0 by ring] at h4
        simp at h4
    unfold findSweeps
    rw [e1, e2]
    dsimp only
    rw [hT]
    rfl

/-! ### Bin edges -/

theorem edge_row (n ref : ℕ) (e : Fin (n + 1) → ℚ) (i : ℕ) (hi : i < n) :
    (edgeMatrix n ref).mulVec e ⟨i, by omega⟩ = (e ⟨i, by omega⟩ + e ⟨i + 1, by omega⟩) / 2 := by
  unfold Matrix.mulVec dotProduct edgeMatrix
  simp only [hi, if_true, add_mul, ite_mul, zero_mul, Finset.sum_add_distrib]
  have h1 : ∀ k : ℕ, ∀ hk : k < n + 1, ∑ x : Fin (n + 1), (if x.val = k then 1/2 * e x else 0) = 1/2 * e ⟨k, hk⟩ := by
    intro k hk
    rw [Finset.sum_eq_single ⟨k, hk⟩]
    · simp
    · intro b _ hb
      rw [if_neg]
      intro h; exact hb (Fin.ext h)
    · intro h; exact absurd (Finset.mem_univ _) h
  rw [h1 i (by omega), h1 (i + 1) (by omega)]
  ring

theorem edge_last (n ref : ℕ) (e : Fin (n + 1) → ℚ) (hr : ref + 1 < n) :
    (edgeMatrix n ref).mulVec e ⟨n, by omega⟩ = e ⟨ref + 1, by omega⟩ - e ⟨ref, by omega⟩ := by
  unfold Matrix.mulVec dotProduct edgeMatrix
  simp only [lt_irrefl, if_false, add_mul, ite_mul, zero_mul, Finset.sum_add_distrib]
  have h1 : ∀ (c : ℚ) (k : ℕ) (hk : k < n + 1), ∑ x : Fin (n + 1), (if x.val = k then c * e x else 0) = c * e ⟨k, hk⟩ := by
    intro c k hk
    rw [Finset.sum_eq_single ⟨k, hk⟩]
    · simp
    · intro b _ hb
      rw [if_neg]
      intro h; exact hb (Fin.ext h)
    · intro h; exact absurd (Finset.mem_univ _) h
  rw [h1 _ ref (by omega), h1 _ (ref + 1) (by omega)]
  ring

theorem edge_det (n ref : ℕ) (hr : ref + 1 < n) : (edgeMatrix n ref).det ≠ 0 := by
  intro h
  obtain ⟨v, hv, h0⟩ := Matrix.exists_mulVec_eq_zero_iff.2 h
  apply hv
  have hrow : ∀ i (hi : i < n), v ⟨i + 1, by omega⟩ = - v ⟨i, by omega⟩ := by
    intro i hi
    have := congrFun h0 ⟨i, by omega⟩
    rw [edge_row n ref v i hi] at this
    have h2 : (v ⟨i, by omega⟩ + v ⟨i + 1, by omega⟩) / 2 = 0 := this
    linarith
  have hl := congrFun h0 ⟨n, by omega⟩
  rw [edge_last n ref v hr] at hl
  have hl : v ⟨ref + 1, by omega⟩ - v ⟨ref, by omega⟩ = 0 := hl
  rw [hrow ref (by omega)] at hl
  have href : v ⟨ref, by omega⟩ = 0 := by linarith
  have habs : ∀ i (hi : i < n + 1), |v ⟨i, hi⟩| = |v ⟨0, by omega⟩| := by
    intro i
    induction i with
    | zero => intro _; rfl
    | succ i ih =>
      intro hi
      rw [hrow i (by omega), abs_neg, ih (by omega)]
  have hz : |v ⟨0, by omega⟩| = 0 := by rw [← habs ref (by omega), href, abs_zero]
  funext i
  have := habs i.val i.isLt
  rw [hz] at this
  exact abs_eq_zero.1 this

theorem isBinEdges_iff (n ref : ℕ) (c : ℕ → ℚ) (hr : ref + 1 < n) (e : Fin (n + 1) → ℚ) :
    IsBinEdges n ref c e ↔ (edgeMatrix n ref).mulVec e = edgeRhs n ref c := by
  unfold IsBinEdges
  rw [← Matrix.mulVec_mulVec]
  constructor
  · intro h
    have hinj : Function.Injective (edgeMatrix n ref).transpose.mulVec := by
      rw [Matrix.mulVec_injective_iff_isUnit, Matrix.isUnit_iff_isUnit_det, Matrix.det_transpose]
      exact isUnit_iff_ne_zero.2 (edge_det n ref hr)
    exact hinj h
  · intro h; rw [h]

/-- C151: for any centres and every `ref` with two bins from it on, infer_bin_edges has exactly one result. The centres are the means of neighbouring edges and bins `ref`
and `ref+1` have equal width. -/
theorem C151_edges (n ref : ℕ) (c : ℕ → ℚ) (hr : ref + 1 < n) :
    (∃! e, IsBinEdges n ref c e) ∧ ∀ e, IsBinEdges n ref c e →
      (∀ i (hi : i < n), c i = (e ⟨i, by omega⟩ + e ⟨i + 1, by omega⟩) / 2) ∧
      e ⟨ref + 1, by omega⟩ - e ⟨ref, by omega⟩ = e ⟨ref + 2, by omega⟩ - e ⟨ref + 1, by omega⟩ := by
  have hu : IsUnit (edgeMatrix n ref) := by
    rw [Matrix.isUnit_iff_isUnit_det]; exact isUnit_iff_ne_zero.2 (edge_det n ref hr)
  constructor
  · obtain ⟨e, he⟩ := (Matrix.mulVec_surjective_iff_isUnit.2 hu) (edgeRhs n ref c)
    refine ⟨e, (isBinEdges_iff n ref c hr e).2 he, ?_⟩
    intro e' he'
    apply Matrix.mulVec_injective_iff_isUnit.2 hu
    show (edgeMatrix n ref).mulVec e' = (edgeMatrix n ref).mulVec e
    rw [(isBinEdges_iff n ref c hr e').1 he', he]
  · intro e he
    rw [isBinEdges_iff n ref c hr] at he
    have hmid : ∀ i (hi : i < n), c i = (e ⟨i, by omega⟩ + e ⟨i + 1, by omega⟩) / 2 := by
      intro i hi
      rw [← edge_row n ref e i hi, he]
      simp [edgeRhs, hi]
    refine ⟨hmid, ?_⟩
    have hw := congrFun he ⟨n, by omega⟩
    rw [edge_last n ref e hr] at hw
    have hw : e ⟨ref + 1, by omega⟩ - e ⟨ref, by omega⟩ = c (ref + 1) - c ref := by
      rw [hw]; simp [edgeRhs]
    have h1 := hmid ref (by omega)
    have h2 := hmid (ref + 1) (by omega)
    linarith

/-- **C151 refuted (order of the edges).** For centres in increasing order the edges need not be: for 0, 1, 2, 10, 11 the last bin goes from 17.5 down to 4.5. -/
theorem C151_order_refuted : ∃ e, IsBinEdges 5 1 (fun i => [0, 1, 2, 10, 11].getD i 0) e ∧ e 5 < e 4 := by
  refine ⟨![-1/2, 1/2, 3/2, 5/2, 35/2, 9/2], ?_, by decide +kernel⟩
  unfold IsBinEdges
  decide +kernel

end Pixell
