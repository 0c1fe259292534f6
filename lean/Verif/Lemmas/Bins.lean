import Verif.Model.Bins
import Mathlib.Tactic.Linarith
import Mathlib.Tactic.Ring
import Mathlib.Tactic.FieldSimp
import Mathlib.Tactic.Positivity
import Mathlib.Data.Nat.Cast.Order.Field
import Mathlib.Algebra.Order.Floor.Semiring

namespace Pixell

theorem edges2bins_length (e : List Nat) : (edges2bins e).length = e.length - 1 := by
  simp [edges2bins]

theorem edges2bins_get (e : List Nat) (i : Nat) (h : i + 1 < e.length) :
    (edges2bins e)[i]? = some (e[i], e[i + 1]) := by
  unfold edges2bins
  rw [List.getElem?_eq_getElem (by simp; omega)]
  simp

/-! ### expbin -/

/-- Consecutive elements are related by `R`. -/
def Steps (R : Nat → Nat → Prop) : List Nat → Prop
  | a :: b :: r => R a b ∧ Steps R (b :: r)
  | _ => True

theorem Steps_append {R : Nat → Nat → Prop} {l : List Nat} {v : Nat} {r : List Nat} (h : Steps R (l ++ [v]))
    (h2 : Steps R (v :: r)) : Steps R (l ++ v :: r) := by
  induction l with
  | nil => exact h2
  | cons x l ih =>
    cases l with
    | nil => exact ⟨h.1, h2⟩
    | cons y l => exact ⟨h.1, ih h.2⟩

theorem Steps_prefix {R : Nat → Nat → Prop} {l r : List Nat} (h : Steps R (l ++ r)) : Steps R l := by
  induction l with
  | nil => trivial
  | cons x l ih =>
    cases l with
    | nil => trivial
    | cons y l => exact ⟨h.1, ih h.2⟩

theorem Steps_mono {R S : Nat → Nat → Prop} (hRS : ∀ a b, R a b → S a b) {l : List Nat} (h : Steps R l) :
    Steps S l := by
  induction l with
  | nil => trivial
  | cons x l ih =>
    cases l with
    | nil => trivial
    | cons y l => exact ⟨hRS _ _ h.1, ih h.2⟩

theorem Steps_map_range' {R : Nat → Nat → Prop} (f : Nat → Nat) (s n : Nat) (h : ∀ k, s ≤ k → k + 1 < s + n → R (f k) (f (k + 1))) :
    Steps R ((List.range' s n).map f) := by
  induction n generalizing s with
  | zero => trivial
  | succ n ih =>
    cases n with
    | zero => trivial
    | succ n =>
      refine ⟨h s (le_refl _) (by omega), ?_⟩
      exact ih (s + 1) fun k hk hk2 => h k (by omega) (by omega)

theorem edges2bins_cons (a b : Nat) (r : List Nat) : edges2bins (a :: b :: r) = (a, b) :: edges2bins (b :: r) := by
  simp [edges2bins]

theorem edges2bins_steps {R : Nat → Nat → Prop} {e : List Nat} (h : Steps R e) : ∀ b ∈ edges2bins e, R b.1 b.2 := by
  induction e with
  | nil => simp [edges2bins]
  | cons a e ih =>
    cases e with
    | nil => simp [edges2bins]
    | cons b e =>
      rw [edges2bins_cons]
      intro x hx
      rcases List.mem_cons.1 hx with rfl | hx
      · exact h.1
      · exact ih h.2 x hx

def Spaced (nmin : Nat) : List Nat → Prop := Steps fun a b => a + nmin ≤ b

theorem Spaced_snoc {nmin : Nat} {l : List Nat} {a b : Nat} (h : Spaced nmin (l ++ [a])) (hab : a + nmin ≤ b) :
    Spaced nmin (l ++ [a] ++ [b]) := by
  rw [List.append_assoc]
  exact Steps_append h ⟨hab, trivial⟩

theorem expPass_inv (tmp : List Nat) (nmin : Nat) (l : List Nat) (i : Nat) (pre : List Nat)
    (hs : Spaced nmin (pre ++ [tmp.getD i 0])) :
    ∃ pre', (expPass tmp nmin l (i, pre ++ [tmp.getD i 0])).2 =
        pre' ++ [tmp.getD (expPass tmp nmin l (i, pre ++ [tmp.getD i 0])).1 0] ∧
      Spaced nmin (pre' ++ [tmp.getD (expPass tmp nmin l (i, pre ++ [tmp.getD i 0])).1 0]) ∧
      pre ++ [tmp.getD i 0] <+: pre' ++ [tmp.getD (expPass tmp nmin l (i, pre ++ [tmp.getD i 0])).1 0] ∧
      ((expPass tmp nmin l (i, pre ++ [tmp.getD i 0])).1 = i ∨ (expPass tmp nmin l (i, pre ++ [tmp.getD i 0])).1 ∈ l) := by
  induction l generalizing i pre with
  | nil => exact ⟨pre, rfl, hs, List.prefix_refl _, Or.inl rfl⟩
  | cons j l ih =>
    rw [expPass]
    split
    · rename_i h
      obtain ⟨p', h1, h2, h3, h4⟩ := ih j (pre ++ [tmp.getD i 0]) (Spaced_snoc hs h)
      refine ⟨p', h1, h2, (List.prefix_append _ _).trans h3, ?_⟩
      rcases h4 with h4 | h4
      · right; rw [h4]; simp
      · right; exact List.mem_cons_of_mem _ h4
    · obtain ⟨p', h1, h2, h3, h4⟩ := ih i pre hs
      exact ⟨p', h1, h2, h3, h4.imp id (List.mem_cons_of_mem _)⟩

/-- After the pass nothing beyond the final `i` is far enough away. -/
theorem expPass_final (tmp : List Nat) (nmin : Nat) (l : List Nat) (hl : l.Pairwise (· < ·)) (st : Nat × List Nat)
    (j : Nat) (hj : j ∈ l) (hlt : (expPass tmp nmin l st).1 < j) :
    ¬ (tmp.getD (expPass tmp nmin l st).1 0 + nmin ≤ tmp.getD j 0) := by
  induction l generalizing st with
  | nil => simp at hj
  | cons x l ih =>
    obtain ⟨i, fixed⟩ := st
    rw [List.pairwise_cons] at hl
    have hge : ∀ (l : List Nat) (st : Nat × List Nat), (expPass tmp nmin l st).1 = st.1 ∨ (expPass tmp nmin l st).1 ∈ l := by
      intro l
      induction l with
      | nil => intro st; exact Or.inl rfl
      | cons y l ih' =>
        intro st
        obtain ⟨a, b⟩ := st
        rw [expPass]
        split
        · rcases ih' (y, b ++ [tmp.getD y 0]) with h | h
          · right; rw [h]; simp
          · right; exact List.mem_cons_of_mem _ h
        · rcases ih' (a, b) with h | h
          · exact Or.inl h
          · right; simp [h]
    rw [expPass] at hlt ⊢
    by_cases hc : tmp.getD i 0 + nmin ≤ tmp.getD x 0
    · rw [if_pos hc] at hlt ⊢
      rcases List.mem_cons.1 hj with rfl | hj'
      · exfalso
        rcases hge l (j, fixed ++ [tmp.getD j 0]) with h | h
        · rw [h] at hlt; exact absurd hlt (lt_irrefl _)
        · have := hl.1 _ h; omega
      · exact ih hl.2 _ hj' hlt
    · rw [if_neg hc] at hlt ⊢
      rcases List.mem_cons.1 hj with rfl | hj'
      · rcases hge l (i, fixed) with h | h
        · rw [h]; exact hc
        · have := hl.1 _ h; omega
      · exact ih hl.2 _ hj' hlt

theorem expPass_stuck (tmp : List Nat) (nmin : Nat) (l : List Nat) (i : Nat) (fixed : List Nat)
    (h : ∀ j ∈ l, ¬ (tmp.getD i 0 + nmin ≤ tmp.getD j 0)) : expPass tmp nmin l (i, fixed) = (i, fixed) := by
  induction l with
  | nil => rfl
  | cons j l ih =>
    rw [expPass, if_neg (h j (by simp))]
    exact ih fun k hk => h k (by simp [hk])

theorem expLoop_stuck (tmp : List Nat) (nbin nmin i : Nat) (fixed : List Nat) (hi : i < nbin)
    (h : ∀ j, i < j → j ≤ nbin → ¬ (tmp.getD i 0 + nmin ≤ tmp.getD j 0)) (fuel : Nat) :
    expLoop tmp nbin nmin fuel (i, fixed) = none := by
  induction fuel with
  | zero => rw [expLoop, if_neg (by omega)]
  | succ f ih =>
    rw [expLoop, if_neg (by omega)]
    show expLoop tmp nbin nmin f (expPass tmp nmin _ _) = none
    rw [expPass_stuck tmp nmin _ i fixed]
    · exact ih
    · intro j hj
      rw [List.mem_range'_1] at hj
      exact h j (by omega) (by omega)

theorem splitLarge_block (nmax last v : Nat) (hm : 0 < nmax) (hlt : last < v) :
    ∃ m, (v - last + nmax - 1) / nmax = m + 1 ∧
      last :: (List.range (m + 1)).map (fun i => last + (v - last) * (i + 1) / (m + 1)) =
        (List.range' 0 (m + 1)).map (fun k => last + (v - last) * k / (m + 1)) ++ [v] ∧
      Steps (fun a b => a < b ∧ b ≤ a + nmax)
        ((List.range' 0 (m + 1)).map (fun k => last + (v - last) * k / (m + 1)) ++ [v]) := by
  obtain ⟨dv, rfl⟩ : ∃ dv, v = last + (dv + 1) := ⟨v - last - 1, by omega⟩
  rw [show last + (dv + 1) - last = dv + 1 by omega]
  have hs : (dv + 1 + nmax - 1) / nmax = dv / nmax + 1 := by
    rw [show dv + 1 + nmax - 1 = dv + nmax by omega, Nat.add_div_right _ hm]
  refine ⟨dv / nmax, hs, ?_, ?_⟩
  all_goals generalize hq : dv / nmax = m
  all_goals have hlast : (dv + 1) * (m + 1) / (m + 1) = dv + 1 := Nat.mul_div_cancel _ (by omega)
  · apply List.ext_getElem
    · simp
    · intro i h1 h2
      cases i with
      | zero =>
        simp
      | succ i =>
        simp only [List.getElem_cons_succ, List.getElem_map, List.getElem_range]
        rcases Nat.lt_or_ge (i + 1) (m + 1) with h | h
        · rw [List.getElem_append_left (by simpa using h)]
          simp
        · have : i = m := by simp at h1; omega
          subst this
          rw [List.getElem_append_right (by simp)]
          simp [hlast]
  · have e : (List.range' 0 (m + 1)).map (fun k => last + (dv + 1) * k / (m + 1)) ++ [last + (dv + 1)] =
        (List.range' 0 (m + 2)).map (fun k => last + (dv + 1) * k / (m + 1)) := by
      rw [List.range'_concat (n := m + 1), List.map_append]
      simp [hlast]
    rw [e]
    apply Steps_map_range'
    intro k _ hk
    have hm1 : m ≤ dv := by rw [← hq]; exact Nat.div_le_self _ _
    have hm2 : dv + 1 ≤ (m + 1) * nmax := by
      rw [← hq]
      have := Nat.lt_mul_div_succ dv hm
      rw [Nat.mul_comm]; exact this
    rw [show (dv + 1) * (k + 1) = (dv + 1) * k + (dv + 1) by ring]
    have l1 : (dv + 1) * k / (m + 1) + 1 ≤ ((dv + 1) * k + (dv + 1)) / (m + 1) := by
      rw [← Nat.add_div_right _ (by omega)]
      exact Nat.div_le_div_right (by omega)
    have l2 : ((dv + 1) * k + (dv + 1)) / (m + 1) ≤ (dv + 1) * k / (m + 1) + nmax := by
      rw [← Nat.add_mul_div_left _ _ (by omega : 0 < m + 1)]
      exact Nat.div_le_div_right (by omega)
    omega

theorem splitLarge_spec (nmax : Nat) (hm : 0 < nmax) (r : List Nat) (last : Nat) (h : Steps (fun a b => a < b) (last :: r)) :
    Steps (fun a b => a < b ∧ b ≤ a + nmax) (last :: splitLarge nmax last r) ∧
      (last :: splitLarge nmax last r).getLast? = (last :: r).getLast? ∧
      (∀ v ∈ r, v ∈ splitLarge nmax last r) := by
  induction r generalizing last with
  | nil => exact ⟨trivial, rfl, by simp⟩
  | cons v r ih =>
    obtain ⟨m, e1, e2, e3⟩ := splitLarge_block nmax last v hm h.1
    obtain ⟨i1, i2, i3⟩ := ih v h.2
    have hlastD : ((List.range (m + 1)).map (fun i => last + (v - last) * (i + 1) / (m + 1))).getLastD last = v := by
      rw [List.range_succ]
      simp only [List.map_append, List.map_cons, List.map_nil, List.getLastD_concat]
      rw [Nat.mul_div_cancel _ (by omega)]
      have := h.1
      omega
    have key : last :: splitLarge nmax last (v :: r) =
        (List.range' 0 (m + 1)).map (fun k => last + (v - last) * k / (m + 1)) ++ v :: splitLarge nmax v r := by
      rw [splitLarge]
      simp only [e1, hlastD]
      rw [← List.cons_append, e2, List.append_assoc]
      rfl
    have memv : v ∈ splitLarge nmax last (v :: r) := by
      rw [splitLarge]
      simp only [e1, hlastD]
      apply List.mem_append_left
      rw [List.mem_map]
      refine ⟨m, by simp, ?_⟩
      rw [Nat.mul_div_cancel _ (by omega)]
      have := h.1
      omega
    refine ⟨?_, ?_, ?_⟩
    · rw [key]; exact Steps_append e3 i1
    · rw [key, List.getLast?_append_of_ne_nil _ (by simp), i2]
      simp
    · intro x hx
      rcases List.mem_cons.1 hx with rfl | hx
      · exact memv
      · have := i3 x hx
        rw [splitLarge]
        simp only [e1, hlastD]
        exact List.mem_append_right _ this

theorem expLoop_done (tmp : List Nat) (nbin nmin fuel : Nat) (i : Nat) (pre : List Nat) (out : List Nat) (hi : i ≤ nbin)
    (hs : Spaced nmin (pre ++ [tmp.getD i 0])) (h : expLoop tmp nbin nmin fuel (i, pre ++ [tmp.getD i 0]) = some out) :
    ∃ pre', out = pre' ++ [tmp.getD nbin 0] ∧ Spaced nmin out ∧ pre ++ [tmp.getD i 0] <+: out := by
  induction fuel generalizing i pre with
  | zero =>
    rw [expLoop] at h
    split at h
    · cases h
      have : i = nbin := by omega
      subst this
      exact ⟨pre, rfl, hs, List.prefix_refl _⟩
    · simp at h
  | succ f ih =>
    rw [expLoop] at h
    split at h
    · cases h
      have : i = nbin := by omega
      subst this
      exact ⟨pre, rfl, hs, List.prefix_refl _⟩
    · obtain ⟨p', h1, h2, h3, h4⟩ := expPass_inv tmp nmin (List.range' (i + 1) (nbin - i)) i pre hs
      generalize expPass tmp nmin (List.range' (i + 1) (nbin - i)) (i, pre ++ [tmp.getD i 0]) = st at *
      obtain ⟨i', fx⟩ := st
      dsimp only at h1 h2 h3 h4
      subst h1
      have hi' : i' ≤ nbin := by
        rcases h4 with h4 | h4
        · omega
        · rw [List.mem_range'_1] at h4; omega
      obtain ⟨q, a1, a2, a3⟩ := ih i' p' hi' h2 h
      exact ⟨q, a1, a2, h3.trans a3⟩

/-! ### Filling -/

theorem fillSlice_length (res : List ℚ) (b : Nat × Nat) (v : ℚ) : (fillSlice res b v).length = res.length := by
  simp [fillSlice]

theorem fillSlice_get (res : List ℚ) (b : Nat × Nat) (v : ℚ) (i : Nat) (h : i < res.length) :
    (fillSlice res b v).getD i 0 = if b.1 ≤ i ∧ i < b.2 then v else res.getD i 0 := by
  simp [fillSlice, List.getD_eq_getElem?_getD, h]

theorem fill_fold_length (l : List ((Nat × Nat) × ℚ)) (res : List ℚ) :
    (l.foldl (fun res bv => fillSlice res bv.1 bv.2) res).length = res.length := by
  induction l generalizing res with
  | nil => rfl
  | cons x l ih => rw [List.foldl_cons, ih, fillSlice_length]

theorem fill_fold_miss (l : List ((Nat × Nat) × ℚ)) (res : List ℚ) (i : Nat) (hi : i < res.length)
    (h : ∀ x ∈ l, ¬ (x.1.1 ≤ i ∧ i < x.1.2)) :
    (l.foldl (fun res bv => fillSlice res bv.1 bv.2) res).getD i 0 = res.getD i 0 := by
  induction l generalizing res with
  | nil => rfl
  | cons x l ih =>
    rw [List.foldl_cons, ih _ (by rw [fillSlice_length]; exact hi) (fun y hy => h y (by simp [hy])),
      fillSlice_get _ _ _ _ hi, if_neg (h x (by simp))]

theorem fill_fold_hit (l : List ((Nat × Nat) × ℚ)) (res : List ℚ) (i : Nat) (hi : i < res.length)
    (hd : l.Pairwise fun x y => x.1.2 ≤ y.1.1) (x : (Nat × Nat) × ℚ) (hx : x ∈ l) (hxi : x.1.1 ≤ i ∧ i < x.1.2) :
    (l.foldl (fun res bv => fillSlice res bv.1 bv.2) res).getD i 0 = x.2 := by
  induction l generalizing res with
  | nil => simp at hx
  | cons y l ih =>
    rw [List.pairwise_cons] at hd
    rw [List.foldl_cons]
    rcases List.mem_cons.1 hx with rfl | hx
    · rw [fill_fold_miss _ _ _ (by rw [fillSlice_length]; exact hi), fillSlice_get _ _ _ _ hi, if_pos hxi]
      intro z hz hc
      have := hd.1 z hz
      omega
    · exact ih _ (by rw [fillSlice_length]; exact hi) hd.2 hx

theorem meanQ_const (l : List ℚ) (v : ℚ) (h : ∀ x ∈ l, x = v) (hne : l ≠ []) : meanQ l = v := by
  have : l = List.replicate l.length v := List.eq_replicate_of_mem h
  have h0 : (l.length : ℚ) ≠ 0 := by
    have := List.length_pos_of_ne_nil hne
    positivity
  unfold meanQ
  rw [this]
  simp only [List.sum_replicate, List.length_replicate, nsmul_eq_mul]
  field_simp

end Pixell
