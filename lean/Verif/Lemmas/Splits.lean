import Verif.Model.Splits
import Verif.Lemmas.Sort
import Mathlib.Algebra.BigOperators.Group.List.Basic
import Mathlib.Algebra.Order.BigOperators.Group.List
import Mathlib.Tactic.Linarith
import Mathlib.Tactic.Ring

namespace Pixell

/-! ### Groups -/

theorem flatten_modify_perm {β : Type} (g : List (List β)) (j : Nat) (x : β) (h : j < g.length) :
    (g.modify j (· ++ [x])).flatten.Perm (x :: g.flatten) := by
  induction g generalizing j with
  | nil => simp at h
  | cons a g ih =>
    cases j with
    | zero =>
      simp only [List.modify_zero_cons, List.flatten_cons, List.append_assoc]
      have : (a ++ ([x] ++ g.flatten)).Perm ([x] ++ (a ++ g.flatten)) := by
        rw [← List.append_assoc, ← List.append_assoc]
        exact (List.perm_append_comm).append_right _
      simpa using this
    | succ j =>
      simp only [List.modify_succ_cons, List.flatten_cons]
      have h' := ih j (by simpa using h)
      exact (h'.append_left a).trans List.perm_middle

theorem argmin_aux (s : List ℚ) (n : Nat) (hn : n ≤ s.length) (hs : s ≠ []) :
    let r := (List.range n).foldl (fun small j => if s.getD j 0 < s.getD small 0 then j else small) 0
    r < s.length ∧ ∀ j < n, s.getD r 0 ≤ s.getD j 0 := by
  induction n with
  | zero => exact ⟨List.length_pos_of_ne_nil hs, fun j hj => absurd hj (Nat.not_lt_zero j)⟩
  | succ n ih =>
    intro r
    obtain ⟨h1, h2⟩ := ih (by omega)
    simp only [r, List.range_succ, List.foldl_append, List.foldl_cons, List.foldl_nil]
    generalize (List.range n).foldl (fun small j => if s.getD j 0 < s.getD small 0 then j else small) 0 = q at *
    split
    · rename_i hlt
      refine ⟨by omega, fun j hj => ?_⟩
      rcases Nat.lt_or_ge j n with h | h
      · exact le_trans (le_of_lt hlt) (h2 j h)
      · have : j = n := by omega
        subst this; exact le_refl _
    · rename_i hlt
      refine ⟨h1, fun j hj => ?_⟩
      rcases Nat.lt_or_ge j n with h | h
      · exact h2 j h
      · have : j = n := by omega
        subst this; exact not_lt.1 hlt

theorem argminIdx_spec (s : List ℚ) (hs : s ≠ []) :
    argminIdx s < s.length ∧ ∀ j < s.length, s.getD (argminIdx s) 0 ≤ s.getD j 0 :=
  argmin_aux s s.length (le_refl _) hs

/-- Total weight of a group. -/
def groupWeight (w : List ℚ) (g : List Nat) : ℚ := (g.map fun i => w.getD i 0).sum

structure GreedyInv (w : List ℚ) (n : Nat) (W : ℚ) (st : List ℚ × List (List Nat)) : Prop where
  len1 : st.1.length = n
  len2 : st.2.length = n
  sums : st.1 = st.2.map (groupWeight w)
  bal : ∀ j < n, ∀ k < n, st.1.getD j 0 ≤ st.1.getD k 0 + W

theorem greedyStep_inv {w : List ℚ} {n : Nat} (hn : 0 < n) {W : ℚ} {st : List ℚ × List (List Nat)}
    (h : GreedyInv w n W st) {i : Nat} (hi0 : 0 ≤ w.getD i 0) (hiW : w.getD i 0 ≤ W) :
    GreedyInv w n W (greedyStep w st i) ∧ (greedyStep w st i).2.flatten.Perm (i :: st.2.flatten) := by
  have hne : st.1 ≠ [] := by
    intro hc; have := h.len1; rw [hc] at this; simp at this; omega
  obtain ⟨m1, m2⟩ := argminIdx_spec st.1 hne
  rw [h.len1] at m1 m2
  unfold greedyStep
  generalize argminIdx st.1 = m at *
  refine ⟨⟨by simp [h.len1], by simp [h.len2], ?_, ?_⟩, flatten_modify_perm _ _ _ (by rw [h.len2]; exact m1)⟩
  · dsimp only
    rw [h.sums]
    apply List.ext_getElem
    · simp
    · intro k h1 h2
      simp only [List.getElem_modify, List.getElem_map]
      split
      · subst_vars
        simp [groupWeight, List.sum_append]
      · rfl
  · have hget : ∀ j < n, (st.1.modify m (· + w.getD i 0)).getD j 0 =
        if m = j then st.1.getD j 0 + w.getD i 0 else st.1.getD j 0 := by
      intro j hj
      have hj' : j < st.1.length := by rw [h.len1]; exact hj
      rw [List.getD_eq_getElem?_getD, List.getElem?_modify, List.getElem?_eq_getElem hj']
      rw [List.getD_eq_getElem?_getD (l := st.1), List.getElem?_eq_getElem hj']
      split <;> simp_all
    intro j hj k hk
    dsimp only
    rw [hget j hj, hget k hk]
    have b1 := h.bal j hj k hk
    have b2 := m2 k hk
    by_cases e1 : m = j
    · by_cases e2 : m = k
      · rw [if_pos e1, if_pos e2]; linarith
      · rw [if_pos e1, if_neg e2]; subst e1; linarith
    · by_cases e2 : m = k
      · rw [if_neg e1, if_pos e2]; linarith
      · rw [if_neg e1, if_neg e2]; exact b1

theorem greedy_fold {w : List ℚ} {n : Nat} (hn : 0 < n) {W : ℚ} (hw : ∀ x ∈ w, 0 ≤ x ∧ x ≤ W) (l : List Nat)
    (hl : ∀ i ∈ l, i < w.length) (st : List ℚ × List (List Nat)) (h : GreedyInv w n W st) :
    GreedyInv w n W (l.foldl (greedyStep w) st) ∧ (l.foldl (greedyStep w) st).2.flatten.Perm (l ++ st.2.flatten) := by
  induction l generalizing st with
  | nil => exact ⟨h, List.Perm.refl _⟩
  | cons i l ih =>
    have hi := hl i (by simp)
    have hwi : w.getD i 0 = w[i] := by rw [List.getD_eq_getElem?_getD, List.getElem?_eq_getElem hi]; rfl
    have hb := hw w[i] (List.getElem_mem hi)
    rw [← hwi] at hb
    obtain ⟨h1, h2⟩ := greedyStep_inv hn h hb.1 hb.2
    obtain ⟨h3, h4⟩ := ih (fun j hj => hl j (by simp [hj])) _ h1
    refine ⟨h3, h4.trans ?_⟩
    exact (h2.append_left l).trans List.perm_middle

/-- Partition alone, without any assumption on the weights. -/
theorem greedy_fold_perm {w : List ℚ} {n : Nat} (hn : 0 < n) (l : List Nat)
    (st : List ℚ × List (List Nat)) (h1 : st.1.length = n) (h2 : st.2.length = n) :
    (l.foldl (greedyStep w) st).1.length = n ∧ (l.foldl (greedyStep w) st).2.length = n ∧
    (l.foldl (greedyStep w) st).2.flatten.Perm (l ++ st.2.flatten) := by
  induction l generalizing st with
  | nil => exact ⟨h1, h2, List.Perm.refl _⟩
  | cons i l ih =>
    have hne : st.1 ≠ [] := by intro hc; rw [hc] at h1; simp at h1; omega
    have m1 := (argminIdx_spec st.1 hne).1
    obtain ⟨i1, i2, i3⟩ := ih (greedyStep w st i) (by simp [greedyStep, h1]) (by simp [greedyStep, h2])
    refine ⟨i1, i2, i3.trans ?_⟩
    have := flatten_modify_perm st.2 (argminIdx st.1) i (by omega)
    exact (this.append_left l).trans List.perm_middle

theorem bestGroup_spec {W D : Type} (costfun : List W → Option ℚ) (workfun : W → D → W) (work : List W) (d : D)
    (hc : ∀ l : List W, l.length = work.length → ∃ c, costfun l = some c) (l : List Nat) (hl : ∀ i ∈ l, i < work.length)
    (best : Option (Nat × ℚ)) (hb : ∀ b, best = some b → b.1 < work.length) (hne : l ≠ [] ∨ best ≠ none) :
    ∃ b, bestGroup costfun workfun work d l best = some (some b) ∧ b.1 < work.length := by
  induction l generalizing best with
  | nil =>
    cases best with
    | none => simp at hne
    | some b => exact ⟨b, rfl, hb b rfl⟩
  | cons i l ih =>
    have hi := hl i (by simp)
    obtain ⟨c, hcc⟩ := hc (work.set i (workfun work[i] d)) (by simp)
    cases best with
    | none =>
      obtain ⟨b, h1, h2⟩ := ih (fun j hj => hl j (by simp [hj])) (some (i, c)) (by rintro b ⟨⟩; exact hi) (by simp)
      exact ⟨b, by simp [bestGroup, hi, hcc, h1], h2⟩
    | some b0 =>
      obtain ⟨b, h1, h2⟩ := ih (fun j hj => hl j (by simp [hj])) (if c < b0.2 then some (i, c) else some b0)
        (by intro b hb'; split at hb' <;> (cases hb'); exact hi; exact hb b0 rfl) (by split <;> simp)
      exact ⟨b, by simp [bestGroup, hi, hcc, h1], h2⟩

theorem greedyLoop_spec {W D : Type} (costfun : List W → Option ℚ) (workfun : W → D → W) (data : List D) (n : Nat)
    (hn : 0 < n) (hc : ∀ l : List W, l.length = n → ∃ c, costfun l = some c) (l : List Nat)
    (hl : ∀ i ∈ l, i < data.length) (work : List W) (groups : List (List Nat)) (h1 : work.length = n)
    (h2 : groups.length = n) :
    ∃ st, greedyLoop costfun workfun data n l (work, groups) = some st ∧ st.2.length = n ∧
      st.2.flatten.Perm (l ++ groups.flatten) := by
  induction l generalizing work groups with
  | nil => exact ⟨_, rfl, h2, List.Perm.refl _⟩
  | cons i l ih =>
    have hi := hl i (by simp)
    obtain ⟨b, hb1, hb2⟩ := bestGroup_spec costfun workfun work data[i] (by rw [h1]; exact hc) (List.range n)
      (by intro j hj; rw [h1]; exact List.mem_range.1 hj) none (by simp) (Or.inl (by
        intro hh; rw [List.range_eq_nil] at hh; omega))
    obtain ⟨st, e, e2, e3⟩ := ih (fun j hj => hl j (by simp [hj])) (work.set b.1 (workfun work[b.1] data[i]))
      (groups.modify b.1 (· ++ [i])) (by simp [h1]) (by simp [h2])
    refine ⟨st, ?_, e2, e3.trans ?_⟩
    · simp [greedyLoop, hi, hb1, hb2, e]
    · exact ((flatten_modify_perm groups b.1 i (by omega)).append_left l).trans List.perm_middle

/-! ### Cumulative sums -/

theorem cumsum_aux (l : List ℚ) (acc : ℚ) (out : List ℚ) :
    (l.foldl (fun st x => (st.1 + x, st.2 ++ [st.1 + x])) (acc, out)).2 =
      out ++ (List.range l.length).map fun i => acc + (l.take (i + 1)).sum := by
  induction l generalizing acc out with
  | nil => simp
  | cons x l ih =>
    rw [List.foldl_cons, ih, List.length_cons, List.range_succ_eq_map]
    simp only [List.map_cons, List.map_map, List.append_assoc, List.take_succ_cons, List.sum_cons]
    congr 1
    simp only [List.cons_append, List.nil_append, List.take_zero, List.sum_nil, add_zero]
    congr 1
    apply List.map_congr_left
    intro i _
    simp only [Function.comp, Nat.succ_eq_add_one]
    ring

theorem cumsumQ_eq (l : List ℚ) : cumsumQ l = (List.range l.length).map fun i => (l.take (i + 1)).sum := by
  unfold cumsumQ
  rw [cumsum_aux]
  simp

theorem countP_prefix {n : Nat} (p : Nat → Bool) (k : Nat) (hk : k ≤ n) (h1 : ∀ i < k, p i = true)
    (h2 : ∀ i, k ≤ i → i < n → p i = false) : (List.range n).countP p = k := by
  obtain ⟨m, rfl⟩ := Nat.exists_eq_add_of_le hk
  rw [List.range_add, List.countP_append, List.countP_map]
  have e1 : (List.range k).countP p = k := by
    rw [List.countP_eq_length.2 (fun i hi => h1 i (List.mem_range.1 hi)), List.length_range]
  have e2 : (List.range m).countP (p ∘ fun x => k + x) = 0 := by
    rw [List.countP_eq_zero]
    intro i hi
    have := h2 (k + i) (by omega) (by have := List.mem_range.1 hi; omega)
    simp [this]
  omega

theorem exists_threshold (p : Nat → Bool) (hmono : ∀ i j, i ≤ j → p j = true → p i = true) (n : Nat) :
    ∃ k, k ≤ n ∧ (∀ i < k, p i = true) ∧ ∀ i, k ≤ i → i < n → p i = false := by
  induction n with
  | zero => exact ⟨0, le_refl _, by simp, fun i _ h => absurd h (by omega)⟩
  | succ n ih =>
    obtain ⟨k, h1, h2, h3⟩ := ih
    cases hp : p n with
    | true => exact ⟨n + 1, le_refl _, fun i hi => hmono i n (by omega) hp, fun i _ _ => by omega⟩
    | false =>
      refine ⟨k, by omega, h2, fun i hi hin => ?_⟩
      rcases Nat.lt_or_ge i n with h | h
      · exact h3 i hi h
      · have : i = n := by omega
        rw [this, hp]

theorem prefix_sum_mono {l : List ℚ} (h : ∀ x ∈ l, 0 ≤ x) {i j : Nat} (hij : i ≤ j) :
    (l.take i).sum ≤ (l.take j).sum := by
  obtain ⟨k, rfl⟩ := Nat.exists_eq_add_of_le hij
  rw [List.take_add, List.sum_append]
  have : 0 ≤ ((l.drop i).take k).sum := by
    apply List.sum_nonneg
    intro x hx
    exact h x (List.mem_of_mem_drop (List.mem_of_mem_take hx))
  linarith

theorem searchRight_spec {sizes : List ℚ} (h : ∀ x ∈ sizes, 0 ≤ x) (v : ℚ) :
    let k := searchRight (cumsumQ sizes) v
    k ≤ sizes.length ∧ (k = 0 ∨ (sizes.take k).sum ≤ v) ∧ (k < sizes.length → v < (sizes.take (k + 1)).sum) := by
  intro k
  obtain ⟨q, h1, h2, h3⟩ := exists_threshold (fun i => decide ((sizes.take (i + 1)).sum ≤ v))
    (fun i j hij hj => by
      simp only [decide_eq_true_eq] at hj ⊢
      exact le_trans (prefix_sum_mono h (by omega)) hj) sizes.length
  have hk : k = q := by
    simp only [k, searchRight, cumsumQ_eq, List.countP_map]
    exact countP_prefix _ q h1 h2 h3
  rw [hk]
  refine ⟨h1, ?_, ?_⟩
  · rcases Nat.eq_zero_or_pos q with h | h
    · exact Or.inl h
    · right
      have := h2 (q - 1) (by omega)
      simp only [decide_eq_true_eq] at this
      rwa [show q - 1 + 1 = q by omega] at this
  · intro hlt
    have := h3 q (le_refl _) hlt
    simpa using this

theorem greedy_inv {w : List ℚ} {n : Nat} (hn : 0 < n) {W : ℚ} (hW : 0 ≤ W) (hw : ∀ x ∈ w, 0 ≤ x ∧ x ≤ W)
    {g : List (List Nat)} (hg : greedySimple w n = some g) : ∃ sums, GreedyInv w n W (sums, g) := by
  unfold greedySimple at hg
  rw [if_neg (by omega), Option.some.injEq] at hg
  have h := (greedy_fold hn hw (argsort (fun a b => decide (a ≤ b)) w).reverse
    (by intro i hi; exact (mem_argsort _ _ _).1 (List.mem_reverse.1 hi))
    (List.replicate n 0, List.replicate n [])
    ⟨by simp, by simp, by simp [groupWeight], by
      intro j hj k hk
      simp [List.getD_eq_getElem?_getD, hj, hk, hW]⟩).1
  rw [← hg]
  exact ⟨_, h⟩

/-! ### listsplit -/

theorem intercalate_nil_cons {β : Type} (e : β) (h : List β) (t : List (List β)) :
    [e].intercalate ([] :: h :: t) = e :: [e].intercalate (h :: t) := by
  simp [List.intercalate, List.intersperse]

theorem intercalate_cons_cons {β : Type} (e x : β) (h : List β) (t : List (List β)) :
    [e].intercalate ((x :: h) :: t) = x :: [e].intercalate (h :: t) := by
  cases t <;> simp [List.intercalate, List.intersperse]

/-- Slices of `s` between the positions in `A` and `B`. -/
def slicesOf {β : Type} (s : List β) (A B : List Nat) : List (List β) :=
  (A.zip B).map fun ab => (s.drop ab.1).take (ab.2 - ab.1)

theorem slicesOf_shift {β : Type} (x : β) (s : List β) (A B : List Nat) :
    slicesOf (x :: s) (A.map (· + 1)) (B.map (· + 1)) = slicesOf s A B := by
  unfold slicesOf
  rw [List.zip_map, List.map_map]
  apply List.map_congr_left
  intro ab _
  simp

def sepInds {β : Type} [DecidableEq β] (s : List β) (e : β) : List Nat :=
  (List.range s.length).filter fun i => s[i]? == some e

theorem listsplit_eq {β : Type} [DecidableEq β] (s : List β) (e : β) :
    listsplit s e = slicesOf s (0 :: (sepInds s e).map (· + 1)) (sepInds s e ++ [s.length]) := rfl

theorem sepInds_cons {β : Type} [DecidableEq β] (x : β) (s : List β) (e : β) :
    sepInds (x :: s) e = (if x = e then [0] else []) ++ (sepInds s e).map (· + 1) := by
  unfold sepInds
  rw [List.length_cons, List.range_succ_eq_map, List.filter_cons, List.filter_map]
  by_cases h : x = e
  · simp [h, Function.comp_def]
  · simp [h, Function.comp_def]

theorem listsplit_ne_nil {β : Type} [DecidableEq β] (s : List β) (e : β) : ∃ h t, listsplit s e = h :: t := by
  rw [listsplit_eq]
  cases hB : sepInds s e ++ [s.length] with
  | nil => simp at hB
  | cons b B => exact ⟨_, _, rfl⟩

theorem listsplit_cons_eq {β : Type} [DecidableEq β] {x e : β} (s : List β) (h : x = e) :
    listsplit (x :: s) e = [] :: listsplit s e := by
  rw [listsplit_eq, sepInds_cons, if_pos h, listsplit_eq]
  have : slicesOf (x :: s) (0 :: ([0] ++ (sepInds s e).map (· + 1)).map (· + 1))
      ([0] ++ (sepInds s e).map (· + 1) ++ [(x :: s).length]) =
      [] :: slicesOf (x :: s) ((0 :: (sepInds s e).map (· + 1)).map (· + 1)) ((sepInds s e ++ [s.length]).map (· + 1)) := by
    simp [slicesOf]
  rw [this, slicesOf_shift]

theorem listsplit_cons_ne {β : Type} [DecidableEq β] {x e : β} (s : List β) (hx : ¬ x = e) {h : List β}
    {t : List (List β)} (hs : listsplit s e = h :: t) : listsplit (x :: s) e = (x :: h) :: t := by
  rw [listsplit_eq] at hs
  rw [listsplit_eq, sepInds_cons, if_neg hx]
  have e1 : ([] ++ (sepInds s e).map (· + 1)) ++ [(x :: s).length] = (sepInds s e ++ [s.length]).map (· + 1) := by
    simp
  rw [e1, List.nil_append]
  cases hB : sepInds s e ++ [s.length] with
  | nil => simp at hB
  | cons b B =>
    rw [hB] at hs
    have e2 : slicesOf (x :: s) (0 :: ((sepInds s e).map (· + 1)).map (· + 1)) ((b :: B).map (· + 1)) =
        (x :: s.take b) :: slicesOf (x :: s) (((sepInds s e).map (· + 1)).map (· + 1)) (B.map (· + 1)) := by
      simp [slicesOf]
    rw [e2, slicesOf_shift]
    have e3 : slicesOf s (0 :: (sepInds s e).map (· + 1)) (b :: B) =
        s.take b :: slicesOf s ((sepInds s e).map (· + 1)) B := by simp [slicesOf]
    rw [e3, List.cons.injEq] at hs
    rw [hs.1, hs.2]

end Pixell
