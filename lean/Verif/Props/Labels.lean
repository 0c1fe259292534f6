import Verif.Model.Broadcast
import Mathlib.Algebra.Order.Ring.Abs
import Mathlib.Algebra.Order.AbsoluteValue.Basic
import Mathlib.Tactic.Linarith
import Mathlib.Tactic.FieldSimp
import Mathlib.Tactic.Ring
import Mathlib.Tactic.NormNum

/-
Properties C116 (labels of unique values) and C117 (blockwise means).
-/
namespace Pixell

/-! ### label_unique -/

section label
variable {α : Type} (close : α → α → Bool) (fa : List α)

/-- What holds after the entries before `k` have been handled: the labels are below the next label; entries with a label were
matched by a representative handled before, all entries with the same label by the same one; handled entries have a label if
they match themselves. -/
structure LabelInv (k : Nat) (st : List ℤ × ℤ) : Prop where
  len : st.1.length = fa.length
  nonneg : 0 ≤ st.2
  rep : ∀ l : ℤ, 0 ≤ l → ∃ r : Nat, ∀ i : Nat, st.1[i]? = some l → l < st.2 ∧ r < k ∧ ∃ v x, fa[r]? = some v ∧ fa[i]? = some x ∧ close v x = true
  ge : ∀ (i : Nat) (l : ℤ), st.1[i]? = some l → -1 ≤ l
  done : ∀ i : Nat, i < k → ∀ x, fa[i]? = some x → close x x = true → ∀ l, st.1[i]? = some l → 0 ≤ l

theorem labelInv_step (k : Nat) (hk : k < fa.length) (st : List ℤ × ℤ) (h : LabelInv close fa k st) : LabelInv close fa (k + 1) (uniqStep close fa st k) := by
  have hk1 : k < st.1.length := by rw [h.len]; exact hk
  unfold uniqStep
  rw [List.getElem?_eq_getElem hk1, List.getElem?_eq_getElem hk]
  simp only []
  by_cases hl : st.1[k] ≥ 0
  · rw [if_pos hl]
    refine ⟨h.len, h.nonneg, ?_, h.ge, ?_⟩
    · intro l hl0
      obtain ⟨r, hr⟩ := h.rep l hl0
      exact ⟨r, fun i hi => ⟨(hr i hi).1, by have := (hr i hi).2.1; omega, (hr i hi).2.2⟩⟩
    · intro i hi x hx hxx l hil
      rcases Nat.lt_or_ge i k with h1 | h1
      · exact h.done i h1 x hx hxx l hil
      · have : i = k := by omega
        subst this
        rw [List.getElem?_eq_getElem hk1, Option.some.injEq] at hil
        rw [← hil]; exact hl
  · rw [if_neg hl]
    have hz : ∀ (i : Nat) (m : ℤ), (List.zipWith (fun x m => if close fa[k] x then st.2 else m) fa st.1)[i]? = some m →
        ∃ x m', fa[i]? = some x ∧ st.1[i]? = some m' ∧ m = if close fa[k] x then st.2 else m' := by
      intro i m hm
      rw [List.getElem?_zipWith] at hm
      cases hx : fa[i]? with
      | none => rw [hx] at hm; simp at hm
      | some x =>
        cases hm' : st.1[i]? with
        | none => rw [hx, hm'] at hm; simp at hm
        | some m' =>
          rw [hx, hm'] at hm
          simp only [Option.some.injEq] at hm
          exact ⟨x, m', rfl, rfl, hm.symm⟩
    have hn := h.nonneg
    refine ⟨by rw [List.length_zipWith, h.len, Nat.min_self], by simp only []; omega, ?_, ?_, ?_⟩
    · intro l hl0
      by_cases hls : l = st.2
      · refine ⟨k, fun i hi => ?_⟩
        obtain ⟨x, m', hx, hm', he⟩ := hz i l hi
        refine ⟨by simp only []; omega, by omega, fa[k], x, List.getElem?_eq_getElem hk, hx, ?_⟩
        by_contra hc
        rw [if_neg hc] at he
        obtain ⟨r, hr⟩ := h.rep l hl0
        have := (hr i (by rw [he]; exact hm')).1
        omega
      · obtain ⟨r, hr⟩ := h.rep l hl0
        refine ⟨r, fun i hi => ?_⟩
        obtain ⟨x, m', hx, hm', he⟩ := hz i l hi
        by_cases hc : close fa[k] x = true
        · rw [if_pos hc] at he; exact absurd he hls
        · rw [if_neg hc] at he
          obtain ⟨a, b, c⟩ := hr i (by rw [he]; exact hm')
          exact ⟨by simp only []; omega, by omega, c⟩
    · intro i l hil
      obtain ⟨x, m', hx, hm', he⟩ := hz i l hil
      have := h.ge i m' hm'
      rw [he]; split_ifs <;> omega
    · intro i hi x hx hxx l hil
      obtain ⟨x', m', hx', hm', he⟩ := hz i l hil
      rw [hx] at hx'
      simp only [Option.some.injEq] at hx'
      subst hx'
      rcases Nat.lt_or_ge i k with h1 | h1
      · have := h.done i h1 x hx hxx m' hm'
        rw [he]; split_ifs <;> omega
      · have : i = k := by omega
        subst this
        rw [List.getElem?_eq_getElem hk, Option.some.injEq] at hx
        rw [← hx] at hxx he
        rw [if_pos hxx] at he
        omega

theorem labelInv_fold (k : Nat) (hk : k ≤ fa.length) :
    LabelInv close fa k ((List.range k).foldl (uniqStep close fa) (List.replicate fa.length (-1), 0)) := by
  induction k with
  | zero =>
    have hrep : ∀ (i : Nat) (l : ℤ), (List.replicate fa.length (-1 : ℤ))[i]? = some l → l = -1 := fun i l h => List.eq_of_mem_replicate (List.mem_of_getElem? h)
    refine ⟨by simp, le_refl _, ?_, ?_, ?_⟩
    · intro l hl
      exact ⟨0, fun i hi => by have := hrep i l hi; omega⟩
    · intro i l hi; rw [hrep i l hi]
    · intro i hi; omega
  | succ k ih =>
    rw [List.range_succ, List.foldl_append]
    exact labelInv_step close fa k (by omega) _ (ih (by omega))

/-- C116: every entry that is close to itself (all but NaN) gets a label from 0 to below the number of labels given out, and all
entries with the same label are close to the same one of the entries. -/
theorem C116_label (i j : Nat) (x y : α) (hi : fa[i]? = some x) (hj : fa[j]? = some y) (hx : close x x = true) :
    ∃ l, (labelUnique close fa).1[i]? = some l ∧ 0 ≤ l ∧ l < (labelUnique close fa).2 ∧
      ((labelUnique close fa).1[j]? = some l → ∃ (r : Nat) (v : α), fa[r]? = some v ∧ close v x = true ∧ close v y = true) := by
  have h : LabelInv close fa fa.length (labelUnique close fa) := labelInv_fold close fa fa.length (le_refl _)
  generalize labelUnique close fa = st at *
  have hil : i < fa.length := (List.getElem?_eq_some_iff.1 hi).1
  have hi1 : i < st.1.length := by rw [h.len]; exact hil
  have hl := List.getElem?_eq_getElem hi1
  have hl0 := h.done i hil x hi hx _ hl
  obtain ⟨r, hr⟩ := h.rep _ hl0
  refine ⟨_, hl, hl0, (hr i hl).1, ?_⟩
  intro hjl
  obtain ⟨-, -, v, x', h1, h2, h3⟩ := hr i hl
  obtain ⟨-, -, w, y', h4, h5, h6⟩ := hr j hjl
  rw [hi] at h2; rw [hj] at h5; rw [h1] at h4
  simp only [Option.some.injEq] at h2 h5 h4
  subst h2; subst h5; subst h4
  exact ⟨r, v, h1, h3, h6⟩

/-- When closeness is an equivalence, as for exact comparisons: the labels of the handled classes are those given out. -/
structure LabelEqInv (k : Nat) (st : List ℤ × ℤ) : Prop where
  all : ∀ l : ℤ, 0 ≤ l → l < st.2 → ∃ i : Nat, i < k ∧ st.1[i]? = some l
  cls : ∀ (i j : Nat) (x y : α), fa[i]? = some x → fa[j]? = some y → close x y = true → st.1[i]? = st.1[j]?

theorem labelEq_step (hrefl : ∀ x, close x x = true) (hsymm : ∀ x y, close x y = true → close y x = true)
    (htrans : ∀ x y z, close x y = true → close y z = true → close x z = true) (k : Nat) (hk : k < fa.length) (st : List ℤ × ℤ) (h0 : LabelInv close fa k st)
    (h : LabelEqInv close fa k st) : LabelEqInv close fa (k + 1) (uniqStep close fa st k) := by
  have hk1 : k < st.1.length := by rw [h0.len]; exact hk
  unfold uniqStep
  rw [List.getElem?_eq_getElem hk1, List.getElem?_eq_getElem hk]
  simp only []
  by_cases hl : st.1[k] ≥ 0
  · rw [if_pos hl]
    refine ⟨fun l h1 h2 => ?_, h.cls⟩
    obtain ⟨i, hi, he⟩ := h.all l h1 h2
    exact ⟨i, by omega, he⟩
  · rw [if_neg hl]
    refine ⟨fun l h1 h2 => ?_, ?_⟩
    · by_cases hls : l = st.2
      · refine ⟨k, by omega, ?_⟩
        rw [List.getElem?_zipWith, List.getElem?_eq_getElem hk, List.getElem?_eq_getElem hk1]
        simp [hrefl, hls]
      · simp only [] at h2
        obtain ⟨i, hi, he⟩ := h.all l h1 (by omega)
        refine ⟨i, by omega, ?_⟩
        have hif : i < fa.length := by omega
        rw [List.getElem?_zipWith, List.getElem?_eq_getElem hif, he]
        simp only [Option.some.injEq]
        rw [if_neg]
        intro hc
        have := h.cls k i _ _ (List.getElem?_eq_getElem hk) (List.getElem?_eq_getElem hif) hc
        rw [he, List.getElem?_eq_getElem hk1, Option.some.injEq] at this
        omega
    · intro i j x y hx hy hxy
      have := h.cls i j x y hx hy hxy
      rw [List.getElem?_zipWith, List.getElem?_zipWith, hx, hy, this]
      cases st.1[j]? with
      | none => rfl
      | some m =>
        simp only [Option.some.injEq]
        have : close fa[k] x = close fa[k] y := by
          rw [Bool.eq_iff_iff]
          exact ⟨fun h => htrans _ _ _ h hxy, fun h => htrans _ _ _ h (hsymm _ _ hxy)⟩
        rw [this]

/-- C116: for a closeness that is an equivalence two entries get the same label exactly if they are close, and the labels
given out are all used. -/
theorem C116_exact (hrefl : ∀ x, close x x = true) (hsymm : ∀ x y, close x y = true → close y x = true)
    (htrans : ∀ x y z, close x y = true → close y z = true → close x z = true) :
    (∀ (i j : Nat) (x y : α), fa[i]? = some x → fa[j]? = some y → ((labelUnique close fa).1[i]? = (labelUnique close fa).1[j]? ↔ close x y = true)) ∧
    (∀ l : ℤ, 0 ≤ l ∧ l < (labelUnique close fa).2 ↔ l ∈ (labelUnique close fa).1) := by
  have key : ∀ k ≤ fa.length, LabelEqInv close fa k ((List.range k).foldl (uniqStep close fa) (List.replicate fa.length (-1), 0)) := by
    intro k
    induction k with
    | zero =>
      intro _
      refine ⟨fun l h1 h2 => ?_, ?_⟩
      · simp at h2; omega
      · intro i j x y hx hy _
        have hi := (List.getElem?_eq_some_iff.1 hx).1
        have hj := (List.getElem?_eq_some_iff.1 hy).1
        simp [hi, hj]
    | succ k ih =>
      intro hk
      rw [List.range_succ, List.foldl_append]
      exact labelEq_step close fa hrefl hsymm htrans k (by omega) _ (labelInv_fold close fa k (by omega)) (ih (by omega))
  have h : LabelEqInv close fa fa.length (labelUnique close fa) := key _ (le_refl _)
  have h0 : LabelInv close fa fa.length (labelUnique close fa) := labelInv_fold close fa _ (le_refl _)
  constructor
  · intro i j x y hx hy
    constructor
    · intro he
      obtain ⟨l, h1, -, -, h4⟩ := C116_label close fa i j x y hx hy (hrefl x)
      obtain ⟨r, v, -, h5, h6⟩ := h4 (he ▸ h1)
      exact htrans _ _ _ (hsymm _ _ h5) h6
    · exact h.cls i j x y hx hy
  · intro l
    constructor
    · rintro ⟨h1, h2⟩
      obtain ⟨i, -, he⟩ := h.all l h1 h2
      exact List.mem_of_getElem? he
    · intro hl
      obtain ⟨i, hi⟩ := List.mem_iff_getElem?.1 hl
      have hif : i < fa.length := by rw [← h0.len]; exact (List.getElem?_eq_some_iff.1 hi).1
      have h1 := h0.done i hif _ (List.getElem?_eq_getElem hif) (hrefl _) l hi
      obtain ⟨r, hr⟩ := h0.rep l h1
      exact ⟨h1, (hr i hi).1⟩

end label

example : labelUnique (fun a b : Nat => a == b) [5, 7, 5, 9] = ([0, 1, 0, 2], 3) := by decide

/-- C116: with the tolerances of np.isclose, entries with the same label differ by no more than the two tolerances. -/
theorem C116_tolerance (rtol atol : ℚ) (hr : 0 ≤ rtol) (ha : 0 ≤ atol) (fa : List (Option ℚ)) (i j : Nat) (x y : ℚ) (hi : fa[i]? = some (some x))
    (hj : fa[j]? = some (some y)) (h : (labelUnique (iscloseQ rtol atol) fa).1[i]? = (labelUnique (iscloseQ rtol atol) fa).1[j]?) :
    |x - y| ≤ 2 * atol + rtol * (|x| + |y|) := by
  have hxx : iscloseQ rtol atol (some x) (some x) = true := by
    unfold iscloseQ
    rw [decide_eq_true_eq, sub_self, abs_zero]
    positivity
  obtain ⟨l, h1, -, -, h4⟩ := C116_label (iscloseQ rtol atol) fa i j (some x) (some y) hi hj hxx
  obtain ⟨r, v, -, h5, h6⟩ := h4 (h ▸ h1)
  cases v with
  | none => simp [iscloseQ] at h5
  | some v =>
    unfold iscloseQ at h5 h6
    rw [decide_eq_true_eq] at h5 h6
    have : |x - y| ≤ |v - x| + |v - y| := by
      have := abs_sub_le x v y
      rw [abs_sub_comm x v] at this
      exact this
    linarith

example : labelUnique (iscloseQ 0 1) [some 0, some 1, some 5] = ([0, 0, 1], 2) := by decide +kernel

/-- C116: the documentation says that the labels count contiguously from 0.  np.isclose compares with the size of its second
argument, so that a later entry can take over an earlier one: label 0 is not used here.  NaN gets the label -1. -/
theorem C116_contiguous_refuted : labelUnique (iscloseQ (1 / 2) 0) [some 10, some 6] = ([1, 1], 2) ∧
    labelUnique (iscloseQ (1 / 2) 0) [none, some 6] = ([-1, 1], 2) := by constructor <;> decide +kernel

/-! ### block_mean_filter -/

theorem drop_take_append {l m : List ℚ} {k w : Nat} (h : k + w ≤ l.length) : ((l ++ m).drop k).take w = (l.drop k).take w := by
  rw [List.drop_append_of_le_length (by omega), List.take_append_of_le_length (by rw [List.length_drop]; omega)]

/-- C117: every sample that lies in a whole block is replaced by the mean of the samples in its block. -/
theorem C117_block (a : List ℚ) (width i : Nat) (hi : i < a.length) (hb : i / width * width + width ≤ a.length) :
    (blockMeanFilter a width)[i]? = some (((a.drop (i / width * width)).take width).sum / width) := by
  unfold blockMeanFilter
  have : i / width * width ≤ i := Nat.div_mul_le_self i width
  rw [if_neg (by omega)]
  simp only []
  rw [List.getElem?_map, List.getElem?_range hi, Option.map_some, drop_take_append hb]

theorem blockMean_length (a : List ℚ) (width : Nat) : (blockMeanFilter a width).length = a.length := by
  unfold blockMeanFilter
  split_ifs <;> simp

theorem whole_block {n width i : Nat} (hd : width ∣ n) (hi : i < n) : i / width * width + width ≤ n := by
  obtain ⟨k, rfl⟩ := hd
  have : i / width < k := Nat.div_lt_of_lt_mul hi
  have h2 : (i / width + 1) * width ≤ k * width := Nat.mul_le_mul_right _ this
  rw [Nat.add_mul, Nat.one_mul] at h2
  rw [Nat.mul_comm width k]; exact h2

/-- C117: for a width that divides the length, filtering again changes nothing. -/
theorem C117_idempotent (a : List ℚ) (width : Nat) (hw : 0 < width) (hd : width ∣ a.length) :
    blockMeanFilter (blockMeanFilter a width) width = blockMeanFilter a width := by
  have hl := blockMean_length a width
  have hwq : (width : ℚ) ≠ 0 := by exact_mod_cast hw.ne'
  apply List.ext_getElem?
  intro i
  rcases Nat.lt_or_ge i a.length with hi | hi
  · have hb := whole_block hd hi
    rw [C117_block _ width i (by rw [hl]; exact hi) (by rw [hl]; exact hb), C117_block a width i hi hb]
    congr 1
    have hrep : ((blockMeanFilter a width).drop (i / width * width)).take width =
        List.replicate width (((a.drop (i / width * width)).take width).sum / width) := by
      apply List.ext_getElem?
      intro k
      rcases Nat.lt_or_ge k width with hk | hk
      · have hin : i / width * width + k < a.length := by omega
        have hq : (i / width * width + k) / width = i / width := by
          rw [Nat.add_comm, Nat.add_mul_div_right _ _ hw, Nat.div_eq_of_lt hk, Nat.zero_add]
        rw [List.getElem?_take_of_lt hk, List.getElem?_drop, C117_block a width _ hin (by rw [hq]; exact hb), hq, List.getElem?_replicate, if_pos hk]
      · rw [List.getElem?_eq_none (by rw [List.length_take]; omega), List.getElem?_eq_none (by rw [List.length_replicate]; exact hk)]
    rw [hrep, List.sum_replicate, nsmul_eq_mul, mul_div_cancel_left₀ _ hwq]
  · rw [List.getElem?_eq_none (by rw [blockMean_length, hl]; exact hi), List.getElem?_eq_none (by rw [hl]; exact hi)]

example : blockMeanFilter [1, 3, 5, 9] 2 = [2, 2, 7, 7] := by decide +kernel

/-- C117: when the width exceeds the length all samples become the mean, and width 1 changes nothing. -/
theorem C117_extreme (a : List ℚ) (width : Nat) :
    (a.length < width → blockMeanFilter a width = List.replicate a.length (a.sum / a.length)) ∧ blockMeanFilter a 1 = a := by
  constructor
  · intro h
    unfold blockMeanFilter
    rw [if_pos h]
    rw [List.eq_replicate_iff]
    refine ⟨by simp, ?_⟩
    intro b hb
    obtain ⟨_, _, rfl⟩ := List.mem_map.1 hb
    rfl
  · apply List.ext_getElem?
    intro i
    rcases Nat.lt_or_ge i a.length with hi | hi
    · rw [C117_block a 1 i hi (by rw [Nat.div_one]; omega)]
      rw [List.getElem?_eq_getElem hi]
      congr 1
      rw [Nat.div_one, Nat.mul_one, List.drop_eq_getElem_cons hi, List.take_succ_cons, List.take_zero]
      simp
    · rw [List.getElem?_eq_none (by rw [blockMean_length]; exact hi), List.getElem?_eq_none hi]

/-- C117 fails for the last block of a length that the width does not divide: samples of the previous block, mirrored, enter
its mean. -/
theorem C117_partial_block_refuted : blockMeanFilter [0, 0, 3] 2 = [0, 0, 3 / 2] := by decide +kernel

end Pixell
