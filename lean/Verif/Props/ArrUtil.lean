import Verif.Model.ArrUtil
import Verif.Props.Angles
import Verif.Props.Number
import Verif.Props.Store
import Mathlib.Data.Nat.Digits.Lemmas

/-! C143 and C144: small utilities for arrays, ranges of numbers and names. -/

namespace Pixell

/-! ### C143 -/

/-- C143: `slice_downgrade` returns one value per started block of `step` entries, and the `k`th is the mean of entries
`k*step` up to (but not including) `(k+1)*step`, or up to the end for a last block that is not whole. -/
theorem C143_downgrade (a : List ℚ) (step : ℕ) (hs : 0 < step) :
    (sliceDowngrade a step).length = (a.length + step - 1) / step ∧
    ∀ k < (a.length + step - 1) / step,
      (sliceDowngrade a step)[k]? = some (meanQ ((a.drop (k * step)).take step)) := by
  have hd := Nat.div_add_mod a.length step
  have hm := Nat.mod_lt a.length hs
  generalize hq : a.length / step = q at *
  generalize hr : a.length % step = r at *
  have hlen : a.length = q * step + r := by rw [← hd]; ring
  unfold sliceDowngrade
  dsimp only
  rw [hq]
  simp only [List.length_map, List.length_range]
  by_cases h0 : r = 0
  · subst h0
    have e : (a.length + step - 1) / step = q := by
      rw [hlen, add_zero, Nat.add_sub_assoc hs, mul_comm, Nat.mul_add_div hs, Nat.div_eq_of_lt (by omega), add_zero]
    rw [if_neg (by omega), e]
    refine ⟨by simp, ?_⟩
    intro k hk
    rw [List.getElem?_map, List.getElem?_range hk]
    rfl
  · have e : (a.length + step - 1) / step = q + 1 := by
      rw [hlen, show q * step + r + step - 1 = step * (q + 1) + (r - 1) by rw [mul_add, mul_comm q]; omega, Nat.mul_add_div hs,
        Nat.div_eq_of_lt (by omega), add_zero]
    rw [if_pos (by omega), e]
    refine ⟨by simp, ?_⟩
    intro k hk
    by_cases hkq : k < q
    · rw [List.getElem?_append_left (by simpa using hkq), List.getElem?_map, List.getElem?_range hkq]
      rfl
    · have hkq : k = q := by omega
      subst hkq
      rw [List.getElem?_append_right (by simp)]
      simp only [List.length_map, List.length_range, Nat.sub_self, List.getElem?_cons_zero]
      rw [List.take_of_length_le (by rw [List.length_drop]; omega)]

/-- Blocks of 2, with a rest of 1. -/
example : sliceDowngrade [1, 3, 5, 7, 9] 2 = [2, 6, 9] := by decide +kernel

/-- C143: a step that is missing or zero counts as 1, so nothing is averaged; otherwise only its size counts. -/
theorem C143_step (s : Option ℤ) : 0 < downStep s ∧ (∀ z, s = some z → z ≠ 0 → (downStep s : ℤ) = |z|) ∧
    (s = none ∨ s = some 0 → downStep s = 1) := by
  unfold downStep
  cases s with
  | none => exact ⟨by norm_num, (by intro z h; cases h), fun _ => rfl⟩
  | some z =>
    by_cases hz : z = 0
    · subst hz
      exact ⟨by norm_num, (by intro z h h'; cases h; exact absurd rfl h'), fun _ => rfl⟩
    · simp only [hz, if_false]
      refine ⟨Int.natAbs_pos.2 hz, ?_, ?_⟩
      · intro z' h _; cases h; exact Int.natCast_natAbs z
      · rintro (h | h)
        · cases h
        · cases h; exact absurd rfl hz

theorem deslope_get (d : List ℚ) (w i : ℕ) (h : i < d.length) :
    (deslope d w)[i]? = some (d[i] - ((i : ℚ) * (meanQ (d.drop (d.length - w)) - meanQ (d.take w)) / ((d.length : ℚ) - 1) +
      meanQ (d.take w))) := by
  unfold deslope
  dsimp only
  rw [List.getElem?_map, List.getElem?_zipIdx, List.getElem?_eq_getElem h]
  simp

/-- C143: with the default `w=1` deslope subtracts the straight line through the first and the last entry: both become 0, and a
row that differs by a straight line gives the same result. -/
theorem C143_deslope_partial (d : List ℚ) (h : 2 ≤ d.length) :
    (deslope d 1).length = d.length ∧ (deslope d 1)[0]? = some 0 ∧ (deslope d 1)[d.length - 1]? = some 0 ∧
    (∃ α β : ℚ, ∀ i (hi : i < d.length), (deslope d 1)[i]? = some (d[i] - (α + β * i))) ∧
    ∀ (e : List ℚ) (α β : ℚ), e.length = d.length → (∀ i (hi : i < d.length) (hi' : i < e.length), e[i] = d[i] + (α + β * i)) →
      deslope e 1 = deslope d 1 := by
  have hfirst : ∀ l : List ℚ, (hl : 2 ≤ l.length) → meanQ (l.take 1) = l[0] := by
    intro l hl
    match l, hl with
    | a :: b :: t, _ => simp [meanQ]
  have hlast : ∀ l : List ℚ, (hl : 2 ≤ l.length) → meanQ (l.drop (l.length - 1)) = l[l.length - 1] := by
    intro l hl
    rw [List.drop_eq_getElem_cons (by omega)]
    have : l.length - 1 + 1 = l.length := by omega
    rw [this, List.drop_length]
    simp [meanQ]
  have hn : ((d.length : ℚ) - 1) ≠ 0 := by
    have : (2:ℚ) ≤ d.length := by exact_mod_cast h
    linarith
  have hlen : ∀ l : List ℚ, (deslope l 1).length = l.length := by intro l; simp [deslope]
  refine ⟨hlen d, ?_, ?_, ?_, ?_⟩
  · rw [deslope_get d 1 0 (by omega), hfirst d h]
    simp
  · rw [deslope_get d 1 _ (by omega), hfirst d h, hlast d h]
    rw [Nat.cast_sub (by omega), Nat.cast_one]
    congr 1
    field_simp
    ring
  · refine ⟨d[0], (d[d.length - 1] - d[0]) / ((d.length : ℚ) - 1), ?_⟩
    intro i hi
    rw [deslope_get d 1 i hi, hfirst d h, hlast d h]
    congr 1
    ring
  · intro e α β hel he
    apply List.ext_getElem?
    intro i
    by_cases hi : i < d.length
    · have hie : i < e.length := by omega
      rw [deslope_get e 1 i hie, deslope_get d 1 i hi, hfirst d h, hlast d h, hfirst e (by omega), hlast e (by omega)]
      have e1 : e[i] = d[i] + (α + β * i) := he i hi hie
      have e2 : e[0] = d[0] + (α + β * (0:ℕ)) := he 0 (by omega) (by omega)
      have e3 : e[e.length - 1] = d[d.length - 1] + (α + β * (d.length - 1 : ℕ)) := by
        have := he (d.length - 1) (by omega) (by omega)
        rw [← this]
        congr 1
        omega
      rw [e1, e2, e3, hel]
      rw [Nat.cast_sub (by omega), Nat.cast_one]
      congr 1
      field_simp
      push_cast
      ring
    · rw [List.getElem?_eq_none (by rw [hlen]; omega), List.getElem?_eq_none (by rw [hlen]; omega)]

example : deslope [1, 4, 3] 1 = [0, 2, 0] := by decide +kernel

/-- **C143 refuted (deslope).** With `w` above 1 the beginning and the end are not matched up: the slope is measured between the centres
of the two groups of `w` entries, but applied as if they were the first and the last entry. A straight line is not
removed: its first two entries have another mean than its last two. -/
theorem C143_deslope_refuted : deslope [0, 1, 2, 3] 2 = [-1/2, -1/6, 1/6, 1/2] ∧
    meanQ ((deslope [0, 1, 2, 3] 2).take 2) ≠ meanQ ((deslope [0, 1, 2, 3] 2).drop 2) := by decide +kernel

theorem replicate_flatten_get (d : List ℚ) (k i : ℕ) (h : i < k * d.length) :
    (List.replicate k d).flatten[i]? = d[i % d.length]? := by
  induction k generalizing i with
  | zero => omega
  | succ k ih =>
    rw [List.replicate_succ, List.flatten_cons]
    by_cases hi : i < d.length
    · rw [List.getElem?_append_left hi, Nat.mod_eq_of_lt hi]
    · rw [List.getElem?_append_right (by omega), ih _ (by rw [add_mul] at h; omega)]
      congr 1
      conv_rhs => rw [show i = (i - d.length) + d.length by omega]
      rw [Nat.add_mod_right]

/-- C143: `repeat_filler(d, n)` with `n` at least 1 and `d` not empty goes back and forth through `d`: entry `i` is entry `i mod 2m` of `d` in
the forward runs and the mirrored one in the backward runs, `m` being the length of `d`. -/
theorem C143_repeat_partial (d : List ℚ) (n : ℕ) (hd : 0 < d.length) (hn : 0 < n) :
    ∃ out, repeatFiller d n = some out ∧ out.length = n ∧ ∀ i < n,
      out[i]? = if i % (2 * d.length) < d.length then d[i % (2 * d.length)]?
        else d[2 * d.length - 1 - i % (2 * d.length)]? := by
  have hl : (d ++ d.reverse).length = 2 * d.length := by simp; ring
  have h2 : 0 < (d ++ d.reverse).length := by omega
  have hmul : 0 < (n + (d ++ d.reverse).length - 1) / (d ++ d.reverse).length := Nat.div_pos (by omega) h2
  have hbig : n ≤ (n + (d ++ d.reverse).length - 1) / (d ++ d.reverse).length * (d ++ d.reverse).length := by
    have := Nat.lt_div_mul_add (a := n + (d ++ d.reverse).length - 1) h2
    omega
  refine ⟨_, by
    unfold repeatFiller
    dsimp only
    rw [if_neg (by omega), if_neg (by omega)], ?_, ?_⟩
  · rw [List.length_take, List.length_flatten]
    simp only [List.map_replicate, List.sum_replicate, smul_eq_mul]
    omega
  · intro i hi
    rw [List.getElem?_take_of_lt hi, replicate_flatten_get _ _ _ (by omega), hl]
    have hm := Nat.mod_lt i (show 0 < 2 * d.length by omega)
    by_cases hc : i % (2 * d.length) < d.length
    · rw [if_pos hc, List.getElem?_append_left hc]
    · rw [if_neg hc, List.getElem?_append_right (by omega), List.getElem?_reverse (by omega)]
      congr 1
      omega

example : repeatFiller [1, 2, 3] 8 = some [1, 2, 3, 3, 2, 1, 1, 2] := by decide +kernel

/-- **C143 refuted (nothing to fill).** An array 0 elements long is not formed: `repeat_filler(d, 0)` fails for every `d`. -/
theorem C143_repeat_refuted (d : List ℚ) : repeatFiller d 0 = none := by
  unfold repeatFiller
  dsimp only
  split
  · rfl
  · rename_i h
    rw [if_pos (Nat.div_eq_of_lt (by omega))]

/-- C143: `between_angles(a, [r0,r1], period)` says whether `a` plus some number of periods is in `[r0,r1)`, for every range, longer
than a period or not. -/
theorem C143_between (a r0 r1 period : ℚ) (hp : 0 < period) :
    betweenAngles a r0 r1 period = true ↔ ∃ k : ℤ, r0 ≤ a + k * period ∧ a + k * period < r1 := by
  have hr := C18_rewind a ((r0 + r1) / 2) hp
  obtain ⟨h1, h2, k0, hk0⟩ := hr
  unfold betweenAngles
  dsimp only
  generalize rewind a ((r0 + r1) / 2) period = b at *
  rw [Bool.and_eq_true, decide_eq_true_iff, decide_eq_true_iff]
  constructor
  · rintro ⟨g1, g2⟩
    refine ⟨k0, ?_, ?_⟩ <;> linarith
  · rintro ⟨k, g1, g2⟩
    have hd : b - (a + k * period) = (k0 - k) * period := by rw [hk0]; ring
    by_cases hw : r1 - r0 ≤ period
    · -- both lie in the same period around the middle
      have hlt : |b - (a + k * period)| < period := by
        rw [abs_lt]; constructor <;> linarith
      have hz : k0 - k = 0 := by
        by_contra hne
        have h1 : (1:ℚ) ≤ |((k0 - k : ℤ) : ℚ)| := by
          have := Int.one_le_abs hne
          exact_mod_cast this
        rw [hd, abs_mul, abs_of_pos hp] at hlt
        push_cast at h1
        nlinarith
      have : (k0:ℚ) - k = 0 := by exact_mod_cast hz
      rw [this, zero_mul] at hd
      constructor <;> linarith
    · push Not at hw
      constructor <;> linarith

example : betweenAngles 725 (-10) 10 360 = true ∧ betweenAngles 180 (-10) 10 360 = false := by decide +kernel

/-- C143: `preflat(a, n)` and `postflat(a, n)` with `n` from 0 to the number of axes join the first (last) `n` axes into
one and keep the others. -/
theorem C143_flat_partial (shape : List ℕ) (n : ℕ) (h : n ≤ shape.length) :
    preflatShape shape n = (shape.take n).prod :: shape.drop n ∧
    postflatShape shape n = shape.take (shape.length - n) ++ [(shape.drop (shape.length - n)).prod] := by
  unfold preflatShape postflatShape
  have h0 : ¬ ((n:ℤ) < 0) := by omega
  have h1 : ¬ ((shape.length : ℤ) - (n:ℤ) < 0) := by omega
  simp only [h0, h1, if_false]
  have h2 : ((shape.length : ℤ) - (n:ℤ)).toNat = shape.length - n := by omega
  rw [h2]
  exact ⟨rfl, rfl⟩

/-- **C143 refuted (negative n).** `preflat(a, -m)` is to flatten all but the last `m` axes; it flattens all of them, for every array and every
`m` of at least 1. `postflat(a, -1)` of an array with three axes leaves it as it is. -/
theorem C143_flat_refuted (shape : List ℕ) (m : ℕ) (hm : 1 ≤ m) :
    preflatShape shape (-m) = [shape.prod] ∧ postflatShape [2, 3, 4] (-1) = [2, 3, 4] := by
  constructor
  · unfold preflatShape
    have h0 : (-(m:ℤ) < 0) := by omega
    simp only [h0, if_true]
    have : ((shape.length : ℤ) - -(m:ℤ)).toNat = shape.length + m := by omega
    rw [this, List.take_of_length_le (by omega), List.drop_of_length_le (by omega)]
  · decide

/-! ### C144 -/

/-- C144: `start:stop:step` stands for the numbers reached from `start` in whole steps before `stop`, in both
directions. -/
theorem C144_range (start stop step : ℤ) (hs : step ≠ 0) :
    ∃ l, arangeZ start stop step = some l ∧ ∀ z, z ∈ l ↔
      ∃ k : ℕ, z = start + k * step ∧ (if 0 < step then z < stop else stop < z) := by
  refine ⟨_, by unfold arangeZ; rw [if_neg hs], ?_⟩
  intro z
  rw [List.mem_map]
  have key : ∀ k : ℕ, k < (⌈((stop - start : ℤ) : ℚ) / step⌉).toNat ↔
      (if 0 < step then start + k * step < stop else stop < start + k * step) := by
    intro k
    have h1 : k < (⌈((stop - start : ℤ) : ℚ) / step⌉).toNat ↔ (k:ℤ) < ⌈((stop - start : ℤ) : ℚ) / step⌉ := by omega
    rw [h1, Int.lt_ceil]
    by_cases hp : 0 < step
    · rw [if_pos hp, lt_div_iff₀ (by exact_mod_cast hp)]
      rw [show ((k:ℤ):ℚ) * (step:ℚ) = ((k * step : ℤ) : ℚ) by push_cast; ring, Int.cast_lt]
      omega
    · rw [if_neg hp, lt_div_iff_of_neg (by have : step < 0 := by omega
                                           exact_mod_cast this)]
      rw [show ((k:ℤ):ℚ) * (step:ℚ) = ((k * step : ℤ) : ℚ) by push_cast; ring, Int.cast_lt]
      omega
  constructor
  · rintro ⟨k, hk, rfl⟩
    exact ⟨k, rfl, (key k).1 (List.mem_range.1 hk)⟩
  · rintro ⟨k, rfl, hk⟩
    exact ⟨k, List.mem_range.2 ((key k).2 hk), rfl⟩

example : arangeZ 3 10 2 = some [3, 5, 7, 9] ∧ arangeZ 5 1 (-2) = some [5, 3] := by decide +kernel

theorem pySplit_noSep (c : Char) (w : List Char) (h : c ∉ w) : pySplit c w = [w] := by
  have := pySplit_pyJoin c [w] (by simp) (by simpa using h)
  simpa [pyJoin] using this

/-- C144: `parse_ints` reads back any list that was written with commas between the numbers, and in a list
every `start:stop` or `start:stop:step` is replaced by its range, in place. -/
theorem C144_parse_partial (rd : List Char → Option ℤ) (ws : List (List Char)) (vals : List (List ℤ)) (hne : ws ≠ [])
    (hc : ∀ w ∈ ws, ',' ∉ w)
    (hw : List.Forall₂ (fun w v =>
      (':' ∉ w ∧ ∃ z, rd w = some z ∧ v = [z]) ∨
      (∃ a b : List Char, ∃ x y : ℤ, w = a ++ ':' :: b ∧ ':' ∉ a ∧ ':' ∉ b ∧ rd a = some x ∧ rd b = some y ∧ arangeZ x y 1 = some v) ∨
      (∃ a b c : List Char, ∃ x y s : ℤ, w = a ++ ':' :: (b ++ ':' :: c) ∧ ':' ∉ a ∧ ':' ∉ b ∧ ':' ∉ c ∧ rd a = some x ∧ rd b = some y ∧
        rd c = some s ∧ arangeZ x y s = some v)) ws vals) :
    parseNumbers (some rd) (pyJoin ',' ws) = some vals.flatten := by
  unfold parseNumbers
  rw [Option.bind_eq_bind, Option.bind_some, pySplit_pyJoin ',' ws hne hc]
  have : ws.mapM (parseWord rd) = some vals := by
    clear hne hc
    induction hw with
    | nil => rfl
    | @cons w v ws vs h1 _ ih =>
      have hword : parseWord rd w = some v := by
        rcases h1 with ⟨hn, z, hz, rfl⟩ | ⟨a, b, x, y, rfl, ha, hb, hx, hy, hv⟩ | ⟨a, b, c, x, y, s, rfl, ha, hb, hcc, hx, hy, hs, hv⟩
        · unfold parseWord
          rw [pySplit_noSep ':' w hn]
          simp [hz, hn]
        · unfold parseWord
          have := pySplit_pyJoin ':' [a, b] (by simp) (by intro t ht; simp at ht; rcases ht with rfl | rfl <;> assumption)
          simp only [pyJoin] at this
          rw [this]
          simp [hx, hy, hv]
        · unfold parseWord
          have := pySplit_pyJoin ':' [a, b, c] (by simp) (by intro t ht; simp at ht; rcases ht with rfl | rfl | rfl <;> assumption)
          simp only [pyJoin] at this
          rw [this]
          simp [hx, hy, hs, hv]
      rw [List.mapM_cons, hword, ih]
      rfl
  rw [this]
  rfl

/-- "3,1:4" with a reader that knows the three digits. -/
example : parseNumbers (some fun w => if w = ['3'] then some 3 else if w = ['1'] then some 1 else if w = ['4'] then some 4 else none)
    ['3', ',', '1', ':', '4'] = some [3, 1, 2, 3] := by decide +kernel

/-- **C144 refuted (no type given).** `parse_numbers(s)`, with its default `dtype=None`, fails for every string. -/
theorem C144_parse_refuted (s : List Char) : parseNumbers none s = none := rfl

/-- C144: `ndigit` is the number of decimal digits of every number from 10 on. -/
theorem C144_ndigit_partial (n : ℕ) (h : 10 ≤ n) : ndigit n = (Nat.digits 10 n).length := by
  rw [Nat.length_digits 10 n (by norm_num) (by omega)]
  unfold ndigit
  have : 1 ≤ Nat.log 10 n := Nat.log_pos (by norm_num) h
  omega

/-- **C144 refuted (numbers of one digit).** `ndigit` is 2 for every number below 10. -/
theorem C144_ndigit_refuted (n : ℕ) (h : n < 10) : ndigit n = 2 := by
  unfold ndigit
  rw [Nat.log_of_lt h]
  rfl

theorem sexa_fields (x : ℚ) (hx : 0 ≤ x) : (toSexa x).1 = 1 ∧ (toSexa x).2.1 = ⌊x⌋ ∧ 0 ≤ (toSexa x).2.2.2 ∧
    x = (toSexa x).2.1 + (toSexa x).2.2.1 / 60 + (toSexa x).2.2.2 / 3600 := by
  have h1 : 0 ≤ x - ⌊x⌋ := by have := Int.floor_le x; linarith
  have h2 : (0:ℚ) ≤ (x - ⌊x⌋) * 60 := by linarith
  have h3 := Int.floor_le ((x - ⌊x⌋) * 60)
  unfold toSexa
  simp only [not_lt.2 hx, if_false, Int.cast_one, mul_one, intTrunc, hx, if_true, h2, true_and]
  constructor
  · linarith
  · ring

theorem trunc_close {s t : ℚ} (hs : 0 ≤ s) (ht : 0 ≤ t) (h : intTrunc s = intTrunc t) : |s - t| < 1 := by
  unfold intTrunc at h
  rw [if_pos hs, if_pos ht] at h
  exact Int.abs_sub_lt_one_of_floor_eq_floor h

theorem sexa_neg (x : ℚ) (hx : x < 0) : (toSexa x).1 = -1 ∧ (toSexa x).2 = (toSexa (-x)).2 := by
  unfold toSexa
  have : ¬ (-x < 0) := by linarith
  simp only [hx, if_true, this, if_false, Int.cast_neg, Int.cast_one, mul_neg, mul_one, true_and]

theorem same_sexa (x y : ℚ) (hx : 0 ≤ x) (hy : 0 ≤ y) (h1 : (toSexa x).2.1 = (toSexa y).2.1) (h2 : (toSexa x).2.2.1 = (toSexa y).2.2.1)
    (h3 : intTrunc (toSexa x).2.2.2 = intTrunc (toSexa y).2.2.2) : |x - y| < 1 / 3600 := by
  obtain ⟨_, _, px, ex⟩ := sexa_fields x hx
  obtain ⟨_, _, py, ey⟩ := sexa_fields y hy
  have hc := trunc_close px py h3
  have : x - y = ((toSexa x).2.2.2 - (toSexa y).2.2.2) / 3600 := by
    rw [h1, h2] at ex
    linarith
  rw [this, abs_div]
  rw [abs_of_pos (show (0:ℚ) < 3600 by norm_num)]
  exact div_lt_div_of_pos_right hc (by norm_num)

/-- C144: two objects with the same `jname` are less than a second of time apart in right ascension (a multiple of a turn aside), and, when
they are at least a degree from the equator, less than a second of arc in declination. -/
theorem C144_jname_partial (ra dec ra' dec' : ℚ) (h : jnameFields ra dec = jnameFields ra' dec')
    (hd : 1 ≤ |dec|) (hd' : 1 ≤ |dec'|) :
    |dec - dec'| < 1 / 3600 ∧ |pmod (ra / 15) 24 - pmod (ra' / 15) 24| < 1 / 3600 := by
  unfold jnameFields at h
  simp only [Prod.mk.injEq] at h
  obtain ⟨⟨a1, a2, a3⟩, b1, b2, b3⟩ := h
  have p1 := pmod_nonneg (ra / 15) (show (0:ℚ) < 24 by norm_num)
  have p2 := pmod_nonneg (ra' / 15) (show (0:ℚ) < 24 by norm_num)
  have nat_pos : ∀ x : ℚ, 1 ≤ x → 1 ≤ (toSexa x).2.1 := by
    intro x hx
    rw [(sexa_fields x (by linarith)).2.1]
    exact Int.le_floor.2 (by exact_mod_cast hx)
  constructor
  · by_cases s : dec < 0 <;> by_cases s' : dec' < 0
    · rw [abs_of_neg s] at hd
      rw [abs_of_neg s'] at hd'
      obtain ⟨e1, e2⟩ := sexa_neg dec s
      obtain ⟨e1', e2'⟩ := sexa_neg dec' s'
      rw [e1, e1', e2, e2'] at b1
      rw [e2, e2'] at b2 b3
      have := same_sexa (-dec) (-dec') (by linarith) (by linarith) (by omega) b2 b3
      rw [show dec - dec' = -(-dec - -dec') by ring, abs_neg]
      exact this
    · rw [abs_of_neg s] at hd
      rw [abs_of_nonneg (not_lt.1 s')] at hd'
      obtain ⟨e1, e2⟩ := sexa_neg dec s
      have e1' := (sexa_fields dec' (by linarith)).1
      rw [e1, e1', e2] at b1
      have := nat_pos (-dec) hd
      have := nat_pos dec' hd'
      omega
    · rw [abs_of_neg s'] at hd'
      rw [abs_of_nonneg (not_lt.1 s)] at hd
      obtain ⟨e1, e2⟩ := sexa_neg dec' s'
      have e1' := (sexa_fields dec (by linarith)).1
      rw [e1, e1', e2] at b1
      have := nat_pos (-dec') hd'
      have := nat_pos dec hd
      omega
    · rw [(sexa_fields dec (not_lt.1 s)).1, (sexa_fields dec' (not_lt.1 s')).1] at b1
      exact same_sexa dec dec' (not_lt.1 s) (not_lt.1 s') (by omega) b2 b3
  · rw [(sexa_fields _ p1).1, (sexa_fields _ p2).1] at a1
    exact same_sexa _ _ p1 p2 (by omega) a2 a3

example : jnameFields (150 + 3/10000) (2 + 1/10000) = jnameFields 150 2 ∧ jnameFields 150 2 = ((10, 0, 0), (2, 0, 0)) := by decide +kernel

/-- **C144 refuted (names near the equator).** Objects half a degree north and half a degree south of the equator get the same name. -/
theorem C144_jname_refuted : jnameFields 150 (1/2) = jnameFields 150 (-1/2) := by decide +kernel

end Pixell
