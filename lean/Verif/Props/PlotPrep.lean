import Verif.Model.PlotPrep
import Verif.Props.CatFiles
import Mathlib.Tactic.Linarith
import Mathlib.Tactic.Ring
import Mathlib.Tactic.NormNum

/-
C171. What is done with maps before they are drawn: color ranges, tiling, file names, placing images, pruning curves.
-/
namespace Pixell

/-! ### color ranges -/

/-- C171 (explicit limits). The first numbers given are used for the components in order and the last one is repeated: this is
what component k gets. -/
theorem C171_parse (l : List ℚ) (n : ℕ) (hl : l ≠ []) (hn : 0 < n) :
    ∃ r, parseRange l n = some r ∧ r.length = n ∧ ∀ k < n, r.getD k 0 = l.getD (min k (l.length - 1)) 0 := by
  have hlen : 0 < l.length := List.length_pos_iff.2 hl
  have hne : l.take n ≠ [] := by
    intro h
    have := congrArg List.length h
    simp at this
    rcases this with h | h
    · omega
    · exact hl h
  obtain ⟨v, hv⟩ : ∃ v, (l.take n).getLast? = some v := by
    rw [List.getLast?_eq_getLast_of_ne_nil hne]; exact ⟨_, rfl⟩
  refine ⟨l.take n ++ List.replicate (n - (l.take n).length) v, by simp [parseRange, hv], by simp, fun k hk => ?_⟩
  by_cases h : k < l.length
  · rw [Nat.min_eq_left (by omega)]
    rw [List.getD_eq_getElem?_getD, List.getD_eq_getElem?_getD, List.getElem?_append_left (by simp; omega),
      List.getElem?_take_of_lt hk]
  · have ht : l.take n = l := List.take_of_length_le (by omega)
    rw [ht] at hv ⊢
    rw [Nat.min_eq_right (by omega), List.getD_eq_getElem?_getD, List.getD_eq_getElem?_getD,
      List.getElem?_append_right (by omega), List.getElem?_replicate_of_lt (by omega)]
    rw [List.getLast?_eq_getElem?] at hv
    rw [hv]

/-- C171 (a range). A range given alone is symmetric about zero in each component, and the values of the map have no effect. -/
theorem C171_symmetric (l vals : List ℚ) (q : ℚ) (n : ℕ) (hl : l ≠ []) (hn : 0 < n) :
    ∃ r, colorRange n (some l) none none q vals = some r ∧ r.length = n ∧
      ∀ k < n, r.getD k (0, 0) = (-(l.getD (min k (l.length - 1)) 0), l.getD (min k (l.length - 1)) 0) := by
  obtain ⟨r, h1, h2, h3⟩ := C171_parse l n hl hn
  refine ⟨(r.map fun x => -x).zip r, by simp [colorRange, h1], by simp [h2], fun k hk => ?_⟩
  have hk' : k < r.length := by omega
  have := h3 k hk
  rw [List.getD_eq_getElem?_getD, List.getElem?_eq_getElem hk'] at this
  simp only [Option.getD_some] at this
  rw [List.getD_eq_getElem?_getD, List.getElem?_eq_getElem (by simp [h2, hk])]
  simp only [Option.getD_some, List.getElem_zip, List.getElem_map]
  rw [this]

/-- C171 (a minimum and a maximum). They override a range, and the values of the map have no effect. -/
theorem C171_limits (a b vals : List ℚ) (rg : Option (List ℚ)) (hrg : ∀ l ∈ rg, l ≠ []) (q : ℚ) (n : ℕ) (ha : a ≠ [])
    (hb : b ≠ []) (hn : 0 < n) :
    ∃ r, colorRange n rg (some a) (some b) q vals = some r ∧ r.length = n ∧
      ∀ k < n, r.getD k (0, 0) = (a.getD (min k (a.length - 1)) 0, b.getD (min k (b.length - 1)) 0) := by
  obtain ⟨ra, h1, h2, h3⟩ := C171_parse a n ha hn
  obtain ⟨rb, g1, g2, g3⟩ := C171_parse b n hb hn
  have hr : colorRange n rg (some a) (some b) q vals = some (ra.zip rb) := by
    cases rg with
    | none => simp [colorRange, h1, g1]
    | some l =>
      obtain ⟨r, e, -, -⟩ := C171_parse l n (hrg l rfl) hn
      simp [colorRange, h1, g1, e]
  refine ⟨_, hr, by simp [h2, g2], fun k hk => ?_⟩
  have e1 := h3 k hk
  have e2 := g3 k hk
  rw [List.getD_eq_getElem?_getD, List.getElem?_eq_getElem (by omega)] at e1 e2
  simp only [Option.getD_some] at e1 e2
  rw [List.getD_eq_getElem?_getD, List.getElem?_eq_getElem (by simp [h2, g2, hk])]
  simp only [Option.getD_some, List.getElem_zip, e1, e2]

/-- In a sorted list, at most i elements are below the element i. -/
theorem below_sorted (s : List ℚ) (hs : s.Pairwise (· ≤ ·)) (i : ℕ) (hi : i < s.length) :
    (s.filter (· < s[i])).length ≤ i := by
  have hsplit : s = s.take i ++ s.drop i := (List.take_append_drop i s).symm
  have h2 : (s.drop i).filter (· < s[i]) = [] := by
    rw [List.filter_eq_nil_iff]
    intro x hx
    obtain ⟨j, hj, rfl⟩ := List.getElem_of_mem hx
    simp only [List.getElem_drop, decide_eq_true_eq, not_lt]
    rcases Nat.eq_zero_or_pos j with h | h
    · subst h; simp
    · exact List.pairwise_iff_getElem.1 hs _ _ hi (by simp at hj; omega) (by omega)
  have h1 : (s.filter (· < s[i])) = (s.take i).filter (· < s[i]) ++ (s.drop i).filter (· < s[i]) := by
    rw [← List.filter_append, List.take_append_drop]
  rw [h1, h2, List.append_nil]
  exact (List.length_filter_le _ _).trans (by simp)

/-- In a sorted list of n elements, at most i elements are above the element n-1-i. -/
theorem above_sorted (s : List ℚ) (hs : s.Pairwise (· ≤ ·)) (i : ℕ) (hi : i < s.length) :
    (s.filter (s[s.length - 1 - i] < ·)).length ≤ i := by
  set j := s.length - 1 - i with hj
  have hjl : j < s.length := by omega
  have h2 : (s.take (j + 1)).filter (s[j] < ·) = [] := by
    rw [List.filter_eq_nil_iff]
    intro x hx
    obtain ⟨k, hk, rfl⟩ := List.getElem_of_mem hx
    simp only [List.getElem_take, decide_eq_true_eq, not_lt]
    simp at hk
    rcases Nat.lt_or_ge k j with h | h
    · exact List.pairwise_iff_getElem.1 hs _ _ (by omega) hjl h
    · have : k = j := by omega
      subst this; simp
  have h1 : (s.filter (s[j] < ·)) = (s.take (j + 1)).filter (s[j] < ·) ++ (s.drop (j + 1)).filter (s[j] < ·) := by
    rw [← List.filter_append, List.take_append_drop]
  rw [h1, h2, List.nil_append]
  exact (List.length_filter_le _ _).trans (by simp; omega)

/-- C171 (quantiles, in part). Without explicit limits all components have the same limits lo < hi; if i is n q rounded, at
most i values are below lo and at most i are above hi. Missing: this is for 2 i < n (`C171_quantile_refuted`). -/
theorem C171_quantile_partial (vals : List ℚ) (q : ℚ) (ncomp : ℕ)
    (hq : 2 * (rint (vals.length * q)).toNat < vals.length) :
    ∃ lo hi, colorRange ncomp none none none q vals = some (List.replicate ncomp (lo, hi)) ∧ lo < hi ∧
      (vals.filter (· < lo)).length ≤ (rint (vals.length * q)).toNat ∧
      (vals.filter (hi < ·)).length ≤ (rint (vals.length * q)).toNat := by
  set s := vals.insertionSort (· ≤ ·) with hs
  have hperm : s.Perm vals := List.perm_insertionSort _ _
  have hlen : s.length = vals.length := hperm.length_eq
  have hsort : s.Pairwise (· ≤ ·) := List.pairwise_insertionSort _ _
  set i := (rint (vals.length * q)).toNat with hi
  have hi1 : i < s.length := by omega
  have hqi : quantileIndex s.length q = i := by
    unfold quantileIndex; rw [hlen, ← hi]; exact Nat.min_eq_right (by omega)
  have g1 : s.getD i 0 = s[i] := by simp [List.getD_eq_getElem?_getD, hi1]
  have hj : s.length - 1 - i < s.length := by omega
  have g2 : s.getD (s.length - 1 - i) 0 = s[s.length - 1 - i] := by simp only [List.getD_eq_getElem?_getD, List.getElem?_eq_getElem hj, Option.getD_some]
  have hle : s[i] ≤ s[s.length - 1 - i] := by
    rcases Nat.lt_or_ge i (s.length - 1 - i) with h | h
    · exact List.pairwise_iff_getElem.1 hsort _ _ hi1 hj h
    · have : s.length - 1 - i = i := by omega
      simp [this]
  have hb : ∀ t, t ≤ s[i] → (vals.filter (· < t)).length ≤ i := by
    intro t ht
    rw [← (hperm.filter _).length_eq]
    refine le_trans ?_ (below_sorted s hsort i hi1)
    apply List.Sublist.length_le
    apply List.monotone_filter_right
    intro x hx
    simp only [decide_eq_true_eq] at hx ⊢
    exact lt_of_lt_of_le hx ht
  have ha : ∀ t, s[s.length - 1 - i] ≤ t → (vals.filter (t < ·)).length ≤ i := by
    intro t ht
    rw [← (hperm.filter _).length_eq]
    refine le_trans ?_ (above_sorted s hsort i hi1)
    apply List.Sublist.length_le
    apply List.monotone_filter_right
    intro x hx
    simp only [decide_eq_true_eq] at hx ⊢
    exact lt_of_le_of_lt ht hx
  have hn0 : s.length ≠ 0 := by omega
  have hv' : vals.length ≠ 0 := by omega
  by_cases heq : s[s.length - 1 - i] = s[i]
  · refine ⟨s[i] - 1, s[s.length - 1 - i] + 1, ?_, by linarith, hb _ (by linarith), ha _ (by linarith)⟩
    simp only [colorRange, Option.map_none, Option.bind_eq_bind, Option.bind_some, ← hs, hn0, if_false, hqi, g1, g2, heq,
      if_true, Option.getD_none]
    simp
  · refine ⟨s[i], s[s.length - 1 - i], ?_, lt_of_le_of_ne hle (Ne.symm heq), hb _ le_rfl, ha _ le_rfl⟩
    simp only [colorRange, Option.map_none, Option.bind_eq_bind, Option.bind_some, ← hs, hn0, if_false, hqi, g1, g2, heq,
      Option.getD_none]
    simp

/-- C171 (the default). With the default quantile of 1% the condition holds for every nonempty map. -/
theorem C171_default (n : ℕ) (hn : 0 < n) : 2 * (rint (n * (1 / 100 : ℚ))).toNat < n := by
  have h := (abs_le.1 (rint_near ((n : ℚ) * (1 / 100)))).1
  have h' := (abs_le.1 (rint_near ((n : ℚ) * (1 / 100)))).2
  have hr : (rint ((n : ℚ) * (1 / 100)) : ℚ) ≤ n / 100 + 1 / 2 := by linarith
  have hn1 : (1 : ℚ) ≤ n := by exact_mod_cast hn
  by_cases hlt : n < 50
  · have h0 : (rint ((n : ℚ) * (1 / 100)) : ℚ) < 1 := by
      have : (n : ℚ) < 50 := by exact_mod_cast hlt
      linarith
    have : rint ((n : ℚ) * (1 / 100)) ≤ 0 := by
      have : rint ((n : ℚ) * (1 / 100)) < 1 := by exact_mod_cast h0
      omega
    have := Int.toNat_of_nonpos this
    omega
  · have h50 : (50 : ℚ) ≤ n := by exact_mod_cast (by omega : 50 ≤ n)
    have : (2 * rint ((n : ℚ) * (1 / 100)) : ℚ) < n := by linarith
    have : 2 * rint ((n : ℚ) * (1 / 100)) < n := by exact_mod_cast this
    omega

example : ∃ lo hi, colorRange 2 none none none (1 / 100) [3, 1, 2] = some (List.replicate 2 (lo, hi)) ∧ lo < hi :=
  ⟨1, 3, by decide +kernel, by norm_num⟩

/-- C171 (quantiles, refuted). Quantiles below one half can give reversed limits, and the median of three values too; an explicit
minimum can be above the maximum found or equal to it, so that colors divide by zero; and a map without finite values ignores
the minimum given. -/
theorem C171_quantile_refuted :
    colorRange 1 none none none (2 / 5) [0, 1] = some [(1, 0)] ∧
    colorRange 1 none none none (1 / 2) [0, 1, 5] = some [(5, 0)] ∧
    colorRange 1 none (some [7]) none (1 / 100) [0, 1] = some [(7, 1)] ∧
    colorRange 1 none (some [1]) none (1 / 100) [0, 1] = some [(1, 1)] ∧
    colorRange 1 none (some [7]) none (1 / 100) [] = some [(-1, 1)] := by
  refine ⟨by decide +kernel, by decide +kernel, by decide +kernel, by decide +kernel, by decide +kernel⟩

/-! ### tiling -/

/-- The smallest square grid. -/
theorem tile_sqrt (n : ℕ) (hn : 0 < n) : ∃ c : ℕ, 0 < c ∧ n ≤ c * c ∧ (c - 1) * (c - 1) < n ∧
    (if n.sqrt * n.sqrt = n then (n.sqrt : ℤ) else n.sqrt + 1) = c := by
  have h1 := Nat.sqrt_le n
  have h2 := Nat.lt_succ_sqrt n
  have h0 : 0 < n.sqrt := Nat.sqrt_pos.2 hn
  simp only [Nat.succ_eq_add_one] at h2
  by_cases h : n.sqrt * n.sqrt = n
  · refine ⟨n.sqrt, h0, h.ge, ?_, by simp [h]⟩
    obtain ⟨k, hk⟩ : ∃ k, n.sqrt = k + 1 := ⟨n.sqrt - 1, by omega⟩
    rw [hk] at h ⊢
    simp only [Nat.add_sub_cancel]
    nlinarith
  · exact ⟨n.sqrt + 1, by omega, by omega, by simp only [Nat.add_sub_cancel]; omega, by simp [h]⟩

theorem ceilDiv_spec (n c : ℕ) (hc : 0 < c) (hn : 0 < n) : ∃ r : ℕ, ((n : ℤ) + c - 1).fdiv c = r ∧ 0 < r ∧ n ≤ r * c ∧
    (r - 1) * c < n := by
  refine ⟨(n + c - 1) / c, ?_, Nat.div_pos (by omega) hc, ?_, ?_⟩
  · rw [Int.fdiv_eq_ediv_of_nonneg _ (by omega)]
    rw [show (n : ℤ) + c - 1 = ((n + c - 1 : ℕ) : ℤ) by omega]
    norm_cast
  · have := Nat.lt_div_mul_add (a := n + c - 1) hc
    omega
  · have := Nat.div_mul_le_self (n + c - 1) c
    rw [Nat.sub_mul]
    omega

/-- C171 (tiles, number of). If the numbers of rows and columns are left open there is room for all maps, never a whole row
too many, and the grid is nearly square. -/
theorem C171_dims (n : ℕ) (hn : 0 < n) : ∃ r c : ℕ, tileDims n (-1) (-1) = some ((r : ℤ), (c : ℤ)) ∧ n ≤ r * c ∧
    (r - 1) * c < n ∧ r ≤ c ∧ c ≤ r + 1 := by
  obtain ⟨c, h1, h2, h3, h4⟩ := tile_sqrt n hn
  obtain ⟨r, g1, g2, g3, g4⟩ := ceilDiv_spec n c h1 hn
  refine ⟨r, c, ?_, g3, g4, ?_, ?_⟩
  · have hc0 : (c : ℤ) ≠ 0 := by omega
    simp only [tileDims, show ((-1 : ℤ) < 0) from by omega, and_self, if_true, h4, g1, hc0, if_false]
  · by_contra hh
    have : c ≤ r - 1 := by omega
    have := Nat.mul_le_mul_right c this
    omega
  · by_contra hh
    have h5 : r + 1 ≤ c - 1 := by omega
    obtain ⟨d, rfl⟩ : ∃ d, c = d + 1 := ⟨c - 1, by omega⟩
    simp only [Nat.add_sub_cancel] at h3 h5
    have : r * (d + 1) ≤ d * d := by nlinarith
    omega

/-- C171 (one number given). With only the rows given, or only the columns, the other number is the smallest with room for all
maps. -/
theorem C171_dims_given (n k : ℕ) (hn : 0 < n) (hk : 0 < k) : ∃ r : ℕ, n ≤ r * k ∧ (r - 1) * k < n ∧
    tileDims n (-1) k = some ((r : ℤ), (k : ℤ)) ∧ tileDims n k (-1) = some ((k : ℤ), (r : ℤ)) := by
  obtain ⟨r, g1, g2, g3, g4⟩ := ceilDiv_spec n k hk hn
  have h1 : (-1 : ℤ) < 0 := by omega
  have hk1 : ¬ (k : ℤ) < 0 := by omega
  have hk0 : (k : ℤ) ≠ 0 := by omega
  refine ⟨r, g3, g4, ?_, ?_⟩
  · simp only [tileDims, h1, hk1, hk0, and_false, if_true, if_false, g1]
  · simp only [tileDims, h1, hk1, hk0, false_and, if_true, if_false, g1]

example : tileDims 7 (-1) (-1) = some (3, 3) ∧ tileDims 7 2 (-1) = some (2, 4) := by decide +kernel

/-- C171 (tiles). If there is room each map k is in exactly one tile, the one at row k / columns and column k % columns (at
row k % rows and column k / rows if transposed), and the other tiles are blank. -/
theorem C171_tiles {α : Type} (zero : α) (m : ℕ → α) (n R C : ℕ) (hn : n ≤ R * C) (nrow ncol : ℤ)
    (hd : tileDims n nrow ncol = some ((R : ℤ), (C : ℤ))) (t : Bool) :
    ∃ f, hwexpand zero m n nrow ncol t = some (R, C, f) ∧
      (∀ k < n, ∃ i j, i < R ∧ j < C ∧ f i j = m k ∧ (i, j) = if t then (k % R, k / R) else (k / C, k % C)) ∧
      ∀ i < R, ∀ j < C, (∀ k < n, (i, j) ≠ if t then (k % R, k / R) else (k / C, k % C)) → f i j = zero := by
  refine ⟨_, by simp only [hwexpand, hd, Int.toNat_natCast]; rw [if_neg (by omega)], ?_, ?_⟩
  · intro k hk
    have hpos : 0 < R * C := by omega
    have hR : 0 < R := Nat.pos_of_mul_pos_right hpos
    have hC : 0 < C := Nat.pos_of_mul_pos_left hpos
    cases t with
    | true =>
      refine ⟨k % R, k / R, Nat.mod_lt _ hR, Nat.div_lt_of_lt_mul (by omega), ?_, rfl⟩
      have : k / R * R + k % R = k := by rw [Nat.mul_comm]; exact Nat.div_add_mod k R
      simp [this, hk]
    | false =>
      refine ⟨k / C, k % C, Nat.div_lt_of_lt_mul (by rw [Nat.mul_comm]; omega), Nat.mod_lt _ hC, ?_, rfl⟩
      have : k / C * C + k % C = k := by rw [Nat.mul_comm]; exact Nat.div_add_mod k C
      simp [this, hk]
  · intro i hi j hj h
    cases t with
    | true =>
      simp only [if_true] at h ⊢
      rw [if_neg]
      intro hk
      apply h _ hk
      have e1 : (j * R + i) % R = i := by rw [Nat.mul_comm, Nat.mul_add_mod, Nat.mod_eq_of_lt hi]
      have e2 : (j * R + i) / R = j := by
        rw [Nat.mul_comm, Nat.mul_add_div (by omega), Nat.div_eq_of_lt hi]; omega
      rw [e1, e2]
    | false =>
      simp only [Bool.false_eq_true, if_false] at h ⊢
      rw [if_neg]
      intro hk
      apply h _ hk
      have e1 : (i * C + j) % C = j := by rw [Nat.mul_comm, Nat.mul_add_mod, Nat.mod_eq_of_lt hj]
      have e2 : (i * C + j) / C = i := by
        rw [Nat.mul_comm, Nat.mul_add_div (by omega), Nat.div_eq_of_lt hj]; omega
      rw [e1, e2]

/-- C171 (stacking). In the stack, pixel (y,x) of the tile (r,c) is at row r ny + y and column c nx + x. -/
theorem C171_stack {α : Type} (mexp : ℕ → ℕ → ℕ → ℕ → α) (ny nc nx r c y x : ℕ) (hy : y < ny) (hc : c < nc) (hx : x < nx) :
    hwstack mexp ny nc nx (r * ny + y) (c * nx + x) = mexp r c y x := by
  have h1 : (r * ny + y) * (nc * nx) + (c * nx + x) = nx * (nc * (ny * r + y) + c) + x := by ring
  unfold hwstack
  simp only [h1]
  rw [Nat.mul_add_mod, Nat.mod_eq_of_lt hx, Nat.mul_add_div (by omega), Nat.div_eq_of_lt hx, Nat.add_zero,
    Nat.mul_add_mod, Nat.mod_eq_of_lt hc, Nat.mul_add_div (by omega), Nat.div_eq_of_lt hc, Nat.add_zero,
    Nat.mul_add_mod, Nat.mod_eq_of_lt hy, Nat.mul_add_div (by omega), Nat.div_eq_of_lt hy, Nat.add_zero]

example : hwstack (fun r c y x => [r, c, y, x]) 2 3 4 3 9 = [1, 2, 1, 1] := by decide

/-- C171 (tiling, refuted). No maps at all, or a given number of rows of zero, divide by zero; with too little room tiling
raises. -/
theorem C171_tiles_refuted (m : ℕ → ℕ) (t : Bool) :
    hwexpand 0 m 0 (-1) (-1) t = none ∧ hwexpand 0 m 3 0 (-1) t = none ∧ hwexpand 0 m 5 2 2 t = none := by
  refine ⟨?_, ?_, ?_⟩
  · simp [hwexpand, tileDims]
  · simp [hwexpand, tileDims]
  · simp [hwexpand, tileDims]

/-! ### images over each other -/

theorem boxes_min_le (l : List (ℤ × ℤ)) : ∀ a, l.foldl (fun a b => min a b.1) a ≤ a ∧
    (∀ b ∈ l, l.foldl (fun a b => min a b.1) a ≤ b.1) ∧ ∀ t, t ≤ a → (∀ b ∈ l, t ≤ b.1) → t ≤ l.foldl (fun a b => min a b.1) a := by
  induction l with
  | nil => intro a; simp
  | cons x xs ih =>
    intro a
    obtain ⟨h1, h2, h3⟩ := ih (min a x.1)
    refine ⟨h1.trans (min_le_left _ _), ?_, ?_⟩
    · intro b hb
      rcases List.mem_cons.1 hb with rfl | hb
      · exact h1.trans (min_le_right _ _)
      · exact h2 b hb
    · intro t ht hb
      exact h3 t (le_min ht (hb x (by simp))) fun b hb' => hb b (by simp [hb'])

theorem boxes_max_ge (l : List (ℤ × ℤ)) : ∀ a, a ≤ l.foldl (fun a b => max a b.2) a ∧
    (∀ b ∈ l, b.2 ≤ l.foldl (fun a b => max a b.2) a) ∧ ∀ t, a ≤ t → (∀ b ∈ l, b.2 ≤ t) → l.foldl (fun a b => max a b.2) a ≤ t := by
  induction l with
  | nil => intro a; simp
  | cons x xs ih =>
    intro a
    obtain ⟨h1, h2, h3⟩ := ih (max a x.2)
    refine ⟨(le_max_left _ _).trans h1, ?_, ?_⟩
    · intro b hb
      rcases List.mem_cons.1 hb with rfl | hb
      · exact (le_max_right _ _).trans h1
      · exact h2 b hb
    · intro t ht hb
      exact h3 t (max_le ht (hb x (by simp))) fun b hb' => hb b (by simp [hb'])

/-- C171 (bounds). The bounds of several boxes contain each of them and the box from zero to the size given, and are the smallest
that do. -/
theorem C171_bounds (boxes : List (ℤ × ℤ)) (size : ℤ) :
    let f := calcBounds1 boxes size
    (f.1 ≤ 0 ∧ size ≤ f.2) ∧ (∀ b ∈ boxes, f.1 ≤ b.1 ∧ b.2 ≤ f.2) ∧
    ∀ g : ℤ × ℤ, g.1 ≤ 0 → size ≤ g.2 → (∀ b ∈ boxes, g.1 ≤ b.1 ∧ b.2 ≤ g.2) → g.1 ≤ f.1 ∧ f.2 ≤ g.2 := by
  obtain ⟨h1, h2, h3⟩ := boxes_min_le boxes 0
  obtain ⟨g1, g2, g3⟩ := boxes_max_ge boxes size
  exact ⟨⟨h1, g1⟩, fun b hb => ⟨h2 b hb, g2 b hb⟩, fun g a1 a2 a3 => ⟨h3 _ a1 fun b hb => (a3 b hb).1, g3 _ a2 fun b hb => (a3 b hb).2⟩⟩

/-- C171 (images over each other). Each image fits in the canvas, and pixels of two images that have the same position relative
to the map are on top of each other. -/
theorem C171_paste (boxes : List (ℤ × ℤ)) (size : ℤ) (b : ℤ × ℤ) (hb : b ∈ boxes) (p : ℤ) (h0 : 0 ≤ p) (h1 : p < b.2 - b.1) :
    let full := calcBounds1 boxes size
    (0 ≤ pastedAt full b p ∧ pastedAt full b p < full.2 - full.1) ∧
    ∀ b' ∈ boxes, ∀ p', pastedAt full b' p' = pastedAt full b p ↔ b'.1 + p' = b.1 + p := by
  intro full
  obtain ⟨-, h, -⟩ := C171_bounds boxes size
  have := h b hb
  refine ⟨⟨?_, ?_⟩, fun b' _ p' => ?_⟩
  · have : full.1 ≤ b.1 := (h b hb).1
    simp only [pastedAt]; omega
  · have : b.2 ≤ full.2 := (h b hb).2
    simp only [pastedAt]; omega
  · simp only [pastedAt]; omega

example : calcBounds1 [(0, 10), (-3, 12)] 10 = (-3, 12) ∧ pastedAt (-3, 12) (0, 10) 4 = 7 := by decide

/-! ### names of files -/

theorem rfindChar_none (ch : Char) (l : List Char) (h : ch ∉ l) : rfindChar ch l = none := by
  induction l with
  | nil => rfl
  | cons a as ih =>
    simp only [List.mem_cons, not_or] at h
    simp [rfindChar, ih h.2, Ne.symm h.1]

theorem rfindChar_last (ch : Char) (a b : List Char) (h : ch ∉ b) : rfindChar ch (a ++ ch :: b) = some a.length := by
  induction a with
  | nil => simp [rfindChar, rfindChar_none ch b h]
  | cons x xs ih => simp [rfindChar, ih]

theorem dirBase_slash (d b : List Char) (hd : d.getLast? ≠ some '/') (hd0 : d ≠ []) (hb : '/' ∉ b) :
    dirBase (d ++ '/' :: b) = (d, b) := by
  obtain ⟨d', x, rfl⟩ : ∃ d' x, d = d' ++ [x] := ⟨d.dropLast, d.getLast hd0, (List.dropLast_append_getLast hd0).symm⟩
  have hx : x ≠ '/' := by simpa using hd
  have ht : (d' ++ [x] ++ '/' :: b).take ((d' ++ [x]).length + 1) = d' ++ [x] ++ ['/'] := by
    rw [List.take_append, List.take_of_length_le (by simp)]
    simp
  have hdr : (d' ++ [x] ++ '/' :: b).drop ((d' ++ [x]).length + 1) = b := by
    rw [List.drop_append, List.drop_of_length_le (by simp)]
    simp
  unfold dirBase
  rw [rfindChar_last _ _ _ hb]
  simp only [ht, hdr]
  rw [if_neg (by simp; intro _; exact hx)]
  simp [hx]

/-- C171 (names, in part). For a file name with a directory and an extension, where `.gz` needs another extension before it, the
directory, base and extension give the file name back with "/" and "." between them. Without a directory it is ".". Missing:
names without extension and files in the root directory (`C171_name_refuted`). -/
theorem C171_name_partial (d base ext : List Char) (hd : d.getLast? ≠ some '/') (hd0 : d ≠ []) (hb : '/' ∉ base)
    (he : '/' ∉ ext) (hx : '.' ∉ ext) (hgz : ext ≠ ['g', 'z']) :
    splitFileName (d ++ '/' :: (base ++ '.' :: ext)) = (d, base, ext) ∧
    splitFileName (d ++ '/' :: (base ++ '.' :: (ext ++ ['.', 'g', 'z']))) = (d, base, ext ++ ['.', 'g', 'z']) ∧
    splitFileName (base ++ '.' :: ext) = (['.'], base, ext) := by
  have hbe : '/' ∉ base ++ '.' :: ext := by simp [hb, he]
  have hbe2 : '/' ∉ base ++ '.' :: (ext ++ ['.', 'g', 'z']) := by simp [hb, he]
  have hdl : d.length ≠ 0 := by simpa using hd0
  have hnot : ¬ ['.', 'g', 'z'] <:+ base ++ '.' :: ext := by
    intro ⟨t, ht⟩
    have h1 : rfindChar '.' (t ++ '.' :: ['g', 'z']) = some t.length := rfindChar_last _ _ _ (by decide)
    have h2 : rfindChar '.' (base ++ '.' :: ext) = some base.length := rfindChar_last _ _ _ hx
    rw [ht, h2] at h1
    have hl : base.length = t.length := by simpa using h1
    have := (List.append_inj ht hl.symm).2
    simp at this
    exact hgz this.symm
  have key : ∀ dir : List Char, (dir, (base ++ '.' :: ext).take base.length, (base ++ '.' :: ext).drop (base.length + 1)) =
      (dir, base, ext) := by
    intro dir
    simp [List.drop_append]
  have hno : dirBase (base ++ '.' :: ext) = ([], base ++ '.' :: ext) := by
    simp only [dirBase, rfindChar_none _ _ hbe]
  refine ⟨?_, ?_, ?_⟩
  · simp only [splitFileName, dirBase_slash d _ hd hd0 hbe, hdl, if_false, hnot, rfindChar_last _ _ _ hx, Option.getD_some]
    exact key d
  · have hs : ['.', 'g', 'z'] <:+ base ++ '.' :: (ext ++ ['.', 'g', 'z']) := ⟨base ++ '.' :: ext, by simp⟩
    have htk : (base ++ '.' :: (ext ++ ['.', 'g', 'z'])).take ((base ++ '.' :: (ext ++ ['.', 'g', 'z'])).length - 3) =
        base ++ '.' :: ext := by
      rw [show base ++ '.' :: (ext ++ ['.', 'g', 'z']) = (base ++ '.' :: ext) ++ ['.', 'g', 'z'] by simp]
      rw [List.take_append_of_le_length (by simp; omega), List.take_of_length_le (by simp; omega)]
    simp only [splitFileName, dirBase_slash d _ hd hd0 hbe2, hdl, if_false, hs, if_true, htk, rfindChar_last _ _ _ hx,
      Option.getD_some]
    simp [List.drop_append]
  · simp only [splitFileName, hno, List.length_nil, if_true, hnot, if_false, rfindChar_last _ _ _ hx, Option.getD_some]
    exact key _

example : splitFileName "a/b/foo2.5_bar.fits.gz".toList = ("a/b".toList, "foo2.5_bar".toList, "fits.gz".toList) := by decide

/-- C171 (names, refuted). The parts are documented to give the name back. A name without extension, one with only `.gz` and
one in the root directory do not: what comes back is another file. -/
theorem C171_name_refuted :
    let back := fun p : List Char => (splitFileName p).1 ++ '/' :: ((splitFileName p).2.1 ++ '.' :: (splitFileName p).2.2)
    back "d/foo".toList = "d/foo.".toList ∧ back "d/foo.gz".toList = "d/foo.gz.".toList ∧
    back "/foo.fits".toList = "//foo.fits".toList := by decide

/-! ### curves of the grid -/

/-- C171 (curves, in part). A curve of at least two points, all finite and inside, is kept as it is; of any curve, the points
kept are points of it in their order. Missing: `C171_prune_refuted`. -/
theorem C171_prune_partial (inside : ℚ × ℚ → Bool) (seg : List (ℚ × ℚ)) :
    (2 ≤ seg.length → (∀ p ∈ seg, inside p = true) → pruneSeg inside (seg.map some) = some seg) ∧
    ∀ (s : List (Option (ℚ × ℚ))) r, pruneSeg inside s = some r →
      2 ≤ r.length ∧ (r.map some).Sublist s ∧ ∀ p, some p ∈ s → inside p = true → p ∈ r := by
  have zipAll : ∀ (l : List (ℚ × ℚ)) (g : List Bool), g.length = l.length → (∀ x ∈ g, x = true) →
      ((l.zip g).filterMap fun p => if p.2 then some p.1 else none) = l := by
    intro l
    induction l with
    | nil => intro g _ _; simp
    | cons a as ih =>
      intro g hg ht
      cases g with
      | nil => simp at hg
      | cons b bs =>
        have hb : b = true := ht b (by simp)
        simp only [List.zip_cons_cons, List.filterMap_cons, hb, if_true]
        rw [ih bs (by simpa using hg) fun x hx => ht x (by simp [hx])]
  have zipSub : ∀ (l : List (ℚ × ℚ)) (g : List Bool),
      ((l.zip g).filterMap fun p => if p.2 then some p.1 else none).Sublist l := by
    intro l
    induction l with
    | nil => intro g; simp
    | cons a as ih =>
      intro g
      cases g with
      | nil => simp
      | cons b bs =>
        cases b with
        | true => simpa using (ih bs).cons_cons a
        | false => simpa using (ih bs).cons a
  have zipMem : ∀ (l : List (ℚ × ℚ)) (g : List Bool) (i : ℕ) (h : i < l.length), g.getD i false = true →
      l[i] ∈ ((l.zip g).filterMap fun p => if p.2 then some p.1 else none) := by
    intro l g i h hg
    have hgl : i < g.length := by
      by_contra hh
      rw [List.getD_eq_getElem?_getD, List.getElem?_eq_none (by omega)] at hg
      simp at hg
    rw [List.mem_filterMap]
    refine ⟨(l[i], g[i]), ?_, ?_⟩
    · rw [List.mem_iff_getElem]
      exact ⟨i, by simp; omega, by simp⟩
    · rw [List.getD_eq_getElem?_getD, List.getElem?_eq_getElem hgl] at hg
      simp at hg
      simp [hg]
  have idSub : ∀ s : List (Option (ℚ × ℚ)), ((s.filterMap id).map some).Sublist s := by
    intro s
    induction s with
    | nil => simp
    | cons a as ih =>
      cases a with
      | none => simpa using ih.cons none
      | some v => simpa using ih.cons_cons (some v)
  refine ⟨?_, ?_⟩
  · intro h2 hin
    have hf : (seg.map some).filterMap id = seg := by simp [List.filterMap_map]
    unfold pruneSeg
    rw [if_neg (by simp; omega)]
    simp only [hf]
    rw [zipAll seg _ (by simp)]
    · rw [if_pos (by omega)]
    · intro x hx
      obtain ⟨i, hi, rfl⟩ := List.mem_map.1 hx
      have hi' : i < seg.length := by simpa using hi
      have : (seg.map inside).getD i false = true := by
        simp [List.getD_eq_getElem?_getD, hi', hin]
      rw [this]; rfl
  · intro s r h
    unfold pruneSeg at h
    split at h
    · simp at h
    · simp only at h
      split at h
      · rename_i hk
        have h := Option.some.inj h
        refine ⟨by rw [← h]; omega, ?_, ?_⟩
        · rw [← h]
          exact ((zipSub _ _).map some).trans (idSub s)
        · intro p hp hin
          rw [← h]
          have hm : p ∈ s.filterMap id := List.mem_filterMap.2 ⟨some p, hp, rfl⟩
          obtain ⟨i, hi, rfl⟩ := List.getElem_of_mem hm
          apply zipMem
          have : ((s.filterMap id).map inside).getD i false = true := by
            rw [List.getD_eq_getElem?_getD, List.getElem?_map, List.getElem?_eq_getElem hi]; simpa using hin
          rw [List.getD_eq_getElem?_getD, List.getElem?_map, List.getElem?_range hi]
          simp only [Option.map_some, Option.getD_some, this, Bool.true_or]
      · simp at h

/-- C171 (curves, lines). Of a curve of finite points each line with an end inside is kept. -/
theorem C171_prune_lines (inside : ℚ × ℚ → Bool) (A B : List (ℚ × ℚ)) (x y : ℚ × ℚ)
    (h : inside x = true ∨ inside y = true) :
    ∃ r, pruneSeg inside ((A ++ x :: y :: B).map some) = some r ∧ [x, y] <:+: r := by
  set l := A ++ x :: y :: B with hl
  have hf : (l.map some).filterMap id = l := by simp [List.filterMap_map]
  set ins := l.map inside with hins
  set g : List Bool := (List.range l.length).map fun i =>
    ins.getD i false || ((false :: ins.dropLast).getD i false) || ((ins.drop 1 ++ [false]).getD i false) with hg
  have hlen : l.length = A.length + (B.length + 2) := by simp [hl]
  have gx : ins.getD A.length false = inside x := by
    simp [hins, hl, List.getD_eq_getElem?_getD]
  have gy : ins.getD (A.length + 1) false = inside y := by
    simp [hins, hl, List.getD_eq_getElem?_getD]
  have e1 : (ins.drop 1 ++ [false]).getD A.length false = inside y := by
    rw [List.getD_eq_getElem?_getD, List.getElem?_append_left (by simp [hins, hlen]), List.getElem?_drop,
      Nat.add_comm 1, ← List.getD_eq_getElem?_getD, gy]
  have e2 : (false :: ins.dropLast).getD (A.length + 1) false = inside x := by
    rw [List.getD_cons_succ, List.getD_eq_getElem?_getD, List.getElem?_dropLast, if_pos (by simp [hins, hlen]),
      ← List.getD_eq_getElem?_getD, gx]
  have hgl : g.length = l.length := by simp [hg]
  have t1 : g[A.length]? = some true := by
    rw [hg, List.getElem?_map, List.getElem?_range (by omega)]
    simp only [Option.map_some, gx, e1]
    rcases h with h | h <;> simp [h]
  have t2 : g[A.length + 1]? = some true := by
    rw [hg, List.getElem?_map, List.getElem?_range (by omega)]
    simp only [Option.map_some, gy, e2]
    rcases h with h | h <;> simp [h]
  have hgs : g = g.take A.length ++ true :: true :: g.drop (A.length + 2) := by
    conv_lhs => rw [← List.take_append_drop A.length g]
    congr 1
    obtain ⟨h1, v1⟩ := List.getElem?_eq_some_iff.1 t1
    obtain ⟨h2, v2⟩ := List.getElem?_eq_some_iff.1 t2
    rw [List.drop_eq_getElem_cons h1, List.drop_eq_getElem_cons h2, v1, v2]
  have hz : ((l.zip g).filterMap fun p => if p.2 then some p.1 else none) =
      ((A.zip (g.take A.length)).filterMap fun p => if p.2 then some p.1 else none) ++ x :: y ::
      ((B.zip (g.drop (A.length + 2))).filterMap fun p => if p.2 then some p.1 else none) := by
    conv_lhs => rw [hgs, hl]
    rw [List.zip_append (by simp; omega)]
    simp
  refine ⟨((A.zip (g.take A.length)).filterMap fun p => if p.2 then some p.1 else none) ++ x :: y ::
      ((B.zip (g.drop (A.length + 2))).filterMap fun p => if p.2 then some p.1 else none), ?_,
    ⟨((A.zip (g.take A.length)).filterMap fun p => if p.2 then some p.1 else none),
      ((B.zip (g.drop (A.length + 2))).filterMap fun p => if p.2 then some p.1 else none), ?_⟩⟩
  · unfold pruneSeg
    rw [if_neg (by simp [hlen]; omega)]
    simp only [hf, ← hins, ← hg, hz]
    rw [if_pos (by simp; omega)]
  · simp

/-- C171 (curves, refuted). "Remove segments that contain NaN or where both points are outside": the points are removed and
what is left is one curve, so that a line is drawn across the gap that is in no part of the curve: here from one side of the
map to the other, over a point that could not be computed, and between two far away points whose own lines never meet the
map. -/
theorem C171_prune_refuted :
    pruneSeg (segInside 10 10 0) [some (1, 1), none, some (9, 9)] = some [(1, 1), (9, 9)] ∧
    pruneSeg (segInside 10 10 0) [some (1, 1), some (-5, 1), some (-5, 20), some (20, 20), some (20, 9), some (9, 9)] =
      some [(1, 1), (-5, 1), (20, 9), (9, 9)] := by
  constructor <;> decide +kernel

example : pruneSeg (segInside 10 10 0) [some (1, 1), some (2, 3)] = some [(1, 1), (2, 3)] := by decide +kernel

end Pixell
