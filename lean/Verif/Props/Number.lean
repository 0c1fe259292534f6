import Verif.Lemmas.Number
import Verif.Lemmas.Convolve
import Verif.Lemmas.Num
import Mathlib.Tactic.Linarith
import Mathlib.Tactic.FieldSimp
import Mathlib.Tactic.NormNum
import Mathlib.Tactic.IntervalCases

/-
Properties C32, C33, C38, C65, C76: products of factors, primes, sexagesimal numbers, repeated convolution,
triangle waves.
-/
namespace Pixell

/-! ### C32: nearest_product -/

/-- `p` is a product of at least one of the given factors, each used any number of times. -/
def ProductOf (factors : List Nat) (p : Nat) : Prop := ∃ l : List Nat, l ≠ [] ∧ (∀ x ∈ l, x ∈ factors) ∧ l.prod = p

theorem productOf_mul {factors : List Nat} {i f : Nat} (hi : IsProduct factors i) (hf : f ∈ factors) :
    ProductOf factors (i * f) := by
  obtain ⟨l, h1, h2⟩ := hi
  refine ⟨f :: l, by simp, ?_, by rw [List.prod_cons, h2, Nat.mul_comm]⟩
  intro x hx
  rcases List.mem_cons.1 hx with rfl | hx
  · exact hf
  · exact h1 x hx

theorem productOf_cases {factors : List Nat} (h2 : ∀ f ∈ factors, 2 ≤ f) {p : Nat} (h : ProductOf factors p) :
    ∃ i f, f ∈ factors ∧ IsProduct factors i ∧ p = i * f ∧ i < p := by
  obtain ⟨l, hne, h1, h3⟩ := h
  rcases IsProduct.cases h2 ⟨l, h1, h3⟩ with h | h
  · exfalso
    cases l with
    | nil => exact hne rfl
    | cons x l =>
      rw [List.prod_cons] at h3
      have hx := h2 x (h1 x (by simp))
      have : 0 < l.prod := IsProduct.pos h2 ⟨l, fun y hy => h1 y (by simp [hy]), rfl⟩
      nlinarith
  · exact h

theorem productOf_of_ne_one {factors : List Nat} {p : Nat} (h : IsProduct factors p) (h1 : p ≠ 1) : ProductOf factors p := by
  obtain ⟨l, hl, hp⟩ := h
  refine ⟨l, ?_, hl, hp⟩
  rintro rfl
  exact h1 (by simpa using hp.symm)

/-- C32, direction "above": the result is the smallest product of the factors that is at least `n`. -/
theorem C32_above (n : Nat) (factors : List Nat) (hn : 1 ≤ n) (hne : factors ≠ []) (h2 : ∀ f ∈ factors, 2 ≤ f) :
    ∃ m, nearestProduct n factors false = some m ∧ n ≤ m ∧ ProductOf factors m ∧
      ∀ p, ProductOf factors p → n ≤ p → m ≤ p := by
  have h1 : ¬ 1 ∈ factors := fun h => by have := h2 1 h; omega
  obtain ⟨f0, fs, rfl⟩ := List.exists_cons_of_ne_nil hne
  set factors := f0 :: fs with hfac
  unfold nearestProduct
  rw [if_neg h1]
  simp only [Bool.false_eq_true, if_false]
  set mn := factors.foldl min (factors.headD 0) with hmn
  have hmin : 1 ≤ mn := by
    have : ∀ (l : List Nat) (a : Nat), 1 ≤ a → (∀ f ∈ l, 2 ≤ f) → 1 ≤ l.foldl min a := by
      intro l
      induction l with
      | nil => intro a ha _; simpa using ha
      | cons x l ih =>
        intro a ha hl
        rw [List.foldl_cons]
        apply ih
        · have := hl x (by simp); omega
        · intro f hf; exact hl f (by simp [hf])
    apply this
    · have := h2 f0 (by simp [hfac]); simp [hfac]; omega
    · exact h2
  have hsz : n < n * mn + 1 + 1 := by nlinarith
  have hrun := np_run (BestAbove factors n) false factors n (n * mn + 1 + 1) h2 hsz
    ⟨by simp, by intro i f hi; omega⟩ (fun k st hs hb => best_round_above hs hb)
  set best := ((List.range (n + 1)).foldl (npRound false factors n (n * mn + 1 + 1)) ([1], none)).2
  have hle : ∀ p, ProductOf factors p → n ≤ p → ∃ m, best = some m ∧ m ≤ p := by
    intro p
    induction p using Nat.strong_induction_on with
    | _ p ih =>
      intro hp hnp
      obtain ⟨i, f, hf, hi, he, hlt⟩ := productOf_cases h2 hp
      rcases Nat.lt_or_ge n i with hin | hin
      · obtain ⟨m, hm, hmi⟩ := ih i hlt (productOf_of_ne_one hi (by omega)) (by omega)
        exact ⟨m, hm, by omega⟩
      · rw [he]
        exact hrun.least i f (by omega) hf hi (by omega)
  have hpow : ProductOf factors (f0 ^ n) :=
    ⟨List.replicate n f0, by simp; omega, by intro x hx; rw [(List.mem_replicate.1 hx).2]; simp [hfac], by simp⟩
  have hf0 := h2 f0 (by simp [hfac])
  obtain ⟨m, hm, _⟩ := hle _ hpow (le_of_lt (Nat.lt_pow_self (by omega)))
  obtain ⟨i, f, _, hf, hi, he, hnm⟩ := hrun.ok m hm
  refine ⟨m, hm, hnm, by rw [he]; exact productOf_mul hi hf, ?_⟩
  intro p hp hnp
  obtain ⟨m', hm', hle'⟩ := hle p hp hnp
  rw [hm] at hm'
  cases hm'
  exact hle'

example : nearestProduct 17 [2, 3] false = some 18 ∧ nearestProduct 101 [2, 3, 5, 7] false = some 105 := by decide +kernel

/-- C32, direction "below", as far as it holds: the result is a product of factors not exceeding `n`, it cannot be
multiplied by any factor without exceeding `n` (so it is within a factor `min factors` of the best), and nothing is
returned only when every factor exceeds `n`.  Missing: that it is the largest such product - it need not be, see
`C32_below_refuted`. -/
theorem C32_below_partial (n : Nat) (factors : List Nat) (h2 : ∀ f ∈ factors, 2 ≤ f) :
    (nearestProduct n factors = none ↔ ∀ f ∈ factors, n < f) ∧
    ∀ m, nearestProduct n factors = some m → m ≤ n ∧ ProductOf factors m ∧ ∀ f ∈ factors, n < m * f := by
  have h1 : ¬ 1 ∈ factors := fun h => by have := h2 1 h; omega
  have hrun := np_run (BestBelow factors n) true factors n (n + 1 + 1) h2 (by omega)
    ⟨by simp, by intro i f hi; omega⟩ (fun k st hs hb => best_round_below hs hb)
  unfold nearestProduct
  rw [if_neg h1]
  simp only [if_true]
  set best := ((List.range (n + 1)).foldl (npRound true factors n (n + 1 + 1)) ([1], none)).2
  constructor
  · constructor
    · intro hnone f hf
      by_contra hc
      obtain ⟨m, _, _, hm, _⟩ := hrun.late 1 f (by have := h2 f hf; omega) hf (isProduct_one _) (by omega)
      rw [hnone] at hm
      cases hm
    · intro hall
      cases hb : best with
      | none => rfl
      | some m =>
        obtain ⟨i, f, _, hf, hi, he, hle⟩ := hrun.ok m hb
        have := hall f hf
        have := IsProduct.pos h2 hi
        nlinarith
  · intro m hm
    obtain ⟨i, f, hik, hf, hi, he, hle⟩ := hrun.ok m hm
    refine ⟨hle, by rw [he]; exact productOf_mul hi hf, ?_⟩
    intro g hg
    by_contra hc
    have hpm : IsProduct factors m := by rw [he]; exact hi.mul hf
    obtain ⟨m', i', f', e1, e2, e3, e4⟩ := hrun.late m g (by omega) hg hpm (by omega)
    rw [hm] at e1
    cases e1
    have := h2 f' e4
    have hpos := IsProduct.pos h2 hpm
    nlinarith

example : nearestProduct 100 [2, 3] = some 96 ∧ nearestProduct 3 [5, 7] = none := by decide +kernel

/-- C32 as documented fails for direction "below" (the default): 9 = 3·3 is a product of 2s and 3s not exceeding 10
but the result is 8; and `fft_len(5)` is 4 although 5 itself is an allowed length. -/
theorem C32_below_refuted :
    (nearestProduct 10 [2, 3] = some 8 ∧ ProductOf [2, 3] 9) ∧ fftLen 5 = some 4 ∧ ProductOf [2, 3, 5, 7, 11, 13] 5 := by
  refine ⟨⟨by decide +kernel, ⟨[3, 3], by simp, by simp, by norm_num⟩⟩, by decide +kernel, ⟨[5], by simp, by simp, by norm_num⟩⟩

/-- `fft_len(n, "above")` is the shortest length of at least `n` with no prime factor above 13. -/
theorem C32_fft_len_above (n : Nat) (hn : 1 ≤ n) :
    ∃ m, fftLen n false = some m ∧ n ≤ m ∧ ProductOf [2, 3, 5, 7, 11, 13] m ∧
      ∀ p, ProductOf [2, 3, 5, 7, 11, 13] p → n ≤ p → m ≤ p :=
  C32_above n _ hn (by simp) (by simp)

example : fftLen 17 false = some 18 ∧ fftLen 97 false = some 98 := by decide +kernel

/-- `fft_len(n)` is an allowed length above `n/2`. -/
theorem C32_fft_len_below_partial (n : Nat) (hn : 2 ≤ n) :
    ∃ m, fftLen n = some m ∧ m ≤ n ∧ n < 2 * m ∧ ProductOf [2, 3, 5, 7, 11, 13] m := by
  obtain ⟨h1, h2⟩ := C32_below_partial n [2, 3, 5, 7, 11, 13] (by simp)
  cases h : fftLen n with
  | none => have := h1.1 h 2 (by simp); omega
  | some m =>
    obtain ⟨a, b, c⟩ := h2 m h
    have := c 2 (by simp)
    exact ⟨m, rfl, a, by omega, b⟩

example : fftLen 60 = some 60 ∧ fftLen 59 = some 56 := by decide +kernel

/-! ### C33: primes -/

/-- C33: for every positive `n` the loop ends (after at most `n` rounds) and returns the prime factorisation of `n` in
ascending order. -/
theorem C33_primes (n : Nat) (hn : 1 ≤ n) :
    ∃ l, primesRun n n = some l ∧ l.prod = n ∧ (∀ p ∈ l, p.Prime) ∧ l.Pairwise (· ≤ ·) := by
  obtain ⟨l, h1, h2, h3, h4⟩ := primesLoop_spec n n 2 [] (by omega) (le_refl _) (fun p hp _ => hp.two_le) (by simp)
    (by simp) (by simp) (by omega)
  exact ⟨l, h1, by simpa using h2, h3, h4⟩

example : primesRun 360 360 = some [2, 2, 2, 3, 3, 5] ∧ primesRun 97 97 = some [97] ∧ primesRun 1 1 = some [] := by
  decide +kernel

/-! ### C38: sexagesimal -/

/-- C38: the four parts give the number back; degrees are nonnegative, minutes a whole number from 0 to 59, seconds
in [0,60), and the sign is -1 exactly for negative numbers. -/
theorem C38_round_trip (x : ℚ) :
    fromSexa (toSexa x) = x ∧ 0 ≤ (toSexa x).2.1 ∧ 0 ≤ (toSexa x).2.2.1 ∧ (toSexa x).2.2.1 < 60 ∧
      0 ≤ (toSexa x).2.2.2 ∧ (toSexa x).2.2.2 < 60 ∧ ((toSexa x).1 = -1 ∧ x < 0 ∨ (toSexa x).1 = 1 ∧ 0 ≤ x) := by
  have key : ∀ y : ℚ, 0 ≤ y → 0 ≤ intTrunc y ∧ (intTrunc y : ℚ) ≤ y ∧ y < intTrunc y + 1 := by
    intro y hy
    unfold intTrunc
    rw [if_pos hy]
    exact ⟨Int.floor_nonneg.2 hy, Int.floor_le y, Int.lt_floor_add_one y⟩
  set s : ℤ := if x < 0 then -1 else 1 with hs
  have hx : 0 ≤ x * s ∧ (s : ℚ) * (x * s) = x := by
    rw [hs]
    split
    · constructor <;> push_cast <;> linarith
    · constructor <;> push_cast <;> linarith
  obtain ⟨d0, d1, d2⟩ := key _ hx.1
  have hm : 0 ≤ (x * s - intTrunc (x * s)) * 60 := by linarith
  obtain ⟨m0, m1, m2⟩ := key _ hm
  have e : toSexa x = (s, intTrunc (x * s), intTrunc ((x * s - intTrunc (x * s)) * 60),
      ((x * s - intTrunc (x * s)) * 60 - intTrunc ((x * s - intTrunc (x * s)) * 60)) * 60) := rfl
  rw [e]
  generalize intTrunc ((x * s - intTrunc (x * s)) * 60) = mn at *
  generalize intTrunc (x * s) = dg at *
  refine ⟨?_, d0, m0, ?_, ?_, ?_, ?_⟩
  · unfold fromSexa
    have : ((dg : ℚ) + mn / 60 + ((x * s - dg) * 60 - mn) * 60 / 3600) = x * s := by ring
    rw [this, hx.2]
  · have : (mn : ℚ) < 60 := by linarith
    exact_mod_cast this
  · simp only; linarith
  · simp only; linarith
  · rw [hs]
    by_cases h : x < 0
    · left; simp [h]
    · right; simp [h]; linarith

example : toSexa (-(12 + 34/60 + 56/3600)) = (-1, 12, 34, 56) := by decide +kernel

/-- C38: with a sign that can be seen in the degrees (at least one whole degree), the formatted numbers determine
the angle. -/
theorem C38_format_partial (x y : ℚ) (hx : 1 ≤ |x|) (hy : 1 ≤ |y|) (h : formatSexa x = formatSexa y) : x = y := by
  obtain ⟨rx, dx, _, mx, _, sx, gx⟩ := C38_round_trip x
  obtain ⟨ry, dy, _, my, _, sy, gy⟩ := C38_round_trip y
  have deg : ∀ z : ℚ, 1 ≤ |z| → 1 ≤ (toSexa z).2.1 := by
    intro z hz
    obtain ⟨rz, dz, _, mz, _, sz, gz⟩ := C38_round_trip z
    by_contra hc
    have h0 : (toSexa z).2.1 = 0 := by omega
    have mz' : ((toSexa z).2.2.1 : ℚ) ≤ 59 := by exact_mod_cast Int.le_of_lt_add_one mz
    unfold fromSexa at rz
    rw [h0] at rz
    rcases gz with ⟨g, g'⟩ | ⟨g, g'⟩
    · rw [g] at rz; rw [abs_of_neg g'] at hz; push_cast at rz; linarith
    · rw [g] at rz; rw [abs_of_nonneg g'] at hz; push_cast at rz; linarith
  have d1 := deg x hx
  have d2 := deg y hy
  unfold formatSexa at h
  simp only [Prod.mk.injEq] at h
  obtain ⟨h1, h2, h3⟩ := h
  rw [← rx, ← ry]
  unfold fromSexa
  rw [h2, h3]
  rcases gx with ⟨g, _⟩ | ⟨g, _⟩ <;> rcases gy with ⟨g', _⟩ | ⟨g', _⟩ <;> rw [g, g'] at h1 ⊢ <;> (first | (exfalso; omega) | (rw [show (toSexa x).2.1 = (toSexa y).2.1 by omega]))

example : formatSexa (-3/2) = (-1, 30, 0) ∧ formatSexa (3/2) = (1, 30, 0) := by decide +kernel

/-- C38 fails for the formatted form of angles smaller than a degree: minus half a degree is printed as plus half a
degree. -/
theorem C38_format_refuted : formatSexa (-1/2) = formatSexa (1/2) := by decide +kernel

/-! ### C65: distpow -/

/-- `N`-fold convolution of `dist` with itself, by repeated convolution starting from a unit mass. -/
def convPow (dist : List ℚ) : Nat → List ℚ
  | 0 => [1]
  | N + 1 => convolve (convPow dist N) dist

theorem convPow_spec (dist : List ℚ) (hd : dist ≠ []) (N : Nat) :
    toPoly (convPow dist N) = toPoly dist ^ N ∧ (convPow dist N).length = 1 + N * (dist.length - 1) ∧ convPow dist N ≠ [] := by
  have hl := List.length_pos_of_ne_nil hd
  induction N with
  | zero => exact ⟨by rw [pow_zero]; exact toPoly_one, by simp [convPow], by simp [convPow]⟩
  | succ N ih =>
    obtain ⟨h1, h2, h3⟩ := ih
    refine ⟨by rw [convPow, toPoly_convolve _ _ h3 hd, h1, pow_succ], ?_, convolve_ne_nil h3 hd⟩
    rw [convPow, convolve_length, h2]
    have : (N + 1) * (dist.length - 1) = N * (dist.length - 1) + (dist.length - 1) := by ring
    rw [this]
    omega

/-- C65: distpow ends and returns the N-fold convolution of the distribution with itself; its length is
`N (len-1) + 1` and its total is the N-th power of the total. -/
theorem C65_distpow (dist : List ℚ) (hd : dist ≠ []) (N : Nat) :
    ∃ out, distpow N dist N = some out ∧ out = convPow dist N ∧ out.length = N * (dist.length - 1) + 1 ∧
      out.sum = dist.sum ^ N := by
  obtain ⟨out, h1, h2, h3, _⟩ := distpowLoop_spec N N dist [1] hd (by simp) (le_refl _)
  obtain ⟨p1, p2, _⟩ := convPow_spec dist hd N
  rw [toPoly_one, one_mul] at h2
  refine ⟨out, h1, list_eq_of_poly (by rw [h3, p2]; simp) (by rw [h2, p1]), by rw [h3]; simp; omega, ?_⟩
  rw [← toPoly_eval_one, h2, Polynomial.eval_pow, toPoly_eval_one]

example : distpow 3 [1/2, 1/2] 3 = some [1/8, 3/8, 3/8, 1/8] := by decide +kernel

/-- Convolution is the distribution of a sum: the entry `k` collects `a i * b j` over all `i + j = k`. -/
theorem C65_convolve (a b : List ℚ) (k : Nat) (hk : k < a.length + b.length - 1) :
    (convolve a b)[k]? = some (∑ p ∈ Finset.antidiagonal k, a.getD p.1 0 * b.getD p.2 0) := by
  rw [Finset.Nat.sum_antidiagonal_eq_sum_range_succ (fun i j => a.getD i 0 * b.getD j 0), ← sum_list_range]
  simp [convolve, hk]

example : convolve [1, 2] [3, 4, 5] = [3, 10, 13, 10] := by decide +kernel

/-! ### C76: triangle_wave -/

/-- C76: the wave has the given period, stays in [-1,1], and on the four quarters of a period it rises from 0 to 1,
falls from 1 to -1 and rises back to 0, linearly. -/
theorem C76_triangle_wave (period : ℚ) (hp : 0 < period) :
    (∀ x, ∀ k : ℤ, triangleWave (x + k * period) period = triangleWave x period) ∧
    (∀ x, -1 ≤ triangleWave x period ∧ triangleWave x period ≤ 1) ∧
    (∀ t, 0 ≤ t → t < 1/4 → triangleWave (t * period) period = 4 * t) ∧
    (∀ t, 1/4 ≤ t → t < 3/4 → triangleWave (t * period) period = 2 - 4 * t) ∧
    (∀ t, 3/4 ≤ t → t < 1 → triangleWave (t * period) period = 4 * t - 4) := by
  have ev : ∀ t, 0 ≤ t → t < 1 → pmod (t * period) period / period * 4 = 4 * t := by
    intro t h0 h1
    rw [pmod_eq_self (by positivity) (by nlinarith)]
    field_simp
  refine ⟨?_, ?_, ?_, ?_, ?_⟩
  · intro x k
    unfold triangleWave
    rw [pmod_add_mul x (ne_of_gt hp) k]
  · intro x
    have h0 := pmod_nonneg x hp
    have h1 := pmod_lt x hp
    have a0 : 0 ≤ pmod x period / period := by positivity
    have a1 : pmod x period / period < 1 := by rw [div_lt_one hp]; exact h1
    unfold triangleWave
    generalize pmod x period / period = y at *
    simp only
    split
    · constructor <;> linarith
    · split
      · constructor <;> linarith
      · constructor <;> linarith
  · intro t h0 h1
    unfold triangleWave
    rw [ev t h0 (by linarith)]
    simp only
    rw [if_pos (by linarith)]
  · intro t h0 h1
    unfold triangleWave
    rw [ev t (by linarith) (by linarith)]
    simp only
    rw [if_neg (by linarith), if_pos (by linarith)]
  · intro t h0 h1
    unfold triangleWave
    rw [ev t (by linarith) (by linarith)]
    simp only
    rw [if_neg (by linarith), if_neg (by linarith)]

example : triangleWave (5/2) 2 = 1 ∧ triangleWave (-1/2) 2 = -1 ∧ triangleWave (1/3) 2 = 2/3 := by decide +kernel

end Pixell
