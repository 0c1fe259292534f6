import Verif.Model.Beams
import Mathlib.Tactic.LinearCombination
import Mathlib.Tactic.Linarith
import Mathlib.Tactic.FieldSimp
import Mathlib.Tactic.Ring
import Mathlib.Tactic.NormNum

/-! C150: elliptical beams and regularized beam transfer functions. -/

namespace Pixell

theorem compressBeam_turn (s0 s1 phi : ℝ) (k : ℤ) : compressBeam s0 s1 (phi - k * Real.pi) = compressBeam s0 s1 phi := by
  have hsq : ((-1 : ℝ) ^ k) * ((-1 : ℝ) ^ k) = 1 := by
    rw [← mul_zpow]; norm_num
  unfold compressBeam
  dsimp only
  rw [Real.cos_sub_int_mul_pi, Real.sin_sub_int_mul_pi]
  refine Prod.ext ?_ (Prod.ext ?_ ?_) <;> dsimp only
  · linear_combination (Real.cos phi * (s0 ^ 2)⁻¹ * Real.cos phi + Real.sin phi * (s1 ^ 2)⁻¹ * Real.sin phi) * hsq
  · linear_combination (Real.sin phi * (s0 ^ 2)⁻¹ * Real.sin phi + Real.cos phi * (s1 ^ 2)⁻¹ * Real.cos phi) * hsq
  · linear_combination (Real.cos phi * (s0 ^ 2)⁻¹ * Real.sin phi - Real.sin phi * (s1 ^ 2)⁻¹ * Real.cos phi) * hsq

theorem realMod_eq (x p : ℝ) : ∃ k : ℤ, realMod x p = x - k * p := ⟨⌊x / p⌋, by unfold realMod; ring⟩

theorem realMod_add (x p : ℝ) (hp : 0 < p) (k : ℤ) : realMod (x + k * p) p = realMod x p := by
  unfold realMod
  have : (x + k * p) / p = x / p + k := by field_simp
  rw [this, Int.floor_add_intCast]
  push_cast
  ring

theorem realMod_range (x p : ℝ) (hp : 0 < p) : 0 ≤ realMod x p ∧ realMod x p < p := by
  unfold realMod
  have h1 := Int.floor_le (x / p)
  have h2 := Int.lt_floor_add_one (x / p)
  rw [le_div_iff₀ hp] at h1
  rw [div_lt_iff₀ hp] at h2
  constructor <;> nlinarith

theorem inv_sq_rpow (e : ℝ) (he : 0 < e) : ((e ^ (-(1/2) : ℝ)) ^ 2)⁻¹ = e := by
  rw [← Real.rpow_natCast, ← Real.rpow_mul he.le, ← Real.rpow_neg he.le]
  norm_num

theorem rpow_inv_sq (s : ℝ) (hs : 0 < s) : ((s ^ 2)⁻¹) ^ (-(1/2) : ℝ) = s := by
  rw [← Real.rpow_natCast, ← Real.rpow_neg hs.le, ← Real.rpow_mul hs.le]
  norm_num

theorem arg_unit (c s : ℝ) (h : c ^ 2 + s ^ 2 = 1) : Real.cos (Complex.arg ⟨c, s⟩) = c ∧ Real.sin (Complex.arg ⟨c, s⟩) = s := by
  have hn : ‖(⟨c, s⟩ : ℂ)‖ = 1 := by
    rw [Complex.norm_def, Complex.normSq_mk, ← sq, ← sq, h, Real.sqrt_one]
  have hne : (⟨c, s⟩ : ℂ) ≠ 0 := by
    intro h0; rw [h0, norm_zero] at hn; exact zero_ne_one hn
  constructor
  · rw [Complex.cos_arg hne, hn, div_one]
  · rw [Complex.sin_arg, hn, div_one]

/-- The matrix in terms of its first eigenvector. -/
theorem eig2_matrix {C : Irads} {E : Eig2} (h : IsEig2 C E) :
    C = (E.v00 * E.e0 * E.v00 + E.v10 * E.e1 * E.v10, E.v10 * E.e0 * E.v10 + E.v00 * E.e1 * E.v00,
      E.v00 * E.e0 * E.v10 - E.v10 * E.e1 * E.v00) := by
  obtain ⟨_, u0, u1, o, a00, a10, a01, a11⟩ := h
  set t := E.v00 * E.v11 - E.v10 * E.v01 with ht
  have h01 : E.v01 = -E.v10 * t := by rw [ht]; linear_combination (-E.v01) * u0 + E.v00 * o
  have h11 : E.v11 = E.v00 * t := by rw [ht]; linear_combination (-E.v11) * u0 + E.v10 * o
  have htt : t * t = 1 := by
    rw [h01, h11] at u1
    linear_combination u1 - t ^ 2 * u0
  rw [h01, h11] at a01 a11
  have b0 : -E.v10 * C.1 + E.v00 * C.2.2 = -E.v10 * E.e1 := by
    linear_combination t * a01 + (E.v10 * C.1 - E.v00 * C.2.2 - E.e1 * E.v10) * htt
  have b1 : -E.v10 * C.2.2 + E.v00 * C.2.1 = E.v00 * E.e1 := by
    linear_combination t * a11 + (E.v10 * C.2.2 - E.v00 * C.2.1 + E.e1 * E.v00) * htt
  refine Prod.ext ?_ (Prod.ext ?_ ?_) <;> dsimp only
  · linear_combination (-C.1) * u0 + E.v00 * a00 - E.v10 * b0
  · linear_combination (-C.2.1) * u0 + E.v10 * a10 + E.v00 * b1
  · linear_combination (-C.2.2) * u0 + E.v10 * a00 + E.v00 * b0

theorem expandBeam_eq {E : Eig2} (hle : E.e0 ≤ E.e1) (hpos : 0 < E.e0) :
    expandBeam E = (E.e0 ^ (-(1/2) : ℝ), E.e1 ^ (-(1/2) : ℝ), realMod (Complex.arg ⟨E.v00, E.v10⟩) Real.pi) := by
  unfold expandBeam
  dsimp only
  rw [if_neg]
  rw [not_lt]
  exact Real.rpow_le_rpow_of_nonpos hpos hle (by norm_num)

/-- C150: expand_beam and then compress_beam give the same numbers back, for every positive definite beam and whatever eigenvectors eigh picks. The radii come
with the larger one first and the angle is in [0, pi). -/
theorem C150_expand (C : Irads) (E : Eig2) (h : IsEig2 C E) (hpos : 0 < E.e0) :
    compressBeam (expandBeam E).1 (expandBeam E).2.1 (expandBeam E).2.2 = C ∧
    0 < (expandBeam E).2.1 ∧ (expandBeam E).2.1 ≤ (expandBeam E).1 ∧ 0 ≤ (expandBeam E).2.2 ∧ (expandBeam E).2.2 < Real.pi := by
  have hpos1 : 0 < E.e1 := lt_of_lt_of_le hpos h.le
  rw [expandBeam_eq h.le hpos]
  dsimp only
  refine ⟨?_, Real.rpow_pos_of_pos hpos1 _, Real.rpow_le_rpow_of_nonpos hpos h.le (by norm_num),
    (realMod_range _ _ Real.pi_pos).1, (realMod_range _ _ Real.pi_pos).2⟩
  obtain ⟨k, hk⟩ := realMod_eq (Complex.arg ⟨E.v00, E.v10⟩) Real.pi
  rw [hk, compressBeam_turn]
  unfold compressBeam
  dsimp only
  rw [inv_sq_rpow _ hpos, inv_sq_rpow _ hpos1, (arg_unit _ _ h.unit0).1, (arg_unit _ _ h.unit0).2]
  exact (eig2_matrix h).symm

/-- C150: compress_beam and then expand_beam give the same radii back, and the same angle up to half turns, for every ellipse. Radii in the other order with the angle
turned by a right angle are the same beam. -/
theorem C150_compress (s0 s1 phi : ℝ) (h1 : 0 < s1) (h01 : s1 < s0) (E : Eig2) (h : IsEig2 (compressBeam s0 s1 phi) E) :
    expandBeam E = (s0, s1, realMod phi Real.pi) ∧ compressBeam s1 s0 (phi + Real.pi / 2) = compressBeam s0 s1 phi := by
  have h0 : 0 < s0 := h1.trans h01
  have hcs := Real.sin_sq_add_cos_sq phi
  set c := Real.cos phi with hc
  set s := Real.sin phi with hs
  set p := (s0 ^ 2)⁻¹ with hp
  set q := (s1 ^ 2)⁻¹ with hq
  have hpq : p < q := by
    rw [hp, hq]
    exact inv_strictAnti₀ (by positivity) (by nlinarith)
  have hp0 : 0 < p := by rw [hp]; positivity
  have hC : compressBeam s0 s1 phi = (c * p * c + s * q * s, s * p * s + c * q * c, c * p * s - s * q * c) := rfl
  refine ⟨?_, ?_⟩
  · rw [hC] at h
    have hm := eig2_matrix h
    have m0 := congrArg Prod.fst hm
    have m1 := congrArg (fun x => x.2.1) hm
    have m2 := congrArg (fun x => x.2.2) hm
    dsimp only at m0 m1 m2
    have u0 := h.unit0
    -- trace and determinant
    have tr : p + q = E.e0 + E.e1 := by
      linear_combination m0 + m1 - (p + q) * hcs + (E.e0 + E.e1) * u0
    have dt : p * q = E.e0 * E.e1 := by
      have e1 : (c * p * c + s * q * s) * (s * p * s + c * q * c) - (c * p * s - s * q * c) ^ 2 = p * q := by
        linear_combination p * q * (s ^ 2 + c ^ 2 + 1) * hcs
      have e2 : (E.v00 * E.e0 * E.v00 + E.v10 * E.e1 * E.v10) * (E.v10 * E.e0 * E.v10 + E.v00 * E.e1 * E.v00) -
          (E.v00 * E.e0 * E.v10 - E.v10 * E.e1 * E.v00) ^ 2 = E.e0 * E.e1 := by
        linear_combination E.e0 * E.e1 * (E.v00 ^ 2 + E.v10 ^ 2 + 1) * u0
      rw [← e1, ← e2, m0, m1, m2]
    have he0 : E.e0 = p := by
      have : (E.e0 - p) * (E.e0 - q) = 0 := by linear_combination dt - E.e0 * tr
      rcases mul_eq_zero.1 this with h' | h'
      · linarith
      · have := h.le
        linarith
    have he1 : E.e1 = q := by linarith
    rw [expandBeam_eq h.le (by rw [he0]; exact hp0), he0, he1, hp, hq, rpow_inv_sq _ h0, rpow_inv_sq _ h1]
    -- the eigenvector is along the axis
    have a0 := h.eig00
    have a1 := h.eig10
    dsimp only at a0 a1
    rw [he0] at a0 a1
    have hx : (q - p) * (-s * E.v00 + c * E.v10) = 0 := by
      linear_combination (-s) * a0 + c * a1 - (q * (-s * E.v00 + c * E.v10)) * hcs
    have hx : -s * E.v00 + c * E.v10 = 0 := by
      rcases mul_eq_zero.1 hx with h' | h'
      · linarith
      · exact h'
    set t := c * E.v00 + s * E.v10 with ht
    have hv0 : E.v00 = t * c := by rw [ht]; linear_combination (-E.v00) * hcs - s * hx
    have hv1 : E.v10 = t * s := by rw [ht]; linear_combination (-E.v10) * hcs + c * hx
    have htt : t * t = 1 := by
      rw [hv0, hv1] at u0
      linear_combination u0 - t ^ 2 * hcs
    obtain ⟨ac, as⟩ := arg_unit _ _ u0
    have hang : ∃ k : ℤ, Complex.arg ⟨E.v00, E.v10⟩ = phi + k * Real.pi := by
      have hsin : Real.sin (Complex.arg ⟨E.v00, E.v10⟩ - phi) = 0 := by
        rw [Real.sin_sub, ac, as, ← hc, ← hs, hv0, hv1]; ring
      obtain ⟨k, hk⟩ := Real.sin_eq_zero_iff.1 hsin
      exact ⟨k, by linarith⟩
    obtain ⟨k, hk⟩ := hang
    rw [hk, realMod_add _ _ Real.pi_pos]
  · unfold compressBeam
    dsimp only
    rw [Real.cos_add_pi_div_two, Real.sin_add_pi_div_two]
    refine Prod.ext ?_ (Prod.ext ?_ ?_) <;> dsimp only <;> ring

/-- An ellipse along an axis. -/
example : IsEig2 (compressBeam 2 1 0) ⟨1/4, 1, 1, 0, 0, 1⟩ := by
  constructor <;> norm_num [compressBeam]

theorem rpow_half_sq (e : ℝ) (he : 0 ≤ e) : e ^ (1/2 : ℝ) * e ^ (1/2 : ℝ) = e := by
  rw [← Real.rpow_add_of_nonneg he (by norm_num) (by norm_num)]; norm_num

/-- C150: combining a single beam gives that beam. Missing: more than one beam, see C150_combine_refuted. -/
theorem C150_combine_partial (C : Irads) (E : Eig2) (h : IsEig2 C E) (hpos : 0 ≤ E.e0) : combineBeams [E] = C := by
  have hpos1 : 0 ≤ E.e1 := hpos.trans h.le
  have q0 := rpow_half_sq _ hpos
  have q1 := rpow_half_sq _ hpos1
  have hm := eig2_matrix h
  have u0 := h.unit0
  have u1 := h.unit1
  have o := h.orth
  unfold combineBeams combineStep
  simp only [List.foldl_cons, List.foldl_nil]
  set r0 := E.e0 ^ (1/2 : ℝ)
  set r1 := E.e1 ^ (1/2 : ℝ)
  set t := E.v00 * E.v11 - E.v10 * E.v01 with ht
  have h01 : E.v01 = -E.v10 * t := by rw [ht]; linear_combination (-E.v01) * u0 + E.v00 * o
  have h11 : E.v11 = E.v00 * t := by rw [ht]; linear_combination (-E.v11) * u0 + E.v10 * o
  have htt : t * t = 1 := by
    rw [h01, h11] at u1
    linear_combination u1 - t ^ 2 * u0
  have b00 : E.v00 * r0 * E.v00 + E.v01 * r1 * E.v01 = E.v00 ^ 2 * r0 + E.v10 ^ 2 * r1 := by
    rw [h01]; linear_combination E.v10 ^ 2 * r1 * htt
  have b01 : E.v00 * r0 * E.v10 + E.v01 * r1 * E.v11 = E.v00 * E.v10 * (r0 - r1) := by
    rw [h01, h11]; linear_combination (-E.v10 * E.v00) * r1 * htt
  have b11 : E.v10 * r0 * E.v10 + E.v11 * r1 * E.v11 = E.v10 ^ 2 * r0 + E.v00 ^ 2 * r1 := by
    rw [h11]; linear_combination E.v00 ^ 2 * r1 * htt
  rw [b00, b01, b11, hm, ← q0, ← q1]
  refine Prod.ext ?_ (Prod.ext ?_ ?_) <;> dsimp only
  · linear_combination (E.v00 ^ 2 * r0 ^ 2 + E.v10 ^ 2 * r1 ^ 2) * u0
  · linear_combination (E.v10 ^ 2 * r0 ^ 2 + E.v00 ^ 2 * r1 ^ 2) * u0
  · linear_combination E.v00 * E.v10 * (r0 ^ 2 - r1 ^ 2) * u0

/-- **C150 refuted (order of beams).** The combination depends on the order in which the beams are given: for the beams `[[1,0],[0,4]]` and `[[5,4],[4,5]]` it is one
beam in one order and another in the other. -/
theorem C150_combine_refuted : ∃ (A B : Irads) (E F : Eig2), IsEig2 A E ∧ IsEig2 B F ∧ 0 < E.e0 ∧ 0 < F.e0 ∧
    combineBeams [E, F] = (8, 17, 10) ∧ combineBeams [F, E] = (5, 20, 8) := by
  have s4 : (4 : ℝ) ^ (1/2 : ℝ) = 2 := by
    rw [← Real.sqrt_eq_rpow, show (4 : ℝ) = 2 ^ 2 by norm_num, Real.sqrt_sq (by norm_num)]
  have s9 : (9 : ℝ) ^ (1/2 : ℝ) = 3 := by
    rw [← Real.sqrt_eq_rpow, show (9 : ℝ) = 3 ^ 2 by norm_num, Real.sqrt_sq (by norm_num)]
  have hr : Real.sqrt (1/2) * Real.sqrt (1/2) = 1/2 := Real.mul_self_sqrt (by norm_num)
  set r := Real.sqrt (1/2)
  refine ⟨(1, 4, 0), (5, 5, 4), ⟨1, 4, 1, 0, 0, 1⟩, ⟨1, 9, r, -r, r, r⟩, ?_, ?_, by norm_num, by norm_num, ?_, ?_⟩
  · constructor <;> norm_num
  · constructor <;> dsimp only
    · norm_num
    · linear_combination 2 * hr
    · linear_combination 2 * hr
    · ring
    · ring
    · ring
    · ring
    · ring
  · unfold combineBeams
    simp only [List.foldl_cons, List.foldl_nil]
    unfold combineStep
    simp only [s4, s9, Real.one_rpow]
    have e1 : r * 1 * r + r * 3 * r = 2 := by linear_combination 4 * hr
    have e2 : r * 1 * -r + r * 3 * r = 1 := by linear_combination 2 * hr
    have e3 : -r * 1 * -r + r * 3 * r = 2 := by linear_combination 4 * hr
    rw [e1, e2, e3]
    norm_num
  · unfold combineBeams
    simp only [List.foldl_cons, List.foldl_nil]
    unfold combineStep
    simp only [s4, s9, Real.one_rpow]
    have e1 : r * 1 * r + r * 3 * r = 2 := by linear_combination 4 * hr
    have e2 : r * 1 * -r + r * 3 * r = 1 := by linear_combination 2 * hr
    have e3 : -r * 1 * -r + r * 3 * r = 2 := by linear_combination 4 * hr
    rw [e1, e2, e3]
    norm_num

/-! ### Regularized beams -/

/-- `lc` is where the beam first falls to `cutoff` times its maximum. -/
structure FallsAt (n : ℕ) (b : ℕ → ℝ) (cutoff : ℝ) (m : ℝ) (lc : ℕ) : Prop where
  isMax : (∀ l < n, b l ≤ m) ∧ ∃ l < n, b l = m
  above : ∀ l < lc, m * cutoff < b l
  below : b lc ≤ m * cutoff
  inside : lc < n
  start : 0 < lc

theorem vcutOf_eq {n : ℕ} {b : ℕ → ℝ} {m : ℝ} (cutoff : ℝ) (h : (∀ l < n, b l ≤ m) ∧ ∃ l < n, b l = m) :
    vcutOf n b cutoff = some (m * cutoff) := by
  have : ((List.range n).map b).max? = some m := by
    rw [List.max?_eq_some_iff]
    constructor
    · obtain ⟨l, hl, hb⟩ := h.2
      exact List.mem_map.2 ⟨l, List.mem_range.2 hl, hb⟩
    · intro x hx
      obtain ⟨l, hl, rfl⟩ := List.mem_map.1 hx
      exact h.1 l (List.mem_range.1 hl)
  unfold vcutOf
  rw [this]
  rfl

theorem find_range {n k : ℕ} (p : ℕ → Bool) (hk : k < n) (hp : p k = true) (hlt : ∀ l < k, p l = false) :
    (List.range n).find? p = some k := by
  rw [List.find?_eq_some_iff_append]
  refine ⟨hp, List.range k, (List.range' (k + 1) (n - k - 1)), ?_, ?_⟩
  · have h1 := List.range'_append_1 (s := 0) (m := k) (n := n - k)
    rw [Nat.zero_add] at h1
    rw [List.range_eq_range', List.range_eq_range', ← List.range'_succ, show n - k - 1 + 1 = n - k by omega, h1]
    congr 1
    omega
  · intro a ha
    rw [hlt a (List.mem_range.1 ha)]
    rfl

theorem lcutOf_falls {n : ℕ} {b : ℕ → ℝ} {cutoff m : ℝ} {lc : ℕ} (h : FallsAt n b cutoff m lc) : lcutOf n b (m * cutoff) = lc := by
  unfold lcutOf
  rw [find_range _ h.inside (by simp [not_lt.2 h.below]) (fun l hl => by simp [h.above l hl])]
  obtain ⟨k, rfl⟩ := Nat.exists_eq_succ_of_ne_zero (ne_of_gt h.start)
  rfl

theorem regularizeBeam_falls {n : ℕ} {b : ℕ → ℝ} {cutoff m : ℝ} {lc : ℕ} (h : FallsAt n b cutoff m lc) {nl : ℕ} (hnl : lc < nl) :
    regularizeBeam n b cutoff nl = some (nl, fun l => if l < lc then b l else beamTail (m * cutoff) lc cutoff l) := by
  unfold regularizeBeam
  rw [vcutOf_eq cutoff h.isMax, Option.bind_some]
  dsimp only
  rw [lcutOf_falls h, if_neg (by omega), if_neg (by omega)]
  congr 2
  funext l
  have : (l < lc ∧ l < min nl n) ↔ l < lc := by
    have := h.inside
    constructor
    · exact fun h => h.1
    · intro h'; exact ⟨h', by omega⟩
  simp only [this]

/-- C150: regularize_beam has the length asked for and keeps all values before the beam first falls to the cutoff; from there on it is the cutoff times the maximum at that
point and the ratio of any two beams regularized with the same cutoff is constant. Missing: beams that never fall below the cutoff or start below it, and lengths
that end before or just where it falls (see the refuted claims). -/
theorem C150_regularize_partial (n n' : ℕ) (b b' : ℕ → ℝ) (cutoff m m' : ℝ) (lc lc' nl nl' : ℕ) (h : FallsAt n b cutoff m lc)
    (h' : FallsAt n' b' cutoff m' lc') (hc : 0 < cutoff) (hm : 0 < m) (hm' : 0 < m') (hnl : lc < nl) (hnl' : lc' < nl') :
    ∃ o o', regularizeBeam n b cutoff nl = some (nl, o) ∧ regularizeBeam n' b' cutoff nl' = some (nl', o') ∧
      (∀ l < lc, o l = b l) ∧ o lc = m * cutoff ∧ (∀ l, lc ≤ l → 0 < o l) ∧
      ∃ K, 0 < K ∧ ∀ l, lc ≤ l → lc' ≤ l → o l = K * o' l := by
  refine ⟨_, _, regularizeBeam_falls h hnl, regularizeBeam_falls h' hnl', ?_, ?_, ?_, ?_⟩
  · intro l hl
    simp [hl]
  · have h0 : (0 : ℝ) < lc := by exact_mod_cast h.start
    have hmax : max 1 lc = lc := max_eq_right h.start
    simp only [lt_irrefl, if_false, beamTail, hmax]
    rw [div_self h0.ne', Real.one_rpow, mul_one]
  · intro l hl
    have h0 : (0 : ℝ) < lc := by exact_mod_cast h.start
    have h1 : (0 : ℝ) < (max 1 l : ℕ) := by exact_mod_cast lt_of_lt_of_le Nat.one_pos (le_max_left 1 l)
    simp only [not_lt.2 hl, if_false, beamTail]
    positivity
  · set p := 2 * Real.log cutoff
    have h0 : (0 : ℝ) < lc := by exact_mod_cast h.start
    have h0' : (0 : ℝ) < lc' := by exact_mod_cast h'.start
    refine ⟨m / m' * ((lc' : ℝ) ^ p / (lc : ℝ) ^ p), by positivity, ?_⟩
    intro l hl hl'
    have h1 : (0 : ℝ) < (max 1 l : ℕ) := by exact_mod_cast lt_of_lt_of_le Nat.one_pos (le_max_left 1 l)
    simp only [not_lt.2 hl, not_lt.2 hl', if_false, beamTail]
    rw [Real.div_rpow h1.le h0.le, Real.div_rpow h1.le h0'.le]
    have := (Real.rpow_pos_of_pos h0 p).ne'
    have := (Real.rpow_pos_of_pos h0' p).ne'
    simp only [p] at *
    field_simp

/-- A beam that falls from 1 to 0.001. -/
example : FallsAt 2 (fun l => if l = 0 then 1 else 1/1000) (1/100) 1 1 := by
  refine ⟨⟨?_, 0, by norm_num, by norm_num⟩, ?_, by norm_num, by norm_num, by norm_num⟩
  · intro l hl
    split <;> norm_num
  · intro l hl
    have : l = 0 := by omega
    simp [this]; norm_num

/-- **C150 refuted (length).** A beam cut exactly where it falls below the cutoff cannot be regularized: the call fails. -/
theorem C150_length_refuted (n : ℕ) (b : ℕ → ℝ) (cutoff m : ℝ) (lc : ℕ) (h : FallsAt n b cutoff m lc) :
    regularizeBeam n b cutoff lc = none := by
  unfold regularizeBeam
  rw [vcutOf_eq cutoff h.isMax, Option.bind_some]
  dsimp only
  rw [lcutOf_falls h, if_neg (by omega), if_pos (by omega)]

/-- **C150 refuted (no small values).** "replace small values": in a beam that has none the last value is replaced, by one that is small. With n values 1 the
last one becomes the cutoff. -/
theorem C150_flat_refuted (n : ℕ) (hn : 2 ≤ n) (cutoff : ℝ) (hc : cutoff < 1) :
    ∃ o, regularizeBeam n (fun _ => 1) cutoff n = some (n, o) ∧ o (n - 1) = cutoff := by
  have hv : vcutOf n (fun _ => (1 : ℝ)) cutoff = some (1 * cutoff) :=
    vcutOf_eq cutoff ⟨fun _ _ => le_refl _, 0, by omega, rfl⟩
  have hl : lcutOf n (fun _ => (1 : ℝ)) (1 * cutoff) = n - 1 := by
    unfold lcutOf
    have : (List.range n).find? (fun _ => decide (¬ (1 * cutoff < (1 : ℝ)))) = none := by
      rw [List.find?_eq_none]
      intro x _
      simp [hc]
    rw [this]
  refine ⟨fun l => if l < n - 1 ∧ l < min n n then 1 else beamTail (1 * cutoff) (n - 1) cutoff l, ?_, ?_⟩
  · unfold regularizeBeam
    rw [hv, Option.bind_some]
    dsimp only
    rw [hl, if_neg (by omega), if_neg (by omega)]
  · have h0 : (0 : ℝ) < ((n - 1 : ℕ) : ℝ) := by
      have : 0 < n - 1 := by omega
      exact_mod_cast this
    have hmax : max 1 (n - 1) = n - 1 := max_eq_right (by omega)
    simp only [lt_irrefl, false_and, if_false, beamTail, hmax]
    rw [div_self h0.ne', Real.one_rpow]
    ring

/-- **C150 refuted (small start).** A beam that starts at or below the cutoff keeps all its small values, however many there are; only the last of the `n` values is replaced, whatever it is,
by the cutoff times the maximum. -/
theorem C150_start_refuted (n : ℕ) (hn : 2 ≤ n) (b : ℕ → ℝ) (cutoff m : ℝ) (hm : (∀ l < n, b l ≤ m) ∧ ∃ l < n, b l = m) (h0 : b 0 ≤ m * cutoff) :
    ∃ o, regularizeBeam n b cutoff n = some (n, o) ∧ (∀ l < n - 1, o l = b l) ∧ o (n - 1) = m * cutoff := by
  have hl : lcutOf n b (m * cutoff) = n - 1 := by
    unfold lcutOf
    obtain ⟨k, rfl⟩ : ∃ k, n = k + 1 := ⟨n - 1, by omega⟩
    rw [List.range_succ_eq_map, List.find?_cons_of_pos (by simpa using h0)]
    rfl
  refine ⟨_, by unfold regularizeBeam; rw [vcutOf_eq cutoff hm, Option.bind_some]; dsimp only; rw [hl, if_neg (by omega), if_neg (by omega)], ?_, ?_⟩
  · intro l hl
    simp only [min_self]
    rw [if_pos ⟨hl, by omega⟩]
  · have h0 : (0 : ℝ) < ((n - 1 : ℕ) : ℝ) := by
      have : 0 < n - 1 := by omega
      exact_mod_cast this
    have hmax : max 1 (n - 1) = n - 1 := max_eq_right (by omega)
    simp only [lt_irrefl, false_and, if_false, beamTail, hmax]
    rw [div_self h0.ne', Real.one_rpow, mul_one]

/-- A beam that is zero up to l=7 and one from there on. -/
example : (∀ l < 10, (if 8 ≤ l then (1 : ℝ) else 0) ≤ 1) ∧ (∃ l < 10, (if 8 ≤ l then (1 : ℝ) else 0) = 1) ∧ (if 8 ≤ 0 then (1 : ℝ) else 0) ≤ 1 * 0.01 := by
  refine ⟨fun l _ => by split <;> norm_num, ⟨8, by norm_num, by simp⟩, by norm_num⟩

end Pixell
