import Verif.Model.SrcBox
import Verif.Props.Neighborhood
import Mathlib.Tactic.Positivity
import Mathlib.Tactic.FieldSimp
import Mathlib.Tactic.Linarith
import Mathlib.Tactic.NormNum

/-
C134: the box of pixels around an object contains all pixels within its radius.
-/
namespace Pixell
open Real

/-- Full claim: the pixels of the map within the radius are in the box, up to whole turns of the columns. -/
def C134_claim (ny nx nphi : ℕ) (decs ras : ℕ → ℝ) (objY objX : ℕ) (dec ra rmax : ℝ) : Prop :=
  ∃ b, estimateBox ny nx decs ras objY objX rmax = some b ∧
    ∀ y x : ℕ, y < ny → x < nx → sphereSep dec ra (decs y) (ras x) ≤ rmax →
      (b.y1 ≤ y ∧ (y : ℤ) < b.y2) ∧ ∃ k : ℤ, b.x1 ≤ x + k * nphi ∧ (x : ℤ) + k * nphi < b.x2

theorem cTruncR_nonneg {x : ℝ} (h : 0 ≤ x) : cTruncR x = ⌊x⌋ := if_pos h

theorem calcGrad_linear (n : ℕ) (hn : 2 ≤ n) (c s : ℝ) (hs : |s| < π / 2) (i : ℤ) (h0 : 0 ≤ i) (h1 : i < n) :
    calcGrad n (fun k => c + k * s) i = some s := by
  have hp := pi_pos
  rw [abs_lt] at hs
  have key : ∀ t : ℝ, -π < t → t < π → cFmod (t + π) (2 * π) - π = t := by
    intro t ht1 ht2
    have e : cTruncR ((t + π) / (2 * π)) = 0 := by
      rw [cTruncR_nonneg (by apply div_nonneg <;> linarith), Int.floor_eq_zero_iff]
      exact ⟨by apply div_nonneg <;> linarith, by rw [div_lt_one (by linarith)]; linarith⟩
    unfold cFmod
    rw [e]
    simp
  unfold calcGrad
  rw [if_neg (by omega)]
  simp only
  by_cases ha : i ≤ 0
  · rw [if_pos ha]
    simp only
    rw [show (c + ((1 : ℕ) : ℝ) * s - (c + ((0 : ℕ) : ℝ) * s)) = s by push_cast; ring, key s (by linarith) (by linarith), div_one]
  · rw [if_neg ha]
    by_cases hb : i ≥ (n : ℤ) - 1
    · rw [if_pos hb]
      simp only
      obtain ⟨m, rfl⟩ : ∃ m, n = m + 2 := ⟨n - 2, by omega⟩
      rw [show (c + ((m + 2 - 1 : ℕ) : ℝ) * s - (c + ((m + 2 - 2 : ℕ) : ℝ) * s)) = s by
        rw [show m + 2 - 1 = m + 1 by omega, show m + 2 - 2 = m by omega]; push_cast; ring,
        key s (by linarith) (by linarith), div_one]
    · rw [if_neg hb]
      simp only
      obtain ⟨m, rfl⟩ : ∃ m : ℕ, i = (m : ℤ) + 1 := ⟨(i - 1).toNat, by omega⟩
      rw [show ((m : ℤ) + 1 + 1).toNat = m + 2 by omega, show ((m : ℤ) + 1 - 1).toNat = m by omega]
      rw [show (c + ((m + 2 : ℕ) : ℝ) * s - (c + (m : ℝ) * s)) = 2 * s by push_cast; ring, key (2 * s) (by linarith) (by linarith)]
      congr 1
      ring

theorem clampPix_mem (n : ℕ) (hn : 2 ≤ n) (i : ℤ) : 0 ≤ clampPix n i ∧ clampPix n i < n := by
  unfold clampPix
  split_ifs <;> omega

theorem pixShape_linear (ny nx : ℕ) (hny : 2 ≤ ny) (hnx : 2 ≤ nx) (d0 sy a0 sx : ℝ) (hsy : |sy| < π / 2) (hsx : |sx| < π / 2) (y x : ℤ) :
    pixShapeSep ny nx (fun k => d0 + k * sy) (fun k => a0 + k * sx) y x
      = some (|sy|, |sx * cos (d0 + ((clampPix ny y).toNat : ℝ) * sy)|) := by
  unfold pixShapeSep
  obtain ⟨a1, a2⟩ := clampPix_mem ny hny y
  obtain ⟨b1, b2⟩ := clampPix_mem nx hnx x
  rw [calcGrad_linear ny hny d0 sy hsy _ a1 a2, calcGrad_linear nx hnx a0 sx hsx _ b1 b2]
  rfl

theorem clampPix_id (n : ℕ) (i : ℤ) (h0 : 0 ≤ i) (h1 : i < n) : clampPix n i = i := by
  unfold clampPix
  rw [if_neg (by omega), if_neg (by omega)]

theorem cos_between {a b x : ℝ} (ha : -(π / 2) ≤ a) (hb : b ≤ π / 2) (h1 : a ≤ x) (h2 : x ≤ b) : min (cos a) (cos b) ≤ cos x := by
  have hp := pi_pos
  rcases le_total 0 x with h | h
  · exact (min_le_right _ _).trans (cos_le_cos_of_nonneg_of_le_pi h (by linarith) h2)
  · rw [← cos_neg x]
    refine (min_le_left _ _).trans ?_
    rw [← cos_neg a]
    exact cos_le_cos_of_nonneg_of_le_pi (by linarith) (by linarith) (by linarith)

theorem minShape_eq (a b c : ℝ) : minShape (a, b) (a, c) = (a, min b c) := by
  unfold minShape
  simp only [lt_irrefl, if_false]
  congr 1
  split_ifs with h
  · exact (min_eq_right h.le).symm
  · exact (min_eq_left (not_lt.1 h)).symm

theorem near_floor (N : ℤ) (q : ℝ) (h : |(N : ℝ)| ≤ q + 1 / 2) : -(⌊q⌋ + 1) ≤ N ∧ N ≤ ⌊q⌋ + 1 := by
  have h1 := Int.lt_floor_add_one q
  have h2 := abs_le.1 h
  constructor
  · have : ((-(⌊q⌋ + 1) : ℤ) : ℝ) - 1 < N := by push_cast; linarith
    have : ((-(⌊q⌋ + 1) - 1 : ℤ) : ℝ) < N := by push_cast at this ⊢; linarith
    have := Int.cast_lt.1 this
    omega
  · have : (N : ℝ) < ((⌊q⌋ + 2 : ℤ) : ℝ) := by push_cast; linarith
    have := Int.cast_lt.1 this
    omega

/-- The box for linear axes. -/
theorem estimateBox_linear (ny nx : ℕ) (hny : 2 ≤ ny) (hnx : 2 ≤ nx) (d0 sy a0 sx : ℝ) (hsy : |sy| < π / 2) (hsx : |sx| < π / 2)
    (objY objX : ℕ) (rmax : ℝ) (h0 : 0 ≤ rmax) (y1 y2 : ℕ) (D : ℤ) (hD : D = ⌊rmax / |sy|⌋ + 1) (hoy : objY < ny)
    (hy1 : clampPix ny (objY - D) = y1) (hy2 : clampPix ny (objY + D) = y2)
    (u dx : ℝ) (hu : u = min (|sx * cos (d0 + objY * sy)|) (min (|sx * cos (d0 + y1 * sy)|) (|sx * cos (d0 + y2 * sy)|)))
    (hne : sy ≠ 0) (hne' : sx * cos (d0 + objY * sy) ≠ 0)
    (ht1 : max |sy| u * (1 / 1000000) ≤ |sy|) (ht2 : 1 / 1000000000000 ≤ |sy|)
    (hdx : dx = max u (max (max |sy| u * (1 / 1000000)) (1 / 1000000000000))) :
    estimateBox ny nx (fun k => d0 + k * sy) (fun k => a0 + k * sx) objY objX rmax
      = some ⟨objY - (⌊rmax / |sy|⌋ + 1), objY + (⌊rmax / |sy|⌋ + 1) + 1,
          objX - (⌊rmax / dx⌋ + 1), objX + (⌊rmax / dx⌋ + 1) + 1⟩ := by
  have hdx0 : 0 < dx := by
    rw [hdx]
    exact lt_of_lt_of_le (by norm_num) ((le_max_right _ _).trans (le_max_right _ _))
  have hs := abs_pos.2 hne
  have e1 : cTruncR |rmax / abs sy| + 1 = D := by
    rw [cTruncR_nonneg (abs_nonneg _), abs_of_nonneg (div_nonneg h0 hs.le), hD]
  have hmax : max |sy| (max (max |sy| u * (1 / 1000000)) (1 / 1000000000000)) = |sy| := max_eq_left (max_le ht1 ht2)
  have hc0 : clampPix ny objY = objY := clampPix_id ny objY (by omega) (by omega)
  unfold estimateBox
  simp only [pixShape_linear ny nx hny hnx d0 sy a0 sx hsy hsx, Option.bind_eq_bind, Option.bind_some, hc0, e1, hy1, hy2,
    Int.toNat_natCast, minShape_eq]
  rw [if_neg (by
    rintro (h | h)
    · exact hne (abs_eq_zero.1 h)
    · exact hne' (abs_eq_zero.1 h))]
  have hmin : min (min (min (min |sx * cos (d0 + objY * sy)| |sx * cos (d0 + y1 * sy)|) |sx * cos (d0 + y1 * sy)|)
      |sx * cos (d0 + y2 * sy)|) |sx * cos (d0 + y2 * sy)| = u := by
    rw [hu]
    simp only [min_assoc, min_self]
  rw [hmin, hmax, ← hdx, cTruncR_nonneg (div_nonneg h0 hs.le), cTruncR_nonneg (div_nonneg h0 hdx0.le)]

/-- C134.  The claim holds for maps with equally spaced rows and columns if the rows beyond the radius, next to which the size of
the pixels is measured, are in the map, and the pixels there are not tiny. -/
theorem C134_box_partial (ny nx nphi : ℕ) (hnx : 2 ≤ nx) (d0 sy a0 sx : ℝ) (hsy : |sy| < π / 2) (hsx : |sx| < π / 2)
    (hsx0 : sx ≠ 0) (hturn : nphi * |sx| = 2 * π) (hrows : ∀ y : ℕ, y < ny → |d0 + y * sy| ≤ π / 2)
    (objY objX : ℕ) (hoy : objY < ny) (dec ra rmax : ℝ) (h0 : 0 ≤ rmax)
    (hra : |ra - (a0 + objX * sx)| ≤ |sx| / 2) (hdec : |dec - (d0 + objY * sy)| ≤ |sy| / 2)
    (D : ℕ) (hD : (D : ℤ) = ⌊rmax / |sy|⌋ + 1) (hlo : D ≤ objY) (hhi : objY + D < ny)
    (hout : rmax + |dec - (d0 + objY * sy)| ≤ D * |sy|)
    (htol : ∀ t, t = |sy| ∨ t = |sx| * cos (d0 + ((objY - D : ℕ) : ℝ) * sy) ∨ t = |sx| * cos (d0 + ((objY + D : ℕ) : ℝ) * sy) →
      max |sy| |sx| * (1 / 1000000) ≤ t ∧ 1 / 1000000000000 ≤ t) :
    C134_claim ny nx nphi (fun k => d0 + k * sy) (fun k => a0 + k * sx) objY objX dec ra rmax := by
  have hp := pi_pos
  have hP0 := htol |sy| (Or.inl rfl)
  have hP1 := htol _ (Or.inr (Or.inl rfl))
  have hP2 := htol _ (Or.inr (Or.inr rfl))
  set e1 := d0 + ((objY - D : ℕ) : ℝ) * sy with he1
  set e2 := d0 + ((objY + D : ℕ) : ℝ) * sy with he2
  set e0 := d0 + (objY : ℝ) * sy with he0
  have hsx' : 0 < |sx| := abs_pos.2 hsx0
  have hsy' : 0 < |sy| := lt_of_lt_of_le (by norm_num) hP0.2
  have b1 := hrows (objY - D) (by omega)
  have b2 := hrows (objY + D) (by omega)
  rw [← he1] at b1
  rw [← he2] at b2
  have b0 := hrows objY hoy
  rw [← he0] at b0
  have c1 : 0 < cos e1 := by
    have : 0 < |sx| * cos e1 := lt_of_lt_of_le (by norm_num) hP1.2
    exact (mul_pos_iff_of_pos_left hsx').1 this
  have c2 : 0 < cos e2 := by
    have : 0 < |sx| * cos e2 := lt_of_lt_of_le (by norm_num) hP2.2
    exact (mul_pos_iff_of_pos_left hsx').1 this
  set m := min (cos e1) (cos e2) with hm
  have hm0 : 0 < m := lt_min c1 c2
  have f1 : e1 = e0 - D * sy := by
    rw [he1, he0, Nat.cast_sub hlo]; ring
  have f2 : e2 = e0 + D * sy := by
    rw [he2, he0]; push_cast; ring
  have hbetween : ∀ t, |t - e0| ≤ D * |sy| → m ≤ cos t := by
    intro t ht
    have ht' := abs_le.1 ht
    have g1 := abs_le.1 b1
    have g2 := abs_le.1 b2
    rcases le_total 0 sy with hs | hs
    · rw [abs_of_nonneg hs] at ht'
      exact cos_between g1.1 g2.2 (by rw [f1]; linarith) (by rw [f2]; linarith)
    · rw [abs_of_nonpos hs] at ht'
      rw [hm, min_comm]
      exact cos_between g2.1 g1.2 (by rw [f2]; linarith) (by rw [f1]; linarith)
  have hin : ∀ t, |t - e0| ≤ D * |sy| → |t| ≤ π / 2 := by
    intro t ht
    have ht' := abs_le.1 ht
    have g1 := abs_le.1 b1
    have g2 := abs_le.1 b2
    rw [f1] at g1
    rw [f2] at g2
    rw [abs_le]
    rcases le_total 0 sy with hs | hs
    · rw [abs_of_nonneg hs] at ht'
      constructor <;> linarith
    · rw [abs_of_nonpos hs] at ht'
      constructor <;> linarith
  have m0 : m ≤ cos e0 := hbetween e0 (by rw [sub_self, abs_zero]; positivity)
  have hc0 : 0 < cos e0 := lt_of_lt_of_le hm0 m0
  have hmle : m ≤ 1 := (min_le_left _ _).trans (cos_le_one _)
  have hu : |sx| * m = min (|sx * cos e0|) (min (|sx * cos e1|) (|sx * cos e2|)) := by
    rw [abs_mul, abs_mul, abs_mul, abs_of_pos hc0, abs_of_pos c1, abs_of_pos c2]
    rw [← mul_min_of_nonneg _ _ hsx'.le, ← mul_min_of_nonneg _ _ hsx'.le, ← hm, min_eq_right m0]
  have hule : |sx| * m ≤ |sx| := mul_le_of_le_one_right hsx'.le hmle
  have hmm : max |sy| (|sx| * m) * (1 / 1000000) ≤ max |sy| |sx| * (1 / 1000000) :=
    mul_le_mul_of_nonneg_right (max_le_max le_rfl hule) (by norm_num)
  have hsm : |sx| * m = min (|sx| * cos e1) (|sx| * cos e2) := by rw [hm, mul_min_of_nonneg _ _ hsx'.le]
  have hdx : |sx| * m = max (|sx| * m) (max (max |sy| (|sx| * m) * (1 / 1000000)) (1 / 1000000000000)) := by
    refine (max_eq_left (max_le (hmm.trans ?_) ?_)).symm
    · rw [hsm]; exact le_min hP1.1 hP2.1
    · rw [hsm]; exact le_min hP1.2 hP2.2
  have hD' : (D : ℤ) = ⌊rmax / |sy|⌋ + 1 := hD
  have hDpos : 0 ≤ ⌊rmax / |sy|⌋ := Int.floor_nonneg.2 (div_nonneg h0 hsy'.le)
  have hbox := estimateBox_linear ny nx (by omega) hnx d0 sy a0 sx hsy hsx objY objX rmax h0 (objY - D) (objY + D) D hD' hoy
    (by rw [clampPix_id ny _ (by omega) (by omega)]; omega) (by rw [clampPix_id ny _ (by omega) (by omega)]; omega)
    (|sx| * m) (|sx| * m) hu (abs_pos.1 hsy') (mul_ne_zero hsx0 hc0.ne') (hmm.trans hP0.1) hP0.2 hdx
  refine ⟨_, hbox, ?_⟩
  intro y x hy hx hsep
  have hdecin : |dec| ≤ π / 2 := hin dec (by linarith)
  have hbx := C130_box dec ra rmax (d0 + y * sy) (a0 + x * sx) hdecin (hrows y hy) h0 hsep
  have hlow : |dec - rmax - e0| ≤ D * |sy| := by
    refine le_trans ?_ hout
    have := abs_sub_le (dec - rmax) dec e0
    rw [show dec - rmax - dec = -rmax by ring, abs_neg, abs_of_nonneg h0] at this
    exact this
  have hhigh : |dec + rmax - e0| ≤ D * |sy| := by
    refine le_trans ?_ hout
    have := abs_sub_le (dec + rmax) dec e0
    rw [show dec + rmax - dec = rmax by ring, abs_of_nonneg h0] at this
    exact this
  have hd1 : max (dec - rmax) (-π / 2) = dec - rmax := max_eq_left (by have := (abs_le.1 (hin _ hlow)).1; linarith)
  have hd2 : min (dec + rmax) (π / 2) = dec + rmax := min_eq_left (abs_le.1 (hin _ hhigh)).2
  have hcm : m ≤ min (cos (dec - rmax)) (cos (dec + rmax)) := le_min (hbetween _ hlow) (hbetween _ hhigh)
  have hcpos := lt_of_lt_of_le hm0 hcm
  obtain ⟨-, -, k, hk1, hk2⟩ := hbx
  have hdra : (if min (cos (dec - rmax)) (cos (dec + rmax)) = 0 then π else
      min (rmax * (1 / min (cos (dec - rmax)) (cos (dec + rmax)))) π) ≤ rmax / m := by
    rw [if_neg hcpos.ne']
    refine (min_le_left _ _).trans ?_
    rw [mul_one_div]
    exact div_le_div_of_nonneg_left h0 hm0 hcm
  unfold nbBox at hk1 hk2
  simp only [hd1, hd2] at hk1 hk2
  have hyd := sep_dec dec ra (d0 + y * sy) (a0 + x * sx) rmax hdecin (hrows y hy) hsep
  constructor
  · have hN : |((y - objY : ℤ) : ℝ)| ≤ rmax / |sy| + 1 / 2 := by
      have : |((y - objY : ℤ) : ℝ)| * |sy| ≤ rmax + |sy| / 2 := by
        rw [← abs_mul]
        have e : ((y - objY : ℤ) : ℝ) * sy = (d0 + y * sy - dec) + (dec - e0) := by rw [he0]; push_cast; ring
        rw [e]
        exact (abs_add_le _ _).trans (add_le_add hyd hdec)
      rw [div_add' _ _ _ hsy'.ne', le_div_iff₀ hsy']
      linarith
    have := near_floor _ _ hN
    dsimp only
    omega
  · -- columns
    obtain ⟨j, hj⟩ : ∃ j : ℤ, 2 * π * (k : ℝ) = (j : ℝ) * nphi * sx := by
      rcases le_total 0 sx with hs | hs
      · exact ⟨k, by rw [← hturn, abs_of_nonneg hs]; ring⟩
      · exact ⟨-k, by rw [← hturn, abs_of_nonpos hs]; push_cast; ring⟩
    refine ⟨j, ?_⟩
    have hN : |((x + j * nphi - objX : ℤ) : ℝ)| ≤ rmax / (|sx| * m) + 1 / 2 := by
      have : |((x + j * nphi - objX : ℤ) : ℝ)| * |sx| ≤ rmax / m + |sx| / 2 := by
        rw [← abs_mul]
        have e : ((x + j * nphi - objX : ℤ) : ℝ) * sx = (a0 + x * sx + 2 * π * k - ra) + (ra - (a0 + objX * sx)) := by
          rw [hj]; push_cast; ring
        rw [e]
        refine (abs_add_le _ _).trans (add_le_add ?_ hra)
        rw [abs_le]
        constructor <;> linarith
      have e2 : rmax / (|sx| * m) = (rmax / m) / |sx| := by rw [mul_comm, div_div]
      rw [e2, div_add' _ _ _ hsx'.ne', le_div_iff₀ hsx']
      linarith
    have := near_floor _ _ hN
    dsimp only
    omega

/-- Non-vacuity: 7 rows from -45° to 45°, 24 columns of a full turn, an object on the equator with a radius of 11.25°. -/
example : C134_claim 7 24 24 (fun k => -(π / 4) + k * (π / 12)) (fun k => 0 + k * (π / 12)) 3 5 0 (5 * (π / 12)) (π / 16) := by
  have hp := pi_pos
  have hab : |π / 12| = π / 12 := abs_of_pos (by positivity)
  have hf : ⌊π / 16 / |π / 12|⌋ = 0 := by
    rw [hab, show π / 16 / (π / 12) = 3 / 4 by field_simp; norm_num]
    norm_num
  have hc : (1 : ℝ) / 2 ≤ cos (π / 12) := by
    rw [← cos_pi_div_three]
    exact cos_le_cos_of_nonneg_of_le_pi (by positivity) (by linarith) (by linarith)
  have h3 := two_le_pi
  have h4 := pi_le_four
  refine C134_box_partial 7 24 24 (by norm_num) (-(π / 4)) (π / 12) 0 (π / 12) (by rw [hab]; linarith) (by rw [hab]; linarith)
    (by positivity) (by rw [hab]; push_cast; ring) ?_ 3 5 (by norm_num) 0 (5 * (π / 12)) (π / 16) (by positivity)
    (by simp; positivity) (by rw [hab]; push_cast; rw [show (0 : ℝ) - (-(π / 4) + 3 * (π / 12)) = 0 by ring, abs_zero]; positivity)
    1 (by rw [hf]; rfl) (by norm_num) (by norm_num) ?_ ?_
  · intro y hy
    have : (y : ℝ) ≤ 6 := by exact_mod_cast Nat.le_of_lt_succ hy
    have h0 : (0 : ℝ) ≤ y := Nat.cast_nonneg y
    rw [abs_le]
    constructor <;> nlinarith
  · rw [hab]; push_cast
    rw [show (0 : ℝ) - (-(π / 4) + 3 * (π / 12)) = 0 by ring, abs_zero]; linarith
  · rw [hab, max_self]
    have e1 : -(π / 4) + ((3 - 1 : ℕ) : ℝ) * (π / 12) = -(π / 12) := by norm_num; ring
    have e2 : -(π / 4) + ((3 + 1 : ℕ) : ℝ) * (π / 12) = π / 12 := by norm_num; ring
    rw [e1, e2, cos_neg]
    rintro t (rfl | rfl | rfl)
    · constructor <;> linarith
    · constructor <;> nlinarith
    · constructor <;> nlinarith

/-- C134.  The claim fails where the rows beyond the radius are not in the map: the size of the pixels is then measured in the last
row. An object 30° from the pole in the last row, with a radius of 60°: the pixel on the other side of the pole, 60° away, is not in
the box. -/
theorem C134_box_refuted : ¬ C134_claim 3 12 12 (fun k => 0 + k * (π / 6)) (fun k => 0 + k * (π / 6)) 2 6 (π / 3) π (π / 3) := by
  have hp := pi_pos
  have h3 := two_le_pi
  have hab : |π / 6| = π / 6 := abs_of_pos (by positivity)
  have hf : ⌊π / 3 / |π / 6|⌋ = 2 := by
    rw [hab, show π / 3 / (π / 6) = ((2 : ℤ) : ℝ) by push_cast; field_simp; norm_num, Int.floor_intCast]
  have r2 : (0 : ℝ) + ((2 : ℕ) : ℝ) * (π / 6) = π / 3 := by push_cast; ring
  have q : |π / 6 * (1 / 2)| = π / 12 := by rw [abs_of_pos (by positivity)]; ring
  have hu : π / 12 = min (|π / 6 * cos (0 + ((2 : ℕ) : ℝ) * (π / 6))|)
      (min (|π / 6 * cos (0 + ((0 : ℕ) : ℝ) * (π / 6))|) (|π / 6 * cos (0 + ((2 : ℕ) : ℝ) * (π / 6))|)) := by
    rw [r2, cos_pi_div_three, q]
    simp only [CharP.cast_eq_zero, zero_mul, add_zero, cos_zero, mul_one]
    rw [hab, min_eq_right (a := π / 6) (by linarith), min_self]
  have hb := estimateBox_linear 3 12 (by norm_num) (by norm_num) 0 (π / 6) 0 (π / 6) (by rw [hab]; linarith) (by rw [hab]; linarith)
    2 6 (π / 3) (by positivity) 0 2 3 (by rw [hf]; norm_num) (by norm_num) (by decide) (by decide) (π / 12) (π / 12) hu (by positivity)
    (by rw [r2, cos_pi_div_three]; positivity)
    (by rw [hab, max_eq_left (by linarith)]; linarith) (by rw [hab]; linarith)
    (by
      rw [hab, max_eq_left (a := π / 6) (by linarith)]
      exact (max_eq_left (max_le (by linarith) (by linarith))).symm)
  have hf2 : ⌊π / 3 / (π / 12)⌋ = 4 := by
    rw [show π / 3 / (π / 12) = ((4 : ℤ) : ℝ) by push_cast; field_simp; norm_num, Int.floor_intCast]
  rw [hf, hf2] at hb
  rintro ⟨b, hb', h⟩
  rw [hb] at hb'
  obtain rfl := Option.some.inj hb'
  have hs : sphereSep (π / 3) π (0 + ((2 : ℕ) : ℝ) * (π / 6)) (0 + ((0 : ℕ) : ℝ) * (π / 6)) ≤ π / 3 := by
    unfold sphereSep
    rw [r2]
    simp only [CharP.cast_eq_zero, zero_mul, add_zero, zero_sub, cos_neg, cos_pi]
    rw [show sin (π / 3) * sin (π / 3) + cos (π / 3) * cos (π / 3) * -1 = cos (π / 3) by
      have := sin_sq_add_cos_sq (π / 3)
      rw [cos_pi_div_three] at this ⊢
      nlinarith]
    rw [arccos_cos (by positivity) (by linarith)]
  obtain ⟨-, k, hk1, hk2⟩ := h 2 0 (by norm_num) (by norm_num) hs
  dsimp only at hk1 hk2
  push_cast at hk1 hk2
  omega

/-- The two components of minShape. -/
theorem minShape_min (a b : ℝ × ℝ) : minShape a b = (min a.1 b.1, min a.2 b.2) := by
  unfold minShape
  congr 1
  · split_ifs with h
    · exact (min_eq_right h.le).symm
    · exact (min_eq_left (not_lt.1 h)).symm
  · split_ifs with h
    · exact (min_eq_right h.le).symm
    · exact (min_eq_left (not_lt.1 h)).symm

/-- C134, for any axes, also those whose spacing is not constant: the box reaches at least the radius away from the object,
when the radius is divided by the size of the object's own pixel or that of the pixels at the four corners. -/
theorem C134_smallest (ny nx : ℕ) (decs ras : ℕ → ℝ) (objY objX : ℤ) (rmax : ℝ) (h0 : 0 ≤ rmax) (b : Box4)
    (hb : estimateBox ny nx decs ras objY objX rmax = some b) (s0 s : ℝ × ℝ)
    (hs0 : pixShapeSep ny nx decs ras objY objX = some s0) (y x : ℤ)
    (hyx : (y = objY ∧ x = objX) ∨ ((y = objY - (⌊|rmax / s0.1|⌋ + 1) ∨ y = objY + (⌊|rmax / s0.1|⌋ + 1)) ∧
      (x = objX - (⌊|rmax / s0.2|⌋ + 1) ∨ x = objX + (⌊|rmax / s0.2|⌋ + 1))))
    (hs : pixShapeSep ny nx decs ras y x = some s) :
    b.y1 ≤ objY - (⌊rmax / max s.1 (max (max s.1 s.2 * (1 / 1000000)) (1 / 1000000000000))⌋ + 1) ∧
    objY + (⌊rmax / max s.1 (max (max s.1 s.2 * (1 / 1000000)) (1 / 1000000000000))⌋ + 1) < b.y2 ∧
    b.x1 ≤ objX - (⌊rmax / max s.2 (max (max s.1 s.2 * (1 / 1000000)) (1 / 1000000000000))⌋ + 1) ∧
    objX + (⌊rmax / max s.2 (max (max s.1 s.2 * (1 / 1000000)) (1 / 1000000000000))⌋ + 1) < b.x2 := by
  unfold estimateBox at hb
  simp only [hs0, Option.bind_eq_bind, Option.bind_some] at hb
  by_cases hz : s0.1 = 0 ∨ s0.2 = 0
  · rw [if_pos hz] at hb; cases hb
  rw [if_neg hz] at hb
  simp only [Option.bind_eq_some_iff, cTruncR_nonneg (abs_nonneg _)] at hb
  obtain ⟨s1, hs1, s2, hs2, s3, hs3, s4, hs4, hb⟩ := hb
  obtain rfl := Option.some.inj hb
  simp only [minShape_min]
  set m1 := min (min (min (min s0.1 s1.1) s2.1) s3.1) s4.1 with hm1
  set m2 := min (min (min (min s0.2 s1.2) s2.2) s3.2) s4.2 with hm2
  have hle : m1 ≤ s.1 ∧ m2 ≤ s.2 := by
    have : s = s0 ∨ s = s1 ∨ s = s2 ∨ s = s3 ∨ s = s4 := by
      rcases hyx with ⟨rfl, rfl⟩ | ⟨rfl | rfl, rfl | rfl⟩
      · rw [hs0] at hs; exact Or.inl (Option.some.inj hs).symm
      · rw [hs1] at hs; exact Or.inr (Or.inl (Option.some.inj hs).symm)
      · rw [hs2] at hs; exact Or.inr (Or.inr (Or.inl (Option.some.inj hs).symm))
      · rw [hs3] at hs; exact Or.inr (Or.inr (Or.inr (Or.inl (Option.some.inj hs).symm)))
      · rw [hs4] at hs; exact Or.inr (Or.inr (Or.inr (Or.inr (Option.some.inj hs).symm)))
    rw [hm1, hm2]
    rcases this with rfl | rfl | rfl | rfl | rfl <;> constructor <;> simp
  set t := max (max m1 m2 * (1 / 1000000)) (1 / 1000000000000) with ht
  set t' := max (max s.1 s.2 * (1 / 1000000)) (1 / 1000000000000) with ht'
  have htpos : 0 < t := lt_of_lt_of_le (by norm_num) (le_max_right _ _)
  have htt : t ≤ t' := by
    rw [ht, ht']
    exact max_le_max (mul_le_mul_of_nonneg_right (max_le_max hle.1 hle.2) (by norm_num)) le_rfl
  have p1 : 0 < max m1 t := lt_of_lt_of_le htpos (le_max_right _ _)
  have p2 : 0 < max m2 t := lt_of_lt_of_le htpos (le_max_right _ _)
  have q1 : rmax / max s.1 t' ≤ rmax / max m1 t := div_le_div_of_nonneg_left h0 p1 (max_le_max hle.1 htt)
  have q2 : rmax / max s.2 t' ≤ rmax / max m2 t := div_le_div_of_nonneg_left h0 p2 (max_le_max hle.2 htt)
  rw [cTruncR_nonneg (div_nonneg h0 p1.le), cTruncR_nonneg (div_nonneg h0 p2.le)]
  have f1 := Int.floor_le_floor q1
  have f2 := Int.floor_le_floor q2
  refine ⟨?_, ?_, ?_, ?_⟩ <;> omega

/-- C134.  For maps of a single row or column the size of the pixels is read from memory outside the coordinates of the map. -/
theorem C134_single_refuted (ny nx : ℕ) (decs ras : ℕ → ℝ) (objY objX : ℤ) (rmax : ℝ) (h : ny ≤ 1 ∨ nx ≤ 1) :
    estimateBox ny nx decs ras objY objX rmax = none := by
  have : pixShapeSep ny nx decs ras objY objX = none := by
    unfold pixShapeSep
    rcases h with h | h
    · have e : calcGrad ny decs (clampPix ny objY) = none := if_pos (by omega)
      rw [e]
      rfl
    · have e : calcGrad nx ras (clampPix nx objX) = none := if_pos (by omega)
      rw [e]
      cases calcGrad ny decs (clampPix ny objY) <;> rfl
  unfold estimateBox
  rw [this]
  rfl

example : estimateBox 1 12 (fun _ => 0) (fun k => k * (π / 6)) 0 3 (π / 6) = none := C134_single_refuted 1 12 _ _ 0 3 _ (Or.inl le_rfl)

end Pixell
