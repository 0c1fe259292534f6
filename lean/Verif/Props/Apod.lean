import Verif.Model.Apod
import Mathlib.Tactic

/-
C128: apodization tapers maps towards their edges and around masks.
-/
namespace Pixell

/-- What tapering by `w` pixels at both ends of a line of `n` pixels means, independently of the code: pixel `i` is `i+1` steps
from one end and `n-i` from the other. -/
noncomputable def taper (prof : ℝ → ℝ) (n : Nat) (w : ℤ) (i : Nat) : ℝ :=
  if w ≤ 0 then 1 else prof (min 1 ((i + 1) / (w + 1))) * prof (min 1 (((n : ℝ) - i) / (w + 1)))

theorem apodLine_taper (prof : ℝ → ℝ) (h1 : prof 1 = 1) (fill : ApodFill) (hf : fill = .zero ∨ fill = .mean ∨ fill = .median) (n : Nat)
    (w : ℤ) (hw : w ≤ n) (m : Nat → ℝ) : ∃ r, apodLine prof fill n w m = some r ∧ ∀ i, i < n → r i = m i * taper prof n w i := by
  unfold apodLine taper
  by_cases h0 : w ≤ 0
  · rw [if_pos h0]
    exact ⟨m, rfl, fun i _ => by rw [if_pos h0, mul_one]⟩
  · rw [if_neg h0]
    simp only [if_neg h0]
    obtain ⟨k, rfl⟩ := Int.eq_ofNat_of_zero_le (by omega : 0 ≤ w)
    simp only [Int.toNat_natCast]
    have hk : k ≤ n := by exact_mod_cast hw
    have hk0 : 0 < k := by omega
    rw [if_neg (by omega)]
    have hkr : (0 : ℝ) < (k : ℝ) + 1 := by positivity
    have key : ∀ i, i < n →
        (if n - k ≤ i then (if i < k then m i * prof ((i + 1) / (k + 1)) else m i) * prof ((((k - 1 - (i - (n - k)) : ℕ) : ℝ) + 1) / (k + 1))
         else if i < k then m i * prof ((i + 1) / (k + 1)) else m i) =
        m i * (prof (min 1 ((i + 1) / (((k : ℤ) : ℝ) + 1))) * prof (min 1 (((n : ℝ) - i) / (((k : ℤ) : ℝ) + 1)))) := by
      intro i hi
      rw [Int.cast_natCast]
      have a1 : (if i < k then m i * prof ((i + 1) / (k + 1)) else m i) = m i * prof (min 1 ((i + 1) / ((k : ℝ) + 1))) := by
        by_cases h : i < k
        · rw [if_pos h, min_eq_right]
          rw [div_le_one hkr]
          have : (i : ℝ) < k := by exact_mod_cast h
          linarith
        · rw [if_neg h, min_eq_left, h1, mul_one]
          rw [le_div_iff₀ hkr]
          have : (k : ℝ) ≤ i := by exact_mod_cast (by omega : k ≤ i)
          linarith
      by_cases h : n - k ≤ i
      · rw [if_pos h, a1, mul_assoc]
        congr 2
        have e : k - 1 - (i - (n - k)) = n - i - 1 := by omega
        rw [e, Nat.cast_sub (by omega), Nat.cast_sub (by omega)]
        have hle : ((n : ℝ) - i) / (k + 1) ≤ 1 := by
          rw [div_le_one hkr]
          have : (n : ℝ) ≤ i + k := by exact_mod_cast (by omega : n ≤ i + k)
          linarith
        rw [min_eq_right hle]
        congr 1
        push_cast
        ring
      · rw [if_neg h, a1]
        have hle : 1 ≤ ((n : ℝ) - i) / (k + 1) := by
          rw [le_div_iff₀ hkr]
          have : (i : ℝ) + k + 1 ≤ n := by exact_mod_cast (by omega : i + k + 1 ≤ n)
          linarith
        rw [min_eq_left hle, h1, mul_one]
    rcases hf with rfl | rfl | rfl
    · simp only [reduceCtorEq, if_false]
      exact ⟨_, rfl, key⟩
    · simp only [reduceCtorEq, if_false]
      exact ⟨_, rfl, key⟩
    · simp only [reduceCtorEq, if_false]
      exact ⟨_, rfl, key⟩

theorem apodLine_isSome (prof : ℝ → ℝ) (fill : ApodFill) (n : Nat) (w : ℤ) (m : Nat → ℝ) :
    (apodLine prof fill n w m).isSome ↔ (w ≤ 1 ∨ w ≤ n ∨ fill = .other) := by
  unfold apodLine
  by_cases h0 : w ≤ 0
  · rw [if_pos h0]; simp; omega
  · rw [if_neg h0]
    simp only
    by_cases h : n < w.toNat ∧ w.toNat ≠ 1
    · rw [if_pos h]
      by_cases hf : fill = .other
      · simp [hf]
      · rw [if_neg hf]
        simp [hf]
        omega
    · rw [if_neg h]
      have : (w ≤ 1 ∨ w ≤ n ∨ fill = .other) := by omega
      cases fill <;> simp <;> omega

theorem apodAxes_some (prof : ℝ → ℝ) (fill : ApodFill) (ny nx : Nat) (wy wx : ℤ) (m : Nat → Nat → ℝ) (hy : wy ≤ 1 ∨ wy ≤ ny ∨ fill = .other)
    (hx : wx ≤ 1 ∨ wx ≤ nx ∨ fill = .other) : ∃ r, apodAxes prof fill ny nx wy wx m = some r ∧ ∃ r1 : Nat → Nat → ℝ,
      (∀ x, apodLine prof fill ny wy (fun y => m y x) = some fun y => r1 y x) ∧ ∀ y, apodLine prof fill nx wx (r1 y) = some (r y) := by
  unfold apodAxes
  have s1 : ∀ x, (apodLine prof fill ny wy (fun y => m y x)).isSome := fun x => (apodLine_isSome _ _ _ _ _).2 hy
  rw [if_pos s1]
  simp only
  have s2 : ∀ y, (apodLine prof fill nx wx (fun x => ((apodLine prof fill ny wy (fun y => m y x)).getD fun _ => 0) y)).isSome :=
    fun y => (apodLine_isSome _ _ _ _ _).2 hx
  rw [if_pos s2]
  refine ⟨_, rfl, fun y x => ((apodLine prof fill ny wy (fun y => m y x)).getD fun _ => 0) y, ?_, ?_⟩
  · intro x
    obtain ⟨r, hr⟩ := Option.isSome_iff_exists.1 (s1 x)
    simp only [hr, Option.getD_some]
  · intro y
    obtain ⟨r, hr⟩ := Option.isSome_iff_exists.1 (s2 y)
    rw [hr]; rfl

theorem apodAxes_taper (prof : ℝ → ℝ) (h1 : prof 1 = 1) (fill : ApodFill) (hf : fill = .zero ∨ fill = .mean ∨ fill = .median) (ny nx : Nat)
    (wy wx : ℤ) (hy : wy ≤ ny) (hx : wx ≤ nx) (m : Nat → Nat → ℝ) :
    ∃ r, apodAxes prof fill ny nx wy wx m = some r ∧ ∀ y x, y < ny → x < nx → r y x = m y x * taper prof ny wy y * taper prof nx wx x := by
  obtain ⟨r, hr, r1, e1, e2⟩ := apodAxes_some prof fill ny nx wy wx m (Or.inr (Or.inl hy)) (Or.inr (Or.inl hx))
  refine ⟨r, hr, ?_⟩
  intro y x hy' hx'
  obtain ⟨q, hq, hq'⟩ := apodLine_taper prof h1 fill hf nx wx hx (r1 y)
  obtain ⟨q2, hq2, hq2'⟩ := apodLine_taper prof h1 fill hf ny wy hy (fun y => m y x)
  have a : r y = q := Option.some.inj ((e2 y).symm.trans hq)
  have b : (fun y => r1 y x) = q2 := Option.some.inj ((e1 x).symm.trans hq2)
  have b' : r1 y x = m y x * taper prof ny wy y := by rw [show r1 y x = q2 y from congrFun b y, hq2' y hy']
  rw [a, hq' x hx', b']

/-- apod multiplies what the map has in excess of the fill value (zero, its mean or its median) by the tapers of the two axes, for
all widths up to the size of the map, also if the tapers of opposite edges overlap. -/
theorem C128_taper (prof : ℝ → ℝ) (h1 : prof 1 = 1) (fill : ApodFill) (hf : fill = .zero ∨ fill = .mean ∨ fill = .median) (offset : ℝ)
    (ny nx : Nat) (wy wx : ℤ) (hy : wy ≤ ny) (hx : wx ≤ nx) (m : Nat → Nat → ℝ) :
    ∃ r, apodMap prof fill offset ny nx wy wx m = some r ∧ ∀ y x, y < ny → x < nx →
      r y x = (if fill = .zero then 0 else offset) + (m y x - if fill = .zero then 0 else offset) * (taper prof ny wy y * taper prof nx wx x) := by
  unfold apodMap
  obtain ⟨r, hr, hr'⟩ := apodAxes_taper prof h1 fill hf ny nx wy wx hy hx
    (fun y x => if fill = .mean ∨ fill = .median then m y x - offset else m y x)
  simp only
  rw [hr]
  refine ⟨_, rfl, ?_⟩
  intro y x hy' hx'
  simp only
  rw [hr' y x hy' hx']
  rcases hf with rfl | rfl | rfl
  · simp only [reduceCtorEq, or_self, if_false, if_true, zero_add, sub_zero]; ring
  · simp only [reduceCtorEq, true_or, if_false, if_true]; ring
  · simp only [reduceCtorEq, or_true, if_false, if_true]; ring

/-- The profiles rise from 0 to 1. -/
theorem C128_profile (prof : ℝ → ℝ) (hp : prof = apodProfileLin ∨ prof = apodProfileCos) :
    prof 0 = 0 ∧ prof 1 = 1 ∧ (∀ x y, 0 ≤ x → x < y → y ≤ 1 → prof x < prof y) ∧ ∀ x, prof (1 - x) = 1 - prof x := by
  rcases hp with rfl | rfl
  · unfold apodProfileLin
    exact ⟨rfl, rfl, fun x y _ h _ => h, fun x => rfl⟩
  · unfold apodProfileCos
    refine ⟨by simp, by simp; norm_num, ?_, ?_⟩
    · intro x y hx h hy
      have hp := Real.pi_pos
      have : Real.cos (Real.pi * y) < Real.cos (Real.pi * x) :=
        Real.strictAntiOn_cos ⟨by positivity, by nlinarith⟩ ⟨by nlinarith, by nlinarith⟩ (by nlinarith)
      linarith
    · intro x
      rw [show Real.pi * (1 - x) = Real.pi - Real.pi * x by ring, Real.cos_pi_sub]; ring

theorem profile_unit (prof : ℝ → ℝ) (hp : prof = apodProfileLin ∨ prof = apodProfileCos) (x : ℝ) (h0 : 0 ≤ x) (h1 : x ≤ 1) :
    0 ≤ prof x ∧ prof x ≤ 1 := by
  obtain ⟨p0, p1, mono, _⟩ := C128_profile prof hp
  constructor
  · rcases h0.eq_or_lt with h | h
    · rw [← h, p0]
    · rw [← p0]; exact (mono 0 x le_rfl h h1).le
  · rcases h1.eq_or_lt with h | h
    · rw [h, p1]
    · rw [← p1]; exact (mono x 1 h0 h le_rfl).le

/-- The tapers: between 0 and 1, nowhere zero on the map, one in the middle, and the same from both ends. -/
theorem C128_taper_range (prof : ℝ → ℝ) (hp : prof = apodProfileLin ∨ prof = apodProfileCos) (n : Nat) (w : ℤ) (i : Nat) (hi : i < n) :
    0 < taper prof n w i ∧ taper prof n w i ≤ 1 ∧ (w ≤ i → i + w < n → taper prof n w i = 1) ∧ taper prof n w (n - 1 - i) = taper prof n w i := by
  obtain ⟨p0, p1, mono, _⟩ := C128_profile prof hp
  unfold taper
  by_cases h0 : w ≤ 0
  · simp [if_pos h0]
  · simp only [if_neg h0]
    have hw : (0 : ℝ) < (w : ℝ) + 1 := by
      have : (0 : ℝ) < w := by exact_mod_cast (by omega : 0 < w)
      linarith
    have hir : (i : ℝ) + 1 ≤ n := by exact_mod_cast hi
    have pos : ∀ t : ℝ, 0 < t → 0 < prof (min 1 t) := by
      intro t ht
      rw [← p0]
      exact mono 0 _ le_rfl (lt_min one_pos ht) (min_le_left _ _)
    have t1 : 0 < ((i : ℝ) + 1) / (w + 1) := by positivity
    have t2 : 0 < ((n : ℝ) - i) / (w + 1) := div_pos (by linarith) hw
    have u1 := profile_unit prof hp (min 1 (((i : ℝ) + 1) / (w + 1))) (le_min zero_le_one t1.le) (min_le_left _ _)
    have u2 := profile_unit prof hp (min 1 (((n : ℝ) - i) / (w + 1))) (le_min zero_le_one t2.le) (min_le_left _ _)
    refine ⟨mul_pos (pos _ t1) (pos _ t2), by nlinarith, ?_, ?_⟩
    · intro a b
      have a' : (w : ℝ) ≤ i := by exact_mod_cast a
      have b' : (i : ℝ) + w + 1 ≤ n := by exact_mod_cast (by omega : (i : ℤ) + w + 1 ≤ n)
      rw [min_eq_left, min_eq_left, p1, mul_one]
      · rw [le_div_iff₀ hw]; linarith
      · rw [le_div_iff₀ hw]; linarith
    · rw [show n - 1 - i = n - (i + 1) by omega, Nat.cast_sub (by omega)]
      push_cast
      rw [show (n : ℝ) - (i + 1) + 1 = n - i by ring, show (n : ℝ) - (n - (i + 1)) = i + 1 by ring, mul_comm]

/-- A width larger than the map is an error, for all contents and fills but unknown ones. -/
theorem C128_error (prof : ℝ → ℝ) (fill : ApodFill) (offset : ℝ) (ny nx : Nat) (wy wx : ℤ) (hy0 : 0 < ny) (hx0 : 0 < nx) (m : Nat → Nat → ℝ) :
    apodMap prof fill offset ny nx wy wx m = none ↔ fill ≠ .other ∧ ((ny : ℤ) < wy ∨ (nx : ℤ) < wx) := by
  unfold apodMap
  simp only [Option.map_eq_none_iff]
  constructor
  · intro h
    by_contra hc
    obtain ⟨r, hr, _⟩ := apodAxes_some prof fill ny nx wy wx
      (fun y x => if fill = .mean ∨ fill = .median then m y x - offset else m y x) (by
        by_contra hc2; apply hc; simp only [not_or] at hc2; exact ⟨hc2.2.2, Or.inl (by omega)⟩) (by
        by_contra hc2; apply hc; simp only [not_or] at hc2; exact ⟨hc2.2.2, Or.inr (by omega)⟩)
    rw [hr] at h
    exact absurd h (by simp)
  · rintro ⟨hf, h⟩
    unfold apodAxes
    by_cases h1 : ∀ x, (apodLine prof fill ny wy (fun y => (fun y x => if fill = .mean ∨ fill = .median then m y x - offset else m y x) y x)).isSome
    · rw [if_pos h1]
      have := (apodLine_isSome _ _ _ _ _).1 (h1 0)
      have hwy : ¬ ((ny : ℤ) < wy) := by
        rcases this with t | t | t
        · omega
        · omega
        · exact absurd t hf
      simp only
      rw [if_neg]
      intro h2
      have := (apodLine_isSome _ _ _ _ _).1 (h2 0)
      rcases this with t | t | t
      · omega
      · omega
      · exact absurd t hf
    · rw [if_neg h1]

/-- An unknown fill is not an error: the map is returned as it is, whatever the widths. -/
theorem C128_unknown_refuted (prof : ℝ → ℝ) (offset : ℝ) (ny nx : Nat) (wy wx : ℤ) (m : Nat → Nat → ℝ) :
    apodMap prof .other offset ny nx wy wx m = some m := by
  have l : ∀ n w (a : Nat → ℝ), apodLine prof .other n w a = some a := by
    intro n w a
    unfold apodLine
    by_cases h0 : w ≤ 0
    · rw [if_pos h0]
    · rw [if_neg h0]; simp only; split_ifs <;> rfl
  unfold apodMap apodAxes
  simp [l]

/-- Crossfading along one axis, for at most half of the map: pixels in the middle stay, and the others become weighted means of
the two pixels that are n - w pixels apart, with at least half of the weight on their own value. -/
theorem C128_crossfade (prof : ℝ → ℝ) (hp : prof = apodProfileLin ∨ prof = apodProfileCos) (n w : Nat) (hw : 2 * w ≤ n) (m : Nat → ℝ) :
    ∃ r, apodLine prof .crossfade n w m = some r ∧
      (∀ i, w ≤ i → i < n - w → r i = m i) ∧
      ∀ k, k < w → ∃ a b : ℝ, 0 < a ∧ a < 1 / 2 ∧ 0 < b ∧ b < 1 / 2 ∧ r k = (1 - a) * m k + a * m (n - w + k) ∧
        r (n - w + k) = (1 - b) * m (n - w + k) + b * m k ∧ a = prof ((w - k) / (2 * w + 1)) ∧ b = prof ((k + 1) / (2 * w + 1)) := by
  obtain ⟨p0, p1, mono, symm⟩ := C128_profile prof hp
  have phalf : prof (1 / 2) = 1 / 2 := by
    have := symm (1 / 2)
    rw [show (1 : ℝ) - 1 / 2 = 1 / 2 by norm_num] at this
    linarith
  unfold apodLine
  by_cases h0 : (w : ℤ) ≤ 0
  · rw [if_pos h0]
    exact ⟨m, rfl, fun _ _ _ => rfl, fun k hk => by omega⟩
  · rw [if_neg h0]
    simp only [Int.toNat_natCast, if_true]
    rw [if_neg (by omega)]
    refine ⟨_, rfl, ?_, ?_⟩
    · intro i h1 h2
      rw [if_neg (by omega), if_neg (by omega)]
    · intro k hk
      have hkr : (k : ℝ) + 1 ≤ w := by exact_mod_cast hk
      have hk0 : (0 : ℝ) ≤ k := Nat.cast_nonneg k
      have hd : (0 : ℝ) < 2 * w + 1 := by positivity
      have rng : ∀ t : ℝ, 0 < t → t < 1 / 2 → 0 < prof t ∧ prof t < 1 / 2 := by
        intro t h1 h2
        exact ⟨by rw [← p0]; exact mono 0 t le_rfl h1 (by linarith), by rw [← phalf]; exact mono t _ h1.le h2 (by norm_num)⟩
      obtain ⟨a1, a2⟩ := rng ((w - k) / (2 * w + 1)) (div_pos (by linarith) hd) (by rw [div_lt_iff₀ hd]; linarith)
      obtain ⟨b1, b2⟩ := rng ((k + 1) / (2 * w + 1)) (by positivity) (by rw [div_lt_iff₀ hd]; linarith)
      refine ⟨_, _, a1, a2, b1, b2, ?_, ?_, rfl, rfl⟩
      · rw [if_neg (by omega), if_pos hk]
        have e : (((w - 1 - k : ℕ) : ℝ) + 1) = w - k := by
          rw [Nat.sub_sub, Nat.cast_sub (by omega)]; push_cast; ring
        rw [e]; ring
      · rw [if_pos (by omega), show n - w + k - (n - w) = k by omega]
        ring

/-- So lines that repeat after n - w pixels, constants among them, are not changed by crossfading. -/
theorem C128_crossfade_periodic (prof : ℝ → ℝ) (hp : prof = apodProfileLin ∨ prof = apodProfileCos) (n w : Nat) (hw : 2 * w ≤ n) (m : Nat → ℝ)
    (hm : ∀ k, k < w → m (n - w + k) = m k) : ∃ r, apodLine prof .crossfade n w m = some r ∧ ∀ i, i < n → r i = m i := by
  obtain ⟨r, hr, mid, ends⟩ := C128_crossfade prof hp n w hw m
  refine ⟨r, hr, ?_⟩
  intro i hi
  by_cases h1 : i < w
  · obtain ⟨a, _, _, _, _, _, e, _⟩ := ends i h1
    rw [e, hm i h1]; ring
  · by_cases h2 : i < n - w
    · exact mid i (by omega) h2
    · obtain ⟨_, b, _, _, _, _, _, e, _⟩ := ends (i - (n - w)) (by omega)
      have h3 := hm (i - (n - w)) (by omega)
      rw [show n - w + (i - (n - w)) = i by omega] at e h3
      rw [e, h3]; ring

theorem foldl_min_le (l : List ℝ) (a : ℝ) : l.foldl min a ≤ a ∧ (∀ x ∈ l, l.foldl min a ≤ x) ∧ (l.foldl min a = a ∨ l.foldl min a ∈ l) := by
  induction l generalizing a with
  | nil => simp
  | cons b t ih =>
    obtain ⟨h1, h2, h3⟩ := ih (min a b)
    rw [List.foldl_cons]
    refine ⟨h1.trans (min_le_left _ _), ?_, ?_⟩
    · intro x hx
      rcases List.mem_cons.1 hx with rfl | hx
      · exact h1.trans (min_le_right _ _)
      · exact h2 x hx
    · rcases h3 with h | h
      · rw [h]
        rcases min_choice a b with e | e
        · left; exact e
        · right; rw [e]; exact List.mem_cons_self
      · right; exact List.mem_cons_of_mem _ h

theorem mem_mapPixels (ny nx : Nat) (q : Nat × Nat) : q ∈ mapPixels ny nx ↔ q.1 < ny ∧ q.2 < nx := by
  unfold mapPixels
  simp only [List.mem_flatMap, List.mem_range, List.mem_map]
  constructor
  · rintro ⟨y, hy, x, hx, rfl⟩; exact ⟨hy, hx⟩
  · rintro ⟨h1, h2⟩; exact ⟨q.1, h1, q.2, h2, rfl⟩

/-- apod_mask: 0 in bad pixels, and at the border unless edge=False; 1 exactly at those at least a width away from all bad ones;
in between the profile of the distance to the closest bad pixel. -/
theorem C128_mask (d : Nat × Nat → Nat × Nat → ℝ) (prof : ℝ → ℝ) (hp : prof = apodProfileLin ∨ prof = apodProfileCos) (edge : Bool)
    (width : ℝ) (hw : 0 < width) (ny nx : Nat) (hd : ∀ p q, 0 ≤ d p q) (mask : Nat → Nat → Bool) (y x : Nat) (_hy : y < ny) (_hx : x < nx) :
    let border (q : Nat × Nat) : Prop := q.1 = 0 ∨ q.2 = 0 ∨ q.1 + 1 = ny ∨ q.2 + 1 = nx
    let bad (q : Nat × Nat) : Prop := q.1 < ny ∧ q.2 < nx ∧ (mask q.1 q.2 = false ∨ (edge = true ∧ border q))
    (bad (y, x) → apodMask d prof edge width ny nx mask y x = 0) ∧
    (¬ bad (y, x) → ((∀ q, bad q → width ≤ d (y, x) q) ↔ apodMask d prof edge width ny nx mask y x = 1)) ∧
    (¬ bad (y, x) → ∀ q, bad q → d (y, x) q < width → (∀ q', bad q' → d (y, x) q ≤ d (y, x) q') →
      apodMask d prof edge width ny nx mask y x = prof (d (y, x) q / width)) := by
  intro border bad
  obtain ⟨p0, p1, mono, _⟩ := C128_profile prof hp
  have hbad : ∀ q : Nat × Nat, q.1 < ny → q.2 < nx → (bad q ↔ maskEdges edge ny nx mask q.1 q.2 = false) := by
    intro q h1 h2
    simp only [bad, border, maskEdges]
    by_cases hb : (edge && (q.1 == 0 || q.2 == 0 || q.1 + 1 == ny || q.2 + 1 == nx)) = true
    · rw [if_pos hb]
      simp only [Bool.and_eq_true, Bool.or_eq_true, beq_iff_eq] at hb
      simp only [iff_true]
      exact ⟨h1, h2, Or.inr ⟨hb.1, by tauto⟩⟩
    · rw [if_neg hb]
      simp only [Bool.and_eq_true, Bool.or_eq_true, beq_iff_eq] at hb
      constructor
      · rintro ⟨_, _, h | ⟨h, h'⟩⟩
        · exact h
        · exact absurd ⟨h, by tauto⟩ hb
      · intro h; exact ⟨h1, h2, Or.inl h⟩
  have hself := hbad (y, x) _hy _hx
  have hlist : ∀ q, q ∈ (mapPixels ny nx).filter (fun q => !maskEdges edge ny nx mask q.1 q.2) ↔ bad q := by
    intro q
    rw [List.mem_filter, mem_mapPixels]
    constructor
    · rintro ⟨⟨h1, h2⟩, h3⟩
      exact (hbad q h1 h2).2 (by simpa using h3)
    · intro h
      exact ⟨⟨h.1, h.2.1⟩, by simpa using (hbad q h.1 h.2.1).1 h⟩
  set l := ((mapPixels ny nx).filter (fun q => !maskEdges edge ny nx mask q.1 q.2)).map (fun q => d (y, x) q) with hl
  have hmem : ∀ t, t ∈ l ↔ ∃ q, bad q ∧ d (y, x) q = t := by
    intro t
    rw [hl, List.mem_map]
    constructor
    · rintro ⟨q, hq, rfl⟩; exact ⟨q, (hlist q).1 hq, rfl⟩
    · rintro ⟨q, hq, rfl⟩; exact ⟨q, (hlist q).2 hq, rfl⟩
  obtain ⟨f1, f2, f3⟩ := foldl_min_le l width
  have f0 : 0 ≤ l.foldl min width := by
    rcases f3 with h | h
    · rw [h]; exact hw.le
    · obtain ⟨q, _, h2⟩ := (hmem _).1 h
      rw [← h2]; exact hd _ _
  refine ⟨?_, ?_, ?_⟩
  · intro h
    unfold apodMask closestFalse
    rw [if_neg (by rw [hself.1 h]; simp), zero_div, p0]
  · intro h
    have hm : maskEdges edge ny nx mask y x = true := by
      rw [hself] at h; simpa using h
    unfold apodMask closestFalse
    rw [if_pos hm, ← hl]
    constructor
    · intro hq
      have : l.foldl min width = width := by
        rcases f3 with h | h
        · exact h
        · obtain ⟨q, h1, h2⟩ := (hmem _).1 h
          exact le_antisymm f1 (by rw [← h2]; exact hq q h1)
      rw [this, div_self hw.ne', p1]
    · intro hone q hq
      by_contra hc
      have h2 := f2 (d (y, x) q) ((hmem _).2 ⟨q, hq, rfl⟩)
      have h3 : l.foldl min width / width < 1 := by rw [div_lt_one hw]; linarith
      have := mono _ 1 (div_nonneg f0 hw.le) h3 le_rfl
      rw [hone, p1] at this
      exact lt_irrefl _ this
  · intro h q hq hlt hmin
    have hm : maskEdges edge ny nx mask y x = true := by
      rw [hself] at h; simpa using h
    unfold apodMask closestFalse
    rw [if_pos hm, ← hl]
    have h2 := f2 (d (y, x) q) ((hmem _).2 ⟨q, hq, rfl⟩)
    have : l.foldl min width = d (y, x) q := by
      rcases f3 with h | h
      · rw [h] at h2; linarith
      · obtain ⟨q', h1', h2'⟩ := (hmem _).1 h
        exact le_antisymm h2 (by rw [← h2']; exact hmin q' h1')
    rw [this]

/-- The conditions are met: a constant map is not changed by apodization towards its mean. -/
example : ∃ r, apodMap apodProfileCos .mean 7 5 4 3 1 (fun _ _ => 7) = some r ∧ ∀ y x, y < 5 → x < 4 → r y x = 7 := by
  obtain ⟨r, hr, h⟩ := C128_taper apodProfileCos (C128_profile _ (Or.inr rfl)).2.1 .mean (by simp) 7 5 4 3 1 (by norm_num) (by norm_num) (fun _ _ => 7)
  exact ⟨r, hr, fun y x hy hx => by rw [h y x hy hx]; simp⟩
example : ∃ r, apodLine apodProfileLin .crossfade 6 2 (fun i => ((i % 4 : Nat) : ℝ)) = some r ∧ ∀ i, i < 6 → r i = ((i % 4 : Nat) : ℝ) := by
  have := C128_crossfade_periodic apodProfileLin (Or.inl rfl) 6 2 (by norm_num) (fun i => ((i % 4 : Nat) : ℝ)) (by intro k hk; interval_cases k <;> rfl)
  exact_mod_cast this
end Pixell
