import Verif.Model.PlotMap
import Verif.Props.Submap

/-
C196: the orientation of plotted maps and the values that are masked.
-/
namespace Pixell

/-- Flipping an axis keeps its length and turns its pixels around. -/
theorem flipAxis_spec (n : ℤ) (hn : 1 ≤ n) (w : Axis) :
    (flipAxis (n, w) true).1 = n ∧ (flipAxis (n, w) true).2.cdelt = -w.cdelt ∧
    ∀ k : ℚ, (flipAxis (n, w) true).2.pix2sky k = w.pix2sky (n - 1 - k) := by
  have h : flipAxis (n, w) true = (n, sliceWcs w (n - 1) (-1)) := by
    unfold flipAxis
    simp only [if_true, sliceGeometry, expandSlice, effStep, cycle]
    have : ¬ (0 : ℤ) < -1 := by omega
    simp only [show ((-1 : ℤ) = 0) = False by simp, if_false, this, Option.getD_none, Bool.false_eq_true]
    have c1 : (if 0 ≤ n - 1 then min (n - 1) n else n + (n - 1)) = n - 1 := by
      split_ifs <;> omega
    rw [c1]
    have : Int.fdiv (-1 - (n - 1) + -1 - Int.sign (-1)) (-1) = n := by
      rw [show Int.sign (-1) = -1 from rfl, show -1 - (n - 1) + -1 - (-1) = n * (-1) by ring, Int.mul_fdiv_cancel _ (by omega)]
    rw [this]
  rw [h]
  refine ⟨rfl, by simp [sliceWcs], fun k => ?_⟩
  simp only [sliceWcs_pix2sky _ _ _ (show (-1 : ℤ) ≠ 0 by omega)]
  congr 1
  rw [show Int.sign (-1) = -1 from rfl]
  push_cast
  ring

theorem pix2sky_step (w : Axis) (p q : ℚ) : w.pix2sky q - w.pix2sky p = (q - p) * w.cdelt := by
  unfold Axis.pix2sky; ring

/-- C196: orientation.  The image shows the same pixels, in the same or the opposite order.  If cutting and slicing kept the
direction of the axis then its coordinate falls along the image: declination increases upwards and right ascension
to the left, however the map was stored.  If they reversed the axis, the coordinate rises along the image. -/
theorem C196_orientation (w0 : Axis) (n : ℤ) (hn : 1 ≤ n) (w : Axis) (h : w.cdelt ≠ 0) :
    (orientAxis w0 (n, w)).1 = n ∧
    ((∀ k : ℚ, (orientAxis w0 (n, w)).2.pix2sky k = w.pix2sky k) ∨
      ∀ k : ℚ, (orientAxis w0 (n, w)).2.pix2sky k = w.pix2sky (n - 1 - k)) ∧
    (0 < w.cdelt * w0.cdelt → ∀ i j : ℚ, i < j → (orientAxis w0 (n, w)).2.pix2sky j < (orientAxis w0 (n, w)).2.pix2sky i) ∧
    (w.cdelt * w0.cdelt < 0 → ∀ i j : ℚ, i < j → (orientAxis w0 (n, w)).2.pix2sky i < (orientAxis w0 (n, w)).2.pix2sky j) := by
  have f1 := flipAxis_spec n hn w
  have f2 := flipAxis_spec n hn (flipAxis (n, w) true).2
  rw [show (n, (flipAxis (n, w) true).2) = flipAxis (n, w) true from Prod.ext f1.1.symm rfl] at f2
  have step := fun i j => pix2sky_step (orientAxis w0 (n, w)).2 i j
  have fin : ∀ c : ℚ, (orientAxis w0 (n, w)).2.cdelt = c →
      (0 < w.cdelt * w0.cdelt → c < 0) → (w.cdelt * w0.cdelt < 0 → 0 < c) →
      (0 < w.cdelt * w0.cdelt → ∀ i j : ℚ, i < j → (orientAxis w0 (n, w)).2.pix2sky j < (orientAxis w0 (n, w)).2.pix2sky i) ∧
      (w.cdelt * w0.cdelt < 0 → ∀ i j : ℚ, i < j → (orientAxis w0 (n, w)).2.pix2sky i < (orientAxis w0 (n, w)).2.pix2sky j) := by
    intro c hc h1 h2
    refine ⟨fun hs i j hij => ?_, fun hs i j hij => ?_⟩
    · have := step i j; rw [hc] at this; nlinarith [h1 hs]
    · have := step i j; rw [hc] at this; nlinarith [h2 hs]
  rcases lt_or_gt_of_ne h with hneg | hpos
  · have e1 : ¬ w.cdelt > 0 := by linarith
    by_cases hf : w.cdelt * w0.cdelt < 0
    · have e : orientAxis w0 (n, w) = flipAxis (n, w) true := by simp [orientAxis, e1, hf]
      refine ⟨by rw [e]; exact f1.1, .inr (by rw [e]; exact f1.2.2), fin (-w.cdelt) (by rw [e]; exact f1.2.1) (fun h => absurd h (not_lt.2 hf.le)) (fun _ => by linarith)⟩
    · have e : orientAxis w0 (n, w) = (n, w) := by simp [orientAxis, e1, hf]
      refine ⟨by rw [e], .inl (by rw [e]; intro k; rfl), fin w.cdelt (by rw [e]) (fun _ => hneg) (fun h => absurd h hf)⟩
  · by_cases hf : w.cdelt * w0.cdelt < 0
    · have e : orientAxis w0 (n, w) = flipAxis (flipAxis (n, w) true) true := by simp [orientAxis, hpos, hf]
      refine ⟨by rw [e]; exact f2.1, .inl fun k => ?_, fin w.cdelt (by rw [e, f2.2.1, f1.2.1, neg_neg]) (fun h => absurd h (not_lt.2 hf.le)) (fun _ => hpos)⟩
      rw [e, f2.2.2, f1.2.2]
      congr 1
      ring
    · have e : orientAxis w0 (n, w) = flipAxis (n, w) true := by simp [orientAxis, hpos, hf]
      refine ⟨by rw [e]; exact f1.1, .inr (by rw [e]; exact f1.2.2), fin (-w.cdelt) (by rw [e]; exact f1.2.1) (fun _ => by linarith) (fun h => absurd h hf)⟩

/-- Three rows stored from south to north: the northern one is on top. -/
example : ([0, 1, 2].map fun k => (orientAxis ⟨0, 1, 1⟩ (3, ⟨0, 1, 1⟩)).2.pix2sky k) = [2, 1, 0] := by decide +kernel
/-- The same rows after the slice [::-1]: the southern one is on top. -/
example : ([0, 1, 2].map fun k => (orientAxis ⟨0, 1, 1⟩ (flipAxis (3, ⟨0, 1, 1⟩) true)).2.pix2sky k) = [0, 1, 2] := by decide +kernel

/-- C196: orientation of a part of the map.  `--sub` shows it with the coordinate falling along the image if the box is given
in the direction in which the map is stored, and rising if it is given in the opposite direction. -/
theorem C196_sub_partial (n : Nat) (w : Axis) (hc : w.cdelt ≠ 0) (a b : ℚ) (hab : a ≠ b)
    (hsel : (subinds n w a b .round false false).1 ≠ (subinds n w a b .round false false).2.1) :
    ∃ g, plotSub n w a b = some g ∧ (g.1.toNat : ℤ) = |(subinds n w a b .round false false).2.1 - (subinds n w a b .round false false).1| ∧
      ((0 < w.cdelt ↔ a < b) → ∀ i j : ℚ, i < j → (orientAxis w g).2.pix2sky j < (orientAxis w g).2.pix2sky i) ∧
      (¬ (0 < w.cdelt ↔ a < b) → ∀ i j : ℚ, i < j → (orientAxis w g).2.pix2sky i < (orientAxis w g).2.pix2sky j) := by
  obtain ⟨g, box, fl, e, _, l, fl1, _, p⟩ := submapAxis_spec n w hc a b .round (by simp [RoundMode.Consistent]) hab
  have hlen : ((flipAxis g fl).1.toNat : ℤ) = |(subinds n w a b .round false false).2.1 - (subinds n w a b .round false false).1| := by
    rw [fl1, l]
  have hpos : 1 ≤ (flipAxis g fl).1 := by
    have : 0 < |(subinds n w a b .round false false).2.1 - (subinds n w a b .round false false).1| := abs_pos.2 (by omega)
    omega
  have hcd : (flipAxis g fl).2.cdelt = w.cdelt * (skyboxPix w a b).2.2 := by
    have h1 := pix2sky_step (flipAxis g fl).2 0 1
    have h2 := p 0
    have h3 := p 1
    have h4 : (subinds n w a b .round false false).2.2 = (skyboxPix w a b).2.2 := by simp [subinds]
    rw [h4] at h2 h3
    rw [h2, h3, pix2sky_step] at h1
    linarith
  have d := skyboxPix_dir w a b
  have hstep := sky2pix_sub w a b
  have hcc : 0 < w.cdelt * w.cdelt := mul_self_pos.2 hc
  have hdir : ((0 < w.cdelt ↔ a < b) → (skyboxPix w a b).2.2 = 1) ∧ (¬ (0 < w.cdelt ↔ a < b) → (skyboxPix w a b).2.2 = -1) := by
    rcases lt_or_gt_of_ne hc with h | h <;> rcases lt_or_gt_of_ne hab with h' | h'
    · have : (b - a) / w.cdelt < 0 := div_neg_of_pos_of_neg (by linarith) h
      have := d.2.1.2 (by linarith)
      exact ⟨fun hx => absurd (hx.2 h') (by linarith), fun _ => by rcases d.2.2 with h | h | h <;> omega⟩
    · have : 0 < (b - a) / w.cdelt := div_pos_of_neg_of_neg (by linarith) h
      have := d.1.2 (by linarith)
      exact ⟨fun _ => by rcases d.2.2 with h | h | h <;> omega, fun hx => absurd ⟨fun q => by linarith, fun q => by linarith⟩ hx⟩
    · have : 0 < (b - a) / w.cdelt := div_pos (by linarith) h
      have := d.1.2 (by linarith)
      exact ⟨fun _ => by rcases d.2.2 with h | h | h <;> omega, fun hx => absurd ⟨fun _ => h', fun _ => h⟩ hx⟩
    · have : (b - a) / w.cdelt < 0 := div_neg_of_neg_of_pos (by linarith) h
      have := d.2.1.2 (by linarith)
      exact ⟨fun hx => absurd (hx.1 h) (by linarith), fun _ => by rcases d.2.2 with h | h | h <;> omega⟩
  have hne : (flipAxis g fl).2.cdelt ≠ 0 := by
    rw [hcd]
    by_cases hx : (0 < w.cdelt ↔ a < b)
    · rw [hdir.1 hx]; simpa using hc
    · rw [hdir.2 hx]; simpa using hc
  have o := C196_orientation w (flipAxis g fl).1 hpos (flipAxis g fl).2 hne
  refine ⟨flipAxis g fl, by simp [plotSub, e], hlen, fun hx => o.2.2.1 ?_, fun hx => o.2.2.2 ?_⟩
  · rw [hcd, hdir.1 hx]; push_cast; nlinarith
  · rw [hcd, hdir.2 hx]; push_cast; nlinarith

/-- C196, refuted for parts of maps: right ascension, stored as usual from high to low, increases to the right in the
plot of any box `ra1:ra2` with `ra1 < ra2`, also if the ends are left out (-180 and 180 degrees): plotting the part of the
map with everything in it gives its mirror image. -/
theorem C196_sub_refuted (n : Nat) (w : Axis) (hc : w.cdelt < 0) (a b : ℚ) (hab : a < b)
    (hsel : (subinds n w a b .round false false).1 ≠ (subinds n w a b .round false false).2.1) :
    ∃ g, plotSub n w a b = some g ∧ (∀ i j : ℚ, i < j → (orientAxis w g).2.pix2sky i < (orientAxis w g).2.pix2sky j) ∧
      ∀ m : ℤ, 1 ≤ m → ∀ i j : ℚ, i < j → (orientAxis w (m, w)).2.pix2sky j < (orientAxis w (m, w)).2.pix2sky i := by
  obtain ⟨g, e, _, _, h⟩ := C196_sub_partial n w hc.ne a b hab.ne hsel
  refine ⟨g, e, h fun hx => absurd (hx.2 hab) (by linarith), fun m hm => ?_⟩
  exact (C196_orientation w m hm w hc.ne).2.2.1 (by nlinarith)

/-- Four columns of 90 degrees that cover the sky, and the plot with the ends left out (which is also one column off, see C84). -/
example : ((plotSub 4 ⟨0, -90, 5/2⟩ (-180) 180).map fun g => (g.1, [0, 1, 2, 3].map fun k => (orientAxis ⟨0, -90, 5/2⟩ g).2.pix2sky k)) =
      some (4, [-225, -135, -45, 45]) ∧
    ([0, 1, 2, 3].map fun k => (orientAxis ⟨0, -90, 5/2⟩ (4, ⟨0, -90, 5/2⟩)).2.pix2sky k) = [135, 45, -45, -135] := by
  decide +kernel

/-- C196: masking.  With a finite mask exactly the values that differ from it by at most the tolerance are masked, in each
component by itself; infinite values and all others are kept. -/
theorem C196_mask (m tol : ℚ) (vals : List FV) :
    (maskPixel (some (.fin m)) tol false vals).length = vals.length ∧
    ∀ (i : Nat) (v : FV), vals[i]? = some v →
      (∀ q, v = .fin q → m - tol ≤ q → q ≤ m + tol → (maskPixel (some (.fin m)) tol false vals)[i]? = some .nan) ∧
      ((∀ q, v = .fin q → q < m - tol ∨ m + tol < q) → (maskPixel (some (.fin m)) tol false vals)[i]? = some v) := by
  have e : maskPixel (some (.fin m)) tol false vals = vals.map fun v => if isMasked (.fin m) tol v then .nan else v := by
    simp only [maskPixel, Bool.false_eq_true, if_false]
    rw [List.zipWith_map_left, List.zipWith_self]
  rw [e]
  refine ⟨by simp, fun i v hv => ⟨?_, fun h => ?_⟩⟩
  · rintro q rfl h1 h2
    have : |q - m| ≤ tol := abs_le.2 ⟨by linarith, by linarith⟩
    simp [hv, isMasked, this]
  · cases v with
    | fin q =>
      have : ¬ |q - m| ≤ tol := by
        rw [abs_le]
        rintro ⟨h1, h2⟩
        rcases h q rfl with h | h <;> linarith
      simp [hv, isMasked, this]
    | nan => simp [hv, isMasked]
    | pinf => simp [hv, isMasked]
    | ninf => simp [hv, isMasked]

example : maskPixel (some (.fin 0)) (1/100) false [.fin 0, .fin (1/100), .fin (1/50), .pinf, .fin (-1/200)] =
    [.nan, .nan, .fin (1/50), .pinf, .nan] := by decide +kernel

/-- C196: masking of colour images.  With `rgb` and three components a pixel is masked, in all of them, exactly if all three
have the mask's value. -/
theorem C196_rgb_mask_partial (m tol : ℚ) (r g b : FV) :
    ((∀ v ∈ [r, g, b], ∃ q, v = .fin q ∧ m - tol ≤ q ∧ q ≤ m + tol) → maskPixel (some (.fin m)) tol true [r, g, b] = [.nan, .nan, .nan]) ∧
    ((∃ v ∈ [r, g, b], ∀ q, v = .fin q → q < m - tol ∨ m + tol < q) → maskPixel (some (.fin m)) tol true [r, g, b] = [r, g, b]) := by
  have key : ∀ v : FV, isMasked (.fin m) tol v = true ↔ ∃ q, v = .fin q ∧ m - tol ≤ q ∧ q ≤ m + tol := by
    intro v
    cases v with
    | fin q =>
      simp only [isMasked, decide_eq_true_eq, FV.fin.injEq, exists_eq_left', abs_le]
      constructor
      · rintro ⟨h1, h2⟩; constructor <;> linarith
      · rintro ⟨h1, h2⟩; constructor <;> linarith
    | nan => simp [isMasked]
    | pinf => simp [isMasked]
    | ninf => simp [isMasked]
  constructor
  · intro h
    have h1 := (key r).2 (h r (by simp))
    have h2 := (key g).2 (h g (by simp))
    have h3 := (key b).2 (h b (by simp))
    simp [maskPixel, h1, h2, h3]
  · rintro ⟨v, hv, hq⟩
    have hb : isMasked (.fin m) tol v = false := by
      by_contra hc
      obtain ⟨q, h1, h2, h3⟩ := (key v).1 (by simpa using hc)
      rcases hq q h1 with h | h <;> linarith
    simp only [List.mem_cons, List.not_mem_nil, or_false] at hv
    rcases hv with rfl | rfl | rfl <;> simp [maskPixel, hb]

example : maskPixel (some (.fin 0)) 0 true [.fin 0, .fin 0, .fin 1] = [.fin 0, .fin 0, .fin 1] := by decide +kernel

/-- C196, refuted for several colour images from one map: a pixel that has the mask's value in all three components of the first
image is not masked in it if any component of another image has a different value there. -/
theorem C196_rgb_mask_refuted (m tol : ℚ) (r g b : FV) (pre post : List FV) (v : FV) (hv : ∀ q, v = .fin q → q < m - tol ∨ m + tol < q) :
    maskPixel (some (.fin m)) tol true ([r, g, b] ++ pre ++ v :: post) = [r, g, b] ++ pre ++ v :: post := by
  have hb : isMasked (.fin m) tol v = false := by
    cases v with
    | fin q =>
      simp only [isMasked, decide_eq_false_iff_not, abs_le]
      rintro ⟨h1, h2⟩
      rcases hv q rfl with h | h <;> linarith
    | nan => rfl
    | pinf => rfl
    | ninf => rfl
  have hall : (([r, g, b] ++ pre ++ v :: post).map (isMasked (.fin m) tol)).all id = false := by simp [hb]
  simp only [maskPixel, if_true, hall, List.map_map]
  rw [List.zipWith_map_left, List.zipWith_self]
  simp

example : maskPixel (some (.fin 0)) 0 true [.fin 0, .fin 0, .fin 0, .fin 1, .fin 1, .fin 1] =
    [.fin 0, .fin 0, .fin 0, .fin 1, .fin 1, .fin 1] := by decide +kernel

/-- C196, refuted for infinite masks: masking minus infinity masks nothing, and masking infinity masks minus infinity too. -/
theorem C196_infinite_refuted (tol : ℚ) (vals : List FV) :
    maskPixel (some .ninf) tol false vals = vals ∧
    maskPixel (some .pinf) tol false vals = vals.map fun v => if v = .pinf ∨ v = .ninf then .nan else v := by
  have e : ∀ k, maskPixel (some k) tol false vals = vals.map fun v => if isMasked k tol v then .nan else v := by
    intro k
    simp only [maskPixel, Bool.false_eq_true, if_false]
    rw [List.zipWith_map_left, List.zipWith_self]
  constructor
  · rw [e]
    conv_rhs => rw [← List.map_id vals]
    refine List.map_congr_left fun v _ => ?_
    cases v <;> simp [isMasked, FV.same, FV.abs]
  · rw [e]
    refine List.map_congr_left fun v _ => ?_
    cases v <;> simp [isMasked, FV.same, FV.abs]

example : maskPixel (some .ninf) 0 false [.ninf, .fin 1] = [.ninf, .fin 1] ∧ maskPixel (some .pinf) 0 false [.ninf, .fin 1] = [.nan, .fin 1] := by
  decide +kernel

end Pixell
