/-
C24: padded tiling with crossfading reconstructs the map.
-/
import Verif.Lemmas.Padtile

namespace Pixell

/-- Along one axis the weights of all tiles at any pixel are non-negative and add up to one. -/
theorem C24_unity {n t pad : Nat} (ht : 0 < t) (hp : 2 * pad ≤ t) {y : Nat} (hy : y < n) :
    (∀ k, 0 ≤ axisW (padNt n t) t pad k y) ∧
    ∑ k ∈ Finset.range (padNt n t), axisW (padNt n t) t pad k y = 1 :=
  ⟨fun k => axisW_nonneg _ _ _ k _, axisW_sum ht hp hy⟩

example : axisW 3 4 2 0 5 = 1 / 5 ∧ axisW 3 4 2 1 5 = 4 / 5 := by decide +kernel

section
variable {α : Type} [AddCommMonoid α] [Module ℚ α]

/-- What the write iterator adds at a pixel is a weighted mean of what the user stored there in the
tiles covering it: the weights are non-negative, vanish for tiles not covering the pixel, and add up to
one. -/
theorem C24_weighted_mean {ny nx ty tx pady padx : Nat} (hty : 0 < ty) (htx : 0 < tx) (hpy : 2 * pady ≤ ty)
    (hpx : 2 * padx ≤ tx) (tiles : Nat → Int → Int → α) (omap : Int → Int → α) {y x : Nat} (hy : y < ny) (hx : x < nx) :
    ∃ w : Nat → ℚ, (∀ ti, 0 ≤ w ti) ∧
      ∑ ti ∈ Finset.range (padNt ny ty * padNt nx tx), w ti = 1 ∧
      (∀ ti, w ti ≠ 0 → inPadTile ty pady (ti / padNt nx tx) y ∧ inPadTile tx padx (ti % padNt nx tx) x) ∧
      padWrite ny nx ty tx pady padx 0 1 tiles omap y x =
        omap y x + ∑ ti ∈ Finset.range (padNt ny ty * padNt nx tx), w ti • tiles ti y x := by
  refine ⟨fun ti => axisW (padNt ny ty) ty pady (ti / padNt nx tx) y *
    axisW (padNt nx tx) tx padx (ti % padNt nx tx) x, ?_, ?_, ?_, ?_⟩
  · intro ti; exact mul_nonneg (axisW_nonneg _ _ _ _ _) (axisW_nonneg _ _ _ _ _)
  · rw [sum_grid _ _ fun i j => axisW (padNt ny ty) ty pady i y * axisW (padNt nx tx) tx padx j x]
    simp only [← Finset.mul_sum, axisW_sum htx hpx hx, mul_one]
    exact axisW_sum hty hpy hy
  · intro ti h
    constructor
    · by_contra hc; apply h; simp [axisW, hc]
    · by_contra hc; apply h; simp [axisW, hc]
  · rw [padWrite_eq _ _ _ _ _ _ _ _ _ _ _ _ (by omega) (by omega), tileIter_all]
    rfl

/-- Reading tiles and writing them back unmodified adds exactly the input map to the output map. -/
theorem C24_reconstruct {ny nx ty tx pady padx : Nat} (hty : 0 < ty) (htx : 0 < tx) (hpy : 2 * pady ≤ ty)
    (hpx : 2 * padx ≤ tx) (imap omap : Int → Int → α) {y x : Nat} (hy : y < ny) (hx : x < nx) :
    padWrite ny nx ty tx pady padx 0 1 (fun _ => padRead ny nx imap) omap y x = omap y x + imap y x := by
  obtain ⟨w, -, h1, -, h2⟩ := C24_weighted_mean hty htx hpy hpx (fun _ => padRead ny nx imap) omap hy hx
  rw [h2, ← Finset.sum_smul, h1, one_smul]
  congr 1
  unfold padRead
  rw [if_pos (by omega)]

/-- The padded tiles read from a map hold the map inside it and zeros outside. -/
theorem C24_read (ny nx : Nat) (imap : Int → Int → α) (y x : Int) :
    (0 ≤ y → y < ny → 0 ≤ x → x < nx → padRead ny nx imap y x = imap y x) ∧
    (y < 0 ∨ (ny : Int) ≤ y ∨ x < 0 ∨ (nx : Int) ≤ x → padRead ny nx imap y x = 0) := by
  unfold padRead
  constructor
  · intro h1 h2 h3 h4
    rw [if_pos ⟨h1, h2, h3, h4⟩]
  · intro h
    rw [if_neg (by omega)]

/-- The iterators of several workers (`start = 0..step-1`), run one after the other in any order over the
same map, give the same result as a single full iteration. -/
theorem C24_workers {ny nx ty tx pady padx : Nat} (step : Nat) (hs : 0 < step) (tiles : Nat → Int → Int → α)
    (omap : Int → Int → α) {y x : Nat} (hy : y < ny) (hx : x < nx) (order : List Nat)
    (ho : order.Perm (List.range step)) :
    order.foldl (fun o s => padWrite ny nx ty tx pady padx s step tiles o) omap y x =
      padWrite ny nx ty tx pady padx 0 1 tiles omap y x := by
  rw [padWrite_eq _ _ _ _ _ _ _ _ _ _ _ _ (by omega) (by omega), tileIter_all]
  have key : ∀ (l : List Nat) (o : Int → Int → α),
      l.foldl (fun o s => padWrite ny nx ty tx pady padx s step tiles o) o y x = o y x +
      ((l.flatMap fun s => tileIter s (padNt ny ty * padNt nx tx) step).map fun ti =>
        (axisW (padNt ny ty) ty pady (ti / padNt nx tx) y * axisW (padNt nx tx) tx padx (ti % padNt nx tx) x) •
          tiles ti y x).sum := by
    intro l
    induction l with
    | nil => intro o; simp
    | cons s l ih =>
      intro o
      rw [List.foldl_cons, ih, padWrite_eq _ _ _ _ _ _ _ _ _ _ _ _ (by omega) (by omega), List.flatMap_cons,
        List.map_append, List.sum_append, add_assoc]
  rw [key]
  congr 1
  exact (((ho.flatMap_right _).trans (tileIter_perm _ step hs)).map _).sum_eq

end

/-- The condition on the padding is needed: with padding as large as the tile the weights add up to 27/25. -/
theorem C24_large_pad_refuted : ∑ k ∈ Finset.range (padNt 6 2), axisW (padNt 6 2) 2 2 k 2 = 27 / 25 := by
  decide +kernel

end Pixell
