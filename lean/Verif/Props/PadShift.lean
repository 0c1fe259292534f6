import Mathlib.Tactic.Linarith
import Mathlib.Tactic.FieldSimp
import Mathlib.Tactic.NormNum
import Verif.Lemmas.ListExtra
import Verif.Lemmas.PySeq
import Verif.Model.MapOps
/-
C04 (padding), C05 (shifting), C06 (rescaling the WCS).
-/
namespace Pixell
open PySpec

/-! ## C04 -/

/-- Padding puts `p` fill values before and `q` after the data, for every map and every width. -/
theorem C04_pad {α} (l : List α) (p q : Nat) (v : α) :
    padData l p q v = some (List.replicate p v ++ l ++ List.replicate q v) := by
  unfold padData
  simp only
  rw [npSet_unit (i := p) (j := p + l.length)]
  · have e : l.length + p + q - p = l.length + q := by omega
    have e2 : l.length + p + q - (p + l.length) = q := by omega
    simp [e2, show p ≤ l.length + p + q by omega]
  · simp only [lo, adjust, List.length_replicate]
    repeat' split
    all_goals omega
  · simp only [hi, adjust, List.length_replicate]
    repeat' split
    all_goals omega
  · omega
  · simp; omega
  · omega

/-- The sky coordinate of old pixel coordinate `i` (now `i+p`) is unchanged. -/
theorem C04_sky (w : Axis) (p : Int) (i : ℚ) : (padWcs w p).pix2sky (i + p) = w.pix2sky i := by
  simp only [padWcs, Axis.pix2sky]; ring

/-- Cropping a geometry to a box of pixels: pixel i of the result is pixel b0+i of the original, there are b1-b0 of them,
and for a box inside the map it is what slicing [b0:b1] gives. -/
theorem C04_crop_geometry (n : Nat) (w : Axis) (b0 b1 : Int) (h : b0 ≤ b1) :
    ((cropGeometry w b0 b1).1 : Int) = b1 - b0 ∧ (∀ i : ℚ, (cropGeometry w b0 b1).2.pix2sky i = w.pix2sky (b0 + i)) ∧
    (0 ≤ b0 → b1 ≤ n → sliceGeometry n w ⟨some b0, some b1, none⟩ = (((cropGeometry w b0 b1).1 : Int), (cropGeometry w b0 b1).2)) := by
  have hsz : ((cropGeometry w b0 b1).1 : Int) = b1 - b0 := by unfold cropGeometry; simp only; omega
  refine ⟨hsz, fun i => by simp only [cropGeometry, Axis.pix2sky]; ring, fun h0 h1 => ?_⟩
  rw [hsz]
  have e : expandSlice ⟨some b0, some b1, none⟩ n false = (b0, b1, 1) := by
    have c : ∀ b : Int, 0 ≤ b → b ≤ n → cycle false n b = b := by
      intro b hb hn
      unfold cycle
      simp [hb, hn]
    simp [expandSlice, effStep, c b0 h0 (by omega), c b1 (by omega) h1]
  obtain ⟨v, d, p⟩ := w
  have e2 : Int.fdiv (b1 - b0 + 1 - Int.sign 1) 1 = b1 - b0 := by simp
  simp only [sliceGeometry, e, sliceWcs, cropGeometry, e2, zero_lt_one, if_true]
  simp only [Prod.mk.injEq, Axis.mk.injEq, true_and]
  push_cast
  constructor <;> ring

example : cropGeometry ⟨0, 1, 1⟩ 2 5 = (3, ⟨0, 1, -1⟩) := by decide +kernel

/-- Cropping the padding away gives back data and geometry. -/
theorem C04_crop {α} (l : List α) (w : Axis) (p q : Nat) (v : α) :
    (padData l p q v).bind (fun r => npGet r ⟨some p, some ((l.length + p : Nat) : Int), none⟩) = some l ∧
    sliceGeometry (l.length + p + q : Nat) (padWcs w p)
      ⟨some p, some ((l.length + p : Nat) : Int), none⟩ = ((l.length : Int), w) := by
  constructor
  · rw [C04_pad, Option.bind_some, npGet_unit (i := p) (j := p + l.length)]
    · simp
    · simp only [lo, adjust, List.length_append, List.length_replicate]
      repeat' split
      all_goals omega
    · simp only [hi, adjust, List.length_append, List.length_replicate]
      repeat' split
      all_goals omega
    · omega
  · simp only [sliceGeometry, expandSlice, effStep, sliceWcs, cycle, padWcs]
    simp only [Option.getD_some, show (0:Int) < 1 by omega, if_true, Bool.false_eq_true, if_false]
    have e1 : min ((l.length + p : Nat) : Int) ((l.length + p + q : Nat) : Int) = l.length + p := by omega
    have e2 : min (p : Int) ((l.length + p + q : Nat) : Int) = p := by omega
    rw [if_pos (by omega), if_pos (by omega), e1, e2]
    have e3 : w.crpix + (p:ℚ) - ((p:ℚ) + 2⁻¹) + 2⁻¹ = w.crpix := by ring
    simp [e3]

/-- With `wrap=True` and widths between 1 and the axis length (0 allowed for the lower side), the
padded axis is the periodic continuation of the map. -/
theorem C04_wrap_partial {α} (l : List α) (p q : Nat) (v : α) (hq : 0 < q) (hp : p ≤ l.length)
    (hql : q ≤ l.length) :
    ∃ r, padWrap l p q v = some r ∧ r.length = l.length + p + q ∧
      ∀ j : Nat, j < r.length → r[j]? = l[(((j : Int) - p) % l.length).toNat]? := by
  have hn : 0 < l.length := by omega
  refine ⟨l.drop (l.length - p) ++ l ++ l.take q, ?_, ?_, ?_⟩
  · unfold padWrap
    rw [C04_pad]
    simp only [Option.bind_eq_bind, Option.bind_some]
    rw [npGet_unit (i := l.length) (j := p + l.length)]
    · have e1 : (List.replicate p v ++ l ++ List.replicate q v).drop l.length
          = (List.replicate p v ++ l).drop l.length ++ List.replicate q v := by
        rw [List.drop_append_of_le_length]; simp
      have e2 : (List.replicate p v ++ l).drop l.length = l.drop (l.length - p) := by
        rw [List.drop_append]; simp [hp]
      have e3 : List.take (p + l.length - l.length) (List.drop l.length
          (List.replicate p v ++ l ++ List.replicate q v)) = l.drop (l.length - p) := by
        rw [e1, e2, List.take_append_of_le_length (by simp; omega)]
        apply List.take_of_length_le; simp; omega
      rw [e3]
      simp only [Option.bind_some]
      rw [npSet_unit (i := 0) (j := p)]
      · simp only [Option.bind_some, List.take_zero, List.nil_append]
        have e4 : List.drop p (List.replicate p v ++ l ++ List.replicate q v) =
            l ++ List.replicate q v := by
          rw [List.append_assoc, List.drop_append_of_le_length (by simp)]; simp
        rw [e4]
        rw [npGet_unit (i := p) (j := p + q)]
        · simp only [Option.bind_some]
          have e5 : List.take (p + q - p) (List.drop p (List.drop (l.length - p) l ++
              (l ++ List.replicate q v))) = l.take q := by
            rw [List.drop_append]
            have : (List.drop (l.length - p) l).length = p := by simp; omega
            rw [this, List.drop_of_length_le (by omega)]
            simp [List.take_append_of_le_length hql]
          rw [e5]
          rw [npSet_unit (i := p + l.length) (j := p + l.length + q)]
          · simp only [Option.some.injEq]
            have hL : (List.drop (l.length - p) l ++ l).length = p + l.length := by simp; omega
            have hd : List.drop (p + l.length + q) (List.drop (l.length - p) l ++
                (l ++ List.replicate q v)) = [] := by
              apply List.drop_of_length_le
              rw [← List.append_assoc, List.length_append, hL]; simp
            rw [hd, ← List.append_assoc, List.take_append_of_le_length (by omega),
              List.take_of_length_le (by omega), List.append_nil]
          · simp only [lo, adjust, List.length_append, List.length_replicate, List.length_drop]
            repeat' split
            all_goals omega
          · simp only [hi, List.length_append, List.length_replicate, List.length_drop]
            omega
          · omega
          · simp; omega
          · simp; omega
        · simp only [lo, adjust, List.length_append, List.length_replicate, List.length_drop]
          repeat' split
          all_goals omega
        · simp only [hi, adjust, List.length_append, List.length_replicate, List.length_drop]
          repeat' split
          all_goals omega
        · omega
      · simp [lo]
      · simp only [hi, adjust, List.length_append, List.length_replicate]
        repeat' split
        all_goals omega
      · omega
      · simp
      · simp; omega
    · simp only [lo, adjust, List.length_append, List.length_replicate]
      repeat' split
      all_goals omega
    · simp only [hi, adjust, List.length_append, List.length_replicate]
      repeat' split
      all_goals omega
    · omega
  · simp; omega
  · intro j hj
    simp at hj
    rcases Nat.lt_or_ge j p with h | h
    · have : ((j:Int) - p) % l.length = l.length - p + j := by
        rw [← Int.add_emod_right, Int.emod_eq_of_lt] <;> omega
      rw [this, List.append_assoc, List.getElem?_append_left (by simp; omega), List.getElem?_drop]
      congr 1; omega
    · rcases Nat.lt_or_ge j (p + l.length) with h2 | h2
      · have : ((j:Int) - p) % l.length = j - p := by
          rw [Int.emod_eq_of_lt] <;> omega
        rw [this, List.append_assoc, List.getElem?_append_right (by simp; omega),
          List.getElem?_append_left (by simp; omega)]
        congr 1; simp; omega
      · have : ((j:Int) - p) % l.length = j - p - l.length := by
          rw [← Int.sub_emod_right, Int.emod_eq_of_lt] <;> omega
        rw [this, List.getElem?_append_right (by simp; omega), List.getElem?_take]
        rw [if_pos (by simp; omega)]
        congr 1; simp; omega

/-- Full claim for `wrap=True`. -/
def C04_wrap_claim : Prop :=
  ∀ (l : List Nat) (p q : Nat) (v : Nat), p ≤ l.length → q ≤ l.length → (padWrap l p q v).isSome

/-- With no padding on the upper side the call fails (`-0:` selects the whole axis), for every
non-empty map and every lower width. -/
theorem C04_wrap_zero_upper_fails {α} (l : List α) (p : Nat) (v : α) (h : 0 < l.length) :
    padWrap l p 0 v = none := by
  unfold padWrap
  rw [C04_pad]
  simp only [Option.bind_eq_bind, Option.bind_some]
  have hg : ∃ i : Nat, i ≤ p + l.length ∧
      npGet (List.replicate p v ++ l ++ List.replicate 0 v)
        ⟨some (-(p:Int) - (0:Nat)), some (-((0:Nat):Int)), none⟩ = some [] := by
    refine ⟨0, by omega, ?_⟩
    unfold npGet
    rw [Slice.select, Slice.indices]
    simp only [Option.getD_none, show ¬ (1:Int) = 0 by omega, if_false, Option.map_some]
    rw [range_eq_nil]
    · rfl
    · simp only [adjust, List.length_append, List.length_replicate]
      refine ⟨fun _ => ?_, by omega⟩
      repeat' split
      all_goals omega
  obtain ⟨_, _, hg⟩ := hg
  rw [hg]
  simp only [Option.bind_some]
  rcases Nat.eq_zero_or_pos p with rfl | hp
  · rw [npSet_unit (i := 0) (j := 0)]
    · simp only [Option.bind_some]
      rw [npGet_unit (i := 0) (j := 0)]
      · simp only [Option.bind_some]
        rw [npSet_unit_error (i := 0) (j := l.length)]
        · simp [lo, adjust]
        · simp [hi]
        · omega
        · simp; omega
        · simp
      · simp only [lo, adjust]
        repeat' split
        all_goals omega
      · simp only [hi, adjust]
        repeat' split
        all_goals omega
      · omega
    · simp [lo]
    · simp only [hi, adjust]
      repeat' split
      all_goals omega
    · omega
    · omega
    · simp
  · rw [npSet_unit_error (i := 0) (j := p)]
    · rfl
    · simp [lo]
    · simp only [hi, adjust, List.length_append, List.length_replicate]
      repeat' split
      all_goals omega
    · omega
    · simp; omega
    · simp

theorem C04_wrap_refuted : ¬ C04_wrap_claim := by
  intro h
  have := h [1, 2, 3] 1 0 9 (by decide) (by decide)
  rw [C04_wrap_zero_upper_fails _ _ _ (by decide)] at this
  simp at this

example : padData [1, 2] 1 2 0 = some [0, 1, 2, 0, 0] := C04_pad _ _ _ _
example : padWrap [1, 2, 3] 2 1 0 = some [2, 3, 1, 2, 3, 1] := by decide +kernel

/-! ## C05 -/

theorem npRoll_eq_map {α} (l : List α) (o : Int) :
    (npRoll l o).length = l.length ∧
    ∀ j : Nat, j < l.length → (npRoll l o)[j]? = l[(((j : Int) - o) % l.length).toNat]? := by
  have hs : ∀ j ∈ List.range l.length, (l[(((j : Int) - o) % l.length).toNat]?).isSome := by
    intro j hj
    rw [List.mem_range] at hj
    have h1 := Int.emod_nonneg ((j:Int) - o) (show (l.length:Int) ≠ 0 by omega)
    have h2 := Int.emod_lt_of_pos ((j:Int) - o) (show 0 < (l.length:Int) by omega)
    rw [List.getElem?_eq_getElem (by omega)]
    rfl
  have h := filterMap_total _ _ hs
  refine ⟨by rw [npRoll, h.1, List.length_range], fun j hj => ?_⟩
  rw [npRoll, h.2 j, List.getElem?_range hj, Option.bind_some]

theorem shiftMap_data {α} (l : List α) (w : Axis) (o : Int) :
    (shiftMap l w o).1 = npRoll l o := by
  unfold shiftMap
  simp only
  split
  · rfl
  · have : o = 0 := by omega
    subst this
    apply List.ext_getElem?
    intro j
    rcases Nat.lt_or_ge j l.length with h | h
    · rw [(npRoll_eq_map l 0).2 j h]
      rw [Int.sub_zero, Int.emod_eq_of_lt (by omega) (by omega)]
      simp
    · rw [List.getElem?_eq_none h, List.getElem?_eq_none (by rw [(npRoll_eq_map l 0).1]; exact h)]

/-- Shifting keeps the number of pixels; the pixel at `j` moves to `(j+o) mod n`, and its new
position has the sky coordinate of the old one whenever it did not wrap around. -/
theorem C05_shift {α} (l : List α) (w : Axis) (o : Int) (j : Nat) (hj : j < l.length) :
    (shiftMap l w o).1.length = l.length ∧
    (shiftMap l w o).1[(((j : Int) + o) % l.length).toNat]? = l[j]? ∧
    (shiftMap l w o).2.pix2sky (j + o) = w.pix2sky j ∧
    (0 ≤ (j : Int) + o → (j : Int) + o < l.length →
      (shiftMap l w o).1[((j : Int) + o).toNat]? = l[j]?) := by
  have hm : (shiftMap l w o).1[(((j : Int) + o) % l.length).toNat]? = l[j]? := by
    have h1 := Int.emod_nonneg ((j:Int) + o) (show (l.length:Int) ≠ 0 by omega)
    have h2 := Int.emod_lt_of_pos ((j:Int) + o) (show 0 < (l.length:Int) by omega)
    rw [shiftMap_data, (npRoll_eq_map l o).2 _ (by omega)]
    congr 1
    rw [Int.toNat_of_nonneg h1, Int.emod_sub_emod, Int.add_sub_cancel, Int.emod_eq_of_lt (by omega) (by omega)]
    simp
  refine ⟨by rw [shiftMap_data]; exact (npRoll_eq_map l o).1, hm, ?_, ?_⟩
  · simp only [shiftMap, shiftWcs, Axis.pix2sky]; ring
  · intro h1 h2
    rwa [Int.emod_eq_of_lt h1 h2] at hm

theorem npRoll_npRoll {α} (l : List α) (a b : Int) : npRoll (npRoll l a) b = npRoll l (a + b) := by
  apply List.ext_getElem?
  intro j
  rcases Nat.lt_or_ge j l.length with h | h
  · have h1 := Int.emod_nonneg ((j:Int) - b) (show (l.length:Int) ≠ 0 by omega)
    have h2 := Int.emod_lt_of_pos ((j:Int) - b) (show 0 < (l.length:Int) by omega)
    rw [(npRoll_eq_map _ b).2 j (by rw [(npRoll_eq_map l a).1]; exact h), (npRoll_eq_map l a).1,
      (npRoll_eq_map l a).2 _ (by omega), (npRoll_eq_map l _).2 j h]
    congr 2
    rw [Int.toNat_of_nonneg h1, Int.emod_sub_emod]
    congr 1; omega
  · rw [List.getElem?_eq_none, List.getElem?_eq_none]
    · rw [(npRoll_eq_map l _).1]; exact h
    · rw [(npRoll_eq_map _ _).1, (npRoll_eq_map _ _).1]; exact h

/-- Shifting by `a` and then `b` is shifting by `a+b`: data and geometry. -/
theorem C05_compose {α} (l : List α) (w : Axis) (a b : Int) :
    shiftMap (shiftMap l w a).1 (shiftMap l w a).2 b = shiftMap l w (a + b) := by
  apply Prod.ext
  · rw [shiftMap_data, shiftMap_data, shiftMap_data, npRoll_npRoll]
  · simp only [shiftMap, shiftWcs]; congr 1; push_cast; ring

/-- Shifting back restores map and geometry exactly. -/
theorem C05_inverse {α} (l : List α) (w : Axis) (a : Int) :
    shiftMap (shiftMap l w a).1 (shiftMap l w a).2 (-a) = (l, w) := by
  rw [C05_compose, Int.add_right_neg]
  simp [shiftMap, shiftWcs]

example : shiftMap [1, 2, 3, 4, 5] ⟨0, 1, 3⟩ 2 = ([4, 5, 1, 2, 3], ⟨0, 1, 5⟩) := by decide +kernel
example : (shiftMap [1, 2, 3, 4, 5] ⟨0, 1, 3⟩ (-7)).1 = [3, 4, 5, 1, 2] := by decide +kernel

/-! ## C06 -/

/-- Pixel-edge coordinate: edge number `e` (0 = lower edge of the first pixel) is at pixel
coordinate `e - 1/2`.  `scale` by `f` puts edge `e` at `f*e` without moving it on the sky. -/
theorem C06_edges (w : Axis) (f : ℚ) (hf : f ≠ 0) (e : ℚ) :
    (scaleWcs w f).pix2sky (f * e - 1/2) = w.pix2sky (e - 1/2) := by
  simp only [scaleWcs, Axis.pix2sky, if_true]
  field_simp; ring

/-- With `corner=False` the statement holds for pixel centres (counted from 1, as FITS does). -/
theorem C06_centers (w : Axis) (f : ℚ) (hf : f ≠ 0) (c : ℚ) :
    (scaleWcs w f false).pix2sky (f * c - 1) = w.pix2sky (c - 1) := by
  simp only [scaleWcs, Axis.pix2sky, Bool.false_eq_true, if_false]
  field_simp; ring

theorem C06_compose (w : Axis) (f g : ℚ) (corner : Bool) :
    scaleWcs (scaleWcs w f corner) g corner = scaleWcs w (f * g) corner := by
  cases corner
  · simp only [scaleWcs, Bool.false_eq_true, if_false, Axis.mk.injEq, true_and]
    exact ⟨by rw [div_div], by ring⟩
  · simp only [scaleWcs, if_true, Axis.mk.injEq, true_and]
    exact ⟨by rw [div_div], by ring⟩

theorem C06_inverse (w : Axis) (f : ℚ) (hf : f ≠ 0) (corner : Bool) :
    scaleWcs (scaleWcs w f corner) (1/f) corner = w := by
  rw [C06_compose, mul_one_div_cancel hf]
  cases corner <;> simp [scaleWcs]

/-- The total extent of an `n`-pixel axis is kept when it becomes `f*n` pixels: both outer edges
stay where they are. -/
theorem C06_extent (w : Axis) (f n : ℚ) (hf : f ≠ 0) :
    (scaleWcs w f).pix2sky (-1/2) = w.pix2sky (-1/2) ∧
    (scaleWcs w f).pix2sky (f * n - 1/2) = w.pix2sky (n - 1/2) := by
  refine ⟨?_, C06_edges w f hf n⟩
  have := C06_edges w f hf 0
  simp only [mul_zero, zero_sub] at this
  convert this using 2 <;> ring

example : (scaleWcs ⟨10, 2, 3⟩ 4) = ⟨10, 1/2, 21/2⟩ := by decide +kernel

end Pixell
