import Verif.Model.Redistribute
import Verif.Props.SBoxAlgebra
import Mathlib.Tactic.Linarith

/-!
C104: redistribute gives every task the parts of the global array its output boxes ask for — if no two tasks exchange
several boxes for several boxes, and without wrapping.
-/
namespace Pixell
open PySpec

/-! ### One axis -/

/-- The common indices of two boxes, in increasing order. -/
def pairIdx (a b : SBox) : List Int := (sboxIntersect1d a b).flatMap SBox.idx

/-- Their positions in the second box. -/
def pairLoc (a b : SBox) : List Int := (sboxIntersect1d a b).flatMap fun r => (sboxDiv r b).idx

theorem range_sorted {a b s : Int} (hs : 0 < s) : (range a b s).Pairwise (· < ·) := by
  unfold range
  rw [List.pairwise_map]
  refine List.Pairwise.imp ?_ (List.pairwise_lt_range)
  intro i j hij
  have : (i : Int) * s < j * s := by
    apply mul_lt_mul_of_pos_right _ hs
    exact_mod_cast hij
  linarith

theorem isect1_shape (a b : SBox) (ha : a.step ≠ 0) (hb : b.step ≠ 0) :
    sboxIntersect1d a b = [] ∨ ∃ r, sboxIntersect1d a b = [r] ∧ 0 < r.step := by
  obtain ⟨_, h2, h3⟩ := C10_intersect a b ha hb
  cases h : sboxIntersect1d a b with
  | nil => exact Or.inl rfl
  | cons r t =>
    rw [h] at h2 h3
    cases t with
    | nil => exact Or.inr ⟨r, rfl, h3 r (by simp)⟩
    | cons _ _ => simp at h2

theorem mem_pairIdx (a b : SBox) (ha : a.step ≠ 0) (hb : b.step ≠ 0) (x : Int) :
    x ∈ pairIdx a b ↔ x ∈ a.idx ∧ x ∈ b.idx := by
  obtain ⟨h1, _, h3⟩ := C10_intersect a b ha hb
  rw [← h1 x, pairIdx, List.mem_flatMap]
  exact ⟨fun ⟨r, hr, hx⟩ => ⟨r, hr, h3 r hr, hx⟩, fun ⟨r, hr, _, hx⟩ => ⟨r, hr, hx⟩⟩

theorem pairIdx_sorted (a b : SBox) (ha : a.step ≠ 0) (hb : b.step ≠ 0) : (pairIdx a b).Pairwise (· < ·) := by
  rcases isect1_shape a b ha hb with h | ⟨r, h, hr⟩
  · simp [pairIdx, h]
  · simp only [pairIdx, h, List.flatMap_cons, List.flatMap_nil, List.append_nil]
    exact range_sorted hr

theorem pairIdx_comm (a b : SBox) (ha : a.step ≠ 0) (hb : b.step ≠ 0) : pairIdx a b = pairIdx b a := by
  apply List.Perm.eq_of_pairwise (le := (· < ·)) ?_ (pairIdx_sorted a b ha hb) (pairIdx_sorted b a hb ha)
  · rw [List.perm_ext_iff_of_nodup ((pairIdx_sorted a b ha hb).imp fun h => ne_of_lt h)
      ((pairIdx_sorted b a hb ha).imp fun h => ne_of_lt h)]
    intro x
    rw [mem_pairIdx a b ha hb, mem_pairIdx b a hb ha, and_comm]
  · intro x y _ _ h1 h2
    omega

theorem norm_step (a : SBox) : a.norm.step.natAbs = a.step.natAbs := by
  unfold SBox.norm
  by_cases h : a.step < 0
  · have h' : (sboxFix a).step < 0 := h
    simp only [if_pos h']
    simp [sboxFlip, sboxFix]
  · have h' : ¬ (sboxFix a).step < 0 := h
    simp only [if_neg h']
    simp [sboxFix]

theorem isect1_step (a b : SBox) (r : SBox) (h : r ∈ sboxIntersect1d a b) : b.step ∣ r.step ∧ r.start < r.stop := by
  have e : sboxIntersect1d a b = intersectSeg a.norm b.norm := rfl
  rw [e] at h
  have key : ∀ p q : SBox, (b.step.natAbs = p.step.natAbs ∨ b.step.natAbs = q.step.natAbs) →
      b.step ∣ ((pyLcm p.step.natAbs q.step.natAbs : Nat) : Int) := by
    intro p q hpq
    rw [pyLcm_eq, Int.dvd_natCast]
    rcases hpq with h | h
    · rw [h]; exact Nat.dvd_lcm_left _ _
    · rw [h]; exact Nat.dvd_lcm_right _ _
  have aux : ∀ p q : SBox, (b.step.natAbs = p.step.natAbs ∨ b.step.natAbs = q.step.natAbs) → ¬ q.start < p.start →
      r ∈ intersectSeg p q → b.step ∣ r.step ∧ r.start < r.stop := by
    intro p q hpq hc hm
    unfold intersectSeg at hm
    simp only [if_neg hc] at hm
    split at hm
    · simp at hm
    · split at hm
      · simp at hm
      · rename_i hlt
        simp only [List.mem_singleton] at hm
        rw [hm]
        exact ⟨key p q hpq, not_le.mp hlt⟩
  by_cases hc : b.norm.start < a.norm.start
  · rw [intersectSeg_swap _ _ hc] at h
    exact aux _ _ (Or.inl (norm_step b).symm) (by omega) h
  · exact aux _ _ (Or.inr (norm_step b).symm) hc h

/-- Dividing an intersection by the second box. -/
theorem isect1_div (a b : SBox) (ha : a.step ≠ 0) (hb : b.step ≠ 0) (r : SBox) (h : r ∈ sboxIntersect1d a b) :
    (sboxDiv r b).idx.map (fun j => b.start + j * b.step) = r.idx ∧ sboxSel b.idx.length (sboxDiv r b) = (sboxDiv r b).idx ∧
    (sboxSize (sboxDiv r b)).toNat = (sboxDiv r b).idx.length ∧ 0 ≤ sboxSize (sboxDiv r b) := by
  obtain ⟨h1, _, h3⟩ := C10_intersect a b ha hb
  obtain ⟨⟨c2, hc2⟩, hlt⟩ := isect1_step a b r h
  have hr := h3 r h
  have hs : r.start ∈ r.idx := by
    rw [SBox.idx, mem_range]
    exact ⟨0, by simp, Or.inl ⟨hr, hlt⟩⟩
  have hsub : ∀ x ∈ r.idx, x ∈ b.idx := fun x hx => ((h1 x).1 ⟨r, h, hr, hx⟩).2
  have hmem : ∀ x ∈ b.idx, ∃ k : Nat, x = b.start + k * b.step ∧ k < b.idx.length := by
    intro x hx
    rw [SBox.idx, mem_range] at hx
    obtain ⟨k, hk, hk2⟩ := hx
    refine ⟨k, hk, ?_⟩
    rw [SBox.idx, length_range]
    rw [lt_rangeLen_iff]
    rw [← hk]
    exact hk2
  obtain ⟨k0, hk0, _⟩ := hmem _ (hsub _ hs)
  have hc : c2 ≠ 0 := by
    rintro rfl
    simp at hc2
    omega
  obtain ⟨d1, d2, d3⟩ := C12_div r b k0 c2 hb hc hk0 (by rw [hc2]; ring)
  have hne : (sboxDiv r b).idx ≠ [] := by
    intro h0
    rw [h0] at d1
    simp at d1
    rw [d1] at hs
    simp at hs
  have hst : (sboxDiv r b).step ≠ 0 := by rw [d3]; exact hc
  have hsel := C12_slice (sboxDiv r b) b.idx.length hst hne (by
    intro j hj
    have : b.start + j * b.step ∈ r.idx := by
      rw [← d1]
      exact List.mem_map.mpr ⟨j, hj, rfl⟩
    obtain ⟨k, hk, hk2⟩ := hmem _ (hsub _ this)
    have : j * b.step = k * b.step := by linarith
    have := Int.eq_of_mul_eq_mul_right hb this
    omega)
  have hsz := C12_size (sboxDiv r b) hst
  refine ⟨d1, by unfold sboxSel; rw [hsel]; rfl, hsz, ?_⟩
  have : 0 < (sboxDiv r b).idx.length := List.length_pos_of_ne_nil hne
  omega

theorem pairLoc_map (a b : SBox) (ha : a.step ≠ 0) (hb : b.step ≠ 0) :
    (pairLoc a b).map (fun j => b.start + j * b.step) = pairIdx a b := by
  rcases isect1_shape a b ha hb with h | ⟨r, h, hr⟩
  · simp [pairLoc, pairIdx, h]
  · simp only [pairIdx, pairLoc, h, List.flatMap_cons, List.flatMap_nil, List.append_nil]
    exact (isect1_div a b ha hb r (by rw [h]; simp)).1

/-! ### One pair of boxes -/

def Box2.Ok (b : Box2) : Prop := b.y.step ≠ 0 ∧ b.x.step ≠ 0

/-- The positions of the common part of two boxes in the second one. -/
def pairPos (npre : Nat) (a b : Box2) : List (Nat × Int × Int) :=
  (List.range npre).flatMap fun p => (pairLoc a.y b.y).flatMap fun y => (pairLoc a.x b.x).map fun x => (p, y, x)

theorem safeDiv_eq (npre : Nat) (a b : Box2) (ha : a.Ok) (hb : b.Ok) :
    ∃ d, safeDiv (isect2 (0, 0) a b) b = [d] ∧ boxPos npre b.y.idx.length b.x.idx.length d = pairPos npre a b ∧
      boxCount d * npre = (pairPos npre a b).length ∧ (sboxSel b.y.idx.length d.y).length = (sboxSize d.y).toNat ∧
      (sboxSel b.x.idx.length d.x).length = (sboxSize d.x).toNat := by
  have hz : ∀ n : Nat, sboxSel n ⟨0, 0, 1⟩ = [] := by
    intro n
    simp [sboxSel, Slice.select, Slice.indices, sbox2slice, adjust, PySpec.range, rangeLen]
  have hzs : sboxSize ⟨0, 0, 1⟩ = 0 := by decide
  have hempty : isect2 (0, 0) a b = [] → (pairLoc a.y b.y = [] ∨ pairLoc a.x b.x = []) →
    ∃ d, safeDiv (isect2 (0, 0) a b) b = [d] ∧ boxPos npre b.y.idx.length b.x.idx.length d = pairPos npre a b ∧
      boxCount d * npre = (pairPos npre a b).length ∧ (sboxSel b.y.idx.length d.y).length = (sboxSize d.y).toNat ∧
      (sboxSel b.x.idx.length d.x).length = (sboxSize d.x).toNat := by
    intro h0 hl
    have hp : pairPos npre a b = [] := by
      unfold pairPos
      rcases hl with h | h <;> simp [h]
    refine ⟨⟨⟨0, 0, 1⟩, ⟨0, 0, 1⟩⟩, ?_, ?_, ?_, ?_, ?_⟩
    · simp [safeDiv, h0]
    · rw [hp]; simp [boxPos, hz]
    · rw [hp]; simp [boxCount, hzs]
    · rw [hz, hzs]; rfl
    · rw [hz, hzs]; rfl
  rcases isect1_shape a.y b.y ha.1 hb.1 with hy | ⟨ry, hy, hry⟩
  · exact hempty (by simp [isect2, hy]) (Or.inl (by simp [pairLoc, hy]))
  · rcases isect1_shape a.x b.x ha.2 hb.2 with hx | ⟨rx, hx, hrx⟩
    · exact hempty (by simp [isect2, hx]) (Or.inr (by simp [pairLoc, hx]))
    · obtain ⟨_, y2, y3, y4⟩ := isect1_div a.y b.y ha.1 hb.1 ry (by rw [hy]; simp)
      obtain ⟨_, x2, x3, x4⟩ := isect1_div a.x b.x ha.2 hb.2 rx (by rw [hx]; simp)
      have ely : pairLoc a.y b.y = (sboxDiv ry b.y).idx := by simp [pairLoc, hy]
      have elx : pairLoc a.x b.x = (sboxDiv rx b.x).idx := by simp [pairLoc, hx]
      refine ⟨⟨sboxDiv ry b.y, sboxDiv rx b.x⟩, ?_, ?_, ?_, ?_, ?_⟩
      · simp [safeDiv, isect2, hy, hx]
      · simp only [boxPos, pairPos, y2, x2, ely, elx]
      · simp only [boxCount, pairPos, ely, elx]
        rw [Int.toNat_mul y4 x4, y3, x3]
        simp [List.length_flatMap]
        ring
      · simp only [y2, y3]
      · simp only [x2, x3]

/-! ### The statement -/

/-- Local position to global position. -/
def Box2.glob (b : Box2) (q : Nat × Int × Int) : Nat × Int × Int := (q.1, b.y.start + q.2.1 * b.y.step, b.x.start + q.2.2 * b.x.step)

/-- The global position is inside the box. -/
def Box2.Covers (b : Box2) (q : Nat × Int × Int) : Prop := q.2.1 ∈ b.y.idx ∧ q.2.2 ∈ b.x.idx

/-- The array is the part garr[...,ybox,xbox] of a global array. -/
def IsPart {α} (g : Nat × Int × Int → α) (npre : Nat) (i : Box2 × Arr3 α) : Prop :=
  i.2.ny = i.1.y.idx.length ∧ i.2.nx = i.1.x.idx.length ∧
  ∀ p < npre, ∀ j < i.2.ny, ∀ k < i.2.nx, i.2.get (p, (j : Int), (k : Int)) = g (i.1.glob (p, (j : Int), (k : Int)))

/-- The values of the global array at the common part of two boxes. -/
def pairData {α} (g : Nat × Int × Int → α) (npre : Nat) (a b : Box2) : List α :=
  (List.range npre).flatMap fun p => (pairIdx a.y b.y).flatMap fun y => (pairIdx a.x b.x).map fun x => g (p, y, x)

theorem pairPos_glob {α} (g : Nat × Int × Int → α) (npre : Nat) (a b : Box2) (ha : a.Ok) (hb : b.Ok) :
    (pairPos npre a b).map (fun q => g (b.glob q)) = pairData g npre a b := by
  unfold pairPos pairData
  rw [List.map_flatMap]
  congr 1
  funext p
  rw [List.map_flatMap, ← pairLoc_map a.y b.y ha.1 hb.1, List.flatMap_map]
  congr 1
  funext y
  rw [← pairLoc_map a.x b.x ha.2 hb.2, List.map_map, List.map_map]
  rfl

theorem mem_pairLoc (a b : SBox) (ha : a.step ≠ 0) (hb : b.step ≠ 0) (j : Int) :
    j ∈ pairLoc a b ↔ (∃ n : Nat, j = n ∧ n < b.idx.length) ∧ b.start + j * b.step ∈ a.idx := by
  have hm := pairLoc_map a b ha hb
  constructor
  · intro hj
    have : b.start + j * b.step ∈ pairIdx a b := by
      rw [← hm]; exact List.mem_map.mpr ⟨j, hj, rfl⟩
    rw [mem_pairIdx a b ha hb] at this
    refine ⟨?_, this.1⟩
    have h2 := this.2
    rw [SBox.idx, mem_range] at h2
    obtain ⟨k, hk, hk2⟩ := h2
    have : j * b.step = k * b.step := by linarith
    refine ⟨k, Int.eq_of_mul_eq_mul_right hb this, ?_⟩
    rw [SBox.idx, length_range, lt_rangeLen_iff, ← hk]
    exact hk2
  · rintro ⟨⟨n, rfl, hn⟩, h2⟩
    have hb2 : b.start + (n : Int) * b.step ∈ b.idx := by
      rw [SBox.idx, mem_range]
      rw [SBox.idx, length_range, lt_rangeLen_iff] at hn
      exact ⟨n, rfl, hn⟩
    have := (mem_pairIdx a b ha hb _).mpr ⟨h2, hb2⟩
    rw [← hm, List.mem_map] at this
    obtain ⟨j, hj, he⟩ := this
    have : j * b.step = n * b.step := by linarith
    rwa [← Int.eq_of_mul_eq_mul_right hb this]

theorem mem_pairPos (npre : Nat) (a b : Box2) (p : Nat) (y x : Int) :
    (p, y, x) ∈ pairPos npre a b ↔ p < npre ∧ y ∈ pairLoc a.y b.y ∧ x ∈ pairLoc a.x b.x := by
  unfold pairPos
  simp only [List.mem_flatMap, List.mem_range, List.mem_map, Prod.mk.injEq]
  constructor
  · rintro ⟨p', hp, y', hy, x', hx, rfl, rfl, rfl⟩
    exact ⟨hp, hy, hx⟩
  · rintro ⟨hp, hy, hx⟩
    exact ⟨p, hp, y, hy, x, hx, rfl, rfl, rfl⟩

/-- What is sent for one pair. -/
theorem sent_pair {α} (g : Nat × Int × Int → α) (npre : Nat) (i : Box2 × Arr3 α) (ob : Box2) (hi : i.1.Ok) (ho : ob.Ok)
    (hp : IsPart g npre i) :
    ((safeDiv (isect2 (0, 0) ob i.1) i.1).flatMap fun b => (boxPos npre i.2.ny i.2.nx b).map i.2.get) = pairData g npre i.1 ob := by
  obtain ⟨d, hd, hpos, _⟩ := safeDiv_eq npre ob i.1 ho hi
  obtain ⟨h1, h2, h3⟩ := hp
  rw [hd]
  simp only [List.flatMap_cons, List.flatMap_nil, List.append_nil]
  rw [h1, h2, hpos]
  have e : (pairPos npre ob i.1).map i.2.get = (pairPos npre ob i.1).map (fun q => g (i.1.glob q)) := by
    apply List.map_congr_left
    rintro ⟨p, y, x⟩ hq
    rw [mem_pairPos npre ob i.1] at hq
    obtain ⟨hp, hy, hx⟩ := hq
    obtain ⟨⟨j, rfl, hj⟩, _⟩ := (mem_pairLoc _ _ ho.1 hi.1 y).1 hy
    obtain ⟨⟨k, rfl, hk⟩, _⟩ := (mem_pairLoc _ _ ho.2 hi.2 x).1 hx
    exact h3 p hp j (by omega) k (by omega)
  rw [e, pairPos_glob g npre ob i.1 ho hi]
  unfold pairData
  rw [pairIdx_comm ob.y i.1.y ho.1 hi.1, pairIdx_comm ob.x i.1.x ho.2 hi.2]

theorem length_pairPos {α} (g : Nat × Int × Int → α) (npre : Nat) (a b : Box2) (ha : a.Ok) (hb : b.Ok) :
    (pairPos npre a b).length = (pairData g npre a b).length := by
  rw [← pairPos_glob g npre a b ha hb, List.length_map]

theorem pairData_comm {α} (g : Nat × Int × Int → α) (npre : Nat) (a b : Box2) (ha : a.Ok) (hb : b.Ok) :
    pairData g npre a b = pairData g npre b a := by
  unfold pairData
  rw [pairIdx_comm a.y b.y ha.1 hb.1, pairIdx_comm a.x b.x ha.2 hb.2]

/-! ### Buffers -/

theorem sum_map_mul_nat {β} (l : List β) (f : β → Nat) (n : Nat) : (l.map f).sum * n = (l.map fun b => f b * n).sum := by
  induction l with
  | nil => simp
  | cons a l ih => simp only [List.map_cons, List.sum_cons, add_mul, ih]

theorem sum_map_add_nat {β} (l : List β) (f g : β → Nat) : (l.map f).sum + (l.map g).sum = (l.map fun b => f b + g b).sum := by
  induction l with
  | nil => simp
  | cons a l ih => simp only [List.map_cons, List.sum_cons, ← ih]; omega

theorem sendTo_eq {α} (g : Nat × Int × Int → α) (npre : Nat) (ins : List (Box2 × Arr3 α)) (outs : List Box2)
    (hi : ∀ i ∈ ins, i.1.Ok ∧ IsPart g npre i) (ho : ∀ b ∈ outs, b.Ok) :
    sendTo (0, 0) npre ins outs = outs.flatMap fun ob => ins.flatMap fun i => pairData g npre i.1 ob := by
  unfold sendTo
  apply List.flatMap_congr
  intro ob hob
  apply List.flatMap_congr
  intro i hii
  exact sent_pair g npre i ob (hi i hii).1 (ho ob hob) (hi i hii).2

theorem sendCount_eq {α} (g : Nat × Int × Int → α) (npre : Nat) (ins : List (Box2 × Arr3 α)) (outs : List Box2)
    (hi : ∀ i ∈ ins, i.1.Ok ∧ IsPart g npre i) (ho : ∀ b ∈ outs, b.Ok) :
    sendCount (0, 0) npre ins outs = (sendTo (0, 0) npre ins outs).length := by
  rw [sendTo_eq g npre ins outs hi ho]
  unfold sendCount
  rw [List.length_flatMap]
  congr 1
  apply List.map_congr_left
  intro ob hob
  rw [List.length_flatMap, sum_map_mul_nat]
  congr 1
  apply List.map_congr_left
  intro i hii
  obtain ⟨d, hd, _, hc, _⟩ := safeDiv_eq npre ob i.1 (ho ob hob) (hi i hii).1
  rw [hd, pairData_comm g npre i.1 ob (hi i hii).1 (ho ob hob), ← length_pairPos g npre ob i.1 (ho ob hob) (hi i hii).1, ← hc]
  simp

theorem recvCount_eq {α} (g : Nat × Int × Int → α) (npre : Nat) (ins : List (Box2 × Arr3 α)) (outs : List Box2)
    (hi : ∀ i ∈ ins, i.1.Ok ∧ IsPart g npre i) (ho : ∀ b ∈ outs, b.Ok) :
    recvCount (0, 0) npre ins outs = (ins.flatMap fun i => outs.flatMap fun ob => pairData g npre i.1 ob).length := by
  unfold recvCount
  rw [List.length_flatMap]
  congr 1
  apply List.map_congr_left
  intro i hii
  rw [List.length_flatMap, sum_map_mul_nat]
  congr 1
  apply List.map_congr_left
  intro ob hob
  obtain ⟨d, hd, _, hc, _⟩ := safeDiv_eq npre i.1 ob (hi i hii).1 (ho ob hob)
  rw [hd, ← length_pairPos g npre i.1 ob (hi i hii).1 (ho ob hob), ← hc]
  simp

theorem sum_length_swap {β γ δ} (l : List β) (m : List γ) (f : β → γ → List δ) :
    (l.flatMap fun a => m.flatMap fun b => f a b).length = (m.flatMap fun b => l.flatMap fun a => f a b).length := by
  simp only [List.length_flatMap]
  induction l with
  | nil => induction m <;> simp_all
  | cons a l ih =>
    simp only [List.map_cons, List.sum_cons, ih]
    rw [sum_map_add_nat]

theorem flatMap_swap_of_single {β γ δ} (l : List β) (m : List γ) (f : β → γ → List δ) (h : l.length ≤ 1 ∨ m.length ≤ 1) :
    (l.flatMap fun a => m.flatMap fun b => f a b) = m.flatMap fun b => l.flatMap fun a => f a b := by
  rcases h with h | h
  · match l, h with
    | [], _ => simp
    | [a], _ => simp
  · match m, h with
    | [], _ => simp
    | [b], _ => simp

theorem bufPart_flatMap {α β} (l : List β) (f : β → List α) (c : β → Nat) (hc : ∀ b ∈ l, c b = (f b).length) (r : Nat) (hr : r < l.length) :
    bufPart (l.flatMap f) (l.map c) r = f l[r] := by
  induction l generalizing r with
  | nil => simp at hr
  | cons b l ih =>
    cases r with
    | zero => simp [bufPart, hc b (by simp)]
    | succ r =>
      have := ih (fun b hb => hc b (by simp [hb])) r (by simpa using hr)
      simp only [bufPart, List.flatMap_cons, List.map_cons, List.take_succ_cons, List.sum_cons, List.getD_cons_succ,
        List.getElem_cons_succ] at this ⊢
      rw [hc b (by simp), ← List.drop_drop, List.drop_left]
      exact this

/-! ### Copying out -/

theorem Outs.set_get {α} (o : Outs α) (i : Nat) (w : List ((Nat × Int × Int) × α)) (v : Nat × Int × Int → α)
    (hw : ∀ e ∈ w, e.2 = v e.1) (j : Nat) (p : Nat × Int × Int) :
    o.set i w j p = if j = i ∧ p ∈ w.map Prod.fst then v p else o j p := by
  unfold Outs.set
  induction w generalizing o with
  | nil => simp
  | cons e w ih =>
    rw [List.foldl_cons, ih _ (fun e he => hw e (by simp [he]))]
    simp only [List.map_cons, List.mem_cons]
    have he := hw e (by simp)
    by_cases h1 : j = i
    · by_cases h2 : p ∈ w.map Prod.fst
      · rw [if_pos ⟨h1, h2⟩, if_pos ⟨h1, Or.inr h2⟩]
      · rw [if_neg (fun h => h2 h.2)]
        by_cases h3 : p = e.1
        · rw [if_pos ⟨h1, h3⟩, if_pos ⟨h1, Or.inl h3⟩, he, h3]
        · rw [if_neg (fun h => h3 h.2), if_neg (fun h => h.2.elim h3 h2)]
    · rw [if_neg (fun h => h1 h.1), if_neg (fun h => h1 h.1), if_neg (fun h => h1 h.1)]

/-- The loop, given a buffer with the right data for every job in order. -/
theorem copyOut_spec {α} (npre : Nat) (dflt : α) (v : Nat → Nat × Int × Int → α) :
    ∀ (jobs : List (Nat × Box2 × Nat × Nat)) (o : Outs α),
      (∀ e ∈ jobs, (sboxSel e.2.2.1 e.2.1.y).length = (sboxSize e.2.1.y).toNat ∧
        (sboxSel e.2.2.2 e.2.1.x).length = (sboxSize e.2.1.x).toNat ∧
        boxCount e.2.1 * npre = (boxPos npre e.2.2.1 e.2.2.2 e.2.1).length) →
      ∃ o', copyOut npre dflt jobs (jobs.flatMap fun e => (boxPos npre e.2.2.1 e.2.2.2 e.2.1).map (v e.1)) o = some o' ∧
        (∀ j p, (∃ e ∈ jobs, e.1 = j ∧ p ∈ boxPos npre e.2.2.1 e.2.2.2 e.2.1) → o' j p = v j p) ∧
        (∀ j p, (¬ ∃ e ∈ jobs, e.1 = j ∧ p ∈ boxPos npre e.2.2.1 e.2.2.2 e.2.1) → o' j p = o j p) := by
  intro jobs
  induction jobs with
  | nil =>
    intro o _
    exact ⟨o, by simp [copyOut], by simp, by simp⟩
  | cons e jobs ih =>
    intro o h
    obtain ⟨i, b, ny, nx⟩ := e
    obtain ⟨h1, h2, h3⟩ := h (i, b, ny, nx) (by simp)
    simp only at h1 h2 h3
    have hz : ∀ e ∈ (boxPos npre ny nx b).zip ((boxPos npre ny nx b).map (v i)), e.2 = v i e.1 := by
      rintro ⟨q, w⟩ he
      rw [← List.map_id' (boxPos npre ny nx b), List.map_map] at he
      rw [List.zip_map', List.mem_map] at he
      obtain ⟨a, _, ha⟩ := he
      simp at ha
      rw [← ha.1, ← ha.2]
    have hf : ((boxPos npre ny nx b).zip ((boxPos npre ny nx b).map (v i))).map Prod.fst = boxPos npre ny nx b := by
      rw [List.map_fst_zip (by simp)]
    obtain ⟨o', ho, g1, g2⟩ := ih (o.set i ((boxPos npre ny nx b).zip ((boxPos npre ny nx b).map (v i)))) (fun e he => h e (by simp [he]))
    have hset := fun j p => Outs.set_get o i _ (v i) hz j p
    simp only [hf] at hset
    refine ⟨o', ?_, ?_, ?_⟩
    · simp only [copyOut, List.flatMap_cons, h3]
      rw [List.take_left' (by simp), List.drop_left' (by simp)]
      unfold putBox
      simp only [h1, h2, and_self, if_true]
      exact ho
    · rintro j p ⟨e, he, hj, hp⟩
      by_cases hl : ∃ e ∈ jobs, e.1 = j ∧ p ∈ boxPos npre e.2.2.1 e.2.2.2 e.2.1
      · exact g1 j p hl
      · rw [g2 j p hl]
        rcases List.mem_cons.mp he with rfl | he
        · simp only at hj hp
          rw [hset, ← hj, if_pos ⟨rfl, hp⟩]
        · exact absurd ⟨e, he, hj, hp⟩ hl
    · intro j p hn
      have hl : ¬ ∃ e ∈ jobs, e.1 = j ∧ p ∈ boxPos npre e.2.2.1 e.2.2.2 e.2.1 := fun ⟨e, he, hh⟩ => hn ⟨e, by simp [he], hh⟩
      rw [g2 j p hl, hset, if_neg]
      rintro ⟨rfl, hp⟩
      exact hn ⟨(j, b, ny, nx), by simp, rfl, hp⟩

/-! ### The theorem -/

theorem Box2.fix_idx (b : Box2) (hb : b.Ok) : b.fix.y.idx = b.y.idx ∧ b.fix.x.idx = b.x.idx ∧ b.fix.Ok ∧ b.fix.glob = b.glob :=
  ⟨C12_fix b.y hb.1, C12_fix b.x hb.2, hb, rfl⟩

/-- redistribute for boxes that are already normalised. -/
theorem redistribute_core {α} [Zero α] (tasks : List (RTask α)) (npre r : Nat) (hr : r < tasks.length)
    (g : Nat × Int × Int → α) (hi : ∀ t ∈ tasks, ∀ i ∈ t.ins, i.1.Ok ∧ IsPart g npre i) (ho : ∀ t ∈ tasks, ∀ b ∈ t.outs, b.Ok)
    (hord : ∀ t ∈ tasks, t.ins.length ≤ 1 ∨ (tasks[r]).outs.length ≤ 1) :
    ∃ buf out, alltoallv (0, 0) npre tasks r = some buf ∧
      copyOut npre 0 (recvJobs (0, 0) tasks (tasks.getD r ⟨[], []⟩).outs) buf (fun _ _ => 0) = some out ∧
      ∀ k (hk : k < (tasks[r]).outs.length), ∀ p < npre, ∀ y < ((tasks[r]).outs[k]).y.idx.length,
        ∀ x < ((tasks[r]).outs[k]).x.idx.length,
        ((∃ t ∈ tasks, ∃ i ∈ t.ins, i.1.Covers (((tasks[r]).outs[k]).glob (p, (y : Int), (x : Int)))) →
          out k (p, (y : Int), (x : Int)) = g (((tasks[r]).outs[k]).glob (p, (y : Int), (x : Int)))) ∧
        ((¬ ∃ t ∈ tasks, ∃ i ∈ t.ins, i.1.Covers (((tasks[r]).outs[k]).glob (p, (y : Int), (x : Int)))) →
          out k (p, (y : Int), (x : Int)) = 0) := by
  have hg : tasks.getD r ⟨[], []⟩ = tasks[r] := by simp [List.getD, hr]
  have hmem : tasks[r] ∈ tasks := List.getElem_mem hr
  set outs := (tasks[r]).outs with houts
  have hou := ho _ hmem
  -- the counts agree
  have hcount : ∀ s ∈ tasks, sendCount (0, 0) npre s.ins outs = recvCount (0, 0) npre s.ins outs := by
    intro s hs
    rw [sendCount_eq g npre s.ins outs (hi s hs) hou, recvCount_eq g npre s.ins outs (hi s hs) hou,
      sendTo_eq g npre s.ins outs (hi s hs) hou]
    exact sum_length_swap outs s.ins fun ob i => pairData g npre i.1 ob
  -- the buffer
  have hbuf : alltoallv (0, 0) npre tasks r = some ((tasks.flatMap RTask.ins).flatMap fun i => outs.flatMap fun ob => pairData g npre i.1 ob) := by
    unfold alltoallv
    simp only [hg]
    rw [if_pos hcount, List.flatMap_assoc]
    congr 1
    apply List.flatMap_congr
    intro s hs
    rw [bufPart_flatMap tasks _ _ (fun t ht => sendCount_eq g npre s.ins t.outs (hi s hs) (ho t ht)) r hr,
      sendTo_eq g npre s.ins outs (hi s hs) hou]
    exact flatMap_swap_of_single outs s.ins (fun ob i => pairData g npre i.1 ob) (hord s hs).symm
  -- the values
  set v : Nat → Nat × Int × Int → α := fun k q => g ((outs.getD k ⟨⟨0, 0, 1⟩, ⟨0, 0, 1⟩⟩).glob q) with hv
  have hjobs : ∀ e ∈ recvJobs (0, 0) tasks outs, ∃ t ∈ tasks, ∃ i ∈ t.ins, ∃ ob, outs[e.1]? = some ob ∧ ob ∈ outs ∧
      safeDiv (isect2 (0, 0) i.1 ob) ob = [e.2.1] ∧ e.2.2.1 = ob.y.idx.length ∧ e.2.2.2 = ob.x.idx.length := by
    intro e he
    unfold recvJobs at he
    simp only [List.mem_flatMap, List.mem_map] at he
    obtain ⟨i, ⟨t, ht, hti⟩, ⟨ob, k⟩, hob, d, hd, rfl⟩ := he
    have hk := List.mem_zipIdx_iff_getElem?.mp hob
    simp only at hk hd
    have hobm : ob ∈ outs := List.mem_of_getElem? hk
    obtain ⟨d', hd', _⟩ := safeDiv_eq npre i.1 ob (hi t ht i hti).1 (hou ob hobm)
    rw [hd'] at hd
    simp only [List.mem_singleton] at hd
    refine ⟨t, ht, i, hti, ob, hk, hobm, by simp only; rw [hd', hd], ?_, ?_⟩
    · exact C12_size ob.y (hou ob hobm).1
    · exact C12_size ob.x (hou ob hobm).2
  have hdata : ((tasks.flatMap RTask.ins).flatMap fun i => outs.flatMap fun ob => pairData g npre i.1 ob)
      = (recvJobs (0, 0) tasks outs).flatMap fun e => (boxPos npre e.2.2.1 e.2.2.2 e.2.1).map (v e.1) := by
    unfold recvJobs
    generalize hins : tasks.flatMap RTask.ins = ins
    rw [List.flatMap_assoc]
    apply List.flatMap_congr
    intro i hii
    rw [← hins] at hii
    obtain ⟨t, ht, hti⟩ := List.mem_flatMap.mp hii
    rw [List.flatMap_assoc]
    have : (outs.flatMap fun ob => pairData g npre i.1 ob) = outs.zipIdx.flatMap fun ob => pairData g npre i.1 ob.1 := by
      conv_lhs => rw [show outs = outs.zipIdx.map Prod.fst by simp]
      rw [List.flatMap_map]
    rw [this]
    apply List.flatMap_congr
    rintro ⟨ob, k⟩ hob
    have hk := List.mem_zipIdx_iff_getElem?.mp hob
    simp only at hk
    have hobm : ob ∈ outs := List.mem_of_getElem? hk
    obtain ⟨d, hd, hpos, _⟩ := safeDiv_eq npre i.1 ob (hi t ht i hti).1 (hou ob hobm)
    simp only [hd, List.map_cons, List.map_nil, List.flatMap_cons, List.flatMap_nil, List.append_nil]
    have e1 : (sboxSize ob.y).toNat = ob.y.idx.length := C12_size ob.y (hou ob hobm).1
    have e2 : (sboxSize ob.x).toNat = ob.x.idx.length := C12_size ob.x (hou ob hobm).2
    rw [e1, e2, hpos, ← pairPos_glob g npre i.1 ob (hi t ht i hti).1 (hou ob hobm)]
    have : outs.getD k ⟨⟨0, 0, 1⟩, ⟨0, 0, 1⟩⟩ = ob := by simp [List.getD, hk]
    simp only [hv, this]
  obtain ⟨out, hout, c1, c2⟩ := copyOut_spec npre (0 : α) v (recvJobs (0, 0) tasks outs) (fun _ _ => 0) (by
    intro e he
    obtain ⟨t, ht, i, hti, ob, _, hobm, hd, e1, e2⟩ := hjobs e he
    obtain ⟨d, hd', hpos, hc, l1, l2⟩ := safeDiv_eq npre i.1 ob (hi t ht i hti).1 (hou ob hobm)
    rw [hd] at hd'
    have : e.2.1 = d := by simpa using hd'
    rw [this, e1, e2, hpos]
    exact ⟨l1, l2, hc⟩)
  refine ⟨_, out, hbuf, by rw [hg, hdata]; exact hout, ?_⟩
  intro k hk p hp y hy x hx
  have hgk : outs.getD k ⟨⟨0, 0, 1⟩, ⟨0, 0, 1⟩⟩ = outs[k] := by simp [List.getD, hk]
  have hobm : outs[k] ∈ outs := List.getElem_mem hk
  have hiff : (∃ e ∈ recvJobs (0, 0) tasks outs, e.1 = k ∧ (p, (y : Int), (x : Int)) ∈ boxPos npre e.2.2.1 e.2.2.2 e.2.1) ↔
      ∃ t ∈ tasks, ∃ i ∈ t.ins, i.1.Covers ((outs[k]).glob (p, (y : Int), (x : Int))) := by
    constructor
    · rintro ⟨e, he, rfl, hpos⟩
      obtain ⟨t, ht, i, hti, ob, hk', hobm', hd, e1, e2⟩ := hjobs e he
      obtain ⟨d, hd', hpos', _⟩ := safeDiv_eq npre i.1 ob (hi t ht i hti).1 (hou ob hobm')
      rw [hd] at hd'
      have : e.2.1 = d := by simpa using hd'
      rw [this, e1, e2, hpos', mem_pairPos npre] at hpos
      have hobk : ob = outs[e.1] := by
        rw [List.getElem?_eq_getElem hk] at hk'
        exact (Option.some.inj hk').symm
      refine ⟨t, ht, i, hti, ?_⟩
      rw [← hobk]
      exact ⟨((mem_pairLoc _ _ (hi t ht i hti).1.1 (hou ob hobm').1 _).1 hpos.2.1).2,
        ((mem_pairLoc _ _ (hi t ht i hti).1.2 (hou ob hobm').2 _).1 hpos.2.2).2⟩
    · rintro ⟨t, ht, i, hti, hcy, hcx⟩
      obtain ⟨d, hd, hpos, _⟩ := safeDiv_eq npre i.1 outs[k] (hi t ht i hti).1 (hou _ hobm)
      refine ⟨(k, d, (sboxSize (outs[k]).y).toNat, (sboxSize (outs[k]).x).toNat), ?_, rfl, ?_⟩
      · unfold recvJobs
        rw [List.mem_flatMap]
        refine ⟨i, List.mem_flatMap.mpr ⟨t, ht, hti⟩, ?_⟩
        rw [List.mem_flatMap]
        refine ⟨(outs[k], k), List.mem_zipIdx_iff_getElem?.mpr (by simp [hk]), ?_⟩
        simp only [hd]
        simp
      · simp only
        have e1 : (sboxSize (outs[k]).y).toNat = (outs[k]).y.idx.length := C12_size _ (hou _ hobm).1
        have e2 : (sboxSize (outs[k]).x).toNat = (outs[k]).x.idx.length := C12_size _ (hou _ hobm).2
        rw [e1, e2, hpos, mem_pairPos npre]
        refine ⟨hp, ?_, ?_⟩
        · exact (mem_pairLoc _ _ (hi t ht i hti).1.1 (hou _ hobm).1 _).2 ⟨⟨y, rfl, hy⟩, hcy⟩
        · exact (mem_pairLoc _ _ (hi t ht i hti).1.2 (hou _ hobm).2 _).2 ⟨⟨x, rfl, hx⟩, hcx⟩
  constructor
  · intro h
    rw [c1 k _ (hiff.mpr h)]
    simp only [hv, hgk]
  · intro h
    rw [c2 k _ (fun hh => h (hiff.mp hh))]

/-- **C104_redistribute_partial.** Given arrays that are parts of one global array, redistribute (without wrapping) ends
without an error on every task, and every output array holds the global array's value at each position covered by some
input box of some task, and zero elsewhere — for all numbers of tasks, boxes with any strides and directions, overlapping
or not. Missing: the case where a task with several input boxes exchanges with a task with several output boxes, and
wrapping, for which it is false (`C104_redistribute_refuted`, `C104_wrap_refuted`). -/
theorem C104_redistribute_partial {α} [Zero α] (tasks : List (RTask α)) (npre r : Nat) (hr : r < tasks.length)
    (g : Nat × Int × Int → α) (hi : ∀ t ∈ tasks, ∀ i ∈ t.ins, i.1.Ok ∧ IsPart g npre i) (ho : ∀ t ∈ tasks, ∀ b ∈ t.outs, b.Ok)
    (hord : ∀ t ∈ tasks, t.ins.length ≤ 1 ∨ (tasks[r]).outs.length ≤ 1) :
    ∃ out, redistributeBoxes tasks npre (0, 0) r = some out ∧
      ∀ k (hk : k < (tasks[r]).outs.length), ∀ p < npre, ∀ y < ((tasks[r]).outs[k]).y.idx.length,
        ∀ x < ((tasks[r]).outs[k]).x.idx.length,
        ((∃ t ∈ tasks, ∃ i ∈ t.ins, i.1.Covers (((tasks[r]).outs[k]).glob (p, (y : Int), (x : Int)))) →
          out k (p, (y : Int), (x : Int)) = g (((tasks[r]).outs[k]).glob (p, (y : Int), (x : Int)))) ∧
        ((¬ ∃ t ∈ tasks, ∃ i ∈ t.ins, i.1.Covers (((tasks[r]).outs[k]).glob (p, (y : Int), (x : Int)))) →
          out k (p, (y : Int), (x : Int)) = 0) := by
  have hr' : r < (tasks.map RTask.fix).length := by simpa using hr
  obtain ⟨buf, out, h1, h2, h3⟩ := redistribute_core (tasks.map RTask.fix) npre r hr' g
    (by
      intro t ht i hii
      obtain ⟨t', ht', rfl⟩ := List.mem_map.mp ht
      obtain ⟨i', hi', rfl⟩ := List.mem_map.mp hii
      obtain ⟨a, b⟩ := hi t' ht' i' hi'
      obtain ⟨f1, f2, f3, f4⟩ := Box2.fix_idx i'.1 a
      refine ⟨f3, ?_⟩
      unfold IsPart at b ⊢
      simp only [f1, f2, f4]
      exact b)
    (by
      intro t ht b hb
      obtain ⟨t', ht', rfl⟩ := List.mem_map.mp ht
      obtain ⟨b', hb', rfl⟩ := List.mem_map.mp hb
      exact (Box2.fix_idx b' (ho t' ht' b' hb')).2.2.1)
    (by
      intro t ht
      obtain ⟨t', ht', rfl⟩ := List.mem_map.mp ht
      have := hord t' ht'
      simp only [RTask.fix, List.length_map, List.getElem_map]
      exact this)
  refine ⟨out, ?_, ?_⟩
  · unfold redistributeBoxes
    simp only [h1]
    exact h2
  · have hcov : ∀ q, (∃ t ∈ tasks.map RTask.fix, ∃ i ∈ t.ins, i.1.Covers q) ↔ ∃ t ∈ tasks, ∃ i ∈ t.ins, i.1.Covers q := by
      intro q
      constructor
      · rintro ⟨t, ht, i, hii, hc⟩
        obtain ⟨t', ht', rfl⟩ := List.mem_map.mp ht
        obtain ⟨i', hi', rfl⟩ := List.mem_map.mp hii
        obtain ⟨f1, f2, _⟩ := Box2.fix_idx i'.1 (hi t' ht' i' hi').1
        refine ⟨t', ht', i', hi', ?_⟩
        unfold Box2.Covers at hc ⊢
        simp only [f1, f2] at hc
        exact hc
      · rintro ⟨t, ht, i, hii, hc⟩
        obtain ⟨f1, f2, _⟩ := Box2.fix_idx i.1 (hi t ht i hii).1
        refine ⟨t.fix, List.mem_map.mpr ⟨t, ht, rfl⟩, (i.1.fix, i.2), List.mem_map.mpr ⟨i, hii, rfl⟩, ?_⟩
        unfold Box2.Covers at hc ⊢
        simp only [f1, f2]
        exact hc
    intro k hk p hp y hy x hx
    have hk' : k < ((tasks.map RTask.fix)[r]).outs.length := by simpa [RTask.fix] using hk
    have e : ((tasks.map RTask.fix)[r]).outs[k] = ((tasks[r]).outs[k]).fix := by simp [RTask.fix]
    obtain ⟨f1, f2, _, f4⟩ := Box2.fix_idx ((tasks[r]).outs[k]) (ho _ (List.getElem_mem hr) _ (List.getElem_mem hk))
    have := h3 k hk' p hp y (by rw [e, f1]; exact hy) x (by rw [e, f2]; exact hx)
    rw [e, f4] at this
    rw [hcov] at this
    exact this

/-- Two column slices turned into two row slices on one task. -/
def redisExample : List (RTask Int) :=
  [⟨[(⟨⟨0, 2, 1⟩, ⟨0, 1, 1⟩⟩, ⟨2, 1, fun q => 10 * q.2.1 + q.2.2⟩), (⟨⟨0, 2, 1⟩, ⟨1, 2, 1⟩⟩, ⟨2, 1, fun q => 10 * q.2.1 + q.2.2 + 1⟩)],
    [⟨⟨0, 1, 1⟩, ⟨0, 2, 1⟩⟩, ⟨⟨1, 2, 1⟩, ⟨0, 2, 1⟩⟩]⟩]

/-- **C104_redistribute_refuted.** With several input and several output boxes the sender and the receiver go through the
pairs of boxes in different orders, and values end up in wrong places: turning the columns of [[0,1],[10,11]] into rows
gives [0,10] and [1,11]. -/
theorem C104_redistribute_refuted :
    (∀ t ∈ redisExample, ∀ i ∈ t.ins, i.1.Ok ∧ IsPart (fun q => 10 * q.2.1 + q.2.2) 1 i) ∧
    ∃ out, redistributeBoxes redisExample 1 (0, 0) 0 = some out ∧ out 0 (0, 0, 0) = 0 ∧ out 0 (0, 0, 1) = 10 ∧
      out 1 (0, 0, 0) = 1 ∧ out 1 (0, 0, 1) = 11 := by
  constructor
  · intro t ht i hi
    simp only [redisExample, List.mem_singleton] at ht
    subst ht
    simp only [List.mem_cons, List.not_mem_nil, or_false] at hi
    rcases hi with rfl | rfl
    · refine ⟨⟨by decide, by decide⟩, by decide, by decide, ?_⟩
      intro p _ j _ k _
      simp [Box2.glob]
    · refine ⟨⟨by decide, by decide⟩, by decide, by decide, ?_⟩
      intro p _ j _ k _
      simp [Box2.glob]
      ring
  · cases h : redistributeBoxes redisExample 1 (0, 0) 0 with
    | none =>
      have : (redistributeBoxes redisExample 1 (0, 0) 0).isSome = true := by decide +kernel
      rw [h] at this
      cases this
    | some out =>
      have : (redistributeBoxes redisExample 1 (0, 0) 0).map (fun o => (o 0 (0, 0, 0), o 0 (0, 0, 1), o 1 (0, 0, 0), o 1 (0, 0, 1)))
        = some (0, 10, 1, 11) := by decide +kernel
      rw [h] at this
      simp only [Option.map_some, Option.some.injEq, Prod.mk.injEq] at this
      exact ⟨out, rfl, this.1, this.2.1, this.2.2.1, this.2.2.2⟩

/-- **C104_wrap_refuted.** With wrapping, asking for the columns 2:6 of a sky of four columns raises an exception: the
wrapped intersection is divided by the output box without taking the wrapping into account. -/
theorem C104_wrap_refuted :
    redistributeBoxes [⟨[(⟨⟨0, 1, 1⟩, ⟨0, 4, 1⟩⟩, ⟨1, 4, fun q => q.2.2⟩)], [⟨⟨0, 1, 1⟩, ⟨2, 6, 1⟩⟩]⟩] 1 (0, 4) 0
      |>.isNone := by decide +kernel

/-- Non-vacuity: two tasks exchange halves, one reads backwards with a stride. -/
example : ((redistributeBoxes [⟨[(⟨⟨0, 1, 1⟩, ⟨0, 3, 1⟩⟩, ⟨1, 3, fun q => q.2.2 + 1⟩)], [⟨⟨0, 1, 1⟩, ⟨5, -1, -2⟩⟩]⟩,
    ⟨[(⟨⟨0, 1, 1⟩, ⟨3, 6, 1⟩⟩, ⟨1, 3, fun q => q.2.2 + 4⟩)], [⟨⟨0, 1, 1⟩, ⟨2, 8, 1⟩⟩]⟩] 1 (0, 0) 1).map
      fun o => (List.range 6).map fun k => o 0 (0, 0, (k : Int))) = some [3, 4, 5, 6, (0 : Int), 0] := by decide +kernel

end Pixell
