import Verif.Lemmas.SBox
/-
The pieces produced by sbox_wrap for unit steps.
-/
namespace Pixell
open PySpec

theorem rangeLen_one (a b : Int) : rangeLen a b 1 = (b - a).toNat := by
  unfold rangeLen
  simp

theorem rangeLen_neg_one (a b : Int) : rangeLen a b (-1) = (a - b).toNat := by
  rw [rangeLen_neg_step]; simp [rangeLen_one]; omega

theorem range_one_split (a b c : Int) (h1 : a ≤ b) (h2 : b ≤ c) : range a c 1 = range a b 1 ++ range b c 1 := by
  apply List.ext_getElem
  · simp [length_range, rangeLen_one]; omega
  · intro i h h'
    rw [getElem_range]
    by_cases hc : i < (range a b 1).length
    · rw [List.getElem_append_left hc, getElem_range]
    · rw [List.getElem_append_right (by omega), getElem_range]
      rw [length_range, rangeLen_one] at hc ⊢
      omega

theorem mem_range_one (a b x : Int) : x ∈ range a b 1 ↔ a ≤ x ∧ x < b := by
  rw [mem_range]
  constructor
  · rintro ⟨k, rfl, h⟩; omega
  · rintro ⟨h1, h2⟩; exact ⟨(x - a).toNat, by omega, by omega⟩

theorem sboxSize_one (a b : Int) : sboxSize ⟨a, b, 1⟩ = b - a := by
  simp [sboxSize, Int.fdiv_one]

theorem sboxSize_neg_one (a b : Int) : sboxSize ⟨a, b, -1⟩ = a - b := by
  simp [sboxSize, Int.fdiv_one]; omega

theorem sboxFix_one (a b : Int) : sboxFix ⟨a, b, 1⟩ = ⟨a, b, 1⟩ := by
  simp [sboxFix, sboxSize_one]

theorem sboxFix_neg_one (a b : Int) : sboxFix ⟨a, b, -1⟩ = ⟨a, b, -1⟩ := by
  simp [sboxFix, sboxSize_neg_one]

/-- Output position belonging to the `j`-th input index in ascending order. -/
def outPos (flip : Bool) (N j : Int) : Int := if flip then N - 1 - j else j

/-- What one piece pairs up. -/
def pairsOf (p : SBox × SBox) : List (Int × Int) := p.1.idx.zip p.2.idx

theorem pairsOf_piece (flip : Bool) (N a i n : Int) :
    pairsOf (⟨a + i, a + i + n, 1⟩, outBox flip N i n)
      = (range i (i + n) 1).map (fun j => (a + j, outPos flip N j)) ∧
    (SBox.mk (a + i) (a + i + n) 1).idx.length = (outBox flip N i n).idx.length := by
  have hl : ((SBox.mk (a + i) (a + i + n) 1).idx).length = n.toNat := by
    simp [SBox.idx, length_range, rangeLen_one]
  have hr : (outBox flip N i n).idx.length = n.toNat := by
    cases flip
    · simp [SBox.idx, outBox, length_range, rangeLen_one]
    · simp [SBox.idx, outBox, length_range, rangeLen_neg_one]
  refine ⟨?_, by rw [hl, hr]⟩
  apply List.ext_getElem
  · simp only [pairsOf, List.length_zip, hl, hr, List.length_map, length_range, rangeLen_one]
    omega
  · intro k h1 h2
    simp only [pairsOf, List.getElem_zip, List.getElem_map]
    cases flip
    · simp only [SBox.idx, outBox, getElem_range, outPos]
      simp only [Bool.not_false, if_true, Bool.false_eq_true, if_false]
      rw [add_assoc]
    · simp only [SBox.idx, outBox, getElem_range, outPos]
      simp only [Bool.not_true, if_true, Bool.false_eq_true, if_false]
      rw [add_assoc, Prod.mk.injEq]
      exact ⟨rfl, by ring⟩

/-- The pairs for the ascending indices `i ≤ j < N`, with input position `(ib0+j) mod w`. -/
def wrapSpecFrom (w c : Int) (flip : Bool) (N ib0 i : Int) : List (Int × Int) :=
  (range i N 1).filterMap fun (j : Int) =>
    if c = 0 ∨ (ib0 + j) % w < c then some ((ib0 + j) % w, outPos flip N j) else none

theorem wrapSpecFrom_shift (w c : Int) (flip : Bool) (N ib0 i : Int) :
    wrapSpecFrom w c flip N (ib0 - w) i = wrapSpecFrom w c flip N ib0 i := by
  unfold wrapSpecFrom
  have : ∀ j : Int, (ib0 - w + j) % w = (ib0 + j) % w := by
    intro j
    rw [show ib0 - w + j = ib0 + j - w by ring, Int.sub_emod_right]
  simp only [this]

/-- One turn of the loop. -/
theorem wrapSpec_step (w c : Int) (flip : Bool) (N ib0 i m : Int) (hi : 0 ≤ ib0 + i) (hm : ib0 + m ≤ w) (him : i ≤ m) (hmN : m ≤ N) :
    wrapSpecFrom w c flip N ib0 i
      = (range i (if c = 0 then m else min m (c - ib0)) 1).map (fun j => (ib0 + j, outPos flip N j))
        ++ wrapSpecFrom w c flip N ib0 m := by
  unfold wrapSpecFrom
  rw [range_one_split i m N him hmN, List.filterMap_append]
  congr 1
  have hmod : ∀ j ∈ range i m 1, (ib0 + j) % w = ib0 + j := by
    intro j hj
    rw [mem_range_one] at hj
    exact Int.emod_eq_of_lt (by omega) (by omega)
  by_cases hc : c = 0
  · simp only [hc, if_true, true_or]
    rw [← List.filterMap_eq_map]
    apply List.filterMap_congr
    intro j hj
    simp [hmod j hj]
  · simp only [hc, if_false, false_or]
    by_cases hcut : i ≤ min m (c - ib0)
    · rw [range_one_split i (min m (c - ib0)) m hcut (min_le_left _ _), List.filterMap_append]
      have h2 : (range (min m (c - ib0)) m 1).filterMap (fun (j : Int) =>
          if (ib0 + j) % w < c then some ((ib0 + j) % w, outPos flip N j) else none) = [] := by
        rw [List.filterMap_eq_nil_iff]
        intro j hj
        rw [mem_range_one] at hj
        rw [hmod j (by rw [mem_range_one]; omega), if_neg (by omega)]
      rw [h2, List.append_nil, ← List.filterMap_eq_map]
      apply List.filterMap_congr
      intro j hj
      rw [mem_range_one] at hj
      rw [hmod j (by rw [mem_range_one]; omega), if_pos (by omega)]
      rfl
    · have e : range i (min m (c - ib0)) 1 = [] := by
        apply List.eq_nil_of_length_eq_zero
        rw [length_range, rangeLen_one]; omega
      rw [e, List.map_nil, List.filterMap_eq_nil_iff]
      intro j hj
      have hj' := (mem_range_one _ _ _).1 hj
      rw [hmod j hj, if_neg (by omega)]

/-- Well-formed pieces: both sides have the same positive number of elements and stay in range. -/
def GoodPiece (c N : Int) (p : SBox × SBox) : Prop :=
  p.1.step ≠ 0 ∧ p.2.step ≠ 0 ∧ p.1.idx.length = p.2.idx.length ∧ p.1.idx ≠ [] ∧
  (∀ x ∈ p.1.idx, 0 ≤ x ∧ (c ≠ 0 → x < c)) ∧ ∀ k ∈ p.2.idx, 0 ≤ k ∧ k < N

theorem goodPiece_of (flip : Bool) (c N a i n : Int) (hn : 0 < n) (ha : 0 ≤ a + i) (hi : 0 ≤ i)
    (hN : i + n ≤ N) (hc : c ≠ 0 → a + i + n ≤ c) :
    GoodPiece c N (⟨a + i, a + i + n, 1⟩, outBox flip N i n) := by
  refine ⟨by simp, by cases flip <;> simp [outBox], (pairsOf_piece flip N a i n).2, ?_, ?_, ?_⟩
  · intro h
    have := congrArg List.length h
    simp [SBox.idx, length_range, rangeLen_one] at this
    omega
  · intro x hx
    simp only [SBox.idx] at hx
    rw [mem_range_one] at hx
    refine ⟨by omega, fun h => ?_⟩
    have := hc h
    omega
  · intro k hk
    cases flip
    · simp only [outBox, SBox.idx, Bool.not_false, if_true, mem_range_one] at hk
      omega
    · simp only [outBox, SBox.idx, Bool.not_true, Bool.false_eq_true, if_false, mem_range] at hk
      obtain ⟨t, h1, h2⟩ := hk
      omega

theorem wrapLoop_spec (w : Nat) (c : Int) (flip : Bool) (N : Int) (hw : 0 < w) (hc0 : 0 ≤ c)
    (hcw : c ≤ w) (ib0 ib1 i : Int) (hN : ib1 = ib0 + N) (hib : ib0 < w) (hi : i = max (-ib0) 0) :
    (wrapLoop w c flip N 1 ib0 ib1 i).flatMap pairsOf = wrapSpecFrom w c flip N ib0 i ∧
    ∀ p ∈ wrapLoop w c flip N 1 ib0 ib1 i, GoodPiece c N p := by
  induction h : ib1.toNat using Nat.strongRecOn generalizing ib0 ib1 i with
  | ind n ih =>
    rw [wrapLoop]
    by_cases hb : 0 < ib1
    · have hcond : 0 < ib1 ∧ 0 < w := ⟨hb, hw⟩
      rw [dif_pos hcond]
      simp only [Int.fdiv_one, Int.mul_one, sboxFix_one, sboxSize_one, ← hi]
      by_cases hpos : i < N
      · -- the number of elements in this turn
        have hend : (wrapLoop w c flip N 1 (ib0 - w) (ib1 - w) (i + (min ib1 w - (ib0 + i)))).flatMap pairsOf
              = wrapSpecFrom w c flip N ib0 (min N (w - ib0)) ∧
            ∀ p ∈ wrapLoop w c flip N 1 (ib0 - w) (ib1 - w) (i + (min ib1 w - (ib0 + i))), GoodPiece c N p := by
          by_cases hlast : ib1 ≤ w
          · rw [wrapLoop, dif_neg (by omega)]
            refine ⟨?_, by simp⟩
            rw [show min N (w - ib0) = N by omega]
            unfold wrapSpecFrom
            have : range N N 1 = [] := by
              apply List.eq_nil_of_length_eq_zero
              rw [length_range, rangeLen_one]; omega
            rw [this]; rfl
          · have e : i + (min ib1 w - (ib0 + i)) = max (-(ib0 - w)) 0 := by omega
            have := ih (ib1 - w).toNat (by omega) (ib0 - w) (ib1 - w) (i + (min ib1 w - (ib0 + i)))
              (by omega) (by omega) e rfl
            rw [wrapSpecFrom_shift] at this
            rw [show min N (w - ib0) = i + (min ib1 w - (ib0 + i)) by omega]
            exact this
        have hstep := wrapSpec_step w c flip N ib0 i (min N (w - ib0)) (by omega)
          (by omega) (by omega) (by omega)
        rw [List.flatMap_append, hend.1, hstep]
        by_cases hc : c = 0
        · simp only [hc, ne_eq, not_true_eq_false, if_false, if_true]
          rw [if_pos (by omega)]
          have e : min ib1 (w:Int) = ib0 + i + (min N (w - ib0) - i) := by omega
          have e2 : min ib1 (w:Int) - (ib0 + i) = min N (w - ib0) - i := by omega
          rw [e2, e]
          have hp := pairsOf_piece flip N ib0 i (min N (w - ib0) - i)
          rw [show i + (min N (w - ib0) - i) = min N (w - ib0) by ring] at hp
          refine ⟨by simp only [List.flatMap_cons, List.flatMap_nil, List.append_nil]; rw [hp.1], ?_⟩
          intro p hp
          rw [List.mem_append] at hp
          rcases hp with hp | hp
          · rw [List.mem_singleton] at hp
            subst hp
            exact goodPiece_of flip 0 N ib0 i _ (by omega) (by omega) (by omega) (by omega) (by simp)
          · rw [hc, e2] at hend; exact hend.2 p hp
        · simp only [ne_eq, hc, not_false_eq_true, if_true, if_false, sboxSize_one]
          by_cases hcap : 0 < min ib1 c - (ib0 + i)
          · rw [if_pos hcap]
            have e : min ib1 c = ib0 + i + (min (min N (w - ib0)) (c - ib0) - i) := by omega
            have e2 : min ib1 c - (ib0 + i) = min (min N (w - ib0)) (c - ib0) - i := by omega
            rw [e2, e]
            have hp := pairsOf_piece flip N ib0 i (min (min N (w - ib0)) (c - ib0) - i)
            rw [show i + (min (min N (w - ib0)) (c - ib0) - i) = min (min N (w - ib0)) (c - ib0) by ring] at hp
            refine ⟨by simp only [List.flatMap_cons, List.flatMap_nil, List.append_nil]; rw [hp.1], ?_⟩
            intro p hp
            rw [List.mem_append] at hp
            rcases hp with hp | hp
            · rw [List.mem_singleton] at hp
              subst hp
              exact goodPiece_of flip c N ib0 i _ (by omega) (by omega) (by omega) (by omega) (by omega)
            · exact hend.2 p hp
          · rw [if_neg hcap]
            have e : range i (min (min N (w - ib0)) (c - ib0)) 1 = [] := by
              apply List.eq_nil_of_length_eq_zero
              rw [length_range, rangeLen_one]; omega
            rw [e]
            simp only [List.map_nil, List.nil_append, List.flatMap_nil]
            exact ⟨trivial, hend.2⟩
      · have e1 : (if c ≠ 0 then min ib1 c - (ib0 + i) else min ib1 (w:Int) - (ib0 + i)) ≤ 0 := by
          split <;> omega
        rw [wrapLoop, dif_neg (by omega)]
        have e3 : wrapSpecFrom w c flip N ib0 i = [] := by
          unfold wrapSpecFrom
          have : range i N 1 = [] := by
            apply List.eq_nil_of_length_eq_zero
            rw [length_range, rangeLen_one]; omega
          rw [this]; rfl
        rw [e3]
        split_ifs at e1 ⊢ with g1 g2 g2 <;> first | (simp; done) | skip
        · rw [sboxSize_one] at g2; omega
        · omega
    · rw [dif_neg (by omega)]
      refine ⟨?_, by simp⟩
      unfold wrapSpecFrom
      have : range i N 1 = [] := by
        apply List.eq_nil_of_length_eq_zero
        rw [length_range, rangeLen_one]; omega
      rw [this]; rfl

/-- The wrapped position of index `x` (no wrapping for `w = 0`). -/
def wrapPos (w : Nat) (x : Int) : Int := if w = 0 then x else x % w

theorem mem_wrapSpecFrom (w c : Int) (flip : Bool) (N ib0 x k : Int) (hw : 0 < w) :
    (x, k) ∈ wrapSpecFrom w c flip N ib0 0 ↔
      0 ≤ k ∧ k < N ∧ x = (ib0 + outPos flip N k) % w ∧ (c = 0 ∨ (0 ≤ x ∧ x < c)) := by
  unfold wrapSpecFrom
  rw [List.mem_filterMap]
  constructor
  · rintro ⟨j, hj, h⟩
    rw [mem_range_one] at hj
    split at h
    · rename_i hc
      simp only [Option.some.injEq, Prod.mk.injEq] at h
      obtain ⟨rfl, rfl⟩ := h
      have hnn := Int.emod_nonneg (ib0 + j) (show w ≠ 0 by omega)
      cases flip
      · simp only [outPos, Bool.false_eq_true, if_false]
        exact ⟨hj.1, hj.2, trivial, by omega⟩
      · simp only [outPos, if_true]
        refine ⟨by omega, by omega, ?_, by omega⟩
        congr 1; ring
    · simp at h
  · rintro ⟨h1, h2, h3, h4⟩
    refine ⟨outPos flip N k, ?_, ?_⟩
    · rw [mem_range_one]; cases flip <;> simp [outPos] <;> omega
    · rw [← h3, if_pos (by omega)]
      cases flip <;> simp [outPos]

theorem nodup_range_one (a b : Int) : (range a b 1).Nodup := by
  unfold range
  apply List.Nodup.map
  · intro x y h; simp at h; exact h
  · exact List.nodup_range

theorem wrapSpecFrom_nodup (w c : Int) (flip : Bool) (N ib0 i : Int) :
    ((wrapSpecFrom w c flip N ib0 i).map Prod.snd).Nodup := by
  unfold wrapSpecFrom
  rw [List.map_filterMap]
  apply List.Nodup.filterMap _ (nodup_range_one i N)
  intro x y z hx hy
  simp only [Option.mem_def, Option.map_eq_some_iff] at hx hy
  obtain ⟨p, hp, rfl⟩ := hx
  obtain ⟨q, hq, hqp⟩ := hy
  split at hp <;> split at hq <;> simp at hp hq
  subst hp; subst hq
  cases flip <;> simp [outPos] at hqp <;> omega

/-- Everything about `sbox_wrap` on one axis for a unit step. -/
theorem wrapAxis_spec (b : SBox) (hs : b.step = 1 ∨ b.step = -1) (w : Nat) (c : Int) (hc0 : 0 ≤ c)
    (hcw : w ≠ 0 → c ≤ w) :
    (∀ x k, (x, k) ∈ (sboxWrapAxis b w c).flatMap pairsOf ↔
      0 ≤ k ∧ k < sboxSize b ∧ x = wrapPos w (b.start + k * b.step) ∧ (c = 0 ∨ (0 ≤ x ∧ x < c))) ∧
    (((sboxWrapAxis b w c).flatMap pairsOf).map Prod.snd).Nodup ∧
    ((w ≠ 0 ∨ c ≠ 0) → ∀ p ∈ sboxWrapAxis b w c, GoodPiece c (sboxSize b) p) := by
  obtain ⟨s, e, st⟩ := b
  simp only at hs
  -- the ascending box, and the size
  obtain ⟨flip, a, N, hfl, hN, hasc, hsz, hpos⟩ : ∃ flip a N, flip = decide (st < 0) ∧
      N = sboxSize ⟨s, e, st⟩ ∧ (if flip then sboxFlip (sboxFix ⟨s, e, st⟩) else sboxFix ⟨s, e, st⟩) = ⟨a, a + N, 1⟩ ∧
      sboxSize (sboxFix ⟨s, e, st⟩) = N ∧ ∀ k, a + outPos flip N k = s + k * st := by
    rcases hs with rfl | rfl
    · exact ⟨false, s, e - s, by simp, by rw [sboxSize_one], by simp [sboxFix_one],
        by rw [sboxFix_one, sboxSize_one], by intro k; simp [outPos]⟩
    · exact ⟨true, e + 1, s - e, by simp, by rw [sboxSize_neg_one],
        by simp [sboxFix_neg_one, sboxFlip]; omega, by rw [sboxFix_neg_one, sboxSize_neg_one],
        by intro k; simp [outPos]; ring⟩
  have hdef : sboxWrapAxis ⟨s, e, st⟩ w c =
      if w ≠ 0 then wrapLoop w c flip N 1 (a - Int.fdiv a w * w) (a + N - Int.fdiv a w * w) 0
      else
        let npre := if c ≠ 0 then max (-a) 0 else 0
        let npost := if c ≠ 0 then max (a + N - c) 0 else 0
        if npre + npost < N then
          [(⟨a + npre, a + N - npost, 1⟩,
            if !flip then ⟨npre, N - npost, 1⟩ else ⟨N - 1 - npre, npost - 1, -1⟩)]
        else [] := by
    unfold sboxWrapAxis
    simp only [hsz]
    rw [show decide ((sboxFix ⟨s, e, st⟩).step < 0) = flip from by rw [hfl]; rfl, hasc]
    simp only [Int.fdiv_one, Int.mul_one]
    rw [show a + N - 1 - (c - 1) = a + N - c by ring]
  rw [hdef, ← hN]
  simp only
  by_cases hw : w = 0
  · subst hw
    simp only [ne_eq, not_true_eq_false, if_false, false_or]
    obtain ⟨npre, hpre⟩ : ∃ z, z = (if c ≠ 0 then max (-a) 0 else 0) := ⟨_, rfl⟩
    obtain ⟨npost, hpost⟩ : ∃ z, z = (if c ≠ 0 then max (a + N - c) 0 else 0) := ⟨_, rfl⟩
    simp only [ne_eq] at hpre hpost
    rw [← hpre, ← hpost]
    by_cases hlt : npre + npost < N
    · rw [if_pos hlt]
      have hbox : (if !flip then (⟨npre, N - npost, 1⟩ : SBox) else ⟨N - 1 - npre, npost - 1, -1⟩)
          = outBox flip N npre (N - npost - npre) := by
        cases flip
        · simp [outBox]
        · simp [outBox]
      rw [hbox, show a + N - npost = a + npre + (N - npost - npre) by ring]
      have hp := pairsOf_piece flip N a npre (N - npost - npre)
      simp only [List.flatMap_cons, List.flatMap_nil, List.append_nil]
      rw [hp.1, show npre + (N - npost - npre) = N - npost by ring]
      refine ⟨?_, ?_, ?_⟩
      · intro x k
        rw [List.mem_map, ← hpos k]
        simp only [wrapPos, if_true]
        constructor
        · rintro ⟨j, hj, h⟩
          rw [mem_range_one] at hj
          simp only [Prod.mk.injEq] at h
          obtain ⟨rfl, rfl⟩ := h
          split_ifs at hpre hpost <;> cases flip <;> simp [outPos] <;> omega
        · rintro ⟨h1, h2, h3, h4⟩
          refine ⟨outPos flip N k, ?_, ?_⟩
          · rw [mem_range_one]
            split_ifs at hpre hpost <;> cases flip <;> simp [outPos] at h3 ⊢ <;> omega
          · rw [← h3]; cases flip <;> simp [outPos]
      · rw [List.map_map]
        apply List.Nodup.map _ (nodup_range_one _ _)
        intro x y h
        cases flip <;> simp [outPos] at h <;> omega
      · intro hc p hp
        rw [List.mem_singleton] at hp
        subst hp
        rw [if_pos hc] at hpre hpost
        exact goodPiece_of flip c N a npre _ (by omega) (by omega) (by omega) (by omega) (by omega)
    · rw [if_neg hlt]
      refine ⟨?_, by simp, by simp⟩
      intro x k
      rw [← hpos k]
      simp only [List.flatMap_nil, List.not_mem_nil, false_iff, wrapPos, if_true]
      rintro ⟨h1, h2, h3, h4⟩
      split_ifs at hpre hpost <;> cases flip <;> simp [outPos] at h3 <;> omega
  · rw [if_pos hw]
    have hw' : (0:Int) < w := by omega
    have hk := Int.mul_fdiv_add_fmod a w
    have hk0 : 0 ≤ a.fmod w := Int.fmod_nonneg_of_pos a hw'
    have hk1 : a.fmod w < w := Int.fmod_lt_of_pos a hw'
    have hmul : (w:Int) * a.fdiv w = a.fdiv w * w := by ring
    have hib : a - a.fdiv w * w = a.fmod w := by omega
    have := wrapLoop_spec w c flip N (by omega) hc0 (hcw hw) (a - a.fdiv w * w) (a + N - a.fdiv w * w) 0
      (by ring) (by omega) (by omega)
    rw [this.1]
    refine ⟨?_, wrapSpecFrom_nodup _ _ _ _ _ _, fun _ => this.2⟩
    intro x k
    rw [mem_wrapSpecFrom _ _ _ _ _ _ _ hw', ← hpos k]
    have : (a - a.fdiv w * w + outPos flip N k) % w = wrapPos w (a + outPos flip N k) := by
      rw [wrapPos, if_neg hw, show a - a.fdiv w * w + outPos flip N k = a + outPos flip N k - a.fdiv w * w by ring]
      rw [Int.sub_mul_emod_self_right]
    rw [this]

end Pixell
