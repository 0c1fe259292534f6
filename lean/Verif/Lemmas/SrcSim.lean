import Verif.Model.SrcSim
import Mathlib.Data.List.ProdSigma
import Mathlib.Data.List.Nodup
import Mathlib.Tactic.Linarith
import Mathlib.Tactic.Ring
import Mathlib.Tactic.FieldSimp
import Mathlib.Algebra.BigOperators.Ring.Finset

/-! Helper lemmas for `Verif.Props.SrcSim`. -/

namespace Pixell

theorem cFloorDiv_eq (a : ℤ) {b : ℤ} (hb : 0 < b) : cFloorDiv a b = a / b := by
  unfold cFloorDiv
  simp only
  have h1 := Int.mul_tdiv_add_tmod a b
  have h3 := Int.tmod_lt_of_pos a hb
  have h4 : -b < a.tmod b := by
    have h := Int.tmod_lt_of_pos (-a) hb
    rw [Int.neg_tmod] at h
    omega
  have h2 : a.tdiv b * b = b * a.tdiv b := mul_comm _ _
  by_cases h : a.tdiv b * b > a
  · rw [if_pos h]
    have e : a / b = (a.tdiv b - 1) := by
      rw [Int.ediv_eq_iff_of_pos hb]
      constructor <;> nlinarith
    exact e.symm
  · rw [if_neg h]
    have e : a / b = a.tdiv b := by
      rw [Int.ediv_eq_iff_of_pos hb]
      constructor <;> nlinarith
    exact e.symm

theorem cMod_eq (a : ℤ) {b : ℤ} (hb : 0 < b) : cMod a b = a % b := by
  unfold cMod
  simp only
  have h1 := Int.mul_tdiv_add_tmod a b
  have h3 := Int.tmod_lt_of_pos a hb
  have h4 : -b < a.tmod b := by
    have h := Int.tmod_lt_of_pos (-a) hb
    rw [Int.neg_tmod] at h
    omega
  by_cases h : a.tmod b < 0
  · rw [if_pos h]
    have e : a = (a.tmod b + b) + b * (a.tdiv b - 1) := by linarith
    rw [show a % b = ((a.tmod b + b) + b * (a.tdiv b - 1)) % b by rw [← e],
      Int.add_mul_emod_self_left, Int.emod_eq_of_lt (by omega) (by omega)]
  · rw [if_neg h]
    have e : a = a.tmod b + b * a.tdiv b := by linarith
    rw [show a % b = (a.tmod b + b * a.tdiv b) % b by rw [← e],
      Int.add_mul_emod_self_left, Int.emod_eq_of_lt (by omega) (by omega)]

theorem mem_cRange {a b t : ℤ} : t ∈ cRange a b ↔ a ≤ t ∧ t < b := by
  unfold cRange
  rw [List.mem_map]
  constructor
  · rintro ⟨k, hk, rfl⟩
    have := List.mem_range.1 hk
    omega
  · rintro ⟨h1, h2⟩
    exact ⟨(t - a).toNat, List.mem_range.2 (by omega), by omega⟩

theorem cRange_nodup (a b : ℤ) : (cRange a b).Nodup := by
  unfold cRange
  refine List.Nodup.map ?_ List.nodup_range
  intro x y h
  simpa using h

/-- One axis of a wrapped box. -/
def wrapAxis (n a b : ℤ) : List ℤ :=
  (cRange (cMod a n) (cMod a n + if b - a > n then n else b - a)).map (wrapOnce n)

theorem wrapAxis_nodup {n : ℤ} (hn : 0 < n) (a b : ℤ) : (wrapAxis n a b).Nodup := by
  unfold wrapAxis
  have h0 : 0 ≤ cMod a n := by rw [cMod_eq a hn]; exact Int.emod_nonneg _ hn.ne'
  have h1 : cMod a n < n := by rw [cMod_eq a hn]; exact Int.emod_lt_of_pos _ hn
  refine (List.nodup_map_iff_inj_on (cRange_nodup _ _)).2 ?_
  intro x hx y hy hxy
  rw [mem_cRange] at hx hy
  unfold wrapOnce at hxy
  split_ifs at hx hy hxy <;> omega

theorem mem_wrapAxis {n : ℤ} (hn : 0 < n) (a b t : ℤ) :
    t ∈ wrapAxis n a b ↔ 0 ≤ t ∧ t < n ∧ ∃ s, a ≤ s ∧ s < b ∧ n ∣ s - t := by
  unfold wrapAxis
  have h0 : 0 ≤ cMod a n := by rw [cMod_eq a hn]; exact Int.emod_nonneg _ hn.ne'
  have h1 : cMod a n < n := by rw [cMod_eq a hn]; exact Int.emod_lt_of_pos _ hn
  have hd : n ∣ a - cMod a n := by
    rw [cMod_eq a hn]; exact Int.dvd_self_sub_emod
  rw [List.mem_map]
  constructor
  · rintro ⟨u, hu, rfl⟩
    rw [mem_cRange] at hu
    have hw : u < cMod a n + (b - a) ∧ u < cMod a n + n := by
      split_ifs at hu <;> omega
    unfold wrapOnce
    obtain ⟨k, hk⟩ := hd
    by_cases hun : u ≥ n
    · rw [if_pos hun]
      refine ⟨by omega, by omega, a + (u - cMod a n), by omega, by omega, k + 1, by linarith⟩
    · rw [if_neg hun]
      refine ⟨by omega, by omega, a + (u - cMod a n), by omega, by omega, k, by linarith⟩
  · rintro ⟨ht0, htn, s, hs1, hs2, hst⟩
    -- the offset of `s` from `a`, reduced
    have hj0 := Int.emod_nonneg (s - a) hn.ne'
    have hjn := Int.emod_lt_of_pos (s - a) hn
    have hjle : (s - a) % n ≤ s - a := by
      have h := Int.mul_ediv_add_emod (s - a) n
      have h' := mul_nonneg hn.le (Int.ediv_nonneg (show 0 ≤ s - a by omega) hn.le)
      omega
    refine ⟨cMod a n + (s - a) % n, mem_cRange.2 ⟨by omega, ?_⟩, ?_⟩
    · split_ifs <;> omega
    · obtain ⟨k, hk⟩ := hd
      obtain ⟨l, hl⟩ := hst
      have he := Int.mul_ediv_add_emod (s - a) n
      -- the visited position is congruent to `t`
      have hcong : n ∣ cMod a n + (s - a) % n - t := by
        refine ⟨l - k - (s - a) / n, ?_⟩
        have : n * (l - k - (s - a) / n) = n * l - n * k - n * ((s - a) / n) := by ring
        rw [this]; omega
      unfold wrapOnce
      obtain ⟨q, hq⟩ := hcong
      by_cases hun : cMod a n + (s - a) % n ≥ n
      · rw [if_pos hun]
        have : q = 1 := by
          have h2 : n * q < n * 2 := by linarith
          have h3 : n * 0 < n * q := by linarith
          have := lt_of_mul_lt_mul_left h2 hn.le
          have := lt_of_mul_lt_mul_left h3 hn.le
          omega
        subst this; omega
      · rw [if_neg hun]
        have : q = 0 := by
          have h2 : n * q < n * 1 := by linarith
          have h3 : n * (-1) < n * q := by linarith
          have := lt_of_mul_lt_mul_left h2 hn.le
          have := lt_of_mul_lt_mul_left h3 hn.le
          omega
        subst this; omega

theorem wrapVisits_eq (b : Box4) (ny nx : ℤ) :
    wrapVisits (wrapBox b ny nx) ny nx
      = (wrapAxis ny b.y1 b.y2).product (wrapAxis nx b.x1 b.x2) := by
  unfold wrapVisits wrapBox wrapAxis List.product
  simp only [List.flatMap_map, List.map_map]
  rfl

theorem wrapVisits_nodup {ny nx : ℤ} (hy : 0 < ny) (hx : 0 < nx) (b : Box4) :
    (wrapVisits (wrapBox b ny nx) ny nx).Nodup := by
  rw [wrapVisits_eq]
  exact (wrapAxis_nodup hy _ _).product (wrapAxis_nodup hx _ _)

theorem mem_wrapVisits {ny nx : ℤ} (hy : 0 < ny) (hx : 0 < nx) (b : Box4) (p : ℤ × ℤ) :
    p ∈ wrapVisits (wrapBox b ny nx) ny nx ↔
      (0 ≤ p.1 ∧ p.1 < ny ∧ ∃ s, b.y1 ≤ s ∧ s < b.y2 ∧ ny ∣ s - p.1) ∧
      (0 ≤ p.2 ∧ p.2 < nx ∧ ∃ s, b.x1 ≤ s ∧ s < b.x2 ∧ nx ∣ s - p.2) := by
  rw [wrapVisits_eq, ← mem_wrapAxis hy, ← mem_wrapAxis hx]
  obtain ⟨p1, p2⟩ := p
  exact List.pair_mem_product

/-! ### Registration -/

theorem foldl_pushCell (L : List (ℕ × (ℤ × ℤ))) (f : ℤ × ℤ → List ℕ) (c : ℤ × ℤ) :
    L.foldl pushCell f c = f c ++ (L.filter fun p => decide (p.2 = c)).map (·.1) := by
  induction L generalizing f with
  | nil => simp
  | cons p L ih =>
    rw [List.foldl_cons, ih]
    unfold pushCell
    by_cases h : p.2 = c
    · subst h
      simp
    · rw [Function.update_of_ne (Ne.symm h)]
      simp [h]

theorem filter_eq_singleton {α : Type} [DecidableEq α] {l : List α} (hl : l.Nodup) (c : α) :
    (l.filter fun p => decide (p = c)) = if c ∈ l then [c] else [] := by
  induction l with
  | nil => simp
  | cons a l ih =>
    rw [List.nodup_cons] at hl
    rw [List.filter_cons, ih hl.2]
    by_cases h : a = c
    · subst h
      simp [hl.1]
    · have h' : ¬ c = a := fun e => h e.symm
      simp [h, h']

theorem assignCells_eq (ny nx csize : ℕ) (hy : 0 < ncell ny csize) (hx : 0 < ncell nx csize)
    (boxes : List Box4) (c : ℤ × ℤ) :
    assignCells ny nx csize boxes c
      = (List.range boxes.length).filter fun oi =>
          decide (∃ b ∈ boxes[oi]?, c ∈ objCells ny nx csize b) := by
  unfold assignCells
  rw [foldl_pushCell, List.nil_append]
  generalize List.range boxes.length = L
  induction L with
  | nil => rfl
  | cons o L ih =>
    rw [List.flatMap_cons, List.filter_append, List.map_append, ih, List.filter_cons]
    cases hb : boxes[o]? with
    | none => simp
    | some b =>
      have hnd : (objCells ny nx csize b).Nodup :=
        wrapVisits_nodup (by exact_mod_cast hy) (by exact_mod_cast hx) _
      simp only [Option.toList_some, List.flatMap_cons, List.flatMap_nil, List.append_nil]
      rw [List.filter_map]
      have he : ((fun p : ℕ × ℤ × ℤ => decide (p.2 = c)) ∘ fun c' => (o, c'))
          = fun p => decide (p = c) := rfl
      rw [he, filter_eq_singleton hnd]
      by_cases hc : c ∈ objCells ny nx csize b
      · simp [hc]
      · simp [hc]

/-- In which cell is the pixel? -/
theorem inCell_iff {csize : ℕ} (hc : 0 < csize) (ny nx : ℕ) (c : ℕ × ℕ) (y x : ℕ) :
    inCell ny nx csize c y x = true ↔ (y < ny ∧ x < nx) ∧ c = (y / csize, x / csize) := by
  unfold inCell
  obtain ⟨c1, c2⟩ := c
  rw [decide_eq_true_eq, Prod.mk.injEq]
  simp only [lt_min_iff]
  constructor
  · rintro ⟨h1, ⟨h2, h3⟩, h4, h5, h6⟩
    exact ⟨⟨h3, h6⟩, (Nat.div_eq_of_lt_le h1 h2).symm, (Nat.div_eq_of_lt_le h4 h5).symm⟩
  · rintro ⟨⟨h3, h6⟩, rfl, rfl⟩
    exact ⟨Nat.div_mul_le_self _ _, ⟨by rw [mul_comm]; exact Nat.lt_mul_div_succ y hc, h3⟩,
      Nat.div_mul_le_self _ _, by rw [mul_comm]; exact Nat.lt_mul_div_succ x hc, h6⟩

theorem ncell_pos {n csize : ℕ} (hc : 0 < csize) (hn : 0 < n) : 0 < ncell n csize := by
  unfold ncell
  exact Nat.div_pos (by omega) hc

theorem cell_lt {n csize y : ℕ} (hc : 0 < csize) (hy : y < n) : y / csize < ncell n csize := by
  unfold ncell
  rw [Nat.div_lt_iff_lt_mul hc]
  have h := Nat.lt_div_mul_add hc (a := n + csize - 1)
  omega

/-! ### Profiles -/

theorem bsLoop_spec (rs : ℕ → ℚ) (r : ℚ) (k : ℕ) :
    ∀ a b, b ≤ a + k + 1 → a < b → rs a ≤ r → r < rs b →
      rs (bsLoop rs r k a b) ≤ r ∧ r < rs (bsLoop rs r k a b + 1) ∧
      a ≤ bsLoop rs r k a b ∧ bsLoop rs r k a b < b := by
  induction k with
  | zero =>
    intro a b h1 h2 h3 h4
    have : b = a + 1 := by omega
    subst this
    exact ⟨h3, h4, le_refl _, Nat.lt_succ_self _⟩
  | succ k ih =>
    intro a b h1 h2 h3 h4
    unfold bsLoop
    by_cases hb : b > a + 1
    · rw [if_pos hb]
      simp only
      by_cases hr : r < rs ((a + b) / 2)
      · rw [if_pos hr]
        obtain ⟨i1, i2, i3, i4⟩ := ih a ((a + b) / 2) (by omega) (by omega) h3 hr
        exact ⟨i1, i2, i3, by omega⟩
      · rw [if_neg hr]
        obtain ⟨i1, i2, i3, i4⟩ := ih ((a + b) / 2) b (by omega) (by omega) (not_lt.1 hr) h4
        exact ⟨i1, i2, by omega, i4⟩
    · rw [if_neg hb]
      have : b = a + 1 := by omega
      subst this
      exact ⟨h3, h4, le_refl _, Nat.lt_succ_self _⟩

theorem scanDown_spec (vs : ℕ → ℚ) (v : ℚ) (stop : ℕ) (i : ℕ) :
    scanDown vs v stop i ≤ i ∧
    (∀ j, scanDown vs v stop i < j → j ≤ i → |vs j| < v) ∧
    (stop < scanDown vs v stop i → v ≤ |vs (scanDown vs v stop i)|) ∧
    (stop ≤ i → stop ≤ scanDown vs v stop i) := by
  induction i with
  | zero =>
    refine ⟨le_refl _, fun j h1 h2 => ?_, fun h => ?_, fun h => ?_⟩
    · unfold scanDown at h1; omega
    · unfold scanDown at h; omega
    · unfold scanDown; omega
  | succ i ih =>
    unfold scanDown
    by_cases h : i + 1 > stop ∧ |vs (i + 1)| < v
    · rw [if_pos h]
      obtain ⟨i1, i2, i3, i4⟩ := ih
      refine ⟨by omega, fun j h1 h2 => ?_, i3, fun _ => i4 (by omega)⟩
      rcases Nat.lt_or_eq_of_le h2 with h3 | h3
      · exact i2 j h1 (by omega)
      · rw [h3]; exact h.2
    · rw [if_neg h]
      refine ⟨le_refl _, fun j h1 h2 => by omega, fun h1 => ?_, fun h => h⟩
      by_contra hc
      exact h ⟨h1, not_le.1 hc⟩

end Pixell
