import Verif.Model.RadialBin
import Mathlib.Tactic

/-
C129: radial bins are means over rings.
-/
namespace Pixell

/-- The pixels of a ring, independently of the code. -/
def ringPix (ps : List (ℚ × ℚ)) (lo hi : ℚ) : List (ℚ × ℚ) := ps.filter fun p => decide (lo ≤ p.1 ∧ p.1 < hi)

theorem rbin_ring (bsize : ℚ) (hb : 0 < bsize) (ps : List (ℚ × ℚ)) (i : Nat) :
    (ps.filter fun p => rbinInd bsize p.1 == (i : ℤ)) = ringPix ps (i * bsize) ((i + 1) * bsize) := by
  unfold ringPix
  apply List.filter_congr
  intro p _
  unfold rbinInd
  rw [Bool.eq_iff_iff, beq_iff_eq, decide_eq_true_iff, Int.floor_eq_iff, le_div_iff₀ hb, div_lt_iff₀ hb]
  norm_cast

theorem foldl_maxQ_spec (l : List ℚ) (a : ℚ) : a ≤ l.foldl max a ∧ (∀ x ∈ l, x ≤ l.foldl max a) ∧ (l.foldl max a = a ∨ l.foldl max a ∈ l) := by
  induction l generalizing a with
  | nil => simp
  | cons b t ih =>
    obtain ⟨h1, h2, h3⟩ := ih (max a b)
    rw [List.foldl_cons]
    refine ⟨(le_max_left _ _).trans h1, ?_, ?_⟩
    · intro x hx
      rcases List.mem_cons.1 hx with rfl | hx
      · exact (le_max_right _ _).trans h1
      · exact h2 x hx
    · rcases h3 with h | h
      · rw [h]
        rcases max_choice a b with e | e
        · left; exact e
        · right; rw [e]; exact List.mem_cons_self
      · right; exact List.mem_cons_of_mem _ h

theorem rbinMax_spec (bsize : ℚ) (ps : List (ℚ × ℚ)) (hne : ps ≠ []) :
    ∃ mx, rbinMax bsize ps = some mx ∧ (∀ p ∈ ps, p.1 / bsize ≤ mx) ∧ ∃ p ∈ ps, p.1 / bsize = mx := by
  cases ps with
  | nil => exact absurd rfl hne
  | cons p t =>
    obtain ⟨h1, h2, h3⟩ := foldl_maxQ_spec (t.map fun q => q.1 / bsize) (p.1 / bsize)
    refine ⟨_, rfl, ?_, ?_⟩
    · intro q hq
      rcases List.mem_cons.1 hq with rfl | hq
      · exact h1
      · exact h2 _ (List.mem_map.2 ⟨q, hq, rfl⟩)
    · rcases h3 with h | h
      · exact ⟨p, List.mem_cons_self, h.symm⟩
      · obtain ⟨q, hq, e⟩ := List.mem_map.1 h
        exact ⟨q, List.mem_cons_of_mem _ hq, e⟩

/-- The bins of a map: `n` bins of the width asked for from zero on, `n` the number of whole bins up to the largest radius; each with
the number of its pixels, their mean value and mean radius, NaN without pixels. -/
theorem C129_bins (bsize : ℚ) (hb : 0 < bsize) (ps : List (ℚ × ℚ)) (hne : ps ≠ []) (hr : ∀ p ∈ ps, 0 ≤ p.1) :
    ∃ (n : Nat) (bins : List RBin), binHelper bsize ps = some bins ∧ bins.length = n ∧
      (∀ p ∈ ps, p.1 < (n + 1) * bsize) ∧ (∃ p ∈ ps, n * bsize ≤ p.1) ∧
      ∀ i, (h : i < bins.length) → bins[i].lo = i * bsize ∧ bins[i].hi = (i + 1) * bsize ∧
        bins[i].hits = (ringPix ps (i * bsize) ((i + 1) * bsize)).length ∧
        ((ringPix ps (i * bsize) ((i + 1) * bsize)) = [] → bins[i].val = none ∧ bins[i].rad = none) ∧
        ((ringPix ps (i * bsize) ((i + 1) * bsize)) ≠ [] →
          bins[i].val = some (((ringPix ps (i * bsize) ((i + 1) * bsize)).map Prod.snd).sum / (ringPix ps (i * bsize) ((i + 1) * bsize)).length) ∧
          bins[i].rad = some (((ringPix ps (i * bsize) ((i + 1) * bsize)).map Prod.fst).sum / (ringPix ps (i * bsize) ((i + 1) * bsize)).length)) := by
  obtain ⟨mx, e, hle, p, hp, hpe⟩ := rbinMax_spec bsize ps hne
  have hmx : 0 ≤ mx := by rw [← hpe]; exact div_nonneg (hr p hp) hb.le
  have hn : ((intTrunc mx).toNat : ℤ) = ⌊mx⌋ := by
    unfold intTrunc
    rw [if_pos hmx, Int.toNat_of_nonneg (Int.floor_nonneg.2 hmx)]
  have hnq : (((intTrunc mx).toNat : ℕ) : ℚ) = (⌊mx⌋ : ℚ) := by exact_mod_cast hn
  refine ⟨(intTrunc mx).toNat, (List.range (intTrunc mx).toNat).map (fun i => { val := rbinMean bsize ps Prod.snd i, rad := rbinMean bsize ps Prod.fst i, lo := i * bsize, hi := (i + 1) * bsize, hits := rbinHits bsize ps i }), ?_, ?_, ?_, ?_, ?_⟩
  · unfold binHelper
    rw [e]
    simp only [Option.bind_eq_bind, Option.bind_some]
    rw [if_neg]
    simp only [List.any_eq_true, decide_eq_true_eq, not_exists, not_and, not_lt]
    intro q hq
    exact Int.floor_nonneg.2 (div_nonneg (hr q hq) hb.le)
  · simp
  · intro q hq
    have h1 := hle q hq
    have h2 := Int.lt_floor_add_one mx
    rw [div_le_iff₀ hb] at h1
    rw [hnq]
    nlinarith
  · refine ⟨p, hp, ?_⟩
    rw [hnq, ← le_div_iff₀ hb, hpe]
    exact Int.floor_le mx
  · intro i hi
    simp only [List.getElem_map, List.getElem_range]
    refine ⟨trivial, trivial, ?_, ?_, ?_⟩
    · unfold rbinHits; rw [rbin_ring bsize hb]
    · intro h0
      unfold rbinMean rbinHits
      rw [rbin_ring bsize hb, h0]
      simp
    · intro h0
      have h1 : (ringPix ps (i * bsize) ((i + 1) * bsize)).length ≠ 0 := by
        rw [Ne, List.length_eq_zero_iff]; exact h0
      unfold rbinMean rbinHits
      rw [rbin_ring bsize hb]
      simp only [if_neg h1]
      exact ⟨trivial, trivial⟩

theorem sum_bounds (l : List ℚ) (a b : ℚ) (h : ∀ x ∈ l, a ≤ x ∧ x ≤ b) : a * l.length ≤ l.sum ∧ l.sum ≤ b * l.length := by
  induction l with
  | nil => simp
  | cons x t ih =>
    obtain ⟨h1, h2⟩ := ih fun y hy => h y (List.mem_cons_of_mem _ hy)
    obtain ⟨h3, h4⟩ := h x List.mem_cons_self
    rw [List.sum_cons, List.length_cons]
    push_cast
    constructor <;> linarith

/-- The value of a bin lies between bounds that hold for the pixels of its ring; so constants stay constants, a function that rises
with the radius lies between its values at the edges of the bin, and the mean radius lies in the bin. -/
theorem C129_between (bsize : ℚ) (hb : 0 < bsize) (ps : List (ℚ × ℚ)) (hne : ps ≠ []) (hr : ∀ p ∈ ps, 0 ≤ p.1) (bins : List RBin)
    (hbin : binHelper bsize ps = some bins) (b : RBin) (hmem : b ∈ bins) :
    (∀ v, b.val = some v → ∀ lo hi, (∀ p ∈ ps, b.lo ≤ p.1 → p.1 < b.hi → lo ≤ p.2 ∧ p.2 ≤ hi) → lo ≤ v ∧ v ≤ hi) ∧
    (∀ r, b.rad = some r → b.lo ≤ r ∧ r ≤ b.hi) := by
  obtain ⟨n, bins', e, _, _, _, hall⟩ := C129_bins bsize hb ps hne hr
  rw [hbin] at e
  obtain rfl := Option.some.inj e
  obtain ⟨i, hi, rfl⟩ := List.getElem_of_mem hmem
  obtain ⟨h1, h2, _, h4, h5⟩ := hall i hi
  set R := ringPix ps (i * bsize) ((i + 1) * bsize) with hR
  have inR : ∀ p ∈ R, p ∈ ps ∧ i * bsize ≤ p.1 ∧ p.1 < (i + 1) * bsize := by
    intro p hp
    rw [hR] at hp
    unfold ringPix at hp
    simpa using List.mem_filter.1 hp
  have mean : ∀ (w : ℚ × ℚ → ℚ) (lo hi : ℚ), R ≠ [] → (∀ p ∈ R, lo ≤ w p ∧ w p ≤ hi) → lo ≤ (R.map w).sum / R.length ∧ (R.map w).sum / R.length ≤ hi := by
    intro w lo hi h0 hw
    have hl : (0 : ℚ) < R.length := by exact_mod_cast List.length_pos_iff.2 h0
    have := sum_bounds (R.map w) lo hi (by
      intro x hx
      obtain ⟨p, hp, rfl⟩ := List.mem_map.1 hx
      exact hw p hp)
    rw [List.length_map] at this
    exact ⟨by rw [le_div_iff₀ hl]; exact this.1, by rw [div_le_iff₀ hl]; exact this.2⟩
  by_cases h0 : R = []
  · obtain ⟨a, b⟩ := h4 h0
    exact ⟨fun v hv => by rw [a] at hv; simp at hv, fun r hv => by rw [b] at hv; simp at hv⟩
  · obtain ⟨a, b⟩ := h5 h0
    constructor
    · intro v hv lo hi' hp
      rw [a] at hv
      obtain rfl := Option.some.inj hv
      apply mean Prod.snd lo hi' h0
      intro p hpR
      obtain ⟨q1, q2, q3⟩ := inR p hpR
      exact hp p q1 (by rw [h1]; exact q2) (by rw [h2]; exact q3)
    · intro r hv
      rw [b] at hv
      obtain rfl := Option.some.inj hv
      rw [h1, h2]
      apply mean Prod.fst _ _ h0
      intro p hpR
      obtain ⟨_, q2, q3⟩ := inR p hpR
      exact ⟨q2, q3.le⟩

theorem hits_total (bsize : ℚ) (hb : 0 < bsize) (ps : List (ℚ × ℚ)) (n : Nat) :
    ((List.range n).map fun (i : Nat) => (ringPix ps (i * bsize) ((i + 1) * bsize)).length).sum = (ringPix ps 0 (n * bsize)).length := by
  induction n with
  | zero =>
    simp only [List.range_zero, List.map_nil, List.sum_nil, Nat.cast_zero, zero_mul]
    symm
    rw [List.length_eq_zero_iff]
    unfold ringPix
    rw [List.filter_eq_nil_iff]
    intro p _
    simp only [decide_eq_true_eq, not_and, not_lt]
    exact fun h => h
  | succ n ih =>
    rw [List.range_succ, List.map_append, List.sum_append, ih]
    simp only [List.map_cons, List.map_nil, List.sum_cons, List.sum_nil, add_zero]
    have hn : (0 : ℚ) ≤ n := Nat.cast_nonneg n
    have h1 : (n : ℚ) * bsize ≤ ((n + 1 : ℕ) : ℚ) * bsize := by push_cast; nlinarith
    have h0 : (0 : ℚ) ≤ n * bsize := by positivity
    clear ih
    unfold ringPix
    induction ps with
    | nil => simp
    | cons p t ih =>
      simp only [List.filter_cons]
      by_cases a : 0 ≤ p.1
      · by_cases b : p.1 < n * bsize
        · have c : ¬ ((n : ℚ) * bsize ≤ p.1 ∧ p.1 < (n + 1) * bsize) := by rintro ⟨h, _⟩; linarith
          have d : p.1 < ((n + 1 : ℕ) : ℚ) * bsize := by linarith
          simp only [a, b, c, d, and_self, decide_true, decide_false, if_true, List.length_cons, Bool.false_eq_true, if_false]
          omega
        · by_cases d : p.1 < ((n + 1 : ℕ) : ℚ) * bsize
          · have c : ((n : ℚ) * bsize ≤ p.1 ∧ p.1 < (n + 1) * bsize) := ⟨not_lt.1 b, by push_cast at d; exact d⟩
            simp only [a, b, c, d, and_self, and_false, decide_true, decide_false, if_true, List.length_cons, Bool.false_eq_true, if_false]
            omega
          · have c : ¬ ((n : ℚ) * bsize ≤ p.1 ∧ p.1 < (n + 1) * bsize) := by rintro ⟨_, h⟩; apply d; push_cast; exact h
            simp only [b, c, d, and_false, decide_false, Bool.false_eq_true, if_false]
            exact ih
      · have c : ¬ ((n : ℚ) * bsize ≤ p.1 ∧ p.1 < (n + 1) * bsize) := by rintro ⟨h, _⟩; apply a; linarith
        simp only [a, c, false_and, decide_false, Bool.false_eq_true, if_false]
        exact ih

/-- Every pixel closer than the last edge is counted in exactly one bin. -/
theorem C129_total (bsize : ℚ) (hb : 0 < bsize) (ps : List (ℚ × ℚ)) (hne : ps ≠ []) (hr : ∀ p ∈ ps, 0 ≤ p.1) (bins : List RBin)
    (hbin : binHelper bsize ps = some bins) : (bins.map RBin.hits).sum = (ringPix ps 0 (bins.length * bsize)).length := by
  obtain ⟨n, bins', e, hl, _, _, hall⟩ := C129_bins bsize hb ps hne hr
  rw [hbin] at e
  obtain rfl := Option.some.inj e
  rw [hl, ← hits_total bsize hb ps n]
  congr 1
  apply List.ext_getElem
  · simp [hl]
  · intro i h1 h2
    rw [List.getElem_map, List.getElem_map, List.getElem_range]
    exact (hall i (by simpa using h1)).2.2.1

/-- But not every pixel is counted: in all maps at least the pixel farthest from the centre is in no bin, and there is no bin at all
if all pixels are closer than one bin width. -/
theorem C129_lost_refuted (bsize : ℚ) (hb : 0 < bsize) (ps : List (ℚ × ℚ)) (hne : ps ≠ []) (hr : ∀ p ∈ ps, 0 ≤ p.1) (bins : List RBin)
    (hbin : binHelper bsize ps = some bins) :
    (∃ p ∈ ps, (∀ q ∈ ps, q.1 ≤ p.1) ∧ ∀ b ∈ bins, ¬ (b.lo ≤ p.1 ∧ p.1 < b.hi)) ∧ (bins.map RBin.hits).sum < ps.length ∧
    ((∀ p ∈ ps, p.1 < bsize) → bins = []) := by
  have ht := C129_total bsize hb ps hne hr bins hbin
  obtain ⟨mx, e1, hle, p, hp, hpe⟩ := rbinMax_spec bsize ps hne
  obtain ⟨n, bins', e, hl, hlt, ⟨q, hq, hqn⟩, hall⟩ := C129_bins bsize hb ps hne hr
  rw [hbin] at e
  obtain rfl := Option.some.inj e
  have hmaxp : ∀ q ∈ ps, q.1 ≤ p.1 := by
    intro q hq
    have := hle q hq
    rw [← hpe] at this
    exact (div_le_div_iff_of_pos_right hb).1 this
  have hpn : n * bsize ≤ p.1 := hqn.trans (hmaxp q hq)
  refine ⟨⟨p, hp, hmaxp, ?_⟩, ?_, ?_⟩
  · intro b hbm
    obtain ⟨i, hi, rfl⟩ := List.getElem_of_mem hbm
    obtain ⟨_, h2, _⟩ := hall i hi
    rintro ⟨_, h⟩
    rw [h2] at h
    have : ((i : ℚ) + 1) ≤ n := by exact_mod_cast (by omega : i + 1 ≤ n)
    nlinarith
  · rw [ht, hl]
    unfold ringPix
    by_contra hc
    have h1 := List.length_filter_le (fun p : ℚ × ℚ => decide (0 ≤ p.1 ∧ p.1 < n * bsize)) ps
    have h2 := List.length_filter_eq_length_iff.1 (le_antisymm h1 (not_lt.1 hc)) p hp
    simp only [decide_eq_true_eq] at h2
    linarith [h2.2]
  · intro hsm
    have h1 := hsm p hp
    have : (n : ℚ) < 1 := by
      by_contra hc
      nlinarith
    have : n = 0 := by
      have : n < 1 := by exact_mod_cast this
      omega
    rw [this] at hl
    exact List.length_eq_zero_iff.1 hl

/-- The conditions are met: four pixels, bins of width one; the pixel at radius 2 is lost. -/
example : (binHelper 1 [(0, 3), (1, 5), (3/2, 7), (2, 100)]).map (fun l => l.map fun b => (b.val, b.rad, b.lo, b.hi, b.hits)) =
    some [(some 3, some 0, 0, 1, 1), (some 6, some (5/4), 1, 2, 2)] := by decide +kernel

end Pixell
