import Verif.Lemmas.Finders
import Verif.Lemmas.Extract
import Verif.Lemmas.Sort
import Mathlib.Data.Rat.Floor
import Mathlib.Algebra.Order.BigOperators.Group.List
import Mathlib.Logic.Relation
import Mathlib.Tactic.Ring

/-!
C184: labelled distance transforms and the object finders.
-/
namespace Pixell

variable {α : Type} [LinearOrder α]

/-! ### Specifications -/

/-- Two pixels side by side in the map. -/
def Beside (nx p q : ℕ) : Prop :=
  (p / nx = q / nx ∧ (p % nx + 1 = q % nx ∨ q % nx + 1 = p % nx)) ∨ (p % nx = q % nx ∧ (p / nx + 1 = q / nx ∨ q / nx + 1 = p / nx))

/-- Two pixels are joined by a path of detected pixels side by side. -/
def Joined (npix nx : ℕ) (above : ℕ → Bool) (p q : ℕ) : Prop :=
  Relation.ReflTransGen (fun a b => b < npix ∧ above b = true ∧ Beside nx a b) p q

/-- What ndimage.label gives: numbers 1 to n, one for each group of joined pixels. -/
structure IsLabelling (npix nx : ℕ) (above : ℕ → Bool) (lab : ℕ → ℕ) (n : ℕ) : Prop where
  zero : ∀ q < npix, lab q = 0 ↔ above q = false
  le : ∀ q < npix, lab q ≤ n
  onto : ∀ l, 0 < l → l ≤ n → ∃ q < npix, lab q = l
  joined : ∀ p < npix, ∀ q < npix, above p = true → above q = true → (lab p = lab q ↔ Joined npix nx above p q)

/-- The distances of pixels are zero for the pixel itself only. -/
def SelfZero (zero : α) (ny nx : ℕ) (d : ℕ → ℕ → ℕ → α) : Prop :=
  ∀ p < ny * nx, ∀ q < ny * nx, (p = q → d p (q / nx) (q % nx) = zero) ∧ (p ≠ q → zero < d p (q / nx) (q % nx))

/-! ### The transform -/

/-- A pixel without label is given the distance of its closest labelled pixel, and the label of such a one, up to rmax. -/
theorem C184_distance (zero : α) (d : ℕ → ℕ → ℕ → α) (rmax : α) (ny nx : ℕ) (lab : ℕ → ℕ) (hd : Descent ny nx d) (y x : ℕ) (hy : y < ny)
    (hx : x < nx) (hl : lab (y * nx + x) = 0) :
    ((∃ p < ny * nx, lab p ≠ 0 ∧ d p y x ≤ rmax) → ∃ p < ny * nx, lab p ≠ 0 ∧ (∀ p' < ny * nx, lab p' ≠ 0 → d p y x ≤ d p' y x) ∧
      labeledDist zero d (some rmax) ny nx lab (y * nx + x) = (some (d p y x), lab p)) ∧
    ((∀ p < ny * nx, lab p ≠ 0 → rmax < d p y x) → labeledDist zero d (some rmax) ny nx lab (y * nx + x) = (some rmax, 0)) ∧
    ((∃ p < ny * nx, lab p ≠ 0) → ∃ p < ny * nx, lab p ≠ 0 ∧ (∀ p' < ny * nx, lab p' ≠ 0 → d p y x ≤ d p' y x) ∧
      labeledDist zero d none ny nx lab (y * nx + x) = (some (d p y x), lab p)) := by
  have hny : 0 < ny := by omega
  have hnx : 0 < nx := by omega
  obtain ⟨e1, e2⟩ := flat_div (y := y) hx
  have key : ∀ rm : Option α, (∃ p < ny * nx, lab p ≠ 0) → ∃ e < ny * nx, lab e ≠ 0 ∧ (∀ p' < ny * nx, lab p' ≠ 0 → d e y x ≤ d p' y x) ∧
      labeledDist zero d rm ny nx lab (y * nx + x) =
        (some (match rm with | none => d e y x | some rm => min rm (d e y x)),
          match rm with | none => lab e | some rm => if rm < d e y x then 0 else lab e) := by
    rintro rm ⟨p, hp, hp0⟩
    obtain ⟨q, hq, hq0, hqmin⟩ := exists_least (ny * nx) (fun q => lab q ≠ 0) (fun q => d q y x) ⟨p, hp, hp0⟩
    have hqe := nearest_label_edge hny hnx lab d hd hy hx hl hq hq0 hqmin
    obtain ⟨e, he, hmin, hv⟩ := labeledDist_nearest zero d rm lab (y * nx + x) (List.ne_nil_of_mem hqe)
    rw [e1, e2] at hmin hv
    obtain ⟨hel, he0⟩ := findEdgesLabeled_lt hny hnx lab he
    refine ⟨e, hel, he0, fun p' h1 h2 => (hmin q hqe).trans (hqmin p' h1 h2), ?_⟩
    rw [hv, if_neg (by simp [hl])]
    cases rm <;> rfl
  refine ⟨?_, ?_, ?_⟩
  · rintro ⟨p, hp, hp0, hpr⟩
    obtain ⟨e, h1, h2, h3, h4⟩ := key (some rmax) ⟨p, hp, hp0⟩
    have hle := (h3 p hp hp0).trans hpr
    refine ⟨e, h1, h2, h3, ?_⟩
    rw [h4]
    simp only [min_eq_right hle, if_neg (not_lt.2 hle)]
  · intro hall
    by_cases hex : ∃ p < ny * nx, lab p ≠ 0
    · obtain ⟨e, h1, h2, h3, h4⟩ := key (some rmax) hex
      have hlt := hall e h1 h2
      rw [h4]
      simp only [min_eq_left hlt.le, if_pos hlt]
    · have hnil : findEdgesLabeled ny nx lab = [] := by
        apply List.eq_nil_iff_forall_not_mem.2
        intro e he
        obtain ⟨h1, h2⟩ := findEdgesLabeled_lt hny hnx lab he
        exact hex ⟨e, h1, h2⟩
      unfold labeledDist
      simp [hnil, simpleLoop, hl]
  · intro hex
    obtain ⟨e, h1, h2, h3, h4⟩ := key none hex
    exact ⟨e, h1, h2, h3, h4⟩

/-- A labelled pixel has distance zero, and keeps its label if an edge of its region is within rmax. -/
theorem C184_labels_partial (zero : α) (d : ℕ → ℕ → ℕ → α) (rmax : α) (ny nx : ℕ) (lab : ℕ → ℕ) (hd : DescentAll ny nx d) (y x : ℕ)
    (hy : y < ny) (hx : x < nx) (hl : lab (y * nx + x) ≠ 0) :
    (labeledDist zero d (some rmax) ny nx lab (y * nx + x)).1 = some zero ∧
    labeledDist zero d none ny nx lab (y * nx + x) = (some zero, lab (y * nx + x)) ∧
    ((labeledDist zero d (some rmax) ny nx lab (y * nx + x)).2 = if ∃ z < ny, ∃ w < nx, lab (z * nx + w) = lab (y * nx + x) ∧
        d (z * nx + w) y x ≤ rmax ∧ (z = 0 ∨ z + 1 = ny ∨ w = 0 ∨ w + 1 = nx ∨
          lab (z * nx + (w - 1)) ≠ lab (z * nx + w) ∨ lab (z * nx + (w + 1)) ≠ lab (z * nx + w) ∨
          lab ((z - 1) * nx + w) ≠ lab (z * nx + w) ∨ lab ((z + 1) * nx + w) ≠ lab (z * nx + w)) then lab (y * nx + x) else 0) := by
  classical
  have hny : 0 < ny := by omega
  have hnx : 0 < nx := by omega
  obtain ⟨e1, e2⟩ := flat_div (y := y) hx
  have hne := findEdgesLabeled_ne_nil hny hnx lab (flat_lt hy hx) hl
  obtain ⟨e, he, hmin, hv⟩ := labeledDist_nearest zero d (some rmax) lab (y * nx + x) hne
  obtain ⟨e', he', hmin', hv'⟩ := labeledDist_nearest zero d none lab (y * nx + x) hne
  rw [e1, e2] at hmin hv hmin' hv'
  refine ⟨by rw [hv]; simp [hl], ?_, ?_⟩
  · rw [hv', nearest_same_region hny hnx lab d hd hy hx hl he' hmin']; simp [hl]
  · rw [hv]
    simp only
    rw [nearest_same_region hny hnx lab d hd hy hx hl he hmin]
    by_cases hc : rmax < d e y x
    · rw [if_pos hc, if_neg]
      rintro ⟨z, hz, w, hw, h1, h2, h3⟩
      exact absurd ((hmin _ ((mem_findEdgesLabeled hny hnx lab hz hw).2 ⟨by rw [h1]; exact hl, h3⟩)).trans h2) (not_le.2 hc)
    · rw [if_neg hc, if_pos]
      obtain ⟨hel, -⟩ := findEdgesLabeled_lt hny hnx lab he
      have hw := Nat.mod_lt e hnx
      have hz : e / nx < ny := Nat.div_lt_of_lt_mul (by rw [Nat.mul_comm]; exact hel)
      have eq : e / nx * nx + e % nx = e := Nat.div_add_mod' e nx
      have hm : e / nx * nx + e % nx ∈ findEdgesLabeled ny nx lab := by rw [eq]; exact he
      refine ⟨e / nx, hz, e % nx, hw, ?_, by rw [eq]; exact not_lt.1 hc, ((mem_findEdgesLabeled hny hnx lab hz hw).1 hm).2⟩
      rw [eq]
      exact nearest_same_region hny hnx lab d hd hy hx hl he hmin

/-- The two hold for cylindrical maps of at most half a turn without the poles. -/
theorem C184_cylindrical (g : CylGrid) (hturn : |g.step| * (g.nx - 1 : ℕ) ≤ Real.pi)
    (hdec : ∀ y < g.ny, -(Real.pi / 2) < g.dec y ∧ g.dec y < Real.pi / 2) (lab : ℕ → ℕ) (y x : ℕ) (hy : y < g.ny) (hx : x < g.nx)
    (hl : lab (y * g.nx + x) ≠ 0) :
    labeledDist 0 g.flat none g.ny g.nx lab (y * g.nx + x) = (some 0, lab (y * g.nx + x)) :=
  (C184_labels_partial 0 g.flat 0 g.ny g.nx lab (g.descentAll hturn hdec) y x hy hx hl).2.1

/-! ### Circles -/

theorem peakMask_mem : ∀ (peaks : List (ℕ × ℕ)) (q : ℕ), peakMask peaks q ≠ 0 → (q, peakMask peaks q) ∈ peaks
  | [], q, h => by simp [peakMask] at h
  | (p, i) :: rest, q, h => by
    unfold peakMask at h ⊢
    by_cases h1 : peakMask rest q ≠ 0
    · rw [if_pos h1]
      exact List.mem_cons_of_mem _ (peakMask_mem rest q h1)
    · rw [if_neg h1] at h ⊢
      by_cases h2 : p = q
      · subst h2; simp
      · simp [h2] at h

theorem peakMask_eq : ∀ (peaks : List (ℕ × ℕ)) (_ : (peaks.map Prod.fst).Nodup) (_ : ∀ x ∈ peaks, x.2 ≠ 0) (p i : ℕ) (_ : (p, i) ∈ peaks),
    peakMask peaks p = i
  | (p', i') :: rest, hn, h0, p, i, h => by
    have hn' : p' ∉ rest.map Prod.fst ∧ (rest.map Prod.fst).Nodup := by simpa using hn
    unfold peakMask
    rcases List.mem_cons.1 h with h | h
    · simp only [Prod.mk.injEq] at h
      obtain ⟨rfl, rfl⟩ := h
      have : peakMask rest p = 0 := by
        by_contra hc
        exact hn'.1 (List.mem_map.2 ⟨_, peakMask_mem rest p hc, rfl⟩)
      simp [this]
    · have := peakMask_eq rest hn'.2 (fun x hx => h0 x (List.mem_cons_of_mem _ hx)) p i h
      rw [this, if_pos (h0 (p, i) (List.mem_cons_of_mem _ h))]

/-- The circles: a pixel has the number of a closest peak if that is closer than r, and no number otherwise; a peak has its own. -/
theorem C184_circle (zero : α) (d : ℕ → ℕ → ℕ → α) (r : α) (ny nx : ℕ) (peaks : List (ℕ × ℕ)) (hs : SelfZero zero ny nx d) (hr : zero < r)
    (hp : (peaks.map Prod.fst).Nodup) (hi : (peaks.map Prod.snd).Nodup) (h0 : ∀ x ∈ peaks, x.2 ≠ 0) (hlt : ∀ x ∈ peaks, x.1 < ny * nx)
    (q : ℕ) (hq : q < ny * nx) :
    ((∃ p i, (p, i) ∈ peaks ∧ circleLabel zero d r ny nx peaks q = i ∧ d p (q / nx) (q % nx) < r ∧
        ∀ x ∈ peaks, d p (q / nx) (q % nx) ≤ d x.1 (q / nx) (q % nx)) ∨
      (circleLabel zero d r ny nx peaks q = 0 ∧ ∀ x ∈ peaks, r ≤ d x.1 (q / nx) (q % nx))) ∧
    ∀ i, (q, i) ∈ peaks → circleLabel zero d r ny nx peaks q = i := by
  have hny : 0 < ny := Nat.pos_of_ne_zero (by rintro rfl; simp at hq)
  have hnx : 0 < nx := Nat.pos_of_ne_zero (by rintro rfl; simp at hq)
  have hedge : ∀ e, e ∈ findEdgesLabeled ny nx (peakMask peaks) ↔ ∃ i, (e, i) ∈ peaks := by
    intro e
    constructor
    · intro he
      exact ⟨_, peakMask_mem peaks e (findEdgesLabeled_lt hny hnx _ he).2⟩
    · rintro ⟨i, he⟩
      have hel := hlt _ he
      have hw := Nat.mod_lt e hnx
      have hz : e / nx < ny := Nat.div_lt_of_lt_mul (by rw [Nat.mul_comm]; exact hel)
      have eq : e / nx * nx + e % nx = e := Nat.div_add_mod' e nx
      have hm := peakMask_eq peaks hp h0 e i he
      have hin : e / nx * nx + e % nx ∈ findEdgesLabeled ny nx (peakMask peaks) := by
        rw [mem_findEdgesLabeled hny hnx _ hz hw, eq, hm]
        refine ⟨h0 _ he, ?_⟩
        by_cases hb : e % nx + 1 = nx
        · exact Or.inr (Or.inr (Or.inr (Or.inl hb)))
        · refine Or.inr (Or.inr (Or.inr (Or.inr (Or.inr (Or.inl ?_)))))
          intro hc
          have h1 := peakMask_mem peaks (e / nx * nx + (e % nx + 1)) (by rw [hc]; exact h0 _ he)
          rw [hc] at h1
          have := List.inj_on_of_nodup_map hi h1 he rfl
          simp only [Prod.mk.injEq] at this
          omega
      rwa [eq] at hin
  by_cases hnil : findEdgesLabeled ny nx (peakMask peaks) = []
  · have hemp : ∀ x, x ∉ peaks := by
      rintro ⟨p, i⟩ hx
      have := (hedge p).2 ⟨i, hx⟩
      rw [hnil] at this
      cases this
    have hq0 : peakMask peaks q = 0 := by
      by_contra hc
      exact hemp _ (peakMask_mem peaks q hc)
    refine ⟨Or.inr ⟨?_, fun x hx => absurd hx (hemp x)⟩, fun i hx => absurd hx (hemp _)⟩
    unfold circleLabel labeledDist
    simp [hnil, simpleLoop, hq0]
  · obtain ⟨e, he, hmin, hv⟩ := labeledDist_nearest zero d (some r) (peakMask peaks) q hnil
    obtain ⟨i, hei⟩ := (hedge e).1 he
    have hle : ∀ x ∈ peaks, d e (q / nx) (q % nx) ≤ d x.1 (q / nx) (q % nx) := fun x hx => hmin _ ((hedge x.1).2 ⟨x.2, hx⟩)
    have hme := peakMask_eq peaks hp h0 e i hei
    have hzero : (zero ≥ r) = False := by simp [hr]
    by_cases hq0 : peakMask peaks q = 0
    · refine ⟨?_, fun j hj => absurd (hq0 ▸ peakMask_eq peaks hp h0 q j hj) (fun h => h0 _ hj h.symm)⟩
      have hc : circleLabel zero d r ny nx peaks q = if d e (q / nx) (q % nx) < r then i else 0 := by
        unfold circleLabel
        rw [hv]
        simp only [hq0, ne_eq, not_true_eq_false, if_false, hme]
        by_cases hlt' : d e (q / nx) (q % nx) < r
        · rw [if_pos hlt', min_eq_right hlt'.le, if_neg (not_le.2 hlt'), if_neg (not_lt.2 hlt'.le)]
        · rw [if_neg hlt', min_eq_left (not_lt.1 hlt'), if_pos (le_refl r)]
      rw [hc]
      by_cases hlt' : d e (q / nx) (q % nx) < r
      · exact Or.inl ⟨e, i, hei, if_pos hlt', hlt', hle⟩
      · exact Or.inr ⟨if_neg hlt', fun x hx => (not_lt.1 hlt').trans (hle x hx)⟩
    · have hqp := peakMask_mem peaks q hq0
      have heq : e = q := by
        by_contra hne
        have h1 := hle _ hqp
        rw [(hs q hq q hq).1 rfl] at h1
        exact absurd ((hs e (hlt _ hei) q hq).2 hne) (not_lt.2 h1)
      subst heq
      have hde := (hs e hq e hq).1 rfl
      have hc : circleLabel zero d r ny nx peaks e = i := by
        unfold circleLabel
        rw [hv]
        simp only [hme]
        rw [if_pos (by rw [hme] at hq0; exact hq0)]
        simp only [hzero, if_false]
        rw [hde, if_neg (not_lt.2 hr.le)]
      refine ⟨Or.inl ⟨e, i, hei, hc, by rw [hde]; exact hr, hle⟩, fun j hj => ?_⟩
      rw [hc, ← hme, peakMask_eq peaks hp h0 e j hj]

/-! ### Finders -/

theorem allLabels_mem {n l : ℕ} : l ∈ allLabels n ↔ 0 < l ∧ l ≤ n := by
  unfold allLabels
  simp only [List.mem_map, List.mem_range]
  constructor
  · rintro ⟨a, h, rfl⟩; omega
  · rintro ⟨h1, h2⟩; exact ⟨l - 1, by omega, by omega⟩

theorem allLabels_nodup (n : ℕ) : (allLabels n).Nodup := List.nodup_range.map (fun a b h => by simpa using h)

theorem mem_labPix {npix : ℕ} {lab : ℕ → ℕ} {l q : ℕ} : q ∈ labPix npix lab l ↔ q < npix ∧ lab q = l := by
  simp [labPix]

/-- The centre of mass of a label with a pixel that is not zero is defined, and is within any bounds on its pixels. -/
theorem labCom_spec {npix : ℕ} (lab : ℕ → ℕ) (snr c : ℕ → ℚ) (l : ℕ) {p : ℕ} (hp : p < npix) (hl : lab p = l) (h0 : snr p ≠ 0) :
    ∃ v, labCom npix lab snr c l = some v ∧ ∀ lo hi, (∀ q < npix, lab q = l → lo ≤ c q ∧ c q ≤ hi) → lo ≤ v ∧ v ≤ hi := by
  have hnn : ∀ ps : List ℕ, 0 ≤ (ps.map fun q => snr q ^ 2).sum := fun ps =>
    List.sum_nonneg (by simp only [List.mem_map]; rintro _ ⟨a, -, rfl⟩; positivity)
  have hpos : 0 < ((labPix npix lab l).map fun q => snr q ^ 2).sum := by
    have h1 := List.single_le_sum (l := (labPix npix lab l).map fun q => snr q ^ 2)
      (by simp only [List.mem_map]; rintro _ ⟨a, -, rfl⟩; positivity) (snr p ^ 2)
      (List.mem_map.2 ⟨p, mem_labPix.2 ⟨hp, hl⟩, rfl⟩)
    have : 0 < snr p ^ 2 := by positivity
    linarith
  refine ⟨_, by unfold labCom; rw [if_neg hpos.ne'], ?_⟩
  intro lo hi hb
  have hsum : ∀ ps : List ℕ, (∀ q ∈ ps, lo ≤ c q ∧ c q ≤ hi) → lo * (ps.map fun q => snr q ^ 2).sum ≤ (ps.map fun q => snr q ^ 2 * c q).sum ∧
      (ps.map fun q => snr q ^ 2 * c q).sum ≤ hi * (ps.map fun q => snr q ^ 2).sum := by
    intro ps
    induction ps with
    | nil => intro _; simp
    | cons a ps ih =>
      intro h
      obtain ⟨h1, h2⟩ := ih (fun q hq => h q (List.mem_cons_of_mem _ hq))
      obtain ⟨h3, h4⟩ := h a List.mem_cons_self
      have hsq : 0 ≤ snr a ^ 2 := by positivity
      simp only [List.map_cons, List.sum_cons]
      constructor <;> nlinarith
  obtain ⟨h1, h2⟩ := hsum (labPix npix lab l) (fun q hq => hb q (mem_labPix.1 hq).1 (mem_labPix.1 hq).2)
  exact ⟨(le_div_iff₀ hpos).2 h1, (div_le_iff₀ hpos).2 h2⟩

theorem labPeak_spec {npix : ℕ} (lab : ℕ → ℕ) (snr : ℕ → ℚ) (l : ℕ) (h : ∃ q < npix, lab q = l) :
    ∃ p, labPeak npix lab snr l = some p ∧ p < npix ∧ lab p = l ∧ ∀ q < npix, lab q = l → snr q ≤ snr p := by
  obtain ⟨q, hq, hl⟩ := h
  have hne : labPix npix lab l ≠ [] := List.ne_nil_of_mem (mem_labPix.2 ⟨hq, hl⟩)
  rcases hp : labPeak npix lab snr l with _ | p
  · exact absurd (List.argmax_eq_none.1 hp) hne
  · have hm := List.argmax_mem (f := snr) (l := labPix npix lab l) (m := p) hp
    exact ⟨p, rfl, (mem_labPix.1 hm).1, (mem_labPix.1 hm).2, fun q hq hl => List.le_of_mem_argmax (mem_labPix.2 ⟨hq, hl⟩) hp⟩

theorem labMax_spec {npix : ℕ} (lab : ℕ → ℕ) (snr : ℕ → ℚ) (l : ℕ) (h : ∃ q < npix, lab q = l) :
    ∃ p < npix, lab p = l ∧ labMax npix lab snr l = some (snr p) ∧ ∀ q < npix, lab q = l → snr q ≤ snr p := by
  obtain ⟨p, -, hp, hl, hmax⟩ := labPeak_spec lab snr l h
  refine ⟨p, hp, hl, ?_, hmax⟩
  unfold labMax
  rw [List.max?_eq_some_iff]
  exact ⟨List.mem_map.2 ⟨p, mem_labPix.2 ⟨hp, hl⟩, rfl⟩, by
    simp only [List.mem_map]
    rintro _ ⟨q, hq, rfl⟩
    exact hmax q (mem_labPix.1 hq).1 (mem_labPix.1 hq).2⟩

theorem sortFound_spec (cat : List Found) : (sortFound cat).Perm cat ∧ (sortFound cat).Pairwise fun a b => b.snr ≤ a.snr := by
  unfold sortFound
  refine ⟨(List.reverse_perm _).trans (sortBy_perm _ _), ?_⟩
  rw [List.pairwise_reverse]
  have := sortBy_sorted (fun a b : Found => decide (a.snr ≤ b.snr)) (by simp only [decide_eq_true_eq]; exact fun a b c h1 h2 => h1.trans h2)
    (by simp only [decide_eq_true_eq]; exact fun a b => le_total _ _) cat
  simpa using this

theorem bestCaseQ_spec (snrs : List (ℕ → ℚ)) (hne : snrs ≠ []) (q : ℕ) :
    ∃ h : (bestCaseQ snrs q).2 < snrs.length, snrs[(bestCaseQ snrs q).2] q = (bestCaseQ snrs q).1 ∧
      ∀ s ∈ snrs, s q ≤ (bestCaseQ snrs q).1 := by
  have key : ∀ (rest pre : List (ℕ → ℚ)) (b : ℚ × ℕ), (∃ s, (pre ++ rest)[b.2]? = some s ∧ s q = b.1) → (∀ s ∈ pre, s q ≤ b.1) →
      let r := (rest.zipIdx pre.length).foldl (fun (b : ℚ × ℕ) x => if x.1 q > b.1 then (x.1 q, x.2) else b) b
      (∃ s, (pre ++ rest)[r.2]? = some s ∧ s q = r.1) ∧ ∀ s ∈ pre ++ rest, s q ≤ r.1 := by
    intro rest
    induction rest with
    | nil => intro pre b h1 h2; rw [List.append_nil] at h1 ⊢; exact ⟨h1, h2⟩
    | cons a rest ih =>
      intro pre b h1 h2
      have e : pre ++ a :: rest = (pre ++ [a]) ++ rest := by simp
      rw [e] at h1 ⊢
      simp only [List.zipIdx_cons, List.foldl_cons]
      have e2 : pre.length + 1 = (pre ++ [a]).length := by simp
      rw [e2]
      by_cases hc : a q > b.1
      · rw [if_pos hc]
        refine ih (pre ++ [a]) (a q, pre.length) ⟨a, by simp, rfl⟩ ?_
        intro s hs
        rcases List.mem_append.1 hs with hs | hs
        · exact (h2 s hs).trans hc.le
        · rw [List.mem_singleton.1 hs]
      · rw [if_neg hc]
        refine ih (pre ++ [a]) b h1 ?_
        intro s hs
        rcases List.mem_append.1 hs with hs | hs
        · exact h2 s hs
        · rw [List.mem_singleton.1 hs]; exact not_lt.1 hc
  cases snrs with
  | nil => exact absurd rfl hne
  | cons s rest =>
    obtain ⟨⟨t, h1, h2⟩, h3⟩ := key rest [s] (s q, 0) ⟨s, by simp, rfl⟩ (by simp)
    have h1 : (s :: rest)[(bestCaseQ (s :: rest) q).2]? = some t := h1
    obtain ⟨hlt, hget⟩ := List.getElem?_eq_some_iff.1 h1
    exact ⟨hlt, by rw [hget]; exact h2, h3⟩

/-- FinderMultiSafe: for maps of snr that are positive where detected, one object for each group of joined detected pixels, sorted from the
strongest on. Its snr is the largest of the group over pixels and cases, its case is one that attains it there, and its position is
defined and within any bounds on the pixels closer than the radius of the case to that pixel. -/
theorem C184_safe (zero : α) (d : ℕ → ℕ → ℕ → α) (rs : ℕ → α) (ny nx : ℕ) (hs : SelfZero zero ny nx d) (hr : ∀ c, zero < rs c)
    (snrs : List (ℕ → ℚ)) (hne : snrs ≠ []) (above : ℕ → Bool) (lab : ℕ → ℕ) (n : ℕ) (hlab : IsLabelling (ny * nx) nx above lab n)
    (hpos : ∀ q < ny * nx, above q = true → ∃ s ∈ snrs, 0 < s q) :
    ∃ cat, safeFind zero d rs ny nx snrs lab n = some cat ∧ cat.length = n ∧ cat.Pairwise (fun a b => b.snr ≤ a.snr) ∧
      ∃ f : ℕ → Found, cat.Perm ((allLabels n).map f) ∧ ∀ l, 0 < l → l ≤ n → ∃ p < ny * nx, above p = true ∧ lab p = l ∧
        (∃ h : (f l).case < snrs.length, snrs[(f l).case] p = (f l).snr) ∧
        (∀ q < ny * nx, Joined (ny * nx) nx above p q → ∀ s ∈ snrs, s q ≤ (f l).snr) ∧
        ∃ cy cx, (f l).y = some cy ∧ (f l).x = some cx ∧
          (∀ lo hi : ℚ, (∀ q < ny * nx, d p (q / nx) (q % nx) < rs (f l).case → lo ≤ ((q / nx : ℕ) : ℚ) ∧ ((q / nx : ℕ) : ℚ) ≤ hi) → lo ≤ cy ∧ cy ≤ hi) ∧
          (∀ lo hi : ℚ, (∀ q < ny * nx, d p (q / nx) (q % nx) < rs (f l).case → lo ≤ ((q % nx : ℕ) : ℚ) ∧ ((q % nx : ℕ) : ℚ) ≤ hi) → lo ≤ cx ∧ cx ≤ hi) := by
  set npix := ny * nx with hnpix
  set tot := fun q => (bestCaseQ snrs q).1 with htot
  have hpk : ∀ l, ∃ p, 0 < l → l ≤ n → labPeak npix lab tot l = some p ∧ p < npix ∧ lab p = l ∧ ∀ q < npix, lab q = l → tot q ≤ tot p := by
    intro l
    by_cases h : 0 < l ∧ l ≤ n
    · obtain ⟨p, hp⟩ := labPeak_spec lab tot l (hlab.onto l h.1 h.2)
      exact ⟨p, fun _ _ => hp⟩
    · exact ⟨0, fun h1 h2 => absurd ⟨h1, h2⟩ h⟩
  choose pk hpk using hpk
  have hmap : (allLabels n).mapM (labPeak npix lab tot) = some ((allLabels n).map pk) := by
    apply mapM_total
    intro l hl
    obtain ⟨h1, h2⟩ := allLabels_mem.1 hl
    exact (hpk l h1 h2).1
  set all := ((allLabels n).map pk).zip (allLabels n) with hall
  have hall' : all = (allLabels n).map fun l => (pk l, l) := by
    rw [hall]
    generalize allLabels n = ls
    induction ls with
    | nil => rfl
    | cons a ls ih => simp only [List.map_cons, List.zip_cons_cons, ih]
  set g : ℕ × ℕ → Found := fun p =>
    let ca := (bestCaseQ snrs p.1).2
    let snr := snrs.getD ca fun _ => 0
    let circ := circleLabel zero d (rs ca) ny nx (all.filter fun x => (bestCaseQ snrs x.1).2 = ca)
    ⟨tot p.1, ca, labCom npix circ snr (fun q => ((q / nx : ℕ) : ℚ)) p.2, labCom npix circ snr (fun q => ((q % nx : ℕ) : ℚ)) p.2⟩ with hg
  have hres : safeFind zero d rs ny nx snrs lab n = some (sortFound (all.map g)) := by
    unfold safeFind
    simp only [← hnpix, ← htot, hmap]
    rfl
  obtain ⟨hperm, hsort⟩ := sortFound_spec (all.map g)
  have hmm : all.map g = (allLabels n).map fun l => g (pk l, l) := by rw [hall', List.map_map]; rfl
  refine ⟨_, hres, ?_, hsort, fun l => g (pk l, l), by rw [← hmm]; exact hperm, ?_⟩
  · rw [hperm.length_eq, hmm]; simp [allLabels]
  · intro l h1 h2
    obtain ⟨-, hp, hpl, hmax⟩ := hpk l h1 h2
    have hab : above (pk l) = true := by
      by_contra hc
      have := (hlab.zero _ hp).2 (by simpa using hc)
      omega
    obtain ⟨hclt, hcv, hcm⟩ := bestCaseQ_spec snrs hne (pk l)
    refine ⟨pk l, hp, hab, hpl, ⟨hclt, hcv⟩, ?_, ?_⟩
    · intro q hq hj s hsm
      have haq : above q = true := by
        rcases Relation.ReflTransGen.cases_tail hj with h | ⟨b, -, hb⟩
        · rw [h]; exact hab
        · exact hb.2.1
      have := (hlab.joined _ hp q hq hab haq).2 hj
      obtain ⟨-, -, hqm⟩ := bestCaseQ_spec snrs hne q
      exact (hqm s hsm).trans (hmax q hq (by rw [← this, hpl]))
    · set ca := (bestCaseQ snrs (pk l)).2 with hca
      set peaks := all.filter fun x => (bestCaseQ snrs x.1).2 = ca with hpeaks
      have hmem : ∀ x, x ∈ all ↔ ∃ k, 0 < k ∧ k ≤ n ∧ x = (pk k, k) := by
        intro x
        rw [hall', List.mem_map]
        constructor
        · rintro ⟨k, hk, rfl⟩; exact ⟨k, (allLabels_mem.1 hk).1, (allLabels_mem.1 hk).2, rfl⟩
        · rintro ⟨k, a, b, rfl⟩; exact ⟨k, allLabels_mem.2 ⟨a, b⟩, rfl⟩
      have hfst : (all.map Prod.fst).Nodup := by
        rw [hall', List.map_map]
        refine List.Nodup.map_on ?_ (allLabels_nodup n)
        intro a ha b hb hab
        obtain ⟨a1, a2⟩ := allLabels_mem.1 ha
        obtain ⟨b1, b2⟩ := allLabels_mem.1 hb
        have hab : pk a = pk b := hab
        rw [← (hpk a a1 a2).2.2.1, ← (hpk b b1 b2).2.2.1, hab]
      have hsnd : (all.map Prod.snd).Nodup := by
        rw [hall', List.map_map]
        refine List.Nodup.map_on ?_ (allLabels_nodup n)
        intro a _ b _ hab
        exact hab
      have hin : (pk l, l) ∈ peaks := by
        rw [hpeaks, List.mem_filter]
        exact ⟨(hmem _).2 ⟨l, h1, h2, rfl⟩, by simp [hca]⟩
      have hcirc := fun q (hq : q < npix) => C184_circle zero d (rs ca) ny nx peaks hs (hr ca) (hfst.sublist (List.filter_sublist.map _))
        (hsnd.sublist (List.filter_sublist.map _))
        (by
          intro x hx
          obtain ⟨k, a, b, rfl⟩ := (hmem x).1 (List.mem_filter.1 hx).1
          exact a.ne')
        (by
          intro x hx
          obtain ⟨k, a, b, rfl⟩ := (hmem x).1 (List.mem_filter.1 hx).1
          exact (hpk k a b).2.1) q hq
      have hclose : ∀ q < npix, circleLabel zero d (rs ca) ny nx peaks q = l → d (pk l) (q / nx) (q % nx) < rs ca := by
        intro q hq hql
        rcases (hcirc q hq).1 with ⟨p, i, hpi, hci, hlt, -⟩ | ⟨hc0, -⟩
        · obtain ⟨k, a, b, hk⟩ := (hmem _).1 (List.mem_filter.1 hpi).1
          simp only [Prod.mk.injEq] at hk
          obtain ⟨rfl, rfl⟩ := hk
          rw [hql] at hci
          rw [hci]; exact hlt
        · omega
      have hown := (hcirc (pk l) hp).2 l hin
      have hsn : (snrs.getD ca fun _ => 0) (pk l) ≠ 0 := by
        rw [List.getD_eq_getElem _ _ hclt, hcv]
        obtain ⟨s, hsm, hs0⟩ := hpos _ hp hab
        exact (hs0.trans_le (hcm s hsm)).ne'
      obtain ⟨cy, hy1, hy2⟩ := labCom_spec (npix := npix) (circleLabel zero d (rs ca) ny nx peaks) (snrs.getD ca fun _ => 0)
        (fun q => ((q / nx : ℕ) : ℚ)) l hp hown hsn
      obtain ⟨cx, hx1, hx2⟩ := labCom_spec (npix := npix) (circleLabel zero d (rs ca) ny nx peaks) (snrs.getD ca fun _ => 0)
        (fun q => ((q % nx : ℕ) : ℚ)) l hp hown hsn
      exact ⟨cy, cx, hy1, hx1, fun lo hi h => hy2 lo hi fun q hq hql => h q hq (hclose q hq hql),
        fun lo hi h => hx2 lo hi fun q hq hql => h q hq (hclose q hq hql)⟩

/-- The threshold: every detected pixel is at least snmin and the fraction snrel of the strongest one, in units of the penalty. The
strongest one is detected if it is at least snmin and snrel is at most one, and nothing is detected if it is less than snmin. -/
theorem C184_threshold (npix : ℕ) (snr penalty : ℕ → ℚ) (hpen : ∀ q < npix, 0 < penalty q) (snmin : ℚ) (hs : 0 ≤ snmin) (r : ℚ) (hr : r ≤ 1)
    (q0 : ℕ) (hq0 : q0 < npix) (hmax : ∀ q < npix, snr q / penalty q ≤ snr q0 / penalty q0) :
    ∃ t, snThreshold npix snr penalty snmin (some r) = some t ∧
      (∀ q < npix, aboveLim snr penalty t q = true ↔ snmin ≤ snr q / penalty q ∧ r * (snr q0 / penalty q0) ≤ snr q / penalty q) ∧
      (snmin ≤ snr q0 / penalty q0 → aboveLim snr penalty t q0 = true) ∧
      (snr q0 / penalty q0 < snmin → ∀ q < npix, aboveLim snr penalty t q = false) := by
  have hm : ((List.range npix).map fun q => snr q / penalty q).max? = some (snr q0 / penalty q0) := by
    rw [List.max?_eq_some_iff]
    exact ⟨List.mem_map.2 ⟨q0, List.mem_range.2 hq0, rfl⟩, by
      simp only [List.mem_map, List.mem_range]
      rintro _ ⟨q, hq, rfl⟩
      exact hmax q hq⟩
  have hab : ∀ q < npix, (aboveLim snr penalty (max snmin (snr q0 / penalty q0 * r)) q = true ↔
      snmin ≤ snr q / penalty q ∧ r * (snr q0 / penalty q0) ≤ snr q / penalty q) := by
    intro q hq
    unfold aboveLim
    rw [decide_eq_true_eq, ge_iff_le, ← le_div_iff₀ (hpen q hq), max_le_iff, mul_comm r]
  refine ⟨_, by unfold snThreshold; rw [hm]; rfl, hab, ?_, ?_⟩
  · intro h
    rw [hab q0 hq0]
    refine ⟨h, ?_⟩
    nlinarith
  · intro h q hq
    rw [Bool.eq_false_iff]
    intro hc
    have := ((hab q hq).1 hc).1
    have := hmax q hq
    linarith

/-- FinderSimple: with a uniform threshold, and if every detected pixel has an edge of its group within grow0, one object for each group,
sorted from the strongest on, and its snr is the largest of the group. -/
theorem C184_simple_partial (zero : α) (d : ℕ → ℕ → ℕ → α) (grow grow0 : α) (hg : zero ≤ grow) (ny nx : ℕ) (hd : DescentAll ny nx d)
    (snr : ℕ → ℚ) (c t : ℚ) (hct : 0 < t * c) (lab : ℕ → ℕ) (n : ℕ) (hlab : IsLabelling (ny * nx) nx (aboveLim snr (fun _ => c) t) lab n)
    (hin : ∀ y < ny, ∀ x < nx, lab (y * nx + x) ≠ 0 → ∃ z < ny, ∃ w < nx, lab (z * nx + w) = lab (y * nx + x) ∧
        d (z * nx + w) y x ≤ grow0 ∧ (z = 0 ∨ z + 1 = ny ∨ w = 0 ∨ w + 1 = nx ∨
          lab (z * nx + (w - 1)) ≠ lab (z * nx + w) ∨ lab (z * nx + (w + 1)) ≠ lab (z * nx + w) ∨
          lab ((z - 1) * nx + w) ≠ lab (z * nx + w) ∨ lab ((z + 1) * nx + w) ≠ lab (z * nx + w))) :
    ∃ cat, simpleFind (ny * nx) nx snr (growLabels zero d grow grow0 ny nx lab) n = some cat ∧ cat.length = n ∧
      cat.Pairwise (fun a b => b.snr ≤ a.snr) ∧
      ∃ f : ℕ → Found, cat.Perm ((allLabels n).map f) ∧ ∀ l, 0 < l → l ≤ n → ∃ p < ny * nx, aboveLim snr (fun _ => c) t p = true ∧ lab p = l ∧
        snr p = (f l).snr ∧ (∀ q < ny * nx, Joined (ny * nx) nx (aboveLim snr (fun _ => c) t) p q → snr q ≤ (f l).snr) ∧
        (∃ cy cx, (f l).y = some cy ∧ (f l).x = some cx ∧ 0 ≤ cy ∧ cy ≤ (ny - 1 : ℕ) ∧ 0 ≤ cx ∧ cx ≤ (nx - 1 : ℕ)) := by
  set npix := ny * nx with hnpix
  set g2 := growLabels zero d grow grow0 ny nx lab with hg2
  have hkeep : ∀ q < npix, lab q ≠ 0 → g2 q = lab q := by
    intro q hq hl
    have hnx : 0 < nx := Nat.pos_of_ne_zero (by rintro rfl; simp [hnpix] at hq)
    have hw := Nat.mod_lt q hnx
    have hz : q / nx < ny := Nat.div_lt_of_lt_mul (by rw [Nat.mul_comm]; exact hq)
    have eq : q / nx * nx + q % nx = q := Nat.div_add_mod' q nx
    rw [← eq] at hl ⊢
    obtain ⟨h1, -, h3⟩ := C184_labels_partial zero d grow0 ny nx lab hd _ _ hz hw hl
    rw [hg2]
    unfold growLabels
    simp only [h1, h3]
    rw [if_pos hg, if_pos (hin _ hz _ hw hl)]
  have hbelow : ∀ q < npix, lab q = 0 → snr q < t * c := by
    intro q hq hl
    have := (hlab.zero q hq).1 hl
    unfold aboveLim at this
    simpa using this
  have habove : ∀ q < npix, lab q ≠ 0 → t * c ≤ snr q ∧ aboveLim snr (fun _ => c) t q = true := by
    intro q hq hl
    have : aboveLim snr (fun _ => c) t q = true := by
      by_contra hc
      exact hl ((hlab.zero q hq).2 (by simpa using hc))
    refine ⟨?_, this⟩
    unfold aboveLim at this
    simpa using this
  have hent : ∀ l, ∃ p, 0 < l → l ≤ n → p < npix ∧ lab p = l ∧ g2 p = l ∧ labMax npix g2 snr l = some (snr p) ∧
      ∀ q < npix, g2 q = l → snr q ≤ snr p := by
    intro l
    by_cases h : 0 < l ∧ l ≤ n
    · obtain ⟨q, hq, hql⟩ := hlab.onto l h.1 h.2
      have hgq : g2 q = l := by rw [hkeep q hq (by omega), hql]
      obtain ⟨p, hp, hpl, hv, hmax⟩ := labMax_spec g2 snr l ⟨q, hq, hgq⟩
      refine ⟨p, fun _ _ => ⟨hp, ?_, hpl, hv, hmax⟩⟩
      by_contra hne
      by_cases hp0 : lab p = 0
      · have h1 := hbelow p hp hp0
        have h2 := (habove q hq (by omega)).1
        have h3 := hmax q hq hgq
        linarith
      · rw [hkeep p hp hp0] at hpl
        exact hne hpl
    · exact ⟨0, fun h1 h2 => absurd ⟨h1, h2⟩ h⟩
  choose pk hpk using hent
  set f : ℕ → Found := fun l => ⟨snr (pk l), 0, labCom npix g2 snr (fun q => ((q / nx : ℕ) : ℚ)) l, labCom npix g2 snr (fun q => ((q % nx : ℕ) : ℚ)) l⟩
    with hf
  have hmap : ((allLabels n).mapM fun l => do
      let s ← labMax npix g2 snr l
      return (⟨s, 0, labCom npix g2 snr (fun q => ((q / nx : ℕ) : ℚ)) l, labCom npix g2 snr (fun q => ((q % nx : ℕ) : ℚ)) l⟩ : Found)) =
      some ((allLabels n).map f) := by
    apply mapM_total
    intro l hl
    obtain ⟨h1, h2⟩ := allLabels_mem.1 hl
    rw [(hpk l h1 h2).2.2.2.1]
    rfl
  obtain ⟨hperm, hsort⟩ := sortFound_spec ((allLabels n).map f)
  refine ⟨sortFound ((allLabels n).map f), by unfold simpleFind; rw [hmap]; rfl, by rw [hperm.length_eq]; simp [allLabels], hsort, f, hperm, ?_⟩
  intro l h1 h2
  obtain ⟨hp, hpl, hgp, hv, hmax⟩ := hpk l h1 h2
  obtain ⟨hps, hpa⟩ := habove _ hp (by omega)
  have hnx : 0 < nx := Nat.pos_of_ne_zero (by rintro rfl; simp [hnpix] at hp)
  refine ⟨pk l, hp, hpa, hpl, rfl, ?_, ?_⟩
  · intro q hq hj
    have haq : aboveLim snr (fun _ => c) t q = true := by
      rcases Relation.ReflTransGen.cases_tail hj with h | ⟨b, -, hb⟩
      · rw [h]; exact hpa
      · exact hb.2.1
    have := (hlab.joined _ hp q hq hpa haq).2 hj
    exact hmax q hq (by rw [hkeep q hq (by omega)]; omega)
  · have hsn : snr (pk l) ≠ 0 := (hct.trans_le hps).ne'
    obtain ⟨cy, hy1, hy2⟩ := labCom_spec (npix := npix) g2 snr (fun q => ((q / nx : ℕ) : ℚ)) l hp hgp hsn
    obtain ⟨cx, hx1, hx2⟩ := labCom_spec (npix := npix) g2 snr (fun q => ((q % nx : ℕ) : ℚ)) l hp hgp hsn
    obtain ⟨a1, a2⟩ := hy2 0 (ny - 1 : ℕ) (by
      intro q hq _
      have hz : q / nx < ny := Nat.div_lt_of_lt_mul (by rw [Nat.mul_comm]; exact hq)
      exact ⟨Nat.cast_nonneg _, by exact_mod_cast (by omega : q / nx ≤ ny - 1)⟩)
    obtain ⟨b1, b2⟩ := hx2 0 (nx - 1 : ℕ) (by
      intro q hq _
      have hw := Nat.mod_lt q hnx
      exact ⟨Nat.cast_nonneg _, by exact_mod_cast (by omega : q % nx ≤ nx - 1)⟩)
    exact ⟨cy, cx, hy1, hx1, a1, a2, b1, b2⟩

/-! ### Where it fails -/

/-- Distances in steps of one pixel. -/
def stepDist (nx e y x : ℕ) : ℕ := (max (e / nx) y - min (e / nx) y) + (max (e % nx) x - min (e % nx) x)

/-- Labelled pixels far from the edge of their region lose their label, so that FinderSimple reports the rim of a large object instead of
its peak. -/
theorem C184_interior_refuted : (labeledDist 0 (stepDist 5) (some 1) 5 5 (fun _ => 1) 12).2 = 0 ∧
    ∃ cat, simpleFind 25 5 (fun q => if q = 12 then 100 else 5) (growLabels 0 (stepDist 5) 1 1 5 5 fun _ => 1) 1 = some cat ∧
      cat.map Found.snr = [5] := by
  refine ⟨by decide +kernel, _, rfl, by decide +kernel⟩

/-- An object across the ends of a map of the whole sky is found as two. -/
theorem C184_ends_refuted (lab : ℕ → ℕ) (n : ℕ) (h : IsLabelling 8 8 (fun q => decide (q = 0 ∨ q = 7)) lab n) : lab 0 ≠ lab 7 := by
  intro he
  have hj := (h.joined 0 (by omega) 7 (by omega) (by decide) (by decide)).1 he
  have : ∀ q, Joined 8 8 (fun q => decide (q = 0 ∨ q = 7)) 0 q → q = 0 := by
    intro q hq
    induction hq with
    | refl => rfl
    | tail _ hb ih =>
      subst ih
      obtain ⟨h1, h2, h3⟩ := hb
      simp only [decide_eq_true_eq] at h2
      rcases h2 with h2 | h2
      · exact h2
      · subst h2; simp [Beside] at h3
  exact absurd (this 7 hj) (by omega)

/-- FinderMulti gives a weak object beside a strong one the snr of the flank of the strong one. -/
theorem C184_multi_refuted :
    ∃ cat, multiFind 0 (stepDist 6) 3 1 6 (fun q => ([100, 90, 80, 70, 4, 6] : List ℚ).getD q 0) (fun q => [1, 1, 1, 1, 0, 2].getD q 0) 2 = some cat ∧
      cat.map Found.snr = [100, 70] := by
  refine ⟨_, rfl, by decide +kernel⟩

/-- With a penalty that varies, the snr that FinderSimple reports is one of a pixel that is below its own limit. -/
theorem C184_penalty_refuted :
    let snr : ℕ → ℚ := fun q => if q = 0 then 5 else 50
    let penalty : ℕ → ℚ := fun q => if q = 0 then 1 else 100
    aboveLim snr penalty 5 0 = true ∧ aboveLim snr penalty 5 1 = false ∧
    ∃ cat, simpleFind 2 2 snr (growLabels 0 (stepDist 2) 1 1 1 2 fun q => if q = 0 then 1 else 0) 1 = some cat ∧ cat.map Found.snr = [50] := by
  refine ⟨by decide +kernel, by decide +kernel, _, rfl, by decide +kernel⟩

/-- The centre of mass is one of squares, so that a negative hole within the radius pulls the position away from the object. -/
theorem C184_hole_refuted :
    ∃ cat, safeFind 0 (stepDist 3) (fun _ => 3) 1 3 [fun q => ([6, 5, -100] : List ℚ).getD q 0] (fun q => [1, 1, 0].getD q 0) 1 = some cat ∧
      cat.map Found.x = [some (20025 / 10061)] := by
  refine ⟨_, rfl, by decide +kernel⟩

/-! ### Concrete cases -/

example : (labeledDist 0 (stepDist 4) (some 2) 1 4 (fun q => [3, 0, 0, 0].getD q 0) 2) = (some 2, 3) := by decide +kernel
example : (labeledDist 0 (stepDist 4) (some 2) 1 4 (fun q => [3, 0, 0, 0].getD q 0) 3) = (some 2, 0) := by decide +kernel
example : SelfZero 0 2 2 (stepDist 2) := by unfold SelfZero; decide +kernel
example : DescentAll 1 2 (stepDist 2) := by
  intro y x z w hy hx hz hw hne
  have : y = 0 := by omega
  have : z = 0 := by omega
  subst y z
  have : w ≠ x := fun h => hne (by rw [h])
  exact ⟨0, x, by omega, hx, Or.inl ⟨rfl, by omega⟩, by simp [stepDist, Nat.mod_eq_of_lt hx, Nat.mod_eq_of_lt hw]; omega⟩
example : (List.range 6).map (circleLabel 0 (stepDist 6) 2 1 6 [(1, 1), (4, 2)]) = [1, 1, 1, 2, 2, 2] := by decide +kernel
example : IsLabelling 2 2 (fun q => decide (q = 0)) (fun q => if q = 0 then 1 else 0) 1 := by
  refine ⟨?_, ?_, ?_, ?_⟩
  · intro q _; by_cases h : q = 0 <;> simp [h]
  · intro q _; split <;> omega
  · intro l h1 h2; exact ⟨0, by omega, by simp; omega⟩
  · intro p _ q _ hp hq
    simp only [decide_eq_true_eq] at hp hq
    subst hp hq
    exact ⟨fun _ => Relation.ReflTransGen.refl, fun _ => rfl⟩
example : snThreshold 3 (fun q => ([1, 20, 6] : List ℚ).getD q 0) (fun _ => 1) 5 (some (1 / 2)) = some 10 := by decide +kernel

end Pixell
