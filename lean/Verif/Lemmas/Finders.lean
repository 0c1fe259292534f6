import Verif.Model.Finders
import Verif.Props.Distance
import Mathlib.Tactic.Linarith

/-!
Lemmas for C184: edges of labelled regions and descent of distances up to the border.
-/
namespace Pixell

variable {α : Type} [LinearOrder α]

/-- The mask of the pixels that are not of the region. -/
def maskOf (ny nx : ℕ) (f : ℕ → Bool) : Mask := ⟨ny, nx, (List.range (ny * nx)).map f⟩

theorem maskOf_ok {ny nx : ℕ} (hy : 0 < ny) (hx : 0 < nx) (f : ℕ → Bool) : (maskOf ny nx f).Ok := ⟨by simp [maskOf], hy, hx⟩

theorem maskOf_get {ny nx : ℕ} (f : ℕ → Bool) {i : ℕ} (hi : i < ny * nx) : (maskOf ny nx f).get i = f i := by
  simp [maskOf, Mask.get, List.getD_eq_getElem?_getD, hi]

/-- The edge pixels of labelled regions: those with a label and a neighbour of another one, or on the border. -/
theorem mem_findEdgesLabeled {ny nx : ℕ} (hny : 0 < ny) (hnx : 0 < nx) (lab : ℕ → ℕ) {y x : ℕ} (hy : y < ny) (hx : x < nx) :
    y * nx + x ∈ findEdgesLabeled ny nx lab ↔ lab (y * nx + x) ≠ 0 ∧ (y = 0 ∨ y + 1 = ny ∨ x = 0 ∨ x + 1 = nx ∨
      lab (y * nx + (x - 1)) ≠ lab (y * nx + x) ∨ lab (y * nx + (x + 1)) ≠ lab (y * nx + x) ∨
      lab ((y - 1) * nx + x) ≠ lab (y * nx + x) ∨ lab ((y + 1) * nx + x) ≠ lab (y * nx + x)) := by
  set l := lab (y * nx + x) with hl
  set m := maskOf ny nx fun i => decide (lab i ≠ l) with hm
  have hmok := maskOf_ok hny hnx fun i => decide (lab i ≠ l)
  have key : y * nx + x ∈ findEdgesLabeled ny nx lab ↔ l ≠ 0 ∧ y * nx + x ∈ findEdges m := by
    have hq := flat_lt hy hx
    have g0 : m.get (y * nx + x) = false := by rw [hm, maskOf_get _ hq]; simp [hl]
    have hne : ∀ {a : ℕ}, a < ny * nx → (m.get a = true ↔ lab a ≠ l) := by
      intro a ha
      rw [hm, maskOf_get _ ha]; simp
    have e1 : m.ny = ny := rfl
    have e2 : m.nx = nx := rfl
    unfold findEdgesLabeled findEdges
    rw [e1, e2]
    simp only [List.mem_append, List.mem_filter, List.mem_flatMap, g0, ← hl, Bool.not_false, Bool.true_and, decide_eq_true_eq]
    have hin : ∀ y', (y' ∈ List.range (ny - 2) ∧ y * nx + x ∈ List.map (fun x => (y' + 1) * nx + (x + 1)) (List.range (nx - 2))) →
        y = y' + 1 ∧ 0 < x ∧ x + 1 < nx ∧ y + 1 < ny := by
      rintro y' ⟨h1, h2⟩
      obtain ⟨x', hx', h⟩ := List.mem_map.1 h2
      have h1 := List.mem_range.1 h1
      have hx' := List.mem_range.1 hx'
      obtain ⟨a, b⟩ := flat_inj (by omega) hx h
      omega
    have hcond : ∀ y', (y' ∈ List.range (ny - 2) ∧ y * nx + x ∈ List.map (fun x => (y' + 1) * nx + (x + 1)) (List.range (nx - 2))) →
        ((lab (y * nx + x - 1) ≠ l ∨ lab (y * nx + x + 1) ≠ l ∨ lab (y * nx + x - nx) ≠ l ∨ lab (y * nx + x + nx) ≠ l) ↔
          (m.get (y * nx + x - 1) || m.get (y * nx + x + 1) || m.get (y * nx + x - nx) || m.get (y * nx + x + nx)) = true) := by
      intro y' h
      obtain ⟨a, b, c, d⟩ := hin y' h
      have u1 : y * nx + x + nx < ny * nx := by
        have := flat_lt d hx
        have e : (y + 1) * nx = y * nx + nx := by ring
        omega
      have u2 : y * nx + x + 1 < ny * nx := by
        have := flat_lt hy c
        omega
      simp only [Bool.or_eq_true, or_assoc]
      rw [hne (by omega), hne u2, hne (by omega), hne u1]
    constructor
    · rintro ((((⟨h, hv⟩ | ⟨h, hv⟩) | ⟨h, hv⟩) | ⟨h, hv⟩) | ⟨y', hy', h, hv, hn⟩)
      · exact ⟨hv, by tauto⟩
      · exact ⟨hv, by tauto⟩
      · exact ⟨hv, by tauto⟩
      · exact ⟨hv, by tauto⟩
      · exact ⟨hv, Or.inr ⟨y', hy', h, (hcond y' ⟨hy', h⟩).1 hn⟩⟩
    · rintro ⟨hv, ((((⟨h, -⟩ | ⟨h, -⟩) | ⟨h, -⟩) | ⟨h, -⟩) | ⟨y', hy', h, hn⟩)⟩
      · exact Or.inl (Or.inl (Or.inl (Or.inl ⟨h, hv⟩)))
      · exact Or.inl (Or.inl (Or.inl (Or.inr ⟨h, hv⟩)))
      · exact Or.inl (Or.inl (Or.inr ⟨h, hv⟩))
      · exact Or.inl (Or.inr ⟨h, hv⟩)
      · exact Or.inr ⟨y', hy', h, hv, (hcond y' ⟨hy', h⟩).2 hn⟩
  rw [key]
  by_cases hl0 : l = 0
  · simp [hl0]
  · simp only [ne_eq, hl0, not_false_eq_true, true_and]
    refine (C80_edges m hmok y x hy hx).trans ?_
    have hat : ∀ {a b : ℕ}, a < ny → b < nx → (m.at a b = true ↔ lab (a * nx + b) ≠ l) := by
      intro a b ha hb
      show (maskOf ny nx _).get (a * nx + b) = true ↔ _
      rw [maskOf_get _ (flat_lt ha hb)]; simp
    have e1 : m.ny = ny := rfl
    have e2 : m.nx = nx := rfl
    have h0 : m.at y x = false := by
      have := hat hy hx
      rw [Bool.eq_false_iff]
      intro h
      exact this.1 h rfl
    rw [e1, e2]
    by_cases hb : y = 0 ∨ y + 1 = ny ∨ x = 0 ∨ x + 1 = nx
    · have hb' : ∀ P : Prop, (y = 0 ∨ y + 1 = ny ∨ x = 0 ∨ x + 1 = nx ∨ P) := by
        intro P
        rcases hb with h | h | h | h
        · exact Or.inl h
        · exact Or.inr (Or.inl h)
        · exact Or.inr (Or.inr (Or.inl h))
        · exact Or.inr (Or.inr (Or.inr (Or.inl h)))
      exact ⟨fun _ => hb' _, fun _ => ⟨h0, hb' _⟩⟩
    · push Not at hb
      obtain ⟨b1, b2, b3, b4⟩ := hb
      have a1 := hat (a := y) (b := x - 1) hy (by omega)
      have a2 := hat (a := y) (b := x + 1) hy (by omega)
      have a3 := hat (a := y - 1) (b := x) (by omega) hx
      have a4 := hat (a := y + 1) (b := x) (by omega) hx
      clear_value m
      constructor
      · rintro ⟨-, h | h | h | h | h | h | h | h⟩
        · exact Or.inl h
        · exact Or.inr (Or.inl h)
        · exact Or.inr (Or.inr (Or.inl h))
        · exact Or.inr (Or.inr (Or.inr (Or.inl h)))
        · exact Or.inr (Or.inr (Or.inr (Or.inr (Or.inl (a1.1 h)))))
        · exact Or.inr (Or.inr (Or.inr (Or.inr (Or.inr (Or.inl (a2.1 h))))))
        · exact Or.inr (Or.inr (Or.inr (Or.inr (Or.inr (Or.inr (Or.inl (a3.1 h)))))))
        · exact Or.inr (Or.inr (Or.inr (Or.inr (Or.inr (Or.inr (Or.inr (a4.1 h)))))))
      · rintro (h | h | h | h | h | h | h | h)
        · exact absurd h b1
        · exact absurd h b2
        · exact absurd h b3
        · exact absurd h b4
        · exact ⟨h0, Or.inr (Or.inr (Or.inr (Or.inr (Or.inl (a1.2 h)))))⟩
        · exact ⟨h0, Or.inr (Or.inr (Or.inr (Or.inr (Or.inr (Or.inl (a2.2 h))))))⟩
        · exact ⟨h0, Or.inr (Or.inr (Or.inr (Or.inr (Or.inr (Or.inr (Or.inl (a3.2 h)))))))⟩
        · exact ⟨h0, Or.inr (Or.inr (Or.inr (Or.inr (Or.inr (Or.inr (Or.inr (a4.2 h)))))))⟩

theorem findEdgesLabeled_lt {ny nx : ℕ} (hny : 0 < ny) (hnx : 0 < nx) (lab : ℕ → ℕ) {q : ℕ} (h : q ∈ findEdgesLabeled ny nx lab) :
    q < ny * nx ∧ lab q ≠ 0 := by
  unfold findEdgesLabeled at h
  simp only [List.mem_append, List.mem_filter, List.mem_flatMap, List.mem_map, List.mem_range, decide_eq_true_eq] at h
  rcases h with (((⟨h, hv⟩ | ⟨⟨x, hx, rfl⟩, hv⟩) | ⟨⟨y, hy, rfl⟩, hv⟩) | ⟨⟨y, hy, rfl⟩, hv⟩) | ⟨y, hy, ⟨x, hx, rfl⟩, hv, -⟩
  · exact ⟨h.trans_le (Nat.le_mul_of_pos_left _ hny), hv⟩
  · exact ⟨flat_lt (by omega) hx, hv⟩
  · exact ⟨by have := flat_lt (ny := ny) (nx := nx) (y := y + 1) (x := 0) (by omega) hnx; simpa using this, hv⟩
  · exact ⟨flat_lt hy (by omega), hv⟩
  · exact ⟨flat_lt (by omega) (by omega), hv⟩

theorem simpleLoop_range (dist : ℕ → α) (n : ℕ) (hn : 0 < n) :
    ∃ v j, simpleLoop dist (List.range n) none = some (v, j) ∧ j < n ∧ dist j = v ∧ ∀ k < n, v ≤ dist k := by
  obtain ⟨⟨-, h1⟩, j, hj, h2, h3⟩ := C80_simple (dist 0) n hn dist
  unfold distSimple at h1 h2 h3
  rcases h : simpleLoop dist (List.range n) none with _ | ⟨v, k⟩
  · rw [h] at h2; cases h2
  · rw [h] at h1 h2 h3
    simp only [Option.some.injEq] at h2
    subst h2
    exact ⟨v, k, rfl, hj, h3, fun i hi => h1 i hi⟩

/-- The closest edge pixel, as labeled_distance_transform finds it. -/
theorem labeledDist_nearest (zero : α) (d : ℕ → ℕ → ℕ → α) (rmax : Option α) {ny nx : ℕ} (lab : ℕ → ℕ) (q : ℕ)
    (hne : findEdgesLabeled ny nx lab ≠ []) :
    ∃ e ∈ findEdgesLabeled ny nx lab, (∀ e' ∈ findEdgesLabeled ny nx lab, d e (q / nx) (q % nx) ≤ d e' (q / nx) (q % nx)) ∧
      labeledDist zero d rmax ny nx lab q =
        (if lab q ≠ 0 then some zero else some (match rmax with | none => d e (q / nx) (q % nx) | some rm => min rm (d e (q / nx) (q % nx))),
          match rmax with | none => lab e | some rm => if rm < d e (q / nx) (q % nx) then 0 else lab e) := by
  set es := findEdgesLabeled ny nx lab with hes
  obtain ⟨v, j, h1, h2, h3, h4⟩ := simpleLoop_range (fun j => d (es.getD j 0) (q / nx) (q % nx)) es.length (List.length_pos_iff.2 hne)
  have hg : es.getD j 0 = es[j] := List.getD_eq_getElem _ _ h2
  refine ⟨es[j], List.getElem_mem h2, ?_, ?_⟩
  · intro e' he'
    obtain ⟨k, hk, rfl⟩ := List.getElem_of_mem he'
    have := h4 k hk
    rw [← h3, hg, List.getD_eq_getElem _ _ hk] at this
    exact this
  · unfold labeledDist
    simp only [← hes, h1]
    rw [hg] at h3
    cases rmax with
    | none => simp only [← h3, hg]
    | some rm =>
      simp only [hg, h3]
      by_cases hc : rm < v
      · simp only [if_pos hc, min_eq_left hc.le]
      · simp only [if_neg hc, min_eq_right (not_lt.1 hc)]

theorem findEdgesLabeled_ne_nil {ny nx : ℕ} (hny : 0 < ny) (hnx : 0 < nx) (lab : ℕ → ℕ) {q : ℕ} (hq : q < ny * nx) (hl : lab q ≠ 0) :
    findEdgesLabeled ny nx lab ≠ [] := by
  have hw := Nat.mod_lt q hnx
  have hz : q / nx < ny := Nat.div_lt_of_lt_mul (by rw [Nat.mul_comm]; exact hq)
  have walk : ∀ w z, z < ny → w < nx → lab (z * nx + w) ≠ 0 → findEdgesLabeled ny nx lab ≠ [] := by
    intro w
    induction w with
    | zero =>
      intro z hz hw hf
      exact List.ne_nil_of_mem ((mem_findEdgesLabeled hny hnx lab hz hw).2 ⟨hf, by simp⟩)
    | succ w ih =>
      intro z hz hw hf
      by_cases h : lab (z * nx + w) = lab (z * nx + (w + 1))
      · exact ih z hz (by omega) (by rw [h]; exact hf)
      · exact List.ne_nil_of_mem ((mem_findEdgesLabeled hny hnx lab hz hw).2 ⟨hf, by simp [h]⟩)
  exact walk _ _ hz hw (by rw [Nat.div_add_mod']; exact hl)

/-- Distances for which every pixel other than the given one, also on the border, has a neighbour in the map that is closer to it. -/
def DescentAll (ny nx : ℕ) (d : ℕ → ℕ → ℕ → α) : Prop :=
  ∀ y x z w, y < ny → x < nx → z < ny → w < nx → (z, w) ≠ (y, x) →
    ∃ z' w', z' < ny ∧ w' < nx ∧ ((z' = z ∧ (w' + 1 = w ∨ w' = w + 1)) ∨ (w' = w ∧ (z' + 1 = z ∨ z' = z + 1))) ∧
      d (z' * nx + w') y x < d (z * nx + w) y x

theorem neighbour_edge {ny nx : ℕ} (hny : 0 < ny) (hnx : 0 < nx) (lab : ℕ → ℕ) {z w z' w' : ℕ} (hz : z < ny) (hw : w < nx) (hz' : z' < ny)
    (hw' : w' < nx) (hn : (z' = z ∧ (w' + 1 = w ∨ w' = w + 1)) ∨ (w' = w ∧ (z' + 1 = z ∨ z' = z + 1)))
    (h0 : lab (z' * nx + w') ≠ 0) (hne : lab (z * nx + w) ≠ lab (z' * nx + w')) : z' * nx + w' ∈ findEdgesLabeled ny nx lab := by
  rw [mem_findEdgesLabeled hny hnx lab hz' hw']
  refine ⟨h0, ?_⟩
  rcases hn with ⟨rfl, h | h⟩ | ⟨rfl, h | h⟩
  · subst h; tauto
  · subst h
    have : lab (z' * nx + (w + 1 - 1)) ≠ lab (z' * nx + (w + 1)) := hne
    tauto
  · subst h; tauto
  · subst h
    have : lab ((z + 1 - 1) * nx + w') ≠ lab ((z + 1) * nx + w') := hne
    tauto

/-- The closest edge pixel to a pixel of a region is one of that region. -/
theorem nearest_same_region {ny nx : ℕ} (hny : 0 < ny) (hnx : 0 < nx) (lab : ℕ → ℕ) (d : ℕ → ℕ → ℕ → α) (hd : DescentAll ny nx d) {y x : ℕ}
    (hy : y < ny) (hx : x < nx) (hl : lab (y * nx + x) ≠ 0) {e : ℕ} (he : e ∈ findEdgesLabeled ny nx lab)
    (hmin : ∀ e' ∈ findEdgesLabeled ny nx lab, d e y x ≤ d e' y x) : lab e = lab (y * nx + x) := by
  by_contra hne
  have hlt := (findEdgesLabeled_lt hny hnx lab he).1
  obtain ⟨q, hq, hqs, hqmin⟩ := exists_least (ny * nx) (fun q => lab q ≠ lab (y * nx + x)) (fun q => d q y x) ⟨e, hlt, hne⟩
  have hw := Nat.mod_lt q hnx
  have hz : q / nx < ny := Nat.div_lt_of_lt_mul (by rw [Nat.mul_comm]; exact hq)
  have eq : q / nx * nx + q % nx = q := Nat.div_add_mod' q nx
  obtain ⟨z', w', hz', hw', hn, hc⟩ := hd y x (q / nx) (q % nx) hy hx hz hw (by
    intro h
    simp only [Prod.mk.injEq] at h
    rw [← h.1, ← h.2, eq] at hqs
    exact hqs rfl)
  rw [eq] at hc
  have hsame : lab (z' * nx + w') = lab (y * nx + x) := by
    by_contra hcon
    exact absurd (hqmin _ (flat_lt hz' hw') hcon) (not_le.2 hc)
  have hedge := neighbour_edge hny hnx lab hz hw hz' hw' hn (by rw [hsame]; exact hl) (by rw [eq, hsame]; exact hqs)
  have h1 := hmin _ hedge
  have h2 := hqmin e hlt hne
  exact absurd (h1.trans_lt hc) (not_lt.2 h2)

/-- The closest labelled pixel to a pixel without label is an edge pixel. -/
theorem nearest_label_edge {ny nx : ℕ} (hny : 0 < ny) (hnx : 0 < nx) (lab : ℕ → ℕ) (d : ℕ → ℕ → ℕ → α) (hd : Descent ny nx d) {y x : ℕ}
    (hy : y < ny) (hx : x < nx) (hl : lab (y * nx + x) = 0) {q : ℕ} (hq : q < ny * nx) (hq0 : lab q ≠ 0)
    (hmin : ∀ p < ny * nx, lab p ≠ 0 → d q y x ≤ d p y x) : q ∈ findEdgesLabeled ny nx lab := by
  set m := maskOf ny nx fun i => decide (lab i = 0) with hm
  have hg : ∀ {a : ℕ}, a < ny * nx → m.get a = decide (lab a = 0) := fun ha => maskOf_get _ ha
  have := nearest_is_edge m (maskOf_ok hny hnx _) d hd y x hy hx (by
    show m.get (y * nx + x) = true
    rw [hg (flat_lt hy hx)]; simpa using hl) q hq (by rw [hg hq]; simpa using hq0) (by
    intro p hp hpf
    apply hmin p hp
    rw [hg hp] at hpf
    simpa using hpf)
  have hw := Nat.mod_lt q hnx
  have hz : q / nx < ny := Nat.div_lt_of_lt_mul (by rw [Nat.mul_comm]; exact hq)
  have eq : q / nx * nx + q % nx = q := Nat.div_add_mod' q nx
  rw [← eq] at this hq0 ⊢
  rw [mem_findEdgesLabeled hny hnx lab hz hw]
  obtain ⟨-, h⟩ := (C80_edges m (maskOf_ok hny hnx _) _ _ hz hw).1 this
  refine ⟨hq0, ?_⟩
  have e1 : m.ny = ny := rfl
  have e2 : m.nx = nx := rfl
  rw [e1, e2] at h
  have hat : ∀ {a b : ℕ}, a < ny → b < nx → m.at a b = true → lab (a * nx + b) ≠ lab (q / nx * nx + q % nx) := by
    intro a b ha hb hab
    have : m.get (a * nx + b) = true := hab
    rw [hg (flat_lt ha hb)] at this
    have : lab (a * nx + b) = 0 := by simpa using this
    rw [this]
    exact hq0.symm
  by_cases hb : q / nx = 0 ∨ q / nx + 1 = ny ∨ q % nx = 0 ∨ q % nx + 1 = nx
  · tauto
  · push Not at hb
    obtain ⟨b1, b2, b3, b4⟩ := hb
    rcases h with h | h | h | h | h | h | h | h
    · tauto
    · tauto
    · tauto
    · tauto
    · have := hat hz (by omega) h; tauto
    · have := hat hz (by omega) h; tauto
    · have := hat (by omega) hw h; tauto
    · have := hat (by omega) hw h; tauto

/-! ### Cylindrical maps of at most half a turn -/

theorem CylGrid.descentAll (g : CylGrid) (hturn : |g.step| * (g.nx - 1 : ℕ) ≤ Real.pi)
    (hdec : ∀ y < g.ny, -(Real.pi / 2) < g.dec y ∧ g.dec y < Real.pi / 2) : DescentAll g.ny g.nx g.flat := by
  intro y x z w hy hx hz hw hne
  have hb : 0 < |g.step| := abs_pos.mpr g.step_ne
  have hcz : 0 < Real.cos (g.dec z) := Real.cos_pos_of_mem_Ioo (hdec z hz)
  have hcy : 0 < Real.cos (g.dec y) := Real.cos_pos_of_mem_Ioo (hdec y hy)
  have flat : ∀ {a b : ℕ}, a < g.ny → b < g.nx → g.flat (a * g.nx + b) y x = g.dist a b y x := by
    intro a b ha hb
    unfold CylGrid.flat
    rw [if_pos ⟨flat_lt ha hb, hy, hx⟩, (flat_div hb).1, (flat_div hb).2]
  by_cases hwx : w = x
  · subst hwx
    have hzy : z ≠ y := fun e => hne (by rw [e])
    obtain ⟨z', hz'lt, hz', hd⟩ : ∃ z', z' < g.ny ∧ (z' + 1 = z ∨ z' = z + 1) ∧ ((g.dec y ≤ g.dec z' ∧ g.dec z' < g.dec z) ∨
        (g.dec z < g.dec z' ∧ g.dec z' ≤ g.dec y)) := by
      have mle : ∀ a b, a ≤ b → b < g.ny → (∀ y z, y < z → z < g.ny → g.dec y < g.dec z) → g.dec a ≤ g.dec b := by
        intro a b hab hb h
        rcases hab.eq_or_lt with e | e
        · rw [e]
        · exact (h a b e hb).le
      have mle' : ∀ a b, a ≤ b → b < g.ny → (∀ y z, y < z → z < g.ny → g.dec z < g.dec y) → g.dec b ≤ g.dec a := by
        intro a b hab hb h
        rcases hab.eq_or_lt with e | e
        · rw [e]
        · exact (h a b e hb).le
      rcases lt_or_gt_of_ne hzy with hlt | hlt
      · refine ⟨z + 1, by omega, Or.inr rfl, ?_⟩
        rcases g.mono with h | h
        · right; exact ⟨h z (z + 1) (by omega) (by omega), mle _ _ (by omega) hy h⟩
        · left; exact ⟨mle' _ _ (by omega) hy h, h z (z + 1) (by omega) (by omega)⟩
      · refine ⟨z - 1, by omega, Or.inl (by omega), ?_⟩
        rcases g.mono with h | h
        · left; exact ⟨mle _ _ (by omega) (by omega) h, h (z - 1) z (by omega) (by omega)⟩
        · right; exact ⟨h (z - 1) z (by omega) (by omega), mle' _ _ (by omega) (by omega) h⟩
    refine ⟨z', w, hz'lt, hw, Or.inr ⟨rfl, hz'⟩, ?_⟩
    rw [flat hz'lt hw, flat hz hw]
    unfold CylGrid.dist
    rw [sphAngle_lt, sphDot_eq, sphDot_eq, sub_self, Real.cos_zero, mul_one, mul_one]
    have e : ∀ a b : ℝ, Real.sin a * Real.sin b + Real.cos a * Real.cos b = Real.cos (a - b) := fun a b => by rw [Real.cos_sub]; ring
    rw [e, e, ← Real.cos_abs (g.dec z - g.dec y), ← Real.cos_abs (g.dec z' - g.dec y)]
    have r1 := hdec y hy
    have r2 := hdec z hz
    apply Real.cos_lt_cos_of_nonneg_of_le_pi (abs_nonneg _)
    · rw [abs_le]; constructor <;> linarith
    · rcases hd with ⟨a, b⟩ | ⟨a, b⟩
      · rw [abs_of_nonneg (by linarith), abs_of_nonneg (by linarith)]; linarith
      · rw [abs_of_nonpos (by linarith), abs_of_nonpos (by linarith)]; linarith
  · obtain ⟨w', hw', hstep, k, hk0, hk, hk1, hk2⟩ : ∃ w', w' < g.nx ∧ (w' + 1 = w ∨ w' = w + 1) ∧ ∃ k : ℕ, 0 < k ∧ k ≤ g.nx - 1 ∧
        (w = x + k ∨ x = w + k) ∧ (w' = x + (k - 1) ∨ x = w' + (k - 1)) := by
      rcases lt_or_gt_of_ne hwx with h | h
      · exact ⟨w + 1, by omega, Or.inr rfl, x - w, by omega, by omega, by omega, by omega⟩
      · exact ⟨w - 1, by omega, Or.inl (by omega), w - x, by omega, by omega, by omega, by omega⟩
    refine ⟨z, w', hz, hw', Or.inl ⟨rfl, hstep⟩, ?_⟩
    rw [flat hz hw', flat hz hw]
    unfold CylGrid.dist
    rw [sphAngle_lt, sphDot_eq, sphDot_eq, g.cos_eq w x k (by tauto), g.cos_eq w' x (k - 1) (by tauto)]
    have hbk : |g.step| * (k : ℝ) ≤ Real.pi := by
      refine le_trans ?_ hturn
      gcongr
    have := (cos_step |g.step| hb k (g.nx - 1) hk0 g.turn (Or.inr hbk)).1 hbk
    have hp := mul_pos hcz hcy
    nlinarith

end Pixell
