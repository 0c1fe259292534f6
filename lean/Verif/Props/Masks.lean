import Mathlib.Tactic.IntervalCases
import Mathlib.Tactic.NormNum
import Mathlib.Analysis.Real.Sqrt
import Verif.Lemmas.DistMap
import Verif.Lemmas.DistSound

/-
Properties C70 and C80 for the default method: growing and shrinking masks.
-/
namespace Pixell

variable {α : Type} [LinearOrder α]

/-! ### The default method never underestimates -/

/-- C80: whatever the cellgrid method stores for a pixel is either `rmax` or the distance to one of the points; so it is
never smaller than the true distance (or `rmax`). Any map, block size and points at pixel centres. -/
theorem C80_cellgrid_sound (g : DGrid α) (zero : α) (fuel : Nat) (pts : List (Nat × Nat)) (s : DState α) (hbs : 0 < g.bsize)
    (hpts : ∀ p ∈ pts, p.1 < g.ny ∧ p.2 < g.nx) (hz : ∀ i p, pts[i]? = some p → g.d i p.1 p.2 = zero)
    (hr : g.run zero fuel pts = some s) :
    s.dists.length = g.ny * g.nx ∧ ∀ y < g.ny, ∀ x < g.nx, ∃ v, s.dists[y * g.nx + x]? = some v ∧
      (v = g.rmax ∨ ∃ i < pts.length, v = g.d i y x) := by
  unfold DGrid.run at hr
  obtain ⟨h1, h2⟩ := init_ok g zero pts hbs hpts hz
  have h := loop_ok hbs zero fuel _ s _ h1 (by
    refine ⟨by simp, fun y hy x hx => Or.inl ?_⟩
    rw [List.getD_eq_getElem?_getD, List.getElem?_replicate]
    split_ifs <;> rfl) h2 hr
  refine ⟨h.1, fun y hy x hx => ?_⟩
  have hlt : y * g.nx + x < s.dists.length := by rw [h.1]; exact flat_lt hy hx
  refine ⟨s.dists[y * g.nx + x], List.getElem?_eq_getElem hlt, ?_⟩
  have := h.2 y hy x hx
  rw [List.getD_eq_getElem _ _ hlt] at this
  exact this

/-- C80 for the distance transform with the default method: in a True pixel the value is `rmax` or the distance to some
False pixel of the mask; in a False pixel it is zero. -/
theorem C80_transform_sound (zero : α) (fuel : Nat) (d : Nat → Nat → Nat → α) (rmax : α) (m : Mask) (hm : m.Ok)
    (hz : ∀ q < m.ny * m.nx, d q (q / m.nx) (q % m.nx) = zero) (t : List α)
    (ht : distanceTransform (cellgridMethod zero fuel) zero d rmax m = some t) :
    t.length = m.ny * m.nx ∧ ∀ y < m.ny, ∀ x < m.nx, ∃ v, t[y * m.nx + x]? = some v ∧ (m.at y x = false → v = zero) ∧
      (m.at y x = true → v = rmax ∨ ∃ q < m.ny * m.nx, m.get q = false ∧ v = d q y x) := by
  have hget : ∀ y < m.ny, ∀ x < m.nx, m.val[y * m.nx + x]? = some (m.at y x) := by
    intro y hy x hx
    unfold Mask.at Mask.get
    rw [List.getD_eq_getElem?_getD, List.getElem?_eq_getElem (by rw [hm.len]; exact flat_lt hy hx)]
    rfl
  unfold distanceTransform cellgridMethod at ht
  by_cases hE : findEdges m = []
  · simp only [hE, if_true, Option.bind_eq_bind, Option.bind_some, Option.pure_def, Option.some.injEq] at ht
    subst ht
    refine ⟨by simp [hm.len], fun y hy x hx => ?_⟩
    refine ⟨if m.at y x then rmax else zero, ?_, ?_, ?_⟩
    · rw [List.getElem?_zipWith, hget y hy x hx]
      simp [List.getElem?_replicate, flat_lt hy hx]
    · intro h; rw [h]; rfl
    · intro h; rw [h]; exact Or.inl rfl
  · simp only [hE, if_false, Option.bind_eq_bind, Option.pure_def, Option.bind_eq_some_iff, Option.map_eq_some_iff,
      Option.some.injEq] at ht
    obtain ⟨l, ⟨s, hs, rfl⟩, rfl⟩ := ht
    have hmem : ∀ q ∈ findEdges m, q < m.ny * m.nx := findEdges_lt m hm
    have hsound := C80_cellgrid_sound ⟨m.ny, m.nx, 32, fun i => d ((findEdges m).getD i 0), rmax⟩ zero fuel _ s (by simp only; omega) (by
        intro p hp
        rw [List.mem_map] at hp
        obtain ⟨q, hq, rfl⟩ := hp
        exact ⟨Nat.div_lt_of_lt_mul (by rw [Nat.mul_comm]; exact hmem q hq), Nat.mod_lt _ hm.nx_pos⟩) (by
        intro i p hp
        rw [List.getElem?_map, Option.map_eq_some_iff] at hp
        obtain ⟨q, hq, rfl⟩ := hp
        have hq' : (findEdges m).getD i 0 = q := by rw [List.getD_eq_getElem?_getD, hq]; rfl
        simp only [hq']
        exact hz q (hmem q (List.mem_of_getElem? hq))) hs
    simp only at hsound
    obtain ⟨hl, hv⟩ := hsound
    refine ⟨by simp [hm.len, hl], fun y hy x hx => ?_⟩
    obtain ⟨v, hv1, hv2⟩ := hv y hy x hx
    refine ⟨if m.at y x then v else zero, ?_, ?_, ?_⟩
    · rw [List.getElem?_zipWith, hget y hy x hx, hv1]
    · intro h; rw [h]; rfl
    · intro h; rw [h]
      simp only [if_true]
      rcases hv2 with hv2 | ⟨i, hi, hv2⟩
      · exact Or.inl hv2
      · right
        rw [List.length_map] at hi
        refine ⟨(findEdges m).getD i 0, ?_, ?_, hv2⟩
        · rw [List.getD_eq_getElem _ _ hi]; exact hmem _ (List.getElem_mem hi)
        · rw [List.getD_eq_getElem _ _ hi]; exact findEdges_false m hm _ (List.getElem_mem hi)

/-! ### Growing and shrinking -/

theorem Mask.not_not (m : Mask) : m.not.not = m := by
  obtain ⟨ny, nx, v⟩ := m
  unfold Mask.not
  simp only [List.map_map]
  congr 1
  have : ((fun x => !x) ∘ fun x : Bool => !x) = id := by funext b; simp
  rw [this, List.map_id]

theorem Mask.not_ok {m : Mask} (h : m.Ok) : m.not.Ok := ⟨by simpa [Mask.not] using h.len, h.ny_pos, h.nx_pos⟩

theorem Mask.not_get {m : Mask} (h : m.Ok) (q : Nat) (hq : q < m.ny * m.nx) : m.not.get q = !m.get q := by
  unfold Mask.get Mask.not
  have : q < m.val.length := by rw [h.len]; exact hq
  simp [List.getD_eq_getElem?_getD, this]

/-- C70: shrinking a mask is the complement of growing its complement, for every method, mask, radius and distances. -/
theorem C70_dual (meth : DistMethod α) (zero : α) (d : Nat → Nat → Nat → α) (m : Mask) (r : α) :
    shrinkMask meth zero d m r = (growMask meth zero d m.not r).map Mask.not := by
  unfold shrinkMask growMask
  rw [Mask.not_not]
  cases distanceTransform meth zero d r m with
  | none => rfl
  | some t =>
    simp only [Option.bind_eq_bind, Option.bind_some, Option.pure_def, Option.map_some]
    congr 1
    unfold Mask.not
    simp only [List.map_map]
    congr 1
    apply List.map_congr_left
    intro v _
    simp only [Function.comp, ← not_lt, decide_not]

theorem transform_false (meth : DistMethod α) (zero : α) (d : Nat → Nat → Nat → α) (rmax : α) (m : Mask) (t : List α)
    (ht : distanceTransform meth zero d rmax m = some t) (i : Nat) (hi : m.val[i]? = some false) (v : α) (hv : t[i]? = some v) :
    v = zero := by
  unfold distanceTransform at ht
  simp only at ht
  split_ifs at ht with hE
  all_goals
    simp only [Option.bind_eq_bind, Option.pure_def, Option.bind_eq_some_iff, Option.some.injEq] at ht
    obtain ⟨l, -, rfl⟩ := ht
    rw [List.getElem?_zipWith, hi] at hv
    cases hl : l[i]? with
    | none => rw [hl] at hv; simp at hv
    | some w => rw [hl] at hv; simpa using hv.symm

/-- C70: for a positive radius, growing keeps every True pixel and shrinking adds none, whatever the method. (A pixel of the
result exists when the method returns a map of the right size.) -/
theorem C70_contains (meth : DistMethod α) (zero : α) (d : Nat → Nat → Nat → α) (m : Mask) (r : α) (hr : zero < r) :
    (∀ m', growMask meth zero d m r = some m' → ∀ (i : Nat) b, m.val[i]? = some true → m'.val[i]? = some b → b = true) ∧
    (∀ m', shrinkMask meth zero d m r = some m' → ∀ (i : Nat), m.val[i]? = some false → ∀ b, m'.val[i]? = some b → b = false) := by
  constructor
  · intro m' h i b hi hb
    unfold growMask at h
    simp only [Option.bind_eq_bind, Option.pure_def, Option.bind_eq_some_iff, Option.some.injEq] at h
    obtain ⟨t, ht, rfl⟩ := h
    simp only [List.getElem?_map, Option.map_eq_some_iff] at hb
    obtain ⟨v, hv, rfl⟩ := hb
    have := transform_false meth zero d r m.not t ht i (by simp [Mask.not, hi]) v hv
    rw [this]; simpa using hr
  · intro m' h i hi b hb
    unfold shrinkMask at h
    simp only [Option.bind_eq_bind, Option.pure_def, Option.bind_eq_some_iff, Option.some.injEq] at h
    obtain ⟨t, ht, rfl⟩ := h
    simp only [List.getElem?_map, Option.map_eq_some_iff] at hb
    obtain ⟨v, hv, rfl⟩ := hb
    have := transform_false meth zero d r m t ht i hi v hv
    rw [this]; simpa using hr

/-- C70 refuted for radius zero: as distances are never negative, growing by zero gives an empty mask and shrinking by zero
a full one. -/
theorem C70_zero_refuted (meth : DistMethod α) (zero : α) (d : Nat → Nat → Nat → α) (m : Mask)
    (hpos : ∀ m' t, distanceTransform meth zero d zero m' = some t → ∀ v ∈ t, zero ≤ v) :
    (∀ m', growMask meth zero d m zero = some m' → ∀ b ∈ m'.val, b = false) ∧
    (∀ m', shrinkMask meth zero d m zero = some m' → ∀ b ∈ m'.val, b = true) := by
  constructor
  · intro m' h b hb
    unfold growMask at h
    simp only [Option.bind_eq_bind, Option.pure_def, Option.bind_eq_some_iff, Option.some.injEq] at h
    obtain ⟨t, ht, rfl⟩ := h
    simp only [List.mem_map] at hb
    obtain ⟨v, hv, rfl⟩ := hb
    simpa using hpos _ _ ht v hv
  · intro m' h b hb
    unfold shrinkMask at h
    simp only [Option.bind_eq_bind, Option.pure_def, Option.bind_eq_some_iff, Option.some.injEq] at h
    obtain ⟨t, ht, rfl⟩ := h
    simp only [List.mem_map] at hb
    obtain ⟨v, hv, rfl⟩ := hb
    simpa using hpos _ _ ht v hv

/-- C70 for the default method: growing never reaches too far. Every pixel of the result was True or is closer than `r` to a
True pixel. -/
theorem C70_grow_sound (zero : α) (fuel : Nat) (d : Nat → Nat → Nat → α) (r : α) (m m' : Mask) (hm : m.Ok)
    (hz : ∀ q < m.ny * m.nx, d q (q / m.nx) (q % m.nx) = zero)
    (h : growMask (cellgridMethod zero fuel) zero d m r = some m') (y x : Nat) (hy : y < m.ny) (hx : x < m.nx)
    (hg : m'.at y x = true) : m.at y x = true ∨ ∃ q < m.ny * m.nx, m.get q = true ∧ d q y x < r := by
  unfold growMask at h
  simp only [Option.bind_eq_bind, Option.pure_def, Option.bind_eq_some_iff, Option.some.injEq] at h
  obtain ⟨t, ht, rfl⟩ := h
  obtain ⟨hl, hv⟩ := C80_transform_sound zero fuel d r m.not (Mask.not_ok hm) hz t ht
  obtain ⟨v, h1, h2, h3⟩ := hv y hy x hx
  have hnot : m.not.at y x = !m.at y x := Mask.not_get hm _ (flat_lt hy hx)
  have hnx : m.not.nx = m.nx := rfl
  rw [hnx] at h1
  have hlt : v < r := by
    unfold Mask.at Mask.get at hg
    rw [List.getD_eq_getElem?_getD, List.getElem?_map, h1] at hg
    simpa using hg
  cases hm0 : m.at y x with
  | true => exact Or.inl rfl
  | false =>
    right
    rcases h3 (by rw [hnot, hm0]; rfl) with h3 | ⟨q, hq, hqf, h3⟩
    · rw [h3] at hlt; exact absurd hlt (lt_irrefl _)
    · refine ⟨q, hq, ?_, by rw [← h3]; exact hlt⟩
      rw [Mask.not_get hm q hq] at hqf
      simpa using hqf

/-- C70 with exact distances (method "simple") on every grid with the descent property, in particular every cylindrical map:
growing gives exactly the pixels closer than `r` to a True pixel. -/
theorem C70_grow_exact (zero : α) (d : Nat → Nat → Nat → α) (r : α) (hr : zero < r) (m : Mask) (hm : m.Ok)
    (hd : Descent m.ny m.nx d) (hz : ∀ q < m.ny * m.nx, d q (q / m.nx) (q % m.nx) = zero) :
    ∃ m', growMask simpleMethod zero d m r = some m' ∧ ∀ y x, y < m.ny → x < m.nx →
      (m'.at y x = true ↔ ∃ q < m.ny * m.nx, m.get q = true ∧ d q y x < r) := by
  obtain ⟨t, ht, htl, h⟩ := C80_exact zero d r m.not (Mask.not_ok hm) hd
  refine ⟨{ m with val := t.map fun v => decide (v < r) }, by unfold growMask; rw [ht]; rfl, ?_⟩
  intro y x hy hx
  obtain ⟨v, h1, h2, h3, h4⟩ := h y x hy hx
  have hnx : m.not.nx = m.nx := rfl
  have hny : m.not.ny = m.ny := rfl
  rw [hnx] at h1
  have hat : ({ m with val := t.map fun v => decide (v < r) } : Mask).at y x = decide (v < r) := by
    unfold Mask.at Mask.get
    rw [List.getD_eq_getElem?_getD, List.getElem?_map, h1]; rfl
  rw [hat, decide_eq_true_eq]
  have hnot : m.not.at y x = !m.at y x := Mask.not_get hm _ (flat_lt hy hx)
  have hng : ∀ q < m.ny * m.nx, (m.not.get q = false ↔ m.get q = true) := by
    intro q hq; rw [Mask.not_get hm q hq]; simp
  rw [hnx, hny] at h3 h4
  cases hm0 : m.at y x with
  | true =>
    rw [h2 (by rw [hnot, hm0]; rfl)]
    refine ⟨fun _ => ⟨y * m.nx + x, flat_lt hy hx, hm0, ?_⟩, fun _ => hr⟩
    have := hz _ (flat_lt hy hx)
    rw [(flat_div hx).1, (flat_div hx).2] at this
    rw [this]; exact hr
  | false =>
    have ht' : m.not.at y x = true := by rw [hnot, hm0]; rfl
    by_cases hex : ∃ q < m.ny * m.nx, m.get q = true
    · obtain ⟨q0, hq0, hq0t⟩ := hex
      obtain ⟨⟨q, ⟨hq, hqf⟩, hqv⟩, hmin⟩ := h3 ht' ⟨q0, hq0, (hng q0 hq0).mpr hq0t⟩
      constructor
      · intro hlt
        exact ⟨q, hq, (hng q hq).mp hqf, by simp only at hqv; rw [hqv]; exact hlt⟩
      · rintro ⟨p, hp, hpt, hlt⟩
        exact lt_of_le_of_lt (hmin p ⟨hp, (hng p hp).mpr hpt⟩) hlt
    · push Not at hex
      have := h4 ht' (fun q hq => by rw [Mask.not_get hm q hq]; simpa using hex q hq)
      rw [this]
      simp only [lt_self_iff_false, false_iff, not_exists, not_and]
      intro q hq hqt
      exact absurd hqt (hex q hq)

/-- C70 with exact distances: growing and shrinking are monotone in the mask. -/
theorem C70_monotone_partial (zero : α) (d : Nat → Nat → Nat → α) (r : α) (hr : zero < r) (m n : Mask) (hm : m.Ok)
    (hn : n.Ok) (hy : n.ny = m.ny) (hx : n.nx = m.nx) (hd : Descent m.ny m.nx d)
    (hz : ∀ q < m.ny * m.nx, d q (q / m.nx) (q % m.nx) = zero) (hle : ∀ q < m.ny * m.nx, m.get q = true → n.get q = true) :
    (∃ m' n', growMask simpleMethod zero d m r = some m' ∧ growMask simpleMethod zero d n r = some n' ∧
      ∀ y x, y < m.ny → x < m.nx → m'.at y x = true → n'.at y x = true) ∧
    (∃ m' n', shrinkMask simpleMethod zero d m r = some m' ∧ shrinkMask simpleMethod zero d n r = some n' ∧
      ∀ y x, y < m.ny → x < m.nx → m'.at y x = true → n'.at y x = true) := by
  have key : ∀ (m n : Mask), m.Ok → n.Ok → n.ny = m.ny → n.nx = m.nx → Descent m.ny m.nx d →
      (∀ q < m.ny * m.nx, d q (q / m.nx) (q % m.nx) = zero) → (∀ q < m.ny * m.nx, m.get q = true → n.get q = true) →
      ∃ m' n', growMask simpleMethod zero d m r = some m' ∧ growMask simpleMethod zero d n r = some n' ∧
        ∀ y x, y < m.ny → x < m.nx → m'.at y x = true → n'.at y x = true := by
    intro m n hm hn hy hx hd hz hle
    obtain ⟨m', e1, h1⟩ := C70_grow_exact zero d r hr m hm hd hz
    obtain ⟨n', e2, h2⟩ := C70_grow_exact zero d r hr n hn (by rw [hy, hx]; exact hd) (by rw [hy, hx]; exact hz)
    refine ⟨m', n', e1, e2, fun y x hy' hx' h => ?_⟩
    obtain ⟨q, hq, hqt, hlt⟩ := (h1 y x hy' hx').mp h
    exact (h2 y x (by omega) (by omega)).mpr ⟨q, by rw [hy, hx]; exact hq, hle q hq hqt, hlt⟩
  refine ⟨key m n hm hn hy hx hd hz hle, ?_⟩
  obtain ⟨n', m', e1, e2, h⟩ := key n.not m.not (Mask.not_ok hn) (Mask.not_ok hm) hy.symm hx.symm
    (show Descent n.ny n.nx d by rw [hy, hx]; exact hd)
    (show ∀ q < n.ny * n.nx, d q (q / n.nx) (q % n.nx) = zero by rw [hy, hx]; exact hz) (by
      intro q hq hqt
      have hq' : q < m.ny * m.nx := by
        have : n.not.ny * n.not.nx = m.ny * m.nx := by change n.ny * n.nx = _; rw [hy, hx]
        omega
      rw [Mask.not_get hn q hq] at hqt
      rw [Mask.not_get hm q hq']
      cases hmq : m.get q with
      | false => rfl
      | true => rw [hle q hq' hmq] at hqt; cases hqt)
  refine ⟨m'.not, n'.not, by rw [C70_dual, e2]; rfl, by rw [C70_dual, e1]; rfl, ?_⟩
  intro y x hy' hx' hmt
  have sz : ∀ (k k' : Mask), k.Ok → Descent k.ny k.nx d → growMask simpleMethod zero d k r = some k' →
      k'.Ok ∧ k'.ny = k.ny ∧ k'.nx = k.nx := by
    intro k k' hk hd' e
    obtain ⟨t, ht, htl, -⟩ := C80_exact zero d r k.not (Mask.not_ok hk) hd'
    unfold growMask at e
    rw [ht] at e
    simp only [Option.bind_eq_bind, Option.bind_some, Option.pure_def, Option.some.injEq] at e
    subst e
    exact ⟨⟨by rw [List.length_map]; exact htl, hk.ny_pos, hk.nx_pos⟩, rfl, rfl⟩
  obtain ⟨s1, s2, s3⟩ := sz m.not m' (Mask.not_ok hm) hd e2
  obtain ⟨s4, s5, s6⟩ := sz n.not n' (Mask.not_ok hn) (show Descent n.ny n.nx d by rw [hy, hx]; exact hd) e1
  have hmy : m.not.ny = m.ny := rfl
  have hmx : m.not.nx = m.nx := rfl
  have hny : n.not.ny = n.ny := rfl
  have hnx : n.not.nx = n.nx := rfl
  have a1 : m'.not.at y x = !m'.at y x := Mask.not_get s1 _ (flat_lt (by omega) (show x < m'.nx by omega))
  have a2 : n'.not.at y x = !n'.at y x := Mask.not_get s4 _ (flat_lt (by omega) (show x < n'.nx by omega))
  rw [a1] at hmt
  rw [a2]
  cases hn' : n'.at y x with
  | false => rfl
  | true =>
    rw [h y x (by omega) (by omega) hn'] at hmt
    cases hmt

/-! ### The default method is not monotone -/

theorem transform_map {β : Type} [LinearOrder β] (f : α → β) (hf : StrictMono f) (zero : α) (fuel : Nat)
    (d : Nat → Nat → Nat → α) (m : Mask) (r : α) :
    distanceTransform (cellgridMethod (f zero) fuel) (f zero) (fun q y x => f (d q y x)) (f r) m =
      (distanceTransform (cellgridMethod zero fuel) zero d r m).map (List.map f) := by
  unfold distanceTransform cellgridMethod
  have hz : ∀ (l : List α) (v : List Bool), List.zipWith (fun v b => if b = true then v else f zero) (l.map f) v =
      (List.zipWith (fun v b => if b = true then v else zero) l v).map f := by
    intro l v
    rw [List.zipWith_map_left, List.map_zipWith]
    congr 1
    funext a b
    split_ifs <;> rfl
  simp only
  split_ifs with hE
  · simp only [Option.bind_eq_bind, Option.bind_some, Option.pure_def, Option.map_some]
    rw [← hz, List.map_replicate]
  · have := run_map f hf ⟨m.ny, m.nx, 32, fun i => d ((findEdges m).getD i 0), r⟩ zero fuel
      ((findEdges m).map fun q => (q / m.nx, q % m.nx))
    unfold DGrid.map at this
    simp only at this
    rw [this]
    cases DGrid.run ⟨m.ny, m.nx, 32, fun i => d ((findEdges m).getD i 0), r⟩ zero fuel
      ((findEdges m).map fun q => (q / m.nx, q % m.nx)) with
    | none => rfl
    | some s =>
      simp only [Option.map_some, Option.bind_eq_bind, Option.bind_some, Option.pure_def]
      rw [← hz]
      rfl

theorem growMask_map {β : Type} [LinearOrder β] (f : α → β) (hf : StrictMono f) (zero : α) (fuel : Nat)
    (d : Nat → Nat → Nat → α) (m : Mask) (r : α) :
    growMask (cellgridMethod (f zero) fuel) (f zero) (fun q y x => f (d q y x)) m (f r) =
      growMask (cellgridMethod zero fuel) zero d m r := by
  have ht := transform_map f hf zero fuel d m.not r
  unfold growMask
  rw [ht]
  cases distanceTransform (cellgridMethod zero fuel) zero d r m.not with
  | none => rfl
  | some t =>
    simp only [Option.map_some, Option.bind_eq_bind, Option.bind_some, Option.pure_def, List.map_map]
    congr 3
    funext v
    simp [Function.comp, hf.lt_iff_lt]

/-- A map of 3 by 3 pixels: declinations -45, 0 and 45 degrees, right ascensions 0, 60 and 120 degrees. -/
noncomputable def coarseGrid : CylGrid where
  ny := 3
  nx := 3
  dec := fun y => ((y : ℝ) - 1) * (Real.pi / 4)
  ra0 := 0
  step := Real.pi / 3
  mono := Or.inl (by
    intro y z h _
    have : (y : ℝ) < z := by exact_mod_cast h
    have := Real.pi_pos
    nlinarith)
  range := by
    intro y hy
    have hp := Real.pi_pos
    have h1 : (y : ℝ) ≤ 2 := by exact_mod_cast (show y ≤ 2 by omega)
    have h0 : (0 : ℝ) ≤ y := by positivity
    constructor <;> nlinarith
  step_ne := by have := Real.pi_pos; positivity
  turn := by
    have hp := Real.pi_pos
    rw [abs_of_pos (by positivity)]
    push_cast
    linarith

/-- The cosines of the distances between its pixels and of the radius used below, in decreasing order. -/
noncomputable def coarseCos : ℕ → ℝ
  | 0 => 1
  | 1 => 3 / 4
  | 2 => Real.sqrt 2 / 2
  | 3 => 1 / 2
  | 4 => Real.sqrt 2 / 4
  | 5 => 3 / 10
  | 6 => 1 / 4
  | 7 => 0
  | 8 => -1 / 4
  | 9 => -Real.sqrt 2 / 4
  | 10 => -1 / 2
  | _ => -3 / 4

noncomputable def coarseF (k : ℕ) : ℝ := if k ≤ 11 then Real.arccos (coarseCos k) else Real.pi + k

theorem sqrt_two_bounds : 1.41 < Real.sqrt 2 ∧ Real.sqrt 2 < 1.42 := by
  constructor
  · apply Real.lt_sqrt_of_sq_lt; norm_num
  · rw [Real.sqrt_lt' (by norm_num)]; norm_num

theorem coarseF_mono : StrictMono coarseF := by
  obtain ⟨s1, s2⟩ := sqrt_two_bounds
  apply strictMono_nat_of_lt_succ
  intro n
  unfold coarseF
  rcases lt_trichotomy n 11 with h | h | h
  · rw [if_pos (by omega), if_pos (by omega)]
    interval_cases n <;>
    · apply Real.strictAntiOn_arccos <;> simp only [coarseCos, Set.mem_Icc] <;> first | (constructor <;> linarith) | linarith
  · subst h
    rw [if_pos (by omega), if_neg (by omega)]
    have := Real.arccos_le_pi (coarseCos 11)
    push_cast
    linarith
  · rw [if_neg (by omega), if_neg (by omega)]
    push_cast
    linarith

/-- The position of the distance from pixel `q` to pixel `(y,x)` in that list. -/
def coarseRank (q y x : Nat) : Nat :=
  if q < 9 ∧ y < 3 ∧ x < 3 then
    let k := max (q % 3) x - min (q % 3) x
    let rows := max (q / 3) y - min (q / 3) y
    if rows = 0 then (if y = 1 then [0, 3, 10] else [0, 1, 6]).getD k 0
    else if rows = 1 then [2, 4, 9].getD k 0
    else [7, 8, 11].getD k 0
  else 0

theorem cos_two_pi_div_three : Real.cos (Real.pi / 3 * 2) = -(1 / 2) := by
  have : Real.pi / 3 * 2 = Real.pi - Real.pi / 3 := by ring
  rw [this, Real.cos_pi_sub, Real.cos_pi_div_three]

theorem coarseGrid_flat : coarseGrid.flat = fun q y x => coarseF (coarseRank q y x) := by
  funext q y x
  unfold CylGrid.flat coarseRank
  change (if q < 3 * 3 ∧ y < 3 ∧ x < 3 then coarseGrid.dist (q / 3) (q % 3) y x else 0) = _
  by_cases h : q < 9 ∧ y < 3 ∧ x < 3
  · rw [if_pos h, if_pos h]
    obtain ⟨hq, hy, hx⟩ := h
    unfold CylGrid.dist sphAngle
    rw [sphDot_eq]
    have hcos : ∀ k : ℕ, ((q % 3 = x + k) ∨ x = q % 3 + k) →
        Real.cos (coarseGrid.ra0 + coarseGrid.step * ((q % 3 : ℕ) : ℝ) - (coarseGrid.ra0 + coarseGrid.step * (x : ℝ))) =
          Real.cos (Real.pi / 3 * k) := by
      intro k hk
      rw [coarseGrid.cos_eq _ _ k hk]
      congr 2
      change |Real.pi / 3| = _
      rw [abs_of_pos (by have := Real.pi_pos; positivity)]
    have hk : q % 3 = x + (max (q % 3) x - min (q % 3) x) ∨ x = q % 3 + (max (q % 3) x - min (q % 3) x) := by omega
    rw [hcos _ hk]
    have hkl : max (q % 3) x - min (q % 3) x < 3 := by omega
    generalize max (q % 3) x - min (q % 3) x = k at *
    have hd : ∀ z : ℕ, coarseGrid.dec z = ((z : ℝ) - 1) * (Real.pi / 4) := fun _ => rfl
    rw [hd, hd]
    have hz : q / 3 < 3 := by omega
    generalize q / 3 = z at *
    have hs : Real.sqrt 2 * Real.sqrt 2 = 2 := Real.mul_self_sqrt (by norm_num)
    have e1 : ((0 : ℕ) : ℝ) - 1 = -1 := by norm_num
    have e2 : ((1 : ℕ) : ℝ) - 1 = 0 := by norm_num
    have e3 : ((2 : ℕ) : ℝ) - 1 = 1 := by norm_num
    have c0 : Real.cos (Real.pi / 3 * ((0 : ℕ) : ℝ)) = 1 := by simp
    have c1 : Real.cos (Real.pi / 3 * ((1 : ℕ) : ℝ)) = 1 / 2 := by simp
    have c2 : Real.cos (Real.pi / 3 * ((2 : ℕ) : ℝ)) = -(1 / 2) := by push_cast; exact cos_two_pi_div_three
    unfold coarseF
    interval_cases z <;> interval_cases y <;> interval_cases k <;>
    · simp only [e1, e2, e3, c0, c1, c2, neg_mul, one_mul, zero_mul, Real.sin_neg, Real.cos_neg, Real.sin_zero, Real.cos_zero,
        Real.sin_pi_div_four, Real.cos_pi_div_four]
      norm_num [coarseCos]
      try
        congr 1
        nlinarith [hs]
  · rw [if_neg h, if_neg h]
    unfold coarseF coarseCos
    simp

/-- One True pixel in the middle. -/
def maskOne : Mask := ⟨3, 3, [false, false, false, false, true, false, false, false, false]⟩
/-- The same pixel and two opposite corners. -/
def maskThree : Mask := ⟨3, 3, [false, false, true, false, true, false, true, false, false]⟩

/-- C70 refuted for the default method: adding True pixels to a mask can make the grown mask smaller. On a map with pixels of
45 by 60 degrees, grown by arccos(0.3) = 72.5 degrees: with only the middle pixel True the corner pixel (2,2), 69.3 degrees
away, is reached; with two further True pixels it is not. -/
theorem C70_monotone_refuted :
    ∃ m' n', growMask (cellgridMethod 0 20) 0 coarseGrid.flat maskOne (Real.arccos (3 / 10)) = some m' ∧
      growMask (cellgridMethod 0 20) 0 coarseGrid.flat maskThree (Real.arccos (3 / 10)) = some n' ∧
      (∀ q : Nat, maskOne.get q = true → maskThree.get q = true) ∧ m'.at 2 2 = true ∧ n'.at 2 2 = false := by
  have h0 : coarseF 0 = 0 := by simp [coarseF, coarseCos]
  have h5 : coarseF 5 = Real.arccos (3 / 10) := by simp [coarseF, coarseCos]
  rw [coarseGrid_flat, ← h5, ← h0, growMask_map coarseF coarseF_mono 0 20 coarseRank maskOne 5,
    growMask_map coarseF coarseF_mono 0 20 coarseRank maskThree 5]
  have d1 : growMask (cellgridMethod 0 20) 0 coarseRank maskOne 5 =
      some ⟨3, 3, [true, true, true, true, true, true, true, true, true]⟩ := by decide +kernel
  have d2 : growMask (cellgridMethod 0 20) 0 coarseRank maskThree 5 =
      some ⟨3, 3, [false, true, true, true, true, true, true, true, false]⟩ := by decide +kernel
  refine ⟨_, _, d1, d2, ?_, by decide, by decide⟩
  intro q hq
  by_cases h : q < 9
  · interval_cases q <;> first | rfl | (exact absurd hq (by decide))
  · unfold maskOne Mask.get at hq
    rw [List.getD_eq_default _ _ (by simp; omega)] at hq
    cases hq

/-- C80 refuted for the default method: on the same map, with rmax = arccos(0.3) and the middle pixel and two opposite corners
False, the transform at (2,2) is `rmax` although the False middle pixel is closer. -/
theorem C80_exact_refuted :
    ∃ t v, distanceTransform (cellgridMethod 0 20) 0 coarseGrid.flat (Real.arccos (3 / 10)) maskThree.not = some t ∧
      t[8]? = some v ∧ maskThree.not.get 4 = false ∧ coarseGrid.flat 4 2 2 < v := by
  have h0 : coarseF 0 = 0 := by simp [coarseF, coarseCos]
  have h5 : coarseF 5 = Real.arccos (3 / 10) := by simp [coarseF, coarseCos]
  rw [coarseGrid_flat, ← h5, ← h0, transform_map coarseF coarseF_mono 0 20 coarseRank maskThree.not 5]
  have d2 : distanceTransform (cellgridMethod 0 20) 0 coarseRank 5 maskThree.not = some [5, 1, 0, 2, 0, 2, 0, 1, 5] := by
    decide +kernel
  rw [d2]
  refine ⟨_, coarseF 5, rfl, rfl, by decide, coarseF_mono ?_⟩
  decide

/-- The hypotheses of `C80_cylindrical`, `C70_grow_exact` and `C70_grow_sound` are met by this map and mask. -/
example : maskOne.Ok ∧ Descent 3 3 coarseGrid.flat ∧ (∀ q < 9, coarseGrid.flat q (q / 3) (q % 3) = 0) ∧
    (0 : ℝ) < Real.arccos (3 / 10) := by
  refine ⟨⟨rfl, by decide, by decide⟩, coarseGrid.flat_descent, ?_, ?_⟩
  · intro q hq
    rw [coarseGrid_flat]
    have : coarseRank q (q / 3) (q % 3) = 0 := by interval_cases q <;> decide
    simp only [this]
    simp [coarseF, coarseCos]
  · rw [Real.arccos_pos]; norm_num

example : (⟨3, 3, [true, true, true, true, false, true, true, true, true]⟩ : Mask).Ok := ⟨rfl, by decide, by decide⟩

end Pixell
