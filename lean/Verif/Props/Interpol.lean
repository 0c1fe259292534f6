import Verif.Lemmas.Interpol

/-!
# C88: interpolation at arbitrary points is the weighted sum over the neighbouring pixels, and its
transpose is its adjoint

`interpol.map_coordinates` (`pixell/interpol.py`, `fortran/interpol.F90`) without prefilter.
-/

set_option linter.unusedSectionVars false

namespace Pixell

variable {K : Type} [Field K] [LinearOrder K] [IsStrictOrderedRing K] [FloorRing K]

/-! ## Borders -/

/-- Indices outside an axis stand for an index on it: the nearest one, the one a whole number of
periods away, or its mirror image with respect to the end points. -/
theorem C88_border {b : Border} {n : ℕ} (h : BorderOK b n) (i : ℤ) :
    0 ≤ mapBorder b n i ∧ mapBorder b n i < n ∧
    (0 ≤ i → i < n → mapBorder b n i = i) ∧
    (b = .nearest → ∀ k : ℤ, 0 ≤ k → k < n → |i - mapBorder b n i| ≤ |i - k|) ∧
    (b = .cyclic → (n : ℤ) ∣ i - mapBorder b n i) ∧
    (b = .mirror → (2 * (n : ℤ) - 2) ∣ i - mapBorder b n i ∨
      (2 * (n : ℤ) - 2) ∣ i + mapBorder b n i) := by
  refine ⟨(mapBorder_range h i).1, (mapBorder_range h i).2, mapBorder_inside b, ?_, ?_, ?_⟩
  · rintro rfl k h0 h1
    unfold mapBorder
    by_cases hi : i < 0 ∨ i ≥ n
    · rw [if_pos hi]
      simp only
      rcases hi with hi | hi
      · rw [abs_of_nonpos (by omega), abs_of_nonpos (by omega)]; omega
      · rw [abs_of_nonneg (by omega), abs_of_nonneg (by omega)]; omega
    · rw [if_neg hi]; simp
  · rintro rfl
    unfold mapBorder
    by_cases hi : i < 0 ∨ i ≥ n
    · rw [if_pos hi]
      simp only
      rw [Int.fmod_eq_emod_of_nonneg _ (by omega)]
      exact Int.dvd_self_sub_emod
    · rw [if_neg hi]; simp
  · rintro rfl
    unfold mapBorder
    by_cases hi : i < 0 ∨ i ≥ n
    · rw [if_pos hi]
      have h2 := h.2.2 rfl
      simp only
      rw [Int.fmod_eq_emod_of_nonneg _ (by omega)]
      have hd : (2 * (n : ℤ) - 2) ∣ i - i % (2 * (n : ℤ) - 2) := Int.dvd_self_sub_emod
      by_cases hv : i % (2 * (n : ℤ) - 2) ≥ n
      · rw [if_pos hv]
        right
        rw [show i + (2 * (n : ℤ) - 2 - i % (2 * (n : ℤ) - 2))
          = (i - i % (2 * (n : ℤ) - 2)) + (2 * (n : ℤ) - 2) by ring]
        exact Dvd.dvd.add hd (dvd_refl _)
      · rw [if_neg hv]; left; exact hd
    · rw [if_neg hi]; left; simp

example : BorderOK .mirror 5 ∧ mapBorder .mirror 5 (-2) = 2 ∧ mapBorder .mirror 5 6 = 2 ∧
    mapBorder .cyclic 5 (-2) = 3 ∧ mapBorder .nearest 5 7 = 4 :=
  ⟨⟨by decide, by decide, by decide⟩, by decide, by decide, by decide, by decide⟩

/-! ## The value -/

/-- With the borders `nearest`, `cyclic` and `mirror`, the value at a point is the sum over all cells
of its context, in any number of dimensions, of the product of the weights times the array at the
mapped indices. -/
theorem C88_value {b : Border} {nw : ℕ} (hw : 0 < nw) (axs : List (CtxAxis K))
    (hb : ∀ ax ∈ axs, BorderOK b ax.n) (data : ℕ → K) :
    interpolAt b nw axs data
      = ctxSpec b nw axs fun xs => data (ravelRev (axs.map (·.n)) xs) := by
  rw [interpolAt_sum b hw axs (fun J => ravelRev (axs.map (·.n)) (cellIdx b axs J)) data]
  · exact gridSum_cells b nw axs fun xs => data (ravelRev (axs.map (·.n)) xs)
  · intro J hJ
    have hl : J.length = axs.length := by rw [hJ.length_eq, List.length_map]
    refine ctxIndex_some hl ?_
    rw [List.forall₂_iff_get]
    exact ⟨hl.symm, fun i h1 h2 => (mapBorder_range (hb _ (List.get_mem ..)) _).1⟩

/-- The same holds for the `zero` border when the whole context is on the grid.  In general it does
not: see `C88_zero_refuted`. -/
theorem C88_zero_partial {nw : ℕ} (hw : 0 < nw) (axs : List (CtxAxis K))
    (hb : ∀ ax ∈ axs, 0 ≤ ax.off ∧ ax.off + nw ≤ ax.n) (data : ℕ → K) :
    interpolAt .zero nw axs data
      = ctxSpec .zero nw axs fun xs => data (ravelRev (axs.map (·.n)) xs) := by
  rw [interpolAt_sum .zero hw axs (fun J => ravelRev (axs.map (·.n)) (cellIdx .zero axs J)) data]
  · exact gridSum_cells .zero nw axs fun xs => data (ravelRev (axs.map (·.n)) xs)
  · intro J hJ
    have hl : J.length = axs.length := by rw [hJ.length_eq, List.length_map]
    refine ctxIndex_some hl ?_
    rw [List.forall₂_iff_get]
    refine ⟨hl.symm, fun i h1 h2 => ?_⟩
    have hlt : J.get ⟨i, h2⟩ < nw := by
      have := (List.forall₂_iff_get.mp hJ).2 i h2 (by rw [List.length_map]; exact h1)
      simpa using this
    have := hb (axs.get ⟨i, h1⟩) (List.get_mem ..)
    rw [mapBorder_inside] <;> omega

/-- With the `zero` border the points outside the grid should count as zero. -/
def zeroPadSpec (nw : ℕ) : List (CtxAxis K) → (List ℕ → K) → K
  | [], D => D []
  | ax :: axs, D =>
    ∑ j ∈ Finset.range nw,
      if 0 ≤ (j : ℤ) + ax.off ∧ (j : ℤ) + ax.off < ax.n then
        ax.w j * zeroPadSpec nw axs fun xs => D (((j : ℤ) + ax.off).toNat :: xs)
      else 0

/-- With the `zero` border, once a cell is outside the grid all further cells are lost, although they
may be on the grid.  A one-dimensional point at `-1/2` gets zero instead of half the first value; a
point between two rows, exactly on the last column, gets half the value. -/
theorem C88_zero_refuted :
    ∃ (shape : List ℕ) (pos : List ℚ) (data : ℕ → ℚ),
      (∀ p ∈ List.zip pos shape, 0 ≤ p.1 ∧ p.1 ≤ (p.2 : ℚ) - 1) ∧
      mapCoords .conv 1 .zero shape data pos
        ≠ zeroPadSpec 2 (ctxAxes .conv 1 shape pos) fun xs => data (ravelRev shape xs) := by
  refine ⟨[2, 2], [1, 1 / 2], fun _ => 1, by decide +kernel, ?_⟩
  have h : zeroPadSpec (K := ℚ) 2 (ctxAxes .conv 1 [2, 2] [1, 1 / 2]) (fun _ => 1) = 1 := by
    simp only [ctxAxes, List.zipWith, zeroPadSpec, Finset.sum_range_succ, Finset.sum_range_zero]
    decide +kernel
  rw [h]
  decide +kernel

example : mapCoords .conv 1 .zero [2] (fun _ => (1 : ℚ)) [-1 / 2] = 0 ∧
    mapCoords .conv 1 .zero [2, 2] (fun _ => (1 : ℚ)) [1, 1 / 2] = 1 / 2 := by
  constructor <;> decide +kernel

/-! ## The transpose -/

theorem ctxIndex_lt {b : Border} {axs : List (CtxAxis K)}
    (hb : ∀ ax ∈ axs, 1 ≤ ax.n ∧ (b = .mirror → 2 ≤ ax.n)) {J : List ℕ} {d : ℕ}
    (h : ctxIndex b axs J = some d) : d < (axs.map (·.n)).prod := by
  induction axs generalizing J d with
  | nil =>
    cases J <;> simp [ctxIndex] at h <;> subst h <;> simp
  | cons ax axs ih =>
    have hax := hb ax (by simp)
    cases J with
    | nil =>
      simp only [ctxIndex, Option.some.injEq] at h
      subst h
      refine Nat.pos_of_ne_zero fun h0 => ?_
      rw [List.prod_eq_zero_iff] at h0
      obtain ⟨a, ha, ha0⟩ := List.mem_map.mp h0
      have := (hb a ha).1
      omega
    | cons j js =>
      simp only [ctxIndex] at h
      by_cases hneg : mapBorder b ax.n (j + ax.off) < 0
      · rw [if_pos hneg] at h; cases h
      · rw [if_neg hneg] at h
        obtain ⟨d', hd', rfl⟩ := Option.map_eq_some_iff.mp h
        have h1 := ih (fun a ha => hb a (by simp [ha])) hd'
        have h2 := mapBorder_lt (b := b) hax.1 hax.2 (j + ax.off)
        rw [List.map_cons, List.prod_cons]
        calc d' * ax.n + (mapBorder b ax.n (j + ax.off)).toNat < d' * ax.n + ax.n := by omega
          _ = ax.n * (d' + 1) := by ring
          _ ≤ ax.n * (axs.map (·.n)).prod := Nat.mul_le_mul_left _ h1

theorem ctxLoop_lt {b : Border} {nw : ℕ} {axs : List (CtxAxis K)}
    (hb : ∀ ax ∈ axs, 1 ≤ ax.n ∧ (b = .mirror → 2 ≤ ax.n)) (k : ℕ) (J : List ℕ) :
    ∀ c ∈ ctxLoop b nw axs k J, c.1 < (axs.map (·.n)).prod := by
  induction k generalizing J with
  | zero => simp [ctxLoop]
  | succ k ih =>
    intro c hc
    unfold ctxLoop at hc
    cases hd : ctxIndex b axs J with
    | none => rw [hd] at hc; exact ih _ c hc
    | some d =>
      rw [hd] at hc
      rcases List.mem_cons.mp hc with rfl | hc
      · exact ctxIndex_lt hb hd
      · exact ih _ c hc

theorem interpolTrans_apply (l : List (ℕ × K)) (d0 : ℕ → K) (g : ℕ) :
    l.foldl (fun d u => Function.update d u.1 (d u.1 + u.2)) d0 g
      = d0 g + (l.map fun u => if u.1 = g then u.2 else 0).sum := by
  induction l generalizing d0 with
  | nil => simp
  | cons u l ih =>
    rw [List.foldl_cons, ih, List.map_cons, List.sum_cons]
    by_cases h : u.1 = g
    · subst h; rw [Function.update_self, if_pos rfl]; ring
    · rw [Function.update_of_ne (Ne.symm h), if_neg h]; ring

theorem sum_indicator (l : List (ℕ × K)) (N : ℕ) (hl : ∀ u ∈ l, u.1 < N) (data : ℕ → K) :
    ∑ g ∈ Finset.range N, data g * (l.map fun u => if u.1 = g then u.2 else 0).sum
      = (l.map fun u => data u.1 * u.2).sum := by
  induction l with
  | nil => simp
  | cons u l ih =>
    simp only [List.map_cons, List.sum_cons, mul_add, Finset.sum_add_distrib]
    rw [ih fun v hv => hl v (by simp [hv])]
    congr 1
    rw [Finset.sum_eq_single u.1]
    · rw [if_pos rfl]
    · intro g _ hg; rw [if_neg (Ne.symm hg), mul_zero]
    · intro h; exact absurd (Finset.mem_range.mpr (hl u (by simp))) h

/-- The transposed interpolation is the adjoint of the interpolation: for every array, every set of
samples with arbitrary positions, kernel weights and values, every border, and every order in which
the threads apply their updates.  It writes inside the array only. -/
theorem C88_adjoint (b : Border) (nw : ℕ) (shape : List ℕ)
    (hs : ∀ n ∈ shape, 1 ≤ n ∧ (b = .mirror → 2 ≤ n))
    (samples : List (List (CtxAxis K) × K)) (hsh : ∀ s ∈ samples, s.1.map (·.n) = shape)
    (updates : List (ℕ × K)) (hu : updates.Perm (transUpdates b nw samples)) (data : ℕ → K) :
    (samples.map fun s => s.2 * interpolAt b nw s.1 data).sum
      = ∑ g ∈ Finset.range shape.prod, data g * interpolTrans updates g ∧
    ∀ u ∈ updates, u.1 < shape.prod := by
  have hlt : ∀ u ∈ updates, u.1 < shape.prod := by
    intro u hmem
    obtain ⟨s, hs', hu'⟩ := List.mem_flatMap.mp (hu.mem_iff.mp hmem)
    obtain ⟨c, hc, rfl⟩ := List.mem_map.mp hu'
    rw [← hsh s hs']
    refine ctxLoop_lt (fun ax hax => hs _ ?_) _ _ c hc
    rw [← hsh s hs']
    exact List.mem_map_of_mem hax
  refine ⟨?_, hlt⟩
  have h1 : ∀ g ∈ Finset.range shape.prod, data g * interpolTrans updates g
      = data g * (updates.map fun u => if u.1 = g then u.2 else 0).sum := by
    intro g _
    unfold interpolTrans
    rw [interpolTrans_apply, zero_add]
  rw [Finset.sum_congr rfl h1, sum_indicator updates _ hlt data,
    (hu.map fun u => data u.1 * u.2).sum_eq]
  clear hu hlt h1 hsh hs
  induction samples with
  | nil => rfl
  | cons s samples ih =>
    rw [List.map_cons, List.sum_cons, ih]
    simp only [transUpdates, List.flatMap_cons, List.map_append, List.sum_append]
    congr 1
    unfold interpolAt
    rw [foldl_add_eq, zero_add, List.map_map, ← List.sum_map_mul_left]
    congr 1
    refine List.map_congr_left fun c _ => ?_
    simp only [Function.comp_apply]
    ring

example :
    let ax : List (CtxAxis ℚ) := ctxAxes .conv 1 [2, 3] [1 / 2, 5 / 2]
    ax.map (·.n) = [2, 3] ∧
      transUpdates .cyclic 2 [(ax, 4)] = [(4, 1), (5, 1), (0, 1), (1, 1)] ∧
      interpolTrans [(4, (1 : ℚ)), (0, 1), (5, 1), (1, 1)] 4 = 1 ∧
      interpolAt .cyclic 2 ax (fun g => if g = 4 then 1 else 0) = 1 / 4 := by
  refine ⟨by decide +kernel, by decide +kernel, by decide +kernel, by decide +kernel⟩

/-! ## The weights -/

/-- The kernels that exist. -/
def KernelOK (t : Kernel) (order : ℕ) : Prop :=
  match t with
  | .conv => order = 0 ∨ order = 1 ∨ order = 3
  | .spline => order ≤ 5

/-- The weights along an axis add up to one, for every kernel and order and every position. -/
theorem C88_unity {t : Kernel} {order : ℕ} (h : KernelOK t order) (p : K) :
    ∑ j ∈ Finset.range (weightLength t order), ctxWeight t order p j = 1 := by
  by_cases ho : order = 0
  · subst ho
    cases t <;> simp [weightLength, ctxWeight]
  have hb := ctxOffset_bounds (t := t) ho p
  have hwt := ctxWeight_eq (t := t) ho p
  simp only [hwt]
  generalize p - (ctxOffset t order p : K) = s at hb ⊢
  cases t with
  | conv =>
    rcases h with rfl | rfl | rfl
    · exact absurd rfl ho
    · simp only [weightLength] at hb ⊢
      norm_num at hb
      obtain ⟨h1, h2⟩ := hb
      norm_num [Finset.sum_range_succ]
      rw [abs_of_nonneg h1, abs_of_nonpos (show s - 1 ≤ 0 by linarith),
        conv1_a (show s ≤ 1 by linarith), conv1_a (show -(s - 1) ≤ 1 by linarith)]
      ring
    · simp only [weightLength] at hb ⊢
      norm_num at hb
      obtain ⟨h1, h2⟩ := hb
      norm_num [Finset.sum_range_succ]
      rw [abs_of_nonneg (show (0 : K) ≤ s by linarith), abs_of_nonneg (show (0 : K) ≤ s - 1 by linarith),
        abs_of_nonpos (show s - 2 ≤ 0 by linarith), abs_of_nonpos (show s - 3 ≤ 0 by linarith),
        conv3_b h1 (by linarith), conv3_a (by linarith), conv3_a (by linarith),
        conv3_b (by linarith) (by linarith)]
      ring
  | spline =>
    have h5 : order = 1 ∨ order = 2 ∨ order = 3 ∨ order = 4 ∨ order = 5 := by
      have : order ≤ 5 := h
      omega
    rcases h5 with rfl | rfl | rfl | rfl | rfl
    · simp only [weightLength] at hb ⊢
      norm_num at hb
      obtain ⟨h1, h2⟩ := hb
      norm_num [Finset.sum_range_succ]
      rw [abs_of_nonneg h1, abs_of_nonpos (show s - 1 ≤ 0 by linarith),
        spl1_a (show s ≤ 1 by linarith), spl1_a (show -(s - 1) ≤ 1 by linarith)]
      ring
    · simp only [weightLength] at hb ⊢
      norm_num at hb
      obtain ⟨h1, h2⟩ := hb
      norm_num [Finset.sum_range_succ]
      have hc : |s - 1| ≤ 1 / 2 := by rw [abs_le]; constructor <;> linarith
      rw [spl2_a hc, sq_abs, abs_of_nonneg (show (0 : K) ≤ s by linarith),
        abs_of_nonpos (show s - 2 ≤ 0 by linarith),
        spl2_b (by linarith) (by linarith), spl2_b (by linarith) (by linarith)]
      ring
    · simp only [weightLength] at hb ⊢
      norm_num at hb
      obtain ⟨h1, h2⟩ := hb
      norm_num [Finset.sum_range_succ]
      rw [abs_of_nonneg (show (0 : K) ≤ s by linarith), abs_of_nonneg (show (0 : K) ≤ s - 1 by linarith),
        abs_of_nonpos (show s - 2 ≤ 0 by linarith), abs_of_nonpos (show s - 3 ≤ 0 by linarith),
        spl3_b h1 (by linarith), spl3_a (by linarith), spl3_a (by linarith),
        spl3_b (by linarith) (by linarith)]
      ring
    · simp only [weightLength] at hb ⊢
      norm_num at hb
      obtain ⟨h1, h2⟩ := hb
      norm_num [Finset.sum_range_succ]
      have hc : |s - 2| ≤ 1 / 2 := by rw [abs_le]; constructor <;> linarith
      rw [spl4_a hc, sq_abs, abs_of_nonneg (show (0 : K) ≤ s by linarith),
        abs_of_nonneg (show (0 : K) ≤ s - 1 by linarith),
        abs_of_nonpos (show s - 3 ≤ 0 by linarith), abs_of_nonpos (show s - 4 ≤ 0 by linarith),
        spl4_c (by linarith) (by linarith), spl4_b (by linarith) (by linarith),
        spl4_b (by linarith) (by linarith), spl4_c (by linarith) (by linarith)]
      ring
    · simp only [weightLength] at hb ⊢
      norm_num at hb
      obtain ⟨h1, h2⟩ := hb
      norm_num [Finset.sum_range_succ]
      rw [abs_of_nonneg (show (0 : K) ≤ s by linarith), abs_of_nonneg (show (0 : K) ≤ s - 1 by linarith),
        abs_of_nonneg (show (0 : K) ≤ s - 2 by linarith),
        abs_of_nonpos (show s - 3 ≤ 0 by linarith), abs_of_nonpos (show s - 4 ≤ 0 by linarith),
        abs_of_nonpos (show s - 5 ≤ 0 by linarith),
        spl5_c (by linarith) (by linarith), spl5_b (by linarith) (by linarith),
        spl5_a (by linarith), spl5_a (by linarith), spl5_b (by linarith) (by linarith),
        spl5_c (by linarith) (by linarith)]
      ring

theorem ctxAxes_len (t : Kernel) (order : ℕ) {shape : List ℕ} {pos : List K}
    (h : pos.length = shape.length) : (ctxAxes t order shape pos).map (·.n) = shape := by
  induction shape generalizing pos with
  | nil => rfl
  | cons n ns ih =>
    cases pos with
    | nil => simp at h
    | cons p ps =>
      simp only [List.length_cons, Nat.add_right_cancel_iff] at h
      simpa [ctxAxes] using ih h

theorem weightLength_pos {t : Kernel} {order : ℕ} (h : KernelOK t order) :
    0 < weightLength t order := by
  cases t with
  | conv => rcases h with rfl | rfl | rfl <;> simp [weightLength]
  | spline => simp [weightLength]

theorem ctxAxes_ok {t : Kernel} {order : ℕ} {b : Border} {shape : List ℕ} {pos : List K}
    (hb : ∀ n ∈ shape, BorderOK b n) : ∀ ax ∈ ctxAxes t order shape pos, BorderOK b ax.n := by
  induction shape generalizing pos with
  | nil => simp [ctxAxes]
  | cons n ns ih =>
    cases pos with
    | nil => simp [ctxAxes]
    | cons p ps =>
      intro ax hax
      simp only [ctxAxes, List.zipWith_cons_cons, List.mem_cons] at hax
      rcases hax with rfl | hax
      · exact hb n (by simp)
      · exact ih (fun m hm => hb m (by simp [hm])) ax hax

/-- A constant array is interpolated to the constant at every position, inside or outside. -/
theorem C88_constant {t : Kernel} {order : ℕ} (h : KernelOK t order) {b : Border} {shape : List ℕ}
    (hb : ∀ n ∈ shape, BorderOK b n) {pos : List K} (hl : pos.length = shape.length) (c : K) :
    mapCoords t order b shape (fun _ => c) pos = c := by
  unfold mapCoords
  rw [C88_value (weightLength_pos h) _ (ctxAxes_ok hb)]
  clear hb
  induction shape generalizing pos with
  | nil => rfl
  | cons n ns ih =>
    cases pos with
    | nil => simp at hl
    | cons p ps =>
      simp only [List.length_cons, Nat.add_right_cancel_iff] at hl
      have := ih hl
      simp only [ctxAxes] at this ⊢
      simp only [List.zipWith_cons_cons, ctxSpec, this]
      rw [← Finset.sum_mul, C88_unity h, one_mul]

example : KernelOK .conv 3 ∧ KernelOK .spline 4 ∧ (∀ n ∈ [5, 7], BorderOK .nearest n) ∧
    mapCoords .conv 3 .nearest [5, 7] (fun _ => (3 : ℚ)) [-7 / 3, 13 / 2] = 3 := by
  refine ⟨Or.inr (Or.inr rfl), show 4 ≤ 5 by decide, ?_, by decide +kernel⟩
  intro n hn
  refine ⟨by decide, ?_, fun h => by cases h⟩
  simp at hn; omega

/-! ## Grid points -/

/-- The kernels that reproduce the grid points without prefilter. -/
def KernelInterp (t : Kernel) (order : ℕ) : Prop :=
  match t with
  | .conv => order = 0 ∨ order = 1 ∨ order = 3
  | .spline => order = 0 ∨ order = 1

theorem KernelInterp.ok {t : Kernel} {order : ℕ} (h : KernelInterp t order) : KernelOK t order := by
  cases t with
  | conv => exact h
  | spline => rcases h with rfl | rfl <;> simp [KernelOK]

theorem fNint_int (i : ℤ) : fNint (i : K) = i := by
  have h2 : ⌊(2 : K)⁻¹⌋ = 0 := by
    rw [Int.floor_eq_iff]; constructor <;> norm_num
  unfold fNint
  by_cases h : 0 ≤ (i : K)
  · rw [if_pos h]
    simp [h2]
  · rw [if_neg h]
    have : ⌊-(i : K) + 1 / 2⌋ = -i := by
      rw [Int.floor_eq_iff]; push_cast; constructor <;> linarith
    rw [this]; ring

/-- At a grid point all the weight is on that point. -/
theorem ctxWeight_grid {t : Kernel} {order : ℕ} (h : KernelInterp t order) (i : ℤ) (D : ℤ → K) :
    ∑ j ∈ Finset.range (weightLength t order),
      ctxWeight t order (i : K) j * D (j + ctxOffset t order (i : K)) = D i := by
  by_cases ho : order = 0
  · subst ho
    cases t <;> simp [weightLength, ctxWeight, ctxOffset, fNint_int]
  have hoff := ctxOffset_int (K := K) t ho i
  have hwt := ctxWeight_eq (t := t) ho (i : K)
  simp only [hwt, hoff]
  cases t with
  | conv =>
    rcases h with rfl | rfl | rfl
    · exact absurd rfl ho
    · simp [weightLength, convKernel]
    · norm_num [weightLength, convKernel, Finset.sum_range_succ]
  | spline =>
    rcases h with rfl | rfl
    · exact absurd rfl ho
    · simp [weightLength, splineKernel]

/-- At grid points the nearest-neighbour, linear and cubic-convolution interpolations return the
array itself. -/
theorem C88_grid {t : Kernel} {order : ℕ} (h : KernelInterp t order) {b : Border} {shape : List ℕ}
    (hb : ∀ n ∈ shape, BorderOK b n) {xs : List ℕ} (hx : List.Forall₂ (· < ·) xs shape)
    (data : ℕ → K) :
    mapCoords t order b shape data (xs.map fun (x : ℕ) => (x : K)) = data (ravelRev shape xs) := by
  unfold mapCoords
  rw [C88_value (weightLength_pos h.ok) _ (ctxAxes_ok hb),
    ctxAxes_len t order (by rw [List.length_map, hx.length_eq])]
  generalize hD : (fun ys => data (ravelRev shape ys)) = D
  have : data (ravelRev shape xs) = D xs := by rw [← hD]
  rw [this]
  clear hD this
  induction hx generalizing D with
  | nil => rfl
  | cons hlt _ ih =>
    rename_i x n xs ns _
    have ih' := ih fun m hm => hb m (by simp [hm])
    simp only [ctxAxes] at ih' ⊢
    simp only [List.map_cons, List.zipWith_cons_cons, ctxSpec, ih']
    have := ctxWeight_grid (K := K) h x fun i => D ((mapBorder b n i).toNat :: xs)
    rw [mapBorder_inside b (by omega) (by omega)] at this
    simpa using this

example : KernelInterp .conv 3 ∧ (∀ n ∈ [3, 2], BorderOK .cyclic n) ∧
    List.Forall₂ (· < ·) [2, 1] [3, 2] ∧
    mapCoords .conv 3 .cyclic [3, 2] (fun g => (g : ℚ) ^ 2) [2, 1] = 25 := by
  refine ⟨Or.inr (Or.inr rfl), ?_, by decide, by decide +kernel⟩
  intro n hn
  refine ⟨by decide, ?_, fun h => by cases h⟩
  simp at hn; omega

/-- Splines of order two and more do not reproduce the grid points without the prefilter. -/
theorem C88_spline_needs_filter :
    mapCoords .spline 3 .cyclic [3] (fun g => if g = 0 then (6 : ℚ) else 0) [0] = 4 := by
  decide +kernel

/-- Between two grid points linear interpolation is the straight line between their values. -/
theorem C88_linear (t : Kernel) {b : Border} {n : ℕ} (hb : BorderOK b n) (i : ℤ) {s : K}
    (h0 : 0 ≤ s) (h1 : s < 1) (data : ℕ → K) :
    mapCoords t 1 b [n] data [(i : K) + s]
      = (1 - s) * data (mapBorder b n i).toNat + s * data (mapBorder b n (i + 1)).toNat := by
  have hk : KernelOK t 1 := by cases t <;> simp [KernelOK]
  have hw : weightLength t 1 = 2 := by cases t <;> simp [weightLength]
  have hoff : ctxOffset t 1 ((i : K) + s) = i := by
    rw [ctxOffset, if_neg (by decide), hw, Int.floor_eq_iff]
    constructor <;> · push_cast; linarith
  unfold mapCoords
  rw [C88_value (weightLength_pos hk) _ (ctxAxes_ok (by simpa using hb))]
  simp only [ctxAxes, List.zipWith_cons_cons, ctxSpec, hw, Finset.sum_range_succ,
    Finset.sum_range_zero, hoff, List.zipWith_nil_left, List.map_cons, List.map_nil, ravelRev]
  rw [ctxWeight_eq (by norm_num), ctxWeight_eq (by norm_num), hoff]
  have e0 : |(i : K) + s - i - ((0 : ℕ) : K)| = s := by
    rw [show (i : K) + s - i - ((0 : ℕ) : K) = s by push_cast; ring, abs_of_nonneg h0]
  have e1 : |(i : K) + s - i - ((1 : ℕ) : K)| = 1 - s := by
    rw [show (i : K) + s - i - ((1 : ℕ) : K) = -(1 - s) by push_cast; ring, abs_neg,
      abs_of_nonneg (by linarith)]
  rw [e0, e1, show ((1 : ℕ) : ℤ) + i = i + 1 by push_cast; ring,
    show ((0 : ℕ) : ℤ) + i = i by push_cast; ring]
  cases t
  · simp only
    rw [conv1_a h1.le, conv1_a (by linarith)]
    ring_nf
  · simp only
    rw [spl1_a h1.le, spl1_a (by linarith)]
    ring_nf

example : mapCoords .conv 1 .cyclic [4] (fun g => (g : ℚ)) [3 + 1 / 4] = 9 / 4 := by decide +kernel

end Pixell
