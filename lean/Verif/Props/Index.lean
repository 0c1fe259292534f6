import Verif.Lemmas.Index
import Mathlib.Data.List.Sort

/-
C71, C72, C73: index helpers, accumulation by index, running sums.
-/
namespace Pixell

/-! ### C71 -/

/-- C71: when every value occurs in the array, find returns for each the position of one of its occurrences,
however `np.argsort` orders ties. -/
theorem C71_find (array vals : List ℤ) (order : List Nat) (h : IsArgsort array order) (hv : ∀ v ∈ vals, v ∈ array)
    (d : Option ℤ) :
    ∃ r : List Nat, find array order vals d = some (r.map fun i : Nat => (i : ℤ)) ∧
      (r.map fun i => array[i]?) = vals.map some := by
  induction vals with
  | nil => exact ⟨[], rfl, rfl⟩
  | cons v vals ih =>
    obtain ⟨r, h1, h2⟩ := ih fun x hx => hv x (by simp [hx])
    obtain ⟨i, h3, h4⟩ := (findOne_spec h d v).1 (hv v (by simp))
    refine ⟨i :: r, ?_, ?_⟩
    · unfold find at h1 ⊢
      rw [List.mapM_cons, h3, h1]; rfl
    · simp [h2, h4]

/-- C71: a value that does not occur makes find raise, or gives the default if there is one. -/
theorem C71_find_missing (array vals : List ℤ) (order : List Nat) (h : IsArgsort array order) (hne : array ≠ []) :
    ((∃ v ∈ vals, v ∉ array) → find array order vals none = none) ∧
    ∀ d : ℤ, ∃ r, find array order vals (some d) = some r ∧ r.length = vals.length ∧
      ∀ k v : ℤ, ∀ i : Nat, r[i]? = some k → vals[i]? = some v →
        (v ∉ array → k = d) ∧ (v ∈ array → 0 ≤ k ∧ array[k.toNat]? = some v) := by
  constructor
  · rintro ⟨v, hv, hn⟩
    have h0 := (findOne_spec h none v).2 hn hne
    unfold find
    induction vals with
    | nil => simp at hv
    | cons x vals ih =>
      rw [List.mapM_cons]
      rcases List.mem_cons.1 hv with rfl | hv
      · rw [h0]; rfl
      · rw [ih hv]
        cases findOne array order none x <;> rfl
  · intro d
    induction vals with
    | nil => exact ⟨[], rfl, rfl, by simp⟩
    | cons x vals ih =>
      obtain ⟨r, h1, h2, h3⟩ := ih
      have hx : ∃ k, findOne array order (some d) x = some k ∧ (x ∉ array → k = d) ∧
          (x ∈ array → 0 ≤ k ∧ array[k.toNat]? = some x) := by
        by_cases hxa : x ∈ array
        · obtain ⟨i, e1, e2⟩ := (findOne_spec h (some d) x).1 hxa
          exact ⟨i, e1, fun hc => absurd hxa hc, fun _ => ⟨by omega, by simpa using e2⟩⟩
        · exact ⟨d, (findOne_spec h (some d) x).2 hxa hne, fun _ => rfl, fun hc => absurd hc hxa⟩
      obtain ⟨k, e1, e2, e3⟩ := hx
      refine ⟨k :: r, ?_, by simp [h2], ?_⟩
      · unfold find at h1 ⊢
        rw [List.mapM_cons, e1, h1]; rfl
      · intro k' v i hk hv
        cases i with
        | zero =>
          simp only [List.getElem?_cons_zero, Option.some.injEq] at hk hv
          subst hk; subst hv
          exact ⟨e2, e3⟩
        | succ i =>
          simp only [List.getElem?_cons_succ] at hk hv
          exact h3 k' v i hk hv

/-- C71: find_any returns positions, in order, of exactly those values that occur. -/
theorem C71_find_any (array vals : List ℤ) (order : List Nat) (h : IsArgsort array order) (hne : array ≠ []) (hv : vals ≠ []) :
    ∃ r : List Nat, findAny array order vals = some (r.map fun i : Nat => (i : ℤ)) ∧
      (r.map fun i => array[i]?) = (vals.filter fun v => decide (v ∈ array)).map some := by
  have key : ∀ vals : List ℤ, ∃ r : List ℤ, find array order vals (some (-1)) = some r ∧ ∃ q : List Nat,
      (r.filter fun x => decide (0 ≤ x)) = (q.map fun i : Nat => (i : ℤ)) ∧
      (q.map fun i => array[i]?) = (vals.filter fun v => decide (v ∈ array)).map some := by
    intro vals
    induction vals with
    | nil => exact ⟨[], rfl, [], rfl, rfl⟩
    | cons v vals ih =>
      obtain ⟨r, h1, q, h2, h3⟩ := ih
      by_cases hva : v ∈ array
      · obtain ⟨i, e1, e2⟩ := (findOne_spec h (some (-1)) v).1 hva
        refine ⟨i :: r, ?_, i :: q, ?_, ?_⟩
        · unfold find at h1 ⊢
          rw [List.mapM_cons, e1, h1]; rfl
        · rw [List.filter_cons_of_pos (by simp), h2]; rfl
        · rw [List.filter_cons_of_pos (by simpa using hva), List.map_cons, List.map_cons, e2, h3]
      · refine ⟨-1 :: r, ?_, q, ?_, ?_⟩
        · unfold find at h1 ⊢
          rw [List.mapM_cons, (findOne_spec h (some (-1)) v).2 hva hne, h1]; rfl
        · rw [List.filter_cons_of_neg (by decide), h2]
        · rw [List.filter_cons_of_neg (by simpa using hva), h3]
  obtain ⟨r, h1, q, h2, h3⟩ := key vals
  refine ⟨q, ?_, h3⟩
  unfold findAny
  rw [if_neg (by simpa using hv), h1]
  simp only [Option.bind_eq_bind, Option.bind_some, h2]
  rfl

/-- C71, refuted for an empty request: find_any raises. -/
theorem C71_find_any_refuted (array : List ℤ) (order : List Nat) : findAny array order [] = none := rfl

example : findAny [30, 10, 20] [1, 2, 0] [20, 7, 30] = some [2, 0] := by decide

example : IsArgsort [(30 : ℤ), 10, 20] [1, 2, 0] ∧ find [30, 10, 20] [1, 2, 0] [20, 30, 10] = some [2, 0, 1] ∧
    find [30, 10, 20] [1, 2, 0] [20, 7] = none ∧ find [30, 10, 20] [1, 2, 0] [20, 7] (some (-1)) = some [2, -1] := by
  refine ⟨isArgsort_argsort [30, 10, 20], by decide, by decide, by decide⟩

/-- C71: searching in an empty array raises, even with a default. -/
theorem C71_find_empty (vals : List ℤ) (h : vals ≠ []) (d : Option ℤ) : find [] [] vals d = none := by
  obtain ⟨v, vals, rfl⟩ := List.exists_cons_of_ne_nil h
  rfl

/-- C71: the values shared by two or more arrays come out sorted, once each. -/
theorem C71_common_vals (a b : List ℤ) (rest : List (List ℤ)) :
    ∃ vals, commonVals (a :: b :: rest) = some vals ∧ vals.Pairwise (· < ·) ∧
      ∀ v, v ∈ vals ↔ ∀ arr ∈ a :: b :: rest, v ∈ arr := by
  have hmem : ∀ (l : List (List ℤ)) (s : List ℤ) (v : ℤ), v ∈ l.foldl intersect1d s ↔ v ∈ s ∧ ∀ arr ∈ l, v ∈ arr := by
    intro l
    induction l with
    | nil => simp
    | cons x l ih =>
      intro s v
      rw [List.foldl_cons, ih, intersect1d, mem_npUnique]
      simp only [List.mem_filter, decide_eq_true_eq, List.mem_cons, forall_eq_or_imp]
      tauto
  have hs : ∀ (l : List (List ℤ)) (s : List ℤ), s.Pairwise (· < ·) → (l.foldl intersect1d s).Pairwise (· < ·) := by
    intro l
    induction l with
    | nil => intro s h; exact h
    | cons x l ih => intro s _; exact ih _ (npUnique_sorted _)
  refine ⟨_, rfl, hs rest _ (npUnique_sorted _), fun v => ?_⟩
  rw [hmem, ]
  simp

/-- C71: common_inds: looking up the common values in every array succeeds and gives, in every array, positions of
the same values in the same order. -/
theorem C71_common_inds (a b : List ℤ) (rest : List (List ℤ)) (vals : List ℤ)
    (hv : commonVals (a :: b :: rest) = some vals) (arr : List ℤ) (harr : arr ∈ a :: b :: rest) (order : List Nat)
    (ho : IsArgsort arr order) :
    ∃ r : List Nat, find arr order vals = some (r.map fun i : Nat => (i : ℤ)) ∧
      (r.map fun i => arr[i]?) = vals.map some := by
  obtain ⟨vals', e, _, h⟩ := C71_common_vals a b rest
  rw [hv, Option.some.injEq] at e
  subst e
  exact C71_find arr vals order ho (fun v hvv => (h v).1 hvv arr harr) none

example : commonVals [[1, 2, 3, 4, 5], [2, 4, 6, 8]] = some [2, 4] := by decide

/-- C71: inverse_order of a permutation is its inverse on both sides, and applying it after the permutation
restores any array. -/
theorem C71_inverse_order (order : List Nat) (n : Nat) (h : order.Perm (List.range n)) :
    ∃ inv, inverseOrder order = some inv ∧ inv.length = n ∧
      (∀ i j : Nat, order[i]? = some j ↔ i < n ∧ inv[j]? = some i) ∧
      ∀ (β : Type) (a : List β), a.length = n →
        inv.map (fun j => (order.map fun i => a[i]?)[j]?) = a.map fun x => some (some x) := by
  have hlen : order.length = n := by rw [h.length_eq, List.length_range]
  have hlt : ∀ i ∈ order, i < n := fun i hi => List.mem_range.1 (h.mem_iff.1 hi)
  have hnd : order.Nodup := h.nodup_iff.2 List.nodup_range
  have hall : order.all (fun i => decide (i < order.length)) = true := by
    rw [List.all_eq_true]
    intro i hi
    simp only [decide_eq_true_eq, hlen]
    exact hlt i hi
  refine ⟨_, if_pos hall, ?_, ?_⟩
  · rw [foldl_set_length, List.length_replicate, hlen]
  · set inv := (order.zip (List.range order.length)).foldl (fun inv oi => inv.set oi.1 oi.2) (List.replicate order.length 0)
      with hinv
    have hilen : inv.length = n := by rw [hinv, foldl_set_length, List.length_replicate, hlen]
    have hmap : ((order.zip (List.range order.length)).map Prod.fst) = order := by
      rw [List.map_fst_zip (by simp)]
    have hfwd : ∀ i j : Nat, order[i]? = some j → inv[j]? = some i := by
      intro i j hij
      obtain ⟨hi, e⟩ := List.getElem?_eq_some_iff.1 hij
      apply foldl_set_hit
      · rw [hmap]; exact hnd
      · rw [List.mem_iff_getElem]
        exact ⟨i, by simpa using hi, by simp [e]⟩
      · rw [List.length_replicate, hlen]
        exact hlt j (e ▸ List.getElem_mem hi)
    have hbwd : ∀ i j : Nat, inv[j]? = some i → order[i]? = some j := by
      intro i j hji
      obtain ⟨hj, e⟩ := List.getElem?_eq_some_iff.1 hji
      obtain ⟨i', hi', e'⟩ := List.getElem_of_mem (h.mem_iff.2 (List.mem_range.2 (hilen ▸ hj)))
      have h1 : order[i']? = some j := by rw [List.getElem?_eq_getElem hi', e']
      have h2 := hfwd i' j h1
      rw [hji, Option.some.injEq] at h2
      rw [h2]; exact h1
    refine ⟨fun i j => ⟨fun hij => ⟨?_, hfwd i j hij⟩, fun hij => hbwd i j hij.2⟩, ?_⟩
    · rw [← hlen]; exact (List.getElem?_eq_some_iff.1 hij).1
    · intro β a ha
      apply List.ext_getElem
      · simp [hilen, ha]
      · intro j h1 h2
        simp only [List.length_map] at h1 h2
        simp only [List.getElem_map, List.getElem?_map]
        have h3 : inv[j]? = some inv[j] := List.getElem?_eq_getElem h1
        rw [hbwd _ _ h3]
        simp [List.getElem?_eq_getElem h2]

example : inverseOrder [4, 0, 3, 2, 5, 1, 6] = some [1, 5, 3, 2, 0, 4, 6] := by decide

/-- C71: complement_inds returns, in increasing order, exactly the indices of `0 … n-1` that are not listed. -/
theorem C71_complement_inds_partial (inds : List Nat) (n : Nat) (hne : inds ≠ []) (h : ∀ i ∈ inds, i < n) :
    ∃ r, complementInds (inds.map fun i : Nat => (i : ℤ)) n = some r ∧ r.Pairwise (· < ·) ∧
      ∀ i, i ∈ r ↔ i < n ∧ i ∉ inds := by
  unfold complementInds
  rw [if_neg (by simpa using hne), if_pos]
  · refine ⟨_, rfl, List.Pairwise.filter _ List.pairwise_lt_range, fun i => ?_⟩
    have : ((inds.map fun i : Nat => (i : ℤ)).map fun (i : ℤ) => (if i < 0 then i + (n : ℤ) else i).toNat) = inds := by
      rw [List.map_map]
      conv_rhs => rw [← List.map_id inds]
      apply List.map_congr_left
      intro k _
      have : ¬ ((k : ℤ) < 0) := by omega
      simp [this]
    rw [this, List.mem_filter, List.mem_range]
    simp
  · rw [List.all_eq_true]
    intro i hi
    obtain ⟨k, hk, rfl⟩ := List.mem_map.1 hi
    have := h k hk
    simp; omega

example : complementInds [0, 2, 4] 7 = some [1, 3, 5, 6] := by decide

/-- C71 fails for the empty list: complement_inds([], n), which should be all of `0 … n-1`, raises because
`np.array([])` is not an array of integers. -/
theorem C71_complement_inds_refuted (n : Nat) : complementInds [] n = none := rfl

theorem maskFill_spec {β : Type} (fill : β) (mask : List Bool) (arr : List β) (h : arr.length = mask.count true) :
    (maskFill fill mask arr).length = mask.length ∧ maskGet mask (maskFill fill mask arr) = arr ∧
    ∀ i : Nat, mask[i]? = some false → (maskFill fill mask arr)[i]? = some fill := by
  induction mask generalizing arr with
  | nil =>
    have : arr = [] := by simpa using h
    subst this
    exact ⟨rfl, rfl, by simp⟩
  | cons m mask ih =>
    cases m with
    | false =>
      obtain ⟨h1, h2, h3⟩ := ih arr (by simpa using h)
      refine ⟨by simp [maskFill, h1], ?_, ?_⟩
      · simpa [maskFill, maskGet] using h2
      · intro i hi
        cases i with
        | zero => simp [maskFill]
        | succ i => simpa [maskFill] using h3 i (by simpa using hi)
    | true =>
      cases arr with
      | nil => simp at h
      | cons x arr =>
        obtain ⟨h1, h2, h3⟩ := ih arr (by simpa using h)
        refine ⟨by simp [maskFill, h1], ?_, ?_⟩
        · have : maskGet (true :: mask) (x :: maskFill fill mask arr) = x :: maskGet mask (maskFill fill mask arr) := by
            simp [maskGet]
          rw [maskFill, this, h2]
        · intro i hi
          cases i with
          | zero => simp at hi
          | succ i => simpa [maskFill] using h3 i (by simpa using hi)

/-- C71: unmask undoes masking in one dimension: the result has the shape of the mask, masking it gives the values
back, and every unselected place holds the fill value. -/
theorem C71_unmask_partial {β : Type} (arr : List β) (mask : List Bool) (fill : β) (h : arr.length = mask.count true) :
    ∃ r, unmask arr mask fill = some r ∧ r.length = mask.length ∧ maskGet mask r = arr ∧
      ∀ i : Nat, mask[i]? = some false → r[i]? = some fill := by
  obtain ⟨h1, h2, h3⟩ := maskFill_spec fill mask arr h
  exact ⟨_, if_pos h, h1, h2, h3⟩

example : unmask [7, 8] [false, true, false, true] 0 = some [0, 7, 0, 8] := by decide

/-- C71 fails for unmask with the default axis on arrays with further axes: the rows of a two-dimensional array
selected by a mask cannot be put back (`axis` only works when it is the last one). -/
theorem C71_unmask_refuted {β : Type} (x : List (List β)) (k : Nat) (mask : List Bool) (fill : β)
    (hlen : x.length = mask.length) (hk : 2 ≤ k) : unmask2 (maskGet mask x) k mask fill = none := by
  have hg : (maskGet mask x).length = mask.count true := by
    clear hk
    induction mask generalizing x with
    | nil => simp [maskGet]
    | cons m mask ih =>
      cases x with
      | nil => simp at hlen
      | cons r x =>
        have := ih x (by simpa using hlen)
        cases m
        · simpa [maskGet] using this
        · simpa [maskGet] using this
  unfold unmask2
  rw [if_neg]
  rintro ⟨h1, h2⟩
  omega

/-! ### C72 -/

/-- C72: entry `k` of sum_by_id is the sum of exactly the samples whose identifier is `k`, for every `k` up to the
largest identifier. -/
theorem C72_sum_by_id {M : Type} [AddCommMonoid M] (a : List M) (ids : List Nat) (hne : ids ≠ [])
    (hlen : ids.length = a.length) :
    ∃ out, sumById a ids = some out ∧ (∀ i ∈ ids, i < out.length) ∧ (∃ i ∈ ids, out.length = i + 1) ∧
      ∀ k < out.length, out[k]? = some (((ids.zip a).filter fun p => decide (p.1 = k)).map Prod.snd).sum := by
  have hpos := List.length_pos_of_ne_nil hne
  unfold sumById
  rw [if_neg (by omega)]
  refine ⟨_, rfl, ?_, ?_, ?_⟩
  · intro i hi
    rw [accum_length, List.length_replicate]
    have := (foldl_max_ge ids 0).2 i hi
    omega
  · rw [accum_length, List.length_replicate]
    have : ids.foldl max 0 = 0 ∨ ids.foldl max 0 ∈ ids := by
      have : ∀ (l : List Nat) (m : Nat), l.foldl max m = m ∨ l.foldl max m ∈ l := by
        intro l
        induction l with
        | nil => intro m; exact Or.inl rfl
        | cons x l ih =>
          intro m
          rw [List.foldl_cons]
          rcases ih (max m x) with h | h
          · rw [h]
            rcases Nat.le_total m x with h2 | h2
            · right; rw [Nat.max_eq_right h2]; simp
            · left; rw [Nat.max_eq_left h2]
          · right; exact List.mem_cons_of_mem _ h
      exact this ids 0
    rcases this with h | h
    · obtain ⟨x, hx⟩ := List.exists_mem_of_ne_nil _ hne
      have := (foldl_max_ge ids 0).2 x hx
      exact ⟨x, hx, by omega⟩
    · exact ⟨_, h, rfl⟩
  · intro k hk
    rw [accum_length] at hk
    rw [accum_get, List.getElem?_eq_getElem hk]
    simp

example : sumById [(10 : ℤ), 20, 30, 40] [2, 0, 2, 2] = some [20, 0, 80] := by decide

/-- C72: nothing is lost or counted twice by sum_by_id: the sums add up to the sum of the samples. -/
theorem C72_total {M : Type} [AddCommMonoid M] (a : List M) (ids : List Nat) (hlen : ids.length = a.length)
    (out : List M) (h : sumById a ids = some out) : out.sum = a.sum := by
  unfold sumById at h
  by_cases hc : ids.length = 0 ∨ a.length < ids.length
  · rw [if_pos hc] at h; simp at h
  rw [if_neg hc] at h
  have h := (Option.some.inj h).symm
  have hmod : ∀ (l : List M) (k : Nat) (v : M), k < l.length → (l.modify k (· + v)).sum = l.sum + v := by
    intro l
    induction l with
    | nil => intro k v hk; simp at hk
    | cons x l ih =>
      intro k v hk
      cases k with
      | zero => simp [add_right_comm]
      | succ k => simp [ih k v (by simpa using hk), add_assoc]
  have hfold : ∀ (l : List (Nat × M)) (acc : List M), (∀ p ∈ l, p.1 < acc.length) →
      (l.foldl (fun fb ia => fb.modify ia.1 (· + ia.2)) acc).sum = acc.sum + (l.map Prod.snd).sum := by
    intro l
    induction l with
    | nil => intro acc _; simp
    | cons x l ih =>
      intro acc hp
      rw [List.foldl_cons, ih _ (by intro p hp'; rw [List.length_modify]; exact hp p (by simp [hp'])),
        hmod _ _ _ (hp x (by simp))]
      simp [add_assoc]
  rw [h, hfold]
  · rw [List.map_snd_zip (by omega)]; simp
  · intro p hp
    rw [List.length_replicate]
    have := (foldl_max_ge ids 0).2 p.1 (List.of_mem_zip hp).1
    omega

/-- C72: bin_multi adds the weight of each sample to exactly one pixel, the one its coordinates point to after
being clamped to the array. -/
theorem C72_bin_multi (shape : List Nat) (hs : ∀ n ∈ shape, 0 < n) (samples : List (List ℤ × ℚ))
    (hp : ∀ s ∈ samples, s.1.length = shape.length) (idx : List Nat) (hi : InShape shape idx) :
    (binMulti shape samples)[ravel shape idx]? =
      some ((samples.filter fun s => decide (clipPix shape s.1 = idx)).map Prod.snd).sum := by
  unfold binMulti
  rw [accum_get, List.getElem?_replicate, if_pos (ravel_lt hi)]
  simp only [Option.map_some, zero_add, Option.some.injEq]
  rw [List.filter_map, List.map_map]
  congr 1
  have : ∀ s ∈ samples, decide (ravel shape (clipPix shape s.1) = ravel shape idx) = decide (clipPix shape s.1 = idx) := by
    intro s hsm
    congr 1
    apply propext
    exact ⟨fun h => ravel_inj (clipPix_inShape hs _ (hp s hsm)) hi h, fun h => by rw [h]⟩
  rw [List.filter_congr (q := fun s => decide (clipPix shape s.1 = idx)) (by simpa using this)]
  rfl

/-- C72: a coordinate inside the array is not moved by the clamping. -/
theorem C72_clip_inside (shape idx : List Nat) (h : InShape shape idx) :
    clipPix shape (idx.map fun c : Nat => (c : ℤ)) = idx := by
  unfold InShape at h
  induction h with
  | nil => rfl
  | @cons c n cs ns hc _ ih =>
    unfold clipPix at ih ⊢
    rw [List.map_cons, List.zipWith_cons_cons, ih]
    congr 1
    omega

example : binMulti [2, 3] [([0, 1], 5), ([1, 7], 2), ([-4, 1], 1)] = [0, 6, 0, 0, 0, 2] := by decide +kernel

/-! ### C73 -/

theorem cumsum_nat_aux (l : List Nat) (acc : Nat) (out : List Nat) :
    (l.foldl (fun st x => (st.1 + x, st.2 ++ [st.1 + x])) (acc, out)).2 =
      out ++ (List.range l.length).map fun i => acc + (l.take (i + 1)).sum := by
  induction l generalizing acc out with
  | nil => simp
  | cons x l ih =>
    rw [List.foldl_cons, ih, List.length_cons, List.range_succ_eq_map]
    simp only [List.map_cons, List.map_map, List.append_assoc, List.take_succ_cons, List.sum_cons]
    congr 1
    simp only [List.cons_append, List.nil_append, List.take_zero, List.sum_nil, add_zero]
    congr 1
    apply List.map_congr_left
    intro i _
    simp only [Function.comp, Nat.succ_eq_add_one]
    ring

/-- C73: entry `i` of cumsum is the sum of the first `i` values; with endpoint the total is appended. -/
theorem C73_cumsum (a : List Nat) :
    cumsum0 a true = (List.range (a.length + 1)).map (fun i => (a.take i).sum) ∧
    cumsum0 a false = (List.range a.length).map (fun i => (a.take i).sum) := by
  constructor
  · simp only [cumsum0, cumsum_nat_aux, if_true, List.nil_append, zero_add]
    rw [List.range_succ_eq_map, List.map_cons, List.map_map]
    simp [Function.comp_def]
  · simp only [cumsum0, cumsum_nat_aux, List.nil_append, zero_add]
    rcases List.eq_nil_or_concat a with rfl | ⟨b, x, rfl⟩
    · simp
    · rw [List.concat_eq_append]
      simp only [Bool.false_eq_true, if_false, List.append_eq_nil_iff, List.cons_ne_nil, and_false,
        List.length_append, List.length_singleton]
      rw [List.range_succ, List.map_append, List.map_cons, List.map_nil, List.dropLast_concat, ← List.range_succ,
        List.range_succ_eq_map, List.map_cons, List.map_map]
      simp [Function.comp_def]

/-- C73: uncat undoes concatenation. -/
theorem C73_uncat {β : Type} (bs : List (List β)) : uncat bs.flatten (bs.map List.length) = bs := by
  unfold uncat
  rw [(C73_cumsum _).1]
  apply List.ext_getElem
  · simp
  · intro i h1 h2
    simp only [List.getElem_map, List.getElem_range]
    have hg : ∀ j, j ≤ bs.length → ((List.range ((bs.map List.length).length + 1)).map
        (fun i => ((bs.map List.length).take i).sum)).getD j 0 = ((bs.map List.length).take j).sum := by
      intro j hj
      rw [List.getD_eq_getElem?_getD, List.getElem?_map, List.getElem?_range (by simp; omega)]
      rfl
    rw [hg i (by omega), hg (i + 1) (by omega)]
    have h3 : (bs.map List.length).take (i + 1) = (bs.map List.length).take i ++ [bs[i].length] := by
      rw [List.take_add_one, List.getElem?_eq_getElem (by simpa using h2)]
      simp
    rw [h3, List.sum_append, List.sum_singleton, Nat.add_sub_cancel_left]
    have h4 : bs.flatten = (bs.take i).flatten ++ (bs[i] ++ (bs.drop (i + 1)).flatten) := by
      conv_lhs => rw [← List.take_append_drop i bs, List.flatten_append, List.drop_eq_getElem_cons h2, List.flatten_cons]
    have h5 : ((bs.map List.length).take i).sum = (bs.take i).flatten.length := by
      rw [List.length_flatten, List.map_take]
    rw [h4, h5, List.drop_left', List.take_left']
    · rfl
    · rfl

example : cumsum0 [3, 1, 2] true = [0, 3, 4, 6] ∧ cumsum0 [3, 1, 2] false = [0, 3, 4] := by decide
example : uncat [1, 2, 3, 4, 5] [2, 0, 3] = [[1, 2], [], [3, 4, 5]] := by decide

end Pixell
