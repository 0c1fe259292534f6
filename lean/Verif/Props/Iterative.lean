import Verif.Model.Iterative
import Verif.Props.Groups
import Verif.Props.Finder
import Mathlib.Tactic.Linarith
import Mathlib.Tactic.Abel
import Mathlib.Algebra.Order.Field.Rat

/-! C148 and C149: finding and measuring objects in passes, and objects of several kinds. -/

namespace Pixell

variable {V O C M F : Type} [AddCommGroup V] [DecidableEq C]

theorem modelOf_append (shape : O → V) (a b : List O) : modelOf shape (a ++ b) = modelOf shape a + modelOf shape b := by
  unfold modelOf
  rw [List.map_append, List.sum_append]

theorem modelOf_filter (shape : O → V) (p : O → Bool) (a : List O) :
    modelOf shape (a.filter p) + modelOf shape (a.filter fun o => !p o) = modelOf shape a := by
  induction a with
  | nil => simp [modelOf]
  | cons x a ih =>
    unfold modelOf at *
    cases h : p x
    · simp only [List.filter_cons, h, Bool.not_false, if_true, Bool.false_eq_true, if_false, List.map_cons, List.sum_cons] at *
      rw [← ih]; abel
    · simp only [List.filter_cons, h, Bool.not_true, if_true, Bool.false_eq_true, if_false, List.map_cons, List.sum_cons] at *
      rw [← ih]; abel

/-- What holds of the variables of the loop. -/
structure IterInv (g : IterCfg V O C M F) (map : V) (snmin : ℚ) (s : IterState V O C) : Prop where
  model : s.model = modelOf g.shape s.cat
  found : ∀ o ∈ s.cat, ∃ pre m, pre <+: s.cat ∧
    (∀ c, g.gridMax < (pre.filter fun o => decide (g.cell o = c)).length → m c = true) ∧
    o ∈ (g.finder (map - modelOf g.shape pre) (g.grow m) snmin (some g.sntol)).1
  hits : ∀ c, (s.cat.filter fun o => decide (g.cell o = c)).length ≤ s.hits c

theorem iterLoop_inv (g : IterCfg V O C M F) (map : V) (snmin : ℚ) (k : ℕ) (s : IterState V O C) (last : Option (List O × M))
    (h : IterInv g map snmin s) (hl : ∀ p, last = some p → s.cat = [] → p.1 = []) :
    IterInv g map snmin (iterLoop g map snmin k s last).1 ∧
    (∀ p, (iterLoop g map snmin k s last).2 = some p → (iterLoop g map snmin k s last).1.cat = [] → p.1 = []) ∧
    (0 < k → (iterLoop g map snmin k s last).2 ≠ none) ∧
    (last ≠ none → (iterLoop g map snmin k s last).2 ≠ none) := by
  induction k generalizing s last with
  | zero => exact ⟨h, hl, fun h => absurd h (by omega), fun h => h⟩
  | succ k ih =>
    unfold iterLoop
    dsimp only
    set mask := g.grow fun c => decide (g.gridMax < s.hits c) || s.snbad c
    set res := g.finder (map - s.model) mask snmin (some g.sntol) with hres
    by_cases h1 : res.1.isEmpty
    · rw [if_pos h1]
      refine ⟨h, ?_, fun _ => by simp, fun _ => by simp⟩
      intro p hp _
      injection hp with hp
      rw [← hp]
      exact List.isEmpty_iff.1 h1
    · rw [if_neg h1]
      set hits := fun c => s.hits c + (res.1.filter fun o => decide (g.cell o = c)).length with hhits
      set snrBin := fun c => ((res.1.filter fun o => decide (g.cell o = c)).map g.snr).sum
      set snbad := fun c => s.snbad c || (decide (s.snmaxs c * (3/2) < snrBin c) && decide (0 < s.snmaxs c))
      set snmaxs := fun c => max (s.snmaxs c) (snrBin c)
      set kept := res.1.filter fun o => !snbad (g.cell o) with hkept
      by_cases h2 : kept.isEmpty
      · rw [if_pos h2]
        have hi : IterInv g map snmin (⟨s.cat, s.model, hits, snmaxs, snbad⟩ : IterState V O C) :=
          ⟨h.model, h.found, fun c => le_trans (h.hits c) (Nat.le_add_right _ _)⟩
        obtain ⟨a, b, _, d⟩ := ih _ (some (kept, mask)) hi (by
          intro p hp _
          injection hp with hp
          rw [← hp]
          exact List.isEmpty_iff.1 h2)
        exact ⟨a, b, fun _ => d (by simp), fun _ => d (by simp)⟩
      · rw [if_neg h2]
        have hi : IterInv g map snmin (⟨s.cat ++ kept, s.model + modelOf g.shape kept, hits, snmaxs, snbad⟩ : IterState V O C) := by
          refine ⟨?_, ?_, ?_⟩
          · show s.model + _ = modelOf g.shape (s.cat ++ kept)
            rw [modelOf_append, h.model]
          · intro o ho
            rcases List.mem_append.1 ho with ho | ho
            · obtain ⟨pre, mk, hp, hm⟩ := h.found o ho
              exact ⟨pre, mk, hp.trans (List.prefix_append _ _), hm⟩
            · refine ⟨s.cat, fun c => decide (g.gridMax < s.hits c) || s.snbad c, List.prefix_append _ _, ?_, ?_⟩
              · intro c hc
                simp [lt_of_lt_of_le hc (h.hits c)]
              rw [← h.model]
              exact (List.mem_filter.1 ho).1
          · intro c
            show ((s.cat ++ kept).filter _).length ≤ hits c
            rw [List.filter_append, List.length_append, hhits]
            have h3 : (kept.filter fun o => decide (g.cell o = c)).length ≤ (res.1.filter fun o => decide (g.cell o = c)).length := by
              rw [hkept]
              exact ((List.filter_sublist (p := fun o => !snbad (g.cell o)) (l := res.1)).filter _).length_le
            have := h.hits c
            dsimp only
            omega
        have hne : s.cat ++ kept ≠ [] := by
          intro hc
          exact h2 (List.isEmpty_iff.2 (List.append_eq_nil_iff.1 hc).2)
        by_cases h4 : res.2 ≤ snmin
        · rw [if_pos h4]
          refine ⟨hi, fun p _ hc => absurd hc hne, fun _ => by simp, fun _ => by simp⟩
        · rw [if_neg h4]
          obtain ⟨a, b, _, d⟩ := ih _ (some (kept, mask)) hi (fun p _ hc => absurd hc hne)
          exact ⟨a, b, fun _ => d (by simp), fun _ => d (by simp)⟩

theorem iterStart_inv (g : IterCfg V O C M F) (map : V) (snmin : ℚ) : IterInv g map snmin (iterStart : IterState V O C) :=
  ⟨by simp [iterStart, modelOf], by simp [iterStart], by simp [iterStart]⟩

/-- C148: for every finder and modeller and every map, FinderIterative with at least one pass ends with a catalogue whose model is the model returned: the
sum over the objects returned, those cut in the end not included. Every object was found by the finder, with the limit asked for, in the map minus the
model of objects found before, and cells with more than grid_max of those were masked. The column contam is the contribution of all the objects found,
and in the end no cell has more than grid_max objects unless each of them is contaminated by at most 1/grid_dominance; no object contaminated by less is cut,
and none at all without grid_dominance. -/
theorem C148_finder (g : IterCfg V O C M F) (map : V) (snmin : ℚ) (snrel : Option ℚ) (hm : 0 < g.maxiter) :
    ∃ r, finderIterative g map snmin snrel = some r ∧
      r.model = modelOf g.shape (r.cat.map Prod.fst) ∧
      (∃ all : List O, (r.cat.map Prod.fst).Sublist all ∧
        (∀ o ∈ all, ∃ pre m, pre <+: all ∧
          (∀ c, g.gridMax < (pre.filter fun o => decide (g.cell o = c)).length → m c = true) ∧
          o ∈ (g.finder (map - modelOf g.shape pre) (g.grow m) snmin (some g.sntol)).1) ∧
        (∀ o ∈ r.cat, o.2 = contamOf g (modelOf g.shape all) o.1) ∧
        (∀ o ∈ all, contamOf g (modelOf g.shape all) o (g.best o) ≤ 1 / g.gridDominance → o ∈ r.cat.map Prod.fst) ∧
        (g.gridDominance = 0 → r.cat.map Prod.fst = all)) ∧
      (g.gridDominance ≠ 0 → ∀ o ∈ r.cat, g.gridMax < (r.cat.filter fun o' => decide (g.cell o'.1 = g.cell o.1)).length →
        o.2 (g.best o.1) ≤ 1 / g.gridDominance) := by
  obtain ⟨hi, hl, hn, _⟩ := iterLoop_inv g map snmin g.maxiter iterStart none (iterStart_inv g map snmin) (by simp)
  unfold finderIterative
  dsimp only
  set R := iterLoop g map snmin g.maxiter iterStart none
  cases hlast : R.2 with
  | none => exact absurd hlast (hn hm)
  | some last =>
    have hcat : (if R.1.cat.isEmpty then last.1 else R.1.cat) = R.1.cat := by
      by_cases h : R.1.cat.isEmpty
      · rw [if_pos h, hl last hlast (List.isEmpty_iff.1 h), List.isEmpty_iff.1 h]
      · rw [if_neg h]
    dsimp only
    rw [hcat]
    set cat := R.1.cat.map fun o => (o, contamOf g R.1.model o) with hc
    have hfst : cat.map Prod.fst = R.1.cat := by
      rw [hc, List.map_map]
      exact List.map_id _
    have hcon : ∀ o ∈ cat, o.2 = contamOf g (modelOf g.shape R.1.cat) o.1 := by
      intro o ho
      obtain ⟨o', _, rfl⟩ := List.mem_map.1 ho
      rw [hi.model]
    have hcount : ∀ (l : List (O × (F → ℚ))) c, l.Sublist cat →
        (l.filter fun o' => decide (g.cell o'.1 = c)).length ≤ R.1.hits c := by
      intro l c hsub
      refine le_trans ?_ (hi.hits c)
      have : ((cat.map Prod.fst).filter fun o => decide (g.cell o = c)).length = (cat.filter fun o' => decide (g.cell o'.1 = c)).length := by
        rw [List.filter_map, List.length_map]
        rfl
      rw [← hfst, this]
      exact (hsub.filter _).length_le
    by_cases hd : g.gridDominance ≠ 0 ∧ cat ≠ []
    · rw [if_pos hd]
      set bad := fun (o : O × (F → ℚ)) => decide (g.gridMax < R.1.hits (g.cell o.1)) && decide (1 / g.gridDominance < o.2 (g.best o.1)) with hbad
      refine ⟨_, rfl, ?_, ⟨R.1.cat, ?_, hi.found, ?_, ?_, fun h => absurd h hd.1⟩, ?_⟩
      · show R.1.model - _ = _
        have h1 := modelOf_filter (fun o : O × (F → ℚ) => g.shape o.1) bad cat
        have h2 : ∀ l : List (O × (F → ℚ)), modelOf (fun o : O × (F → ℚ) => g.shape o.1) l = modelOf g.shape (l.map Prod.fst) := by
          intro l; unfold modelOf; rw [List.map_map]; rfl
        rw [h2, h2, h2, hfst] at h1
        rw [hi.model, ← h1]
        abel
      · rw [← hfst]
        exact List.filter_sublist.map _
      · intro o ho
        exact hcon o (List.mem_filter.1 ho).1
      · intro o ho hle
        refine List.mem_map.2 ⟨(o, contamOf g R.1.model o), List.mem_filter.2 ⟨List.mem_map.2 ⟨o, ho, rfl⟩, ?_⟩, rfl⟩
        rw [← hi.model] at hle
        have h9 : decide (1 / g.gridDominance < contamOf g R.1.model o (g.best o)) = false := decide_eq_false (not_lt.2 hle)
        dsimp only
        rw [h9, Bool.and_false]
        rfl
      · intro _ o ho hgt
        have hb := (List.mem_filter.1 ho).2
        have hh := hcount _ (g.cell o.1) (List.filter_sublist (p := fun o => !bad o) (l := cat))
        have h1 : g.gridMax < R.1.hits (g.cell o.1) := lt_of_lt_of_le hgt hh
        simp only [h1, decide_true, Bool.true_and, Bool.not_eq_true', decide_eq_false_iff_not] at hb
        exact not_lt.1 hb
    · rw [if_neg hd]
      refine ⟨_, rfl, ?_, ⟨R.1.cat, by rw [hfst], hi.found, hcon, fun o ho _ => by rw [hfst]; exact ho, fun _ => hfst⟩, ?_⟩
      · show R.1.model = _
        rw [hfst]; exact hi.model
      · intro hd' o ho
        exfalso
        apply hd
        refine ⟨hd', ?_⟩
        intro hc'
        rw [hc'] at ho
        simp at ho

/-- C148: what holds of everything the finder returns with this limit holds of the whole catalogue; for example that the S/N is at least snmin. -/
theorem C148_limit (g : IterCfg V O C M F) (map : V) (snmin : ℚ) (snrel : Option ℚ) (P : O → Prop)
    (hP : ∀ v mask, ∀ o ∈ (g.finder v mask snmin (some g.sntol)).1, P o) (r : IterResult V O C F)
    (hr : finderIterative g map snmin snrel = some r) : ∀ o ∈ r.cat, P o.1 := by
  by_cases hm : 0 < g.maxiter
  · obtain ⟨r', h1, _, ⟨all, h3, h4, _⟩, _⟩ := C148_finder g map snmin snrel hm
    rw [hr] at h1
    injection h1 with h1
    subst h1
    intro o ho
    obtain ⟨pre, mask, _, _, h5⟩ := h4 o.1 (h3.subset (List.mem_map.2 ⟨o, ho, rfl⟩))
    exact hP _ _ _ h5
  · exfalso
    have : g.maxiter = 0 := by omega
    unfold finderIterative at hr
    rw [this] at hr
    simp [iterLoop] at hr

/-- A sky of one pixel, in which a source of amplitude 100 and six of amplitude 1 are found in the first pass. -/
def onePixel : IterCfg ℚ ℚ Unit Unit Unit where
  finder := fun v _ snmin _ => (if v = 106 then [100, 1, 1, 1, 1, 1, 1] else [], snmin)
  shape := id
  cell := fun _ => ()
  snr := id
  grow := fun _ => ()
  valAt := fun v _ _ => v
  own := fun o _ => o
  best := fun _ => ()
  maxiter := 20
  sntol := 1/2
  gridMax := 5
  gridDominance := 4

/-- Of these the strong one is kept. -/
example : (finderIterative onePixel 106 5 none).map (fun r => (r.cat.map Prod.fst, r.model)) = some ([100], 100) := by decide +kernel

/-- **C148 refuted (contamination).** The column contam is not the contribution of the other objects of the catalogue relative to the object's own: it is worked out
before objects are cut and still counts them. Here one object is left, alone, with a contamination of 6 percent. -/
theorem C148_contam_refuted : ∃ r, finderIterative onePixel 106 5 none = some r ∧
    r.cat.map (fun o => (o.1, o.2 ())) = [(100, 6/100)] ∧ r.cat.map (fun o => contamOf onePixel r.model o.1 ()) = [0] := by
  refine ⟨(finderIterative onePixel 106 5 none).get (by decide +kernel), by simp, ?_, ?_⟩ <;> decide +kernel

/-- **C148 refuted (no pass).** With maxiter = 0 the call fails, for all maps. -/
theorem C148_maxiter_refuted (g : IterCfg V O C M F) (h : g.maxiter = 0) (map : V) (snmin : ℚ) (snrel : Option ℚ) :
    finderIterative g map snmin snrel = none := by
  unfold finderIterative
  rw [h]
  rfl

/-- **C148 refuted (snrel).** The argument snrel has no effect: asking for objects of at least the strongest one's S/N (snrel = 1) gives the same catalogue as asking for
any other fraction, whatever the finder does with its own snrel. -/
theorem C148_snrel_refuted (g : IterCfg V O C M F) (map : V) (snmin : ℚ) (a b : Option ℚ) :
    finderIterative g map snmin a = finderIterative g map snmin b := rfl

/-! ### C149: measuring -/

theorem assignInds_length (cat : List O) (inds : List ℕ) (vals : List O) : (assignInds cat inds vals).length = cat.length :=
  foldl_set_length _ _

theorem assignInds_other (cat : List O) (inds : List ℕ) (vals : List O) (j : ℕ) (hj : j ∉ inds) :
    (assignInds cat inds vals)[j]? = cat[j]? := by
  unfold assignInds
  induction inds generalizing cat vals with
  | nil => rfl
  | cons i inds ih =>
    cases vals with
    | nil => rfl
    | cons v vals =>
      rw [List.zip_cons_cons, List.foldl_cons, ih _ _ (fun h => hj (List.mem_cons_of_mem _ h)),
        List.getElem?_set_ne (fun h : i = j => hj (by rw [h]; exact List.mem_cons_self))]

theorem assignInds_take (cat : List O) (inds : List ℕ) (vals : List O) (hn : inds.Nodup) (hl : vals.length = inds.length)
    (hin : ∀ i ∈ inds, i < cat.length) : takeInds (assignInds cat inds vals) inds = vals := by
  induction inds generalizing cat vals with
  | nil =>
    have : vals = [] := List.eq_nil_of_length_eq_zero hl
    subst this
    rfl
  | cons i inds ih =>
    cases vals with
    | nil => simp at hl
    | cons v vals =>
      have hn' := List.nodup_cons.1 hn
      have e : assignInds cat (i :: inds) (v :: vals) = assignInds (cat.set i v) inds vals := rfl
      rw [e]
      have h1 := ih (cat.set i v) vals hn'.2 (by simpa using hl) (fun j hj => by
        rw [List.length_set]; exact hin j (List.mem_cons_of_mem _ hj))
      unfold takeInds at h1 ⊢
      rw [List.filterMap_cons, assignInds_other _ _ _ _ hn'.1, List.getElem?_set_self (hin i List.mem_cons_self)]
      dsimp only
      rw [h1]

theorem takeInds_congr (a b : List O) (inds : List ℕ) (h : ∀ i ∈ inds, a[i]? = b[i]?) : takeInds a inds = takeInds b inds := by
  unfold takeInds
  apply List.filterMap_congr
  exact h

theorem takeInds_range (a : List O) : takeInds a (List.range a.length) = a := by
  unfold takeInds
  have : ∀ n, n ≤ a.length → (List.range n).filterMap (fun i => a[i]?) = a.take n := by
    intro n hn
    induction n with
    | zero => simp
    | succ n ih =>
      rw [List.range_succ, List.filterMap_append, ih (by omega)]
      simp only [List.filterMap_cons, List.filterMap_nil]
      rw [List.getElem?_eq_getElem (by omega)]
      dsimp only
      rw [List.take_succ_eq_append_getElem (by omega)]
  rw [this a.length le_rfl, List.take_length]

theorem takeInds_length (a : List O) (inds : List ℕ) (h : ∀ i ∈ inds, i < a.length) : (takeInds a inds).length = inds.length := by
  induction inds with
  | nil => rfl
  | cons i inds ih =>
    unfold takeInds at *
    rw [List.filterMap_cons, List.getElem?_eq_getElem (h i List.mem_cons_self)]
    dsimp only
    rw [List.length_cons, ih (fun j hj => h j (List.mem_cons_of_mem _ hj)), List.length_cons]

theorem takeInds_append (a : List O) (x y : List ℕ) : takeInds a (x ++ y) = takeInds a x ++ takeInds a y := by
  unfold takeInds; rw [List.filterMap_append]

theorem measureIter_spec (measurer : V → List O → List O) (hlen : ∀ v l, (measurer v l).length = l.length) (shape : O → V) (map : V)
    (icat : List O) (groups : List (List ℕ)) (hn : groups.flatten.Nodup) (hin : ∀ i ∈ groups.flatten, i < icat.length) :
    (measureIter measurer shape map icat groups).1.length = icat.length ∧
    (∀ j, j ∉ groups.flatten → (measureIter measurer shape map icat groups).1[j]? = icat[j]?) ∧
    (measureIter measurer shape map icat groups).2 = modelOf shape (takeInds (measureIter measurer shape map icat groups).1 groups.flatten) ∧
    ∀ pre g post, groups = pre ++ g :: post →
      takeInds (measureIter measurer shape map icat groups).1 g =
        measurer (map - modelOf shape (takeInds (measureIter measurer shape map icat groups).1 pre.flatten)) (takeInds icat g) := by
  induction groups using List.reverseRecOn with
  | nil => exact ⟨rfl, fun _ _ => rfl, by simp [measureIter, modelOf, takeInds], by simp⟩
  | append_singleton groups grp ih =>
    have hfl : (groups ++ [grp]).flatten = groups.flatten ++ grp := by simp
    rw [hfl] at hn hin
    obtain ⟨hn1, hn2, hdis⟩ := List.nodup_append.1 hn
    obtain ⟨i1, i2, i3, i4⟩ := ih hn1 (fun i hi => hin i (List.mem_append_left _ hi))
    set st := measureIter measurer shape map icat groups with hst
    have hstep : measureIter measurer shape map icat (groups ++ [grp]) =
        (assignInds st.1 grp (measurer (map - st.2) (takeInds icat grp)), st.2 + modelOf shape (measurer (map - st.2) (takeInds icat grp))) := by
      rw [hst]; unfold measureIter; rw [List.foldl_append]; rfl
    rw [hstep, hfl]
    set sub := measurer (map - st.2) (takeInds icat grp) with hsub
    have hgin : ∀ i ∈ grp, i < icat.length := fun i hi => hin i (List.mem_append_right _ hi)
    have hslen : sub.length = grp.length := by rw [hsub, hlen, takeInds_length _ _ hgin]
    have htake : takeInds (assignInds st.1 grp sub) grp = sub :=
      assignInds_take _ _ _ hn2 hslen (fun i hi => by rw [i1]; exact hgin i hi)
    have hold : ∀ l : List ℕ, (∀ i ∈ l, i ∈ groups.flatten) → takeInds (assignInds st.1 grp sub) l = takeInds st.1 l := by
      intro l hl
      apply takeInds_congr
      intro i hi
      exact assignInds_other _ _ _ _ (fun h => hdis i (hl i hi) i h rfl)
    refine ⟨by rw [assignInds_length, i1], ?_, ?_, ?_⟩
    · intro j hj
      rw [List.mem_append, not_or] at hj
      show (assignInds st.1 grp sub)[j]? = _
      rw [assignInds_other _ _ _ _ hj.2, i2 j hj.1]
    · show st.2 + modelOf shape sub = _
      rw [takeInds_append, modelOf_append, htake, hold _ (fun i hi => hi), ← i3]
    · intro pre g post hsplit
      show takeInds (assignInds st.1 grp sub) g = measurer (map - modelOf shape (takeInds (assignInds st.1 grp sub) pre.flatten)) _
      rcases List.eq_nil_or_concat post with rfl | ⟨post', p, rfl⟩
      · have := List.append_inj' hsplit rfl
        obtain ⟨h1, h2⟩ := this
        have h2 : grp = g := by simpa using h2
        subst h1 h2
        rw [htake, hold _ (fun i hi => hi), ← i3]
      · have hsplit' : groups ++ [grp] = (pre ++ g :: post') ++ [p] := by
          rw [hsplit]; simp
        have := List.append_inj' hsplit' rfl
        obtain ⟨h1, h2⟩ := this
        have hg : ∀ i ∈ g, i ∈ groups.flatten := by
          intro i hi; rw [h1]; simp [hi]
        have hp : ∀ i ∈ pre.flatten, i ∈ groups.flatten := by
          intro i hi; rw [h1, List.flatten_append]; exact List.mem_append_left _ hi
        rw [hold _ hg, hold _ hp]
        exact i4 pre g post' h1

theorem measureIter_groups (measurer : V → List O → List O) (hlen : ∀ v l, (measurer v l).length = l.length) (shape : O → V) (map : V)
    (icat : List O) (groups : List (List ℕ)) (hperm : groups.flatten.Perm (List.range icat.length)) :
    ∃ cat, measureIter measurer shape map icat groups = (cat, modelOf shape cat) ∧ cat.length = icat.length ∧
      ∀ pre g post, groups = pre ++ g :: post →
        takeInds cat g = measurer (map - modelOf shape (takeInds cat pre.flatten)) (takeInds icat g) := by
  have hn : groups.flatten.Nodup := hperm.nodup_iff.2 List.nodup_range
  have hin : ∀ i ∈ groups.flatten, i < icat.length := fun i hi => List.mem_range.1 (hperm.mem_iff.1 hi)
  obtain ⟨h1, _, h3, h4⟩ := measureIter_spec measurer hlen shape map icat groups hn hin
  refine ⟨(measureIter measurer shape map icat groups).1, ?_, h1, h4⟩
  apply Prod.ext
  · rfl
  · show (measureIter measurer shape map icat groups).2 = _
    rw [h3]
    conv_rhs => rw [← takeInds_range (measureIter measurer shape map icat groups).1, h1]
    unfold modelOf takeInds
    exact ((hperm.filterMap _).map shape).sum_eq

/-- C149: MeasurerIterative keeps the number and order of the objects, measures every object exactly once, with all the others of its group, in the map minus the model of the
objects of all stronger groups as they were measured, and returns as model the sum over the returned catalogue. The groups come strongest first. -/
theorem C149_iterative (argsort : List ℤ → List ℕ) (ha : ∀ v, IsArgsort v (argsort v)) (measurer : V → List O → List O)
    (hlen : ∀ v l, (measurer v l).length = l.length) (shape : O → V) (snr : O → ℝ) {sntol snscale : ℝ} (h0 : 0 < sntol) (h1 : sntol < 1)
    (map : V) (icat : List O) :
    ∃ cat groups, measurerIterative argsort measurer shape snr sntol snscale map icat = some (cat, modelOf shape cat) ∧ cat.length = icat.length ∧
      groups.flatten.Perm (List.range icat.length) ∧
      (groups.Pairwise fun g h => ∀ x ∈ g, ∀ y ∈ h,
        clampSnr (icat.map fun o => snr o * snscale) (1 / 10) y < clampSnr (icat.map fun o => snr o * snscale) (1 / 10) x) ∧
      ∀ pre g post, groups = pre ++ g :: post →
        takeInds cat g = measurer (map - modelOf shape (takeInds cat pre.flatten)) (takeInds icat g) := by
  unfold measurerIterative
  by_cases he : icat.isEmpty
  · rw [if_pos he]
    have : icat = [] := List.isEmpty_iff.1 he
    subst this
    exact ⟨[], [], rfl, rfl, by simp, List.Pairwise.nil, by simp⟩
  · rw [if_neg he]
    obtain ⟨groups, hg, hperm, _, _, hord, _⟩ := C110_split argsort ha (icat.map fun o => snr o * snscale)
      (fun h => he (List.isEmpty_iff.2 (List.map_eq_nil_iff.1 h))) h0 h1 (show (0 : ℝ) < 1 / 10 by norm_num)
    rw [List.length_map] at hperm
    obtain ⟨cat, hc, hl, hs⟩ := measureIter_groups measurer hlen shape map icat groups hperm
    exact ⟨cat, groups, by rw [hg, Option.map_some, hc], hl, hperm, hord, hs⟩

/-- Two objects, the second in the first group. -/
example : measureIter (fun (v : ℚ) l => l.map fun o => o + v) id 10 [1, 2] [[1], [0]] = ([-1, 12], 11) := by decide +kernel

theorem caseGroups_spec (cases : List ℤ) :
    (caseGroups cases).map Prod.fst = (findEqualGroupsFast cases).1 ∧
    ∀ g ∈ caseGroups cases, g.2 = (List.range cases.length).filter fun k => decide (cases[k]? = some g.1) := by
  obtain ⟨_, _, _, h4⟩ := C74_fast cases
  constructor
  · unfold caseGroups
    rw [List.map_map]
    have : (Prod.fst ∘ fun u : ℤ × ℕ => (u.1, ((findEqualGroupsFast cases).2.1.drop ((findEqualGroupsFast cases).2.2.getD u.2 0)).take
        ((findEqualGroupsFast cases).2.2.getD (u.2 + 1) 0 - (findEqualGroupsFast cases).2.2.getD u.2 0))) = Prod.fst := by
      funext u; rfl
    rw [this, List.zipIdx_map_fst]
  · intro g hg
    unfold caseGroups at hg
    obtain ⟨u, hu, rfl⟩ := List.mem_map.1 hg
    have := List.mem_zipIdx_iff_getElem?.1 hu
    exact h4 u.2 u.1 this

/-- The number of objects of one case and the objects of that case. -/
theorem takeInds_case (case : O → ℤ) (cat : List O) (u : ℤ) :
    takeInds cat ((List.range (cat.map case).length).filter fun k => decide ((cat.map case)[k]? = some u)) =
      cat.filter fun o => decide (case o = u) := by
  rw [List.length_map]
  have : ∀ n, n ≤ cat.length → takeInds cat ((List.range n).filter fun k => decide ((cat.map case)[k]? = some u)) =
      (cat.take n).filter fun o => decide (case o = u) := by
    intro n hn
    induction n with
    | zero => simp [takeInds]
    | succ n ih =>
      have hlt : n < cat.length := by omega
      rw [List.range_succ, List.filter_append, takeInds_append, ih (by omega), List.take_succ_eq_append_getElem hlt, List.filter_append]
      congr 1
      simp only [List.filter_cons, List.filter_nil, List.getElem?_map, List.getElem?_eq_getElem hlt, Option.map_some, Option.some.injEq]
      by_cases h : case cat[n] = u
      · simp [h, takeInds, List.getElem?_eq_getElem hlt]
      · simp [h, takeInds]
  rw [this cat.length le_rfl, List.take_length]

theorem modellerMulti_fold (modellers : List (List O → V)) (shape : ℕ → O → V)
    (hmod : ∀ (k : ℕ) (m : List O → V), modellers[k]? = some m → ∀ l, m l = modelOf (shape k) l) (case : O → ℤ) (cat : List O) (gs : List (ℤ × List ℕ))
    (hg : ∀ g ∈ gs, takeInds cat g.2 = (cat.filter fun o => decide (case o = g.1)) ∧ takeInds cat g.2 ≠ [])
    (hc : ∀ o ∈ cat, 0 ≤ case o ∧ case o < modellers.length) (acc : Option V) :
    gs.foldl (fun (st : Option (Option V)) (g : ℤ × List ℕ) => st.bind fun omap => modelGroup modellers cat omap g.1 g.2) (some acc) =
    some (if gs = [] then acc else some (acc.getD 0 + ((gs.map fun g => modelOf (fun o => shape (case o).toNat o)
      (cat.filter fun o => decide (case o = g.1)))).sum)) := by
  induction gs generalizing acc with
  | nil => rfl
  | cons g gs ih =>
    obtain ⟨h1, h2⟩ := hg g List.mem_cons_self
    obtain ⟨o, ho⟩ := List.exists_mem_of_ne_nil _ h2
    rw [h1] at ho
    have hoc := hc o (List.mem_filter.1 ho).1
    have hog : case o = g.1 := by simpa using (List.mem_filter.1 ho).2
    rw [hog] at hoc
    obtain ⟨m, hm⟩ : ∃ m, modellers[g.1.toNat]? = some m := ⟨_, List.getElem?_eq_getElem (by omega)⟩
    have hpy : pyNth modellers g.1 = some m := by
      unfold pyNth; rw [if_pos hoc.1, hm]
    have hsub : m (takeInds cat g.2) = modelOf (fun o => shape (case o).toNat o) (cat.filter fun o => decide (case o = g.1)) := by
      rw [h1, hmod _ m hm]
      unfold modelOf
      congr 1
      apply List.map_congr_left
      intro o ho
      have : case o = g.1 := by simpa using (List.mem_filter.1 ho).2
      rw [this]
    have hne : (takeInds cat g.2).isEmpty = false := by
      rw [Bool.eq_false_iff]; intro h; exact h2 (List.isEmpty_iff.1 h)
    have hstep : modelGroup modellers cat acc g.1 g.2 =
        some (some (acc.getD 0 + modelOf (fun o => shape (case o).toNat o) (cat.filter fun o => decide (case o = g.1)))) := by
      unfold modelGroup
      rw [hne, hpy]
      cases acc <;> simp [hsub]
    rw [List.foldl_cons, Option.bind_some, hstep, ih (fun g' hg' => hg g' (List.mem_cons_of_mem _ hg'))]
    by_cases hgs : gs = []
    · simp [hgs]
    · simp [hgs, add_assoc]

theorem sum_by_case (case : O → ℤ) (shape : O → V) (cat : List O) (us : List ℤ) (hn : us.Nodup) (hall : ∀ o ∈ cat, case o ∈ us) :
    (us.map fun u => modelOf shape (cat.filter fun o => decide (case o = u))).sum = modelOf shape cat := by
  induction us generalizing cat with
  | nil =>
    cases cat with
    | nil => rfl
    | cons o cat => exact absurd (hall o List.mem_cons_self) (by simp)
  | cons u us ih =>
    have hn' := List.nodup_cons.1 hn
    rw [List.map_cons, List.sum_cons]
    have h2 := ih (cat.filter fun o => !decide (case o = u)) hn'.2 (by
      intro o ho
      have ho' := List.mem_filter.1 ho
      rcases List.mem_cons.1 (hall o ho'.1) with h | h
      · simp [h] at ho'
      · exact h)
    have h3 : (us.map fun u' => modelOf shape ((cat.filter fun o => !decide (case o = u)).filter fun o => decide (case o = u'))) =
        us.map fun u' => modelOf shape (cat.filter fun o => decide (case o = u')) := by
      apply List.map_congr_left
      intro u' hu'
      rw [List.filter_filter]
      congr 1
      apply List.filter_congr
      intro o _
      by_cases h : case o = u'
      · have : u' ≠ u := fun hc => hn'.1 (hc ▸ hu')
        simp [h, this]
      · simp [h]
    rw [← h3, h2, modelOf_filter]

/-- C149: ModellerMulti gives the sum over all objects of the model that the modeller of the object's own case makes of it, for every catalogue and order of cases. -/
theorem C149_modeller (modellers : List (List O → V)) (shape : ℕ → O → V)
    (hmod : ∀ (k : ℕ) (m : List O → V), modellers[k]? = some m → ∀ l, m l = modelOf (shape k) l) (h0 : modellers ≠ []) (case : O → ℤ) (cat : List O)
    (hc : ∀ o ∈ cat, 0 ≤ case o ∧ case o < modellers.length) :
    modellerMulti modellers case cat = some (modelOf (fun o => shape (case o).toNat o) cat) := by
  unfold modellerMulti
  by_cases he : cat.isEmpty
  · rw [if_pos he]
    have : cat = [] := List.isEmpty_iff.1 he
    subst this
    obtain ⟨m, ms, rfl⟩ := List.exists_cons_of_ne_nil h0
    simp only [pyNth, le_refl, if_true, Int.toNat_zero, List.getElem?_cons_zero, Option.map_some]
    rw [hmod 0 m rfl]
    rfl
  · rw [if_neg he]
    obtain ⟨hf, hg⟩ := caseGroups_spec (cat.map case)
    obtain ⟨hs, hmem, _, _⟩ := C74_fast (cat.map case)
    have hg' : ∀ g ∈ caseGroups (cat.map case), takeInds cat g.2 = (cat.filter fun o => decide (case o = g.1)) ∧ takeInds cat g.2 ≠ [] := by
      intro g hgm
      have h1 : takeInds cat g.2 = cat.filter fun o => decide (case o = g.1) := by
        rw [hg g hgm]; exact takeInds_case case cat g.1
      refine ⟨h1, ?_⟩
      rw [h1]
      have h2 : g.1 ∈ (findEqualGroupsFast (cat.map case)).1 := by
        rw [← hf]; exact List.mem_map.2 ⟨g, hgm, rfl⟩
      obtain ⟨o, ho, hog⟩ := List.mem_map.1 ((hmem g.1).1 h2)
      intro hnil
      have : o ∈ cat.filter fun o => decide (case o = g.1) := List.mem_filter.2 ⟨ho, by simp [hog]⟩
      rw [hnil] at this
      simp at this
    rw [modellerMulti_fold modellers shape hmod case cat _ hg' hc none]
    have hne : caseGroups (cat.map case) ≠ [] := by
      intro hnil
      have : (findEqualGroupsFast (cat.map case)).1 = [] := by rw [← hf, hnil]; rfl
      have hcat : cat ≠ [] := fun h => he (List.isEmpty_iff.2 h)
      obtain ⟨o, ho⟩ := List.exists_mem_of_ne_nil _ hcat
      have := (hmem (case o)).2 (List.mem_map.2 ⟨o, ho, rfl⟩)
      rw [‹(findEqualGroupsFast (cat.map case)).1 = []›] at this
      simp at this
    rw [if_neg hne]
    have e : (caseGroups (cat.map case)).map (fun g => modelOf (fun o => shape (case o).toNat o) (cat.filter fun o => decide (case o = g.1))) =
        ((findEqualGroupsFast (cat.map case)).1).map fun u => modelOf (fun o => shape (case o).toNat o) (cat.filter fun o => decide (case o = u)) := by
      rw [← hf, List.map_map]; rfl
    rw [e, sum_by_case case _ cat _ (hs.imp fun h => ne_of_lt h) (fun o ho => (hmem _).2 (List.mem_map.2 ⟨o, ho, rfl⟩))]
    simp

example : modellerMulti [fun l : List (ℤ × ℚ) => modelOf Prod.snd l, fun l => modelOf (fun o => 10 * o.2) l] Prod.fst [(1, 3), (0, 5), (1, 4)] = some 75 := by decide +kernel

omit [AddCommGroup V] in
theorem measurerMulti_fold (measurers : List (V → List O → List O)) (meas : ℕ → V → O → O)
    (hmeas : ∀ (k : ℕ) (m : V → List O → List O), measurers[k]? = some m → ∀ v l, m v l = l.map (meas k v)) (map : V) (icat : List O) (gs : List ((ℤ × List ℕ) × ℕ))
    (hk : ∀ g ∈ gs, g.2 < measurers.length) (hn : (gs.map fun g => g.1.2).flatten.Nodup)
    (hin : ∀ i ∈ (gs.map fun g => g.1.2).flatten, i < icat.length) (cat : List O) (hcl : cat.length = icat.length) :
    ∃ out, gs.foldl (fun (st : Option (List O)) (g : (ℤ × List ℕ) × ℕ) => st.bind fun cat => measureGroup measurers map icat cat g.2 g.1.2) (some cat) = some out ∧
      out.length = icat.length ∧ (∀ j, j ∉ (gs.map fun g => g.1.2).flatten → out[j]? = cat[j]?) ∧
      ∀ g ∈ gs, takeInds out g.1.2 = (takeInds icat g.1.2).map (meas g.2 map) := by
  induction gs generalizing cat with
  | nil => exact ⟨cat, rfl, hcl, fun _ _ => rfl, by simp⟩
  | cons g gs ih =>
    rw [List.map_cons, List.flatten_cons] at hn hin
    obtain ⟨hn1, hn2, hdis⟩ := List.nodup_append.1 hn
    obtain ⟨m, hm⟩ : ∃ m, measurers[g.2]? = some m := ⟨_, List.getElem?_eq_getElem (hk g List.mem_cons_self)⟩
    have hgin : ∀ i ∈ g.1.2, i < icat.length := fun i hi => hin i (List.mem_append_left _ hi)
    have hlen : ((takeInds icat g.1.2).map (meas g.2 map)).length = g.1.2.length := by
      rw [List.length_map, takeInds_length _ _ hgin]
    have hstep : measureGroup measurers map icat cat g.2 g.1.2 = some (assignInds cat g.1.2 ((takeInds icat g.1.2).map (meas g.2 map))) := by
      unfold measureGroup
      by_cases he : (takeInds icat g.1.2).isEmpty
      · rw [if_pos he, List.isEmpty_iff.1 he]
        simp [assignInds]
      · rw [if_neg he, hm, Option.map_some, hmeas _ m hm]
    obtain ⟨out, h1, h2, h3, h4⟩ := ih (fun g' hg' => hk g' (List.mem_cons_of_mem _ hg')) hn2
      (fun i hi => hin i (List.mem_append_right _ hi)) (assignInds cat g.1.2 ((takeInds icat g.1.2).map (meas g.2 map)))
      (by rw [assignInds_length, hcl])
    refine ⟨out, ?_, h2, ?_, ?_⟩
    · rw [List.foldl_cons, Option.bind_some, hstep]; exact h1
    · intro j hj
      rw [List.map_cons, List.flatten_cons, List.mem_append, not_or] at hj
      rw [h3 j hj.2, assignInds_other _ _ _ _ hj.1]
    · intro g' hg'
      rcases List.mem_cons.1 hg' with rfl | hg'
      · have : takeInds out g'.1.2 = takeInds (assignInds cat g'.1.2 ((takeInds icat g'.1.2).map (meas g'.2 map))) g'.1.2 := by
          apply takeInds_congr
          intro i hi
          exact h3 i (fun h => hdis i hi i h rfl)
        rw [this, assignInds_take _ _ _ hn1 hlen (fun i hi => by rw [hcl]; exact hgin i hi)]
      · exact h4 g' hg'

theorem takeInds_point (f : O → O) (a b : List O) (l : List ℕ) (ha : ∀ i ∈ l, i < a.length) (hb : ∀ i ∈ l, i < b.length)
    (h : takeInds a l = (takeInds b l).map f) : ∀ j ∈ l, a[j]? = b[j]?.map f := by
  induction l with
  | nil => simp
  | cons i l ih =>
    unfold takeInds at h ih
    rw [List.filterMap_cons, List.filterMap_cons, List.getElem?_eq_getElem (ha i List.mem_cons_self),
      List.getElem?_eq_getElem (hb i List.mem_cons_self)] at h
    dsimp only at h
    rw [List.map_cons] at h
    obtain ⟨h1, h2⟩ := List.cons.inj h
    intro j hj
    rcases List.mem_cons.1 hj with rfl | hj
    · rw [List.getElem?_eq_getElem (ha j List.mem_cons_self), List.getElem?_eq_getElem (hb j List.mem_cons_self), h1]; rfl
    · exact ih (fun i hi => ha i (List.mem_cons_of_mem _ hi)) (fun i hi => hb i (List.mem_cons_of_mem _ hi)) h2 j hj

omit [AddCommGroup V] in
/-- C149: when the cases that occur are exactly 0, ..., k-1, MeasurerMulti measures every object with the measurer of its own case, in the map given, and keeps the order.
Missing: catalogues in which some case does not occur (see C149_measurer_refuted). -/
theorem C149_measurer_partial (measurers : List (V → List O → List O)) (meas : ℕ → V → O → O)
    (hmeas : ∀ (k : ℕ) (m : V → List O → List O), measurers[k]? = some m → ∀ v l, m v l = l.map (meas k v)) (case : O → ℤ) (map : V) (icat : List O)
    (k : ℕ) (hk : k ≤ measurers.length) (hcase : ∀ u, u ∈ icat.map case ↔ 0 ≤ u ∧ u < k) :
    measurerMulti measurers case map icat = some (icat.map fun o => meas (case o).toNat map o) := by
  obtain ⟨hs, hmem, _, _⟩ := C74_fast (icat.map case)
  obtain ⟨hf, hg⟩ := caseGroups_spec (icat.map case)
  have hu : (findEqualGroupsFast (icat.map case)).1 = (List.range k).map (fun i : ℕ => (i : ℤ)) := by
    have hs2 : ((List.range k).map (fun i : ℕ => (i : ℤ))).Pairwise (· < ·) := by
      rw [List.pairwise_map]
      exact List.pairwise_lt_range.imp fun h => by exact_mod_cast h
    apply List.Perm.eq_of_pairwise (le := (· < ·)) (fun a b _ _ h1 h2 => absurd h1 (not_lt.2 (le_of_lt h2))) hs hs2
    rw [List.perm_ext_iff_of_nodup (hs.imp fun h => ne_of_lt h) (hs2.imp fun h => ne_of_lt h)]
    intro u
    rw [hmem, hcase, List.mem_map]
    constructor
    · intro h
      exact ⟨u.toNat, List.mem_range.2 (by omega), by omega⟩
    · rintro ⟨i, hi, rfl⟩
      have := List.mem_range.1 hi
      omega
  have hidx : ∀ g ∈ (caseGroups (icat.map case)).zipIdx, g.1.1 = (g.2 : ℤ) ∧ g.2 < k := by
    intro g hgm
    have h1 := List.mem_zipIdx_iff_getElem?.1 hgm
    have h2 : ((caseGroups (icat.map case)).map Prod.fst)[g.2]? = some g.1.1 := by rw [List.getElem?_map, h1]; rfl
    rw [hf, hu, List.getElem?_map] at h2
    cases h3 : (List.range k)[g.2]? with
    | none => rw [h3] at h2; simp at h2
    | some i =>
      rw [h3] at h2
      obtain ⟨h4, h5⟩ := List.getElem?_eq_some_iff.1 h3
      rw [List.getElem_range] at h5
      rw [List.length_range] at h4
      simp only [Option.map_some, Option.some.injEq] at h2
      exact ⟨by rw [← h2, h5], h4⟩
  have hmapfst : ((caseGroups (icat.map case)).zipIdx.map fun g => g.1.2) = (caseGroups (icat.map case)).map Prod.snd := by
    conv_rhs => rw [← List.zipIdx_map_fst 0 (caseGroups (icat.map case)), List.map_map]
    rfl
  have hmg : ∀ g ∈ caseGroups (icat.map case), ∀ i, i ∈ g.2 ↔ i < icat.length ∧ (icat.map case)[i]? = some g.1 := by
    intro g hgm i
    rw [hg g hgm, List.mem_filter, List.mem_range, List.length_map]
    simp
  have hnod : ((caseGroups (icat.map case)).map Prod.snd).flatten.Nodup := by
    rw [List.nodup_flatten]
    constructor
    · intro l hl
      obtain ⟨g, hgm, rfl⟩ := List.mem_map.1 hl
      rw [hg g hgm]
      exact List.nodup_range.filter _
    · rw [List.pairwise_map]
      have hp : (caseGroups (icat.map case)).Pairwise fun a b => a.1 < b.1 := by
        rw [← List.pairwise_map (f := Prod.fst) (R := (· < ·)), hf]; exact hs
      refine (List.pairwise_iff_forall_sublist.2 ?_)
      intro a b hab
      have hlt := List.pairwise_iff_forall_sublist.1 hp hab
      have ham := hab.subset (List.mem_cons_self)
      have hbm := hab.subset (List.mem_cons_of_mem _ List.mem_cons_self)
      intro i hi hi'
      have h1 := ((hmg a ham i).1 hi).2
      have h2 := ((hmg b hbm i).1 hi').2
      rw [h1] at h2
      exact absurd (Option.some.inj h2) (ne_of_lt hlt)
  obtain ⟨out, h1, h2, _, h4⟩ := measurerMulti_fold measurers meas hmeas map icat (caseGroups (icat.map case)).zipIdx
    (fun g hgm => lt_of_lt_of_le (hidx g hgm).2 hk) (by rw [hmapfst]; exact hnod) (by
      rw [hmapfst]
      intro i hi
      obtain ⟨l, hl, hil⟩ := List.mem_flatten.1 hi
      obtain ⟨g, hgm, rfl⟩ := List.mem_map.1 hl
      exact ((hmg g hgm i).1 hil).1) icat rfl
  unfold measurerMulti
  rw [h1]
  congr 1
  apply List.ext_getElem?
  intro j
  by_cases hj : j < icat.length
  · have hcj : case icat[j] ∈ (findEqualGroupsFast (icat.map case)).1 := (hmem _).2 (List.mem_map.2 ⟨_, List.getElem_mem hj, rfl⟩)
    rw [← hf] at hcj
    obtain ⟨g, hgm, hgc⟩ := List.mem_map.1 hcj
    obtain ⟨i, hi⟩ := List.mem_iff_getElem?.1 hgm
    have hz : (g, i) ∈ (caseGroups (icat.map case)).zipIdx := List.mem_zipIdx_iff_getElem?.2 hi
    have hjg : j ∈ g.2 := (hmg g hgm j).2 ⟨hj, by rw [List.getElem?_map, List.getElem?_eq_getElem hj, Option.map_some, hgc]⟩
    have h5 := takeInds_point _ out icat g.2 (fun x hx => by rw [h2]; exact ((hmg g hgm x).1 hx).1) (fun x hx => ((hmg g hgm x).1 hx).1)
      (h4 (g, i) hz) j hjg
    rw [h5, List.getElem?_map, List.getElem?_eq_getElem hj, Option.map_some, Option.map_some]
    have h6 := (hidx _ hz).1
    dsimp only at h6
    rw [hgc] at h6
    rw [h6]
    rfl
  · rw [List.getElem?_eq_none (by omega), List.getElem?_eq_none (by rw [List.length_map]; omega)]

example : measurerMulti [fun (_ : ℚ) (l : List (ℤ × ℚ)) => l.map fun o => (o.1, 0), fun _ l => l.map fun o => (o.1, 1)] Prod.fst 0 [(1, 7), (0, 9), (1, 8)] =
    some [(1, 1), (0, 0), (1, 1)] := by decide +kernel

/-- **C149 refuted (cases that do not occur).** MeasurerMulti picks the measurer by the number of the group, not by the case: a catalogue with only objects of case 1 is measured
with the measurer for case 0. -/
theorem C149_measurer_refuted :
    measurerMulti [fun (_ : ℚ) (l : List (ℤ × ℚ)) => l.map fun o => (o.1, 0), fun _ l => l.map fun o => (o.1, 1)] Prod.fst 0 [(1, 7), (1, 8)] = some [(1, 0), (1, 0)] := by
  decide +kernel

end Pixell
