import Verif.Model.PlotLoop
import Verif.Lemmas.Axes
import Verif.Props.SysText
import Mathlib.Data.Nat.Digits.Lemmas
import Mathlib.Tactic.IntervalCases

/-
Property C192: the images made of maps, their colour ranges and their names.
-/
namespace Pixell

/-- C192: with any number of ranks, every map is plotted by exactly one of them, and once. -/
theorem C192_ranks (nmap size : Nat) (hs : 0 < size) (fi : Nat) (h : fi < nmap) :
    (∃ rank, rank < size ∧ ∀ r < size, (plotRanks nmap size r).count fi = if r = rank then 1 else 0) := by
  refine ⟨fi % size, Nat.mod_lt _ hs, ?_⟩
  intro r hr
  have hnd : (plotRanks nmap size r).Nodup := List.nodup_range.filter _
  have hmem : fi ∈ plotRanks nmap size r ↔ r = fi % size := by
    unfold plotRanks
    simp only [List.mem_filter, List.mem_range, Bool.and_eq_true, decide_eq_true_eq]
    constructor
    · rintro ⟨_, h1, h2⟩
      obtain ⟨c, hc⟩ := Nat.dvd_of_mod_eq_zero h2
      have : fi = r + size * c := by omega
      rw [this, Nat.add_mul_mod_self_left, Nat.mod_eq_of_lt hr]
    · rintro rfl
      refine ⟨h, Nat.mod_le _ _, ?_⟩
      have := Nat.div_add_mod fi size
      rw [show fi - fi % size = size * (fi / size) by omega, Nat.mul_mod_right]
  split
  case isTrue e => exact List.count_eq_one_of_mem hnd (hmem.2 e)
  case isFalse e => exact List.count_eq_zero_of_not_mem fun hm => e (hmem.1 hm)

example : plotRanks 7 3 1 = [1, 4] := by decide +kernel

/-! ### The images of one map -/

theorem plotGo_eq (g : Nat) (sym : Bool) (N : List Nat) (l : List Nat) (ind : Nat) :
    plotGo g sym N l ind = ((l.filter fun i => !sym || indexRises (unravel N i)).zipIdx ind).map fun (p : Nat × Nat) =>
      ⟨p.1, List.range' p.1 (min g (N.prod - p.1)), List.range' p.2 (min g (N.prod - p.2))⟩ := by
  induction l generalizing ind with
  | nil => rfl
  | cons i l ih =>
    simp only [plotGo]
    split
    case isTrue h =>
      have : (!sym || indexRises (unravel N i)) = false := by
        cases sym <;> simp_all
      rw [List.filter_cons_of_neg (by simp [this]), ih]
    case isFalse h =>
      have : (!sym || indexRises (unravel N i)) = true := by
        cases sym <;> simp_all
      rw [List.filter_cons_of_pos (by simp [this]), List.zipIdx_cons, List.map_cons, ih]

theorem zipIdx_range (n : Nat) : (List.range n).zipIdx = (List.range n).map fun i => (i, i) := by
  apply List.ext_getElem
  · simp
  · intro i h1 h2
    simp

/-- C192: without options there is one image for each component, in order, with its own colour range. -/
theorem C192_components (N : List Nat) :
    plotImages false false N = (List.range N.prod).map fun i => ⟨i, [i], [i]⟩ := by
  unfold plotImages
  simp only [Bool.false_eq_true, if_false, Nat.add_sub_cancel, Nat.div_one, Nat.mul_one, List.map_id', plotGo_eq, Bool.not_false, Bool.true_or,
    List.filter_true, zipIdx_range, List.map_map]
  apply List.map_congr_left
  intro i hi
  have : i < N.prod := by simpa using hi
  simp only [Function.comp]
  rw [show min 1 (N.prod - i) = 1 by omega]
  rfl

example : plotImages false false [2, 2] = [⟨0, [0], [0]⟩, ⟨1, [1], [1]⟩, ⟨2, [2], [2]⟩, ⟨3, [3], [3]⟩] := by decide +kernel

/-- C192 with rgb: three components make one image with their three colour ranges. -/
theorem C192_rgb_partial (N : List Nat) (h : N.prod = 3) : plotImages true false N = [⟨0, [0, 1, 2], [0, 1, 2]⟩] := by
  unfold plotImages
  simp only [plotGo_eq, h]
  rfl

example : ([3] : List Nat).prod = 3 ∧ ([1, 3] : List Nat).prod = 3 := by decide

/-- C192 fails with rgb and six or more components: the second image, of components 3 to 5, has the colour ranges of
components 1 to 3. -/
theorem C192_rgb_refuted (N : List Nat) (h : 6 ≤ N.prod) : (plotImages true false N)[1]? = some ⟨3, [3, 4, 5], [1, 2, 3]⟩ := by
  unfold plotImages
  simp only [plotGo_eq, if_true, Bool.not_false, Bool.true_or, List.filter_true]
  have h2 : (List.range ((N.prod + 2) / 3))[1]? = some 1 := by
    rw [List.getElem?_range (by omega)]
  have h3 : min 3 (N.prod - 3) = 3 := by omega
  have h4 : min 3 (N.prod - 1) = 3 := by omega
  simp [h2, h3, h4, List.range']

example : plotImages true false [2, 3] = [⟨0, [0, 1, 2], [0, 1, 2]⟩, ⟨3, [3, 4, 5], [1, 2, 3]⟩] := by decide +kernel

theorem unravel_pair (n a b : Nat) (hb : b < n) : unravel [n, n] (a * n + b) = [a, b] := by
  have hn : 0 < n := by omega
  simp only [unravel, List.prod_cons, List.prod_nil, Nat.mul_one, Nat.div_one]
  rw [Nat.add_comm, Nat.add_mul_div_right _ _ hn, Nat.div_eq_of_lt hb, Nat.add_mul_mod_self_right, Nat.mod_eq_of_lt hb, Nat.zero_add]

theorem pair_lt {n a b : Nat} (ha : a < n) (hb : b < n) : a * n + b < n * n := by
  have : (a + 1) * n ≤ n * n := Nat.mul_le_mul_right n (by omega)
  have e : (a + 1) * n = a * n + n := by ring
  omega

/-- C192 with symmetric: of a matrix of maps the components on and above the diagonal are drawn, each once, and the
others are not.  The colour ranges are the right ones in the first row. -/
theorem C192_symmetric_partial (n a b : Nat) (ha : a < n) (hb : b < n) :
    ((plotImages false true [n, n]).map PlotImg.comps).count [a * n + b] = (if a ≤ b then 1 else 0) ∧
    (a = 0 → (plotImages false true [n, n])[b]? = some ⟨b, [b], [b]⟩) := by
  have hl := pair_lt ha hb
  have hpr : ([n, n] : List Nat).prod = n * n := by simp
  have key : plotImages false true [n, n] =
      (((List.range (n * n)).filter fun i => indexRises (unravel [n, n] i)).zipIdx).map fun (p : Nat × Nat) =>
      (⟨p.1, List.range' p.1 (min 1 (n * n - p.1)), List.range' p.2 (min 1 (n * n - p.2))⟩ : PlotImg) := by
    unfold plotImages
    simp only [Bool.false_eq_true, if_false, Nat.add_sub_cancel, Nat.div_one, Nat.mul_one, List.map_id', plotGo_eq, Bool.not_true, Bool.false_or, hpr]
  refine ⟨?_, ?_⟩
  · have hc : (plotImages false true [n, n]).map PlotImg.comps =
        ((List.range (n * n)).filter fun i => indexRises (unravel [n, n] i)).map fun i => [i] := by
      rw [key, List.map_map]
      have e : ∀ (l : List Nat) (k : Nat), (∀ i ∈ l, i < n * n) → (l.zipIdx k).map (PlotImg.comps ∘ fun (p : Nat × Nat) =>
          (⟨p.1, List.range' p.1 (min 1 (n * n - p.1)), List.range' p.2 (min 1 (n * n - p.2))⟩ : PlotImg)) = l.map fun i => [i] := by
        intro l
        induction l with
        | nil => intro k _; rfl
        | cons x l ih =>
          intro k hx
          rw [List.zipIdx_cons, List.map_cons, List.map_cons, ih (k + 1) (fun i hi => hx i (List.mem_cons_of_mem _ hi))]
          have : x < n * n := hx x List.mem_cons_self
          simp only [Function.comp]
          rw [show min 1 (n * n - x) = 1 by omega]
          rfl
      exact e _ 0 (fun i hi => by simpa using (List.mem_filter.1 hi).1)
    rw [hc, List.count_map_of_injective _ (fun i : Nat => [i]) (fun x y h => by simpa using h)]
    have hnd : ((List.range (n * n)).filter fun i => indexRises (unravel [n, n] i)).Nodup := List.nodup_range.filter _
    have hm : a * n + b ∈ (List.range (n * n)).filter (fun i => indexRises (unravel [n, n] i)) ↔ a ≤ b := by
      rw [List.mem_filter, List.mem_range, unravel_pair n a b hb]
      simp [indexRises, hl]
    split
    case isTrue h => exact List.count_eq_one_of_mem hnd (hm.2 h)
    case isFalse h => exact List.count_eq_zero_of_not_mem fun x => h (hm.1 x)
  · intro _
    rw [key]
    obtain ⟨d, hd⟩ : ∃ d, n * n = n + d := ⟨n * n - n, by have := Nat.le_mul_of_pos_left n (show 0 < n by omega); omega⟩
    rw [hd, List.range_add, List.filter_append]
    have e1 : (List.range n).filter (fun i => indexRises (unravel [n, n] i)) = List.range n := by
      apply List.filter_eq_self.2
      intro i hi
      have hi : i < n := by simpa using hi
      have := unravel_pair n 0 i hi
      rw [Nat.zero_mul, Nat.zero_add] at this
      rw [this]
      simp [indexRises]
    rw [e1]
    have h1 : min 1 (n + d - b) = 1 := by omega
    simp [List.getElem?_append_left, hb, h1]

example : (plotImages false true [3, 3]).map PlotImg.comps = [[0], [1], [2], [4], [5], [8]] := by decide +kernel

/-- C192 fails with symmetric: the image of component (1,1) of a matrix of at least two maps has the colour range of the
component (1,0), which is the one before. -/
theorem C192_symmetric_refuted (n : Nat) (h : 2 ≤ n) :
    (plotImages false true [n, n])[n]? = some ⟨n + 1, [n + 1], [n]⟩ := by
  have hpr : ([n, n] : List Nat).prod = n * n := by simp
  have hb : n + 1 < n * n := by
    have : 2 * n ≤ n * n := Nat.mul_le_mul_right n h
    omega
  unfold plotImages
  simp only [Bool.false_eq_true, if_false, Nat.add_sub_cancel, Nat.div_one, Nat.mul_one, List.map_id', plotGo_eq, Bool.not_true, Bool.false_or, hpr]
  obtain ⟨d, hd⟩ : ∃ d, n * n = n + (d + 2) := ⟨n * n - n - 2, by omega⟩
  have h0 : indexRises (unravel [n, n] n) = false := by
    have := unravel_pair n 1 0 (by omega)
    rw [Nat.one_mul, Nat.add_zero] at this
    rw [this]; rfl
  have h1 : indexRises (unravel [n, n] (n + 1)) = true := by
    have := unravel_pair n 1 1 (by omega)
    rw [Nat.one_mul] at this
    rw [this]; rfl
  have e1 : (List.range n).filter (fun i => indexRises (unravel [n, n] i)) = List.range n := by
    apply List.filter_eq_self.2
    intro i hi
    have hi : i < n := by simpa using hi
    have := unravel_pair n 0 i hi
    rw [Nat.zero_mul, Nat.zero_add] at this
    rw [this]
    simp [indexRises]
  rw [hd, List.range_add, List.filter_append, e1, List.range_succ_eq_map, List.range_succ_eq_map]
  simp only [List.map_cons, List.map_map, Nat.add_zero]
  rw [List.filter_cons_of_neg (by simp [h0]), List.filter_cons_of_pos (by simpa using h1)]
  have h2 : min 1 (n + (d + 2) - (n + 1)) = 1 := by omega
  simp [h2]

example : plotImages false true [2, 2] = [⟨0, [0], [0]⟩, ⟨1, [1], [1]⟩, ⟨3, [3], [2]⟩] := by decide +kernel

/-! ### Names -/

/-- The number that a text of decimal digits stands for. -/
def decValue (s : List Char) : Nat := Nat.ofDigits 10 (s.reverse.map fun c => c.toNat - 48)

theorem decValue_pad (w n : Nat) : decValue (padDec w n) = n := by
  unfold decValue padDec
  simp only [List.reverse_append, List.reverse_replicate, List.map_append, List.map_replicate, List.map_reverse, List.reverse_reverse, List.map_map]
  have e : (Nat.digits 10 n).map ((fun c : Char => c.toNat - 48) ∘ Nat.digitChar) = Nat.digits 10 n := by
    conv_rhs => rw [← List.map_id (Nat.digits 10 n)]
    apply List.map_congr_left
    intro d hd
    have := Nat.digits_lt_base (by norm_num : 1 < 10) hd
    simp only [Function.comp, id]
    interval_cases d <;> decide
  rw [e]
  simp only [show ('0' : Char).toNat - 48 = 0 from rfl]
  rw [Nat.ofDigits_append_replicate_zero, Nat.ofDigits_digits]

theorem pad_plain (w n : Nat) : '_' ∉ padDec w n := by
  unfold padDec
  simp only [List.mem_append, not_or]
  refine ⟨by simp, ?_⟩
  intro h
  obtain ⟨d, hd, e⟩ := List.mem_map.1 h
  have := Nat.digits_lt_base (by norm_num : 1 < 10) (List.mem_reverse.1 hd)
  interval_cases d <;> revert e <;> decide

theorem words_inj : ∀ (u v : List (List Char)), u.length = v.length → (∀ w ∈ u, '_' ∉ w) → (∀ w ∈ v, '_' ∉ w) →
    List.intercalate ['_'] u = List.intercalate ['_'] v → u = v
  | [], [], _, _, _, _ => rfl
  | [a], [b], _, _, _, h => by simpa [List.intercalate] using h
  | a :: a' :: u, b :: b' :: v, hl, hu, hv, h => by
    have e1 : List.intercalate ['_'] (a :: a' :: u) = a ++ '_' :: List.intercalate ['_'] (a' :: u) := by
      simp [List.intercalate, List.intersperse]
    have e2 : List.intercalate ['_'] (b :: b' :: v) = b ++ '_' :: List.intercalate ['_'] (b' :: v) := by
      simp [List.intercalate, List.intersperse]
    rw [e1, e2] at h
    have h' := congrArg (strSplit '_') h
    rw [strSplit_join _ (hu a (by simp)), strSplit_join _ (hv b (by simp))] at h'
    have hab : a = b := (List.cons.inj h').1
    subst hab
    have h2 : List.intercalate ['_'] (a' :: u) = List.intercalate ['_'] (b' :: v) := by
      have := List.append_cancel_left h
      exact (List.cons.inj this).2
    rw [words_inj (a' :: u) (b' :: v) (by simpa using hl) (fun w hw => hu w (List.mem_cons_of_mem _ hw))
      (fun w hw => hv w (List.mem_cons_of_mem _ hw)) h2]

theorem words_plain (N I : List Nat) (w : List Char) (hw : w ∈ List.zipWith (fun n i => padDec (numDigits10 n) i) N I) : '_' ∉ w := by
  rw [← List.map_uncurry_zip_eq_zipWith] at hw
  obtain ⟨p, _, rfl⟩ := List.mem_map.1 hw
  exact pad_plain _ _

theorem compText_inj {N I J : List Nat} (hI : I.length = N.length) (hJ : J.length = N.length) (h : compText N I = compText N J) : I = J := by
  unfold compText at h
  by_cases hN : N = []
  · subst hN
    rw [List.eq_nil_of_length_eq_zero hI, List.eq_nil_of_length_eq_zero hJ]
  · rw [if_neg hN, if_neg hN] at h
    have h := words_inj _ _ (by simp [hI, hJ])
      (words_plain N I) (words_plain N J) (List.cons.inj h).2
    apply List.ext_getElem (by omega)
    intro k h1 h2
    have := congrArg (fun l => (l.getD k [])) h
    simp only [List.getD_eq_getElem?_getD, List.getElem?_zipWith, List.getElem?_eq_getElem h1, List.getElem?_eq_getElem h2,
      List.getElem?_eq_getElem (show k < N.length by omega), Option.getD_some] at this
    have := congrArg decValue this
    rwa [decValue_pad, decValue_pad] at this

theorem unravel_length (N : List Nat) : ∀ i, (unravel N i).length = N.length := by
  induction N with
  | nil => intro i; rfl
  | cons n N ih => intro i; simp [unravel, ih]

theorem unravel_inj (N : List Nat) : ∀ i j, i < N.prod → j < N.prod → unravel N i = unravel N j → i = j := by
  induction N with
  | nil => intro i j hi hj _; simp at hi hj; omega
  | cons n N ih =>
    intro i j hi hj h
    have hp : 0 < N.prod := by
      rcases Nat.eq_zero_or_pos N.prod with h0 | h0
      · rw [List.prod_cons, h0] at hi; omega
      · exact h0
    simp only [unravel, List.cons.injEq] at h
    have := ih _ _ (Nat.mod_lt i hp) (Nat.mod_lt j hp) h.2
    rw [← Nat.div_add_mod i N.prod, ← Nat.div_add_mod j N.prod, h.1, this]

/-- C192: different components of a map have different names, whatever the name of the map, the directory, prefix,
suffix and extension. -/
theorem C192_names (fname : List Char) (odir : Option (List Char)) (pre suf ext : List Char) (N : List Nat) (i j : Nat)
    (hi : i < N.prod) (hj : j < N.prod) (hne : i ≠ j) :
    plotName fname odir pre suf ext N i ≠ plotName fname odir pre suf ext N j := by
  intro h
  unfold plotName at h
  simp only [List.append_assoc] at h
  have h := List.append_cancel_left h
  have h := List.append_cancel_left h
  have h := List.append_cancel_left h
  have h := List.append_cancel_left h
  have h := List.append_cancel_right h
  exact hne (unravel_inj N i j hi hj (compText_inj (unravel_length N i) (unravel_length N j) h))

example : String.ofList (plotName "maps/a.fits.gz".toList none "p_".toList [] "png".toList [12, 3] 31) = "maps/p_a_10_1.png" := by
  decide +kernel

/-- C192 fails for several maps: slices of one file, files that differ in the extension, and, with a common output
directory, files of different directories get the same names, so that written images replace each other. -/
theorem C192_maps_refuted (pre suf ext : List Char) (N : List Nat) (i : Nat) :
    plotName "d/a.fits".toList none pre suf ext N i = plotName "d/a.hdf".toList none pre suf ext N i ∧
    plotName "d/a.fits:[0]".toList none pre suf ext N i = plotName "d/a.fits:[1]".toList none pre suf ext N i ∧
    plotName "d/a.fits".toList (some ['o']) pre suf ext N i = plotName "e/a.fits".toList (some ['o']) pre suf ext N i := by
  have h : ∀ (s t : List Char) (o : Option (List Char)), o.getD (splitFileName s).1 = o.getD (splitFileName t).1 →
      (splitFileName s).2.1 = (splitFileName t).2.1 → plotName s o pre suf ext N i = plotName t o pre suf ext N i := by
    intro s t o e1 e2; unfold plotName; simp only [e1, e2]
  exact ⟨h _ _ _ (by decide +kernel) (by decide +kernel), h _ _ _ (by decide +kernel) (by decide +kernel),
    h _ _ _ rfl (by decide +kernel)⟩

/-! ### Options -/

/-- C192: an option has the value of the keyword if there is one, otherwise the last one a text gives it, otherwise the
default. -/
theorem C192_options {α : Type} (d v : α) (before after : List (Option α)) (keyword : α) (hafter : ∀ s ∈ after, s = none) :
    optValue d (before ++ some v :: after) none = v ∧ optValue d after none = d ∧
    optValue d (before ++ some v :: after) (some keyword) = keyword := by
  have h : ∀ (l : List (Option α)) (x : α), (∀ s ∈ l, s = none) → l.foldl (fun v s => s.getD v) x = x := by
    intro l
    induction l with
    | nil => intro x _; rfl
    | cons s l ih =>
      intro x hx
      rw [List.foldl_cons, hx s List.mem_cons_self]
      exact ih x fun t ht => hx t (List.mem_cons_of_mem _ ht)
  refine ⟨?_, ?_, rfl⟩
  · simp only [optValue, Option.getD_none, List.foldl_append, List.foldl_cons, Option.getD_some]
    exact h after v hafter
  · simp only [optValue, Option.getD_none]
    exact h after d hafter

/-- C192 fails for `-g`, which is to toggle the grid: in one text it leaves the grid on, given twice it removes it, and in
two texts it leaves it on. -/
theorem C192_toggle_refuted : gridShown [] none = true ∧ gridShown [1] none = true ∧ gridShown [2] none = false ∧
    gridShown [1, 1] none = true := by decide

end Pixell
