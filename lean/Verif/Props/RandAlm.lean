import Verif.Model.RandAlm
import Verif.Props.Alm
import Mathlib.MeasureTheory.Integral.Bochner.Basic
import Mathlib.MeasureTheory.Integral.Bochner.Set

/-
Property C137: random spherical harmonic coefficients.
-/
namespace Pixell

open MeasureTheory

/-! ### The numbers taken from the generator -/

theorem fillLoop_eq (draws : ℕ → ℝ) (size bsize : ℕ) (hb : 0 < bsize) (fuel i : ℕ) (h : size ≤ i + fuel) :
    fillLoop draws size bsize fuel i i = (List.range (size - i)).map fun k => draws (i + k) := by
  induction fuel generalizing i with
  | zero =>
    rw [show size - i = 0 by omega]
    rfl
  | succ fuel ih =>
    unfold fillLoop
    by_cases hi : i < size
    · rw [if_pos hi]
      dsimp only
      by_cases hs : bsize ≤ size - i
      · rw [Nat.min_eq_left hs, ih (i + bsize) (by omega), show size - i = bsize + (size - (i + bsize)) by omega, List.range_add,
          List.map_append, List.map_map]
        congr 1
        apply List.map_congr_left
        intro k _
        show _ = draws (i + (bsize + k))
        rw [add_assoc]
      · rw [Nat.min_eq_right (by omega)]
        have : fillLoop draws size bsize fuel (i + bsize) (i + (size - i)) = [] := by
          cases fuel with
          | zero => rfl
          | succ f =>
            unfold fillLoop
            rw [if_neg (by omega)]
        rw [this, List.append_nil]
    · rw [if_neg hi, show size - i = 0 by omega]
      rfl

/-- The numbers fill the array in order, whatever the block size. -/
theorem fillGauss_eq (draws : ℕ → ℝ) (bsize rows nelem : ℕ) (hb : 0 < bsize) (c i : ℕ) (hc : c < rows) (hi : i < nelem) :
    fillGauss draws bsize rows nelem c i = (draws (2 * (c * nelem + i)), draws (2 * (c * nelem + i) + 1)) := by
  unfold fillGauss
  rw [fillLoop_eq draws _ bsize hb _ 0 (by omega)]
  have h : c * nelem + i < rows * nelem := by
    have := Nat.mul_le_mul_right nelem hc
    rw [Nat.succ_mul] at this
    omega
  rw [List.getD_eq_getElem?_getD, List.getD_eq_getElem?_getD, List.getElem?_map, List.getElem?_map, List.getElem?_range (by omega),
    List.getElem?_range (by omega)]
  simp

/-- Where transpose_alm takes the coefficient k of the l-major order from. -/
theorem transposeAlm_get {V : Type} [Zero V] (a : AlmInfo) (ha : GoodLayout a) (hs : a.stride = 1) (ialm : Nat → V) (k m l m' l' : ℕ)
    (hsrc : (lmPairs a.lmax a.mmax)[k]? = some (m, l)) (hdst : (lMajor a.lmax a.mmax)[k]? = some (m', l')) :
    transposeAlm a ialm (a.lm2ind l' m') = ialm (a.lm2ind l m) := by
  have hci : ∀ l m, a.lm2ind l m = a.cind l m := by intro l m; simp [AlmInfo.lm2ind, AlmInfo.cind, hs]
  have hlen : (lmPairs a.lmax a.mmax).length = (lMajor a.lmax a.mmax).length := (lMajor_perm _ _).length_eq.symm
  have hrun : transposeAlm a ialm = ((lmPairs a.lmax a.mmax).zip (lMajor a.lmax a.mmax)).foldl
      (fun o x => setPos o (a.cind x.2.2 x.2.1) (ialm (a.cind x.1.2 x.1.1))) (fun _ => 0) := by
    unfold transposeAlm
    rw [transpose_foldl, hlen]
    rw [show (List.range (lMajor a.lmax a.mmax).length).map (fun k => (nextLM a.mmax)^[k] (0, 0)) = lMajor a.lmax a.mmax from
      (lMajor_iterate a.mmax (a.lmax + 1)).1.symm]
  have hsnd : ((lmPairs a.lmax a.mmax).zip (lMajor a.lmax a.mmax)).map Prod.snd = lMajor a.lmax a.mmax :=
    List.map_snd_zip (by omega)
  have hnd : (((lmPairs a.lmax a.mmax).zip (lMajor a.lmax a.mmax)).map fun x => a.cind x.2.2 x.2.1).Nodup := by
    have : ((lmPairs a.lmax a.mmax).zip (lMajor a.lmax a.mmax)).map (fun x => a.cind x.2.2 x.2.1) =
        (((lmPairs a.lmax a.mmax).zip (lMajor a.lmax a.mmax)).map Prod.snd).map fun p => a.lm2ind p.2 p.1 := by
      rw [List.map_map]; simp [Function.comp_def, hci]
    rw [this, hsnd]
    exact ha.nodup _ _ (le_refl _) (le_refl _) _ (lMajor_perm _ _)
  obtain ⟨h1, -⟩ := foldl_setPos ((lmPairs a.lmax a.mmax).zip (lMajor a.lmax a.mmax)) (fun x => a.cind x.2.2 x.2.1)
    (fun x _ => ialm (a.cind x.1.2 x.1.1)) (fun _ => (0 : V)) hnd
  rw [hci, hci, hrun]
  have hmem : ((m, l), (m', l')) ∈ (lmPairs a.lmax a.mmax).zip (lMajor a.lmax a.mmax) := by
    apply List.mem_of_getElem? (i := k)
    rw [List.getElem?_zip_eq_some]
    exact ⟨hsrc, hdst⟩
  exact h1 _ hmem

/-- The position in its row of the pair of numbers for the coefficient (l,m). -/
noncomputable def drawPos (a : AlmInfo) (mMajor : Bool) (l m : ℕ) : ℕ :=
  if mMajor then
    let p := (lmPairs a.lmax a.mmax).getD ((lMajor a.lmax a.mmax).idxOf (m, l)) (0, 0)
    a.lm2ind p.2 p.1
  else a.lm2ind l m

theorem drawPos_spec (a : AlmInfo) (l m : ℕ) (h1 : m ≤ a.mmax) (h2 : m ≤ l) (h3 : l ≤ a.lmax) :
    ∃ k m' l' : ℕ, (lMajor a.lmax a.mmax)[k]? = some (m, l) ∧ (lmPairs a.lmax a.mmax)[k]? = some (m', l')
      ∧ m' ≤ a.mmax ∧ m' ≤ l' ∧ l' ≤ a.lmax ∧ drawPos a true l m = a.lm2ind l' m' := by
  have hmem : (m, l) ∈ lMajor a.lmax a.mmax := mem_lMajor.2 ⟨h1, h2, h3⟩
  have hk := List.idxOf_lt_length_iff.2 hmem
  have hlen : (lmPairs a.lmax a.mmax).length = (lMajor a.lmax a.mmax).length := (lMajor_perm _ _).length_eq.symm
  obtain ⟨p, hp⟩ : ∃ p, (lmPairs a.lmax a.mmax)[(lMajor a.lmax a.mmax).idxOf (m, l)]? = some p :=
    ⟨_, List.getElem?_eq_getElem (by omega)⟩
  obtain ⟨b1, b2, b3⟩ := mem_lmPairs.1 (List.mem_of_getElem? hp)
  refine ⟨_, p.1, p.2, ?_, hp, b1, b2, b3, ?_⟩
  · rw [List.getElem?_eq_getElem hk, List.getElem_idxOf hk]
  · unfold drawPos
    rw [if_pos rfl]
    dsimp only
    rw [List.getD_eq_getElem?_getD, hp]
    rfl

theorem drawPos_lt (a : AlmInfo) (ha : GoodLayout a) (mMajor : Bool) (l m : ℕ) (h1 : m ≤ a.mmax) (h2 : m ≤ l) (h3 : l ≤ a.lmax) :
    drawPos a mMajor l m < a.nelem := by
  cases mMajor with
  | false => exact ha.1 l m h1 h2 h3
  | true =>
    obtain ⟨k, m', l', -, -, b1, b2, b3, e⟩ := drawPos_spec a l m h1 h2 h3
    rw [e]
    exact ha.1 l' m' b1 b2 b3

theorem drawPos_inj (a : AlmInfo) (ha : GoodLayout a) (mMajor : Bool) (l m l' m' : ℕ) (h1 : m ≤ a.mmax) (h2 : m ≤ l) (h3 : l ≤ a.lmax)
    (h1' : m' ≤ a.mmax) (h2' : m' ≤ l') (h3' : l' ≤ a.lmax) (h : drawPos a mMajor l m = drawPos a mMajor l' m') : l = l' ∧ m = m' := by
  cases mMajor with
  | false => exact ha.2 l m l' m' h1 h2 h3 h1' h2' h3' h
  | true =>
    obtain ⟨k, n, j, hk, hk', b1, b2, b3, e⟩ := drawPos_spec a l m h1 h2 h3
    obtain ⟨k2, n2, j2, hk2, hk2', c1, c2, c3, e2⟩ := drawPos_spec a l' m' h1' h2' h3'
    rw [e, e2] at h
    obtain ⟨rfl, rfl⟩ := ha.2 _ _ _ _ b1 b2 b3 c1 c2 c3 h
    have hkk : k = k2 := by
      obtain ⟨q1, q2⟩ := List.getElem?_eq_some_iff.1 hk'
      obtain ⟨r1, r2⟩ := List.getElem?_eq_some_iff.1 hk2'
      exact (List.Nodup.getElem_inj_iff (lmPairs_nodup _ _)).1 (q2.trans r2.symm)
    rw [hkk, hk2] at hk
    simp only [Option.some.injEq, Prod.mk.injEq] at hk
    exact ⟨hk.2.symm, hk.1.symm⟩

theorem randAlmWhite_get (a : AlmInfo) (ha : GoodLayout a) (hs : a.stride = 1) (ncomp : ℕ) (mMajor : Bool) (draws : ℕ → ℝ) (c l m : ℕ)
    (hc : c < ncomp) (h1 : m ≤ a.mmax) (h2 : m ≤ l) (h3 : l ≤ a.lmax) :
    randAlmWhite a ncomp mMajor draws c (a.lm2ind l m)
      = (draws (2 * (c * a.nelem + drawPos a mMajor l m)), draws (2 * (c * a.nelem + drawPos a mMajor l m) + 1)) := by
  rw [← fillGauss_eq draws 65536 ncomp a.nelem (by norm_num) c _ hc (drawPos_lt a ha mMajor l m h1 h2 h3)]
  cases mMajor with
  | false => rfl
  | true =>
    obtain ⟨k, m', l', hk, hk', -, -, -, e⟩ := drawPos_spec a l m h1 h2 h3
    rw [e]
    exact transposeAlm_get a ha hs _ k m' l' m l hk' hk

/-- The coefficient (l,m) of component r in terms of the numbers drawn. -/
theorem randAlm_get (a : AlmInfo) (ha : GoodLayout a) (hs : a.stride = 1) (h0 : a.mstart 0 = 0) (ncomp nl : ℕ) (hnl : 0 < nl)
    (root : ℕ → ℕ → List ℝ) (hroot : ∀ r c, (root r c).length = nl) (mMajor : Bool) (draws : ℕ → ℝ) (r l m : ℕ)
    (hr : r < ncomp) (h1 : m ≤ a.mmax) (h2 : m ≤ l) (h3 : l ≤ a.lmax) :
    randAlm a ncomp nl root mMajor false draws r (a.lm2ind l m)
      = (∑ c ∈ Finset.range ncomp, (root r c).getD l 0 * (if m = 0 then 1 else 1 / Real.sqrt 2) * draws (2 * (c * a.nelem + drawPos a mMajor l m)),
         ∑ c ∈ Finset.range ncomp, (root r c).getD l 0 * (if m = 0 then 0 else 1 / Real.sqrt 2) * draws (2 * (c * a.nelem + drawPos a mMajor l m) + 1)) := by
  have hsq : Real.sqrt 2 ≠ 0 := (Real.sqrt_pos.2 (by norm_num)).ne'
  have hrun := (C50_lmatmul_dp a ha hs ncomp ncomp (nl - 1) (fun r c => (root r c).map (fun x => x / Real.sqrt 2)) id id
    (fun r r' _ _ h => h) _ _ (List.Perm.refl _) (List.Perm.refl _) (randAlmWhite a ncomp mMajor draws)).1 l m r h1 h2 h3 hr
  have hval : lmatmulRun a ncomp ncomp (fun r c => (root r c).map (fun x => x / Real.sqrt 2)) id id (lmatmulVisitsDp a (nl - 1))
      (lzeroVisits a (nl - 1)) (randAlmWhite a ncomp mMajor draws) r (a.lm2ind l m)
      = (∑ c ∈ Finset.range ncomp, (root r c).getD l 0 / Real.sqrt 2 * draws (2 * (c * a.nelem + drawPos a mMajor l m)),
         ∑ c ∈ Finset.range ncomp, (root r c).getD l 0 / Real.sqrt 2 * draws (2 * (c * a.nelem + drawPos a mMajor l m) + 1)) := by
    refine hrun.trans ?_
    have hget : ∀ c, ((root r c).map (fun x => x / Real.sqrt 2)).getD l 0 = (root r c).getD l 0 / Real.sqrt 2 := by
      intro c
      rw [List.getD_eq_getElem?_getD, List.getD_eq_getElem?_getD, List.getElem?_map]
      cases (root r c)[l]? <;> simp
    have hsum : ∀ n, n ≤ ncomp → ((List.range n).map fun c => ((root r c).map (fun x => x / Real.sqrt 2)).getD l 0 •
          randAlmWhite a ncomp mMajor draws (id c) (a.lm2ind l m)).sum
        = (∑ c ∈ Finset.range n, (root r c).getD l 0 / Real.sqrt 2 * draws (2 * (c * a.nelem + drawPos a mMajor l m)),
         ∑ c ∈ Finset.range n, (root r c).getD l 0 / Real.sqrt 2 * draws (2 * (c * a.nelem + drawPos a mMajor l m) + 1)) := by
      intro n
      induction n with
      | zero => intro _; rfl
      | succ n ih =>
        intro hn
        rw [List.range_succ, List.map_append, List.sum_append, ih (by omega), Finset.sum_range_succ, Finset.sum_range_succ, List.map_singleton,
          List.sum_singleton, hget, id, randAlmWhite_get a ha hs ncomp mMajor draws n l m (by omega) h1 h2 h3]
        rfl
    by_cases hl : l ≤ nl - 1
    · rw [if_pos hl]
      exact hsum ncomp le_rfl
    · rw [if_neg hl]
      have hz : ∀ c, (root r c).getD l 0 = 0 := by
        intro c
        rw [List.getD_eq_getElem?_getD, List.getElem?_eq_none (by rw [hroot]; omega)]
        rfl
      simp only [hz, zero_div, zero_mul, Finset.sum_const_zero]
      rfl
  unfold randAlm
  rw [if_neg (show ¬ (false = true) by simp), hval]
  have hind : a.lm2ind l m < a.lmax + 1 ↔ m = 0 := by
    constructor
    · intro h
      have e : a.lm2ind (a.lm2ind l m) 0 = a.lm2ind l m := by
        show a.mstart 0 + _ * a.stride = _
        rw [h0, hs]
        omega
      exact (ha.2 _ _ _ _ (Nat.zero_le _) (Nat.zero_le _) (by omega) h1 h2 h3 e).2.symm
    · rintro rfl
      show a.mstart 0 + l * a.stride < _
      rw [h0, hs]
      omega
  by_cases hm : m = 0
  · rw [if_pos (hind.2 hm)]
    simp only [hm, if_true]
    refine Prod.ext ?_ ?_
    · dsimp only
      rw [Finset.sum_mul]
      refine Finset.sum_congr rfl fun c _ => ?_
      field_simp
    · simp
  · rw [if_neg (fun h => hm (hind.1 h))]
    simp only [hm, if_false]
    refine Prod.ext ?_ ?_ <;> dsimp only <;> exact Finset.sum_congr rfl fun c _ => by ring

/-! ### Covariance -/

theorem white_sums {Ω : Type} [MeasurableSpace Ω] (μ : Measure Ω) (X : ℕ → Ω → ℝ)
    (hint : ∀ j k, Integrable (fun ω => X j ω * X k ω) μ) (hwhite : ∀ j k, ∫ ω, X j ω * X k ω ∂μ = if j = k then 1 else 0)
    (n : ℕ) (α β : ℕ → ℝ) (p q : ℕ → ℕ) :
    ∫ ω, (∑ c ∈ Finset.range n, α c * X (p c) ω) * (∑ d ∈ Finset.range n, β d * X (q d) ω) ∂μ
      = ∑ c ∈ Finset.range n, ∑ d ∈ Finset.range n, if p c = q d then α c * β d else 0 := by
  have e : ∀ ω, (∑ c ∈ Finset.range n, α c * X (p c) ω) * (∑ d ∈ Finset.range n, β d * X (q d) ω)
      = ∑ c ∈ Finset.range n, ∑ d ∈ Finset.range n, α c * β d * (X (p c) ω * X (q d) ω) := by
    intro ω
    rw [Finset.sum_mul_sum]
    refine Finset.sum_congr rfl fun c _ => Finset.sum_congr rfl fun d _ => ?_
    ring
  simp only [e]
  rw [integral_finsetSum _ fun c _ => integrable_finsetSum _ fun d _ => (hint _ _).const_mul _]
  refine Finset.sum_congr rfl fun c _ => ?_
  rw [integral_finsetSum _ fun d _ => (hint _ _).const_mul _]
  refine Finset.sum_congr rfl fun d _ => ?_
  rw [integral_const_mul, hwhite]
  split_ifs <;> ring

theorem pair_sum (n : ℕ) (N P P' : ℕ) (hP : P < N) (hP' : P' < N) (α β : ℕ → ℝ) (o : ℕ) :
    (∑ c ∈ Finset.range n, ∑ d ∈ Finset.range n, if 2 * (c * N + P) + o = 2 * (d * N + P') + o then α c * β d else 0)
      = if P = P' then ∑ c ∈ Finset.range n, α c * β c else 0 := by
  have hiff : ∀ c d, 2 * (c * N + P) + o = 2 * (d * N + P') + o ↔ c = d ∧ P = P' := by
    intro c d
    constructor
    · intro h
      have h' : c * N + P = d * N + P' := by omega
      have h1 : P = P' := by
        have := congrArg (· % N) h'
        simpa [Nat.add_mod, Nat.mod_eq_of_lt hP, Nat.mod_eq_of_lt hP'] using this
      refine ⟨?_, h1⟩
      have : c * N = d * N := by omega
      exact Nat.eq_of_mul_eq_mul_right (by omega) this
    · rintro ⟨rfl, rfl⟩
      rfl
  simp only [hiff]
  by_cases h : P = P'
  · rw [if_pos h]
    refine Finset.sum_congr rfl fun c hc => ?_
    simp only [h, and_true]
    rw [Finset.sum_ite_eq, if_pos hc]
  · rw [if_neg h]
    simp [h]

/-- C137, covariance, in double precision.  Let the numbers of the generator be uncorrelated with variance one, in any probability space.
Whatever the layout, the number of components and the order of the numbers: if root is a matrix square root of the spectrum C, the
coefficients of component r and s have covariance C r s at the same (l,m), half of it in the real and half in the imaginary part, or all of it in
the real part for m = 0; everything else is uncorrelated. Beyond the end of the spectrum all is zero. -/
theorem C137_covariance {Ω : Type} [MeasurableSpace Ω] (μ : Measure Ω) (X : ℕ → Ω → ℝ)
    (hint : ∀ j k, Integrable (fun ω => X j ω * X k ω) μ) (hwhite : ∀ j k, ∫ ω, X j ω * X k ω ∂μ = if j = k then 1 else 0)
    (a : AlmInfo) (ha : GoodLayout a) (hs : a.stride = 1) (h0 : a.mstart 0 = 0) (ncomp nl : ℕ) (hnl : 0 < nl)
    (root C : ℕ → ℕ → List ℝ) (hroot : ∀ r c, (root r c).length = nl)
    (hC : ∀ r s l, r < ncomp → s < ncomp → ∑ c ∈ Finset.range ncomp, (root r c).getD l 0 * (root s c).getD l 0 = (C r s).getD l 0)
    (mMajor : Bool) (r s l m l' m' : ℕ) (hr : r < ncomp) (hs' : s < ncomp) (h1 : m ≤ a.mmax) (h2 : m ≤ l) (h3 : l ≤ a.lmax)
    (h1' : m' ≤ a.mmax) (h2' : m' ≤ l') (h3' : l' ≤ a.lmax) :
    let alm := fun (ω : Ω) (r l m : ℕ) => randAlm a ncomp nl root mMajor false (fun k => X k ω) r (a.lm2ind l m)
    (∫ ω, (alm ω r l m).1 * (alm ω s l' m').1 ∂μ = if l = l' ∧ m = m' then (C r s).getD l 0 * (if m = 0 then 1 else 1 / 2) else 0) ∧
    (∫ ω, (alm ω r l m).2 * (alm ω s l' m').2 ∂μ = if l = l' ∧ m = m' then (C r s).getD l 0 * (if m = 0 then 0 else 1 / 2) else 0) ∧
    ∫ ω, (alm ω r l m).1 * (alm ω s l' m').2 ∂μ = 0 := by
  intro alm
  have hget := fun ω r l m hr h1 h2 h3 => randAlm_get a ha hs h0 ncomp nl hnl root hroot mMajor (fun k => X k ω) r l m hr h1 h2 h3
  have hsq : Real.sqrt 2 * Real.sqrt 2 = 2 := Real.mul_self_sqrt (by norm_num)
  have hsq0 : Real.sqrt 2 ≠ 0 := (Real.sqrt_pos.2 (by norm_num)).ne'
  have hP := drawPos_lt a ha mMajor l m h1 h2 h3
  have hP' := drawPos_lt a ha mMajor l' m' h1' h2' h3'
  have hinj : drawPos a mMajor l m = drawPos a mMajor l' m' ↔ l = l' ∧ m = m' :=
    ⟨drawPos_inj a ha mMajor l m l' m' h1 h2 h3 h1' h2' h3', by rintro ⟨rfl, rfl⟩; rfl⟩
  have hfac : ∀ x y f : ℝ, x * f * (y * f) = x * y * (f * f) := by intro x y f; ring
  refine ⟨?_, ?_, ?_⟩
  · simp only [alm, fun ω => hget ω r l m hr h1 h2 h3, fun ω => hget ω s l' m' hs' h1' h2' h3']
    rw [white_sums μ X hint hwhite ncomp _ _ (fun c => 2 * (c * a.nelem + drawPos a mMajor l m)) (fun c => 2 * (c * a.nelem + drawPos a mMajor l' m'))]
    have := pair_sum ncomp a.nelem _ _ hP hP' (fun c => (root r c).getD l 0 * (if m = 0 then 1 else 1 / Real.sqrt 2))
      (fun c => (root s c).getD l' 0 * (if m' = 0 then 1 else 1 / Real.sqrt 2)) 0
    simp only [add_zero] at this
    rw [this]
    by_cases h : l = l' ∧ m = m'
    · rw [if_pos (hinj.2 h), if_pos h]
      obtain ⟨rfl, rfl⟩ := h
      simp only [hfac]
      rw [← Finset.sum_mul, hC r s l hr hs']
      congr 1
      split_ifs
      · ring
      · rw [div_mul_div_comm, hsq]; norm_num
    · rw [if_neg (fun h' => h (hinj.1 h')), if_neg h]
  · simp only [alm, fun ω => hget ω r l m hr h1 h2 h3, fun ω => hget ω s l' m' hs' h1' h2' h3']
    rw [white_sums μ X hint hwhite ncomp _ _ (fun c => 2 * (c * a.nelem + drawPos a mMajor l m) + 1) (fun c => 2 * (c * a.nelem + drawPos a mMajor l' m') + 1)]
    have := pair_sum ncomp a.nelem _ _ hP hP' (fun c => (root r c).getD l 0 * (if m = 0 then 0 else 1 / Real.sqrt 2))
      (fun c => (root s c).getD l' 0 * (if m' = 0 then 0 else 1 / Real.sqrt 2)) 1
    rw [this]
    by_cases h : l = l' ∧ m = m'
    · rw [if_pos (hinj.2 h), if_pos h]
      obtain ⟨rfl, rfl⟩ := h
      simp only [hfac]
      rw [← Finset.sum_mul, hC r s l hr hs']
      congr 1
      split_ifs
      · ring
      · rw [div_mul_div_comm, hsq]; norm_num
    · rw [if_neg (fun h' => h (hinj.1 h')), if_neg h]
  · simp only [alm, fun ω => hget ω r l m hr h1 h2 h3, fun ω => hget ω s l' m' hs' h1' h2' h3']
    rw [white_sums μ X hint hwhite ncomp _ _ (fun c => 2 * (c * a.nelem + drawPos a mMajor l m)) (fun c => 2 * (c * a.nelem + drawPos a mMajor l' m') + 1)]
    refine Finset.sum_eq_zero fun c _ => Finset.sum_eq_zero fun d _ => ?_
    rw [if_neg (by omega)]

/-- Non-vacuity: uncorrelated numbers of variance one, here on the natural numbers with the counting measure, and the default layout. -/
example : ∃ X : ℕ → ℕ → ℝ, (∀ j k, Integrable (fun ω => X j ω * X k ω) Measure.count) ∧
    ∀ j k, ∫ ω, X j ω * X k ω ∂Measure.count = if j = k then 1 else 0 := by
  have e : ∀ j k, (fun ω : ℕ => (if ω = j then (1 : ℝ) else 0) * (if ω = k then 1 else 0)) = Set.indicator {j} (fun _ => if j = k then (1 : ℝ) else 0) := by
    intro j k
    funext ω
    by_cases h : ω = j
    · subst h
      simp
    · simp [h]
  refine ⟨fun j ω => if ω = j then 1 else 0, fun j k => ?_, fun j k => ?_⟩
  · rw [e]
    exact (integrable_indicator_iff (MeasurableSet.singleton j)).2 (integrableOn_const (by simp))
  · rw [e, integral_indicator (MeasurableSet.singleton j), setIntegral_const]
    simp [Measure.real]

example : ∃ a, almInfo (some 3) none none 1 .tri = some a ∧ GoodLayout a ∧ a.stride = 1 ∧ a.mstart 0 = 0 := by
  obtain ⟨a, h, -, -, h3, h4, -⟩ := C48_triangular 3 3 1 le_rfl Nat.one_pos
  have h' : almInfo (some 3) none none 1 .tri = some a := h
  refine ⟨a, h', h4, h3, ?_⟩
  unfold almInfo at h
  simp only [chooseLmax, Option.bind_some, finishInfo, Option.some.injEq] at h
  rw [← h]

/-! ### Scales -/

theorem lMajor_prefix (l1 l2 : ℕ) (h : l1 ≤ l2) : ∃ t, lMajor l2 l2 = lMajor l1 l1 ++ t := by
  unfold lMajor
  obtain ⟨d, rfl⟩ := Nat.exists_eq_add_of_le h
  rw [show l1 + d + 1 = (l1 + 1) + d by omega, List.range_add, List.flatMap_append]
  refine ⟨List.flatMap (fun l => List.map (fun m => (m, l)) (List.range (min l (l1 + d) + 1))) (List.map (fun x => l1 + 1 + x) (List.range d)), ?_⟩
  congr 1
  rw [List.flatMap_def, List.flatMap_def]
  congr 1
  apply List.map_congr_left
  intro l hl
  rw [List.mem_range] at hl
  rw [Nat.min_eq_left (by omega), Nat.min_eq_left (by omega)]

theorem drawPos_tri (L : ℕ) (a : AlmInfo) (h : almInfo (some L) none none 1 .tri = some a) (l m : ℕ) (h2 : m ≤ l) (h3 : l ≤ L) :
    drawPos a true l m = (lMajor L L).idxOf (m, l) := by
  have e : a = ⟨L, L, 1, a.nelem, fun m => m * (2 * L + 1 - m) / 2⟩ := by
    unfold almInfo at h
    simp only [chooseLmax, Option.bind_some, finishInfo, Option.some.injEq, Option.getD_none, one_mul] at h
    rw [← h]
  have hmem : (m, l) ∈ lMajor L L := mem_lMajor.2 ⟨by omega, h2, h3⟩
  have hk := List.idxOf_lt_length_iff.2 hmem
  have hlen : (lmPairs L L).length = (lMajor L L).length := (lMajor_perm _ _).length_eq.symm
  have hseq := triangular_seq L L le_rfl
  rw [e]
  unfold drawPos
  rw [if_pos rfl]
  obtain ⟨p, hp⟩ : ∃ p, (lmPairs L L)[(lMajor L L).idxOf (m, l)]? = some p := ⟨_, List.getElem?_eq_getElem (by omega)⟩
  rw [List.getD_eq_getElem?_getD, hp]
  have h4 := congrArg (fun x => x[(lMajor L L).idxOf (m, l)]?) hseq
  rw [List.getElem?_map, hp, Option.map_some] at h4
  obtain ⟨q1, q2⟩ := List.getElem?_eq_some_iff.1 h4.symm
  rw [List.getElem_range] at q2
  show p.1 * (2 * L + 1 - p.1) / 2 + p.2 * 1 = _
  omega

/-- C137, scales.  With the same numbers, a spectrum and two values of lmax, within the spectrum or beyond: all coefficients that both have are
the same. -/
theorem C137_scales (ps : List ℝ) (hps : ps ≠ []) (l1 l2 : ℕ) (h12 : l1 ≤ l2) (draws : ℕ → ℝ) :
    ∃ a1 x1 a2 x2, randAlmScalar ps (some l1) draws = some (a1, x1) ∧ randAlmScalar ps (some l2) draws = some (a2, x2)
      ∧ a1.lmax = l1 ∧ a2.lmax = l2 ∧ ∀ l m, m ≤ l → l ≤ l1 → x1 (a1.lm2ind l m) = x2 (a2.lm2ind l m) := by
  obtain ⟨a1, g1, m1, n1, s1, G1, -⟩ := C48_triangular l1 l1 1 le_rfl Nat.one_pos
  obtain ⟨a2, g2, m2, n2, s2, G2, -⟩ := C48_triangular l2 l2 1 le_rfl Nat.one_pos
  have g1' : almInfo (some l1) none none 1 .tri = some a1 := g1
  have g2' : almInfo (some l2) none none 1 .tri = some a2 := g2
  have z : ∀ L a, almInfo (some L) none none 1 .tri = some a → a.mstart 0 = 0 := by
    intro L a h
    unfold almInfo at h
    simp only [chooseLmax, Option.bind_some, finishInfo, Option.some.injEq] at h
    rw [← h]
    simp
  have hpos : 0 < ps.length := List.length_pos_iff.2 hps
  have hprep : ∀ L, (preparePs ps (some L)).2 = L ∧ 0 < (preparePs ps (some L)).1.length
      ∧ ∀ l, l ≤ L → (preparePs ps (some L)).1.getD l 0 = ps.getD l 0 := by
    intro L
    unfold preparePs
    dsimp only [Option.getD_some]
    split_ifs with hL
    · refine ⟨rfl, by simp [padSpectrum], fun l hl => ?_⟩
      unfold padSpectrum
      rw [List.getD_eq_getElem?_getD, List.getElem?_map, List.getElem?_range (by omega)]
      rfl
    · exact ⟨rfl, hpos, fun l _ => rfl⟩
  have hroot : ∀ (w : List ℝ) (l : ℕ), (w.map Real.sqrt).getD l 0 = Real.sqrt (w.getD l 0) := by
    intro w l
    rw [List.getD_eq_getElem?_getD, List.getD_eq_getElem?_getD, List.getElem?_map]
    cases w[l]? <;> simp
  have top : ∀ L a, almInfo (some L) none none 1 .tri = some a → randAlmScalar ps (some L) draws
      = some (a, randAlm a 1 (preparePs ps (some L)).1.length (fun _ _ => (preparePs ps (some L)).1.map Real.sqrt) true false draws 0) := by
    intro L a h
    unfold randAlmScalar
    dsimp only
    rw [(hprep L).1, h]
    rfl
  refine ⟨a1, _, a2, _, top l1 a1 g1', top l2 a2 g2', m1, m2, ?_⟩
  intro l m h2 h3
  rw [randAlm_get a1 G1 s1 (z _ _ g1') 1 _ (hprep l1).2.1 _ (fun _ _ => List.length_map _) true draws 0 l m Nat.one_pos (by omega) h2 (by omega),
    randAlm_get a2 G2 s2 (z _ _ g2') 1 _ (hprep l2).2.1 _ (fun _ _ => List.length_map _) true draws 0 l m Nat.one_pos (by omega) h2 (by omega)]
  obtain ⟨t, ht⟩ := lMajor_prefix l1 l2 h12
  have hd : drawPos a1 true l m = drawPos a2 true l m := by
    rw [drawPos_tri l1 a1 g1' l m h2 h3, drawPos_tri l2 a2 g2' l m h2 (by omega), ht,
      List.idxOf_append_of_mem (mem_lMajor.2 ⟨by omega, h2, h3⟩)]
  simp only [hroot, (hprep l1).2.2 l h3, (hprep l2).2.2 l (by omega), hd, Finset.sum_range_one, zero_mul]

example : ∃ a x, randAlmScalar [1, 1] (some 4) (fun k => k) = some (a, x) := by
  obtain ⟨a, x, _, _, h, _⟩ := C137_scales [1, 1] (by simp) 4 4 le_rfl (fun k => k)
  exact ⟨a, x, h⟩

/-- C137 refuted for several components: with the same numbers and a larger lmax the second component is made of other numbers, for
all values of lmax. Here two uncorrelated components with constant spectrum, and the coefficient (0,0). -/
theorem C137_scales_refuted (l1 l2 : ℕ) (h12 : l1 < l2) :
    ∃ a1 a2, almInfo (some l1) none none 1 .tri = some a1 ∧ almInfo (some l2) none none 1 .tri = some a2 ∧
      ∃ draws : ℕ → ℝ, ∀ root : ℕ → ℕ → ℕ → List ℝ, (∀ n r c, root n r c = List.replicate (n + 1) (if r = c then 1 else 0)) →
        randAlm a1 2 (l1 + 1) (root l1) true false draws 1 (a1.lm2ind 0 0) ≠ randAlm a2 2 (l2 + 1) (root l2) true false draws 1 (a2.lm2ind 0 0) := by
  obtain ⟨a1, g1, m1, n1, s1, G1, -⟩ := C48_triangular l1 l1 1 le_rfl Nat.one_pos
  obtain ⟨a2, g2, m2, n2, s2, G2, -⟩ := C48_triangular l2 l2 1 le_rfl Nat.one_pos
  have g1' : almInfo (some l1) none none 1 .tri = some a1 := g1
  have g2' : almInfo (some l2) none none 1 .tri = some a2 := g2
  have z : ∀ L a, almInfo (some L) none none 1 .tri = some a → a.mstart 0 = 0 ∧ a.nelem = L * (2 * L + 1 - L) / 2 + (L + 1) := by
    intro L a h
    unfold almInfo at h
    simp only [chooseLmax, Option.bind_some, finishInfo, Option.some.injEq, Option.getD_none, one_mul, mul_one] at h
    rw [← h]
    exact ⟨by simp, by
      dsimp only
      rw [maxStart_eq _ _ fun m hm => triStart_mono L L le_rfl m hm]⟩
  have hn : a1.nelem < a2.nelem := by
    rw [(z _ _ g1').2, (z _ _ g2').2]
    have : l1 * (2 * l1 + 1 - l1) / 2 ≤ l2 * (2 * l2 + 1 - l2) / 2 := by
      apply Nat.div_le_div_right
      apply Nat.mul_le_mul (by omega) (by omega)
    omega
  have hz : ∀ L a, almInfo (some L) none none 1 .tri = some a → drawPos a true 0 0 = 0 := by
    intro L a h
    rw [drawPos_tri L a h 0 0 le_rfl (Nat.zero_le _)]
    obtain ⟨t, ht⟩ := lMajor_prefix 0 L (Nat.zero_le _)
    rw [ht, List.idxOf_append_of_mem (mem_lMajor.2 ⟨le_rfl, le_rfl, le_rfl⟩)]
    rfl
  refine ⟨a1, a2, g1', g2', fun k => if k = 2 * a1.nelem then 1 else 0, fun root hroot => ?_⟩
  have hlen : ∀ n r c, (root n r c).length = n + 1 := by intro n r c; rw [hroot, List.length_replicate]
  rw [randAlm_get a1 G1 s1 (z _ _ g1').1 2 _ (Nat.succ_pos _) _ (hlen l1) true _ 1 0 0 (by norm_num) (Nat.zero_le _) le_rfl (Nat.zero_le _),
    randAlm_get a2 G2 s2 (z _ _ g2').1 2 _ (Nat.succ_pos _) _ (hlen l2) true _ 1 0 0 (by norm_num) (Nat.zero_le _) le_rfl (Nat.zero_le _)]
  have hg : ∀ n c, (root n 1 c).getD 0 0 = if 1 = c then (1 : ℝ) else 0 := by
    intro n c
    rw [hroot]
    rfl
  intro h
  have h := congrArg Prod.fst h
  simp only [hg, hz _ _ g1', hz _ _ g2', Finset.sum_range_succ, Finset.sum_range_zero, if_true, add_zero, zero_add, one_mul, mul_one,
    show ¬ ((1 : ℕ) = 0) by norm_num, if_false, zero_mul] at h
  rw [if_neg (by omega)] at h
  exact one_ne_zero h

/-- C137 refuted in single precision where the spectrum goes beyond lmax: lmax is 1 and the spectrum has three values, with roots s0, s1 and s2.
The coefficient (1,1) is scaled twice: by s1/√2 and by s2/√2. -/
theorem C137_single_refuted (s0 s1 s2 : ℝ) (draws : ℕ → ℝ) : ∃ a, almInfo (some 1) none none 1 .tri = some a ∧ a.lm2ind 1 1 = 2
    ∧ randAlm a 1 3 (fun _ _ => [s0, s1, s2]) true true draws 0 2 = (s1 / Real.sqrt 2 * (s2 / Real.sqrt 2 * draws 4), s1 / Real.sqrt 2 * (s2 / Real.sqrt 2 * draws 5))
    ∧ randAlm a 1 3 (fun _ _ => [s0, s1, s2]) true false draws 0 2 = (s1 / Real.sqrt 2 * draws 4, s1 / Real.sqrt 2 * draws 5) := by
  obtain ⟨a, g, m1, n1, s1', G1, -⟩ := C48_triangular 1 1 1 le_rfl Nat.one_pos
  have g' : almInfo (some 1) none none 1 .tri = some a := g
  have e : a = ⟨1, 1, 1, 3, fun m => 1 * (m * (2 * 1 + 1 - m) / 2)⟩ := by
    unfold almInfo at g'
    simp only [chooseLmax, Option.bind_some, finishInfo, Option.some.injEq, Option.getD_none] at g'
    rw [← g']
    rfl
  have hind : a.lm2ind 1 1 = 2 := by rw [e]; rfl
  have hpos : drawPos a true 1 1 = 2 := by
    rw [drawPos_tri 1 a g' 1 1 le_rfl le_rfl]
    decide
  have hne : a.nelem = 3 := by rw [e]
  have hw : randAlmWhite a 1 true draws 0 2 = (draws 4, draws 5) := by
    have := randAlmWhite_get a G1 s1' 1 true draws 0 1 1 Nat.one_pos (by omega) le_rfl (by omega)
    rw [hind, hpos] at this
    simpa using this
  have hv : lmatmulVisitsSp a (3 - 1) = [(0, 0), (0, 1), (0, 2), (1, 1), (1, 2)] := by rw [e]; decide
  have hv' : lmatmulVisitsDp a (3 - 1) = [(0, 0), (0, 1), (1, 1)] := by rw [e]; decide
  have hzv : lzeroVisits a (3 - 1) = [] := by rw [e]; decide
  have hc : ∀ l m, a.cind l m = (m * (3 - m) / 2) + l := by intro l m; rw [e]; simp [AlmInfo.cind]
  refine ⟨a, g', hind, ?_, ?_⟩
  · unfold randAlm
    rw [if_pos rfl, hv, hzv, m1, if_neg (by norm_num)]
    simp [lmatmulRun, lmatmulStep, hc, hw]
  · unfold randAlm
    rw [if_neg (show ¬ (false = true) by simp), hv', hzv, m1, if_neg (by norm_num)]
    simp [lmatmulRun, lmatmulStep, hc, hw]

end Pixell
