import Verif.Lemmas.Alm
import Mathlib.Tactic.FieldSimp

/-
Properties C48 - C51: storage of spherical harmonic coefficients, transfer, multiplication and spectra.
-/
namespace Pixell

/-! ### C48: alm_info -/

/-- The guess of lmax is the formula of the source, in real numbers. -/
theorem nalm2lmax_real (n : Nat) : nalm2lmax n = ⌊(-1 + Real.sqrt (1 + 8 * n)) / 2⌋ - 1 := by
  unfold nalm2lmax
  congr 1
  symm
  rw [Int.floor_eq_iff]
  have h1 : Nat.sqrt (1 + 8 * n) * Nat.sqrt (1 + 8 * n) ≤ 1 + 8 * n := Nat.sqrt_le _
  have h2 : 1 + 8 * n < (Nat.sqrt (1 + 8 * n) + 1) * (Nat.sqrt (1 + 8 * n) + 1) := Nat.lt_succ_sqrt _
  have hpos : 0 < Nat.sqrt (1 + 8 * n) := Nat.sqrt_pos.2 (by omega)
  generalize Nat.sqrt (1 + 8 * n) = s at *
  have a1 : (s : ℝ) ≤ Real.sqrt (1 + 8 * n) := by
    apply Real.le_sqrt_of_sq_le
    have : ((s * s : ℕ) : ℝ) ≤ (1 + 8 * n : ℕ) := by exact_mod_cast h1
    push_cast at this
    nlinarith
  have a2 : Real.sqrt (1 + 8 * n) < s + 1 := by
    rw [Real.sqrt_lt' (by positivity)]
    have : ((1 + 8 * n : ℕ) : ℝ) < ((s + 1) * (s + 1) : ℕ) := by exact_mod_cast h2
    push_cast at this
    nlinarith
  have b1 : 2 * ((s - 1) / 2) + 1 ≤ s := by omega
  have b2 : s ≤ 2 * ((s - 1) / 2) + 2 := by omega
  have c1 : (2 * (((s - 1) / 2 : ℕ) : ℝ) + 1) ≤ s := by exact_mod_cast b1
  have c2 : (s : ℝ) ≤ 2 * (((s - 1) / 2 : ℕ) : ℝ) + 2 := by exact_mod_cast b2
  rw [Int.cast_natCast]
  constructor <;> linarith

/-- C48, triangular layout with mmax ≤ lmax and any positive stride: every coefficient has its own position inside the
array, and the positions used are exactly the multiples of the stride (all positions, if the stride is 1). -/
theorem C48_triangular (lmax mmax stride : Nat) (h : mmax ≤ lmax) (hs : 0 < stride) :
    ∃ a, almInfo (some lmax) (some mmax) none stride .tri = some a ∧ a.lmax = lmax ∧ a.mmax = mmax ∧ a.stride = stride ∧
      GoodLayout a ∧
      ∀ i, (i < a.nelem ∧ stride ∣ i) ↔ ∃ l m, m ≤ mmax ∧ m ≤ l ∧ l ≤ lmax ∧ a.lm2ind l m = i := by
  refine ⟨_, rfl, rfl, rfl, rfl, ?_⟩
  simp only [Option.getD_some]
  have hmax : maxStart (fun m => stride * (m * (2 * lmax + 1 - m) / 2)) mmax = stride * (mmax * (2 * lmax + 1 - mmax) / 2) :=
    maxStart_eq _ _ fun m hm => Nat.mul_le_mul_left _ (triStart_mono lmax mmax h m hm)
  have hseq := triangular_seq lmax mmax h
  set N := mmax * (2 * lmax + 1 - mmax) / 2 + lmax + 1 with hN
  have hnel : maxStart (fun m => stride * (m * (2 * lmax + 1 - m) / 2)) mmax + (lmax + 1) * stride = stride * N := by
    rw [hmax, hN]; ring
  have hind : ∀ l m, stride * (m * (2 * lmax + 1 - m) / 2) + l * stride = stride * (m * (2 * lmax + 1 - m) / 2 + l) := by
    intro l m; ring
  have hnd : ((lmPairs lmax mmax).map fun p => p.1 * (2 * lmax + 1 - p.1) / 2 + p.2).Nodup := by
    rw [hseq]; exact List.nodup_range
  have hlt : ∀ l m, m ≤ mmax → m ≤ l → l ≤ lmax → m * (2 * lmax + 1 - m) / 2 + l < N := by
    intro l m h1 h2 h3
    have : m * (2 * lmax + 1 - m) / 2 + l ∈ (lmPairs lmax mmax).map fun p => p.1 * (2 * lmax + 1 - p.1) / 2 + p.2 :=
      List.mem_map.2 ⟨(m, l), mem_lmPairs.2 ⟨h1, h2, h3⟩, rfl⟩
    rw [hseq] at this
    exact List.mem_range.1 this
  refine ⟨⟨?_, ?_⟩, ?_⟩
  · intro l m h1 h2 h3
    simp only [AlmInfo.lm2ind] at *
    rw [hnel, hind]
    exact Nat.mul_lt_mul_of_pos_left (hlt l m h1 h2 h3) hs
  · intro l m l' m' h1 h2 h3 h1' h2' h3' e
    simp only [AlmInfo.lm2ind] at *
    rw [hind, hind] at e
    have e := Nat.eq_of_mul_eq_mul_left hs e
    have := List.inj_on_of_nodup_map hnd (mem_lmPairs.2 ⟨h1, h2, h3⟩ : (m, l) ∈ _) (mem_lmPairs.2 ⟨h1', h2', h3'⟩ : (m', l') ∈ _) e
    simp only [Prod.mk.injEq] at this
    exact ⟨this.2, this.1⟩
  · intro i
    simp only [AlmInfo.lm2ind, hnel, hind]
    constructor
    · rintro ⟨hi, k, rfl⟩
      have hk : k < N := Nat.lt_of_mul_lt_mul_left hi
      have : k ∈ (lmPairs lmax mmax).map fun p => p.1 * (2 * lmax + 1 - p.1) / 2 + p.2 := by
        rw [hseq]; exact List.mem_range.2 hk
      obtain ⟨p, hp, rfl⟩ := List.mem_map.1 this
      obtain ⟨h1, h2, h3⟩ := mem_lmPairs.1 hp
      exact ⟨p.2, p.1, h1, h2, h3, rfl⟩
    · rintro ⟨l, m, h1, h2, h3, rfl⟩
      exact ⟨Nat.mul_lt_mul_of_pos_left (hlt l m h1 h2 h3) hs, Dvd.intro _ rfl⟩

/-- C48, rectangular layout, for any lmax, mmax and positive stride. -/
theorem C48_rectangular (lmax mmax stride : Nat) (hs : 0 < stride) :
    ∃ a, almInfo (some lmax) (some mmax) none stride .rect = some a ∧ a.lmax = lmax ∧ a.mmax = mmax ∧ a.stride = stride ∧
      GoodLayout a ∧ a.nelem = (mmax + 1) * (lmax + 1) * stride := by
  refine ⟨_, rfl, rfl, rfl, rfl, ?_⟩
  simp only [Option.getD_some]
  have hmax : maxStart (fun m => m * (lmax + 1) * stride) mmax = mmax * (lmax + 1) * stride :=
    maxStart_eq _ _ fun m hm => Nat.mul_le_mul_right _ (Nat.mul_le_mul_right _ hm)
  have hind : ∀ l m, m * (lmax + 1) * stride + l * stride = stride * (l + (lmax + 1) * m) := by intro l m; ring
  refine ⟨⟨?_, ?_⟩, ?_⟩
  · intro l m h1 h2 h3
    simp only [AlmInfo.lm2ind] at *
    rw [hmax, hind]
    have : l + (lmax + 1) * m < (lmax + 1) * (mmax + 1) := by nlinarith
    nlinarith
  · intro l m l' m' h1 h2 h3 h1' h2' h3' e
    simp only [AlmInfo.lm2ind] at *
    rw [hind, hind] at e
    have e := Nat.eq_of_mul_eq_mul_left hs e
    have e1 : (l + (lmax + 1) * m) % (lmax + 1) = l := by
      rw [Nat.add_mul_mod_self_left, Nat.mod_eq_of_lt (by omega)]
    have e2 : (l' + (lmax + 1) * m') % (lmax + 1) = l' := by
      rw [Nat.add_mul_mod_self_left, Nat.mod_eq_of_lt (by omega)]
    have hl : l = l' := by rw [← e1, e, e2]
    subst hl
    exact ⟨rfl, Nat.eq_of_mul_eq_mul_left (by omega : 0 < lmax + 1) (Nat.add_left_cancel e)⟩
  · show maxStart (fun m => m * (lmax + 1) * stride) mmax + (lmax + 1) * stride = _
    rw [hmax]; ring

/-- C48: mmax defaults to lmax, in both layouts. -/
theorem C48_default (lmax stride : Nat) (nalm : Option Nat) :
    almInfo (some lmax) none nalm stride .tri = almInfo (some lmax) (some lmax) nalm stride .tri ∧
    almInfo (some lmax) none nalm stride .rect = almInfo (some lmax) (some lmax) nalm stride .rect := ⟨rfl, rfl⟩

theorem nalm2lmax_tri (lmax : Nat) : nalm2lmax ((lmax + 1) * (lmax + 1 + 1) / 2) = lmax := by
  unfold nalm2lmax
  have h2 := tri_two (lmax + 1)
  have : 1 + 8 * ((lmax + 1) * (lmax + 1 + 1) / 2) = (2 * lmax + 3) * (2 * lmax + 3) := by
    have : (2 * lmax + 3) * (2 * lmax + 3) = 1 + 4 * ((lmax + 1) * (lmax + 1 + 1)) := by ring
    omega
  rw [this, Nat.sqrt_eq]
  omega

/-- C48: given only the number of elements, the triangular layout is recovered if that number is the size of one, and an
exception is raised otherwise. -/
theorem C48_nalm (n : Nat) :
    (∀ lmax, n = (lmax + 1) * (lmax + 1 + 1) / 2 → ∃ a, almInfo none none (some n) 1 .tri = some a ∧ a.lmax = lmax ∧ a.mmax = lmax ∧
        a.nelem = n ∧ almInfo (some lmax) (some lmax) none 1 .tri = some a) ∧
    ((∀ lmax, n ≠ (lmax + 1) * (lmax + 1 + 1) / 2) → almInfo none none (some n) 1 .tri = none) := by
  have hfin : ∀ l : Nat, maxStart (fun m => 1 * (m * (2 * l + 1 - m) / 2)) l + (l + 1) * 1 = (l + 1) * (l + 1 + 1) / 2 := by
    intro l
    rw [maxStart_eq _ _ fun m hm => Nat.mul_le_mul_left _ (triStart_mono l l (le_refl _) m hm), tri_succ]
    rw [show 2 * l + 1 - l = l + 1 by omega]; omega
  constructor
  · rintro lmax rfl
    have h := nalm2lmax_tri lmax
    refine ⟨⟨lmax, lmax, 1, (lmax + 1) * (lmax + 1 + 1) / 2, fun m => 1 * (m * (2 * lmax + 1 - m) / 2)⟩, ?_, rfl, rfl, rfl, ?_⟩
    · simp only [almInfo, chooseLmax, h]
      rw [if_pos (by omega)]
      simp only [Int.toNat_natCast, Option.bind_some, Option.getD_none, finishInfo, hfin, if_true]
    · simp only [almInfo, chooseLmax, Option.bind_some, Option.getD_some, finishInfo, hfin]
  · intro h
    simp only [almInfo, chooseLmax]
    split
    · simp only [Option.bind_some, Option.getD_none, finishInfo, hfin]
      rw [if_neg fun e => h _ e.symm]
    · rfl

example : nalm2lmax 6 = 2 ∧ nalm2lmax 7 = 2 ∧ nalm2lmax 0 = -1 := by decide +kernel
example : (almInfo (some 3) (some 1) none 2 .tri).map (fun a => (a.nelem, a.lm2ind 3 1)) = some (14, 12) := by decide +kernel
example : (almInfo none none (some 7) 1 .tri).isNone := by decide +kernel

/-! ### C49: transfer_alm and transpose_alm -/

variable {V : Type}

/-- C49: transfer_alm gives every coefficient present in both layouts `op` of its old and the transferred value, and
leaves every other position untouched. -/
theorem C49_transfer (ia oa : AlmInfo) (ho : GoodLayout oa) (ialm oalm : Nat → V) (op : V → V → V) :
    (∀ l m, m ≤ ia.mmax → m ≤ oa.mmax → m ≤ l → l ≤ ia.lmax → l ≤ oa.lmax →
      transferAlm ia oa ialm oalm op (oa.lm2ind l m) = op (oalm (oa.lm2ind l m)) (ialm (ia.lm2ind l m))) ∧
    (∀ j, (∀ l m, m ≤ ia.mmax → m ≤ oa.mmax → m ≤ l → l ≤ ia.lmax → l ≤ oa.lmax → oa.lm2ind l m ≠ j) →
      transferAlm ia oa ialm oalm op j = oalm j) := by
  have hnd := ho.nodup (min ia.lmax oa.lmax) (min ia.mmax oa.mmax) (by omega) (by omega) _ (List.Perm.refl _)
  obtain ⟨h1, h2⟩ := foldl_setPos (lmPairs (min ia.lmax oa.lmax) (min ia.mmax oa.mmax)) (fun p => oa.lm2ind p.2 p.1)
    (fun p v => op v (ialm (ia.lm2ind p.2 p.1))) oalm hnd
  constructor
  · intro l m a b c d e
    exact h1 (m, l) (mem_lmPairs.2 ⟨by simp; omega, c, by simp; omega⟩)
  · intro j hj
    apply h2
    intro p hp
    obtain ⟨a, b, c⟩ := mem_lmPairs.1 hp
    exact hj p.2 p.1 (by omega) (by omega) (by omega) (by omega) (by omega)

/-- C49: transferring to a larger layout and back (whatever was in the arrays) gives every coefficient back. -/
theorem C49_round_trip (ia oa : AlmInfo) (hi : GoodLayout ia) (ho : GoodLayout oa) (hl : ia.lmax ≤ oa.lmax) (hm : ia.mmax ≤ oa.mmax)
    (ialm o1 o2 : Nat → V) (l m : Nat) (h1 : m ≤ ia.mmax) (h2 : m ≤ l) (h3 : l ≤ ia.lmax) :
    transferAlm oa ia (transferAlm ia oa ialm o1 fun _ b => b) o2 (fun _ b => b) (ia.lm2ind l m) = ialm (ia.lm2ind l m) := by
  rw [(C49_transfer oa ia hi _ o2 _).1 l m (by omega) h1 h2 (by omega) h3]
  rw [(C49_transfer ia oa ho ialm o1 _).1 l m h1 (by omega) h2 h3 (by omega)]

/-- The l-major order is what it says: sorted by l, then m. -/
theorem lMajor_sorted (lmax mmax : Nat) : (lMajor lmax mmax).Pairwise fun p q => p.2 < q.2 ∨ p.2 = q.2 ∧ p.1 < q.1 := by
  unfold lMajor
  rw [List.pairwise_flatMap]
  constructor
  · intro l _
    rw [List.pairwise_map]
    exact List.pairwise_lt_range.imp fun h => Or.inr ⟨rfl, h⟩
  · refine List.pairwise_lt_range.imp ?_
    intro a b hab p hp q hq
    obtain ⟨k, _, rfl⟩ := List.mem_map.1 hp
    obtain ⟨l, _, rfl⟩ := List.mem_map.1 hq
    exact Or.inl hab

/-- The visiting order of the loops is m-major: sorted by m, then l. -/
theorem lmPairs_sorted (lmax mmax : Nat) : (lmPairs lmax mmax).Pairwise fun p q => p.1 < q.1 ∨ p.1 = q.1 ∧ p.2 < q.2 := by
  unfold lmPairs
  rw [List.pairwise_flatMap]
  constructor
  · intro l _
    rw [List.pairwise_map]
    exact List.pairwise_lt_range.imp fun h => Or.inr ⟨rfl, by simpa using h⟩
  · refine List.pairwise_lt_range.imp ?_
    intro a b hab p hp q hq
    obtain ⟨k, _, rfl⟩ := List.mem_map.1 hp
    obtain ⟨l, _, rfl⟩ := List.mem_map.1 hq
    exact Or.inl hab

/-- C49: transpose_alm in a layout with stride 1. Let `src` list the coefficients in m-major and `dst` in l-major order
(each sorted list of all (m,l) of the layout): the k-th of `src` arrives at the position of the k-th of `dst`; positions
that hold no coefficient become zero. -/
theorem C49_transpose [Zero V] (a : AlmInfo) (ha : GoodLayout a) (hs : a.stride = 1) (ialm : Nat → V) :
    ∃ src dst : List (Nat × Nat),
      (∀ m l, (m, l) ∈ src ↔ m ≤ a.mmax ∧ m ≤ l ∧ l ≤ a.lmax) ∧ (∀ m l, (m, l) ∈ dst ↔ m ≤ a.mmax ∧ m ≤ l ∧ l ≤ a.lmax) ∧
      src.Pairwise (fun p q => p.1 < q.1 ∨ p.1 = q.1 ∧ p.2 < q.2) ∧ dst.Pairwise (fun p q => p.2 < q.2 ∨ p.2 = q.2 ∧ p.1 < q.1) ∧
      src.length = dst.length ∧
      (∀ (k m l m' l' : Nat), src[k]? = some (m, l) → dst[k]? = some (m', l') →
        transposeAlm a ialm (a.lm2ind l' m') = ialm (a.lm2ind l m)) ∧
      (∀ j, (∀ m l, m ≤ a.mmax → m ≤ l → l ≤ a.lmax → a.lm2ind l m ≠ j) → transposeAlm a ialm j = 0) := by
  have hci : ∀ l m, a.lm2ind l m = a.cind l m := by intro l m; simp [AlmInfo.lm2ind, AlmInfo.cind, hs]
  have hlen : (lmPairs a.lmax a.mmax).length = (lMajor a.lmax a.mmax).length := (lMajor_perm _ _).length_eq.symm
  have hrun : transposeAlm a ialm = ((lmPairs a.lmax a.mmax).zip (lMajor a.lmax a.mmax)).foldl
      (fun o x => setPos o (a.cind x.2.2 x.2.1) (ialm (a.cind x.1.2 x.1.1))) (fun _ => 0) := by
    unfold transposeAlm
    rw [transpose_foldl, hlen]
    rw [show (List.range (lMajor a.lmax a.mmax).length).map (fun k => (nextLM a.mmax)^[k] (0, 0)) = lMajor a.lmax a.mmax from
      (lMajor_iterate a.mmax (a.lmax + 1)).1.symm]
  have hsnd : ((lmPairs a.lmax a.mmax).zip (lMajor a.lmax a.mmax)).map Prod.snd = lMajor a.lmax a.mmax :=
    List.map_snd_zip (by omega)
  have hnd : (((lmPairs a.lmax a.mmax).zip (lMajor a.lmax a.mmax)).map fun x => a.cind x.2.2 x.2.1).Nodup := by
    have : ((lmPairs a.lmax a.mmax).zip (lMajor a.lmax a.mmax)).map (fun x => a.cind x.2.2 x.2.1) =
        (((lmPairs a.lmax a.mmax).zip (lMajor a.lmax a.mmax)).map Prod.snd).map fun p => a.lm2ind p.2 p.1 := by
      rw [List.map_map]; simp [Function.comp_def, hci]
    rw [this, hsnd]
    exact ha.nodup _ _ (le_refl _) (le_refl _) _ (lMajor_perm _ _)
  obtain ⟨h1, h2⟩ := foldl_setPos ((lmPairs a.lmax a.mmax).zip (lMajor a.lmax a.mmax)) (fun x => a.cind x.2.2 x.2.1)
    (fun x _ => ialm (a.cind x.1.2 x.1.1)) (fun _ => (0 : V)) hnd
  refine ⟨lmPairs a.lmax a.mmax, lMajor a.lmax a.mmax, fun m l => mem_lmPairs, fun m l => mem_lMajor, lmPairs_sorted _ _,
    lMajor_sorted _ _, hlen, ?_, ?_⟩
  · intro k m l m' l' hsrc hdst
    rw [hci, hci, hrun]
    have hmem : ((m, l), (m', l')) ∈ (lmPairs a.lmax a.mmax).zip (lMajor a.lmax a.mmax) := by
      apply List.mem_of_getElem? (i := k)
      rw [List.getElem?_zip_eq_some]
      exact ⟨hsrc, hdst⟩
    exact h1 _ hmem
  · intro j hj
    rw [hrun]
    apply h2
    rintro ⟨p, q⟩ hx
    have hq : q ∈ lMajor a.lmax a.mmax := by rw [← hsnd]; exact List.mem_map.2 ⟨(p, q), hx, rfl⟩
    obtain ⟨a1, a2, a3⟩ := mem_lMajor.1 hq
    rw [← hci]
    exact hj _ _ a1 a2 a3

/-- lmax = 2: m-major (00,10,20,11,21,22) read in l-major order of positions. -/
example : ((List.range 6).map (transposeAlm ⟨2, 2, 1, 6, fun m => m * (5 - m) / 2⟩ fun i => (i : Int))) = [0, 1, 3, 2, 4, 5] := by
  decide +kernel

/-! ### C50: lmul -/

variable {K : Type}

/-- C50: lmul in a layout with stride 1 multiplies every coefficient by the value of the filter at its l, or by zero
beyond the end of the filter, and touches nothing else, in whatever order the threads visit the coefficients. -/
theorem C50_lmul [Zero K] [SMul K V] (a : AlmInfo) (ha : GoodLayout a) (hs : a.stride = 1) (lfun : List K) (alm : Nat → V)
    (visits : List (Nat × Nat)) (hv : visits.Perm (lmPairs a.lmax a.mmax)) :
    (∀ l m, m ≤ a.mmax → m ≤ l → l ≤ a.lmax →
      lmulRun a lfun visits alm (a.lm2ind l m) = (lfun.getD l 0) • alm (a.lm2ind l m)) ∧
    (∀ j, (∀ l m, m ≤ a.mmax → m ≤ l → l ≤ a.lmax → a.lm2ind l m ≠ j) → lmulRun a lfun visits alm j = alm j) := by
  have hci : ∀ l m, a.lm2ind l m = a.cind l m := by intro l m; simp [AlmInfo.lm2ind, AlmInfo.cind, hs]
  have hnd : (visits.map fun p => a.cind p.2 p.1).Nodup := by
    have := ha.nodup _ _ (le_refl _) (le_refl _) visits hv
    simpa [hci] using this
  obtain ⟨h1, h2⟩ := foldl_setPos visits (fun p => a.cind p.2 p.1)
    (fun p v => (if p.2 < lfun.length then lfun.getD p.2 0 else 0) • v) alm hnd
  constructor
  · intro l m b c d
    rw [hci]
    refine (h1 (m, l) (hv.mem_iff.2 (mem_lmPairs.2 ⟨b, c, d⟩))).trans ?_
    simp only
    split
    · rfl
    · rename_i h
      rw [List.getD_eq_getElem?_getD, List.getElem?_eq_none (by omega)]; rfl
  · intro j hj
    apply h2
    intro p hp
    obtain ⟨b, c, d⟩ := mem_lmPairs.1 (hv.mem_iff.1 hp)
    rw [← hci]
    exact hj _ _ b c d

/-- C50 fails for layouts with a stride: the C code ignores it. With lmax = 1, stride 2 the coefficient (1,0) at position
2 is not multiplied, while the unused position 1 is. -/
theorem C50_stride_refuted :
    ∃ a, almInfo (some 1) (some 0) none 2 .tri = some a ∧ GoodLayout a ∧
      a.lm2ind 1 0 = 2 ∧ lmulRun a [3, 5] (lmPairs a.lmax a.mmax) (fun _ => (1 : ℚ)) 2 = 1 ∧
      lmulRun a [3, 5] (lmPairs a.lmax a.mmax) (fun _ => (1 : ℚ)) 1 = 5 := by
  obtain ⟨a, h, _, _, _, h5, _⟩ := C48_triangular 1 0 2 (by omega) (by omega)
  refine ⟨a, h, h5, ?_⟩
  have : a = ⟨1, 0, 2, maxStart (fun m => 2 * (m * (2 * 1 + 1 - m) / 2)) 0 + (1 + 1) * 2, fun m => 2 * (m * (2 * 1 + 1 - m) / 2)⟩ := by
    simpa [almInfo, chooseLmax, finishInfo] using h.symm
  subst this
  simp [AlmInfo.lm2ind, lmulRun, lmPairs, lmulStep, setPos, AlmInfo.cind, List.range_succ]

/-- A loop over rows writing one position of each. -/
theorem foldl_rows (N : Nat) (outRow : Nat → Nat) (hinj : ∀ r r', r < N → r' < N → outRow r = outRow r' → r = r')
    (i : Nat) (val : Nat → V) (mem : Nat → Nat → V) (row j : Nat) :
    (∀ r < N, row = outRow r → j = i →
      (List.range N).foldl (fun mem r => fun row j => if row = outRow r ∧ j = i then val r else mem row j) mem row j = val r) ∧
    ((∀ r < N, ¬ (row = outRow r ∧ j = i)) →
      (List.range N).foldl (fun mem r => fun row j => if row = outRow r ∧ j = i then val r else mem row j) mem row j = mem row j) := by
  induction N with
  | zero => simp
  | succ N ih =>
    obtain ⟨i1, i2⟩ := ih fun r r' h h' => hinj r r' (by omega) (by omega)
    rw [List.range_succ, List.foldl_append, List.foldl_cons, List.foldl_nil]
    constructor
    · intro r hr hrow hj
      rcases Nat.lt_or_ge r N with h | h
      · have : ¬ (row = outRow N ∧ j = i) := by
          rintro ⟨e, _⟩
          have := hinj r N (by omega) (by omega) (by rw [← hrow, e])
          omega
        rw [if_neg this, i1 r h hrow hj]
      · have : r = N := by omega
        subst this
        rw [if_pos ⟨hrow, hj⟩]
    · intro h
      rw [if_neg (h N (by omega)), i2 fun r hr => h r (by omega)]

/-- Effect of the first loop of lmatmul over any list of visits with distinct positions. -/
theorem lmatmul_phase1 [Zero K] [SMul K V] [AddCommMonoid V] (a : AlmInfo) (N M : Nat) (lmat : Nat → Nat → List K)
    (inRow outRow : Nat → Nat) (hinj : ∀ r r', r < N → r' < N → outRow r = outRow r' → r = r')
    (visits : List (Nat × Nat)) (hnd : (visits.map fun p => a.cind p.2 p.1).Nodup) (mem : Nat → Nat → V) :
    let res := visits.foldl (lmatmulStep a N M lmat inRow outRow) mem
    (∀ p ∈ visits, ∀ r < N, res (outRow r) (a.cind p.2 p.1) =
      ((List.range M).map fun c => (lmat r c).getD p.2 0 • mem (inRow c) (a.cind p.2 p.1)).sum) ∧
    (∀ row j, (∀ p ∈ visits, ∀ r < N, ¬ (row = outRow r ∧ j = a.cind p.2 p.1)) → res row j = mem row j) := by
  induction visits generalizing mem with
  | nil => simp
  | cons q vs ih =>
    obtain ⟨hq, hnd'⟩ := List.nodup_cons.1 hnd
    obtain ⟨i1, i2⟩ := ih hnd' (lmatmulStep a N M lmat inRow outRow mem q)
    simp only [List.foldl_cons]
    have step : ∀ row j, (∀ r < N, row = outRow r → j = a.cind q.2 q.1 → lmatmulStep a N M lmat inRow outRow mem q row j =
          ((List.range M).map fun c => (lmat r c).getD q.2 0 • mem (inRow c) (a.cind q.2 q.1)).sum) ∧
        ((∀ r < N, ¬ (row = outRow r ∧ j = a.cind q.2 q.1)) → lmatmulStep a N M lmat inRow outRow mem q row j = mem row j) := by
      intro row j
      obtain ⟨s1, s2⟩ := foldl_rows N outRow hinj (a.cind q.2 q.1) (fun r => ((List.range N).map fun r =>
        ((List.range M).map fun c => (lmat r c).getD q.2 0 • mem (inRow c) (a.cind q.2 q.1)).sum).getD r 0) mem row j
      refine ⟨?_, s2⟩
      intro r hr h1 h2
      refine (s1 r hr h1 h2).trans ?_
      simp [List.getD_eq_getElem?_getD, hr]
    have hother : ∀ p ∈ vs, a.cind p.2 p.1 ≠ a.cind q.2 q.1 := fun p hp e => hq (List.mem_map.2 ⟨p, hp, e⟩)
    constructor
    · intro p hp r hr
      rcases List.mem_cons.1 hp with rfl | hp
      · rw [i2 _ _ fun p' hp' r' hr' h => hother p' hp' h.2.symm]
        exact (step _ _).1 r hr rfl rfl
      · rw [i1 p hp r hr]
        congr 1
        apply List.map_congr_left
        intro c _
        rw [(step _ _).2 fun r' _ h => hother p hp h.2]
    · intro row j h
      rw [i2 row j fun p hp => h p (List.mem_cons_of_mem _ hp), (step row j).2 (h q (by simp))]

/-- Effect of the zeroing loop. -/
theorem lzero_phase [AddCommMonoid V] (a : AlmInfo) (N : Nat) (outRow : Nat → Nat)
    (hinj : ∀ r r', r < N → r' < N → outRow r = outRow r' → r = r') (visits : List (Nat × Nat)) (mem : Nat → Nat → V) (row j : Nat) :
    ((∃ p ∈ visits, ∃ r < N, row = outRow r ∧ j = a.cind p.2 p.1) → visits.foldl (lzeroStep a N outRow) mem row j = 0) ∧
    ((∀ p ∈ visits, ∀ r < N, ¬ (row = outRow r ∧ j = a.cind p.2 p.1)) → visits.foldl (lzeroStep a N outRow) mem row j = mem row j) := by
  induction visits using List.reverseRecOn with
  | nil => simp
  | append_singleton vs q ih =>
    rw [List.foldl_append, List.foldl_cons, List.foldl_nil]
    obtain ⟨s1, s2⟩ := foldl_rows N outRow hinj (a.cind q.2 q.1) (fun _ => (0 : V)) (vs.foldl (lzeroStep a N outRow) mem) row j
    constructor
    · rintro ⟨p, hp, r, hr, h1, h2⟩
      by_cases hq : ∃ r < N, row = outRow r ∧ j = a.cind q.2 q.1
      · obtain ⟨r', hr', e1, e2⟩ := hq
        exact s1 r' hr' e1 e2
      · refine (s2 fun r hr h => hq ⟨r, hr, h⟩).trans ?_
        apply ih.1
        rcases List.mem_append.1 hp with hp | hp
        · exact ⟨p, hp, r, hr, h1, h2⟩
        · rw [List.mem_singleton.1 hp] at h2
          exact absurd ⟨r, hr, h1, h2⟩ hq
    · intro h
      refine (s2 fun r hr => h q (by simp) r hr).trans ?_
      exact ih.2 fun p hp => h p (List.mem_append_left _ hp)

/-- C50: the matrix form. For distinct output rows (which may be the input rows), a layout with stride 1, filters with
lfmax+1 values, and any visiting orders: in double precision every coefficient of every output row becomes the product
of the matrix at its l with the input coefficients, or zero beyond lfmax, and nothing else changes. -/
theorem C50_lmatmul_dp [Zero K] [SMul K V] [AddCommMonoid V] (a : AlmInfo) (ha : GoodLayout a) (hs : a.stride = 1)
    (N M lfmax : Nat) (lmat : Nat → Nat → List K)
    (inRow outRow : Nat → Nat) (hinj : ∀ r r', r < N → r' < N → outRow r = outRow r' → r = r')
    (visits zeros : List (Nat × Nat)) (hv : visits.Perm (lmatmulVisitsDp a lfmax)) (hz : zeros.Perm (lzeroVisits a lfmax))
    (mem : Nat → Nat → V) :
    let res := lmatmulRun a N M lmat inRow outRow visits zeros mem
    (∀ l m r, m ≤ a.mmax → m ≤ l → l ≤ a.lmax → r < N → res (outRow r) (a.lm2ind l m) =
      if l ≤ lfmax then ((List.range M).map fun c => (lmat r c).getD l 0 • mem (inRow c) (a.lm2ind l m)).sum else 0) ∧
    (∀ row j, (∀ l m r, m ≤ a.mmax → m ≤ l → l ≤ a.lmax → r < N → ¬ (row = outRow r ∧ j = a.lm2ind l m)) → res row j = mem row j) := by
  have hci : ∀ l m, a.lm2ind l m = a.cind l m := by intro l m; simp [AlmInfo.lm2ind, AlmInfo.cind, hs]
  have hnd : (visits.map fun p => a.cind p.2 p.1).Nodup := by
    have := ha.nodup (min a.lmax lfmax) a.mmax (by omega) (le_refl _) visits hv
    simpa [hci] using this
  obtain ⟨p1, p2⟩ := lmatmul_phase1 a N M lmat inRow outRow hinj visits hnd mem
  have hzm : ∀ p, p ∈ zeros ↔ (p.1 ≤ a.mmax ∧ p.1 ≤ p.2 ∧ p.2 ≤ a.lmax) ∧ min a.lmax lfmax + 1 ≤ p.2 := by
    intro p
    rw [hz.mem_iff, lzeroVisits, List.mem_filter, mem_lmPairs, decide_eq_true_eq]
  constructor
  · intro l m r h1 h2 h3 hr
    rw [hci]
    obtain ⟨z1, z2⟩ := lzero_phase a N outRow hinj zeros (visits.foldl (lmatmulStep a N M lmat inRow outRow) mem) (outRow r) (a.cind l m)
    by_cases hl : l ≤ lfmax
    · rw [if_pos hl]
      refine (z2 ?_).trans (p1 (m, l) (hv.mem_iff.2 (mem_lmPairs.2 ⟨h1, h2, by simp; omega⟩)) r hr)
      rintro p hp r' hr' ⟨_, e⟩
      obtain ⟨⟨b1, b2, b3⟩, b4⟩ := (hzm p).1 hp
      rw [← hci, ← hci] at e
      have := (ha.2 l m p.2 p.1 h1 h2 h3 b1 b2 b3 e).1
      omega
    · rw [if_neg hl]
      exact z1 ⟨(m, l), (hzm _).2 ⟨⟨h1, h2, h3⟩, by simp; omega⟩, r, hr, rfl, rfl⟩
  · intro row j h
    obtain ⟨z1, z2⟩ := lzero_phase a N outRow hinj zeros (visits.foldl (lmatmulStep a N M lmat inRow outRow) mem) row j
    refine (z2 ?_).trans (p2 row j ?_)
    · intro p hp r hr e
      obtain ⟨⟨b1, b2, b3⟩, _⟩ := (hzm p).1 hp
      exact h p.2 p.1 r b1 b2 b3 hr (by rw [hci]; exact e)
    · intro p hp r hr e
      obtain ⟨b1, b2, b3⟩ := mem_lmPairs.1 (hv.mem_iff.1 hp)
      exact h p.2 p.1 r b1 b2 (by omega) hr (by rw [hci]; exact e)

/-- C50: double precision: no access outside the array. -/
theorem C50_bounds_dp (a : AlmInfo) (ha : GoodLayout a) (hs : a.stride = 1) (lfmax : Nat) :
    ∀ p ∈ lmatmulVisitsDp a lfmax ++ lzeroVisits a lfmax, a.cind p.2 p.1 < a.nelem := by
  have hci : ∀ l m, a.lm2ind l m = a.cind l m := by intro l m; simp [AlmInfo.lm2ind, AlmInfo.cind, hs]
  intro p hp
  rw [← hci]
  rcases List.mem_append.1 hp with hp | hp
  · obtain ⟨b1, b2, b3⟩ := mem_lmPairs.1 hp
    exact ha.1 _ _ b1 b2 (by omega)
  · obtain ⟨b1, b2, b3⟩ := mem_lmPairs.1 (List.mem_filter.1 hp).1
    exact ha.1 _ _ b1 b2 b3

/-- C50 in single precision, if the filter is not longer than lmax+1: the same as double precision. -/
theorem C50_sp_partial (a : AlmInfo) (lfmax : Nat) (h : lfmax ≤ a.lmax) : lmatmulVisitsSp a lfmax = lmatmulVisitsDp a lfmax := by
  unfold lmatmulVisitsSp lmatmulVisitsDp
  rw [Nat.min_eq_right h]

/-- C50 fails in single precision for every longer filter: in every triangular layout the loop reads and writes behind
the end of the arrays. -/
theorem C50_sp_bounds_refuted (lmax mmax lfmax : Nat) (h : mmax ≤ lmax) (hl : lmax < lfmax) :
    ∃ a, almInfo (some lmax) (some mmax) none 1 .tri = some a ∧ ∃ p ∈ lmatmulVisitsSp a lfmax, a.nelem ≤ a.cind p.2 p.1 := by
  refine ⟨_, rfl, (mmax, lmax + 1), mem_lmPairs.2 ⟨le_refl _, by simp; omega, by simp; omega⟩, ?_⟩
  simp only [AlmInfo.cind, Option.getD_some]
  rw [maxStart_eq _ _ fun m hm => Nat.mul_le_mul_left _ (triStart_mono lmax mmax h m hm)]
  omega

/-- ... and with an in-place product, even in plain sequential order, coefficients inside the array get wrong values:
lmax = mmax = 1, a 1×1 "matrix" that multiplies l = 0,1,2 by 2, 3, 5. The coefficient (1,1) becomes 3·5 instead of 3. -/
theorem C50_sp_inplace_refuted :
    ∃ a, almInfo (some 1) (some 1) none 1 .tri = some a ∧ a.lm2ind 1 1 = 2 ∧
      lmatmulRun a 1 1 (fun _ _ => [2, 3, 5]) id id (lmatmulVisitsDp a 2) (lzeroVisits a 2) (fun _ _ => (1 : ℚ)) 0 2 = 3 ∧
      lmatmulRun a 1 1 (fun _ _ => [2, 3, 5]) id id (lmatmulVisitsSp a 2) (lzeroVisits a 2) (fun _ _ => (1 : ℚ)) 0 2 = 15 := by
  refine ⟨_, rfl, ?_⟩
  decide +kernel

example : lmulRun (K := ℚ) ⟨1, 1, 1, 3, fun m => m⟩ [2] (lmPairs 1 1) (fun i => (i + 1 : ℚ)) 0 = 2 := by decide +kernel

/-! ### C51: alm2cl -/

/-- The terms (m,l) added by the loop over m ≥ 1. -/
def addedTerms : List ClEvent → List (Nat × Nat)
  | [] => []
  | .init _ :: t => addedTerms t
  | .add _ m l :: t => (m, l) :: addedTerms t

/-- A trace of alm2cl with `nthread` threads: every l is initialised exactly once; every (m,l) with m ≥ 1 is added
exactly once, by some thread; thread 0 does not add to a value it has yet to initialise. Every assignment of the values of
m to threads (static, dynamic, ...) and every interleaving gives such a trace. -/
def ClTrace (lmax mmax nthread : Nat) (t : List ClEvent) : Prop :=
  (∀ l, t.count (.init l) = if l ≤ lmax then 1 else 0) ∧
  (addedTerms t).Perm ((lmPairs lmax mmax).filter fun p => decide (1 ≤ p.1)) ∧
  (∀ id m l, .add id m l ∈ t → id < nthread) ∧
  t.Pairwise fun e e' => ∀ m l, e = .add 0 m l → e' ≠ .init l

/-- The product of the coefficients (l,m) of the two alms, as summed by alm2cl. -/
def clTerm [Field K] (a : AlmInfo) (re1 im1 re2 im2 : Nat → K) (l m : Nat) : K :=
  re1 (a.lm2ind l m) * re2 (a.lm2ind l m) + im1 (a.lm2ind l m) * im2 (a.lm2ind l m)

/-- What an event adds to buffer `id` at `l`, initialisation apart. -/
def addPart [Field K] (T : Nat → Nat → K) (id l : Nat) : ClEvent → K
  | .init _ => 0
  | .add t m l' => if id = t ∧ l = l' then T l m else 0

theorem buffers [Field K] (a : AlmInfo) (re1 im1 re2 im2 : Nat → K) (t : List ClEvent)
    (hone : ∀ l, t.count (.init l) ≤ 1) (hord : t.Pairwise fun e e' => ∀ m l, e = .add 0 m l → e' ≠ .init l) (id l : Nat) :
    t.foldl (clStep a re1 im1 re2 im2) (fun _ _ => 0) id l =
      (if id = 0 ∧ .init l ∈ t then re1 (a.cind l 0) * re2 (a.cind l 0) / 2 else 0) +
      (t.map (addPart (fun l m => re1 (a.cind l m) * re2 (a.cind l m) + im1 (a.cind l m) * im2 (a.cind l m)) id l)).sum := by
  induction t using List.reverseRecOn generalizing id l with
  | nil => simp
  | append_singleton t e ih =>
    have hone' : ∀ l, t.count (.init l) ≤ 1 := fun l => by
      have := hone l
      rw [List.count_append] at this
      omega
    obtain ⟨ho1, _, ho3⟩ := List.pairwise_append.1 hord
    rw [List.foldl_append, List.foldl_cons, List.foldl_nil, List.map_append, List.sum_append]
    cases e with
    | init l0 =>
      simp only [clStep, List.map_cons, List.map_nil, List.sum_cons, List.sum_nil, addPart, add_zero]
      by_cases h : id = 0 ∧ l = l0
      · obtain ⟨rfl, rfl⟩ := h
        rw [if_pos ⟨rfl, rfl⟩, if_pos ⟨rfl, by simp⟩]
        have : (t.map (addPart (fun l m => re1 (a.cind l m) * re2 (a.cind l m) + im1 (a.cind l m) * im2 (a.cind l m)) 0 l)).sum = 0 := by
          apply List.sum_eq_zero
          intro x hx
          obtain ⟨e, he, rfl⟩ := List.mem_map.1 hx
          cases e with
          | init _ => rfl
          | add t' m l' =>
            simp only [addPart]
            rw [if_neg]
            rintro ⟨rfl, rfl⟩
            exact ho3 _ he _ (List.mem_singleton.2 rfl) m l rfl rfl
        rw [this, add_zero]
      · rw [if_neg h, ih hone' ho1]
        congr 1
        have : (ClEvent.init l ∈ t ++ [ClEvent.init l0]) ↔ (ClEvent.init l ∈ t ∨ l = l0) := by simp
        by_cases hid : id = 0
        · have hl : l ≠ l0 := fun e => h ⟨hid, e⟩
          simp only [this, hl, or_false]
        · simp [hid]
    | add t0 m l0 =>
      simp only [clStep, List.map_cons, List.map_nil, List.sum_cons, List.sum_nil, addPart, add_zero]
      have : (ClEvent.init l ∈ t ++ [ClEvent.add t0 m l0]) ↔ ClEvent.init l ∈ t := by simp
      by_cases h : id = t0 ∧ l = l0
      · rw [if_pos h, if_pos h, ih hone' ho1]
        obtain ⟨rfl, rfl⟩ := h
        simp only [this]
        ring
      · rw [if_neg h, if_neg h, ih hone' ho1]
        simp only [this, add_zero]

theorem sum_swap [Field K] {X Y : Type} (xs : List X) (ys : List Y) (f : X → Y → K) :
    (xs.map fun x => (ys.map fun y => f x y).sum).sum = (ys.map fun y => (xs.map fun x => f x y).sum).sum := by
  induction xs with
  | nil => simp
  | cons x xs ih =>
    simp only [List.map_cons, List.sum_cons, ih]
    rw [← List.sum_map_add]

theorem sum_range_single [Field K] (n k : Nat) (hk : k < n) (v : K) :
    ((List.range n).map fun i => if i = k then v else 0).sum = v := by
  induction n with
  | zero => omega
  | succ n ih =>
    rw [List.range_succ, List.map_append, List.sum_append]
    rcases Nat.lt_or_ge k n with h | h
    · rw [ih h]
      have : n ≠ k := by omega
      simp [this]
    · have : k = n := by omega
      subst this
      have : ((List.range k).map fun i => if i = k then v else 0).sum = 0 := by
        apply List.sum_eq_zero
        intro x hx
        obtain ⟨i, hi, rfl⟩ := List.mem_map.1 hx
        have := List.mem_range.1 hi
        rw [if_neg (by omega)]
      rw [this]; simp

/-- The terms with a given l among all terms with m ≥ 1. -/
theorem sum_terms [Field K] (lmax mmax l : Nat) (hl : l ≤ lmax) (T : Nat → K) :
    (((lmPairs lmax mmax).filter fun p => decide (1 ≤ p.1)).map fun p => if l = p.2 then T p.1 else 0).sum =
      ((List.range (min l mmax)).map fun k => T (k + 1)).sum := by
  induction mmax with
  | zero =>
    have h0 : lmPairs lmax 0 = (List.range (lmax + 1)).map fun k => (0, k) := by simp [lmPairs]
    rw [h0]
    have : ((List.range (lmax + 1)).map fun k => ((0, k) : Nat × Nat)).filter (fun p => decide (1 ≤ p.1)) = [] := by
      rw [List.filter_eq_nil_iff]
      intro p hp
      obtain ⟨k, _, rfl⟩ := List.mem_map.1 hp
      simp
    rw [this]; simp
  | succ M ih =>
    rw [lmPairs_succ, List.filter_append, List.map_append, List.sum_append, ih]
    have hf : ((List.range (lmax + 1 - (M + 1))).map fun k => ((M + 1, M + 1 + k) : Nat × Nat)).filter (fun p => decide (1 ≤ p.1)) =
        (List.range (lmax + 1 - (M + 1))).map fun k => (M + 1, M + 1 + k) := by
      rw [List.filter_eq_self]
      intro p hp
      obtain ⟨k, _, rfl⟩ := List.mem_map.1 hp
      simp
    rw [hf, List.map_map]
    simp only [Function.comp_def]
    rcases Nat.lt_or_ge l (M + 1) with h | h
    · rw [show min l (M + 1) = min l M by omega]
      have : ((List.range (lmax + 1 - (M + 1))).map fun k => if l = M + 1 + k then T (M + 1) else 0).sum = 0 := by
        apply List.sum_eq_zero
        intro x hx
        obtain ⟨k, _, rfl⟩ := List.mem_map.1 hx
        rw [if_neg (by omega)]
      rw [this, add_zero]
    · rw [show min l (M + 1) = M + 1 by omega, show min l M = M by omega, List.range_succ, List.map_append, List.sum_append]
      congr 1
      have := sum_range_single (lmax + 1 - (M + 1)) (l - (M + 1)) (by omega) (T (M + 1))
      simp only [List.map_cons, List.map_nil, List.sum_cons, List.sum_nil, add_zero]
      refine Eq.trans ?_ this
      congr 1
      apply List.map_congr_left
      intro k _
      by_cases e : k = l - (M + 1)
      · rw [if_pos (by omega), if_pos e]
      · rw [if_neg (by omega), if_neg e]

/-- C51: for every number of threads, every assignment of the work to them and every interleaving, the spectrum of two
alms in a layout with stride 1 is (re a_l0 · re b_l0 + 2 Σ_{m=1}^{min(l,mmax)} Re(a_lm conj b_lm)) / (2l+1). -/
theorem C51_schedule [Field K] [CharZero K] (a : AlmInfo) (hs : a.stride = 1) (re1 im1 re2 im2 : Nat → K) (nthread : Nat)
    (hn : 0 < nthread) (t : List ClEvent) (ht : ClTrace a.lmax a.mmax nthread t) (l : Nat) (hl : l ≤ a.lmax) :
    alm2clRun a re1 im1 re2 im2 nthread t l =
      (re1 (a.lm2ind l 0) * re2 (a.lm2ind l 0) + 2 * ((List.range (min l a.mmax)).map fun k => clTerm a re1 im1 re2 im2 l (k + 1)).sum)
        / (2 * l + 1) := by
  obtain ⟨h1, h2, h3, h4⟩ := ht
  have hci : ∀ l m, a.lm2ind l m = a.cind l m := by intro l m; simp [AlmInfo.lm2ind, AlmInfo.cind, hs]
  have hone : ∀ l, t.count (.init l) ≤ 1 := fun l => by rw [h1 l]; split <;> omega
  have hmem : ClEvent.init l ∈ t := by
    rw [← List.count_pos_iff, h1 l, if_pos hl]; omega
  set T : Nat → Nat → K := fun l m => re1 (a.cind l m) * re2 (a.cind l m) + im1 (a.cind l m) * im2 (a.cind l m) with hT
  unfold alm2clRun
  simp only [buffers a re1 im1 re2 im2 t hone h4, ← hT]
  rw [List.sum_map_add]
  have e1 : ((List.range nthread).map fun id => if id = 0 ∧ ClEvent.init l ∈ t then re1 (a.cind l 0) * re2 (a.cind l 0) / 2 else 0).sum =
      re1 (a.cind l 0) * re2 (a.cind l 0) / 2 := by
    simp only [hmem, and_true]
    exact sum_range_single nthread 0 hn _
  have e2 : ((List.range nthread).map fun id => (t.map (addPart T id l)).sum).sum =
      ((List.range (min l a.mmax)).map fun k => T l (k + 1)).sum := by
    rw [sum_swap]
    have : ∀ t : List ClEvent, (∀ id m l, .add id m l ∈ t → id < nthread) →
        (t.map fun e => ((List.range nthread).map fun id => addPart T id l e).sum).sum =
        ((addedTerms t).map fun p => if l = p.2 then T l p.1 else 0).sum := by
      intro t
      induction t with
      | nil => intro _; rfl
      | cons e t ih =>
        intro hid
        have ih := ih fun id m l h => hid id m l (List.mem_cons_of_mem _ h)
        rw [List.map_cons, List.sum_cons, ih]
        cases e with
        | init l0 =>
          simp [addPart, addedTerms]
        | add id0 m l0 =>
          simp only [addedTerms, List.map_cons, List.sum_cons, addPart]
          congr 1
          by_cases e : l = l0
          · subst e
            simp only [and_true, if_true]
            exact sum_range_single nthread id0 (hid id0 m l (by simp)) _
          · simp [e]
    rw [this t h3, (h2.map _).sum_eq]
    exact sum_terms a.lmax a.mmax l hl fun m => T l m
  rw [e1, e2]
  have hne : (2 * (l : K) + 1) ≠ 0 := by exact_mod_cast (by omega : (2 * l + 1 : ℕ) ≠ 0)
  simp only [clTerm, hci]
  field_simp
  ring

/-- Traces exist for every assignment of the values of m to threads. -/
theorem ClTrace_of_assignment (lmax mmax nthread : Nat) (σ : Nat → Nat) (hσ : ∀ m, σ m < nthread) :
    ClTrace lmax mmax nthread ((List.range (lmax + 1)).map ClEvent.init ++
      ((lmPairs lmax mmax).filter fun p => decide (1 ≤ p.1)).map fun p => ClEvent.add (σ p.1) p.1 p.2) := by
  have hadd : ∀ ps : List (Nat × Nat), addedTerms (ps.map fun p => ClEvent.add (σ p.1) p.1 p.2) = ps := by
    intro ps
    induction ps with
    | nil => rfl
    | cons p ps ih => simp [addedTerms, ih]
  have hinit : ∀ (ls : List Nat) (t : List ClEvent), addedTerms (ls.map ClEvent.init ++ t) = addedTerms t := by
    intro ls t
    induction ls with
    | nil => rfl
    | cons l ls ih => simp [addedTerms, ih]
  refine ⟨?_, ?_, ?_, ?_⟩
  · intro l
    rw [List.count_append]
    have h0 : (((lmPairs lmax mmax).filter fun p => decide (1 ≤ p.1)).map fun p => ClEvent.add (σ p.1) p.1 p.2).count (.init l) = 0 := by
      rw [List.count_eq_zero]; simp
    rw [h0, List.count_map_of_injective _ _ (fun a b h => by injection h), List.count_range]
    simp only [Nat.lt_succ_iff, Nat.add_zero]
  · rw [hinit, hadd]
  · intro id m l h
    rcases List.mem_append.1 h with h | h
    · simp at h
    · obtain ⟨p, _, e⟩ := List.mem_map.1 h
      injection e with e1 e2 e3
      rw [← e1]; exact hσ _
  · rw [List.pairwise_append]
    refine ⟨?_, ?_, ?_⟩
    · rw [List.pairwise_map]
      exact List.pairwise_of_forall fun _ _ => by simp
    · rw [List.pairwise_map]
      exact List.pairwise_of_forall fun _ _ => by simp
    · intro e he e' he' m l h
      obtain ⟨k, _, rfl⟩ := List.mem_map.1 he
      simp at h

/-- The trace of a single thread, and a trace of two threads in which thread 1 runs first, for lmax = mmax = 1. -/
example : ClTrace 1 1 1 [.init 0, .init 1, .add 0 1 1] ∧ ClTrace 1 1 2 [.add 1 1 1, .init 0, .init 1] := by
  have hc : ∀ t : List ClEvent, t = [.init 0, .init 1, .add 0 1 1] ∨ t = [.add 1 1 1, .init 0, .init 1] →
      ∀ l, t.count (.init l) = if l ≤ 1 then 1 else 0 := by
    rintro t (rfl | rfl) l
    · rcases l with _ | _ | l <;> simp
    · rcases l with _ | _ | l <;> simp
  refine ⟨⟨hc _ (Or.inl rfl), ?_, ?_, ?_⟩, ⟨hc _ (Or.inr rfl), ?_, ?_, ?_⟩⟩
  · decide
  · simp; omega
  · simp
  · decide
  · simp; omega
  · simp

example : alm2clRun (K := ℚ) ⟨1, 1, 1, 3, fun m => m⟩ (fun i => (i : ℚ) + 1) (fun i => (i : ℚ)) (fun i => (i : ℚ) + 1) (fun i => (i : ℚ)) 2
    [.add 1 1 1, .init 0, .init 1] 1 = (4 + 2 * (9 + 4)) / 3 := by decide +kernel

/-- C51 fails for a layout with a stride, which the C code ignores: lmax = 1, mmax = 0, stride 2, one thread, an alm that
is 1 at the position of (1,0) and 0 elsewhere has the spectrum zero at l = 1. -/
theorem C51_stride_refuted :
    ∃ a, almInfo (some 1) (some 0) none 2 .tri = some a ∧ a.lm2ind 1 0 = 2 ∧ ClTrace 1 0 1 [.init 0, .init 1] ∧
      alm2clRun a (fun i => if i = 2 then (1 : ℚ) else 0) (fun _ => 0) (fun i => if i = 2 then 1 else 0) (fun _ => 0) 1 [.init 0, .init 1] 1 = 0 := by
  refine ⟨_, rfl, by decide +kernel, ⟨?_, by decide, by simp, by simp⟩, by decide +kernel⟩
  intro l
  rcases l with _ | _ | l <;> simp

end Pixell
