import Verif.Model.AlmWrap
import Verif.Props.Alm
import Verif.Lemmas.Index
import Mathlib.Tactic.Linarith
import Mathlib.Tactic.Ring

/-! Properties of the python side of the alm routines: C155. -/

namespace Pixell

variable {V W K : Type}

/-! ### Spectra and their cache -/

theorem addrKey_eq {p q : ℤ × ℤ} (h : addrKey p = addrKey q) : q = p ∨ q = p.swap := by
  obtain ⟨a, b⟩ := p
  obtain ⟨c, d⟩ := q
  unfold addrKey at h
  simp only [Prod.swap_prod_mk, Prod.mk.injEq]
  simp only at h
  split at h <;> split at h <;> simp only [Prod.mk.injEq] at h <;> omega

theorem clCached_spec (kern : (ℕ → V) → (ℕ → V) → W) (mem : ℤ → V) (s1 s2 : ℤ) (R : W → ℤ × ℤ → Prop)
    (hc : ∀ p : ℤ × ℤ, R (kern (viewRow mem p.1 s1) (viewRow mem p.2 s2)) p) (hs : ∀ w p, R w p → R w p.swap) (rows : List (ℤ × ℤ)) :
    List.Forall₂ R (clCached kern mem s1 s2 rows) rows := by
  have key : ∀ (rows done : List (ℤ × ℤ)) (st : List ((ℤ × ℤ) × W) × List W), (∀ k w, (k, w) ∈ st.1 → ∀ p, addrKey p = k → R w p) → List.Forall₂ R st.2 done →
      List.Forall₂ R (rows.foldl (clCacheStep kern mem s1 s2) st).2 (done ++ rows) := by
    intro rows
    induction rows with
    | nil => intro done st _ h; simpa using h
    | cons p rows ih =>
      intro done st hst hd
      rw [List.foldl_cons, show done ++ p :: rows = (done ++ [p]) ++ rows by simp]
      apply ih
      · unfold clCacheStep
        split
        · exact hst
        · intro k w hk q hq
          rcases List.mem_cons.1 hk with e | e
          · rw [Prod.mk.injEq] at e
            obtain ⟨rfl, rfl⟩ := e
            rcases addrKey_eq hq.symm with rfl | rfl
            · exact hc _
            · exact hs _ _ (hc _)
          · exact hst k w e q hq
      · unfold clCacheStep
        split
        · rename_i w hw
          refine List.rel_append hd (List.Forall₂.cons ?_ List.Forall₂.nil)
          exact hst _ w (by
            have := List.lookup_eq_some_iff.1 hw
            obtain ⟨l1, l2, e, _⟩ := this
            rw [e]; simp) p rfl
        · exact List.rel_append hd (List.Forall₂.cons (hc p) List.Forall₂.nil)
  simpa [clCached] using key rows [] ([], []) (by simp) List.Forall₂.nil

/-- The spectrum of two alms by the definition of C51: `(re a_l0 re b_l0 + 2 sum_m Re(a_lm conj b_lm))/(2l+1)`. -/
def crossSpectrum [Field K] (a : AlmInfo) (x y : ℕ → K × K) (l : ℕ) : K :=
  ((x (a.lm2ind l 0)).1 * (y (a.lm2ind l 0)).1 +
    2 * ((List.range (min l a.mmax)).map fun k => (x (a.lm2ind l (k + 1))).1 * (y (a.lm2ind l (k + 1))).1 + (x (a.lm2ind l (k + 1))).2 * (y (a.lm2ind l (k + 1))).2).sum)
      / (2 * l + 1)

theorem crossSpectrum_symm [Field K] (a : AlmInfo) (x y : ℕ → K × K) (l : ℕ) : crossSpectrum a x y l = crossSpectrum a y x l := by
  unfold crossSpectrum
  congr 2
  · ring
  · congr 2
    apply List.map_congr_left
    intro k _
    ring

/-- C155, spectra, when the last axes of the two arrays have the same stride: every spectrum that alm2cl returns is the spectrum of the two alms at its place, whatever arrays are broadcast against each
other and however their memory overlaps: remembering the spectra of pairs of addresses changes nothing. This holds for all schedules of the threads in each of the calls of the C routine. -/
theorem C155_cache_partial [Field K] [CharZero K] (a : AlmInfo) (hs : a.stride = 1) (mem : ℤ → K × K) (s : ℤ) (nthread : ℕ) (hn : 0 < nthread)
    (trace : (ℕ → K × K) → (ℕ → K × K) → List ClEvent) (ht : ∀ x y, ClTrace a.lmax a.mmax nthread (trace x y)) (rows : List (ℤ × ℤ)) :
    List.Forall₂ (fun (cl : ℕ → K) p => ∀ l ≤ a.lmax, cl l = crossSpectrum a (viewRow mem p.1 s) (viewRow mem p.2 s) l)
      (clCached (fun x y => alm2clRun a (fun i => (x i).1) (fun i => (x i).2) (fun i => (y i).1) (fun i => (y i).2) nthread (trace x y)) mem s s rows) rows := by
  apply clCached_spec
  · intro p l hl
    rw [C51_schedule a hs _ _ _ _ nthread hn _ (ht _ _) l hl]
    rfl
  · intro w p h l hl
    rw [h l hl, crossSpectrum_symm]
    rfl

/-- C155, spectra, fails when the strides differ. With `x` an array of two rows of four numbers, `alm2cl(x[:,None,:2], x[None,:,::2])` returns at [1,0] the spectrum at [0,1]: the rows of the two views
start at the same addresses, but are not the same rows. This is shown here for lmax=1, mmax=0: the spectrum at [1,0] for l=1 is that of 6 and 3, not that of 2 and 7. -/
theorem C155_cache_stride_refuted :
    let mem : ℤ → ℚ × ℚ := fun i => ([(1, 0), (2, 0), (3, 0), (4, 0), (5, 0), (6, 0), (7, 0), (8, 0)] : List (ℚ × ℚ)).getD i.toNat 0
    let a : AlmInfo := ⟨1, 0, 1, 2, fun _ => 0⟩
    let cl := clCached (crossSpectrum a) mem 1 2 (outerRows 0 4 0 4 2 2)
    let right := (outerRows 0 4 0 4 2 2).map fun p => crossSpectrum a (viewRow mem p.1 1) (viewRow mem p.2 2)
    cl.map (· 1) = [2, 14 / 3, 14 / 3, 14] ∧ right.map (· 1) = [2, 14 / 3, 6, 14] := by
  decide +kernel

/-- Three rows against each other: nine spectra, the matrix is symmetric. -/
example : ((clCached (crossSpectrum ⟨1, 0, 1, 2, fun _ => 0⟩) (fun i => ((i.toNat : ℚ), 0)) 1 1 (outerRows 0 2 0 2 3 3)).map (· 1)) =
    [1/3, 1, 5/3, 1, 3, 5, 5/3, 5, 25/3] := by decide +kernel

/-! ### Writing through a reshaped array -/

theorem pokes_other (mem : ℤ → V) (l : List (ℤ × V)) (a : ℤ) (h : ∀ p ∈ l, p.1 ≠ a) : pokes mem l a = mem a := by
  unfold pokes
  induction l generalizing mem with
  | nil => rfl
  | cons p l ih =>
    rw [List.foldl_cons, ih _ fun q hq => h q (List.mem_cons_of_mem _ hq), Function.update_of_ne (h p (by simp)).symm]

theorem pokes_mem (mem : ℤ → V) (l : List (ℤ × V)) (hn : (l.map Prod.fst).Nodup) (a : ℤ) (v : V) (h : (a, v) ∈ l) : pokes mem l a = v := by
  unfold pokes
  induction l generalizing mem with
  | nil => simp at h
  | cons p l ih =>
    rw [List.map_cons, List.nodup_cons] at hn
    rw [List.foldl_cons]
    rcases List.mem_cons.1 h with e | e
    · subst e
      refine (pokes_other _ l a ?_).trans (Function.update_self _ _ _)
      intro q hq e
      exact hn.1 (List.mem_map.2 ⟨q, hq, e⟩)
    · exact ih _ hn.2 e

theorem collapse_head : ∀ (d : ℕ) (s : ℤ) (G : List (ℕ × ℤ)) (t : ℤ), collapse ((d, s) :: G) = some t → s = t * ((G.map Prod.fst).prod : ℕ) := by
  intro d s G
  induction G generalizing d s with
  | nil => intro t h; simp [collapse] at h; simp [h]
  | cons p G ih =>
    intro t h
    obtain ⟨e, u⟩ := p
    rw [collapse] at h
    split at h
    · rename_i hs
      rw [List.map_cons, List.prod_cons, hs, ih e u t h]
      push_cast
      ring
    · simp at h

theorem filter_prod (shape : List ℕ) : ∀ (strides : List ℤ), strides.length = shape.length →
    (((shape.zip strides).filter fun p => decide (p.1 ≠ 1)).map Prod.fst).prod = shape.prod := by
  induction shape with
  | nil => simp
  | cons n ns ih =>
    intro strides h
    match strides, h with
    | s :: ss, h =>
      have := ih ss (by simpa using h)
      rw [List.zip_cons_cons, List.filter_cons]
      split
      · rw [List.map_cons, List.prod_cons, this, List.prod_cons]
      · rename_i h1
        have : n = 1 := by simpa using h1
        subst this
        rw [List.prod_cons, one_mul]
        assumption

/-- When numpy needs no copy, element `idx` of the array is element number `ravel idx` of the flattened one. -/
theorem flat_address (shape : List ℕ) : ∀ (strides : List ℤ) (t : ℤ) (idx : List ℕ), strides.length = shape.length → flatStride shape strides = some t → InShape shape idx →
    address strides idx = t * (ravel shape idx : ℕ) := by
  unfold flatStride
  induction shape with
  | nil =>
    intro strides t idx hl _ hi
    cases hi
    cases strides
    · simp [address, ravel]
    · simp at hl
  | cons n ns ih =>
    intro strides t idx hl hf hi
    unfold InShape at hi
    match strides, hl, idx, hi with
    | s :: ss, hl, c :: cs, hi =>
      rw [List.forall₂_cons] at hi
      have hl' : ss.length = ns.length := by simpa using hl
      have hprod := filter_prod ns ss hl'
      have hrl := ravel_lt (show InShape ns cs from hi.2)
      have ha : address (s :: ss) (c :: cs) = s * c + address ss cs := by simp [address]
      rw [ha, ravel]
      rw [List.zip_cons_cons, List.filter_cons] at hf
      split at hf
      · rename_i h1
        have hs := collapse_head _ _ _ _ hf
        rw [hprod] at hs
        have hrec : address ss cs = t * (ravel ns cs : ℕ) := by
          cases hF : (ns.zip ss).filter fun p => decide (p.1 ≠ 1) with
          | nil =>
            have h0 := ih ss 1 cs hl' (by rw [hF]; rfl) hi.2
            rw [hF] at hprod
            simp at hprod
            rw [← hprod] at hrl
            have : ravel ns cs = 0 := by omega
            rw [h0, this]; simp
          | cons q G =>
            rw [hF] at hf
            obtain ⟨d, u⟩ := q
            rw [collapse] at hf
            split at hf
            · exact ih ss t cs hl' (by rw [hF]; exact hf) hi.2
            · simp at hf
        rw [hrec, hs]
        push_cast
        ring
      · rename_i h1
        have hn : n = 1 := by simpa using h1
        have hc : c = 0 := by have := hi.1; omega
        subst hc
        rw [ih ss t cs hl' hf hi.2]
        simp

/-- C155, random numbers, when the array can be flattened without a copy: fill_gauss, and with it rand_alm_white, puts draw number `ravel idx` into every element `idx` of the array, and writes nowhere else. -/
theorem C155_fill_partial (mem : ℤ → V) (addr : ℤ) (shape : List ℕ) (strides : List ℤ) (draws : ℕ → V) (fresh t : ℤ) (hl : strides.length = shape.length)
    (ht : flatStride shape strides = some t) (h0 : t ≠ 0) :
    (∀ idx, InShape shape idx → fillGaussMem mem addr shape strides draws fresh (addr + address strides idx) = draws (ravel shape idx)) ∧
    ∀ x, (∀ i < shape.prod, x ≠ addr + t * i) → fillGaussMem mem addr shape strides draws fresh x = mem x := by
  unfold fillGaussMem
  rw [ht]
  simp only
  constructor
  · intro idx hi
    apply pokes_mem
    · rw [List.map_map]
      apply List.Nodup.map_on _ List.nodup_range
      intro a _ b _ e
      simp only [Function.comp] at e
      have : t * (a - b : ℤ) = 0 := by linarith
      rcases mul_eq_zero.1 this with h | h
      · exact absurd h h0
      · omega
    · rw [List.mem_map]
      exact ⟨ravel shape idx, List.mem_range.2 (ravel_lt hi), by rw [flat_address shape strides t idx hl ht hi]⟩
  · intro x hx
    apply pokes_other
    intro p hp
    obtain ⟨i, hi, rfl⟩ := List.mem_map.1 hp
    exact (hx i (List.mem_range.1 hi)).symm

/-- C155, random numbers, fails for every other array: `reshape(-1)` copies it, the numbers go to the copy, and the array keeps what it had. -/
theorem C155_fill_refuted (mem : ℤ → V) (addr : ℤ) (shape : List ℕ) (strides : List ℤ) (draws : ℕ → V) (fresh : ℤ)
    (hf : flatStride shape strides = none) (hfree : ∀ idx, InShape shape idx → ∀ i < shape.prod, addr + address strides idx ≠ fresh + i) (idx : List ℕ) (hi : InShape shape idx) :
    fillGaussMem mem addr shape strides draws fresh (addr + address strides idx) = mem (addr + address strides idx) := by
  unfold fillGaussMem
  rw [hf]
  apply pokes_other
  intro p hp
  obtain ⟨i, hi', rfl⟩ := List.mem_map.1 hp
  exact (hfree idx hi i (List.mem_range.1 hi')).symm

/-- The first two columns of an array of two rows of three: the numbers are lost. All of it: they arrive. -/
example : flatStride [2, 2] [3, 1] = none ∧ flatStride [2, 3] [3, 1] = some 1 ∧
    [0, 1, 3, 4].map (fillGaussMem (fun _ => (0 : ℤ)) 0 [2, 2] [3, 1] (fun i => i + 7) 100) = [0, 0, 0, 0] ∧
    [0, 1, 2, 3, 4, 5].map (fillGaussMem (fun _ => (0 : ℤ)) 0 [2, 3] [3, 1] (fun i => i + 7) 100) = [7, 8, 9, 10, 11, 12] := by
  decide +kernel

theorem lmulRow_other [Zero K] [SMul K V] (a : AlmInfo) (lfun : List K) (visits : List (ℕ × ℕ)) (n : ℕ) (mem : ℤ → V) (addr x : ℤ) (h : ∀ j < n, addr + (j : ℤ) ≠ x) :
    lmulRowMem a lfun visits n mem addr x = mem x := by
  apply pokes_other
  intro p hp
  obtain ⟨j, hj, rfl⟩ := List.mem_map.1 hp
  exact h j (List.mem_range.1 hj)

theorem lmulRow_self [Zero K] [SMul K V] (a : AlmInfo) (lfun : List K) (visits : List (ℕ × ℕ)) (n : ℕ) (mem : ℤ → V) (addr : ℤ) (j : ℕ) (h : j < n) :
    lmulRowMem a lfun visits n mem addr (addr + j) = lmulRun a lfun visits (viewRow mem addr 1) j := by
  apply pokes_mem
  · rw [List.map_map]
    apply List.Nodup.map_on _ List.nodup_range
    intro a _ b _ e
    simp only [Function.comp] at e
    omega
  · exact List.mem_map.2 ⟨j, List.mem_range.2 h, rfl⟩

/-- The rows of lmul one after the other, for rows that do not overlap. -/
theorem lmul_rows [Zero K] [SMul K V] (a : AlmInfo) (lflat : ℕ → List K) (visits : ℕ → List (ℕ × ℕ)) (n : ℕ) (at_ : ℕ → ℤ) (P : ℕ)
    (hd : ∀ k < P, ∀ k' < P, k ≠ k' → ∀ j < n, ∀ j' < n, at_ k + (j : ℤ) ≠ at_ k' + (j' : ℤ)) (mem : ℤ → V) :
    ∀ q ≤ P, (∀ k < P, ∀ j < n, ∃ m : ℤ → V, (∀ j < n, m (at_ k + (j : ℤ)) = mem (at_ k + (j : ℤ))) ∧
      (List.range q).foldl (fun mem k => lmulRowMem a (lflat k) (visits k) n mem (at_ k)) mem (at_ k + (j : ℤ)) =
        if k < q then lmulRun a (lflat k) (visits k) (viewRow m (at_ k) 1) j else mem (at_ k + (j : ℤ))) ∧
      ∀ x, (∀ k < P, ∀ j < n, at_ k + (j : ℤ) ≠ x) → (List.range q).foldl (fun mem k => lmulRowMem a (lflat k) (visits k) n mem (at_ k)) mem x = mem x := by
  intro q
  induction q with
  | zero => intro _; exact ⟨fun k _ j _ => ⟨mem, fun _ _ => rfl, by simp⟩, fun _ _ => by simp⟩
  | succ q ih =>
    intro hq
    obtain ⟨h1, h2⟩ := ih (by omega)
    rw [List.range_succ, List.foldl_append, List.foldl_cons, List.foldl_nil]
    refine ⟨?_, ?_⟩
    · intro k hk j hj
      by_cases e : k = q
      · subst e
        refine ⟨_, ?_, by rw [if_pos (by omega), lmulRow_self _ _ _ _ _ _ _ hj]⟩
        intro j' hj'
        obtain ⟨m, _, hm⟩ := h1 k hk j' hj'
        rw [hm, if_neg (by omega)]
      · obtain ⟨m, hm1, hm2⟩ := h1 k hk j hj
        refine ⟨m, hm1, ?_⟩
        rw [lmulRow_other, hm2]
        · by_cases hkq : k < q
          · rw [if_pos hkq, if_pos (by omega)]
          · rw [if_neg hkq, if_neg (by omega)]
        · intro j' hj'
          exact hd q (by omega) k hk (fun h => e h.symm) j' hj' j hj
    · intro x hx
      rw [lmulRow_other _ _ _ _ _ _ _ (fun j hj => hx q (by omega) j hj), h2 x hx]

/-- C155, lmul into `out`, when the axes of out before the last can be joined without a copy, its rows do not overlap and the layout has stride 1: every coefficient (l,m) of every element of out becomes that of alm times the
filter at l (zero beyond its end), the positions that hold no coefficient become those of alm, and nothing outside out changes. This holds for all orders in which the threads visit the coefficients. -/
theorem C155_lmul_out_partial [Zero K] [SMul K V] (a : AlmInfo) (ha : GoodLayout a) (hs : a.stride = 1) (visits : ℕ → List (ℕ × ℕ)) (hv : ∀ k, (visits k).Perm (lmPairs a.lmax a.mmax))
    (aflat : ℕ → ℕ → V) (lflat : ℕ → List K) (addr : ℤ) (pre : List ℕ) (strides : List ℤ) (fresh t : ℤ) (mem : ℤ → V) (hl : strides.length = pre.length)
    (ht : flatStride pre strides = some t) (hrow : (a.nelem : ℤ) ≤ |t|) :
    (∀ idx, InShape pre idx → ∀ l m, m ≤ a.mmax → m ≤ l → l ≤ a.lmax →
      lmulOutMem a visits aflat lflat a.nelem addr pre strides fresh mem (addr + address strides idx + (a.lm2ind l m : ℕ)) =
        ((lflat (ravel pre idx)).getD l 0) • aflat (ravel pre idx) (a.lm2ind l m)) ∧
    (∀ idx, InShape pre idx → ∀ j < a.nelem, (∀ l m, m ≤ a.mmax → m ≤ l → l ≤ a.lmax → a.lm2ind l m ≠ j) →
      lmulOutMem a visits aflat lflat a.nelem addr pre strides fresh mem (addr + address strides idx + (j : ℕ)) = aflat (ravel pre idx) j) ∧
    ∀ x, (∀ k < pre.prod, ∀ j < a.nelem, addr + t * (k : ℕ) + (j : ℕ) ≠ x) → lmulOutMem a visits aflat lflat a.nelem addr pre strides fresh mem x = mem x := by
  set n := a.nelem with hn
  have hd : ∀ k k' : ℕ, k ≠ k' → ∀ j < n, ∀ j' < n, addr + t * (k : ℕ) + (j : ℤ) ≠ addr + t * (k' : ℕ) + (j' : ℤ) := by
    intro k k' hk j hj j' hj' e
    have h1 : t * ((k : ℤ) - k') = (j' : ℤ) - j := by linarith
    have h2 : |t| * |(k : ℤ) - k'| = |(j' : ℤ) - j| := by rw [← abs_mul, h1]
    have h3 : 1 ≤ |(k : ℤ) - k'| := Int.one_le_abs (by omega)
    have h4 : |(j' : ℤ) - j| < n := by rw [abs_lt]; omega
    have h5 : |t| * 1 ≤ |t| * |(k : ℤ) - k'| := mul_le_mul_of_nonneg_left h3 (abs_nonneg t)
    linarith
  have hat : outRowAddr addr pre strides n fresh = fun k : ℕ => addr + t * (k : ℤ) := by unfold outRowAddr; rw [ht]
  set l0 := (List.range pre.prod).flatMap fun (k : ℕ) => (List.range n).map fun (j : ℕ) => (addr + t * (k : ℤ) + (j : ℤ), aflat k j) with hl0
  have hnd : (l0.map Prod.fst).Nodup := by
    rw [hl0, List.map_flatMap, List.nodup_flatMap]
    constructor
    · intro k _
      rw [List.map_map]
      apply List.Nodup.map_on _ List.nodup_range
      intro a _ b _ e
      simp only [Function.comp] at e
      omega
    · refine List.nodup_range.imp ?_
      intro k k' hk x hx hx'
      simp only [List.map_map, List.mem_map, List.mem_range, Function.comp] at hx hx'
      obtain ⟨j, hj, rfl⟩ := hx
      obtain ⟨j', hj', e⟩ := hx'
      exact hd k' k (fun h => hk h.symm) j' hj' j hj e
  have hp1 : ∀ k < pre.prod, ∀ j < n, pokes mem l0 (addr + t * (k : ℤ) + (j : ℤ)) = aflat k j := by
    intro k hk j hj
    apply pokes_mem _ _ hnd
    exact List.mem_flatMap.2 ⟨k, List.mem_range.2 hk, List.mem_map.2 ⟨j, List.mem_range.2 hj, rfl⟩⟩
  have hp2 : ∀ x, (∀ k < pre.prod, ∀ j < n, addr + t * (k : ℤ) + (j : ℤ) ≠ x) → pokes mem l0 x = mem x := by
    intro x hx
    apply pokes_other
    intro p hp
    obtain ⟨k, hk, hp⟩ := List.mem_flatMap.1 hp
    obtain ⟨j, hj, rfl⟩ := List.mem_map.1 hp
    exact hx k (List.mem_range.1 hk) j (List.mem_range.1 hj)
  obtain ⟨h1, h2⟩ := lmul_rows a lflat visits n (fun k : ℕ => addr + t * (k : ℤ)) pre.prod (fun k _ k' _ hk j hj j' hj' => hd k k' hk j hj j' hj') (pokes mem l0) pre.prod (le_refl _)
  have hdef : lmulOutMem a visits aflat lflat n addr pre strides fresh mem =
      (List.range pre.prod).foldl (fun mem k => lmulRowMem a (lflat k) (visits k) n mem (addr + t * (k : ℤ))) (pokes mem l0) := by
    unfold lmulOutMem
    rw [hat]
  rw [hdef]
  refine ⟨?_, ?_, ?_⟩
  · intro idx hi l m b c d
    have hk := ravel_lt hi
    have hj := ha.1 l m b c d
    rw [flat_address pre strides t idx hl ht hi]
    obtain ⟨mm, e1, e2⟩ := h1 _ hk _ hj
    rw [e2, if_pos hk, (C50_lmul a ha hs _ _ _ (hv _)).1 l m b c d]
    congr 1
    rw [← hp1 _ hk _ hj, ← e1 _ hj]
    simp [viewRow]
  · intro idx hi j hj hne
    have hk := ravel_lt hi
    rw [flat_address pre strides t idx hl ht hi]
    obtain ⟨mm, e1, e2⟩ := h1 _ hk _ hj
    rw [e2, if_pos hk, (C50_lmul a ha hs _ _ _ (hv _)).2 j hne]
    rw [← hp1 _ hk _ hj, ← e1 _ hj]
    simp [viewRow]
  · intro x hx
    rw [h2 x hx, hp2 x hx]

/-- C155, lmul into `out`, fails for every out whose axes before the last cannot be joined: `out.reshape` copies it, the result goes to the copy, and out keeps what it had. -/
theorem C155_lmul_out_refuted [Zero K] [SMul K V] (a : AlmInfo) (visits : ℕ → List (ℕ × ℕ)) (aflat : ℕ → ℕ → V) (lflat : ℕ → List K) (n : ℕ) (addr : ℤ) (pre : List ℕ)
    (strides : List ℤ) (fresh : ℤ) (mem : ℤ → V) (hf : flatStride pre strides = none)
    (x : ℤ) (hfree : ∀ k < pre.prod, ∀ j < n, fresh + (n : ℤ) * (k : ℕ) + (j : ℕ) ≠ x) : lmulOutMem a visits aflat lflat n addr pre strides fresh mem x = mem x := by
  have hat : outRowAddr addr pre strides n fresh = fun k : ℕ => fresh + (n : ℤ) * (k : ℤ) := by unfold outRowAddr; rw [hf]
  unfold lmulOutMem
  rw [hat]
  simp only
  have : ∀ (q : ℕ) (mem : ℤ → V), q ≤ pre.prod → (List.range q).foldl (fun mem k => lmulRowMem a (lflat k) (visits k) n mem (fresh + (n : ℤ) * (k : ℤ))) mem x = mem x := by
    intro q
    induction q with
    | zero => intro _ _; rfl
    | succ q ih =>
      intro mem hq
      rw [List.range_succ, List.foldl_append, List.foldl_cons, List.foldl_nil, lmulRow_other _ _ _ _ _ _ _ (fun j hj => hfree q (by omega) j hj), ih _ (by omega)]
  rw [this _ _ (le_refl _)]
  apply pokes_other
  intro p hp
  obtain ⟨k, hk, hp⟩ := List.mem_flatMap.1 hp
  obtain ⟨j, hj, rfl⟩ := List.mem_map.1 hp
  exact hfree k (List.mem_range.1 hk) j (List.mem_range.1 hj)

/-- Two by two alms of two coefficients, in an array of two by three: `out[:,:2]` stays as it was. In an array of two by two the result arrives. -/
example : let a : AlmInfo := ⟨1, 0, 1, 2, fun _ => 0⟩
    flatStride [2, 2] [6, 2] = none ∧ flatStride [2, 2] [4, 2] = some 2 ∧
    ([0, 1, 2, 3, 6, 7, 8, 9].map (lmulOutMem a (fun _ => [(0, 1), (0, 0)]) (fun k j => ((k + j : ℕ) : ℚ)) (fun _ => [(3 : ℚ), 10]) 2 0 [2, 2] [6, 2] 100 fun _ => -1)) = List.replicate 8 (-1) ∧
    ([0, 1, 2, 3, 4, 5, 6, 7].map (lmulOutMem a (fun _ => [(0, 1), (0, 0)]) (fun k j => ((k + j : ℕ) : ℚ)) (fun _ => [(3 : ℚ), 10]) 2 0 [2, 2] [4, 2] 100 fun _ => -1)) = [0, 10, 3, 20, 6, 30, 9, 40] := by
  decide +kernel

/-- C155, lmul into `out`, fails for an out of single precision with alms of double precision, if its last axis is contiguous: it is not rejected, and the C routine, which is told to work with doubles, writes past the end of the row
of `n` numbers of eight bytes: there is a coefficient whose bytes end behind it, whatever the layout. -/
theorem C155_out_dtype_refuted (a : AlmInfo) (hs : a.stride = 1) (h : ∃ l m, m ≤ a.mmax ∧ m ≤ l ∧ l ≤ a.lmax ∧ a.nelem = a.lm2ind l m + 1) :
    lmulOutRejected true false = false ∧ ∃ l m, m ≤ a.mmax ∧ m ≤ l ∧ l ≤ a.lmax ∧ a.nelem * 8 < lmulLastByte a 8 l m := by
  obtain ⟨l, m, b, c, d, e⟩ := h
  refine ⟨rfl, l, m, b, c, d, ?_⟩
  unfold lmulLastByte
  rw [e]
  simp only [AlmInfo.lm2ind, AlmInfo.cind, hs]
  omega

/-- The default layout for lmax = 2 has its last coefficient at the end. -/
example : ∃ l m, m ≤ 2 ∧ m ≤ l ∧ l ≤ 2 ∧ 6 = (⟨2, 2, 1, 6, fun m => m * (5 - m) / 2⟩ : AlmInfo).lm2ind l m + 1 := ⟨2, 2, by decide⟩

/-! ### Filters -/

/-- C155, filtering by a function: every coefficient (l,m) is multiplied by the value of the function at l, and filtering by two functions one after the other is filtering by their product. -/
theorem C155_filter [MonoidWithZero K] [MulAction K V] (a : AlmInfo) (ha : GoodLayout a) (hs : a.stride = 1) (f g : ℕ → K) (alm : ℕ → V)
    (v1 v2 v3 : List (ℕ × ℕ)) (h1 : v1.Perm (lmPairs a.lmax a.mmax)) (h2 : v2.Perm (lmPairs a.lmax a.mmax)) (h3 : v3.Perm (lmPairs a.lmax a.mmax)) :
    (∀ l m, m ≤ a.mmax → m ≤ l → l ≤ a.lmax → almxflFun a f v1 alm (a.lm2ind l m) = f l • alm (a.lm2ind l m)) ∧
    almxflFun a g v2 (almxflFun a f v1 alm) = almxflFun a (fun l => g l * f l) v3 alm := by
  have key : ∀ (f : ℕ → K) (v : List (ℕ × ℕ)) (alm : ℕ → V), v.Perm (lmPairs a.lmax a.mmax) → ∀ l m, m ≤ a.mmax → m ≤ l → l ≤ a.lmax →
      almxflFun a f v alm (a.lm2ind l m) = f l • alm (a.lm2ind l m) := by
    intro f v alm hv l m b c d
    unfold almxflFun
    rw [(C50_lmul a ha hs _ alm v hv).1 l m b c d]
    congr 1
    rw [List.getD_eq_getElem?_getD, List.getElem?_map, List.getElem?_range (by omega)]
    rfl
  refine ⟨key f v1 alm h1, ?_⟩
  funext j
  by_cases hj : ∃ l m, m ≤ a.mmax ∧ m ≤ l ∧ l ≤ a.lmax ∧ a.lm2ind l m = j
  · obtain ⟨l, m, b, c, d, rfl⟩ := hj
    rw [key g v2 _ h2 l m b c d, key f v1 _ h1 l m b c d, key _ v3 _ h3 l m b c d, smul_smul]
  · have hj' : ∀ l m, m ≤ a.mmax → m ≤ l → l ≤ a.lmax → a.lm2ind l m ≠ j := fun l m b c d e => hj ⟨l, m, b, c, d, e⟩
    unfold almxflFun
    rw [(C50_lmul a ha hs _ _ v2 h2).2 j hj', (C50_lmul a ha hs _ _ v1 h1).2 j hj', (C50_lmul a ha hs _ _ v3 h3).2 j hj']

example : ((List.range 6).map (almxflFun ⟨2, 2, 1, 6, fun m => m * (5 - m) / 2⟩ (fun l => ((l + 1 : ℕ) : ℤ)) (lmPairs 2 2) fun i => (i : ℤ))) = [0, 2, 6, 6, 12, 15] := by
  decide +kernel

end Pixell
