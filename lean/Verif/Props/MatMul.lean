import Verif.Model.MatMul
import Verif.Props.Axes
import Mathlib.Tactic.Linarith
import Mathlib.Tactic.Ring

/-
Property C191: products of small matrices along chosen axes.
-/
namespace Pixell

/-- What partial_expand returns for any array of a fitting shape: `out` is the shape with the listed axes changed. -/
theorem partialExpand_spec {α : Type} (f : Nd α) (shape out : List Nat) (axes : List ℤ) (pos : ℤ) (A : List Nat) (p : Nat)
    (hA : normAxes shape.length axes = some A) (hp : normAxes (axes.length + 1) [pos] = some [p])
    (hl : out.length = shape.length)
    (ho : atAxes (otherAxes shape.length A) out = atAxes (otherAxes shape.length A) shape)
    (hfs : f.shape = (atAxes A out).insertIdx p (atAxes (otherAxes shape.length A) shape).prod) :
    ∃ b, partialExpand f shape axes pos = some b ∧ b.shape = out ∧
      ∀ idx, InShape out idx → b.get idx = f.get ((atAxes A idx).insertIdx p
          (ravel (atAxes (otherAxes shape.length A) shape) (atAxes (otherAxes shape.length A) idx))) := by
  obtain ⟨hmod, hnd, hlt, hlen⟩ := normAxes_spec hA
  obtain ⟨_, _, hplt, _⟩ := normAxes_spec hp
  have hp' : p ≤ axes.length := by have := hplt p (by simp); omega
  set n := shape.length with hn
  set rest := otherAxes n A with hrest
  set ks := atAxes A out with hks
  set rs := atAxes rest shape with hrs
  have hkl : ks.length = axes.length := by simp [hks, atAxes, hlen]
  have hAn : A.length ≤ n := by
    have : A.Subperm (List.range n) := List.subperm_of_subset hnd (by intro x hx; simpa using hlt x hx)
    simpa using this.length_le
  have hperm : (A ++ rest).Perm (List.range n) := moveOrder_front_perm n A hnd hlt
  have hrl : A.length + rest.length = n := by simpa using hperm.length_eq
  have hfl : f.shape.length = axes.length + 1 := by
    rw [hfs, List.length_insertIdx_of_le_length (by omega), hkl]
  set order4 := List.range p ++ List.range' (p + 1) (axes.length - p) ++ [p] with ho4
  have s1 : f.moveaxes [pos] [-1] = some (f.transpose order4) := by
    unfold Nd.moveaxes
    rw [hfl, normAxes_last, hp]
    simp [moveOrder_to_last _ _ hp', ho4]
  have hshape1 : (f.transpose order4).shape = ks ++ [rs.prod] := by
    unfold Nd.transpose
    simp only [hfs]
    have := insertIdx_getD ks rs.prod p (by omega)
    rw [hkl] at this
    exact this
  set c : Nd α := ⟨ks ++ rs, fun idx => (f.transpose order4).get (unravel (f.transpose order4).shape (ravel (ks ++ rs) idx))⟩ with hc
  have s2 : (f.transpose order4).reshape (ks ++ rs) = some c := by
    unfold Nd.reshape
    rw [if_pos]
    rw [hshape1]; simp [List.prod_append]
  have hcl : c.shape.length = n := by simp [hc, hks, hrs, atAxes, hrl]
  set order2 := moveOrder n (List.range A.length) A with ho2
  have s3 : c.moveaxes ((List.range axes.length).map fun (i : Nat) => (i : ℤ)) (A.map fun (i : Nat) => (i : ℤ)) =
      some (c.transpose order2) := by
    unfold Nd.moveaxes
    rw [hcl, normAxes_nat A hnd hlt, normAxes_nat (List.range axes.length) List.nodup_range (by
      intro x hx; have : x < axes.length := by simpa using hx
      omega)]
    simp [hlen, ho2]
  have hback2 : order2.map (fun j => (A ++ rest).getD j 0) = List.range n := moveOrder_back n A hnd hlt
  have hp2 : order2.Perm (List.range n) := moveOrder_back_perm n A hnd hlt
  have hj : ∀ j ∈ order2, j < (A ++ rest).length := by
    intro j hj
    have : j < n := by simpa using hp2.mem_iff.1 hj
    simp only [List.length_append]; omega
  have hround : ∀ idx : List Nat, idx.length = n →
      order2.map (fun j => (atAxes A idx ++ atAxes rest idx).getD j 0) = idx := by
    intro idx hidx
    have e : atAxes A idx ++ atAxes rest idx = (A ++ rest).map fun ax => idx.getD ax 0 := by simp [atAxes]
    rw [e, comp_map _ _ _ hj, hback2, ← hidx, map_getD_range]
  refine ⟨c.transpose order2, ?_, ?_, ?_⟩
  · unfold partialExpand
    rw [s1]
    simp only [Option.bind_eq_bind, Option.bind_some]
    rw [← hn, ← hmod]
    have e1 : (f.transpose order4).shape.take axes.length = ks := by rw [hshape1, ← hkl]; simp
    have e2 : ((List.range n).filter fun n => decide (n ∉ A)).map (fun (m : Nat) => shape.getD m 0) = rs := rfl
    rw [e1, e2, s2]
    simp only [Option.bind_some]
    exact s3
  · unfold Nd.transpose
    simp only [hc]
    rw [← ho]
    exact hround out hl
  · intro idx hidx
    have h1 : InShape ks (atAxes A idx) := hidx.select A (by rw [hl]; exact hlt)
    have h2 : InShape rs (atAxes rest idx) := by
      rw [← ho]
      exact hidx.select rest (by
        intro x hx; have := hperm.mem_iff.1 (List.mem_append_right A hx); rw [hl]; simpa using this)
    obtain ⟨r1, r2, r3⟩ := reshape_index h1 h2
    have e := hround idx (hidx.length.trans hl)
    have t := transpose_get c order2 (atAxes A idx ++ atAxes rest idx) (by rw [hcl]; exact hp2) (by
      rw [hcl]; simp [atAxes, hrl])
    rw [e] at t
    rw [t]
    simp only [hc]
    rw [← r1, hshape1, unravel_ravel r2]
    have hkept : (atAxes A idx).length = axes.length := by simp [atAxes, hlen]
    have e4 := insertIdx_getD (atAxes A idx) (ravel rs (atAxes rest idx)) p (by omega)
    rw [hkept] at e4
    have t4 := transpose_get f order4 ((atAxes A idx).insertIdx p (ravel rs (atAxes rest idx))) (by
        rw [hfl]
        refine perm_range_of ?_ ?_ ?_
        · rw [ho4, List.nodup_append, List.nodup_append]
          refine ⟨⟨List.nodup_range, List.nodup_range', ?_⟩, by simp, ?_⟩
          · intro x hx y hy
            have : x < p := by simpa using hx
            have := (List.mem_range'_1.1 hy).1
            omega
          · intro x hx y hy
            have hy : y = p := by simpa using hy
            rcases List.mem_append.1 hx with hx | hx
            · have : x < p := by simpa using hx
              omega
            · have := (List.mem_range'_1.1 hx).1
              omega
        · simp [ho4]; omega
        · intro x hx
          simp only [ho4, List.mem_append, List.mem_range, List.mem_singleton] at hx
          rcases hx with (hx | hx) | hx
          · omega
          · have := (List.mem_range'_1.1 hx).2; omega
          · omega)
      (by rw [hfl, List.length_insertIdx_of_le_length (by omega), hkept])
    rw [e4] at t4
    exact t4

/-! ### Axes of the two arrays -/

theorem matAxes_first {na nb : Nat} {axes : List ℤ} {A : List Nat} (h : normAxes na axes = some A) :
    (matAxes na nb axes).1 = A.map fun (i : Nat) => (i : ℤ) := by
  unfold normAxes at h
  simp only at h
  split at h
  case isTrue hc =>
    simp only [Option.some.injEq] at h
    subst h
    simp only [matAxes, List.map_map]
    apply List.map_congr_left
    intro a ha
    have := hc.1 _ (List.mem_map.2 ⟨a, ha, rfl⟩)
    simp only [Function.comp]
    split at this <;> split <;> omega
  case isFalse => cases h

theorem matAxes_second (na nb : Nat) (axes : List ℤ) :
    (matAxes na nb axes).2 = (matAxes na nb axes).1.take
      (if ((matAxes na nb axes).1.length : ℤ) - ((na : ℤ) - nb) < 0
        then ((matAxes na nb axes).1.length : ℤ) - ((na : ℤ) - nb) + (matAxes na nb axes).1.length
        else ((matAxes na nb axes).1.length : ℤ) - ((na : ℤ) - nb)).toNat := rfl

theorem atAxes_set (A : List Nat) (l : List Nat) (r x : Nat) (h : r ∉ A) : atAxes A (l.set r x) = atAxes A l := by
  unfold atAxes
  apply List.map_congr_left
  intro a ha
  have : r ≠ a := fun e => h (e ▸ ha)
  simp [List.getElem?_set_ne this]

theorem otherAxes_two (r c d : Nat) (hrc : r < c) :
    otherAxes (c + d + 1) [r, c] = (otherAxes (c + d) [r]).map fun i => if i < c then i else i + 1 := by
  unfold otherAxes
  rw [show c + d + 1 = (c + 1) + d by omega, (List.range_add : List.range (c + 1 + d) = _), (List.range_add : List.range (c + d) = _),
    List.range_succ]
  simp only [List.filter_append, List.map_append]
  have e1 : (List.range c).filter (fun x => decide (x ∉ [r, c])) = (List.range c).filter fun x => decide (x ∉ [r]) := by
    apply List.filter_congr
    intro x hx
    have : x < c := by simpa using hx
    have : x ≠ c := by omega
    simp [this]
  have e2 : ((List.range c).filter fun x => decide (x ∉ [r])).map (fun i => if i < c then i else i + 1) =
      (List.range c).filter fun x => decide (x ∉ [r]) := by
    conv_rhs => rw [← List.map_id ((List.range c).filter fun x => decide (x ∉ [r]))]
    apply List.map_congr_left
    intro x hx
    have : x < c := by simpa using (List.mem_filter.1 hx).1
    simp [this]
  have e3 : ((List.range d).map fun x => c + 1 + x).filter (fun x => decide (x ∉ [r, c])) = (List.range d).map fun x => c + 1 + x := by
    apply List.filter_eq_self.2
    intro x hx
    obtain ⟨y, _, rfl⟩ := List.mem_map.1 hx
    simp; omega
  have e4 : ((List.range d).map fun x => c + x).filter (fun x => decide (x ∉ [r])) = (List.range d).map fun x => c + x := by
    apply List.filter_eq_self.2
    intro x hx
    obtain ⟨y, _, rfl⟩ := List.mem_map.1 hx
    simp; omega
  have e5 : [c].filter (fun x => decide (x ∉ [r, c])) = [] := by simp
  rw [e1, e2, e3, e4, e5, List.append_nil, List.map_map]
  congr 1
  apply List.map_congr_left
  intro x _
  simp; omega

theorem other_insert (n r c x : Nat) (hrc : r < c) (hc : c ≤ n) (l : List Nat) (hl : l.length = n) :
    atAxes (otherAxes (n + 1) [r, c]) (l.insertIdx c x) = atAxes (otherAxes n [r]) l := by
  obtain ⟨d, rfl⟩ : ∃ d, n = c + d := ⟨n - c, by omega⟩
  rw [otherAxes_two r c d hrc]
  unfold atAxes
  rw [List.map_map]
  apply List.map_congr_left
  intro i hi
  simp only [Function.comp, List.getD_eq_getElem?_getD]
  split
  case isTrue h => rw [List.getElem?_insertIdx_of_lt h]
  case isFalse h => rw [List.getElem?_insertIdx_of_gt (by omega)]; simp

theorem norm_zero (k : Nat) : normAxes (k + 1) [0] = some [0] := by unfold normAxes; simp

theorem InShape.setAt {s idx : List Nat} (h : InShape s idx) (r x n : Nat) (hx : x < n) :
    InShape (s.set r n) (idx.set r x) := by
  unfold InShape at *
  rw [List.forall₂_iff_get] at *
  refine ⟨by simpa using h.1, ?_⟩
  intro i h1 h2
  simp only [List.get_eq_getElem, List.getElem_set]
  split
  · exact hx
  · exact h.2 i (by simpa using h1) (by simpa using h2)

theorem InShape.insertAt {s idx : List Nat} (h : InShape s idx) (c x n : Nat) (hx : x < n) :
    InShape (s.insertIdx c n) (idx.insertIdx c x) := by
  induction c generalizing s idx with
  | zero => exact List.Forall₂.cons hx h
  | succ c ih =>
    cases h with
    | nil => exact List.Forall₂.nil
    | cons h1 h2 => exact List.Forall₂.cons h1 (ih h2)

theorem getD_insert_self (l : List Nat) (c x : Nat) (h : c ≤ l.length) : (l.insertIdx c x).getD c 0 = x := by
  rw [List.getD_eq_getElem?_getD, List.getElem?_insertIdx_self]
  simp [h]

theorem getD_insert_lt (l : List Nat) (r c x : Nat) (h : r < c) : (l.insertIdx c x).getD r 0 = l.getD r 0 := by
  simp only [List.getD_eq_getElem?_getD]
  rw [List.getElem?_insertIdx_of_lt h]

theorem getD_set_self (l : List Nat) (r x : Nat) (h : r < l.length) : (l.set r x).getD r 0 = x := by
  simp [h]

theorem set_set_getD (l : List Nat) (r x : Nat) : (l.set r x).set r (l.getD r 0) = l := by
  rw [List.set_set]
  by_cases h : r < l.length
  · simp [h]
  · rw [List.set_eq_of_length_le (by omega)]

theorem not_mem_other (n r : Nat) (A : List Nat) (h : r ∈ A) : r ∉ otherAxes n A := by
  intro hm
  have := (List.mem_filter.1 hm).2
  simp [h] at this

/-- The two flattened arrays of a stack of matrices and a stack of vectors. -/
theorem flat_vector (A B : Nd ℚ) (axes : List ℤ) (r c : Nat) (hrc : r < c)
    (hax : normAxes A.shape.length axes = some [r, c]) (n k : Nat) (hn : 0 < n) (hk : 0 < k)
    (hB : B.shape.length + 1 = A.shape.length) (hBk : B.shape.getD r 0 = k)
    (hA : A.shape = (B.shape.set r n).insertIdx c k) :
    ∃ M Af Bf rs, (matAxes A.shape.length B.shape.length axes).2 = [(r : ℤ)] ∧
      rs = atAxes (otherAxes B.shape.length [r]) B.shape ∧ M = rs.prod ∧
      normAxes B.shape.length [(r : ℤ)] = some [r] ∧
      partialFlatten A (matAxes A.shape.length B.shape.length axes).1 0 = some Af ∧
      partialFlatten B [(r : ℤ)] 0 = some Bf ∧ Af.shape = [M, n, k] ∧ Bf.shape = [M, k] ∧
      ∀ idx, InShape (B.shape.set r n) idx →
        ravel rs (atAxes (otherAxes B.shape.length [r]) idx) < M ∧ ∀ j < k,
          (∀ i < n, Af.get [ravel rs (atAxes (otherAxes B.shape.length [r]) idx), i, j] = A.get ((idx.set r i).insertIdx c j)) ∧
          Bf.get [ravel rs (atAxes (otherAxes B.shape.length [r]) idx), j] = B.get (idx.set r j) := by
  obtain ⟨_, hnd, hlt, hlen⟩ := normAxes_spec hax
  have hr : r < B.shape.length := by have := hlt c (by simp); omega
  have hc : c ≤ B.shape.length := by have := hlt c (by simp); omega
  have h1 := matAxes_first (nb := B.shape.length) hax
  have h2 : (matAxes A.shape.length B.shape.length axes).2 = [(r : ℤ)] := by
    rw [matAxes_second, h1, ← hB]
    simp
  have hother : ∀ l : List Nat, l.length = B.shape.length → ∀ x,
      atAxes (otherAxes A.shape.length [r, c]) (l.insertIdx c x) = atAxes (otherAxes B.shape.length [r]) l := by
    intro l hl x
    rw [← hB]
    exact other_insert _ r c x hrc hc l hl
  have hrs : atAxes (otherAxes A.shape.length [r, c]) A.shape = atAxes (otherAxes B.shape.length [r]) B.shape := by
    conv_lhs => rw [hA, ← hA]
    rw [show atAxes (otherAxes A.shape.length [r, c]) A.shape =
      atAxes (otherAxes A.shape.length [r, c]) ((B.shape.set r n).insertIdx c k) from congrArg _ hA]
    rw [hother _ (by simp), atAxes_set _ _ _ _ (not_mem_other _ _ _ (by simp))]
  have hAt : atAxes [r, c] A.shape = [n, k] := by
    rw [hA]
    simp only [atAxes, List.map_cons, List.map_nil]
    rw [getD_insert_lt _ _ _ _ hrc, getD_set_self _ _ _ hr, getD_insert_self _ _ _ (by simpa using hc)]
  have nA : normAxes A.shape.length ([r, c].map fun (i : Nat) => (i : ℤ)) = some [r, c] := normAxes_nat _ hnd hlt
  have nB : normAxes B.shape.length [(r : ℤ)] = some [r] := normAxes_nat [r] (by simp) (by simpa using hr)
  obtain ⟨Af, hAf, hAs, hAg⟩ := C77_flatten A _ 0 [r, c] 0 nA (norm_zero _) (by rw [hAt]; simp; omega)
  obtain ⟨Bf, hBf, hBs, hBg⟩ := C77_flatten B [(r : ℤ)] 0 [r] 0 nB (norm_zero _) (by
    simp only [atAxes, List.map_cons, List.map_nil, hBk]; simp; omega)
  rw [hrs, hAt] at hAs
  simp only [atAxes, List.map_cons, List.map_nil, hBk] at hBs
  refine ⟨_, Af, Bf, _, h2, rfl, rfl, nB, by rw [h1]; exact hAf, hBf, by simpa using hAs, by simpa [atAxes] using hBs, ?_⟩
  intro idx hidx
  have hil : idx.length = B.shape.length := by simpa using hidx.length
  have hset : ∀ j < k, InShape B.shape (idx.set r j) := by
    intro j hj
    have := hidx.setAt r j k hj
    rw [List.set_set] at this
    have e : B.shape.set r k = B.shape := by rw [← hBk]; simp [hr]
    rwa [e] at this
  refine ⟨?_, ?_⟩
  · have := ravel_lt ((hset 0 hk).select (otherAxes B.shape.length [r]) (by
      intro b hb; simpa using (List.mem_filter.1 hb).1))
    change ravel _ (atAxes _ _) < (atAxes _ _).prod at this
    rwa [atAxes_set _ _ _ _ (not_mem_other _ _ _ (by simp))] at this
  · intro j hj
    refine ⟨?_, ?_⟩
    · intro i hi
      have hin : InShape A.shape ((idx.set r i).insertIdx c j) := by
        rw [hA]
        have := (hidx.setAt r i n hi).insertAt c j k hj
        rwa [List.set_set] at this
      have := hAg _ hin
      rw [hrs, hother _ (by simpa using hil), atAxes_set _ _ _ _ (not_mem_other _ _ _ (by simp))] at this
      simp only [atAxes, List.map_cons, List.map_nil] at this
      rw [getD_insert_lt _ _ _ _ hrc, getD_set_self _ _ _ (by omega), getD_insert_self _ _ _ (by simp; omega)] at this
      simpa [atAxes] using this
    · have := hBg _ (hset j hj)
      rw [atAxes_set _ _ _ _ (not_mem_other _ _ _ (by simp))] at this
      simp only [atAxes, List.map_cons, List.map_nil] at this
      rw [getD_set_self _ _ _ (by omega)] at this
      simpa [atAxes] using this

/-- C191: the product of a stack of matrices and a stack of vectors.  The matrices are along any two axes `r < c` of the
first array; the second has the same axes but `c`, and its vectors are along `r`.  Every vector of the result is the
matrix at the same place times the vector there. -/
theorem C191_vector (A B : Nd ℚ) (axes : List ℤ) (junk : List Nat → ℚ) (r c : Nat) (hrc : r < c)
    (hax : normAxes A.shape.length axes = some [r, c]) (n k : Nat) (hn : 0 < n) (hk : 0 < k)
    (hB : B.shape.length + 1 = A.shape.length) (hBk : B.shape.getD r 0 = k)
    (hA : A.shape = (B.shape.set r n).insertIdx c k) :
    ∃ X, arrMatmul A B axes junk = some X ∧ X.shape = B.shape.set r n ∧
      ∀ idx, InShape (B.shape.set r n) idx →
        X.get idx = ∑ j ∈ Finset.range k, A.get (idx.insertIdx c j) * B.get (idx.set r j) := by
  obtain ⟨M, Af, Bf, rs, h2, hrs, hM, nB, hAf, hBf, hAs, hBs, hg⟩ := flat_vector A B axes r c hrc hax n k hn hk hB hBk hA
  have hr : r < B.shape.length := by have := (normAxes_spec nB).2.2.1 r (by simp); exact this
  set Xf : Nd ℚ := ⟨[M, 1, n], fun idx =>
        if idx.getD 0 0 < M then
          ∑ j ∈ Finset.range k, Af.get [idx.getD 0 0, idx.getD 2 0, j] * Bf.addMid.get [idx.getD 0 0, idx.getD 1 0, j]
        else junk idx⟩ with hXf
  have hcore : matmulFlat Af Bf.addMid junk = some Xf := by
    have : Bf.addMid.shape = [M, 1, k] := by simp [Nd.addMid, hBs]
    simp [matmulFlat, hAs, this, hXf]
  obtain ⟨X, hX, hXs, hXg⟩ := partialExpand_spec Xf.dropMid B.shape (B.shape.set r n) [(r : ℤ)] 0 [r] 0 nB (norm_zero _)
    (by simp) (atAxes_set _ _ _ _ (not_mem_other _ _ _ (by simp))) (by
      simp only [atAxes, List.map_cons, List.map_nil]
      rw [getD_set_self _ _ _ hr]
      simp only [Nd.dropMid, hXf, List.eraseIdx_cons_succ, List.eraseIdx_cons_zero, List.insertIdx_zero, hM, hrs]
      rfl)
  refine ⟨X, ?_, hXs, ?_⟩
  · unfold arrMatmul matFrame
    simp only [hAf, h2, hBf, Option.bind_eq_bind, Option.bind_some, hBs]
    simp only [List.length_cons, List.length_nil, Nat.reduceAdd, if_true, hcore, Option.bind_some]
    exact hX
  · intro idx hidx
    obtain ⟨hq, hj⟩ := hg idx hidx
    rw [hXg idx hidx, ← hrs]
    simp only [atAxes, List.map_cons, List.map_nil, List.insertIdx_zero]
    simp only [atAxes] at hq hj
    simp only [Nd.dropMid, hXf, List.insertIdx_succ_cons, List.insertIdx_zero, List.getD_cons_zero, List.getD_cons_succ, hq, if_true,
      Nd.addMid, List.eraseIdx_cons_succ, List.eraseIdx_cons_zero]
    apply Finset.sum_congr rfl
    intro j hjk
    have hjk : j < k := by simpa using hjk
    have hi : idx.getD r 0 < n := by
      have := hidx.get (n := r) (by simpa using hr)
      rwa [getD_set_self _ _ _ hr] at this
    rw [(hj j hjk).1 _ hi, (hj j hjk).2]
    have e : idx.set r (idx.getD r 0) = idx := by
      have := set_set_getD idx r 0
      rwa [List.set_set] at this
    rw [e]

example : (arrMatmul ⟨[2, 2, 3], fun i => i.sum⟩ ⟨[2, 3], fun i => i.sum + 1⟩ [-2, -1] (fun _ => 9)).map
    (fun X => (X.shape, X.get [0, 1], X.get [1, 0])) = some ([2, 2], 14, 20) := by decide +kernel
example : (arrMatmul ⟨[2, 5, 3], fun i => i.sum⟩ ⟨[3, 5], fun i => i.sum + 1⟩ [0, 2] (fun _ => 9)).map
    (fun X => (X.shape, X.get [1, 4])) = some ([2, 5], 110) := by decide +kernel

/-- C191, matmul_sym on a stack of vectors: each vector is multiplied by the transposed matrix.  For symmetric matrices
this is the product. -/
theorem C191_sym (A B : Nd ℚ) (axes : List ℤ) (r c : Nat) (hrc : r < c)
    (hax : normAxes A.shape.length axes = some [r, c]) (n : Nat) (hn : 0 < n)
    (hB : B.shape.length + 1 = A.shape.length) (hBk : B.shape.getD r 0 = n)
    (hA : A.shape = (B.shape.set r n).insertIdx c n) :
    ∃ X, arrMatmulSym A B axes = some X ∧ X.shape = B.shape ∧
      ∀ idx, InShape B.shape idx →
        X.get idx = ∑ j ∈ Finset.range n, A.get ((idx.set r j).insertIdx c (idx.getD r 0)) * B.get (idx.set r j) ∧
        ((∀ i < n, ∀ j < n, A.get ((idx.set r j).insertIdx c i) = A.get ((idx.set r i).insertIdx c j)) →
          X.get idx = ∑ j ∈ Finset.range n, A.get (idx.insertIdx c j) * B.get (idx.set r j)) := by
  obtain ⟨M, Af, Bf, rs, h2, hrs, hM, nB, hAf, hBf, hAs, hBs, hg⟩ := flat_vector A B axes r c hrc hax n n hn hn hB hBk hA
  have hr : r < B.shape.length := by have := (normAxes_spec nB).2.2.1 r (by simp); exact this
  have hsame : B.shape.set r n = B.shape := by rw [← hBk]; simp [hr]
  rw [hsame] at hg
  set Xf : Nd ℚ := ⟨[M, 1, n], fun idx =>
        if idx.getD 0 0 < M then
          ∑ j ∈ Finset.range n, Af.get [idx.getD 0 0, j, idx.getD 2 0] * Bf.addMid.get [idx.getD 0 0, idx.getD 1 0, j]
        else Bf.addMid.get idx⟩ with hXf
  have hcore : matmulSymFlat Af Bf.addMid = some Xf := by
    have : Bf.addMid.shape = [M, 1, n] := by simp [Nd.addMid, hBs]
    simp [matmulSymFlat, hAs, this, hXf]
  obtain ⟨X, hX, hXs, hXg⟩ := partialExpand_spec Xf.dropMid B.shape B.shape [(r : ℤ)] 0 [r] 0 nB (norm_zero _)
    rfl rfl (by
      simp only [atAxes, List.map_cons, List.map_nil]
      rw [hBk]
      simp only [Nd.dropMid, hXf, List.eraseIdx_cons_succ, List.eraseIdx_cons_zero, List.insertIdx_zero, hM, hrs]
      rfl)
  refine ⟨X, ?_, hXs, ?_⟩
  · unfold arrMatmulSym matFrame
    simp only [hAf, h2, hBf, Option.bind_eq_bind, Option.bind_some, hBs]
    simp only [List.length_cons, List.length_nil, Nat.reduceAdd, if_true, hcore, Option.bind_some]
    exact hX
  · intro idx hidx
    obtain ⟨hq, hj⟩ := hg idx hidx
    have hi : idx.getD r 0 < n := by
      have := hidx.get (n := r) hr
      rwa [hBk] at this
    have e : idx.set r (idx.getD r 0) = idx := by
      have := set_set_getD idx r 0
      rwa [List.set_set] at this
    have main : X.get idx = ∑ j ∈ Finset.range n, A.get ((idx.set r j).insertIdx c (idx.getD r 0)) * B.get (idx.set r j) := by
      rw [hXg idx hidx, ← hrs]
      simp only [atAxes, List.map_cons, List.map_nil, List.insertIdx_zero]
      simp only [atAxes] at hq hj
      simp only [Nd.dropMid, hXf, List.insertIdx_succ_cons, List.insertIdx_zero, List.getD_cons_zero, List.getD_cons_succ, hq, if_true,
        Nd.addMid, List.eraseIdx_cons_succ, List.eraseIdx_cons_zero]
      apply Finset.sum_congr rfl
      intro j hjk
      have hjk : j < n := by simpa using hjk
      rw [(hj _ hi).1 j hjk, (hj j hjk).2]
    refine ⟨main, ?_⟩
    intro hs
    rw [main]
    apply Finset.sum_congr rfl
    intro j hjk
    rw [hs _ hi j (by simpa using hjk), e]

example : (arrMatmulSym ⟨[2, 2], fun i => if i = [0, 0] then 3 else 1⟩ ⟨[2], fun i => i.sum + 1⟩ [-2, -1]).map
    (fun X => (X.shape, X.get [0], X.get [1])) = some ([2], 5, 3) := by decide +kernel

/-- C191, a stack of matrices as second array: the result is not the product of the matrices but the second times the
transpose of the first, so that each row of the second is multiplied by the first. -/
theorem C191_matrix_partial (A B : Nd ℚ) (axes : List ℤ) (junk : List Nat → ℚ) (r c : Nat)
    (hax : normAxes A.shape.length axes = some [r, c]) (n k b : Nat) (hn : 0 < n) (hk : 0 < k) (hb : 0 < b)
    (hBr : B.shape.getD r 0 = b) (hBk : B.shape.getD c 0 = k)
    (hA : A.shape = B.shape.set r n) :
    ∃ X, arrMatmul A B axes junk = some X ∧ X.shape = B.shape.set c n ∧
      ∀ idx, InShape (B.shape.set c n) idx →
        X.get idx = ∑ j ∈ Finset.range k, A.get ((idx.set r (idx.getD c 0)).set c j) * B.get (idx.set c j) := by
  obtain ⟨_, hnd, hlt, hlen⟩ := normAxes_spec hax
  have hl : A.shape.length = B.shape.length := by rw [hA]; simp
  have hne : r ≠ c := by simpa using hnd
  have hr : r < B.shape.length := by rw [← hl]; exact hlt r (by simp)
  have hc : c < B.shape.length := by rw [← hl]; exact hlt c (by simp)
  have h1 := matAxes_first (nb := B.shape.length) hax
  have h2 : (matAxes A.shape.length B.shape.length axes).2 = [r, c].map fun (i : Nat) => (i : ℤ) := by
    rw [matAxes_second, h1, hl]
    simp
  have nA : normAxes A.shape.length ([r, c].map fun (i : Nat) => (i : ℤ)) = some [r, c] := normAxes_nat _ hnd hlt
  have nB := nA
  rw [hl] at nB
  have gne : ∀ (l : List Nat) (x : Nat), (l.set c x).getD r 0 = l.getD r 0 := by
    intro l x; simp [List.getElem?_set_ne hne.symm]
  have gne' : ∀ (l : List Nat) (x : Nat), (l.set r x).getD c 0 = l.getD c 0 := by
    intro l x; simp [List.getElem?_set_ne hne]
  have hAt : atAxes [r, c] A.shape = [n, k] := by
    rw [hA]
    simp only [atAxes, List.map_cons, List.map_nil]
    rw [getD_set_self _ _ _ hr, gne', hBk]
  have hBt : atAxes [r, c] B.shape = [b, k] := by
    simp only [atAxes, List.map_cons, List.map_nil, hBr, hBk]
  have hmr : r ∉ otherAxes B.shape.length [r, c] := not_mem_other _ _ _ (by simp)
  have hmc : c ∉ otherAxes B.shape.length [r, c] := not_mem_other _ _ _ (by simp)
  have hrs : atAxes (otherAxes A.shape.length [r, c]) A.shape = atAxes (otherAxes B.shape.length [r, c]) B.shape := by
    rw [hl, hA, atAxes_set _ _ _ _ hmr]
  obtain ⟨Af, hAf, hAs, hAg⟩ := C77_flatten A _ 0 [r, c] 0 nA (norm_zero _) (by rw [hAt]; simp; omega)
  obtain ⟨Bf, hBf, hBs, hBg⟩ := C77_flatten B _ 0 [r, c] 0 nB (norm_zero _) (by rw [hBt]; simp; omega)
  rw [hrs, hAt] at hAs
  rw [hBt] at hBs
  rw [hrs, hl] at hAg
  set rs := atAxes (otherAxes B.shape.length [r, c]) B.shape with hrsd
  set Xf : Nd ℚ := ⟨[rs.prod, b, n], fun idx =>
        if idx.getD 0 0 < rs.prod then
          ∑ j ∈ Finset.range k, Af.get [idx.getD 0 0, idx.getD 2 0, j] * Bf.get [idx.getD 0 0, idx.getD 1 0, j]
        else junk idx⟩ with hXf
  have hcore : matmulFlat Af Bf junk = some Xf := by
    simp [matmulFlat, hAs, hBs, hXf]
  obtain ⟨X, hX, hXs, hXg⟩ := partialExpand_spec Xf B.shape (B.shape.set c n) _ 0 [r, c] 0 nB (norm_zero _)
    (by simp) (atAxes_set _ _ _ _ hmc) (by
      simp only [atAxes, List.map_cons, List.map_nil]
      rw [getD_set_self _ _ _ hc, gne, hBr]
      simp only [hXf, List.insertIdx_zero]
      rfl)
  refine ⟨X, ?_, hXs, ?_⟩
  · unfold arrMatmul matFrame
    simp only [h2, h1, hAf, hBf, Option.bind_eq_bind, Option.bind_some, hBs]
    simp only [List.insertIdx_zero, List.length_cons, List.length_nil, Nat.reduceAdd, hcore, Option.bind_some]
    exact hX
  · intro idx hidx
    have hil : idx.length = B.shape.length := by simpa using hidx.length
    have hi : idx.getD c 0 < n := by
      have := hidx.get (n := c) (by simpa using hc)
      rwa [getD_set_self _ _ _ hc] at this
    have hset : ∀ j < k, InShape B.shape (idx.set c j) := by
      intro j hj
      have := hidx.setAt c j k hj
      rw [List.set_set] at this
      have e : B.shape.set c k = B.shape := by rw [← hBk]; simp [hc]
      rwa [e] at this
    have hq : ravel rs (atAxes (otherAxes B.shape.length [r, c]) idx) < rs.prod := by
      have := ravel_lt ((hset 0 hk).select (otherAxes B.shape.length [r, c]) (by
        intro b hb; simpa using (List.mem_filter.1 hb).1))
      change ravel _ (atAxes _ _) < (atAxes _ _).prod at this
      rwa [atAxes_set _ _ _ _ hmc] at this
    rw [hXg idx hidx]
    rw [← hrsd]
    set q := ravel rs (atAxes (otherAxes B.shape.length [r, c]) idx) with hqd
    have : Xf.get ((atAxes [r, c] idx).insertIdx 0 q) =
        ∑ j ∈ Finset.range k, Af.get [q, idx.getD c 0, j] * Bf.get [q, idx.getD r 0, j] := by
      simp only [atAxes, List.map_cons, List.map_nil, List.insertIdx_zero, hXf, List.getD_cons_zero, List.getD_cons_succ, hq, if_true]
    rw [this]
    apply Finset.sum_congr rfl
    intro j hjk
    have hjk : j < k := by simpa using hjk
    have hB' := hBg _ (hset j hjk)
    rw [atAxes_set _ _ _ _ hmc, ← hqd] at hB'
    simp only [atAxes, List.map_cons, List.map_nil, gne, List.insertIdx_zero] at hB'
    rw [getD_set_self _ _ _ (by omega)] at hB'
    have hinA : InShape A.shape ((idx.set r (idx.getD c 0)).set c j) := by
      rw [hA, List.set_comm _ _ hne]
      exact (hset j hjk).setAt r _ n hi
    have hA' := hAg _ hinA
    rw [atAxes_set _ _ _ _ hmc, atAxes_set _ _ _ _ hmr, ← hqd] at hA'
    simp only [atAxes, List.map_cons, List.map_nil, gne, List.insertIdx_zero] at hA'
    rw [getD_set_self _ _ _ (by omega), getD_set_self _ _ _ (by simp; omega)] at hA'
    rw [hA', hB']

example : (arrMatmul ⟨[2, 3], fun i => i.sum⟩ ⟨[4, 3], fun i => i.sum + 1⟩ [-2, -1] (fun _ => 9)).map
    (fun X => (X.shape, X.get [3, 1])) = some ([4, 2], 32) := by decide +kernel

/-- C191 fails for two matrices: matmul does not return `A B`. -/
theorem C191_product_refuted : ∃ A B X : Nd ℚ, A.shape = [2, 2] ∧ B.shape = [2, 2] ∧
    arrMatmul A B [-2, -1] (fun _ => 0) = some X ∧
    X.get [0, 1] ≠ ∑ j ∈ Finset.range 2, A.get [0, j] * B.get [j, 1] := by
  refine ⟨⟨[2, 2], fun i => if i = [0, 1] then 1 else 0⟩, ⟨[2, 2], fun i => if i = [1, 1] then 1 else 0⟩, _, rfl, rfl, rfl, ?_⟩
  decide +kernel

/-- C191 fails for matmul_sym and a matrix that is not symmetric: it is transposed. -/
theorem C191_unsymmetric_refuted : ∃ A B X : Nd ℚ, A.shape = [2, 2] ∧ B.shape = [2] ∧
    arrMatmulSym A B [-2, -1] = some X ∧ X.get [0] ≠ ∑ j ∈ Finset.range 2, A.get [0, j] * B.get [j] := by
  refine ⟨⟨[2, 2], fun i => if i = [0, 1] then 1 else 0⟩, ⟨[2], fun _ => 1⟩, _, rfl, rfl, rfl, ?_⟩
  decide +kernel

/-- C191 fails for axes given in falling order: with the matrices of three vectors along axes 1 and 0 no product is
computed (Fortran is handed arrays that do not fit). -/
theorem C191_order_refuted : ∃ A B : Nd ℚ, A.shape = [2, 2, 3] ∧ B.shape = [2, 3] ∧
    (arrMatmul A B [0, 1] fun _ => 0).isSome ∧ (arrMatmul A B [1, 0] fun _ => 0).isNone :=
  ⟨⟨[2, 2, 3], fun _ => 1⟩, ⟨[2, 3], fun _ => 1⟩, rfl, rfl, by decide +kernel, by decide +kernel⟩

/-- C191 fails for one matrix and several vectors: they are not broadcast, and all products but the first are whatever
was in memory. -/
theorem C191_broadcast_refuted : ∃ A B : Nd ℚ, A.shape = [1, 2, 2] ∧ B.shape = [3, 2] ∧
    (arrMatmul A B [-2, -1] fun _ => 0).map (fun X => (X.shape, X.get [0, 1], X.get [2, 1])) = some ([3, 2], 2, 0) ∧
    (arrMatmul A B [-2, -1] fun _ => 7).map (fun X => (X.shape, X.get [0, 1], X.get [2, 1])) = some ([3, 2], 2, 7) :=
  ⟨⟨[1, 2, 2], fun _ => 1⟩, ⟨[3, 2], fun _ => 1⟩, rfl, rfl, by decide +kernel, by decide +kernel⟩

end Pixell
