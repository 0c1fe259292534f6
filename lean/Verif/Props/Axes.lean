import Verif.Lemmas.Axes

/-
Property C77: flattening axes and expanding them again.
-/
namespace Pixell

theorem normAxes_spec {n : Nat} {axes : List ℤ} {A : List Nat} (h : normAxes n axes = some A) :
    A = axes.map (fun (x : ℤ) => (x.fmod n).toNat) ∧ A.Nodup ∧ (∀ a ∈ A, a < n) ∧ A.length = axes.length := by
  unfold normAxes at h
  simp only at h
  by_cases hc : (∀ a ∈ axes.map fun (a : ℤ) => if a < 0 then a + n else a, 0 ≤ a ∧ a < n) ∧
      (axes.map fun (a : ℤ) => if a < 0 then a + n else a).Nodup
  · rw [if_pos hc, Option.some.injEq] at h
    obtain ⟨h1, h2⟩ := hc
    subst h
    refine ⟨?_, ?_, ?_, by simp⟩
    · rw [List.map_map]
      apply List.map_congr_left
      intro a ha
      have := h1 _ (List.mem_map.2 ⟨a, ha, rfl⟩)
      simp only [Function.comp]
      congr 1
      split at this
      · rw [if_pos (by omega), ← Int.add_fmod_right a n, Int.fmod_eq_emod_of_nonneg _ (by omega),
          Int.emod_eq_of_lt (by omega) (by omega)]
      · rw [if_neg (by omega), Int.fmod_eq_emod_of_nonneg _ (by omega), Int.emod_eq_of_lt (by omega) (by omega)]
    · refine List.Nodup.map_on ?_ h2
      intro x hx y hy e
      have := h1 x hx
      have := h1 y hy
      omega
    · intro a ha
      obtain ⟨x, hx, rfl⟩ := List.mem_map.1 ha
      have := h1 x hx
      omega
  · rw [if_neg hc] at h; cases h

theorem normAxes_nat {n : Nat} (A : List Nat) (h1 : A.Nodup) (h2 : ∀ a ∈ A, a < n) :
    normAxes n (A.map fun (i : Nat) => (i : ℤ)) = some A := by
  unfold normAxes
  have e : (A.map fun (i : Nat) => (i : ℤ)).map (fun (a : ℤ) => if a < 0 then a + n else a) = A.map fun (i : Nat) => (i : ℤ) := by
    rw [List.map_map]
    apply List.map_congr_left
    intro a _
    simp
  simp only [e]
  rw [if_pos, List.map_map]
  · congr 1
    conv_rhs => rw [← List.map_id A]
    apply List.map_congr_left
    intro a _
    simp
  · refine ⟨?_, h1.map (fun a b h => by simpa using h)⟩
    intro x hx
    obtain ⟨a, ha, rfl⟩ := List.mem_map.1 hx
    have := h2 a ha
    omega

theorem normAxes_last (k : Nat) : normAxes (k + 1) [-1] = some [k] := by
  unfold normAxes
  simp

/-- The axes that are not listed, in order. -/
def otherAxes (n : Nat) (A : List Nat) : List Nat := (List.range n).filter fun x => decide (x ∉ A)

/-- The entries of a shape or index at the given axes. -/
def atAxes (A idx : List Nat) : List Nat := A.map fun ax => idx.getD ax 0

theorem reshape_index {ks kept rs ri : List Nat} (h1 : InShape ks kept) (h2 : InShape rs ri) :
    ravel (ks ++ [rs.prod]) (kept ++ [ravel rs ri]) = ravel (ks ++ rs) (kept ++ ri) ∧
    InShape (ks ++ [rs.prod]) (kept ++ [ravel rs ri]) ∧ InShape (ks ++ rs) (kept ++ ri) := by
  refine ⟨?_, h1.append (List.Forall₂.cons (ravel_lt h2) List.Forall₂.nil), h1.append h2⟩
  rw [ravel_append _ _ _ _ h1.length, ravel_append _ _ _ _ h1.length]
  simp [ravel]

theorem insertIdx_getD (L : List Nat) (x p : Nat) (hp : p ≤ L.length) :
    (List.range p ++ List.range' (p + 1) (L.length - p) ++ [p]).map (fun j => (L.insertIdx p x).getD j 0) = L ++ [x] := by
  rw [insertIdx_take_drop L p x hp, List.map_append, List.map_append]
  have hlt : (L.take p).length = p := by simp [hp]
  congr 1
  · conv_rhs => rw [← List.take_append_drop p L]
    congr 1
    · apply List.ext_getElem
      · simp [hp]
      · intro i h1 h2
        have hi : i < p := by simpa using h1
        simp [List.getElem?_append_left, hi, hp]
    · apply List.ext_getElem
      · simp
      · intro i h1 h2
        have hi : p + i < L.length := by simp at h2; omega
        simp only [List.getElem_map, List.getElem_range', List.getD_eq_getElem?_getD]
        rw [List.getElem?_append_right (by omega), hlt, show p + 1 + 1 * i - p = i + 1 by omega]
        simp [hi]
  · simp only [List.map_cons, List.map_nil, List.getD_eq_getElem?_getD]
    rw [List.getElem?_append_right (by omega), hlt]
    simp

theorem order3_map (L : List Nat) (x p : Nat) :
    ((List.range L.length).insertIdx p L.length).map (fun j => (L ++ [x]).getD j 0) = L.insertIdx p x := by
  rw [List.map_insertIdx]
  have : (List.range L.length).map (fun j => (L ++ [x]).getD j 0) = L := by
    apply List.ext_getElem
    · simp
    · intro i h1 h2
      simp [List.getElem?_append_left, h2]
  rw [this]
  simp

/-- C77, what partial_flatten returns: the listed axes in the given order with one axis, at position `p`, that runs over
all the other axes in row-major order. -/
theorem C77_flatten {α : Type} (a : Nd α) (axes : List ℤ) (pos : ℤ) (A : List Nat) (p : Nat)
    (hA : normAxes a.shape.length axes = some A) (hp : normAxes (axes.length + 1) [pos] = some [p])
    (hk : (atAxes A a.shape).prod ≠ 0) :
    ∃ f, partialFlatten a axes pos = some f ∧
      f.shape = (atAxes A a.shape).insertIdx p (atAxes (otherAxes a.shape.length A) a.shape).prod ∧
      ∀ idx, InShape a.shape idx →
        f.get ((atAxes A idx).insertIdx p
          (ravel (atAxes (otherAxes a.shape.length A) a.shape) (atAxes (otherAxes a.shape.length A) idx))) = a.get idx := by
  obtain ⟨_, hnd, hlt, hlen⟩ := normAxes_spec hA
  obtain ⟨_, _, hplt, _⟩ := normAxes_spec hp
  have hp' : p ≤ axes.length := by have := hplt p (by simp); omega
  set n := a.shape.length with hn
  set rest := otherAxes n A with hrest
  set ks := atAxes A a.shape with hks
  set rs := atAxes rest a.shape with hrs
  have hAn : A.length ≤ n := by
    have : A.Subperm (List.range n) := List.subperm_of_subset hnd (by intro x hx; simpa using hlt x hx)
    simpa using this.length_le
  have horder : moveOrder n A (List.range axes.length) = A ++ rest := by rw [← hlen]; exact moveOrder_front n A
  have hperm : (A ++ rest).Perm (List.range n) := moveOrder_front_perm n A hnd hlt
  -- first move
  have s1 : a.moveaxes axes ((List.range axes.length).map fun (i : Nat) => (i : ℤ)) = some (a.transpose (A ++ rest)) := by
    unfold Nd.moveaxes
    rw [← hn, hA, normAxes_nat (List.range axes.length) List.nodup_range (by intro x hx; have : x < axes.length := by simpa using hx
                                                                             omega)]
    simp [hlen, horder]
  have hshape1 : (a.transpose (A ++ rest)).shape = ks ++ rs := by
    unfold Nd.transpose; simp [hks, hrs, atAxes]
  have htake : (a.transpose (A ++ rest)).shape.take axes.length = ks := by
    rw [hshape1]; have : ks.length = axes.length := by simp [hks, atAxes, hlen]
    rw [← this]; simp
  have hprod : (a.transpose (A ++ rest)).shape.prod / ks.prod = rs.prod := by
    rw [hshape1, List.prod_append]; exact Nat.mul_div_cancel_left _ (Nat.pos_of_ne_zero hk)
  set b : Nd α := ⟨ks ++ [rs.prod], fun idx => (a.transpose (A ++ rest)).get
    (unravel (a.transpose (A ++ rest)).shape (ravel (ks ++ [rs.prod]) idx))⟩ with hb
  have s2 : (a.transpose (A ++ rest)).reshape (ks ++ [rs.prod]) = some b := by
    unfold Nd.reshape
    rw [if_pos]
    rw [hshape1]; simp [List.prod_append]
  have hbl : b.shape.length = axes.length + 1 := by simp [hb, hks, atAxes, hlen]
  have s3 : b.moveaxes [-1] [pos] = some (b.transpose ((List.range axes.length).insertIdx p axes.length)) := by
    unfold Nd.moveaxes
    rw [hbl, normAxes_last, hp]
    simp [moveOrder_last]
  have hkl : ks.length = axes.length := by simp [hks, atAxes, hlen]
  refine ⟨b.transpose ((List.range axes.length).insertIdx p axes.length), ?_, ?_, ?_⟩
  · unfold partialFlatten
    rw [s1]
    simp only [Option.bind_eq_bind, Option.bind_some]
    rw [htake, if_neg hk, hprod, s2]
    simp only [Option.bind_some]
    exact s3
  · unfold Nd.transpose
    simp only [hb]
    rw [← hkl]
    exact order3_map ks rs.prod p
  · intro idx hidx
    have h1 : InShape ks (atAxes A idx) := hidx.select A hlt
    have h2 : InShape rs (atAxes rest idx) := hidx.select rest (by
      intro x hx; have := hperm.mem_iff.1 (List.mem_append_right A hx); simpa using this)
    obtain ⟨r1, r2, r3⟩ := reshape_index h1 h2
    have hl' : (atAxes A idx).length = axes.length := by simp [atAxes, hlen]
    have e3 := order3_map (atAxes A idx) (ravel rs (atAxes rest idx)) p
    rw [hl'] at e3
    rw [← e3]
    rw [transpose_get b _ _ (by
        rw [hbl]
        refine (List.perm_insertIdx _ _ (by simpa using hp')).trans ?_
        rw [List.range_succ]; exact (List.perm_append_comm (l₁ := [axes.length])))
      (by rw [hbl]; simp [hl'])]
    simp only [hb]
    rw [r1, hshape1, unravel_ravel r3]
    have := transpose_get a (A ++ rest) idx hperm (hidx.length)
    rw [← this]
    congr 1
    simp [atAxes]

example : (partialFlatten (⟨[1, 2, 3, 4], id⟩ : Nd (List Nat)) [-1] 0).map Nd.shape = some [6, 4] := by decide +kernel
example : (partialFlatten (⟨[1, 2, 3, 4], id⟩ : Nd (List Nat)) [2, 0] 1).map (fun f => (f.shape, f.get [1, 7, 0])) =
    some ([3, 8, 1], [0, 1, 1, 3]) := by decide +kernel

/-- C77: expanding a flattened array with the shape of the original gives the original: the same shape and the same
element at every index. -/
theorem C77_roundtrip {α : Type} (a : Nd α) (axes : List ℤ) (pos : ℤ) (A : List Nat) (p : Nat)
    (hA : normAxes a.shape.length axes = some A) (hp : normAxes (axes.length + 1) [pos] = some [p])
    (hk : (atAxes A a.shape).prod ≠ 0) :
    ∃ f b, partialFlatten a axes pos = some f ∧ partialExpand f a.shape axes pos = some b ∧ b.shape = a.shape ∧
      ∀ idx, InShape a.shape idx → b.get idx = a.get idx := by
  obtain ⟨f, hf, hfs, hfg⟩ := C77_flatten a axes pos A p hA hp hk
  obtain ⟨hmod, hnd, hlt, hlen⟩ := normAxes_spec hA
  obtain ⟨_, _, hplt, _⟩ := normAxes_spec hp
  have hp' : p ≤ axes.length := by have := hplt p (by simp); omega
  set n := a.shape.length with hn
  set rest := otherAxes n A with hrest
  set ks := atAxes A a.shape with hks
  set rs := atAxes rest a.shape with hrs
  have hkl : ks.length = axes.length := by simp [hks, atAxes, hlen]
  have hAn : A.length ≤ n := by
    have : A.Subperm (List.range n) := List.subperm_of_subset hnd (by intro x hx; simpa using hlt x hx)
    simpa using this.length_le
  have hperm : (A ++ rest).Perm (List.range n) := moveOrder_front_perm n A hnd hlt
  have hrl : A.length + rest.length = n := by simpa using hperm.length_eq
  have hfl : f.shape.length = axes.length + 1 := by
    rw [hfs, List.length_insertIdx_of_le_length (by omega), hkl]
  set order4 := List.range p ++ List.range' (p + 1) (axes.length - p) ++ [p] with ho4
  have s1 : f.moveaxes [pos] [-1] = some (f.transpose order4) := by
    unfold Nd.moveaxes
    rw [hfl, normAxes_last, hp]
    simp [moveOrder_to_last _ _ hp', ho4]
  have hshape1 : (f.transpose order4).shape = ks ++ [rs.prod] := by
    unfold Nd.transpose
    simp only [hfs]
    have := insertIdx_getD ks rs.prod p (by omega)
    rw [hkl] at this
    exact this
  set c : Nd α := ⟨ks ++ rs, fun idx => (f.transpose order4).get (unravel (f.transpose order4).shape (ravel (ks ++ rs) idx))⟩ with hc
  have s2 : (f.transpose order4).reshape (ks ++ rs) = some c := by
    unfold Nd.reshape
    rw [if_pos]
    rw [hshape1]; simp [List.prod_append]
  have hcl : c.shape.length = n := by simp [hc, hks, hrs, atAxes, hrl]
  set order2 := moveOrder n (List.range A.length) A with ho2
  have s3 : c.moveaxes ((List.range axes.length).map fun (i : Nat) => (i : ℤ)) (A.map fun (i : Nat) => (i : ℤ)) =
      some (c.transpose order2) := by
    unfold Nd.moveaxes
    rw [hcl, normAxes_nat A hnd hlt, normAxes_nat (List.range axes.length) List.nodup_range (by
      intro x hx; have : x < axes.length := by simpa using hx
      omega)]
    simp [hlen, ho2]
  have hback := moveOrder_back n A hnd hlt
  have hback2 : order2.map (fun j => (A ++ rest).getD j 0) = List.range n := hback
  have hp2 : order2.Perm (List.range n) := moveOrder_back_perm n A hnd hlt
  have hj : ∀ j ∈ order2, j < (A ++ rest).length := by
    intro j hj
    have : j < n := by simpa using hp2.mem_iff.1 hj
    simp only [List.length_append]; omega
  -- an index of the original, moved to the front and back
  have hround : ∀ idx : List Nat, idx.length = n →
      order2.map (fun j => (atAxes A idx ++ atAxes rest idx).getD j 0) = idx := by
    intro idx hidx
    have e : atAxes A idx ++ atAxes rest idx = (A ++ rest).map fun ax => idx.getD ax 0 := by simp [atAxes]
    rw [e, comp_map _ _ _ hj, hback2, ← hidx, map_getD_range]
  refine ⟨f, c.transpose order2, hf, ?_, ?_, ?_⟩
  · unfold partialExpand
    rw [s1]
    simp only [Option.bind_eq_bind, Option.bind_some]
    rw [← hn, ← hmod]
    have e1 : (f.transpose order4).shape.take axes.length = ks := by rw [hshape1, ← hkl]; simp
    have e2 : ((List.range n).filter fun n => decide (n ∉ A)).map (fun (m : Nat) => a.shape.getD m 0) = rs := rfl
    rw [e1, e2, s2]
    simp only [Option.bind_some]
    exact s3
  · unfold Nd.transpose
    simp only [hc]
    exact hround a.shape hn.symm
  · intro idx hidx
    have h1 : InShape ks (atAxes A idx) := hidx.select A hlt
    have h2 : InShape rs (atAxes rest idx) := hidx.select rest (by
      intro x hx; have := hperm.mem_iff.1 (List.mem_append_right A hx); simpa using this)
    obtain ⟨r1, r2, r3⟩ := reshape_index h1 h2
    have e := hround idx (hidx.length.trans hn.symm)
    have t := transpose_get c order2 (atAxes A idx ++ atAxes rest idx) (by rw [hcl]; exact hp2) (by
      rw [hcl]; simp [atAxes, hrl])
    rw [e] at t
    rw [t]
    simp only [hc]
    rw [← r1, hshape1, unravel_ravel r2]
    have hkept : (atAxes A idx).length = axes.length := by simp [atAxes, hlen]
    have e4 := insertIdx_getD (atAxes A idx) (ravel rs (atAxes rest idx)) p (by omega)
    rw [hkept] at e4
    have t4 := transpose_get f order4 ((atAxes A idx).insertIdx p (ravel rs (atAxes rest idx))) (by
        rw [hfl]
        refine perm_range_of ?_ ?_ ?_
        · rw [ho4, List.nodup_append, List.nodup_append]
          refine ⟨⟨List.nodup_range, List.nodup_range', ?_⟩, by simp, ?_⟩
          · intro x hx y hy
            have : x < p := by simpa using hx
            have := (List.mem_range'_1.1 hy).1
            omega
          · intro x hx y hy
            have hy : y = p := by simpa using hy
            rcases List.mem_append.1 hx with hx | hx
            · have : x < p := by simpa using hx
              omega
            · have := (List.mem_range'_1.1 hx).1
              omega
        · simp [ho4]; omega
        · intro x hx
          simp only [ho4, List.mem_append, List.mem_range, List.mem_singleton] at hx
          rcases hx with (hx | hx) | hx
          · omega
          · have := (List.mem_range'_1.1 hx).2; omega
          · omega)
      (by rw [hfl, List.length_insertIdx_of_le_length (by omega), hkept])
    rw [e4] at t4
    rw [t4]
    exact hfg idx hidx

example : ((partialFlatten (⟨[2, 3, 4], id⟩ : Nd (List Nat)) [1] 0).bind fun f => partialExpand f [2, 3, 4] [1] 0).map
    (fun b => (b.shape, b.get [1, 2, 3])) = some ([2, 3, 4], [1, 2, 3]) := by decide +kernel

/-- C77 fails for an array whose kept axes include an empty one: partial_flatten raises (`reshape` cannot infer the
length). -/
theorem C77_empty_refuted : (partialFlatten (⟨[2, 0], id⟩ : Nd (List Nat)) [-1] 0).isNone := by decide +kernel

end Pixell
