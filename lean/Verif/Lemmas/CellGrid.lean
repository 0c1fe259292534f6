import Verif.Lemmas.CellFront

/-
Invariants of the cellgrid method: all cells together.
-/
namespace Pixell

variable {α : Type} [LinearOrder α]
set_option linter.unusedSectionVars false

/-! ### Blocks -/

theorem blk_next_prev {n b : Nat} (h : b < n) : (wrap1 (((wrap1 ((b : Int) + 1) n).toNat : Int) + -1) n).toNat = b := by
  by_cases h0 : b + 1 = n
  · have e : (wrap1 ((b : Int) + 1) n).toNat = 0 := by unfold wrap1; rw [if_neg (by omega), if_pos (by omega)]; omega
    rw [e]
    unfold wrap1
    rw [if_pos (by omega)]; omega
  · have e : (wrap1 ((b : Int) + 1) n).toNat = b + 1 := by unfold wrap1; rw [if_neg (by omega), if_neg (by omega)]; omega
    rw [e]
    unfold wrap1
    rw [if_neg (by omega), if_neg (by omega)]; omega

/-- One step up along an axis stays in the block or enters the next one at its start. -/
theorem blk_step {N bs X : Nat} (hbs : 0 < bs) (hX : X < N) :
    (X % bs + 2 < blkLen N bs (X / bs) ∧ ((X + 1) % N) / bs = X / bs ∧ ((X + 1) % N) % bs = X % bs + 1) ∨
    (X % bs + 2 = blkLen N bs (X / bs) ∧ ((X + 1) % N) / bs = (wrap1 ((X / bs : Nat) + 1) (blkNum N bs)).toNat ∧ ((X + 1) % N) % bs = 0) := by
  have h1 := Nat.div_add_mod X bs
  have h2 := Nat.mod_lt X hbs
  rw [Nat.mul_comm] at h1
  generalize hb : X / bs = b at *
  generalize hk : X % bs = k at *
  have hE : (b + 1) * bs = b * bs + bs := by ring
  have hdiv : ∀ c m, m < bs → (c * bs + m) / bs = c ∧ (c * bs + m) % bs = m := by
    intro c m hm
    constructor
    · rw [Nat.add_comm, Nat.add_mul_div_right _ _ hbs, Nat.div_eq_of_lt hm, Nat.zero_add]
    · rw [Nat.add_comm, Nat.add_mul_mod_self_right, Nat.mod_eq_of_lt hm]
  by_cases hl : X + 1 = N
  · right
    have hz : (X + 1) % N = 0 := by rw [hl]; exact Nat.mod_self N
    rw [hz]
    have hnum : blkNum N bs = b + 1 := by
      unfold blkNum
      have : N + bs - 1 = (b + 1) * bs + k := by omega
      rw [this]; exact (hdiv _ _ h2).1
    refine ⟨by unfold blkLen; omega, ?_, by simp⟩
    rw [hnum, Nat.zero_div]
    unfold wrap1
    rw [if_neg (by omega), if_pos (by omega)]; omega
  · have hm : (X + 1) % N = X + 1 := Nat.mod_eq_of_lt (by omega)
    rw [hm]
    by_cases hk1 : k + 1 < bs
    · left
      have : X + 1 = b * bs + (k + 1) := by omega
      rw [this]
      exact ⟨by unfold blkLen; omega, (hdiv _ _ hk1).1, (hdiv _ _ hk1).2⟩
    · right
      have : X + 1 = (b + 1) * bs + 0 := by omega
      have hnum : b + 1 < blkNum N bs := by
        unfold blkNum
        rw [Nat.lt_iff_add_one_le, Nat.le_div_iff_mul_le hbs]
        have : (b + 1 + 1) * bs = (b + 1) * bs + bs := by ring
        omega
      refine ⟨by unfold blkLen; omega, ?_, ?_⟩
      · rw [this, (hdiv _ _ hbs).1]
        unfold wrap1
        rw [if_neg (by omega), if_neg (by omega)]; omega
      · rw [this]; exact (hdiv _ _ hbs).2

theorem blk_of {N bs X : Nat} (hbs : 0 < bs) (hX : X < N) : X / bs < blkNum N bs ∧ X % bs + 1 < blkLen N bs (X / bs) ∧
    blkPix N bs (X / bs) (X % bs) = X := by
  have h1 := Nat.div_add_mod X bs
  have h2 := Nat.mod_lt X hbs
  rw [Nat.mul_comm] at h1
  have hE : (X / bs + 1) * bs = X / bs * bs + bs := by ring
  have a : X / bs < blkNum N bs := by
    unfold blkNum
    rw [Nat.lt_iff_add_one_le, Nat.le_div_iff_mul_le hbs]
    omega
  have b : X % bs + 1 < blkLen N bs (X / bs) := by unfold blkLen; omega
  exact ⟨a, b, by rw [(blkPix_inner hbs a b).1]; exact h1⟩

/-- The block of a map pixel. -/
def DGrid.own (g : DGrid α) (Y X : Nat) : Nat := (Y / g.bsize) * g.nbx + X / g.bsize

theorem own_spec {g : DGrid α} (hbs : 0 < g.bsize) {Y X : Nat} (hY : Y < g.ny) (hX : X < g.nx) :
    g.own Y X < g.nby * g.nbx ∧ g.own Y X / g.nbx = Y / g.bsize ∧ g.own Y X % g.nbx = X / g.bsize := by
  have h1 := (blk_of hbs hY).1
  have h2 := (blk_of hbs hX).1
  exact ⟨flat_lt h1 h2, (flat_div h2).1, (flat_div h2).2⟩

/-- Local pixels `(y,x)` of block `B` and `(y',x')` of its neighbour in direction `o` that are the same map pixel. -/
def Shared (g : DGrid α) (B : Nat) (o : Int × Int) (y x y' x' : Nat) : Prop :=
  (o = (0, -1) ∧ x = 0 ∧ x' + 1 = blkLen g.nx g.bsize (g.neigh B o % g.nbx) ∧ y' = y ∧ y < blkLen g.ny g.bsize (B / g.nbx)) ∨
  (o = (0, 1) ∧ x + 1 = blkLen g.nx g.bsize (B % g.nbx) ∧ x' = 0 ∧ y' = y ∧ y < blkLen g.ny g.bsize (B / g.nbx)) ∨
  (o = (-1, 0) ∧ y = 0 ∧ y' + 1 = blkLen g.ny g.bsize (g.neigh B o / g.nbx) ∧ x' = x ∧ x < blkLen g.nx g.bsize (B % g.nbx)) ∨
  (o = (1, 0) ∧ y + 1 = blkLen g.ny g.bsize (B / g.nbx) ∧ y' = 0 ∧ x' = x ∧ x < blkLen g.nx g.bsize (B % g.nbx))

theorem Shared.dir {g : DGrid α} {B : Nat} {o : Int × Int} {y x y' x' : Nat} (h : Shared g B o y x y' x') : o ∈ neighOffs := by
  rcases h with ⟨rfl, -⟩ | ⟨rfl, -⟩ | ⟨rfl, -⟩ | ⟨rfl, -⟩ <;> simp [neighOffs]

theorem Shared.mem {g : DGrid α} {npt B : Nat} (hbs : 0 < g.bsize) (hB : B < g.nby * g.nbx) {o : Int × Int} {y x y' x' : Nat}
    (h : Shared g B o y x y' x') (cto cfrom : DCell α) (hto : CellOk g npt (B / g.nbx) (B % g.nbx) cto)
    (hfrom : CellOk g npt (g.neigh B o / g.nbx) (g.neigh B o % g.nbx) cfrom) :
    (y * cto.nx + x, y' * cfrom.nx + x') ∈ edgePairs cto cfrom o ∧ y < cto.ny ∧ x < cto.nx ∧ y' < cfrom.ny ∧ x' < cfrom.nx := by
  obtain ⟨b1, b2⟩ := blk_split hB
  obtain ⟨n1, n2, n3⟩ := neigh_spec hB o h.dir
  obtain ⟨c1, c2⟩ := blk_split n1
  have l1 := blkLen_two hbs b1
  have l2 := blkLen_two hbs b2
  have l3 := blkLen_two hbs c1
  have l4 := blkLen_two hbs c2
  rcases h with ⟨rfl, rfl, e1, rfl, e2⟩ | ⟨rfl, e1, rfl, rfl, e2⟩ | ⟨rfl, rfl, e1, rfl, e2⟩ | ⟨rfl, e1, rfl, rfl, e2⟩
  · simp only at n2
    rw [wrap1_same b1] at n2
    have hny : cfrom.ny = cto.ny := by rw [hfrom.ny, hto.ny, n2]
    refine ⟨?_, by rw [hto.ny]; exact e2, by rw [hto.nx]; omega, by rw [hny, hto.ny]; exact e2, by rw [hfrom.nx]; omega⟩
    unfold edgePairs
    simp only [List.mem_map, List.mem_range, if_true, show (-1 : Int) < 0 by decide]
    exact ⟨_, by rw [hto.ny]; exact e2, by rw [hfrom.nx, ← e1]; simp [Nat.add_comm]⟩
  · simp only at n2
    rw [wrap1_same b1] at n2
    have hny : cfrom.ny = cto.ny := by rw [hfrom.ny, hto.ny, n2]
    refine ⟨?_, by rw [hto.ny]; exact e2, by rw [hto.nx]; omega, by rw [hny, hto.ny]; exact e2, by rw [hfrom.nx]; omega⟩
    unfold edgePairs
    simp only [List.mem_map, List.mem_range, if_true, show ¬ (1 : Int) < 0 by decide, if_false]
    exact ⟨_, by rw [hto.ny]; exact e2, by rw [hto.nx, ← e1]; simp [Nat.add_comm]⟩
  · simp only at n3
    rw [wrap1_same b2] at n3
    have hnx : cfrom.nx = cto.nx := by rw [hfrom.nx, hto.nx, n3]
    refine ⟨?_, by rw [hto.ny]; omega, by rw [hto.nx]; exact e2, by rw [hfrom.ny]; omega, by rw [hnx, hto.nx]; exact e2⟩
    unfold edgePairs
    simp only [show ¬ (-1 : Int) = 0 by decide, if_false, List.mem_map, List.mem_range, if_true, show (-1 : Int) < 0 by decide]
    exact ⟨_, by rw [hto.nx]; exact e2, by rw [hfrom.ny, ← e1]; simp⟩
  · simp only at n3
    rw [wrap1_same b2] at n3
    have hnx : cfrom.nx = cto.nx := by rw [hfrom.nx, hto.nx, n3]
    refine ⟨?_, by rw [hto.ny]; omega, by rw [hto.nx]; exact e2, by rw [hfrom.ny]; omega, by rw [hnx, hto.nx]; exact e2⟩
    unfold edgePairs
    simp only [show ¬ (1 : Int) = 0 by decide, if_false, List.mem_map, List.mem_range, show ¬ (1 : Int) < 0 by decide]
    exact ⟨_, by rw [hto.nx]; exact e2, by rw [hto.ny, ← e1]; simp⟩

theorem neigh_rev {g : DGrid α} {B : Nat} (hB : B < g.nby * g.nbx) {o : Int × Int} (ho : o ∈ neighOffs) :
    ∃ o' ∈ neighOffs, g.neigh (g.neigh B o) o' = B := by
  obtain ⟨b1, b2⟩ := blk_split hB
  obtain ⟨n1, n2, n3⟩ := neigh_spec hB o ho
  have fin : ∀ o', (wrap1 ((g.neigh B o / g.nbx : Nat) + o'.1) g.nby).toNat = B / g.nbx →
      (wrap1 ((g.neigh B o % g.nbx : Nat) + o'.2) g.nbx).toNat = B % g.nbx → g.neigh (g.neigh B o) o' = B := by
    intro o' h1 h2
    conv_lhs => rw [DGrid.neigh]
    rw [h1, h2]
    exact Nat.div_add_mod' B g.nbx
  unfold neighOffs at ho
  simp only [List.mem_cons, List.not_mem_nil, or_false] at ho
  rcases ho with rfl | rfl | rfl | rfl
  · refine ⟨(0, 1), by simp [neighOffs], fin _ ?_ ?_⟩
    · rw [n2]; simp only; rw [wrap1_same b1, wrap1_same b1]
    · rw [n3]; exact (blk_prev b2).2
  · refine ⟨(0, -1), by simp [neighOffs], fin _ ?_ ?_⟩
    · rw [n2]; simp only; rw [wrap1_same b1, wrap1_same b1]
    · rw [n3]; exact blk_next_prev b2
  · refine ⟨(1, 0), by simp [neighOffs], fin _ ?_ ?_⟩
    · rw [n2]; exact (blk_prev b1).2
    · rw [n3]; simp only; rw [wrap1_same b2, wrap1_same b2]
  · refine ⟨(-1, 0), by simp [neighOffs], fin _ ?_ ?_⟩
    · rw [n2]; exact blk_next_prev b1
    · rw [n3]; simp only; rw [wrap1_same b2, wrap1_same b2]

/-! ### All cells -/

/-- Every cell is unallocated or consistent. -/
def CellsGood (g : DGrid α) (npt : Nat) (cs : List (DCell α)) : Prop :=
  cs.length = g.nby * g.nbx ∧ ∀ ci < g.nby * g.nbx, ((cs.getD ci emptyCell).status = 0 ∧ (cs.getD ci emptyCell).current = []) ∨
    ((cs.getD ci emptyCell).status ≠ 0 ∧ CellGood g npt (ci / g.nbx) (ci % g.nbx) (cs.getD ci emptyCell))

theorem CellsGood.get {g : DGrid α} {npt : Nat} {cs : List (DCell α)} (h : CellsGood g npt cs) {ci : Nat} (hci : ci < g.nby * g.nbx)
    (hst : (cs.getD ci emptyCell).status ≠ 0) : CellGood g npt (ci / g.nbx) (ci % g.nbx) (cs.getD ci emptyCell) := by
  rcases h.2 ci hci with h | h
  · exact absurd h.1 hst
  · exact h.2

theorem getD_set_dec {γ : Type} (l : List γ) (i j : Nat) (v a : γ) (h : i < l.length) :
    (l.set i v).getD j a = if j = i then v else l.getD j a := by
  split_ifs with e
  · rw [e]; exact getD_set_eq _ _ _ _ h
  · exact getD_set_ne _ _ _ _ _ (fun e' => e e'.symm)

theorem CellsGood.set {g : DGrid α} {npt : Nat} {cs : List (DCell α)} (h : CellsGood g npt cs) {ci : Nat} (hci : ci < g.nby * g.nbx)
    (c : DCell α) (hc : CellGood g npt (ci / g.nbx) (ci % g.nbx) c) (hst : c.status ≠ 0) : CellsGood g npt (cs.set ci c) := by
  refine ⟨by simpa using h.1, fun k hk => ?_⟩
  rw [getD_set_dec _ _ _ _ _ (by rw [h.1]; exact hci)]
  split_ifs with e
  · right; rw [e]; exact ⟨hst, hc⟩
  · exact h.2 k hk

/-- The measure of a cell; an unallocated cell counts as a new one. -/
def pmeas (g : DGrid α) (npt : Nat) (cs : List (DCell α)) (ci : Nat) : Nat :=
  if (cs.getD ci emptyCell).status = 0 then cmeas g npt (g.alloc (ci / g.nbx) (ci % g.nbx)) else cmeas g npt (cs.getD ci emptyCell)

def tmeas (g : DGrid α) (npt : Nat) (cs : List (DCell α)) : Nat := ∑ ci ∈ Finset.range (g.nby * g.nbx), pmeas g npt cs ci
def twork (g : DGrid α) (cs : List (DCell α)) : Nat := ∑ ci ∈ Finset.range (g.nby * g.nbx), (cs.getD ci emptyCell).current.length

theorem pmeas_le_tmeas {g : DGrid α} {npt : Nat} {cs : List (DCell α)} {ci : Nat} (hci : ci < g.nby * g.nbx) :
    pmeas g npt cs ci ≤ tmeas g npt cs :=
  Finset.single_le_sum (f := fun ci => pmeas g npt cs ci) (fun _ _ => Nat.zero_le _) (Finset.mem_range.mpr hci)

theorem cmeas_le (g : DGrid α) (npt : Nat) (c : DCell α) : cmeas g npt c ≤ c.ny * c.nx * npt := by
  unfold cmeas
  calc _ ≤ ∑ q ∈ Finset.range c.ny ×ˢ Finset.range c.nx, npt := Finset.sum_le_sum fun q _ => by
        have := Finset.card_filter_le (Finset.range npt) fun i => g.dist c i q.1 q.2 < c.val g q.1 q.2
        simpa using this
    _ = _ := by simp

/-- Going on from one state to the next values only go down and cells stay allocated. -/
def LowCells (g : DGrid α) (cs cs' : List (DCell α)) : Prop := ∀ k < g.nby * g.nbx, (cs.getD k emptyCell).status ≠ 0 →
  (cs'.getD k emptyCell).status ≠ 0 ∧ ∀ y < (cs.getD k emptyCell).ny, ∀ x < (cs.getD k emptyCell).nx,
    (cs'.getD k emptyCell).val g y x ≤ (cs.getD k emptyCell).val g y x

theorem LowCells.refl (g : DGrid α) (cs : List (DCell α)) : LowCells g cs cs := fun _ _ h => ⟨h, fun _ _ _ _ => le_rfl⟩

theorem LowCells.trans {g : DGrid α} {npt : Nat} {a b c : List (DCell α)} (ha : CellsGood g npt a) (hb : CellsGood g npt b)
    (h1 : LowCells g a b) (h2 : LowCells g b c) : LowCells g a c := by
  intro k hk hst
  obtain ⟨s1, l1⟩ := h1 k hk hst
  obtain ⟨s2, l2⟩ := h2 k hk s1
  have hga := (ha.get hk hst).ok
  have hgb := (hb.get hk s1).ok
  refine ⟨s2, fun y hy x hx => le_trans (l2 y ?_ x ?_) (l1 y hy x hx)⟩
  · rw [hgb.ny, ← hga.ny]; exact hy
  · rw [hgb.nx, ← hga.nx]; exact hx

/-- The values of a shared pixel agree or are being worked on. -/
def EdgeOk (g : DGrid α) (cs : List (DCell α)) (B : Nat) (o : Int × Int) : Prop := ∀ y x y' x', Shared g B o y x y' x' →
  (cs.getD (g.neigh B o) emptyCell).status ≠ 0 → (cs.getD (g.neigh B o) emptyCell).dom y' x' ≠ none →
    (y', x') ∈ (cs.getD (g.neigh B o) emptyCell).current ∨ (cs.getD B emptyCell).status = 2 ∨
    ((cs.getD B emptyCell).status ≠ 0 ∧ (cs.getD B emptyCell).val g y x ≤ (cs.getD (g.neigh B o) emptyCell).val g y' x')

/-! ### Solving -/

theorem solveAll_good {g : DGrid α} {npt : Nat} (fuel : Nat) (l : List Nat) (cs : List (DCell α)) (h : CellsGood g npt cs)
    (hl : ∀ ci ∈ l, ci < g.nby * g.nbx ∧ (cs.getD ci emptyCell).status = 1) (hf : tmeas g npt cs < fuel) :
    ∃ cs', l.foldlM (fun (cs : List (DCell α)) ci => do
        let c ← g.solve fuel (cs.getD ci emptyCell) (cs.getD ci emptyCell).current
        return cs.set ci c) cs = some cs' ∧ CellsGood g npt cs' ∧ tmeas g npt cs' ≤ tmeas g npt cs ∧
      (∀ k, (cs'.getD k emptyCell).status = (cs.getD k emptyCell).status) ∧
      (∀ k, k ∉ l → cs'.getD k emptyCell = cs.getD k emptyCell) ∧
      (∀ k, (k ∈ l ∨ (cs.getD k emptyCell).current = []) → (cs'.getD k emptyCell).current = []) ∧ LowCells g cs cs' := by
  induction l generalizing cs with
  | nil => exact ⟨cs, rfl, h, le_rfl, fun _ => rfl, fun _ _ => rfl, fun k hk => hk.resolve_left (by simp), LowCells.refl g cs⟩
  | cons ci l ih =>
    obtain ⟨hci, hst⟩ := hl ci (by simp)
    have hst0 : (cs.getD ci emptyCell).status ≠ 0 := by omega
    have hg := h.get hci hst0
    have hpm : pmeas g npt cs ci = cmeas g npt (cs.getD ci emptyCell) := by unfold pmeas; rw [if_neg hst0]
    obtain ⟨c, e, hcg, hcs, hcc, hcm, hcl⟩ := solve_good fuel _ _ hg.ok hg.le hg.bnd hg.inv
      (Or.inl (lt_of_le_of_lt (by rw [← hpm]; exact pmeas_le_tmeas hci) hf))
    have hlen : ci < cs.length := by rw [h.1]; exact hci
    have hset := h.set hci c hcg (by rw [hcs]; exact hst0)
    have hget : ∀ k, (cs.set ci c).getD k emptyCell = if k = ci then c else cs.getD k emptyCell :=
      fun k => getD_set_dec _ _ _ _ _ hlen
    have hstat : ∀ k, ((cs.set ci c).getD k emptyCell).status = (cs.getD k emptyCell).status := by
      intro k
      rw [hget]
      split_ifs with e
      · rw [e]; exact hcs
      · rfl
    have htm : tmeas g npt (cs.set ci c) ≤ tmeas g npt cs := by
      apply Finset.sum_le_sum
      intro k hk
      unfold pmeas
      rw [hstat k]
      split_ifs
      · exact le_rfl
      · rw [hget]
        split_ifs with e
        · rw [e]; exact hcm
        · exact le_rfl
    have hlow : LowCells g cs (cs.set ci c) := by
      intro k hk hs
      refine ⟨by rw [hstat]; exact hs, fun y hy x hx => ?_⟩
      rw [hget]
      split_ifs with e
      · subst e; exact hcl y hy x hx
      · exact le_rfl
    obtain ⟨cs', e', r1, r2, r3, r4, r5, r6⟩ := ih (cs.set ci c) hset
      (fun k hk => ⟨(hl k (List.mem_cons_of_mem _ hk)).1, by rw [hstat]; exact (hl k (List.mem_cons_of_mem _ hk)).2⟩)
      (lt_of_le_of_lt htm hf)
    refine ⟨cs', ?_, r1, le_trans r2 htm, fun k => (r3 k).trans (hstat k), ?_, ?_, hlow.trans h hset r6⟩
    · rw [List.foldlM_cons, e]
      exact e'
    · intro k hk
      rw [List.mem_cons, not_or] at hk
      rw [r4 k hk.2, hget, if_neg hk.1]
    · intro k hk
      apply r5
      by_cases e : k = ci
      · right; rw [hget, if_pos e]; exact hcc
      · rw [hget, if_neg e]
        rcases hk with hk | hk
        · left
          rcases List.mem_cons.mp hk with h' | h'
          · exact absurd h' e
          · exact h'
        · exact Or.inr hk

/-! ### Allocating -/

theorem allocAll_get (g : DGrid α) (u : List Nat) (cs : List (DCell α)) (hu : ∀ ci ∈ u, ci < cs.length) (k : Nat) :
    (u.foldl (fun cs ci => if (cs.getD ci emptyCell).status = 0 then cs.set ci (g.alloc (ci / g.nbx) (ci % g.nbx)) else cs) cs).getD k emptyCell =
      if k ∈ u ∧ (cs.getD k emptyCell).status = 0 then g.alloc (k / g.nbx) (k % g.nbx) else cs.getD k emptyCell := by
  induction u generalizing cs with
  | nil => simp
  | cons ci u ih =>
    rw [List.foldl_cons]
    have hci := hu ci (by simp)
    by_cases hst : (cs.getD ci emptyCell).status = 0
    · rw [if_pos hst, ih _ (fun k hk => by rw [List.length_set]; exact hu k (List.mem_cons_of_mem _ hk)), getD_set_dec _ _ _ _ _ hci]
      by_cases e : k = ci
      · subst e
        rw [if_pos rfl, if_pos (show k ∈ k :: u ∧ _ from ⟨by simp, hst⟩)]
        rw [if_neg]
        intro h; exact absurd h.2 (by simp [DGrid.alloc])
      · rw [if_neg e]
        simp only [List.mem_cons, e, false_or]
    · rw [if_neg hst, ih _ (fun k hk => hu k (List.mem_cons_of_mem _ hk))]
      by_cases e : k = ci
      · subst e
        rw [if_neg (fun h => hst h.2), if_neg (fun h => hst h.2)]
      · simp only [List.mem_cons, e, false_or]

theorem allocAll_length (g : DGrid α) (u : List Nat) (cs : List (DCell α)) :
    (u.foldl (fun cs ci => if (cs.getD ci emptyCell).status = 0 then cs.set ci (g.alloc (ci / g.nbx) (ci % g.nbx)) else cs) cs).length = cs.length :=
  foldl_inv (fun t : List (DCell α) => t.length = cs.length) _ u cs rfl (fun s a _ h => by
    split_ifs
    · rw [List.length_set]; exact h
    · exact h)

/-! ### Exchanging edges -/

/-- A later state of all cells. -/
def LaterAll (g : DGrid α) (cs cs' : List (DCell α)) : Prop := ∀ k, Later g (cs.getD k emptyCell) (cs'.getD k emptyCell)

theorem LaterAll.edge {g : DGrid α} {npt : Nat} (hbs : 0 < g.bsize) {cs cs' : List (DCell α)} (hg : CellsGood g npt cs)
    (h : LaterAll g cs cs') {B : Nat} (hB : B < g.nby * g.nbx) {o : Int × Int} (he : EdgeOk g cs B o) : EdgeOk g cs' B o := by
  intro y x y' x' hs hst hdom
  have hA := h (g.neigh B o)
  have hBl := h B
  rw [hA.st] at hst
  have hn := (neigh_spec hB o hs.dir).1
  have hokA := hg.get hn hst
  by_cases hB0 : (cs.getD B emptyCell).status = 0
  · -- the pixel cannot have been settled before
    have inb : y' < (cs.getD (g.neigh B o) emptyCell).ny ∧ x' < (cs.getD (g.neigh B o) emptyCell).nx := by
      have := Shared.mem (npt := npt) hbs hB hs (g.alloc (B / g.nbx) (B % g.nbx)) _ (CellOk.alloc g npt _ _) hokA.ok
      exact this.2.2.2
    rcases hA.chg y' inb.1 x' inb.2 with ⟨c1, c2⟩ | c
    · rw [c2] at hdom
      rcases he y x y' x' hs hst hdom with h1 | h1 | h1
      · exact Or.inl (hA.cur _ h1)
      · exact Or.inr (Or.inl (by rw [hBl.st]; exact h1))
      · exact absurd hB0 h1.1
    · exact Or.inl c
  · obtain ⟨-, b1, b2, b3, b4⟩ := hs.mem hbs hB _ _ (hg.get hB hB0).ok hokA.ok
    rcases hA.chg y' b3 x' b4 with ⟨c1, c2⟩ | c
    · rw [c2] at hdom
      rcases he y x y' x' hs hst hdom with h1 | h1 | h1
      · exact Or.inl (hA.cur _ h1)
      · exact Or.inr (Or.inl (by rw [hBl.st]; exact h1))
      · refine Or.inr (Or.inr ⟨by rw [hBl.st]; exact h1.1, ?_⟩)
        rw [c1]
        exact le_trans (hBl.low y b1 x b2) h1.2
    · exact Or.inl c

/-- One fetch. -/
theorem fetchCell_good {g : DGrid α} {npt : Nat} (hbs : 0 < g.bsize) (o : Int × Int) (ho : o ∈ neighOffs) (cs : List (DCell α)) (ci : Nat)
    (hci : ci < g.nby * g.nbx) (hst : (cs.getD ci emptyCell).status ≠ 0) (h : CellsGood g npt cs) :
    CellsGood g npt (g.fetchCell o cs ci) ∧ LaterAll g cs (g.fetchCell o cs ci) ∧
    tmeas g npt (g.fetchCell o cs ci) + twork g (g.fetchCell o cs ci) ≤ tmeas g npt cs + twork g cs ∧
    (∀ k, k ≠ ci → (g.fetchCell o cs ci).getD k emptyCell = cs.getD k emptyCell) ∧
    ((cs.getD (g.neigh ci o) emptyCell).status = 1 → EdgeOk g (g.fetchCell o cs ci) ci o) := by
  unfold DGrid.fetchCell
  simp only
  split_ifs with hs
  · obtain ⟨n1, n2, n3⟩ := neigh_spec hci o ho
    have hfrom := h.get n1 (by omega)
    have hto := h.get hci hst
    obtain ⟨b1, b2⟩ := blk_split hci
    have hf' := hfrom.ok
    rw [n2, n3] at hf'
    obtain ⟨f1, f2, f3, f4⟩ := fetch_fold (cs.getD (g.neigh ci o) emptyCell) hf' (edgePairs (cs.getD ci emptyCell) (cs.getD (g.neigh ci o) emptyCell) o)
      (cs.getD ci emptyCell) hto (fun p hp => edgePairs_spec g npt _ _ hbs b1 b2 _ _ o ho hto.ok hf' p hp)
    set c' := (edgePairs (cs.getD ci emptyCell) (cs.getD (g.neigh ci o) emptyCell) o).foldl (g.fetch1 (cs.getD (g.neigh ci o) emptyCell))
      (cs.getD ci emptyCell) with hc'
    have hget : ∀ k, (cs.set ci c').getD k emptyCell = if k = ci then c' else cs.getD k emptyCell :=
      fun k => getD_set_dec _ _ _ _ _ (by rw [h.1]; exact hci)
    have hlater : LaterAll g cs (cs.set ci c') := by
      intro k
      rw [hget]
      split_ifs with e
      · rw [e]; exact f2
      · exact Later.refl _
    refine ⟨h.set hci c' f1 (by rw [f2.st]; exact hst), hlater, ?_, fun k hk => by rw [hget, if_neg hk], fun _ => ?_⟩
    · unfold tmeas twork
      rw [← Finset.sum_add_distrib, ← Finset.sum_add_distrib]
      apply Finset.sum_le_sum
      intro k hk
      unfold pmeas
      rw [hget]
      by_cases e : k = ci
      · rw [if_pos e, e, if_neg (by rw [f2.st]; exact hst), if_neg hst]; exact f3
      · rw [if_neg e]
    · intro y x y' x' hsh hstA hdom
      obtain ⟨hp, q1, q2, q3, q4⟩ := hsh.mem hbs hci _ _ hto.ok hfrom.ok
      have hA := hlater (g.neigh ci o)
      rcases hA.chg y' q3 x' q4 with ⟨c1, -⟩ | c
      · refine Or.inr (Or.inr ⟨by rw [hget, if_pos rfl, f2.st]; exact hst, ?_⟩)
        rw [c1, hget, if_pos rfl]
        exact f4 _ hp y x y' x' q1 q2 rfl
      · exact Or.inl c
  · exact ⟨h, fun k => Later.refl _, le_rfl, fun _ _ => rfl, fun h1 => absurd h1 hs⟩

/-- The exchange stage: all directions and candidates. -/
theorem fetchAll_good {g : DGrid α} {npt : Nat} (hbs : 0 < g.bsize) (os : List (Int × Int)) (hos : ∀ o ∈ os, o ∈ neighOffs) (u : List Nat)
    (hu : ∀ ci ∈ u, ci < g.nby * g.nbx) (cs : List (DCell α)) (hst : ∀ ci ∈ u, (cs.getD ci emptyCell).status ≠ 0)
    (h : CellsGood g npt cs) :
    CellsGood g npt (os.foldl (fun cs o => u.foldl (g.fetchCell o) cs) cs) ∧
    LaterAll g cs (os.foldl (fun cs o => u.foldl (g.fetchCell o) cs) cs) ∧
    tmeas g npt (os.foldl (fun cs o => u.foldl (g.fetchCell o) cs) cs) + twork g (os.foldl (fun cs o => u.foldl (g.fetchCell o) cs) cs) ≤
      tmeas g npt cs + twork g cs ∧
    (∀ k, k ∉ u → (os.foldl (fun cs o => u.foldl (g.fetchCell o) cs) cs).getD k emptyCell = cs.getD k emptyCell) ∧
    (∀ o ∈ os, ∀ B ∈ u, (cs.getD (g.neigh B o) emptyCell).status = 1 →
      EdgeOk g (os.foldl (fun cs o => u.foldl (g.fetchCell o) cs) cs) B o) := by
  have inner : ∀ (o : Int × Int), o ∈ neighOffs → ∀ (u : List Nat) (cs : List (DCell α)), (∀ ci ∈ u, ci < g.nby * g.nbx) →
      (∀ ci ∈ u, (cs.getD ci emptyCell).status ≠ 0) → CellsGood g npt cs →
      CellsGood g npt (u.foldl (g.fetchCell o) cs) ∧ LaterAll g cs (u.foldl (g.fetchCell o) cs) ∧
      tmeas g npt (u.foldl (g.fetchCell o) cs) + twork g (u.foldl (g.fetchCell o) cs) ≤ tmeas g npt cs + twork g cs ∧
      (∀ k, k ∉ u → (u.foldl (g.fetchCell o) cs).getD k emptyCell = cs.getD k emptyCell) ∧
      (∀ B ∈ u, (cs.getD (g.neigh B o) emptyCell).status = 1 → EdgeOk g (u.foldl (g.fetchCell o) cs) B o) := by
    intro o ho u
    induction u with
    | nil => intro cs _ _ h; exact ⟨h, fun _ => Later.refl _, le_rfl, fun _ _ => rfl, by simp⟩
    | cons ci u ih =>
      intro cs hu hst h
      obtain ⟨a1, a2, a3, a4, a5⟩ := fetchCell_good hbs o ho cs ci (hu ci (by simp)) (hst ci (by simp)) h
      obtain ⟨b1, b2, b3, b4, b5⟩ := ih (g.fetchCell o cs ci) (fun k hk => hu k (List.mem_cons_of_mem _ hk))
        (fun k hk => by rw [(a2 k).st]; exact hst k (List.mem_cons_of_mem _ hk)) a1
      rw [List.foldl_cons]
      refine ⟨b1, fun k => (a2 k).trans (b2 k), le_trans b3 a3, ?_, ?_⟩
      · intro k hk
        rw [List.mem_cons, not_or] at hk
        rw [b4 k hk.2, a4 k hk.1]
      · intro B hB hs
        rcases List.mem_cons.mp hB with rfl | hB
        · exact LaterAll.edge hbs a1 b2 (hu B (by simp)) (a5 hs)
        · exact b5 B hB (by rw [(a2 _).st]; exact hs)
  induction os generalizing cs with
  | nil => exact ⟨h, fun _ => Later.refl _, le_rfl, fun _ _ => rfl, by simp⟩
  | cons o os ih =>
    obtain ⟨a1, a2, a3, a4, a5⟩ := inner o (hos o (by simp)) u cs hu hst h
    obtain ⟨b1, b2, b3, b4, b5⟩ := ih (fun o' ho' => hos o' (List.mem_cons_of_mem _ ho')) (u.foldl (g.fetchCell o) cs)
      (fun k hk => by rw [(a2 k).st]; exact hst k hk) a1
    rw [List.foldl_cons]
    refine ⟨b1, fun k => (a2 k).trans (b2 k), le_trans b3 a3, fun k hk => by rw [b4 k hk, a4 k hk], ?_⟩
    intro o' ho' B hB hs
    rcases List.mem_cons.mp ho' with rfl | ho'
    · exact LaterAll.edge hbs a1 b2 (hu B hB) (a5 B hB hs)
    · exact b5 o' ho' B hB (by rw [(a2 _).st]; exact hs)

end Pixell
