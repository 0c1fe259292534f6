import Mathlib.Data.List.GetD
import Mathlib.Tactic.Linarith
import Mathlib.Tactic.Ring
import Verif.Model.Distance
import Verif.Props.Distance

/-
Every distance stored by the cellgrid method is the distance to some point.
-/
namespace Pixell

variable {α : Type} [LinearOrder α]
set_option linter.unusedSectionVars false

theorem foldl_inv {σ ι : Type} (P : σ → Prop) (step : σ → ι → σ) (l : List ι) (s : σ) (h0 : P s)
    (h : ∀ s a, a ∈ l → P s → P (step s a)) : P (l.foldl step s) := by
  induction l generalizing s with
  | nil => exact h0
  | cons a l ih => exact ih _ (h s a (by simp) h0) (fun s b hb => h s b (List.mem_cons_of_mem _ hb))

/-! ### Blocks along one axis -/

/-- Number of blocks. -/
def blkNum (N bs : Nat) : Nat := (N + bs - 1) / bs

/-- Length of a block with its overlap pixel. -/
def blkLen (N bs b : Nat) : Nat := min ((b + 1) * bs) N + 1 - b * bs

/-- Map pixel of local pixel `k` of block `b`. -/
def blkPix (N bs b k : Nat) : Nat := (wrap1 ((b * bs : Nat) + k : Int) N).toNat

theorem blk_start {N bs b : Nat} (hbs : 0 < bs) (h : b < blkNum N bs) : b * bs < N := by
  unfold blkNum at h
  have h1 : (b + 1) * bs ≤ N + bs - 1 := (Nat.le_div_iff_mul_le hbs).mp h
  have : (b + 1) * bs = b * bs + bs := by ring
  omega

theorem blk_end {N bs : Nat} (hbs : 0 < bs) : N ≤ blkNum N bs * bs := by
  unfold blkNum
  have h := Nat.div_add_mod (N + bs - 1) bs
  have h2 := Nat.mod_lt (N + bs - 1) hbs
  rw [Nat.mul_comm] at h
  omega

theorem blkNum_pos {N bs : Nat} (hbs : 0 < bs) (hN : 0 < N) : 0 < blkNum N bs := by
  unfold blkNum
  exact Nat.div_pos (by omega) hbs

theorem blkLen_two {N bs b : Nat} (hbs : 0 < bs) (h : b < blkNum N bs) : 2 ≤ blkLen N bs b := by
  have h1 := blk_start hbs h
  unfold blkLen
  have : (b + 1) * bs = b * bs + bs := by ring
  omega

theorem blkPix_inner {N bs b k : Nat} (hbs : 0 < bs) (h : b < blkNum N bs) (hk : k + 1 < blkLen N bs b) :
    blkPix N bs b k = b * bs + k ∧ b * bs + k < N := by
  unfold blkLen at hk
  have h1 : b * bs + k < N := by omega
  refine ⟨?_, h1⟩
  unfold blkPix wrap1
  rw [if_neg (by omega), if_neg (by omega)]
  omega

theorem blkPix_lt {N bs b k : Nat} (hbs : 0 < bs) (h : b < blkNum N bs) (hk : k < blkLen N bs b) : blkPix N bs b k < N := by
  have h0 := blk_start hbs h
  unfold blkLen at hk
  unfold blkPix wrap1
  rw [if_neg (by omega)]
  split_ifs <;> omega

/-- The last pixel of a block is the first pixel of the next. -/
theorem blkPix_last {N bs b : Nat} (hbs : 0 < bs) (h : b < blkNum N bs) :
    blkPix N bs b (blkLen N bs b - 1) = blkPix N bs (wrap1 ((b : Int) + 1) (blkNum N bs)).toNat 0 := by
  have h0 := blk_start hbs h
  have hE : (b + 1) * bs = b * bs + bs := by ring
  by_cases hl : b + 1 < blkNum N bs
  · have h1 := blk_start hbs hl
    have e : (wrap1 ((b : Int) + 1) (blkNum N bs)).toNat = b + 1 := by
      unfold wrap1; rw [if_neg (by omega), if_neg (by omega)]; omega
    rw [e]
    unfold blkPix wrap1 blkLen
    rw [if_neg (by omega), if_neg (by omega), if_neg (by omega), if_neg (by omega)]
    omega
  · have hb : b + 1 = blkNum N bs := by omega
    have e : (wrap1 ((b : Int) + 1) (blkNum N bs)).toNat = 0 := by
      unfold wrap1; rw [if_neg (by omega), if_pos (by omega)]; omega
    have h2 := blk_end (N := N) hbs
    rw [← hb] at h2
    rw [e]
    unfold blkPix wrap1 blkLen
    rw [if_neg (by omega), if_pos (by omega), if_neg (by omega), if_neg (by omega)]
    omega

theorem blk_prev {n b : Nat} (h : b < n) : (wrap1 ((b : Int) + -1) n).toNat < n ∧
    (wrap1 (((wrap1 ((b : Int) + -1) n).toNat : Int) + 1) n).toNat = b := by
  unfold wrap1
  by_cases h0 : b = 0
  · subst h0
    simp only [Nat.cast_zero, zero_add]
    rw [if_pos (by omega)]
    refine ⟨by omega, ?_⟩
    rw [if_neg (by omega), if_pos (by omega)]
    omega
  · have e : (if (b : Int) + -1 < 0 then (b : Int) + -1 + n else if (b : Int) + -1 ≥ n then (b : Int) + -1 - n else
        (b : Int) + -1).toNat = b - 1 := by
      rw [if_neg (by omega), if_neg (by omega)]; omega
    rw [e]
    refine ⟨by omega, ?_⟩
    rw [if_neg (by omega), if_neg (by omega)]
    omega

theorem blk_next {n b : Nat} (h : b < n) : (wrap1 ((b : Int) + 1) n).toNat < n := by
  unfold wrap1
  rw [if_neg (by omega)]
  split_ifs <;> omega

theorem wrap1_same {n b : Nat} (h : b < n) : (wrap1 ((b : Int) + 0) n).toNat = b := by
  unfold wrap1
  rw [if_neg (by omega), if_neg (by omega)]; omega

/-! ### The invariant of a cell -/

/-- What is stored for one pixel: nothing found, or a point and its distance. -/
def PixOk (rmax : α) (npt : Nat) (f : Nat → α) (v : α) (dom : Option Nat) : Prop :=
  (v = rmax ∧ dom = none) ∨ ∃ i < npt, dom = some i ∧ v = f i

structure CellOk (g : DGrid α) (npt by' bx : Nat) (c : DCell α) : Prop where
  y1 : c.y1 = by' * g.bsize
  x1 : c.x1 = bx * g.bsize
  ny : c.ny = blkLen g.ny g.bsize by'
  nx : c.nx = blkLen g.nx g.bsize bx
  dl : c.dists.length = c.ny * c.nx
  ml : c.domains.length = c.ny * c.nx
  pix : ∀ y < c.ny, ∀ x < c.nx, PixOk g.rmax npt (fun i => g.dist c i y x) (c.dists.getD (y * c.nx + x) g.rmax)
    (c.domains.getD (y * c.nx + x) none)

theorem CellOk.dist_eq {g : DGrid α} {npt by' bx : Nat} {c : DCell α} (h : CellOk g npt by' bx c) (i y x : Nat) :
    g.dist c i y x = g.d i (blkPix g.ny g.bsize by' y) (blkPix g.nx g.bsize bx x) := by
  unfold DGrid.dist blkPix
  rw [h.y1, h.x1]

theorem getD_set_eq {γ : Type} (l : List γ) (i : Nat) (v a : γ) (h : i < l.length) : (l.set i v).getD i a = v := by
  rw [List.getD_eq_getElem?_getD, List.getElem?_set_self h]; rfl

theorem getD_set_ne {γ : Type} (l : List γ) (i j : Nat) (v a : γ) (h : i ≠ j) : (l.set i v).getD j a = l.getD j a := by
  rw [List.getD_eq_getElem?_getD, List.getElem?_set_ne h, List.getD_eq_getElem?_getD]

/-- Storing a valid entry keeps the invariant. -/
theorem CellOk.store {g : DGrid α} {npt by' bx : Nat} {c : DCell α} (h : CellOk g npt by' bx c) (y x : Nat) (hy : y < c.ny)
    (hx : x < c.nx) (v : α) (dom : Option Nat) (hv : PixOk g.rmax npt (fun i => g.dist c i y x) v dom)
    (cur : List (Nat × Nat)) :
    CellOk g npt by' bx ⟨c.status, c.y1, c.x1, c.ny, c.nx, c.dists.set (y * c.nx + x) v,
      c.domains.set (y * c.nx + x) dom, cur⟩ := by
  refine ⟨h.y1, h.x1, h.ny, h.nx, by simpa using h.dl, by simpa using h.ml, ?_⟩
  intro y' hy' x' hx'
  simp only at hy' hx' ⊢
  have hlt := flat_lt hy hx
  by_cases he : y * c.nx + x = y' * c.nx + x'
  · obtain ⟨rfl, rfl⟩ := flat_inj hx hx' he
    rw [getD_set_eq _ _ _ _ (by rw [h.dl]; exact hlt), getD_set_eq _ _ _ _ (by rw [h.ml]; exact hlt)]
    exact hv
  · rw [getD_set_ne _ _ _ _ _ he, getD_set_ne _ _ _ _ _ he]
    exact h.pix y' hy' x' hx'

theorem CellOk.current {g : DGrid α} {npt by' bx : Nat} {c : DCell α} (h : CellOk g npt by' bx c) (cur : List (Nat × Nat)) :
    CellOk g npt by' bx { c with current := cur } := ⟨h.y1, h.x1, h.ny, h.nx, h.dl, h.ml, h.pix⟩

theorem CellOk.status {g : DGrid α} {npt by' bx : Nat} {c : DCell α} (h : CellOk g npt by' bx c) (st : Nat) :
    CellOk g npt by' bx { c with status := st } := ⟨h.y1, h.x1, h.ny, h.nx, h.dl, h.ml, h.pix⟩

/-- The domain read at any position of a valid cell is a point. -/
theorem CellOk.dom {g : DGrid α} {npt by' bx : Nat} {c : DCell α} (h : CellOk g npt by' bx c) (k i : Nat)
    (hk : c.domains.getD k none = some i) : i < npt := by
  by_cases hlt : k < c.domains.length
  · rw [h.ml] at hlt
    have hpos : 0 < c.nx := by
      rcases Nat.eq_zero_or_pos c.nx with h0 | h0
      · rw [h0] at hlt; simp at hlt
      · exact h0
    have hy : k / c.nx < c.ny := Nat.div_lt_of_lt_mul (by rw [Nat.mul_comm]; exact hlt)
    have := h.pix (k / c.nx) hy (k % c.nx) (Nat.mod_lt _ hpos)
    rw [Nat.div_add_mod'] at this
    rcases this with ⟨-, h2⟩ | ⟨j, hj, h2, -⟩
    · rw [h2] at hk; cases hk
    · rw [h2] at hk; cases hk; exact hj
  · rw [List.getD_eq_default _ _ (by omega)] at hk; cases hk

theorem CellOk.tryPix {g : DGrid α} {npt by' bx : Nat} (ip y x : Nat) (hip : ip < npt) (s : DCell α × List (Nat × Nat))
    (o : Int × Int) (h : CellOk g npt by' bx s.1) : CellOk g npt by' bx (g.tryPix ip y x s o).1 := by
  unfold DGrid.tryPix
  simp only
  split_ifs with h1 h2 h3
  · exact h
  · exact h
  · push Not at h1
    exact h.store _ _ (by omega) (by omega) _ _ (Or.inr ⟨ip, hip, rfl, rfl⟩) _
  · exact h

theorem tryPix_status (g : DGrid α) (ip y x : Nat) (s : DCell α × List (Nat × Nat)) (o : Int × Int) :
    (g.tryPix ip y x s o).1.status = s.1.status := by
  unfold DGrid.tryPix
  simp only
  split_ifs <;> rfl

theorem CellOk.visit {g : DGrid α} {npt by' bx : Nat} (orig : List (Option Nat)) (w : Nat)
    (ho : ∀ k i, orig.getD k none = some i → i < npt) (s : DCell α × List (Nat × Nat)) (p : Nat × Nat)
    (h : CellOk g npt by' bx s.1) : CellOk g npt by' bx (g.visit orig w s p).1 ∧
      (g.visit orig w s p).1.status = s.1.status := by
  unfold DGrid.visit
  split
  · exact ⟨h, rfl⟩
  · rename_i ip hip
    refine foldl_inv (fun t : DCell α × List (Nat × Nat) => CellOk g npt by' bx t.1 ∧ t.1.status = s.1.status) _ neighOffs s
      ⟨h, rfl⟩ ?_
    intro t a _ ht
    exact ⟨CellOk.tryPix ip _ _ (ho _ _ hip) t a ht.1, by rw [tryPix_status]; exact ht.2⟩

theorem CellOk.solve {g : DGrid α} {npt by' bx : Nat} (fuel : Nat) (c c' : DCell α) (cur : List (Nat × Nat))
    (h : CellOk g npt by' bx c) (hs : g.solve fuel c cur = some c') : CellOk g npt by' bx c' ∧ c'.status = c.status := by
  induction fuel generalizing c cur with
  | zero =>
    cases cur with
    | nil => simp only [DGrid.solve, Option.some.injEq] at hs; rw [← hs]; exact ⟨h.current _, rfl⟩
    | cons p ps => simp [DGrid.solve] at hs
  | succ n ih =>
    cases cur with
    | nil => simp only [DGrid.solve, Option.some.injEq] at hs; rw [← hs]; exact ⟨h.current _, rfl⟩
    | cons p ps =>
      unfold DGrid.solve at hs
      have hr := foldl_inv (fun t : DCell α × List (Nat × Nat) => CellOk g npt by' bx t.1 ∧ t.1.status = c.status)
        (g.visit c.domains c.nx) (p :: ps) (c, []) ⟨h, rfl⟩ (by
          intro t a _ ht
          have := CellOk.visit c.domains c.nx (fun k i hk => h.dom k i hk) t a ht.1
          exact ⟨this.1, this.2.trans ht.2⟩)
      obtain ⟨r1, r2⟩ := ih _ _ hr.1 hs
      exact ⟨r1, r2.trans hr.2⟩

theorem CellOk.alloc (g : DGrid α) (npt by' bx : Nat) : CellOk g npt by' bx (g.alloc by' bx) := by
  refine ⟨rfl, rfl, rfl, rfl, by simp [DGrid.alloc], by simp [DGrid.alloc], ?_⟩
  intro y hy x hx
  left
  have : ∀ (γ : Type) (n k : Nat) (a : γ), (List.replicate n a).getD k a = a := by
    intro γ n k a
    rw [List.getD_eq_getElem?_getD, List.getElem?_replicate]
    split_ifs <;> rfl
  exact ⟨this _ _ _ _, this _ _ _ _⟩

/-! ### The edge exchange -/

/-- Two cells whose shared edge pixels are the same map pixels. -/
theorem edgePairs_spec (g : DGrid α) (npt by' bx : Nat) (hbs : 0 < g.bsize) (hby : by' < blkNum g.ny g.bsize)
    (hbx : bx < blkNum g.nx g.bsize) (cto cfrom : DCell α) (o : Int × Int) (ho : o ∈ neighOffs)
    (hto : CellOk g npt by' bx cto)
    (hfrom : CellOk g npt (wrap1 ((by' : Int) + o.1) (blkNum g.ny g.bsize)).toNat
      (wrap1 ((bx : Int) + o.2) (blkNum g.nx g.bsize)).toNat cfrom) (p : Nat × Nat) (hp : p ∈ edgePairs cto cfrom o) :
    ∃ y x y' x', y < cto.ny ∧ x < cto.nx ∧ y' < cfrom.ny ∧ x' < cfrom.nx ∧ p = (y * cto.nx + x, y' * cfrom.nx + x') ∧
      ∀ i, g.dist cto i y x = g.dist cfrom i y' x' := by
  have l1 := blkLen_two hbs hby
  have l2 := blkLen_two hbs hbx
  have py := blk_prev hby
  have px := blk_prev hbx
  have ny := blk_next hby
  have nx := blk_next hbx
  unfold neighOffs at ho
  simp only [List.mem_cons, List.not_mem_nil, or_false] at ho
  rcases ho with rfl | rfl | rfl | rfl
  · -- left
    simp only at hfrom
    rw [wrap1_same hby] at hfrom
    unfold edgePairs at hp
    simp only [List.mem_map, List.mem_range, if_true] at hp
    obtain ⟨i, hi, rfl⟩ := hp
    have l3 := blkLen_two hbs px.1
    refine ⟨i, 0, i, cfrom.nx - 1, hi, by rw [hto.nx]; omega, by rw [hfrom.ny, ← hto.ny]; exact hi, by rw [hfrom.nx]; omega,
      ?_, ?_⟩
    · simp only [show (-1 : Int) < 0 by decide, if_true]
      rw [Nat.add_comm, Nat.add_comm (cfrom.nx - 1)]
    · intro k
      rw [hto.dist_eq, hfrom.dist_eq, hfrom.nx, blkPix_last hbs px.1, px.2]
  · -- right
    simp only at hfrom
    rw [wrap1_same hby] at hfrom
    unfold edgePairs at hp
    simp only [List.mem_map, List.mem_range, if_true] at hp
    obtain ⟨i, hi, rfl⟩ := hp
    have l3 := blkLen_two hbs nx
    refine ⟨i, cto.nx - 1, i, 0, hi, by rw [hto.nx]; omega, by rw [hfrom.ny, ← hto.ny]; exact hi, by rw [hfrom.nx]; omega,
      ?_, ?_⟩
    · simp only [show ¬ (1 : Int) < 0 by decide, if_false]
      rw [Nat.add_comm, Nat.add_comm 0]
    · intro k
      rw [hto.dist_eq, hfrom.dist_eq, hto.nx, blkPix_last hbs hbx]
  · -- down
    simp only at hfrom
    rw [wrap1_same hbx] at hfrom
    unfold edgePairs at hp
    simp only [show ¬ (-1 : Int) = 0 by decide, if_false, List.mem_map, List.mem_range, show (-1 : Int) < 0 by decide,
      if_true] at hp
    obtain ⟨i, hi, rfl⟩ := hp
    have l3 := blkLen_two hbs py.1
    refine ⟨0, i, cfrom.ny - 1, i, by rw [hto.ny]; omega, hi, by rw [hfrom.ny]; omega, by rw [hfrom.nx, ← hto.nx]; exact hi,
      by simp, ?_⟩
    intro k
    rw [hto.dist_eq, hfrom.dist_eq, hfrom.ny, blkPix_last hbs py.1, py.2]
  · -- up
    simp only at hfrom
    rw [wrap1_same hbx] at hfrom
    unfold edgePairs at hp
    simp only [show ¬ (1 : Int) = 0 by decide, if_false, List.mem_map, List.mem_range, show ¬ (1 : Int) < 0 by decide] at hp
    obtain ⟨i, hi, rfl⟩ := hp
    have l3 := blkLen_two hbs ny
    refine ⟨cto.ny - 1, i, 0, i, by rw [hto.ny]; omega, hi, by rw [hfrom.ny]; omega, by rw [hfrom.nx, ← hto.nx]; exact hi,
      by simp, ?_⟩
    intro k
    rw [hto.dist_eq, hfrom.dist_eq, hto.ny, blkPix_last hbs hby]

/-- All cells are unallocated or valid. -/
def CellsOk (g : DGrid α) (npt : Nat) (cs : List (DCell α)) : Prop :=
  cs.length = g.nby * g.nbx ∧ ∀ ci < g.nby * g.nbx, (cs.getD ci emptyCell).status ≠ 0 →
    CellOk g npt (ci / g.nbx) (ci % g.nbx) (cs.getD ci emptyCell)

theorem CellsOk.set {g : DGrid α} {npt : Nat} {cs : List (DCell α)} (h : CellsOk g npt cs) (ci : Nat) (c : DCell α)
    (hc : CellOk g npt (ci / g.nbx) (ci % g.nbx) c) : CellsOk g npt (cs.set ci c) := by
  refine ⟨by simpa using h.1, fun k hk hs => ?_⟩
  by_cases he : ci = k
  · subst he
    rw [getD_set_eq _ _ _ _ (by rw [h.1]; exact hk)]
    exact hc
  · rw [getD_set_ne _ _ _ _ _ he] at hs ⊢
    exact h.2 k hk hs

theorem blk_split {g : DGrid α} {ci : Nat} (h : ci < g.nby * g.nbx) : ci / g.nbx < g.nby ∧ ci % g.nbx < g.nbx := by
  have hpos : 0 < g.nbx := by
    rcases Nat.eq_zero_or_pos g.nbx with h0 | h0
    · rw [h0] at h; simp at h
    · exact h0
  exact ⟨Nat.div_lt_of_lt_mul (by rw [Nat.mul_comm]; exact h), Nat.mod_lt _ hpos⟩

theorem neigh_spec {g : DGrid α} {ci : Nat} (h : ci < g.nby * g.nbx) (o : Int × Int) (ho : o ∈ neighOffs) :
    g.neigh ci o < g.nby * g.nbx ∧ g.neigh ci o / g.nbx = (wrap1 ((ci / g.nbx : Nat) + o.1) g.nby).toNat ∧
      g.neigh ci o % g.nbx = (wrap1 ((ci % g.nbx : Nat) + o.2) g.nbx).toNat := by
  obtain ⟨h1, h2⟩ := blk_split h
  have hy : (wrap1 ((ci / g.nbx : Nat) + o.1) g.nby).toNat < g.nby := by
    unfold neighOffs at ho
    simp only [List.mem_cons, List.not_mem_nil, or_false] at ho
    rcases ho with rfl | rfl | rfl | rfl
    · rw [wrap1_same h1]; exact h1
    · rw [wrap1_same h1]; exact h1
    · exact (blk_prev h1).1
    · exact blk_next h1
  have hx : (wrap1 ((ci % g.nbx : Nat) + o.2) g.nbx).toNat < g.nbx := by
    unfold neighOffs at ho
    simp only [List.mem_cons, List.not_mem_nil, or_false] at ho
    rcases ho with rfl | rfl | rfl | rfl
    · exact (blk_prev h2).1
    · exact blk_next h2
    · rw [wrap1_same h2]; exact h2
    · rw [wrap1_same h2]; exact h2
  unfold DGrid.neigh
  exact ⟨flat_lt hy hx, (flat_div hx).1, (flat_div hx).2⟩

theorem CellsOk.fetchCell {g : DGrid α} {npt : Nat} (hbs : 0 < g.bsize) (o : Int × Int) (ho : o ∈ neighOffs)
    (cs : List (DCell α)) (ci : Nat) (hci : ci < g.nby * g.nbx) (hst : (cs.getD ci emptyCell).status ≠ 0)
    (h : CellsOk g npt cs) : CellsOk g npt (g.fetchCell o cs ci) := by
  unfold DGrid.fetchCell
  simp only
  split_ifs with hs
  · obtain ⟨n1, n2, n3⟩ := neigh_spec hci o ho
    have hfrom := h.2 (g.neigh ci o) n1 (by omega)
    rw [n2, n3] at hfrom
    have hto := h.2 ci hci hst
    obtain ⟨b1, b2⟩ := blk_split hci
    apply h.set
    set cfrom := cs.getD (g.neigh ci o) emptyCell
    set cto := cs.getD ci emptyCell
    refine (foldl_inv (fun c : DCell α => CellOk g npt (ci / g.nbx) (ci % g.nbx) c ∧ c.ny = cto.ny ∧ c.nx = cto.nx)
      (g.fetch1 cfrom) (edgePairs cto cfrom o) cto ⟨hto, rfl, rfl⟩ ?_).1
    intro c p hp hc
    obtain ⟨hc, hcy, hcx⟩ := hc
    obtain ⟨y, x, y', x', e1, e2, e3, e4, rfl, hd⟩ := edgePairs_spec g npt _ _ hbs b1 b2 cto cfrom o ho hto hfrom p hp
    unfold DGrid.fetch1
    split_ifs with hlt
    · refine ⟨?_, hcy, hcx⟩
      simp only
      rw [← hcx]
      apply hc.store y x (by omega) (by omega)
      have := hfrom.pix y' e3 x' e4
      have hdd : ∀ i, g.dist c i y x = g.dist cfrom i y' x' := by
        intro i
        rw [← hd i, hc.dist_eq, hto.dist_eq]
      simp only [hdd]
      exact this
    · exact ⟨hc, hcy, hcx⟩
  · exact h

theorem fetch1_status (g : DGrid α) (cfrom cto : DCell α) (p : Nat × Nat) : (g.fetch1 cfrom cto p).status = cto.status := by
  unfold DGrid.fetch1
  split_ifs <;> rfl

theorem fetchCell_status (g : DGrid α) (o : Int × Int) (cs : List (DCell α)) (ci k : Nat) :
    ((g.fetchCell o cs ci).getD k emptyCell).status = (cs.getD k emptyCell).status := by
  unfold DGrid.fetchCell
  simp only
  split_ifs with hs
  · by_cases he : ci = k
    · subst he
      by_cases hl : ci < cs.length
      · rw [getD_set_eq _ _ _ _ hl]
        exact foldl_inv (fun c : DCell α => c.status = (cs.getD ci emptyCell).status) _ _ _ rfl
          (fun s a _ hs => by rw [fetch1_status]; exact hs)
      · rw [List.set_eq_of_length_le (by omega)]
    · rw [getD_set_ne _ _ _ _ _ he]
  · rfl

/-! ### The output maps -/

/-- Every output pixel holds `rmax` or the distance to some point. -/
def OutOk (g : DGrid α) (npt : Nat) (l : List α) : Prop := l.length = g.ny * g.nx ∧
  ∀ y < g.ny, ∀ x < g.nx, l.getD (y * g.nx + x) g.rmax = g.rmax ∨ ∃ i < npt, l.getD (y * g.nx + x) g.rmax = g.d i y x

theorem OutOk.finish {g : DGrid α} {npt : Nat} (hbs : 0 < g.bsize) (s : DState α) (ci : Nat) (hci : ci < g.nby * g.nbx)
    (h : CellsOk g npt s.cells) (hst : (s.cells.getD ci emptyCell).status ≠ 0) (ho : OutOk g npt s.dists) :
    CellsOk g npt (g.finish s ci).cells ∧ OutOk g npt (g.finish s ci).dists := by
  have hc := h.2 ci hci hst
  obtain ⟨b1, b2⟩ := blk_split hci
  unfold DGrid.finish
  simp only
  refine ⟨h.set _ _ (hc.status 2), ?_⟩
  set c := s.cells.getD ci emptyCell
  apply foldl_inv (OutOk g npt) _ _ _ ho
  intro l p hp hl
  simp only [List.mem_flatMap, List.mem_range, List.mem_map] at hp
  obtain ⟨y, hy, x, hx, rfl⟩ := hp
  have ey : (wrap1 ((c.y1 + y : Nat) : Int) g.ny).toNat = blkPix g.ny g.bsize (ci / g.nbx) y := by
    unfold blkPix; rw [hc.y1]; push_cast; rfl
  have ex : (wrap1 ((c.x1 + x : Nat) : Int) g.nx).toNat = blkPix g.nx g.bsize (ci % g.nbx) x := by
    unfold blkPix; rw [hc.x1]; push_cast; rfl
  simp only [ey, ex]
  have py := blkPix_lt (k := y) hbs b1 (by rw [← hc.ny]; omega)
  have px := blkPix_lt (k := x) hbs b2 (by rw [← hc.nx]; omega)
  set Y := blkPix g.ny g.bsize (ci / g.nbx) y
  set X := blkPix g.nx g.bsize (ci % g.nbx) x
  refine ⟨by simpa using hl.1, ?_⟩
  intro y' hy' x' hx'
  by_cases he : Y * g.nx + X = y' * g.nx + x'
  · obtain ⟨e1, e2⟩ := flat_inj px hx' he
    rw [he, getD_set_eq _ _ _ _ (by rw [hl.1]; exact flat_lt hy' hx')]
    rcases hc.pix y (by omega) x (by omega) with ⟨hv, -⟩ | ⟨i, hi, -, hv⟩
    · left; exact hv
    · right
      refine ⟨i, hi, ?_⟩
      rw [hv]
      simp only
      rw [hc.dist_eq, ← e1, ← e2]
  · rw [getD_set_ne _ _ _ _ _ he]
    exact hl.2 y' hy' x' hx'

theorem finish_status (g : DGrid α) (s : DState α) (ci k : Nat) (h : (s.cells.getD k emptyCell).status ≠ 0) :
    ((g.finish s ci).cells.getD k emptyCell).status ≠ 0 := by
  unfold DGrid.finish
  simp only
  by_cases he : ci = k
  · subst he
    by_cases hl : ci < s.cells.length
    · rw [getD_set_eq _ _ _ _ hl]; simp
    · rw [List.getD_eq_default _ _ (by omega)] at h; exact absurd rfl h
  · rw [getD_set_ne _ _ _ _ _ he]; exact h

theorem finishAll_ok {g : DGrid α} {npt : Nat} (hbs : 0 < g.bsize) (l : List Nat) (s : DState α)
    (hl : ∀ ci ∈ l, ci < g.nby * g.nbx ∧ (s.cells.getD ci emptyCell).status ≠ 0) (h : CellsOk g npt s.cells)
    (ho : OutOk g npt s.dists) :
    CellsOk g npt (l.foldl g.finish s).cells ∧ OutOk g npt (l.foldl g.finish s).dists := by
  have := foldl_inv (fun t : DState α => (CellsOk g npt t.cells ∧ OutOk g npt t.dists) ∧
    ∀ k, (s.cells.getD k emptyCell).status ≠ 0 → (t.cells.getD k emptyCell).status ≠ 0) g.finish l s
    ⟨⟨h, ho⟩, fun _ h => h⟩ (by
      intro t a ha ht
      exact ⟨OutOk.finish hbs t a (hl a ha).1 ht.1.1 (ht.2 a (hl a ha).2) ht.1.2,
        fun k hk => finish_status g t a k (ht.2 k hk)⟩)
  exact this.1

/-! ### The loop -/

theorem round_ok {g : DGrid α} {npt : Nat} (hbs : 0 < g.bsize) (zero : α) (fuel : Nat) (s : DState α) (cur : List Nat)
    (r : DState α × List Nat) (h : CellsOk g npt s.cells) (ho : OutOk g npt s.dists)
    (hcur : ∀ ci ∈ cur, ci < g.nby * g.nbx ∧ (s.cells.getD ci emptyCell).status ≠ 0)
    (hr : g.round zero fuel s cur = some r) : CellsOk g npt r.1.cells ∧ OutOk g npt r.1.dists ∧
      ∀ ci ∈ r.2, ci < g.nby * g.nbx ∧ (r.1.cells.getD ci emptyCell).status ≠ 0 := by
  unfold DGrid.round at hr
  -- solving
  have hsolve : ∀ (l : List Nat) (cs cs' : List (DCell α)), CellsOk g npt cs →
      (∀ ci ∈ l, ci < g.nby * g.nbx ∧ (cs.getD ci emptyCell).status ≠ 0) →
      l.foldlM (fun (cs : List (DCell α)) ci => do
        let c ← g.solve fuel (cs.getD ci emptyCell) (cs.getD ci emptyCell).current
        return cs.set ci c) cs = some cs' → CellsOk g npt cs' := by
    intro l
    induction l with
    | nil => intro cs cs' h _ e; simp at e; rw [← e]; exact h
    | cons ci l ih =>
      intro cs cs' h hl e
      rw [List.foldlM_cons] at e
      simp only [Option.bind_eq_bind, Option.bind_eq_some_iff, Option.pure_def, Option.some.injEq] at e
      obtain ⟨cs1, ⟨c, hc, rfl⟩, e⟩ := e
      obtain ⟨hci, hst⟩ := hl ci (by simp)
      have hok := CellOk.solve fuel _ c _ (h.2 ci hci hst) hc
      refine ih _ _ (h.set ci c hok.1) ?_ e
      intro k hk
      obtain ⟨k1, k2⟩ := hl k (List.mem_cons_of_mem _ hk)
      refine ⟨k1, ?_⟩
      by_cases he : ci = k
      · subst he
        rw [getD_set_eq _ _ _ _ (by rw [h.1]; exact hci), hok.2]; exact hst
      · rw [getD_set_ne _ _ _ _ _ he]; exact k2
  simp only [Option.bind_eq_bind, Option.bind_eq_some_iff, Option.pure_def, Option.some.injEq] at hr
  obtain ⟨cells1, h1, hr⟩ := hr
  have ok1 := hsolve cur s.cells cells1 h hcur h1
  set u := g.relevant cells1 cur with hu
  have hul : ∀ ci ∈ u, ci < g.nby * g.nbx := by
    intro ci hci
    rw [hu] at hci
    unfold DGrid.relevant at hci
    exact List.mem_range.mp (List.mem_filter.mp hci).1
  -- allocating
  have hal : ∀ (l : List Nat) (cs : List (DCell α)), CellsOk g npt cs → (∀ ci ∈ l, ci < g.nby * g.nbx) →
      CellsOk g npt (l.foldl (fun cs ci => if (cs.getD ci emptyCell).status = 0 then
        cs.set ci (g.alloc (ci / g.nbx) (ci % g.nbx)) else cs) cs) ∧
      (∀ k, (k ∈ l ∨ (cs.getD k emptyCell).status ≠ 0) → ((l.foldl (fun cs ci => if (cs.getD ci emptyCell).status = 0 then
        cs.set ci (g.alloc (ci / g.nbx) (ci % g.nbx)) else cs) cs).getD k emptyCell).status ≠ 0) := by
    intro l
    induction l with
    | nil => intro cs h _; exact ⟨h, fun k hk => by simpa using hk⟩
    | cons ci l ih =>
      intro cs h hl
      rw [List.foldl_cons]
      have hci := hl ci (by simp)
      by_cases hst : (cs.getD ci emptyCell).status = 0
      · rw [if_pos hst]
        obtain ⟨i1, i2⟩ := ih (cs.set ci (g.alloc (ci / g.nbx) (ci % g.nbx))) (h.set ci _ (CellOk.alloc g npt _ _))
          (fun k hk => hl k (List.mem_cons_of_mem _ hk))
        refine ⟨i1, fun k hk => i2 k ?_⟩
        by_cases he : ci = k
        · subst he
          right; rw [getD_set_eq _ _ _ _ (by rw [h.1]; exact hci)]; simp [DGrid.alloc]
        · rcases hk with hk | hk
          · left
            rcases List.mem_cons.mp hk with h' | h'
            · exact absurd h'.symm he
            · exact h'
          · right; rw [getD_set_ne _ _ _ _ _ he]; exact hk
      · rw [if_neg hst]
        obtain ⟨i1, i2⟩ := ih cs h (fun k hk => hl k (List.mem_cons_of_mem _ hk))
        refine ⟨i1, fun k hk => i2 k ?_⟩
        rcases hk with hk | hk
        · rcases List.mem_cons.mp hk with h' | h'
          · right; rw [h']; exact hst
          · left; exact h'
        · exact Or.inr hk
  obtain ⟨ok2, st2⟩ := hal u cells1 ok1 hul
  set cells2 := u.foldl (fun cs ci => if (cs.getD ci emptyCell).status = 0 then
        cs.set ci (g.alloc (ci / g.nbx) (ci % g.nbx)) else cs) cells1 with hc2
  -- exchanging
  have hex := foldl_inv (fun cs : List (DCell α) => CellsOk g npt cs ∧
      ∀ k, (cs.getD k emptyCell).status = (cells2.getD k emptyCell).status)
    (fun cs o => u.foldl (g.fetchCell o) cs) neighOffs cells2 ⟨ok2, fun _ => rfl⟩ (by
      intro cs o ho hcs
      refine foldl_inv (fun cs : List (DCell α) => CellsOk g npt cs ∧
        ∀ k, (cs.getD k emptyCell).status = (cells2.getD k emptyCell).status) (g.fetchCell o) u cs hcs ?_
      intro cs' ci hci h'
      refine ⟨CellsOk.fetchCell hbs o ho cs' ci (hul ci hci) ?_ h'.1, fun k => by rw [fetchCell_status]; exact h'.2 k⟩
      rw [h'.2 ci]; exact st2 ci (Or.inl hci))
  set cells3 := neighOffs.foldl (fun cs o => u.foldl (g.fetchCell o) cs) cells2
  obtain ⟨ok3, st3⟩ := hex
  have st3' : ∀ ci ∈ u, (cells3.getD ci emptyCell).status ≠ 0 := fun ci hci => by
    rw [st3 ci]; exact st2 ci (Or.inl hci)
  rw [← hr]
  simp only
  have hfin := finishAll_ok hbs (u.filter fun ci => (cells3.getD ci emptyCell).current.isEmpty &&
    decide ((cells3.getD ci emptyCell).dists.foldl max zero ≤ g.rminWork cells3 u)) ⟨cells3, s.dists, s.domains⟩
    (fun ci hci => ⟨hul ci (List.mem_filter.mp hci).1, st3' ci (List.mem_filter.mp hci).1⟩) ok3 ho
  refine ⟨hfin.1, hfin.2, ?_⟩
  intro ci hci
  have hci' := (List.mem_filter.mp hci).1
  refine ⟨hul ci hci', ?_⟩
  exact foldl_inv (fun t : DState α => (t.cells.getD ci emptyCell).status ≠ 0) g.finish _ _ (st3' ci hci')
    (fun t a _ ht => finish_status g t a ci ht)

theorem loop_ok {g : DGrid α} {npt : Nat} (hbs : 0 < g.bsize) (zero : α) (fuel : Nat) (s s' : DState α) (cur : List Nat)
    (h : CellsOk g npt s.cells) (ho : OutOk g npt s.dists)
    (hcur : ∀ ci ∈ cur, ci < g.nby * g.nbx ∧ (s.cells.getD ci emptyCell).status ≠ 0)
    (hr : g.loop zero fuel s cur = some s') : OutOk g npt s'.dists := by
  have hend : ∀ s : DState α, CellsOk g npt s.cells → OutOk g npt s.dists →
      OutOk g npt (((List.range (g.nby * g.nbx)).filter fun ci => (s.cells.getD ci emptyCell).status = 1).foldl
        g.finish s).dists := by
    intro s h ho
    refine (finishAll_ok hbs _ s ?_ h ho).2
    intro ci hci
    have := List.mem_filter.mp hci
    refine ⟨List.mem_range.mp this.1, ?_⟩
    have h1 := this.2
    simp only [decide_eq_true_eq] at h1
    omega
  induction fuel generalizing s cur with
  | zero =>
    cases cur with
    | nil => simp only [DGrid.loop, Option.some.injEq] at hr; rw [← hr]; exact hend s h ho
    | cons c cs => simp [DGrid.loop] at hr
  | succ n ih =>
    cases cur with
    | nil => simp only [DGrid.loop, Option.some.injEq] at hr; rw [← hr]; exact hend s h ho
    | cons c cs =>
      unfold DGrid.loop at hr
      simp only [Option.bind_eq_bind, Option.bind_eq_some_iff] at hr
      obtain ⟨r, hr1, hr2⟩ := hr
      obtain ⟨r1, r2, r3⟩ := round_ok hbs zero n s (c :: cs) r h ho hcur hr1
      exact ih r.1 r.2 r1 r2 r3 hr2

theorem init_ok (g : DGrid α) (zero : α) (pts : List (Nat × Nat)) (hbs : 0 < g.bsize)
    (hpts : ∀ p ∈ pts, p.1 < g.ny ∧ p.2 < g.nx)
    (hz : ∀ i p, pts[i]? = some p → g.d i p.1 p.2 = zero) :
    CellsOk g pts.length (g.init zero pts).1 ∧
      ∀ ci ∈ (g.init zero pts).2, ci < g.nby * g.nbx ∧ ((g.init zero pts).1.getD ci emptyCell).status ≠ 0 := by
  unfold DGrid.init
  refine foldl_inv (fun s : List (DCell α) × List Nat => CellsOk g pts.length s.1 ∧
    ∀ ci ∈ s.2, ci < g.nby * g.nbx ∧ (s.1.getD ci emptyCell).status ≠ 0) _ _ _ ?_ ?_
  · refine ⟨⟨by simp, ?_⟩, by simp⟩
    intro ci hci hst
    exfalso
    apply hst
    rw [List.getD_eq_getElem?_getD, List.getElem?_replicate]
    split_ifs
    rfl
  · rintro s ⟨p, i⟩ hp ⟨hok, hcur⟩
    have hpi : pts[i]? = some p := by
      have := List.mem_zipIdx_iff_getElem?.mp hp
      simpa using this
    have hi : i < pts.length := by
      by_contra hcon
      rw [List.getElem?_eq_none (by omega)] at hpi; cases hpi
    obtain ⟨hy, hx⟩ := hpts p (List.mem_of_getElem? hpi)
    simp only
    have by1 : p.1 / g.bsize < g.nby := by
      have : p.1 / g.bsize < blkNum g.ny g.bsize := by
        unfold blkNum
        rw [Nat.lt_iff_add_one_le, Nat.le_div_iff_mul_le hbs]
        have := Nat.div_mul_le_self p.1 g.bsize
        have : (p.1 / g.bsize + 1) * g.bsize = p.1 / g.bsize * g.bsize + g.bsize := by ring
        omega
      exact this
    have bx1 : p.2 / g.bsize < g.nbx := by
      have : p.2 / g.bsize < blkNum g.nx g.bsize := by
        unfold blkNum
        rw [Nat.lt_iff_add_one_le, Nat.le_div_iff_mul_le hbs]
        have := Nat.div_mul_le_self p.2 g.bsize
        have : (p.2 / g.bsize + 1) * g.bsize = p.2 / g.bsize * g.bsize + g.bsize := by ring
        omega
      exact this
    set by' := p.1 / g.bsize with hby
    set bx := p.2 / g.bsize with hbx
    have hci := flat_lt by1 bx1
    obtain ⟨d1, d2⟩ := flat_div (nx := g.nbx) (y := by') (x := bx) bx1
    set ci := by' * g.nbx + bx with hcidef
    have hc : CellOk g pts.length by' bx (if (s.1.getD ci emptyCell).status = 0 then g.alloc by' bx else
        s.1.getD ci emptyCell) := by
      split_ifs with hst
      · exact CellOk.alloc g _ _ _
      · have := hok.2 ci hci hst
        rwa [d1, d2] at this
    have hst2 : (if (s.1.getD ci emptyCell).status = 0 then g.alloc by' bx else s.1.getD ci emptyCell).status ≠ 0 := by
      split_ifs with hst
      · simp [DGrid.alloc]
      · exact hst
    set c := (if (s.1.getD ci emptyCell).status = 0 then g.alloc by' bx else s.1.getD ci emptyCell) with hcdef
    have m1 := Nat.div_add_mod p.1 g.bsize
    have m2 := Nat.mod_lt p.1 hbs
    have m3 := Nat.div_add_mod p.2 g.bsize
    have m4 := Nat.mod_lt p.2 hbs
    rw [← hby, Nat.mul_comm] at m1
    rw [← hbx, Nat.mul_comm] at m3
    have hyl : p.1 - by' * g.bsize + 1 < blkLen g.ny g.bsize by' := by
      unfold blkLen
      have : (by' + 1) * g.bsize = by' * g.bsize + g.bsize := by ring
      omega
    have hxl : p.2 - bx * g.bsize + 1 < blkLen g.nx g.bsize bx := by
      unfold blkLen
      have : (bx + 1) * g.bsize = bx * g.bsize + g.bsize := by ring
      omega
    have hok' := hc.store (p.1 - by' * g.bsize) (p.2 - bx * g.bsize) (by rw [hc.ny]; omega) (by rw [hc.nx]; omega) zero
      (some i) (Or.inr ⟨i, hi, rfl, by
        simp only
        rw [hc.dist_eq, (blkPix_inner hbs by1 hyl).1, (blkPix_inner hbs bx1 hxl).1,
          show by' * g.bsize + (p.1 - by' * g.bsize) = p.1 by omega,
          show bx * g.bsize + (p.2 - bx * g.bsize) = p.2 by omega]
        exact (hz i p hpi).symm⟩) (c.current ++ [(p.1 - by' * g.bsize, p.2 - bx * g.bsize)])
    have hset := hok.set ci _ (by rw [d1, d2]; exact hok')
    refine ⟨hset, ?_⟩
    intro k hk
    have hk' : k ∈ s.2 ∨ k = ci := by
      split_ifs at hk with hst
      · rcases List.mem_append.mp hk with h | h
        · exact Or.inl h
        · right; simpa using h
      · exact Or.inl hk
    by_cases he : ci = k
    · rw [← he]
      refine ⟨hci, ?_⟩
      rw [getD_set_eq _ _ _ _ (by rw [hok.1]; exact hci)]
      exact hst2
    · rcases hk' with hk' | hk'
      · refine ⟨(hcur k hk').1, ?_⟩
        rw [getD_set_ne _ _ _ _ _ he]; exact (hcur k hk').2
      · exact absurd hk'.symm he

end Pixell
