import Verif.Lemmas.CellReach
import Verif.Props.Masks

/-
Property C80 for the cellgrid method (the default): it always finishes, the points keep their pixels, and it is exact in
every pixel that can be reached from its closest point through that point's domain along non-decreasing distances.
-/
namespace Pixell

variable {α : Type} [LinearOrder α]
set_option linter.unusedSectionVars false

section
variable {g : DGrid α} {npt : Nat}

theorem foldl_min_le_mem (l : List α) (a : α) : l.foldl min a ≤ a ∧ ∀ v ∈ l, l.foldl min a ≤ v := by
  induction l generalizing a with
  | nil => simp
  | cons b l ih =>
    obtain ⟨h1, h2⟩ := ih (min a b)
    rw [List.foldl_cons]
    refine ⟨le_trans h1 (min_le_left _ _), fun v hv => ?_⟩
    rcases List.mem_cons.mp hv with rfl | hv
    · exact le_trans h1 (min_le_right _ _)
    · exact h2 v hv

theorem foldl_max_ge_mem (l : List α) (a : α) : a ≤ l.foldl max a ∧ ∀ v ∈ l, v ≤ l.foldl max a := by
  induction l generalizing a with
  | nil => simp
  | cons b l ih =>
    obtain ⟨h1, h2⟩ := ih (max a b)
    rw [List.foldl_cons]
    refine ⟨le_trans (le_max_left _ _) h1, fun v hv => ?_⟩
    rcases List.mem_cons.mp hv with rfl | hv
    · exact le_trans (le_max_right _ _) h1
    · exact h2 v hv

theorem OwnLow.mono {cs cs' : List (DCell α)} (hbs : 0 < g.bsize) (hg : CellsGood g npt cs) (h : LowCells g cs cs') {Y X : Nat}
    (hY : Y < g.ny) (hX : X < g.nx) {v : α} (ho : OwnLow g cs Y X v) : OwnLow g cs' Y X v := by
  obtain ⟨o1, -, -⟩ := own_spec hbs hY hX
  obtain ⟨s1, l1⟩ := h _ o1 ho.1
  obtain ⟨m1, m2, -⟩ := own_local hbs hY hX (hg.get o1 ho.1).ok
  exact ⟨s1, le_trans (l1 _ (by omega) _ (by omega)) ho.2⟩

/-! ### Copying out -/

theorem foldl_copy_other (ps : List (Nat × Nat)) (v : Nat → α) (l : List α) (k : Nat) (a : α) (h : ∀ p ∈ ps, p.1 ≠ k) :
    (ps.foldl (fun l p => l.set p.1 (v p.2)) l).getD k a = l.getD k a := by
  induction ps generalizing l with
  | nil => rfl
  | cons p ps ih =>
    rw [List.foldl_cons, ih _ (fun q hq => h q (List.mem_cons_of_mem _ hq)), getD_set_ne _ _ _ _ _ (h p (by simp))]

theorem foldl_copy_length (ps : List (Nat × Nat)) (v : Nat → α) (l : List α) :
    (ps.foldl (fun l p => l.set p.1 (v p.2)) l).length = l.length :=
  foldl_inv (fun t : List α => t.length = l.length) _ ps l rfl (fun s a _ h => by rw [List.length_set]; exact h)

theorem foldl_copy_hit (ps : List (Nat × Nat)) (v : Nat → α) (l : List α) (k : Nat) (a v0 : α) (hk : k < l.length)
    (h : ∀ p ∈ ps, p.1 = k → v p.2 = v0) (hex : ∃ p ∈ ps, p.1 = k) :
    (ps.foldl (fun l p => l.set p.1 (v p.2)) l).getD k a = v0 := by
  induction ps generalizing l with
  | nil => simp at hex
  | cons p ps ih =>
    rw [List.foldl_cons]
    by_cases hr : ∃ q ∈ ps, q.1 = k
    · exact ih _ (by rw [List.length_set]; exact hk) (fun q hq => h q (List.mem_cons_of_mem _ hq)) hr
    · rw [foldl_copy_other ps v _ k a (fun q hq e => hr ⟨q, hq, e⟩)]
      obtain ⟨q, hq, e⟩ := hex
      rcases List.mem_cons.mp hq with rfl | hq
      · rw [e, getD_set_eq _ _ _ _ hk]; exact h q (by simp) e
      · exact absurd ⟨q, hq, e⟩ hr

theorem finish_spec (hbs : 0 < g.bsize) (s : DState α) (ci : Nat) (hci : ci < g.nby * g.nbx) (hlen : s.cells.length = g.nby * g.nbx)
    (hc : CellOk g npt (ci / g.nbx) (ci % g.nbx) (s.cells.getD ci emptyCell)) (hl : s.dists.length = g.ny * g.nx) :
    (∀ k, (g.finish s ci).cells.getD k emptyCell = if k = ci then { s.cells.getD ci emptyCell with status := 2 } else s.cells.getD k emptyCell) ∧
    (g.finish s ci).cells.length = s.cells.length ∧ (g.finish s ci).dists.length = s.dists.length ∧
    ∀ Y < g.ny, ∀ X < g.nx, (g.finish s ci).dists.getD (Y * g.nx + X) g.rmax =
      if g.own Y X = ci then (s.cells.getD ci emptyCell).val g (Y % g.bsize) (X % g.bsize) else s.dists.getD (Y * g.nx + X) g.rmax := by
  obtain ⟨b1, b2⟩ := blk_split hci
  unfold DGrid.finish
  simp only
  set c := s.cells.getD ci emptyCell with hcdef
  refine ⟨fun k => getD_set_dec _ _ _ _ _ (by rw [hlen]; exact hci), by simp, foldl_copy_length _ (fun i => c.dists.getD i g.rmax) _, ?_⟩
  intro Y hY X hX
  -- every pair copies a pixel of this cell to its place
  have hpair : ∀ p ∈ (List.range (c.ny - 1)).flatMap (fun y => (List.range (c.nx - 1)).map fun x =>
      ((wrap1 (c.y1 + y : Nat) g.ny).toNat * g.nx + (wrap1 (c.x1 + x : Nat) g.nx).toNat, y * c.nx + x)), p.1 = Y * g.nx + X →
      g.own Y X = ci ∧ p.2 = Y % g.bsize * c.nx + X % g.bsize := by
    intro p hp e
    simp only [List.mem_flatMap, List.mem_range, List.mem_map] at hp
    obtain ⟨y, hy, x, hx, rfl⟩ := hp
    have ey : (wrap1 ((c.y1 + y : Nat) : Int) g.ny).toNat = blkPix g.ny g.bsize (ci / g.nbx) y := by
      unfold blkPix; rw [hc.y1]; push_cast; rfl
    have ex : (wrap1 ((c.x1 + x : Nat) : Int) g.nx).toNat = blkPix g.nx g.bsize (ci % g.nbx) x := by
      unfold blkPix; rw [hc.x1]; push_cast; rfl
    have iy := blkPix_inner (k := y) hbs b1 (by rw [← hc.ny]; omega)
    have ix := blkPix_inner (k := x) hbs b2 (by rw [← hc.nx]; omega)
    simp only [ey, ex] at e
    rw [iy.1, ix.1] at e
    obtain ⟨e1, e2⟩ := flat_inj ix.2 hX e
    have yb : y < g.bsize := by
      have := hc.ny; unfold blkLen at this
      have : (ci / g.nbx + 1) * g.bsize = ci / g.nbx * g.bsize + g.bsize := by ring
      omega
    have xb : x < g.bsize := by
      have := hc.nx; unfold blkLen at this
      have : (ci % g.nbx + 1) * g.bsize = ci % g.nbx * g.bsize + g.bsize := by ring
      omega
    have dy := flat_div (nx := g.bsize) (y := ci / g.nbx) (x := y) yb
    have dx := flat_div (nx := g.bsize) (y := ci % g.nbx) (x := x) xb
    rw [e1] at dy
    rw [e2] at dx
    refine ⟨?_, by rw [dy.2, dx.2]⟩
    unfold DGrid.own
    rw [dy.1, dx.1]
    exact Nat.div_add_mod' ci g.nbx
  split_ifs with hown
  · apply foldl_copy_hit _ (fun i => c.dists.getD i g.rmax) _ _ _ _ (by rw [hl]; exact flat_lt hY hX)
    · intro p hp e
      rw [(hpair p hp e).2]; rfl
    · have hc' := hc
      rw [← hown] at hc'
      obtain ⟨m1, m2, -⟩ := own_local hbs hY hX hc'
      obtain ⟨q1, q2, q3⟩ := own_spec hbs hY hX
      refine ⟨(Y * g.nx + X, Y % g.bsize * c.nx + X % g.bsize), ?_, rfl⟩
      simp only [List.mem_flatMap, List.mem_range, List.mem_map]
      refine ⟨Y % g.bsize, by omega, X % g.bsize, by omega, ?_⟩
      have ey : (wrap1 ((c.y1 + Y % g.bsize : Nat) : Int) g.ny).toNat = blkPix g.ny g.bsize (ci / g.nbx) (Y % g.bsize) := by
        unfold blkPix; rw [hc.y1]; push_cast; rfl
      have ex : (wrap1 ((c.x1 + X % g.bsize : Nat) : Int) g.nx).toNat = blkPix g.nx g.bsize (ci % g.nbx) (X % g.bsize) := by
        unfold blkPix; rw [hc.x1]; push_cast; rfl
      rw [ey, ex, ← hown, q2, q3, (blk_of hbs hY).2.2, (blk_of hbs hX).2.2]
  · exact foldl_copy_other _ (fun i => c.dists.getD i g.rmax) _ _ _ fun p hp e => hown (hpair p hp e).1

theorem finishAll_spec (hbs : 0 < g.bsize) (l : List Nat) (s : DState α) (hlen : s.cells.length = g.nby * g.nbx)
    (hl : ∀ ci ∈ l, ci < g.nby * g.nbx ∧ CellOk g npt (ci / g.nbx) (ci % g.nbx) (s.cells.getD ci emptyCell)) (hd : s.dists.length = g.ny * g.nx) :
    (∀ k, (l.foldl g.finish s).cells.getD k emptyCell = if k ∈ l then { s.cells.getD k emptyCell with status := 2 } else s.cells.getD k emptyCell) ∧
    (l.foldl g.finish s).cells.length = s.cells.length ∧ (l.foldl g.finish s).dists.length = s.dists.length ∧
    ∀ Y < g.ny, ∀ X < g.nx, (l.foldl g.finish s).dists.getD (Y * g.nx + X) g.rmax =
      if g.own Y X ∈ l then (s.cells.getD (g.own Y X) emptyCell).val g (Y % g.bsize) (X % g.bsize) else s.dists.getD (Y * g.nx + X) g.rmax := by
  induction l generalizing s with
  | nil => simp
  | cons ci l ih =>
    obtain ⟨a1, a2, a3, a4⟩ := finish_spec hbs s ci (hl ci (by simp)).1 hlen (hl ci (by simp)).2 hd
    obtain ⟨b1, b2, b3, b4⟩ := ih (g.finish s ci) (by rw [a2]; exact hlen) (by
      intro k hk
      obtain ⟨k1, k2⟩ := hl k (List.mem_cons_of_mem _ hk)
      refine ⟨k1, ?_⟩
      rw [a1]
      split_ifs with e
      · rw [← e]; exact k2.status 2
      · exact k2) (by rw [a3]; exact hd)
    rw [List.foldl_cons]
    refine ⟨fun k => ?_, b2.trans a2, b3.trans a3, fun Y hY X hX => ?_⟩
    · rw [b1, a1]
      by_cases e : k = ci
      · rw [if_pos e, e, if_pos (List.mem_cons_self (a := ci) (l := l)), ite_eq_left_iff]
        exact fun _ => rfl
      · rw [if_neg e]
        have hm : k ∈ ci :: l ↔ k ∈ l := by
          rw [List.mem_cons]; exact ⟨fun h => h.resolve_left e, Or.inr⟩
        by_cases e2 : k ∈ l
        · rw [if_pos e2, if_pos (hm.mpr e2)]
        · rw [if_neg e2, if_neg (fun h => e2 (hm.mp h))]
    · rw [b4 Y hY X hX, a4 Y hY X hX, a1]
      by_cases e : g.own Y X = ci
      · rw [if_pos e, if_pos e, e, if_pos (List.mem_cons_self (a := ci) (l := l))]
        by_cases e2 : ci ∈ l
        · rw [if_pos e2]; rfl
        · rw [if_neg e2]
      · rw [if_neg e, if_neg e]
        have hm : g.own Y X ∈ ci :: l ↔ g.own Y X ∈ l := by
          rw [List.mem_cons]; exact ⟨fun h => h.resolve_left e, Or.inr⟩
        by_cases e2 : g.own Y X ∈ l
        · rw [if_pos e2, if_pos (hm.mpr e2)]
        · rw [if_neg e2, if_neg (fun h => e2 (hm.mp h))]

/-! ### A round -/

/-- What holds between rounds. -/
structure StInv (g : DGrid α) (zero : α) (pts : List (Nat × Nat)) (s : DState α) (cur : List Nat) : Prop where
  good : CellsGood g pts.length s.cells
  st2 : ∀ k < g.nby * g.nbx, (s.cells.getD k emptyCell).status ≤ 2
  edge : ∀ B < g.nby * g.nbx, ∀ o ∈ neighOffs, EdgeOk g s.cells B o
  cur1 : ∀ ci ∈ cur, ci < g.nby * g.nbx ∧ (s.cells.getD ci emptyCell).status = 1
  emp : ∀ k < g.nby * g.nbx, k ∉ cur → (s.cells.getD k emptyCell).current = []
  pt : ∀ p ∈ pts, OwnLow g s.cells p.1 p.2 zero
  reach : ∀ i Y X, CellReach g pts i Y X → (s.cells.getD (g.own Y X) emptyCell).status = 2 → OwnLow g s.cells Y X (g.d i Y X)
  len : s.dists.length = g.ny * g.nx
  out : ∀ Y < g.ny, ∀ X < g.nx, (s.cells.getD (g.own Y X) emptyCell).status = 2 →
    s.dists.getD (Y * g.nx + X) g.rmax = (s.cells.getD (g.own Y X) emptyCell).val g (Y % g.bsize) (X % g.bsize)

theorem mem_relevant {cells : List (DCell α)} {cur : List Nat} {k : Nat} : k ∈ g.relevant cells cur ↔
    k < g.nby * g.nbx ∧ ∃ c1 ∈ cur, c1 = k ∨ ∃ o ∈ neighOffs, g.neigh c1 o = k ∧ (cells.getD k emptyCell).status ≠ 2 := by
  unfold DGrid.relevant
  simp only [List.mem_filter, List.mem_range, List.any_eq_true, Bool.or_eq_true, beq_iff_eq, Bool.and_eq_true, bne_iff_ne]

theorem round_good (hbs : 0 < g.bsize) {zero : α} {pts : List (Nat × Nat)} (hpts : ∀ p ∈ pts, p.1 < g.ny ∧ p.2 < g.nx)
    (hz : ∀ i p, pts[i]? = some p → g.d i p.1 p.2 = zero) (fuel : Nat) (s : DState α) (cur : List Nat) (h : StInv g zero pts s cur)
    (hf : tmeas g pts.length s.cells < fuel) :
    ∃ r, g.round zero fuel s cur = some r ∧ StInv g zero pts r.1 r.2 ∧
      (tmeas g pts.length r.1.cells < tmeas g pts.length s.cells ∨ r.2 = []) := by
  obtain ⟨cells1, e1, g1, t1, st1, same1, emp1, low1⟩ := solveAll_good fuel cur s.cells h.good h.cur1 hf
  unfold DGrid.round
  simp only [Option.bind_eq_bind, Option.pure_def] at e1 ⊢
  rw [e1]
  simp only [Option.bind_some]
  set u := g.relevant cells1 cur with hu
  have hul : ∀ ci ∈ u, ci < g.nby * g.nbx := fun ci hci => (mem_relevant.mp hci).1
  have hcu : ∀ ci ∈ cur, ci ∈ u := fun ci hci => mem_relevant.mpr ⟨(h.cur1 ci hci).1, ci, hci, Or.inl rfl⟩
  have hu2 : ∀ ci ∈ u, (s.cells.getD ci emptyCell).status ≠ 2 := by
    intro ci hci
    obtain ⟨-, c1, hc1, e | ⟨o, -, -, h2⟩⟩ := mem_relevant.mp hci
    · rw [← e, (h.cur1 c1 hc1).2]; decide
    · rw [st1] at h2; exact h2
  have hall1 : ∀ k < g.nby * g.nbx, (cells1.getD k emptyCell).current = [] := by
    intro k hk
    apply emp1
    by_cases hkc : k ∈ cur
    · exact Or.inl hkc
    · exact Or.inr (h.emp k hk hkc)
  -- allocation
  set cells2 := u.foldl (fun cs ci => if (cs.getD ci emptyCell).status = 0 then
        cs.set ci (g.alloc (ci / g.nbx) (ci % g.nbx)) else cs) cells1 with hc2
  have get2 : ∀ k, cells2.getD k emptyCell = if k ∈ u ∧ (cells1.getD k emptyCell).status = 0 then g.alloc (k / g.nbx) (k % g.nbx)
      else cells1.getD k emptyCell := allocAll_get g u cells1 (fun ci hci => by rw [g1.1]; exact hul ci hci)
  have g2 : CellsGood g pts.length cells2 := by
    refine ⟨by rw [hc2, allocAll_length]; exact g1.1, fun k hk => ?_⟩
    rw [get2]
    split_ifs with e
    · right; exact ⟨by simp [DGrid.alloc], CellGood.alloc g _ _ _⟩
    · exact g1.2 k hk
  have stu2 : ∀ ci ∈ u, (cells2.getD ci emptyCell).status = 1 := by
    intro ci hci
    rw [get2]
    split_ifs with e
    · rfl
    · have a := hu2 ci hci
      have b := h.st2 ci (hul ci hci)
      rw [st1]
      have c : (s.cells.getD ci emptyCell).status ≠ 0 := by
        intro h0; exact e ⟨hci, by rw [st1]; exact h0⟩
      omega
  have t2 : tmeas g pts.length cells2 = tmeas g pts.length cells1 := by
    unfold tmeas
    apply Finset.sum_congr rfl
    intro k hk
    unfold pmeas
    rw [get2]
    by_cases e : k ∈ u ∧ (cells1.getD k emptyCell).status = 0
    · rw [if_pos e, if_neg (by simp [DGrid.alloc]), if_pos e.2]
    · rw [if_neg e]
  have w2 : twork g cells2 = 0 := by
    unfold twork
    apply Finset.sum_eq_zero
    intro k hk
    rw [get2]
    split_ifs
    · rfl
    · rw [hall1 k (Finset.mem_range.mp hk)]; rfl
  -- edges before the exchange, away from the cells just solved
  have edge1 : ∀ B < g.nby * g.nbx, ∀ o ∈ neighOffs, g.neigh B o ∉ cur → EdgeOk g cells1 B o := by
    intro B hB o ho hA y x y' x' hs hst hdom
    rw [same1 _ hA] at hst hdom ⊢
    have hn := (neigh_spec hB o ho).1
    rcases h.edge B hB o ho y x y' x' hs hst hdom with h1 | h1 | h1
    · exact Or.inl h1
    · exact Or.inr (Or.inl (by rw [st1]; exact h1))
    · obtain ⟨-, b1, b2, -, -⟩ := hs.mem hbs hB _ _ (h.good.get hB h1.1).ok (h.good.get hn hst).ok
      exact Or.inr (Or.inr ⟨(low1 B hB h1.1).1, le_trans ((low1 B hB h1.1).2 y b1 x b2) h1.2⟩)
  have edge2 : ∀ B < g.nby * g.nbx, ∀ o ∈ neighOffs, g.neigh B o ∉ cur → EdgeOk g cells2 B o := by
    intro B hB o ho hA y x y' x' hs hst hdom
    by_cases eA : g.neigh B o ∈ u ∧ (cells1.getD (g.neigh B o) emptyCell).status = 0
    · exfalso
      rw [get2, if_pos eA] at hdom
      apply hdom
      unfold DCell.dom DGrid.alloc
      simp only
      rw [List.getD_eq_getElem?_getD, List.getElem?_replicate]
      split_ifs <;> rfl
    · rw [get2 (g.neigh B o), if_neg eA] at hst hdom ⊢
      rcases edge1 B hB o ho hA y x y' x' hs hst hdom with h1 | h1 | h1
      · exact Or.inl h1
      · right; left; rw [get2, if_neg (fun e => by rw [h1] at e; exact absurd e.2 (by decide))]; exact h1
      · right; right; rw [get2, if_neg (fun e => h1.1 e.2)]; exact h1
  -- the exchange
  obtain ⟨g3, l3, t3, same3, fe3⟩ := fetchAll_good hbs neighOffs (fun _ h => h) u hul cells2 (fun ci hci => by rw [stu2 ci hci]; decide) g2
  set cells3 := neighOffs.foldl (fun cs o => u.foldl (g.fetchCell o) cs) cells2 with hc3
  have edge3 : ∀ B < g.nby * g.nbx, ∀ o ∈ neighOffs, EdgeOk g cells3 B o := by
    intro B hB o ho
    by_cases hA : g.neigh B o ∈ cur
    · by_cases hBu : B ∈ u
      · exact fe3 o ho B hBu (stu2 _ (hcu _ hA))
      · have hB2 : (cells1.getD B emptyCell).status = 2 := by
          by_contra hne
          obtain ⟨o', ho', e⟩ := neigh_rev hB ho
          exact hBu (mem_relevant.mpr ⟨hB, _, hA, Or.inr ⟨o', ho', e, hne⟩⟩)
        intro y x y' x' hs hst hdom
        right; left
        rw [same3 B hBu, get2, if_neg (fun e => hBu e.1)]
        exact hB2
    · exact l3.edge hbs g2 hB (edge2 B hB o ho hA)
  have st3 : ∀ k, (cells3.getD k emptyCell).status = (cells2.getD k emptyCell).status := fun k => (l3 k).st
  have emp3 : ∀ k < g.nby * g.nbx, k ∉ u → (cells3.getD k emptyCell).current = [] := by
    intro k hk hku
    rw [same3 k hku, get2, if_neg (fun e => hku e.1)]
    exact hall1 k hk
  have low2 : LowCells g cells1 cells2 := by
    intro k hk hs
    rw [get2, if_neg (fun e => hs e.2)]
    exact ⟨hs, fun _ _ _ _ => le_rfl⟩
  have low3 : LowCells g cells2 cells3 := by
    intro k hk hs
    exact ⟨by rw [st3]; exact hs, (l3 k).low⟩
  have low : LowCells g s.cells cells3 := (low1.trans h.good g1 low2).trans h.good g2 low3
  have two3 : ∀ k, (cells3.getD k emptyCell).status = 2 → (s.cells.getD k emptyCell).status = 2 ∧ cells3.getD k emptyCell = s.cells.getD k emptyCell := by
    intro k hk
    have hku : k ∉ u := by
      intro hku
      rw [st3, stu2 k hku] at hk; exact absurd hk (by decide)
    have hkc : k ∉ cur := fun hkc => hku (hcu k hkc)
    have e : cells3.getD k emptyCell = s.cells.getD k emptyCell := by
      rw [same3 k hku, get2, if_neg (fun e => hku e.1), same1 k hkc]
    exact ⟨by rw [← e]; exact hk, e⟩
  have pt3 : ∀ p ∈ pts, OwnLow g cells3 p.1 p.2 zero := fun p hp =>
    OwnLow.mono hbs h.good low (hpts p hp).1 (hpts p hp).2 (h.pt p hp)
  have reach3 : ∀ i Y X, CellReach g pts i Y X → (cells3.getD (g.own Y X) emptyCell).status = 2 → OwnLow g cells3 Y X (g.d i Y X) := by
    intro i Y X hr h2
    obtain ⟨a, b⟩ := two3 _ h2
    have := h.reach i Y X hr a
    unfold OwnLow at this ⊢
    rw [b]; exact this
  -- finishing
  have okdone : ∀ ci ∈ u.filter (fun ci => (cells3.getD ci emptyCell).current.isEmpty &&
      decide ((cells3.getD ci emptyCell).dists.foldl max zero ≤ g.rminWork cells3 u)),
      ci < g.nby * g.nbx ∧ CellOk g pts.length (ci / g.nbx) (ci % g.nbx) (cells3.getD ci emptyCell) := by
    intro ci hci
    have := (List.mem_filter.mp hci).1
    exact ⟨hul ci this, (g3.get (hul ci this) (by rw [st3, stu2 ci this]; decide)).ok⟩
  obtain ⟨f1, f2, f3, f4⟩ := finishAll_spec hbs _ (⟨cells3, s.dists, s.domains⟩ : DState α) g3.1 okdone h.len
  set done := u.filter (fun ci => (cells3.getD ci emptyCell).current.isEmpty &&
      decide ((cells3.getD ci emptyCell).dists.foldl max zero ≤ g.rminWork cells3 u)) with hdone
  have hdu : ∀ ci ∈ done, ci ∈ u := fun ci hci => (List.mem_filter.mp hci).1
  set fin := done.foldl g.finish (⟨cells3, s.dists, s.domains⟩ : DState α) with hfin
  simp only at f1 f2 f3 f4
  have fstat : ∀ k, ((fin.cells.getD k emptyCell).status ≠ 0 ↔ (cells3.getD k emptyCell).status ≠ 0) := by
    intro k
    rw [f1]
    split_ifs with e
    · simp only
      have : (cells3.getD k emptyCell).status = 1 := by rw [st3]; exact stu2 k (hdu k e)
      rw [this]; decide
    · exact Iff.rfl
  have fcur : ∀ k, (fin.cells.getD k emptyCell).current = (cells3.getD k emptyCell).current := by
    intro k; rw [f1]; split_ifs <;> rfl
  have fval : ∀ k y x, (fin.cells.getD k emptyCell).val g y x = (cells3.getD k emptyCell).val g y x := by
    intro k y x; rw [f1]; split_ifs <;> rfl
  have fdom : ∀ k y x, (fin.cells.getD k emptyCell).dom y x = (cells3.getD k emptyCell).dom y x := by
    intro k y x; rw [f1]; split_ifs <;> rfl
  have fown : ∀ Y X v, OwnLow g fin.cells Y X v ↔ OwnLow g cells3 Y X v := by
    intro Y X v
    unfold OwnLow
    rw [fstat, fval]
  refine ⟨_, rfl, ⟨?_, ?_, ?_, ?_, ?_, ?_, ?_, ?_, ?_⟩, ?_⟩
  · -- good
    refine ⟨f2.trans g3.1, fun k hk => ?_⟩
    rcases g3.2 k hk with e | e
    · left
      refine ⟨?_, by rw [fcur]; exact e.2⟩
      by_contra hne
      exact (fstat k).mp hne e.1
    · right
      refine ⟨(fstat k).mpr e.1, ?_⟩
      rw [f1]
      split_ifs
      · exact ⟨e.2.ok.status 2, e.2.le, e.2.bnd, e.2.inv⟩
      · exact e.2
  · intro k hk
    rw [f1]
    split_ifs
    · exact le_rfl
    · rw [st3, get2]
      split_ifs
      · simp [DGrid.alloc]
      · rw [st1]; exact h.st2 k hk
  · intro B hB o ho y x y' x' hs hst hdom
    rw [fstat] at hst
    rw [fdom] at hdom
    rw [fcur, fval, fval, fstat]
    rcases edge3 B hB o ho y x y' x' hs hst hdom with h1 | h1 | h1
    · exact Or.inl h1
    · right; left
      rw [f1]
      split_ifs
      · rfl
      · exact h1
    · exact Or.inr (Or.inr h1)
  · intro ci hci
    have hm := List.mem_filter.mp hci
    refine ⟨hul ci hm.1, ?_⟩
    rw [f1, if_neg, st3]
    · exact stu2 ci hm.1
    · intro hd
      have := (List.mem_filter.mp hd).2
      simp only [Bool.and_eq_true] at this
      have h' := hm.2
      rw [this.1] at h'
      exact absurd h' (by decide)
  · intro k hk hn
    rw [fcur]
    by_cases hku : k ∈ u
    · by_contra hne
      refine hn (List.mem_filter.mpr ⟨hku, ?_⟩)
      rw [Bool.not_eq_true', Bool.eq_false_iff]
      exact fun e => hne (List.isEmpty_iff.mp e)
    · exact emp3 k hk hku
  · intro p hp; rw [fown]; exact pt3 p hp
  · intro i Y X hr h2
    rw [fown]
    obtain ⟨hY, hX, hoc, hd⟩ := front hbs g3 edge3 hpts hz pt3 (fun Y X => reach3 i Y X) hr
    rcases hd with hd | ⟨ci, hci, hcs, p, hp, hpv⟩
    · exact hd
    · rw [f1] at h2
      split_ifs at h2 with hdn
      · have hciu : ci ∈ u := by
          by_contra hne
          rw [emp3 ci hci hne] at hp; simp at hp
        have hcond := (List.mem_filter.mp hdn).2
        simp only [Bool.and_eq_true, decide_eq_true_eq] at hcond
        have hst : (cells3.getD (g.own Y X) emptyCell).status ≠ 0 := by rw [st3, stu2 _ (hdu _ hdn)]; decide
        refine ⟨hst, ?_⟩
        have hok := (g3.get (hul _ (hdu _ hdn)) hst).ok
        obtain ⟨m1, m2, -⟩ := own_local hbs hY hX hok
        have hmem : (cells3.getD (g.own Y X) emptyCell).val g (Y % g.bsize) (X % g.bsize) ∈ (cells3.getD (g.own Y X) emptyCell).dists := by
          have hlt : Y % g.bsize * (cells3.getD (g.own Y X) emptyCell).nx + X % g.bsize < (cells3.getD (g.own Y X) emptyCell).dists.length := by
            rw [hok.dl]; exact flat_lt (by omega) (by omega)
          unfold DCell.val
          rw [List.getD_eq_getElem _ g.rmax hlt]
          exact List.getElem_mem _
        have hmin : g.rminWork cells3 u ≤ (cells3.getD ci emptyCell).val g p.1 p.2 := by
          unfold DGrid.rminWork
          apply (foldl_min_le_mem _ _).2
          simp only [List.mem_flatMap, List.mem_map]
          exact ⟨ci, hciu, p, hp, rfl⟩
        exact le_trans ((foldl_max_ge_mem _ zero).2 _ hmem) (le_trans hcond.2 (le_trans hmin hpv))
      · exact reach3 i Y X hr h2
  · exact f3.trans h.len
  · intro Y hY X hX h2
    rw [f4 Y hY X hX, fval]
    split_ifs with hdn
    · rfl
    · rw [f1, if_neg hdn] at h2
      obtain ⟨a, b⟩ := two3 _ h2
      rw [b]; exact h.out Y hY X hX a
  · -- progress
    have tfin : tmeas g pts.length fin.cells = tmeas g pts.length cells3 := by
      unfold tmeas
      apply Finset.sum_congr rfl
      intro k hk
      unfold pmeas
      have : (fin.cells.getD k emptyCell).status = 0 ↔ (cells3.getD k emptyCell).status = 0 := not_iff_not.mp (fstat k)
      by_cases e : (cells3.getD k emptyCell).status = 0
      · rw [if_pos e, if_pos (this.mpr e)]
      · rw [if_neg e, if_neg (fun e' => e (this.mp e')), f1]
        split_ifs <;> rfl
    simp only
    by_cases hn : u.filter (fun ci => !(cells3.getD ci emptyCell).current.isEmpty) = []
    · exact Or.inr hn
    · left
      obtain ⟨ci, hci⟩ := List.exists_mem_of_ne_nil _ hn
      have hm := List.mem_filter.mp hci
      have hpos : 0 < (cells3.getD ci emptyCell).current.length := by
        apply List.length_pos_of_ne_nil
        intro e
        rw [e] at hm; simp at hm
      have : (cells3.getD ci emptyCell).current.length ≤ twork g cells3 :=
        Finset.single_le_sum (f := fun ci => (cells3.getD ci emptyCell).current.length) (fun _ _ => Nat.zero_le _) (Finset.mem_range.mpr (hul ci hm.1))
      rw [tfin]
      omega

/-- The main loop finishes; then every pixel of an allocated cell is copied out. -/
theorem loop_good (hbs : 0 < g.bsize) {zero : α} {pts : List (Nat × Nat)} (hpts : ∀ p ∈ pts, p.1 < g.ny ∧ p.2 < g.nx)
    (hz : ∀ i p, pts[i]? = some p → g.d i p.1 p.2 = zero) (fuel : Nat) (s : DState α) (cur : List Nat) (h : StInv g zero pts s cur)
    (hf : tmeas g pts.length s.cells + 1 < fuel ∨ cur = []) :
    ∃ t, g.loop zero fuel s cur = some t ∧ t.dists.length = g.ny * g.nx ∧
      (∀ p ∈ pts, t.dists.getD (p.1 * g.nx + p.2) g.rmax ≤ zero) ∧
      ∀ i Y X, CellReach g pts i Y X → Y < g.ny ∧ X < g.nx ∧ t.dists.getD (Y * g.nx + X) g.rmax = g.d i Y X := by
  have hend : ∀ s : DState α, StInv g zero pts s [] → ∃ t, some (((List.range (g.nby * g.nbx)).filter fun ci =>
      (s.cells.getD ci emptyCell).status = 1).foldl g.finish s) = some t ∧ t.dists.length = g.ny * g.nx ∧
      (∀ p ∈ pts, t.dists.getD (p.1 * g.nx + p.2) g.rmax ≤ zero) ∧
      ∀ i Y X, CellReach g pts i Y X → Y < g.ny ∧ X < g.nx ∧ t.dists.getD (Y * g.nx + X) g.rmax = g.d i Y X := by
    intro s h
    have hok : ∀ ci ∈ (List.range (g.nby * g.nbx)).filter (fun ci => decide ((s.cells.getD ci emptyCell).status = 1)),
        ci < g.nby * g.nbx ∧ CellOk g pts.length (ci / g.nbx) (ci % g.nbx) (s.cells.getD ci emptyCell) := by
      intro ci hci
      have hm := List.mem_filter.mp hci
      have h1 := of_decide_eq_true hm.2
      exact ⟨List.mem_range.mp hm.1, (h.good.get (List.mem_range.mp hm.1) (by rw [h1]; decide)).ok⟩
    obtain ⟨f1, f2, f3, f4⟩ := finishAll_spec hbs _ s h.good.1 hok h.len
    have hval : ∀ Y < g.ny, ∀ X < g.nx, (s.cells.getD (g.own Y X) emptyCell).status ≠ 0 →
        (((List.range (g.nby * g.nbx)).filter fun ci => (s.cells.getD ci emptyCell).status = 1).foldl g.finish s).dists.getD (Y * g.nx + X) g.rmax =
          (s.cells.getD (g.own Y X) emptyCell).val g (Y % g.bsize) (X % g.bsize) := by
      intro Y hY X hX h0
      obtain ⟨o1, -, -⟩ := own_spec hbs hY hX
      rw [f4 Y hY X hX]
      split_ifs with e
      · rfl
      · have h2 : (s.cells.getD (g.own Y X) emptyCell).status = 2 := by
          have := h.st2 _ o1
          have h1 : (s.cells.getD (g.own Y X) emptyCell).status ≠ 1 := by
            intro h1
            exact e (List.mem_filter.mpr ⟨List.mem_range.mpr o1, decide_eq_true h1⟩)
          omega
        exact h.out Y hY X hX h2
    refine ⟨_, rfl, f3.trans h.len, ?_, ?_⟩
    · intro p hp
      have hl := h.pt p hp
      rw [hval p.1 (hpts p hp).1 p.2 (hpts p hp).2 hl.1]
      exact hl.2
    · intro i Y X hr
      obtain ⟨hY, hX, hoc, hd⟩ := front hbs h.good h.edge hpts hz h.pt (fun Y X => h.reach i Y X) hr
      refine ⟨hY, hX, ?_⟩
      rcases hd with hd | ⟨ci, hci, -, p, hp, -⟩
      · rw [hval Y hY X hX hd.1]
        obtain ⟨o1, -, -⟩ := own_spec hbs hY hX
        have hok := (h.good.get o1 hd.1).ok
        obtain ⟨m1, m2, m3⟩ := own_local hbs hY hX hok
        obtain ⟨j, -, -, hv⟩ := pin_point hok (by omega) (by omega) m3 hoc hd.2
        exact hv
      · rw [h.emp ci hci (by simp)] at hp; simp at hp
  induction fuel generalizing s cur with
  | zero =>
    rcases hf with hf | rfl
    · omega
    · unfold DGrid.loop; exact hend s h
  | succ f ih =>
    cases cur with
    | nil => unfold DGrid.loop; exact hend s h
    | cons c cs =>
      have hm := hf.resolve_right (by simp)
      obtain ⟨r, e, hr, hp⟩ := round_good hbs hpts hz f s (c :: cs) h (by omega)
      obtain ⟨t, et, ht⟩ := ih r.1 r.2 hr (by
        rcases hp with hp | hp
        · left; omega
        · exact Or.inr hp)
      refine ⟨t, ?_, ht⟩
      unfold DGrid.loop
      rw [e]
      exact et

/-! ### The start -/

/-- A cell during setup: whatever has been set is on the work list. -/
structure CellInit (g : DGrid α) (npt by' bx : Nat) (c : DCell α) : Prop where
  ok : CellOk g npt by' bx c
  le : ∀ y < c.ny, ∀ x < c.nx, c.val g y x ≤ g.rmax
  bnd : ∀ p ∈ c.current, p.1 < c.ny ∧ p.2 < c.nx
  set : ∀ y < c.ny, ∀ x < c.nx, (y, x) ∈ c.current ∨ c.dom y x = none

structure InitInv (g : DGrid α) (npt : Nat) (s : List (DCell α) × List Nat) : Prop where
  len : s.1.length = g.nby * g.nbx
  cells : ∀ k < g.nby * g.nbx, (k ∉ s.2 ∧ (s.1.getD k emptyCell).status = 0 ∧ (s.1.getD k emptyCell).current = []) ∨
    (k ∈ s.2 ∧ (s.1.getD k emptyCell).status = 1 ∧ CellInit g npt (k / g.nbx) (k % g.nbx) (s.1.getD k emptyCell))
  cur : ∀ ci ∈ s.2, ci < g.nby * g.nbx

/-- The step of `DGrid.init` for one point, by name. -/
def DGrid.initStep (g : DGrid α) (zero : α) (s : List (DCell α) × List Nat) (p : (Nat × Nat) × Nat) : List (DCell α) × List Nat :=
  let by' := p.1.1 / g.bsize
  let bx := p.1.2 / g.bsize
  let ci := by' * g.nbx + bx
  let isNew := (s.1.getD ci emptyCell).status = 0
  let c := if isNew then g.alloc by' bx else s.1.getD ci emptyCell
  let yrel := p.1.1 - by' * g.bsize
  let xrel := p.1.2 - bx * g.bsize
  (s.1.set ci { c with current := c.current ++ [(yrel, xrel)],
                       domains := c.domains.set (yrel * c.nx + xrel) (some p.2),
                       dists := c.dists.set (yrel * c.nx + xrel) zero },
   if isNew then s.2 ++ [ci] else s.2)

theorem init_eq (g : DGrid α) (zero : α) (pts : List (Nat × Nat)) :
    g.init zero pts = pts.zipIdx.foldl (g.initStep zero) (List.replicate (g.nby * g.nbx) emptyCell, []) := rfl

theorem init_good (hbs : 0 < g.bsize) (zero : α) (hzr : zero < g.rmax) (pts : List (Nat × Nat)) (hpts : ∀ p ∈ pts, p.1 < g.ny ∧ p.2 < g.nx)
    (hz : ∀ i p, pts[i]? = some p → g.d i p.1 p.2 = zero) :
    StInv g zero pts ⟨(g.init zero pts).1, List.replicate (g.ny * g.nx) g.rmax, List.replicate (g.ny * g.nx) none⟩ (g.init zero pts).2 := by
  have key : ∀ (l : List (Nat × Nat)) (k : Nat) (s : List (DCell α) × List Nat), InitInv g pts.length s →
      (∀ i p, l[i]? = some p → p.1 < g.ny ∧ p.2 < g.nx ∧ k + i < pts.length ∧ g.d (k + i) p.1 p.2 = zero) →
      InitInv g pts.length ((l.zipIdx k).foldl (g.initStep zero) s) ∧
      ∀ Y < g.ny, ∀ X < g.nx, (OwnLow g s.1 Y X zero ∨ (Y, X) ∈ l) → OwnLow g ((l.zipIdx k).foldl (g.initStep zero) s).1 Y X zero := by
    intro l
    induction l with
    | nil => intro k s hs _; exact ⟨hs, fun Y _ X _ h => h.resolve_right (by simp)⟩
    | cons p l ih =>
      intro k s hs hl
      obtain ⟨hY, hX, hk, hd⟩ := hl 0 p (by simp)
      rw [Nat.add_zero] at hk hd
      rw [List.zipIdx_cons, List.foldl_cons]
      obtain ⟨o1, o2, o3⟩ := own_spec hbs hY hX
      have hyr : p.1 - p.1 / g.bsize * g.bsize = p.1 % g.bsize := by
        have := Nat.div_add_mod' p.1 g.bsize; omega
      have hxr : p.2 - p.2 / g.bsize * g.bsize = p.2 % g.bsize := by
        have := Nat.div_add_mod' p.2 g.bsize; omega
      have hlen : g.own p.1 p.2 < s.1.length := by rw [hs.len]; exact o1
      set c := if (s.1.getD (g.own p.1 p.2) emptyCell).status = 0 then g.alloc (p.1 / g.bsize) (p.2 / g.bsize) else
        s.1.getD (g.own p.1 p.2) emptyCell with hc
      have hci : CellInit g pts.length (g.own p.1 p.2 / g.nbx) (g.own p.1 p.2 % g.nbx) c := by
        rw [hc]
        split_ifs with e
        · rw [o2, o3]
          have ga := CellGood.alloc g pts.length (p.1 / g.bsize) (p.2 / g.bsize)
          refine ⟨ga.ok, ga.le, ga.bnd, fun y _ x _ => Or.inr ?_⟩
          unfold DCell.dom DGrid.alloc
          simp only
          rw [List.getD_eq_getElem?_getD, List.getElem?_replicate]
          split_ifs <;> rfl
        · rcases hs.cells _ o1 with h | h
          · exact absurd h.2.1 e
          · exact h.2.2
      have hcst : c.status = 1 := by
        rw [hc]
        split_ifs with e
        · rfl
        · rcases hs.cells _ o1 with h | h
          · exact absurd h.2.1 e
          · exact h.2.1
      obtain ⟨m1, m2, m3⟩ := own_local hbs hY hX hci.ok
      set c' := c.put (p.1 % g.bsize) (p.2 % g.bsize) zero (some k) (c.current ++ [(p.1 % g.bsize, p.2 % g.bsize)]) with hc'
      have hci' : CellInit g pts.length (g.own p.1 p.2 / g.nbx) (g.own p.1 p.2 % g.nbx) c' := by
        refine ⟨hci.ok.store _ _ (by omega) (by omega) _ _ (Or.inr ⟨k, hk, rfl, ?_⟩) _, ?_, ?_, ?_⟩
        · simp only; rw [m3]; exact hd.symm
        · intro y hy x hx
          rw [hc', hci.ok.put_val (by omega) (by omega) hx]
          split_ifs
          · exact hzr.le
          · exact hci.le y hy x hx
        · intro q hq
          rcases List.mem_append.mp hq with hq | hq
          · exact hci.bnd q hq
          · rw [List.mem_singleton] at hq
            rw [hq]
            exact ⟨show p.1 % g.bsize < c.ny by omega, show p.2 % g.bsize < c.nx by omega⟩
        · intro y hy x hx
          by_cases e : y = p.1 % g.bsize ∧ x = p.2 % g.bsize
          · left; rw [e.1, e.2]; exact List.mem_append_right _ (by simp)
          · rcases hci.set y hy x hx with h | h
            · exact Or.inl (List.mem_append_left _ h)
            · right; rw [hc', hci.ok.put_dom (by omega) (by omega) hx, if_neg e]; exact h
      have hstep : g.initStep zero s (p, k) =
          (s.1.set (g.own p.1 p.2) c', if (s.1.getD (g.own p.1 p.2) emptyCell).status = 0 then s.2 ++ [g.own p.1 p.2] else s.2) := by
        unfold DGrid.initStep
        simp only [hyr, hxr]
        rfl
      rw [hstep]
      have hget : ∀ j, (s.1.set (g.own p.1 p.2) c').getD j emptyCell = if j = g.own p.1 p.2 then c' else s.1.getD j emptyCell :=
        fun j => getD_set_dec _ _ _ _ _ hlen
      have hmem : ∀ j, j ∈ (if (s.1.getD (g.own p.1 p.2) emptyCell).status = 0 then s.2 ++ [g.own p.1 p.2] else s.2) ↔
          j ∈ s.2 ∨ j = g.own p.1 p.2 := by
        intro j
        split_ifs with e
        · simp
        · constructor
          · exact Or.inl
          · rintro (h | h)
            · exact h
            · rcases hs.cells _ o1 with h' | h'
              · exact absurd h'.2.1 e
              · rw [h]; exact h'.1
      obtain ⟨i1, i2⟩ := ih (k + 1) (s.1.set (g.own p.1 p.2) c', if (s.1.getD (g.own p.1 p.2) emptyCell).status = 0 then s.2 ++ [g.own p.1 p.2] else s.2)
        ⟨by simpa using hs.len, by
          intro j hj
          simp only
          rw [hget, hmem]
          split_ifs with e
          · right
            exact ⟨Or.inr e, hcst, by rw [e]; exact hci'⟩
          · rcases hs.cells j hj with h | h
            · left; exact ⟨fun h' => h'.elim h.1 e, h.2⟩
            · right; exact ⟨Or.inl h.1, h.2⟩, by
          intro j hj
          simp only at hj
          rw [hmem] at hj
          rcases hj with h | h
          · exact hs.cur j h
          · rw [h]; exact o1⟩ (by
          intro i q hq
          have := hl (i + 1) q (by simpa using hq)
          rw [show k + (i + 1) = k + 1 + i by omega] at this
          exact this)
      refine ⟨i1, fun Y hY' X hX' h => i2 Y hY' X hX' ?_⟩
      by_cases e : (Y, X) = p
      · left
        unfold OwnLow
        simp only
        have e1 : Y = p.1 := by rw [← e]
        have e2 : X = p.2 := by rw [← e]
        rw [e1, e2, hget, if_pos rfl]
        refine ⟨by show c.status ≠ 0; rw [hcst]; decide, ?_⟩
        rw [hc', hci.ok.put_val (by omega) (by omega) (by omega), if_pos ⟨rfl, rfl⟩]
      · rcases h with h | h
        · left
          unfold OwnLow at h ⊢
          simp only
          rw [hget]
          split_ifs with eo
          · refine ⟨by show c.status ≠ 0; rw [hcst]; decide, ?_⟩
            have hcc : c = s.1.getD (g.own p.1 p.2) emptyCell := by
              rw [hc, if_neg]
              rw [← eo]; exact h.1
            have hco := hci.ok
            rw [← eo] at hco
            obtain ⟨q1, q2, -⟩ := own_local hbs hY' hX' hco
            rw [hc', hci.ok.put_val (by omega) (by omega) (by omega)]
            split_ifs
            · exact le_rfl
            · rw [hcc, ← eo]; exact h.2
          · exact h
        · right
          rcases List.mem_cons.mp h with h | h
          · exact absurd h e
          · exact h
  have h0 : InitInv g pts.length (List.replicate (g.nby * g.nbx) emptyCell, ([] : List Nat)) := by
    refine ⟨by simp, fun k hk => Or.inl ⟨by simp, ?_, ?_⟩, by simp⟩
    · simp only [List.getD_eq_getElem?_getD, List.getElem?_replicate]
      split_ifs; rfl
    · simp only [List.getD_eq_getElem?_getD, List.getElem?_replicate]
      split_ifs; rfl
  obtain ⟨hi, hp⟩ := key pts 0 _ h0 (by
    intro i p hip
    have hm := List.mem_of_getElem? hip
    have hlt : i < pts.length := (List.getElem?_eq_some_iff.mp hip).1
    exact ⟨(hpts p hm).1, (hpts p hm).2, by omega, by rw [Nat.zero_add]; exact hz i p hip⟩)
  rw [← init_eq] at hi hp
  have hno2 : ∀ k < g.nby * g.nbx, ((g.init zero pts).1.getD k emptyCell).status ≠ 2 := by
    intro k hk
    rcases hi.cells k hk with h | h
    · rw [h.2.1]; decide
    · rw [h.2.1]; decide
  refine ⟨⟨hi.len, fun k hk => ?_⟩, fun k hk => ?_, ?_, ?_, ?_, ?_, ?_, by simp, ?_⟩
  · rcases hi.cells k hk with h | h
    · exact Or.inl h.2
    · right
      refine ⟨by rw [h.2.1]; decide, h.2.2.ok, h.2.2.le, h.2.2.bnd, fun y hy x hx => ?_⟩
      rcases h.2.2.set y hy x hx with h' | h'
      · exact Or.inl h'
      · right; intro i hi'; rw [h'] at hi'; cases hi'
  · rcases hi.cells k hk with h | h
    · simp only; rw [h.2.1]; decide
    · simp only; rw [h.2.1]; decide
  · intro B hB o ho y x y' x' hs hst hdom
    have hn := (neigh_spec hB o ho).1
    rcases hi.cells _ hn with h | h
    · exact absurd h.2.1 hst
    · have hin := Shared.mem (npt := pts.length) hbs hB hs (g.alloc (B / g.nbx) (B % g.nbx)) _ (CellOk.alloc g _ _ _) h.2.2.ok
      rcases h.2.2.set y' hin.2.2.2.1 x' hin.2.2.2.2 with h' | h'
      · exact Or.inl h'
      · exact absurd h' hdom
  · intro ci hci
    refine ⟨hi.cur ci hci, ?_⟩
    rcases hi.cells ci (hi.cur ci hci) with h | h
    · exact absurd hci h.1
    · exact h.2.1
  · intro k hk hn
    rcases hi.cells k hk with h | h
    · exact h.2.2
    · exact absurd h.1 hn
  · intro p hp'
    exact hp p.1 (hpts p hp').1 p.2 (hpts p hp').2 (Or.inr hp')
  · intro i Y X hr h2
    have hb : Y < g.ny ∧ X < g.nx := by
      clear h2
      induction hr with
      | start p hp' _ => exact hpts p (List.mem_of_getElem? hp')
      | step Y X o ho _ _ _ ih => exact neighbour_lt ih.1 ih.2 ((mem_neighOffs o).mpr ho)
    exact absurd h2 (hno2 _ (own_spec hbs hb.1 hb.2).1)
  · intro Y hY X hX h2
    exact absurd h2 (hno2 _ (own_spec hbs hY hX).1)

theorem tmeas_bound (g : DGrid α) (npt : Nat) (cs : List (DCell α)) (h : CellsGood g npt cs) :
    tmeas g npt cs ≤ g.nby * g.nbx * ((g.bsize + 1) * (g.bsize + 1) * npt) := by
  have hb : ∀ N b, blkLen N g.bsize b ≤ g.bsize + 1 := by
    intro N b
    unfold blkLen
    have : (b + 1) * g.bsize = b * g.bsize + g.bsize := by ring
    omega
  have hc : ∀ by' bx (c : DCell α), CellOk g npt by' bx c → cmeas g npt c ≤ (g.bsize + 1) * (g.bsize + 1) * npt := by
    intro by' bx c hc
    refine le_trans (cmeas_le g npt c) (Nat.mul_le_mul_right _ (Nat.mul_le_mul ?_ ?_))
    · rw [hc.ny]; exact hb _ _
    · rw [hc.nx]; exact hb _ _
  unfold tmeas
  calc _ ≤ ∑ _ci ∈ Finset.range (g.nby * g.nbx), (g.bsize + 1) * (g.bsize + 1) * npt := Finset.sum_le_sum fun k hk => by
        unfold pmeas
        split_ifs with e
        · exact hc _ _ _ (CellOk.alloc g npt _ _)
        · exact hc _ _ _ (h.get (Finset.mem_range.mp hk) e).ok
    _ = _ := by simp

end

/-- C80 (partial): the cellgrid method finishes on every map, for every distance function, cap and list of points. Every pixel
then holds the cap or the distance to some point (never too small), the pixels of the points hold at most zero, and in every
pixel that its only closest point reaches through pixels it is the only closest point of, along non-decreasing distances, the
result is exact. What is missing: exactness elsewhere, which `C80_exact_refuted` shows to fail. -/
theorem C80_cellgrid_partial (g : DGrid α) (zero : α) (pts : List (Nat × Nat)) (hbs : 0 < g.bsize) (hzr : zero < g.rmax)
    (hpts : ∀ p ∈ pts, p.1 < g.ny ∧ p.2 < g.nx) (hz : ∀ i p, pts[i]? = some p → g.d i p.1 p.2 = zero) (fuel : Nat)
    (hf : g.nby * g.nbx * ((g.bsize + 1) * (g.bsize + 1) * pts.length) + 1 < fuel) :
    ∃ s, g.run zero fuel pts = some s ∧ s.dists.length = g.ny * g.nx ∧
      (∀ Y < g.ny, ∀ X < g.nx, ∃ v, s.dists[Y * g.nx + X]? = some v ∧ (v = g.rmax ∨ ∃ i < pts.length, v = g.d i Y X)) ∧
      (∀ p ∈ pts, ∃ v ≤ zero, s.dists[p.1 * g.nx + p.2]? = some v) ∧
      ∀ i Y X, CellReach g pts i Y X → s.dists[Y * g.nx + X]? = some (g.d i Y X) ∧ ∀ j < pts.length, g.d i Y X ≤ g.d j Y X := by
  have hi := init_good hbs zero hzr pts hpts hz
  obtain ⟨t, e, h1, h2, h3⟩ := loop_good hbs hpts hz fuel _ _ hi
    (Or.inl (lt_of_le_of_lt (Nat.add_le_add_right (tmeas_bound g _ _ hi.good) 1) hf))
  have hget : ∀ k, k < g.ny * g.nx → t.dists[k]? = some (t.dists.getD k g.rmax) := by
    intro k hk
    rw [List.getElem?_eq_getElem (by rw [h1]; exact hk), List.getD_eq_getElem _ _ (by rw [h1]; exact hk)]
  refine ⟨t, e, h1, (C80_cellgrid_sound g zero fuel pts t hbs hpts hz e).2, ?_, ?_⟩
  · intro p hp
    exact ⟨_, h2 p hp, hget _ (flat_lt (hpts p hp).1 (hpts p hp).2)⟩
  · intro i Y X hr
    obtain ⟨hY, hX, hv⟩ := h3 i Y X hr
    refine ⟨by rw [hget _ (flat_lt hY hX), hv], fun j hj => ?_⟩
    have hoc : OnlyClosest g pts.length i Y X := by
      cases hr with
      | start p hp h => exact h
      | step Y X o ho hr h hm => exact h
    rcases hoc.2 j hj with h | h
    · rw [h]
    · exact h.le

/-- C80: with the default method the distance transform of every mask is produced in a bounded number of steps, so that
growing and shrinking a mask by a positive radius always gives a mask of the same shape. -/
theorem C80_transform_total (zero : α) (d : Nat → Nat → Nat → α) (rmax : α) (hzr : zero < rmax) (m : Mask) (hm : m.Ok)
    (hz : ∀ q < m.ny * m.nx, d q (q / m.nx) (q % m.nx) = zero) :
    ∃ n, ∀ fuel > n, ∃ t, distanceTransform (cellgridMethod zero fuel) zero d rmax m = some t ∧ t.length = m.ny * m.nx := by
  by_cases hE : findEdges m = []
  · refine ⟨0, fun fuel _ => ?_⟩
    unfold distanceTransform
    simp only [hE, if_true, Option.bind_eq_bind, Option.bind_some, Option.pure_def]
    exact ⟨_, rfl, by simp [hm.len]⟩
  · have hmem : ∀ q ∈ findEdges m, q < m.ny * m.nx := findEdges_lt m hm
    refine ⟨(⟨m.ny, m.nx, 32, d, rmax⟩ : DGrid α).nby * (⟨m.ny, m.nx, 32, d, rmax⟩ : DGrid α).nbx * (33 * 33 * (findEdges m).length) + 1,
      fun fuel hf => ?_⟩
    obtain ⟨s, e, hl, -⟩ := C80_cellgrid_partial ⟨m.ny, m.nx, 32, fun i => d ((findEdges m).getD i 0), rmax⟩ zero
      ((findEdges m).map fun q => (q / m.nx, q % m.nx)) (by simp) hzr (by
        intro p hp
        rw [List.mem_map] at hp
        obtain ⟨q, hq, rfl⟩ := hp
        exact ⟨Nat.div_lt_of_lt_mul (by rw [Nat.mul_comm]; exact hmem q hq), Nat.mod_lt _ hm.nx_pos⟩) (by
        intro i p hp
        rw [List.getElem?_map, Option.map_eq_some_iff] at hp
        obtain ⟨q, hq, rfl⟩ := hp
        have hq' : (findEdges m).getD i 0 = q := by rw [List.getD_eq_getElem?_getD, hq]; rfl
        simp only [hq']
        exact hz q (hmem q (List.mem_of_getElem? hq))) fuel (by rw [List.length_map]; exact hf)
    unfold distanceTransform cellgridMethod
    simp only [hE, if_false, Option.bind_eq_bind, Option.pure_def]
    rw [e]
    exact ⟨_, rfl, by simp [hm.len, hl]⟩

-- A 2 x 6 map with blocks of 2 x 2: the first point reaches pixel (1,2), in another block, and the result there is exact.
example : CellReach (⟨2, 6, 2, fun i y x => if i = 0 then 2 * y + x else (1 - y) * 5 + (5 - x) * 5, 100⟩ : DGrid Nat) [(0, 0), (1, 5)] 0 1 2 := by
  have h0 := CellReach.start (g := (⟨2, 6, 2, fun i y x => if i = 0 then 2 * y + x else (1 - y) * 5 + (5 - x) * 5, 100⟩ : DGrid Nat))
    (pts := [(0, 0), (1, 5)]) (i := 0) (0, 0) rfl ⟨by decide, fun j hj => by rcases j with _ | _ | j <;> simp at hj ⊢⟩
  have h1 := CellReach.step 0 0 (0, 1) (by decide) h0 ⟨by decide, fun j hj => by rcases j with _ | _ | j <;> simp [neighbour] at hj ⊢⟩ (by decide)
  have h2 := CellReach.step 0 1 (0, 1) (by decide) h1 ⟨by decide, fun j hj => by rcases j with _ | _ | j <;> simp [neighbour] at hj ⊢⟩ (by decide)
  exact CellReach.step 0 2 (1, 0) (by decide) h2 ⟨by decide, fun j hj => by rcases j with _ | _ | j <;> simp [neighbour] at hj ⊢⟩ (by decide)

example : ((⟨2, 6, 2, fun i y x => if i = 0 then 2 * y + x else (1 - y) * 5 + (5 - x) * 5, 100⟩ : DGrid Nat).run 0 60
    [(0, 0), (1, 5)]).map (·.dists) = some [0, 1, 2, 3, 4, 5, 2, 3, 4, 5, 5, 0] := by decide +kernel

end Pixell
