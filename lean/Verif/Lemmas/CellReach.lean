import Verif.Lemmas.CellGrid
import Verif.Props.Bubble

/-
Towards C80 for the cellgrid method: how the front of a point moves from cell to cell.
-/
namespace Pixell

variable {α : Type} [LinearOrder α]
set_option linter.unusedSectionVars false

/-- Point `i` is closer to pixel `(Y,X)` than the cap and than every point with other distances. -/
def OnlyClosest (g : DGrid α) (npt i Y X : Nat) : Prop := g.d i Y X < g.rmax ∧ ∀ j < npt, g.d j = g.d i ∨ g.d i Y X < g.d j Y X

/-- The pixels point `i` reaches by steps that do not come closer to it, through pixels to which it is the only closest point. -/
inductive CellReach (g : DGrid α) (pts : List (Nat × Nat)) (i : Nat) : Nat → Nat → Prop where
  | start (p : Nat × Nat) (hp : pts[i]? = some p) (h : OnlyClosest g pts.length i p.1 p.2) : CellReach g pts i p.1 p.2
  | step (Y X : Nat) (o : Int × Int) (ho : o ∈ fourDirs) (hr : CellReach g pts i Y X)
      (h : OnlyClosest g pts.length i (neighbour g.ny g.nx Y X o).1 (neighbour g.ny g.nx Y X o).2)
      (hm : g.d i Y X ≤ g.d i (neighbour g.ny g.nx Y X o).1 (neighbour g.ny g.nx Y X o).2) :
      CellReach g pts i (neighbour g.ny g.nx Y X o).1 (neighbour g.ny g.nx Y X o).2

section
variable {g : DGrid α} {npt : Nat}

/-- Some pixel with a value not above `v` is waiting to be worked on. -/
def HasWork (g : DGrid α) (cs : List (DCell α)) (v : α) : Prop := ∃ ci < g.nby * g.nbx, (cs.getD ci emptyCell).status ≠ 0 ∧
  ∃ p ∈ (cs.getD ci emptyCell).current, (cs.getD ci emptyCell).val g p.1 p.2 ≤ v

theorem HasWork.mono {cs : List (DCell α)} {v w : α} (h : HasWork g cs v) (hv : v ≤ w) : HasWork g cs w := by
  obtain ⟨ci, h1, h2, p, h3, h4⟩ := h
  exact ⟨ci, h1, h2, p, h3, le_trans h4 hv⟩

theorem pin_point {by' bx : Nat} {c : DCell α} (hc : CellOk g npt by' bx c) {y x Y X i : Nat} (hy : y < c.ny) (hx : x < c.nx)
    (hp : ∀ j, g.dist c j y x = g.d j Y X) (h : OnlyClosest g npt i Y X) (hv : c.val g y x ≤ g.d i Y X) :
    ∃ j, c.dom y x = some j ∧ g.d j = g.d i ∧ c.val g y x = g.d i Y X := by
  rcases hc.pix y hy x hx with ⟨a, -⟩ | ⟨j, hj, a, b⟩
  · exfalso
    have : c.val g y x = g.rmax := a
    rw [this] at hv
    exact absurd h.1 (not_lt.mpr hv)
  · have b' : c.val g y x = g.d j Y X := by rw [← hp j]; exact b
    rcases h.2 j hj with e | e
    · exact ⟨j, a, e, by rw [b', e]⟩
    · rw [b'] at hv; exact absurd e (not_lt.mpr hv)

theorem inner_step {cs : List (DCell α)} (hg : CellsGood g npt cs) {A : Nat} (hA : A < g.nby * g.nbx)
    (hst : (cs.getD A emptyCell).status ≠ 0) {y x y2 x2 Y X Y2 X2 i : Nat} {o : Int × Int} (ho : o ∈ neighOffs)
    (hy : y < (cs.getD A emptyCell).ny) (hx : x < (cs.getD A emptyCell).nx) (hy2 : y2 < (cs.getD A emptyCell).ny)
    (hx2 : x2 < (cs.getD A emptyCell).nx) (e1 : (y : Int) + o.1 = y2) (e2 : (x : Int) + o.2 = x2)
    (hp : ∀ j, g.dist (cs.getD A emptyCell) j y x = g.d j Y X) (hp2 : ∀ j, g.dist (cs.getD A emptyCell) j y2 x2 = g.d j Y2 X2)
    (h : OnlyClosest g npt i Y X) (hr : g.d i Y2 X2 < g.rmax) (hm : g.d i Y X ≤ g.d i Y2 X2)
    (hv : (cs.getD A emptyCell).val g y x ≤ g.d i Y X) :
    (cs.getD A emptyCell).val g y2 x2 ≤ g.d i Y2 X2 ∨ HasWork g cs (g.d i Y2 X2) := by
  have hc := hg.get hA hst
  obtain ⟨j, hj, hji, hv'⟩ := pin_point hc.ok hy hx hp h hv
  rcases hc.inv y hy x hx with hw | hs
  · right
    exact ⟨A, hA, hst, (y, x), hw, le_trans hv hm⟩
  · left
    rcases hs j hj o ho y2 x2 e1 e2 hy2 hx2 with h1 | h1
    · rw [hp2 j, hji] at h1; exact h1
    · rw [hp2 j, hji] at h1; exact absurd hr (not_lt.mpr h1)

theorem edge_step {cs : List (DCell α)} (hbs : 0 < g.bsize) (hg : CellsGood g npt cs) {B : Nat} (hB : B < g.nby * g.nbx) {o : Int × Int}
    (he : EdgeOk g cs B o) {y x y' x' : Nat} (hs : Shared g B o y x y' x') (hst : (cs.getD (g.neigh B o) emptyCell).status ≠ 0)
    {v : α} (hv : (cs.getD (g.neigh B o) emptyCell).val g y' x' ≤ v) (hr : v < g.rmax) :
    ((cs.getD B emptyCell).status ≠ 0 ∧ (cs.getD B emptyCell).val g y x ≤ v) ∨ HasWork g cs v ∨ (cs.getD B emptyCell).status = 2 := by
  have hn := (neigh_spec hB o hs.dir).1
  have hA := hg.get hn hst
  obtain ⟨-, -, -, q3, q4⟩ := hs.mem hbs hB (g.alloc (B / g.nbx) (B % g.nbx)) _ (CellOk.alloc g npt _ _) hA.ok
  have hdom : (cs.getD (g.neigh B o) emptyCell).dom y' x' ≠ none := by
    intro hd
    rcases hA.ok.pix y' q3 x' q4 with ⟨a, -⟩ | ⟨j, -, a, -⟩
    · have : (cs.getD (g.neigh B o) emptyCell).val g y' x' = g.rmax := a
      rw [this] at hv
      exact absurd hr (not_lt.mpr hv)
    · unfold DCell.dom at hd; rw [hd] at a; cases a
  rcases he y x y' x' hs hst hdom with h | h | h
  · exact Or.inr (Or.inl ⟨_, hn, hst, _, h, hv⟩)
  · exact Or.inr (Or.inr h)
  · exact Or.inl ⟨h.1, le_trans h.2 hv⟩

/-- The cell of a map pixel holds a value not above `v`. -/
def OwnLow (g : DGrid α) (cs : List (DCell α)) (Y X : Nat) (v : α) : Prop := (cs.getD (g.own Y X) emptyCell).status ≠ 0 ∧
  (cs.getD (g.own Y X) emptyCell).val g (Y % g.bsize) (X % g.bsize) ≤ v

/-- Coordinates of a map pixel in its cell. -/
theorem own_local (hbs : 0 < g.bsize) {Y X : Nat} (hY : Y < g.ny) (hX : X < g.nx) {c : DCell α}
    (hc : CellOk g npt (g.own Y X / g.nbx) (g.own Y X % g.nbx) c) :
    Y % g.bsize + 1 < c.ny ∧ X % g.bsize + 1 < c.nx ∧ ∀ j, g.dist c j (Y % g.bsize) (X % g.bsize) = g.d j Y X := by
  obtain ⟨o1, o2, o3⟩ := own_spec hbs hY hX
  obtain ⟨a1, a2, a3⟩ := blk_of hbs hY
  obtain ⟨b1, b2, b3⟩ := blk_of hbs hX
  refine ⟨by rw [hc.ny, o2]; exact a2, by rw [hc.nx, o3]; exact b2, fun j => ?_⟩
  rw [hc.dist_eq, o2, o3, a3, b3]

/-- Along the first axis, one step. `up` says which of the two pixels has the larger coordinate. -/
theorem step_x {cs : List (DCell α)} (hbs : 0 < g.bsize) (hg : CellsGood g npt cs)
    (he : ∀ B < g.nby * g.nbx, ∀ o ∈ neighOffs, EdgeOk g cs B o) {Y X X2 i : Nat} (hY : Y < g.ny) (hX : X < g.nx) (hX2 : X2 < g.nx)
    (hadj : X2 = (X + 1) % g.nx ∨ X = (X2 + 1) % g.nx) (h : OnlyClosest g npt i Y X) (hr : g.d i Y X2 < g.rmax)
    (hm : g.d i Y X ≤ g.d i Y X2) (h2 : (cs.getD (g.own Y X2) emptyCell).status = 2 → OwnLow g cs Y X2 (g.d i Y X2))
    (hv : OwnLow g cs Y X (g.d i Y X)) : OwnLow g cs Y X2 (g.d i Y X2) ∨ HasWork g cs (g.d i Y X2) := by
  obtain ⟨o1, o2, o3⟩ := own_spec hbs hY hX
  obtain ⟨p1, p2, p3⟩ := own_spec hbs hY hX2
  have hA := (hg.get o1 hv.1).ok
  obtain ⟨l1, l2, l3⟩ := own_local hbs hY hX hA
  rcases hadj with hadj | hadj
  · rcases blk_step hbs hX with ⟨s1, s2, s3⟩ | ⟨s1, s2, s3⟩
    · -- same cell, going up
      rw [← hadj] at s2 s3
      have hown : g.own Y X2 = g.own Y X := by unfold DGrid.own; rw [s2]
      have := inner_step hg o1 hv.1 (o := (0, 1)) (by simp [neighOffs]) (y := Y % g.bsize) (x := X % g.bsize) (y2 := Y % g.bsize)
        (x2 := X % g.bsize + 1) (Y2 := Y) (X2 := X2) (by omega) (by omega) (by omega)
        (by rw [hA.nx, o3]; omega) (by simp) (by push_cast; ring) l3 (by
          have hA2 := hA
          rw [← hown] at hA2
          have := (own_local hbs hY hX2 hA2).2.2
          rw [s3, hown] at this
          exact this) h hr hm hv.2
      rcases this with h | h
      · left; unfold OwnLow; rw [hown, s3]; exact ⟨hv.1, h⟩
      · exact Or.inr h
    · -- into the next cell
      rw [← hadj] at s2 s3
      by_cases hB2 : (cs.getD (g.own Y X2) emptyCell).status = 2
      · exact Or.inl (h2 hB2)
      have hneigh : g.neigh (g.own Y X2) (0, -1) = g.own Y X := by
        unfold DGrid.neigh
        simp only
        have hl : Y / g.bsize < g.nby := (blk_of hbs hY).1
        have hl2 : X / g.bsize < g.nbx := (blk_of hbs hX).1
        have hq : X2 / g.bsize = (wrap1 ((X / g.bsize : Nat) + 1) g.nbx).toNat := s2
        rw [p2, p3, wrap1_same hl, hq, blk_next_prev hl2]
        rfl
      have hpix : ∀ j, g.dist (cs.getD (g.own Y X) emptyCell) j (Y % g.bsize) (X % g.bsize + 1) = g.d j Y X2 := by
        intro j
        rw [hA.dist_eq, o2, o3, (blk_of hbs hY).2.2]
        have : X % g.bsize + 1 = blkLen g.nx g.bsize (X / g.bsize) - 1 := by omega
        rw [this, blkPix_last hbs (blk_of hbs hX).1, ← s2]
        have := (blk_of hbs hX2).2.2
        rw [s3] at this
        rw [this]
      have := inner_step hg o1 hv.1 (o := (0, 1)) (by simp [neighOffs]) (y := Y % g.bsize) (x := X % g.bsize) (y2 := Y % g.bsize)
        (x2 := X % g.bsize + 1) (Y2 := Y) (X2 := X2) (by omega) (by omega) (by omega)
        (by omega) (by simp) (by push_cast; ring) l3 hpix h hr hm hv.2
      rcases this with h' | h'
      · have hs : Shared g (g.own Y X2) (0, -1) (Y % g.bsize) 0 (Y % g.bsize) (X % g.bsize + 1) := by
          left
          refine ⟨rfl, rfl, ?_, rfl, ?_⟩
          · rw [hneigh, o3]; omega
          · rw [p2]; exact lt_of_lt_of_le (Nat.lt_succ_self _) (le_of_lt (blk_of hbs hY).2.1)
        rcases edge_step hbs hg p1 (he _ p1 _ (by simp [neighOffs])) hs (by rw [hneigh]; exact hv.1) (by rw [hneigh]; exact h') hr with h'' | h'' | h''
        · left; unfold OwnLow; rw [s3]; exact h''
        · exact Or.inr h''
        · exact absurd h'' hB2
      · exact Or.inr h'
  · rcases blk_step hbs hX2 with ⟨s1, s2, s3⟩ | ⟨s1, s2, s3⟩
    · -- same cell, going down
      rw [← hadj] at s2 s3
      have hown : g.own Y X2 = g.own Y X := by unfold DGrid.own; rw [s2]
      have := inner_step hg o1 hv.1 (o := (0, -1)) (by simp [neighOffs]) (y := Y % g.bsize) (x := X % g.bsize) (y2 := Y % g.bsize)
        (x2 := X2 % g.bsize) (Y2 := Y) (X2 := X2) (by omega) (by omega) (by omega)
        (by rw [hA.nx, o3, s2]; omega) (by simp) (by rw [s3]; push_cast; ring) l3 (by
          have hA2 := hA
          rw [← hown] at hA2
          have := (own_local hbs hY hX2 hA2).2.2
          rw [hown] at this
          exact this) h hr hm hv.2
      rcases this with h | h
      · left; unfold OwnLow; rw [hown]; exact ⟨hv.1, h⟩
      · exact Or.inr h
    · -- into the previous cell
      rw [← hadj] at s2 s3
      by_cases hB2 : (cs.getD (g.own Y X2) emptyCell).status = 2
      · exact Or.inl (h2 hB2)
      have hneigh : g.neigh (g.own Y X2) (0, 1) = g.own Y X := by
        unfold DGrid.neigh
        simp only
        have hl : Y / g.bsize < g.nby := (blk_of hbs hY).1
        have hq : X / g.bsize = (wrap1 ((X2 / g.bsize : Nat) + 1) g.nbx).toNat := s2
        rw [p2, p3, wrap1_same hl, ← hq]
        rfl
      have hs : Shared g (g.own Y X2) (0, 1) (Y % g.bsize) (X2 % g.bsize + 1) (Y % g.bsize) 0 := by
        right; left
        refine ⟨rfl, ?_, rfl, rfl, ?_⟩
        · rw [p3]; omega
        · rw [p2]; exact lt_of_lt_of_le (Nat.lt_succ_self _) (le_of_lt (blk_of hbs hY).2.1)
      have hv2 := hv.2
      rw [s3] at hv2
      rcases edge_step hbs hg p1 (he _ p1 _ (by simp [neighOffs])) hs (by rw [hneigh]; exact hv.1) (by rw [hneigh]; exact hv2) h.1 with h'' | h'' | h''
      · have hB := (hg.get p1 h''.1).ok
        obtain ⟨m1, m2, m3⟩ := own_local hbs hY hX2 hB
        have hpix : ∀ j, g.dist (cs.getD (g.own Y X2) emptyCell) j (Y % g.bsize) (X2 % g.bsize + 1) = g.d j Y X := by
          intro j
          rw [hB.dist_eq, p2, p3, (blk_of hbs hY).2.2]
          have : X2 % g.bsize + 1 = blkLen g.nx g.bsize (X2 / g.bsize) - 1 := by omega
          rw [this, blkPix_last hbs (blk_of hbs hX2).1, ← s2]
          have := (blk_of hbs hX).2.2
          rw [s3] at this
          rw [this]
        have := inner_step hg p1 h''.1 (o := (0, -1)) (by simp [neighOffs]) (y := Y % g.bsize) (x := X2 % g.bsize + 1) (y2 := Y % g.bsize)
          (x2 := X2 % g.bsize) (Y2 := Y) (X2 := X2) (by omega) (by omega) (by omega)
          (by omega) (by simp) (by push_cast; ring) hpix m3 h hr hm h''.2
        rcases this with h | h
        · left; exact ⟨h''.1, h⟩
        · exact Or.inr h
      · exact Or.inr (h''.mono hm)
      · exact absurd h'' hB2

/-- The same along the other axis. -/
theorem step_y {cs : List (DCell α)} (hbs : 0 < g.bsize) (hg : CellsGood g npt cs)
    (he : ∀ B < g.nby * g.nbx, ∀ o ∈ neighOffs, EdgeOk g cs B o) {Y X Y2 i : Nat} (hY : Y < g.ny) (hX : X < g.nx) (hY2 : Y2 < g.ny)
    (hadj : Y2 = (Y + 1) % g.ny ∨ Y = (Y2 + 1) % g.ny) (h : OnlyClosest g npt i Y X) (hr : g.d i Y2 X < g.rmax)
    (hm : g.d i Y X ≤ g.d i Y2 X) (h2 : (cs.getD (g.own Y2 X) emptyCell).status = 2 → OwnLow g cs Y2 X (g.d i Y2 X))
    (hv : OwnLow g cs Y X (g.d i Y X)) : OwnLow g cs Y2 X (g.d i Y2 X) ∨ HasWork g cs (g.d i Y2 X) := by
  obtain ⟨o1, o2, o3⟩ := own_spec hbs hY hX
  obtain ⟨p1, p2, p3⟩ := own_spec hbs hY2 hX
  have hA := (hg.get o1 hv.1).ok
  obtain ⟨l1, l2, l3⟩ := own_local hbs hY hX hA
  rcases hadj with hadj | hadj
  · rcases blk_step hbs hY with ⟨s1, s2, s3⟩ | ⟨s1, s2, s3⟩
    · rw [← hadj] at s2 s3
      have hown : g.own Y2 X = g.own Y X := by unfold DGrid.own; rw [s2]
      have := inner_step hg o1 hv.1 (o := (1, 0)) (by simp [neighOffs]) (y := Y % g.bsize) (x := X % g.bsize) (y2 := Y % g.bsize + 1)
        (x2 := X % g.bsize) (Y2 := Y2) (X2 := X) (by omega) (by omega) (by rw [hA.ny, o2]; omega)
        (by omega) (by push_cast; ring) (by simp) l3 (by
          have hA2 := hA
          rw [← hown] at hA2
          have := (own_local hbs hY2 hX hA2).2.2
          rw [s3, hown] at this
          exact this) h hr hm hv.2
      rcases this with h | h
      · left; unfold OwnLow; rw [hown, s3]; exact ⟨hv.1, h⟩
      · exact Or.inr h
    · rw [← hadj] at s2 s3
      by_cases hB2 : (cs.getD (g.own Y2 X) emptyCell).status = 2
      · exact Or.inl (h2 hB2)
      have hneigh : g.neigh (g.own Y2 X) (-1, 0) = g.own Y X := by
        unfold DGrid.neigh
        simp only
        have hl : X / g.bsize < g.nbx := (blk_of hbs hX).1
        have hl2 : Y / g.bsize < g.nby := (blk_of hbs hY).1
        have hq : Y2 / g.bsize = (wrap1 ((Y / g.bsize : Nat) + 1) g.nby).toNat := s2
        rw [p2, p3, wrap1_same hl, hq, blk_next_prev hl2]
        rfl
      have hpix : ∀ j, g.dist (cs.getD (g.own Y X) emptyCell) j (Y % g.bsize + 1) (X % g.bsize) = g.d j Y2 X := by
        intro j
        rw [hA.dist_eq, o2, o3, (blk_of hbs hX).2.2]
        have : Y % g.bsize + 1 = blkLen g.ny g.bsize (Y / g.bsize) - 1 := by omega
        rw [this, blkPix_last hbs (blk_of hbs hY).1, ← s2]
        have := (blk_of hbs hY2).2.2
        rw [s3] at this
        rw [this]
      have := inner_step hg o1 hv.1 (o := (1, 0)) (by simp [neighOffs]) (y := Y % g.bsize) (x := X % g.bsize) (y2 := Y % g.bsize + 1)
        (x2 := X % g.bsize) (Y2 := Y2) (X2 := X) (by omega) (by omega) (by omega)
        (by omega) (by push_cast; ring) (by simp) l3 hpix h hr hm hv.2
      rcases this with h' | h'
      · have hs : Shared g (g.own Y2 X) (-1, 0) 0 (X % g.bsize) (Y % g.bsize + 1) (X % g.bsize) := by
          right; right; left
          refine ⟨rfl, rfl, ?_, rfl, ?_⟩
          · rw [hneigh, o2]; omega
          · rw [p3]; exact lt_of_lt_of_le (Nat.lt_succ_self _) (le_of_lt (blk_of hbs hX).2.1)
        rcases edge_step hbs hg p1 (he _ p1 _ (by simp [neighOffs])) hs (by rw [hneigh]; exact hv.1) (by rw [hneigh]; exact h') hr with h'' | h'' | h''
        · left; unfold OwnLow; rw [s3]; exact h''
        · exact Or.inr h''
        · exact absurd h'' hB2
      · exact Or.inr h'
  · rcases blk_step hbs hY2 with ⟨s1, s2, s3⟩ | ⟨s1, s2, s3⟩
    · rw [← hadj] at s2 s3
      have hown : g.own Y2 X = g.own Y X := by unfold DGrid.own; rw [s2]
      have := inner_step hg o1 hv.1 (o := (-1, 0)) (by simp [neighOffs]) (y := Y % g.bsize) (x := X % g.bsize) (y2 := Y2 % g.bsize)
        (x2 := X % g.bsize) (Y2 := Y2) (X2 := X) (by omega) (by omega) (by rw [hA.ny, o2, s2]; omega)
        (by omega) (by rw [s3]; push_cast; ring) (by simp) l3 (by
          have hA2 := hA
          rw [← hown] at hA2
          have := (own_local hbs hY2 hX hA2).2.2
          rw [hown] at this
          exact this) h hr hm hv.2
      rcases this with h | h
      · left; unfold OwnLow; rw [hown]; exact ⟨hv.1, h⟩
      · exact Or.inr h
    · rw [← hadj] at s2 s3
      by_cases hB2 : (cs.getD (g.own Y2 X) emptyCell).status = 2
      · exact Or.inl (h2 hB2)
      have hneigh : g.neigh (g.own Y2 X) (1, 0) = g.own Y X := by
        unfold DGrid.neigh
        simp only
        have hl : X / g.bsize < g.nbx := (blk_of hbs hX).1
        have hq : Y / g.bsize = (wrap1 ((Y2 / g.bsize : Nat) + 1) g.nby).toNat := s2
        rw [p2, p3, wrap1_same hl, ← hq]
        rfl
      have hs : Shared g (g.own Y2 X) (1, 0) (Y2 % g.bsize + 1) (X % g.bsize) 0 (X % g.bsize) := by
        right; right; right
        refine ⟨rfl, ?_, rfl, rfl, ?_⟩
        · rw [p2]; omega
        · rw [p3]; exact lt_of_lt_of_le (Nat.lt_succ_self _) (le_of_lt (blk_of hbs hX).2.1)
      have hv2 := hv.2
      rw [s3] at hv2
      rcases edge_step hbs hg p1 (he _ p1 _ (by simp [neighOffs])) hs (by rw [hneigh]; exact hv.1) (by rw [hneigh]; exact hv2) h.1 with h'' | h'' | h''
      · have hB := (hg.get p1 h''.1).ok
        obtain ⟨m1, m2, m3⟩ := own_local hbs hY2 hX hB
        have hpix : ∀ j, g.dist (cs.getD (g.own Y2 X) emptyCell) j (Y2 % g.bsize + 1) (X % g.bsize) = g.d j Y X := by
          intro j
          rw [hB.dist_eq, p2, p3, (blk_of hbs hX).2.2]
          have : Y2 % g.bsize + 1 = blkLen g.ny g.bsize (Y2 / g.bsize) - 1 := by omega
          rw [this, blkPix_last hbs (blk_of hbs hY2).1, ← s2]
          have := (blk_of hbs hY).2.2
          rw [s3] at this
          rw [this]
        have := inner_step hg p1 h''.1 (o := (-1, 0)) (by simp [neighOffs]) (y := Y2 % g.bsize + 1) (x := X % g.bsize) (y2 := Y2 % g.bsize)
          (x2 := X % g.bsize) (Y2 := Y2) (X2 := X) (by omega) (by omega) (by omega)
          (by omega) (by push_cast; ring) (by simp) hpix m3 h hr hm h''.2
        rcases this with h | h
        · left; exact ⟨h''.1, h⟩
        · exact Or.inr h
      · exact Or.inr (h''.mono hm)
      · exact absurd h'' hB2

theorem mod_pred {N X : Nat} (hX : X < N) : (((X : Int) + -1) % N).toNat < N ∧ X = ((((X : Int) + -1) % N).toNat + 1) % N := by
  by_cases h : X = 0
  · subst h
    have : (((0 : Nat) : Int) + -1) % (N : Int) = N - 1 := by
      rw [show ((0 : Nat) : Int) + -1 = -1 by simp, Int.emod_def]
      have : (-1 : Int) / N = -1 := by
        rw [Int.ediv_eq_iff_of_pos (by omega)]; constructor <;> linarith
      rw [this]; ring
    rw [this]
    have e : ((N : Int) - 1).toNat = N - 1 := by omega
    rw [e, show N - 1 + 1 = N by omega, Nat.mod_self]
    omega
  · have : ((X : Int) + -1) % (N : Int) = X - 1 := by
      rw [Int.emod_eq_of_lt (by omega) (by omega)]; ring
    rw [this]
    have e : ((X : Int) - 1).toNat = X - 1 := by omega
    rw [e, show X - 1 + 1 = X by omega, Nat.mod_eq_of_lt hX]
    omega

theorem mod_succ {N X : Nat} : (((X : Int) + 1) % N).toNat = (X + 1) % N := by
  have : ((X : Int) + 1) % (N : Int) = ((X + 1) % N : Nat) := by push_cast; rfl
  rw [this, Int.toNat_natCast]

theorem mod_zero' {N X : Nat} (hX : X < N) : (((X : Int) + 0) % N).toNat = X := by
  rw [add_zero, Int.emod_eq_of_lt (by omega) (by omega), Int.toNat_natCast]

/-- Every reached pixel is settled, or there is work to do not farther than it. -/
theorem front {cs : List (DCell α)} {pts : List (Nat × Nat)} {zero : α} (hbs : 0 < g.bsize) (hg : CellsGood g pts.length cs)
    (he : ∀ B < g.nby * g.nbx, ∀ o ∈ neighOffs, EdgeOk g cs B o) (hpts : ∀ p ∈ pts, p.1 < g.ny ∧ p.2 < g.nx)
    (hz : ∀ i p, pts[i]? = some p → g.d i p.1 p.2 = zero) (hpt : ∀ p ∈ pts, OwnLow g cs p.1 p.2 zero) {i : Nat}
    (h2 : ∀ Y X, CellReach g pts i Y X → (cs.getD (g.own Y X) emptyCell).status = 2 → OwnLow g cs Y X (g.d i Y X)) {Y X : Nat}
    (hr : CellReach g pts i Y X) : Y < g.ny ∧ X < g.nx ∧ OnlyClosest g pts.length i Y X ∧
      (OwnLow g cs Y X (g.d i Y X) ∨ HasWork g cs (g.d i Y X)) := by
  induction hr with
  | start p hp h =>
    have hm := List.mem_of_getElem? hp
    refine ⟨(hpts p hm).1, (hpts p hm).2, h, Or.inl ?_⟩
    rw [hz i p hp]
    exact hpt p hm
  | step Y X o ho hr' h hm ih =>
    obtain ⟨hY, hX, hc, hd⟩ := ih
    have hl := neighbour_lt (ny := g.ny) (nx := g.nx) hY hX ((mem_neighOffs o).mpr ho)
    refine ⟨hl.1, hl.2, h, ?_⟩
    rcases hd with hd | hd
    · have hreach := CellReach.step Y X o ho hr' h hm
      unfold fourDirs at ho
      simp only [List.mem_cons, List.not_mem_nil, or_false] at ho
      have key := h2 _ _ hreach
      rcases ho with rfl | rfl | rfl | rfl
      · have e1 : (neighbour g.ny g.nx Y X (0, 1)).1 = Y := mod_zero' hY
        have e2 : (neighbour g.ny g.nx Y X (0, 1)).2 = (X + 1) % g.nx := mod_succ
        rw [e1] at h hm key ⊢
        exact step_x hbs hg he hY hX hl.2 (Or.inl e2) hc h.1 hm key hd
      · have e1 : (neighbour g.ny g.nx Y X (1, 0)).2 = X := mod_zero' hX
        have e2 : (neighbour g.ny g.nx Y X (1, 0)).1 = (Y + 1) % g.ny := mod_succ
        rw [e1] at h hm key ⊢
        exact step_y hbs hg he hY hX hl.1 (Or.inl e2) hc h.1 hm key hd
      · have e1 : (neighbour g.ny g.nx Y X (0, -1)).1 = Y := mod_zero' hY
        have e2 : X = ((neighbour g.ny g.nx Y X (0, -1)).2 + 1) % g.nx := (mod_pred hX).2
        rw [e1] at h hm key ⊢
        exact step_x hbs hg he hY hX hl.2 (Or.inr e2) hc h.1 hm key hd
      · have e1 : (neighbour g.ny g.nx Y X (-1, 0)).2 = X := mod_zero' hX
        have e2 : Y = ((neighbour g.ny g.nx Y X (-1, 0)).1 + 1) % g.ny := (mod_pred hY).2
        rw [e1] at h hm key ⊢
        exact step_y hbs hg he hY hX hl.1 (Or.inr e2) hc h.1 hm key hd
    · exact Or.inr (hd.mono hm)

end

end Pixell
