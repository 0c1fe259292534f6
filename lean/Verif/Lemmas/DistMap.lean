import Mathlib.Order.Monotone.Basic
import Mathlib.Data.List.GetD
import Mathlib.Tactic.Linarith
import Verif.Model.Distance

/-
The cellgrid method only compares distances: relabelling the distances by a strictly increasing function relabels the result.
-/
namespace Pixell

variable {α β : Type} [LinearOrder α] [LinearOrder β]

def DCell.map (f : α → β) (c : DCell α) : DCell β := ⟨c.status, c.y1, c.x1, c.ny, c.nx, c.dists.map f, c.domains, c.current⟩

def DGrid.map (f : α → β) (g : DGrid α) : DGrid β := ⟨g.ny, g.nx, g.bsize, fun i y x => f (g.d i y x), f g.rmax⟩

def DState.map (f : α → β) (s : DState α) : DState β := ⟨s.cells.map (DCell.map f), s.dists.map f, s.domains⟩

theorem foldl_comm {σ τ ι : Type} (h : σ → τ) (step : σ → ι → σ) (step' : τ → ι → τ)
    (H : ∀ s a, step' (h s) a = h (step s a)) (l : List ι) (s : σ) : l.foldl step' (h s) = h (l.foldl step s) := by
  induction l generalizing s with
  | nil => rfl
  | cons a l ih => rw [List.foldl_cons, List.foldl_cons, H, ih]

theorem emptyCell_map (f : α → β) : (emptyCell : DCell α).map f = emptyCell := rfl

theorem cells_getD (f : α → β) (cs : List (DCell α)) (i : Nat) :
    (cs.map (DCell.map f)).getD i emptyCell = (cs.getD i emptyCell).map f := by
  rw [← emptyCell_map f, List.getD_map]

theorem cells_set (f : α → β) (cs : List (DCell α)) (i : Nat) (c : DCell α) :
    (cs.map (DCell.map f)).set i (c.map f) = (cs.set i c).map (DCell.map f) := by rw [List.map_set]

theorem tryPix_map (f : α → β) (hf : StrictMono f) (g : DGrid α) (ip y x : Nat) (s : DCell α × List (Nat × Nat))
    (o : Int × Int) : (g.map f).tryPix ip y x (s.1.map f, s.2) o =
      ((g.tryPix ip y x s o).1.map f, (g.tryPix ip y x s o).2) := by
  unfold DGrid.tryPix
  have hd : ∀ i a b, (g.map f).dist (s.1.map f) i a b = f (g.dist s.1 i a b) := fun _ _ _ => rfl
  have hr : (g.map f).rmax = f g.rmax := rfl
  have hg : ∀ i, (s.1.map f).dists.getD i (f g.rmax) = f (s.1.dists.getD i g.rmax) := fun i => List.getD_map ..
  have hny : (s.1.map f).ny = s.1.ny := rfl
  have hnx : (s.1.map f).nx = s.1.nx := rfl
  have hdm : (s.1.map f).domains = s.1.domains := rfl
  simp only [hd, hr, hg, hf.lt_iff_lt, hny, hnx, hdm]
  by_cases h1 : (y : Int) + o.1 < 0 ∨ (y : Int) + o.1 ≥ s.1.ny ∨ (x : Int) + o.2 < 0 ∨ (x : Int) + o.2 ≥ s.1.nx
  · rw [if_pos h1, if_pos h1]
  · rw [if_neg h1, if_neg h1]
    by_cases h2 : s.1.domains.getD (((y : Int) + o.1).toNat * s.1.nx + ((x : Int) + o.2).toNat) none = some ip
    · rw [if_pos h2, if_pos h2]
    · rw [if_neg h2, if_neg h2]
      split_ifs with h3
      · simp only [DCell.map, List.map_set]
      · rfl

theorem visit_map (f : α → β) (hf : StrictMono f) (g : DGrid α) (orig : List (Option Nat)) (w : Nat)
    (s : DCell α × List (Nat × Nat)) (p : Nat × Nat) : (g.map f).visit orig w (s.1.map f, s.2) p =
      ((g.visit orig w s p).1.map f, (g.visit orig w s p).2) := by
  unfold DGrid.visit
  split
  · rfl
  · rename_i ip _
    exact foldl_comm (fun s : DCell α × List (Nat × Nat) => (s.1.map f, s.2)) (g.tryPix ip p.1 p.2) _
      (fun s o => tryPix_map f hf g ip p.1 p.2 s o) neighOffs s

theorem solve_map (f : α → β) (hf : StrictMono f) (g : DGrid α) (fuel : Nat) (c : DCell α) (cur : List (Nat × Nat)) :
    (g.map f).solve fuel (c.map f) cur = (g.solve fuel c cur).map (DCell.map f) := by
  induction fuel generalizing c cur with
  | zero => cases cur <;> simp [DGrid.solve, DCell.map]
  | succ n ih =>
    cases cur with
    | nil => simp [DGrid.solve, DCell.map]
    | cons p ps =>
      unfold DGrid.solve
      have h := foldl_comm (fun s : DCell α × List (Nat × Nat) => (s.1.map f, s.2)) (g.visit c.domains c.nx)
        ((g.map f).visit c.domains c.nx) (fun s o => visit_map f hf g c.domains c.nx s o) (p :: ps) (c, [])
      have hd : (c.map f).domains = c.domains := rfl
      have hn : (c.map f).nx = c.nx := rfl
      rw [hd, hn]
      simp only at h
      simp only [h, ih]

theorem fetch1_map (f : α → β) (hf : StrictMono f) (g : DGrid α) (cfrom cto : DCell α) (p : Nat × Nat) :
    (g.map f).fetch1 (cfrom.map f) (cto.map f) p = (g.fetch1 cfrom cto p).map f := by
  unfold DGrid.fetch1
  have hr : (g.map f).rmax = f g.rmax := rfl
  have hg : ∀ (c : DCell α) i, (c.map f).dists.getD i (f g.rmax) = f (c.dists.getD i g.rmax) := fun c i => List.getD_map ..
  simp only [hr, hg, hf.lt_iff_lt]
  split_ifs
  · simp only [DCell.map, List.map_set]
  · rfl

theorem fetchCell_map (f : α → β) (hf : StrictMono f) (g : DGrid α) (o : Int × Int) (cs : List (DCell α)) (ci : Nat) :
    (g.map f).fetchCell o (cs.map (DCell.map f)) ci = (g.fetchCell o cs ci).map (DCell.map f) := by
  unfold DGrid.fetchCell
  have hn : (g.map f).neigh ci o = g.neigh ci o := rfl
  simp only [hn, cells_getD]
  have hs : ∀ c : DCell α, (c.map f).status = c.status := fun _ => rfl
  rw [hs]
  split_ifs
  · rw [← cells_set]
    congr 1
    exact foldl_comm (DCell.map f) (g.fetch1 (cs.getD (g.neigh ci o) emptyCell)) _
      (fun s a => fetch1_map f hf g _ s a) _ _
  · rfl

theorem relevant_map (f : α → β) (g : DGrid α) (cs : List (DCell α)) (cur : List Nat) :
    (g.map f).relevant (cs.map (DCell.map f)) cur = g.relevant cs cur := by
  unfold DGrid.relevant
  have hs : ∀ c : DCell α, (c.map f).status = c.status := fun _ => rfl
  simp only [cells_getD, hs]
  rfl

theorem finish_map (f : α → β) (g : DGrid α) (s : DState α) (ci : Nat) :
    (g.map f).finish (s.map f) ci = (g.finish s ci).map f := by
  unfold DGrid.finish
  have hc : (s.map f).cells.getD ci emptyCell = (s.cells.getD ci emptyCell).map f := cells_getD f s.cells ci
  simp only [hc]
  generalize s.cells.getD ci emptyCell = c
  unfold DState.map
  simp only
  congr 1
  · rw [← cells_set]; rfl
  · exact foldl_comm (List.map f) (fun (l : List α) (p : Nat × Nat) => l.set p.1 (c.dists.getD p.2 g.rmax))
      (fun (l : List β) (p : Nat × Nat) => l.set p.1 ((c.map f).dists.getD p.2 (g.map f).rmax)) (fun l p => by
      have hg : (c.map f).dists.getD p.2 (g.map f).rmax = f (c.dists.getD p.2 g.rmax) := List.getD_map ..
      simp only [hg, List.map_set]) _ _

theorem foldl_min_map (f : α → β) (hf : StrictMono f) (l : List α) (a : α) :
    (l.map f).foldl min (f a) = f (l.foldl min a) := by
  rw [List.foldl_map]
  exact foldl_comm f min (fun x y => min x (f y)) (fun s a => (hf.monotone.map_min).symm) l a

theorem foldl_max_map (f : α → β) (hf : StrictMono f) (l : List α) (a : α) :
    (l.map f).foldl max (f a) = f (l.foldl max a) := by
  rw [List.foldl_map]
  exact foldl_comm f max (fun x y => max x (f y)) (fun s a => (hf.monotone.map_max).symm) l a

theorem rminWork_map (f : α → β) (hf : StrictMono f) (g : DGrid α) (cs : List (DCell α)) (u : List Nat) :
    (g.map f).rminWork (cs.map (DCell.map f)) u = f (g.rminWork cs u) := by
  unfold DGrid.rminWork
  rw [← foldl_min_map f hf]
  congr 1
  rw [List.map_flatMap]
  congr 1
  funext ci
  simp only [cells_getD, List.map_map]
  apply List.map_congr_left
  intro p _
  exact List.getD_map ..

theorem foldlM_solve_map (f : α → β) (hf : StrictMono f) (g : DGrid α) (fuel : Nat) (cur : List Nat) (cs : List (DCell α)) :
    cur.foldlM (fun (cs : List (DCell β)) ci => do
      let c ← (g.map f).solve fuel (cs.getD ci emptyCell) (cs.getD ci emptyCell).current
      return cs.set ci c) (cs.map (DCell.map f)) =
    (cur.foldlM (fun (cs : List (DCell α)) ci => do
      let c ← g.solve fuel (cs.getD ci emptyCell) (cs.getD ci emptyCell).current
      return cs.set ci c) cs).map (List.map (DCell.map f)) := by
  induction cur generalizing cs with
  | nil => rfl
  | cons ci cur ih =>
    rw [List.foldlM_cons, List.foldlM_cons]
    simp only [cells_getD]
    have hc : ((cs.getD ci emptyCell).map f).current = (cs.getD ci emptyCell).current := rfl
    rw [hc, solve_map f hf]
    cases g.solve fuel (cs.getD ci emptyCell) (cs.getD ci emptyCell).current with
    | none => rfl
    | some c =>
      simp only [Option.map_some, Option.bind_eq_bind, Option.bind_some, Option.pure_def, cells_set]
      exact ih _

theorem round_map (f : α → β) (hf : StrictMono f) (g : DGrid α) (zero : α) (fuel : Nat) (s : DState α) (cur : List Nat) :
    (g.map f).round (f zero) fuel (s.map f) cur = (g.round zero fuel s cur).map fun r => (r.1.map f, r.2) := by
  unfold DGrid.round
  have hcs : (s.map f).cells = s.cells.map (DCell.map f) := rfl
  rw [hcs, foldlM_solve_map f hf]
  generalize cur.foldlM (fun (cs : List (DCell α)) ci => do
      let c ← g.solve fuel (cs.getD ci emptyCell) (cs.getD ci emptyCell).current
      return cs.set ci c) s.cells = oc
  cases oc with
  | none => rfl
  | some cells1 =>
    simp only [Option.map_some, Option.bind_eq_bind, Option.bind_some, Option.pure_def]
    rw [relevant_map]
    set u := g.relevant cells1 cur
    have h2 : u.foldl (fun cs ci => if (cs.getD ci emptyCell).status = 0 then
        cs.set ci ((g.map f).alloc (ci / (g.map f).nbx) (ci % (g.map f).nbx)) else cs) (cells1.map (DCell.map f)) =
        (u.foldl (fun cs ci => if (cs.getD ci emptyCell).status = 0 then
        cs.set ci (g.alloc (ci / g.nbx) (ci % g.nbx)) else cs) cells1).map (DCell.map f) := by
      apply foldl_comm (List.map (DCell.map f))
      intro cs ci
      simp only [cells_getD]
      have hs : ((cs.getD ci emptyCell).map f).status = (cs.getD ci emptyCell).status := rfl
      rw [hs]
      have ha : ∀ a b, (g.map f).alloc a b = (g.alloc a b).map f := by
        intro a b
        unfold DGrid.alloc DCell.map
        simp only [List.map_replicate]
        rfl
      have hn : (g.map f).nbx = g.nbx := rfl
      rw [ha, hn]
      split_ifs
      · rw [cells_set]
      · rfl
    rw [h2]
    set cells2 := u.foldl (fun cs ci => if (cs.getD ci emptyCell).status = 0 then
        cs.set ci (g.alloc (ci / g.nbx) (ci % g.nbx)) else cs) cells1
    have h3 : neighOffs.foldl (fun cs o => u.foldl ((g.map f).fetchCell o) cs) (cells2.map (DCell.map f)) =
        (neighOffs.foldl (fun cs o => u.foldl (g.fetchCell o) cs) cells2).map (DCell.map f) := by
      apply foldl_comm (List.map (DCell.map f)) (fun cs o => u.foldl (g.fetchCell o) cs)
      intro cs o
      exact foldl_comm (List.map (DCell.map f)) (g.fetchCell o) _ (fun s a => fetchCell_map f hf g o s a) u cs
    rw [h3]
    set cells3 := neighOffs.foldl (fun cs o => u.foldl (g.fetchCell o) cs) cells2
    rw [rminWork_map f hf]
    have hcur : ∀ c : DCell α, (c.map f).current = c.current := fun _ => rfl
    have hmx : ∀ c : DCell α, (c.map f).dists.foldl max (f zero) = f (c.dists.foldl max zero) :=
      fun c => foldl_max_map f hf c.dists zero
    simp only [cells_getD, hcur, hmx, hf.le_iff_le]
    congr 2
    exact foldl_comm (DState.map f) g.finish _ (fun s a => finish_map f g s a) _ ⟨cells3, s.dists, s.domains⟩

theorem loop_map (f : α → β) (hf : StrictMono f) (g : DGrid α) (zero : α) (fuel : Nat) (s : DState α) (cur : List Nat) :
    (g.map f).loop (f zero) fuel (s.map f) cur = (g.loop zero fuel s cur).map (DState.map f) := by
  have hend : ((List.range ((g.map f).nby * (g.map f).nbx)).filter fun ci =>
      ((s.map f).cells.getD ci emptyCell).status = 1).foldl (g.map f).finish (s.map f) =
      (((List.range (g.nby * g.nbx)).filter fun ci => (s.cells.getD ci emptyCell).status = 1).foldl g.finish s).map f := by
    have hcs : (s.map f).cells = s.cells.map (DCell.map f) := rfl
    have hs : ∀ c : DCell α, (c.map f).status = c.status := fun _ => rfl
    simp only [hcs, cells_getD, hs]
    exact foldl_comm (DState.map f) g.finish _ (fun s a => finish_map f g s a) _ s
  induction fuel generalizing s cur with
  | zero =>
    cases cur with
    | nil => simp only [DGrid.loop, Option.map_some, hend]
    | cons c cs => rfl
  | succ n ih =>
    cases cur with
    | nil => simp only [DGrid.loop, Option.map_some, hend]
    | cons c cs =>
      unfold DGrid.loop
      rw [round_map f hf]
      cases g.round zero n s (c :: cs) with
      | none => rfl
      | some r =>
        simp only [Option.map_some, Option.bind_eq_bind, Option.bind_some]
        apply ih
        have hcs : (r.1.map f).cells = r.1.cells.map (DCell.map f) := rfl
        have hs : ∀ c : DCell α, (c.map f).status = c.status := fun _ => rfl
        simp only [hcs, cells_getD, hs]
        exact foldl_comm (DState.map f) g.finish _ (fun s a => finish_map f g s a) _ r.1

theorem init_map (f : α → β) (g : DGrid α) (zero : α) (pts : List (Nat × Nat)) :
    (g.map f).init (f zero) pts = ((g.init zero pts).1.map (DCell.map f), (g.init zero pts).2) := by
  unfold DGrid.init
  have h0 : ((List.replicate ((g.map f).nby * (g.map f).nbx) (emptyCell : DCell β), ([] : List Nat))) =
      ((List.replicate (g.nby * g.nbx) (emptyCell : DCell α)).map (DCell.map f), []) := by
    rw [List.map_replicate]; rfl
  rw [h0]
  refine foldl_comm (fun s : List (DCell α) × List Nat => (s.1.map (DCell.map f), s.2)) _ _ ?_ pts.zipIdx
    (List.replicate (g.nby * g.nbx) emptyCell, [])
  intro s p
  have ha : ∀ a b, (g.map f).alloc a b = (g.alloc a b).map f := by
    intro a b
    unfold DGrid.alloc DCell.map
    simp only [List.map_replicate]
    rfl
  have hn : (g.map f).nbx = g.nbx := rfl
  have hb : (g.map f).bsize = g.bsize := rfl
  have hs : ∀ c : DCell α, (c.map f).status = c.status := fun _ => rfl
  simp only [cells_getD, ha, hn, hb, hs]
  by_cases hst : (s.1.getD (p.1.1 / g.bsize * g.nbx + p.1.2 / g.bsize) emptyCell).status = 0
  · simp only [hst, if_true, List.map_set]
    congr 2
    simp only [DCell.map, List.map_set]
  · simp only [hst, if_false, List.map_set]
    congr 2
    simp only [DCell.map, List.map_set]

/-- Relabelling distances by a strictly increasing function. -/
theorem run_map (f : α → β) (hf : StrictMono f) (g : DGrid α) (zero : α) (fuel : Nat) (pts : List (Nat × Nat)) :
    (g.map f).run (f zero) fuel pts = (g.run zero fuel pts).map (DState.map f) := by
  unfold DGrid.run
  rw [init_map]
  simp only
  rw [← loop_map f hf]
  congr 1
  unfold DState.map
  simp only [List.map_replicate]
  rfl

end Pixell
