import Verif.Model.Healpix

/-
The distance transforms of healpix maps, cython/distances_core.c:997-1202. Distances are a function `d i p` of the number of a
point and a pixel: the formula of dist_vincenty_helper is modelled in Model/Distance. The effective `rmax` is a parameter
(the code takes 1e300 for rmax ≤ 0).
-/
namespace Pixell

variable {α : Type} [LinearOrder α]

/-- The arrays `dists` and `domains` by pixel number, `none` for -1. distances_core.c:1020-1024 and 1155-1159. -/
structure HpState (α : Type) where
  dist : Nat → α
  dom : Nat → Option Nat

/-- How the pixels to be visited are kept: taking out the next entry and putting one in. Used for distances_core.c:1033, 1060. -/
structure HpQueue (α : Type) where
  pop : List (α × (Nat × Nat)) → Option ((α × (Nat × Nat)) × List (α × (Nat × Nat)))
  push : List (α × (Nat × Nat)) → α × (Nat × Nat) → List (α × (Nat × Nat))

/-- The lists `curr` and `next` one after the other, distances_core.c:1026-1071: `curr` is read in order, entries are added to
the end of `next`, and `next` takes the place of `curr` when that is done. -/
def hpFifo : HpQueue α where
  pop := fun l => match l with | [] => none | e :: t => some (e, t)
  push := fun l e => l ++ [e]

/-- The heap, distances_core.c:1161-1198. -/
def hpHeap : HpQueue α where
  pop := heapPop
  push := heapPush

/-- Writing point `i` into a pixel, distances_core.c:1061-1062. -/
def HpState.put (s : HpState α) (nside : Nat) (d : Nat → Nat × Nat → α) (i : Nat) (p : Nat × Nat) : HpState α :=
  ⟨Function.update s.dist (hpRavel nside p) (d i p), Function.update s.dom (hpRavel nside p) (some i)⟩

/-- One neighbour, distances_core.c:1052-1065 and 1183-1196. -/
def hpRelax (Q : HpQueue α) (nside : Nat) (d : Nat → Nat × Nat → α) (rmax : α) (ip : Nat)
    (s : HpState α × List (α × (Nat × Nat))) (z : Nat × Nat) : HpState α × List (α × (Nat × Nat)) :=
  if s.1.dom (hpRavel nside z) = some ip then s
  else if d ip z < s.1.dist (hpRavel nside z) ∧ d ip z < rmax then (s.1.put nside d ip z, Q.push s.2 (d ip z, z))
  else s

/-- One pixel, distances_core.c:1045-1066 and 1176-1197. -/
def hpVisit (Q : HpQueue α) (nside : Nat) (d : Nat → Nat × Nat → α) (rmax : α) (s : HpState α × List (α × (Nat × Nat)))
    (p : Nat × Nat) : HpState α × List (α × (Nat × Nat)) :=
  match s.1.dom (hpRavel nside p) with
  | none => s
  | some ip => (hpNeighs nside p).foldl (hpRelax Q nside d rmax ip) s

/-- The loops, distances_core.c:1041-1071 and 1174-1199. `none`: still running when the fuel is used up. -/
def hpLoop (Q : HpQueue α) (nside : Nat) (d : Nat → Nat × Nat → α) (rmax : α) :
    Nat → HpState α × List (α × (Nat × Nat)) → Option (HpState α)
  | f, s => match Q.pop s.2 with
    | none => some s.1
    | some (e, q) => match f with
      | 0 => none
      | f + 1 => hpLoop Q nside d rmax f (hpVisit Q nside d rmax (s.1, q) e.2)

/-- Setting up, distances_core.c:1020-1039 and 1155-1172. -/
def hpInit (Q : HpQueue α) (nside : Nat) (d : Nat → Nat × Nat → α) (rmax : α) (pts : List (Nat × Nat)) :
    HpState α × List (α × (Nat × Nat)) :=
  pts.zipIdx.foldl (fun s p => (s.1.put nside d p.2 p.1, Q.push s.2 (d p.2 p.1, p.1))) (⟨fun _ => rmax, fun _ => none⟩, [])

/-- distance_from_points_bubble_healpix (with `hpFifo`), distances_core.c:997-1078, and distance_from_points_heap_healpix (with
`hpHeap`), distances_core.c:1132-1207. -/
def hpSearch (Q : HpQueue α) (fuel nside : Nat) (d : Nat → Nat × Nat → α) (rmax : α) (pts : List (Nat × Nat)) :
    Option (HpState α) :=
  hpLoop Q nside d rmax fuel (hpInit Q nside d rmax pts)

end Pixell
