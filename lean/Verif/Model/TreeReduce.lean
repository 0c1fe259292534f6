import Verif.Model.Tiles
import Mathlib.Data.List.Basic
import Mathlib.Algebra.Group.Defs
import Mathlib.Logic.Function.Basic

/-
Reducing distributed tile maps, pixell/tilemap.py:19-42 and 484-530: from_tiles, tree_reduce, get_active_distributed, reduce
and write_map.

tree_reduce is run by R tasks at the same time. A tile is one element of `α`. Messages between two tasks arrive in the order
sent; a send may return before the message is received, or only together with the receive: MPI leaves this open. The plan
comes from a module that is not part of pixell (tilemap.py:491) and is an argument.
-/
namespace Pixell

/-- An element of plan.ops, pixell/tilemap.py:495. -/
structure TreeOp (R : ℕ) where
  gi : ℕ
  sender : Fin R
  receiver : Fin R
deriving DecidableEq

/-- The tasks while they run tree_reduce: the position of each in the loop (tilemap.py:495), the list `work` of each
(tilemap.py:494), and the messages on the way from one task to another. -/
structure TreeState (α : Type) (R : ℕ) where
  pc : Fin R → ℕ
  work : Fin R → ℕ → Option α
  chan : Fin R → Fin R → List α

/-- All tasks in front of the loop, pixell/tilemap.py:494. -/
def treeInit {α : Type} {R : ℕ} (w : Fin R → ℕ → Option α) : TreeState α R := ⟨fun _ => 0, w, fun _ _ => []⟩

/-- Task r goes on to the next operation. Used for tilemap.py:495. -/
def advance {R : ℕ} (pc : Fin R → ℕ) (r : Fin R) : Fin R → ℕ := fun r' => if r' = r then pc r + 1 else pc r'

/-- An operation that is none of the business of task r, pixell/tilemap.py:496-502 with neither branch taken. -/
def TreeSkip {α : Type} {R : ℕ} (ops : List (TreeOp R)) (r : Fin R) (s s' : TreeState α R) : Prop :=
  ∃ op, ops[s.pc r]? = some op ∧ r ≠ op.sender ∧ r ≠ op.receiver ∧ s' = { s with pc := advance s.pc r }

/-- Task r sends, pixell/tilemap.py:496-498; there has to be something to send. -/
def TreeSend {α : Type} {R : ℕ} (ops : List (TreeOp R)) (r q : Fin R) (s s' : TreeState α R) : Prop :=
  ∃ op v, ops[s.pc r]? = some op ∧ r = op.sender ∧ q = op.receiver ∧ s.work r op.gi = some v ∧
    s' = { pc := advance s.pc r
           work := fun r' g => if r' = r ∧ g = op.gi then none else s.work r' g
           chan := fun a b => if a = r ∧ b = q then s.chan a b ++ [v] else s.chan a b }

/-- Task r receives from task q and adds to its own tile, which has to be there, pixell/tilemap.py:499-502. -/
def TreeRecv {α : Type} [Add α] {R : ℕ} (ops : List (TreeOp R)) (r q : Fin R) (s s' : TreeState α R) : Prop :=
  ∃ op v t rest, ops[s.pc r]? = some op ∧ r ≠ op.sender ∧ r = op.receiver ∧ q = op.sender ∧ s.work r op.gi = some v ∧
    s.chan q r = t :: rest ∧
    s' = { pc := advance s.pc r
           work := fun r' g => if r' = r ∧ g = op.gi then some (v + t) else s.work r' g
           chan := fun a b => if a = q ∧ b = r then rest else s.chan a b }

/-- One step of the tasks together, pixell/tilemap.py:495-502. With `eager` a send may return before its receive. -/
inductive TreeStep {α : Type} [Add α] {R : ℕ} (ops : List (TreeOp R)) : Bool → TreeState α R → TreeState α R → Prop
  | skip {e s s'} (r) : TreeSkip ops r s s' → TreeStep ops e s s'
  | recv {e s s'} (r q) : TreeRecv ops r q s s' → TreeStep ops e s s'
  | sync {e s m s'} (r q) : s.chan r q = [] → TreeSend ops r q s m → TreeRecv ops q r m s' → TreeStep ops e s s'
  | send {s s'} (r q) : TreeSend ops r q s s' → TreeStep ops true s s'

/-- Any number of steps, in any order of the tasks. Used for tilemap.py:495-502. -/
inductive TreeRun {α : Type} [Add α] {R : ℕ} (ops : List (TreeOp R)) (e : Bool) : ℕ → TreeState α R → TreeState α R → Prop
  | refl (s) : TreeRun ops e 0 s s
  | step {n s m s'} : TreeRun ops e n s m → TreeStep ops e m s' → TreeRun ops e (n + 1) s s'

variable {α : Type}

/-- tilemap.from_tiles and from_active_tiles, pixell/tilemap.py:19-42; `npix` are the numbers of pixels of the tiles. -/
def fromTiles (npix : List Nat) (tiles : List (Option (List α))) : TileMap α :=
  let active := (List.range tiles.length).filter fun gi => (tiles.getD gi none).isSome
  ⟨npix, active, active.flatMap fun gi => (tiles.getD gi none).getD []⟩

/-- tilemap.get_active_distributed, pixell/tilemap.py:506-510: the number of tasks each tile is active in, where not zero. -/
def activeDistributed (imaps : List (TileMap α)) (ntile : ℕ) : List ℕ :=
  (List.range ntile).filter fun gi => decide ((imaps.map fun m => if gi ∈ m.active then 1 else 0).sum ≠ 0)

/-- tilemap.reduce as seen by a task, pixell/tilemap.py:512-519. -/
def reduceTiles [Zero α] [Add α] (imaps : List (TileMap α)) (npix : List Nat) (root rank : ℕ) : Option (TileMap α) :=
  redistribute imaps npix (if rank = root then activeDistributed imaps npix.length else [])

/-- The map written by tilemap.write_map, pixell/tilemap.py:521-527. -/
def writtenMap [Zero α] [Add α] (imaps : List (TileMap α)) (ny nx th tw : ℕ) : Option (ℕ → ℕ → α) :=
  (reduceTiles imaps (tileNpix ny nx th tw) 0 0).map fun m => m.toEnmap ny nx th tw

end Pixell
