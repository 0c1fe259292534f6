import Mathlib.Data.Multiset.AddSub

/-
The memory of pointsrcs.sim_objects: the allocations of cython/srcsim.pyx:11-88 and of the C code below it. The heap is the multiset of
live blocks; blocks are numbered and numbers are not used again. What the blocks hold is modelled elsewhere (Model/SrcSim). The threads of
the parallel loops are run one after the other. Freeing a block that is not live is undefined behaviour, `none`; running out of memory
is not modelled.
-/
namespace Pixell

/-- Live blocks, and the number of the next one. Used for srcsim_core.c:159-230. -/
structure CHeap where
  next : ℕ
  live : Multiset ℕ

/-- Computations that use the heap, with `none` for undefined behaviour. Used for srcsim_core.c:159-230. -/
abbrev CMem (α : Type) := StateT CHeap Option α

/-- malloc and calloc. Used for srcsim_core.c:233, 248, 291. -/
def cAlloc : CMem ℕ := fun h => some (h.next, ⟨h.next + 1, ({h.next} : Multiset ℕ) + h.live⟩)

/-- free; freeing NULL does nothing. Used for srcsim_core.c:192-193. -/
def cFree (p : Option ℕ) : CMem Unit := fun h =>
  match p with
  | none => some ((), h)
  | some q => if q ∈ h.live then some ((), ⟨h.next, h.live.erase q⟩) else none

/-- realloc: the block may move. Used for srcsim_core.c:744. -/
def cRealloc (p : ℕ) : CMem ℕ := do
  cFree (some p)
  cAlloc

/-- A loop that runs n times and collects the results. Used for srcsim_core.c:755-759. -/
def repeatM {α : Type} (m : CMem α) : ℕ → CMem (List α)
  | 0 => pure []
  | n + 1 => do
    let a ← m
    let l ← repeatM m n
    pure (a :: l)

/-- A loop over a list that collects the results. Used for srcsim_core.c:358-359, 403-415. -/
def eachM {α β : Type} (f : α → CMem β) : List α → CMem (List β)
  | [] => pure []
  | a :: t => do
    let b ← f a
    let l ← eachM f t
    pure (b :: l)

/-- calloc_pppf, cython/srcsim_core.c:753-761: the block of the array, and for each row its block and those of its entries. -/
def callocPppf (n1 n2 : ℕ) : CMem (ℕ × List (ℕ × List ℕ)) := do
  let a ← cAlloc
  let rows ← repeatM (do
    let b ← cAlloc
    let cs ← repeatM cAlloc n2
    pure (b, cs)) n1
  pure (a, rows)

/-- free_pppf, cython/srcsim_core.c:763-771. The row is replaced by a new block of NULL pointers before its entries are freed. -/
def freePppf (a : ℕ × List (ℕ × List ℕ)) (n2 : ℕ) : CMem Unit := do
  let _ ← eachM (fun _ => do
    let b ← cAlloc
    let _ ← repeatM (cFree none) n2
    cFree (some b)) a.2
  cFree (some a.1)

/-- IntList, cython/srcsim_core.c:147-148: the blocks of the list and its values, the length and the capacity. -/
structure IntL where
  self : ℕ
  vals : ℕ
  n : ℕ
  cap : ℕ

/-- intlist_new, cython/srcsim_core.c:734-740. -/
def intlistNew : CMem IntL := do
  let s ← cAlloc
  let v ← cAlloc
  pure ⟨s, v, 0, 64⟩

/-- intlist_push, cython/srcsim_core.c:741-747. -/
def intlistPush (l : IntL) : CMem IntL := do
  if l.n ≥ l.cap then do
    let v ← cRealloc l.vals
    pure ⟨l.self, v, l.n + 1, l.cap * 2⟩
  else pure ⟨l.self, l.vals, l.n + 1, l.cap⟩

/-- Several calls of intlist_push. Used for srcsim_core.c:369-384. -/
def intlistPushN (l : IntL) : ℕ → CMem IntL
  | 0 => pure l
  | k + 1 => do
    let l' ← intlistPush l
    intlistPushN l' k

/-- intlist_free, cython/srcsim_core.c:748. -/
def intlistFree (l : IntL) : CMem Unit := do
  cFree (some l.vals)
  cFree (some l.self)

/-- What assign_cells returns: the blocks of cell_nobj, cell_objs and cell_boxes, and for each active cell the blocks of its objects and
its box. Used for srcsim_core.c:398-401. -/
structure CellOut where
  nobj : ℕ
  objs : ℕ
  boxes : ℕ
  cells : List (ℕ × ℕ)

/-- assign_cells, cython/srcsim_core.c:336-427; cnt are the numbers of objects in the cells. The objects of a cell are pushed one after
the other, in the code those of different cells alternate. -/
def assignCellsMem (cnt : List ℕ) : CMem CellOut := do
  let cellList ← cAlloc
  let lists ← eachM (fun k => do let l ← intlistNew; pure (l, k)) cnt
  let cellboxes ← cAlloc
  let lists ← eachM (fun p => intlistPushN p.1 p.2) lists
  let active ← intlistNew
  let inactive ← intlistNew
  let act := lists.filter (fun l => decide (0 < l.n))
  let inact := lists.filter (fun l => !decide (0 < l.n))
  let active ← intlistPushN active act.length
  let inactive ← intlistPushN inactive inact.length
  let nobj ← cAlloc
  let objs ← cAlloc
  let boxes ← cAlloc
  let cells ← eachM (fun l => do let b ← cAlloc; pure (l.vals, b)) act
  let _ ← eachM intlistFree inact
  let _ ← eachM (fun l => cFree (some l.self)) act
  intlistFree active
  intlistFree inactive
  cFree (some cellList)
  cFree (some cellboxes)
  pure ⟨nobj, objs, boxes, cells⟩

/-- process_cell, cython/srcsim_core.c:468-521: extract_map, two calls of extract_coords, cell_work and amp. -/
def processCellMem : CMem Unit := do
  let data ← cAlloc
  let decs ← cAlloc
  let ras ← cAlloc
  let work ← cAlloc
  let amp ← cAlloc
  cFree (some amp)
  cFree (some data)
  cFree (some decs)
  cFree (some ras)
  cFree (some work)

/-- sim_objects, cython/srcsim_core.c:159-230; `table` tells if there are enough objects for prof_info. -/
def simObjectsMem (table : Bool) (cnt : List ℕ) (transpose : Bool) (nthread ncomp : ℕ) : CMem Unit := do
  let amaxs ← cAlloc
  let info ← (if table then do let p ← cAlloc; pure (some p) else pure none : CMem (Option ℕ))
  let rmaxs ← cAlloc
  cFree (some amaxs)
  cFree info
  let out ← assignCellsMem cnt
  if transpose then do
    let work ← callocPppf nthread ncomp
    let _ ← eachM (fun _ => processCellMem) out.cells
    freePppf work ncomp
  else do
    let _ ← eachM (fun _ => processCellMem) out.cells
    pure ()
  let _ ← eachM (fun c => do cFree (some c.1); cFree (some c.2)) out.cells
  cFree (some out.objs)
  cFree (some out.boxes)
  cFree (some out.nobj)
  cFree (some rmaxs)

/-- sim_objects of cython/srcsim.pyx:11-88. `okObj`, `okProf` and `okPos` are the assertions at lines 45 and 47, 59 and 65, and 68-74; a
failed one leaves the function by an exception, the result false. -/
def simObjectsWrap (okObj okProf okPos : Bool) (table : Bool) (cnt : List ℕ) (transpose : Bool) (nthread ncomp : ℕ) : CMem Bool := do
  let map ← cAlloc
  if !okObj then pure false
  else do
    let amps ← cAlloc
    let rs ← cAlloc
    let vs ← cAlloc
    if !okProf || !okPos then pure false
    else do
      simObjectsMem table cnt transpose nthread ncomp
      cFree (some map)
      cFree (some amps)
      cFree (some rs)
      cFree (some vs)
      pure true

/-- The arguments of one call, as far as they matter for the memory. Used for srcsim.pyx:11-88. -/
structure PaintCall where
  okObj : Bool
  okProf : Bool
  okPos : Bool
  table : Bool
  cnt : List ℕ
  transpose : Bool
  nthread : ℕ
  ncomp : ℕ

/-- Calls of sim_objects one after the other; exceptions are caught by the caller. Used for srcsim.pyx:11-88. -/
def paintCalls (cs : List PaintCall) : CMem (List Bool) :=
  eachM (fun c => simObjectsWrap c.okObj c.okProf c.okPos c.table c.cnt c.transpose c.nthread c.ncomp) cs

end Pixell
