import Verif.Model.Index

/-
Arrays sent between tasks: utils.allgather, allgatherv, send and recv (pixell/utils.py:1400-1466) and the communicator for a single task
(pixell/mpiutils.py). mpi4py is taken to send and fill the memory of contiguous arrays as it is, whatever the order of the axes in memory,
and to raise for arrays that are not contiguous. Messages between two tasks arrive in the order in which they are sent.
-/
namespace Pixell

/-- How the elements lie in memory: last axis fastest, first axis fastest, or with gaps. Used for utils.py:1400-1466. -/
inductive MemOrder | c | f | gaps
  deriving DecidableEq

/-- An array: shape, order, and its elements in the order of the memory. Used for utils.py:1400-1466. -/
structure MArr (α : Type) where
  shape : List ℕ
  order : MemOrder
  mem : List α

/-- Element at an index. For arrays with gaps `mem` lists the elements with the last axis fastest. Used for utils.py:1400-1466. -/
def MArr.get {α : Type} (a : MArr α) (idx : List ℕ) : Option α :=
  match a.order with
  | .f => a.mem[ravel a.shape.reverse idx.reverse]?
  | _ => a.mem[ravel a.shape idx]?

/-- The memory seen by mpi4py. Used for utils.py:1407-1408, 1457, 1465. -/
def MArr.buffer {α : Type} (a : MArr α) : Option (List α) := match a.order with
  | .gaps => none
  | _ => some a.mem

/-- A message. Used for utils.py:1456-1457. -/
inductive ArrMsg (α : Type) | info (shape : List ℕ) | data (buf : List α)

/-- utils.send, pixell/utils.py:1452-1457: the messages put on the channel, and whether it returns without an exception. -/
def sendArr {α : Type} (a : MArr α) : List (ArrMsg α) × Bool :=
  match a.buffer with
  | some b => ([.info a.shape, .data b], true)
  | none => ([.info a.shape], false)

/-- utils.recv, pixell/utils.py:1459-1466, from the channel of one task: the array and the rest of the channel. `none`: it waits for ever
or raises. -/
def recvArr {α : Type} : List (ArrMsg α) → Option (MArr α × List (ArrMsg α))
  | .info s :: .data b :: rest => if b.length = s.prod then some (⟨s, .c, b⟩, rest) else none
  | _ => none

/-- Several calls of recv, pixell/utils.py:1459-1466. -/
def recvMany {α : Type} : ℕ → List (ArrMsg α) → Option (List (MArr α))
  | 0, _ => some []
  | k + 1, ch => do
    let (a, rest) ← recvArr ch
    let l ← recvMany k rest
    some (a :: l)

/-- utils.recv with the source given as "any", pixell/utils.py:1459-1466: both messages may be the first of any channel; i and j are
the tasks from which they are taken. -/
def recvAny {α : Type} (chans : ℕ → List (ArrMsg α)) (i j : ℕ) : Option (MArr α) :=
  match chans i with
  | .info s :: rest =>
    match (if j = i then rest else chans j) with
    | .data b :: _ => if b.length = s.prod then some ⟨s, .c, b⟩ else none
    | _ => none
  | _ => none

/-- utils.allgather, pixell/utils.py:1400-1409, for the arrays of all tasks, of the same shape: what every task gets. -/
def allgatherArr {α : Type} (as : List (MArr α)) : Option (MArr α) := do
  let bufs ← as.mapM MArr.buffer
  match as with
  | [] => none
  | a :: _ => some ⟨as.length :: a.shape, .c, bufs.flatten⟩

/-- The array of one task: p elements before the axis, n along it and q after it, last axis fastest in memory. Used for
utils.py:1411-1423. -/
structure GatherIn (α : Type) where
  p : ℕ
  n : ℕ
  q : ℕ
  mem : List α

/-- a.size. Used for utils.py:1420, 1427. -/
def GatherIn.size {α : Type} (t : GatherIn α) : ℕ := t.p * (t.n * t.q)

/-- The memory of `ra`, pixell/utils.py:1425, 1438. If nothing follows the axis, `fa` and `ra` are views of the array with the other axes
fastest, contiguous in the order of the original array; otherwise the reshape makes a copy, or the axis is the first. -/
def gatherBuffer {α : Type} (t : GatherIn α) : List α :=
  if t.q = 1 then t.mem
  else (List.range t.n).flatMap fun k => (List.range t.p).flatMap fun i => (List.range t.q).filterMap fun j => t.mem[(i * t.n + k) * t.q + j]?

/-- utils.allgatherv, pixell/utils.py:1411-1450, for the arrays of all tasks: the size along the axis, the sizes before and after it, and the
buffer with the gathered axis slowest, as every task gets them. `none`: a task raises, and the others wait for it. `some none`: all arrays
are empty and each task gets its own. Types are the same on all tasks; arrays that are not empty have the same shape but for the axis,
others raise here. -/
def allgathervArr {α : Type} (ts : List (GatherIn α)) : Option (Option (ℕ × ℕ × ℕ × List α)) :=
  match ts.filter (fun t => t.size ≠ 0) with
  | [] => some none
  | t0 :: _ =>
    if ts.all (fun t => (t.n * (t0.p * t0.q) == t.size) && (t.size == 0 || (t.p == t0.p && t.q == t0.q))) then
      some (some ((ts.map (fun t => t.n)).sum, t0.p, t0.q, (ts.map gatherBuffer).flatten))
    else none

/-- Element (i,k,j) of the result of allgatherv, pixell/utils.py:1446-1450. -/
def gatherGet {α : Type} (r : ℕ × ℕ × ℕ × List α) (i k j : ℕ) : Option α := r.2.2.2[(k * r.2.1 + i) * r.2.2.1 + j]?

/-- allgatherv with mpiutils.FAKE_WORLD, pixell/mpiutils.py:16-17: Allgatherv uses a name that does not exist. -/
def allgathervFake {α : Type} (t : GatherIn α) : Option (GatherIn α) := if t.size = 0 then some t else none

end Pixell
