import Verif.Model.Mempool

/-
pixell/device.py:176-281: arrays made in named pools of memory (ArrayPoolCpu, ArrayMultipool). The dictionary of pools is a function
of the name. Memory is a function from addresses to bytes. Addresses returned by the system are arguments (`raw`). `none` is an
exception.
-/
namespace Pixell

/-- The pools of an ArrayMultipool and the memory. Used for device.py:244-281. -/
structure MultiPool where
  pools : String → Option Pool
  mem : ℤ → ℕ

/-- pixell/device.py:263-267 (ArrayMultipool.__getitem__), and one round of want (:248-254): a new pool is empty. -/
def MultiPool.pool (mp : MultiPool) (name : String) : Pool := (mp.pools name).getD Pool.free

/-- self.pools[name] = p. Used for device.py:248-254, 263-267. -/
def MultiPool.put (mp : MultiPool) (name : String) (p : Pool) : MultiPool :=
  { mp with pools := fun s => if s = name then some p else mp.pools s }

/-- pixell/device.py:248-254 (want). -/
def MultiPool.want (mp : MultiPool) (names : List String) : MultiPool × List Pool :=
  names.foldl (fun r name => (r.1.put name (r.1.pool name), r.2 ++ [r.1.pool name])) (mp, [])

/-- pixell/device.py:182-184 (ArrayPoolCpu.empty): the number of bytes of an array. -/
def arrayBytes (shape : List ℕ) (itemsize : ℕ) : ℕ := shape.prod * itemsize

/-- pixell/device.py:182-184 (ArrayPoolCpu.empty) of a pool, for an array of n bytes. `raw1` is the address for a reset, `raw2` the one
for the allocation. -/
def Pool.newArray (align : ℕ) (raw1 raw2 : ℤ) (n : ℕ) (reset : Bool) (p : Pool) : Pool × Arena :=
  let p := if reset then p.reset align raw1 else p
  p.alloc align raw2 n

/-- Assignment to all of an array. Used for device.py:177-188. -/
def writeMem (mem : ℤ → ℕ) (a : Arena) (data : List ℕ) : ℤ → ℕ :=
  fun x => if a.ptr ≤ x ∧ x < a.ptr + a.size then data.getD (x - a.ptr).toNat 0 else mem x

/-- The bytes of an array. Used for device.py:177-188. -/
def readMem (mem : ℤ → ℕ) (a : Arena) : List ℕ := (List.range a.size).map fun (i : ℕ) => mem (a.ptr + i)

/-- pools[name].empty(shape, dtype, reset). Used for device.py:182-184. -/
def MultiPool.empty (align : ℕ) (raw1 raw2 : ℤ) (name : String) (n : ℕ) (reset : Bool) (mp : MultiPool) : MultiPool × Arena :=
  let r := (mp.pool name).newArray align raw1 raw2 n reset
  (mp.put name r.1, r.2)

/-- pools[name].array(arr), pixell/device.py:177-181, for an array of the given shape and bytes. `oarr[:] = arr` raises for an array
without axes. -/
def MultiPool.array (align : ℕ) (raw1 raw2 : ℤ) (name : String) (shape : List ℕ) (data : List ℕ) (mp : MultiPool) :
    Option (MultiPool × Arena) :=
  let r := mp.empty align raw1 raw2 name data.length true
  if shape = [] then none else some ({ r.1 with mem := writeMem r.1.mem r.2 data }, r.2)

/-- pools[name].zeros(shape, dtype, reset), pixell/device.py:185-190. -/
def MultiPool.zeros (align : ℕ) (raw1 raw2 : ℤ) (name : String) (shape : List ℕ) (itemsize : ℕ) (reset : Bool) (mp : MultiPool) :
    Option (MultiPool × Arena) :=
  let r := mp.empty align raw1 raw2 name (arrayBytes shape itemsize) reset
  if shape = [] then none
  else some ({ r.1 with mem := writeMem r.1.mem r.2 (List.replicate (arrayBytes shape itemsize) 0) }, r.2)

/-- pools[name].reset(). Used for device.py:257-262, one pool at a time. -/
def MultiPool.reset (align : ℕ) (raw : ℤ) (name : String) (mp : MultiPool) : MultiPool :=
  mp.put name ((mp.pool name).reset align raw)

/-- pools[name].free(). Used for device.py:257-262, one pool at a time. -/
def MultiPool.free (name : String) (mp : MultiPool) : MultiPool := mp.put name Pool.free

/-- pixell/device.py:271-272 (__delattr__): KeyError if there is no such pool. -/
def MultiPool.del (name : String) (mp : MultiPool) : Option MultiPool :=
  if (mp.pools name).isNone then none else some { mp with pools := fun s => if s = name then none else mp.pools s }

/-- pixell/device.py:148 and :256 (totsize), for the list of all pools. -/
def poolsTotsize (pools : List Pool) : ℕ := (pools.map fun p => (p.arenas.map Arena.size).sum).sum

/-- pixell/device.py:255 (size): it calls pool.size, which is a number: TypeError as soon as there is a pool. -/
def poolsSize (pools : List Pool) : Option ℕ := if pools = [] then some 0 else none

/-- What an attribute of the pools can be. Used for device.py:268-270. -/
inductive PoolAttr where
  | own
  | pool (p : Pool)
  | attributeError
  | keyError

/-- The names that an ArrayMultipool has itself. Used for device.py:244-281. -/
def multipoolOwn : List String := ["factory", "pools", "want", "size", "totsize", "free", "reset"]

/-- pixell/device.py:268-270 (__getattr__): asked only for names the object does not have itself. -/
def MultiPool.attr (mp : MultiPool) (name : String) : PoolAttr :=
  if name ∈ multipoolOwn then .own
  else match mp.pools name with
    | some p => .pool p
    | none => .keyError

end Pixell
