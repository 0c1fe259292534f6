import Mathlib.Data.List.Basic
import Mathlib.Data.Rat.Defs
import Mathlib.Algebra.Field.Rat

/-
Model of the stateful parts of pixell: dictionaries and pixell/bunch.py, utils.cache_get, the spectrum caches of
enmap.calc_ps2d and cmisc.alm2cl, reading through enmap.ndmap_proxy_fits, and HDF files as used by bunch.py and
enmap.write_hdf/read_hdf. Python strings are lists of characters where their contents matter.
-/
namespace Pixell

variable {κ : Type} [DecidableEq κ] {α : Type}

/-! ### dictionaries -/

/-- Reading a key of a Python dict, which is a list of key/value pairs in iteration order. Used for bunch.py:10-17. -/
def dictGet (d : List (κ × α)) (k : κ) : Option α := (d.find? fun e => decide (e.1 = k)).map (·.2)

/-- Assigning a key of a Python dict: an existing key keeps its place, a new one goes to the end. Used for bunch.py:20-28. -/
def dictSet (d : List (κ × α)) (k : κ) (v : α) : List (κ × α) :=
  if k ∈ d.map (·.1) then d.map fun e => if e.1 = k then (k, v) else e else d ++ [(k, v)]

/-- Deleting a key of a Python dict. Used for bunch.py:20-28. -/
def dictDel (d : List (κ × α)) (k : κ) : List (κ × α) := d.filter fun e => decide (e.1 ≠ k)

/-! ### bunch.py -/

/-- The state of a Bunch: its dictionary, or `none` after its attribute `_dict` has been deleted. Used for bunch.py:20-28. -/
abbrev BunchState (α : Type) := Option (List (String × α))

/-- The calls that change a Bunch. Used for bunch.py:20-28. -/
inductive BunchOp (α : Type) where
  | setItem (k : String) (v : α)
  | setAttr (k : String) (v : α)
  | delItem (k : String)
  | delAttr (k : String)
  | update (kvs : List (String × α))

/-- bunch.py Bunch.__setattr__ and __setitem__, lines 20-28, __delattr__ and __delitem__, lines 29-35, and update, line 50:
the new state and whether an exception was raised. Once `_dict` is gone everything is taken to raise (the code would
store attributes in the instance instead). -/
def bunchStep : BunchOp α → BunchState α → BunchState α × Bool
  | _, none => (none, true)
  | .setItem k v, some d => (some (dictSet d k v), false)
  | .setAttr k v, some d => (some (dictSet d k v), false)
  | .delItem k, some d => if k ∈ d.map (·.1) then (some (dictDel d k), false) else if k = "_dict" then (none, false)
      else (some d, true)
  | .delAttr k, some d => if k ∈ d.map (·.1) then (some (dictDel d k), false) else if k = "_dict" then (none, false)
      else (some d, true)
  | .update kvs, some d => (some (kvs.foldl (fun d e => dictSet d e.1 e.2) d), false)

/-- bunch.py Bunch.__init__ with one dictionary argument, lines 5-9. -/
def bunchNew (kvs : List (String × α)) : BunchState α := some (kvs.foldl (fun d e => dictSet d e.1 e.2) [])

/-- bunch.py Bunch.copy, line 49. -/
def bunchCopy (b : BunchState α) : BunchState α := b.bind bunchNew

/-- What reading an attribute can give. Used for bunch.py:10-17. -/
inductive AttrResult (α : Type) where
  | internal
  | method
  | special
  | value (v : α)
  | error
deriving DecidableEq

/-- The methods of the class Bunch whose names do not start with two underscores. Used for bunch.py:10-17. -/
def bunchMethods : List String := ["keys", "items", "iteritems", "copy", "update"]

/-- Attribute access: instance attributes and class attributes come first, then bunch.py Bunch.__getattr__, lines 10-17. -/
def bunchGetAttr (d : List (String × α)) (k : String) : AttrResult α :=
  if k = "_dict" then .internal
  else if k ∈ bunchMethods then .method
  else if k.startsWith "__" then .special
  else (dictGet d k).elim .error .value

/-! ### utils.cache_get -/

/-- utils.cache_get, lines 3474-3478, for a dictionary: the returned value, whether `op` was called, and the new cache. -/
def cacheGet (cache : List (κ × α)) (key : κ) (op : α) : α × Bool × List (κ × α) :=
  if cache.isEmpty then (op, true, cache)
  else match dictGet cache key with
    | some v => (v, false, cache)
    | none => (op, true, dictSet cache key op)

/-- A history of calls of cache_get, where `op` computes `f key`: the returned values, the keys that were computed, and the
final cache. See utils.py:3474-3479. -/
def cacheRun (f : κ → α) : List (κ × α) → List κ → List α × List κ × List (κ × α)
  | cache, [] => ([], [], cache)
  | cache, k :: ks =>
    let r := cacheGet cache k (f k)
    let s := cacheRun f r.2.2 ks
    (r.1 :: s.1, if r.2.1 then k :: s.2.1 else s.2.1, s.2.2)

/-! ### calc_ps2d and alm2cl -/

/-- A two-dimensional numpy view of complex numbers: address of its first element and strides. Used for enmap.py:1953-1966. -/
structure View2 where
  addr : Int
  sy : Int
  sx : Int
deriving DecidableEq

/-- The contents of a view; the memory maps an address to the real and imaginary parts stored there. Used for enmap.py:1953-1966. -/
def View2.read (mem : Int → ℚ × ℚ) (ny nx : Nat) (v : View2) : List (ℚ × ℚ) :=
  (List.range ny).flatMap fun y => (List.range nx).map fun x => mem (v.addr + y * v.sy + x * v.sx)

/-- `(a*np.conj(b)).real`. Used for enmap.py:1953-1966. -/
def crossSpec (a b : List (ℚ × ℚ)) : List ℚ := List.zipWith (fun p q => p.1 * q.1 + p.2 * q.2) a b

/-- `tuple(sorted([x,y]))`. Used for enmap.py:1953-1966. -/
def sortedPair (x y : Int) : Int × Int := if x ≤ y then (x, y) else (y, x)

/-- enmap.calc_ps2d, lines 1953-1966, and cython/cmisc.pyx alm2cl, lines 44-75: the loop over pairs of views with a cache
of the spectra already computed. -/
def spectraLoop (mem : Int → ℚ × ℚ) (ny nx : Nat) : List (View2 × View2) → List ((Int × Int) × List ℚ) → List (List ℚ)
  | [], _ => []
  | p :: ps, cache =>
    let key := sortedPair p.1.addr p.2.addr
    match dictGet cache key with
    | some s => s :: spectraLoop mem ny nx ps cache
    | none =>
      let s := crossSpec (p.1.read mem ny nx) (p.2.read mem ny nx)
      s :: spectraLoop mem ny nx ps (dictSet cache key s)

/-! ### ndmap_proxy_fits -/

/-- What enmap.ndmap_proxy_fits.__getitem__, lines 2996-3015, does to the bytes of one pixel: multiply by the sign (line
3014) and, when the file's byte order is not the machine's, swap the bytes (fix_endian, line 3038). See enmap.py:2996-3015. -/
def fitsPixel (β : Type) (swap neg : β → β) (foreign flip : Bool) (b : β) : β :=
  let b := if flip then neg b else b
  if foreign then swap b else b

/-- One read: the selected pixels are given by their positions. If the array read from is a view of the data kept in
memory (`hdu.data[sel]` with slices), the operations, which are all in place, change that data. The result is what the
caller gets and the data kept afterwards. See enmap.py:2996-3015. -/
def fitsRead (β : Type) (swap neg : β → β) (foreign : Bool) (flip : Nat → Bool) (isView : Bool) (data : List β)
    (sel : List Nat) : List β × List β :=
  let data' := data.mapIdx fun i b => if i ∈ sel then fitsPixel β swap neg foreign (flip i) b else b
  (sel.filterMap (data'[·]?), if isView then data' else data)

/-! ### HDF files -/

/-- An HDF file: the nodes by path, in order of creation; `none` is a group and `some a` a dataset. Used for bunch.py:88-94. -/
abbrev HFile (α : Type) := List (List (List Char) × Option α)

/-- A new file. Used for bunch.py:80-86. -/
def hNew : HFile α := [([], none)]

/-- The node at a path. Used for bunch.py:70-78. -/
def hGet (f : HFile α) (p : List (List Char)) : Option (Option α) := dictGet f p

/-- The parents of a path, from the root down. See bunch.py:80-94. -/
def hParents (p : List (List Char)) : List (List (List Char)) := (List.range p.length).map fun i => p.take i

/-- Creating a node: fails if it exists or if one of its parents is a dataset, and creates missing parents. Used for bunch.py:88-94. -/
def hCreate (f : HFile α) (p : List (List Char)) (v : Option α) : Option (HFile α) :=
  if (hGet f p).isSome then none
  else if (hParents p).any fun q => (hGet f q).any (·.isSome) then none
  else some (f ++ ((hParents p).filter fun q => (hGet f q).isNone).map (fun q => (q, none)) ++ [(p, v)])

/-- Deleting a node and everything below it. See bunch.py:80-94. -/
def hDelete (f : HFile α) (p : List (List Char)) : HFile α := f.filter fun e => !(p.isPrefixOf e.1)

/-- The names in a group. Used for bunch.py:70-78. -/
def hChildren (f : HFile α) (g : List (List Char)) : List (List Char) :=
  f.filterMap fun e => if e.1 ≠ [] ∧ e.1.dropLast = g then e.1.getLast? else none

/-- Python's `str.split(c)` for a single character. -/
def pySplit (c : Char) : List Char → List (List Char)
  | [] => [[]]
  | x :: xs =>
    if x = c then [] :: pySplit c xs
    else match pySplit c xs with
      | [] => [[x]]
      | t :: ts => (x :: t) :: ts

/-- Python's `c.join(l)` for a single character. -/
def pyJoin (c : Char) : List (List Char) → List Char
  | [] => []
  | [t] => t
  | t :: ts => t ++ c :: pyJoin c ts

/-- How HDF resolves a name relative to a group: components separated by "/", empty ones and "." ignored, starting at the
root if the name starts with "/". Used for bunch.py:88-94. -/
def hResolve (g : List (List Char)) (name : List Char) : List (List Char) :=
  let comps := (pySplit '/' name).filter fun t => decide (t ≠ [] ∧ t ≠ ['.'])
  if name.head? = some '/' then comps else g ++ comps

/-- A nested Bunch, entry by entry: a value or a Bunch under each key. Used for bunch.py:88-94. -/
inductive BunchTree (α : Type) where
  | nil
  | val (k : List Char) (a : α) (rest : BunchTree α)
  | sub (k : List Char) (b : BunchTree α) (rest : BunchTree α)
deriving DecidableEq

/-- bunch.py write_hdf_recursive, lines 88-94. -/
def bunchWriteRec (g : List (List Char)) : BunchTree α → HFile α → Option (HFile α)
  | .nil, f => some f
  | .val k a rest, f => (hCreate f (hResolve g k) (some a)).bind (bunchWriteRec g rest)
  | .sub k b rest, f => ((hCreate f (hResolve g k) none).bind (bunchWriteRec (hResolve g k) b)).bind (bunchWriteRec g rest)

/-- bunch.py write_hdf, lines 80-86, for a given group: the file is always opened with mode "w". -/
def bunchWrite (_ : HFile α) (group : Option (List Char)) (b : BunchTree α) : Option (HFile α) :=
  match group with
  | none => bunchWriteRec [] b hNew
  | some g => if g = [] then bunchWriteRec [] b hNew
      else (hCreate hNew (hResolve [] g) none).bind (bunchWriteRec (hResolve [] g) b)

/-- What reading a node gives: a value or a Bunch. Used for bunch.py:70-78. -/
inductive BunchValue (α : Type) where
  | leaf (a : α)
  | bunch (b : BunchTree α)
deriving DecidableEq

/-- Adding an entry to a Bunch. Used for bunch.py:70-78. -/
def bunchAdd (k : List Char) (v : BunchValue α) (rest : BunchTree α) : BunchTree α :=
  match v with
  | .leaf a => .val k a rest
  | .bunch b => .sub k b rest

/-- bunch.py read_hdf_recursive, lines 70-78. The first argument bounds the nesting depth (`none` when it is exceeded).
h5py lists names alphabetically; here they come in order of creation. -/
def bunchReadRec : Nat → HFile α → List (List Char) → Option (BunchValue α)
  | 0, _, _ => none
  | fuel + 1, f, g =>
    match hGet f g with
    | none => none
    | some (some a) => some (.leaf a)
    | some none =>
      ((hChildren f g).foldr (fun k acc => acc.bind fun rest =>
        (bunchReadRec fuel f (g ++ [k])).map fun v => bunchAdd k v rest) (some BunchTree.nil)).map .bunch

/-- The contents of an enmap as stored in a file: the data and the wcs header. See enmap.py:2853-2897. -/
structure HMap (α : Type) where
  data : α
  header : List (List Char × α)
deriving DecidableEq

/-- enmap.write_hdf, lines 2853-2870, for a file name and no extra entries. See enmap.py:2853-2870. -/
def mapWrite (f : HFile α) (address : Option (List Char)) (m : HMap α) : Option (HFile α) :=
  let start : Option (HFile α × List (List Char)) := match address with
    | none => some (hNew, [])
    | some a =>
      let g := hResolve [] a
      let f := if (hGet f g).isSome then hDelete f g else f
      (hCreate f g none).map fun f => (f, g)
  start.bind fun s =>
    (hCreate s.1 (s.2 ++ ["data".toList]) (some m.data)).bind fun f =>
      m.header.foldl (fun acc e => acc.bind fun f => hCreate f (s.2 ++ ["wcs".toList, e.1]) (some e.2)) (some f)

/-- enmap.read_hdf, lines 2886-2897: the data and the header entries, read through the names listed in the group "wcs". See enmap.py:2886-2897. -/
def mapRead (f : HFile α) (address : Option (List Char)) : Option (HMap α) :=
  let g := address.elim [] (hResolve [])
  (hGet f (g ++ ["data".toList])).join.bind fun data =>
    match hGet f (g ++ ["wcs".toList]) with
    | some none =>
      ((hChildren f (g ++ ["wcs".toList])).mapM fun k => (hGet f (g ++ ["wcs".toList, k])).join.map fun v => (k, v)).map
        fun h => ⟨data, h⟩
    | _ => none

/-! ### bunch.split_hdf_path -/

/-- bunch.py split_hdf_path, lines 115-152. Modes: `dot`, `none` and `exists` with a test for existing files. -/
inductive SplitMode where
  | dot
  | none
  | exists (isFile : List Char → Bool)

/-- The position chosen by the loop over the components in reverse order, lines 134-143. See bunch.py:134-143. -/
def splitPos (mode : SplitMode) (toks : List (List Char)) : Option Nat :=
  match mode with
  | .dot => (List.range toks.length).reverse.find? fun i => (toks[i]?).any fun t => t.contains '.'
  | .exists isFile => (List.range toks.length).reverse.find? fun i => isFile (pyJoin '/' (toks.take (i + 1)))
  | .none => some toks.length

/-- bunch.py split_hdf_path: file name and group, `none` for ValueError. See bunch.py:115-152. -/
def splitHdfPath (mode : SplitMode) (fname : List Char) (subgroup : Option (List Char)) :
    Option (List Char × Option (List Char)) :=
  let toks := pySplit '/' fname
  (splitPos mode toks).map fun i =>
    let gtoks := toks.drop (i + 1)
    let gtoks := match subgroup with
      | some s => if s = [] then gtoks else gtoks ++ [s]
      | Option.none => gtoks
    (pyJoin '/' (toks.take (i + 1)), if gtoks.length > 0 then some (pyJoin '/' gtoks) else Option.none)

end Pixell
