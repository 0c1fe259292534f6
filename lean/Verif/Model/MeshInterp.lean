import Mathlib.Data.Rat.Floor
import Mathlib.Algebra.BigOperators.Fin
import Mathlib.Algebra.BigOperators.Group.Finset.Basic
import Mathlib.Data.Fintype.Powerset
import Mathlib.Data.Fintype.Pi

/-
pixell/interpol.py:120-300: interpolation of functions on a regular mesh of any number of dimensions, and its refinement
until the error is small. Rational numbers. Indices of the mesh are functions Fin d → ℤ, one output component at a time
unless said otherwise. A tuple of zeros and ones is the set of the places with a one.
-/
namespace Pixell

/-- pixell/utils.py:718-734 (grid) with endpoint=True: the position of one point of the mesh. -/
def gridPos {d : ℕ} (lo hi : Fin d → ℚ) (n : Fin d → ℕ) (k : Fin d → ℤ) : Fin d → ℚ :=
  fun i => k i * (hi i - lo i) / ((n i : ℚ) - 1) + lo i

/-- pixell/interpol.py:272-278: one turn of the loop of lin_derivs_forward. -/
def linDerivStep {d : ℕ} (n : Fin d → ℕ) (i : Fin d) (ys : Finset (Fin d) → (Fin d → ℤ) → ℚ) :
    Finset (Fin d) → (Fin d → ℤ) → ℚ :=
  fun I ix => if i ∈ I ∧ ∀ j ∈ I, j ≤ i then
      (if ix i < (n i : ℤ) - 1 then ys (I.erase i) (ix + Pi.single i 1) - ys (I.erase i) ix else ys I ix)
    else ys I ix

/-- pixell/interpol.py:262-280 (lin_derivs_forward): the first k turns. The last slice, which drops the last index of each
axis, is left to the reader of the array. -/
def linDerivs {d : ℕ} (n : Fin d → ℕ) (y : (Fin d → ℤ) → ℚ) : ℕ → Finset (Fin d) → (Fin d → ℤ) → ℚ
  | 0 => fun I ix => if I = ∅ then y ix else 0
  | k + 1 => if h : k < d then linDerivStep n ⟨k, h⟩ (linDerivs n y k) else linDerivs n y k

/-- pixell/interpol.py:216 (ip_linear.__call__): px. ys has one point less than y along each axis. -/
def ipPix {d : ℕ} (lo hi : Fin d → ℚ) (n : Fin d → ℕ) (x : Fin d → ℚ) : Fin d → ℚ :=
  fun i => (x i - lo i) / (hi i - lo i) * ((n i : ℚ) - 1)

/-- pixell/interpol.py:217-218: ix. -/
def ipCell {d : ℕ} (n : Fin d → ℕ) (px : Fin d → ℚ) : Fin d → ℤ :=
  fun i => max 0 (min ((n i : ℤ) - 1 - 1) ⌊px i⌋)

/-- pixell/interpol.py:206-224 (ip_linear), one output and one position. -/
def ipLinear {d : ℕ} (lo hi : Fin d → ℚ) (n : Fin d → ℕ) (y : (Fin d → ℤ) → ℚ) (x : Fin d → ℚ) : ℚ :=
  let px := ipPix lo hi n x
  let ix := ipCell n px
  let fx := fun i => px i - ix i
  ∑ I : Finset (Fin d), linDerivs n y d I ix * ∏ i ∈ I, fx i

/-- pixell/interpol.py:226-243 (ip_grad), one output and one position. -/
def ipGrad {d : ℕ} (lo hi : Fin d → ℚ) (n : Fin d → ℕ) (y : (Fin d → ℤ) → ℚ) (x : Fin d → ℚ) : ℚ :=
  let px := ipPix lo hi n x
  let ix := ipCell n px
  let fx := fun i => px i - ix i
  linDerivs n y d ∅ ix + ∑ i : Fin d, linDerivs n y d {i} ix * fx i

/-- The state of pixell/interpol.py:135-148 (build): the mesh of the interpolator, for each dimension whether its error is
still too large, and obox (of one output). -/
structure MeshSt (d : ℕ) where
  n : Fin d → ℕ
  bad : Fin d → Bool
  obox : Option (ℚ × ℚ)

/-- What build sees of the function and the interpolator: `fails n m`, whether any output of the interpolator on the mesh n
is off by more than errlim on the mesh m; least and largest value of an output on a mesh; the number of outputs. -/
structure MeshFun (d : ℕ) where
  fails : (Fin d → ℕ) → (Fin d → ℕ) → Bool
  least : (Fin d → ℕ) → ℚ
  largest : (Fin d → ℕ) → ℚ
  nout : ℕ

/-- pixell/interpol.py:173-174: the mesh of the test along dimension i. -/
def finerMesh {d : ℕ} (n : Fin d → ℕ) (i : Fin d) : Fin d → ℕ := Function.update n i (n i * 2 + 1)

/-- pixell/interpol.py:163-193: one turn of the inner loop of build, with the number nok; none if it raises: ytrue of
nout·∏nnew numbers is reshaped to (4,-1). maxtime is not modelled. -/
def buildDim {d : ℕ} (F : MeshFun d) (i : Fin d) (st : MeshSt d × ℕ) : Option (MeshSt d × ℕ) :=
  let (s, nok) := st
  if s.bad i then
    let m := finerMesh s.n i
    if (F.nout * ∏ j, m j) % 4 ≠ 0 then none
    else
      let bad := F.fails s.n m
      let o0 := match s.obox with
        | none => F.least m
        | some o => min o.1 (F.least m)
      let o1 := max o0 (F.largest m)
      some (⟨if bad then m else s.n, Function.update s.bad i bad, some (o0, o1)⟩, if bad then nok else nok + 1)
  else some (s, nok + 1)

/-- What build returns or raises; the flags of return_status are kept. -/
inductive BuildRes (d : ℕ)
  | ok (s : MeshSt d)
  | tooLarge (s : MeshSt d)
  | error
  | unfinished

/-- pixell/interpol.py:153: `maxsize and np.prod(n) > maxsize`. -/
def meshTooLarge {d : ℕ} (maxsize : Option ℕ) (n : Fin d → ℕ) : Bool :=
  match maxsize with
  | none => false
  | some m => m ≠ 0 ∧ m < ∏ j, n j

/-- pixell/interpol.py:150-194 (build): the outer loop, with fuel. -/
def buildLoop {d : ℕ} (F : MeshFun d) (maxsize : Option ℕ) : ℕ → MeshSt d → BuildRes d
  | 0, _ => .unfinished
  | fuel + 1, s =>
    if meshTooLarge maxsize s.n then .tooLarge s
    else match (List.finRange d).foldlM (fun st i => buildDim F i st) (s, 0) with
      | none => .error
      | some (s', nok) => if d ≤ nok then .ok s' else buildLoop F maxsize fuel s'

/-- pixell/interpol.py:132-148 (build): the start. -/
def meshStart (d : ℕ) (nstart : Option (Fin d → ℕ)) : MeshSt d := ⟨nstart.getD fun _ => 3, fun _ => true, none⟩

/-- What is returned, by its parts. -/
inductive BuildPart | ip | obox | status | err
  deriving DecidableEq, Repr

/-- pixell/interpol.py:195-198: what is returned on success. -/
def buildReturn (returnObox returnStatus : Bool) : List BuildPart :=
  [.ip] ++ (if returnObox then [.obox] else []) ++ (if returnStatus then [.status, .err] else [])

/-- pixell/interpol.py:154-156 and 166-168: what is returned if the mesh becomes too large or the time is up, none if it
raises. `ip if not return_obox else ip, np.array(obox), False, err` is a tuple of four. -/
def buildReturnFail (_returnObox returnStatus : Bool) : Option (List BuildPart) :=
  if returnStatus then some [.ip, .obox, .status, .err] else none

/-- The MeshFun of a function with ip_linear, for functions of `nout` outputs. -/
def linearMesh {d nout : ℕ} (lo hi : Fin d → ℚ) (f : (Fin d → ℚ) → Fin nout → ℚ) (errlim : Fin nout → ℚ)
    (least largest : (Fin d → ℕ) → ℚ) : MeshFun d where
  fails n m := decide (∃ o : Fin nout, ∃ k : (i : Fin d) → Fin (m i),
    errlim o < |f (gridPos lo hi m fun i => (k i : ℤ)) o -
      ipLinear lo hi n (fun ix => f (gridPos lo hi n ix) o) (gridPos lo hi m fun i => (k i : ℤ))|)
  least := least
  largest := largest
  nout := nout

end Pixell
