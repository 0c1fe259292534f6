import Verif.Model.Interpol

/-!
# Derivatives of interpolated arrays: `interpol.map_coordinates(deriv=True)`

`pixell/interpol.py:75-80`, `:90-95` and `fortran/interpol.F90`.  Line numbers without a file refer
to the latter.  Simplifications as in `Verif.Model.Interpol`; in the transposed routine an access
outside the work array `res` is `none`.
-/

namespace Pixell

variable {K : Type} [Field K] [LinearOrder K] [IsStrictOrderedRing K] [FloorRing K]

/-- The derivative of the convolution kernel (`interpol.F90:358-364`). -/
def convDKernel (order : ℕ) (x : K) : K :=
  if order = 1 then (if x < 1 then -1 else 0)
  else if order = 3 then
    if x < 1 then 9 / 2 * x ^ 2 - 5 * x
    else if x < 2 then -3 / 2 * x ^ 2 + 5 * x - 4 else 0
  else 0

/-- The derivative of the spline kernel (`interpol.F90:365-384`); order 5 is "Not computed yet". -/
def splineDKernel (order : ℕ) (x : K) : K :=
  if order = 1 then (if x < 1 then -1 else 0)
  else if order = 2 then
    if x < 1 / 2 then -2 * x else if x < 3 / 2 then -(3 / 2 - x) else 0
  else if order = 3 then
    if x < 1 then x ^ 2 - x * 2 / 3 else if x < 2 then -(2 - x) ^ 2 / 2 else 0
  else if order = 4 then
    if x < 1 / 2 then 2 * x * (x ^ 2 * (1 / 4) - 5 / 8) + x ^ 2 * 2 * x * (1 / 4)
    else if x < 3 / 2 then x ^ 2 * 5 / 2 - x ^ 3 * 2 / 3 - 2 * x * (5 / 4) + 5 / 24
    else if x < 5 / 2 then (x - 5 / 2) ^ 3 / 6 else 0
  else 0

/-- `weights(j+1,i)` of `calc_weights_deriv` (`interpol.F90:337-397`). -/
def ctxDWeight (t : Kernel) (order : ℕ) (p : K) (j : ℕ) : K :=
  if order = 0 then 0
  else
    let x := p - j - ctxOffset t order p
    let sgn : K := if x > 0 then 1 else -1
    sgn * match t with
    | .conv => convDKernel order |x|
    | .spline => splineDKernel order |x|

/-- `cloop` of `interpol_deriv` (`interpol.F90:560-606`): the grid points and the counters, in order.  As in
`interpol`, skipping a cell also skips advancing to the next one (`interpol.F90:572`). -/
def derivLoop (b : Border) (nw : ℕ) (axs : List (CtxAxis K)) : ℕ → List ℕ → List (ℕ × List ℕ)
  | 0, _ => []
  | k + 1, J =>
    match ctxIndex b axs J with
    | none => derivLoop b nw axs k J
    | some d => (d, J) :: derivLoop b nw axs k (advInds nw J)

/-- `res(j,i)` (`interpol.F90:575-588`): `v*dweight/weight`, skipping cells whose value is zero. -/
def derivAt (b : Border) (nw : ℕ) (axs : List (CtxAxis K)) (i : ℕ) (dw : ℕ → K) (data : ℕ → K) : K :=
  (derivLoop b nw axs (nw ^ axs.length) (axs.map fun _ => 0)).foldl (fun res c =>
    let v := data c.1 * ctxProd axs c.2
    if v = 0 then res
    else res + v * dw (c.2.getD i 0) / ((axs[i]?.map fun ax => ax.w).getD fun _ => 0) (c.2.getD i 0)) 0

/-- `map_coordinates(..., deriv=True)` without prefilter: the component along axis `i` at one
point. See interpol.py:7-98. -/
def mapCoordsDeriv (t : Kernel) (order : ℕ) (b : Border) (shape : List ℕ) (data : ℕ → K)
    (pos : List K) (i : ℕ) : K :=
  derivAt b (weightLength t order) (ctxAxes t order shape pos) i (ctxDWeight t order (pos.getD i 0))
    data

/-- What the transposed routine adds to `idata(dind+1,:)` for one cell (`interpol.F90:590-603`).  `ws` and `dws`
are the weights of the cell along the axes, `wt j i` is `weights(j+1,i+1)` and `res` is
`odata(si,:,:)` as rows (components) of `ndim` columns. -/
def derivTransCell (ws dws : List K) (wt : ℕ → ℕ → K) (res : List (List K)) : Option (List K) :=
  if ws.length ≤ res.length then
    let res' := res.mapIdx fun i row =>
      if i < ws.length then row.map fun r => r * ws.getD i 0 else row
    some (res'.mapIdx fun j row =>
      ((List.range ws.length).map fun i =>
        if wt j i ≠ 0 then row.getD i 0 * dws.getD i 0 / ws.getD i 0 else 0).sum)
  else none

end Pixell
