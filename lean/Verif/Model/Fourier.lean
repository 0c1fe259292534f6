import Mathlib.Data.Rat.Defs
import Mathlib.Algebra.Field.Rat

/-
pixell/fft.py, pixell/resample.py, pixell/enmap.py: frequency bookkeeping and Fourier resampling. Coefficients are
elements of an arbitrary type; `op` and the multiplication by `norm` are elementwise functions.
-/
namespace Pixell

/-- pixell/fft.py:335 (ind2freq), elementwise: np.where(i < n/2, i, -n+i)/(d*n). -/
def ind2freq (n i : Nat) (d : ℚ) : ℚ :=
  (if (i : ℚ) < (n : ℚ) / 2 then (i : ℚ) else -(n : ℚ) + i) / (d * n)

/-- pixell/fft.py:337-339 (freq2ind), elementwise. -/
def freq2ind (n : Nat) (f d : ℚ) : ℚ :=
  let j := f * (d * n)
  if j ≥ 0 then j else n + j

/-- pixell/fft.py:336 (int2rfreq). -/
def int2rfreq (n i : Nat) (d : ℚ) : ℚ := i / (n * d)

/-- pixell/fft.py:340 (rfreq2ind). -/
def rfreq2ind (n : Nat) (f d : ℚ) : ℚ := f * (n * d)

variable {α : Type}

/-- pixell/fft.py:413-415 (transfer): dest[:] = op(dest, source*norm), elementwise on equally long blocks. -/
def transferBlock (op : α → α → α) (norm : α → α) (dest source : List α) : List α :=
  List.zipWith (fun a b => op a (norm b)) dest source

/-- pixell/fft.py:381-426 (resample_fft) for one axis, with `out` given (its length is `n`). With c = 0 the second slice
is `slice(0,None)`, the whole array, and the assignment raises unless the shapes broadcast. -/
def resampleFftOut (fa out : List α) (op : α → α → α) (norm : α → α) : Option (List α) :=
  let n := out.length
  let m := fa.length
  let c := min m n
  if c = 0 then if n = 0 ∧ m ≤ 1 then some [] else none
  else
    let h := c / 2
    let out1 := transferBlock op norm (out.take h) (fa.take h) ++ out.drop h
    let k := c - h
    some (out1.take (n - k) ++ transferBlock op norm (out1.drop (n - k)) (fa.drop (m - k)))

/-- pixell/fft.py:381-426 (resample_fft) with the default out=None and op: overwrite zeros. -/
def resampleFft [Zero α] (fa : List α) (n : Nat) (norm : α → α) : Option (List α) :=
  resampleFftOut fa (List.replicate n 0) (fun _ b => b) norm

/-- pixell/resample.py:81-96 (resample_fft), the reshaping of one axis of the transformed array. -/
def resampleAxis [Zero α] (fd : List α) (nnew : Nat) : List α :=
  let nold := fd.length
  if nnew > nold then fd.take (nold / 2) ++ List.replicate (nnew - nold) 0 ++ fd.drop (nold / 2)
  else if nnew < nold then fd.take (nnew / 2) ++ fd.drop (nnew / 2 + (nold - nnew))
  else fd

/-- Assignment of a block: rows y0..y0+ny, columns x0..x0+nx of a map receive `op` of themselves and the block of the
same size at (sy0, sx0) of the source. Used for enmap.py:3158-3170. -/
def setQuad (op : α → α → α) (norm : α → α) (dst src : Nat → Nat → α) (y0 x0 sy0 sx0 ny nx : Nat) : Nat → Nat → α :=
  fun y x => if y0 ≤ y ∧ y < y0 + ny ∧ x0 ≤ x ∧ x < x0 + nx then op (dst y x) (norm (src (y - y0 + sy0) (x - x0 + sx0))) else dst y x

/-- pixell/enmap.py:3158-3170 (enmap.resample_fft), the four quadrant copies, for maps of shape (my,mx) → (ny,nx).
The sizes are positive (for an empty axis `-(cny-hny):` would be the whole axis). The phase shift that follows when the
pixel corners are aligned is not modelled. -/
def resampleQuads (op : α → α → α) (norm : α → α) (fi fo : Nat → Nat → α) (my mx ny nx : Nat) : Nat → Nat → α :=
  let cny := min my ny
  let cnx := min mx nx
  let hny := cny / 2
  let hnx := cnx / 2
  let f1 := setQuad op norm fo fi 0 0 0 0 hny hnx
  let f2 := setQuad op norm f1 fi 0 (nx - (cnx - hnx)) 0 (mx - (cnx - hnx)) hny (cnx - hnx)
  let f3 := setQuad op norm f2 fi (ny - (cny - hny)) 0 (my - (cny - hny)) 0 (cny - hny) hnx
  setQuad op norm f3 fi (ny - (cny - hny)) (nx - (cnx - hnx)) (my - (cny - hny)) (mx - (cnx - hnx)) (cny - hny) (cnx - hnx)

end Pixell
