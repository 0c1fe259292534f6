import Mathlib.Analysis.SpecialFunctions.Complex.Arg
import Mathlib.Analysis.SpecialFunctions.Pow.Real

/-! Elliptical beams given by their inverse squared radii, and beam transfer functions without small values. See
pixell/utils.py:1024-1079. -/

namespace Pixell

/-- `[C[0,0],C[1,1],C[0,1]]`. -/
abbrev Irads := ℝ × ℝ × ℝ

/-- `compress_beam(sigma, phi)`: `R diag(sigma**-2) R.T`. See utils.py:1024-1030. -/
noncomputable def compressBeam (s0 s1 phi : ℝ) : Irads :=
  let c := Real.cos phi
  let s := Real.sin phi
  (c * (s0 ^ 2)⁻¹ * c + s * (s1 ^ 2)⁻¹ * s, s * (s0 ^ 2)⁻¹ * s + c * (s1 ^ 2)⁻¹ * c, c * (s0 ^ 2)⁻¹ * s - s * (s1 ^ 2)⁻¹ * c)

/-- What `np.linalg.eigh` gives for a 2x2 matrix: the values in increasing order and the columns `V[:,0]`, `V[:,1]`. -/
structure Eig2 where
  e0 : ℝ
  e1 : ℝ
  v00 : ℝ
  v10 : ℝ
  v01 : ℝ
  v11 : ℝ

/-- The guarantee of `np.linalg.eigh`: orthonormal eigenvectors and increasing values. -/
structure IsEig2 (C : Irads) (E : Eig2) : Prop where
  le : E.e0 ≤ E.e1
  unit0 : E.v00 ^ 2 + E.v10 ^ 2 = 1
  unit1 : E.v01 ^ 2 + E.v11 ^ 2 = 1
  orth : E.v00 * E.v01 + E.v10 * E.v11 = 0
  eig00 : C.1 * E.v00 + C.2.2 * E.v10 = E.e0 * E.v00
  eig10 : C.2.2 * E.v00 + C.2.1 * E.v10 = E.e0 * E.v10
  eig01 : C.1 * E.v01 + C.2.2 * E.v11 = E.e1 * E.v01
  eig11 : C.2.2 * E.v01 + C.2.1 * E.v11 = E.e1 * E.v11

/-- `x % p` of floats. -/
noncomputable def realMod (x p : ℝ) : ℝ := x - p * ⌊x / p⌋

/-- `expand_beam(irads)` given the result of `eigh`: `(sigma[0], sigma[1], phi)`. See utils.py:1032-1042. -/
noncomputable def expandBeam (E : Eig2) : ℝ × ℝ × ℝ :=
  let phi := Complex.arg ⟨E.v00, E.v10⟩
  let s0 := E.e0 ^ (-(1/2) : ℝ)
  let s1 := E.e1 ^ (-(1/2) : ℝ)
  if s0 < s1 then (s1, s0, realMod (phi + Real.pi / 2) Real.pi) else (s0, s1, realMod phi Real.pi)

/-- `B.dot(C).dot(B.T)` with `B = (V*E**0.5).dot(V.T)`. See utils.py:1047-1050. -/
noncomputable def combineStep (T : Irads) (E : Eig2) : Irads :=
  let b00 := E.v00 * E.e0 ^ (1/2 : ℝ) * E.v00 + E.v01 * E.e1 ^ (1/2 : ℝ) * E.v01
  let b01 := E.v00 * E.e0 ^ (1/2 : ℝ) * E.v10 + E.v01 * E.e1 ^ (1/2 : ℝ) * E.v11
  let b11 := E.v10 * E.e0 ^ (1/2 : ℝ) * E.v10 + E.v11 * E.e1 ^ (1/2 : ℝ) * E.v11
  (b00 * (T.1 * b00 + T.2.2 * b01) + b01 * (T.2.2 * b00 + T.2.1 * b01),
   b01 * (T.1 * b01 + T.2.2 * b11) + b11 * (T.2.2 * b01 + T.2.1 * b11),
   b00 * (T.1 * b01 + T.2.2 * b11) + b01 * (T.2.2 * b01 + T.2.1 * b11))

/-- `combine_beams(irads_array)` given the results of `eigh`. See utils.py:1044-1051. -/
noncomputable def combineBeams (Es : List Eig2) : Irads := Es.foldl combineStep (1, 1, 0)

/-- `lcut` of regularize_beam for a beam `b` of `n` values: the first index that is not above, or `n-1` when that is 0 or there is none.
See utils.py:1068-1069. -/
noncomputable def lcutOf (n : ℕ) (b : ℕ → ℝ) (vcut : ℝ) : ℕ :=
  open Classical in
  match (List.range n).find? (fun l => decide (¬ vcut < b l)) with
  | none => n - 1
  | some 0 => n - 1
  | some l => l

/-- `np.max(beam)*cutoff`; `none` for an empty beam. See utils.py:1066. -/
noncomputable def vcutOf (n : ℕ) (b : ℕ → ℝ) (cutoff : ℝ) : Option ℝ :=
  (((List.range n).map b).max?).map fun m => m * cutoff

/-- The extrapolation `vcut * (l/lcut)**(2*np.log(cutoff))`. See utils.py:1065,1071. -/
noncomputable def beamTail (vcut : ℝ) (lcut : ℕ) (cutoff : ℝ) (l : ℕ) : ℝ :=
  vcut * ((max 1 l : ℕ) / (lcut : ℝ)) ^ (2 * Real.log cutoff)

/-- `regularize_beam(beam, cutoff, nl)` for one beam of `n` values, without normalize: length and values. `none` is an exception: an empty beam, or the
IndexError when `lcut` is `nl`. See utils.py:1053-1079. -/
noncomputable def regularizeBeam (n : ℕ) (b : ℕ → ℝ) (cutoff : ℝ) (nl : ℕ) : Option (ℕ × (ℕ → ℝ)) :=
  (vcutOf n b cutoff).bind fun vcut =>
    let lcut := lcutOf n b vcut
    if nl < lcut then some (min nl n, b)
    else if nl ≤ lcut then none
    else some (nl, fun l => if l < lcut ∧ l < min nl n then b l else beamTail vcut lcut cutoff l)

end Pixell
