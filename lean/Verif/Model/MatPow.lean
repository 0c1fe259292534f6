import Mathlib.LinearAlgebra.Matrix.NonsingularInverse
import Mathlib.Analysis.SpecialFunctions.Pow.Real
import Mathlib.Analysis.SpecialFunctions.Sqrt
import Mathlib.Data.Matrix.Block

/-
Matrix functions of pixell/utils.py: eigpow, eigsort, build_conditional, cov2corr, corr2cov, nodiag and solve. Floats are real
numbers. The eigenvalues and eigenvectors are arguments, given by np.linalg.eigh in the code.
-/
namespace Pixell
open Matrix

/-- The eigenvalues after exponentiation, pixell/utils.py:2593-2603. `mx` is what the eigenvalues are compared to
(utils.py:2599 and 2601); is_int_valued is at utils.py:2541. -/
noncomputable def powEig {ι : Type} (e rlim alim : ℝ) (mx : ι → ℝ) (E : ι → ℝ) (i : ι) : ℝ :=
  open Classical in
  if ((¬ ∃ k : ℤ, e = k) ∧ E i < 0) ∨ (e < 0 ∧ (|E i| < mx i * rlim ∨ |E i| < alim)) then 0 else E i ^ e

/-- utils.eigpow of one matrix with eigenvalues E and eigenvectors in the columns of V, pixell/utils.py:2590-2608. -/
noncomputable def eigpow {n : ℕ} (E : Fin n → ℝ) (V : Matrix (Fin n) (Fin n) ℝ) (e rlim alim : ℝ) : Matrix (Fin n) (Fin n) ℝ :=
  V * (diagonal (powEig e rlim alim (fun _ => ⨆ j, |E j|) E) * Vᵀ)

/-- utils.eigpow of a stack of matrices with two leading axes, pixell/utils.py:2598-2605: `np.max(aE,1)` runs over the
second leading axis. -/
noncomputable def eigpowStack {a b n : ℕ} (E : Fin a → Fin b → Fin n → ℝ) (V : Fin a → Fin b → Matrix (Fin n) (Fin n) ℝ)
    (e rlim alim : ℝ) (i : Fin a) (j : Fin b) : Matrix (Fin n) (Fin n) ℝ :=
  V i j * (diagonal (powEig e rlim alim (fun k => ⨆ j', |E i j' k|) (E i j)) * (V i j)ᵀ)

/-- utils.eigsort with merged=True and all eigenvalues, pixell/utils.py:1245-1247, with `perm` the descending order. -/
noncomputable def eigsortMerged {n : ℕ} (E : Fin n → ℝ) (V : Matrix (Fin n) (Fin n) ℝ) (perm : Equiv.Perm (Fin n)) :
    Matrix (Fin n) (Fin n) ℝ := fun i k => V i (perm k) * Real.sqrt (E (perm k))

/-- The inverse used by build_conditional, pixell/utils.py:2638-2642: zero for matrices with a diagonal of zeros; `none` is
the error raised for other singular matrices. -/
noncomputable def condInv {ι : Type} [Fintype ι] [DecidableEq ι] (A : Matrix ι ι ℝ) : Option (Matrix ι ι ℝ) :=
  open Classical in
  if ∀ i, A i i = 0 then some 0 else if A.det = 0 then none else some A⁻¹

/-- utils.build_conditional of one matrix, pixell/utils.py:2634-2648; `known i` is whether i is among inds. -/
noncomputable def buildConditional {n : ℕ} (C : Matrix (Fin n) (Fin n) ℝ) (known : Fin n → Prop) [DecidablePred known] :
    Option (Matrix {i // ¬ known i} {i // known i} ℝ × Matrix {i // ¬ known i} {i // ¬ known i} ℝ) := do
  let Ci ← condInv C
  let Ciuk := Ci.toBlock (fun i => ¬ known i) known
  let Ciuu := Ci.toBlock (fun i => ¬ known i) (fun i => ¬ known i)
  let Ciuui ← condInv Ciuu
  some (-(Ciuui * Ciuk), Ciuui)

/-- utils.cov2corr, pixell/utils.py:1226-1232. -/
noncomputable def cov2corr {n : ℕ} (C : Matrix (Fin n) (Fin n) ℝ) : Matrix (Fin n) (Fin n) ℝ × (Fin n → ℝ) :=
  let std := fun i => Real.sqrt (C i i)
  (fun i j => C i j * (1 / std i) * (1 / std j), std)

/-- utils.corr2cov, pixell/utils.py:1233-1237. -/
def corr2cov {n : ℕ} (corr : Matrix (Fin n) (Fin n) ℝ) (std : Fin n → ℝ) : Matrix (Fin n) (Fin n) ℝ :=
  fun i j => corr i j * std i * std j

/-- utils.nodiag, pixell/utils.py:1250-1254. -/
def nodiag {n : ℕ} (A : Matrix (Fin n) (Fin n) ℝ) : Matrix (Fin n) (Fin n) ℝ := fun i j => if i = j then 0 else A i j

/-- utils.solve with masked=True for a list of systems, pixell/utils.py:2551-2561. The flattened right-hand side is a view of
the array b of the caller, into which the solutions are written: the first component is the result, the second what is in b
afterwards. `store` is the conversion to the type of b. `none` is the error raised for singular matrices. -/
noncomputable def solveMasked {m n : ℕ} (store : ℝ → ℝ) (A : Fin m → Matrix (Fin (n + 1)) (Fin (n + 1)) ℝ)
    (b : Fin m → Fin (n + 1) → ℝ) : Option ((Fin m → Fin (n + 1) → ℝ) × (Fin m → Fin (n + 1) → ℝ)) :=
  open Classical in
  if ∃ i, A i 0 0 ≠ 0 ∧ (A i).det = 0 then none else
  let fb : Fin m → Fin (n + 1) → ℝ := fun i k => if A i 0 0 ≠ 0 then store (((A i)⁻¹ *ᵥ b i) k) else 0
  some (fb, fb)

end Pixell
