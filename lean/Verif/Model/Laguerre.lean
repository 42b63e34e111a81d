import Verif.Model.SpectralMatrices
import Mathlib.Algebra.Polynomial.Derivative
import Mathlib.Analysis.SpecialFunctions.Exp

/-!
# Laguerre functions, `/repo/shenfun/laguerre/bases.py`, `/repo/shenfun/laguerre/matrices.py`

Exact real arithmetic.  numpy's `lagvander` and `lagder` are modelled by their loops; `laggauss` by points and weights given
as arguments; scipy's `eval_laguerre` and numpy's `lagval` by sums over the columns of `lagvander`.
-/

namespace Shenfun

open Polynomial Finset

/-- Column `n` of numpy's `lagvander` (`vandermonde`, `/repo/shenfun/laguerre/bases.py:84-87`) as a polynomial: `v[0] = 1`,
`v[1] = 1 - x`, `v[i] = (v[i-1]*(2i - 1 - x) - v[i-2]*(i-1))/i`. -/
noncomputable def lagP : ℕ → ℝ[X]
  | 0 => 1
  | 1 => 1 - X
  | (n + 2) => C (1 / ((n : ℝ) + 2)) * (lagP (n + 1) * (C (2 * ((n : ℝ) + 2) - 1) - X) - lagP n * C ((n : ℝ) + 1))

/-- One differentiation of numpy's `lagder` of a series with `n` coefficients: the loop `der[j-1] = -c[j]; c[j-1] += c[j]`
from `j = n - 1` down leaves minus the sum of the coefficients behind. -/
def lagDerStep (n : ℕ) (c : ℕ → ℝ) : ℕ → ℝ := fun j => if j + 1 < n then -∑ m ∈ Ico (j + 1) n, c m else 0

/-- numpy's `lagder(c, k)` of a series with `n` coefficients, as used in `/repo/shenfun/laguerre/bases.py:133-160` and in
`Laguerre.deriv`. -/
def lagDer (n : ℕ) : ℕ → (ℕ → ℝ) → ℕ → ℝ
  | 0, c => c
  | (k + 1), c => lagDer (n - 1) k (lagDerStep n c)

/-- A Laguerre series of `n` coefficients at a point. -/
noncomputable def lagSeries (n : ℕ) (c : ℕ → ℝ) (x : ℝ) : ℝ := ∑ m ∈ range n, (lagP m).eval x * c m

/-- `evaluate_basis`, `/repo/shenfun/laguerre/bases.py:89-95`, and column `i` of `vandermonde`. -/
noncomputable def lagBasis (i : ℕ) (x : ℝ) : ℝ := (lagP i).eval x * Real.exp (-x / 2)

/-- `evaluate_basis_derivative`, `/repo/shenfun/laguerre/bases.py:97-116`, in a space of dimension `M`.  There is no `else`:
orders above four leave the series as it is. -/
noncomputable def lagBasisDeriv (M i k : ℕ) (x : ℝ) : ℝ :=
  let d : ℕ → ℝ := fun r => lagSeries M (lagDer M r fun m => if m = i then 1 else 0) x
  let v := if k = 1 then d 1 - 0.5 * d 0
    else if k = 2 then d 2 - d 1 + 0.25 * d 0
    else if k = 3 then d 3 - 1.5 * d 2 + 0.75 * d 1 - d 0 / 8
    else if k = 4 then d 4 - 2 * d 3 + 1.5 * d 2 - 0.5 * d 1 + d 0 / 16
    else d 0
  v * Real.exp (-x / 2)

/-- `evaluate_basis_derivative_all`, `/repo/shenfun/laguerre/bases.py:130-174`, column `j < M`; `none` is
`NotImplementedError`. -/
noncomputable def lagBasisDerivAll (M k j : ℕ) (x : ℝ) : Option ℝ :=
  let V : ℕ → ℝ := fun m => (lagP m).eval x
  let L : ℕ → ℕ → ℝ := fun r i => lagDer M r (fun m => if m = j then 1 else 0) i
  if k = 1 then
    let W := ∑ i ∈ range M, V i * L 1 i
    let W := W - 0.5 * V j
    some (W * Real.exp (-x / 2))
  else if k = 2 then
    let W := ∑ i ∈ range M, V i * (L 2 i - L 1 i)
    let W := W + 0.25 * V j
    some (W * Real.exp (-x / 2))
  else if k = 3 then
    let W := ∑ i ∈ range M, V i * (L 3 i - L 2 i * 3 / 2 + L 1 i * 3 / 4)
    let W := W + V j / 8
    some (W * Real.exp (-x / 2))
  else if k = 4 then
    let W := ∑ i ∈ range M, V i * (L 4 i - L 3 i * 2 + L 2 i * 3 / 2 - L 1 i / 2)
    let W := W + V j / 16
    some (W * Real.exp (-x / 2))
  else if k = 0 then some (V j * Real.exp (-x / 2))
  else none

/-- `bnd_values` at the left end, `/repo/shenfun/laguerre/bases.py:118-124`; `none` is `NotImplementedError`. -/
noncomputable def lagBnd (k i : ℕ) : Option ℝ := if k = 0 then some 1 else if k = 1 then some (-(i : ℝ) - 1 / 2) else none

/-- The stencil of `CompactDirichlet`, `/repo/shenfun/laguerre/bases.py:267`: the coefficient of `La_{k+1}`. -/
def lagDirichlet (_ : ℕ) : ℝ := -1

/-- The stencil of `CompactNeumann`, `/repo/shenfun/laguerre/bases.py:324`. -/
noncomputable def lagNeumann (n : ℕ) : ℝ := -(2 * (n : ℝ) + 1) / (2 * (n : ℝ) + 3)

/-- Basis function `k` of a composite space with the stencil `{0: 1, 1: s}`. -/
noncomputable def lagComposite (s : ℕ → ℝ) (k : ℕ) (x : ℝ) : ℝ := lagBasis k x + s k * lagBasis (k + 1) x

/-- The weights of `points_and_weights`, `/repo/shenfun/laguerre/bases.py:72-82`. -/
noncomputable def lagWeight (x w : ℕ → ℝ) (j : ℕ) : ℝ := w j * Real.exp (x j)

/-- `scalar_product` by the Vandermonde matrix with `M` points, `/repo/shenfun/spectralbase.py:516-549`. -/
noncomputable def lagScalar (x w : ℕ → ℝ) (M : ℕ) (u : ℕ → ℝ) (k : ℕ) : ℝ :=
  ∑ j ∈ range M, u j * lagWeight x w j * lagBasis k (x j)

/-- `backward` of `N` coefficients, `/repo/shenfun/spectralbase.py:472-483`. -/
noncomputable def lagBackward (x : ℕ → ℝ) (N : ℕ) (c : ℕ → ℝ) (j : ℕ) : ℝ := ∑ k ∈ range N, lagBasis k (x j) * c k

/-- `forward`: scalar product and `BLLmat.solve`, `/repo/shenfun/laguerre/matrices.py:27-35`. -/
noncomputable def lagForward (x w : ℕ → ℝ) (M : ℕ) (u : ℕ → ℝ) (k : ℕ) : ℝ := lagScalar x w M u k / (1 * 1)

/-- `BLLmat.assemble`, `/repo/shenfun/laguerre/matrices.py:21-25`. -/
def bllmat : DMat := [(0, .scalar 1)]

/-- `BCDCDmat.assemble`, `/repo/shenfun/laguerre/matrices.py:54-59` (a class not registered in `mat`). -/
def lagBCDCD : DMat := [(0, .scalar 2), (1, .scalar (-1)), (-1, .scalar (-1))]

/-- `ACDCDmat.assemble`, `/repo/shenfun/laguerre/matrices.py:76-83` (a class not registered in `mat`). -/
noncomputable def lagACDCD : DMat := [(0, .scalar 0.5), (1, .scalar 0.25), (-1, .scalar 0.25)]

end Shenfun
