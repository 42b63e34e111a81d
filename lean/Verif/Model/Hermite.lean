import Verif.Model.SpectralMatrices
import Mathlib.Algebra.Polynomial.Derivative
import Mathlib.Analysis.SpecialFunctions.Pow.Real
import Mathlib.Analysis.SpecialFunctions.Gaussian.GaussianIntegral

/-!
# Hermite functions, `/repo/shenfun/hermite/bases.py`, `/repo/shenfun/hermite/matrices.py`

Exact real arithmetic.  numpy's `hermvander` is modelled by its recurrence; `hermgauss` by points and weights given as
arguments.
-/

namespace Shenfun

open Polynomial

/-- Column `n` of numpy's `hermvander` (used in `vandermonde`, `/repo/shenfun/hermite/bases.py:89-91`) as a polynomial:
`v[0] = 1`, `v[1] = 2x`, `v[i] = v[i-1]*2x - v[i-2]*2(i-1)`. -/
noncomputable def hermP : ℕ → ℝ[X]
  | 0 => 1
  | 1 => C 2 * X
  | (n + 2) => hermP (n + 1) * (C 2 * X) - hermP n * C (2 * ((n : ℝ) + 1))

/-- `factor`, `/repo/shenfun/hermite/bases.py:85-87`. -/
noncomputable def hermFactor (i : ℕ) : ℝ :=
  1 / (Real.pi ^ (0.25 : ℝ) * Real.sqrt (2 ^ i) * Real.sqrt (Nat.factorial i))

/-- `evaluate_basis_all`, `/repo/shenfun/hermite/bases.py:151-156`, column `i` at the point `x`; `evaluate_basis`,
lines 104-110, computes the same. -/
noncomputable def hermBasis (i : ℕ) (x : ℝ) : ℝ := (hermP i).eval x * (hermFactor i * Real.exp (-x ^ 2 / 2))

/-- Entry `(i, j)` of the matrix `D` of `/repo/shenfun/hermite/bases.py:119-120`: `hermder(np.eye(M), 1)` has
`2j` in row `j-1` of column `j`. -/
def hermDer (i j : ℕ) : ℝ := if i + 1 = j then 2 * (j : ℝ) else 0

/-- `evaluate_basis_derivative_all`, `/repo/shenfun/hermite/bases.py:112-149`, column `j < M` at the point `x`; `none` is
`NotImplementedError`. -/
noncomputable def hermBasisDerivAll (M k j : ℕ) (x : ℝ) : Option ℝ :=
  if k = 1 then
    let W := ∑ i ∈ Finset.range M, (hermP i).eval x * hermDer i j
    let W := W - (hermP j).eval x * x
    some (W * Real.exp (-x ^ 2 / 2) * hermFactor j)
  else if k = 2 then
    let W := (x ^ 2 - 1 - 2 * (j : ℝ)) * (hermP j).eval x
    some (W * hermFactor j * Real.exp (-x ^ 2 / 2))
  else if k = 0 then
    some ((hermP j).eval x * (Real.exp (-x ^ 2 / 2) * hermFactor j))
  else none

/-- The weights of `points_and_weights`, `/repo/shenfun/hermite/bases.py:72-82`; `x`, `w` are the result of
`hermgauss(N)`. -/
noncomputable def hermWeight (x w : ℕ → ℝ) (j : ℕ) : ℝ := w j * Real.exp (x j ^ 2)

/-- `scalar_product` by the Vandermonde matrix with `M` points, `/repo/shenfun/spectralbase.py:516-549`. -/
noncomputable def hermScalar (x w : ℕ → ℝ) (M : ℕ) (u : ℕ → ℝ) (k : ℕ) : ℝ :=
  ∑ j ∈ Finset.range M, u j * hermWeight x w j * hermBasis k (x j)

/-- `backward` of `N` coefficients, `/repo/shenfun/spectralbase.py:472-483` (those beyond `N` are padded with zeros). -/
noncomputable def hermBackward (x : ℕ → ℝ) (N : ℕ) (c : ℕ → ℝ) (j : ℕ) : ℝ :=
  ∑ k ∈ Finset.range N, hermBasis k (x j) * c k

/-- `forward`: scalar product and inverse of the mass matrix (`BHHmat.solve`, `/repo/shenfun/hermite/matrices.py:27-36`,
with scale and diagonal equal to one). -/
noncomputable def hermForward (x w : ℕ → ℝ) (M : ℕ) (u : ℕ → ℝ) (k : ℕ) : ℝ := hermScalar x w M u k / (1 * 1)

/-- `BHHmat.assemble`, `/repo/shenfun/hermite/matrices.py:21-25`. -/
def bhhmat : DMat := [(0, .scalar 1)]

/-- `AHHmat.assemble`, `/repo/shenfun/hermite/matrices.py:58-69` (for `N ≥ 1`; `d[0][-1] = (N-1)/2.`). -/
noncomputable def ahhmat (N : ℕ) : DMat :=
  let d0 : ℕ → ℝ := Function.update (fun k => (k : ℝ) + 0.5) (N - 1) (((N : ℝ) - 1) / 2)
  let d2 : ℕ → ℝ := fun k => -Real.sqrt (((k : ℝ) + 1) * ((k : ℝ) + 2)) / 2
  [(0, .array N d0), (2, .array (N - 2) d2), (-2, .array (N - 2) d2)]

/-- `AHHmat.matvec(format='self')` for one-dimensional arrays, `/repo/shenfun/hermite/matrices.py:88-101`. -/
noncomputable def ahhMatvec (N : ℕ) (scale : ℝ) (v : ℕ → ℝ) : ℕ → ℝ :=
  let d0 : ℕ → ℝ := Function.update (fun k => (k : ℝ) + 0.5) (N - 1) (((N : ℝ) - 1) / 2)
  let d2 : ℕ → ℝ := fun k => -Real.sqrt (((k : ℝ) + 1) * ((k : ℝ) + 2)) / 2
  let c : ℕ → ℝ := fun _ => 0
  let c := fun i => if i < N - 2 then d2 i * v (i + 2) else c i
  let c := fun i => if i < N then c i + d0 i * v i else c i
  let c := fun i => if 2 ≤ i ∧ i < N then c i + d2 (i - 2) * v (i - 2) else c i
  fun i => c i * scale

end Shenfun
