import Verif.Model.LegMatrices
import Verif.Model.Stencil
import Mathlib.Algebra.Polynomial.Derivative
import Mathlib.MeasureTheory.Integral.IntervalIntegral.Basic

/-!
# Quadrature-based transforms of the Jacobi families

`/repo/shenfun/spectralbase.py`, `/repo/shenfun/jacobi/bases.py`, `/repo/shenfun/legendre/lobatto.py`.

Arrays have values in a real vector space.  `x`, `w` are the quadrature points and weights, `M` their number (`shape(False)`),
`N` the number of coefficients, `Q k` the basis function `k`; the Vandermonde matrix has entries `Q_k(x_j)`.
-/

namespace Shenfun

open Polynomial

variable {E : Type*} [AddCommGroup E] [Module ℝ E]

/-- `_evaluate_scalar_product(kind='vandermonde')`, `/repo/shenfun/spectralbase.py:531-549`:
`np.dot(input_array*weights, P)` with the weights divided by the domain factor. -/
noncomputable def vanderScalar (x w : ℕ → ℝ) (Q : ℕ → ℝ[X]) (df : ℝ) (M : ℕ) (u : ℕ → E) (k : ℕ) : E :=
  ∑ j ∈ Finset.range M, (Q k).eval (x j) • (w j / df) • u j

/-- `_evaluate_expansion_all(kind='vandermonde')`, `/repo/shenfun/spectralbase.py:472-483`: `np.dot(P, input_array)`; the
coefficients beyond `N` are padded with zeros. -/
noncomputable def vanderBackward (x : ℕ → ℝ) (Q : ℕ → ℝ[X]) (N : ℕ) (u : ℕ → E) (j : ℕ) : E :=
  ∑ k ∈ Finset.range N, (Q k).eval (x j) • u k

/-- `forward`, `/repo/shenfun/spectralbase.py:234-263, 560-577`: the mass matrix of an orthogonal space is the diagonal
matrix `l2_norm_sq/domain_factor` (`get_norm_sq`, `/repo/shenfun/spectralbase.py:2344-2368`). -/
noncomputable def vanderForward (x w : ℕ → ℝ) (Q : ℕ → ℝ[X]) (h : ℕ → ℝ) (df : ℝ) (M : ℕ) (u : ℕ → E) (k : ℕ) : E :=
  (h k * df⁻¹)⁻¹ • vanderScalar x w Q df M u k

/-- `unweighted_quadrature_weights`, `/repo/shenfun/jacobi/bases.py:66-89`; `fi` is the integral of the basis function,
hard-coded as 2 for the first one. -/
noncomputable def unweightedWeights (x w : ℕ → ℝ) (Q : ℕ → ℝ[X]) (h : ℕ → ℝ) (N j : ℕ) : ℝ :=
  (∑ i ∈ Finset.range N, (Q i).eval (x j) / h i * (if i = 0 then 2 else ∫ t in (-1:ℝ)..1, (Q i).eval t)) * w j

/-- `lagrange_poly`, `/repo/shenfun/jacobi/bases.py:91-111`. -/
noncomputable def lagrangePoly (x w : ℕ → ℝ) (Q : ℕ → ℝ[X]) (h : ℕ → ℝ) (N i : ℕ) : ℝ[X] :=
  (∑ j ∈ Finset.range N, C ((Q j).eval (x i) / h j) * (if j = 0 then 1 else Q j)) * C (w i)

/-- The points of `legendre_lobatto_nodes_and_weights`, `/repo/shenfun/legendre/lobatto.py:15-42`.  `y` is the array
`x[1:M]` after the Newton iterations (the iteration itself is not modelled). -/
noncomputable def lobattoX (N : ℕ) (y : ℕ → ℝ) (j : ℕ) : ℝ :=
  let M := N / 2
  let MM := if N % 2 = 0 then M else M + 1
  if j = 0 then -1 else if j = N - 1 then 1 else if j < M then y j else if MM ≤ j then -y (M - 1 - (j - MM)) else 0

/-- The weights `2./(N*(N-1)*Ln(x)**2)`, `/repo/shenfun/legendre/lobatto.py:43`. -/
noncomputable def lobattoW (N : ℕ) (x : ℕ → ℝ) (j : ℕ) : ℝ := 2 / (N * (N - 1) * (legP (N - 1)).eval (x j) ^ 2)

end Shenfun
