import Mathlib.Algebra.Polynomial.Basic
import Mathlib.Data.Real.Basic

/-!
# Specification: product of the matrix of a form with the expansion coefficients of a function
-/

namespace Shenfun.Spec

open Polynomial

/-- `out` is `c` times the product of the `rows × cols` matrix of the form `F`, with test functions `φ` and trial functions
`ψ`, with `v`: row `i` is the form of `φ i` with the function whose expansion coefficients are `v`; the rest of the array is
zero. -/
structure IsFormProduct (F : ℝ[X] → ℝ[X] → ℝ) (φ ψ : ℕ → ℝ[X]) (rows cols : ℕ) (c : ℝ) (v out : ℕ → ℝ) : Prop where
  row : ∀ i < rows, out i = c * F (φ i) (∑ j ∈ Finset.range cols, C (v j) * ψ j)
  rest : ∀ i, rows ≤ i → out i = 0

end Shenfun.Spec
