import Verif.Spec.JacobiWeight

/-!
# Quadrature rules
-/

namespace Shenfun.Spec

open Polynomial

/-- The rule with `N` points `x_j` and weights `w_j` integrates every polynomial of degree below `D` exactly:
`Σ_j w_j p(x_j) = ∫_{-1}^{1} (1-x)^a (1+x)^b p(x) dx`. -/
def ExactRule (a b : ℝ) (x w : ℕ → ℝ) (N D : ℕ) : Prop :=
  ∀ p : ℝ[X], p.degree < D → ∑ j ∈ Finset.range N, w j * p.eval (x j) = wInt a b p

end Shenfun.Spec
