import Verif.Spec.JacobiWeight
import Mathlib.Analysis.Real.Pi.Bounds
import Verif.Model.Stencil

/-!
# Specification: Chebyshev forms

The weighted form of a test function with a derivative of a trial function, and the forms in which the Chebyshev
polynomials are orthogonal with the norms used by the code (exact integration, Gauss and Gauss-Lobatto quadrature).
-/

namespace Shenfun.Spec

open Polynomial

/-- `(v, D^r u)_w` with the Chebyshev weight. -/
noncomputable def chebForm (r : ℕ) (v u : ℝ[X]) : ℝ := wInt (-(1/2)) (-(1/2)) (v * derivative^[r] u)

/-- The squared norms `h`: `π`, `π/2`, `π/2`, ...; the last one is free when test and trial space have equal size. -/
structure ChebNorms (tN uN : ℕ) (h : ℕ → ℝ) : Prop where
  zero : h 0 = Real.pi
  mid : ∀ k, 1 ≤ k → ¬ (k + 1 = tN ∧ k + 1 = uN) → h k = Real.pi / 2

/-- `I` is an inner product in which the members of a family below `tN`, `uN` are orthogonal with squared norms `h`. -/
def OrthogonalForm (Q : ℕ → ℝ[X]) (I : ℝ[X] →ₗ[ℝ] ℝ) (tN uN : ℕ) (h : ℕ → ℝ) : Prop :=
  ∀ m < tN, ∀ n < uN, I (Q m * Q n) = if m = n then h n else 0

/-- Equation `k` of the Galerkin method for `α u'' + β u = f` in the space spanned by `φ 0, …, φ (n-1)`, with the form `I`
for the mass term: `x` are the coefficients of `u`, `b k` is the scalar product of `f` with `φ k`. -/
def HelmholtzEquation (I : ℝ[X] →ₗ[ℝ] ℝ) (φ : ℕ → ℝ[X]) (n : ℕ) (α β : ℝ) (x b : ℕ → ℝ) (k : ℕ) : Prop :=
  α * chebForm 2 (φ k) (∑ j ∈ Finset.range n, C (x j) * φ j) + β * I (φ k * ∑ j ∈ Finset.range n, C (x j) * φ j) = b k

/-- The matrix of that method. -/
noncomputable def helmholtzMatrix (I : ℝ[X] →ₗ[ℝ] ℝ) (φ : ℕ → ℝ[X]) (α β : ℝ) (k j : ℕ) : ℝ :=
  α * chebForm 2 (φ k) (φ j) + β * I (φ k * φ j)

/-- Equation `k` of the Galerkin method for `a u'''' + α u'' + β u = f`. -/
def BiharmonicEquation (I : ℝ[X] →ₗ[ℝ] ℝ) (φ : ℕ → ℝ[X]) (n : ℕ) (a α β : ℝ) (x b : ℕ → ℝ) (k : ℕ) : Prop :=
  a * chebForm 4 (φ k) (∑ j ∈ Finset.range n, C (x j) * φ j) + α * chebForm 2 (φ k) (∑ j ∈ Finset.range n, C (x j) * φ j)
    + β * I (φ k * ∑ j ∈ Finset.range n, C (x j) * φ j) = b k

/-- The matrix of that method. -/
noncomputable def biharmonicMatrix (I : ℝ[X] →ₗ[ℝ] ℝ) (φ : ℕ → ℝ[X]) (a α β : ℝ) (k j : ℕ) : ℝ :=
  a * chebForm 4 (φ k) (φ j) + α * chebForm 2 (φ k) (φ j) + β * I (φ k * φ j)

end Shenfun.Spec
