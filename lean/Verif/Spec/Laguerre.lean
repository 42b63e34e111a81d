import Mathlib.MeasureTheory.Integral.Bochner.Set
import Mathlib.MeasureTheory.Measure.Lebesgue.Basic
import Mathlib.Analysis.SpecialFunctions.Exp
import Mathlib.Algebra.Polynomial.Eval.Degree

/-!
# Specification: Laguerre polynomials and functions
-/

namespace Shenfun.Spec

open Polynomial Finset MeasureTheory

/-- The Laguerre polynomial by its explicit formula, `L_n(x) = Σ_k (-1)^k binom(n, k) x^k / k!`. -/
noncomputable def laguerreL (n : ℕ) (x : ℝ) : ℝ := ∑ k ∈ range (n + 1), (-1) ^ k * (n.choose k : ℝ) / (Nat.factorial k : ℝ) * x ^ k

/-- The Laguerre function `L_n(x) exp(-x/2)`. -/
noncomputable def laguerreFun (n : ℕ) (x : ℝ) : ℝ := laguerreL n x * Real.exp (-x / 2)

/-- A Gauss-Laguerre rule of `N` points: polynomials of degree less than `2N` are integrated exactly over `(0, ∞)` with the
weight `exp(-x)`. -/
structure GaussLaguerre (N : ℕ) (x w : ℕ → ℝ) : Prop where
  exact : ∀ p : ℝ[X], p.natDegree < 2 * N →
    ∑ j ∈ range N, w j * p.eval (x j) = ∫ t in Set.Ioi (0 : ℝ), p.eval t * Real.exp (-t)

/-- Quadrature with the weights for functions on the half line: `Σ_j w_j exp(x_j) u(x_j) v(x_j)`. -/
noncomputable def laguerreQuad (N : ℕ) (x w : ℕ → ℝ) (u v : ℝ → ℝ) : ℝ :=
  ∑ j ∈ range N, w j * Real.exp (x j) * (u (x j) * v (x j))

end Shenfun.Spec
