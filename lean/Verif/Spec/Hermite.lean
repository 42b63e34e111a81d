import Mathlib.Analysis.SpecialFunctions.Gaussian.GaussianIntegral
import Mathlib.Analysis.Calculus.IteratedDeriv.Defs
import Mathlib.Algebra.Polynomial.Eval.Degree

/-!
# Specification: Hermite polynomials and functions

The physicists' Hermite polynomials by Rodrigues' formula; Hermite functions; Gauss-Hermite quadrature.
-/

namespace Shenfun.Spec

open Polynomial

/-- Rodrigues: `H_n(x) = (-1)^n exp(x²) dⁿ/dxⁿ exp(-x²)`. -/
noncomputable def hermiteH (n : ℕ) (x : ℝ) : ℝ :=
  (-1) ^ n * Real.exp (x ^ 2) * iteratedDeriv n (fun y => Real.exp (-y ^ 2)) x

/-- The Hermite function `φ_n(x) = H_n(x) exp(-x²/2) / (π^{1/4} sqrt(2^n n!))`. -/
noncomputable def hermiteFun (n : ℕ) (x : ℝ) : ℝ :=
  hermiteH n x * Real.exp (-x ^ 2 / 2) / (Real.pi ^ (1 / 4 : ℝ) * Real.sqrt (2 ^ n * Nat.factorial n))

/-- A Gauss-Hermite rule of `N` points: the points are zeros of `H_N` and polynomials of degree less than `2N` are
integrated exactly with the weight `exp(-x²)`. -/
structure GaussHermite (N : ℕ) (x w : ℕ → ℝ) : Prop where
  zeros : ∀ j < N, hermiteH N (x j) = 0
  exact : ∀ p : ℝ[X], p.natDegree < 2 * N →
    ∑ j ∈ Finset.range N, w j * p.eval (x j) = ∫ t : ℝ, p.eval t * Real.exp (-t ^ 2)

/-- Quadrature with the weights for functions on the line: `Σ_j w_j exp(x_j²) u(x_j) v(x_j)`. -/
noncomputable def hermiteQuad (N : ℕ) (x w : ℕ → ℝ) (u v : ℝ → ℝ) : ℝ :=
  ∑ j ∈ Finset.range N, w j * Real.exp (x j ^ 2) * (u (x j) * v (x j))

end Shenfun.Spec
