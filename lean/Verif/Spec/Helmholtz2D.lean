import Mathlib.Data.Real.Basic
import Mathlib.LinearAlgebra.Matrix.NonsingularInverse

/-!
# Specification: Helmholtz' equation with two Dirichlet axes

The array `U` of unknowns is a matrix; a one-dimensional matrix of the first axis acts from the left, one of the second axis
from the right, transposed.
-/

namespace Shenfun.Spec

open Matrix

/-- `a0 B U B1ᵀ + a1 A U B1ᵀ + a2 B U A1ᵀ`. -/
def helmholtz2D {m n : ℕ} (A B : Matrix (Fin m) (Fin m) ℝ) (A1 B1 : Matrix (Fin n) (Fin n) ℝ) (a0 a1 a2 : ℝ) (U : Matrix (Fin m) (Fin n) ℝ) :
    Matrix (Fin m) (Fin n) ℝ :=
  a0 • (B * U * B1ᵀ) + a1 • (A * U * B1ᵀ) + a2 • (B * U * A1ᵀ)

/-- The generalised eigenvalue problem `A V = B V Λ`, with `Vᵀ B V = I`. -/
def IsEigh {n : ℕ} (A B : Matrix (Fin n) (Fin n) ℝ) (e : Matrix (Fin n) (Fin n) ℝ × (Fin n → ℝ)) : Prop :=
  A * e.1 = B * e.1 * diagonal e.2 ∧ e.1ᵀ * B * e.1 = 1

/-- The symmetric eigenvalue problem `B V = V Λ`, with `Vᵀ V = I`. -/
def IsEig {n : ℕ} (B : Matrix (Fin n) (Fin n) ℝ) (e : Matrix (Fin n) (Fin n) ℝ × (Fin n → ℝ)) : Prop :=
  B * e.1 = e.1 * diagonal e.2 ∧ e.1ᵀ * e.1 = 1

end Shenfun.Spec
