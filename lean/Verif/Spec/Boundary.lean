import Mathlib.Algebra.Polynomial.Derivative
import Mathlib.Analysis.Polynomial.Basic

/-!
# Homogeneous boundary conditions on the reference interval `[-1, 1]`

Written without reference to the model.
-/

namespace Shenfun.Spec

open Polynomial

/-- The two ends of the reference interval. -/
inductive Side where
  | left
  | right
deriving DecidableEq

/-- Left end `-1`, right end `1`. -/
def Side.pt : Side → ℝ
  | .left => -1
  | .right => 1

/-- `p` satisfies every condition `p^(k)(side) = 0` of the list: order `0` is Dirichlet, `1` Neumann, and so on. -/
def Homogeneous (bcs : List (Side × ℕ)) (p : ℝ[X]) : Prop :=
  ∀ bc ∈ bcs, (derivative^[bc.2] p).eval bc.1.pt = 0

/-- Value and derivatives of order less than `K` at both ends. -/
def both (K : ℕ) : List (Side × ℕ) :=
  (List.range K).map (fun k => (Side.left, k)) ++ (List.range K).map (fun k => (Side.right, k))

/-- `φ 0, ..., φ (n-1)` is a basis of the space of polynomials of degree less than `N` that satisfy the conditions:
its members are in the space, and every polynomial of the space has exactly one expansion. -/
def IsBasisFor (bcs : List (Side × ℕ)) (N n : ℕ) (φ : ℕ → ℝ[X]) : Prop :=
  (∀ i < n, (φ i).degree < N ∧ Homogeneous bcs (φ i)) ∧
  ∀ p : ℝ[X], p.degree < N → Homogeneous bcs p → ∃! c : Fin n → ℝ, p = ∑ i, C (c i) * φ i

end Shenfun.Spec
