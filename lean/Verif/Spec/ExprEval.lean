import Verif.Model.ExprEval
import Verif.Props.Evaluate
import Mathlib.Analysis.Calculus.IteratedDeriv.Lemmas
import Mathlib.Analysis.Calculus.ContDiff.Operations

/-!
# Specification: values of expressions of functions
-/

namespace Shenfun.Eval

open Finset

/-- The partial derivative `∂^(d0+d1) F / ∂x^d0 ∂y^d1`. -/
noncomputable def partialDeriv (d0 d1 : ℕ) (F : ℝ → ℝ → ℂ) (x y : ℝ) : ℂ :=
  iteratedDeriv d0 (fun s => iteratedDeriv d1 (fun t => F s t) y) x

/-- `ψ q a j` are the reference basis functions, and `evaluate_basis_derivative_all` returns their derivatives. -/
structure Space2.Right (V : Space2) (ψ : ℕ → Fin 2 → ℕ → ℝ → ℂ) : Prop where
  smooth : ∀ q a j m, ContDiff ℝ (m : ℕ) (ψ q a j)
  row : ∀ q a k X j, (V.row q a k X).val j = iteratedDeriv k (ψ q a j) X

/-- Component `q` of the function, in the true coordinates (`mult k l` is one, or the number of wavenumbers a coefficient stands
for when an axis is R2C). -/
noncomputable def Space2.field (V : Space2) (ψ : ℕ → Fin 2 → ℕ → ℝ → ℂ) (mult : ℕ → ℕ → ℝ) (u : ℕ → ℕ → ℕ → ℂ) (q : ℕ)
    (x y : ℝ) : ℂ :=
  ∑ k ∈ range (V.cols q 0), ∑ l ∈ range (V.cols q 1),
    (mult k l : ℂ) * u q k l * ψ q 0 k (V.mapRef q 0 x) * ψ q 1 l (V.mapRef q 1 y)

end Shenfun.Eval
