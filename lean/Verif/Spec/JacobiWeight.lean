import Verif.Spec.Jacobi
import Mathlib.Analysis.SpecialFunctions.Integrability.Basic
import Mathlib.Analysis.SpecialFunctions.Gamma.Beta

/-!
# The weighted inner product of the Jacobi polynomials
-/

namespace Shenfun.Spec

open Polynomial MeasureTheory

/-- `∫_{-1}^{1} (1-x)^a (1+x)^b p(x) dx`. -/
noncomputable def wInt (a b : ℝ) (p : ℝ[X]) : ℝ := ∫ x in (-1:ℝ)..1, (1-x)^a * (1+x)^b * p.eval x

end Shenfun.Spec
