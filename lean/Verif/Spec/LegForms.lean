import Verif.Spec.JacobiWeight
import Verif.Spec.Galerkin

/-!
# Specification: Legendre forms
-/

namespace Shenfun.Spec

open Polynomial

/-- `∫ w D^m v D^n u dx` over the reference interval. -/
noncomputable def legForm (m n : ℕ) (w v u : ℝ[X]) : ℝ := wInt 0 0 (w * (derivative^[m] v * derivative^[n] u))

/-- As `IsMatrixOf` for a class registered with `functools.partial(cls, scale=s)`. -/
structure IsScaledMatrixOf (s : ℝ) (d : DMat) (rows cols : ℕ) (F : ℕ → ℕ → ℝ) : Prop where
  lengths : ∀ e ∈ d, e.2.Fits (diagLength rows cols e.1)
  entries : ∀ k < rows, ∀ j < cols, (SM.new (d.map fun e => (e.1, e.2.get)) rows cols s).denseAt k j = F k j

end Shenfun.Spec
