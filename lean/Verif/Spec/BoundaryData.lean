import Verif.Spec.Boundary
import Mathlib.Analysis.Calculus.IteratedDeriv.Defs
import Mathlib.Analysis.Calculus.Deriv.Polynomial

/-!
# Inhomogeneous boundary conditions on a physical interval

Written without reference to the model.
-/

namespace Shenfun.Spec

open Polynomial

/-- A condition a user may ask for at one end point. -/
inductive Asked where
  /-- `u^(k)(x) = v` -/
  | deriv (k : ℕ) (v : ℝ)
  /-- `u(x) + c u'(x) = v` -/
  | robin (c v : ℝ)
  /-- `u'(x) + c u''(x) = v` -/
  | wentzell (c v : ℝ)

/-- `u` satisfies the condition at the point `x`. -/
noncomputable def Asked.holds (u : ℝ → ℝ) (x : ℝ) : Asked → Prop
  | .deriv k v => iteratedDeriv k u x = v
  | .robin c v => u x + c * iteratedDeriv 1 u x = v
  | .wentzell c v => iteratedDeriv 1 u x + c * iteratedDeriv 2 u x = v

/-- The affine map of `[lower, upper]` onto the reference interval `[-1, 1]`. -/
noncomputable def toReference (lower upper x : ℝ) : ℝ := -1 + (x - lower) * (2 / (upper - lower))

/-- End point of the physical interval. -/
def Side.end (lower upper : ℝ) : Side → ℝ
  | .left => lower
  | .right => upper

end Shenfun.Spec
