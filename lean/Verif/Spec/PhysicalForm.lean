import Verif.Spec.JacobiWeight

/-!
# Specification: weighted inner products on a true domain

The reference coordinate is the affine map of `[l, u]` onto `[-1, 1]`; basis functions are composed with it, derivatives
are taken with respect to the true coordinate, and the weight is evaluated in the reference coordinate.
-/

namespace Shenfun.Spec

open Polynomial

/-- The affine map of `[l, u]` onto `[-1, 1]`. -/
noncomputable def toRef (l u : ℝ) : ℝ[X] := C (2 / (u - l)) * X + C (-(u + l) / (u - l))

/-- `∫_l^u w(X(x)) f(x) dx` with `w(X) = (1-X)^a (1+X)^b`. -/
noncomputable def wIntPhys (l u a b : ℝ) (f : ℝ[X]) : ℝ :=
  ∫ x in l..u, (1 - (toRef l u).eval x) ^ a * (1 + (toRef l u).eval x) ^ b * f.eval x

/-- The bilinear form `(p D^t v, D^r u)_w` on `[l, u]` for reference functions `ψ`, `φ`. -/
noncomputable def physicalForm (l u a b : ℝ) (p ψ φ : ℝ[X]) (t r : ℕ) : ℝ :=
  wIntPhys l u a b (p * derivative^[t] (ψ.comp (toRef l u)) * derivative^[r] (φ.comp (toRef l u)))

end Shenfun.Spec
