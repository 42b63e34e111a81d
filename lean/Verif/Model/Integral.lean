import Verif.Model.ChebTransforms
import Verif.Model.Assembly
import Mathlib.LinearAlgebra.Matrix.Determinant.Basic
import Mathlib.Data.Real.Sqrt

/-!
# Integrals `inner(c, u)` with a number, `/repo/shenfun/forms/inner.py:180-240`

All axes have the reference domain `(-1, 1)` (Fourier axes are not modelled here). Sympy expressions in the coordinates are
functions of a point; sympy's answer to `space.hi.prod() != 1` is a parameter. Real arrays.
-/

namespace Shenfun.Integral

variable {D M : ℕ}

/-- A space: number of quadrature points along each axis, domains, points in the reference domain, unweighted weights
(`points_and_weights(weighted=False)`), the covariant basis vectors of the coordinates at every point, and whether sympy
finds the product of the scaling factors to be one. -/
structure Space (D M : ℕ) where
  n : Fin D → ℕ
  lower : Fin D → ℝ
  upper : Fin D → ℝ
  pts : Fin D → ℕ → ℝ
  w : Fin D → ℕ → ℝ
  b : (Fin D → ℝ) → Fin D → Fin M → ℝ
  hiOne : Bool

variable (T : Space D M)

/-- The point of the true domain with multi-index `k` (`local_mesh(True)`), `/repo/shenfun/spectralbase.py:675-689`. -/
noncomputable def Space.mesh (k : Fin D → ℕ) : Fin D → ℝ := fun a =>
  (mapTrue (T.lower a) (T.upper a)).eval (T.pts a (k a))

/-- The scaling factors, `/repo/shenfun/coordinates.py:122-133`. -/
noncomputable def Space.hi (x : Fin D → ℝ) (i : Fin D) : ℝ := √(∑ j, T.b x i j ^ 2)

/-- `get_sqrt_det_g`, `/repo/shenfun/coordinates.py:86-116`, of the metric `g i j = Σ k, b i k * b j k`. -/
noncomputable def Space.sg (x : Fin D → ℝ) : ℝ := √(Matrix.det (Matrix.of fun i j => ∑ k, T.b x i k * T.b x j k))

/-- `get_measured_array`, `/repo/shenfun/tensorproductspace.py:1083-1106` and `/repo/shenfun/spectralbase.py:1073-1107`; the
special cases for a constant measure give the same values. -/
noncomputable def Space.measured (u : (Fin D → ℕ) → ℝ) : (Fin D → ℕ) → ℝ := fun k => u k * T.sg (T.mesh k)

/-- `inner(c, u)` for an `Array` `u` of a `TensorProductSpace` or a one-dimensional space,
`/repo/shenfun/forms/inner.py:183-198` (and `201-216` with the arguments exchanged). -/
noncomputable def Space.integral (c : ℝ) (u : (Fin D → ℕ) → ℝ) : ℝ :=
  let df := ∏ a, domainFactorR (T.lower a) (T.upper a)
  let u := if T.hiOne then u else T.measured u
  c / df * dxND T.n T.w u

/-- `inner((c0, c1, ...), u)` for an `Array` of a `CompositeSpace`, `/repo/shenfun/forms/inner.py:218-236`. -/
noncomputable def integralTuple (cs : List ℝ) (us : List (Space D M × ((Fin D → ℕ) → ℝ))) : ℝ :=
  (cs.zip us).foldl (fun result e => result + e.2.1.integral e.1 e.2.2) 0

end Shenfun.Integral
