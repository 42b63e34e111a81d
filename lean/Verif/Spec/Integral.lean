import Verif.Model.Integral
import Mathlib.Algebra.MvPolynomial.Degrees
import Mathlib.MeasureTheory.Constructions.Pi

/-!
# Specification: integrals over the true domain
-/

namespace Shenfun.Integral

open MeasureTheory

variable {D M : ℕ}

/-- The domain of the computational coordinates. -/
def Space.box (T : Space D M) : Set (Fin D → ℝ) := Set.univ.pi fun a => Set.Ioc (T.lower a) (T.upper a)

/-- `∫ f dA` over the physical domain: the integral over the coordinates of `f` times `sqrt(det g)`. -/
noncomputable def Space.physical (T : Space D M) (f : (Fin D → ℝ) → ℝ) : ℝ := ∫ x in T.box, f x * T.sg x

/-- The coordinates are orthogonal. -/
def Space.Orthogonal (T : Space D M) : Prop := ∀ x i j, i ≠ j → ∑ k, T.b x i k * T.b x j k = 0

end Shenfun.Integral
