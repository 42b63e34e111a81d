import Verif.Spec.Diags
import Mathlib.Algebra.BigOperators.Group.Finset.Basic
import Mathlib.Data.Fintype.Pi

/-!
# Specification: tensor product operators

A tensor product operator on `D`-dimensional arrays is given by its entries `(I, J)`, `I` the row and `J`
the column multi-index.
-/

namespace Shenfun.Spec

variable {K : Type*} [Field K] {D : ℕ}

/-- The product of `D` one-dimensional matrices, with a scaling of every row. -/
def tensorEntry (scale : (Fin D → ℕ) → K) (M : Fin D → ℕ → ℕ → K) (I J : Fin D → ℕ) : K :=
  scale I * ∏ a, M a (I a) (J a)

/-- Application of an operator given by entries to an array of shape `n`. -/
def tensorApply (n : Fin D → ℕ) (T : (Fin D → ℕ) → (Fin D → ℕ) → K) (v : (Fin D → ℕ) → K)
    (I : Fin D → ℕ) : K := ∑ J ∈ Fintype.piFinset fun a => Finset.range (n a), T I J * v J

end Shenfun.Spec
