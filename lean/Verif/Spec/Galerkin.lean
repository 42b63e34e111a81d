import Verif.Model.SpectralMatrices

/-!
# Specification: a dictionary of diagonals is the matrix of a bilinear form
-/

namespace Shenfun.Spec

/-- The dictionary `d` is accepted as a `rows × cols` matrix (every array has the length of its diagonal) and entry
`(k, j)` of that matrix is `F k j`. -/
structure IsMatrixOf (d : DMat) (rows cols : ℕ) (F : ℕ → ℕ → ℝ) : Prop where
  lengths : ∀ e ∈ d, e.2.Fits (diagLength rows cols e.1)
  entries : ∀ k < rows, ∀ j < cols, (d.mat rows cols).denseAt k j = F k j

end Shenfun.Spec
