import Verif.Model.ToOrthoND
import Verif.Spec.Diags

/-!
# Specification: value of an expansion at one point
-/

namespace Shenfun.OrthoND.Spec

open Shenfun.Spec

/-- Value of an expansion; `φ a i` is the value of the `i`th function along axis `a` at the point. -/
noncomputable def value {D : ℕ} (n : Fin D → ℕ) (φ : Fin D → ℕ → ℂ) (u : Arr D ℂ) : ℂ :=
  ∑ I ∈ Fintype.piFinset fun a => Finset.range (n a), u I * ∏ a, φ a (I a)

/-- The basis functions of a base with orthogonal functions `Q` (values at the point): the combinations of `Q` given by the
rows of the stencil matrix; then, for inhomogeneous boundary conditions, the boundary functions. -/
noncomputable def basis (b : Axis) (Q : ℕ → ℂ) (i : ℕ) : ℂ :=
  if b.orthogonal then Q i
  else if i < b.N - b.m then ∑ j ∈ Finset.range b.N, ((diagsEntry b.A.diags i j : ℝ) : ℂ) * Q j
  else if b.nonhom then ∑ j ∈ Finset.range b.cols, (b.sol (i - (b.N - b.m)) j : ℂ) * Q j
  else 0

end Shenfun.OrthoND.Spec
