import Verif.Model.Boundary
import Verif.Model.Refine

/-!
# `Function.to_ortho`, `/repo/shenfun/forms/arguments.py:1655-1685`

Scalar tensor product spaces; for several components the code loops over them (lines 1662-1665). The coefficients are complex
when there is a Fourier axis. All conversion matrices are real.
-/

namespace Shenfun.OrthoND

open Refine

/-- One base of the space: number of points, `family() == 'fourier'`, `is_orthogonal`, and for composite bases the
stencil matrix, the number of boundary functions `m`, their coefficients `sol` in `cols` modes, and `has_nonhomogeneous_bcs`. -/
structure Axis where
  N : ℕ
  fourier : Bool
  orthogonal : Bool
  A : SM ℝ
  m : ℕ
  cols : ℕ
  sol : ℕ → ℕ → ℝ
  nonhom : Bool

/-- `CompositeBase.to_ortho` on a line of a complex array, `/repo/shenfun/spectralbase.py:1616-1634`: real factors act on real
and imaginary part. -/
noncomputable def Axis.convert (b : Axis) (u : ℕ → ℂ) : ℕ → ℂ := fun j =>
  ⟨toOrtho b.A b.N (b.N - b.m) b.m b.cols b.sol b.nonhom (fun i => (u i).re) j,
   toOrtho b.A b.N (b.N - b.m) b.m b.cols b.sol b.nonhom (fun i => (u i).im) j⟩

variable {D : ℕ}

/-- `get_nonperiodic_axes`, `/repo/shenfun/tensorproductspace.py:1133-1138`. -/
def nonperiodic (b : Fin D → Axis) : List (Fin D) := (List.finRange D).filter fun a => !(b a).fourier

/-- The body of the loop over the other axes, `/repo/shenfun/forms/arguments.py:1677-1681`: the output so far is copied to the
input array of the conversion. -/
noncomputable def next (b : Fin D → Axis) (out : Arr D ℂ) (a : Fin D) : Arr D ℂ :=
  let input := out
  if !(b a).orthogonal then alongLine a (b a).convert input else out

/-- `Function.to_ortho` for `D ≥ 2`, `/repo/shenfun/forms/arguments.py:1667-1681`; `none` is the `IndexError` of `naxes[0]`. -/
noncomputable def toOrthoND (b : Fin D → Axis) (u : Arr D ℂ) : Option (Arr D ℂ) :=
  match nonperiodic b with
  | [] => none
  | a :: naxes =>
    let out := if !(b a).orthogonal then alongLine a (b a).convert u else u
    some (naxes.foldl (next b) out)

end Shenfun.OrthoND
