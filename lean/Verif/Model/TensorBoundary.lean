import Verif.Model.TensorTransform

/-!
# Transforms of tensor product spaces with inhomogeneous boundary conditions along one axis,
`/repo/shenfun/tensorproductspace.py:1914-2030, 2090-2128`

On top of `Verif.Model.TensorTransform`: one base has `m` boundary conditions. Its coefficient arrays have length
`nm + m` along its axis, the last `m` are the boundary dofs; the matrix `E` of its `backward` has `nm + m` columns, the
last ones being the boundary functions (`get_bc_space`). The branch for two inhomogeneous axes is left out.
-/

namespace Shenfun.TPT

variable {K : Type*} [Field K] {D : ℕ}

/-- The inhomogeneous base: its axis, the number of conditions, the matrix `B g` of `get_bcmass_matrix` with measure `g`
(`/repo/shenfun/spectralbase.py:1037-1045`: test functions against boundary functions; the measure is chosen as in
`get_mass_matrix`), and the boundary data evaluated on the quadrature mesh of the other axes. -/
structure Boundary (D : ℕ) (K : Type*) where
  axis : Fin D
  m : ℕ
  B : (K → K) → ℕ → ℕ → K
  vals : ℕ → Arr D K

/-- The axes transformed before the inhomogeneous one: the last axis is transformed first; `number_of_bases_after_this`
in `/repo/shenfun/tensorproductspace.py:1939-1946` is the length. -/
def Boundary.before (b : Boundary D K) (axes : List (Fin D)) : List (Fin D) :=
  (axes.dropWhile fun a => a ≠ b.axis).tail

/-- `msdict[0]['coeff']`. -/
def Space.coeff (T : Space D K) : K :=
  match T.split with
  | [] => 1
  | t :: _ => t.coeff

/-- `self.bcs`, the boundary values for the middle of a forward transform,
`/repo/shenfun/tensorproductspace.py:2004-2026`: the data transformed along the axes that come before, times the constant
of the measure, or the data themselves. -/
def Boundary.bcs (T : Space D K) (axes : List (Fin D)) (b : Boundary D K) (j : ℕ) : Arr D K :=
  if (b.before axes).length = 0 then b.vals j
  else (b.before axes).foldr (fun a w => T.forward1 a w) fun I => T.coeff * b.vals j I

/-- `SpectralBase.forward` along the inhomogeneous axis with `_add_mass_rhs` and `set_boundary_dofs`,
`/repo/shenfun/spectralbase.py:255-259`, `/repo/shenfun/tensorproductspace.py:2090-2128`: the last `m` entries of the
scalar product are overwritten with the boundary values, the product of the boundary mass matrix with them is subtracted
from the others, and the solver leaves the last `m` entries alone (C01-C09). -/
def Boundary.forward1 (T : Space D K) (b : Boundary D K) (bcs : ℕ → Arr D K) (v : Arr D K) : Arr D K := fun I =>
  let n := (T.base b.axis).nm
  let u : ℕ → K := fun i => if n ≤ i ∧ i < n + b.m then bcs (i - n) I
    else T.scalar1 b.axis v (Function.update I b.axis i)
  let w : ℕ → K := fun i => if i < n then
    u i - ∑ j ∈ Finset.range b.m, b.B (T.massMeasure b.axis) i j * u (n + j) else u i
  if I b.axis < n then (T.base b.axis).solve (T.massMeasure b.axis) w (I b.axis) else w (I b.axis)

/-- `ForwardTransform.__call__` with an inhomogeneous axis, `/repo/shenfun/tensorproductspace.py:233-259`. -/
def Boundary.forward (T : Space D K) (axes : List (Fin D)) (b : Boundary D K) (f : Arr D K) : Arr D K :=
  axes.foldr (fun a w => if a = b.axis then b.forward1 T (b.bcs T axes) w else T.forward1 a w)
    (if T.cartesian then f else T.measured f)

/-- The array `b` of `set_tensor_bcs`, `/repo/shenfun/tensorproductspace.py:1955-2001`: the data in the last `m` places
along the inhomogeneous axis. -/
def Boundary.array (T : Space D K) (b : Boundary D K) : Arr D K := fun I =>
  let n := (T.base b.axis).nm
  if n ≤ I b.axis ∧ I b.axis < n + b.m then b.vals (I b.axis - n) I else 0

/-- `self.bcs_final`, the boundary dofs of every `Function` of the space,
`/repo/shenfun/tensorproductspace.py:2027-2030`: the last `m` places of `T.forward(b)`. -/
def Boundary.final (T : Space D K) (axes : List (Fin D)) (b : Boundary D K) (j : ℕ) : Arr D K := fun I =>
  b.forward T axes (b.array T) (Function.update I b.axis ((T.base b.axis).nm + j))

/-- `BackwardTransform.__call__` of a coefficient array with its boundary dofs. -/
def Boundary.backward (T : Space D K) (axes : List (Fin D)) (b : Boundary D K) (u : Arr D K) : Arr D K :=
  axes.foldl (fun w a => if a = b.axis then along ((T.base a).nm + b.m) (T.base a).E a w else T.backward1 a w) u

end Shenfun.TPT
