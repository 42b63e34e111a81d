import Verif.Model.Axis

/-!
# `project` and `Project`, `/repo/shenfun/forms/project.py`

The right-hand side `inner(v, uh)` and the mass matrix `B = inner(v, u)` are given; what is modelled is how the
system `B u = rhs` is solved. `solve m a w` stands for `m.solve(w, w, axis=a)` of a one-dimensional matrix
(C09, C35). One process: the transfers between pencils (lines 133-148) are the identity.
-/

namespace Shenfun

variable {K : Type*} [Field K] {D : ℕ}

/-- Arrays over `D` axes. -/
abbrev Arr (D : ℕ) (K : Type*) := (Fin D → ℕ) → K

/-- The branch of `project` for two non-periodic directions, `/repo/shenfun/forms/project.py:126-149`: `B[0]` is
the first mass matrix, `axis` the aligned axis, `second` the other non-periodic axis. Only the two one-dimensional
matrices are used. -/
def projectTwo (solve : Mat1 K → Fin D → Arr D K → Arr D K) (B : List (TPM D K)) (axis second : Fin D)
    (rhs : Arr D K) : Arr D K :=
  match B with
  | [] => rhs
  | t :: _ => solve (t.mats second) second (solve (t.mats axis) axis rhs)

open Classical in
/-- `TPMatrix.solve` without non-diagonal axes, `/repo/shenfun/matrixbase.py:1410-1425`, on the simplified scale
`s`: `d = 1/s`, non-finite entries replaced by zero. -/
noncomputable def diagonalSolve (s : Arr D K) (b : Arr D K) : Arr D K :=
  fun I => b I * if s I = 0 then 0 else 1 / s I

/-- `simplify_diagonal_matrices` after the optimisation of `Project.__init__` has set the matrix along `axis` to the
identity and `naxes` to the empty list, `/repo/shenfun/forms/project.py:218-225`: the diagonals of all other axes go
into the scale. -/
def skipScale (t : TPM D K) (axis : Fin D) : Arr D K :=
  fun I => t.scale I * ((List.finRange D).map fun a => if a = axis then 1 else TPM.diagFactor (t.mats a) (I a)).prod

/-- `Project.__call__` when the matrices along the only non-diagonal axis are equal,
`/repo/shenfun/forms/project.py:213-225, 255-272`: neither multiplied nor solved with. -/
noncomputable def projectSkip (A B : TPM D K) (axis : Fin D) (uh : Arr D K) : Arr D K :=
  diagonalSolve (skipScale B axis) fun I => skipScale A axis I * uh I

end Shenfun
