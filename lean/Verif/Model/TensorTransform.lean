import Verif.Model.Project
import Mathlib.Algebra.BigOperators.Fin

/-!
# The transforms of a tensor product space, `/repo/shenfun/tensorproductspace.py:45-259, 403-469`

Global arrays are functions of a multi-index. The redistributions between pencils (`self._transfer[i](arrayA, arrayB)`)
move the entries of a global array between processes and do not change it, so they are left out; this is what the forward
and backward transforms configured in lines 449-464 do. `collapse_fourier` is off, as by default (line 315). Boundary
values are homogeneous, so `_add_mass_rhs` adds nothing, and the branch of lines 238-246 for several non-periodic axes
with inhomogeneous boundary conditions is left out. A serial transform of one base is described by its matrices.
-/

namespace Shenfun.TPT

variable {K : Type*} [Field K] {D : ℕ}

/-- One base of a tensor product space: `nq` quadrature points `pts` in the true domain (`mesh`), `nm` modes, the matrix
`E` (point, mode) of `SpectralBase.backward`, the matrix `S` (mode, point) of `SpectralBase.scalar_product`
(`/repo/shenfun/spectralbase.py:200-263`), the mass matrix `mass g` with measure `g`
(`mat[key + (dx,)]`, `/repo/shenfun/spectralbase.py:994-1018`) and the map `solve g` of `apply_inverse_mass`
(`/repo/shenfun/spectralbase.py:560-577`, `/repo/shenfun/fourier/bases.py:151-155`) along a line. Truncation and padding
are parts of `E` and `S`. -/
structure Base (K : Type*) where
  nq : ℕ
  nm : ℕ
  pts : ℕ → K
  E : ℕ → ℕ → K
  S : ℕ → ℕ → K
  mass : (K → K) → ℕ → ℕ → K
  solve : (K → K) → (ℕ → K) → ℕ → K

/-- One element of the list returned by `split`, `/repo/shenfun/utilities/__init__.py:494-534`: the coefficient and one
factor for every coordinate. -/
structure Term (D : ℕ) (K : Type*) where
  coeff : K
  fac : Fin D → K → K

/-- A tensor product space: its bases, `is_cartesian` of its coordinates, and `split(sqrt(det g))`. -/
structure Space (D : ℕ) (K : Type*) where
  base : Fin D → Base K
  cartesian : Bool
  split : List (Term D K)

/-- The measure `sqrt(det g)` at a point: `split` writes it as the sum of the products of its terms. -/
def Space.sg (T : Space D K) (x : Fin D → K) : K :=
  (T.split.map fun t => t.coeff * ∏ a, t.fac a (x a)).sum

/-- The coordinates of the quadrature point `I`, `local_mesh(True)`. -/
def Space.mesh (T : Space D K) (I : Fin D → ℕ) : Fin D → K := fun a => (T.base a).pts (I a)

/-- `get_mass_matrix` of the base along axis `a`, `/repo/shenfun/spectralbase.py:994-1006`: the measure is taken from
`msdict[0]` whatever the length of `msdict`, and the coefficient goes to the last axis. -/
def Space.massMeasure (T : Space D K) (a : Fin D) : K → K :=
  match T.split with
  | [] => fun _ => 1
  | t :: _ => fun x => if a.val = D - 1 then t.fac a x * t.coeff else t.fac a x

/-- `get_measured_input_array`, `/repo/shenfun/tensorproductspace.py:127-144`. -/
def Space.measured (T : Space D K) (v : Arr D K) : Arr D K := fun I => v I * T.sg (T.mesh I)

/-- A matrix applied along axis `a` by a serial transform. -/
def along (n : ℕ) (M : ℕ → ℕ → K) (a : Fin D) (v : Arr D K) : Arr D K :=
  fun I => ∑ j ∈ Finset.range n, M (I a) j * v (Function.update I a j)

/-- `SpectralBase.backward` along axis `a`. -/
def Space.backward1 (T : Space D K) (a : Fin D) (u : Arr D K) : Arr D K :=
  along (T.base a).nm (T.base a).E a u

/-- `SpectralBase.scalar_product` along axis `a`, `/repo/shenfun/spectralbase.py:200-233`; the array is not measured
since the base belongs to a tensor product space (lines 1085-1087). -/
def Space.scalar1 (T : Space D K) (a : Fin D) (v : Arr D K) : Arr D K :=
  along (T.base a).nq (T.base a).S a v

/-- `SpectralBase.forward` along axis `a`, `/repo/shenfun/spectralbase.py:235-263`. -/
def Space.forward1 (T : Space D K) (a : Fin D) (v : Arr D K) : Arr D K :=
  fun I => (T.base a).solve (T.massMeasure a) (fun i => T.scalar1 a v (Function.update I a i)) (I a)

/-- The calls a user can make; `none` is a missing `input_array`. -/
inductive Call (D : ℕ) (K : Type*) where
  | backward (u : Arr D K)
  | scalar (f : Option (Arr D K))
  | forward (f : Option (Arr D K))

/-- One call on the planned physical array `buf`, which is the input array of `forward` and of `scalar_product` and the
output array of `backward` (`/repo/shenfun/spectralbase.py:632-645`, `/repo/shenfun/tensorproductspace.py:449-464`);
the result and the new physical array. `axes` are the axes of the space: the last is transformed first (lines 421-447)
and the backward transform goes through them in the opposite order (line 455). -/
def Space.call (T : Space D K) (axes : List (Fin D)) (buf : Arr D K) : Call D K → Arr D K × Arr D K
  | .backward u =>
    let w := axes.foldl (fun w a => T.backward1 a w) u
    (w, w)
  | .scalar f =>
    let buf := f.getD buf
    let buf := if T.cartesian then buf else T.measured buf
    (axes.foldr (fun a w => T.scalar1 a w) buf, buf)
  | .forward f =>
    let buf := f.getD buf
    let buf := if T.cartesian then buf else T.measured buf
    (axes.foldr (fun a w => T.forward1 a w) buf, buf)

/-- The physical array after a history of calls. -/
def Space.run (T : Space D K) (axes : List (Fin D)) (buf : Arr D K) (h : List (Call D K)) : Arr D K :=
  h.foldl (fun b c => (T.call axes b c).2) buf

end Shenfun.TPT
