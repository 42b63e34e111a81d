import Verif.Model.Sparse
import Verif.Spec.Diags
import Verif.Spec.Jacobi
import Mathlib.Analysis.SpecialFunctions.Gamma.Basic
import Mathlib.Analysis.Real.Sqrt

/-!
# Composite bases: stencils and basis functions

`/repo/shenfun/spectralbase.py:1393-1674` and the `_stencil` dictionaries of
`/repo/shenfun/{chebyshev,legendre,chebyshevu,ultraspherical,gegenbauer,jacobi}/bases.py`.
Exact real arithmetic replaces `float` and sympy expressions; the sympy symbol `n` is a real argument.
-/

namespace Shenfun

open Polynomial

/-- Value of a `_stencil` dictionary entry: an expression without or with the symbol `n`.  The two cases are
distinguished by `isinstance(di, np.ndarray)` in `/repo/shenfun/spectralbase.py:1521-1523`. -/
inductive SVal where
  | const (c : ℝ)
  | expr (f : ℝ → ℝ)

/-- `sp.lambdify(n, s)(k)` at one index, `/repo/shenfun/spectralbase.py:1521`. -/
def SVal.at : SVal → ℝ → ℝ
  | .const c, _ => c
  | .expr f, x => f x

/-- A `_stencil` dictionary, in dictionary order. -/
abbrev Stencil := List (ℕ × SVal)

/-- One diagonal of `CompositeBase.stencil_matrix`, `/repo/shenfun/spectralbase.py:1520-1524`: arrays are
set to zero from index `N - num_bcs` on, constants stay scalars. -/
noncomputable def stencilDiag (N nbc : ℕ) : SVal → ℕ → ℝ
  | .const c, _ => c
  | .expr f, t => if t < N - nbc then f t else 0

/-- `CompositeBase.stencil_matrix`, `/repo/shenfun/spectralbase.py:1504-1526` (nonnegative offsets; the
caching in `_stencil_matrix` is not modelled). -/
noncomputable def stencilMatrix (st : Stencil) (N nbc : ℕ) : SM ℝ :=
  SM.new (st.map fun e => ((e.1 : ℤ), stencilDiag N nbc e.2)) N N 1

/-- `CompositeBase.basis_function(i)` for `i < dim()`, `/repo/shenfun/spectralbase.py:1605-1612`: row `i` of the
stencil matrix times the orthogonal polynomials `Q` (summing over all columns instead of the stored nonzeros). -/
noncomputable def basisFunction (Q : ℕ → ℝ[X]) (A : SM ℝ) (i : ℕ) : ℝ[X] :=
  ∑ j ∈ Finset.range A.cols, C (A.scale * Spec.diagsEntry A.diags i j) * Q j

/-! ## The orthogonal families -/

/-- `chebyshev.bases.Orthogonal.orthogonal_basis_function`: `sp.chebyshevt`, `/repo/shenfun/chebyshev/bases.py:265-266`. -/
noncomputable def chebT (n : ℕ) : ℝ[X] := Polynomial.Chebyshev.T ℝ n

/-- `chebyshevu.bases.Orthogonal.orthogonal_basis_function`: `sp.chebyshevu`, `/repo/shenfun/chebyshevu/bases.py:175-176`. -/
noncomputable def chebU (n : ℕ) : ℝ[X] := Polynomial.Chebyshev.U ℝ n

/-- `legendre.bases.Orthogonal.orthogonal_basis_function`: `sp.legendre`, `/repo/shenfun/legendre/bases.py:143-144`
(`P^{(0,0)}`). -/
noncomputable def legP (n : ℕ) : ℝ[X] := Spec.jacobi 0 0 n

/-- `ultraspherical.bases.Orthogonal.orthogonal_basis_function`, `/repo/shenfun/ultraspherical/bases.py:162-163`,
with `cn` of `/repo/shenfun/jacobi/recursions.py:63-81`. -/
noncomputable def ultraQ (a : ℝ) (n : ℕ) : ℝ[X] := C (1 / (Spec.jacobi a a n).eval 1) * Spec.jacobi a a n

/-- Rising factorial `sp.rf(x, n)`, used in `/repo/shenfun/jacobi/recursions.py:42-60`. -/
noncomputable def rf (x : ℝ) (n : ℕ) : ℝ := ∏ i ∈ Finset.range n, (x + i)

/-- `gegenbauer.bases.Orthogonal.orthogonal_basis_function`, `/repo/shenfun/gegenbauer/bases.py:175-176`, with `wn`
of `/repo/shenfun/jacobi/recursions.py:42-60`; `a = lambda_ - 1/2`. -/
noncomputable def gegenC (a : ℝ) (n : ℕ) : ℝ[X] := C (rf (2*a+1) n / rf (a+1) n) * Spec.jacobi a a n

/-! ## Chebyshev stencils -/

namespace ChebStencil

/-- `/repo/shenfun/chebyshev/bases.py:546`. -/
noncomputable def ShenDirichlet : Stencil := [(0, .const 1), (2, .const (-1))]

/-- `/repo/shenfun/chebyshev/bases.py:656`. -/
noncomputable def Phi1 : Stencil :=
  [(0, .expr fun n => 1 / Real.pi / (n + 1)), (2, .expr fun n => -1 / Real.pi / (n + 1))]

/-- `/repo/shenfun/chebyshev/bases.py:937`. -/
noncomputable def ShenNeumann : Stencil := [(0, .const 1), (2, .expr fun n => -((n / (n + 2)) ^ 2))]

/-- `/repo/shenfun/chebyshev/bases.py:1249`. -/
noncomputable def ShenBiharmonic : Stencil :=
  [(0, .const 1), (2, .expr fun n => -(2 * n + 4) / (n + 3)), (4, .expr fun n => (n + 1) / (n + 3))]

/-- `/repo/shenfun/chebyshev/bases.py:1441-1445`. -/
noncomputable def Phi2 : Stencil :=
  [(0, .expr fun n => 1 / (2 * Real.pi * (n + 1) * (n + 2))),
   (2, .expr fun n => -1 / (Real.pi * (n ^ 2 + 4 * n + 3))),
   (4, .expr fun n => 1 / (2 * Real.pi * (n + 2) * (n + 3)))]

/-- `/repo/shenfun/chebyshev/bases.py:1530-1535`. -/
noncomputable def Phi3 : Stencil :=
  [(0, .expr fun n => 1 / (4 * Real.pi * (n + 1) * (n + 2) * (n + 3))),
   (2, .expr fun n => -3 / (4 * Real.pi * (n + 1) * (n + 3) * (n + 4))),
   (4, .expr fun n => 3 / (4 * Real.pi * (n + 2) * (n + 3) * (n + 5))),
   (6, .expr fun n => -1 / (4 * Real.pi * (n + 3) * (n + 4) * (n + 5)))]

/-- `/repo/shenfun/chebyshev/bases.py:1614-1620`. -/
noncomputable def Phi4 : Stencil :=
  [(0, .expr fun n => 1 / (8 * Real.pi * (n + 1) * (n + 2) * (n + 3) * (n + 4))),
   (2, .expr fun n => -1 / (2 * Real.pi * (n + 1) * (n + 3) * (n + 4) * (n + 5))),
   (4, .expr fun n => 3 / (4 * Real.pi * (n + 2) * (n + 3) * (n + 5) * (n + 6))),
   (6, .expr fun n => -1 / (2 * Real.pi * (n + 3) * (n + 4) * (n + 5) * (n + 7))),
   (8, .expr fun n => 1 / (8 * Real.pi * (n + 4) * (n + 5) * (n + 6) * (n + 7)))]

/-- `/repo/shenfun/chebyshev/bases.py:1701-1718`. -/
noncomputable def Phi6 : Stencil :=
  [(0, .expr fun n => 1 / (32 * Real.pi * (n + 1) * (n + 2) * (n + 3) * (n + 4) * (n + 5) * (n + 6))),
   (2, .expr fun n => -3 / (16 * Real.pi * (n + 1) * (n + 3) * (n + 4) * (n + 5) * (n + 6) * (n + 7))),
   (4, .expr fun n => 15 / (32 * Real.pi * (n + 2) * (n + 3) * (n + 5) * (n + 6) * (n + 7) * (n + 8))),
   (6, .expr fun n => -5 / (8 * Real.pi * (n + 3) * (n + 4) * (n + 5) * (n + 7) * (n + 8) * (n + 9))),
   (8, .expr fun n => 15 / (32 * Real.pi * (n + 4) * (n + 5) * (n + 6) * (n + 7) * (n + 9) * (n + 10))),
   (10, .expr fun n => -3 / (16 * Real.pi * (n + 5) * (n + 6) * (n + 7) * (n + 8) * (n + 9) * (n + 11))),
   (12, .expr fun n => 1 / (32 * Real.pi * (n + 6) * (n + 7) * (n + 8) * (n + 9) * (n + 10) * (n + 11)))]

/-- `/repo/shenfun/chebyshev/bases.py:1797`. -/
noncomputable def UpperDirichlet : Stencil := [(0, .const 1), (1, .const (-1))]

/-- `/repo/shenfun/chebyshev/bases.py:1876`. -/
noncomputable def LowerDirichlet : Stencil := [(0, .const 1), (1, .const 1)]

/-- `/repo/shenfun/chebyshev/bases.py:2043-2047`. -/
noncomputable def DirichletNeumann : Stencil :=
  [(0, .const 1), (1, .expr fun n => 4 * (n + 1) / (2 * n ^ 2 + 6 * n + 5)),
   (2, .expr fun n => -(2 * n ^ 2 + 2 * n + 1) / (2 * n ^ 2 + 6 * n + 5))]

/-- `/repo/shenfun/chebyshev/bases.py:2132-2136`. -/
noncomputable def NeumannDirichlet : Stencil :=
  [(0, .const 1), (1, .expr fun n => -(4 * n + 4) / (2 * n ^ 2 + 6 * n + 5)),
   (2, .expr fun n => -(2 * n ^ 2 + 2 * n + 1) / (2 * n ^ 2 + 6 * n + 5))]

/-- `/repo/shenfun/chebyshev/bases.py:2220-2224`. -/
noncomputable def UpperDirichletNeumann : Stencil :=
  [(0, .const 1), (1, .expr fun n => -(4 * n + 4) / (2 * n + 3)), (2, .expr fun n => (2 * n + 1) / (2 * n + 3))]

/-- `/repo/shenfun/chebyshev/bases.py:2308-2312`. -/
noncomputable def LowerDirichletNeumann : Stencil :=
  [(0, .const 1), (1, .expr fun n => 4 * (n + 1) / (2 * n + 3)), (2, .expr fun n => (2 * n + 1) / (2 * n + 3))]

/-- `/repo/shenfun/chebyshev/bases.py:2402-2407`. -/
noncomputable def Compact3 : Stencil :=
  [(0, .const 1), (2, .expr fun n => -(3 * n + 6) / (n + 4)), (4, .expr fun n => 3 * (n + 1) / (n + 5)),
   (6, .expr fun n => -(n + 1) * (n + 2) / ((n + 4) * (n + 5)))]

/-- `/repo/shenfun/chebyshev/bases.py:2499-2505`. -/
noncomputable def Compact4 : Stencil :=
  [(0, .const 1), (2, .expr fun n => -(4 * n + 8) / (n + 5)),
   (4, .expr fun n => 6 * (n + 1) * (n + 4) / ((n + 5) * (n + 6))),
   (6, .expr fun n => -4 * (n + 1) * (n + 2) / ((n + 5) * (n + 7))),
   (8, .expr fun n => (n + 1) * (n + 2) * (n + 3) / ((n + 5) * (n + 6) * (n + 7)))]

/-- `np.ndarray` slice assignment `d[-m:] = 0` for an array of length `len`. -/
def zeroTail (len m : ℕ) (d : ℕ → ℝ) : ℕ → ℝ := fun t => if t < len - m then d t else 0

open Function in
/-- `Heinrichs.stencil_matrix`, `/repo/shenfun/chebyshev/bases.py:751-765`. -/
noncomputable def heinrichs (scaled : Bool) (N : ℕ) : SM ℝ :=
  let d := update (zeroTail N 2 fun _ => (1/2 : ℝ)) 1 (1/4)
  let dm2 := zeroTail (N-2) 2 fun _ => (-1/4 : ℝ)
  let dp2 := update (fun _ => (-1/4 : ℝ)) 0 (-1/2)
  if scaled then
    SM.new [(-2, fun k => dm2 k / ((k + 3) * (k + 4))), (0, fun k => d k / ((k + 1) * (k + 2))),
      (2, fun k => dp2 k / ((k + 1) * (k + 2)))] N N 1
  else SM.new [(-2, dm2), (0, d), (2, dp2)] N N 1

open Function in
/-- `CombinedShenNeumann.stencil_matrix`, `/repo/shenfun/chebyshev/bases.py:1036-1050`. -/
noncomputable def combinedShenNeumann (N : ℕ) : SM ℝ :=
  let k : ℕ → ℝ := update (fun i => (i:ℝ)) 0 1
  let d := update (update (update (zeroTail N 2 fun i => 2 / k i ^ 2) 0 1) 1 1) 2 (1/4)
  let dm2 := zeroTail (N-2) 2 (update (fun i => -1 / k i ^ 2) 0 0)
  let dp2 := update (fun i => -1 / k (i+2) ^ 2) 0 0
  SM.new [(-2, dm2), (0, d), (2, dp2)] N N 1

open Function in
/-- `MikNeumann.stencil_matrix`, `/repo/shenfun/chebyshev/bases.py:1151-1167`. -/
noncomputable def mikNeumann (N : ℕ) : SM ℝ :=
  let k : ℕ → ℝ := update (fun i => (i:ℝ)) 0 1
  let d := update (update (update (zeroTail N 2 fun i => 2 / k i / (k i + 1)) 0 1) 1 (3/2)) 2 (1/3)
  let dm2 := zeroTail (N-2) 2 (update (fun i => -1 / k i / (k (i+2) + 1)) 0 0)
  let dp2 := update (fun i => -1 / k (i+2) / (k (i+2) - 1)) 0 0
  SM.new [(-2, dm2), (0, d), (2, dp2)] N N 1

/-- `PolarDirichlet.stencil_matrix`, `/repo/shenfun/chebyshev/bases.py:1339-1345`.  The array `dm2` has length `N`
where `scipy.sparse.diags` wants `N-2`; here the first `N-2` entries are used. -/
noncomputable def polarDirichlet (N : ℕ) : SM ℝ :=
  let d : ℕ → ℝ := fun t => if t < 2 then 1 else 0
  let dm2 := zeroTail N 2 fun _ => (1:ℝ)
  SM.new [(-2, dm2), (0, d), (2, fun _ => -1)] N N 1

open Function in
/-- `ShenBiPolar.stencil_matrix`, `/repo/shenfun/chebyshev/bases.py:1949-1961`. -/
noncomputable def shenBiPolar (N : ℕ) : SM ℝ :=
  let d := zeroTail N 4 (update (update (fun k => ((k:ℝ) + 1) * 3 / 8) 0 (1/2)) 1 (1/2))
  let dm2 := zeroTail (N-2) 4 fun k => -((k + 2 : ℕ) + 1 : ℝ) / 8
  let dp2 := zeroTail (N-2) 2 fun k => -((k:ℝ) + 1) * 3 / 8
  let dp4 : ℕ → ℝ := fun k => ((k:ℝ) + 1) / 8
  SM.new [(-2, dm2), (0, d), (2, dp2), (4, dp4)] N N 1

end ChebStencil

/-! ## Legendre stencils -/

namespace LegStencil

/-- `/repo/shenfun/legendre/bases.py:374`. -/
noncomputable def ShenDirichlet : Stencil := [(0, .const 1), (2, .const (-1))]

/-- `/repo/shenfun/legendre/bases.py:375-376`, `scaled=True`. -/
noncomputable def ShenDirichletScaled : Stencil :=
  [(0, .expr fun n => 1 / Real.sqrt (4 * n + 6)), (2, .expr fun n => -1 / Real.sqrt (4 * n + 6))]

/-- `/repo/shenfun/legendre/bases.py:438`. -/
noncomputable def Phi1 : Stencil := [(0, .const (1/2)), (2, .const (-(1/2)))]

/-- `/repo/shenfun/legendre/bases.py:502`. -/
noncomputable def ShenNeumann : Stencil := [(0, .const 1), (2, .expr fun n => -n * (n + 1) / (n ^ 2 + 5 * n + 6))]

/-- `/repo/shenfun/legendre/bases.py:564`. -/
noncomputable def ShenBiharmonic : Stencil :=
  [(0, .const 1), (2, .expr fun n => -(4 * n + 10) / (2 * n + 7)), (4, .expr fun n => (2 * n + 3) / (2 * n + 7))]

/-- `/repo/shenfun/legendre/bases.py:636`. -/
noncomputable def Phi2 : Stencil :=
  [(0, .expr fun n => 1 / (2 * (2 * n + 3))), (2, .expr fun n => -(2 * n + 5) / (2 * n + 7) / (2 * n + 3)),
   (4, .expr fun n => 1 / (2 * (2 * n + 7)))]

/-- `/repo/shenfun/legendre/bases.py:699-704`. -/
noncomputable def Phi3 : Stencil :=
  [(0, .expr fun n => 1 / (2 * (4 * n ^ 2 + 16 * n + 15))), (2, .expr fun n => -3 / (8 * n ^ 2 + 48 * n + 54)),
   (4, .expr fun n => 3 / (2 * (4 * n ^ 2 + 32 * n + 55))), (6, .expr fun n => -1 / (8 * n ^ 2 + 80 * n + 198))]

/-- `/repo/shenfun/legendre/bases.py:771-777`. -/
noncomputable def Phi4 : Stencil :=
  [(0, .expr fun n => 1 / (2 * (8 * n ^ 3 + 60 * n ^ 2 + 142 * n + 105))),
   (2, .expr fun n => -2 / (8 * n ^ 3 + 84 * n ^ 2 + 262 * n + 231)),
   (4, .expr fun n => 3 * (2 * n + 9) / ((2 * n + 5) * (2 * n + 7) * (2 * n + 11) * (2 * n + 13))),
   (6, .expr fun n => -2 / (8 * n ^ 3 + 132 * n ^ 2 + 694 * n + 1155)),
   (8, .expr fun n => 1 / (2 * (8 * n ^ 3 + 156 * n ^ 2 + 1006 * n + 2145)))]

/-- `/repo/shenfun/legendre/bases.py:837-845`. -/
noncomputable def Phi6 : Stencil :=
  [(0, .expr fun n => 1 / (2 * (2*n + 3) * (2*n + 5) * (2*n + 7) * (2*n + 9) * (2*n + 11))),
   (2, .expr fun n => -3 / ((2*n + 3) * (2*n + 7) * (2*n + 9) * (2*n + 11) * (2*n + 15))),
   (4, .expr fun n => 15 / (2 * (2*n + 5) * (2*n + 7) * (2*n + 11) * (2*n + 15) * (2*n + 17))),
   (6, .expr fun n => -10 * (2*n + 13) / ((2*n + 7) * (2*n + 9) * (2*n + 11) * (2*n + 15) * (2*n + 17) * (2*n + 19))),
   (8, .expr fun n => 15 / (2 * (2*n + 9) * (2*n + 11) * (2*n + 15) * (2*n + 19) * (2*n + 21))),
   (10, .expr fun n => -3 / ((2*n + 11) * (2*n + 15) * (2*n + 17) * (2*n + 19) * (2*n + 23))),
   (12, .expr fun n => 1 / (2 * (2*n + 15) * (2*n + 17) * (2*n + 19) * (2*n + 21) * (2*n + 23)))]

/-- `/repo/shenfun/legendre/bases.py:921-927`. -/
noncomputable def BeamFixedFree : Stencil :=
  [(0, .const 1), (1, .expr fun n => 4 * (2*n + 3) / (n^2 + 6*n + 9)),
   (2, .expr fun n => 2 * (-2*n^4 - 17*n^3 - 28*n^2 + 17*n + 30) / (2*n^4 + 27*n^3 + 136*n^2 + 303*n + 252)),
   (3, .expr fun n => -(8*n^3 + 28*n^2 + 32*n + 12) / (n^4 + 14*n^3 + 73*n^2 + 168*n + 144)),
   (4, .expr fun n => (2*n^5 + 15*n^4 + 44*n^3 + 63*n^2 + 44*n + 12) /
      (2*n^5 + 35*n^4 + 244*n^3 + 847*n^2 + 1464*n + 1008))]

/-- `/repo/shenfun/legendre/bases.py:986`. -/
noncomputable def UpperDirichlet : Stencil := [(0, .const 1), (1, .const (-1))]

/-- `/repo/shenfun/legendre/bases.py:1137`. -/
noncomputable def DirichletNeumann : Stencil :=
  [(0, .const 1), (1, .expr fun n => (2*n + 3) / (n^2 + 4*n + 4)),
   (2, .expr fun n => -(n^2 + 2*n + 1) / (n^2 + 4*n + 4))]

/-- `/repo/shenfun/legendre/bases.py:1197`. -/
noncomputable def LowerDirichlet : Stencil := [(0, .const 1), (1, .const 1)]

/-- `/repo/shenfun/legendre/bases.py:1261`. -/
noncomputable def NeumannDirichlet : Stencil :=
  [(0, .const 1), (1, .expr fun n => -(2*n + 3) / (n^2 + 4*n + 4)),
   (2, .expr fun n => -(n^2 + 2*n + 1) / (n^2 + 4*n + 4))]

/-- `/repo/shenfun/legendre/bases.py:1330`. -/
noncomputable def UpperDirichletNeumann : Stencil :=
  [(0, .const 1), (1, .expr fun n => -(2*n + 3) / (n + 2)), (2, .expr fun n => (n + 1) / (n + 2))]

/-- `/repo/shenfun/legendre/bases.py:1392-1397`. -/
noncomputable def Compact3 : Stencil :=
  [(0, .const 1), (2, .expr fun n => -(6*n + 15) / (2*n + 9)), (4, .expr fun n => 3 * (2*n + 3) / (2*n + 11)),
   (6, .expr fun n => -(2*n + 3) * (2*n + 5) / ((2*n + 9) * (2*n + 11)))]

open Function in
/-- `ShenBiPolar.stencil_matrix`, `/repo/shenfun/legendre/bases.py:1062-1082`. -/
noncomputable def shenBiPolar (N : ℕ) : SM ℝ :=
  let ak : ℕ → ℝ := fun k => k * (k - 1) / (2*k - 1) / (2*k + 1)
  let bk : ℕ → ℝ := fun k => -2 * (k^2 + k - 1) / (2*k - 1) / (2*k + 3)
  let ck : ℕ → ℝ := fun k => (k + 1) * (k + 2) / (2*k + 1) / (2*k + 3)
  let p : ℕ → ℝ := fun k => (k + 1) * (k + 2) / (2*k + 3)
  let d := update (update (fun k => if k < N - 4 then p k * (ak (k+2) - bk k) else 0) 0 (8/15)) 1 (24/35)
  let dm2 : ℕ → ℝ := fun k => if k < N - 6 then -(p (k+2)) * ak (k+2) else 0
  let dp2 := update (update (fun k => if k < N - 4 then p k * (bk (k+2) - ck k) else 0) 0 (-16/21)) 1 (-16/15)
  let dp4 := update (update (fun k => p k * ck (k+2)) 0 (8/35)) 1 (8/21)
  SM.new [(-2, dm2), (0, d), (2, dp2), (4, dp4)] N N 1

end LegStencil

/-! ## Chebyshev polynomials of the second kind -/

namespace ChebUStencil

/-- `/repo/shenfun/chebyshevu/bases.py:406-409`. -/
noncomputable def Phi1 : Stencil :=
  [(0, .expr fun n => 1 / (Real.pi * (n+1))), (2, .expr fun n => -1 / (Real.pi * (n+3)))]

/-- `/repo/shenfun/chebyshevu/bases.py:411-414`, `scaled=True`. -/
noncomputable def Phi1Scaled : Stencil :=
  [(0, .expr fun n => 1 / (Real.pi * (n+1) * (n+2))), (2, .expr fun n => -1 / (Real.pi * (n+3) * (n+2)))]

/-- `/repo/shenfun/chebyshevu/bases.py:489-493`. -/
noncomputable def Phi2 : Stencil :=
  [(0, .expr fun n => 1 / (2 * Real.pi * (n+1) * (n+2))), (2, .expr fun n => -1 / (Real.pi * (n+2) * (n+4))),
   (4, .expr fun n => 1 / (2 * Real.pi * (n+4) * (n+5)))]

/-- `/repo/shenfun/chebyshevu/bases.py:495-499`, `scaled=True`. -/
noncomputable def Phi2Scaled : Stencil :=
  [(0, .expr fun n => 1 / (2 * Real.pi * (n+1) * (n+2) * (n+3))),
   (2, .expr fun n => -1 / (Real.pi * (n+2) * (n+4) * (n+3))),
   (4, .expr fun n => 1 / (2 * Real.pi * (n+4) * (n+5) * (n+3)))]

/-- `/repo/shenfun/chebyshevu/bases.py:566-571`. -/
noncomputable def Phi3 : Stencil :=
  [(0, .expr fun n => 1 / (4 * Real.pi * (n+1) * (n+2) * (n+3))),
   (2, .expr fun n => -3 / (4 * Real.pi * (n+2) * (n+3) * (n+5))),
   (4, .expr fun n => 3 / (4 * Real.pi * (n+3) * (n+5) * (n+6))),
   (6, .expr fun n => -1 / (4 * Real.pi * (n+5) * (n+6) * (n+7)))]

/-- `/repo/shenfun/chebyshevu/bases.py:638-644`. -/
noncomputable def Phi4 : Stencil :=
  [(0, .expr fun n => 1 / (8 * Real.pi * (n + 1) * (n + 2) * (n + 3) * (n + 4))),
   (2, .expr fun n => -1 / (2 * Real.pi * (n + 2) * (n + 3) * (n + 4) * (n + 6))),
   (4, .expr fun n => 3 / (4 * Real.pi * (n + 3) * (n + 4) * (n + 6) * (n + 7))),
   (6, .expr fun n => -1 / (2 * Real.pi * (n + 4) * (n + 6) * (n + 7) * (n + 8))),
   (8, .expr fun n => 1 / (8 * Real.pi * (n + 6) * (n + 7) * (n + 8) * (n + 9)))]

/-- `/repo/shenfun/chebyshevu/bases.py:712-720`. -/
noncomputable def Phi6 : Stencil :=
  [(0, .expr fun n => 1 / (32 * Real.pi * (n + 1) * (n + 2) * (n + 3) * (n + 4) * (n + 5) * (n + 6))),
   (2, .expr fun n => -3 / (16 * Real.pi * (n + 2) * (n + 3) * (n + 4) * (n + 5) * (n + 6) * (n + 8))),
   (4, .expr fun n => 15 / (32 * Real.pi * (n + 3) * (n + 4) * (n + 5) * (n + 6) * (n + 8) * (n + 9))),
   (6, .expr fun n => -5 / (8 * Real.pi * (n + 4) * (n + 5) * (n + 6) * (n + 8) * (n + 9) * (n + 10))),
   (8, .expr fun n => 15 / (32 * Real.pi * (n + 5) * (n + 6) * (n + 8) * (n + 9) * (n + 10) * (n + 11))),
   (10, .expr fun n => -3 / (16 * Real.pi * (n + 6) * (n + 8) * (n + 9) * (n + 10) * (n + 11) * (n + 12))),
   (12, .expr fun n => 1 / (32 * Real.pi * (n + 8) * (n + 9) * (n + 10) * (n + 11) * (n + 12) * (n + 13)))]

/-- `/repo/shenfun/chebyshevu/bases.py:794`. -/
noncomputable def CompactDirichlet : Stencil := [(0, .const 1), (2, .expr fun n => -(n+1) / (n+3))]

/-- `/repo/shenfun/chebyshevu/bases.py:796`, `scaled=True`. -/
noncomputable def CompactDirichletScaled : Stencil := [(0, .expr fun n => 1 / (n+1)), (2, .expr fun n => -1 / (n+3))]

/-- `/repo/shenfun/chebyshevu/bases.py:859`. -/
noncomputable def CompactNeumann : Stencil := [(0, .const 1), (2, .expr fun n => -n * (n+1) / ((n+3) * (n+4)))]

/-- `/repo/shenfun/chebyshevu/bases.py:918`. -/
noncomputable def UpperDirichlet : Stencil := [(0, .const 1), (1, .expr fun n => -(n+1) / (n+2))]

/-- `/repo/shenfun/chebyshevu/bases.py:976`. -/
noncomputable def LowerDirichlet : Stencil := [(0, .const 1), (1, .expr fun n => (n+1) / (n+2))]

/-- `/repo/shenfun/chebyshevu/bases.py:1049-1053`. -/
noncomputable def CompactBiharmonic : Stencil :=
  [(0, .const 1), (2, .expr fun n => -(2*n + 2) / (n + 4)), (4, .expr fun n => (n + 1) * (n + 2) / ((n + 4) * (n + 5)))]

/-- `/repo/shenfun/chebyshevu/bases.py:1115-1120`. -/
noncomputable def Compact3 : Stencil :=
  [(0, .const 1), (2, .expr fun n => -3 * (n+1) / (n+5)), (4, .expr fun n => 3 * (n+1) * (n+2) / ((n+5) * (n+6))),
   (6, .expr fun n => -(n+1) * (n+2) * (n+3) / ((n+5) * (n+6) * (n+7)))]

end ChebUStencil

/-! ## Ultraspherical, Gegenbauer and Jacobi -/

namespace UltraStencil

/-- `/repo/shenfun/ultraspherical/bases.py:293-297`. -/
noncomputable def Phi1 (a : ℝ) : Stencil :=
  [(0, .expr fun n => Real.Gamma (2*a + n + 2) / (2 * 2^(2*a) * Real.Gamma (a + 1)^2 * Real.Gamma (n + 2))),
   (2, .expr fun n => -Real.Gamma (2*a + n + 2) / (2 * 2^(2*a) * Real.Gamma (a + 1)^2 * Real.Gamma (n + 2)))]

/-- `/repo/shenfun/ultraspherical/bases.py:369-373`. -/
noncomputable def Phi2 (a : ℝ) : Stencil :=
  [(0, .expr fun n => Real.Gamma (2*a + n + 3) /
      (2 * 2^(2*a) * (2*a + 2*n + 3) * Real.Gamma (a + 1)^2 * Real.Gamma (n + 3))),
   (2, .expr fun n => -(2*a + 2*n + 5) * Real.Gamma (2*a + n + 3) /
      (4^a * (2*a + 2*n + 3) * (2*a + 2*n + 7) * Real.Gamma (a + 1)^2 * Real.Gamma (n + 3))),
   (4, .expr fun n => Real.Gamma (2*a + n + 3) /
      (2 * 2^(2*a) * (2*a + 2*n + 7) * Real.Gamma (a + 1)^2 * Real.Gamma (n + 3)))]

/-- `/repo/shenfun/ultraspherical/bases.py:444-449`. -/
noncomputable def Phi3 (a : ℝ) : Stencil :=
  [(0, .expr fun n => Real.Gamma (2*a + n + 4) /
      (2 * 2^(2*a) * (2*a + 2*n + 3) * (2*a + 2*n + 5) * Real.Gamma (a + 1)^2 * Real.Gamma (n + 4))),
   (2, .expr fun n => -3 * Real.Gamma (2*a + n + 4) /
      (2 * 2^(2*a) * (2*a + 2*n + 3) * (2*a + 2*n + 9) * Real.Gamma (a + 1)^2 * Real.Gamma (n + 4))),
   (4, .expr fun n => 3 * Real.Gamma (2*a + n + 4) /
      (2 * 2^(2*a) * (2*a + 2*n + 5) * (2*a + 2*n + 11) * Real.Gamma (a + 1)^2 * Real.Gamma (n + 4))),
   (6, .expr fun n => -Real.Gamma (2*a + n + 4) /
      (2 * 2^(2*a) * (2*a + 2*n + 9) * (2*a + 2*n + 11) * Real.Gamma (a + 1)^2 * Real.Gamma (n + 4)))]

/-- `/repo/shenfun/ultraspherical/bases.py:523-529`. -/
noncomputable def Phi4 (a : ℝ) : Stencil :=
  [(0, .expr fun n => Real.Gamma (2*a + n + 5) /
      (2 * 2^(2*a) * (2*a + 2*n + 3) * (2*a + 2*n + 5) * (2*a + 2*n + 7) * Real.Gamma (a + 1)^2 * Real.Gamma (n + 5))),
   (2, .expr fun n => -2^(1 - 2*a) * Real.Gamma (2*a + n + 5) /
      ((2*a + 2*n + 3) * (2*a + 2*n + 7) * (2*a + 2*n + 11) * Real.Gamma (a + 1)^2 * Real.Gamma (n + 5))),
   (4, .expr fun n => 3 * (2*a + 2*n + 9) * Real.Gamma (2*a + n + 5) /
      (4^a * (2*a + 2*n + 5) * (2*a + 2*n + 7) * (2*a + 2*n + 11) * (2*a + 2*n + 13) * Real.Gamma (a + 1)^2 *
        Real.Gamma (n + 5))),
   (6, .expr fun n => -2^(1 - 2*a) * Real.Gamma (2*a + n + 5) /
      ((2*a + 2*n + 7) * (2*a + 2*n + 11) * (2*a + 2*n + 15) * Real.Gamma (a + 1)^2 * Real.Gamma (n + 5))),
   (8, .expr fun n => Real.Gamma (2*a + n + 5) /
      (2 * 2^(2*a) * (2*a + 2*n + 11) * (2*a + 2*n + 13) * (2*a + 2*n + 15) * Real.Gamma (a + 1)^2 *
        Real.Gamma (n + 5)))]

/-- `/repo/shenfun/ultraspherical/bases.py:603-613`. -/
noncomputable def Phi6 (a : ℝ) : Stencil :=
  [(0, .expr fun n => Real.Gamma (2*a + n + 7) /
      (2 * 2^(2*a) * (2*a + 2*n + 3) * (2*a + 2*n + 5) * (2*a + 2*n + 7) * (2*a + 2*n + 9) * (2*a + 2*n + 11) *
        Real.Gamma (a + 1)^2 * Real.Gamma (n + 7))),
   (2, .expr fun n => -3 * Real.Gamma (2*a + n + 7) /
      (4^a * (2*a + 2*n + 3) * (2*a + 2*n + 7) * (2*a + 2*n + 9) * (2*a + 2*n + 11) * (2*a + 2*n + 15) *
        Real.Gamma (a + 1)^2 * Real.Gamma (n + 7))),
   (4, .expr fun n => 15 * Real.Gamma (2*a + n + 7) /
      (2 * 2^(2*a) * (2*a + 2*n + 5) * (2*a + 2*n + 7) * (2*a + 2*n + 11) * (2*a + 2*n + 15) * (2*a + 2*n + 17) *
        Real.Gamma (a + 1)^2 * Real.Gamma (n + 7))),
   (6, .expr fun n => -10 * (2*a + 2*n + 13) * Real.Gamma (2*a + n + 7) /
      (2^(2*a) * (2*a + 2*n + 7) * (2*a + 2*n + 9) * (2*a + 2*n + 11) * (2*a + 2*n + 15) * (2*a + 2*n + 17) *
        (2*a + 2*n + 19) * Real.Gamma (a + 1)^2 * Real.Gamma (n + 7))),
   (8, .expr fun n => 15 * Real.Gamma (2*a + n + 7) /
      (2 * 2^(2*a) * (2*a + 2*n + 9) * (2*a + 2*n + 11) * (2*a + 2*n + 15) * (2*a + 2*n + 19) * (2*a + 2*n + 21) *
        Real.Gamma (a + 1)^2 * Real.Gamma (n + 7))),
   (10, .expr fun n => -3 * Real.Gamma (2*a + n + 7) /
      (4^a * (2*a + 2*n + 11) * (2*a + 2*n + 15) * (2*a + 2*n + 17) * (2*a + 2*n + 19) * (2*a + 2*n + 23) *
        Real.Gamma (a + 1)^2 * Real.Gamma (n + 7))),
   (12, .expr fun n => Real.Gamma (2*a + n + 7) /
      (2 * 2^(2*a) * (2*a + 2*n + 15) * (2*a + 2*n + 17) * (2*a + 2*n + 19) * (2*a + 2*n + 21) * (2*a + 2*n + 23) *
        Real.Gamma (a + 1)^2 * Real.Gamma (n + 7)))]

/-- `/repo/shenfun/ultraspherical/bases.py:674`. -/
noncomputable def CompactDirichlet : Stencil := [(0, .const 1), (2, .const (-1))]

/-- `/repo/shenfun/ultraspherical/bases.py:738-739`. -/
noncomputable def CompactNeumann (a : ℝ) : Stencil :=
  [(0, .const 1), (2, .expr fun n => n * (-2*a - n - 1) / (2*a*n + 4*a + n^2 + 5*n + 6))]

/-- `/repo/shenfun/ultraspherical/bases.py:800`. -/
noncomputable def UpperDirichlet : Stencil := [(0, .const 1), (1, .const (-1))]

/-- `/repo/shenfun/ultraspherical/bases.py:862`. -/
noncomputable def LowerDirichlet : Stencil := [(0, .const 1), (1, .const 1)]

/-- `/repo/shenfun/ultraspherical/bases.py:935-939`. -/
noncomputable def CompactBiharmonic (a : ℝ) : Stencil :=
  [(0, .const 1), (2, .expr fun n => -(4*a + 4*n + 10) / (2*a + 2*n + 7)),
   (4, .expr fun n => (2*a + 2*n + 3) / (2*a + 2*n + 7))]

end UltraStencil

namespace GegenStencil

/-- `/repo/shenfun/gegenbauer/bases.py:442`. -/
noncomputable def CompactDirichlet : Stencil :=
  [(0, .expr fun n => -(n+4) * (n+5) / (2 * (n + 1) * (n + 2)^2)), (2, .expr fun n => 1 / (2 * (n + 2)))]

/-- `/repo/shenfun/gegenbauer/bases.py:554-563`. -/
noncomputable def CompactBiharmonic : Stencil :=
  [(0, .expr fun n => (n + 7) * (n + 8) * (n + 9) * (n + 10) * (n + 11) /
      ((n + 1) * (n + 2) * (n + 3) * (n + 4) * (n + 5))),
   (2, .expr fun n => -2 * (n + 6) * (n + 10) * (n + 11) / ((n + 3) * (n + 4) * (n + 5))),
   (4, .const 1)]

end GegenStencil

namespace JacStencil

open Classical in
/-- `/repo/shenfun/jacobi/bases.py:692-698`. -/
noncomputable def CompactDirichlet (a b : ℝ) : Stencil :=
  [(0, .const 1),
   (2, .expr fun n => -(n + 1) * (n + 2) * (a + b + 2*n + 2) / ((a + n + 1) * (b + n + 1) * (a + b + 2*n + 4)))] ++
  if a ≠ b then
    [(1, .expr fun n => (a - b) * (n + 1) * (a + b + 2*n + 3) / ((a + n + 1) * (b + n + 1) * (a + b + 2*n + 4)))]
  else []

open Classical in
/-- `/repo/shenfun/jacobi/bases.py:769-775`. -/
noncomputable def CompactNeumann (a b : ℝ) : Stencil :=
  [(0, .const 1),
   (2, .expr fun n => -n * (n+1) * (a+b+n+1) * (a+b+2*n+2) / ((a+n+1) * (b+n+1) * (a+b+n+3) * (a+b+2*n+4)))] ++
  if a ≠ b then
    [(1, .expr fun n => n * (a-b) * (a+b+n+1) * (a+b+2*n+3) / ((a+n+1) * (b+n+1) * (a+b+n+2) * (a+b+2*n+4)))]
  else []

/-- `/repo/shenfun/jacobi/bases.py:836`. -/
noncomputable def UpperDirichlet (a : ℝ) : Stencil := [(0, .const 1), (1, .expr fun n => -(n+1) / (a+n+1))]

/-- `/repo/shenfun/jacobi/bases.py:897`. -/
noncomputable def LowerDirichlet (b : ℝ) : Stencil := [(0, .const 1), (1, .expr fun n => (n+1) / (b+n+1))]

open Classical in
/-- `/repo/shenfun/jacobi/bases.py:359-365`. -/
noncomputable def Phi1 (a b : ℝ) : Stencil :=
  [(0, .expr fun n => 2^(-a-b) * Real.Gamma (n+1) * Real.Gamma (a+b+n+2) /
      ((a+b+2*n+2) * Real.Gamma (a+n+1) * Real.Gamma (b+n+1))),
   (2, .expr fun n => -2^(-a-b) * Real.Gamma (n+3) * Real.Gamma (a+b+n+2) /
      ((a+b+2*n+4) * Real.Gamma (a+n+2) * Real.Gamma (b+n+2)))] ++
  if a ≠ b then
    [(1, .expr fun n => 2^(-a-b) * (a-b) * (a+b+2*n+3) * Real.Gamma (n+2) * Real.Gamma (a+b+n+2) /
      ((a+b+2*n+2) * (a+b+2*n+4) * Real.Gamma (a+n+2) * Real.Gamma (b+n+2)))]
  else []

open Classical in
/-- `/repo/shenfun/jacobi/bases.py:441-448`. -/
noncomputable def Phi2 (a b : ℝ) : Stencil :=
  [(0, .expr fun n => 2^(-a - b + 1) * Real.Gamma (n + 1) * Real.Gamma (a + b + n + 3) /
      ((a + b + 2*n + 2) * (a + b + 2*n + 3) * (a + b + 2*n + 4) * Real.Gamma (a + n + 1) * Real.Gamma (b + n + 1))),
   (2, .expr fun n => 2^(-a - b + 1) * (a + b + 2*n + 5) *
      (a^2 - 4*a*b - 2*a*n - 5*a + b^2 - 2*b*n - 5*b - 2*n^2 - 10*n - 12) * Real.Gamma (n + 3) *
      Real.Gamma (a + b + n + 3) / ((a + b + 2*n + 3) * (a + b + 2*n + 4) * (a + b + 2*n + 6) * (a + b + 2*n + 7) *
      Real.Gamma (a + n + 3) * Real.Gamma (b + n + 3))),
   (4, .expr fun n => 2^(-a - b + 1) * Real.Gamma (n + 5) * Real.Gamma (a + b + n + 3) /
      ((a + b + 2*n + 6) * (a + b + 2*n + 7) * (a + b + 2*n + 8) * Real.Gamma (a + n + 3) * Real.Gamma (b + n + 3)))] ++
  if a ≠ b then
    [(1, .expr fun n => 2^(-a - b + 2) * (a - b) * Real.Gamma (n + 2) * Real.Gamma (a + b + n + 3) /
      ((a + b + 2*n + 2) * (a + b + 2*n + 4) * (a + b + 2*n + 6) * Real.Gamma (a + n + 2) * Real.Gamma (b + n + 2))),
     (3, .expr fun n => -2^(-a - b + 2) * (a - b) * Real.Gamma (n + 4) * Real.Gamma (a + b + n + 3) /
      ((a + b + 2*n + 4) * (a + b + 2*n + 6) * (a + b + 2*n + 8) * Real.Gamma (a + n + 3) * Real.Gamma (b + n + 3)))]
  else []

open Classical in
/-- `/repo/shenfun/jacobi/bases.py:520-532`. -/
noncomputable def Phi3 (a b : ℝ) : Stencil :=
  [(0, .expr fun n => 2^(-a - b + 2) * Real.Gamma (n + 1) * Real.Gamma (a + b + n + 4)/((a + b + 2 * n + 2) * (a + b + 2 * n + 3) * (a + b + 2 * n + 4) * (a + b + 2 * n + 5) * (a + b + 2 * n + 6) * Real.Gamma (a + n + 1) * Real.Gamma (b + n + 1))),
   (2, .expr fun n => 3 * 2^(-a - b + 2) * (a^2 - 3 * a * b - a * n - 3 * a + b^2 - b * n - 3 * b - n^2 - 6 * n - 8) * Real.Gamma (n + 3) * Real.Gamma (a + b + n + 4)/((a + b + 2 * n + 3) * (a + b + 2 * n + 4) * (a + b + 2 * n + 6) * (a + b + 2 * n + 8) * (a + b + 2 * n + 9) * Real.Gamma (a + n + 3) * Real.Gamma (b + n + 3))),
   (4, .expr fun n => 3 * 2^(-a - b + 2) * (-a^2 + 3 * a * b + a * n + 4 * a - b^2 + b * n + 4 * b + n^2 + 8 * n + 15) * Real.Gamma (n + 5) * Real.Gamma (a + b + n + 4)/((a + b + 2 * n + 5) * (a + b + 2 * n + 6) * (a + b + 2 * n + 8) * (a + b + 2 * n + 10) * (a + b + 2 * n + 11) * Real.Gamma (a + n + 4) * Real.Gamma (b + n + 4))),
   (6, .expr fun n => -2^(-a - b + 2) * Real.Gamma (n + 7) * Real.Gamma (a + b + n + 4)/((a + b + 2 * n + 8) * (a + b + 2 * n + 9) * (a + b + 2 * n + 10) * (a + b + 2 * n + 11) * (a + b + 2 * n + 12) * Real.Gamma (a + n + 4) * Real.Gamma (b + n + 4)))] ++
  if a ≠ b then
    [(1, .expr fun n => 3 * 2^(-a - b + 2) * (a - b) * Real.Gamma (n + 2) * Real.Gamma (a + b + n + 4)/((a + b + 2 * n + 2) * (a + b + 2 * n + 4) * (a + b + 2 * n + 5) * (a + b + 2 * n + 6) * (a + b + 2 * n + 8) * Real.Gamma (a + n + 2) * Real.Gamma (b + n + 2))),
     (3, .expr fun n => 2^(-a - b + 2) * (a - b) * (a + b + 2 * n + 7) * (a^2 - 8 * a * b - 6 * a * n - 21 * a + b^2 - 6 * b * n - 21 * b - 6 * n^2 - 42 * n - 70) * Real.Gamma (n + 4) * Real.Gamma (a + b + n + 4)/((a + b + 2 * n + 4) * (a + b + 2 * n + 5) * (a + b + 2 * n + 6) * (a + b + 2 * n + 8) * (a + b + 2 * n + 9) * (a + b + 2 * n + 10) * Real.Gamma (a + n + 4) * Real.Gamma (b + n + 4))),
     (5, .expr fun n => 3 * 2^(-a - b + 2) * (a - b) * Real.Gamma (n + 6) * Real.Gamma (a + b + n + 4)/((a + b + 2 * n + 6) * (a + b + 2 * n + 8) * (a + b + 2 * n + 9) * (a + b + 2 * n + 10) * (a + b + 2 * n + 12) * Real.Gamma (a + n + 4) * Real.Gamma (b + n + 4)))]
  else []

open Classical in
/-- `/repo/shenfun/jacobi/bases.py:607-623`. -/
noncomputable def Phi4 (a b : ℝ) : Stencil :=
  [(0, .expr fun n => 2^(-a - b + 3) * Real.Gamma (n + 1) * Real.Gamma (a + b + n + 5)/((a + b + 2 * n + 2) * (a + b + 2 * n + 3) * (a + b + 2 * n + 4) * (a + b + 2 * n + 5) * (a + b + 2 * n + 6) * (a + b + 2 * n + 7) * (a + b + 2 * n + 8) * Real.Gamma (a + n + 1) * Real.Gamma (b + n + 1))),
   (2, .expr fun n => 2^(-a - b + 4) * (3 * a^2 - 8 * a * b - 2 * a * n - 7 * a + 3 * b^2 - 2 * b * n - 7 * b - 2 * n^2 - 14 * n - 20) * Real.Gamma (n + 3) * Real.Gamma (a + b + n + 5)/((a + b + 2 * n + 3) * (a + b + 2 * n + 4) * (a + b + 2 * n + 6) * (a + b + 2 * n + 7) * (a + b + 2 * n + 8) * (a + b + 2 * n + 10) * (a + b + 2 * n + 11) * Real.Gamma (a + n + 3) * Real.Gamma (b + n + 3))),
   (4, .expr fun n => 2^(-a - b + 3) * (a + b + 2 * n + 9) * (a^4 - 16 * a^3 * b - 12 * a^3 * n - 54 * a^3 + 36 * a^2 * b^2 + 24 * a^2 * b * n + 108 * a^2 * b - 6 * a^2 * n^2 - 54 * a^2 * n - 109 * a^2 - 16 * a * b^3 + 24 * a * b^2 * n + 108 * a * b^2 + 48 * a * b * n^2 + 432 * a * b * n + 932 * a * b + 12 * a * n^3 + 162 * a * n^2 + 714 * a * n + 1026 * a + b^4 - 12 * b^3 * n - 54 * b^3 - 6 * b^2 * n^2 - 54 * b^2 * n - 109 * b^2 + 12 * b * n^3 + 162 * b * n^2 + 714 * b * n + 1026 * b + 6 * n^4 + 108 * n^3 + 714 * n^2 + 2052 * n + 2160) * Real.Gamma (n + 5) * Real.Gamma (a + b + n + 5)/((a + b + 2 * n + 5) * (a + b + 2 * n + 6) * (a + b + 2 * n + 7) * (a + b + 2 * n + 8) * (a + b + 2 * n + 10) * (a + b + 2 * n + 11) * (a + b + 2 * n + 12) * (a + b + 2 * n + 13) * Real.Gamma (a + n + 5) * Real.Gamma (b + n + 5))),
   (6, .expr fun n => 2^(-a - b + 4) * (3 * a^2 - 8 * a * b - 2 * a * n - 11 * a + 3 * b^2 - 2 * b * n - 11 * b - 2 * n^2 - 22 * n - 56) * Real.Gamma (n + 7) * Real.Gamma (a + b + n + 5)/((a + b + 2 * n + 7) * (a + b + 2 * n + 8) * (a + b + 2 * n + 10) * (a + b + 2 * n + 11) * (a + b + 2 * n + 12) * (a + b + 2 * n + 14) * (a + b + 2 * n + 15) * Real.Gamma (a + n + 5) * Real.Gamma (b + n + 5))),
   (8, .expr fun n => 2^(-a - b + 3) * Real.Gamma (n + 9) * Real.Gamma (a + b + n + 5)/((a + b + 2 * n + 10) * (a + b + 2 * n + 11) * (a + b + 2 * n + 12) * (a + b + 2 * n + 13) * (a + b + 2 * n + 14) * (a + b + 2 * n + 15) * (a + b + 2 * n + 16) * Real.Gamma (a + n + 5) * Real.Gamma (b + n + 5)))] ++
  if a ≠ b then
    [(1, .expr fun n => 2^(-a - b + 5) * (a - b) * Real.Gamma (n + 2) * Real.Gamma (a + b + n + 5)/((a + b + 2 * n + 2) * (a + b + 2 * n + 4) * (a + b + 2 * n + 5) * (a + b + 2 * n + 6) * (a + b + 2 * n + 7) * (a + b + 2 * n + 8) * (a + b + 2 * n + 10) * Real.Gamma (a + n + 2) * Real.Gamma (b + n + 2))),
     (3, .expr fun n => 2^(-a - b + 5) * (a - b) * (a^2 - 5 * a * b - 3 * a * n - 12 * a + b^2 - 3 * b * n - 12 * b - 3 * n^2 - 24 * n - 43) * Real.Gamma (n + 4) * Real.Gamma (a + b + n + 5)/((a + b + 2 * n + 4) * (a + b + 2 * n + 5) * (a + b + 2 * n + 6) * (a + b + 2 * n + 8) * (a + b + 2 * n + 10) * (a + b + 2 * n + 11) * (a + b + 2 * n + 12) * Real.Gamma (a + n + 4) * Real.Gamma (b + n + 4))),
     (5, .expr fun n => 2^(-a - b + 5) * (a - b) * (-a^2 + 5 * a * b + 3 * a * n + 15 * a - b^2 + 3 * b * n + 15 * b + 3 * n^2 + 30 * n + 70) * Real.Gamma (n + 6) * Real.Gamma (a + b + n + 5)/((a + b + 2 * n + 6) * (a + b + 2 * n + 7) * (a + b + 2 * n + 8) * (a + b + 2 * n + 10) * (a + b + 2 * n + 12) * (a + b + 2 * n + 13) * (a + b + 2 * n + 14) * Real.Gamma (a + n + 5) * Real.Gamma (b + n + 5))),
     (7, .expr fun n => -2^(-a - b + 5) * (a - b) * Real.Gamma (n + 8) * Real.Gamma (a + b + n + 5)/((a + b + 2 * n + 8) * (a + b + 2 * n + 10) * (a + b + 2 * n + 11) * (a + b + 2 * n + 12) * (a + b + 2 * n + 13) * (a + b + 2 * n + 14) * (a + b + 2 * n + 16) * Real.Gamma (a + n + 5) * Real.Gamma (b + n + 5)))]
  else []

end JacStencil

end Shenfun
