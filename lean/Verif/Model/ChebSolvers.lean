import Verif.Model.ChebMatrices
import Verif.Model.Py

/-!
# Dedicated Chebyshev solvers, `/repo/shenfun/chebyshev/la.py` and its compiled kernels

One line of a multidimensional array along the solved axis is modelled; the compiled kernels loop over the other indices
and treat the lines independently (the one exception, the shared array `A_0` of the numba factorisation, is modelled by
`luHelmholtzManyNumba`).  Right-hand sides are real: all matrix entries and scales are real, so real and imaginary part of
a complex right-hand side are processed independently by the same operations.
-/

namespace Shenfun

/-- Lookup of a stored diagonal, `A[key]`, `/repo/shenfun/matrixbase.py:182-186`.  A missing key (KeyError) is not
represented. -/
def DMat.at (d : DMat) (key : ℤ) : ℕ → ℝ :=
  match d.find? fun e => e.1 == key with
  | some e => e.2.get
  | none => fun _ => 0

namespace ChebLA

variable {K : Type*} [Field K]

/-- State of a backward substitution with running sums over the even and the odd unknowns
(`se`, `so`, `us` of `/repo/shenfun/chebyshev/la.py:44-63`). -/
structure Sweep (K : Type*) where
  se : K
  so : K
  u : ℕ → K

/-- Loop body of `Poisson_Solve_ADD`, `/repo/shenfun/chebyshev/la.py:55-62`
(`/repo/shenfun/optimization/numba/helmholtz.py:405-412`, `/repo/shenfun/optimization/cython/la.pyx:693-702`).  `inplace`
is true when `u is b`: then `b[k]` is read from the array that is being overwritten. -/
def addStep (N : ℕ) (d d1 b : ℕ → K) (inplace : Bool) (q : ℕ) (s : Sweep K) : Sweep K :=
  let k := N - 3 - q
  let bk := if inplace then s.u k else b k
  if k % 2 = 0 then
    let se := s.se + s.u (k+2)
    ⟨se, s.so, Function.update s.u k ((bk - d1 k * se) / d k)⟩
  else
    let so := s.so + s.u (k+2)
    ⟨s.se, so, Function.update s.u k ((bk - d1 k * so) / d k)⟩

/-- The two last unknowns, `/repo/shenfun/chebyshev/la.py:53-54`. -/
def addStart (N : ℕ) (d b : ℕ → K) (inplace : Bool) (u : ℕ → K) : ℕ → K :=
  let u := Function.update u (N-1) ((if inplace then u (N-1) else b (N-1)) / d (N-1))
  Function.update u (N-2) ((if inplace then u (N-2) else b (N-2)) / d (N-2))

/-- `steps` iterations of the loop of `Poisson_Solve_ADD` after the first two assignments. -/
def addSweep (N : ℕ) (d d1 b : ℕ → K) (inplace : Bool) (u : ℕ → K) (steps : ℕ) : Sweep K :=
  forN (addStep N d d1 b inplace) ⟨0, 0, addStart N d b inplace u⟩ steps

/-- `Poisson_Solve_ADD`, `/repo/shenfun/chebyshev/la.py:26-71`; `N` is the number of unknowns `us.shape[0]`, `d = A[0]`,
`d1 = A[2]`.  The boundary values set afterwards live outside the `N` unknowns (see C58). -/
def poissonADD (N : ℕ) (d d1 : ℕ → K) (scale : K) (b : ℕ → K) (inplace : Bool) (u : ℕ → K) : ℕ → K :=
  fun k => (addSweep N d d1 b inplace u (N-2)).u k / scale

/-- Compiled `Poisson_Solve_ADD_1D`, `/repo/shenfun/optimization/numba/helmholtz.py:399-417` and
`/repo/shenfun/optimization/cython/la.pyx:680-706`: the division by the scale is left out when the scale is near 1. -/
noncomputable def poissonADDCompiled (N : ℕ) (d d1 : ℕ → ℝ) (scale : ℝ) (b : ℕ → ℝ) (inplace : Bool) (u : ℕ → ℝ) : ℕ → ℝ :=
  let w := (addSweep N d d1 b inplace u (N-2)).u
  open Classical in
  if ¬ |scale - 1| < 1e-8 then fun k => if k < N then w k / scale else w k else w

/-- `ADDSolver.solve`, `/repo/shenfun/chebyshev/la.py:17-21`: copy `b` into `u` unless they are the same array, then
solve.  (The dispatch to a compiled kernel by `runtimeoptimizer` is `poissonADDCompiled`.) -/
def addSolverSolve (N : ℕ) (d d1 : ℕ → K) (scale : K) (b u : ℕ → K) (inplace : Bool) : ℕ → K :=
  let u := if inplace then u else b
  poissonADD N d d1 scale b inplace u

/-- The weights `1/k²` (1 for `k = 0`), `/repo/shenfun/chebyshev/la.py:94-96`. -/
def j2 (k : ℕ) : K := if k = 0 then 1 else 1 / (k:K) ^ 2

/-- `ANNSolver.__call__`, `/repo/shenfun/chebyshev/la.py:76-128`, for one line, with the constraints `(index, value)`
assigned at the end; `n` unknowns, `A0 = A[0]`, `A2 = A[2]`. -/
def annSolve (n : ℕ) (A0 A2 : ℕ → K) (scale : K) (constraints : List (ℕ × K)) (b : ℕ → K) (inplace : Bool) (u : ℕ → K) :
    ℕ → K :=
  let d : ℕ → K := fun k => A0 k * j2 k
  let d1 : ℕ → K := fun k => A2 k * j2 (k+2)
  let us := (addSweep n d d1 b inplace u (n-3)).u
  let us : ℕ → K := fun k => if k < n then us k * j2 k else us k
  let us : ℕ → K := fun k => us k / scale
  constraints.foldl (fun us con => Function.update us con.1 con.2) us

/-! ## Helmholtz -/

/-- The diagonals handed to the factorisation: `A_0, A_2, A_4, B_m2, B_0, B_2`. -/
structure HelmDiags (K : Type*) where
  A0 : ℕ → K
  A2 : ℕ → K
  A4 : ℕ → K
  Bm2 : ℕ → K
  B0 : ℕ → K
  B2 : ℕ → K

/-- `preLU`, `/repo/shenfun/optimization/numba/helmholtz.py:32-66`. -/
def preLU (neumann : Bool) (m : HelmDiags K) : HelmDiags K :=
  if neumann then
    { B0 := fun k => m.B0 k * j2 k
      A0 := fun k => m.A0 k * (if k = 0 then 0 else j2 k)
      A2 := fun k => m.A2 k * j2 (k+2)
      B2 := fun k => m.B2 k * j2 (k+2)
      A4 := fun k => m.A4 k * j2 (k+4)
      Bm2 := fun k => m.Bm2 k * j2 k }
  else m

/-- The arrays `d0, d1, d2, L` of the factorisation. -/
structure HelmLU (K : Type*) where
  d0 : ℕ → K
  d1 : ℕ → K
  d2 : ℕ → K
  L : ℕ → K

/-- Loop body of `LU_Helmholtz_1D`, `/repo/shenfun/optimization/numba/helmholtz.py:82-88`,
`/repo/shenfun/optimization/cython/la.pyx:757-763`. -/
def luHelmholtzStep (N : ℕ) (m : HelmDiags K) (α β : K) (k : ℕ) (s : HelmLU K) : HelmLU K :=
  let i := k + 2
  let L := Function.update s.L (i-2) (β * m.Bm2 (i-2) / s.d0 (i-2))
  let d0 := Function.update s.d0 i (α * m.A0 i + β * m.B0 i - L (i-2) * s.d1 (i-2))
  let d1 := if i < N-2 then Function.update s.d1 i (α * m.A2 i + β * m.B2 i - L (i-2) * s.d2 (i-2)) else s.d1
  let d2 := if i < N-4 then Function.update s.d2 i (α * m.A4 i - L (i-2) * s.d2 (i-2)) else s.d2
  ⟨d0, d1, d2, L⟩

/-- `LU_Helmholtz_1D` from the first assignment to `d0` on, `/repo/shenfun/optimization/numba/helmholtz.py:76-88`,
`/repo/shenfun/optimization/cython/la.pyx:751-763`; the arrays start as zeros (`/repo/shenfun/chebyshev/la.py:276-279`). -/
def luHelmholtzCore (N : ℕ) (m : HelmDiags K) (α β : K) : HelmLU K :=
  let d0 := Function.update (Function.update (fun _ => 0) 0 (α * m.A0 0 + β * m.B0 0)) 1 (α * m.A0 1 + β * m.B0 1)
  let d1 := Function.update (Function.update (fun _ => 0) 0 (α * m.A2 0 + β * m.B2 0)) 1 (α * m.A2 1 + β * m.B2 1)
  let d2 := Function.update (Function.update (fun _ => 0) 0 (α * m.A4 0)) 1 (α * m.A4 1)
  forN (luHelmholtzStep N m α β) ⟨d0, d1, d2, fun _ => 0⟩ (N-2)

open Classical in
/-- The change of `A_0[0]` for a vanishing mass coefficient, `/repo/shenfun/optimization/numba/helmholtz.py:71-73`. -/
noncomputable def numbaFix (neumann : Bool) (α β : ℝ) (m : HelmDiags ℝ) : HelmDiags ℝ :=
  if neumann = true ∧ |β| < 1e-8 then { m with A0 := Function.update m.A0 0 (1/α) } else m

/-- `LU_Helmholtz` of the numba module for one pair of scales, `/repo/shenfun/optimization/numba/helmholtz.py:10-16,
68-88`. -/
noncomputable def luHelmholtzNumba (N : ℕ) (m : HelmDiags ℝ) (neumann : Bool) (α β : ℝ) : HelmLU ℝ :=
  luHelmholtzCore N (numbaFix neumann α β (preLU neumann m)) α β

/-- `LU_Helmholtz_2D`, `LU_Helmholtz_3D`, `/repo/shenfun/optimization/numba/helmholtz.py:90-158`: the loop over the lines.
`preLU` is called once, and `A_0` is passed by reference: an assignment to `A_0[0]` made for one line is seen by the
following ones. -/
noncomputable def luHelmholtzManyNumba (N : ℕ) (m : HelmDiags ℝ) (neumann : Bool) (scales : List (ℝ × ℝ)) : List (HelmLU ℝ) :=
  (scales.foldl (fun (st : HelmDiags ℝ × List (HelmLU ℝ)) αβ =>
    let m' := numbaFix neumann αβ.1 αβ.2 st.1
    (m', st.2 ++ [luHelmholtzCore N m' αβ.1 αβ.2])) (preLU neumann m, [])).2

open Classical in
/-- Preparation of the diagonals inside the Cython `LU_Helmholtz_1D` (fresh copies for every line),
`/repo/shenfun/optimization/cython/la.pyx:726-749`. -/
noncomputable def cythonPrep (neumann : Bool) (α β : ℝ) (m : HelmDiags ℝ) : HelmDiags ℝ :=
  if neumann then
    let A0 := if |β| < 1e-8 then Function.update m.A0 0 (1/α) else m.A0
    let B0 := if |β| < 1e-8 then Function.update m.B0 0 0 else m.B0
    { A0 := fun i => if 1 ≤ i then A0 i / (i:ℝ) ^ 2 else A0 i
      B0 := fun i => if 1 ≤ i then B0 i / (i:ℝ) ^ 2 else B0 i
      A2 := fun i => m.A2 i / ((i + 2 : ℕ):ℝ) ^ 2
      B2 := fun i => m.B2 i / ((i + 2 : ℕ):ℝ) ^ 2
      A4 := fun i => m.A4 i / ((i + 4 : ℕ):ℝ) ^ 2
      Bm2 := fun i => if 1 ≤ i then m.Bm2 i / (i:ℝ) ^ 2 else m.Bm2 i }
  else m

/-- Cython `LU_Helmholtz_1D`, `/repo/shenfun/optimization/cython/la.pyx:717-763`. -/
noncomputable def luHelmholtzCython (N : ℕ) (m : HelmDiags ℝ) (neumann : Bool) (α β : ℝ) : HelmLU ℝ :=
  luHelmholtzCore N (cythonPrep neumann α β m) α β

/-- The forward substitution of `Solve_Helmholtz_1D`, `/repo/shenfun/optimization/numba/helmholtz.py:166-169`. -/
def helmForward (N : ℕ) (L b : ℕ → K) : ℕ → K :=
  forN (fun k y => let i := k + 2; Function.update y i (b i - L (i-2) * y (i-2)))
    (Function.update (Function.update (fun _ => 0) 0 (b 0)) 1 (b 1)) (N-2)

/-- Loop body of the back substitution, `/repo/shenfun/optimization/numba/helmholtz.py:175-183`,
`/repo/shenfun/optimization/cython/la.pyx:890-899`. -/
def helmBackStep (N : ℕ) (f : HelmLU K) (y : ℕ → K) (q : ℕ) (s : Sweep K) : Sweep K :=
  let i := N - 5 - q
  let v := y i - f.d1 i * s.u (i+2)
  if i % 2 = 0 then
    let se := s.se + s.u (i+4)
    ⟨se, s.so, Function.update s.u i ((v - f.d2 i * se) / f.d0 i)⟩
  else
    let so := s.so + s.u (i+4)
    ⟨s.se, so, Function.update s.u i ((v - f.d2 i * so) / f.d0 i)⟩

/-- `Solve_Helmholtz_1D` up to the Neumann part, `/repo/shenfun/optimization/numba/helmholtz.py:160-183`,
`/repo/shenfun/optimization/cython/la.pyx:862-899`; `N` unknowns. -/
def solveHelmholtzCore (N : ℕ) (f : HelmLU K) (b u : ℕ → K) : ℕ → K :=
  let y := helmForward N f.L b
  let u := Function.update u (N-1) (y (N-1) / f.d0 (N-1))
  let u := Function.update u (N-2) (y (N-2) / f.d0 (N-2))
  let u := Function.update u (N-3) ((y (N-3) - f.d1 (N-3) * u (N-1)) / f.d0 (N-3))
  let u := Function.update u (N-4) ((y (N-4) - f.d1 (N-4) * u (N-2)) / f.d0 (N-4))
  (forN (helmBackStep N f y) ⟨0, 0, u⟩ (N-4)).u

open Classical in
/-- `Solve_Helmholtz_1D`, `/repo/shenfun/optimization/numba/helmholtz.py:160-189`,
`/repo/shenfun/optimization/cython/la.pyx:862-906`. -/
noncomputable def solveHelmholtz (N : ℕ) (neumann : Bool) (f : HelmLU ℝ) (b u : ℕ → ℝ) : ℕ → ℝ :=
  let u := solveHelmholtzCore N f b u
  if neumann then
    let u := if (f.d0 0 - 1) * (f.d0 0 - 1) < 1e-16 then Function.update u 0 0 else u
    fun i => if 1 ≤ i ∧ i < N then u i / ((i:ℝ) * i) else u i
  else u

/-- The diagonals `Helmholtz` takes from a stiffness and a mass matrix, `/repo/shenfun/chebyshev/la.py:258-261`,
`/repo/shenfun/optimization/numba/helmholtz.py:33-38`. -/
noncomputable def helmDiags (A B : DMat) : HelmDiags ℝ := ⟨A.at 0, A.at 2, A.at 4, B.at (-2), B.at 0, B.at 2⟩

end ChebLA

end Shenfun
