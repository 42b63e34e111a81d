import Verif.Model.ChebSolvers

/-!
# The dedicated Chebyshev biharmonic solver

`/repo/shenfun/chebyshev/la.py:354-558`, `/repo/shenfun/optimization/numba/biharmonic.py`,
`/repo/shenfun/optimization/cython/la.pyx:973-1300`.  One line of a multidimensional array along the solved axis (the kernels
loop over the other indices and treat the lines independently).  Even and odd unknowns are separate systems; `odd` is the
parity.  Division by zero is not represented (`x/0 = 0`); the theorems say when it occurs.
-/

namespace Shenfun

namespace ChebLA

open Real

/-- The diagonals handed to the factorisation, `/repo/shenfun/chebyshev/la.py:489-491`. -/
structure BiDiags where
  sii : ℕ → ℝ
  siu : ℕ → ℝ
  siuu : ℕ → ℝ
  ail : ℕ → ℝ
  aii : ℕ → ℝ
  aiu : ℕ → ℝ
  bill : ℕ → ℝ
  bil : ℕ → ℝ
  bii : ℕ → ℝ
  biu : ℕ → ℝ
  biuu : ℕ → ℝ

/-- The diagonals read from three matrices, `/repo/shenfun/chebyshev/la.py:489-491`; `sS`, `sA`, `sB` are the factors
incorporated in the entries (`incorporate_scale`, `/repo/shenfun/matrixbase.py:396-405, 692-696`: powers of the domain
factor). -/
noncomputable def biDiags (S A B : DMat) (sS sA sB : ℝ) : BiDiags where
  sii := fun i => sS * S.at 0 i
  siu := fun i => sS * S.at 2 i
  siuu := fun i => sS * S.at 4 i
  ail := fun i => sA * A.at (-2) i
  aii := fun i => sA * A.at 0 i
  aiu := fun i => sA * A.at 2 i
  bill := fun i => sB * B.at (-4) i
  bil := fun i => sB * B.at (-2) i
  bii := fun i => sB * B.at 0 i
  biu := fun i => sB * B.at 2 i
  biuu := fun i => sB * B.at 4 i

/-- `sii[::2]`, `sii[1::2]`, `/repo/shenfun/optimization/numba/biharmonic.py:83-88`. -/
def BiDiags.half (m : BiDiags) (odd : ℕ) : BiDiags :=
  ⟨fun i => m.sii (2 * i + odd), fun i => m.siu (2 * i + odd), fun i => m.siuu (2 * i + odd), fun i => m.ail (2 * i + odd),
    fun i => m.aii (2 * i + odd), fun i => m.aiu (2 * i + odd), fun i => m.bill (2 * i + odd), fun i => m.bil (2 * i + odd),
    fun i => m.bii (2 * i + odd), fun i => m.biu (2 * i + odd), fun i => m.biuu (2 * i + odd)⟩

/-- `m*a*np.pi/(j+3.)` with `m = 8*(k+1)*(k+2)*(k*(k+4)+3*(j+2)*(j+2))`, `j = 2*i+odd`,
`/repo/shenfun/optimization/numba/biharmonic.py:135-142, 174-178`. -/
noncomputable def biFar (odd : ℕ) (a : ℝ) (k i : ℕ) : ℝ :=
  let j := 2 * i + odd
  (8 * ((k:ℝ) + 1) * (k + 2) * (k * (k + 4) + 3 * (j + 2) * (j + 2))) * a * π / (j + 3)

/-- Local rows and result arrays of the factorisation of one parity class. -/
structure BiLU where
  c0 : ℕ → ℝ
  c1 : ℕ → ℝ
  c2 : ℕ → ℝ
  u0 : ℕ → ℝ
  u1 : ℕ → ℝ
  u2 : ℕ → ℝ
  l0 : ℕ → ℝ
  l1 : ℕ → ℝ

/-- `LU_oe_Biharmonic_1D` before the loop, `/repo/shenfun/optimization/numba/biharmonic.py:103-149`.  (Entries 3 and 4 of the
first row and entry 4 of the second are given by the formula of the loop, with `j` substituted.)  At least five unknowns are
needed for the assignments to be within bounds. -/
noncomputable def biInit (odd M : ℕ) (a b c : ℝ) (m : BiDiags) : BiLU :=
  let c0 : ℕ → ℝ := fun i =>
    if i = 0 then a * m.sii 0 + b * m.aii 0 + c * m.bii 0
    else if i = 1 then a * m.siu 0 + b * m.aiu 0 + c * m.biu 0
    else if i = 2 then a * m.siuu 0 + c * m.biuu 0
    else if i < M then biFar odd a odd i else 0
  let c1 : ℕ → ℝ := fun i =>
    if i = 0 then b * m.ail 0 + c * m.bil 0
    else if i = 1 then a * m.sii 1 + b * m.aii 1 + c * m.bii 1
    else if i = 2 then a * m.siu 1 + b * m.aiu 1 + c * m.biu 1
    else if i = 3 then a * m.siuu 1 + c * m.biuu 1
    else if i < M then biFar odd a (odd + 2) i else 0
  let c2 : ℕ → ℝ := fun i =>
    if i = 0 then c * m.bill 0
    else if i = 1 then b * m.ail 1 + c * m.bil 1
    else if i = 2 then a * m.sii 2 + b * m.aii 2 + c * m.bii 2
    else if i = 3 then a * m.siu 2 + b * m.aiu 2 + c * m.biu 2
    else if i = 4 then a * m.siuu 2 + c * m.biuu 2
    else if i < M then biFar odd a (odd + 4) i else 0
  ⟨c0, c1, c2, Function.update (fun _ => 0) 0 (c0 0), Function.update (fun _ => 0) 0 (c0 1),
    Function.update (fun _ => 0) 0 (c0 2), fun _ => 0, fun _ => 0⟩

/-- Loop body with `kk = q + 1`, `/repo/shenfun/optimization/numba/biharmonic.py:150-186`,
`/repo/shenfun/optimization/cython/la.pyx:1084-1122`. -/
noncomputable def biStep (odd M : ℕ) (a b c : ℝ) (m : BiDiags) (q : ℕ) (s : BiLU) : BiLU :=
  let kk := q + 1
  let l0 := Function.update s.l0 (kk-1) (s.c1 (kk-1) / s.u0 (kk-1))
  let l1 := if kk < M - 1 then Function.update s.l1 (kk-1) (s.c2 (kk-1) / s.u0 (kk-1)) else s.l1
  let c1 : ℕ → ℝ := fun i => if kk ≤ i ∧ i < M then s.c1 i - l0 (kk-1) * s.c0 i else s.c1 i
  let c2 : ℕ → ℝ := if kk < M - 1 then fun i => if kk ≤ i ∧ i < M then s.c2 i - l1 (kk-1) * s.c0 i else s.c2 i else s.c2
  let c0 : ℕ → ℝ := fun i => if kk ≤ i ∧ i < M then c1 i else s.c0 i
  let c1 : ℕ → ℝ := fun i => if kk ≤ i ∧ i < M then c2 i else c1 i
  let c2 : ℕ → ℝ := if kk < M - 2 then fun i =>
      if i = kk then c * m.bill kk
      else if i = kk + 1 then b * m.ail (kk+1) + c * m.bil (kk+1)
      else if i = kk + 2 then a * m.sii (kk+2) + b * m.aii (kk+2) + c * m.bii (kk+2)
      else if kk < M - 3 ∧ i = kk + 3 then a * m.siu (kk+2) + b * m.aiu (kk+2) + c * m.biu (kk+2)
      else if kk < M - 4 ∧ i = kk + 4 then a * m.siuu (kk+2) + c * m.biuu (kk+2)
      else if kk < M - 5 ∧ kk + 5 ≤ i ∧ i < M then biFar odd a (2 * (kk + 2) + odd) i
      else c2 i
    else c2
  let u0 := Function.update s.u0 kk (c0 kk)
  let u1 := if kk < M - 1 then Function.update s.u1 kk (c0 (kk+1)) else s.u1
  let u2 := if kk < M - 2 then Function.update s.u2 kk (c0 (kk+2)) else s.u2
  ⟨c0, c1, c2, u0, u1, u2, l0, l1⟩

/-- `LU_oe_Biharmonic_1D`, `/repo/shenfun/optimization/numba/biharmonic.py:91-186`; `m` are the diagonals of the parity class,
`M = sii.shape[0]`; the result arrays start as zeros (`/repo/shenfun/chebyshev/la.py:496-500`). -/
noncomputable def luBiharmonic (odd M : ℕ) (a b c : ℝ) (m : BiDiags) : BiLU :=
  forN (biStep odd M a b c m) (biInit odd M a b c m) (M - 1)

/-- Loop of `Biharmonic_factor_oe_pr`, `/repo/shenfun/optimization/numba/biharmonic.py:233-248`, for one of the two arrays;
`Ml = l0.shape[0]`, `p kk` the term without factors. -/
noncomputable def biFactor (odd Ml : ℕ) (p : ℕ → ℝ) (l0 l1 : ℕ → ℝ) : ℕ → ℝ :=
  let a := Function.update (fun _ => (0:ℝ)) 0 (p odd * π)
  let a := Function.update a 1 (p (2 + odd) * π - l0 0 * a 0)
  forN (fun t a => let k := t + 2
    Function.update a k (p (2 * k + odd) * π - l0 (k-1) * a (k-1) - l1 (k-2) * a (k-2))) a (Ml + 1 - 3 - 2)

/-- `pp` of `/repo/shenfun/optimization/numba/biharmonic.py:236, 239, 243`. -/
def biP (k : ℕ) : ℝ := 8 * (k:ℝ) * (k + 1) * (k + 2) * (k + 4)

/-- `rr` of `/repo/shenfun/optimization/numba/biharmonic.py:237, 240, 244`. -/
def biR (k : ℕ) : ℝ := 24 * ((k:ℝ) + 1) * (k + 2)

/-- `ForwardBsolve_L`, `/repo/shenfun/optimization/numba/biharmonic.py:295-302`; `Ml = l0.shape[0]`. -/
noncomputable def biForward (Ml : ℕ) (l0 l1 f : ℕ → ℝ) : ℕ → ℝ :=
  let y := Function.update (fun _ => (0:ℝ)) 0 (f 0)
  let y := Function.update y 1 (f 1 - l0 0 * y 0)
  forN (fun t y => let i := t + 2
    Function.update y i (f i - l0 (i-1) * y (i-1) - l1 (i-2) * y (i-2))) y (Ml - 2)

/-- State of the loop of `BackBsolve_U`. -/
structure BiSweep where
  s1 : ℝ
  s2 : ℝ
  u : ℕ → ℝ

/-- Loop body of `BackBsolve_U`, `/repo/shenfun/optimization/numba/biharmonic.py:277-282`. -/
noncomputable def biBackStep (M odd : ℕ) (f : ℕ → ℝ) (lu : BiLU) (a b : ℕ → ℝ) (ac : ℝ) (q : ℕ) (s : BiSweep) : BiSweep :=
  let kk := M - 4 - q
  let j := 2 * kk + odd + 6
  let s1 := s.s1 + s.u (kk+3) / ((j:ℝ) + 3)
  let s2 := s.s2 + s.u (kk+3) / ((j:ℝ) + 3) * (((j:ℝ) + 2) * (j + 2))
  ⟨s1, s2, Function.update s.u kk
    ((f kk - lu.u1 kk * s.u (kk+1) - lu.u2 kk * s.u (kk+2) - a kk * ac * s1 - b kk * ac * s2) / lu.u0 kk)⟩

/-- `BackBsolve_U`, `/repo/shenfun/optimization/numba/biharmonic.py:268-282`. -/
noncomputable def biBack (M odd : ℕ) (f u : ℕ → ℝ) (lu : BiLU) (a b : ℕ → ℝ) (ac : ℝ) : ℕ → ℝ :=
  let u := Function.update u (M-1) (f (M-1) / lu.u0 (M-1))
  let u := Function.update u (M-2) ((f (M-2) - lu.u1 (M-2) * u (M-1)) / lu.u0 (M-2))
  let u := Function.update u (M-3) ((f (M-3) - lu.u1 (M-3) * u (M-2) - lu.u2 (M-3) * u (M-1)) / lu.u0 (M-3))
  (forN (biBackStep M odd f lu a b ac) ⟨0, 0, u⟩ (M - 3)).u

/-- `Solve_oe_Biharmonic_1D` with the arrays of `Biharmonic_factor_pr`,
`/repo/shenfun/optimization/numba/biharmonic.py:228-248, 284-293`; `Mu = u0.shape[0]` is the number of *even* unknowns for both
parity classes (`/repo/shenfun/chebyshev/la.py:492-500`). -/
noncomputable def biSolveHalf (Mu odd : ℕ) (lu : BiLU) (ac : ℝ) (f u : ℕ → ℝ) : ℕ → ℝ :=
  biBack Mu odd (biForward Mu lu.l0 lu.l1 f) u lu (biFactor odd Mu biP lu.l0 lu.l1) (biFactor odd Mu biR lu.l0 lu.l1) ac

/-- The factorisation of one parity class by the constructor of `Biharmonic`, `/repo/shenfun/chebyshev/la.py:489-506`:
`n = S[0].shape[0]` unknowns. -/
noncomputable def biFactorise (n : ℕ) (a0 α β : ℝ) (m : BiDiags) (odd : ℕ) : BiLU :=
  luBiharmonic odd ((n + 1 - odd) / 2) a0 α β (m.half odd)

/-- `Biharmonic(S, A, B)` and `__call__`, `/repo/shenfun/chebyshev/la.py:444-548` (without boundary matrices),
`Solve_Biharmonic_1D`, `/repo/shenfun/optimization/numba/biharmonic.py:263-266`: `n` unknowns. -/
noncomputable def biharmonicSolve (n : ℕ) (a0 α β : ℝ) (m : BiDiags) (b u : ℕ → ℝ) : ℕ → ℝ :=
  let Mu := (n + 1) / 2
  let half (odd : ℕ) : ℕ → ℝ :=
    biSolveHalf Mu odd (biFactorise n a0 α β m odd) a0 (fun i => b (2 * i + odd)) (fun i => u (2 * i + odd))
  fun i => half (i % 2) (i / 2)

end ChebLA

end Shenfun
