import Verif.Model.SolverObj

/-!
# The compiled banded solvers, `/repo/shenfun/optimization/cython/la.pyx`

Used for `config['optimization']['mode'] == 'cython'`, the default (`/repo/shenfun/config.py:13`).  The kernels work on raw
pointers without bounds checks: `u` is a pointer `p` into memory `ℤ → K` together with a stride `st` (in items), `data` is
the flat row-major storage of the `m0 × m1` array, `data[r, c] = dat (r * m1 + c)`.  An index outside the array reads or
writes neighbouring memory.  Exact arithmetic; the `double`/`complex` specialisations are one field `K`.
-/

namespace Shenfun

namespace Cy

variable {K : Type*} [Field K]

/-- Memory. -/
abbrev Mem (K : Type*) := ℤ → K

/-- `u[i*st]` for `T* u` pointing at address `p`. -/
def rd (p st : ℤ) (m : Mem K) (i : ℤ) : K := m (p + i * st)

/-- `u[i*st] = v`. -/
def wr (p st : ℤ) (m : Mem K) (i : ℤ) (v : K) : Mem K := Function.update m (p + i * st) v

/-- `TDMA_inner_solve_ptr`, `/repo/shenfun/optimization/cython/la.pyx:519-532`. -/
def tdma (dat : ℤ → K) (m1 : ℕ) (p st : ℤ) (m : Mem K) : Mem K :=
  let n : ℤ := m1
  let ld := fun i : ℤ => dat i
  let d := fun i : ℤ => dat (n + i)
  let ud := fun i : ℤ => dat (n * 2 + 2 + i)
  let m := forN (fun q m => let i : ℤ := 2 + q
    wr p st m i (rd p st m i - ld (i-2) * rd p st m (i-2))) m (m1-2)
  let m := wr p st m (n-1) (rd p st m (n-1) / d (n-1))
  let m := wr p st m (n-2) (rd p st m (n-2) / d (n-2))
  forN (fun q m => let i : ℤ := n - 3 - q
    wr p st m i ((rd p st m i - ud i * rd p st m (i+2)) / d i)) m (m1-2)

/-- `TDMA_O_inner_solve_ptr`, `/repo/shenfun/optimization/cython/la.pyx:537-549`. -/
def tdmaO (dat : ℤ → K) (m1 : ℕ) (p st : ℤ) (m : Mem K) : Mem K :=
  let n : ℤ := m1
  let ld := fun i : ℤ => dat i
  let d := fun i : ℤ => dat (n + i)
  let ud := fun i : ℤ => dat (2 * n + 1 + i)
  let m := forN (fun q m => let i : ℤ := 1 + q
    wr p st m i (rd p st m i - ld (i-1) * rd p st m (i-1))) m (m1-1)
  let m := wr p st m (n-1) (rd p st m (n-1) / d (n-1))
  forN (fun q m => let i : ℤ := n - 2 - q
    wr p st m i ((rd p st m i - ud i * rd p st m (i+1)) / d i)) m (m1-1)

/-- `PDMA_inner_solve_ptr`, `/repo/shenfun/optimization/cython/la.pyx:495-514`. -/
def pdma (dat : ℤ → K) (m1 : ℕ) (p st : ℤ) (m : Mem K) : Mem K :=
  let n : ℤ := m1
  let a := fun i : ℤ => dat i
  let b := fun i : ℤ => dat (n + i)
  let d := fun i : ℤ => dat (2 * n + i)
  let e := fun i : ℤ => dat (3 * n + 2 + i)
  let f := fun i : ℤ => dat (4 * n + 4 + i)
  let m := wr p st m 2 (rd p st m 2 - b 0 * rd p st m 0)
  let m := wr p st m 3 (rd p st m 3 - b 1 * rd p st m 1)
  let m := forN (fun q m => let k : ℤ := 4 + q
    wr p st m k (rd p st m k - (b (k-2) * rd p st m (k-2) + a (k-4) * rd p st m (k-4)))) m (m1-4)
  let m := wr p st m (n-1) (rd p st m (n-1) / d (n-1))
  let m := wr p st m (n-2) (rd p st m (n-2) / d (n-2))
  let m := wr p st m (n-3) ((rd p st m (n-3) - e (n-3) * rd p st m (n-1)) / d (n-3))
  let m := wr p st m (n-4) ((rd p st m (n-4) - e (n-4) * rd p st m (n-2)) / d (n-4))
  forN (fun q m => let k : ℤ := n - 5 - q
    wr p st m k ((rd p st m k - e k * rd p st m (k+2) - f k * rd p st m (k+4)) / d k)) m (m1-4)

/-- `FDMA_inner_solve_ptr`, `/repo/shenfun/optimization/cython/la.pyx:595-611`. -/
def fdma (dat : ℤ → K) (m1 : ℕ) (p st : ℤ) (m : Mem K) : Mem K :=
  let n : ℤ := m1
  let ld := fun i : ℤ => dat i
  let d := fun i : ℤ => dat (n + i)
  let u1 := fun i : ℤ => dat (2 * n + 2 + i)
  let u2 := fun i : ℤ => dat (3 * n + 4 + i)
  let m := forN (fun q m => let i : ℤ := 2 + q
    wr p st m i (rd p st m i - ld (i-2) * rd p st m (i-2))) m (m1-2)
  let m := wr p st m (n-1) (rd p st m (n-1) / d (n-1))
  let m := wr p st m (n-2) (rd p st m (n-2) / d (n-2))
  let m := wr p st m (n-3) ((rd p st m (n-3) - u1 (n-3) * rd p st m (n-1)) / d (n-3))
  let m := wr p st m (n-4) ((rd p st m (n-4) - u1 (n-4) * rd p st m (n-2)) / d (n-4))
  forN (fun q m => let i : ℤ := n - 5 - q
    wr p st m i ((rd p st m i - u1 i * rd p st m (i+2) - u2 i * rd p st m (i+4)) / d i)) m (m1-4)

/-- `TwoDMA_inner_solve_ptr`, `/repo/shenfun/optimization/cython/la.pyx:554-562`. -/
def twodma (dat : ℤ → K) (m1 : ℕ) (p st : ℤ) (m : Mem K) : Mem K :=
  let n : ℤ := m1
  let d := fun i : ℤ => dat i
  let u1 := fun i : ℤ => dat (n + 2 + i)
  let m := wr p st m (n-1) (rd p st m (n-1) / d (n-1))
  let m := wr p st m (n-2) (rd p st m (n-2) / d (n-2))
  forN (fun q m => let i : ℤ := n - 3 - q
    wr p st m i ((rd p st m i - u1 i * rd p st m (i+2)) / d i)) m (m1-2)

/-- `ThreeDMA_inner_solve_ptr`, `/repo/shenfun/optimization/cython/la.pyx:568-580`; `u2` points into row 1. -/
def threedma (dat : ℤ → K) (m1 : ℕ) (p st : ℤ) (m : Mem K) : Mem K :=
  let n : ℤ := m1
  let d := fun i : ℤ => dat i
  let u1 := fun i : ℤ => dat (n + 2 + i)
  let u2 := fun i : ℤ => dat (n + 4 + i)
  let m := wr p st m (n-1) (rd p st m (n-1) / d (n-1))
  let m := wr p st m (n-2) (rd p st m (n-2) / d (n-2))
  let m := wr p st m (n-3) ((rd p st m (n-3) - u1 (n-3) * rd p st m (n-1)) / d (n-3))
  let m := wr p st m (n-4) ((rd p st m (n-4) - u1 (n-4) * rd p st m (n-2)) / d (n-4))
  forN (fun q m => let i : ℤ := n - 5 - q
    wr p st m i ((rd p st m i - u1 i * rd p st m (i+2) - u2 i * rd p st m (i+4)) / d i)) m (m1-4)

/-- `HeptaDMA_inner_solve_ptr`, `/repo/shenfun/optimization/cython/la.pyx:465-490`. -/
def heptadma (dat : ℤ → K) (m1 : ℕ) (p st : ℤ) (m : Mem K) : Mem K :=
  let n : ℤ := m1
  let a := fun i : ℤ => dat i
  let b := fun i : ℤ => dat (n + i)
  let d := fun i : ℤ => dat (2 * n + i)
  let e := fun i : ℤ => dat (3 * n + 2 + i)
  let f := fun i : ℤ => dat (4 * n + 4 + i)
  let g := fun i : ℤ => dat (5 * n + 6 + i)
  let h := fun i : ℤ => dat (6 * n + 8 + i)
  let m := wr p st m 2 (rd p st m 2 - b 0 * rd p st m 0)
  let m := wr p st m 3 (rd p st m 3 - b 1 * rd p st m 1)
  let m := forN (fun q m => let k : ℤ := 4 + q
    wr p st m k (rd p st m k - (b (k-2) * rd p st m (k-2) + a (k-4) * rd p st m (k-4)))) m (m1-4)
  let m := wr p st m (n-1) (rd p st m (n-1) / d (n-1))
  let m := wr p st m (n-2) (rd p st m (n-2) / d (n-2))
  let m := wr p st m (n-3) ((rd p st m (n-3) - e (n-3) * rd p st m (n-1)) / d (n-3))
  let m := wr p st m (n-4) ((rd p st m (n-4) - e (n-4) * rd p st m (n-2)) / d (n-4))
  let m := wr p st m (n-5) ((rd p st m (n-5) - e (n-5) * rd p st m (n-3) - f (n-5) * rd p st m (n-1)) / d (n-5))
  let m := wr p st m (n-6) ((rd p st m (n-6) - e (n-6) * rd p st m (n-4) - f (n-6) * rd p st m (n-2)) / d (n-6))
  let m := wr p st m (n-7) ((rd p st m (n-7) - e (n-7) * rd p st m (n-5) - f (n-7) * rd p st m (n-3)
    - g (n-7) * rd p st m (n-1)) / d (n-7))
  let m := wr p st m (n-8) ((rd p st m (n-8) - e (n-8) * rd p st m (n-6) - f (n-8) * rd p st m (n-4)
    - g (n-8) * rd p st m (n-2)) / d (n-8))
  forN (fun q m => let k : ℤ := n - 9 - q
    wr p st m k ((rd p st m k - e k * rd p st m (k+2) - f k * rd p st m (k+4) - g k * rd p st m (k+6)
      - h k * rd p st m (k+8)) / d k)) m (m1-8)

/-- `DiagMA_inner_solve_ptr`, `/repo/shenfun/optimization/cython/la.pyx:585-589`. -/
def diagma (dat : ℤ → K) (m1 : ℕ) (p st : ℤ) (m : Mem K) : Mem K :=
  forN (fun q m => wr p st m q (rd p st m q / dat q)) m m1

/-- A compiled kernel with its data: pointer, stride, memory. -/
abbrev Kernel (K : Type*) := ℤ → ℤ → Mem K → Mem K

/-- `Solve_axis_2D`, `/repo/shenfun/optimization/cython/la.pyx:449-460`, for a C-contiguous array of shape `(s0, s1)` that
begins at address `p`; `sol q st` is the kernel called on the pointer `q` (its `m1` is `data.shape[1]`). -/
def solveAxis2D (s0 s1 : ℕ) (sol : Kernel K) (naxes : ℕ) (p : ℤ) (m : Mem K) : Mem K :=
  if naxes = 0 then forN (fun i m => sol (p + i) s1 m) m s1
  else if naxes = 1 then forN (fun i m => sol (p + i * s1) 1 m) m s0
  else m

/-- `Solve_axis_3D`, `/repo/shenfun/optimization/cython/la.pyx:428-447`. -/
def solveAxis3D (s0 s1 s2 : ℕ) (sol : Kernel K) (naxes : ℕ) (p : ℤ) (m : Mem K) : Mem K :=
  if naxes = 0 then
    forN (fun i m => forN (fun j m => sol (p + (i * s2 + j)) (s1 * s2) m) m s2) m s1
  else if naxes = 1 then
    forN (fun i m => forN (fun j m => sol (p + (i * (s1 * s2) + j)) s2 m) m s2) m s0
  else if naxes = 2 then
    forN (fun i m => forN (fun j m => sol (p + (i * (s1 * s2) + j * s2)) 1 m) m s1) m s0
  else m

/-- `SolverGeneric1ND_solve_2D`, `/repo/shenfun/optimization/cython/la.pyx:411-426`; `sol i` is the kernel with
`data[i]`, `z` is `is_zero_index`. -/
def solveData2D (s0 s1 : ℕ) (z : Bool) (sol : ℕ → Kernel K) (naxes : ℕ) (p : ℤ) (m : Mem K) : Mem K :=
  if naxes = 0 then forN (fun i m => if i = 0 ∧ z = true then m else sol i (p + i) s1 m) m s1
  else if naxes = 1 then forN (fun i m => if i = 0 ∧ z = true then m else sol i (p + i * s1) 1 m) m s0
  else m

/-- `SolverGeneric1ND_solve_3D`, `/repo/shenfun/optimization/cython/la.pyx:385-409`. -/
def solveData3D (s0 s1 s2 : ℕ) (z : Bool) (sol : ℕ → ℕ → Kernel K) (naxes : ℕ) (p : ℤ) (m : Mem K) : Mem K :=
  if naxes = 0 then
    forN (fun i m => forN (fun j m => if i = 0 ∧ j = 0 ∧ z = true then m else
      sol i j (p + (i * s2 + j)) (s1 * s2) m) m s2) m s1
  else if naxes = 1 then
    forN (fun i m => forN (fun j m => if i = 0 ∧ j = 0 ∧ z = true then m else
      sol i j (p + (i * (s1 * s2) + j)) s2 m) m s2) m s0
  else if naxes = 2 then
    forN (fun i m => forN (fun j m => if i = 0 ∧ j = 0 ∧ z = true then m else
      sol i j (p + (i * (s1 * s2) + j * s2)) 1 m) m s1) m s0
  else m

/-- `XXX_Solve(u, data, axis)` of `/repo/shenfun/optimization/cython/la.pyx:29-107, 165-195` for a C-contiguous array with
the given shape: dispatch on the number of dimensions; with four or more dimensions nothing is done. -/
def solve (shape : List ℕ) (sol : Kernel K) (axis : ℕ) (p : ℤ) (m : Mem K) : Mem K :=
  match shape with
  | [_] => sol p 1 m
  | [s0, s1] => solveAxis2D s0 s1 sol axis p m
  | [s0, s1, s2] => solveAxis3D s0 s1 s2 sol axis p m
  | _ => m

/-- `DiagMA_Solve(u, data, axis)`, `/repo/shenfun/optimization/cython/la.pyx:109-146`, for a C-contiguous array
(`np.PyArray_IterAllButAxis` visits the lines along the axis, in the order of the loops used here).  In two and three
dimensions the kernel gets `N = u.shape[axis]`, not the size of the matrix. -/
def diagmaSolve (shape : List ℕ) (dat : ℤ → K) (m1 : ℕ) (axis : ℕ) (p : ℤ) (m : Mem K) : Mem K :=
  match shape with
  | [_] => diagma dat m1 p 1 m
  | [s0, s1] => solveAxis2D s0 s1 (diagma dat (if axis = 0 then s0 else s1)) axis p m
  | [s0, s1, s2] => solveAxis3D s0 s1 s2 (diagma dat (if axis = 0 then s0 else if axis = 1 then s1 else s2)) axis p m
  | _ => m

/-- The compiled kernel chosen for a solver class: the function of `/repo/shenfun/optimization/cython/la.pyx` named
`<class>_inner_solve_ptr` (`/repo/shenfun/optimization/__init__.py:65-69` and `func_from_name`,
`/repo/shenfun/optimization/cython/la.pyx:305-323`).  The compiled `<class>_LU`
(`/repo/shenfun/optimization/cython/la.pyx:199-301`) repeat the statements of the Python `LU` on the same rows of `data`, so they
are `Kind.factor`. -/
def _root_.Shenfun.Kind.kernel : Kind → (ℤ → K) → ℕ → Kernel K
  | .diag => diagma
  | .tdma => tdma
  | .tdmaO => tdmaO
  | .pdma => pdma
  | .fdma => fdma
  | .two => twodma
  | .three => threedma
  | .hepta => heptadma

end Cy

end Shenfun
