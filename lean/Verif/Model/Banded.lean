import Verif.Model.Py

/-!
# The banded direct solvers of `/repo/shenfun/la.py`

`data` is the storage of the scipy `dia_matrix` (`la.py:254`), one row per diagonal, sorted by offset.
A numpy slice such as `ud = data[2, 2:]` is a view, so `ud[i]` is `data 2 (i+2)`; `ld = data[0, :-2]`
gives `ld[i] = data 0 i`.  The numba versions in `/repo/shenfun/optimization/numba/*.py` contain the same
loops.  `n` is `d.shape[0]`.
-/

namespace Shenfun

variable {K : Type*} [Field K]

/-! ## TDMA: diagonals -2, 0, 2 -/

/-- `TDMA.LU`, `/repo/shenfun/la.py:346-353`. -/
def TDMA.lu (n : ℕ) (data : Dia K) : Dia K :=
  forN (fun k D =>
    let i := k + 2
    let D := D.set 0 (i-2) (D 0 (i-2) / D 1 (i-2))
    D.set 1 i (D 1 i - D 0 (i-2) * D 2 (i-2+2))) data (n-2)

/-- `TDMA.inner_solve`, `/repo/shenfun/la.py:373-385`.  `u[n-2]` is taken with Python's negative index
convention, which matters for `n = 1`. -/
def TDMA.innerSolve (n : ℕ) (data : Dia K) (u : ℕ → K) : ℕ → K :=
  let u := forN (fun k u => let i := 2+k; Function.update u i (u i - data 0 (i-2) * u (i-2))) u (n-2)
  let u := Function.update u (pyIdx n ((n:ℤ)-1)) (u (pyIdx n ((n:ℤ)-1)) / data 1 (pyIdx n ((n:ℤ)-1)))
  let u := Function.update u (pyIdx n ((n:ℤ)-2)) (u (pyIdx n ((n:ℤ)-2)) / data 1 (pyIdx n ((n:ℤ)-2)))
  forN (fun k u => let i := n-2-1-k; Function.update u i ((u i - data 2 (i+2) * u (i+2)) / data 1 i)) u (n-2)

/-! ## TDMA_O: diagonals -1, 0, 1 -/

/-- `TDMA_O.LU`, `/repo/shenfun/la.py:418-425`. -/
def TDMAO.lu (n : ℕ) (data : Dia K) : Dia K :=
  forN (fun k D =>
    let i := k + 1
    let D := D.set 0 (i-1) (D 0 (i-1) / D 1 (i-1))
    D.set 1 i (D 1 i - D 0 (i-1) * D 2 (i-1+1))) data (n-1)

/-- `TDMA_O.inner_solve`, `/repo/shenfun/la.py:428-440`. -/
def TDMAO.innerSolve (n : ℕ) (data : Dia K) (u : ℕ → K) : ℕ → K :=
  let u := forN (fun k u => let i := 1+k; Function.update u i (u i - data 0 (i-1) * u (i-1))) u (n-1)
  let u := Function.update u (pyIdx n ((n:ℤ)-1)) (u (pyIdx n ((n:ℤ)-1)) / data 1 (pyIdx n ((n:ℤ)-1)))
  forN (fun k u => let i := n-1-1-k; Function.update u i ((u i - data 2 (i+1) * u (i+1)) / data 1 i)) u (n-1)

/-! ## PDMA: diagonals -4, -2, 0, 2, 4 -/

/-- Body of the main loop of `PDMA.LU`, `/repo/shenfun/la.py:492-500`. -/
def PDMA.luStep (i : ℕ) (D : Dia K) : Dia K :=
  let lam := D 1 i / D 2 i
  let D := D.set 2 (i+2) (D 2 (i+2) - lam * D 3 (i+2))
  let D := D.set 3 (i+2+2) (D 3 (i+2+2) - lam * D 4 (i+4))
  let D := D.set 1 i lam
  let lam := D 0 i / D 2 i
  let D := D.set 1 (i+2) (D 1 (i+2) - lam * D 3 (i+2))
  let D := D.set 2 (i+4) (D 2 (i+4) - lam * D 4 (i+4))
  D.set 0 i lam

/-- Body of the two trailing blocks of `PDMA.LU` (`/repo/shenfun/la.py:502-509`) and `HeptaDMA.LU`
(`/repo/shenfun/la.py:773-780`). -/
def PDMA.luTail (i : ℕ) (D : Dia K) : Dia K :=
  let lam := D 1 i / D 2 i
  let D := D.set 2 (i+2) (D 2 (i+2) - lam * D 3 (i+2))
  D.set 1 i lam

/-- `PDMA.LU`, `/repo/shenfun/la.py:482-509`, with `k = n - m = 2` (`m = e.shape[0] = n-2`).
`a = data[0,:-4]`, `b = data[1,:-2]`, `d = data[2]`, `e = data[3,2:]`, `f = data[4,4:]`. The two trailing
blocks use `i = n-4` and `i = n-3`; the model is meant for `n ≥ 4` (below, Python indices turn negative). -/
def PDMA.lu (n : ℕ) (data : Dia K) : Dia K :=
  let D := forN PDMA.luStep data (n-4)
  PDMA.luTail (n-3) (PDMA.luTail (n-4) D)

/-- `PDMA.inner_solve`, `/repo/shenfun/la.py:518-535`.  For `n ≥ 4`. -/
def PDMA.innerSolve (n : ℕ) (data : Dia K) (u : ℕ → K) : ℕ → K :=
  let u := Function.update u 2 (u 2 - data 1 0 * u 0)
  let u := Function.update u 3 (u 3 - data 1 1 * u 1)
  let u := forN (fun q u => let k := 4+q
    Function.update u k (u k - (data 1 (k-2) * u (k-2) + data 0 (k-4) * u (k-4)))) u (n-4)
  let u := Function.update u (n-1) (u (n-1) / data 2 (n-1))
  let u := Function.update u (n-2) (u (n-2) / data 2 (n-2))
  let u := Function.update u (n-3) ((u (n-3) - data 3 (n-3+2) * u (n-1)) / data 2 (n-3))
  let u := Function.update u (n-4) ((u (n-4) - data 3 (n-4+2) * u (n-2)) / data 2 (n-4))
  forN (fun q u => let k := n-4-1-q
    Function.update u k ((u k - data 3 (k+2) * u (k+2) - data 4 (k+4) * u (k+4)) / data 2 k)) u (n-4)

/-! ## FDMA: diagonals -2, 0, 2, 4 -/

/-- Loop body of `FDMA.LU`, `/repo/shenfun/la.py:572-576` (`i` starts at 2). -/
def FDMA.luStep (n : ℕ) (k : ℕ) (D : Dia K) : Dia K :=
  let i := k + 2
  let D := D.set 0 (i-2) (D 0 (i-2) / D 1 (i-2))
  let D := D.set 1 i (D 1 i - D 0 (i-2) * D 2 (i-2+2))
  if i < n-2 then D.set 2 (i+2) (D 2 (i+2) - D 0 (i-2) * D 3 (i-2+4)) else D

/-- `FDMA.LU`, `/repo/shenfun/la.py:566-576`. -/
def FDMA.lu (n : ℕ) (data : Dia K) : Dia K := forN (FDMA.luStep n) data (n-2)

/-- `FDMA.inner_solve`, `/repo/shenfun/la.py:591-605`.  For `n ≥ 4`. -/
def FDMA.innerSolve (n : ℕ) (data : Dia K) (u : ℕ → K) : ℕ → K :=
  let u := forN (fun k u => let i := 2+k; Function.update u i (u i - data 0 (i-2) * u (i-2))) u (n-2)
  let u := Function.update u (n-1) (u (n-1) / data 1 (n-1))
  let u := Function.update u (n-2) (u (n-2) / data 1 (n-2))
  let u := Function.update u (n-3) ((u (n-3) - data 2 (n-3+2) * u (n-1)) / data 1 (n-3))
  let u := Function.update u (n-4) ((u (n-4) - data 2 (n-4+2) * u (n-2)) / data 1 (n-4))
  forN (fun q u => let i := n-4-1-q
    Function.update u i ((u i - data 2 (i+2) * u (i+2) - data 3 (i+4) * u (i+4)) / data 1 i)) u (n-4)

/-! ## TwoDMA: diagonals 0, 2 -/

/-- `TwoDMA.inner_solve`, `/repo/shenfun/la.py:643-650`. No LU is needed. -/
def TwoDMA.innerSolve (n : ℕ) (data : Dia K) (u : ℕ → K) : ℕ → K :=
  let u := Function.update u (pyIdx n ((n:ℤ)-1)) (u (pyIdx n ((n:ℤ)-1)) / data 0 (pyIdx n ((n:ℤ)-1)))
  let u := Function.update u (pyIdx n ((n:ℤ)-2)) (u (pyIdx n ((n:ℤ)-2)) / data 0 (pyIdx n ((n:ℤ)-2)))
  forN (fun k u => let i := n-2-1-k; Function.update u i ((u i - data 1 (i+2) * u (i+2)) / data 0 i)) u (n-2)

/-! ## ThreeDMA: diagonals 0, 2, 4 -/

/-- `ThreeDMA.inner_solve`, `/repo/shenfun/la.py:690-701`, parametrised by the storage row `r2` from
which the second upper diagonal `u2` is read.  For `n ≥ 4`. -/
def ThreeDMA.innerSolveRow (r2 : ℕ) (n : ℕ) (data : Dia K) (u : ℕ → K) : ℕ → K :=
  let u := Function.update u (n-1) (u (n-1) / data 0 (n-1))
  let u := Function.update u (n-2) (u (n-2) / data 0 (n-2))
  let u := Function.update u (n-3) ((u (n-3) - data 1 (n-3+2) * u (n-1)) / data 0 (n-3))
  let u := Function.update u (n-4) ((u (n-4) - data 1 (n-4+2) * u (n-2)) / data 0 (n-4))
  forN (fun q u => let i := n-4-1-q
    Function.update u i ((u i - data 1 (i+2) * u (i+2) - data r2 (i+4) * u (i+4)) / data 0 i)) u (n-4)

/-- `ThreeDMA.inner_solve` as written: line 693 of `/repo/shenfun/la.py` is `u2 = data[1, 4:]`
(also `/repo/shenfun/optimization/numba/threedma.py`). -/
def ThreeDMA.innerSolve (n : ℕ) (data : Dia K) (u : ℕ → K) : ℕ → K :=
  ThreeDMA.innerSolveRow 1 n data u

/-! ## HeptaDMA: diagonals -4, -2, 0, 2, 4, 6, 8 -/

/-- Body of the main loop of `HeptaDMA.LU`, `/repo/shenfun/la.py:757-772`. The comparisons `i < n-6`,
`i < n-8` are written without subtraction. -/
def HeptaDMA.luStep (n : ℕ) (i : ℕ) (D : Dia K) : Dia K :=
  let lam := D 1 i / D 2 i
  let D := D.set 2 (i+2) (D 2 (i+2) - lam * D 3 (i+2))
  let D := D.set 3 (i+2+2) (D 3 (i+2+2) - lam * D 4 (i+4))
  let D := if i + 6 < n then D.set 4 (i+2+4) (D 4 (i+2+4) - lam * D 5 (i+6)) else D
  let D := if i + 8 < n then D.set 5 (i+2+6) (D 5 (i+2+6) - lam * D 6 (i+8)) else D
  let D := D.set 1 i lam
  let lam := D 0 i / D 2 i
  let D := D.set 1 (i+2) (D 1 (i+2) - lam * D 3 (i+2))
  let D := D.set 2 (i+4) (D 2 (i+4) - lam * D 4 (i+4))
  let D := if i + 6 < n then D.set 3 (i+4+2) (D 3 (i+4+2) - lam * D 5 (i+6)) else D
  let D := if i + 8 < n then D.set 4 (i+4+4) (D 4 (i+4+4) - lam * D 6 (i+8)) else D
  D.set 0 i lam

/-- `HeptaDMA.LU`, `/repo/shenfun/la.py:745-780`, with `k = n - m = 2`.
`a = data[0,:-4]`, `b = data[1,:-2]`, `d = data[2]`, `e = data[3,2:]`, `f = data[4,4:]`,
`g = data[5,6:]`, `h = data[6,8:]`. -/
def HeptaDMA.lu (n : ℕ) (data : Dia K) : Dia K :=
  let D := forN (HeptaDMA.luStep n) data (n-4)
  PDMA.luTail (n-3) (PDMA.luTail (n-4) D)

/-- `HeptaDMA.inner_solve`, `/repo/shenfun/la.py:789-813`.  For `n ≥ 8`. -/
def HeptaDMA.innerSolve (n : ℕ) (data : Dia K) (u : ℕ → K) : ℕ → K :=
  let u := Function.update u 2 (u 2 - data 1 0 * u 0)
  let u := Function.update u 3 (u 3 - data 1 1 * u 1)
  let u := forN (fun q u => let k := 4+q
    Function.update u k (u k - (data 1 (k-2) * u (k-2) + data 0 (k-4) * u (k-4)))) u (n-4)
  let u := Function.update u (n-1) (u (n-1) / data 2 (n-1))
  let u := Function.update u (n-2) (u (n-2) / data 2 (n-2))
  let u := Function.update u (n-3) ((u (n-3) - data 3 (n-3+2) * u (n-1)) / data 2 (n-3))
  let u := Function.update u (n-4) ((u (n-4) - data 3 (n-4+2) * u (n-2)) / data 2 (n-4))
  let u := Function.update u (n-5) ((u (n-5) - data 3 (n-5+2) * u (n-3) - data 4 (n-5+4) * u (n-1)) / data 2 (n-5))
  let u := Function.update u (n-6) ((u (n-6) - data 3 (n-6+2) * u (n-4) - data 4 (n-6+4) * u (n-2)) / data 2 (n-6))
  let u := Function.update u (n-7) ((u (n-7) - data 3 (n-7+2) * u (n-5) - data 4 (n-7+4) * u (n-3)
    - data 5 (n-7+6) * u (n-1)) / data 2 (n-7))
  let u := Function.update u (n-8) ((u (n-8) - data 3 (n-8+2) * u (n-6) - data 4 (n-8+4) * u (n-4)
    - data 5 (n-8+6) * u (n-2)) / data 2 (n-8))
  forN (fun q u => let k := n-8-1-q
    Function.update u k ((u k - data 3 (k+2) * u (k+2) - data 4 (k+4) * u (k+4)
      - data 5 (k+6) * u (k+6) - data 6 (k+8) * u (k+8)) / data 2 k)) u (n-8)

/-! ## DiagMA -/

/-- `DiagMA.inner_solve`, `/repo/shenfun/la.py:318-320`: `u[:d.shape[0]] /= d`. -/
def DiagMA.innerSolve (n : ℕ) (data : Dia K) (u : ℕ → K) : ℕ → K :=
  fun i => if i < n then u i / data 0 i else u i

end Shenfun
