import Verif.Model.Py
import Verif.Model.FourierMatrices
import Verif.Model.Fourier

/-!
# Direct convolution, `convolve(u, v, uv, fast=False)`

`/repo/shenfun/fourier/bases.py:468-475, 632-641` and `/repo/shenfun/optimization/cython/convolve.pyx`.  The directives in the compiled
file come after a statement and are therefore ignored: indexing has Python's meaning (negative indices count from the end,
`pyIdx`).  Exact arithmetic.
-/

namespace Shenfun

namespace Convolve

open Complex Shenfun.Fourier

/-- `Np = N if not N % 2 == 0 else N+1`, `/repo/shenfun/fourier/bases.py:471, 637`. -/
def Np (N : ℕ) : ℕ := if N % 2 = 0 then N + 1 else N

/-- The factor `um` or `vn` of `convolve_1D`, `/repo/shenfun/optimization/cython/convolve.pyx:18-29`. -/
noncomputable def factC (N : ℕ) (u : ℕ → ℂ) (m : ℤ) : ℂ :=
  if N % 2 = 0 then (if |m| = ((N / 2 : ℕ) : ℤ) then u (pyIdx N m) * (1 / 2) else u (pyIdx N m)) else u (pyIdx N m)

/-- `convolve_1D`, `/repo/shenfun/optimization/cython/convolve.pyx:9-30`; `L` is the length of `uv`, `k` of length `n`. -/
noncomputable def convolve1D (N L : ℕ) (u v uv : ℕ → ℂ) (n : ℕ) (k : ℕ → ℤ) : ℕ → ℂ :=
  forN (fun a uv => forN (fun b uv =>
    let m := k a
    let n := k b
    let p := m + n
    Function.update uv (pyIdx L p) (uv (pyIdx L p) + factC N u m * factC N v n)) uv n) uv n

/-- The factor `um` or `vn` of `convolve_real_1D`, `/repo/shenfun/optimization/cython/convolve.pyx:44-65`. -/
noncomputable def factR (N : ℕ) (u : ℕ → ℂ) (m : ℤ) : ℂ :=
  if N % 2 = 0 then
    if |m| = ((N / 2 : ℕ) : ℤ) then u |m|.toNat * (1 / 2)
    else if 0 ≤ m then u m.toNat
    else (u |m|.toNat).re - I * (u |m|.toNat).im
  else if 0 ≤ m then u m.toNat
  else (u |m|.toNat).re - I * (u |m|.toNat).im

/-- `convolve_real_1D`, `/repo/shenfun/optimization/cython/convolve.pyx:34-66`; the kernel takes `N` from the length of `uv`. -/
noncomputable def convolveReal1D (L : ℕ) (u v uv : ℕ → ℂ) (n : ℕ) (k : ℕ → ℤ) : ℕ → ℂ :=
  let N := L - 1
  forN (fun a uv => forN (fun b uv =>
    let m := k a
    let n := k b
    let p := m + n
    if 0 ≤ p then Function.update uv p.toNat (uv p.toNat + factR N u m * factR N v n) else uv) uv n) uv n

/-- `C2C.convolve(u, v, uv, fast=False)`, `/repo/shenfun/fourier/bases.py:632-641`: `uv` (default: `2N` zeros) is added to. -/
noncomputable def directC2C (N : ℕ) (u v : ℕ → ℂ) (uv : Option (ℕ → ℂ)) : ℕ → ℂ :=
  convolve1D N (2 * N) u v (uv.getD fun _ => 0) (Np N) (wavenumbersC2C (Np N))

/-- `R2C.convolve(u, v, uv, fast=False)`, `/repo/shenfun/fourier/bases.py:468-475`: `uv` (default: `N+1` zeros) is added to. -/
noncomputable def directR2C (N : ℕ) (u v : ℕ → ℂ) (uv : Option (ℕ → ℂ)) : ℕ → ℂ :=
  convolveReal1D (N + 1) u v (uv.getD fun _ => 0) (Np N) (wavenumbersC2C (Np N))

end Convolve

end Shenfun
