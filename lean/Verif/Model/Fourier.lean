import Verif.Model.Py
import Mathlib.Analysis.SpecialFunctions.Complex.Circle
import Mathlib.Algebra.BigOperators.Group.Finset.Basic

/-!
# Fourier bases: padding, truncation, dealiasing, `/repo/shenfun/fourier/bases.py`

Arrays of Fourier coefficients are functions `ℕ → ℂ`, the length is given separately.  One-dimensional
transforms are modelled (in more dimensions the same operations act along one axis).  FFTW's transforms
are modelled by the sums they are documented to compute.
-/

namespace Shenfun.Fourier

open Complex

/-- Start of Python's `slice(-n, None)` on an array of length `L ≥ n`: `-0` is `0`. -/
def tailStart (L n : ℕ) : ℕ := if n = 0 then 0 else L - n

/-- `C2C._padding_backward` to a different array, `/repo/shenfun/fourier/bases.py:579-594`:
`N` coefficients in, `M` out.  For `N = 1` the slice `slice(-0, None)` is the whole array and the one
coefficient is broadcast to all of it. -/
noncomputable def padC2C (N M : ℕ) (u : ℕ → ℂ) : ℕ → ℂ :=
  let p : ℕ → ℂ := fun _ => 0
  let p : ℕ → ℂ := fun i => if i < N / 2 + 1 then u i else p i
  let p : ℕ → ℂ := fun i => if tailStart M (N / 2) ≤ i ∧ i < M then
      u (if N / 2 = 0 then 0 else i - tailStart M (N / 2) + tailStart N (N / 2)) else p i
  if N % 2 = 0 then
    let p := Function.update p (N / 2) (p (N / 2) * 0.5)
    Function.update p (tailStart M (N / 2)) (p (tailStart M (N / 2)) * 0.5)
  else p

/-- `C2C._truncation_forward`, `/repo/shenfun/fourier/bases.py:570-577`. -/
noncomputable def truncC2C (N M : ℕ) (p : ℕ → ℂ) : ℕ → ℂ :=
  let t : ℕ → ℂ := fun _ => 0
  let t : ℕ → ℂ := fun i => if i < N / 2 + 1 then p i else t i
  fun i => if tailStart N (N / 2) ≤ i ∧ i < N then
    t i + p (i - tailStart N (N / 2) + tailStart M (N / 2)) else t i

/-- `R2C._padding_backward` to a different array, `/repo/shenfun/fourier/bases.py:420-430`:
`N/2+1` coefficients in. -/
noncomputable def padR2C (N : ℕ) (u : ℕ → ℂ) : ℕ → ℂ :=
  let p : ℕ → ℂ := fun i => if i < N / 2 + 1 then u i else 0
  if N % 2 = 0 then
    let p := Function.update p (N / 2) ((p (N / 2)).re : ℂ)
    Function.update p (N / 2) (p (N / 2) * 0.5)
  else p

/-- `R2C._truncation_forward`, `/repo/shenfun/fourier/bases.py:409-418`. -/
noncomputable def truncR2C (N : ℕ) (p : ℕ → ℂ) : ℕ → ℂ :=
  let t : ℕ → ℂ := fun i => if i < N / 2 + 1 then p i else 0
  if N % 2 = 0 then
    let t := Function.update t (N / 2) ((t (N / 2)).re : ℂ)
    Function.update t (N / 2) (t (N / 2) * 2)
  else t

/-- End of Python's slice with stop value `s` on an array of length `L` (negative: from the end). -/
def sliceStop (L : ℕ) (s : ℤ) : ℕ := if s < 0 then (L + s).toNat else min L s.toNat

/-- `C2C._padding_backward` in place with `dealias_direct`, `/repo/shenfun/fourier/bases.py:596-599`:
`padded_array[N//3:-(N//3)+1] = 0`. -/
def dealiasC2C (N : ℕ) (u : ℕ → ℂ) : ℕ → ℂ :=
  fun i => if N / 3 ≤ i ∧ i < sliceStop N (-((N / 3 : ℕ) : ℤ) + 1) then 0 else u i

/-- `R2C._padding_backward` in place with `dealias_direct`, `/repo/shenfun/fourier/bases.py:432-435`. -/
def dealiasR2C (N : ℕ) (u : ℕ → ℂ) : ℕ → ℂ := fun i => if N / 3 ≤ i then 0 else u i

/-- The mesh `2πj/M`, `/repo/shenfun/fourier/bases.py:72-75` (reference domain). -/
noncomputable def mesh (M j : ℕ) : ℝ := j * 2 * Real.pi / M

/-- `exp(ikx)`, `/repo/shenfun/fourier/bases.py:3-7`. -/
noncomputable def wave (k : ℤ) (x : ℝ) : ℂ := exp (I * k * x)

/-- FFTW's complex backward transform without normalisation
(`xfftn(normalise_idft=False)`, `/repo/shenfun/fourier/bases.py:535`). -/
noncomputable def idft (M : ℕ) (p : ℕ → ℂ) (j : ℕ) : ℂ := ∑ i ∈ Finset.range M, p i * wave i (mesh M j)

/-- FFTW's complex forward transform, times the normalisation `1/M`
(`/repo/shenfun/fourier/bases.py:125-129`). -/
noncomputable def dft (M : ℕ) (f : ℕ → ℂ) (i : ℕ) : ℂ :=
  (∑ j ∈ Finset.range M, f j * wave (-i) (mesh M j)) * (1 / (M : ℂ))

/-- The Hermitian array that FFTW's complex-to-real transform assumes: the imaginary parts of the zero and
(for even length) the Nyquist coefficient are ignored. -/
noncomputable def herm (M : ℕ) (p : ℕ → ℂ) (i : ℕ) : ℂ :=
  if i = 0 then ((p 0).re : ℂ) else if 2 * i < M then p i else if 2 * i = M then ((p i).re : ℂ)
  else (starRingEnd ℂ) (p (M - i))

/-- FFTW's complex-to-real backward transform (`/repo/shenfun/fourier/bases.py:325, 407`). -/
noncomputable def irfft (M : ℕ) (p : ℕ → ℂ) (j : ℕ) : ℂ := idft M (herm M p) j

/-- FFTW's real-to-complex forward transform with normalisation: the first `M/2+1` entries of `dft`
(`/repo/shenfun/fourier/bases.py:324`). -/
noncomputable def rfft (M : ℕ) (f : ℕ → ℂ) (i : ℕ) : ℂ := if i < M / 2 + 1 then dft M f i else 0

/-- `C2C.convolve(fast=True)`, `/repo/shenfun/fourier/bases.py:620-629`: padded backward transforms,
pointwise product, forward transform with truncation. -/
noncomputable def convolveC2C (N M : ℕ) (u v : ℕ → ℂ) : ℕ → ℂ :=
  truncC2C N M (dft M fun j => idft M (padC2C N M u) j * idft M (padC2C N M v) j)

/-- `R2C.convolve(fast=True)`, `/repo/shenfun/fourier/bases.py:457-466`. -/
noncomputable def convolveR2C (N M : ℕ) (u v : ℕ → ℂ) : ℕ → ℂ :=
  truncR2C N (rfft M fun j => irfft M (padR2C N u) j * irfft M (padR2C N v) j)

end Shenfun.Fourier
