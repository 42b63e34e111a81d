import Mathlib.Analysis.SpecialFunctions.Complex.Circle
import Mathlib.Algebra.BigOperators.Group.Finset.Basic
import Mathlib.Order.Interval.Finset.Defs
import Mathlib.Data.Int.Interval

/-!
# Specification: trigonometric polynomials

A trigonometric polynomial is a function `c : ℤ → ℂ` of finite support, standing for `∑ c k exp(ikx)`.
The following says which one is represented by an array of Fourier coefficients in FFT order, using the
symmetric interpolator of `/repo/shenfun/fourier/bases.py:17-27` for the highest wavenumber of an even
number of points.
-/

namespace Shenfun.Spec

open Complex

/-- Wavenumber `k` coefficient of the function with the `N` complex coefficients `u` (FFT order). -/
noncomputable def coefC (N : ℕ) (u : ℕ → ℂ) (k : ℤ) : ℂ :=
  if 2 * |k| < N then u (k % N).toNat else if 2 * |k| = N then u (N / 2) / 2 else 0

/-- Wavenumber `k` coefficient of the real function with the `N/2+1` coefficients `u`. -/
noncomputable def coefR (N : ℕ) (u : ℕ → ℂ) (k : ℤ) : ℂ :=
  if 2 * |k| < N then
    (if k = 0 then ((u 0).re : ℂ) else if 0 < k then u k.toNat else (starRingEnd ℂ) (u (-k).toNat))
  else if 2 * |k| = N then ((u (N / 2)).re : ℂ) / 2 else 0

/-- Value at `x` of the trigonometric polynomial `c` of degree at most `B`. -/
noncomputable def trig (B : ℕ) (c : ℤ → ℂ) (x : ℝ) : ℂ :=
  ∑ k ∈ Finset.Icc (-(B : ℤ)) B, c k * exp (I * k * x)

/-- Coefficients of the product of two trigonometric polynomials of degree at most `B`. -/
noncomputable def conv (B : ℕ) (c d : ℤ → ℂ) (k : ℤ) : ℂ :=
  ∑ p ∈ Finset.Icc (-(B : ℤ)) B, c p * d (k - p)

/-- `np.fft.fftfreq(N, 1/N)`: wavenumber of position `i`. -/
def freq (N i : ℕ) : ℤ := if 2 * i < N then i else (i : ℤ) - N

end Shenfun.Spec
