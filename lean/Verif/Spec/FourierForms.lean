import Verif.Spec.Trig
import Verif.Model.SpectralMatrices
import Mathlib.MeasureTheory.Integral.IntervalIntegral.Basic
import Mathlib.Analysis.Calculus.IteratedDeriv.Defs

/-!
# Specification: inner products of Fourier modes
-/

namespace Shenfun.Spec

open Complex

/-- The Fourier mode of wavenumber `k` on the domain `(a, b)`: `exp(2πik(x-a)/(b-a))`. -/
noncomputable def mode (a b : ℝ) (k : ℤ) (x : ℝ) : ℂ := exp (I * k * (2 * Real.pi / (b - a) * (x - a) : ℝ))

/-- The inner product `(u, v) = 1/L ∫ u conj(v) dx` of `/repo/shenfun/fourier/bases.py:29-37` on `(a, b)`. -/
noncomputable def periodicIP (a b : ℝ) (u v : ℝ → ℂ) : ℂ :=
  (1 / ((b - a : ℝ) : ℂ)) * ∫ x in a..b, u x * (starRingEnd ℂ) (v x)

/-- The same by quadrature with `N` equidistant points. -/
noncomputable def periodicQuad (N : ℕ) (a b : ℝ) (u v : ℝ → ℂ) : ℂ :=
  (1 / (N : ℂ)) * ∑ j ∈ Finset.range N, u (a + j * (b - a) / N) * (starRingEnd ℂ) (v (a + j * (b - a) / N))

/-- The dictionary is accepted as an `N × N` matrix and its entries are those of the form `F`, where `F i j` is the
value for test function `i` and trial function `j`. -/
structure IsFourierMatrix (d : DMat) (N : ℕ) (F : ℕ → ℕ → ℂ) : Prop where
  lengths : ∀ e ∈ d, e.2.Fits (diagLength N N e.1)
  entries : ∀ i < N, ∀ j < N, (((d.mat N N).denseAt i j : ℝ) : ℂ) = F i j

/-- Quadrature of `conj(φ_i) w φ_j^{(r)}` over `(0, 2π)` with the modes in FFT order. -/
noncomputable def fourierQuadForm (N : ℕ) (w : ℝ → ℝ) (r i j : ℕ) : ℂ :=
  periodicQuad N 0 (2 * Real.pi) (fun x => (w x : ℂ) * iteratedDeriv r (mode 0 (2 * Real.pi) (freq N j)) x)
    (mode 0 (2 * Real.pi) (freq N i))

/-- The integral itself. -/
noncomputable def fourierForm (N : ℕ) (w : ℝ → ℝ) (r i j : ℕ) : ℂ :=
  periodicIP 0 (2 * Real.pi) (fun x => (w x : ℂ) * iteratedDeriv r (mode 0 (2 * Real.pi) (freq N j)) x)
    (mode 0 (2 * Real.pi) (freq N i))

end Shenfun.Spec
