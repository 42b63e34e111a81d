import Verif.Model.Refine
import Verif.Spec.Trig

/-!
# Specification: the value of a function
-/

namespace Shenfun.Refine.Spec

open Complex

/-- The `i`th basis function of a space with `N` points at `x`. Complex Fourier: `exp(ikx)`, and the symmetric interpolator
`cos(Nx/2)` for the highest wavenumber of an even number of points. Real Fourier: the modes `0 < k < N/2` stand for themselves
and for `-k`, the real part of the sum is taken. Other bases: the functions `ψ`, then the boundary functions `β` as
last `nb`. -/
noncomputable def basisFn (k : Kind) (N : ℕ) (ψ β : ℕ → ℝ → ℝ) (i : ℕ) (x : ℝ) : ℂ :=
  match k with
  | .c2c => if 2 * i = N then (Real.cos (i * x) : ℂ) else exp (I * (Shenfun.Spec.freq N i : ℤ) * x)
  | .r2c => (if i = 0 ∨ 2 * i = N then 1 else 2) * exp (I * i * x)
  | .poly nb => if i < N - nb then (ψ i x : ℂ) else (β (i - (N - nb)) x : ℂ)

/-- Value at `x` of the function with coefficients `u` (the real part of this with a real Fourier axis). -/
noncomputable def value {D : ℕ} (k : Fin D → Kind) (N : Fin D → ℕ) (ψ β : Fin D → ℕ → ℝ → ℝ) (u : Arr D ℂ) (x : Fin D → ℝ) : ℂ :=
  ∑ I ∈ Fintype.piFinset fun a => Finset.range (stored (k a) (N a)), u I * ∏ a, basisFn (k a) (N a) (ψ a) (β a) (I a) (x a)

/-- Value of a function of one variable. -/
noncomputable def value1 (k : Kind) (N : ℕ) (ψ β : ℕ → ℝ → ℝ) (u : ℕ → ℂ) (x : ℝ) : ℂ :=
  ∑ i ∈ Finset.range (stored k N), u i * basisFn k N ψ β i x

/-- The Nyquist coefficients along the real Fourier axes are real. -/
def RealNyquist {D : ℕ} (k : Fin D → Kind) (N : Fin D → ℕ) (u : Arr D ℂ) : Prop :=
  ∀ a, k a = .r2c → N a % 2 = 0 → ∀ I : Fin D → ℕ, I a = N a / 2 → (u I).im = 0

/-- `M` points are more than `N`. An odd number of Fourier points may stay the same. -/
def Grows (k : Kind) (N M : ℕ) : Prop :=
  match k with
  | .c2c => (2 ≤ N ∧ N < M) ∨ (N % 2 = 1 ∧ M = N)
  | .r2c => (1 ≤ N ∧ N < M) ∨ (N % 2 = 1 ∧ M = N)
  | .poly nb => nb ≤ N ∧ 1 ≤ N ∧ N ≤ M

end Shenfun.Refine.Spec
