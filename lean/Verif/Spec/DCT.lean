import Mathlib.Analysis.SpecialFunctions.Trigonometric.Basic

/-!
# The real-to-real transforms of FFTW

Documented definitions of the unnormalised transforms `REDFT00` (dct type 1), `REDFT10` (dct type 2), `REDFT01` (dct type
3), `RODFT00` (dst type 1), `RODFT10` (dst type 2) and `RODFT01` (dst type 3) on arrays of length `n`.  FFTW itself is not
modelled; these formulas are what the code relies on.  Array entries lie in a real vector space.
-/

namespace Shenfun.Spec

open Real

variable {E : Type*} [AddCommGroup E] [Module ℝ E]

noncomputable def dct1 (n : ℕ) (X : ℕ → E) (k : ℕ) : E :=
  X 0 + ((-1:ℝ)^k) • X (n - 1) + (2:ℝ) • ∑ j ∈ Finset.Ico 1 (n - 1), cos (π * j * k / ((n:ℝ) - 1)) • X j

noncomputable def dct2 (n : ℕ) (X : ℕ → E) (k : ℕ) : E :=
  (2:ℝ) • ∑ j ∈ Finset.range n, cos (π * (j + 1/2) * k / n) • X j

noncomputable def dct3 (n : ℕ) (X : ℕ → E) (k : ℕ) : E :=
  X 0 + (2:ℝ) • ∑ j ∈ Finset.Ico 1 n, cos (π * j * (k + 1/2) / n) • X j

noncomputable def dst1 (n : ℕ) (X : ℕ → E) (k : ℕ) : E :=
  (2:ℝ) • ∑ j ∈ Finset.range n, sin (π * (j + 1) * (k + 1) / ((n:ℝ) + 1)) • X j

noncomputable def dst2 (n : ℕ) (X : ℕ → E) (k : ℕ) : E :=
  (2:ℝ) • ∑ j ∈ Finset.range n, sin (π * (j + 1/2) * (k + 1) / n) • X j

noncomputable def dst3 (n : ℕ) (X : ℕ → E) (k : ℕ) : E :=
  ((-1:ℝ)^k) • X (n - 1) + (2:ℝ) • ∑ j ∈ Finset.range (n - 1), sin (π * (j + 1) * (k + 1/2) / n) • X j

end Shenfun.Spec
