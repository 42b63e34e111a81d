import Verif.Lemmas.StencilBC

/-!
# C27: composite basis functions satisfy the homogeneous boundary conditions they are declared with

Chebyshev polynomials of the first kind.
-/

namespace Shenfun

open Polynomial Spec

set_option linter.unusedSimpArgs false
set_option linter.unusedTactic false
set_option linter.unnecessarySeqFocus false

/-- `ShenDirichlet` (zero at both ends), `/repo/shenfun/chebyshev/bases.py:546`. -/
theorem C27_cheb_ShenDirichlet (N i : ℕ) (hi : i < N - 2) :
    Homogeneous (both 1) (basisFunction chebT (stencilMatrix ChebStencil.ShenDirichlet N 2) i) := by
  refine homogeneous_both chebT_right chebT_left hi (by simp [ChebStencil.ShenDirichlet]) (by simp [ChebStencil.ShenDirichlet]; try decide) _ fun k hk => ?_
  rw [List.mem_range] at hk
  interval_cases k <;> stencil_sum [ChebStencil.ShenDirichlet]

/-- `Phi1` (zero at both ends), `/repo/shenfun/chebyshev/bases.py:656`. -/
theorem C27_cheb_Phi1 (N i : ℕ) (hi : i < N - 2) :
    Homogeneous (both 1) (basisFunction chebT (stencilMatrix ChebStencil.Phi1 N 2) i) := by
  refine homogeneous_both chebT_right chebT_left hi (by simp [ChebStencil.Phi1]) (by simp [ChebStencil.Phi1]; try decide) _ fun k hk => ?_
  rw [List.mem_range] at hk
  interval_cases k <;> stencil_sum [ChebStencil.Phi1]

/-- `ShenNeumann` (first derivative zero at both ends), `/repo/shenfun/chebyshev/bases.py:937`. -/
theorem C27_cheb_ShenNeumann (N i : ℕ) (hi : i < N - 2) :
    Homogeneous ([(.left, 1), (.right, 1)]) (basisFunction chebT (stencilMatrix ChebStencil.ShenNeumann N 2) i) := by
  refine homogeneous_both chebT_right chebT_left hi (by simp [ChebStencil.ShenNeumann]) (by simp [ChebStencil.ShenNeumann]; try decide) [1] fun k hk => ?_
  simp only [List.mem_singleton] at hk
  subst hk
  stencil_sum [ChebStencil.ShenNeumann]

/-- `ShenBiharmonic` (value and 1 derivatives at both ends), `/repo/shenfun/chebyshev/bases.py:1249`. -/
theorem C27_cheb_ShenBiharmonic (N i : ℕ) (hi : i < N - 4) :
    Homogeneous (both 2) (basisFunction chebT (stencilMatrix ChebStencil.ShenBiharmonic N 4) i) := by
  refine homogeneous_both chebT_right chebT_left hi (by simp [ChebStencil.ShenBiharmonic]) (by simp [ChebStencil.ShenBiharmonic]; try decide) _ fun k hk => ?_
  rw [List.mem_range] at hk
  interval_cases k <;> stencil_sum [ChebStencil.ShenBiharmonic]

/-- `Phi2` (value and 1 derivatives at both ends), `/repo/shenfun/chebyshev/bases.py:1441-1445`. -/
theorem C27_cheb_Phi2 (N i : ℕ) (hi : i < N - 4) :
    Homogeneous (both 2) (basisFunction chebT (stencilMatrix ChebStencil.Phi2 N 4) i) := by
  refine homogeneous_both chebT_right chebT_left hi (by simp [ChebStencil.Phi2]) (by simp [ChebStencil.Phi2]; try decide) _ fun k hk => ?_
  rw [List.mem_range] at hk
  interval_cases k <;> stencil_sum [ChebStencil.Phi2]

/-- `Phi3` (value and 2 derivatives at both ends), `/repo/shenfun/chebyshev/bases.py:1530-1535`. -/
theorem C27_cheb_Phi3 (N i : ℕ) (hi : i < N - 6) :
    Homogeneous (both 3) (basisFunction chebT (stencilMatrix ChebStencil.Phi3 N 6) i) := by
  refine homogeneous_both chebT_right chebT_left hi (by simp [ChebStencil.Phi3]) (by simp [ChebStencil.Phi3]; try decide) _ fun k hk => ?_
  rw [List.mem_range] at hk
  interval_cases k <;> stencil_sum [ChebStencil.Phi3]

set_option maxHeartbeats 4000000 in
/-- `Phi4` (value and 3 derivatives at both ends), `/repo/shenfun/chebyshev/bases.py:1614-1620`. -/
theorem C27_cheb_Phi4 (N i : ℕ) (hi : i < N - 8) :
    Homogeneous (both 4) (basisFunction chebT (stencilMatrix ChebStencil.Phi4 N 8) i) := by
  refine homogeneous_both chebT_right chebT_left hi (by simp [ChebStencil.Phi4]) (by simp [ChebStencil.Phi4]; try decide) _ fun k hk => ?_
  rw [List.mem_range] at hk
  interval_cases k <;> stencil_sum [ChebStencil.Phi4]

set_option maxHeartbeats 4000000 in
/-- `Phi6` (value and 5 derivatives at both ends), `/repo/shenfun/chebyshev/bases.py:1701-1718`. -/
theorem C27_cheb_Phi6 (N i : ℕ) (hi : i < N - 12) :
    Homogeneous (both 6) (basisFunction chebT (stencilMatrix ChebStencil.Phi6 N 12) i) := by
  refine homogeneous_both chebT_right chebT_left hi (by simp [ChebStencil.Phi6]) (by simp [ChebStencil.Phi6]; try decide) _ fun k hk => ?_
  rw [List.mem_range] at hk
  interval_cases k <;> stencil_sum [ChebStencil.Phi6]

/-- `Compact3` (value and 2 derivatives at both ends), `/repo/shenfun/chebyshev/bases.py:2402-2407`. -/
theorem C27_cheb_Compact3 (N i : ℕ) (hi : i < N - 6) :
    Homogeneous (both 3) (basisFunction chebT (stencilMatrix ChebStencil.Compact3 N 6) i) := by
  refine homogeneous_both chebT_right chebT_left hi (by simp [ChebStencil.Compact3]) (by simp [ChebStencil.Compact3]; try decide) _ fun k hk => ?_
  rw [List.mem_range] at hk
  interval_cases k <;> stencil_sum [ChebStencil.Compact3]

set_option maxHeartbeats 4000000 in
/-- `Compact4` (value and 3 derivatives at both ends), `/repo/shenfun/chebyshev/bases.py:2499-2505`. -/
theorem C27_cheb_Compact4 (N i : ℕ) (hi : i < N - 8) :
    Homogeneous (both 4) (basisFunction chebT (stencilMatrix ChebStencil.Compact4 N 8) i) := by
  refine homogeneous_both chebT_right chebT_left hi (by simp [ChebStencil.Compact4]) (by simp [ChebStencil.Compact4]; try decide) _ fun k hk => ?_
  rw [List.mem_range] at hk
  interval_cases k <;> stencil_sum [ChebStencil.Compact4]

/-- `UpperDirichlet` (zero at the right end), `/repo/shenfun/chebyshev/bases.py:1797`. -/
theorem C27_cheb_UpperDirichlet (N i : ℕ) (hi : i < N - 1) :
    Homogeneous ([(.right, 0)]) (basisFunction chebT (stencilMatrix ChebStencil.UpperDirichlet N 1) i) := by
  refine homogeneous_of_sums hi (by simp [ChebStencil.UpperDirichlet]) _ fun bc hbc => ?_
  fin_cases hbc <;> simp only [Side.pt, chebT_right, chebT_left] <;> stencil_asum [ChebStencil.UpperDirichlet]

/-- `LowerDirichlet` (zero at the left end), `/repo/shenfun/chebyshev/bases.py:1876`. -/
theorem C27_cheb_LowerDirichlet (N i : ℕ) (hi : i < N - 1) :
    Homogeneous ([(.left, 0)]) (basisFunction chebT (stencilMatrix ChebStencil.LowerDirichlet N 1) i) := by
  refine homogeneous_of_sums hi (by simp [ChebStencil.LowerDirichlet]) _ fun bc hbc => ?_
  fin_cases hbc <;> simp only [Side.pt, chebT_right, chebT_left] <;> stencil_asum [ChebStencil.LowerDirichlet]

/-- `DirichletNeumann` (value left, derivative right), `/repo/shenfun/chebyshev/bases.py:2043-2047`. -/
theorem C27_cheb_DirichletNeumann (N i : ℕ) (hi : i < N - 2) :
    Homogeneous ([(.left, 0), (.right, 1)]) (basisFunction chebT (stencilMatrix ChebStencil.DirichletNeumann N 2) i) := by
  refine homogeneous_of_sums hi (by simp [ChebStencil.DirichletNeumann]) _ fun bc hbc => ?_
  fin_cases hbc <;> simp only [Side.pt, chebT_right, chebT_left] <;> stencil_asum [ChebStencil.DirichletNeumann]

/-- `NeumannDirichlet` (derivative left, value right), `/repo/shenfun/chebyshev/bases.py:2132-2136`. -/
theorem C27_cheb_NeumannDirichlet (N i : ℕ) (hi : i < N - 2) :
    Homogeneous ([(.left, 1), (.right, 0)]) (basisFunction chebT (stencilMatrix ChebStencil.NeumannDirichlet N 2) i) := by
  refine homogeneous_of_sums hi (by simp [ChebStencil.NeumannDirichlet]) _ fun bc hbc => ?_
  fin_cases hbc <;> simp only [Side.pt, chebT_right, chebT_left] <;> stencil_asum [ChebStencil.NeumannDirichlet]

/-- `UpperDirichletNeumann` (value and derivative right), `/repo/shenfun/chebyshev/bases.py:2220-2224`. -/
theorem C27_cheb_UpperDirichletNeumann (N i : ℕ) (hi : i < N - 2) :
    Homogeneous ([(.right, 0), (.right, 1)]) (basisFunction chebT (stencilMatrix ChebStencil.UpperDirichletNeumann N 2) i) := by
  refine homogeneous_of_sums hi (by simp [ChebStencil.UpperDirichletNeumann]) _ fun bc hbc => ?_
  fin_cases hbc <;> simp only [Side.pt, chebT_right, chebT_left] <;> stencil_asum [ChebStencil.UpperDirichletNeumann]

/-- `LowerDirichletNeumann` (value and derivative left), `/repo/shenfun/chebyshev/bases.py:2308-2312`. -/
theorem C27_cheb_LowerDirichletNeumann (N i : ℕ) (hi : i < N - 2) :
    Homogeneous ([(.left, 0), (.left, 1)]) (basisFunction chebT (stencilMatrix ChebStencil.LowerDirichletNeumann N 2) i) := by
  refine homogeneous_of_sums hi (by simp [ChebStencil.LowerDirichletNeumann]) _ fun bc hbc => ?_
  fin_cases hbc <;> simp only [Side.pt, chebT_right, chebT_left] <;> stencil_asum [ChebStencil.LowerDirichletNeumann]

end Shenfun
