import Verif.Lemmas.StencilBC

/-!
# C27: composite basis functions satisfy the homogeneous boundary conditions they are declared with

Chebyshev polynomials of the second kind.
-/

namespace Shenfun

open Polynomial Spec

set_option linter.unusedSimpArgs false
set_option linter.unusedTactic false
set_option linter.unnecessarySeqFocus false

/-- `Phi1` (zero at both ends), `/repo/shenfun/chebyshevu/bases.py:406-409`. -/
theorem C27_chebu_Phi1 (N i : ℕ) (hi : i < N - 2) :
    Homogeneous (both 1) (basisFunction chebU (stencilMatrix ChebUStencil.Phi1 N 2) i) := by
  refine homogeneous_both chebU_right chebU_left hi (by simp [ChebUStencil.Phi1]) (by simp [ChebUStencil.Phi1]; try decide) _ fun k hk => ?_
  rw [List.mem_range] at hk
  interval_cases k <;> stencil_sum [ChebUStencil.Phi1]

/-- `Phi1Scaled` (zero at both ends), `/repo/shenfun/chebyshevu/bases.py:411-414`. -/
theorem C27_chebu_Phi1Scaled (N i : ℕ) (hi : i < N - 2) :
    Homogeneous (both 1) (basisFunction chebU (stencilMatrix ChebUStencil.Phi1Scaled N 2) i) := by
  refine homogeneous_both chebU_right chebU_left hi (by simp [ChebUStencil.Phi1Scaled]) (by simp [ChebUStencil.Phi1Scaled]; try decide) _ fun k hk => ?_
  rw [List.mem_range] at hk
  interval_cases k <;> stencil_sum [ChebUStencil.Phi1Scaled]

/-- `Phi2` (value and 1 derivatives at both ends), `/repo/shenfun/chebyshevu/bases.py:489-493`. -/
theorem C27_chebu_Phi2 (N i : ℕ) (hi : i < N - 4) :
    Homogeneous (both 2) (basisFunction chebU (stencilMatrix ChebUStencil.Phi2 N 4) i) := by
  refine homogeneous_both chebU_right chebU_left hi (by simp [ChebUStencil.Phi2]) (by simp [ChebUStencil.Phi2]; try decide) _ fun k hk => ?_
  rw [List.mem_range] at hk
  interval_cases k <;> stencil_sum [ChebUStencil.Phi2]

/-- `Phi2Scaled` (value and 1 derivatives at both ends), `/repo/shenfun/chebyshevu/bases.py:495-499`. -/
theorem C27_chebu_Phi2Scaled (N i : ℕ) (hi : i < N - 4) :
    Homogeneous (both 2) (basisFunction chebU (stencilMatrix ChebUStencil.Phi2Scaled N 4) i) := by
  refine homogeneous_both chebU_right chebU_left hi (by simp [ChebUStencil.Phi2Scaled]) (by simp [ChebUStencil.Phi2Scaled]; try decide) _ fun k hk => ?_
  rw [List.mem_range] at hk
  interval_cases k <;> stencil_sum [ChebUStencil.Phi2Scaled]

/-- `Phi3` (value and 2 derivatives at both ends), `/repo/shenfun/chebyshevu/bases.py:566-571`. -/
theorem C27_chebu_Phi3 (N i : ℕ) (hi : i < N - 6) :
    Homogeneous (both 3) (basisFunction chebU (stencilMatrix ChebUStencil.Phi3 N 6) i) := by
  refine homogeneous_both chebU_right chebU_left hi (by simp [ChebUStencil.Phi3]) (by simp [ChebUStencil.Phi3]; try decide) _ fun k hk => ?_
  rw [List.mem_range] at hk
  interval_cases k <;> stencil_sum [ChebUStencil.Phi3]

set_option maxHeartbeats 4000000 in
/-- `Phi4` (value and 3 derivatives at both ends), `/repo/shenfun/chebyshevu/bases.py:638-644`. -/
theorem C27_chebu_Phi4 (N i : ℕ) (hi : i < N - 8) :
    Homogeneous (both 4) (basisFunction chebU (stencilMatrix ChebUStencil.Phi4 N 8) i) := by
  refine homogeneous_both chebU_right chebU_left hi (by simp [ChebUStencil.Phi4]) (by simp [ChebUStencil.Phi4]; try decide) _ fun k hk => ?_
  rw [List.mem_range] at hk
  interval_cases k <;> stencil_sum [ChebUStencil.Phi4]

set_option maxHeartbeats 4000000 in
/-- `Phi6` (value and 5 derivatives at both ends), `/repo/shenfun/chebyshevu/bases.py:712-720`. -/
theorem C27_chebu_Phi6 (N i : ℕ) (hi : i < N - 12) :
    Homogeneous (both 6) (basisFunction chebU (stencilMatrix ChebUStencil.Phi6 N 12) i) := by
  refine homogeneous_both chebU_right chebU_left hi (by simp [ChebUStencil.Phi6]) (by simp [ChebUStencil.Phi6]; try decide) _ fun k hk => ?_
  rw [List.mem_range] at hk
  interval_cases k <;> stencil_sum [ChebUStencil.Phi6]

/-- `CompactDirichlet` (zero at both ends), `/repo/shenfun/chebyshevu/bases.py:794`. -/
theorem C27_chebu_CompactDirichlet (N i : ℕ) (hi : i < N - 2) :
    Homogeneous (both 1) (basisFunction chebU (stencilMatrix ChebUStencil.CompactDirichlet N 2) i) := by
  refine homogeneous_both chebU_right chebU_left hi (by simp [ChebUStencil.CompactDirichlet]) (by simp [ChebUStencil.CompactDirichlet]; try decide) _ fun k hk => ?_
  rw [List.mem_range] at hk
  interval_cases k <;> stencil_sum [ChebUStencil.CompactDirichlet]

/-- `CompactDirichletScaled` (zero at both ends), `/repo/shenfun/chebyshevu/bases.py:796`. -/
theorem C27_chebu_CompactDirichletScaled (N i : ℕ) (hi : i < N - 2) :
    Homogeneous (both 1) (basisFunction chebU (stencilMatrix ChebUStencil.CompactDirichletScaled N 2) i) := by
  refine homogeneous_both chebU_right chebU_left hi (by simp [ChebUStencil.CompactDirichletScaled]) (by simp [ChebUStencil.CompactDirichletScaled]; try decide) _ fun k hk => ?_
  rw [List.mem_range] at hk
  interval_cases k <;> stencil_sum [ChebUStencil.CompactDirichletScaled]

/-- `CompactNeumann` (first derivative zero at both ends), `/repo/shenfun/chebyshevu/bases.py:859`. -/
theorem C27_chebu_CompactNeumann (N i : ℕ) (hi : i < N - 2) :
    Homogeneous ([(.left, 1), (.right, 1)]) (basisFunction chebU (stencilMatrix ChebUStencil.CompactNeumann N 2) i) := by
  refine homogeneous_both chebU_right chebU_left hi (by simp [ChebUStencil.CompactNeumann]) (by simp [ChebUStencil.CompactNeumann]; try decide) [1] fun k hk => ?_
  simp only [List.mem_singleton] at hk
  subst hk
  stencil_sum [ChebUStencil.CompactNeumann]

/-- `CompactBiharmonic` (value and 1 derivatives at both ends), `/repo/shenfun/chebyshevu/bases.py:1049-1053`. -/
theorem C27_chebu_CompactBiharmonic (N i : ℕ) (hi : i < N - 4) :
    Homogeneous (both 2) (basisFunction chebU (stencilMatrix ChebUStencil.CompactBiharmonic N 4) i) := by
  refine homogeneous_both chebU_right chebU_left hi (by simp [ChebUStencil.CompactBiharmonic]) (by simp [ChebUStencil.CompactBiharmonic]; try decide) _ fun k hk => ?_
  rw [List.mem_range] at hk
  interval_cases k <;> stencil_sum [ChebUStencil.CompactBiharmonic]

/-- `Compact3` (value and 2 derivatives at both ends), `/repo/shenfun/chebyshevu/bases.py:1115-1120`. -/
theorem C27_chebu_Compact3 (N i : ℕ) (hi : i < N - 6) :
    Homogeneous (both 3) (basisFunction chebU (stencilMatrix ChebUStencil.Compact3 N 6) i) := by
  refine homogeneous_both chebU_right chebU_left hi (by simp [ChebUStencil.Compact3]) (by simp [ChebUStencil.Compact3]; try decide) _ fun k hk => ?_
  rw [List.mem_range] at hk
  interval_cases k <;> stencil_sum [ChebUStencil.Compact3]

/-- `UpperDirichlet` (zero at the right end), `/repo/shenfun/chebyshevu/bases.py:918`. -/
theorem C27_chebu_UpperDirichlet (N i : ℕ) (hi : i < N - 1) :
    Homogeneous ([(.right, 0)]) (basisFunction chebU (stencilMatrix ChebUStencil.UpperDirichlet N 1) i) := by
  refine homogeneous_of_sums hi (by simp [ChebUStencil.UpperDirichlet]) _ fun bc hbc => ?_
  fin_cases hbc <;> simp only [Side.pt, chebU_right, chebU_left] <;> stencil_asum [ChebUStencil.UpperDirichlet]

end Shenfun
