import Verif.Lemmas.StencilBC

/-!
# C27: composite basis functions satisfy the homogeneous boundary conditions they are declared with

Legendre polynomials.
-/

namespace Shenfun

open Polynomial Spec

set_option linter.unusedSimpArgs false
set_option linter.unusedTactic false
set_option linter.unnecessarySeqFocus false

/-- `ShenDirichlet` (zero at both ends), `/repo/shenfun/legendre/bases.py:374`. -/
theorem C27_leg_ShenDirichlet (N i : ℕ) (hi : i < N - 2) :
    Homogeneous (both 1) (basisFunction legP (stencilMatrix LegStencil.ShenDirichlet N 2) i) := by
  refine homogeneous_both legP_right legP_left hi (by simp [LegStencil.ShenDirichlet]) (by simp [LegStencil.ShenDirichlet]; try decide) _ fun k hk => ?_
  rw [List.mem_range] at hk
  interval_cases k <;> stencil_sum [LegStencil.ShenDirichlet]

/-- `ShenDirichletScaled` (zero at both ends), `/repo/shenfun/legendre/bases.py:375-376`. -/
theorem C27_leg_ShenDirichletScaled (N i : ℕ) (hi : i < N - 2) :
    Homogeneous (both 1) (basisFunction legP (stencilMatrix LegStencil.ShenDirichletScaled N 2) i) := by
  refine homogeneous_both legP_right legP_left hi (by simp [LegStencil.ShenDirichletScaled]) (by simp [LegStencil.ShenDirichletScaled]; try decide) _ fun k hk => ?_
  rw [List.mem_range] at hk
  interval_cases k <;> stencil_sum [LegStencil.ShenDirichletScaled]

/-- `Phi1` (zero at both ends), `/repo/shenfun/legendre/bases.py:438`. -/
theorem C27_leg_Phi1 (N i : ℕ) (hi : i < N - 2) :
    Homogeneous (both 1) (basisFunction legP (stencilMatrix LegStencil.Phi1 N 2) i) := by
  refine homogeneous_both legP_right legP_left hi (by simp [LegStencil.Phi1]) (by simp [LegStencil.Phi1]; try decide) _ fun k hk => ?_
  rw [List.mem_range] at hk
  interval_cases k <;> stencil_sum [LegStencil.Phi1]

/-- `ShenNeumann` (first derivative zero at both ends), `/repo/shenfun/legendre/bases.py:502`. -/
theorem C27_leg_ShenNeumann (N i : ℕ) (hi : i < N - 2) :
    Homogeneous ([(.left, 1), (.right, 1)]) (basisFunction legP (stencilMatrix LegStencil.ShenNeumann N 2) i) := by
  refine homogeneous_both legP_right legP_left hi (by simp [LegStencil.ShenNeumann]) (by simp [LegStencil.ShenNeumann]; try decide) [1] fun k hk => ?_
  simp only [List.mem_singleton] at hk
  subst hk
  stencil_sum [LegStencil.ShenNeumann]

/-- `ShenBiharmonic` (value and 1 derivatives at both ends), `/repo/shenfun/legendre/bases.py:564`. -/
theorem C27_leg_ShenBiharmonic (N i : ℕ) (hi : i < N - 4) :
    Homogeneous (both 2) (basisFunction legP (stencilMatrix LegStencil.ShenBiharmonic N 4) i) := by
  refine homogeneous_both legP_right legP_left hi (by simp [LegStencil.ShenBiharmonic]) (by simp [LegStencil.ShenBiharmonic]; try decide) _ fun k hk => ?_
  rw [List.mem_range] at hk
  interval_cases k <;> stencil_sum [LegStencil.ShenBiharmonic]

/-- `Phi2` (value and 1 derivatives at both ends), `/repo/shenfun/legendre/bases.py:636`. -/
theorem C27_leg_Phi2 (N i : ℕ) (hi : i < N - 4) :
    Homogeneous (both 2) (basisFunction legP (stencilMatrix LegStencil.Phi2 N 4) i) := by
  refine homogeneous_both legP_right legP_left hi (by simp [LegStencil.Phi2]) (by simp [LegStencil.Phi2]; try decide) _ fun k hk => ?_
  rw [List.mem_range] at hk
  interval_cases k <;> stencil_sum [LegStencil.Phi2]

/-- `Phi3` (value and 2 derivatives at both ends), `/repo/shenfun/legendre/bases.py:699-704`. -/
theorem C27_leg_Phi3 (N i : ℕ) (hi : i < N - 6) :
    Homogeneous (both 3) (basisFunction legP (stencilMatrix LegStencil.Phi3 N 6) i) := by
  refine homogeneous_both legP_right legP_left hi (by simp [LegStencil.Phi3]) (by simp [LegStencil.Phi3]; try decide) _ fun k hk => ?_
  rw [List.mem_range] at hk
  interval_cases k <;> stencil_sum [LegStencil.Phi3]

set_option maxHeartbeats 4000000 in
/-- `Phi4` (value and 3 derivatives at both ends), `/repo/shenfun/legendre/bases.py:771-777`. -/
theorem C27_leg_Phi4 (N i : ℕ) (hi : i < N - 8) :
    Homogeneous (both 4) (basisFunction legP (stencilMatrix LegStencil.Phi4 N 8) i) := by
  refine homogeneous_both legP_right legP_left hi (by simp [LegStencil.Phi4]) (by simp [LegStencil.Phi4]; try decide) _ fun k hk => ?_
  rw [List.mem_range] at hk
  interval_cases k <;> stencil_sum [LegStencil.Phi4]

set_option maxHeartbeats 4000000 in
/-- `Phi6` (value and 5 derivatives at both ends), `/repo/shenfun/legendre/bases.py:837-845`. -/
theorem C27_leg_Phi6 (N i : ℕ) (hi : i < N - 12) :
    Homogeneous (both 6) (basisFunction legP (stencilMatrix LegStencil.Phi6 N 12) i) := by
  refine homogeneous_both legP_right legP_left hi (by simp [LegStencil.Phi6]) (by simp [LegStencil.Phi6]; try decide) _ fun k hk => ?_
  rw [List.mem_range] at hk
  interval_cases k <;> stencil_sum [LegStencil.Phi6]

/-- `Compact3` (value and 2 derivatives at both ends), `/repo/shenfun/legendre/bases.py:1392-1397`. -/
theorem C27_leg_Compact3 (N i : ℕ) (hi : i < N - 6) :
    Homogeneous (both 3) (basisFunction legP (stencilMatrix LegStencil.Compact3 N 6) i) := by
  refine homogeneous_both legP_right legP_left hi (by simp [LegStencil.Compact3]) (by simp [LegStencil.Compact3]; try decide) _ fun k hk => ?_
  rw [List.mem_range] at hk
  interval_cases k <;> stencil_sum [LegStencil.Compact3]

/-- `UpperDirichlet` (zero at the right end), `/repo/shenfun/legendre/bases.py:986`. -/
theorem C27_leg_UpperDirichlet (N i : ℕ) (hi : i < N - 1) :
    Homogeneous ([(.right, 0)]) (basisFunction legP (stencilMatrix LegStencil.UpperDirichlet N 1) i) := by
  refine homogeneous_of_sums hi (by simp [LegStencil.UpperDirichlet]) _ fun bc hbc => ?_
  fin_cases hbc <;> simp only [Side.pt, legP_right, legP_left] <;> stencil_asum [LegStencil.UpperDirichlet]

/-- `LowerDirichlet` (zero at the left end), `/repo/shenfun/legendre/bases.py:1197`. -/
theorem C27_leg_LowerDirichlet (N i : ℕ) (hi : i < N - 1) :
    Homogeneous ([(.left, 0)]) (basisFunction legP (stencilMatrix LegStencil.LowerDirichlet N 1) i) := by
  refine homogeneous_of_sums hi (by simp [LegStencil.LowerDirichlet]) _ fun bc hbc => ?_
  fin_cases hbc <;> simp only [Side.pt, legP_right, legP_left] <;> stencil_asum [LegStencil.LowerDirichlet]

/-- `DirichletNeumann` (value left, derivative right), `/repo/shenfun/legendre/bases.py:1137`. -/
theorem C27_leg_DirichletNeumann (N i : ℕ) (hi : i < N - 2) :
    Homogeneous ([(.left, 0), (.right, 1)]) (basisFunction legP (stencilMatrix LegStencil.DirichletNeumann N 2) i) := by
  refine homogeneous_of_sums hi (by simp [LegStencil.DirichletNeumann]) _ fun bc hbc => ?_
  fin_cases hbc <;> simp only [Side.pt, legP_right, legP_left] <;> stencil_asum [LegStencil.DirichletNeumann]

/-- `NeumannDirichlet` (derivative left, value right), `/repo/shenfun/legendre/bases.py:1261`. -/
theorem C27_leg_NeumannDirichlet (N i : ℕ) (hi : i < N - 2) :
    Homogeneous ([(.left, 1), (.right, 0)]) (basisFunction legP (stencilMatrix LegStencil.NeumannDirichlet N 2) i) := by
  refine homogeneous_of_sums hi (by simp [LegStencil.NeumannDirichlet]) _ fun bc hbc => ?_
  fin_cases hbc <;> simp only [Side.pt, legP_right, legP_left] <;> stencil_asum [LegStencil.NeumannDirichlet]

/-- `UpperDirichletNeumann` (value and derivative right), `/repo/shenfun/legendre/bases.py:1330`. -/
theorem C27_leg_UpperDirichletNeumann (N i : ℕ) (hi : i < N - 2) :
    Homogeneous ([(.right, 0), (.right, 1)]) (basisFunction legP (stencilMatrix LegStencil.UpperDirichletNeumann N 2) i) := by
  refine homogeneous_of_sums hi (by simp [LegStencil.UpperDirichletNeumann]) _ fun bc hbc => ?_
  fin_cases hbc <;> simp only [Side.pt, legP_right, legP_left] <;> stencil_asum [LegStencil.UpperDirichletNeumann]

/-- `BeamFixedFree` (clamped left, free right), `/repo/shenfun/legendre/bases.py:921-927`. -/
theorem C27_leg_BeamFixedFree (N i : ℕ) (hi : i < N - 4) :
    Homogeneous ([(.left, 0), (.left, 1), (.right, 2), (.right, 3)]) (basisFunction legP (stencilMatrix LegStencil.BeamFixedFree N 4) i) := by
  refine homogeneous_of_sums hi (by simp [LegStencil.BeamFixedFree]) _ fun bc hbc => ?_
  fin_cases hbc <;> simp only [Side.pt, legP_right, legP_left] <;> stencil_asum [LegStencil.BeamFixedFree]

end Shenfun
