import Verif.Lemmas.StencilBC

/-!
# C47: composite bases of the ultraspherical, Gegenbauer and Jacobi families
-/

namespace Shenfun

open Polynomial Spec

set_option linter.unusedSimpArgs false
set_option linter.unusedTactic false
set_option linter.unnecessarySeqFocus false
set_option linter.unusedVariables false

theorem four_rpow (a : ℝ) : (4:ℝ)^a = 2^(2*a) := by
  rw [Real.rpow_mul (by norm_num)]; norm_num

theorem two_rpow_one_sub (a : ℝ) : (2:ℝ)^(1 - 2*a) = 2 / 2^(2*a) := by
  rw [Real.rpow_sub (by norm_num), Real.rpow_one]

/-- `Phi1`, `/repo/shenfun/ultraspherical/bases.py:293-297`. -/
theorem C47_ultra_Phi1 (a : ℝ) (ha : -1 < a) (N i : ℕ) (hi : i < N - 2) :
    Homogeneous (both 1) (basisFunction (ultraQ a) (stencilMatrix (UltraStencil.Phi1 a) N 2) i) := by
  refine homogeneous_both (ultraQ_right a ha) (ultraQ_left a ha) hi (by simp [UltraStencil.Phi1])
    (by simp [UltraStencil.Phi1]; try decide) _ fun k hk => ?_
  rw [List.mem_range] at hk
  have hx : (0:ℝ) ≤ (i:ℝ) := Nat.cast_nonneg _
  have g1 : Real.Gamma (a+1) ≠ 0 := (Real.Gamma_pos_of_pos (by linarith)).ne'
  have g2 : Real.Gamma ((i:ℝ)+2) ≠ 0 := (Real.Gamma_pos_of_pos (by linarith)).ne'
  have g3 : (2:ℝ)^(2*a) ≠ 0 := (Real.rpow_pos_of_pos (by norm_num) _).ne'
  have a0 : a + 1 ≠ 0 := by linarith
  have d3 : 2*(a+(i:ℝ))+3 ≠ 0 := by linarith
  simp only [UltraStencil.Phi1, four_rpow, two_rpow_one_sub]
  interval_cases k <;>
    simp only [SVal.at, bndFactor, Finset.prod_range_succ, Finset.prod_range_zero, List.map_cons, List.map_nil,
      List.sum_cons, List.sum_nil] <;>
    push_cast <;>
    generalize Real.Gamma (2*a+(i:ℝ)+2) = G at * <;> generalize (2:ℝ)^(2*a) = T at * <;>
    generalize Real.Gamma (a+1) = H at * <;> generalize Real.Gamma ((i:ℝ)+2) = L at * <;>
    (field_simp; ring)

/-- `Phi2`, `/repo/shenfun/ultraspherical/bases.py:369-373`. -/
theorem C47_ultra_Phi2 (a : ℝ) (ha : -1 < a) (N i : ℕ) (hi : i < N - 4) :
    Homogeneous (both 2) (basisFunction (ultraQ a) (stencilMatrix (UltraStencil.Phi2 a) N 4) i) := by
  refine homogeneous_both (ultraQ_right a ha) (ultraQ_left a ha) hi (by simp [UltraStencil.Phi2])
    (by simp [UltraStencil.Phi2]; try decide) _ fun k hk => ?_
  rw [List.mem_range] at hk
  have hx : (0:ℝ) ≤ (i:ℝ) := Nat.cast_nonneg _
  have g1 : Real.Gamma (a+1) ≠ 0 := (Real.Gamma_pos_of_pos (by linarith)).ne'
  have g2 : Real.Gamma ((i:ℝ)+3) ≠ 0 := (Real.Gamma_pos_of_pos (by linarith)).ne'
  have g3 : (2:ℝ)^(2*a) ≠ 0 := (Real.rpow_pos_of_pos (by norm_num) _).ne'
  have a0 : a + 1 ≠ 0 := by linarith
  have a1 : a + 1 + 1 ≠ 0 := by linarith
  have d3 : 2*(a+(i:ℝ))+3 ≠ 0 := by linarith
  have d5 : 2*(a+(i:ℝ))+5 ≠ 0 := by linarith
  have d7 : 2*(a+(i:ℝ))+7 ≠ 0 := by linarith
  simp only [UltraStencil.Phi2, four_rpow, two_rpow_one_sub]
  interval_cases k <;>
    simp only [SVal.at, bndFactor, Finset.prod_range_succ, Finset.prod_range_zero, List.map_cons, List.map_nil,
      List.sum_cons, List.sum_nil] <;>
    push_cast <;>
    generalize Real.Gamma (2*a+(i:ℝ)+3) = G at * <;> generalize (2:ℝ)^(2*a) = T at * <;>
    generalize Real.Gamma (a+1) = H at * <;> generalize Real.Gamma ((i:ℝ)+3) = L at * <;>
    (field_simp; ring)

set_option maxHeartbeats 8000000 in
/-- `Phi3`, `/repo/shenfun/ultraspherical/bases.py:444-449`. -/
theorem C47_ultra_Phi3 (a : ℝ) (ha : -1 < a) (N i : ℕ) (hi : i < N - 6) :
    Homogeneous (both 3) (basisFunction (ultraQ a) (stencilMatrix (UltraStencil.Phi3 a) N 6) i) := by
  refine homogeneous_both (ultraQ_right a ha) (ultraQ_left a ha) hi (by simp [UltraStencil.Phi3])
    (by simp [UltraStencil.Phi3]; try decide) _ fun k hk => ?_
  rw [List.mem_range] at hk
  have hx : (0:ℝ) ≤ (i:ℝ) := Nat.cast_nonneg _
  have g1 : Real.Gamma (a+1) ≠ 0 := (Real.Gamma_pos_of_pos (by linarith)).ne'
  have g2 : Real.Gamma ((i:ℝ)+4) ≠ 0 := (Real.Gamma_pos_of_pos (by linarith)).ne'
  have g3 : (2:ℝ)^(2*a) ≠ 0 := (Real.rpow_pos_of_pos (by norm_num) _).ne'
  have a0 : a + 1 ≠ 0 := by linarith
  have a1 : a + 1 + 1 ≠ 0 := by linarith
  have a2 : a + 1 + 2 ≠ 0 := by linarith
  have d3 : 2*(a+(i:ℝ))+3 ≠ 0 := by linarith
  have d5 : 2*(a+(i:ℝ))+5 ≠ 0 := by linarith
  have d7 : 2*(a+(i:ℝ))+7 ≠ 0 := by linarith
  have d9 : 2*(a+(i:ℝ))+9 ≠ 0 := by linarith
  have d11 : 2*(a+(i:ℝ))+11 ≠ 0 := by linarith
  simp only [UltraStencil.Phi3, four_rpow, two_rpow_one_sub]
  interval_cases k <;>
    simp only [SVal.at, bndFactor, Finset.prod_range_succ, Finset.prod_range_zero, List.map_cons, List.map_nil,
      List.sum_cons, List.sum_nil] <;>
    push_cast <;>
    generalize Real.Gamma (2*a+(i:ℝ)+4) = G at * <;> generalize (2:ℝ)^(2*a) = T at * <;>
    generalize Real.Gamma (a+1) = H at * <;> generalize Real.Gamma ((i:ℝ)+4) = L at * <;>
    (field_simp; ring)

set_option maxHeartbeats 8000000 in
/-- `Phi4`, `/repo/shenfun/ultraspherical/bases.py:523-529`. -/
theorem C47_ultra_Phi4 (a : ℝ) (ha : -1 < a) (N i : ℕ) (hi : i < N - 8) :
    Homogeneous (both 4) (basisFunction (ultraQ a) (stencilMatrix (UltraStencil.Phi4 a) N 8) i) := by
  refine homogeneous_both (ultraQ_right a ha) (ultraQ_left a ha) hi (by simp [UltraStencil.Phi4])
    (by simp [UltraStencil.Phi4]; try decide) _ fun k hk => ?_
  rw [List.mem_range] at hk
  have hx : (0:ℝ) ≤ (i:ℝ) := Nat.cast_nonneg _
  have g1 : Real.Gamma (a+1) ≠ 0 := (Real.Gamma_pos_of_pos (by linarith)).ne'
  have g2 : Real.Gamma ((i:ℝ)+5) ≠ 0 := (Real.Gamma_pos_of_pos (by linarith)).ne'
  have g3 : (2:ℝ)^(2*a) ≠ 0 := (Real.rpow_pos_of_pos (by norm_num) _).ne'
  have a0 : a + 1 ≠ 0 := by linarith
  have a1 : a + 1 + 1 ≠ 0 := by linarith
  have a2 : a + 1 + 2 ≠ 0 := by linarith
  have a3 : a + 1 + 3 ≠ 0 := by linarith
  have d3 : 2*(a+(i:ℝ))+3 ≠ 0 := by linarith
  have d5 : 2*(a+(i:ℝ))+5 ≠ 0 := by linarith
  have d7 : 2*(a+(i:ℝ))+7 ≠ 0 := by linarith
  have d9 : 2*(a+(i:ℝ))+9 ≠ 0 := by linarith
  have d11 : 2*(a+(i:ℝ))+11 ≠ 0 := by linarith
  have d13 : 2*(a+(i:ℝ))+13 ≠ 0 := by linarith
  have d15 : 2*(a+(i:ℝ))+15 ≠ 0 := by linarith
  simp only [UltraStencil.Phi4, four_rpow, two_rpow_one_sub]
  interval_cases k <;>
    simp only [SVal.at, bndFactor, Finset.prod_range_succ, Finset.prod_range_zero, List.map_cons, List.map_nil,
      List.sum_cons, List.sum_nil] <;>
    push_cast <;>
    generalize Real.Gamma (2*a+(i:ℝ)+5) = G at * <;> generalize (2:ℝ)^(2*a) = T at * <;>
    generalize Real.Gamma (a+1) = H at * <;> generalize Real.Gamma ((i:ℝ)+5) = L at * <;>
    (field_simp; ring)

set_option maxHeartbeats 8000000 in
/-- `Phi6`, `/repo/shenfun/ultraspherical/bases.py:603-613`. -/
theorem C47_ultra_Phi6 (a : ℝ) (ha : -1 < a) (N i : ℕ) (hi : i < N - 12) :
    Homogeneous (both 6) (basisFunction (ultraQ a) (stencilMatrix (UltraStencil.Phi6 a) N 12) i) := by
  refine homogeneous_both (ultraQ_right a ha) (ultraQ_left a ha) hi (by simp [UltraStencil.Phi6])
    (by simp [UltraStencil.Phi6]; try decide) _ fun k hk => ?_
  rw [List.mem_range] at hk
  have hx : (0:ℝ) ≤ (i:ℝ) := Nat.cast_nonneg _
  have g1 : Real.Gamma (a+1) ≠ 0 := (Real.Gamma_pos_of_pos (by linarith)).ne'
  have g2 : Real.Gamma ((i:ℝ)+7) ≠ 0 := (Real.Gamma_pos_of_pos (by linarith)).ne'
  have g3 : (2:ℝ)^(2*a) ≠ 0 := (Real.rpow_pos_of_pos (by norm_num) _).ne'
  have a0 : a + 1 ≠ 0 := by linarith
  have a1 : a + 1 + 1 ≠ 0 := by linarith
  have a2 : a + 1 + 2 ≠ 0 := by linarith
  have a3 : a + 1 + 3 ≠ 0 := by linarith
  have a4 : a + 1 + 4 ≠ 0 := by linarith
  have a5 : a + 1 + 5 ≠ 0 := by linarith
  have d3 : 2*(a+(i:ℝ))+3 ≠ 0 := by linarith
  have d5 : 2*(a+(i:ℝ))+5 ≠ 0 := by linarith
  have d7 : 2*(a+(i:ℝ))+7 ≠ 0 := by linarith
  have d9 : 2*(a+(i:ℝ))+9 ≠ 0 := by linarith
  have d11 : 2*(a+(i:ℝ))+11 ≠ 0 := by linarith
  have d13 : 2*(a+(i:ℝ))+13 ≠ 0 := by linarith
  have d15 : 2*(a+(i:ℝ))+15 ≠ 0 := by linarith
  have d17 : 2*(a+(i:ℝ))+17 ≠ 0 := by linarith
  have d19 : 2*(a+(i:ℝ))+19 ≠ 0 := by linarith
  have d21 : 2*(a+(i:ℝ))+21 ≠ 0 := by linarith
  have d23 : 2*(a+(i:ℝ))+23 ≠ 0 := by linarith
  simp only [UltraStencil.Phi6, four_rpow, two_rpow_one_sub]
  interval_cases k <;>
    simp only [SVal.at, bndFactor, Finset.prod_range_succ, Finset.prod_range_zero, List.map_cons, List.map_nil,
      List.sum_cons, List.sum_nil] <;>
    push_cast <;>
    generalize Real.Gamma (2*a+(i:ℝ)+7) = G at * <;> generalize (2:ℝ)^(2*a) = T at * <;>
    generalize Real.Gamma (a+1) = H at * <;> generalize Real.Gamma ((i:ℝ)+7) = L at * <;>
    (field_simp; ring)

end Shenfun
