import Verif.Props.StencilBasis
import Verif.Props.StencilJacobiPhi34
import Verif.Props.StencilSpecial

/-!
# C48: completeness of the ultraspherical and Jacobi composite bases, for all parameters
-/

namespace Shenfun

open Polynomial Spec

set_option linter.unusedSimpArgs false
set_option linter.unusedTactic false
set_option linter.unnecessarySeqFocus false
set_option linter.unreachableTactic false
set_option linter.unusedVariables false

/-- Filtering a stencil whose extra entries have other offsets. -/
theorem filter_append_ite {a b : ℝ} (L M : Stencil) (m : ℕ) [Decidable (a ≠ b)] (h : ∀ e ∈ M, e.1 ≠ m) :
    ((L ++ if a ≠ b then M else []).filter fun e => e.1 = m) = L.filter fun e => e.1 = m := by
  rw [List.filter_append]
  have : ((if a ≠ b then M else []).filter fun e => e.1 = m) = [] := by
    split_ifs
    · rw [List.filter_eq_nil_iff]; intro e he; simpa using h e he
    · rfl
  rw [this, List.append_nil]

/-- Products and quotients of nonzero factors. -/
macro "nz" : tactic => `(tactic| (
  repeat' first
    | refine pow_ne_zero 2 ?_ | apply div_ne_zero | apply mul_ne_zero | apply neg_ne_zero.2
  all_goals first
    | assumption
    | norm_num; done
    | (apply ne_of_gt; first | assumption | positivity | linarith | (apply Real.Gamma_pos_of_pos; linarith) | (apply Real.rpow_pos_of_pos; norm_num))
    | (apply ne_of_lt; first | assumption | linarith)))

/-- Ultraspherical `Phi1`, every parameter `a > -1`. -/
theorem C48_ultra_Phi1 (a : ℝ) (ha : -1 < a) (N : ℕ) (hN : 2 ≤ N) :
    IsBasisFor (both 1) N (N - 2) (basisFunction (ultraQ a) (stencilMatrix (UltraStencil.Phi1 a) N 2)) := by
  refine isBasisFor_stencil (degree_ultraQ ha) (by simp [UltraStencil.Phi1]) (fun i => ?_) (C47_ultra_Phi1 a ha)
    (fun p hp h => both_unisolvent 1 p hp h) N hN
  have hx : (0:ℝ) ≤ (i:ℝ) := Nat.cast_nonneg _
  have g1 : 0 < Real.Gamma (a+1) := Real.Gamma_pos_of_pos (by linarith)
  have g2 : ∀ c : ℝ, 2 ≤ c → 0 < Real.Gamma ((i:ℝ) + c) := fun c hc => Real.Gamma_pos_of_pos (by linarith)
  have g3 : ∀ c : ℝ, 2 ≤ c → 0 < Real.Gamma (2*a + (i:ℝ) + c) := fun c hc => Real.Gamma_pos_of_pos (by linarith)
  have g4 : (0:ℝ) < 2^(2*a) := Real.rpow_pos_of_pos (by norm_num) _
  have d : ∀ c : ℝ, 2 ≤ c → 0 < 2*a + 2*(i:ℝ) + c := fun c hc => by linarith
  simp only [UltraStencil.Phi1, SVal.at, List.filter_cons, List.filter_nil, List.map_cons, List.map_nil, List.sum_cons, List.sum_nil]
  norm_num [-mul_eq_zero, -div_eq_zero_iff]
  nz

/-- Ultraspherical `Phi2`, every parameter `a > -1`. -/
theorem C48_ultra_Phi2 (a : ℝ) (ha : -1 < a) (N : ℕ) (hN : 4 ≤ N) :
    IsBasisFor (both 2) N (N - 4) (basisFunction (ultraQ a) (stencilMatrix (UltraStencil.Phi2 a) N 4)) := by
  refine isBasisFor_stencil (degree_ultraQ ha) (by simp [UltraStencil.Phi2]) (fun i => ?_) (C47_ultra_Phi2 a ha)
    (fun p hp h => both_unisolvent 2 p hp h) N hN
  have hx : (0:ℝ) ≤ (i:ℝ) := Nat.cast_nonneg _
  have g1 : 0 < Real.Gamma (a+1) := Real.Gamma_pos_of_pos (by linarith)
  have g2 : ∀ c : ℝ, 2 ≤ c → 0 < Real.Gamma ((i:ℝ) + c) := fun c hc => Real.Gamma_pos_of_pos (by linarith)
  have g3 : ∀ c : ℝ, 2 ≤ c → 0 < Real.Gamma (2*a + (i:ℝ) + c) := fun c hc => Real.Gamma_pos_of_pos (by linarith)
  have g4 : (0:ℝ) < 2^(2*a) := Real.rpow_pos_of_pos (by norm_num) _
  have d : ∀ c : ℝ, 2 ≤ c → 0 < 2*a + 2*(i:ℝ) + c := fun c hc => by linarith
  simp only [UltraStencil.Phi2, SVal.at, List.filter_cons, List.filter_nil, List.map_cons, List.map_nil, List.sum_cons, List.sum_nil]
  norm_num [-mul_eq_zero, -div_eq_zero_iff]
  nz

/-- Ultraspherical `Phi3`, every parameter `a > -1`. -/
theorem C48_ultra_Phi3 (a : ℝ) (ha : -1 < a) (N : ℕ) (hN : 6 ≤ N) :
    IsBasisFor (both 3) N (N - 6) (basisFunction (ultraQ a) (stencilMatrix (UltraStencil.Phi3 a) N 6)) := by
  refine isBasisFor_stencil (degree_ultraQ ha) (by simp [UltraStencil.Phi3]) (fun i => ?_) (C47_ultra_Phi3 a ha)
    (fun p hp h => both_unisolvent 3 p hp h) N hN
  have hx : (0:ℝ) ≤ (i:ℝ) := Nat.cast_nonneg _
  have g1 : 0 < Real.Gamma (a+1) := Real.Gamma_pos_of_pos (by linarith)
  have g2 : ∀ c : ℝ, 2 ≤ c → 0 < Real.Gamma ((i:ℝ) + c) := fun c hc => Real.Gamma_pos_of_pos (by linarith)
  have g3 : ∀ c : ℝ, 2 ≤ c → 0 < Real.Gamma (2*a + (i:ℝ) + c) := fun c hc => Real.Gamma_pos_of_pos (by linarith)
  have g4 : (0:ℝ) < 2^(2*a) := Real.rpow_pos_of_pos (by norm_num) _
  have d : ∀ c : ℝ, 2 ≤ c → 0 < 2*a + 2*(i:ℝ) + c := fun c hc => by linarith
  simp only [UltraStencil.Phi3, SVal.at, List.filter_cons, List.filter_nil, List.map_cons, List.map_nil, List.sum_cons, List.sum_nil]
  norm_num [-mul_eq_zero, -div_eq_zero_iff]
  nz

/-- Ultraspherical `Phi4`, every parameter `a > -1`. -/
theorem C48_ultra_Phi4 (a : ℝ) (ha : -1 < a) (N : ℕ) (hN : 8 ≤ N) :
    IsBasisFor (both 4) N (N - 8) (basisFunction (ultraQ a) (stencilMatrix (UltraStencil.Phi4 a) N 8)) := by
  refine isBasisFor_stencil (degree_ultraQ ha) (by simp [UltraStencil.Phi4]) (fun i => ?_) (C47_ultra_Phi4 a ha)
    (fun p hp h => both_unisolvent 4 p hp h) N hN
  have hx : (0:ℝ) ≤ (i:ℝ) := Nat.cast_nonneg _
  have g1 : 0 < Real.Gamma (a+1) := Real.Gamma_pos_of_pos (by linarith)
  have g2 : ∀ c : ℝ, 2 ≤ c → 0 < Real.Gamma ((i:ℝ) + c) := fun c hc => Real.Gamma_pos_of_pos (by linarith)
  have g3 : ∀ c : ℝ, 2 ≤ c → 0 < Real.Gamma (2*a + (i:ℝ) + c) := fun c hc => Real.Gamma_pos_of_pos (by linarith)
  have g4 : (0:ℝ) < 2^(2*a) := Real.rpow_pos_of_pos (by norm_num) _
  have d : ∀ c : ℝ, 2 ≤ c → 0 < 2*a + 2*(i:ℝ) + c := fun c hc => by linarith
  simp only [UltraStencil.Phi4, SVal.at, List.filter_cons, List.filter_nil, List.map_cons, List.map_nil, List.sum_cons, List.sum_nil]
  norm_num [-mul_eq_zero, -div_eq_zero_iff]
  nz

/-- Ultraspherical `Phi6`, every parameter `a > -1`. -/
theorem C48_ultra_Phi6 (a : ℝ) (ha : -1 < a) (N : ℕ) (hN : 12 ≤ N) :
    IsBasisFor (both 6) N (N - 12) (basisFunction (ultraQ a) (stencilMatrix (UltraStencil.Phi6 a) N 12)) := by
  refine isBasisFor_stencil (degree_ultraQ ha) (by simp [UltraStencil.Phi6]) (fun i => ?_) (C47_ultra_Phi6 a ha)
    (fun p hp h => both_unisolvent 6 p hp h) N hN
  have hx : (0:ℝ) ≤ (i:ℝ) := Nat.cast_nonneg _
  have g1 : 0 < Real.Gamma (a+1) := Real.Gamma_pos_of_pos (by linarith)
  have g2 : ∀ c : ℝ, 2 ≤ c → 0 < Real.Gamma ((i:ℝ) + c) := fun c hc => Real.Gamma_pos_of_pos (by linarith)
  have g3 : ∀ c : ℝ, 2 ≤ c → 0 < Real.Gamma (2*a + (i:ℝ) + c) := fun c hc => Real.Gamma_pos_of_pos (by linarith)
  have g4 : (0:ℝ) < 2^(2*a) := Real.rpow_pos_of_pos (by norm_num) _
  have d : ∀ c : ℝ, 2 ≤ c → 0 < 2*a + 2*(i:ℝ) + c := fun c hc => by linarith
  simp only [UltraStencil.Phi6, SVal.at, List.filter_cons, List.filter_nil, List.map_cons, List.map_nil, List.sum_cons, List.sum_nil]
  norm_num [-mul_eq_zero, -div_eq_zero_iff]
  nz

/-- Ultraspherical `CompactDirichlet`, every parameter `a > -1`. -/
theorem C48_ultra_CompactDirichlet (a : ℝ) (ha : -1 < a) (N : ℕ) (hN : 2 ≤ N) :
    IsBasisFor (both 1) N (N - 2) (basisFunction (ultraQ a) (stencilMatrix UltraStencil.CompactDirichlet N 2)) := by
  refine isBasisFor_stencil (degree_ultraQ ha) (by simp [UltraStencil.CompactDirichlet]) (fun i => ?_) (C47_ultra_CompactDirichlet a ha)
    (fun p hp h => both_unisolvent 1 p hp h) N hN
  have hx : (0:ℝ) ≤ (i:ℝ) := Nat.cast_nonneg _
  have g1 : 0 < Real.Gamma (a+1) := Real.Gamma_pos_of_pos (by linarith)
  have g2 : ∀ c : ℝ, 2 ≤ c → 0 < Real.Gamma ((i:ℝ) + c) := fun c hc => Real.Gamma_pos_of_pos (by linarith)
  have g3 : ∀ c : ℝ, 2 ≤ c → 0 < Real.Gamma (2*a + (i:ℝ) + c) := fun c hc => Real.Gamma_pos_of_pos (by linarith)
  have g4 : (0:ℝ) < 2^(2*a) := Real.rpow_pos_of_pos (by norm_num) _
  have d : ∀ c : ℝ, 2 ≤ c → 0 < 2*a + 2*(i:ℝ) + c := fun c hc => by linarith
  simp only [UltraStencil.CompactDirichlet, SVal.at, List.filter_cons, List.filter_nil, List.map_cons, List.map_nil, List.sum_cons, List.sum_nil]
  norm_num [-mul_eq_zero, -div_eq_zero_iff]
  nz

/-- Ultraspherical `CompactBiharmonic`, every parameter `a > -1`. -/
theorem C48_ultra_CompactBiharmonic (a : ℝ) (ha : -1 < a) (N : ℕ) (hN : 4 ≤ N) :
    IsBasisFor (both 2) N (N - 4) (basisFunction (ultraQ a) (stencilMatrix (UltraStencil.CompactBiharmonic a) N 4)) := by
  refine isBasisFor_stencil (degree_ultraQ ha) (by simp [UltraStencil.CompactBiharmonic]) (fun i => ?_) (C47_ultra_CompactBiharmonic a ha)
    (fun p hp h => both_unisolvent 2 p hp h) N hN
  have hx : (0:ℝ) ≤ (i:ℝ) := Nat.cast_nonneg _
  have g1 : 0 < Real.Gamma (a+1) := Real.Gamma_pos_of_pos (by linarith)
  have g2 : ∀ c : ℝ, 2 ≤ c → 0 < Real.Gamma ((i:ℝ) + c) := fun c hc => Real.Gamma_pos_of_pos (by linarith)
  have g3 : ∀ c : ℝ, 2 ≤ c → 0 < Real.Gamma (2*a + (i:ℝ) + c) := fun c hc => Real.Gamma_pos_of_pos (by linarith)
  have g4 : (0:ℝ) < 2^(2*a) := Real.rpow_pos_of_pos (by norm_num) _
  have d : ∀ c : ℝ, 2 ≤ c → 0 < 2*a + 2*(i:ℝ) + c := fun c hc => by linarith
  simp only [UltraStencil.CompactBiharmonic, SVal.at, List.filter_cons, List.filter_nil, List.map_cons, List.map_nil, List.sum_cons, List.sum_nil]
  norm_num [-mul_eq_zero, -div_eq_zero_iff]
  nz

/-- Ultraspherical `UpperDirichlet`, every parameter `a > -1`. -/
theorem C48_ultra_UpperDirichlet (a : ℝ) (ha : -1 < a) (N : ℕ) (hN : 1 ≤ N) :
    IsBasisFor [(.right, 0)] N (N - 1) (basisFunction (ultraQ a) (stencilMatrix UltraStencil.UpperDirichlet N 1)) := by
  refine isBasisFor_stencil (degree_ultraQ ha) (by simp [UltraStencil.UpperDirichlet]) (fun i => ?_) (C47_ultra_UpperDirichlet a ha)
    uni_right N hN
  have hx : (0:ℝ) ≤ (i:ℝ) := Nat.cast_nonneg _
  have g1 : 0 < Real.Gamma (a+1) := Real.Gamma_pos_of_pos (by linarith)
  have g2 : ∀ c : ℝ, 2 ≤ c → 0 < Real.Gamma ((i:ℝ) + c) := fun c hc => Real.Gamma_pos_of_pos (by linarith)
  have g3 : ∀ c : ℝ, 2 ≤ c → 0 < Real.Gamma (2*a + (i:ℝ) + c) := fun c hc => Real.Gamma_pos_of_pos (by linarith)
  have g4 : (0:ℝ) < 2^(2*a) := Real.rpow_pos_of_pos (by norm_num) _
  have d : ∀ c : ℝ, 2 ≤ c → 0 < 2*a + 2*(i:ℝ) + c := fun c hc => by linarith
  simp only [UltraStencil.UpperDirichlet, SVal.at, List.filter_cons, List.filter_nil, List.map_cons, List.map_nil, List.sum_cons, List.sum_nil]
  norm_num [-mul_eq_zero, -div_eq_zero_iff]
  nz

/-- Ultraspherical `CompactNeumann`, every parameter `a > -1`. -/
theorem C48_ultra_CompactNeumann (a : ℝ) (ha : -1 < a) (N : ℕ) (hN : 3 ≤ N) :
    IsBasisFor [(.left, 1), (.right, 1)] N (N - 2) (basisFunction (ultraQ a) (stencilMatrix (UltraStencil.CompactNeumann a) N 2)) := by
  have q0 : ultraQ a 0 = 1 := by simp [ultraQ, jacobi_zero]
  refine isBasisFor_neumann (degree_ultraQ ha) (by simp [UltraStencil.CompactNeumann]) ?_ (fun i hi => ?_)
    (C47_ultra_CompactNeumann a ha) N hN
  · rw [basisFunction_stencil _ _ _ _ _ (by omega) (by simp [UltraStencil.CompactNeumann])]
    simp [UltraStencil.CompactNeumann, SVal.at, q0]
  have hx : (1:ℝ) ≤ (i:ℝ) := by exact_mod_cast hi
  have e : 2*a*(i:ℝ) + 4*a + (i:ℝ)^2 + 5*i + 6 = (i+2) * (i + 2*a + 3) := by ring
  have e' : 0 < 2*a*(i:ℝ) + 4*a + (i:ℝ)^2 + 5*i + 6 := by
    rw [e]; exact mul_pos (by linarith) (by linarith)
  simp only [UltraStencil.CompactNeumann, SVal.at, List.filter_cons, List.filter_nil, List.map_cons, List.map_nil, List.sum_cons,
    List.sum_nil]
  norm_num [-mul_eq_zero, -div_eq_zero_iff]
  nz

/-- Jacobi `UpperDirichlet`, all parameters. -/
theorem C48_jacobi_UpperDirichlet (a b : ℝ) (ha : -1 < a) (hb : -1 < b) (N : ℕ) (hN : 1 ≤ N) :
    IsBasisFor [(.right, 0)] N (N - 1) (basisFunction (jacobi a b) (stencilMatrix (JacStencil.UpperDirichlet a) N 1)) := by
  refine isBasisFor_stencil (degree_jacobi ha hb) (by simp [JacStencil.UpperDirichlet]) (fun i => ?_)
    (C47_jacobi_UpperDirichlet a b ha) uni_right N hN
  have hx : (0:ℝ) ≤ (i:ℝ) := Nat.cast_nonneg _
  simp only [JacStencil.UpperDirichlet, SVal.at, List.filter_cons, List.filter_nil, List.map_cons, List.map_nil, List.sum_cons,
    List.sum_nil]
  norm_num [-mul_eq_zero, -div_eq_zero_iff]
  nz

/-- Jacobi `LowerDirichlet`, all parameters. -/
theorem C48_jacobi_LowerDirichlet (a b : ℝ) (ha : -1 < a) (hb : -1 < b) (N : ℕ) (hN : 1 ≤ N) :
    IsBasisFor [(.left, 0)] N (N - 1) (basisFunction (jacobi a b) (stencilMatrix (JacStencil.LowerDirichlet b) N 1)) := by
  refine isBasisFor_stencil (degree_jacobi ha hb) (by simp [JacStencil.LowerDirichlet]) (fun i => ?_)
    (C47_jacobi_LowerDirichlet a b hb) uni_left N hN
  have hx : (0:ℝ) ≤ (i:ℝ) := Nat.cast_nonneg _
  simp only [JacStencil.LowerDirichlet, SVal.at, List.filter_cons, List.filter_nil, List.map_cons, List.map_nil, List.sum_cons,
    List.sum_nil]
  norm_num [-mul_eq_zero, -div_eq_zero_iff]
  nz

/-- Jacobi `CompactDirichlet`, all parameters. -/
theorem C48_jacobi_CompactDirichlet (a b : ℝ) (ha : -1 < a) (hb : -1 < b) (N : ℕ) (hN : 2 ≤ N) :
    IsBasisFor (both 1) N (N - 2) (basisFunction (jacobi a b) (stencilMatrix (JacStencil.CompactDirichlet a b) N 2)) := by
  refine isBasisFor_stencil (degree_jacobi ha hb) (by unfold JacStencil.CompactDirichlet; split_ifs <;> simp) (fun i => ?_)
    (C47_jacobi_CompactDirichlet a b ha hb) (fun p hp h => both_unisolvent 1 p hp h) N hN
  have hx : (0:ℝ) ≤ (i:ℝ) := Nat.cast_nonneg _
  unfold JacStencil.CompactDirichlet
  rw [filter_append_ite _ _ _ (by simp)]
  simp only [SVal.at, List.filter_cons, List.filter_nil, List.map_cons, List.map_nil, List.sum_cons, List.sum_nil]
  norm_num [-mul_eq_zero, -div_eq_zero_iff]
  nz

/-- Jacobi `Phi1`, all parameters. -/
theorem C48_jacobi_Phi1 (a b : ℝ) (ha : -1 < a) (hb : -1 < b) (N : ℕ) (hN : 2 ≤ N) :
    IsBasisFor (both 1) N (N - 2) (basisFunction (jacobi a b) (stencilMatrix (JacStencil.Phi1 a b) N 2)) := by
  refine isBasisFor_stencil (degree_jacobi ha hb) (by unfold JacStencil.Phi1; split_ifs <;> simp) (fun i => ?_)
    (C47_jacobi_Phi1 a b ha hb) (fun p hp h => both_unisolvent 1 p hp h) N hN
  have hx : (0:ℝ) ≤ (i:ℝ) := Nat.cast_nonneg _
  unfold JacStencil.Phi1
  rw [filter_append_ite _ _ _ (by simp)]
  simp only [SVal.at, List.filter_cons, List.filter_nil, List.map_cons, List.map_nil, List.sum_cons, List.sum_nil]
  norm_num [-mul_eq_zero, -div_eq_zero_iff]
  nz

/-- Jacobi `Phi2`, all parameters. -/
theorem C48_jacobi_Phi2 (a b : ℝ) (ha : -1 < a) (hb : -1 < b) (N : ℕ) (hN : 4 ≤ N) :
    IsBasisFor (both 2) N (N - 4) (basisFunction (jacobi a b) (stencilMatrix (JacStencil.Phi2 a b) N 4)) := by
  refine isBasisFor_stencil (degree_jacobi ha hb) (by unfold JacStencil.Phi2; split_ifs <;> simp) (fun i => ?_)
    (C47_jacobi_Phi2 a b ha hb) (fun p hp h => both_unisolvent 2 p hp h) N hN
  have hx : (0:ℝ) ≤ (i:ℝ) := Nat.cast_nonneg _
  unfold JacStencil.Phi2
  rw [filter_append_ite _ _ _ (by simp)]
  simp only [SVal.at, List.filter_cons, List.filter_nil, List.map_cons, List.map_nil, List.sum_cons, List.sum_nil]
  norm_num [-mul_eq_zero, -div_eq_zero_iff]
  nz

/-- Jacobi `Phi3`, all parameters. -/
theorem C48_jacobi_Phi3 (a b : ℝ) (ha : -1 < a) (hb : -1 < b) (N : ℕ) (hN : 6 ≤ N) :
    IsBasisFor (both 3) N (N - 6) (basisFunction (jacobi a b) (stencilMatrix (JacStencil.Phi3 a b) N 6)) := by
  refine isBasisFor_stencil (degree_jacobi ha hb) (by unfold JacStencil.Phi3; split_ifs <;> simp) (fun i => ?_)
    (C47_jacobi_Phi3 a b ha hb) (fun p hp h => both_unisolvent 3 p hp h) N hN
  have hx : (0:ℝ) ≤ (i:ℝ) := Nat.cast_nonneg _
  unfold JacStencil.Phi3
  rw [filter_append_ite _ _ _ (by simp)]
  simp only [SVal.at, List.filter_cons, List.filter_nil, List.map_cons, List.map_nil, List.sum_cons, List.sum_nil]
  norm_num [-mul_eq_zero, -div_eq_zero_iff]
  nz

/-- Jacobi `Phi4`, all parameters. -/
theorem C48_jacobi_Phi4 (a b : ℝ) (ha : -1 < a) (hb : -1 < b) (N : ℕ) (hN : 8 ≤ N) :
    IsBasisFor (both 4) N (N - 8) (basisFunction (jacobi a b) (stencilMatrix (JacStencil.Phi4 a b) N 8)) := by
  refine isBasisFor_stencil (degree_jacobi ha hb) (by unfold JacStencil.Phi4; split_ifs <;> simp) (fun i => ?_)
    (C47_jacobi_Phi4 a b ha hb) (fun p hp h => both_unisolvent 4 p hp h) N hN
  have hx : (0:ℝ) ≤ (i:ℝ) := Nat.cast_nonneg _
  unfold JacStencil.Phi4
  rw [filter_append_ite _ _ _ (by simp)]
  simp only [SVal.at, List.filter_cons, List.filter_nil, List.map_cons, List.map_nil, List.sum_cons, List.sum_nil]
  norm_num [-mul_eq_zero, -div_eq_zero_iff]
  nz

/-- Jacobi `CompactNeumann`, all parameters. -/
theorem C48_jacobi_CompactNeumann (a b : ℝ) (ha : -1 < a) (hb : -1 < b) (N : ℕ) (hN : 3 ≤ N) :
    IsBasisFor [(.left, 1), (.right, 1)] N (N - 2)
      (basisFunction (jacobi a b) (stencilMatrix (JacStencil.CompactNeumann a b) N 2)) := by
  refine isBasisFor_neumann (degree_jacobi ha hb) (by unfold JacStencil.CompactNeumann; split_ifs <;> simp) ?_ (fun i hi => ?_)
    (C47_jacobi_CompactNeumann a b ha hb) N hN
  · rw [basisFunction_stencil _ _ _ _ _ (by omega) (by unfold JacStencil.CompactNeumann; split_ifs <;> simp)]
    unfold JacStencil.CompactNeumann
    split_ifs <;> simp [SVal.at, jacobi_zero]
  have hx : (1:ℝ) ≤ (i:ℝ) := by exact_mod_cast hi
  unfold JacStencil.CompactNeumann
  rw [filter_append_ite _ _ _ (by simp)]
  simp only [SVal.at, List.filter_cons, List.filter_nil, List.map_cons, List.map_nil, List.sum_cons, List.sum_nil]
  norm_num [-mul_eq_zero, -div_eq_zero_iff]
  nz

/-! ## Classes with their own `stencil_matrix` -/

theorem isBasisFor_of_degree {bcs : List (Side × ℕ)} {nbc N : ℕ} {φ : ℕ → ℝ[X]} (hN : nbc ≤ N)
    (hd : ∀ i < N - nbc, (φ i).degree = (i + nbc : ℕ)) (hom : ∀ i < N - nbc, Homogeneous bcs (φ i))
    (uni : ∀ p : ℝ[X], p.degree < (nbc : ℕ) → Homogeneous bcs p → p = 0) : IsBasisFor bcs N (N - nbc) φ := by
  refine ⟨fun i hi => ⟨?_, hom i hi⟩, ?_⟩
  · rw [hd i hi]; exact_mod_cast (by omega)
  · have h := existsUnique_expansion (bcs := bcs) (φ := φ) (m := nbc) (i0 := 0)
      (n := N - nbc) (Nat.zero_le _) (fun i _ hi => hd i hi) hom
      (fun p hp hh => ⟨Fin.elim0, by simp [uni p (by simpa using hp) hh], fun d _ => by funext i; exact i.elim0⟩)
      (fun i hi => absurd hi (Nat.not_lt_zero _))
    rwa [Nat.sub_add_cancel hN] at h

theorem isBasisFor_neumann_of_degree {N : ℕ} {φ : ℕ → ℝ[X]} (hN : 3 ≤ N) (h0 : φ 0 = 1)
    (hd : ∀ i, 1 ≤ i → i < N - 2 → (φ i).degree = (i + 2 : ℕ))
    (hom : ∀ i < N - 2, Homogeneous [(.left, 1), (.right, 1)] (φ i)) :
    IsBasisFor [(.left, 1), (.right, 1)] N (N - 2) φ := by
  refine ⟨fun i hi => ⟨?_, hom i hi⟩, ?_⟩
  · rcases Nat.eq_zero_or_pos i with rfl | hpos
    · rw [h0, degree_one]; exact_mod_cast (by omega)
    · rw [hd i hpos hi]; exact_mod_cast (by omega)
  · have h := existsUnique_expansion (bcs := [(.left, 1), (.right, 1)]) (φ := φ) (m := 2)
      (i0 := 1) (n := N - 2) (by omega) hd hom ?_ ?_
    · rwa [Nat.sub_add_cancel (by omega)] at h
    · intro p hp hh
      refine ⟨fun _ => p.coeff 0, ?_, fun d hd' => ?_⟩
      · simp [h0]; exact neumann_const hp hh
      · simp [h0] at hd'
        funext i
        have : i = 0 := Subsingleton.elim _ _
        subst this
        rw [hd']; simp
    · intro i hi
      obtain rfl : i = 0 := by omega
      rw [h0, degree_one]; exact_mod_cast (by omega)

theorem degree_row {Q : ℕ → ℝ[X]} (hQ : ∀ n, (Q n).degree = n) (L : List (ℕ × ℝ)) (m : ℕ) (c : ℝ) (hc : c ≠ 0)
    (hL : ∀ e ∈ L, e.1 < m) : ((L ++ [(m, c)]).map fun e : ℕ × ℝ => C e.2 * Q e.1).sum.degree = (m : ℕ) := by
  rw [List.map_append, List.sum_append]
  have h1 : ((L.map fun e : ℕ × ℝ => C e.2 * Q e.1).sum).degree < (m : ℕ) := by
    induction L with
    | nil => simp
    | cons e L ih =>
      rw [List.map_cons, List.sum_cons]
      refine (degree_add_le _ _).trans_lt (max_lt ?_ (ih fun e he => hL e (List.mem_cons_of_mem _ he)))
      refine (degree_mul_le _ _).trans_lt ?_
      calc (C e.2).degree + (Q e.1).degree ≤ 0 + (Q e.1).degree := by gcongr; exact degree_C_le
        _ = (e.1 : ℕ) := by rw [zero_add, hQ]
        _ < _ := by exact_mod_cast hL e List.mem_cons_self
  have h2 : (([(m, c)] : List (ℕ × ℝ)).map fun e : ℕ × ℝ => C e.2 * Q e.1).sum.degree = (m : ℕ) := by
    simp [degree_C_mul hc, hQ]
  rw [degree_add_eq_right_of_degree_lt (by rw [h2]; exact h1), h2]

theorem degree_row3 {Q : ℕ → ℝ[X]} (hQ : ∀ n, (Q n).degree = n) (dm d dp : ℕ → ℝ) (N i : ℕ) (hi : i < N - 2) (h : dp i ≠ 0) :
    (basisFunction Q (SM.new [(-2, dm), (0, d), (2, dp)] N N 1) i).degree = (i + 2 : ℕ) := by
  rw [row3 Q dm d dp N i hi]
  split_ifs with h2
  · exact degree_row hQ [(i-2, dm (i-2)), (i, d i)] (i+2) (dp i) h (by simp; omega)
  · exact degree_row hQ [(i, d i)] (i+2) (dp i) h (by simp)

theorem degree_row4 {Q : ℕ → ℝ[X]} (hQ : ∀ n, (Q n).degree = n) (dm d dp dp4 : ℕ → ℝ) (N i : ℕ) (hi : i < N - 4)
    (h : dp4 i ≠ 0) :
    (basisFunction Q (SM.new [(-2, dm), (0, d), (2, dp), (4, dp4)] N N 1) i).degree = (i + 4 : ℕ) := by
  rw [row4 Q dm d dp dp4 N i hi]
  split_ifs with h2
  · exact degree_row hQ [(i-2, dm (i-2)), (i, d i), (i+2, dp i)] (i+4) (dp4 i) h (by simp; omega)
  · exact degree_row hQ [(i, d i), (i+2, dp i)] (i+4) (dp4 i) h (by simp)

/-- `Heinrichs`, scaled and unscaled. -/
theorem C48_cheb_Heinrichs (scaled : Bool) (N : ℕ) (hN : 2 ≤ N) :
    IsBasisFor (both 1) N (N - 2) (basisFunction chebT (ChebStencil.heinrichs scaled N)) := by
  refine isBasisFor_of_degree hN (fun i hi => ?_) (fun i hi => C27_cheb_Heinrichs scaled N i hi)
    (fun p hp h => both_unisolvent 1 p hp h)
  cases scaled <;> simp only [ChebStencil.heinrichs, if_true, if_false, Bool.false_eq_true] <;>
    refine degree_row3 degree_chebT _ _ _ N i hi ?_ <;> rcases i with _ | i <;> simp [Function.update] <;>
    (repeat' constructor) <;> try positivity

/-- `PolarDirichlet`. -/
theorem C48_cheb_PolarDirichlet (N : ℕ) (hN : 2 ≤ N) :
    IsBasisFor (both 1) N (N - 2) (basisFunction chebT (ChebStencil.polarDirichlet N)) :=
  isBasisFor_of_degree hN (fun i hi => degree_row3 degree_chebT _ _ _ N i hi (by norm_num))
    (fun i hi => C27_cheb_PolarDirichlet N i hi) (fun p hp h => both_unisolvent 1 p hp h)

/-- `CombinedShenNeumann`. -/
theorem C48_cheb_CombinedShenNeumann (N : ℕ) (hN : 3 ≤ N) :
    IsBasisFor [(.left, 1), (.right, 1)] N (N - 2) (basisFunction chebT (ChebStencil.combinedShenNeumann N)) := by
  refine isBasisFor_neumann_of_degree hN ?_ (fun i h1 hi => ?_) (fun i hi => C27_cheb_CombinedShenNeumann N i hi)
  · simp only [ChebStencil.combinedShenNeumann]
    rw [row3 chebT _ _ _ N 0 (by omega)]
    simp [Function.update, chebT]
  · simp only [ChebStencil.combinedShenNeumann]
    refine degree_row3 degree_chebT _ _ _ N i hi ?_
    obtain ⟨i, rfl⟩ : ∃ j, i = j + 1 := ⟨i - 1, by omega⟩
    simp [Function.update]
    positivity

/-- `MikNeumann`. -/
theorem C48_cheb_MikNeumann (N : ℕ) (hN : 3 ≤ N) :
    IsBasisFor [(.left, 1), (.right, 1)] N (N - 2) (basisFunction chebT (ChebStencil.mikNeumann N)) := by
  refine isBasisFor_neumann_of_degree hN ?_ (fun i h1 hi => ?_) (fun i hi => C27_cheb_MikNeumann N i hi)
  · simp only [ChebStencil.mikNeumann]
    rw [row3 chebT _ _ _ N 0 (by omega)]
    simp [Function.update, chebT]
  · simp only [ChebStencil.mikNeumann]
    refine degree_row3 degree_chebT _ _ _ N i hi ?_
    obtain ⟨i, rfl⟩ : ∃ j, i = j + 1 := ⟨i - 1, by omega⟩
    have hx : (0:ℝ) ≤ (i:ℝ) := Nat.cast_nonneg _
    simp [Function.update]
    constructor
    · positivity
    · intro h; linarith

/-- Legendre `ShenBiPolar`. -/
theorem C48_leg_ShenBiPolar (N : ℕ) (hN : 4 ≤ N) :
    IsBasisFor (both 2) N (N - 4) (basisFunction legP (LegStencil.shenBiPolar N)) := by
  refine isBasisFor_of_degree hN (fun i hi => ?_) (fun i hi => C27_leg_ShenBiPolar N i hi)
    (fun p hp h => both_unisolvent 2 p hp h)
  simp only [LegStencil.shenBiPolar]
  refine degree_row4 degree_legP _ _ _ _ N i hi ?_
  rcases i with _ | _ | i
  · simp [Function.update]
  · simp [Function.update]
  · simp [Function.update]
    (repeat' constructor) <;> positivity

/-- Gegenbauer `CompactDirichlet` at its default parameter. -/
theorem C48_gegen_CompactDirichlet_default (N : ℕ) (hN : 2 ≤ N) :
    IsBasisFor (both 1) N (N - 2) (basisFunction (gegenC (2 - 1/2)) (stencilMatrix GegenStencil.CompactDirichlet N 2)) := by
  have hQ : ∀ n, (gegenC (2 - 1/2) n).degree = n := fun n => by
    unfold gegenC
    rw [degree_C_mul (div_ne_zero (rf_pos (by norm_num) n).ne' (rf_pos (by norm_num) n).ne'), degree_jacobi (by norm_num) (by norm_num)]
  refine isBasisFor_stencil hQ (by simp [GegenStencil.CompactDirichlet]) (fun i => ?_) C47_gegen_CompactDirichlet_default
    (fun p hp h => both_unisolvent 1 p hp h) N hN
  have hx : (0:ℝ) ≤ (i:ℝ) := Nat.cast_nonneg _
  simp [GegenStencil.CompactDirichlet, SVal.at]
  positivity

/-! ## A concrete case -/

/-- `(1 - x)(1 + x)` has exactly one expansion in the Jacobi Dirichlet basis with `alpha = 1`, `beta = 0`. -/
example : ∃! c : Fin 4 → ℝ, ((1 - X) * (1 + X) : ℝ[X]) =
    ∑ i, C (c i) * basisFunction (jacobi 1 0) (stencilMatrix (JacStencil.CompactDirichlet 1 0) 6 2) i := by
  refine (C48_jacobi_CompactDirichlet 1 0 (by norm_num) (by norm_num) 6 (by omega)).2 _ ?_ ?_
  · rw [show ((1 - X) * (1 + X) : ℝ[X]) = 1 - X^2 by ring]
    refine (degree_sub_le _ _).trans_lt (max_lt ?_ ?_)
    · rw [degree_one]; norm_num
    · rw [degree_X_pow]; norm_num
  · intro bc hbc
    fin_cases hbc <;> simp [Side.pt]

end Shenfun
