import Verif.Props.LegMatrices

/-!
# C56: hard-coded Legendre matrices with weights `1+x` and `(1+x)^2`
-/

namespace Shenfun

open Polynomial Spec

set_option linter.unusedSimpArgs false
set_option linter.unusedTactic false
set_option linter.unreachableTactic false
set_option linter.unusedVariables false

theorem legI_lc2 (L A B : List (ℕ × ℝ)) :
    legI (lc legP L * (derivative^[1] (lc legP A) + lc legP B)) =
      (L.map fun e => (A.map fun f => e.2 * f.2 * legC1 e.1 f.1).sum).sum +
      (L.map fun e => (B.map fun f => e.2 * f.2 * legC0 e.1 f.1).sum).sum := by
  rw [mul_add, map_add, iterate_derivative_lc, map_lc_mul_lc, map_lc_mul_lc]
  simp only [legI_one, legI_zero]

theorem legI_lc1 (L B : List (ℕ × ℝ)) :
    legI (lc legP L * lc legP B) = (L.map fun e => (B.map fun f => e.2 * f.2 * legC0 e.1 f.1).sum).sum := by
  rw [map_lc_mul_lc]
  simp only [legI_zero]

theorem one_add_X_mul_derivative (k : ℕ) :
    (1 + X) * derivative (legP (k+1)) = derivative (legP (k+1)) + derivative (legP k) + C ((k:ℝ)+1) * legP (k+1) := by
  rw [add_mul, one_mul, X_mul_derivative_legP_add_one]; ring

theorem X_mul_legP_lc (j : ℕ) :
    X * legP (j+1) = C (((j:ℝ)+2)/(2*j+3)) * legP (j+2) + C (((j:ℝ)+1)/(2*j+3)) * legP j := by
  have h := X_mul_legP_add_one j
  have hne : (C (2*(j:ℝ)+3) : ℝ[X]) ≠ 0 := by rw [Ne, C_eq_zero]; positivity
  apply mul_left_cancel₀ hne
  rw [h, mul_add, ← mul_assoc, ← mul_assoc, ← C_mul, ← C_mul]
  have q : 2*(j:ℝ)+3 ≠ 0 := by positivity
  rw [mul_div_cancel₀ _ q, mul_div_cancel₀ _ q]

/-- The derivative of a Dirichlet basis function. -/
theorem derivative_legSD {N j : ℕ} (hj : j < N - 2) : derivative (legSD N j) = C (-(2*(j:ℝ)+3)) * legP (j+1) := by
  rw [legSD_lc hj]
  have h := derivative_legP_add_two j
  simp only [lc, List.map_cons, List.map_nil, List.sum_cons, List.sum_nil, C_1, C_neg, one_mul, neg_mul, add_zero, derivative_add, derivative_neg]
  rw [h]; ring

theorem one_add_X_mul_d2_legSD {N j : ℕ} (hj : j < N - 2) :
    (1 + X) * derivative^[2] (legSD N j) =
      derivative^[1] (lc legP [(j+1, -(2*(j:ℝ)+3)), (j, -(2*(j:ℝ)+3))]) + lc legP [(j+1, -(2*(j:ℝ)+3)*(j+1))] := by
  rw [show derivative^[2] (legSD N j) = derivative (derivative (legSD N j)) from rfl, derivative_legSD hj, iterate_derivative_lc]
  simp only [lc, List.map_cons, List.map_nil, List.sum_cons, List.sum_nil, add_zero, derivative_C_mul, Function.iterate_one]
  have h := one_add_X_mul_derivative j
  rw [mul_left_comm, h, C_mul]; ring

theorem one_add_X_mul_d1_legSD {N j : ℕ} (hj : j < N - 2) :
    (1 + X) * derivative^[1] (legSD N j) = lc legP [(j+1, -(2*(j:ℝ)+3)), (j+2, -((j:ℝ)+2)), (j, -((j:ℝ)+1))] := by
  rw [Function.iterate_one, derivative_legSD hj, mul_left_comm, add_mul, one_mul, X_mul_legP_lc]
  simp only [lc, List.map_cons, List.map_nil, List.sum_cons, List.sum_nil, add_zero]
  rw [mul_add, mul_add, ← mul_assoc, ← mul_assoc, ← C_mul, ← C_mul]
  have q : 2*(j:ℝ)+3 ≠ 0 := by positivity
  rw [show -(2*(j:ℝ)+3) * ((j+2)/(2*j+3)) = -((j:ℝ)+2) by field_simp,
    show -(2*(j:ℝ)+3) * ((j+1)/(2*j+3)) = -((j:ℝ)+1) by field_simp]

/-- **C56** `ASDSD2rp1mat`, `((SD, 0), (SD, 2), 1+x)`. -/
theorem C56_leg_ASDSD2rp1 (N : ℕ) :
    IsMatrixOf (LegMat.ASDSD2rp1 N) (N-2) (N-2) fun k j => legForm 0 2 (1 + X) (legSD N k) (legSD N j) := by
  simp only [LegMat.ASDSD2rp1]
  constructor
  · lens_lit
  · intro k hk j hj
    show _ = legForm 0 2 (1 + X) (legSD N k) (legSD N j)
    rw [DMat.mat, denseAt_new _ _ _ _ _ hk hj, legForm_eq, Function.iterate_zero_apply, mul_left_comm,
      one_add_X_mul_d2_legSD hj, legSD_lc hk, legI_lc2]
    simp only [List.map_cons, List.map_nil, List.sum_cons, List.sum_nil, legC0, legC1, diagsEntry_lit_cons, diagsEntry_lit_nil]
    lentry_cases k j

/-- **C56** `ASDSD2Trp1mat`, `((SD, 2), (SD, 0), 1+x)`. -/
theorem C56_leg_ASDSD2Trp1 (N : ℕ) :
    IsMatrixOf (LegMat.ASDSD2Trp1 N) (N-2) (N-2) fun k j => legForm 2 0 (1 + X) (legSD N k) (legSD N j) := by
  simp only [LegMat.ASDSD2Trp1]
  constructor
  · lens_lit
  · intro k hk j hj
    show _ = legForm 2 0 (1 + X) (legSD N k) (legSD N j)
    rw [legForm_comm, DMat.mat, denseAt_new _ _ _ _ _ hk hj, legForm_eq, Function.iterate_zero_apply, mul_left_comm,
      one_add_X_mul_d2_legSD hk, legSD_lc hj, legI_lc2]
    simp only [List.map_cons, List.map_nil, List.sum_cons, List.sum_nil, legC0, legC1, diagsEntry_lit_cons, diagsEntry_lit_nil]
    lentry_cases k j

/-- **C56** `ASDSDrp1mat`. -/
theorem C56_leg_ASDSDrp1 (N : ℕ) :
    IsMatrixOf (LegMat.ASDSDrp1 N) (N-2) (N-2) fun k j => legForm 1 1 (1 + X) (legSD N k) (legSD N j) := by
  simp only [LegMat.ASDSDrp1]
  constructor
  · lens_lit
  · intro k hk j hj
    show _ = legForm 1 1 (1 + X) (legSD N k) (legSD N j)
    rw [DMat.mat, denseAt_new _ _ _ _ _ hk hj, legForm_eq, mul_left_comm,
      one_add_X_mul_d1_legSD hj, Function.iterate_one, derivative_legSD hk,
      show C (-(2*(k:ℝ)+3)) * legP (k+1) = lc legP [(k+1, -(2*(k:ℝ)+3))] by simp [lc], legI_lc1]
    simp only [List.map_cons, List.map_nil, List.sum_cons, List.sum_nil, legC0, legC1, diagsEntry_lit_cons, diagsEntry_lit_nil]
    lentry_cases k j

theorem one_add_X_mul_d1_legUD {N k : ℕ} (hk : k < N - 1) :
    (1 + X) * derivative^[1] (legUD N k) = lc legP [(k, -((k:ℝ)+1)), (k+1, -((k:ℝ)+1))] := by
  rw [legUD_lc hk, iterate_derivative_lc]
  simp only [lc, List.map_cons, List.map_nil, List.sum_cons, List.sum_nil, add_zero, Function.iterate_one, C_1, one_mul, C_neg]
  linear_combination -(legP_AB k).1 - (legP_AB k).2

theorem one_add_X_mul_deriv_sum (j : ℕ) :
    (1 + X) * derivative (legP j + legP (j+1)) =
      2 * derivative (legP j) + 2 * derivative (legP (j+1)) + C ((j:ℝ)+1) * (legP (j+1) - legP j) := by
  rw [derivative_add]
  linear_combination (legP_AB j).2 - (legP_AB j).1

theorem one_add_X_sq_mul_d2_legUD {N j : ℕ} (hj : j < N - 1) :
    (1 + X)^2 * derivative^[2] (legUD N j) =
      derivative^[1] (lc legP [(j, -2*((j:ℝ)+1)), (j+1, -2*((j:ℝ)+1))]) +
      lc legP [(j, ((j:ℝ)+1)^2 + (j+1)), (j+1, -((j:ℝ)+1)^2 + (j+1))] := by
  have h := congrArg derivative (one_add_X_mul_d1_legUD hj)
  rw [derivative_mul, derivative_add, derivative_one, derivative_X, zero_add, one_mul, Function.iterate_one] at h
  have h0 := one_add_X_mul_d1_legUD hj
  have h2 := one_add_X_mul_deriv_sum j
  have e : derivative^[2] (legUD N j) = derivative (derivative (legUD N j)) := rfl
  rw [iterate_derivative_lc, e]
  simp only [lc, List.map_cons, List.map_nil, List.sum_cons, List.sum_nil, add_zero, Function.iterate_one, C_1, one_mul, C_neg,
    C_add, C_mul, C_pow, derivative_add, derivative_mul, derivative_neg, derivative_C, zero_mul, zero_add, neg_mul,
    map_natCast, map_ofNat, map_one, derivative_natCast, derivative_one, neg_zero] at h h0 h2 ⊢
  linear_combination (1 + X) * h - h0 - ((j:ℝ[X])+1) * h2

/-- **C56** `AUDUDrp1mat`, `((UD, 1), (UD, 1), 1+x)`. -/
theorem C56_leg_AUDUDrp1 (N : ℕ) :
    IsMatrixOf (LegMat.AUDUDrp1 N) (N-1) (N-1) fun k j => legForm 1 1 (1 + X) (legUD N k) (legUD N j) := by
  simp only [LegMat.AUDUDrp1]
  constructor
  · lens_lit
  · intro k hk j hj
    show _ = legForm 1 1 (1 + X) (legUD N k) (legUD N j)
    rw [DMat.mat, denseAt_new _ _ _ _ _ hk hj, legForm_eq, ← mul_assoc, one_add_X_mul_d1_legUD hk, legUD_lc hj,
      ← add_zero (derivative^[1] _), show (0:ℝ[X]) = lc legP [] from rfl, legI_lc2]
    simp only [List.map_cons, List.map_nil, List.sum_cons, List.sum_nil, legC0, legC1, diagsEntry_lit_cons, diagsEntry_lit_nil]
    lentry_cases k j

/-- **C56** `AUDUDrp1smat`, `((UD, 1), (UD, 1), (1+x)**2)`. -/
theorem C56_leg_AUDUDrp1s (N : ℕ) :
    IsMatrixOf (LegMat.AUDUDrp1s N) (N-1) (N-1) fun k j => legForm 1 1 ((1 + X)^2) (legUD N k) (legUD N j) := by
  simp only [LegMat.AUDUDrp1s]
  constructor
  · lens_lit
  · intro k hk j hj
    show _ = legForm 1 1 ((1 + X)^2) (legUD N k) (legUD N j)
    rw [DMat.mat, denseAt_new _ _ _ _ _ hk hj, legForm_eq, show ∀ p q : ℝ[X], (1+X)^2 * (p * q) = ((1+X)*p)*((1+X)*q) by
      intros; ring, one_add_X_mul_d1_legUD hk, one_add_X_mul_d1_legUD hj, legI_lc1]
    simp only [List.map_cons, List.map_nil, List.sum_cons, List.sum_nil, legC0, legC1, diagsEntry_lit_cons, diagsEntry_lit_nil]
    lentry_cases k j

/-- **C56** `GUDUDrp1smat`, `((UD, 0), (UD, 2), (1+x)**2)`. -/
theorem C56_leg_GUDUDrp1s (N : ℕ) :
    IsMatrixOf (LegMat.GUDUDrp1s N) (N-1) (N-1) fun k j => legForm 0 2 ((1 + X)^2) (legUD N k) (legUD N j) := by
  simp only [LegMat.GUDUDrp1s]
  constructor
  · lens_lit
  · intro k hk j hj
    show _ = legForm 0 2 ((1 + X)^2) (legUD N k) (legUD N j)
    rw [DMat.mat, denseAt_new _ _ _ _ _ hk hj, legForm_eq, Function.iterate_zero_apply, mul_left_comm,
      one_add_X_sq_mul_d2_legUD hj, legUD_lc hk, legI_lc2]
    simp only [List.map_cons, List.map_nil, List.sum_cons, List.sum_nil, legC0, legC1, diagsEntry_lit_cons, diagsEntry_lit_nil]
    lentry_cases k j

/-- **C56** `CUDUDrp1mat`. -/
theorem C56_leg_CUDUDrp1 (N : ℕ) :
    IsMatrixOf (LegMat.CUDUDrp1 N) (N-1) (N-1) fun k j => legForm 0 1 (1 + X) (legUD N k) (legUD N j) := by
  simp only [LegMat.CUDUDrp1]
  constructor
  · lens_lit
  · intro k hk j hj
    show _ = legForm 0 1 (1 + X) (legUD N k) (legUD N j)
    rw [DMat.mat, denseAt_new _ _ _ _ _ hk hj, legForm_eq, Function.iterate_zero_apply, mul_left_comm,
      one_add_X_mul_d1_legUD hj, legUD_lc hk, legI_lc1]
    simp only [List.map_cons, List.map_nil, List.sum_cons, List.sum_nil, legC0, legC1, diagsEntry_lit_cons, diagsEntry_lit_nil]
    lentry_cases k j


/-! ## What does not hold -/

/-- `CSDSDmat` for `ShenDirichlet(N, scaled=True)` misses one of the two scale factors, for every `N ≥ 4`. -/
theorem C56_leg_CSDSD_scaled_refuted (N : ℕ) (hN : 4 ≤ N) :
    ¬ IsMatrixOf (LegMat.CSDSD true N) (N-2) (N-2) fun k j => legForm 0 1 1 (legSDs N k) (legSDs N j) := by
  intro h
  have h1 := h.entries 0 (by omega) 1 (by omega)
  have h2 := (C56_leg_CSDSD N).entries 0 (by omega) 1 (by omega)
  rw [legSDs_eq (by omega), legSDs_eq (by omega), legForm_C_mul, ← h2, DMat.mat, denseAt_new _ _ _ _ _ (by omega) (by omega),
    DMat.mat, denseAt_new _ _ _ _ _ (by omega) (by omega)] at h1
  simp only [LegMat.CSDSD, if_true, if_false, Bool.false_eq_true, List.map_cons, List.map_nil, diagsEntry_lit_cons,
    diagsEntry_lit_nil, DVal.get] at h1
  norm_num at h1
  have p0 := sq_ne 0
  have p1 := sq_mul_sq 1
  have p2 := sq_ne 1
  have : LegMat.sq 1 = 1 := by
    field_simp at h1
    linarith
  rw [this] at p1
  norm_num at p1

/-- `ASDSD2rp1mat` takes no account of `scaled=True`, for every `N ≥ 3`. -/
theorem C56_leg_ASDSD2rp1_scaled_refuted (N : ℕ) (hN : 3 ≤ N) :
    ¬ IsMatrixOf (LegMat.ASDSD2rp1 N) (N-2) (N-2) fun k j => legForm 0 2 (1 + X) (legSDs N k) (legSDs N j) := by
  intro h
  have h1 := h.entries 0 (by omega) 0 (by omega)
  have h2 := (C56_leg_ASDSD2rp1 N).entries 0 (by omega) 0 (by omega)
  rw [legSDs_eq (by omega), legForm_C_mul, ← h2, DMat.mat, denseAt_new _ _ _ _ _ (by omega) (by omega)] at h1
  simp only [LegMat.ASDSD2rp1, List.map_cons, List.map_nil, diagsEntry_lit_cons,
    diagsEntry_lit_nil, DVal.get] at h1
  norm_num at h1
  have p1 := sq_mul_sq 0
  have p0 := sq_ne 0
  have e : (LegMat.sq 0)⁻¹ * (LegMat.sq 0)⁻¹ = 1 / 6 := by
    rw [← mul_inv, p1]; norm_num
  rw [e] at h1
  norm_num at h1

/-- `CLLmatT` between spaces of different sizes: with 5 test and 3 trial functions the entry `(P_0, P_3')` is lost. -/
theorem C56_leg_CLLT_rect_refuted :
    ¬ IsMatrixOf (LegMat.CLLT 3) 5 3 fun k j => legForm 1 0 1 (legP k) (legP j) := by
  intro h
  have h1 := h.entries 3 (by omega) 0 (by omega)
  rw [legForm_comm, legForm_eq, one_mul, Function.iterate_zero_apply, legI_one, DMat.mat,
    denseAt_new _ _ _ _ _ (by omega) (by omega)] at h1
  simp only [LegMat.CLLT, diagsEntry_fromkeys2neg, legC1] at h1
  norm_num at h1

/-! ## The hypotheses are met -/

/-- The norms returned for `method='exact'`, and for quadrature with Gauss-Legendre points, belong to the exact inner
product. -/
theorem C56_leg_exact_form (tN uN : ℕ) : OrthogonalForm legP legI tN uN (legNormSq false tN) := by
  intro m hm n hn
  rw [legI_zero, legC0, legNormSq]
  simp

example : ((LegMat.BSDSD false 6 (legNormSq false 6)).mat 4 4).denseAt 1 1 = 2/3 + 2/7 := by
  rw [(C56_leg_BSDSD 6 _ _ (C56_leg_exact_form 6 6)).entries 1 (by norm_num) 1 (by norm_num), legSD_lc (by norm_num), map_lc_mul_lc]
  simp only [List.map_cons, List.map_nil, List.sum_cons, List.sum_nil, legI_zero, legC0]
  norm_num

example : legForm 0 2 (1 + X) (legSD 6 1) (legSD 6 2) = -8 := by
  rw [← (C56_leg_ASDSD2rp1 6).entries 1 (by norm_num) 2 (by norm_num), DMat.mat, denseAt_new _ _ _ _ _ (by omega) (by omega)]
  simp only [LegMat.ASDSD2rp1, List.map_cons, List.map_nil, diagsEntry_lit_cons, diagsEntry_lit_nil, DVal.get]
  norm_num

end Shenfun
