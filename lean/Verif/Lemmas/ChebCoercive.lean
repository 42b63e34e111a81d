import Verif.Lemmas.DerivIP
import Verif.Lemmas.JacobiGram
import Verif.Spec.ChebForms
import Verif.Spec.Boundary

/-!
Coercivity of the second and fourth order Chebyshev forms (Bernardi and Maday), by explicit sums of squares.
-/

namespace Shenfun

open Polynomial Spec

theorem chebI_parts (q : ℝ[X]) : chebI ((1 - X^2) * derivative q - X * q) = 0 := by
  have := wInt_parts (a := -(1/2)) (b := -(1/2)) (by norm_num) (by norm_num) q
  norm_num at this
  rw [← this]
  show wInt _ _ _ = _
  rw [sub_eq_add_neg]

theorem chebI_sq_nonneg (p : ℝ[X]) : 0 ≤ chebI (p * p) := by
  by_cases h : p = 0
  · rw [h, mul_zero, map_zero]
  · exact (wInt_sq_pos (by norm_num) (by norm_num) h).le

theorem chebI_sq_pos {p : ℝ[X]} (h : p ≠ 0) : 0 < chebI (p * p) := wInt_sq_pos (by norm_num) (by norm_num) h

/-- Squares with the factor `1 - x²`. -/
theorem chebI_wsq_nonneg (p : ℝ[X]) : 0 ≤ chebI ((1 - X^2) * (p * p)) := by
  show 0 ≤ wInt _ _ _
  rw [← wInt_succ (by norm_num) (by norm_num)]
  by_cases h : p = 0
  · rw [h, mul_zero, wInt_zero]
  · exact (wInt_sq_pos (by norm_num) (by norm_num) h).le

/-- The second-order form on functions that vanish at both ends. -/
theorem chebForm_two_squares (q : ℝ[X]) :
    chebForm 2 ((1 - X^2) * q) ((1 - X^2) * q) =
      - chebI (((1 - X^2) * derivative q) * ((1 - X^2) * derivative q) + (1 - X^2) * (q * q) + C (1/2) * (q * q)) := by
  show chebI _ = _
  rw [← map_neg, ← sub_eq_zero, ← map_sub]
  set d := derivative q with hd
  set d2 := derivative d with hd2
  rw [← chebI_parts (((1 - X^2) * d - C 2 * X * q) * q + C (3/2) * X * (q * q) )]
  congr 1
  refine Polynomial.funext fun x => ?_
  simp only [Function.iterate_succ, Function.iterate_zero, Function.comp_apply, id, derivative_mul, derivative_sub, derivative_one, derivative_X_pow,
    derivative_add, derivative_X, derivative_C, derivative_zero, ← hd, ← hd2, eval_add, eval_sub, eval_mul, eval_neg, eval_C, eval_X, eval_one, eval_pow, eval_zero]
  push_cast
  ring

/-- The fourth-order form on functions that vanish with their derivative at both ends. -/
theorem chebForm_four_squares (p : ℝ[X]) :
    chebForm 4 ((1 - X^2)^2 * p) ((1 - X^2)^2 * p) =
      chebI (((1 - X^2)^2 * derivative (derivative p)) * ((1 - X^2)^2 * derivative (derivative p))
        + C 12 * ((1 - X^2) * (((1 - X^2) * derivative p) * ((1 - X^2) * derivative p)))
        + C 2 * (((1 - X^2) * derivative p) * ((1 - X^2) * derivative p))
        + C 12 * (((1 - X^2) * p) * ((1 - X^2) * p)) + C (9/2) * (p * p)) := by
  show chebI _ = _
  rw [← sub_eq_zero, ← map_sub]
  obtain ⟨d, hd⟩ : ∃ d, d = derivative p := ⟨_, rfl⟩
  obtain ⟨d2, hd2⟩ : ∃ d2, d2 = derivative d := ⟨_, rfl⟩
  obtain ⟨d3, hd3⟩ : ∃ d3, d3 = derivative d2 := ⟨_, rfl⟩
  obtain ⟨d4, hd4⟩ : ∃ d4, d4 = derivative d3 := ⟨_, rfl⟩
  obtain ⟨u, hu⟩ : ∃ u, u = (1 - X^2)^2 * p := ⟨_, rfl⟩
  rw [← hd, ← hd2, ← hu]
  have hc2 : (C 2 : ℝ[X]) = 2 := rfl
  have hu1 : derivative u = (1 - X^2)^2 * d - 4 * X * (1 - X^2) * p := by
    rw [hu, hd]; simp [derivative_pow]; rw [hc2]; ring
  have hu2 : derivative (derivative u) = (1 - X^2)^2 * d2 - 8 * X * (1 - X^2) * d + (8 - 12 * (1 - X^2)) * p := by
    rw [hu1, hd2, hd]; simp [derivative_pow]; rw [hc2]; ring
  have hu3 : derivative (derivative (derivative u)) = (1 - X^2)^2 * d3 - 12 * X * (1 - X^2) * d2 + (24 - 36 * (1 - X^2)) * d + 24 * X * p := by
    rw [hu2, hd3, hd2, hd]; simp [derivative_pow]; rw [hc2]; ring
  have hu4 : derivative (derivative (derivative (derivative u))) =
      (1 - X^2)^2 * d4 - 16 * X * (1 - X^2) * d3 + (48 - 72 * (1 - X^2)) * d2 + 96 * X * d + 24 * p := by
    rw [hu3, hd4, hd3, hd2, hd]; simp [derivative_pow]; rw [hc2]; ring
  obtain ⟨Q, hQ⟩ : ∃ Q, Q = ((1 - X^2)^2 * d3 - 12 * X * (1 - X^2) * d2 + (24 - 36 * (1 - X^2)) * d + 24 * X * p) * ((1 - X^2) * p)
    - ((1 - X^2)^2 * d2 - 8 * X * (1 - X^2) * d + (8 - 12 * (1 - X^2)) * p) * ((1 - X^2) * d - 3 * X * p)
    - 7 * X * (1 - X^2)^2 * (d * d) + (11 * (1 - X^2) - 18 * (1 - X^2)^2) * (d * p) - C (1/2) * (90 * X * (1 - X^2) - 33 * X) * (p * p)
    + C (1/2) * (120 * X * (1 - X^2) - 72 * X) * (p * p) := ⟨_, rfl⟩
  have hQ1 := congrArg (fun r => derivative r) hQ
  simp only [derivative_mul, derivative_sub, derivative_add, derivative_pow, derivative_one, derivative_X, derivative_C, derivative_ofNat, ← hd, ← hd2, ← hd3, ← hd4] at hQ1
  rw [← chebI_parts Q]
  congr 1
  show u * derivative (derivative (derivative (derivative u))) - _ = _
  rw [hu4, hu, hQ1, hQ]
  refine Polynomial.funext fun x => ?_
  simp only [eval_add, eval_sub, eval_mul, eval_C, eval_X, eval_one, eval_pow, eval_zero, eval_ofNat]
  push_cast
  ring

/-- A function that vanishes at both ends is divisible by `1 - x²`. -/
theorem dvd_of_dirichlet {u : ℝ[X]} (h1 : u.eval 1 = 0) (h2 : u.eval (-1) = 0) : ∃ q, u = (1 - X^2) * q := by
  obtain ⟨v, rfl⟩ := dvd_iff_isRoot.2 h1
  have hv : v.eval (-1) = 0 := by
    rw [eval_mul] at h2
    refine (mul_eq_zero.1 h2).resolve_left ?_
    simp; norm_num
  obtain ⟨w, rfl⟩ := dvd_iff_isRoot.2 hv
  refine ⟨-w, ?_⟩
  simp only [C_1, C_neg]
  ring

/-- A function that vanishes with its derivative at both ends is divisible by `(1 - x²)²`. -/
theorem dvd_of_clamped {u : ℝ[X]} (h : Homogeneous (both 2) u) : ∃ p, u = (1 - X^2)^2 * p := by
  have a1 := h (Side.right, 0) (by simp [both])
  have a2 := h (Side.left, 0) (by simp [both])
  have a3 := h (Side.right, 1) (by simp [both])
  have a4 := h (Side.left, 1) (by simp [both])
  simp only [Function.iterate_succ, Function.iterate_zero, Function.comp_apply, id, Side.pt] at a1 a2 a3 a4
  obtain ⟨q, rfl⟩ := dvd_of_dirichlet a1 a2
  simp only [derivative_mul, derivative_sub, derivative_one, derivative_X_pow, eval_add, eval_mul, eval_sub, eval_zero, eval_one, eval_pow, eval_X] at a3 a4
  obtain ⟨p, rfl⟩ := dvd_of_dirichlet (u := q) (by norm_num at a3; exact a3) (by norm_num at a4; exact a4)
  exact ⟨p, by ring⟩

/-- **Coercivity** of the second-order form. -/
theorem chebForm_two_neg {u : ℝ[X]} (h1 : u.eval 1 = 0) (h2 : u.eval (-1) = 0) (hu : u ≠ 0) : chebForm 2 u u < 0 := by
  obtain ⟨q, rfl⟩ := dvd_of_dirichlet h1 h2
  have hq : q ≠ 0 := right_ne_zero_of_mul hu
  rw [chebForm_two_squares, map_add, map_add, map_C_mul]
  have := chebI_sq_nonneg ((1 - X^2) * derivative q)
  have := chebI_wsq_nonneg q
  have := chebI_sq_pos hq
  linarith

/-- **Coercivity** of the fourth-order form. -/
theorem chebForm_four_pos {u : ℝ[X]} (h : Homogeneous (both 2) u) (hu : u ≠ 0) : 0 < chebForm 4 u u := by
  obtain ⟨p, rfl⟩ := dvd_of_clamped h
  have hp : p ≠ 0 := right_ne_zero_of_mul hu
  rw [chebForm_four_squares]
  simp only [map_add, map_C_mul]
  have := chebI_sq_nonneg ((1 - X^2)^2 * derivative (derivative p))
  have := chebI_wsq_nonneg ((1 - X^2) * derivative p)
  have := chebI_sq_nonneg ((1 - X^2) * derivative p)
  have := chebI_sq_nonneg ((1 - X^2) * p)
  have := chebI_sq_pos hp
  linarith

end Shenfun
