import Verif.Props.ChebUMatrices
import Verif.Props.ChebQuadrature

/-!
# C79, norms: the discrete norms used by `BUUmat` are those of the quadrature
-/

namespace Shenfun

open Polynomial Spec

/-- The discrete inner product with points `x` and weights `w`, as a functional. -/
noncomputable def Spec.quadL (x w : ℕ → ℝ) (N : ℕ) : ℝ[X] →ₗ[ℝ] ℝ := ∑ j ∈ Finset.range N, w j • leval (x j)

theorem Spec.quadL_apply (x w : ℕ → ℝ) (N : ℕ) (p : ℝ[X]) : Spec.quadL x w N p = ∑ j ∈ Finset.range N, w j * p.eval (x j) := by
  simp [Spec.quadL, LinearMap.sum_apply]

theorem degree_chebU_mul (m n : ℕ) : (chebU m * chebU n).degree = ((m + n : ℕ) : WithBot ℕ) := by
  rw [degree_mul, degree_chebU, degree_chebU]; rfl

theorem quad_chebU {x w : ℕ → ℝ} {N D m n : ℕ} (h : ExactRule (1/2) (1/2) x w N D) (hmn : m + n < D) :
    Spec.quadL x w N (chebU m * chebU n) = if m = n then Real.pi / 2 else 0 := by
  rw [Spec.quadL_apply, h _ (by rw [degree_chebU_mul]; exact_mod_cast hmn), C51_chebyshevu m n]
  rfl

/-- **C79** Default points (GU): the norms of `l2_norm_sq` are the discrete ones, all `π/2`. -/
theorem C79_norm_GU (N : ℕ) :
    OrthogonalForm chebU (Spec.quadL (chebPts .gu N) (chebuWts .gu N) N) N N (ChebUMat.normSq false N) := by
  intro m hm n hn
  rw [quad_chebU (C62_chebu_GU N) (by omega)]
  simp [ChebUMat.normSq]

/-- **C79** GC points: the discrete norms are `π/2`, and `π` for the last polynomial. -/
theorem C79_norm_GC (N : ℕ) :
    OrthogonalForm chebU (Spec.quadL (chebPts .gc N) (chebuWts .gc N) N) N N (ChebUMat.normSq true N) := by
  intro m hm n hn
  by_cases h : m + n < 2 * N - 2
  · rw [quad_chebU (C62_chebu_GC N) h]
    by_cases hmn : m = n
    · rw [if_pos hmn, if_pos hmn, ChebUMat.normSq, if_neg (by omega)]
    · rw [if_neg hmn, if_neg hmn]
  · obtain rfl : m = N - 1 := by omega
    obtain rfl : n = N - 1 := by omega
    rw [if_pos rfl, ChebUMat.normSq, if_pos ⟨rfl, by omega⟩, Spec.quadL_apply]
    have hN : (N:ℝ) ≠ 0 := by exact_mod_cast (show N ≠ 0 by omega)
    have e : ∀ j ∈ Finset.range N, chebuWts .gc N j * (chebU (N-1) * chebU (N-1)).eval (chebPts .gc N j) = Real.pi / N := by
      intro j _
      have hU := Chebyshev.U_real_cos (Real.pi * (1 + 2 * j) / (2 * N)) ((N - 1 : ℕ) : ℤ)
      rw [show ((((N - 1 : ℕ) : ℤ) : ℝ) + 1) * (Real.pi * (1 + 2 * j) / (2 * N)) = Real.pi / 2 + j * Real.pi by
        rw [Int.cast_natCast, Nat.cast_sub (by omega)]; push_cast; field_simp; ring] at hU
      have hs : Real.sin (Real.pi / 2 + j * Real.pi) ^ 2 = 1 := by
        rw [Real.sin_add_nat_mul_pi, Real.sin_pi_div_two, mul_one, ← pow_mul, mul_comm, pow_mul]; simp
      rw [← hU] at hs
      simp only [chebuWts, chebWts, chebPts, eval_mul]
      rw [show 1 - Real.cos (Real.pi * (1 + 2 * j) / (2 * N)) ^ 2 = Real.sin (Real.pi * (1 + 2 * j) / (2 * N)) ^ 2 by
        rw [Real.sin_sq]]
      have : (chebU (N-1)).eval (Real.cos (Real.pi * (1 + 2 * j) / (2 * N))) =
        (Chebyshev.U ℝ ((N - 1 : ℕ) : ℤ)).eval (Real.cos (Real.pi * (1 + 2 * j) / (2 * N))) := rfl
      rw [this]
      linear_combination (Real.pi / N) * hs
    rw [Finset.sum_congr rfl e, Finset.sum_const, Finset.card_range, nsmul_eq_mul]
    field_simp

/-- **C79** `BUUmat` assembled with quadrature: the entries are the discrete inner products for both kinds of points. -/
theorem C79_BUU_quadrature (N : ℕ) :
    IsMatrixOf (ChebUMat.BUU true N N) N N (fun k j => Spec.quadL (chebPts .gc N) (chebuWts .gc N) N (chebU k * chebU j)) ∧
    IsMatrixOf (ChebUMat.BUU false N N) N N (fun k j => Spec.quadL (chebPts .gu N) (chebuWts .gu N) N (chebU k * chebU j)) :=
  ⟨C79_BUU true N N _ (C79_norm_GC N), C79_BUU false N N _ (C79_norm_GU N)⟩

end Shenfun
