import Mathlib.Algebra.Polynomial.Derivative
import Mathlib.Algebra.Polynomial.Taylor
import Mathlib.Algebra.BigOperators.Intervals
import Mathlib.Data.Real.Basic
import Mathlib.RingTheory.Polynomial.Chebyshev
import Mathlib.Tactic.FieldSimp
import Mathlib.Tactic.Ring
import Mathlib.Tactic.LinearCombination
import Mathlib.Tactic.Positivity

/-!
# Specification: Jacobi polynomials

Textbook definition of `P_n^{(a,b)}` (the finite sum in `((x-1)/2)^s ((x+1)/2)^(n-s)`,
Abramowitz & Stegun 22.3.1, Szegő (4.3.2)), their derivatives and boundary values, and the identification
of the Chebyshev polynomials of Mathlib with rescaled Jacobi polynomials.
-/

namespace Shenfun.Spec

open Polynomial Finset

/-- Generalised binomial coefficient `x (x-1) ... (x-k+1) / k!`. -/
noncomputable def gbinom (x : ℝ) (k : ℕ) : ℝ := (∏ i ∈ range k, (x - i)) / (k.factorial : ℝ)

/-- The Jacobi polynomial `P_n^{(a,b)}`. -/
noncomputable def jacobi (a b : ℝ) (n : ℕ) : ℝ[X] :=
  ∑ s ∈ range (n + 1), C (gbinom (n + a) (n - s) * gbinom (n + b) s) *
    ((C (1/2) * (X - 1)) ^ s * (C (1/2) * (X + 1)) ^ (n - s))

theorem gbinom_zero (x : ℝ) : gbinom x 0 = 1 := by simp [gbinom]

theorem gbinom_succ (x : ℝ) (k : ℕ) : gbinom x (k+1) * (k+1) = gbinom x k * (x - k) := by
  unfold gbinom
  rw [prod_range_succ, Nat.factorial_succ]
  have : (k.factorial : ℝ) ≠ 0 := by positivity
  push_cast
  field_simp

/-- `C(x+1, k+1) (k+1) = (x+1) C(x, k)`. -/
theorem gbinom_succ_succ (x : ℝ) (k : ℕ) : gbinom (x+1) (k+1) * (k+1) = (x+1) * gbinom x k := by
  unfold gbinom
  rw [prod_range_succ', Nat.factorial_succ]
  have : (k.factorial : ℝ) ≠ 0 := by positivity
  have e : ∀ i ∈ range k, (x + 1 - ((i+1 : ℕ) : ℝ)) = x - i := by intro i _; push_cast; ring
  rw [prod_congr rfl e]
  push_cast
  field_simp
  ring

theorem jacobi_zero (a b : ℝ) : jacobi a b 0 = 1 := by
  simp [jacobi, gbinom_zero]

private theorem half_sub : (C (1/2 : ℝ) * (X - 1)) = C (1/2) * X - C (1/2) := by
  simp only [mul_sub, mul_one]

theorem derivative_jacobi (a b : ℝ) (n : ℕ) :
    derivative (jacobi a b (n+1)) = C ((n + 1 + a + b + 1) / 2) * jacobi (a+1) (b+1) n := by
  set u : ℝ[X] := C (1/2) * (X - 1) with hu
  set v : ℝ[X] := C (1/2) * (X + 1) with hv
  have du : derivative u = C (1/2) := by simp [hu]
  have dv : derivative v = C (1/2) := by simp [hv]
  have hc : ∀ s : ℕ, derivative (C (gbinom ((n+1 : ℕ) + a) (n+1-s) * gbinom ((n+1 : ℕ) + b) s) * (u^s * v^(n+1-s)))
      = C (1/2) * (C (gbinom ((n+1 : ℕ) + a) (n+1-s) * gbinom ((n+1 : ℕ) + b) s * s) * (u^(s-1) * v^(n+1-s)))
      + C (1/2) * (C (gbinom ((n+1 : ℕ) + a) (n+1-s) * gbinom ((n+1 : ℕ) + b) s * ((n+1-s : ℕ) : ℝ)) * (u^s * v^(n+1-s-1))) := by
    intro s
    rw [derivative_C_mul, derivative_mul, derivative_pow, derivative_pow, du, dv]
    simp only [map_mul, map_natCast]
    ring
  unfold jacobi
  rw [derivative_sum, sum_congr rfl (fun s _ => hc s), sum_add_distrib, sum_range_succ' _ (n+1)]
  rw [sum_range_succ (n := n+1) (f := fun s => C (1/2) * (C (gbinom ((n+1 : ℕ) + a) (n+1-s) * gbinom ((n+1 : ℕ) + b) s * ((n+1-s : ℕ) : ℝ)) * (u^s * v^(n+1-s-1))))]
  simp only [Nat.cast_zero, mul_zero, map_zero, zero_mul, add_zero, Nat.sub_self]
  rw [← sum_add_distrib, mul_sum]
  refine sum_congr rfl fun s hs => ?_
  have hs' : s ≤ n := Nat.lt_succ_iff.mp (mem_range.mp hs)
  have e1 : n + 1 - (s+1) = n - s := by omega
  have e2 : n + 1 - s = (n - s) + 1 := by omega
  rw [e1, e2]
  simp only [Nat.add_sub_cancel]
  have g1 := gbinom_succ ((n+1 : ℕ) + b) s
  have g2 := gbinom_succ ((n+1 : ℕ) + a) (n-s)
  have key : gbinom ((n+1 : ℕ) + a) (n-s) * gbinom ((n+1 : ℕ) + b) (s+1) * ((s+1 : ℕ) : ℝ)
      + gbinom ((n+1 : ℕ) + a) (n-s+1) * gbinom ((n+1 : ℕ) + b) s * ((n-s+1 : ℕ) : ℝ)
      = (n+1+a+b+1) * (gbinom ((n : ℕ) + (a+1)) (n-s) * gbinom ((n : ℕ) + (b+1)) s) := by
    have h1 : ((n+1 : ℕ) : ℝ) + b = n + (b+1) := by push_cast; ring
    have h2 : ((n+1 : ℕ) : ℝ) + a = n + (a+1) := by push_cast; ring
    rw [h1] at g1
    rw [h2] at g2
    rw [h1, h2]
    have hcast : ((n - s : ℕ) : ℝ) = n - s := by push_cast [Nat.cast_sub hs']; ring
    rw [hcast] at g2
    push_cast [hcast]
    linear_combination gbinom (n + (a+1)) (n-s) * g1 + gbinom (n + (b+1)) s * g2
  have : C (1/2 : ℝ) * (C (gbinom ((n+1 : ℕ) + a) (n-s) * gbinom ((n+1 : ℕ) + b) (s+1) * ((s+1 : ℕ) : ℝ)) * (u^s * v^(n-s)))
      + C (1/2) * (C (gbinom ((n+1 : ℕ) + a) (n-s+1) * gbinom ((n+1 : ℕ) + b) s * ((n-s+1 : ℕ) : ℝ)) * (u^s * v^(n-s)))
      = C (1/2) * C (gbinom ((n+1 : ℕ) + a) (n-s) * gbinom ((n+1 : ℕ) + b) (s+1) * ((s+1 : ℕ) : ℝ)
      + gbinom ((n+1 : ℕ) + a) (n-s+1) * gbinom ((n+1 : ℕ) + b) s * ((n-s+1 : ℕ) : ℝ)) * (u^s * v^(n-s)) := by
    rw [C_add]; ring
  have e5 : C (1/2 : ℝ) * C ((n+1+a+b+1) * (gbinom ((n : ℕ) + (a+1)) (n-s) * gbinom ((n : ℕ) + (b+1)) s))
      = C ((n+1+a+b+1)/2) * C (gbinom ((n : ℕ) + (a+1)) (n-s) * gbinom ((n : ℕ) + (b+1)) s) := by
    rw [← C_mul, ← C_mul]
    congr 1
    ring
  rw [this, key, e5, mul_assoc]

theorem natDegree_jacobi_le (a b : ℝ) (n : ℕ) : (jacobi a b n).natDegree ≤ n := by
  unfold jacobi
  refine natDegree_sum_le_of_forall_le _ _ fun s hs => ?_
  have hs' : s ≤ n := Nat.lt_succ_iff.mp (mem_range.mp hs)
  have h1 : (C (1/2 : ℝ) * (X - 1) : ℝ[X]).natDegree ≤ 1 := by
    refine (natDegree_C_mul_le _ _).trans ?_
    rw [show (1 : ℝ[X]) = C 1 by simp, natDegree_X_sub_C]
  have h2 : (C (1/2 : ℝ) * (X + 1) : ℝ[X]).natDegree ≤ 1 := by
    refine (natDegree_C_mul_le _ _).trans ?_
    rw [show (1 : ℝ[X]) = C 1 by simp, natDegree_X_add_C]
  refine (natDegree_C_mul_le _ _).trans (natDegree_mul_le.trans ?_)
  have h3 := natDegree_pow_le_of_le s h1
  have h4 := natDegree_pow_le_of_le (n-s) h2
  omega

theorem jacobi_eval_one (a b : ℝ) (n : ℕ) : (jacobi a b n).eval 1 = gbinom (n + a) n := by
  unfold jacobi
  rw [eval_finsetSum, sum_range_succ', sum_eq_zero]
  · simp [gbinom_zero]; norm_num
  · intro i _
    simp

theorem jacobi_eval_neg_one (a b : ℝ) (n : ℕ) : (jacobi a b n).eval (-1) = (-1)^n * gbinom (n + b) n := by
  unfold jacobi
  rw [eval_finsetSum, sum_range_succ, sum_eq_zero]
  · simp [gbinom_zero]; norm_num; ring
  · intro i hi
    have : n - i ≠ 0 := by have := mem_range.mp hi; omega
    simp [this]

theorem iterate_derivative_jacobi (a b : ℝ) (n k : ℕ) :
    derivative^[k] (jacobi a b (n+k)) =
      C (∏ i ∈ range k, ((n + k + a + b + 1 + i) / 2)) * jacobi (a+k) (b+k) n := by
  induction k generalizing a b with
  | zero => simp
  | succ k ih =>
    rw [Function.iterate_succ_apply, ← add_assoc, derivative_jacobi, iterate_derivative_C_mul, ih,
      prod_range_succ']
    rw [← mul_assoc, ← C_mul]
    push_cast
    have e : a + 1 + (k:ℝ) = a + (k+1) := by ring
    have e' : b + 1 + (k:ℝ) = b + (k+1) := by ring
    rw [e, e']
    congr 2
    rw [mul_comm]
    congr 1
    · refine prod_congr rfl fun i _ => ?_
      ring
    · ring

/-- The factor `∏_{i<k} (n-i)(n+a+b+1+i) / (2(a+1+i))` relating the `k`-th derivative of `P_n^{(a,b)}` at `1`
to its value there. -/
noncomputable def bndFactor (a b : ℝ) (n k : ℕ) : ℝ :=
  ∏ i ∈ range k, (((n:ℝ) - i) * (n + a + b + 1 + i) / (2 * (a + 1 + i)))

theorem gbinom_add (x : ℝ) (n k : ℕ) :
    gbinom x (n+k) * ∏ j ∈ range k, ((n:ℝ) + 1 + j) = gbinom x n * ∏ j ∈ range k, (x - n - j) := by
  induction k with
  | zero => simp
  | succ k ih =>
    have h := gbinom_succ x (n+k)
    rw [prod_range_succ, prod_range_succ, ← add_assoc]
    push_cast at h
    linear_combination (∏ j ∈ range k, ((n:ℝ) + 1 + j)) * h + (x - n - k) * ih

theorem gbinom_shift (a : ℝ) (ha : -1 < a) (n k : ℕ) :
    gbinom (n + (a + k)) n = gbinom ((n+k : ℕ) + a) (n+k) * ∏ i ∈ range k, ((((n+k : ℕ):ℝ) - i) / (a + 1 + i)) := by
  have h := gbinom_add ((n+k : ℕ) + a) n k
  have e : (n : ℝ) + (a + k) = (n+k : ℕ) + a := by push_cast; ring
  rw [e, prod_div_distrib]
  have r1 : ∏ j ∈ range k, ((n:ℝ) + 1 + j) = ∏ i ∈ range k, (((n+k : ℕ):ℝ) - i) := by
    rw [← prod_range_reflect]
    refine prod_congr rfl fun j hj => ?_
    have hj' := mem_range.mp hj
    rw [Nat.cast_sub (by omega), Nat.cast_sub (by omega)]
    push_cast
    ring
  have r2 : ∏ j ∈ range k, (((n+k : ℕ):ℝ) + a - n - j) = ∏ i ∈ range k, (a + 1 + i) := by
    rw [← prod_range_reflect]
    refine prod_congr rfl fun j hj => ?_
    have hj' := mem_range.mp hj
    rw [Nat.cast_sub (by omega), Nat.cast_sub (by omega)]
    push_cast
    ring
  rw [r1, r2] at h
  have hne : ∏ i ∈ range k, (a + 1 + i) ≠ 0 := by
    refine prod_ne_zero_iff.mpr fun i _ => ?_
    have : (0:ℝ) ≤ i := Nat.cast_nonneg i
    linarith
  field_simp
  linear_combination -h

theorem bndFactor_of_lt (a b : ℝ) {n k : ℕ} (h : n < k) : bndFactor a b n k = 0 := by
  unfold bndFactor
  exact prod_eq_zero (mem_range.mpr h) (by simp)

theorem iterate_derivative_jacobi_eval_one (a b : ℝ) (ha : -1 < a) (n k : ℕ) :
    (derivative^[k] (jacobi a b n)).eval 1 = gbinom (n + a) n * bndFactor a b n k := by
  rcases lt_or_ge n k with h | h
  · rw [bndFactor_of_lt a b h, mul_zero,
      iterate_derivative_eq_zero ((natDegree_jacobi_le a b n).trans_lt h), eval_zero]
  · obtain ⟨m, rfl⟩ := Nat.exists_eq_add_of_le' h
    rw [iterate_derivative_jacobi, eval_mul, eval_C, jacobi_eval_one, gbinom_shift a ha]
    unfold bndFactor
    rw [mul_left_comm, ← prod_mul_distrib]
    congr 1
    refine prod_congr rfl fun i _ => ?_
    have : (0:ℝ) ≤ i := Nat.cast_nonneg i
    have : a + 1 + i ≠ 0 := by linarith
    push_cast
    field_simp

theorem iterate_derivative_jacobi_eval_neg_one (a b : ℝ) (hb : -1 < b) (n k : ℕ) :
    (derivative^[k] (jacobi a b n)).eval (-1) = (-1)^(n+k) * (gbinom (n + b) n * bndFactor b a n k) := by
  rcases lt_or_ge n k with h | h
  · rw [bndFactor_of_lt b a h, mul_zero, mul_zero,
      iterate_derivative_eq_zero ((natDegree_jacobi_le a b n).trans_lt h), eval_zero]
  · obtain ⟨m, rfl⟩ := Nat.exists_eq_add_of_le' h
    rw [iterate_derivative_jacobi, eval_mul, eval_C, jacobi_eval_neg_one, gbinom_shift b hb]
    unfold bndFactor
    have e : ((-1:ℝ))^(m+k+k) = (-1)^m := by rw [add_assoc, pow_add, ← two_mul, pow_mul]; simp
    rw [e, mul_left_comm]
    congr 1
    rw [mul_left_comm, ← prod_mul_distrib]
    congr 1
    refine prod_congr rfl fun i _ => ?_
    have : (0:ℝ) ≤ i := Nat.cast_nonneg i
    have : b + 1 + i ≠ 0 := by linarith
    push_cast
    field_simp
    ring

theorem gbinom_pos (a : ℝ) (ha : -1 < a) (n : ℕ) : 0 < gbinom (n + a) n := by
  unfold gbinom
  refine div_pos (prod_pos fun i hi => ?_) (by positivity)
  have : (i:ℝ) + 1 ≤ n := by exact_mod_cast mem_range.mp hi
  linarith

/-- A real polynomial is determined by all its derivatives at `1`. -/
theorem ext_derivatives_one {p q : ℝ[X]}
    (h : ∀ k, (derivative^[k] p).eval 1 = (derivative^[k] q).eval 1) : p = q := by
  have ht : taylor 1 p = taylor 1 q := by
    ext k
    rw [taylor_coeff, taylor_coeff]
    have hp := congrArg (eval 1) (congrFun (factorial_smul_hasseDeriv (R := ℝ) k) p)
    have hq := congrArg (eval 1) (congrFun (factorial_smul_hasseDeriv (R := ℝ) k) q)
    simp only [LinearMap.smul_apply] at hp hq
    have hk : (k.factorial : ℝ) ≠ 0 := by positivity
    have := h k
    rw [← hp, ← hq] at this
    simpa [hk] using this
  exact taylor_injective 1 ht

/-- `T_n = P_n^{(-1/2,-1/2)} / P_n^{(-1/2,-1/2)}(1)`. -/
theorem chebyshevT_eq_jacobi (n : ℕ) :
    Chebyshev.T ℝ n = C (1 / gbinom (n + -(1/2)) n) * jacobi (-(1/2)) (-(1/2)) n := by
  refine ext_derivatives_one fun k => ?_
  have hpos := gbinom_pos (-(1/2)) (by norm_num) n
  rw [iterate_derivative_C_mul, eval_mul, eval_C,
    iterate_derivative_jacobi_eval_one _ _ (by norm_num), Chebyshev.iterate_derivative_T_eval_one_eq_div]
  unfold bndFactor
  push_cast
  rw [one_div, inv_mul_cancel_left₀ hpos.ne', ← prod_div_distrib]
  refine prod_congr rfl fun i _ => ?_
  have : (2 * (i:ℝ) + 1) ≠ 0 := by positivity
  have h2 : (2 * (-(1/2 : ℝ) + 1 + i)) = 2 * i + 1 := by ring
  rw [h2]
  congr 1
  ring

/-- `U_n = (n+1) P_n^{(1/2,1/2)} / P_n^{(1/2,1/2)}(1)`. -/
theorem chebyshevU_eq_jacobi (n : ℕ) :
    Chebyshev.U ℝ n = C ((n+1) / gbinom (n + 1/2) n) * jacobi (1/2) (1/2) n := by
  refine ext_derivatives_one fun k => ?_
  have hpos := gbinom_pos (1/2) (by norm_num) n
  rw [iterate_derivative_C_mul, eval_mul, eval_C,
    iterate_derivative_jacobi_eval_one _ _ (by norm_num), Chebyshev.iterate_derivative_U_eval_one_eq_div]
  unfold bndFactor
  push_cast
  rw [div_mul_eq_mul_div, mul_left_comm, mul_div_cancel_left₀ _ hpos.ne', mul_comm _ ((n:ℝ)+1), mul_div_assoc,
    ← prod_div_distrib]
  congr 1
  refine prod_congr rfl fun i _ => ?_
  have h2 : (2 * ((1/2 : ℝ) + 1 + i)) = 2 * i + 3 := by ring
  rw [h2]
  congr 1
  ring

end Shenfun.Spec
