import Verif.Model.Laguerre
import Verif.Spec.Laguerre
import Verif.Spec.Galerkin
import Verif.Props.ChebMatrices
import Mathlib.Analysis.SpecialFunctions.Gamma.Basic
import Mathlib.Analysis.Calculus.Deriv.Polynomial
import Mathlib.Analysis.Calculus.IteratedDeriv.Defs

/-!
# C72: Laguerre functions
-/

namespace Shenfun

open Polynomial Spec Finset MeasureTheory

set_option linter.unusedSimpArgs false
set_option linter.unusedVariables false

/-! ## The polynomials -/

/-- Coefficients of the Laguerre polynomials. -/
noncomputable def lagCoef (n k : ℕ) : ℝ := (-1) ^ k * (n.choose k : ℝ) / (Nat.factorial k : ℝ)

theorem lagCoef_zero (n : ℕ) : lagCoef n 0 = 1 := by simp [lagCoef]

theorem lagCoef_succ (n k : ℕ) : lagCoef (n + 1) (k + 1) = lagCoef n (k + 1) - lagCoef n k / ((k : ℝ) + 1) := by
  have h1 : (k : ℝ) + 1 ≠ 0 := by positivity
  have h2 : (Nat.factorial k : ℝ) ≠ 0 := by positivity
  unfold lagCoef
  rw [Nat.choose_succ_succ, Nat.factorial_succ]
  push_cast
  field_simp
  ring

theorem lagCoef_mul (n k : ℕ) : ((k : ℝ) + 1) ^ 2 * lagCoef n (k + 1) = ((k : ℝ) - n) * lagCoef n k := by
  have h1 : (k : ℝ) + 1 ≠ 0 := by positivity
  have h2 : (Nat.factorial k : ℝ) ≠ 0 := by positivity
  have e : (n.choose (k + 1) : ℝ) * ((k : ℝ) + 1) = (n.choose k : ℝ) * ((n : ℝ) - k) := by
    rcases le_or_gt k n with h | h
    · have := Nat.choose_succ_right_eq n k
      have h3 : ((n.choose (k + 1) * (k + 1) : ℕ) : ℝ) = ((n.choose k * (n - k) : ℕ) : ℝ) := by rw [this]
      rw [Nat.cast_mul, Nat.cast_mul, Nat.cast_sub h] at h3
      exact_mod_cast h3
    · rw [Nat.choose_eq_zero_of_lt h, Nat.choose_eq_zero_of_lt (by omega)]; simp
  unfold lagCoef
  rw [Nat.factorial_succ]
  push_cast
  field_simp
  linear_combination (-(-1) ^ k) * e

theorem lagCoef_three (n k : ℕ) : ((n : ℝ) + 2) * lagCoef (n + 2) (k + 1) =
    (2 * ((n : ℝ) + 2) - 1) * lagCoef (n + 1) (k + 1) - lagCoef (n + 1) k - ((n : ℝ) + 1) * lagCoef n (k + 1) := by
  have h1 : (k : ℝ) + 1 ≠ 0 := by positivity
  have a := lagCoef_succ (n + 1) k
  have b := lagCoef_succ n k
  have c := lagCoef_mul (n + 1) k
  have d := lagCoef_mul n k
  push_cast at c
  have b' : lagCoef n k = ((k : ℝ) + 1) * (lagCoef n (k + 1) - lagCoef (n + 1) (k + 1)) := by
    rw [b]; field_simp; ring
  have c' : lagCoef (n + 1) (k + 1) * ((k : ℝ) + 1) ^ 2 = ((k : ℝ) - (n + 1)) * lagCoef (n + 1) k := by linear_combination c
  rw [a, show lagCoef (n + 1) k / ((k : ℝ) + 1) = lagCoef (n + 1) k * ((k : ℝ) + 1) / ((k : ℝ) + 1) ^ 2 by field_simp]
  rw [b'] at d
  have d' : ((n : ℝ) + 1) * lagCoef n (k + 1) = ((n : ℝ) - k) * lagCoef (n + 1) (k + 1) := by
    have : ((k : ℝ) + 1) * (((n : ℝ) + 1) * lagCoef n (k + 1)) = ((k : ℝ) + 1) * (((n : ℝ) - k) * lagCoef (n + 1) (k + 1)) := by
      linear_combination d
    exact mul_left_cancel₀ h1 this
  field_simp
  linear_combination -c + ((k : ℝ) + 1) * d'

theorem coeff_lagP : ∀ n k : ℕ, (lagP n).coeff k = lagCoef n k
  | 0, k => by
    rcases k with _ | k
    · simp [lagP, lagCoef]
    · simp [lagP, lagCoef, coeff_one]
  | 1, k => by
    rcases k with _ | _ | k
    · simp [lagP, lagCoef]
    · simp [lagP, lagCoef, coeff_one]
    · simp [lagP, lagCoef, coeff_one, coeff_X, Nat.choose_eq_zero_of_lt (show 1 < k + 1 + 1 by omega)]
  | (n + 2), k => by
    have h : (n : ℝ) + 2 ≠ 0 := by positivity
    unfold lagP
    rw [coeff_C_mul, coeff_sub, mul_sub (lagP (n + 1)), coeff_sub, coeff_mul_C, coeff_mul_C, coeff_lagP n k, coeff_lagP (n + 1) k]
    rcases k with _ | k
    · rw [coeff_mul_X_zero, lagCoef_zero, lagCoef_zero, lagCoef_zero]
      field_simp
      ring
    · rw [coeff_mul_X, coeff_lagP (n + 1) k]
      have := lagCoef_three n k
      field_simp
      linear_combination -this

theorem natDegree_lagP (n : ℕ) : (lagP n).natDegree ≤ n :=
  natDegree_le_iff_coeff_eq_zero.2 fun k hk => by
    rw [coeff_lagP, lagCoef, Nat.choose_eq_zero_of_lt (by omega)]; simp

/-- The columns of `lagvander` are the Laguerre polynomials. -/
theorem lagP_eval (n : ℕ) (x : ℝ) : (lagP n).eval x = laguerreL n x := by
  rw [eval_eq_sum_range' (Nat.lt_succ_of_le (natDegree_lagP n))]
  exact sum_congr rfl fun k _ => by rw [coeff_lagP]; rfl

theorem lagBasis_eq (n : ℕ) (x : ℝ) : lagBasis n x = laguerreFun n x := by
  unfold lagBasis laguerreFun
  rw [lagP_eval]

theorem derivative_lagP_succ (n : ℕ) : derivative (lagP (n + 1)) = derivative (lagP n) - lagP n := by
  ext k
  have h1 : (k : ℝ) + 1 ≠ 0 := by positivity
  rw [coeff_derivative, coeff_sub, coeff_derivative, coeff_lagP, coeff_lagP, coeff_lagP, lagCoef_succ]
  field_simp

theorem derivative_lagP (n : ℕ) : derivative (lagP n) = -∑ j ∈ range n, lagP j := by
  induction n with
  | zero => simp [lagP]
  | succ n ih => rw [derivative_lagP_succ, ih, sum_range_succ]; ring

theorem lagP_ode (n : ℕ) : X * derivative (derivative (lagP n)) + (1 - X) * derivative (lagP n) + C (n : ℝ) * lagP n = 0 := by
  ext k
  rw [coeff_add, coeff_add, sub_mul, one_mul, coeff_sub, coeff_C_mul, coeff_zero]
  have c := lagCoef_mul n k
  rcases k with _ | k
  · rw [coeff_X_mul_zero, coeff_X_mul_zero, coeff_derivative, coeff_lagP, coeff_lagP]
    push_cast at c ⊢
    linear_combination c
  · rw [coeff_X_mul, coeff_X_mul, coeff_derivative, coeff_derivative, coeff_derivative, coeff_lagP, coeff_lagP]
    push_cast at c ⊢
    linear_combination c

theorem lagP_three (n : ℕ) : X * lagP (n + 1) = C (2 * (n : ℝ) + 3) * lagP (n + 1) - C ((n : ℝ) + 2) * lagP (n + 2) - C ((n : ℝ) + 1) * lagP n := by
  have h : (n : ℝ) + 2 ≠ 0 := by positivity
  rw [show lagP (n + 2) = C (1 / ((n : ℝ) + 2)) * (lagP (n + 1) * (C (2 * ((n : ℝ) + 2) - 1) - X) - lagP n * C ((n : ℝ) + 1)) from rfl,
    ← mul_assoc, ← C_mul, mul_one_div_cancel h, C_1, show (2 * ((n : ℝ) + 2) - 1) = 2 * n + 3 by ring]
  ring

/-! ## Orthonormality -/

theorem integral_pow_exp (n : ℕ) : ∫ t in Set.Ioi (0 : ℝ), t ^ n * Real.exp (-t) = (Nat.factorial n : ℝ) := by
  rw [← Real.Gamma_nat_eq_factorial, Real.Gamma_eq_integral (by positivity)]
  refine setIntegral_congr_fun measurableSet_Ioi fun t ht => ?_
  rw [add_sub_cancel_right, Real.rpow_natCast, mul_comm]

theorem integrable_pow_exp (n : ℕ) : IntegrableOn (fun t : ℝ => t ^ n * Real.exp (-t)) (Set.Ioi 0) := by
  have := Real.GammaIntegral_convergent (s := (n : ℝ) + 1) (by positivity)
  refine this.congr_fun (fun t ht => ?_) measurableSet_Ioi
  dsimp only
  rw [add_sub_cancel_right, Real.rpow_natCast, mul_comm]

/-- `∫_0^∞ p(t) exp(-t) dt`. -/
noncomputable def lagE (p : ℝ[X]) : ℝ := ∫ t in Set.Ioi (0 : ℝ), p.eval t * Real.exp (-t)

theorem integrable_poly_exp (p : ℝ[X]) : IntegrableOn (fun t : ℝ => p.eval t * Real.exp (-t)) (Set.Ioi 0) := by
  rw [show (fun t : ℝ => p.eval t * Real.exp (-t)) = fun t : ℝ => ∑ k ∈ range (p.natDegree + 1), p.coeff k * (t ^ k * Real.exp (-t)) from
    funext fun t => by rw [eval_eq_sum_range, sum_mul]; exact sum_congr rfl fun k _ => by ring]
  exact integrable_finsetSum _ fun k _ => (integrable_pow_exp k).const_mul _

theorem lagE_add (p q : ℝ[X]) : lagE (p + q) = lagE p + lagE q := by
  unfold lagE
  rw [← integral_add (integrable_poly_exp p) (integrable_poly_exp q)]
  exact integral_congr_ae (Filter.Eventually.of_forall fun t => by simp only [eval_add]; ring)

theorem lagE_C_mul (c : ℝ) (p : ℝ[X]) : lagE (C c * p) = c * lagE p := by
  unfold lagE
  rw [← integral_const_mul]
  exact integral_congr_ae (Filter.Eventually.of_forall fun t => by simp only [eval_mul, eval_C]; ring)

theorem lagE_sub (p q : ℝ[X]) : lagE (p - q) = lagE p - lagE q := by
  rw [show p - q = p + C (-1) * q by rw [C_neg, C_1]; ring, lagE_add, lagE_C_mul]; ring

theorem lagE_pow (n : ℕ) : lagE (X ^ n) = (Nat.factorial n : ℝ) := by
  unfold lagE
  simp only [eval_pow, eval_X]
  exact integral_pow_exp n

theorem lagE_one : lagE 1 = 1 := by simpa using lagE_pow 0

theorem lagE_zero : lagE 0 = 0 := by simp [lagE]

theorem lagE_derivative (p : ℝ[X]) : lagE (derivative p) = lagE p - p.eval 0 := by
  induction p using Polynomial.induction_on' with
  | add p q hp hq => rw [derivative_add, lagE_add, lagE_add, hp, hq, eval_add]; ring
  | monomial n a =>
    rw [← C_mul_X_pow_eq_monomial, derivative_C_mul, lagE_C_mul, lagE_C_mul, derivative_X_pow, lagE_C_mul, lagE_pow, lagE_pow, eval_mul, eval_C, eval_pow, eval_X]
    rcases n with _ | n
    · simp
    · rw [Nat.factorial_succ]
      push_cast
      simp
      

theorem lagE_sl (n : ℕ) (q : ℝ[X]) : (n : ℝ) * lagE (lagP n * q) = lagE (X * derivative (lagP n) * derivative q) := by
  have h := lagE_derivative (X * derivative (lagP n) * q)
  rw [eval_mul, eval_mul, eval_X, zero_mul, zero_mul, sub_zero] at h
  have o := lagP_ode n
  have e : derivative (X * derivative (lagP n) * q) = X * derivative (lagP n) * derivative q + X * derivative (lagP n) * q - C (n : ℝ) * (lagP n * q) := by
    rw [derivative_mul, derivative_mul, derivative_X]
    linear_combination q * o
  rw [e, lagE_sub, lagE_add, lagE_C_mul] at h
  linarith

theorem lagE_ne (m n : ℕ) (h : m ≠ n) : lagE (lagP m * lagP n) = 0 := by
  have a := lagE_sl m (lagP n)
  have b := lagE_sl n (lagP m)
  rw [mul_comm (lagP n), show X * derivative (lagP n) * derivative (lagP m) = X * derivative (lagP m) * derivative (lagP n) by ring] at b
  have c : ((m : ℝ) - n) * lagE (lagP m * lagP n) = 0 := by linarith
  rcases mul_eq_zero.1 c with c | c
  · exact absurd (by exact_mod_cast sub_eq_zero.1 c) h
  · exact c

theorem lagE_self (n : ℕ) : lagE (lagP n * lagP n) = 1 := by
  induction n with
  | zero => simpa [lagP] using lagE_one
  | succ n ih =>
    rcases n with _ | n
    · have : lagP 1 * lagP 1 = 1 - C 2 * X ^ 1 + X ^ 2 := by
        simp only [lagP]; rw [show (C (2 : ℝ) : ℝ[X]) = 2 from rfl]; ring
      rw [this, lagE_add, lagE_sub, lagE_C_mul, lagE_one, lagE_pow, lagE_pow]
      norm_num
    · have e1 := congrArg (fun p => lagE (p * lagP (n + 2))) (lagP_three n)
      have e2 := congrArg (fun p => lagE (p * lagP (n + 1))) (lagP_three (n + 1))
      simp only [sub_mul, mul_assoc, lagE_sub, lagE_C_mul] at e1 e2
      rw [lagE_ne (n + 1) (n + 2) (by omega), lagE_ne n (n + 2) (by omega)] at e1
      rw [show n + 1 + 1 = n + 2 from rfl, show n + 1 + 2 = n + 3 from rfl, lagE_ne (n + 2) (n + 1) (by omega), lagE_ne (n + 3) (n + 1) (by omega), ih,
        mul_comm (lagP (n + 2))] at e2
      rw [e2] at e1
      have h : (n : ℝ) + 2 ≠ 0 := by positivity
      push_cast at e1
      refine mul_left_cancel₀ h ?_
      linarith

theorem lagE_lagP (m n : ℕ) : lagE (lagP m * lagP n) = if m = n then 1 else 0 := by
  by_cases h : m = n
  · subst h; rw [if_pos rfl, lagE_self]
  · rw [if_neg h, lagE_ne m n h]

theorem exp_half_sq (x : ℝ) : Real.exp (-x / 2) * Real.exp (-x / 2) = Real.exp (-x) := by
  rw [← Real.exp_add]; congr 1; ring

theorem integral_polyHalf (u v : ℝ → ℝ) (p q : ℝ[X]) (hu : ∀ t, u t = p.eval t * Real.exp (-t / 2)) (hv : ∀ t, v t = q.eval t * Real.exp (-t / 2)) :
    ∫ t in Set.Ioi (0 : ℝ), u t * v t = lagE (p * q) := by
  unfold lagE
  refine integral_congr_ae (Filter.Eventually.of_forall fun t => ?_)
  dsimp only
  rw [hu, hv, eval_mul, ← exp_half_sq]
  ring

theorem laguerreFun_poly (n : ℕ) (t : ℝ) : laguerreFun n t = (lagP n).eval t * Real.exp (-t / 2) := by
  rw [← lagBasis_eq]; rfl

/-- **C72** The basis functions are orthonormal on `(0, ∞)`. -/
theorem C72_orthonormal (m n : ℕ) : ∫ t in Set.Ioi (0 : ℝ), laguerreFun m t * laguerreFun n t = if m = n then 1 else 0 := by
  rw [integral_polyHalf _ _ _ _ (laguerreFun_poly m) (laguerreFun_poly n), lagE_lagP]

theorem laguerreQuad_poly (N : ℕ) (x w : ℕ → ℝ) (hr : GaussLaguerre N x w) (u v : ℝ → ℝ) (p q : ℝ[X]) (hp : p.natDegree < N) (hq : q.natDegree < N)
    (hu : ∀ t, u t = p.eval t * Real.exp (-t / 2)) (hv : ∀ t, v t = q.eval t * Real.exp (-t / 2)) :
    laguerreQuad N x w u v = lagE (p * q) := by
  unfold lagE
  rw [← hr.exact _ (natDegree_mul_le.trans_lt (by omega))]
  refine sum_congr rfl fun j _ => ?_
  rw [hu, hv, eval_mul]
  have : Real.exp (x j) * (Real.exp (-x j / 2) * Real.exp (-x j / 2)) = 1 := by
    rw [exp_half_sq, ← Real.exp_add]; simp
  linear_combination (w j * p.eval (x j) * q.eval (x j)) * this

/-- **C72** They are orthonormal also discretely. -/
theorem C72_discrete_orthonormal (N M : ℕ) (hM : N ≤ M) (x w : ℕ → ℝ) (hr : GaussLaguerre M x w) (i j : ℕ) (hi : i < N) (hj : j < N) :
    laguerreQuad M x w (laguerreFun i) (laguerreFun j) = if i = j then 1 else 0 := by
  rw [laguerreQuad_poly M x w hr _ _ _ _ ((natDegree_lagP i).trans_lt (by omega)) ((natDegree_lagP j).trans_lt (by omega)) (laguerreFun_poly i) (laguerreFun_poly j), lagE_lagP]

/-- **C72** `forward(backward(c)) = c`, with any padding. -/
theorem C72_transform (N M : ℕ) (hM : N ≤ M) (x w : ℕ → ℝ) (hr : GaussLaguerre M x w) (c : ℕ → ℝ) (k : ℕ) (hk : k < N) :
    lagForward x w M (lagBackward x N c) k = c k := by
  unfold lagForward lagScalar lagBackward lagWeight
  rw [mul_one, div_one, sum_congr rfl fun j _ => show _ = ∑ m ∈ range N, c m *
      (w j * Real.exp (x j) * (laguerreFun m (x j) * laguerreFun k (x j))) by
    rw [sum_mul, sum_mul]
    refine sum_congr rfl fun m _ => ?_
    rw [lagBasis_eq, lagBasis_eq]
    ring, sum_comm]
  rw [sum_congr rfl fun m hm => show _ = c m * (if m = k then 1 else 0) by
    rw [← mul_sum, ← C72_discrete_orthonormal N M hM x w hr m k (mem_range.mp hm) hk]; rfl]
  simp [hk]

/-- **C72** `scalar_product` computes the discrete inner products with the basis. -/
theorem C72_scalar (M : ℕ) (x w : ℕ → ℝ) (u : ℝ → ℝ) (k : ℕ) :
    lagScalar x w M (fun j => u (x j)) k = laguerreQuad M x w u (laguerreFun k) := by
  unfold lagScalar laguerreQuad lagWeight
  refine sum_congr rfl fun j _ => ?_
  rw [lagBasis_eq]
  ring

/-- The rule with two points `2 ∓ √2` and weights `(2 ± √2)/4`. -/
theorem gaussLaguerre_two : GaussLaguerre 2 (fun j => if j = 0 then 2 - Real.sqrt 2 else 2 + Real.sqrt 2)
    (fun j => if j = 0 then (2 + Real.sqrt 2) / 4 else (2 - Real.sqrt 2) / 4) := by
  have h2 : Real.sqrt 2 ^ 2 = 2 := Real.sq_sqrt (by norm_num)
  generalize Real.sqrt 2 = r at h2 ⊢
  refine ⟨fun p hp => ?_⟩
  change _ = lagE p
  have hp4 : p = C (p.coeff 0) * X ^ 0 + C (p.coeff 1) * X ^ 1 + C (p.coeff 2) * X ^ 2 + C (p.coeff 3) * X ^ 3 := by
    have := p.as_sum_range_C_mul_X_pow' (n := 4) (by omega)
    rw [sum_range_succ, sum_range_succ, sum_range_succ, sum_range_succ, sum_range_zero] at this
    simpa using this
  rw [hp4]
  simp only [lagE_add, lagE_C_mul, lagE_pow, sum_range_succ, sum_range_zero, eval_add, eval_mul, eval_C, eval_pow, eval_X, if_true, one_ne_zero, if_false, Nat.factorial]
  generalize p.coeff 0 = c0
  generalize p.coeff 1 = c1
  generalize p.coeff 2 = c2
  generalize p.coeff 3 = c3
  norm_num
  linear_combination (-c1 / 2 - c2 - c3 / 2 * (r ^ 2 + 2)) * h2

example : lagForward (fun j => if j = 0 then 2 - Real.sqrt 2 else 2 + Real.sqrt 2) (fun j => if j = 0 then (2 + Real.sqrt 2) / 4 else (2 - Real.sqrt 2) / 4) 2
    (lagBackward (fun j => if j = 0 then 2 - Real.sqrt 2 else 2 + Real.sqrt 2) 2 fun k => 3 * k + 1) 1 = 4 := by
  rw [C72_transform 2 2 le_rfl _ _ gaussLaguerre_two _ 1 (by omega)]
  norm_num

/-! ## Derivatives -/

/-- A Laguerre series as a polynomial. -/
noncomputable def lagS (n : ℕ) (c : ℕ → ℝ) : ℝ[X] := ∑ m ∈ range n, C (c m) * lagP m

theorem lagSeries_eq (n : ℕ) (c : ℕ → ℝ) (x : ℝ) : lagSeries n c x = (lagS n c).eval x := by
  unfold lagSeries lagS
  rw [eval_finsetSum]
  exact sum_congr rfl fun m _ => by rw [eval_mul, eval_C, mul_comm]

theorem derivative_lagS (n : ℕ) (c : ℕ → ℝ) : derivative (lagS n c) = lagS (n - 1) (lagDerStep n c) := by
  unfold lagS
  rw [derivative_sum, sum_congr rfl fun m hm => show _ = ∑ j ∈ range (n - 1), if j < m then -(C (c m) * lagP j) else 0 by
    rw [derivative_C_mul, derivative_lagP, mul_neg, mul_sum, ← sum_neg_distrib, ← sum_filter]
    refine sum_congr ?_ fun _ _ => rfl
    ext j
    have := mem_range.mp hm
    simp only [mem_range, mem_filter]
    omega, sum_comm]
  refine sum_congr rfl fun j hj => ?_
  have hj' := mem_range.mp hj
  rw [lagDerStep, if_pos (by omega), C_neg, map_sum, neg_mul, sum_mul, ← sum_filter, ← sum_neg_distrib]
  refine sum_congr ?_ fun _ _ => rfl
  ext m
  simp only [mem_range, mem_filter, mem_Ico]
  omega

theorem lagDer_beyond : ∀ (k n : ℕ) (c : ℕ → ℝ), (∀ j, n ≤ j → c j = 0) → ∀ j, n ≤ j → lagDer n k c j = 0
  | 0, n, c, h, j, hj => h j hj
  | (k + 1), n, c, h, j, hj => by
    refine lagDer_beyond k (n - 1) _ (fun i hi => ?_) j (by omega)
    rw [lagDerStep, if_neg (by omega)]

theorem lagS_extend (n : ℕ) (c : ℕ → ℝ) (h : ∀ j, n - 1 ≤ j → c j = 0) : lagS (n - 1) c = lagS n c := by
  rcases n with _ | n
  · rfl
  · unfold lagS
    rw [show n + 1 - 1 = n from rfl, sum_range_succ, h n (by omega), C_0, zero_mul, add_zero]

theorem iterate_derivative_lagS : ∀ (k n : ℕ) (c : ℕ → ℝ), (∀ j, n ≤ j → c j = 0) → derivative^[k] (lagS n c) = lagS n (lagDer n k c)
  | 0, n, c, h => rfl
  | (k + 1), n, c, h => by
    have hs : ∀ j, n - 1 ≤ j → lagDerStep n c j = 0 := fun i hi => by rw [lagDerStep, if_neg (by omega)]
    rw [Function.iterate_succ_apply, derivative_lagS, iterate_derivative_lagS k (n - 1) _ hs,
      lagS_extend _ _ (lagDer_beyond k (n - 1) _ hs)]
    rfl

theorem lagS_single (M i : ℕ) (hi : i < M) : lagS M (fun m => if m = i then 1 else 0) = lagP i := by
  unfold lagS
  rw [sum_congr rfl fun m _ => show _ = if m = i then lagP m else 0 by
    beta_reduce
    by_cases h : m = i
    · rw [if_pos h, if_pos h, C_1, one_mul]
    · rw [if_neg h, if_neg h, C_0, zero_mul], sum_ite_eq', if_pos (mem_range.mpr hi)]

theorem lagDer_eval (M i : ℕ) (hi : i < M) (k : ℕ) (x : ℝ) :
    lagSeries M (lagDer M k fun m => if m = i then 1 else 0) x = (derivative^[k] (lagP i)).eval x := by
  rw [lagSeries_eq, ← iterate_derivative_lagS k M _ fun j hj => if_neg (by omega), lagS_single M i hi]

/-- Differentiation of `p(x) exp(-x/2)`. -/
noncomputable def lagD (p : ℝ[X]) : ℝ[X] := derivative p - C (1 / 2) * p

theorem hasDerivAt_expHalf (p : ℝ[X]) (x : ℝ) :
    HasDerivAt (fun y : ℝ => p.eval y * Real.exp (-y / 2)) ((lagD p).eval x * Real.exp (-x / 2)) x := by
  have h : HasDerivAt (fun y : ℝ => -y / 2) (-1 / 2) x := ((hasDerivAt_id x).neg).div_const 2
  refine ((p.hasDerivAt x).mul h.exp).congr_deriv ?_
  unfold lagD
  rw [eval_sub, eval_mul, eval_C]
  ring

theorem iteratedDeriv_expHalf (k : ℕ) : ∀ (p : ℝ[X]) (x : ℝ),
    iteratedDeriv k (fun y : ℝ => p.eval y * Real.exp (-y / 2)) x = (lagD^[k] p).eval x * Real.exp (-x / 2) := by
  induction k with
  | zero => intro p x; rfl
  | succ k ih =>
    intro p x
    rw [iteratedDeriv_succ', show deriv (fun y : ℝ => p.eval y * Real.exp (-y / 2)) = fun y => (lagD p).eval y * Real.exp (-y / 2) from
      funext fun y => (hasDerivAt_expHalf p y).deriv, ih, Function.iterate_succ_apply]

theorem iteratedDeriv_laguerreFun (k n : ℕ) (x : ℝ) :
    iteratedDeriv k (laguerreFun n) x = (lagD^[k] (lagP n)).eval x * Real.exp (-x / 2) := by
  rw [show laguerreFun n = fun y : ℝ => (lagP n).eval y * Real.exp (-y / 2) from funext (laguerreFun_poly n), iteratedDeriv_expHalf]

theorem lagD_eval (p : ℝ[X]) (x : ℝ) : (lagD p).eval x = (derivative p).eval x - 1 / 2 * p.eval x := by
  unfold lagD; rw [eval_sub, eval_mul, eval_C]

theorem derivative_lagD (p : ℝ[X]) : derivative (lagD p) = lagD (derivative p) := by
  unfold lagD; rw [derivative_sub, derivative_C_mul]

theorem lagD_sub (p q : ℝ[X]) : lagD (p - q) = lagD p - lagD q := by
  unfold lagD; rw [derivative_sub]; ring

theorem lagD_eval2 (p : ℝ[X]) (x : ℝ) : (lagD (lagD p)).eval x = (derivative (derivative p)).eval x - (derivative p).eval x + 1 / 4 * p.eval x := by
  rw [lagD_eval, derivative_lagD, lagD_eval, lagD_eval]; ring

theorem lagD_eval3 (p : ℝ[X]) (x : ℝ) : (lagD (lagD (lagD p))).eval x = (derivative (derivative (derivative p))).eval x - 3 / 2 * (derivative (derivative p)).eval x +
    3 / 4 * (derivative p).eval x - 1 / 8 * p.eval x := by
  rw [lagD_eval2, derivative_lagD, derivative_lagD, lagD_eval, lagD_eval, lagD_eval]; ring

theorem lagD_eval4 (p : ℝ[X]) (x : ℝ) : (lagD (lagD (lagD (lagD p)))).eval x = (derivative (derivative (derivative (derivative p)))).eval x -
    2 * (derivative (derivative (derivative p))).eval x + 3 / 2 * (derivative (derivative p)).eval x - 1 / 2 * (derivative p).eval x + 1 / 16 * p.eval x := by
  rw [lagD_eval3, derivative_lagD, derivative_lagD, derivative_lagD, lagD_eval, lagD_eval, lagD_eval, lagD_eval]; ring

theorem iter1 {α : Type*} (f : α → α) (a : α) : f^[1] a = f a := rfl
theorem iter2 {α : Type*} (f : α → α) (a : α) : f^[2] a = f (f a) := rfl
theorem iter3 {α : Type*} (f : α → α) (a : α) : f^[3] a = f (f (f a)) := rfl
theorem iter4 {α : Type*} (f : α → α) (a : α) : f^[4] a = f (f (f (f a))) := rfl
theorem iter5 {α : Type*} (f : α → α) (a : α) : f^[5] a = f (f (f (f (f a)))) := rfl

/-- **C72** `evaluate_basis_derivative` returns the derivatives of the basis functions of orders up to four. -/
theorem C72_derivative (M i k : ℕ) (hi : i < M) (hk : k ≤ 4) (x : ℝ) :
    lagBasisDeriv M i k x = iteratedDeriv k (laguerreFun i) x := by
  rw [iteratedDeriv_laguerreFun]
  unfold lagBasisDeriv
  have d := lagDer_eval M i hi
  have : k = 0 ∨ k = 1 ∨ k = 2 ∨ k = 3 ∨ k = 4 := by omega
  rcases this with h | h | h | h | h <;> subst h <;> beta_reduce
  · ifs
    rw [d, Function.iterate_zero_apply, Function.iterate_zero_apply]
  · ifs
    rw [d, d, iter1, iter1, Function.iterate_zero_apply, lagD_eval]
    norm_num
  · ifs
    rw [d, d, d, iter1, iter2, iter2, Function.iterate_zero_apply, lagD_eval2]
    norm_num
  · ifs
    rw [d, d, d, d, iter1, iter2, iter3, iter3, Function.iterate_zero_apply, lagD_eval3]
    ring
  · ifs
    rw [d, d, d, d, d, iter1, iter2, iter3, iter4, iter4, Function.iterate_zero_apply, lagD_eval4]
    ring

/-- **C72** Refuted for higher orders: no error is raised and the function itself is returned. -/
theorem C72_derivative_high_refuted (M i k : ℕ) (hi : i < M) (hk : 4 < k) (x : ℝ) : lagBasisDeriv M i k x = laguerreFun i x := by
  unfold lagBasisDeriv
  beta_reduce
  ifs
  rw [lagDer_eval M i hi, Function.iterate_zero_apply, laguerreFun_poly]

/-- The value really is another one: the fifth derivative of `exp(-x/2)`. -/
example : lagBasisDeriv 4 0 5 0 ≠ iteratedDeriv 5 (laguerreFun 0) 0 := by
  rw [C72_derivative_high_refuted 4 0 5 (by omega) (by omega), iteratedDeriv_laguerreFun, laguerreFun_poly, iter5, lagD_eval4, derivative_lagD, derivative_lagD,
    derivative_lagD, derivative_lagD, lagD_eval, lagD_eval, lagD_eval, lagD_eval, lagD_eval, show lagP 0 = 1 from rfl]
  simp only [derivative_one, derivative_zero, eval_one, eval_zero]
  norm_num

theorem lag_dot (M k j : ℕ) (hj : j < M) (x : ℝ) : ∑ i ∈ range M, (lagP i).eval x * lagDer M k (fun m => if m = j then 1 else 0) i =
    (derivative^[k] (lagP j)).eval x := lagDer_eval M j hj k x

/-- **C72** `evaluate_basis_derivative_all` returns the derivatives of orders 0, 1, 2 and 4 and refuses those above four. -/
theorem C72_derivative_all (M k j : ℕ) (hj : j < M) (hk : k ≠ 3) (x : ℝ) :
    lagBasisDerivAll M k j x = if k ≤ 4 then some (iteratedDeriv k (laguerreFun j) x) else none := by
  rw [iteratedDeriv_laguerreFun]
  unfold lagBasisDerivAll
  have d := fun k => lag_dot M k j hj x
  by_cases h4 : k ≤ 4
  · rw [if_pos h4]
    have : k = 0 ∨ k = 1 ∨ k = 2 ∨ k = 4 := by omega
    rcases this with h | h | h | h <;> subst h <;> beta_reduce
    · ifs
      rw [Function.iterate_zero_apply]
    · ifs
      rw [d, iter1, iter1, lagD_eval]
      norm_num
    · ifs
      rw [sum_congr rfl fun i _ => mul_sub _ _ _, sum_sub_distrib, d, d, iter1, iter2, iter2, lagD_eval2]
      norm_num
    · ifs
      rw [sum_congr rfl fun i _ => show _ = (lagP i).eval x * lagDer M 4 (fun m => if m = j then 1 else 0) i -
          (lagP i).eval x * lagDer M 3 (fun m => if m = j then 1 else 0) i * 2 + (lagP i).eval x * lagDer M 2 (fun m => if m = j then 1 else 0) i * (3 / 2) -
          (lagP i).eval x * lagDer M 1 (fun m => if m = j then 1 else 0) i * (1 / 2) by ring, sum_sub_distrib, sum_add_distrib, sum_sub_distrib,
        ← sum_mul, ← sum_mul, ← sum_mul, d, d, d, d, iter1, iter2, iter3, iter4, iter4, lagD_eval4]
      refine congrArg some ?_
      ring
  · rw [if_neg h4]
    ifs

/-- **C72** For the order three what is returned is off by a quarter of the function itself: wrong wherever that is not zero. -/
theorem C72_derivative_all_three_refuted (M j : ℕ) (hj : j < M) (x : ℝ) :
    lagBasisDerivAll M 3 j x = some (iteratedDeriv 3 (laguerreFun j) x + laguerreFun j x / 4) := by
  rw [iteratedDeriv_laguerreFun, laguerreFun_poly]
  unfold lagBasisDerivAll
  have d := fun k => lag_dot M k j hj x
  beta_reduce
  ifs
  rw [sum_congr rfl fun i _ => show _ = (lagP i).eval x * lagDer M 3 (fun m => if m = j then 1 else 0) i -
      (lagP i).eval x * lagDer M 2 (fun m => if m = j then 1 else 0) i * (3 / 2) +
      (lagP i).eval x * lagDer M 1 (fun m => if m = j then 1 else 0) i * (3 / 4) by ring, sum_add_distrib, sum_sub_distrib,
    ← sum_mul, ← sum_mul, d, d, d, iter1, iter2, iter3, iter3, lagD_eval3]
  refine congrArg some ?_
  ring

example : lagBasisDerivAll 5 3 0 0 ≠ some (iteratedDeriv 3 (laguerreFun 0) 0) := by
  rw [C72_derivative_all_three_refuted 5 0 (by omega)]
  intro h
  have := Option.some.inj h
  rw [laguerreFun_poly] at this
  simp [lagP] at this

/-! ## Boundary values and composite bases -/

/-- **C72** `bnd_values` are the values of the basis functions and of their first derivatives at the origin. -/
theorem C72_bnd_values (k i : ℕ) (hk : k ≤ 1) : lagBnd k i = some (iteratedDeriv k (laguerreFun i) 0) := by
  rw [iteratedDeriv_laguerreFun]
  have e0 : (lagP i).eval 0 = 1 := by rw [← coeff_zero_eq_eval_zero, coeff_lagP, lagCoef_zero]
  have e1 : (derivative (lagP i)).eval 0 = -(i : ℝ) := by
    rw [derivative_lagP, eval_neg, eval_finsetSum, sum_congr rfl fun j _ => show _ = (1 : ℝ) by
      rw [← coeff_zero_eq_eval_zero, coeff_lagP, lagCoef_zero]]
    simp
  have : k = 0 ∨ k = 1 := by omega
  rcases this with h | h <;> subst h
  · unfold lagBnd
    ifs
    simp [e0]
  · unfold lagBnd
    ifs
    simp only [Function.iterate_succ, Function.iterate_zero, Function.comp_apply, id_eq, lagD, eval_sub, eval_mul, eval_C, e0, e1]
    simp

/-- Basis function of a composite space, as a polynomial. -/
noncomputable def lagC (s : ℕ → ℝ) (k : ℕ) : ℝ[X] := lagP k + C (s k) * lagP (k + 1)

theorem lagComposite_poly (s : ℕ → ℝ) (k : ℕ) (x : ℝ) : lagComposite s k x = (lagC s k).eval x * Real.exp (-x / 2) := by
  unfold lagComposite lagBasis lagC
  rw [eval_add, eval_mul, eval_C]
  ring

theorem eval_zero_lagP (i : ℕ) : (lagP i).eval 0 = 1 := by rw [← coeff_zero_eq_eval_zero, coeff_lagP, lagCoef_zero]

theorem eval_zero_deriv_lagP (i : ℕ) : (derivative (lagP i)).eval 0 = -(i : ℝ) := by
  rw [derivative_lagP, eval_neg, eval_finsetSum, sum_congr rfl fun j _ => eval_zero_lagP j]
  simp

theorem coeff_top_lagP (n : ℕ) : (lagP n).coeff n ≠ 0 := by
  rw [coeff_lagP, lagCoef, Nat.choose_self]
  have : (Nat.factorial n : ℝ) ≠ 0 := by positivity
  simp [this]

/-- One boundary condition: functions of increasing degree that meet it span all functions that meet it. -/
theorem lag_complete (ℓ : ℝ[X] →ₗ[ℝ] ℝ) (h1 : ℓ 1 ≠ 0) (φ : ℕ → ℝ[X]) (hφ : ∀ k, ℓ (φ k) = 0) (hd : ∀ k, (φ k).natDegree ≤ k + 1)
    (hc : ∀ k, (φ k).coeff (k + 1) ≠ 0) : ∀ (n : ℕ) (p : ℝ[X]), p.natDegree ≤ n → ℓ p = 0 →
    ∃ c : ℕ → ℝ, p = ∑ k ∈ range n, C (c k) * φ k ∧ ∀ c' : ℕ → ℝ, p = ∑ k ∈ range n, C (c' k) * φ k → ∀ k < n, c' k = c k
  | 0, p, hp, hl => by
    refine ⟨fun _ => 0, ?_, fun c' _ k hk => absurd hk (by omega)⟩
    rw [eq_C_of_natDegree_le_zero hp] at hl ⊢
    rw [show (C (p.coeff 0) : ℝ[X]) = p.coeff 0 • 1 by rw [smul_eq_C_mul, mul_one], map_smul, smul_eq_mul] at hl
    rcases mul_eq_zero.1 hl with h | h
    · rw [h]; simp
    · exact absurd h h1
  | (n + 1), p, hp, hl => by
    set a := p.coeff (n + 1) / (φ n).coeff (n + 1) with ha
    have hq : (p - C a * φ n).natDegree ≤ n := by
      refine natDegree_le_iff_coeff_eq_zero.2 fun k hk => ?_
      rw [coeff_sub, coeff_C_mul]
      rcases Nat.lt_or_ge k (n + 2) with h | h
      · have : k = n + 1 := by omega
        subst this
        rw [ha]
        field_simp [hc n]
        ring
      · rw [coeff_eq_zero_of_natDegree_lt (by omega), coeff_eq_zero_of_natDegree_lt (lt_of_le_of_lt (hd n) (by omega)), mul_zero, sub_zero]
    obtain ⟨c, e, hu⟩ := lag_complete ℓ h1 φ hφ hd hc n _ hq (by
      rw [map_sub, hl, ← smul_eq_C_mul, map_smul, hφ, smul_zero, sub_zero])
    refine ⟨fun k => if k = n then a else c k, ?_, fun c' hc' k hk => ?_⟩
    · beta_reduce
      rw [sum_range_succ, if_pos rfl, sum_congr rfl fun k hk => show _ = C (c k) * φ k by rw [if_neg (by have := mem_range.mp hk; omega)], ← e]
      ring
    · have top : c' n = a := by
        rw [sum_range_succ] at hc'
        have := congrArg (fun q => q.coeff (n + 1)) hc'
        simp only [coeff_add, coeff_C_mul, finsetSum_coeff] at this
        rw [sum_eq_zero fun k hk => by
          rw [coeff_eq_zero_of_natDegree_lt (lt_of_le_of_lt (hd k) (by have := mem_range.mp hk; omega)), mul_zero], zero_add] at this
        rw [ha, this]
        field_simp [hc n]
      beta_reduce
      by_cases h : k = n
      · rw [if_pos h, h, top]
      · rw [if_neg h]
        refine hu c' ?_ k (by omega)
        rw [hc', sum_range_succ, top]
        ring

theorem lagC_degree (s : ℕ → ℝ) (k : ℕ) : (lagC s k).natDegree ≤ k + 1 :=
  (natDegree_add_le _ _).trans (max_le ((natDegree_lagP k).trans (by omega)) ((natDegree_C_mul_le _ _).trans (natDegree_lagP _)))

theorem lagC_top (s : ℕ → ℝ) (hs : ∀ k, s k ≠ 0) (k : ℕ) : (lagC s k).coeff (k + 1) ≠ 0 := by
  unfold lagC
  rw [coeff_add, coeff_C_mul, coeff_eq_zero_of_natDegree_lt (lt_of_le_of_lt (natDegree_lagP k) (by omega)), zero_add]
  exact mul_ne_zero (hs k) (coeff_top_lagP _)

theorem lagNeumann_ne (k : ℕ) : lagNeumann k ≠ 0 := by
  unfold lagNeumann
  have : (2 * (k : ℝ) + 1) ≠ 0 := by positivity
  have : (2 * (k : ℝ) + 3) ≠ 0 := by positivity
  exact div_ne_zero (neg_ne_zero.2 ‹2 * (k : ℝ) + 1 ≠ 0›) this

theorem half_inj {p q : ℝ[X]} (h : ∀ x : ℝ, p.eval x * Real.exp (-x / 2) = q.eval x * Real.exp (-x / 2)) : p = q :=
  Polynomial.funext fun x => mul_right_cancel₀ (Real.exp_ne_zero _) (h x)

theorem lag_span (s : ℕ → ℝ) (n : ℕ) (c : ℕ → ℝ) (x : ℝ) :
    ∑ k ∈ range n, c k * lagComposite s k x = (∑ k ∈ range n, C (c k) * lagC s k).eval x * Real.exp (-x / 2) := by
  rw [eval_finsetSum, sum_mul]
  exact sum_congr rfl fun k _ => by rw [lagComposite_poly, eval_mul, eval_C]; ring

/-- **C72** `CompactDirichlet`: the basis functions vanish at the origin, and every function of the Laguerre space of dimension
`N` that does is a combination of the first `N - 1` of them in exactly one way. -/
theorem C72_dirichlet (N : ℕ) (hN : 1 ≤ N) :
    (∀ k, lagComposite lagDirichlet k 0 = 0) ∧
    ∀ p : ℝ[X], p.natDegree < N → p.eval 0 * Real.exp (-0 / 2) = 0 →
      ∃ c : ℕ → ℝ, (∀ x, p.eval x * Real.exp (-x / 2) = ∑ k ∈ range (N - 1), c k * lagComposite lagDirichlet k x) ∧
        ∀ c' : ℕ → ℝ, (∀ x, p.eval x * Real.exp (-x / 2) = ∑ k ∈ range (N - 1), c' k * lagComposite lagDirichlet k x) → ∀ k < N - 1, c' k = c k := by
  have hz : ∀ k, (lagC lagDirichlet k).eval 0 = 0 := fun k => by
    unfold lagC lagDirichlet
    rw [eval_add, eval_mul, eval_C, eval_zero_lagP, eval_zero_lagP]; norm_num
  refine ⟨fun k => by rw [lagComposite_poly, hz, zero_mul], fun p hp h0 => ?_⟩
  have h0' : p.eval 0 = 0 := (mul_eq_zero.1 h0).resolve_right (Real.exp_ne_zero _)
  obtain ⟨c, e, hu⟩ := lag_complete (Polynomial.leval 0) (by simp) (lagC lagDirichlet) hz (lagC_degree _) (lagC_top _ fun k => by simp [lagDirichlet])
    (N - 1) p (by omega) h0'
  refine ⟨c, fun x => by rw [lag_span, ← e], fun c' hc' k hk => hu c' (half_inj fun x => by rw [hc' x, lag_span]) k hk⟩

/-- **C72** `CompactNeumann`: the same for the derivative at the origin. -/
theorem C72_neumann (N : ℕ) (hN : 1 ≤ N) :
    (∀ k, deriv (lagComposite lagNeumann k) 0 = 0) ∧
    ∀ p : ℝ[X], p.natDegree < N → deriv (fun x : ℝ => p.eval x * Real.exp (-x / 2)) 0 = 0 →
      ∃ c : ℕ → ℝ, (∀ x, p.eval x * Real.exp (-x / 2) = ∑ k ∈ range (N - 1), c k * lagComposite lagNeumann k x) ∧
        ∀ c' : ℕ → ℝ, (∀ x, p.eval x * Real.exp (-x / 2) = ∑ k ∈ range (N - 1), c' k * lagComposite lagNeumann k x) → ∀ k < N - 1, c' k = c k := by
  have hz : ∀ k, (derivative (lagC lagNeumann k)).eval 0 - 1 / 2 * (lagC lagNeumann k).eval 0 = 0 := fun k => by
    unfold lagC lagNeumann
    have : (2 * (k : ℝ) + 3) ≠ 0 := by positivity
    rw [derivative_add, derivative_C_mul, eval_add, eval_add, eval_mul, eval_mul, eval_C, eval_zero_lagP, eval_zero_lagP, eval_zero_deriv_lagP, eval_zero_deriv_lagP]
    push_cast
    field_simp
    ring
  have hder : ∀ p : ℝ[X], deriv (fun x : ℝ => p.eval x * Real.exp (-x / 2)) 0 = (derivative p).eval 0 - 1 / 2 * p.eval 0 := fun p => by
    rw [(hasDerivAt_expHalf p 0).deriv]
    unfold lagD
    rw [eval_sub, eval_mul, eval_C]
    simp
  refine ⟨fun k => ?_, fun p hp h0 => ?_⟩
  · rw [show lagComposite lagNeumann k = fun x : ℝ => (lagC lagNeumann k).eval x * Real.exp (-x / 2) from funext (lagComposite_poly _ k), hder, hz]
  rw [hder] at h0
  obtain ⟨c, e, hu⟩ := lag_complete ((Polynomial.leval 0).comp Polynomial.derivative - (1 / 2 : ℝ) • Polynomial.leval 0) (by simp) (lagC lagNeumann)
    (fun k => by simpa using hz k) (lagC_degree _) (lagC_top _ lagNeumann_ne) (N - 1) p (by omega) (by simpa using h0)
  refine ⟨c, fun x => by rw [lag_span, ← e], fun c' hc' k hk => hu c' (half_inj fun x => by rw [hc' x, lag_span]) k hk⟩

/-- The hypotheses are met by a function with more than one coefficient. -/
example : ((X ^ 3 - X : ℝ[X])).natDegree < 5 ∧ (X ^ 3 - X : ℝ[X]).eval 0 * Real.exp (-0 / 2) = 0 := by
  refine ⟨lt_of_le_of_lt (natDegree_sub_le _ _) (by simp), by simp⟩

/-! ## Matrices -/

/-- **C72** The mass matrix of the orthogonal space. -/
theorem C72_mass (N : ℕ) : IsMatrixOf bllmat N N fun i j => ∫ t in Set.Ioi (0 : ℝ), laguerreFun j t * laguerreFun i t := by
  refine ⟨by simp [bllmat, DVal.Fits], fun i hi j hj => ?_⟩
  rw [C72_orthonormal, DMat.mat, denseAt_new _ _ _ _ _ hi hj]
  unfold bllmat
  simp only [List.map_cons, List.map_nil, diagsEntry_lit_cons, diagsEntry_lit_nil, DVal.get]
  by_cases h : i = j
  · subst h; ifs; norm_num
  · ifs; norm_num

theorem lagE_pair (a b : ℝ) (i j : ℕ) : lagE ((C a * lagP i + C b * lagP (i + 1)) * (C a * lagP j + C b * lagP (j + 1))) =
    if i = j then a ^ 2 + b ^ 2 else if i = j + 1 then a * b else if j = i + 1 then a * b else 0 := by
  rw [show (C a * lagP i + C b * lagP (i + 1)) * (C a * lagP j + C b * lagP (j + 1)) =
    C (a ^ 2) * (lagP i * lagP j) + C (a * b) * (lagP i * lagP (j + 1)) + C (a * b) * (lagP (i + 1) * lagP j) + C (b ^ 2) * (lagP (i + 1) * lagP (j + 1)) by
    simp only [C_mul, C_pow]; ring]
  simp only [lagE_add, lagE_C_mul, lagE_lagP]
  have c : i = j ∨ i = j + 1 ∨ j = i + 1 ∨ (i ≠ j ∧ i ≠ j + 1 ∧ j ≠ i + 1) := by omega
  rcases c with h | h | h | h
  · subst h; ifs; ring
  · subst h; ifs; ring
  · subst h; ifs; ring
  · ifs; ring

/-- **C72** The mass matrix of `CompactDirichlet`. -/
theorem C72_mass_dirichlet (n : ℕ) : IsMatrixOf lagBCDCD n n fun i j =>
    ∫ t in Set.Ioi (0 : ℝ), lagComposite lagDirichlet j t * lagComposite lagDirichlet i t := by
  refine ⟨by simp [lagBCDCD, DVal.Fits], fun i hi j hj => ?_⟩
  rw [integral_polyHalf _ _ _ _ (lagComposite_poly _ j) (lagComposite_poly _ i)]
  have e : ∀ k, lagC lagDirichlet k = C 1 * lagP k + C (-1) * lagP (k + 1) := fun k => by unfold lagC lagDirichlet; rw [C_1, one_mul]
  rw [e, e, lagE_pair, DMat.mat, denseAt_new _ _ _ _ _ hi hj]
  unfold lagBCDCD
  simp only [List.map_cons, List.map_nil, diagsEntry_lit_cons, diagsEntry_lit_nil, DVal.get]
  have c : i = j ∨ i = j + 1 ∨ j = i + 1 ∨ (i ≠ j ∧ i ≠ j + 1 ∧ j ≠ i + 1) := by omega
  rcases c with h | h | h | h
  · subst h; ifs; norm_num
  · subst h; ifs; norm_num
  · subst h; ifs; norm_num
  · ifs; norm_num

/-- **C72** The stiffness matrix of `CompactDirichlet`. -/
theorem C72_stiffness_dirichlet (n : ℕ) : IsMatrixOf lagACDCD n n fun i j =>
    ∫ t in Set.Ioi (0 : ℝ), deriv (lagComposite lagDirichlet j) t * deriv (lagComposite lagDirichlet i) t := by
  refine ⟨by simp [lagACDCD, DVal.Fits], fun i hi j hj => ?_⟩
  have hd : ∀ k t, deriv (lagComposite lagDirichlet k) t = (C (1 / 2) * lagP k + C (1 / 2) * lagP (k + 1)).eval t * Real.exp (-t / 2) := fun k t => by
    rw [show lagComposite lagDirichlet k = fun x : ℝ => (lagC lagDirichlet k).eval x * Real.exp (-x / 2) from funext (lagComposite_poly _ k),
      (hasDerivAt_expHalf _ t).deriv]
    congr 2
    unfold lagD lagC lagDirichlet
    rw [derivative_add, derivative_C_mul, derivative_lagP_succ, show (C (-1 : ℝ) : ℝ[X]) = -1 by simp]
    have : (C (1 / 2 : ℝ) : ℝ[X]) * 2 = 1 := by rw [show (2 : ℝ[X]) = C 2 from rfl, ← C_mul]; norm_num
    linear_combination (-lagP k) * this
  rw [integral_polyHalf _ _ _ _ (hd j) (hd i), lagE_pair, DMat.mat, denseAt_new _ _ _ _ _ hi hj]
  unfold lagACDCD
  simp only [List.map_cons, List.map_nil, diagsEntry_lit_cons, diagsEntry_lit_nil, DVal.get]
  have c : i = j ∨ i = j + 1 ∨ j = i + 1 ∨ (i ≠ j ∧ i ≠ j + 1 ∧ j ≠ i + 1) := by omega
  rcases c with h | h | h | h
  · subst h; ifs; norm_num
  · subst h; ifs; norm_num
  · subst h; ifs; norm_num
  · ifs; norm_num

end Shenfun
