import Verif.Model.Hermite
import Verif.Spec.Hermite
import Verif.Spec.Galerkin
import Verif.Props.ChebMatrices
import Mathlib.MeasureTheory.Integral.IntegralEqImproper
import Mathlib.Analysis.Calculus.Deriv.Polynomial

/-!
# C71: Hermite functions
-/

namespace Shenfun

open Polynomial Spec Finset MeasureTheory

set_option linter.unusedSimpArgs false
set_option linter.unusedVariables false

/-! ## The polynomials -/

theorem derivative_hermP : ∀ n : ℕ, derivative (hermP (n + 1)) = C (2 * ((n : ℝ) + 1)) * hermP n
  | 0 => by
    simp [hermP]
  | 1 => by
    simp only [hermP, derivative_sub, derivative_mul, derivative_C, derivative_X, derivative_one]
    refine Polynomial.funext fun x => ?_
    simp
    ring
  | (n + 2) => by
    have h1 := derivative_hermP (n + 1)
    have h2 := derivative_hermP n
    have e3 : hermP (n + 2 + 1) = hermP (n + 1 + 1) * (C 2 * X) - hermP (n + 1) * C (2 * (((n + 1 : ℕ) : ℝ) + 1)) := rfl
    have e2 : hermP (n + 2) = hermP (n + 1) * (C 2 * X) - hermP n * C (2 * ((n : ℝ) + 1)) := rfl
    rw [e3, derivative_sub, derivative_mul, derivative_mul (f := hermP (n + 1)), h1, h2, derivative_mul]
    simp only [derivative_C, derivative_X, zero_mul, mul_zero, add_zero, zero_add, mul_one]
    refine Polynomial.funext fun x => ?_
    have e2x := congrArg (eval x) e2
    simp only [eval_sub, eval_mul, eval_add, eval_C, eval_X] at e2x ⊢
    push_cast
    rw [show hermP (n + 1 + 1) = hermP (n + 2) from rfl]
    rw [e2x]
    ring

/-- Raising: `H_{n+1} = 2x H_n - H_n'`. -/
theorem hermP_raise (n : ℕ) : hermP (n + 1) = C 2 * X * hermP n - derivative (hermP n) := by
  cases n with
  | zero => simp [hermP]
  | succ n =>
    rw [derivative_hermP]
    change hermP (n + 1) * (C 2 * X) - hermP n * C (2 * ((n : ℝ) + 1)) = _
    ring

theorem hasDerivAt_gauss (x : ℝ) : HasDerivAt (fun y : ℝ => Real.exp (-y ^ 2)) (-(2 * x) * Real.exp (-x ^ 2)) x := by
  have h0 : HasDerivAt (fun y : ℝ => -y ^ 2) (-(2 * x)) x := by
    exact (hasDerivAt_pow 2 x).neg.congr_deriv (by simp)
  have h := h0.exp
  convert h using 1
  ring

theorem iteratedDeriv_gauss (n : ℕ) (x : ℝ) :
    iteratedDeriv n (fun y : ℝ => Real.exp (-y ^ 2)) x = (-1) ^ n * (hermP n).eval x * Real.exp (-x ^ 2) := by
  induction n generalizing x with
  | zero => simp [hermP]
  | succ n ih =>
    rw [iteratedDeriv_succ, funext ih]
    have h1 : HasDerivAt (fun y : ℝ => (-1) ^ n * (hermP n).eval y * Real.exp (-y ^ 2))
        ((-1) ^ n * (derivative (hermP n)).eval x * Real.exp (-x ^ 2) +
          (-1) ^ n * (hermP n).eval x * (-(2 * x) * Real.exp (-x ^ 2))) x :=
      (((hermP n).hasDerivAt x).const_mul ((-1) ^ n)).mul (hasDerivAt_gauss x)
    rw [h1.deriv, hermP_raise]
    simp only [eval_sub, eval_mul, eval_C, eval_X]
    ring

/-- The recurrence computes the Hermite polynomials. -/
theorem hermP_eval (n : ℕ) (x : ℝ) : (hermP n).eval x = hermiteH n x := by
  unfold hermiteH
  rw [iteratedDeriv_gauss]
  have h1 : ((-1 : ℝ)) ^ n * (-1) ^ n = 1 := by rw [← mul_pow]; norm_num
  have h2 : Real.exp (x ^ 2) * Real.exp (-x ^ 2) = 1 := by rw [← Real.exp_add]; simp
  linear_combination (-(hermP n).eval x * Real.exp (x ^ 2) * Real.exp (-x ^ 2)) * h1 - (hermP n).eval x * h2

theorem hermFactor_eq (n : ℕ) : hermFactor n = 1 / (Real.pi ^ (1 / 4 : ℝ) * Real.sqrt (2 ^ n * Nat.factorial n)) := by
  unfold hermFactor
  rw [Real.sqrt_mul (by positivity), show (0.25 : ℝ) = 1 / 4 by norm_num, mul_assoc]

theorem hermBasis_eq (n : ℕ) (x : ℝ) : hermBasis n x = hermiteFun n x := by
  unfold hermBasis hermiteFun
  rw [hermP_eval, hermFactor_eq]
  ring

/-! ## The Gaussian weight -/

theorem integrable_pow_gauss (n : ℕ) : Integrable fun x : ℝ => x ^ n * Real.exp (-x ^ 2) := by
  have h := integrable_rpow_mul_exp_neg_mul_sq (b := 1) one_pos (s := (n : ℝ)) (by have : (0:ℝ) ≤ n := Nat.cast_nonneg n; linarith)
  refine h.congr (Filter.Eventually.of_forall fun x => ?_)
  simp

theorem integrable_poly_gauss (p : ℝ[X]) : Integrable fun x : ℝ => p.eval x * Real.exp (-x ^ 2) := by
  induction p using Polynomial.induction_on' with
  | add p q hp hq =>
    refine (hp.add hq).congr (Filter.Eventually.of_forall fun x => ?_)
    simp [add_mul]
  | monomial n a =>
    refine ((integrable_pow_gauss n).const_mul a).congr (Filter.Eventually.of_forall fun x => ?_)
    simp [mul_assoc]

/-- `∫ p(x) exp(-x²) dx`. -/
noncomputable def hermE (p : ℝ[X]) : ℝ := ∫ t : ℝ, p.eval t * Real.exp (-t ^ 2)

theorem hermE_add (p q : ℝ[X]) : hermE (p + q) = hermE p + hermE q := by
  unfold hermE
  rw [← integral_add (integrable_poly_gauss p) (integrable_poly_gauss q)]
  simp only [eval_add, add_mul]

theorem hermE_C_mul (c : ℝ) (p : ℝ[X]) : hermE (C c * p) = c * hermE p := by
  unfold hermE
  rw [← integral_const_mul]
  simp only [eval_mul, eval_C, mul_assoc]

theorem hermE_sub (p q : ℝ[X]) : hermE (p - q) = hermE p - hermE q := by
  have := hermE_add (p - q) q
  rw [sub_add_cancel] at this
  linarith

theorem hermE_one : hermE 1 = Real.sqrt Real.pi := by
  unfold hermE
  have := integral_gaussian 1
  simpa using this

/-- Integration by parts. -/
theorem hermE_derivative (p : ℝ[X]) : hermE (derivative p) = hermE (C 2 * X * p) := by
  have hd : ∀ x : ℝ, HasDerivAt (fun y => p.eval y * Real.exp (-y ^ 2)) ((derivative p - C 2 * X * p).eval x * Real.exp (-x ^ 2)) x := by
    intro x
    have := (p.hasDerivAt x).mul (hasDerivAt_gauss x)
    refine this.congr_deriv ?_
    rw [eval_sub, eval_mul, eval_mul, eval_C, eval_X]
    ring
  have h := integral_eq_zero_of_hasDerivAt_of_integrable hd (integrable_poly_gauss _) (integrable_poly_gauss _)
  have h2 := hermE_sub (derivative p) (C 2 * X * p)
  unfold hermE at h2 ⊢
  rw [h] at h2
  linarith

theorem hermE_mul_raise (q : ℝ[X]) (n : ℕ) : hermE (q * hermP (n + 1)) = hermE (derivative q * hermP n) := by
  rw [hermP_raise, mul_sub, hermE_sub]
  have h := hermE_derivative (q * hermP n)
  rw [derivative_mul, hermE_add] at h
  rw [show q * (C 2 * X * hermP n) = C 2 * X * (q * hermP n) by ring]
  linarith

/-- Orthogonality. -/
theorem hermE_hermP : ∀ m n : ℕ, hermE (hermP m * hermP n) = if m = n then 2 ^ n * (Nat.factorial n : ℝ) * Real.sqrt Real.pi else 0
  | 0, 0 => by simp [hermP, hermE_one]
  | 0, (n + 1) => by
    rw [hermE_mul_raise]
    simp [hermP, hermE]
  | (m + 1), 0 => by
    rw [mul_comm, hermE_mul_raise]
    simp [hermP, hermE]
  | (m + 1), (n + 1) => by
    rw [hermE_mul_raise, derivative_hermP, mul_assoc, hermE_C_mul, hermE_hermP m n]
    by_cases h : m = n
    · subst h
      simp only [if_true]
      rw [Nat.factorial_succ]
      push_cast
      ring
    · rw [if_neg h, if_neg (by omega), mul_zero]


/-! ## Normalised polynomials -/

theorem hermFactor_pos (n : ℕ) : 0 < hermFactor n := by
  unfold hermFactor
  have := Real.pi_pos
  positivity

theorem hermFactor_sq (n : ℕ) : hermFactor n * hermFactor n * (2 ^ n * (Nat.factorial n : ℝ) * Real.sqrt Real.pi) = 1 := by
  have hp := Real.pi_pos
  have h1 : (Real.pi ^ (1 / 4 : ℝ)) * Real.pi ^ (1 / 4 : ℝ) = Real.sqrt Real.pi := by
    rw [← Real.rpow_add hp, Real.sqrt_eq_rpow]
    norm_num
  have h2 : Real.sqrt (2 ^ n * (Nat.factorial n : ℝ)) * Real.sqrt (2 ^ n * (Nat.factorial n : ℝ)) = 2 ^ n * (Nat.factorial n : ℝ) :=
    Real.mul_self_sqrt (by positivity)
  rw [hermFactor_eq, ← h1]
  have h3 : Real.pi ^ (1 / 4 : ℝ) ≠ 0 := (Real.rpow_pos_of_pos hp _).ne'
  have h4 : Real.sqrt (2 ^ n * (Nat.factorial n : ℝ)) ≠ 0 := (Real.sqrt_pos.mpr (by positivity)).ne'
  set s := Real.sqrt (2 ^ n * (Nat.factorial n : ℝ)) with hs
  rw [← h2]
  field_simp

theorem hermFactor_succ (n : ℕ) : hermFactor n = Real.sqrt (2 * ((n : ℝ) + 1)) * hermFactor (n + 1) := by
  rw [hermFactor_eq, hermFactor_eq, Nat.factorial_succ]
  push_cast
  rw [show (2 : ℝ) ^ (n + 1) * (((n : ℝ) + 1) * (Nat.factorial n : ℝ)) = 2 * ((n : ℝ) + 1) * (2 ^ n * (Nat.factorial n : ℝ)) by ring,
    Real.sqrt_mul (by positivity) (2 ^ n * (Nat.factorial n : ℝ))]
  have h3 : Real.pi ^ (1 / 4 : ℝ) ≠ 0 := (Real.rpow_pos_of_pos Real.pi_pos _).ne'
  have h4 : Real.sqrt (2 ^ n * (Nat.factorial n : ℝ)) ≠ 0 := (Real.sqrt_pos.mpr (by positivity)).ne'
  have h5 : Real.sqrt (2 * ((n : ℝ) + 1)) ≠ 0 := (Real.sqrt_pos.mpr (by positivity)).ne'
  field_simp

/-- The normalised polynomial of the Hermite function `n`. -/
noncomputable def hermN (n : ℕ) : ℝ[X] := C (hermFactor n) * hermP n

theorem hermBasis_hermN (n : ℕ) (x : ℝ) : hermBasis n x = (hermN n).eval x * Real.exp (-x ^ 2 / 2) := by
  unfold hermBasis hermN
  rw [eval_mul, eval_C]
  ring

theorem hermE_hermN (m n : ℕ) : hermE (hermN m * hermN n) = if m = n then 1 else 0 := by
  unfold hermN
  rw [show C (hermFactor m) * hermP m * (C (hermFactor n) * hermP n) = C (hermFactor m * hermFactor n) * (hermP m * hermP n) by
    rw [C_mul]; ring, hermE_C_mul, hermE_hermP]
  split_ifs with h
  · rw [h, hermFactor_sq]
  · rw [mul_zero]

theorem natDegree_hermP : ∀ n : ℕ, (hermP n).natDegree ≤ n
  | 0 => by simp [hermP]
  | 1 => by
    have : (C (2 : ℝ) * X).natDegree ≤ 1 := (natDegree_C_mul_le _ _).trans natDegree_X_le
    exact this
  | (n + 2) => by
    have h1 := natDegree_hermP (n + 1)
    have h0 := natDegree_hermP n
    have hx : (C (2 : ℝ) * X).natDegree ≤ 1 := (natDegree_C_mul_le _ _).trans natDegree_X_le
    refine (natDegree_sub_le _ _).trans (max_le ?_ ?_)
    · exact (natDegree_mul_le).trans (by omega)
    · exact (natDegree_mul_C_le _ _).trans (by omega)

theorem natDegree_hermN (n : ℕ) : (hermN n).natDegree ≤ n := (natDegree_C_mul_le _ _).trans (natDegree_hermP n)

/-- The coefficients of the derivative of a Hermite function. -/
noncomputable def hermLo (n : ℕ) : ℝ := Real.sqrt (n / 2)

noncomputable def hermHi (n : ℕ) : ℝ := Real.sqrt ((n + 1) / 2)

/-- `P_n' - x P_n = sqrt(n/2) P_{n-1} - sqrt((n+1)/2) P_{n+1}`. -/
theorem hermN_deriv (n : ℕ) : derivative (hermN n) - X * hermN n = C (hermLo n) * hermN (n - 1) - C (hermHi n) * hermN (n + 1) := by
  have hHi : hermHi n * hermFactor (n + 1) = hermFactor n / 2 := by
    rw [hermFactor_succ n]
    unfold hermHi
    have : Real.sqrt (((n : ℝ) + 1) / 2) = Real.sqrt (2 * ((n : ℝ) + 1)) / 2 := by
      rw [show ((n : ℝ) + 1) / 2 = (2 * ((n : ℝ) + 1)) / 2 ^ 2 by ring, Real.sqrt_div (by positivity),
        Real.sqrt_sq (by norm_num)]
    rw [this]
    ring
  cases n with
  | zero =>
    have h0 : hermLo 0 = 0 := by unfold hermLo; simp
    have h := congrArg C hHi
    rw [C_mul] at h
    unfold hermN
    rw [h0, C_0, zero_mul, zero_sub]
    simp only [derivative_mul, derivative_C, hermP, derivative_one]
    refine Polynomial.funext fun x => ?_
    simp [hermP]
    rw [← mul_assoc, show hermHi 0 * hermFactor 1 = hermFactor 0 / 2 from by simpa using hHi]
    ring
  | succ n =>
    have hLo : hermLo (n + 1) * hermFactor n = ((n : ℝ) + 1) * hermFactor (n + 1) := by
      rw [hermFactor_succ n]
      unfold hermLo
      push_cast
      rw [← mul_assoc, ← Real.sqrt_mul (by positivity), show ((n : ℝ) + 1) / 2 * (2 * ((n : ℝ) + 1)) = ((n : ℝ) + 1) ^ 2 by ring,
        Real.sqrt_sq (by positivity)]
    unfold hermN
    rw [derivative_mul, derivative_C, derivative_hermP, hermP_raise (n + 1), derivative_hermP, Nat.add_sub_cancel]
    have hxx : hermP (n + 2) = hermP (n + 1) * (C 2 * X) - hermP n * C (2 * ((n : ℝ) + 1)) := rfl
    refine Polynomial.funext fun x => ?_
    simp only [eval_sub, eval_mul, eval_add, eval_C, eval_X, eval_zero]
    linear_combination (2 * x * eval x (hermP (n + 1)) - 2 * ((n : ℝ) + 1) * eval x (hermP n)) * hHi - (eval x (hermP n)) * hLo

theorem hasDerivAt_half (x : ℝ) : HasDerivAt (fun y : ℝ => Real.exp (-y ^ 2 / 2)) (-x * Real.exp (-x ^ 2 / 2)) x := by
  have h0 : HasDerivAt (fun y : ℝ => -y ^ 2 / 2) (-x) x := by
    exact ((hasDerivAt_pow 2 x).neg.div_const 2).congr_deriv (by simp; ring)
  exact h0.exp.congr_deriv (by ring)

theorem hasDerivAt_polyHalf (p : ℝ[X]) (x : ℝ) :
    HasDerivAt (fun y : ℝ => p.eval y * Real.exp (-y ^ 2 / 2)) ((derivative p - X * p).eval x * Real.exp (-x ^ 2 / 2)) x := by
  refine ((p.hasDerivAt x).mul (hasDerivAt_half x)).congr_deriv ?_
  rw [eval_sub, eval_mul, eval_X]
  ring

theorem hermiteFun_poly (n : ℕ) : hermiteFun n = fun y : ℝ => (hermN n).eval y * Real.exp (-y ^ 2 / 2) :=
  funext fun y => by rw [← hermBasis_eq, hermBasis_hermN]

theorem deriv_hermiteFun (n : ℕ) (x : ℝ) : deriv (hermiteFun n) x =
    (C (hermLo n) * hermN (n - 1) - C (hermHi n) * hermN (n + 1)).eval x * Real.exp (-x ^ 2 / 2) := by
  rw [hermiteFun_poly, (hasDerivAt_polyHalf _ x).deriv, hermN_deriv]

/-- **C71** `evaluate_basis_derivative_all` returns the derivatives of the Hermite functions, for every order it
accepts, every size and point. -/
theorem C71_derivatives (M k j : ℕ) (hj : j < M) (hk : k ≤ 2) (x : ℝ) :
    hermBasisDerivAll M k j x = some (iteratedDeriv k (hermiteFun j) x) := by
  have hP : ∀ n x, (hermN n).eval x = hermFactor n * (hermP n).eval x := fun n x => by unfold hermN; rw [eval_mul, eval_C]
  have hk' : k = 0 ∨ k = 1 ∨ k = 2 := by omega
  rcases hk' with h | h | h <;> subst h
  · unfold hermBasisDerivAll
    rw [if_neg (by omega), if_neg (by omega), if_pos rfl, iteratedDeriv_zero, hermiteFun_poly]
    beta_reduce
    rw [hP]
    congr 1
    ring
  · unfold hermBasisDerivAll
    rw [if_pos rfl, iteratedDeriv_one, hermiteFun_poly, (hasDerivAt_polyHalf _ x).deriv]
    dsimp only
    congr 1
    have hs : ∑ i ∈ range M, (hermP i).eval x * hermDer i j = (derivative (hermP j)).eval x := by
      cases j with
      | zero =>
        rw [sum_eq_zero fun i _ => by unfold hermDer; rw [if_neg (by omega), mul_zero]]
        simp [hermP]
      | succ j =>
        rw [sum_eq_single j]
        · unfold hermDer
          rw [if_pos rfl, derivative_hermP, eval_mul, eval_C]
          push_cast
          ring
        · intro b _ hb
          unfold hermDer
          rw [if_neg (by omega), mul_zero]
        · intro h
          exact absurd (mem_range.mpr (by omega)) h
    rw [hs, eval_sub, eval_mul, eval_X, hP, hermN, derivative_mul, derivative_C]
    simp only [zero_mul, zero_add, eval_mul, eval_C]
    ring
  · unfold hermBasisDerivAll
    rw [if_neg (by omega), if_pos rfl, iteratedDeriv_succ, iteratedDeriv_one]
    rw [show deriv (hermiteFun j) = fun y => (derivative (hermN j) - X * hermN j).eval y * Real.exp (-y ^ 2 / 2) from
      funext fun y => by rw [hermiteFun_poly, (hasDerivAt_polyHalf _ y).deriv], (hasDerivAt_polyHalf _ x).deriv]
    dsimp only
    congr 1
    -- the Hermite differential equation
    have hode : derivative (derivative (hermP j)) = C 2 * X * derivative (hermP j) - C (2 * (j : ℝ)) * hermP j := by
      have h1 := congrArg derivative (hermP_raise j)
      rw [derivative_hermP] at h1
      simp only [derivative_sub, derivative_mul, derivative_C, derivative_X, zero_mul, zero_add, mul_one] at h1
      refine Polynomial.funext fun y => ?_
      have h2 := congrArg (eval y) h1
      simp only [eval_sub, eval_add, eval_mul, eval_C, eval_X] at h2 ⊢
      linarith
    have hode' := congrArg (eval x) hode
    unfold hermN
    simp only [derivative_sub, derivative_mul, derivative_C, derivative_X, zero_mul, zero_add, one_mul, eval_sub, eval_add,
      eval_mul, eval_C, eval_X] at hode' ⊢
    linear_combination (-hermFactor j * Real.exp (-x ^ 2 / 2)) * hode'

/-- Higher derivatives are not implemented. -/
theorem C71_derivatives_limit (M k j : ℕ) (hk : 2 < k) (x : ℝ) : hermBasisDerivAll M k j x = none := by
  unfold hermBasisDerivAll
  rw [if_neg (by omega), if_neg (by omega), if_neg (by omega)]


/-! ## Forms -/

theorem exp_half_mul (x : ℝ) : Real.exp (-x ^ 2 / 2) * Real.exp (-x ^ 2 / 2) = Real.exp (-x ^ 2) := by
  rw [← Real.exp_add]
  congr 1
  ring

/-- **C71** The Hermite functions are orthonormal on the line. -/
theorem C71_orthonormal (m n : ℕ) : ∫ x : ℝ, hermiteFun m x * hermiteFun n x = if m = n then 1 else 0 := by
  rw [← hermE_hermN]
  unfold hermE
  congr 1
  funext x
  rw [hermiteFun_poly, hermiteFun_poly, eval_mul, ← exp_half_mul]
  ring

/-- Value of the stiffness form; `hi` may be truncated. -/
theorem hermE_pairs (lo hi : ℕ → ℝ) (h0 : lo 0 = 0) (i j : ℕ) :
    hermE ((C (lo i) * hermN (i - 1) - C (hi i) * hermN (i + 1)) * (C (lo j) * hermN (j - 1) - C (hi j) * hermN (j + 1))) =
      if i = j then lo i ^ 2 + hi i ^ 2 else if i = j + 2 then -(lo i * hi j) else if j = i + 2 then -(hi i * lo j) else 0 := by
  have e : (C (lo i) * hermN (i - 1) - C (hi i) * hermN (i + 1)) * (C (lo j) * hermN (j - 1) - C (hi j) * hermN (j + 1)) =
      C (lo i * lo j) * (hermN (i - 1) * hermN (j - 1)) - C (lo i * hi j) * (hermN (i - 1) * hermN (j + 1)) -
        C (hi i * lo j) * (hermN (i + 1) * hermN (j - 1)) + C (hi i * hi j) * (hermN (i + 1) * hermN (j + 1)) := by
    simp only [C_mul]
    ring
  rw [e, hermE_add, hermE_sub, hermE_sub, hermE_C_mul, hermE_C_mul, hermE_C_mul, hermE_C_mul]
  simp only [hermE_hermN]
  rcases Nat.eq_zero_or_pos i with hi0 | hi0 <;> rcases Nat.eq_zero_or_pos j with hj0 | hj0
  · subst hi0 hj0
    simp [h0]
    ring
  · subst hi0
    rw [h0]
    by_cases h2 : j = 2
    · subst h2
      simp
    · ifs
      simp
  · subst hj0
    rw [h0]
    by_cases h2 : i = 2
    · subst h2
      simp
    · ifs
      simp
  · have c : i = j ∨ i = j + 2 ∨ j = i + 2 ∨ (i ≠ j ∧ i ≠ j + 2 ∧ j ≠ i + 2) := by omega
    rcases c with h | h | h | h
    · subst h
      ifs
      simp only [mul_one, mul_zero, sub_zero]
      ring
    all_goals
      ifs
      simp

theorem hermLo_sq (n : ℕ) : hermLo n ^ 2 = n / 2 := by unfold hermLo; rw [Real.sq_sqrt (by positivity)]

theorem hermHi_sq (n : ℕ) : hermHi n ^ 2 = (n + 1) / 2 := by unfold hermHi; rw [Real.sq_sqrt (by positivity)]

theorem hermLo_mul_hi (n : ℕ) : hermLo (n + 2) * hermHi n = Real.sqrt (((n : ℝ) + 1) * ((n : ℝ) + 2)) / 2 := by
  unfold hermLo hermHi
  rw [← Real.sqrt_mul (by positivity)]
  push_cast
  rw [show ((n : ℝ) + 2) / 2 * (((n : ℝ) + 1) / 2) = (((n : ℝ) + 1) * ((n : ℝ) + 2)) / 2 ^ 2 by ring, Real.sqrt_div (by positivity),
    Real.sqrt_sq (by norm_num)]

theorem hermLo_zero : hermLo 0 = 0 := by unfold hermLo; simp

/-- Entries of the assembled stiffness matrix. -/
theorem ahhmat_entry (N i j : ℕ) (hi : i < N) (hj : j < N) :
    ((ahhmat N).mat N N).denseAt i j = if i = j then (if i = N - 1 then ((N : ℝ) - 1) / 2 else (i : ℝ) + 1 / 2) else
      if i = j + 2 then -Real.sqrt (((j : ℝ) + 1) * ((j : ℝ) + 2)) / 2 else
      if j = i + 2 then -Real.sqrt (((i : ℝ) + 1) * ((i : ℝ) + 2)) / 2 else 0 := by
  rw [DMat.mat, denseAt_new _ _ _ _ _ hi hj]
  unfold ahhmat
  simp only [List.map_cons, List.map_nil, diagsEntry_lit_cons, diagsEntry_lit_nil, DVal.get]
  have c : i = j ∨ i = j + 2 ∨ j = i + 2 ∨ (i ≠ j ∧ i ≠ j + 2 ∧ j ≠ i + 2) := by omega
  rcases c with h | h | h | h
  · subst h
    by_cases h2 : i = N - 1
    · rw [if_pos h2]
      ifs
      rw [h2, Function.update_self]
      ring
    · rw [if_neg h2]
      ifs
      rw [Function.update_of_ne h2]
      norm_num
  all_goals
    ifs
    ring

theorem ahhmat_lengths (N : ℕ) : ∀ e ∈ ahhmat N, e.2.Fits (diagLength N N e.1) := by
  unfold ahhmat
  simp only [List.forall_mem_cons, List.not_mem_nil, IsEmpty.forall_iff, implies_true, and_true, DVal.Fits, diagLength]
  split_ifs <;> omega

theorem bhhmat_entry (N i j : ℕ) (hi : i < N) (hj : j < N) : (bhhmat.mat N N).denseAt i j = if i = j then 1 else 0 := by
  rw [DMat.mat, denseAt_new _ _ _ _ _ hi hj]
  unfold bhhmat
  simp only [List.map_cons, List.map_nil, diagsEntry_lit_cons, diagsEntry_lit_nil, DVal.get]
  by_cases h : i = j
  · ifs
    ring
  · ifs
    ring

/-- **C71** The mass matrix, exactly. -/
theorem C71_mass (N : ℕ) : IsMatrixOf bhhmat N N fun i j => ∫ x : ℝ, hermiteFun j x * hermiteFun i x := by
  refine ⟨by simp [bhhmat, DVal.Fits], fun i hi j hj => ?_⟩
  rw [bhhmat_entry N i j hi hj, C71_orthonormal]
  by_cases h : i = j
  · rw [if_pos h, if_pos h.symm]
  · rw [if_neg h, if_neg (Ne.symm h)]

theorem hermiteQuad_poly (N : ℕ) (x w : ℕ → ℝ) (u v : ℝ → ℝ) (p q : ℝ[X]) (hu : ∀ j < N, u (x j) = p.eval (x j) * Real.exp (-(x j) ^ 2 / 2))
    (hv : ∀ j < N, v (x j) = q.eval (x j) * Real.exp (-(x j) ^ 2 / 2)) :
    hermiteQuad N x w u v = ∑ j ∈ range N, w j * (p * q).eval (x j) := by
  unfold hermiteQuad
  refine sum_congr rfl fun j hj => ?_
  rw [hu j (mem_range.mp hj), hv j (mem_range.mp hj), eval_mul]
  have h : Real.exp (x j ^ 2) * (Real.exp (-(x j) ^ 2 / 2) * Real.exp (-(x j) ^ 2 / 2)) = 1 := by
    rw [exp_half_mul, ← Real.exp_add]
    simp
  linear_combination (w j * eval (x j) p * eval (x j) q) * h

/-- **C71** Discrete orthonormality (`l2_norm_sq` is one), for the modes of a space with `N` coefficients and any rule with
at least as many points (padding). -/
theorem C71_discrete_orthonormal (N M : ℕ) (hM : N ≤ M) (x w : ℕ → ℝ) (hr : GaussHermite M x w) (i j : ℕ) (hi : i < N) (hj : j < N) :
    hermiteQuad M x w (hermiteFun i) (hermiteFun j) = if i = j then 1 else 0 := by
  rw [hermiteQuad_poly M x w _ _ (hermN i) (hermN j) (fun _ _ => by rw [hermiteFun_poly]) (fun _ _ => by rw [hermiteFun_poly]),
    hr.exact, ← hermE_hermN, hermE]
  have h1 := natDegree_hermN i
  have h2 := natDegree_hermN j
  exact natDegree_mul_le.trans_lt (by omega)

/-- **C71** The mass matrix is also that of the quadrature. -/
theorem C71_mass_quadrature (N : ℕ) (x w : ℕ → ℝ) (hr : GaussHermite N x w) :
    IsMatrixOf bhhmat N N fun i j => hermiteQuad N x w (hermiteFun j) (hermiteFun i) := by
  refine ⟨by simp [bhhmat, DVal.Fits], fun i hi j hj => ?_⟩
  rw [bhhmat_entry N i j hi hj, C71_discrete_orthonormal N N le_rfl x w hr j i hj hi]
  by_cases h : i = j
  · rw [if_pos h, if_pos h.symm]
  · rw [if_neg h, if_neg (Ne.symm h)]

/-- **C71** The stiffness matrix is that of the quadrature, including its last row. -/
theorem C71_stiffness_quadrature (N : ℕ) (hN : 2 ≤ N) (x w : ℕ → ℝ) (hr : GaussHermite N x w) :
    IsMatrixOf (ahhmat N) N N fun i j => hermiteQuad N x w (deriv (hermiteFun j)) (deriv (hermiteFun i)) := by
  refine ⟨ahhmat_lengths N, fun i hi j hj => ?_⟩
  set hi' : ℕ → ℝ := fun n => if n + 1 < N then hermHi n else 0 with hhi
  have hnode : ∀ n, n < N → ∀ m < N, deriv (hermiteFun n) (x m) =
      (C (hermLo n) * hermN (n - 1) - C (hi' n) * hermN (n + 1)).eval (x m) * Real.exp (-(x m) ^ 2 / 2) := by
    intro n hn m hm
    rw [deriv_hermiteFun]
    by_cases h : n + 1 < N
    · simp only [hhi, if_pos h]
    · have hn1 : n + 1 = N := by omega
      have hz : (hermN (n + 1)).eval (x m) = 0 := by
        unfold hermN
        rw [hn1, eval_mul, hermP_eval, hr.zeros m hm, mul_zero]
      simp only [hhi, if_neg h, eval_sub, eval_mul, hz, mul_zero]
  have hdeg : ∀ n, n < N → (C (hermLo n) * hermN (n - 1) - C (hi' n) * hermN (n + 1)).natDegree < N := by
    intro n hn
    refine (natDegree_sub_le _ _).trans_lt (max_lt ?_ ?_)
    · exact (natDegree_C_mul_le _ _).trans_lt ((natDegree_hermN _).trans_lt (by omega))
    · by_cases h : n + 1 < N
      · exact (natDegree_C_mul_le _ _).trans_lt ((natDegree_hermN _).trans_lt h)
      · simp only [hhi, if_neg h, C_0, zero_mul, natDegree_zero]
        omega
  rw [hermiteQuad_poly N x w _ _ _ _ (hnode j hj) (hnode i hi), hr.exact _ (natDegree_mul_le.trans_lt (by
    have := hdeg i hi; have := hdeg j hj; omega))]
  change _ = hermE _
  rw [hermE_pairs hermLo hi' hermLo_zero, ahhmat_entry N i j hi hj]
  have c : i = j ∨ i = j + 2 ∨ j = i + 2 ∨ (i ≠ j ∧ i ≠ j + 2 ∧ j ≠ i + 2) := by omega
  rcases c with h | h | h | h
  · subst h
    rw [if_pos rfl, if_pos rfl, hermLo_sq]
    by_cases h2 : i = N - 1
    · rw [if_pos h2]
      simp only [hhi]
      rw [if_neg (by omega), h2, Nat.cast_sub (by omega)]
      push_cast
      ring
    · rw [if_neg h2]
      simp only [hhi]
      rw [if_pos (by omega), hermHi_sq]
      ring
  · subst h
    ifs
    simp only [hhi]
    rw [if_pos (by omega), mul_comm (hermHi j), hermLo_mul_hi]
    ring
  · subst h
    ifs
    simp only [hhi]
    rw [if_pos (by omega), hermLo_mul_hi]
    ring
  · ifs

theorem integral_deriv_hermite (i j : ℕ) : ∫ t : ℝ, deriv (hermiteFun i) t * deriv (hermiteFun j) t =
    if i = j then (i : ℝ) + 1 / 2 else if i = j + 2 then -Real.sqrt (((j : ℝ) + 1) * ((j : ℝ) + 2)) / 2 else
      if j = i + 2 then -Real.sqrt (((i : ℝ) + 1) * ((i : ℝ) + 2)) / 2 else 0 := by
  have h := hermE_pairs hermLo hermHi hermLo_zero i j
  unfold hermE at h
  rw [show (fun t : ℝ => deriv (hermiteFun i) t * deriv (hermiteFun j) t) = fun t : ℝ =>
      ((C (hermLo i) * hermN (i - 1) - C (hermHi i) * hermN (i + 1)) * (C (hermLo j) * hermN (j - 1) - C (hermHi j) * hermN (j + 1))).eval t *
        Real.exp (-t ^ 2) from funext fun t => by
    rw [deriv_hermiteFun, deriv_hermiteFun, eval_mul, ← exp_half_mul]; ring, h]
  have c : i = j ∨ i = j + 2 ∨ j = i + 2 ∨ (i ≠ j ∧ i ≠ j + 2 ∧ j ≠ i + 2) := by omega
  rcases c with h | h | h | h
  · subst h
    rw [if_pos rfl, if_pos rfl, hermLo_sq, hermHi_sq]
    ring
  · subst h
    ifs
    rw [hermLo_mul_hi]
    ring
  · subst h
    ifs
    rw [mul_comm, hermLo_mul_hi]
    ring
  · ifs

/-- **C71** All entries of the stiffness matrix but the last one are the integrals. -/
theorem C71_stiffness_exact (N i j : ℕ) (hi : i < N) (hj : j < N) (hl : ¬ (i = N - 1 ∧ j = N - 1)) :
    ((ahhmat N).mat N N).denseAt i j = ∫ t : ℝ, deriv (hermiteFun j) t * deriv (hermiteFun i) t := by
  rw [ahhmat_entry N i j hi hj, integral_deriv_hermite]
  have c : i = j ∨ i = j + 2 ∨ j = i + 2 ∨ (i ≠ j ∧ i ≠ j + 2 ∧ j ≠ i + 2) := by omega
  rcases c with h | h | h | h
  · subst h
    ifs
  all_goals
    ifs

/-- **C71** The last diagonal entry is never the integral, also when `assemble='exact'` is asked for. -/
theorem C71_stiffness_last_refuted (N : ℕ) (hN : 1 ≤ N) :
    ((ahhmat N).mat N N).denseAt (N - 1) (N - 1) ≠ ∫ t : ℝ, deriv (hermiteFun (N - 1)) t * deriv (hermiteFun (N - 1)) t := by
  rw [ahhmat_entry N _ _ (by omega) (by omega), integral_deriv_hermite, if_pos rfl, if_pos rfl, if_pos rfl, Nat.cast_sub hN]
  push_cast
  intro h
  have : (1 : ℝ) ≤ N := by exact_mod_cast hN
  linarith

/-! ## Transforms -/

/-- **C71** `forward(backward(c)) = c`, with any padding. -/
theorem C71_transform (N M : ℕ) (hM : N ≤ M) (x w : ℕ → ℝ) (hr : GaussHermite M x w) (c : ℕ → ℝ) (k : ℕ) (hk : k < N) :
    hermForward x w M (hermBackward x N c) k = c k := by
  unfold hermForward hermScalar hermBackward hermWeight
  rw [mul_one, div_one, sum_congr rfl fun j _ => show _ = ∑ m ∈ range N, c m *
      (w j * Real.exp (x j ^ 2) * (hermiteFun m (x j) * hermiteFun k (x j))) by
    rw [sum_mul, sum_mul]
    refine sum_congr rfl fun m _ => ?_
    rw [hermBasis_eq, hermBasis_eq]
    ring, sum_comm]
  rw [sum_congr rfl fun m hm => show _ = c m * (if m = k then 1 else 0) by
    rw [← mul_sum, ← C71_discrete_orthonormal N M hM x w hr m k (mem_range.mp hm) hk]; rfl]
  simp [hk]

/-- The coefficients computed by `scalar_product` from the values of any function are its discrete inner products with the
basis. -/
theorem C71_scalar (M : ℕ) (x w : ℕ → ℝ) (u : ℝ → ℝ) (k : ℕ) :
    hermScalar x w M (fun j => u (x j)) k = hermiteQuad M x w u (hermiteFun k) := by
  unfold hermScalar hermiteQuad hermWeight
  refine sum_congr rfl fun j _ => ?_
  rw [hermBasis_eq]
  ring

/-- The rule with two points `±1/√2` and weights `√π/2`. -/
theorem gaussHermite_two : GaussHermite 2 (fun j => if j = 0 then -Real.sqrt (1/2) else Real.sqrt (1/2)) (fun _ => Real.sqrt Real.pi / 2) := by
  have h2 : Real.sqrt (1/2) ^ 2 = 1/2 := Real.sq_sqrt (by norm_num)
  refine ⟨?_, ?_⟩
  · intro j hj
    rw [← hermP_eval]
    generalize Real.sqrt (1/2) = s at h2
    have : j = 0 ∨ j = 1 := by omega
    rcases this with h | h <;> subst h <;> simp [hermP] <;> nlinarith
  · intro p hp
    change _ = hermE p
    have hp4 : p = C (p.coeff 0) * 1 + C (p.coeff 1) * X + C (p.coeff 2) * X ^ 2 + C (p.coeff 3) * X ^ 3 := by
      have := p.as_sum_range_C_mul_X_pow' (n := 4) (by omega)
      rw [sum_range_succ, sum_range_succ, sum_range_succ, sum_range_succ, sum_range_zero] at this
      simpa using this
    have e1 : hermE X = 0 := by
      have := hermE_derivative 1
      rw [derivative_one, mul_one, hermE_C_mul] at this
      have h0 : hermE 0 = 0 := by simp [hermE]
      linarith
    have e2 : hermE (X ^ 2) = Real.sqrt Real.pi / 2 := by
      have := hermE_derivative X
      rw [derivative_X, mul_assoc, hermE_C_mul, hermE_one, ← pow_two] at this
      linarith
    have e3 : hermE (X ^ 3) = 0 := by
      have := hermE_derivative (X ^ 2)
      rw [mul_assoc, hermE_C_mul, show (X : ℝ[X]) * X ^ 2 = X ^ 3 by ring, derivative_X_pow] at this
      simp only [Nat.cast_ofNat, Nat.add_one_sub_one, pow_one] at this
      rw [hermE_C_mul, e1] at this
      linarith
    rw [hp4, hermE_add, hermE_add, hermE_add, hermE_C_mul, hermE_C_mul, hermE_C_mul, hermE_C_mul, e1, e2, e3, hermE_one]
    generalize Real.sqrt (1/2) = s at h2
    simp [sum_range_succ]
    linear_combination (Real.sqrt Real.pi * p.coeff 2) * h2

example : hermForward (fun j => if j = 0 then -Real.sqrt (1/2) else Real.sqrt (1/2)) (fun _ => Real.sqrt Real.pi / 2) 2
    (hermBackward (fun j => if j = 0 then -Real.sqrt (1/2) else Real.sqrt (1/2)) 2 fun k => 3 * k + 1) 1 = 4 := by
  rw [C71_transform 2 2 le_rfl _ _ gaussHermite_two _ 1 (by omega)]
  norm_num


/-! ## Matrix-vector product and solver of the stiffness matrix -/

/-- **C71** `matvec(format='self')` is the product with the assembled matrix. -/
theorem C71_matvec (N : ℕ) (hN : 2 ≤ N) (scale : ℝ) (v : ℕ → ℝ) (i : ℕ) :
    ahhMatvec N scale v i = if i < N then scale * ∑ j ∈ range N, ((ahhmat N).mat N N).denseAt i j * v j else 0 := by
  by_cases hi : i < N
  · rw [if_pos hi, sum_congr rfl fun j hj => show _ = (if j = i then (if i = N - 1 then ((N : ℝ) - 1) / 2 else (i : ℝ) + 1 / 2) * v i else 0) +
        (if j + 2 = i then -Real.sqrt (((i - 2 : ℕ) + 1 : ℝ) * ((i - 2 : ℕ) + 2)) / 2 * v (i - 2) else 0) +
        (if j = i + 2 then -Real.sqrt (((i : ℝ) + 1) * ((i : ℝ) + 2)) / 2 * v (i + 2) else 0) by
      rw [ahhmat_entry N i j hi (mem_range.mp hj)]
      have c : i = j ∨ i = j + 2 ∨ j = i + 2 ∨ (i ≠ j ∧ i ≠ j + 2 ∧ j ≠ i + 2) := by omega
      rcases c with h | h | h | h
      · subst h
        rw [if_pos rfl, if_pos rfl, if_neg (show ¬ i + 2 = i by omega), if_neg (show ¬ i = i + 2 by omega), add_zero, add_zero]
      · subst h
        ifs
        simp
      · subst h
        ifs
        simp
      · ifs
        simp]
    rw [sum_add_distrib, sum_add_distrib, sum_ite_eq' (range N) i, if_pos (mem_range.mpr hi), sum_ite_eq' (range N) (i + 2)]
    rw [show (∑ j ∈ range N, if j + 2 = i then -Real.sqrt (((i - 2 : ℕ) + 1 : ℝ) * ((i - 2 : ℕ) + 2)) / 2 * v (i - 2) else 0) =
        if 2 ≤ i then -Real.sqrt (((i - 2 : ℕ) + 1 : ℝ) * ((i - 2 : ℕ) + 2)) / 2 * v (i - 2) else 0 by
      by_cases h : 2 ≤ i
      · rw [if_pos h, sum_eq_single (i - 2)]
        · rw [if_pos (by omega)]
        · intro b _ hb
          rw [if_neg (by omega)]
        · intro hb
          exact absurd (mem_range.mpr (by omega)) hb
      · rw [if_neg h]
        exact sum_eq_zero fun j _ => by rw [if_neg (by omega)]]
    simp only [mem_range]
    unfold ahhMatvec
    simp only [Function.update_apply]
    by_cases h2 : 2 ≤ i <;> by_cases h3 : i + 2 < N <;> by_cases h4 : i = N - 1 <;> ifs <;> norm_num <;> ring
  · rw [if_neg hi]
    unfold ahhMatvec
    ifs
    simp

/-- **C71** For an odd number of points the stiffness matrix is singular: a non-zero array is mapped to zero. -/
theorem C71_singular (N : ℕ) (hN : N % 2 = 1) : ∃ u : ℕ → ℝ, u 0 = 1 ∧ Spec.Solves N ((ahhmat N).mat N N).denseAt u fun _ => 0 := by
  obtain ⟨a, ha0, ha⟩ : ∃ a : ℕ → ℝ, a 0 = 1 ∧ ∀ m, a (m + 1) = Real.sqrt ((2 * m + 1) / (2 * m + 2)) * a m :=
    ⟨fun m => Nat.rec 1 (fun m r => Real.sqrt ((2 * m + 1) / (2 * m + 2)) * r) m, rfl, fun m => rfl⟩
  set u : ℕ → ℝ := fun i => if i % 2 = 0 then a (i / 2) else 0 with hu
  have hup : ∀ i : ℕ, i % 2 = 0 → -Real.sqrt (((i : ℝ) + 1) * ((i : ℝ) + 2)) / 2 * u (i + 2) = -((i : ℝ) + 1) / 2 * u i := by
    intro i hi
    obtain ⟨m, rfl⟩ : ∃ m, i = 2 * m := ⟨i / 2, by omega⟩
    simp only [hu]
    rw [if_pos (by omega), if_pos (by omega), show (2 * m + 2) / 2 = m + 1 by omega, show 2 * m / 2 = m by omega, ha]
    push_cast
    have e : Real.sqrt ((2 * (m : ℝ) + 1) * (2 * m + 2)) * Real.sqrt ((2 * m + 1) / (2 * m + 2)) = 2 * m + 1 := by
      rw [← Real.sqrt_mul (by positivity), show (2 * (m : ℝ) + 1) * (2 * m + 2) * ((2 * m + 1) / (2 * m + 2)) = (2 * m + 1) ^ 2 by field_simp,
        Real.sqrt_sq (by positivity)]
    linear_combination (-(1 / 2) * a m) * e
  have hdn : ∀ i : ℕ, i % 2 = 0 → -Real.sqrt (((i : ℝ) + 1) * ((i : ℝ) + 2)) / 2 * u i = -((i : ℝ) + 2) / 2 * u (i + 2) := by
    intro i hi
    obtain ⟨m, rfl⟩ : ∃ m, i = 2 * m := ⟨i / 2, by omega⟩
    simp only [hu]
    rw [if_pos (by omega), if_pos (by omega), show (2 * m + 2) / 2 = m + 1 by omega, show 2 * m / 2 = m by omega, ha]
    push_cast
    have e : Real.sqrt ((2 * (m : ℝ) + 1) * (2 * m + 2)) = (2 * m + 2) * Real.sqrt ((2 * m + 1) / (2 * m + 2)) := by
      rw [show (2 * (m : ℝ) + 1) * (2 * m + 2) = (2 * m + 2) ^ 2 * ((2 * m + 1) / (2 * m + 2)) by field_simp,
        Real.sqrt_mul (by positivity), Real.sqrt_sq (by positivity)]
    rw [e]
    ring
  refine ⟨u, by simp [hu, ha0], fun i hi => ?_⟩
  by_cases hN1 : N = 1
  · subst hN1
    have : i = 0 := by omega
    subst this
    simp [Spec.mulVec, ahhmat_entry 1 0 0]
  have key := C71_matvec N (by omega) 1 u i
  rw [if_pos hi, one_mul] at key
  unfold Spec.mulVec
  rw [← key]
  unfold ahhMatvec
  simp only [Function.update_apply]
  by_cases hp : i % 2 = 0
  · have e1 := hup i hp
    by_cases h2 : 2 ≤ i
    · have e2 := hdn (i - 2) (by omega)
      rw [show i - 2 + 2 = i by omega] at e2
      have ec : ((i - 2 : ℕ) : ℝ) = (i : ℝ) - 2 := by push_cast [h2]; ring
      rw [ec] at e2 ⊢
      by_cases h3 : i < N - 2
      · ifs
        rw [show (0.5 : ℝ) = 1 / 2 by norm_num]
        generalize hr : Real.sqrt (((i : ℝ) - 2 + 1) * ((i : ℝ) - 2 + 2)) = r at e2 ⊢
        linear_combination e1 + e2
      · have : i = N - 1 := by omega
        have ec2 : (i : ℝ) = (N : ℝ) - 1 := by rw [this, Nat.cast_sub (by omega)]; norm_num
        ifs
        rw [← ec2]
        linear_combination e2
    · have : i = 0 := by omega
      subst this
      ifs
      norm_num at e1 ⊢
      linear_combination e1
  · have z : ∀ m, m % 2 = 1 → u m = 0 := fun m hm => by simp only [hu]; rw [if_neg (by omega)]
    rw [z i (by omega), z (i + 2) (by omega)]
    by_cases h2 : 2 ≤ i
    · rw [z (i - 2) (by omega)]
      simp
    · ifs
      simp

/-- The pivots of the elimination by `TDMA`, whatever the dia storage holding the stiffness matrix. -/
theorem ahhmat_pivots (N : ℕ) (data : Dia ℝ)
    (hd : ∀ i < N, ∀ j < N, Spec.diaEntry [-2, 0, 2] data i j = ((ahhmat N).mat N N).denseAt i j) :
    ∀ j, j < N → TDMA.lu N data 1 j =
      (if j % 2 = 0 then ((j : ℝ) + 1) / 2 else ((j : ℝ) + 2) / 2) - if j = N - 1 then (N : ℝ) / 2 else 0 := by
  obtain ⟨l0, l1, l2⟩ := TDMA.lu_spec N data
  have d1 : ∀ j < N, data 1 j = if j = N - 1 then ((N : ℝ) - 1) / 2 else (j : ℝ) + 1 / 2 := by
    intro j hj
    have := hd j hj j hj
    rw [TDMA.entry_eq, ahhmat_entry N j j hj hj] at this
    ifs at this
    simpa using this
  have d2 : ∀ j, j + 2 < N → data 2 (j + 2) = -Real.sqrt (((j : ℝ) + 1) * ((j : ℝ) + 2)) / 2 := by
    intro j hj
    have := hd j (by omega) (j + 2) hj
    rw [TDMA.entry_eq, ahhmat_entry N j (j + 2) (by omega) hj] at this
    ifs at this
    simpa using this
  have d0 : ∀ j, j + 2 < N → data 0 j = -Real.sqrt (((j : ℝ) + 1) * ((j : ℝ) + 2)) / 2 := by
    intro j hj
    have := hd (j + 2) hj j (by omega)
    rw [TDMA.entry_eq, ahhmat_entry N (j + 2) j hj (by omega)] at this
    ifs at this
    simpa using this
  intro j
  induction j using Nat.strong_induction_on with
  | _ j ih =>
    intro hj
    rw [l1 j hj, d1 j hj]
    by_cases h2 : 2 ≤ j
    · obtain ⟨i, rfl⟩ : ∃ i, j = i + 2 := ⟨j - 2, by omega⟩
      rw [if_pos h2, show i + 2 - 2 = i by omega, l0 i hj, d0 i hj, d2 i hj, ih i (by omega) (by omega), if_neg (show ¬ i = N - 1 by omega), sub_zero]
      have sq : Real.sqrt (((i : ℝ) + 1) * ((i : ℝ) + 2)) ^ 2 = ((i : ℝ) + 1) * ((i : ℝ) + 2) := Real.sq_sqrt (by positivity)
      generalize Real.sqrt (((i : ℝ) + 1) * ((i : ℝ) + 2)) = r at sq
      have hlast : i + 2 = N - 1 → (N : ℝ) = i + 3 := fun h => by
        have : N = i + 3 := by omega
        rw [this]; push_cast; ring
      have p1 : ((i : ℝ) + 1) ≠ 0 := by positivity
      have p2 : ((i : ℝ) + 2) ≠ 0 := by positivity
      rcases Nat.mod_two_eq_zero_or_one i with hp | hp
      · rw [if_pos hp, if_pos (show (i + 2) % 2 = 0 by omega)]
        by_cases hl : i + 2 = N - 1
        · rw [if_pos hl, if_pos hl, hlast hl]
          push_cast
          field_simp
          linear_combination -sq
        · rw [if_neg hl, if_neg hl]
          push_cast
          field_simp
          linear_combination -sq
      · rw [if_neg (show ¬ i % 2 = 0 by omega), if_neg (show ¬ (i + 2) % 2 = 0 by omega)]
        by_cases hl : i + 2 = N - 1
        · rw [if_pos hl, if_pos hl, hlast hl]
          push_cast
          field_simp
          linear_combination -sq
        · rw [if_neg hl, if_neg hl]
          push_cast
          field_simp
          linear_combination -sq
    · rw [if_neg h2, sub_zero]
      have : j = 0 ∨ j = 1 := by omega
      rcases this with rfl | rfl
      · by_cases hl : 0 = N - 1
        · have : N = 1 := by omega
          subst this
          norm_num
        · rw [if_neg hl, if_neg hl]
          norm_num
      · by_cases hl : 1 = N - 1
        · have : N = 2 := by omega
          subst this
          norm_num
        · rw [if_neg hl, if_neg hl]
          norm_num

/-- **C71** For an even number of points `solve` (with the matrix's own solver `TDMA`) returns the one solution; for an odd
number the last divisor is zero and the matrix is not invertible. -/
theorem C71_solve (N : ℕ) (hN : 2 ≤ N) (data : Dia ℝ)
    (hd : ∀ i < N, ∀ j < N, Spec.diaEntry [-2, 0, 2] data i j = ((ahhmat N).mat N N).denseAt i j) :
    (N % 2 = 0 → ∀ b, Spec.IsTheSolution N (Spec.diaEntry [-2, 0, 2] data) b (TDMA.innerSolve N (TDMA.lu N data) b)) ∧
    (N % 2 = 1 → TDMA.lu N data 1 (N - 1) = 0) := by
  constructor
  · intro hp b
    refine C01_tdma_solves N hN data ((C01_tdma_pivots_iff N data).2 fun i hi => ?_) b
    rw [ahhmat_pivots N data hd i hi]
    have hlast : i = N - 1 → (N : ℝ) = i + 1 := fun h => by
      have : N = i + 1 := by omega
      rw [this]; push_cast; ring
    by_cases hl : i = N - 1
    · rw [if_pos hl, if_neg (by omega), hlast hl]
      norm_num
      intro h
      linarith
    · rw [if_neg hl, sub_zero]
      split_ifs <;> positivity
  · intro hp
    rw [ahhmat_pivots N data hd (N - 1) (by omega), if_pos rfl, if_pos (by omega), Nat.cast_sub (by omega)]
    push_cast
    ring

/-- The dia storage of the matrix. -/
example : ∃ data : Dia ℝ, ∀ i < 4, ∀ j < 4, Spec.diaEntry [-2, 0, 2] data i j = ((ahhmat 4).mat 4 4).denseAt i j := by
  refine ⟨fun r j => if r = 0 then ((ahhmat 4).mat 4 4).denseAt (j + 2) j else
    if r = 1 then ((ahhmat 4).mat 4 4).denseAt j j else ((ahhmat 4).mat 4 4).denseAt (j - 2) j, fun i hi j hj => ?_⟩
  rw [TDMA.entry_eq]
  by_cases h1 : i = j + 2
  · subst h1; ifs; simp
  by_cases h2 : i = j
  · subst h2; ifs; simp
  by_cases h3 : j = i + 2
  · subst h3; ifs; simp
  rw [ahhmat_entry 4 i j hi hj]
  ifs
  simp

end Shenfun
