import Verif.Lemmas.JacobiRec
import Verif.Spec.JacobiWeight
import Mathlib.Topology.Algebra.Polynomial
import Mathlib.Analysis.Calculus.Deriv.Polynomial

/-!
# Orthogonality of the Jacobi polynomials
-/

namespace Shenfun.Spec

open Polynomial MeasureTheory

theorem weight_integrable {a b : ℝ} (ha : -1 < a) (hb : -1 < b) {f : ℝ → ℝ} (hf : Continuous f) :
    IntervalIntegrable (fun x => (1-x)^a * (1+x)^b * f x) volume (-1) 1 := by
  have h1 : IntervalIntegrable (fun x : ℝ => (1+x)^b) volume (-1) 0 := by
    have := (intervalIntegral.intervalIntegrable_rpow' (a := 0) (b := 1) hb).comp_add_left 1
    simpa using this
  have h2 : IntervalIntegrable (fun x : ℝ => (1-x)^a) volume 0 1 := by
    have := (intervalIntegral.intervalIntegrable_rpow' (a := 1) (b := 0) ha).comp_sub_left 1
    simpa using this
  have c1 : ContinuousOn (fun x : ℝ => (1-x)^a) (Set.uIcc (-1) 0) := by
    refine ContinuousOn.rpow_const (by fun_prop) fun x hx => Or.inl ?_
    rw [Set.uIcc_of_le (by norm_num)] at hx
    have := hx.2
    linarith
  have c2 : ContinuousOn (fun x : ℝ => (1+x)^b) (Set.uIcc 0 1) := by
    refine ContinuousOn.rpow_const (by fun_prop) fun x hx => Or.inl ?_
    rw [Set.uIcc_of_le (by norm_num)] at hx
    have := hx.1
    linarith
  refine IntervalIntegrable.trans (b := 0) ?_ ?_
  · exact (h1.continuousOn_mul c1).mul_continuousOn hf.continuousOn
  · exact (h2.mul_continuousOn c2).mul_continuousOn hf.continuousOn

section

variable {a b : ℝ}

theorem wInt_add (ha : -1 < a) (hb : -1 < b) (p q : ℝ[X]) : wInt a b (p + q) = wInt a b p + wInt a b q := by
  unfold wInt
  rw [← intervalIntegral.integral_add (weight_integrable ha hb p.continuous) (weight_integrable ha hb q.continuous)]
  refine intervalIntegral.integral_congr fun x _ => ?_
  simp only [eval_add]
  ring

theorem wInt_C_mul (c : ℝ) (p : ℝ[X]) : wInt a b (C c * p) = c * wInt a b p := by
  unfold wInt
  rw [← intervalIntegral.integral_const_mul]
  refine intervalIntegral.integral_congr fun x _ => ?_
  simp only [eval_mul, eval_C]
  ring

theorem wInt_zero : wInt a b 0 = 0 := by
  have := wInt_C_mul (a := a) (b := b) 0 0
  simpa using this

theorem wInt_neg (p : ℝ[X]) : wInt a b (-p) = - wInt a b p := by
  have := wInt_C_mul (a := a) (b := b) (-1) p
  simpa using this

theorem wInt_sub (ha : -1 < a) (hb : -1 < b) (p q : ℝ[X]) : wInt a b (p - q) = wInt a b p - wInt a b q := by
  rw [sub_eq_add_neg, wInt_add ha hb, wInt_neg, sub_eq_add_neg]

theorem wInt_sum {ι : Type*} (ha : -1 < a) (hb : -1 < b) (s : Finset ι) (f : ι → ℝ[X]) :
    wInt a b (∑ i ∈ s, f i) = ∑ i ∈ s, wInt a b (f i) := by
  classical
  induction s using Finset.induction_on with
  | empty => simp [wInt_zero]
  | insert i s hi ih => rw [Finset.sum_insert hi, Finset.sum_insert hi, wInt_add ha hb, ih]

/-- Raising both parameters is multiplication by `1 - x²`. -/
theorem wInt_succ (ha : -1 < a) (hb : -1 < b) (p : ℝ[X]) : wInt (a+1) (b+1) p = wInt a b ((1 - X^2) * p) := by
  unfold wInt
  refine intervalIntegral.integral_congr fun x hx => ?_
  rw [Set.uIcc_of_le (by norm_num)] at hx
  change (1-x)^(a+1) * (1+x)^(b+1) * p.eval x = _
  rw [Real.rpow_add_one' (by linarith [hx.2]) (by linarith), Real.rpow_add_one' (by linarith [hx.1]) (by linarith)]
  simp only [eval_mul, eval_sub, eval_one, eval_pow, eval_X]
  ring

theorem wInt_add_nat (ha : -1 < a) (hb : -1 < b) (k : ℕ) (p : ℝ[X]) :
    wInt (a+k) (b+k) p = wInt a b ((1 - X^2)^k * p) := by
  induction k generalizing p with
  | zero => simp
  | succ k ih =>
    have hk : (0:ℝ) ≤ k := by positivity
    push_cast
    rw [← add_assoc, ← add_assoc, wInt_succ (by linarith) (by linarith), ih]
    congr 1
    ring

/-- Integration by parts. -/
theorem wInt_parts (ha : -1 < a) (hb : -1 < b) (q : ℝ[X]) :
    wInt a b ((1 - X^2) * derivative q + (C (b - a) - C (a + b + 2) * X) * q) = 0 := by
  have hd : ∀ x ∈ Set.Ioo (-1:ℝ) 1, HasDerivAt (fun x : ℝ => (1-x)^(a+1) * (1+x)^(b+1) * q.eval x)
      ((1-x)^a * (1+x)^b * ((1 - X^2) * derivative q + (C (b - a) - C (a + b + 2) * X) * q).eval x) x := by
    intro x hx
    have l1 : (1 - x) ≠ 0 := by have := hx.2; intro h; linarith
    have l2 : (1 + x) ≠ 0 := by have := hx.1; intro h; linarith
    have d1 : HasDerivAt (fun x : ℝ => (1-x)^(a+1)) ((0 - 1) * (a+1) * (1-x)^(a+1-1)) x :=
      ((hasDerivAt_const x (1:ℝ)).sub (hasDerivAt_id x)).rpow_const (Or.inl l1)
    have d2 : HasDerivAt (fun x : ℝ => (1+x)^(b+1)) ((0 + 1) * (b+1) * (1+x)^(b+1-1)) x :=
      ((hasDerivAt_const x (1:ℝ)).add (hasDerivAt_id x)).rpow_const (Or.inl l2)
    have d3 := (d1.mul d2).mul (q.hasDerivAt x)
    refine d3.congr_deriv ?_
    have e1 : (1-x)^(a+1) = (1-x)^a * (1-x) := Real.rpow_add_one l1 a
    have e2 : (1+x)^(b+1) = (1+x)^b * (1+x) := Real.rpow_add_one l2 b
    simp only [add_sub_cancel_right, e1, e2, Pi.mul_apply, eval_add, eval_sub, eval_mul, eval_one, eval_pow, eval_X, eval_C]
    ring
  have hc : ContinuousOn (fun x : ℝ => (1-x)^(a+1) * (1+x)^(b+1) * q.eval x) (Set.Icc (-1) 1) := by
    have e1 : Continuous (fun x : ℝ => (1-x)^(a+1)) :=
      Continuous.rpow_const (by fun_prop) fun x => Or.inr (by linarith)
    have e2 : Continuous (fun x : ℝ => (1+x)^(b+1)) :=
      Continuous.rpow_const (by fun_prop) fun x => Or.inr (by linarith)
    exact ((e1.mul e2).mul q.continuous).continuousOn
  unfold wInt
  rw [intervalIntegral.integral_eq_sub_of_hasDerivAt_of_le (by norm_num) hc hd
    (weight_integrable ha hb (Polynomial.continuous _))]
  have z1 : (a + 1) ≠ 0 := by linarith
  have z2 : (b + 1) ≠ 0 := by linarith
  norm_num [Real.zero_rpow z1, Real.zero_rpow z2]

/-- Green's identity for the Jacobi operator. -/
theorem wInt_green (ha : -1 < a) (hb : -1 < b) (n : ℕ) (q : ℝ[X]) :
    wInt (a+1) (b+1) (derivative (jacobi a b n) * derivative q) = n * (n + a + b + 1) * wInt a b (jacobi a b n * q) := by
  have h := wInt_parts ha hb (derivative (jacobi a b n) * q)
  have e : (1 - X^2) * derivative (derivative (jacobi a b n) * q) +
      (C (b - a) - C (a + b + 2) * X) * (derivative (jacobi a b n) * q) =
      (1 - X^2) * (derivative (jacobi a b n) * derivative q) - C (n * (n + a + b + 1)) * (jacobi a b n * q) := by
    rw [derivative_mul]
    linear_combination q * jacobi_ode a b ha n
  rw [e, wInt_sub ha hb, wInt_C_mul, ← wInt_succ ha hb] at h
  linarith

theorem jacobi_eig_ne (ha : -1 < a) (hb : -1 < b) {m n : ℕ} (h : m ≠ n) :
    (n:ℝ) * (n + a + b + 1) ≠ m * (m + a + b + 1) := by
  intro e
  have e2 : ((n:ℝ) - m) * (n + m + a + b + 1) = 0 := by linear_combination e
  rcases mul_eq_zero.1 e2 with h1 | h1
  · exact h (by exact_mod_cast (sub_eq_zero.1 h1).symm)
  · have : (1:ℝ) ≤ n + m := by
      have : 1 ≤ n + m := by omega
      exact_mod_cast this
    linarith

/-- Orthogonality. -/
theorem jacobi_orthogonal (ha : -1 < a) (hb : -1 < b) {m n : ℕ} (h : m ≠ n) :
    wInt a b (jacobi a b m * jacobi a b n) = 0 := by
  have h1 := wInt_green ha hb n (jacobi a b m)
  have h2 := wInt_green ha hb m (jacobi a b n)
  rw [mul_comm (derivative _), h2, mul_comm (jacobi a b n)] at h1
  have h3 : ((n:ℝ) * (n + a + b + 1) - m * (m + a + b + 1)) * wInt a b (jacobi a b m * jacobi a b n) = 0 := by
    linear_combination -h1
  exact (mul_eq_zero.1 h3).resolve_left (sub_ne_zero.2 (jacobi_eig_ne ha hb h))

/-- Recursion of the norms. -/
theorem jacobi_norm_succ (ha : -1 < a) (hb : -1 < b) (n : ℕ) :
    wInt a b (jacobi a b (n+1) * jacobi a b (n+1)) =
      (n + 1 + a + b + 1) / (4 * (n + 1)) * wInt (a+1) (b+1) (jacobi (a+1) (b+1) n * jacobi (a+1) (b+1) n) := by
  have h := wInt_green ha hb (n+1) (jacobi a b (n+1))
  rw [derivative_jacobi] at h
  have e : C (((n:ℝ) + 1 + a + b + 1) / 2) * jacobi (a+1) (b+1) n * (C (((n:ℝ) + 1 + a + b + 1) / 2) * jacobi (a+1) (b+1) n) =
      C ((((n:ℝ) + 1 + a + b + 1) / 2)^2) * (jacobi (a+1) (b+1) n * jacobi (a+1) (b+1) n) := by
    rw [C_pow]; ring
  rw [e, wInt_C_mul] at h
  have hn : (0:ℝ) ≤ n := by positivity
  have hp : (n:ℝ) + 1 + a + b + 1 ≠ 0 := ne_of_gt (by linarith)
  push_cast at h
  generalize (n:ℝ) + 1 + a + b + 1 = t at *
  rw [eq_comm, div_mul_eq_mul_div, div_eq_iff (by positivity)]
  have : t * (t * wInt (a+1) (b+1) (jacobi (a+1) (b+1) n * jacobi (a+1) (b+1) n)) =
      t * (wInt a b (jacobi a b (n+1) * jacobi a b (n+1)) * (4 * (n+1))) := by linear_combination 4 * h
  exact mul_left_cancel₀ hp this

/-- The Beta integral. -/
theorem wInt_one (ha : -1 < a) (hb : -1 < b) :
    wInt a b 1 = 2^(a+b+1) * (Real.Gamma (a+1) * Real.Gamma (b+1) / Real.Gamma (a+b+2)) := by
  have hB : ∫ x in (0:ℝ)..1, x^b * (1-x)^a = Real.Gamma (a+1) * Real.Gamma (b+1) / Real.Gamma (a+b+2) := by
    have h := Complex.betaIntegral_eq_Gamma_mul_div (u := ((b+1 : ℝ):ℂ)) (v := ((a+1 : ℝ) :ℂ))
      (by simp; linarith) (by simp; linarith)
    rw [← Complex.ofReal_add, Complex.Gamma_ofReal, Complex.Gamma_ofReal, Complex.Gamma_ofReal] at h
    have h2 : Complex.betaIntegral ((b+1 : ℝ):ℂ) ((a+1 : ℝ):ℂ) = ((∫ x in (0:ℝ)..1, x^b * (1-x)^a : ℝ) : ℂ) := by
      unfold Complex.betaIntegral
      rw [← intervalIntegral.integral_ofReal]
      refine intervalIntegral.integral_congr fun x hx => ?_
      rw [Set.uIcc_of_le (by norm_num)] at hx
      change _ = ((x^b * (1-x)^a : ℝ) : ℂ)
      rw [Complex.ofReal_mul, Complex.ofReal_cpow hx.1, Complex.ofReal_cpow (by linarith [hx.2])]
      push_cast
      simp
    rw [h2] at h
    have h3 : (∫ x in (0:ℝ)..1, x^b * (1-x)^a) = Real.Gamma (b+1) * Real.Gamma (a+1) / Real.Gamma (b+1+(a+1)) := by
      exact_mod_cast h
    rw [h3, show b+1+(a+1) = a+b+2 by ring, mul_comm (Real.Gamma (b+1))]
  rw [← hB]
  unfold wInt
  have hs := intervalIntegral.integral_comp_mul_add (a := (-1:ℝ)) (b := 1) (c := 1/2) (fun x : ℝ => x^b * (1-x)^a)
    (by norm_num) (1/2)
  norm_num at hs
  rw [show (2:ℝ)^(a+b+1) * ∫ x in (0:ℝ)..1, x^b * (1-x)^a = 2^(a+b) * (2 * ∫ x in (0:ℝ)..1, x^b * (1-x)^a) by
    rw [Real.rpow_add_one (by norm_num)]; ring, ← hs, ← intervalIntegral.integral_const_mul]
  refine intervalIntegral.integral_congr fun x hx => ?_
  rw [Set.uIcc_of_le (by norm_num)] at hx
  have l1 : 0 ≤ 1 - x := by linarith [hx.2]
  have l2 : 0 ≤ 1 + x := by linarith [hx.1]
  simp only [eval_one, mul_one]
  rw [show 1/2 * x + 1/2 = (1 + x) / 2 by ring, show 1 - (1 + x)/2 = (1 - x)/2 by ring, Real.div_rpow l2 (by norm_num),
    Real.div_rpow l1 (by norm_num), Real.rpow_add (by norm_num)]
  have p1 : (2:ℝ)^a ≠ 0 := by positivity
  have p2 : (2:ℝ)^b ≠ 0 := by positivity
  field_simp

theorem wInt_one_pos (ha : -1 < a) (hb : -1 < b) : 0 < wInt a b 1 := by
  rw [wInt_one ha hb]
  have h1 := Real.Gamma_pos_of_pos (show 0 < a + 1 by linarith)
  have h2 := Real.Gamma_pos_of_pos (show 0 < b + 1 by linarith)
  have h3 := Real.Gamma_pos_of_pos (show 0 < a + b + 2 by linarith)
  positivity

/-- The norms are positive. -/
theorem jacobi_norm_pos (ha : -1 < a) (hb : -1 < b) (n : ℕ) : 0 < wInt a b (jacobi a b n * jacobi a b n) := by
  induction n generalizing a b with
  | zero => rw [jacobi_zero, mul_one]; exact wInt_one_pos ha hb
  | succ n ih =>
    rw [jacobi_norm_succ ha hb]
    have hn : (0:ℝ) ≤ n := by positivity
    have h1 : 0 < (n:ℝ) + 1 + a + b + 1 := by linarith
    have := ih (a := a+1) (b := b+1) (by linarith) (by linarith)
    positivity

end

end Shenfun.Spec
