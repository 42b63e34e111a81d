import Verif.Spec.Jacobi
import Mathlib.Algebra.Polynomial.Roots

/-!
# Differential equation and recursions of the Jacobi polynomials
-/

namespace Shenfun.Spec

set_option linter.unusedSimpArgs false

open Polynomial Finset

section

variable (a b : ℝ)

/-- `k`-th derivative of `X p` at 1. -/
theorem iterate_derivative_X_mul_eval_one (p : ℝ[X]) (k : ℕ) :
    (derivative^[k+1] (X * p)).eval 1 = (derivative^[k+1] p).eval 1 + (k+1) * (derivative^[k] p).eval 1 := by
  rw [mul_comm, iterate_derivative_mul_X]
  simp

theorem jacobi_deriv_succ (ha : -1 < a) (n k : ℕ) :
    (derivative^[k+1] (jacobi a b n)).eval 1 * (2 * (a + 1 + k)) =
      (derivative^[k] (jacobi a b n)).eval 1 * ((n - k) * (n + a + b + 1 + k)) := by
  rw [iterate_derivative_jacobi_eval_one a b ha, iterate_derivative_jacobi_eval_one a b ha]
  unfold bndFactor
  rw [prod_range_succ]
  have h0 : a + 1 + k ≠ 0 := by
    have : (0:ℝ) ≤ k := by positivity
    have : 0 < a + 1 + k := by linarith
    exact this.ne'
  generalize a + 1 + (k:ℝ) = t at h0 ⊢
  field_simp

/-- The four values entering three-term relations, over a common base. -/
theorem jacobi_deriv_base (ha : -1 < a) (hb : -1 < b) (m k : ℕ) : ∃ B : ℝ,
    (derivative^[k+1] (jacobi a b (m+1))).eval 1 = B * ((m+1-k) * (m+1+(a+b+1))) / (2*(a+1+k)) ∧
    (derivative^[k+1] (jacobi a b (m+2))).eval 1 = B * ((m+2+a) * (m+2+(a+b+1)+k)) / (2*(a+1+k)) ∧
    (derivative^[k+1] (jacobi a b m)).eval 1 =
      B * ((m+1-k)*(m-k)*(m+(a+b+1))*(m+1+(a+b+1))) / ((m+1+a)*(m+1+(a+b+1)+k) * (2*(a+1+k))) ∧
    (derivative^[k] (jacobi a b (m+1))).eval 1 = B * (m+1+(a+b+1)) / (m+1+(a+b+1)+k) := by
  have hk : (0:ℝ) ≤ k := by positivity
  have hm : (0:ℝ) ≤ m := by positivity
  have h0 : (2*(a+1+k)) ≠ 0 := by have : 0 < a+1+k := by linarith
                                  positivity
  have h1 : (m+1+(a+b+1)+k) ≠ 0 := by have : 0 < m+1+(a+b+1)+k := by linarith
                                      positivity
  have h2 : (m+1+a) ≠ 0 := by have : 0 < m+1+a := by linarith
                              positivity
  have hm1 : (m:ℝ)+1 ≠ 0 := by positivity
  have hm2 : (m:ℝ)+2 ≠ 0 := by positivity
  set n1 : ℝ := ∏ i ∈ range k, ((m:ℝ)+1-i) with hn1
  set p1 : ℝ := ∏ i ∈ range k, ((m:ℝ)+1+(a+b+1)+1+i) with hp1
  set d1 : ℝ := ∏ i ∈ range k, (2*(a+1+i)) with hd1
  have hd0 : d1 ≠ 0 := prod_ne_zero_iff.2 fun i _ => by
    have : (0:ℝ) ≤ i := by positivity
    have : 0 < a+1+i := by linarith
    positivity
  set g := gbinom ((m+1 : ℕ) + a) (m+1) with hg
  -- products
  have P1 : ∀ x : ℝ, ∏ i ∈ range (k+1), (x + i) = x * ∏ i ∈ range k, (x + 1 + i) := by
    intro x
    rw [prod_range_succ']
    rw [mul_comm]
    congr 1
    · simp
    · exact prod_congr rfl fun i _ => by push_cast; ring
  have P2 : ∀ x : ℝ, ∏ i ∈ range (k+1), (x - i) = x * ∏ i ∈ range k, (x - 1 - i) := by
    intro x
    rw [prod_range_succ']
    rw [mul_comm]
    congr 1
    · simp
    · exact prod_congr rfl fun i _ => by push_cast; ring
  have P3 : (∏ i ∈ range k, ((m:ℝ)+1+(a+b+1)+i)) * (m+1+(a+b+1)+k) = (m+1+(a+b+1)) * p1 := by
    rw [← prod_range_succ (fun i : ℕ => ((m:ℝ)+1+(a+b+1)+i)), P1]
  have P4 : (∏ i ∈ range k, ((m:ℝ)-i)) * (m + 1) = n1 * (m+1-k) := by
    rw [hn1, ← prod_range_succ (fun i : ℕ => ((m:ℝ)+1-i)), P2, mul_comm]
    congr 1
    exact prod_congr rfl fun i _ => by ring
  have split : ∀ (n : ℕ) (j : ℕ), bndFactor a b n j = (∏ i ∈ range j, ((n:ℝ)-i)) * (∏ i ∈ range j, ((n:ℝ)+(a+b+1)+i)) /
      ∏ i ∈ range j, (2*(a+1+i)) := by
    intro n j
    unfold bndFactor
    rw [prod_div_distrib, prod_mul_distrib]
    congr 2
    exact prod_congr rfl fun i _ => by ring
  have G1 : gbinom ((m+2 : ℕ) + a) (m+2) = g * (m+2+a) / (m+2) := by
    have := gbinom_succ_succ (((m+1:ℕ):ℝ) + a) (m+1)
    rw [show (((m+1:ℕ):ℝ) + a) + 1 = ((m+2 : ℕ):ℝ) + a by push_cast; ring] at this
    rw [eq_div_iff hm2, hg]
    push_cast at this ⊢
    rw [show (m:ℝ) + 1 + 1 = m + 2 by ring] at this
    change gbinom (↑m + 2 + a) (m+2) * _ = _ at this
    rw [this]
    ring
  have G0 : gbinom ((m : ℕ) + a) m = g * (m+1) / (m+1+a) := by
    have := gbinom_succ_succ (((m:ℕ):ℝ) + a) m
    rw [show (((m:ℕ):ℝ) + a) + 1 = ((m+1 : ℕ):ℝ) + a by push_cast; ring] at this
    rw [eq_div_iff h2, hg]
    push_cast at this ⊢
    rw [this]
    ring
  refine ⟨g * (n1 * p1 / d1), ?_, ?_, ?_, ?_⟩
  · rw [iterate_derivative_jacobi_eval_one a b ha, split, ← hg, prod_range_succ, P1, prod_range_succ]
    push_cast
    rw [← hn1, ← hp1, ← hd1]
    field_simp
  · rw [iterate_derivative_jacobi_eval_one a b ha, split, G1, P2, prod_range_succ, prod_range_succ]
    push_cast
    have e1 : ∏ i ∈ range k, ((m:ℝ)+2-1-i) = n1 := prod_congr rfl fun i _ => by ring
    have e2 : ∏ i ∈ range k, ((m:ℝ)+2+(a+b+1)+i) = p1 := prod_congr rfl fun i _ => by ring
    rw [e1, e2, ← hd1]
    field_simp
  · rw [iterate_derivative_jacobi_eval_one a b ha, split, G0, P1, prod_range_succ, prod_range_succ]
    have e2 : ∏ i ∈ range k, ((m:ℝ)+(a+b+1)+1+i) = ∏ i ∈ range k, ((m:ℝ)+1+(a+b+1)+i) :=
      prod_congr rfl fun i _ => by ring
    rw [e2, ← hd1]
    rw [← eq_div_iff h1] at P3
    rw [← eq_div_iff hm1] at P4
    rw [P3, P4]
    field_simp
  · rw [iterate_derivative_jacobi_eval_one a b ha, split, ← hg]
    push_cast
    rw [← hn1, ← hd1]
    rw [← eq_div_iff h1] at P3
    rw [P3]
    field_simp

/-- Three consecutive values at 1 over a common base. -/
theorem jacobi_eval_base (ha : -1 < a) (m : ℕ) : ∃ B : ℝ,
    (jacobi a b (m+1)).eval 1 = B ∧ (jacobi a b (m+2)).eval 1 = B * (m+2+a) / (m+2) ∧
    (jacobi a b m).eval 1 = B * (m+1) / (m+1+a) := by
  have hm : (0:ℝ) ≤ m := by positivity
  have hm2 : (m:ℝ)+2 ≠ 0 := by positivity
  have h2 : (m+1+a) ≠ 0 := by have : 0 < m+1+a := by linarith
                              positivity
  refine ⟨_, rfl, ?_, ?_⟩
  · rw [jacobi_eval_one, jacobi_eval_one, eq_div_iff hm2]
    have := gbinom_succ_succ (((m+1:ℕ):ℝ) + a) (m+1)
    rw [show (((m+1:ℕ):ℝ) + a) + 1 = ((m+2 : ℕ):ℝ) + a by push_cast; ring] at this
    push_cast at this ⊢
    rw [show (m:ℝ) + 1 + 1 = m + 2 by ring] at this
    change gbinom (↑m + 2 + a) (m+2) * _ = _ at this
    rw [this]
    ring
  · rw [jacobi_eval_one, jacobi_eval_one, eq_div_iff h2]
    have := gbinom_succ_succ (((m:ℕ):ℝ) + a) m
    rw [show (((m:ℕ):ℝ) + a) + 1 = ((m+1 : ℕ):ℝ) + a by push_cast; ring] at this
    push_cast at this ⊢
    rw [this]
    ring

/-- Differential equation. -/
theorem jacobi_ode (ha : -1 < a) (n : ℕ) :
    (1 - X^2) * derivative (derivative (jacobi a b n)) + (C (b - a) - C (a + b + 2) * X) * derivative (jacobi a b n) +
      C (n * (n + a + b + 1)) * jacobi a b n = 0 := by
  set P := jacobi a b n with hP
  have e : (1 - X^2) * derivative (derivative P) + (C (b - a) - C (a + b + 2) * X) * derivative P +
      C (n * (n + a + b + 1)) * P =
      derivative^[2] P - X * (X * derivative^[2] P) + C (b-a) * derivative P - C (a+b+2) * (X * derivative P) +
        C (n * (n + a + b + 1)) * P := by
    simp only [Function.iterate_succ, Function.iterate_zero, Function.comp, id]
    ring
  rw [e]
  refine ext_derivatives_one fun k => ?_
  have hD := fun j => jacobi_deriv_succ a b ha n j
  rw [← hP] at hD
  have it : ∀ i j, derivative^[i] (derivative^[j] P) = derivative^[i+j] P := fun i j => by
    rw [Function.iterate_add_apply]
  have it1 : ∀ i, derivative^[i] (derivative P) = derivative^[i+1] P := fun i => it i 1
  rcases k with _ | k
  · have h0 := hD 0
    simp only [Function.iterate_zero, id, Function.iterate_succ, Function.comp, eval_add, eval_sub, eval_mul, eval_X, eval_C, eval_zero] at h0 ⊢
    push_cast at h0
    linear_combination -h0
  · have hk := hD (k+1)
    simp only [iterate_map_add derivative, iterate_map_sub derivative, iterate_derivative_C_mul, eval_add, eval_sub,
      eval_mul, eval_C, iterate_derivative_X_mul_eval_one, it1, it]
    rcases k with _ | k
    · simp only [Function.iterate_zero, id, Function.iterate_succ, Function.comp, eval_add, eval_sub, eval_mul, eval_X, eval_C, eval_zero, derivative_zero] at hk ⊢
      push_cast at hk ⊢
      linear_combination -hk
    · simp only [iterate_derivative_X_mul_eval_one, it1, it, iterate_derivative_zero, eval_zero]
      push_cast at hk ⊢
      simp only [add_assoc, Nat.reduceAdd] at hk ⊢
      linear_combination -hk


/-- Three-term recurrence, `n ≥ 1`. -/
theorem jacobi_X_mul (ha : -1 < a) (hb : -1 < b) (m : ℕ) :
    X * jacobi a b (m+1) =
      C (2 * ((m+1) + a) * ((m+1) + b) / ((2*(m+1) + a + b + 1) * (2*(m+1) + a + b))) * jacobi a b m +
      C (-((a^2 - b^2) / ((2*(m+1) + a + b + 2) * (2*(m+1) + a + b)))) * jacobi a b (m+1) +
      C (2 * ((m+1) + 1) * ((m+1) + a + b + 1) / ((2*(m+1) + a + b + 2) * (2*(m+1) + a + b + 1))) * jacobi a b (m+2) := by
  have hm : (0:ℝ) ≤ m := by positivity
  obtain ⟨u, hu⟩ : ∃ u, u = 2*((m:ℝ)+1) + a + b := ⟨_, rfl⟩
  obtain ⟨t, ht⟩ : ∃ t, t = (m:ℝ)+1+a := ⟨_, rfl⟩
  have p1 : u ≠ 0 := ne_of_gt (by linarith)
  have p2 : u + 1 ≠ 0 := ne_of_gt (by linarith)
  have p3 : u + 2 ≠ 0 := ne_of_gt (by linarith)
  have h2 : t ≠ 0 := ne_of_gt (by linarith)
  have hm2 : (m:ℝ)+2 ≠ 0 := by positivity
  rw [← hu]
  refine ext_derivatives_one fun k => ?_
  rcases k with _ | k
  · obtain ⟨B, e1, e2, e3⟩ := jacobi_eval_base a b ha m
    simp only [Function.iterate_zero, id, eval_add, eval_mul, eval_X, eval_C, e1, e2, e3, ← ht]
    field_simp
    subst hu ht
    ring
  · obtain ⟨B, e1, e2, e3, e4⟩ := jacobi_deriv_base a b ha hb m k
    have hk : (0:ℝ) ≤ k := by positivity
    obtain ⟨w, hw⟩ : ∃ w, w = a+1+(k:ℝ) := ⟨_, rfl⟩
    obtain ⟨v, hv⟩ : ∃ v, v = m+1+(a+b+1)+(k:ℝ) := ⟨_, rfl⟩
    have h0 : w ≠ 0 := ne_of_gt (by linarith)
    have h1 : v ≠ 0 := ne_of_gt (by linarith)
    simp only [iterate_map_add derivative, iterate_derivative_C_mul, eval_add, eval_mul, eval_C,
      iterate_derivative_X_mul_eval_one, e1, e2, e3, e4, ← ht, ← hw, ← hv]
    field_simp
    subst hu ht hw hv
    ring

theorem jacobi_one : jacobi a b 1 = C ((a + b + 2) / 2) * X + C ((a - b) / 2) := by
  unfold jacobi
  rw [sum_range_succ, sum_range_one]
  simp only [gbinom, prod_range_zero, prod_range_one, Nat.sub_zero, Nat.sub_self, pow_zero, pow_one, Nat.factorial]
  refine Polynomial.funext fun x => ?_
  simp
  ring

/-- `P_n` as a combination of derivatives, `n ≥ 1`. -/
theorem jacobi_eq_derivatives (ha : -1 < a) (hb : -1 < b) (m : ℕ) :
    jacobi a b (m+1) =
      C (-(2 * (m + a + 1) * (m + b + 1) / ((2*m + a + b + 3) * (2*m + a + b + 2) * (m + a + b + 1)))) *
        derivative (jacobi a b m) +
      C (2 * (a - b) / ((2*(m+1) + a + b + 2) * (2*(m+1) + a + b))) * derivative (jacobi a b (m+1)) +
      C (2 * ((m+2) + a + b) / ((2*(m+2) + a + b) * (2*(m+2) + a + b - 1))) * derivative (jacobi a b (m+2)) := by
  rcases Nat.eq_zero_or_pos m with rfl | hpos
  · have d2 : derivative (jacobi a b (0+2)) = C ((((0+1 : ℕ):ℝ) + 1 + a + b + 1) / 2) * jacobi (a+1) (b+1) 1 :=
      derivative_jacobi a b 1
    rw [d2, zero_add, jacobi_one, jacobi_one, jacobi_zero]
    obtain ⟨u, hu⟩ : ∃ u, u = 2 + a + b := ⟨_, rfl⟩
    have p1 : u ≠ 0 := ne_of_gt (by linarith)
    have p2 : u + 1 ≠ 0 := ne_of_gt (by linarith)
    have p3 : u + 2 ≠ 0 := ne_of_gt (by linarith)
    refine Polynomial.funext fun x => ?_
    have n1 : ((0:ℕ):ℝ) = 0 := Nat.cast_zero
    have e1 : 2*((0:ℝ)+1) + a + b + 2 = u + 2 := by rw [hu]; ring
    have e2 : 2*((0:ℝ)+1) + a + b = u := by rw [hu]; ring
    have e3 : 2*((0:ℝ)+2) + a + b - 1 = u + 1 := by rw [hu]; ring
    have e4 : 2*((0:ℝ)+2) + a + b = u + 2 := by rw [hu]; ring
    rw [n1, e1, e2, e3, e4]
    simp only [eval_add, eval_mul, eval_C, eval_X, derivative_add, derivative_C_mul, derivative_X, derivative_C,
      derivative_one, eval_zero, eval_one]
    push_cast
    field_simp
    subst hu
    ring
  have hm : (0:ℝ) ≤ m := by positivity
  obtain ⟨u, hu⟩ : ∃ u, u = 2*((m:ℝ)+1) + a + b := ⟨_, rfl⟩
  obtain ⟨t, ht⟩ : ∃ t, t = (m:ℝ)+1+a := ⟨_, rfl⟩
  have p1 : u ≠ 0 := ne_of_gt (by linarith)
  have p2 : u + 1 ≠ 0 := ne_of_gt (by linarith)
  have p3 : u + 2 ≠ 0 := ne_of_gt (by linarith)
  have h2 : t ≠ 0 := ne_of_gt (by linarith)
  have hm2 : (m:ℝ)+2 ≠ 0 := by positivity
  have it1 : ∀ (i : ℕ) (P : ℝ[X]), derivative^[i] (derivative P) = derivative^[i+1] P := fun i P => rfl
  rw [← hu, show 2*(m:ℝ) + a + b + 3 = u + 1 by rw [hu]; ring, show 2*(m:ℝ) + a + b + 2 = u by rw [hu]; ring,
    show 2*((m:ℝ)+2) + a + b - 1 = u + 1 by rw [hu]; ring, show 2*((m:ℝ)+2) + a + b = u + 2 by rw [hu]; ring]
  refine ext_derivatives_one fun k => ?_
  obtain ⟨B, e1, e2, e3, e4⟩ := jacobi_deriv_base a b ha hb m k
  have hk : (0:ℝ) ≤ k := by positivity
  obtain ⟨w, hw⟩ : ∃ w, w = a+1+(k:ℝ) := ⟨_, rfl⟩
  obtain ⟨v, hv⟩ : ∃ v, v = m+1+(a+b+1)+(k:ℝ) := ⟨_, rfl⟩
  obtain ⟨z, hz⟩ : ∃ z, z = m+(a+b+1) := ⟨_, rfl⟩
  have h0 : w ≠ 0 := ne_of_gt (by linarith)
  have h1 : v ≠ 0 := ne_of_gt (by linarith)
  simp only [iterate_map_add derivative, iterate_derivative_C_mul, eval_add, eval_mul, eval_C, it1, e1, e2, e3, e4,
    ← ht, ← hw, ← hv, ← hz]
  rw [show (m:ℝ) + a + b + 1 = z by rw [hz]; ring]
  have hm1 : (1:ℝ) ≤ m := by exact_mod_cast hpos
  have h3 : z ≠ 0 := ne_of_gt (by linarith)
  field_simp
  subst hu ht hw hv hz
  ring

/-- `(1-x²) P_n'` in terms of `P_{n-1}`, `P_n`, `P_{n+1}`, `n ≥ 1`. -/
theorem one_sub_sq_mul_derivative_jacobi (ha : -1 < a) (hb : -1 < b) (m : ℕ) :
    (1 - X^2) * derivative (jacobi a b (m+1)) =
      C (2 * (m + a + 1) * (m + b + 1) * (m + a + b + 2) / ((2*m + a + b + 2) * (2*m + a + b + 3))) * jacobi a b m +
      C (2 * (m+1) * (a - b) * ((m+1) + a + b + 1) / ((2*(m+1) + a + b) * (2*(m+1) + a + b + 2))) * jacobi a b (m+1) +
      C (-(2 * ((m+2) - 1) * (m+2) * ((m+2) + a + b) / ((2*(m+2) + a + b - 1) * (2*(m+2) + a + b)))) * jacobi a b (m+2) := by
  have hm : (0:ℝ) ≤ m := by positivity
  obtain ⟨u, hu⟩ : ∃ u, u = 2*((m:ℝ)+1) + a + b := ⟨_, rfl⟩
  obtain ⟨t, ht⟩ : ∃ t, t = (m:ℝ)+1+a := ⟨_, rfl⟩
  have p1 : u ≠ 0 := ne_of_gt (by linarith)
  have p2 : u + 1 ≠ 0 := ne_of_gt (by linarith)
  have p3 : u + 2 ≠ 0 := ne_of_gt (by linarith)
  have h2 : t ≠ 0 := ne_of_gt (by linarith)
  have hm2 : (m:ℝ)+2 ≠ 0 := by positivity
  have e : (1 - X^2) * derivative (jacobi a b (m+1)) = derivative (jacobi a b (m+1)) - X * (X * derivative (jacobi a b (m+1))) := by
    ring
  have it1 : ∀ (i : ℕ) (P : ℝ[X]), derivative^[i] (derivative P) = derivative^[i+1] P := fun i P => rfl
  rw [e, ← hu, show 2*(m:ℝ) + a + b + 3 = u + 1 by rw [hu]; ring, show 2*(m:ℝ) + a + b + 2 = u by rw [hu]; ring,
    show 2*((m:ℝ)+2) + a + b - 1 = u + 1 by rw [hu]; ring, show 2*((m:ℝ)+2) + a + b = u + 2 by rw [hu]; ring]
  refine ext_derivatives_one fun k => ?_
  rcases k with _ | k
  · obtain ⟨B, e1, e2, e3⟩ := jacobi_eval_base a b ha m
    simp only [Function.iterate_zero, id, eval_add, eval_sub, eval_mul, eval_X, eval_C, e1, e2, e3, ← ht]
    field_simp
    subst hu ht
    ring
  · obtain ⟨B, e1, e2, e3, e4⟩ := jacobi_deriv_base a b ha hb m k
    have e5 := jacobi_deriv_succ a b ha (m+1) (k+1)
    have hk : (0:ℝ) ≤ k := by positivity
    obtain ⟨w, hw⟩ : ∃ w, w = a+1+(k:ℝ) := ⟨_, rfl⟩
    obtain ⟨v, hv⟩ : ∃ v, v = m+1+(a+b+1)+(k:ℝ) := ⟨_, rfl⟩
    have h0 : w ≠ 0 := ne_of_gt (by linarith)
    have h1 : v ≠ 0 := ne_of_gt (by linarith)
    rcases k with _ | k
    · simp only [iterate_map_add derivative, iterate_map_sub derivative, iterate_derivative_C_mul, eval_add, eval_sub, eval_mul, eval_C,
        iterate_derivative_X_mul_eval_one, it1]
      simp only [Function.iterate_zero, Function.iterate_one, zero_add, Function.iterate_succ, Function.comp, id, eval_mul, eval_X] at e1 e2 e3 e4 ⊢
      rw [e1, e2, e3]
      simp only [← ht, ← hw, ← hv]
      field_simp
      subst hu ht hw hv
      push_cast
      ring
    · simp only [iterate_map_add derivative, iterate_map_sub derivative, iterate_derivative_C_mul, eval_add, eval_sub, eval_mul, eval_C,
        iterate_derivative_X_mul_eval_one, it1, e1, e2, e3, e4]
      simp only [← ht, ← hw, ← hv]
      field_simp
      subst hu ht hw hv
      push_cast
      ring

end

end Shenfun.Spec
