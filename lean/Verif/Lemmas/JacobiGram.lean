import Verif.Lemmas.JacobiOrtho
import Verif.Lemmas.StencilBasis

/-!
# Gram matrices of the Jacobi polynomials and their derivatives, completeness, positivity
-/

namespace Shenfun

open Polynomial Spec Finset

/-- Expansion in a family with `deg Q_n = n`. -/
theorem exists_expansion {Q : ℕ → ℝ[X]} (hd : ∀ n, (Q n).degree = n) (n : ℕ) (p : ℝ[X]) (hp : p.degree < n) :
    ∃ c : ℕ → ℝ, p = ∑ i ∈ range n, C (c i) * Q i := by
  induction n generalizing p with
  | zero =>
    have : p = 0 := by
      rw [← degree_eq_bot]
      rw [Nat.cast_zero] at hp
      exact Nat.WithBot.lt_zero_iff.1 hp
    exact ⟨fun _ => 0, by simp [this]⟩
  | succ n ih =>
    have hlc : (Q n).coeff n ≠ 0 := by
      have h := hd n
      intro h0
      exact absurd (degree_lt_iff_coeff_zero (Q n) n |>.2 (fun m hm => by
        rcases eq_or_lt_of_le hm with rfl | hm
        · exact h0
        · exact coeff_eq_zero_of_degree_lt (by rw [h]; exact_mod_cast hm))) (by rw [h]; exact lt_irrefl _)
    obtain ⟨c, hc⟩ := ih (p - C (p.coeff n / (Q n).coeff n) * Q n) (by
      rw [degree_lt_iff_coeff_zero]
      intro m hm
      rw [coeff_sub, coeff_C_mul]
      rcases eq_or_lt_of_le hm with rfl | hm
      · rw [div_mul_cancel₀ _ hlc, sub_self]
      · rw [coeff_eq_zero_of_degree_lt (hp.trans_le (by exact_mod_cast hm)),
          coeff_eq_zero_of_degree_lt (p := Q n) (n := m) (by rw [hd]; exact_mod_cast hm)]
        simp)
    refine ⟨Function.update c n (p.coeff n / (Q n).coeff n), ?_⟩
    rw [sum_range_succ, Function.update_self]
    rw [sum_congr rfl fun i hi => by
      rw [Function.update_of_ne (by have := mem_range.1 hi; omega)], ← hc]
    ring

section

variable {a b : ℝ}

/-- `P_n` is orthogonal to all polynomials of lower degree. -/
theorem jacobi_orthogonal_lower (ha : -1 < a) (hb : -1 < b) (n : ℕ) (p : ℝ[X]) (hp : p.degree < n) :
    wInt a b (p * jacobi a b n) = 0 := by
  obtain ⟨c, rfl⟩ := exists_expansion (degree_jacobi ha hb) n p hp
  rw [sum_mul, wInt_sum ha hb]
  refine sum_eq_zero fun i hi => ?_
  rw [mul_assoc, wInt_C_mul, jacobi_orthogonal ha hb (by have := mem_range.1 hi; omega), mul_zero]

/-- Positive definiteness. -/
theorem wInt_sq_pos (ha : -1 < a) (hb : -1 < b) {p : ℝ[X]} (hp : p ≠ 0) : 0 < wInt a b (p * p) := by
  obtain ⟨n, hn⟩ : ∃ n : ℕ, p.degree < n := ⟨p.natDegree + 1, by
    rw [degree_eq_natDegree hp]; exact_mod_cast Nat.lt_succ_self _⟩
  obtain ⟨c, hc⟩ := exists_expansion (degree_jacobi ha hb) n p hn
  have key : wInt a b (p * p) = ∑ i ∈ range n, c i ^ 2 * wInt a b (jacobi a b i * jacobi a b i) := by
    conv_lhs => rw [hc]
    rw [sum_mul, wInt_sum ha hb]
    refine sum_congr rfl fun i hi => ?_
    rw [mul_sum, wInt_sum ha hb, sum_eq_single i]
    · rw [show C (c i) * jacobi a b i * (C (c i) * jacobi a b i) = C (c i ^ 2) * (jacobi a b i * jacobi a b i) by
        rw [C_pow]; ring, wInt_C_mul]
    · intro j _ hj
      rw [show C (c i) * jacobi a b i * (C (c j) * jacobi a b j) = C (c i * c j) * (jacobi a b i * jacobi a b j) by
        rw [C_mul]; ring, wInt_C_mul, jacobi_orthogonal ha hb (Ne.symm hj), mul_zero]
    · intro h; exact absurd hi h
  rw [key]
  have hex : ∃ i ∈ range n, c i ≠ 0 := by
    by_contra h
    push Not at h
    apply hp
    rw [hc]
    exact sum_eq_zero fun i hi => by rw [h i hi]; simp
  obtain ⟨i, hi, hci⟩ := hex
  refine sum_pos' (fun j _ => mul_nonneg (sq_nonneg _) (jacobi_norm_pos ha hb j).le) ⟨i, hi, ?_⟩
  have := jacobi_norm_pos ha hb i
  positivity

/-- Gram matrix of the derivatives in the raised weight. -/
theorem jacobi_derivative_gram (ha : -1 < a) (hb : -1 < b) (k m n : ℕ) :
    wInt (a+k) (b+k) (derivative^[k] (jacobi a b (m+k)) * derivative^[k] (jacobi a b (n+k))) =
      if m = n then (∏ i ∈ range k, ((n + k + a + b + 1 + i) / 2))^2 *
        wInt (a+k) (b+k) (jacobi (a+k) (b+k) n * jacobi (a+k) (b+k) n) else 0 := by
  have hk : (0:ℝ) ≤ k := by positivity
  rw [iterate_derivative_jacobi, iterate_derivative_jacobi]
  set x := ∏ i ∈ range k, (((m:ℝ) + k + a + b + 1 + i) / 2)
  set y := ∏ i ∈ range k, (((n:ℝ) + k + a + b + 1 + i) / 2) with hy
  rw [show C x * jacobi (a+k) (b+k) m * (C y * jacobi (a+k) (b+k) n) =
    C (x * y) * (jacobi (a+k) (b+k) m * jacobi (a+k) (b+k) n) by rw [C_mul]; ring, wInt_C_mul]
  split_ifs with h
  · subst h; ring
  · rw [jacobi_orthogonal (by linarith) (by linarith) h, mul_zero]

/-- Closed form of the norms, in Gamma functions. -/
theorem jacobi_norm (ha : -1 < a) (hb : -1 < b) (n : ℕ) :
    wInt a b (jacobi a b n * jacobi a b n) * (2*n + a + b + 1) * (n.factorial * Real.Gamma (n + a + b + 2)) =
      2^(a+b+1) * (Real.Gamma (n+a+1) * Real.Gamma (n+b+1)) * (n + a + b + 1) := by
  induction n generalizing a b with
  | zero =>
    have hg := Real.Gamma_pos_of_pos (show 0 < a + b + 2 by linarith)
    rw [jacobi_zero, mul_one, wInt_one ha hb]
    simp only [Nat.factorial_zero, Nat.cast_zero, Nat.cast_one, mul_zero, zero_add]
    field_simp
  | succ n ih =>
    have hn : (0:ℝ) ≤ n := by positivity
    have h := ih (a := a+1) (b := b+1) (by linarith) (by linarith)
    rw [jacobi_norm_succ ha hb, Nat.factorial_succ]
    push_cast
    set W := wInt (a+1) (b+1) (jacobi (a+1) (b+1) n * jacobi (a+1) (b+1) n)
    have g1 : Real.Gamma (n + (a+1) + 1) = Real.Gamma (n + 1 + a + 1) := by congr 1; ring
    have g2 : Real.Gamma (n + (b+1) + 1) = Real.Gamma (n + 1 + b + 1) := by congr 1; ring
    have g3 : Real.Gamma (n + (a+1) + (b+1) + 2) = (n + 1 + a + b + 2) * Real.Gamma (n + 1 + a + b + 2) := by
      rw [← Real.Gamma_add_one (ne_of_gt (by linarith))]; congr 1; ring
    have g4 : (2:ℝ)^(a+1+(b+1)+1) = 2^(a+b+1) * 4 := by
      rw [show a+1+(b+1)+1 = a+b+1+2 by ring, Real.rpow_add (by norm_num)]; norm_num
    rw [g1, g2, g3, g4] at h
    set G := Real.Gamma (n + 1 + a + 1) * Real.Gamma (n + 1 + b + 1)
    set G3 := Real.Gamma (n + 1 + a + b + 2)
    set T := (2:ℝ)^(a+b+1)
    have hp : (n:ℝ) + 1 + a + b + 2 ≠ 0 := ne_of_gt (by linarith)
    have hp2 : (n:ℝ) + 1 ≠ 0 := by positivity
    rw [show (n:ℝ) + (a+1) + (b+1) + 1 = n + 1 + a + b + 2 by ring] at h
    have h' : W * (2 * n + (a+1) + (b+1) + 1) * (n.factorial * G3) = T * 4 * G := by
      apply mul_right_cancel₀ hp
      linear_combination h
    rw [div_mul_eq_mul_div, div_mul_eq_mul_div, div_mul_eq_mul_div, div_eq_iff (by positivity)]
    linear_combination (n + 1 + a + b + 1) * (n+1) * h'

/-- `P_n(1)` in Gamma functions. -/
theorem gbinom_Gamma (ha : -1 < a) (n : ℕ) :
    gbinom (n + a) n * (Real.Gamma (a+1) * n.factorial) = Real.Gamma (n + a + 1) := by
  induction n with
  | zero => simp [gbinom_zero]
  | succ n ih =>
    have hn : (0:ℝ) ≤ n := by positivity
    have h := gbinom_succ_succ ((n:ℝ) + a) n
    have g : Real.Gamma ((n+1 : ℕ) + a + 1) = (n + a + 1) * Real.Gamma (n + a + 1) := by
      rw [← Real.Gamma_add_one (ne_of_gt (by linarith))]; congr 1; push_cast; ring
    rw [g, ← ih, Nat.factorial_succ]
    push_cast
    rw [show (n:ℝ) + 1 + a = n + a + 1 by ring]
    linear_combination Real.Gamma (a+1) * n.factorial * h

end

end Shenfun
