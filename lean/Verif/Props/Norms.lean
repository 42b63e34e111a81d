import Verif.Model.Recursions
import Verif.Lemmas.JacobiGram

/-!
# C51: orthogonality and norms of the families
-/

namespace Shenfun

open Polynomial Spec

/-- For equal parameters the weight is `(1 - x²)^a`. -/
theorem wInt_symm (a : ℝ) (p : ℝ[X]) : wInt a a p = ∫ x in (-1:ℝ)..1, (1 - x^2)^a * p.eval x := by
  unfold wInt
  refine intervalIntegral.integral_congr fun x hx => ?_
  rw [Set.uIcc_of_le (by norm_num)] at hx
  have e : (1 - x^2) = (1-x) * (1+x) := by ring
  simp only [e]
  rw [Real.mul_rpow (by linarith [hx.2]) (by linarith [hx.1])]

/-- The Legendre inner product has no weight. -/
theorem wInt_zero_zero (p : ℝ[X]) : wInt 0 0 p = ∫ x in (-1:ℝ)..1, p.eval x := by
  unfold wInt; simp

/-- The family `Q` is orthogonal with weight `(1-x)^a (1+x)^b` and squared norms `h`. -/
def OrthogonalWith (a b : ℝ) (Q : ℕ → ℝ[X]) (h : ℕ → ℝ) : Prop :=
  ∀ m n, wInt a b (Q m * Q n) = if m = n then h n else 0

theorem orthogonalWith_smul {a b : ℝ} {g : ℕ → ℝ} {h : ℕ → ℝ} (ha : -1 < a) (hb : -1 < b)
    (hh : ∀ n, g n ^ 2 * wInt a b (jacobi a b n * jacobi a b n) = h n) :
    OrthogonalWith a b (fun n => C (g n) * jacobi a b n) h := by
  intro m n
  rw [show C (g m) * jacobi a b m * (C (g n) * jacobi a b n) = C (g m * g n) * (jacobi a b m * jacobi a b n) by
    rw [C_mul]; ring, wInt_C_mul]
  split_ifs with e
  · subst e; rw [← hh]; ring
  · rw [jacobi_orthogonal ha hb e, mul_zero]

theorem gammaF_eq {a b : ℝ} (ha : -1 < a) (hb : -1 < b) (n : ℕ) (hn : n ≠ 0 ∨ a + b + 1 ≠ 0) :
    gammaF a b n = wInt a b (jacobi a b n * jacobi a b n) := by
  have hn0 : (0:ℝ) ≤ n := by positivity
  have hp1 : (n:ℝ) + a + b + 1 ≠ 0 := by
    rcases hn with h | h
    · have : (1:ℝ) ≤ n := by exact_mod_cast Nat.one_le_iff_ne_zero.2 h
      exact ne_of_gt (by linarith)
    · rcases Nat.eq_zero_or_pos n with rfl | hpos
      · simpa using h
      · have : (1:ℝ) ≤ n := by exact_mod_cast hpos
        exact ne_of_gt (by linarith)
  have hp2 : 2*(n:ℝ) + a + b + 1 ≠ 0 := by
    rcases Nat.eq_zero_or_pos n with rfl | hpos
    · simpa using hp1
    · have : (1:ℝ) ≤ n := by exact_mod_cast hpos
      exact ne_of_gt (by linarith)
  have g1 : Real.Gamma (n + a + b + 2) = (n + a + b + 1) * Real.Gamma (n + a + b + 1) := by
    rw [← Real.Gamma_add_one hp1]; congr 1; ring
  have g2 : 0 < Real.Gamma (n + a + b + 2) := Real.Gamma_pos_of_pos (by linarith)
  have g3 : Real.Gamma (n + a + b + 1) ≠ 0 := fun h => by rw [g1, h, mul_zero] at g2; exact lt_irrefl _ g2
  have g4 : 0 < Real.Gamma (n + b + 1) := Real.Gamma_pos_of_pos (by linarith)
  have hf : (n.factorial : ℝ) ≠ 0 := by positivity
  have key := jacobi_norm ha hb n
  unfold gammaF rfReal
  rw [Real.Gamma_nat_eq_factorial, show (n:ℝ) + 1 + a = n + a + 1 by ring, show (n:ℝ) + b + 1 + a = n + a + b + 1 by ring]
  rw [g1] at key
  rw [div_eq_iff hp2]
  have key2 : wInt a b (jacobi a b n * jacobi a b n) * (2*n + a + b + 1) * (n.factorial * Real.Gamma (n + a + b + 1)) =
      2^(a+b+1) * (Real.Gamma (n+a+1) * Real.Gamma (n+b+1)) := by
    apply mul_right_cancel₀ hp1
    linear_combination key
  rw [div_div_div_eq, div_mul_eq_mul_div, div_eq_iff (by positivity)]
  linear_combination -key2

/-- **C51** Jacobi: the functions are orthogonal with weight `(1-x)^alpha (1+x)^beta` and `L2_norm_sq(i)` is their
squared norm, for all parameters greater than -1 with `alpha + beta ≠ -1`. -/
theorem C51_jacobi_partial {a b : ℝ} (ha : -1 < a) (hb : -1 < b) (hab : a + b ≠ -1) :
    OrthogonalWith a b (jacobi a b) (jacobiL2 a b) := by
  have := orthogonalWith_smul (g := fun _ => 1) (h := jacobiL2 a b) ha hb fun n => by
    have := gammaF_eq ha hb n (Or.inr fun h => hab (by linarith))
    simp [jacobiL2, hF, psiF, rf, this]
  intro m n
  simpa using this m n

/-- **C51** norms of all derivatives: `h(alf, bet, n, k, gn)` is the squared norm of `∂^k Q_n` in the weight with
parameters raised by `k`, and derivatives of different functions are orthogonal. -/
theorem C51_h {a b : ℝ} (ha : -1 < a) (hb : -1 < b) (gn : ℕ → ℝ) (k m n : ℕ) (hm : k ≤ m) (hn : k ≤ n)
    (h0 : n ≠ 0 ∨ a + b ≠ -1) :
    wInt (a+k) (b+k) (derivative^[k] (C (gn m) * jacobi a b m) * derivative^[k] (C (gn n) * jacobi a b n)) =
      if m = n then hF a b n k gn else 0 := by
  obtain ⟨m, rfl⟩ := Nat.exists_eq_add_of_le' hm
  obtain ⟨n, rfl⟩ := Nat.exists_eq_add_of_le' hn
  have hk : (0:ℝ) ≤ k := by positivity
  rw [iterate_derivative_C_mul, iterate_derivative_C_mul,
    show ∀ x y : ℝ, ∀ p q : ℝ[X], C x * p * (C y * q) = C (x * y) * (p * q) by intros; rw [C_mul]; ring, wInt_C_mul,
    jacobi_derivative_gram ha hb]
  by_cases h : m = n
  · subst h
    rw [if_pos rfl, if_pos rfl]
    have hg := gammaF_eq (a := a+k) (b := b+k) (by linarith) (by linarith) m (by
      rcases Nat.eq_zero_or_pos m with rfl | hpos
      · right
        rcases Nat.eq_zero_or_pos k with rfl | hkp
        · rcases h0 with h0 | h0
          · simp at h0
          · simp only [Nat.cast_zero, add_zero]; intro h; exact h0 (by linarith)
        · have : (1:ℝ) ≤ k := by exact_mod_cast hkp
          exact ne_of_gt (by linarith)
      · left; omega)
    unfold hF
    rw [Nat.add_sub_cancel, hg]
    unfold psiF rf
    rw [Finset.prod_div_distrib]
    push_cast
    simp only [Finset.prod_const, Finset.card_range]
    ring
  · rw [if_neg h, if_neg (by omega), mul_zero]

/-- **C51** Legendre: orthogonal, `L2_norm_sq(i) = 2/(2i+1)`. -/
theorem C51_legendre : OrthogonalWith 0 0 legP legL2 := by
  have := orthogonalWith_smul (a := 0) (b := 0) (g := fun _ => 1) (h := legL2) (by norm_num) (by norm_num) fun n => by
    have hk := jacobi_norm (a := 0) (b := 0) (by norm_num) (by norm_num) n
    have e : Real.Gamma (n + 0 + 0 + 2) = (n+1) * n.factorial := by
      rw [show (n:ℝ) + 0 + 0 + 2 = (n + 1 : ℕ) + 1 by push_cast; ring, Real.Gamma_nat_eq_factorial, Nat.factorial_succ]
      push_cast; ring
    rw [e] at hk
    simp only [add_zero, zero_add, Real.Gamma_nat_eq_factorial, Real.rpow_one] at hk
    have hf : (n.factorial : ℝ) ≠ 0 := by positivity
    have h1 : (n:ℝ) + 1 ≠ 0 := by positivity
    have h2 : 2 * (n:ℝ) + 1 ≠ 0 := by positivity
    rw [one_pow, one_mul, legL2, eq_div_iff h2]
    apply mul_right_cancel₀ (mul_ne_zero hf (mul_ne_zero h1 hf))
    linear_combination hk
  intro m n
  simpa [legP] using this m n

/-- **C51** Chebyshev polynomials of the first kind: orthogonal with weight `(1-x²)^(-1/2)`, `L2_norm_sq(0) = π` and
`L2_norm_sq(i) = π/2`. -/
theorem C51_chebyshev : OrthogonalWith (-(1/2)) (-(1/2)) chebT chebL2 := by
  have := orthogonalWith_smul (a := -(1/2)) (b := -(1/2)) (g := fun n => 1 / gbinom (n + -(1/2)) n) (h := chebL2)
    (by norm_num) (by norm_num) fun n => by
    have hg := gbinom_pos (-(1/2)) (by norm_num) n
    rcases Nat.eq_zero_or_pos n with rfl | hpos
    · rw [jacobi_zero, mul_one, wInt_one (by norm_num) (by norm_num)]
      norm_num [gbinom_zero, chebL2, Real.Gamma_one_half_eq, Real.Gamma_one, Real.mul_self_sqrt Real.pi_pos.le]
    · have hk := jacobi_norm (a := -(1/2)) (b := -(1/2)) (by norm_num) (by norm_num) n
      have hG := gbinom_Gamma (a := -(1/2)) (by norm_num) n
      have e : Real.Gamma (n + -(1/2) + -(1/2) + 2) = n.factorial := by
        rw [show (n:ℝ) + -(1/2) + -(1/2) + 2 = n + 1 by ring, Real.Gamma_nat_eq_factorial]
      rw [e, ← hG, show (-(1/2):ℝ) + 1 = 1/2 by norm_num, Real.Gamma_one_half_eq] at hk
      rw [show (-(1/2):ℝ) + -(1/2) + 1 = 0 by norm_num, Real.rpow_zero] at hk
      set g := gbinom (n + -(1/2)) n
      have hf : (n.factorial : ℝ) ≠ 0 := by positivity
      have h1 : (n:ℝ) ≠ 0 := by positivity
      have hpi : √Real.pi ^ 2 = Real.pi := Real.sq_sqrt Real.pi_pos.le
      rw [chebL2, if_neg hpos.ne', add_zero, one_mul, div_pow, one_pow, div_mul_eq_mul_div, one_mul, div_eq_iff (by positivity)]
      apply mul_right_cancel₀ (mul_ne_zero h1 (mul_ne_zero hf hf))
      have key : 2 * n * wInt (-(1/2)) (-(1/2)) (jacobi (-(1/2)) (-(1/2)) n * jacobi (-(1/2)) (-(1/2)) n) * (n.factorial * n.factorial) =
          g^2 * √Real.pi^2 * (n.factorial * n.factorial) * n := by linear_combination hk
      rw [hpi] at key
      linear_combination key / 2
  intro m n
  have := this m n
  simp only [← chebyshevT_eq_jacobi] at this
  exact this

/-- **C51** Chebyshev polynomials of the second kind: orthogonal with weight `(1-x²)^(1/2)`, `L2_norm_sq(i) = π/2`. -/
theorem C51_chebyshevu : OrthogonalWith (1/2) (1/2) chebU chebuL2 := by
  have := orthogonalWith_smul (a := 1/2) (b := 1/2) (g := fun n => (n+1) / gbinom (n + 1/2) n) (h := chebuL2)
    (by norm_num) (by norm_num) fun n => by
    have hg := gbinom_pos (1/2) (by norm_num) n
    have hk := jacobi_norm (a := 1/2) (b := 1/2) (by norm_num) (by norm_num) n
    have hG := gbinom_Gamma (a := 1/2) (by norm_num) n
    have e : Real.Gamma (n + 1/2 + 1/2 + 2) = (n+2) * ((n+1) * n.factorial) := by
      rw [show (n:ℝ) + 1/2 + 1/2 + 2 = (n + 2 : ℕ) + 1 by push_cast; ring, Real.Gamma_nat_eq_factorial, Nat.factorial_succ,
        Nat.factorial_succ]
      push_cast; ring
    have e2 : Real.Gamma (1/2 + 1) = √Real.pi / 2 := by
      rw [Real.Gamma_add_one (by norm_num), Real.Gamma_one_half_eq]; ring
    rw [e, ← hG, e2] at hk
    rw [show (1/2:ℝ) + 1/2 + 1 = 2 by norm_num, show (2:ℝ)^(2:ℝ) = 4 by norm_num] at hk
    set g := gbinom (n + 1/2) n
    have hf : (n.factorial : ℝ) ≠ 0 := by positivity
    have h1 : (n:ℝ) + 1 ≠ 0 := by positivity
    have h2 : (n:ℝ) + 2 ≠ 0 := by positivity
    have hpi : √Real.pi ^ 2 = Real.pi := Real.sq_sqrt Real.pi_pos.le
    rw [chebuL2, div_pow, div_mul_eq_mul_div, div_eq_iff (by positivity)]
    apply mul_right_cancel₀ (mul_ne_zero h2 (mul_ne_zero hf hf))
    have key : 2 * (n+1)^2 * wInt (1/2) (1/2) (jacobi (1/2) (1/2) n * jacobi (1/2) (1/2) n) * ((n+2) * (n.factorial * n.factorial)) =
        g^2 * √Real.pi^2 * ((n+2) * (n.factorial * n.factorial)) := by linear_combination hk
    rw [hpi] at key
    linear_combination key / 2
  intro m n
  have := this m n
  simp only [← chebyshevU_eq_jacobi] at this
  exact this

/-- **C51** ultraspherical, all `alpha > -1` (including the Chebyshev case `alpha = -1/2`). -/
theorem C51_ultraspherical {a : ℝ} (ha : -1 < a) : OrthogonalWith a a (ultraQ a) (ultraL2 a) := by
  refine orthogonalWith_smul ha ha fun n => ?_
  unfold ultraL2
  split_ifs with h
  · subst h
    rw [jacobi_zero, mul_one, wInt_one ha ha]
    simp
  · have := gammaF_eq ha ha n (Or.inl h)
    simp [hF, psiF, rf, this, cnF]

/-- **C51** Gegenbauer, all `lambda > -1/2`. -/
theorem C51_gegenbauer {a : ℝ} (ha : -1 < a) : OrthogonalWith a a (gegenC a) (gegenL2 a) := by
  refine orthogonalWith_smul ha ha fun n => ?_
  unfold gegenL2
  split_ifs with h
  · subst h
    rw [jacobi_zero, mul_one, wInt_one ha ha]
    simp [rf]
  · have := gammaF_eq ha ha n (Or.inl h)
    simp [hF, psiF, rf, this, wnF]

example : OrthogonalWith 1 2 (jacobi 1 2) (jacobiL2 1 2) :=
  C51_jacobi_partial (by norm_num) (by norm_num) (by norm_num)

/-- The norms are positive, so every family is a basis of the polynomials in which coefficients can be found by inner
products. -/
theorem C51_coefficients {a b : ℝ} (ha : -1 < a) (hb : -1 < b) {Q : ℕ → ℝ[X]} {h : ℕ → ℝ} (hO : OrthogonalWith a b Q h)
    (hd : ∀ n, (Q n).degree = n) (N : ℕ) (p : ℝ[X]) (hp : p.degree < N) :
    p = ∑ i ∈ Finset.range N, C (wInt a b (p * Q i) / h i) * Q i := by
  obtain ⟨c, hc⟩ := exists_expansion hd N p hp
  have hpos : ∀ n, 0 < h n := fun n => by
    have := wInt_sq_pos ha hb (p := Q n) (fun h0 => by have := hd n; rw [h0, degree_zero] at this; exact absurd this (by simp))
    rwa [hO, if_pos rfl] at this
  conv_lhs => rw [hc]
  refine Finset.sum_congr rfl fun i hi => ?_
  congr 2
  rw [eq_div_iff (hpos i).ne', hc, Finset.sum_mul, wInt_sum ha hb, Finset.sum_eq_single i]
  · rw [mul_assoc, wInt_C_mul, hO, if_pos rfl]
  · intro j _ hj
    rw [mul_assoc, wInt_C_mul, hO, if_neg hj, mul_zero]
  · intro h; exact absurd hi h

end Shenfun
