import Verif.Props.GaussTransforms

/-!
# Legendre Gauss-Lobatto quadrature: the identities behind `/repo/shenfun/legendre/lobatto.py`
-/

namespace Shenfun

open Real Spec Polynomial Finset

/-- Parity of the Legendre polynomials. -/
theorem legP_comp_neg (n : ℕ) : (legP n).comp (-X) = C ((-1:ℝ)^n) * legP n := by
  induction n using Nat.strong_induction_on with
  | _ n ih =>
    rcases n with _ | _ | n
    · simp [legP_zero]
    · simp [legP_one]
    · have h := legP_bonnet n
      have h2 := congrArg (fun p => p.comp (-X)) h
      simp only [mul_comp, C_comp, sub_comp, X_comp, ih n (by omega), ih (n+1) (by omega)] at h2
      have hC : (C ((n:ℝ)+2)) ≠ 0 := by rw [Ne, C_eq_zero]; positivity
      refine mul_left_cancel₀ hC ?_
      rw [h2]
      have e1 : C ((-1:ℝ)^(n+1)) = - C ((-1:ℝ)^n) := by rw [pow_succ, mul_neg_one, C_neg]
      have e2 : C ((-1:ℝ)^(n+1+1)) = C ((-1:ℝ)^n) := by rw [pow_succ, pow_succ]; simp
      rw [e1, e2]
      linear_combination (-C ((-1:ℝ)^n)) * h

theorem derivative_legP_eval_neg (n : ℕ) (t : ℝ) :
    (derivative (legP n)).eval (-t) = -(-1)^n * (derivative (legP n)).eval t := by
  have h := congrArg (fun p => (derivative p).eval t) (legP_comp_neg n)
  simp only [derivative_comp, derivative_neg, derivative_X, eval_mul, eval_comp, eval_neg, eval_X, eval_one, derivative_C_mul,
    eval_C] at h
  linear_combination -h

/-- `Σ_{k<n} (2k+1) P_k² = n² P_n² + (1-x²) P_n'²`. -/
theorem legP_sum_sq (n : ℕ) :
    ∑ k ∈ range n, C (2*(k:ℝ)+1) * legP k ^ 2 = C ((n:ℝ)^2) * legP n ^ 2 + (1 - X^2) * derivative (legP n) ^ 2 := by
  induction n with
  | zero => simp [legP_zero]
  | succ n ih =>
    rw [sum_range_succ, ih]
    have h1 := (legP_AB n).1
    have h2 := (legP_AB n).2
    have e : C ((n:ℝ)+1) * legP (n+1) = C ((n:ℝ)+1) * X * legP n - (1 - X^2) * derivative (legP n) := by
      linear_combination X * h1 - h2
    have d : derivative (legP (n+1)) = X * derivative (legP n) + C ((n:ℝ)+1) * legP n := by linear_combination h1
    have e3 : C (((n+1 : ℕ):ℝ)^2) * legP (n+1)^2 = (C ((n:ℝ)+1) * legP (n+1))^2 := by
      push_cast; rw [mul_pow, ← C_pow]
    rw [e3, e, d]
    simp only [C_add, C_mul, C_1, C_pow, show C (2:ℝ) = 2 from rfl]
    ring

/-- A rule at the end points and the roots of `P_n'`, with any weights. -/
def LobattoNodes (n : ℕ) (x : ℕ → ℝ) : Prop :=
  (∀ i < n + 1, ∀ j < n + 1, x i = x j → i = j) ∧
  ∀ j < n + 1, ((1 - X^2) * derivative (legP n)).eval (x j) = 0

/-- Interpolatory weights on distinct nodes whose nodal polynomial is orthogonal to the polynomials of degree below `d` are
exact up to `M + d`. -/
theorem exactRule_of_nodal {a b : ℝ} (ha : -1 < a) (hb : -1 < b) {M d : ℕ} (hd : d ≤ M) {x : ℕ → ℝ}
    (hinj : Set.InjOn x (range M))
    (ho : ∀ q : ℝ[X], q.degree < d → wInt a b (Lagrange.nodal (range M) x * q) = 0) :
    ExactRule a b x (fun j => wInt a b (Lagrange.basis (range M) x j)) M (M + d) := by
  classical
  intro p hp
  set Om := Lagrange.nodal (range M) x with hOm
  have hmon : Om.Monic := Lagrange.nodal_monic
  have hdOm : Om.degree = (M : WithBot ℕ) := by rw [hOm, Lagrange.degree_nodal, card_range]
  have hdiv := modByMonic_add_div p Om
  set r := p %ₘ Om
  set q := p /ₘ Om
  have hr : r.degree < (M : WithBot ℕ) := hdOm ▸ degree_modByMonic_lt p hmon
  have hq : q.degree < (d : WithBot ℕ) := by
    by_cases hq0 : q = 0
    · rw [hq0, degree_zero]; exact WithBot.bot_lt_coe _
    have hqd : (Om * q).degree = ((M + q.natDegree : ℕ) : WithBot ℕ) := by
      rw [degree_mul, hdOm, degree_eq_natDegree hq0]; rfl
    have : (Om * q).degree < ((M + d : ℕ) : WithBot ℕ) := by
      have e : Om * q = p - r := by rw [← hdiv]; ring
      rw [e]
      refine lt_of_le_of_lt (degree_sub_le _ _) (max_lt hp (lt_of_lt_of_le hr ?_))
      exact_mod_cast (by omega)
    rw [hqd] at this
    have : M + q.natDegree < M + d := by exact_mod_cast this
    rw [degree_eq_natDegree hq0]
    exact_mod_cast (by omega)
  have hint : ∑ j ∈ range M, C (r.eval (x j)) * Lagrange.basis (range M) x j = r := by
    have := Lagrange.eq_interpolate hinj (f := r) (by rw [card_range]; exact hr)
    conv_rhs => rw [this]
    rw [Lagrange.interpolate_apply]
  have hval : ∀ j ∈ range M, p.eval (x j) = r.eval (x j) := by
    intro j hj
    rw [← hdiv, eval_add, eval_mul, hOm, Lagrange.eval_nodal_at_node hj, zero_mul, add_zero]
  have hp2 : wInt a b p = wInt a b r := by
    rw [← hdiv, wInt_add ha hb, ho q hq, add_zero]
  rw [hp2, ← hint, wInt_sum ha hb]
  refine sum_congr rfl fun j hj => ?_
  rw [wInt_C_mul, hval j hj, mul_comm]

/-- A polynomial of degree `M` that vanishes at `M` distinct nodes is a multiple of their nodal polynomial. -/
theorem eq_C_mul_nodal {M : ℕ} {x : ℕ → ℝ} (hinj : Set.InjOn x (range M)) {W : ℝ[X]} (hW : W.degree = M)
    (h0 : ∀ j < M, W.eval (x j) = 0) : ∃ c : ℝ, c ≠ 0 ∧ W = C c * Lagrange.nodal (range M) x := by
  classical
  set Om := Lagrange.nodal (range M) x with hOm
  have hdOm : Om.degree = (M : WithBot ℕ) := by rw [hOm, Lagrange.degree_nodal, card_range]
  have hdvd : Om ∣ W := by
    have : (range M).prod (fun i => X - C (x i)) ∣ W := by
      refine Finset.prod_dvd_of_coprime ?_ ?_
      · intro i hi j hj hij
        exact isCoprime_X_sub_C_of_isUnit_sub (sub_ne_zero.2 fun h => hij (hinj hi hj h)).isUnit
      · intro i hi
        rw [dvd_iff_isRoot]
        exact h0 i (mem_range.1 hi)
    exact this
  obtain ⟨V, hV⟩ := hdvd
  have hV0 : V ≠ 0 := by
    rintro rfl
    rw [mul_zero] at hV
    rw [hV, degree_zero] at hW
    exact WithBot.bot_ne_coe hW
  have hVdeg : V.natDegree = 0 := by
    rw [hV, degree_mul, hdOm, degree_eq_natDegree hV0] at hW
    have : M + V.natDegree = M := by exact_mod_cast hW
    omega
  refine ⟨V.coeff 0, fun h => hV0 ?_, ?_⟩
  · rw [eq_C_of_natDegree_eq_zero hVdeg, h, C_0]
  · rw [← eq_C_of_natDegree_eq_zero hVdeg, mul_comm]
    exact hV

/-- Distinct nodes carry a rule that is exact up to `2n-1`, when they are the zeros of `(1-x²)P_n'`. -/
theorem lobatto_exists_weights {n : ℕ} (hn : 1 ≤ n) {x : ℕ → ℝ} (hx : LobattoNodes n x) :
    ∃ w : ℕ → ℝ, ExactRule 0 0 x w (n+1) (2*n) := by
  have hinj : Set.InjOn x (range (n+1)) :=
    fun i hi j hj h => hx.1 i (by simpa using hi) j (by simpa using hj) h
  obtain ⟨m, rfl⟩ : ∃ m, n = m + 1 := ⟨n - 1, by omega⟩
  have hder : derivative (legP (m+1)) = C (((m:ℝ) + 2)/2) * jacobi 1 1 m := by
    have := derivative_jacobi 0 0 m
    unfold legP
    rw [this]; norm_num; left; ring_nf
  set W : ℝ[X] := (1 - X^2) * derivative (legP (m+1)) with hW
  have hWdeg : W.degree = ((m+1+1 : ℕ) : WithBot ℕ) := by
    rw [hW, hder, degree_mul, degree_C_mul (by positivity), degree_jacobi (by norm_num) (by norm_num)]
    have : (1 - X^2 : ℝ[X]).degree = 2 := by
      rw [← neg_sub, degree_neg]
      exact degree_X_pow_sub_C (by norm_num) 1
    rw [this]
    push_cast
    rw [add_comm, add_assoc]
    rfl
  obtain ⟨c, hc0, hc⟩ := eq_C_mul_nodal hinj hWdeg hx.2
  have := exactRule_of_nodal (a := 0) (b := 0) (by norm_num) (by norm_num) (M := m+1+1) (d := m) (by omega) hinj fun q hq => by
    have h1 : wInt 0 0 (W * q) = 0 := by
      rw [hW, hder]
      have := wInt_succ (a := 0) (b := 0) (by norm_num) (by norm_num) (C (((m:ℝ) + 2)/2) * jacobi 1 1 m * q)
      rw [← mul_assoc] at this
      rw [← this, zero_add, show C (((m:ℝ) + 2)/2) * jacobi 1 1 m * q = C (((m:ℝ) + 2)/2) * (q * jacobi 1 1 m) by ring,
        wInt_C_mul, jacobi_orthogonal_lower (by norm_num) (by norm_num) m q hq, mul_zero]
    rw [hc, mul_assoc, wInt_C_mul] at h1
    exact (mul_eq_zero.1 h1).resolve_left hc0
  exact ⟨_, by rwa [show m + 1 + 1 + m = 2 * (m+1) by ring] at this⟩

/-- The discrete norms of every exact rule on the Lobatto nodes. -/
theorem lobatto_norms {n : ℕ} (hn : 1 ≤ n) {x w : ℕ → ℝ} (hx : LobattoNodes n x) (hw : ExactRule 0 0 x w (n+1) (2*n)) :
    DiscreteNorms x w (n+1) (n+1) legP (legNormSq true (n+1)) := by
  intro k hk m hm
  by_cases hkm : k + m < 2 * n
  · have hd : (legP k * legP m).degree < ((2*n : ℕ) : WithBot ℕ) := by
      rw [degree_mul, degree_legP, degree_legP]
      exact_mod_cast hkm
    have := hw _ hd
    simp only [eval_mul] at this
    rw [this, C51_legendre k m]
    split_ifs with e
    · subst e
      unfold legNormSq legL2
      rw [if_neg (by omega)]
    · rfl
  · obtain rfl : k = n := by omega
    obtain rfl : m = k := by omega
    rw [if_pos rfl]
    unfold legNormSq
    rw [if_pos ⟨rfl, by omega⟩]
    have hdeg : (∑ i ∈ range m, C (2*(i:ℝ)+1) * legP i ^ 2).degree < ((2*m : ℕ) : WithBot ℕ) := by
      rw [← mem_degreeLT]
      refine Submodule.sum_mem _ fun i hi => ?_
      rw [← smul_eq_C_mul]
      refine Submodule.smul_mem _ _ ?_
      rw [mem_degreeLT, sq, degree_mul, degree_legP]
      have := mem_range.1 hi
      exact_mod_cast (by omega)
    have h := hw _ hdeg
    rw [wInt_sum (by norm_num) (by norm_num)] at h
    have e : ∀ i ∈ range m, wInt 0 0 (C (2*(i:ℝ)+1) * legP i ^ 2) = 2 := by
      intro i _
      rw [wInt_C_mul, sq, C51_legendre i i, if_pos rfl]
      unfold legL2
      field_simp
    rw [sum_congr rfl e, sum_const, card_range, nsmul_eq_mul, legP_sum_sq] at h
    have e2 : ∀ j ∈ range (m+1), w j * (C ((m:ℝ)^2) * legP m ^ 2 + (1 - X^2) * derivative (legP m) ^ 2).eval (x j) =
        (m:ℝ)^2 * (w j * ((legP m).eval (x j) * (legP m).eval (x j))) := by
      intro j hj
      have h0 := hx.2 j (mem_range.1 hj)
      simp only [eval_add, eval_mul, eval_pow, eval_C, eval_sub, eval_one, eval_X] at h0 ⊢
      linear_combination w j * (derivative (legP m)).eval (x j) * h0
    rw [sum_congr rfl e2, ← mul_sum] at h
    have hm0 : (m:ℝ) ≠ 0 := by exact_mod_cast (by omega)
    push_cast
    rw [show (m:ℝ) + 1 - 1 = m by ring, eq_div_iff hm0]
    refine mul_left_cancel₀ hm0 ?_
    linear_combination h

theorem legNormSq_ne {n : ℕ} (hn : 1 ≤ n) (k : ℕ) : legNormSq true (n+1) k ≠ 0 := by
  unfold legNormSq
  have : (0:ℝ) < n := by exact_mod_cast hn
  split_ifs
  · push_cast; rw [add_sub_cancel_right]; positivity
  · positivity

/-- The weights of the exact rule are those of the code. -/
theorem lobatto_weights {n : ℕ} (hn : 1 ≤ n) {x w : ℕ → ℝ} (hx : LobattoNodes n x) (hw : ExactRule 0 0 x w (n+1) (2*n))
    (j : ℕ) (hj : j < n + 1) : w j = lobattoW (n+1) x j := by
  have hk := kernel_eq_one (lobatto_norms hn hx hw) (fun k _ => legNormSq_ne hn k) j j hj hj
  rw [if_pos rfl] at hk
  have hn0 : (0:ℝ) < n := by exact_mod_cast hn
  have h1 : ∑ k ∈ range (n+1), (legP k).eval (x j) * (w j * (legP k).eval (x j) / legNormSq true (n+1) k) =
      w j / 2 * ((n:ℝ) * (n+1) * (legP n).eval (x j) ^ 2) := by
    rw [sum_range_succ, sum_congr rfl (g := fun k : ℕ => w j / 2 * (C (2*(k:ℝ)+1) * legP k ^ 2).eval (x j)) fun k hk => by
      have := mem_range.1 hk
      unfold legNormSq
      rw [if_neg (by omega)]
      simp only [eval_mul, eval_C, eval_pow]
      field_simp, ← mul_sum, ← eval_finsetSum, legP_sum_sq]
    have h0 := hx.2 j hj
    unfold legNormSq
    rw [if_pos ⟨rfl, by omega⟩]
    push_cast
    rw [show (n:ℝ) + 1 - 1 = n by ring]
    simp only [eval_add, eval_mul, eval_pow, eval_C, eval_sub, eval_one, eval_X] at h0 ⊢
    field_simp
    linear_combination w j * (derivative (legP n)).eval (x j) * h0
  rw [h1] at hk
  unfold lobattoW
  rw [show n + 1 - 1 = n by omega]
  push_cast
  rw [show (n:ℝ) + 1 - 1 = n by ring]
  have hne : (n:ℝ) * (n+1) * (legP n).eval (x j) ^ 2 ≠ 0 := by
    intro h
    rw [h, mul_zero] at hk
    exact zero_ne_one hk
  rw [show ((n:ℝ) + 1) * n * (legP n).eval (x j) ^ 2 = n * (n+1) * (legP n).eval (x j) ^ 2 by ring, eq_div_iff hne]
  linear_combination 2 * hk

end Shenfun
