import Verif.Props.ChebTransforms
import Verif.Props.Norms
import Verif.Spec.Quadrature

/-!
# C62: quadrature of the Chebyshev spaces
-/

namespace Shenfun

open Real Spec Polynomial

/-- A rule exact for the Chebyshev polynomials `T_k`, `k < D`, is exact for all polynomials of degree below `D`. -/
theorem exactRule_of_T {a b : ℝ} (ha : -1 < a) (hb : -1 < b) {x w : ℕ → ℝ} {N D : ℕ}
    (h : ∀ k < D, ∑ j ∈ Finset.range N, w j * (chebT k).eval (x j) = wInt a b (chebT k)) : ExactRule a b x w N D := by
  intro p hp
  rcases Nat.eq_zero_or_pos D with rfl | hD
  · have : p = 0 := by
      rw [← degree_eq_bot]
      by_contra hne
      rw [degree_eq_natDegree (fun h0 => hne (by rw [h0, degree_zero]))] at hp
      exact absurd (WithBot.coe_lt_coe.1 hp) (by omega)
    subst this; simp [wInt_zero]
  obtain ⟨d, rfl⟩ : ∃ d, D = d + 1 := ⟨D - 1, by omega⟩
  obtain ⟨c, rfl⟩ := exists_cheb p hp
  simp only [eval_finsetSum, smul_eq_C_mul, eval_mul, eval_C, wInt_sum ha hb, wInt_C_mul]
  rw [Finset.sum_congr rfl fun j _ => Finset.mul_sum _ _ _, Finset.sum_comm]
  refine Finset.sum_congr rfl fun k hk => ?_
  rw [← show _ = wInt a b (Chebyshev.T ℝ k) from h k (Finset.mem_range.1 hk), Finset.mul_sum]
  exact Finset.sum_congr rfl fun j _ => by rw [chebT]; ring

theorem chebT_one_eq : chebT 1 = C (1/2) * chebU 1 := by
  have e1 : chebT 1 = X := by simp only [chebT]; exact Chebyshev.T_one ℝ
  have e2 : chebU 1 = C 2 * X := by simp only [chebU]; exact Chebyshev.U_one ℝ
  rw [e1, e2, ← mul_assoc, ← C_mul]; norm_num

theorem chebT_add_two_eq (m : ℕ) : chebT (m + 2) = C (1/2) * (chebU (m + 2) - chebU m) := by
  have h := Chebyshev.two_mul_T_eq_U_sub_U ℝ (m : ℤ)
  have e : chebU (m + 2) - chebU m = C 2 * chebT (m + 2) := by
    simp only [chebT, chebU]; push_cast; exact h.symm
  rw [e, ← mul_assoc, ← C_mul]; norm_num

/-- The same for the polynomials `U_k`. -/
theorem exactRule_of_U {a b : ℝ} (ha : -1 < a) (hb : -1 < b) {x w : ℕ → ℝ} {N D : ℕ}
    (h : ∀ k < D, ∑ j ∈ Finset.range N, w j * (chebU k).eval (x j) = wInt a b (chebU k)) : ExactRule a b x w N D := by
  refine exactRule_of_T ha hb fun k hk => ?_
  rcases Nat.lt_or_ge k 2 with h2 | h2
  · interval_cases k
    · simpa [chebT, chebU] using h 0 hk
    · rw [chebT_one_eq, wInt_C_mul, ← h 1 hk, Finset.mul_sum]
      exact Finset.sum_congr rfl fun j _ => by rw [eval_mul, eval_C]; ring
  · obtain ⟨m, rfl⟩ : ∃ m, k = m + 2 := ⟨k - 2, by omega⟩
    rw [chebT_add_two_eq, wInt_C_mul, wInt_sub ha hb, ← h _ hk, ← h m (by omega), ← Finset.sum_sub_distrib, Finset.mul_sum]
    exact Finset.sum_congr rfl fun j _ => by rw [eval_mul, eval_C, eval_sub]; ring

theorem wInt_chebT (k : ℕ) : wInt (-(1/2)) (-(1/2)) (chebT k) = if k = 0 then π else 0 := by
  have h := C51_chebyshev k 0
  rw [show chebT 0 = 1 by simp [chebT], mul_one] at h
  rw [h]
  by_cases h0 : k = 0
  · rw [if_pos h0, if_pos h0]; norm_num [chebL2]
  · rw [if_neg h0, if_neg h0]

/-! ## Weighted rules -/

/-- **C62** Weighted Chebyshev-Gauss quadrature with `N` points: exact up to degree `2N-1`. -/
theorem C62_cheb_GC (N : ℕ) : ExactRule (-(1/2)) (-(1/2)) (chebPts .gc N) (chebWts .gc N) N (2 * N) := by
  refine exactRule_of_T (by norm_num) (by norm_num) fun k hk => ?_
  have hN : (N:ℝ) ≠ 0 := by have : N ≠ 0 := by omega
                            exact_mod_cast this
  rw [wInt_chebT]
  simp only [chebWts, chebPts_GC, eval_chebT_cos, ← Finset.mul_sum]
  by_cases h0 : k = 0
  · subst h0; simp; field_simp
  · have := mid_sum (n := N) (k := k) (fun hd => by have := Int.le_of_dvd (by omega) hd; omega)
    rw [if_neg h0, show ∑ j ∈ Finset.range N, cos (k * ((j + 1/2) * π / N)) = 0 by exact_mod_cast this, mul_zero]

/-- **C62** Weighted Chebyshev-Gauss-Lobatto quadrature with `N ≥ 2` points: exact up to degree `2N-3`. -/
theorem C62_cheb_GL (N : ℕ) (hN : 2 ≤ N) : ExactRule (-(1/2)) (-(1/2)) (chebPts .gl N) (chebWts .gl N) N (2 * N - 2) := by
  obtain ⟨n, rfl⟩ : ∃ n, N = n + 1 := ⟨N - 1, by omega⟩
  have hn : (n:ℝ) ≠ 0 := by have : n ≠ 0 := by omega
                            exact_mod_cast this
  refine exactRule_of_T (by norm_num) (by norm_num) fun k hk => ?_
  rw [wInt_chebT]
  simp only [chebPts_GL, eval_chebT_cos]
  rw [Finset.sum_congr rfl (g := fun j : ℕ => π / n * (trapW n j * cos (k * (j * π / n)))) fun j _ => by
    simp only [chebWts, trapW, Nat.add_sub_cancel]; push_cast; ring, ← Finset.mul_sum]
  by_cases h0 : k = 0
  · subst h0
    simp only [Nat.cast_zero, zero_mul, cos_zero, mul_one, trap_one (show 0 < n by omega), if_true]; field_simp
  · have := trap_cos (n := n) (k := k) (by omega) (fun hd => by have := Int.le_of_dvd (by omega) hd; omega)
    rw [if_neg h0, show ∑ j ∈ Finset.range (n+1), trapW n j * cos (k * (j * π / n)) = 0 by exact_mod_cast this, mul_zero]

theorem wInt_half (p : ℝ[X]) : wInt (1/2) (1/2) p = wInt (-(1/2)) (-(1/2)) ((1 - X^2) * p) := by
  rw [← wInt_succ (by norm_num) (by norm_num)]; norm_num

theorem degree_one_sub_sq_mul {p : ℝ[X]} {D : ℕ} (hp : p.degree < D) : ((1 - X^2 : ℝ[X]) * p).degree < ((D + 2 : ℕ) : WithBot ℕ) := by
  rcases eq_or_ne p 0 with rfl | h0
  · rw [mul_zero, degree_zero]; exact WithBot.bot_lt_coe _
  have h1 : natDegree (1 - X^2 : ℝ[X]) ≤ 2 := by compute_degree
  rw [degree_eq_natDegree h0] at hp
  have hp := WithBot.coe_lt_coe.1 hp
  refine lt_of_le_of_lt degree_le_natDegree ?_
  have h2 := natDegree_mul_le (p := (1 - X^2 : ℝ[X])) (q := p)
  have : ((1 - X^2 : ℝ[X]) * p).natDegree < D + 2 := by
    have : p.natDegree < D := hp
    omega
  exact_mod_cast this

/-- **C62** Second kind, GU points: exact up to degree `2N-1` for the weight `(1-x²)^{1/2}`. -/
theorem C62_chebu_GU (N : ℕ) : ExactRule (1/2) (1/2) (chebPts .gu N) (chebuWts .gu N) N (2 * N) := by
  intro p hp
  have hx := C62_cheb_GL (N + 2) (by omega) ((1 - X^2) * p) (degree_one_sub_sq_mul (D := 2 * N) hp)
  have hN : (N:ℝ) + 1 ≠ 0 := by positivity
  rw [wInt_half, ← hx]
  simp only [chebPts_GL (N+1)]
  rw [Finset.sum_range_succ', Finset.sum_range_succ]
  have e0 : cos (((0:ℕ):ℝ) * π / (N + 1 : ℕ)) = 1 := by simp
  have e1 : cos (((N + 1:ℕ):ℝ) * π / (N + 1 : ℕ)) = -1 := by
    rw [show ((N + 1:ℕ):ℝ) * π / (N + 1 : ℕ) = π by push_cast; field_simp, cos_pi]
  rw [e0, e1]
  simp only [eval_mul, eval_sub, eval_one, eval_pow, eval_X]
  norm_num only
  simp only [zero_mul, mul_zero, add_zero]
  refine Finset.sum_congr rfl fun j hj => ?_
  have := Finset.mem_range.1 hj
  simp only [chebuWts, chebWts, chebPts_GU]
  rw [if_neg (by omega), if_neg (by omega)]
  push_cast
  rw [show (N:ℝ) + 2 - 1 = N + 1 by ring]
  ring

/-- **C62** Second kind, GC points: exact up to degree `2N-3` for the weight `(1-x²)^{1/2}`. -/
theorem C62_chebu_GC (N : ℕ) : ExactRule (1/2) (1/2) (chebPts .gc N) (chebuWts .gc N) N (2 * N - 2) := by
  intro p hp
  rcases Nat.eq_zero_or_pos N with rfl | hN
  · have : p = 0 := by
      rw [← degree_eq_bot]
      by_contra hne
      rw [degree_eq_natDegree (fun h0 => hne (by rw [h0, degree_zero]))] at hp
      exact absurd (WithBot.coe_lt_coe.1 hp) (by omega)
    subst this; simp [wInt_zero]
  have hx := C62_cheb_GC N ((1 - X^2) * p) (by
    have := degree_one_sub_sq_mul hp
    rwa [show 2 * N - 2 + 2 = 2 * N by omega] at this)
  rw [wInt_half, ← hx]
  refine Finset.sum_congr rfl fun j _ => ?_
  simp only [chebuWts, eval_mul, eval_sub, eval_one, eval_pow, eval_X]
  ring

/-- With `quad='GU'` the weighted rule of the first kind does not integrate constants. -/
theorem C62_cheb_GU_refuted (N : ℕ) : ¬ ExactRule (-(1/2)) (-(1/2)) (chebPts .gu N) (chebWts .gu N) N 1 := by
  intro h
  have := h 1 (by rw [degree_one]; exact_mod_cast Nat.one_pos)
  have e := wInt_chebT 0
  rw [show chebT 0 = 1 by simp [chebT], if_pos rfl] at e
  rw [e] at this
  simp only [chebWts, eval_one, mul_one, Finset.sum_const, Finset.card_range, nsmul_eq_mul] at this
  have hN : (N:ℝ) + 1 ≠ 0 := by positivity
  have hpi := pi_pos
  field_simp at this
  linarith

/-! ## Unweighted rules (`dx`) -/

theorem wInt_derivative (p : ℝ[X]) : wInt 0 0 (derivative p) = p.eval 1 - p.eval (-1) := by
  rw [wInt_zero_zero, intervalIntegral.integral_deriv_eq_sub' (fun x => p.eval x)]
  · funext x; simp
  · intro x _; exact p.differentiableAt
  · exact (derivative p).continuous.continuousOn

theorem wInt_chebU (k : ℕ) : wInt 0 0 (chebU k) = if k % 2 = 0 then 2 / ((k:ℝ) + 1) else 0 := by
  have hk : (k:ℝ) + 1 ≠ 0 := by positivity
  have h := wInt_derivative (chebT (k + 1))
  have e : derivative (chebT (k + 1)) = C ((k:ℝ) + 1) * chebU k := by
    simp only [chebT, chebU]
    rw [Chebyshev.T_derivative_eq_U]
    push_cast
    rw [add_sub_cancel_right]
    simp
  rw [e, wInt_C_mul] at h
  have h1 : (chebT (k+1)).eval 1 = 1 := by simp [chebT]
  have h2 : (chebT (k+1)).eval (-1) = (-1)^(k+1) := by
    have := eval_chebT_cos (k+1) π
    rw [cos_pi, cos_nat_mul_pi] at this
    exact this
  rw [h1, h2] at h
  rw [← mul_right_inj' hk, h]
  rcases Nat.mod_two_eq_zero_or_one k with hm | hm
  · rw [if_pos hm, (Nat.odd_iff.2 (by omega : (k+1) % 2 = 1)).neg_one_pow]; field_simp; norm_num
  · rw [if_neg (by omega), (Nat.even_iff.2 (by omega : (k+1) % 2 = 0)).neg_one_pow]; norm_num

theorem wInt_chebT_unweighted (k : ℕ) : wInt 0 0 (chebT k) = if k % 2 = 0 then 2 / (1 - (k:ℝ) * k) else 0 := by
  rcases Nat.lt_or_ge k 2 with h2 | h2
  · interval_cases k
    · have := wInt_chebU 0
      simpa [chebT, chebU] using this
    · rw [chebT_one_eq, wInt_C_mul, wInt_chebU]; norm_num
  · obtain ⟨m, rfl⟩ : ∃ m, k = m + 2 := ⟨k - 2, by omega⟩
    rw [chebT_add_two_eq, wInt_C_mul, wInt_sub (by norm_num) (by norm_num), wInt_chebU, wInt_chebU,
      show (m + 2) % 2 = m % 2 by omega]
    have h1 : (m:ℝ) + 1 ≠ 0 := by positivity
    have h3 : (m:ℝ) + 3 ≠ 0 := by positivity
    split_ifs
    · push_cast
      rw [show (m:ℝ) + 2 + 1 = m + 3 by ring, show 1 - ((m:ℝ) + 2) * (m + 2) = -((m + 1) * (m + 3)) by ring]
      field_simp; ring
    · norm_num

/-- **C62** `points_and_weights(weighted=False)` on GC points (Fejér's first rule): exact up to degree `N-1`. -/
theorem C62_unweighted_GC (N : ℕ) : ExactRule 0 0 (chebPtsU .gc N) (chebWtsU .gc N) N N := by
  refine exactRule_of_T (by norm_num) (by norm_num) fun k hk => ?_
  have hN : (N:ℝ) ≠ 0 := by have : N ≠ 0 := by omega
                            exact_mod_cast this
  have hx : ∀ j, chebPtsU .gc N j = gcPt N j := fun j => chebPts_GC N j
  have hw : ∀ j, chebWtsU .gc N j = ∑ i ∈ Finset.range N, (if i = 0 then 1 else 2) * ccD N i * (chebT i).eval (gcPt N j) := by
    intro j
    simp only [chebWtsU, dct3]
    rw [range_split0 (by omega), if_pos rfl, Finset.smul_sum]
    congr 1
    · simp [chebT]
    · refine Finset.sum_congr rfl fun i hi => ?_
      have := Finset.mem_Ico.1 hi
      rw [if_neg (by omega), gcPt, eval_chebT_cos, smul_eq_mul, smul_eq_mul,
        show π * i * ((j:ℝ) + 1/2) / N = i * ((j + 1/2) * π / N) by ring]
      ring
  rw [wInt_chebT_unweighted]
  simp only [hx, hw, Finset.sum_mul]
  rw [Finset.sum_comm, Finset.sum_congr rfl (g := fun i => (if i = 0 then 1 else 2) * ccD N i *
    (if i = k then (if i = 0 then (N:ℝ) else N / 2) else 0)) fun i hi => by
      rw [← gc_ortho (Finset.mem_range.1 hi) hk, Finset.mul_sum]
      exact Finset.sum_congr rfl fun j _ => by simp only [chebT]; ring,
    Finset.sum_eq_single k (fun i _ hne => by rw [if_neg hne, mul_zero]) (fun h => absurd (Finset.mem_range.2 hk) h), if_pos rfl]
  unfold ccD
  by_cases h0 : k = 0
  · subst h0; simp; field_simp
  · simp only [if_neg h0]
    split_ifs
    · rw [show 2 * (2 / (N:ℝ) / (1 - k * k)) * (N / 2) = 2 / (1 - k * k) * (N / N) by ring, div_self hN, mul_one]
    · ring

/-- **C62** `points_and_weights(weighted=False)` on GL points (Clenshaw-Curtis): exact up to degree `N-1`. -/
theorem C62_unweighted_GL (N : ℕ) (hN2 : 2 ≤ N) : ExactRule 0 0 (chebPtsU .gl N) (chebWtsU .gl N) N N := by
  obtain ⟨n, rfl⟩ : ∃ n, N = n + 1 := ⟨N - 1, by omega⟩
  have hn0 : 0 < n := by omega
  have hn : (n:ℝ) ≠ 0 := by positivity
  refine exactRule_of_T (by norm_num) (by norm_num) fun k hk => ?_
  have hx : ∀ j, chebPtsU .gl (n+1) j = cos (j * π / n) := fun j => by
    simp only [chebPtsU]; push_cast; rw [add_sub_cancel_right]
  have hw : ∀ j, chebWtsU .gl (n+1) j = ∑ i ∈ Finset.range (n+1), 2 * trapW n i * ccD n i * (trapW n j * cos (i * (j * π / n))) := by
    intro j
    simp only [chebWtsU, dct1_eq hn0, Nat.add_sub_cancel]
    push_cast
    rw [add_sub_cancel_right, smul_eq_mul, Finset.mul_sum, Finset.sum_mul, Finset.sum_mul]
    refine Finset.sum_congr rfl fun i _ => ?_
    have e : trapW n j = (if j = 0 then 1/2 else 1) * (if j = n then 1/2 else 1) := by
      unfold trapW; split_ifs <;> norm_num
    rw [smul_eq_mul, smul_eq_mul, e, show (j:ℝ) * (i * π / n) = i * (j * π / n) by ring]
    ring
  rw [wInt_chebT_unweighted]
  simp only [hx, hw, eval_chebT_cos, Finset.sum_mul]
  rw [Finset.sum_comm, Finset.sum_congr rfl (g := fun i => 2 * trapW n i * ccD n i *
    (if i = k then (if i = 0 ∨ i = n then (n:ℝ) else n / 2) else 0)) fun i hi => by
      have hi := Finset.mem_range.1 hi
      rw [← cos_ortho_gl hn0 (by omega) (by omega : k ≤ n), Finset.mul_sum]
      exact Finset.sum_congr rfl fun j _ => by ring,
    Finset.sum_eq_single k (fun i _ hne => by rw [if_neg hne, mul_zero]) (fun h => absurd (Finset.mem_range.2 hk) h), if_pos rfl]
  have e : 2 * trapW n k * (if k = 0 ∨ k = n then (n:ℝ) else n / 2) = n := by
    unfold trapW
    by_cases h0 : k = 0
    · rw [if_pos h0, if_pos (Or.inl h0), if_neg (by omega)]; ring
    · by_cases h1 : k = n
      · rw [if_neg h0, if_pos (Or.inr h1), if_pos h1]; ring
      · rw [if_neg h0, if_neg h1, if_neg (by tauto)]; ring
  rw [show ∀ a b c d : ℝ, a * b * c * d = a * b * d * c by intros; ring, e]
  unfold ccD
  by_cases h0 : k = 0
  · subst h0; simp; field_simp
  · simp only [if_neg h0]
    split_ifs
    · rw [show (n:ℝ) * (2 / n / (1 - k * k)) = 2 / (1 - k * k) * (n / n) by ring, div_self hn, mul_one]
    · ring

/-- **C62** `points_and_weights(weighted=False)` on GU points (Fejér's second rule): exact up to degree `N-1`. -/
theorem C62_unweighted_GU (N : ℕ) : ExactRule 0 0 (chebPtsU .gu N) (chebWtsU .gu N) N N := by
  refine exactRule_of_U (by norm_num) (by norm_num) fun k hk => ?_
  have hN : (N:ℝ) + 1 ≠ 0 := by positivity
  have hw : ∀ j, chebWtsU .gu N j * (chebU k).eval (chebPtsU .gu N j) = ∑ i ∈ Finset.range N,
      2 * (if i % 2 = 0 then 2 / ((i:ℝ) + 1) else 0) / (N + 1) *
      (sin ((i + 1) * ((j + 1) * π / (N + 1))) * sin ((k + 1) * ((j + 1) * π / (N + 1)))) := by
    intro j
    simp only [chebWtsU, dst1, chebPtsU, smul_eq_mul]
    rw [← eval_chebU_cos k, Finset.mul_sum, Finset.sum_mul, Finset.sum_mul]
    refine Finset.sum_congr rfl fun i _ => ?_
    rw [show π * ((i:ℝ) + 1) * (j + 1) / (N + 1) = (i + 1) * ((j + 1) * π / (N + 1)) by ring]
    ring
  rw [wInt_chebU, Finset.sum_congr rfl fun j _ => hw j, Finset.sum_comm, Finset.sum_congr rfl fun i hi => by
    rw [← Finset.mul_sum, sin_ortho_gu (Finset.mem_range.1 hi) hk],
    Finset.sum_eq_single k (fun i _ hne => by rw [if_neg hne, mul_zero]) (fun h => absurd (Finset.mem_range.2 hk) h), if_pos rfl]
  split_ifs
  · field_simp
  · ring

/-- The weighted and unweighted branches use the same points. -/
theorem C62_points (q : ChebQuad) (N : ℕ) (hN : 2 ≤ N) (j : ℕ) : chebPtsU q N j = chebPts q N j := by
  cases q with
  | gc => rfl
  | gu => rfl
  | gl =>
    obtain ⟨n, rfl⟩ : ∃ n, N = n + 1 := ⟨N - 1, by omega⟩
    rw [chebPts_GL]; simp only [chebPtsU]; push_cast; rw [add_sub_cancel_right]

/-- The weighted GL rule is not exact one degree higher: the bound `2N-3` is sharp. -/
theorem C62_cheb_GL_sharp (N : ℕ) (hN : 2 ≤ N) :
    ¬ ExactRule (-(1/2)) (-(1/2)) (chebPts .gl N) (chebWts .gl N) N (2 * N - 1) := by
  intro h
  obtain ⟨n, rfl⟩ : ∃ n, N = n + 1 := ⟨N - 1, by omega⟩
  have h1 := h (chebT n * chebT n) (by
    have hd : (chebT n).degree = n := by simp only [chebT]; rw [Chebyshev.degree_T]; simp
    rw [degree_mul, hd]
    exact_mod_cast (by omega : n + n < 2 * (n + 1) - 1))
  have h2 := C61_cheb_norms .gl (by simp) (n+1) hN n n (by omega) (by omega)
  have h3 := C51_chebyshev n n
  rw [if_pos rfl] at h2 h3
  simp only [eval_mul] at h1
  rw [h2, h3] at h1
  have hpi := pi_pos
  simp only [chebNormSq, chebL2] at h1
  rw [if_pos (by simp), if_neg (by omega)] at h1
  linarith

/-! ## `dx` -/

/-- **C62** `dx(u)` on a tensor product mesh with any number of axes is the product quadrature
`Σ_i u_i Π_ax w^{ax}_{i_ax}`. -/
theorem C62_dx {d : ℕ} (n : Fin d → ℕ) (w : Fin d → ℕ → ℝ) (u : (Fin d → ℕ) → ℝ) :
    dxND n w u = ∑ i ∈ Fintype.piFinset fun ax => Finset.range (n ax), u i * ∏ ax, w ax (i ax) := by
  classical
  have key : ∀ (l : List (Fin d)), l.Nodup → ∀ idx, l.foldl (dxStep n w) u idx =
      ∑ v ∈ Fintype.piFinset (fun a => if a ∈ l then Finset.range (n a) else {idx a}), u v * ∏ a ∈ l.toFinset, w a (v a) := by
    intro l
    induction l using List.reverseRecOn with
    | nil =>
      intro _ idx
      have : Fintype.piFinset (fun a => ({idx a} : Finset ℕ)) = {idx} := by
        ext v; simp [Fintype.mem_piFinset, funext_iff]
      simp [this]
    | append_singleton l ax ih =>
      intro hnd idx
      rw [List.nodup_append] at hnd
      obtain ⟨hl, -, hd⟩ := hnd
      have hax : ax ∉ l := fun h => hd ax h ax (by simp) rfl
      rw [List.foldl_append, List.foldl_cons, List.foldl_nil, dxStep]
      simp only [ih hl, Finset.sum_mul]
      rw [Finset.sum_sigma']
      refine Finset.sum_bij' (fun p _ => p.2) (fun v _ => ⟨v ax, v⟩) ?_ ?_ ?_ ?_ ?_
      · rintro ⟨j, v⟩ h
        simp only [Finset.mem_sigma, Finset.mem_range, Fintype.mem_piFinset] at h ⊢
        intro a
        have ha := h.2 a
        by_cases hal : a ∈ l
        · rw [if_pos hal] at ha; rw [if_pos (by simp [hal])]; exact ha
        · rw [if_neg hal] at ha
          by_cases haa : a = ax
          · subst haa
            rw [if_pos (by simp)]
            simp only [Function.update_self, Finset.mem_singleton] at ha
            rw [ha]; exact Finset.mem_range.2 h.1
          · rw [if_neg (by simp [hal, haa])]
            rwa [Function.update_of_ne haa] at ha
      · intro v h
        simp only [Finset.mem_sigma, Finset.mem_range, Fintype.mem_piFinset] at h ⊢
        refine ⟨by have := h ax; rwa [if_pos (by simp), Finset.mem_range] at this, fun a => ?_⟩
        have ha := h a
        by_cases hal : a ∈ l
        · rw [if_pos (by simp [hal])] at ha; rw [if_pos hal]; exact ha
        · rw [if_neg hal]
          by_cases haa : a = ax
          · subst haa; simp
          · rw [if_neg (by simp [hal, haa])] at ha
            rwa [Function.update_of_ne haa]
      · rintro ⟨j, v⟩ h
        simp only [Finset.mem_sigma, Finset.mem_range, Fintype.mem_piFinset] at h
        have := h.2 ax
        rw [if_neg hax] at this
        simp only [Function.update_self, Finset.mem_singleton] at this
        simp [this]
      · intro v _; rfl
      · rintro ⟨j, v⟩ h
        simp only [Finset.mem_sigma, Finset.mem_range, Fintype.mem_piFinset] at h
        have := h.2 ax
        rw [if_neg hax] at this
        simp only [Function.update_self, Finset.mem_singleton] at this
        rw [List.toFinset_append, Finset.prod_union (by simpa using hax)]
        simp [this, mul_assoc]
  unfold dxND
  rw [key _ (List.nodup_finRange d)]
  simp

/-- **C62** One axis: `dx` of the values of a polynomial of degree below `N` on a Chebyshev space is its integral. -/
theorem C62_dx_cheb (q : ChebQuad) (N : ℕ) (hN : 2 ≤ N) (p : ℝ[X]) (hp : p.degree < N) :
    dxND (d := 1) (fun _ => N) (fun _ => chebWtsU q N) (fun i => p.eval (chebPts q N (i 0))) = ∫ x in (-1:ℝ)..1, p.eval x := by
  rw [C62_dx, ← wInt_zero_zero]
  have hr : ExactRule 0 0 (chebPtsU q N) (chebWtsU q N) N N := by
    cases q with
    | gc => exact C62_unweighted_GC N
    | gl => exact C62_unweighted_GL N hN
    | gu => exact C62_unweighted_GU N
  rw [← hr p hp]
  simp only [Finset.univ_unique, Fin.default_eq_zero, Fin.isValue, Finset.prod_singleton, C62_points q N hN]
  refine Finset.sum_bij' (fun i _ => i 0) (fun j _ => fun _ => j) ?_ ?_ ?_ ?_ ?_
  · intro i hi; exact Fintype.mem_piFinset.1 hi 0
  · intro j hj; exact Fintype.mem_piFinset.2 fun _ => hj
  · intro i _; funext a; rw [Subsingleton.elim a 0]
  · intro j _; rfl
  · intro i _; ring

/-- `utilities.clenshaw_curtis1D` returns the square root of the integral: `u = 1` on GC points. -/
theorem C62_clenshaw_refuted : clenshawCurtisGC 1 (fun _ => 1) ≠ ∫ x in (-1:ℝ)..1, (1 : ℝ[X]).eval x := by
  have e : clenshawCurtisGC 1 (fun _ => 1) = √2 := by
    simp [clenshawCurtisGC, chebWtsU, dct3, ccD]
  rw [e]
  simp only [eval_one, intervalIntegral.integral_const, smul_eq_mul]
  intro h
  have := Real.sq_sqrt (show (0:ℝ) ≤ 2 by norm_num)
  rw [h] at this
  norm_num at this

/-! ## Non-vacuity -/

/-- `∫ x⁴/√(1-x²) = 3π/8` by three GC points. -/
example : ∑ j ∈ Finset.range 3, chebWts .gc 3 j * ((X : ℝ[X])^4).eval (chebPts .gc 3 j) = wInt (-(1/2)) (-(1/2)) (X^4) :=
  C62_cheb_GC 3 _ (by rw [degree_X_pow]; exact_mod_cast (by norm_num : 4 < 2 * 3))

end Shenfun
