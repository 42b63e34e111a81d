import Verif.Model.Stencil

/-! Helper lemmas about stencils and boundary values. -/

namespace Shenfun

open Polynomial

theorem diagsEntry_perm {L L' : List (ℤ × (ℕ → ℝ))} (h : L.Perm L') (i j : ℕ) :
    Spec.diagsEntry L i j = Spec.diagsEntry L' i j := by
  unfold Spec.diagsEntry
  exact (h.map _).sum_eq

/-- A basis function is the sum over the diagonals (any offsets). -/
theorem basisFunction_new (Q : ℕ → ℝ[X]) (d : List (ℤ × (ℕ → ℝ))) (N i : ℕ) :
    basisFunction Q (SM.new d N N 1) i =
      (d.map fun e => ∑ j ∈ Finset.range N, C (Spec.diagEntry e i j) * Q j).sum := by
  unfold basisFunction SM.new
  simp only [one_mul]
  have hp : ∀ j, Spec.diagsEntry (SM.sortD d) i j = Spec.diagsEntry d i j := fun j =>
    diagsEntry_perm (List.perm_insertionSort _ _) i j
  simp only [hp]
  induction d with
  | nil => simp [Spec.diagsEntry]
  | cons e d ih =>
    have : ∀ j, Spec.diagsEntry (e :: d) i j = Spec.diagEntry e i j + Spec.diagsEntry d i j := by
      intro j; simp [Spec.diagsEntry]
    simp only [this, C_add, add_mul, Finset.sum_add_distrib, List.map_cons, List.sum_cons]
    rw [ih fun j => diagsEntry_perm (List.perm_insertionSort _ _) i j]

/-- Contribution of one diagonal with offset `o ≥ 0`. -/
theorem sum_diagEntry_nonneg (Q : ℕ → ℝ[X]) (o N i : ℕ) (v : ℕ → ℝ) (h : i + o < N) :
    ∑ j ∈ Finset.range N, C (Spec.diagEntry ((o : ℤ), v) i j) * Q j = C (v i) * Q (i + o) := by
  rw [Finset.sum_eq_single (i + o)]
  · simp [Spec.diagEntry]
  · intro j _ hj
    have : ¬ ((j : ℤ) = i + o) := by intro h; apply hj; omega
    simp [Spec.diagEntry, this]
  · intro hn; exact absurd (Finset.mem_range.mpr h) hn

theorem sum_diagEntry_neg (Q : ℕ → ℝ[X]) (o N i : ℕ) (v : ℕ → ℝ) (ho : 0 < o) (h : i < N) :
    ∑ j ∈ Finset.range N, C (Spec.diagEntry (-(o : ℤ), v) i j) * Q j =
      if o ≤ i then C (v (i - o)) * Q (i - o) else 0 := by
  split_ifs with hoi
  · rw [Finset.sum_eq_single (i - o)]
    · have h1 : (((i - o : ℕ)) : ℤ) = i + -(o : ℤ) := by omega
      have h2 : ¬ (0 ≤ -(o : ℤ)) := by omega
      simp only [Spec.diagEntry, h1, h2, if_true, if_false]
    · intro j _ hj
      have : ¬ ((j : ℤ) = i + -(o:ℤ)) := by intro h; apply hj; omega
      simp only [Spec.diagEntry, this, if_false, map_zero, zero_mul]
    · intro hn; exact absurd (Finset.mem_range.mpr (by omega)) hn
  · refine Finset.sum_eq_zero fun j _ => ?_
    have : ¬ ((j : ℤ) = i + -(o:ℤ)) := by omega
    simp only [Spec.diagEntry, this, if_false, map_zero, zero_mul]

theorem stencilDiag_at {N nbc : ℕ} (s : SVal) {i : ℕ} (h : i < N - nbc) : stencilDiag N nbc s i = s.at i := by
  cases s <;> simp [stencilDiag, SVal.at, h]

theorem basisFunction_stencil (Q : ℕ → ℝ[X]) (st : Stencil) (N nbc i : ℕ) (hi : i < N - nbc)
    (ho : ∀ e ∈ st, e.1 ≤ nbc) :
    basisFunction Q (stencilMatrix st N nbc) i = (st.map fun e => C (e.2.at i) * Q (i + e.1)).sum := by
  unfold stencilMatrix
  rw [basisFunction_new, List.map_map]
  congr 1
  refine List.map_congr_left fun e he => ?_
  have := ho e he
  simp only [Function.comp]
  rw [sum_diagEntry_nonneg _ _ _ _ _ (by omega), stencilDiag_at _ hi]

/-- The `k`-th derivative at `x` of a basis function as a sum over the stencil. -/
theorem derivative_basisFunction (Q : ℕ → ℝ[X]) (st : Stencil) (N nbc i k : ℕ) (x : ℝ) (hi : i < N - nbc)
    (ho : ∀ e ∈ st, e.1 ≤ nbc) :
    (derivative^[k] (basisFunction Q (stencilMatrix st N nbc) i)).eval x =
      (st.map fun e => e.2.at i * (derivative^[k] (Q (i + e.1))).eval x).sum := by
  rw [basisFunction_stencil Q st N nbc i hi ho]
  clear ho
  induction st with
  | nil => simp
  | cons e st ih =>
    simp only [List.map_cons, List.sum_cons, iterate_map_add derivative, eval_add, ih, iterate_derivative_C_mul,
      eval_mul, eval_C]

/-! ## Boundary values of the families -/

theorem chebT_right (n k : ℕ) : (derivative^[k] (chebT n)).eval 1 = Spec.bndFactor (-(1/2)) (-(1/2)) n k := by
  have hpos := Spec.gbinom_pos (-(1/2)) (by norm_num) n
  unfold chebT
  rw [Spec.chebyshevT_eq_jacobi, iterate_derivative_C_mul, eval_mul, eval_C,
    Spec.iterate_derivative_jacobi_eval_one _ _ (by norm_num), one_div, inv_mul_cancel_left₀ hpos.ne']

theorem chebT_left (n k : ℕ) :
    (derivative^[k] (chebT n)).eval (-1) = (-1)^(n+k) * Spec.bndFactor (-(1/2)) (-(1/2)) n k := by
  have hpos := Spec.gbinom_pos (-(1/2)) (by norm_num) n
  unfold chebT
  rw [Spec.chebyshevT_eq_jacobi, iterate_derivative_C_mul, eval_mul, eval_C,
    Spec.iterate_derivative_jacobi_eval_neg_one _ _ (by norm_num), one_div, mul_left_comm,
    inv_mul_cancel_left₀ hpos.ne']

theorem chebU_right (n k : ℕ) : (derivative^[k] (chebU n)).eval 1 = (n+1) * Spec.bndFactor (1/2) (1/2) n k := by
  have hpos := Spec.gbinom_pos (1/2) (by norm_num) n
  unfold chebU
  rw [Spec.chebyshevU_eq_jacobi, iterate_derivative_C_mul, eval_mul, eval_C,
    Spec.iterate_derivative_jacobi_eval_one _ _ (by norm_num), ← mul_assoc, div_mul_cancel₀ _ hpos.ne']

theorem chebU_left (n k : ℕ) :
    (derivative^[k] (chebU n)).eval (-1) = (-1)^(n+k) * ((n+1) * Spec.bndFactor (1/2) (1/2) n k) := by
  have hpos := Spec.gbinom_pos (1/2) (by norm_num) n
  unfold chebU
  rw [Spec.chebyshevU_eq_jacobi, iterate_derivative_C_mul, eval_mul, eval_C,
    Spec.iterate_derivative_jacobi_eval_neg_one _ _ (by norm_num), mul_left_comm, ← mul_assoc (((n:ℝ)+1)/_),
    div_mul_cancel₀ _ hpos.ne']

theorem ultraQ_right (a : ℝ) (ha : -1 < a) (n k : ℕ) :
    (derivative^[k] (ultraQ a n)).eval 1 = Spec.bndFactor a a n k := by
  have hpos := Spec.gbinom_pos a ha n
  unfold ultraQ
  rw [iterate_derivative_C_mul, eval_mul, eval_C, Spec.jacobi_eval_one,
    Spec.iterate_derivative_jacobi_eval_one _ _ ha, one_div, inv_mul_cancel_left₀ hpos.ne']

theorem ultraQ_left (a : ℝ) (ha : -1 < a) (n k : ℕ) :
    (derivative^[k] (ultraQ a n)).eval (-1) = (-1)^(n+k) * Spec.bndFactor a a n k := by
  have hpos := Spec.gbinom_pos a ha n
  unfold ultraQ
  rw [iterate_derivative_C_mul, eval_mul, eval_C, Spec.jacobi_eval_one,
    Spec.iterate_derivative_jacobi_eval_neg_one _ _ ha, one_div, mul_left_comm, inv_mul_cancel_left₀ hpos.ne']

theorem gbinom_self (n : ℕ) : Spec.gbinom ((n:ℝ) + 0) n = 1 := by
  induction n with
  | zero => simp [Spec.gbinom_zero]
  | succ n ih =>
    have h := Spec.gbinom_succ_succ ((n:ℝ) + 0) n
    rw [ih] at h
    have hn : ((n:ℝ) + 1) ≠ 0 := by positivity
    push_cast
    have e : (n:ℝ) + 1 + 0 = n + 0 + 1 := by ring
    rw [e]
    have h2 : Spec.gbinom ((n:ℝ) + 0 + 1) (n+1) * (n+1) = 1 * (n+1) := by
      field_simp at h
      linarith
    exact mul_right_cancel₀ hn h2

theorem legP_right (n k : ℕ) : (derivative^[k] (legP n)).eval 1 = Spec.bndFactor 0 0 n k := by
  unfold legP
  rw [Spec.iterate_derivative_jacobi_eval_one _ _ (by norm_num), gbinom_self, one_mul]

theorem legP_left (n k : ℕ) : (derivative^[k] (legP n)).eval (-1) = (-1)^(n+k) * Spec.bndFactor 0 0 n k := by
  unfold legP
  rw [Spec.iterate_derivative_jacobi_eval_neg_one _ _ (by norm_num), gbinom_self, one_mul]

end Shenfun
