import Verif.Lemmas.StencilBC

/-!
# C47: composite bases of the ultraspherical (without `Phi`), Gegenbauer and Jacobi families
-/

namespace Shenfun

open Polynomial Spec

set_option linter.unusedSimpArgs false
set_option linter.unusedTactic false
set_option linter.unnecessarySeqFocus false
set_option linter.unusedVariables false

/-! ## Ultraspherical -/

/-- `/repo/shenfun/ultraspherical/bases.py:674`. -/
theorem C47_ultra_CompactDirichlet (a : ℝ) (ha : -1 < a) (N i : ℕ) (hi : i < N - 2) :
    Homogeneous (both 1) (basisFunction (ultraQ a) (stencilMatrix UltraStencil.CompactDirichlet N 2) i) := by
  refine homogeneous_both (ultraQ_right a ha) (ultraQ_left a ha) hi (by simp [UltraStencil.CompactDirichlet])
    (by simp [UltraStencil.CompactDirichlet]; try decide) _ fun k hk => ?_
  rw [List.mem_range] at hk
  interval_cases k
  stencil_sum [UltraStencil.CompactDirichlet]

/-- `/repo/shenfun/ultraspherical/bases.py:738-739`. -/
theorem C47_ultra_CompactNeumann (a : ℝ) (ha : -1 < a) (N i : ℕ) (hi : i < N - 2) :
    Homogeneous [(.left, 1), (.right, 1)]
      (basisFunction (ultraQ a) (stencilMatrix (UltraStencil.CompactNeumann a) N 2) i) := by
  refine homogeneous_both (ultraQ_right a ha) (ultraQ_left a ha) hi (by simp [UltraStencil.CompactNeumann])
    (by simp [UltraStencil.CompactNeumann]; try decide) [1] fun k hk => ?_
  simp only [List.mem_singleton] at hk
  subst hk
  have hx : (0:ℝ) ≤ (i:ℝ) := Nat.cast_nonneg _
  have a0 : a + 1 ≠ 0 := by linarith
  have e : 2*a*(i:ℝ) + 4*a + (i:ℝ)^2 + 5*i + 6 = (i+2) * (i + 2*a + 3) := by ring
  have d : (i:ℝ) + 2*a + 3 ≠ 0 := by linarith
  simp only [UltraStencil.CompactNeumann, SVal.at, bndFactor, Finset.prod_range_succ, Finset.prod_range_zero,
    List.map_cons, List.map_nil, List.sum_cons, List.sum_nil, e]
  push_cast
  generalize hd : (i:ℝ) + 2*a + 3 = d at *
  field_simp
  subst hd
  ring

/-- `/repo/shenfun/ultraspherical/bases.py:935-939`. -/
theorem C47_ultra_CompactBiharmonic (a : ℝ) (ha : -1 < a) (N i : ℕ) (hi : i < N - 4) :
    Homogeneous (both 2) (basisFunction (ultraQ a) (stencilMatrix (UltraStencil.CompactBiharmonic a) N 4) i) := by
  refine homogeneous_both (ultraQ_right a ha) (ultraQ_left a ha) hi (by simp [UltraStencil.CompactBiharmonic])
    (by simp [UltraStencil.CompactBiharmonic]; try decide) _ fun k hk => ?_
  rw [List.mem_range] at hk
  have hx : (0:ℝ) ≤ (i:ℝ) := Nat.cast_nonneg _
  have a0 : a + 1 ≠ 0 := by linarith
  have d7 : 2*a+2*(i:ℝ)+7 ≠ 0 := by linarith
  interval_cases k <;>
  simp only [UltraStencil.CompactBiharmonic, SVal.at, bndFactor, Finset.prod_range_succ, Finset.prod_range_zero,
    List.map_cons, List.map_nil, List.sum_cons, List.sum_nil] <;>
  push_cast <;>
  (generalize hd : 2*a+2*(i:ℝ)+7 = d at *; field_simp; subst hd; ring)

/-- `/repo/shenfun/ultraspherical/bases.py:800`. -/
theorem C47_ultra_UpperDirichlet (a : ℝ) (ha : -1 < a) (N i : ℕ) (hi : i < N - 1) :
    Homogeneous [(.right, 0)] (basisFunction (ultraQ a) (stencilMatrix UltraStencil.UpperDirichlet N 1) i) := by
  refine homogeneous_of_sums hi (by simp [UltraStencil.UpperDirichlet]) _ fun bc hbc => ?_
  fin_cases hbc
  simp only [Side.pt, ultraQ_right a ha]
  stencil_asum [UltraStencil.UpperDirichlet]

/-! ## Jacobi -/

theorem jac_right (a b : ℝ) (ha : -1 < a) (n k : ℕ) :
    (derivative^[k] (jacobi a b n)).eval 1 = gbinom (n + a) n * bndFactor a b n k :=
  iterate_derivative_jacobi_eval_one a b ha n k

theorem jac_left (a b : ℝ) (hb : -1 < b) (n k : ℕ) :
    (derivative^[k] (jacobi a b n)).eval (-1) = (-1)^(n+k) * (gbinom (n + b) n * bndFactor b a n k) :=
  iterate_derivative_jacobi_eval_neg_one a b hb n k

theorem gbinom_step (a : ℝ) (n : ℕ) :
    gbinom ((n+1:ℕ) + a) (n+1) = gbinom (n + a) n * ((n + 1 + a) / (n + 1)) := by
  have h := gbinom_succ_succ (n + a) n
  have hn : (n:ℝ) + 1 ≠ 0 := by positivity
  have e : ((n+1:ℕ):ℝ) + a = n + a + 1 := by push_cast; ring
  rw [e]
  field_simp
  linarith

theorem gbinom_shift_prod (a : ℝ) (n m : ℕ) :
    gbinom ((n+m:ℕ) + a) (n+m) = gbinom (n + a) n * ∏ j ∈ Finset.range m, ((n + j + 1 + a) / (n + j + 1)) := by
  induction m with
  | zero => simp
  | succ m ih =>
    rw [Finset.prod_range_succ, ← mul_assoc, ← ih]
    have := gbinom_step a (n+m)
    rw [← add_assoc, this]
    push_cast
    rfl

/-- `/repo/shenfun/jacobi/bases.py:692-698`. -/
theorem C47_jacobi_CompactDirichlet (a b : ℝ) (ha : -1 < a) (hb : -1 < b) (N i : ℕ) (hi : i < N - 2) :
    Homogeneous (both 1) (basisFunction (jacobi a b) (stencilMatrix (JacStencil.CompactDirichlet a b) N 2) i) := by
  refine homogeneous_of_sums hi ?_ _ fun bc hbc => ?_
  · unfold JacStencil.CompactDirichlet; split_ifs <;> simp
  have hx : (0:ℝ) ≤ (i:ℝ) := Nat.cast_nonneg _
  have d1 : (a + i + 1) ≠ 0 := by linarith
  have d2 : (b + i + 1) ≠ 0 := by linarith
  have d3 : (a + b + 2*i + 4) ≠ 0 := by linarith
  unfold JacStencil.CompactDirichlet
  split_ifs with h
  · fin_cases hbc <;> simp only [Side.pt, jac_right a b ha, jac_left a b hb] <;>
    simp only [SVal.at, bndFactor, gbinom_shift_prod, Finset.prod_range_succ, Finset.prod_range_zero,
      List.map_cons, List.map_nil, List.sum_cons, List.sum_nil, List.cons_append, List.nil_append, pow_add] <;>
    push_cast <;>
    (generalize h1 : a + i + 1 = e1 at *; generalize h2 : b + i + 1 = e2 at *; generalize h3 : a + b + 2*i + 4 = e3 at *;
     field_simp; subst h1 h2 h3; ring)
  · push Not at h
    subst h
    fin_cases hbc <;> simp only [Side.pt, jac_right a a ha, jac_left a a hb] <;>
    simp only [SVal.at, bndFactor, gbinom_shift_prod, Finset.prod_range_succ, Finset.prod_range_zero,
      List.map_cons, List.map_nil, List.sum_cons, List.sum_nil, List.append_nil, pow_add] <;>
    push_cast <;>
    (generalize h1 : a + i + 1 = e1 at *; generalize h3 : a + a + 2*i + 4 = e3 at *;
     field_simp; subst h1 h3; ring)

/-- `/repo/shenfun/jacobi/bases.py:769-775`. -/
theorem C47_jacobi_CompactNeumann (a b : ℝ) (ha : -1 < a) (hb : -1 < b) (N i : ℕ) (hi : i < N - 2) :
    Homogeneous [(.left, 1), (.right, 1)]
      (basisFunction (jacobi a b) (stencilMatrix (JacStencil.CompactNeumann a b) N 2) i) := by
  refine homogeneous_of_sums hi ?_ _ fun bc hbc => ?_
  · unfold JacStencil.CompactNeumann; split_ifs <;> simp
  have hx : (0:ℝ) ≤ (i:ℝ) := Nat.cast_nonneg _
  have d0 : a + 1 ≠ 0 := by linarith
  have d00 : b + 1 ≠ 0 := by linarith
  have d1 : (a + i + 1) ≠ 0 := by linarith
  have d2 : (b + i + 1) ≠ 0 := by linarith
  have d3 : (a + b + 2*i + 4) ≠ 0 := by linarith
  unfold JacStencil.CompactNeumann
  -- for `i = 0` the function is the constant `P_0`
  rcases Nat.eq_zero_or_pos i with h0 | hpos
  · subst h0
    split_ifs with h <;> fin_cases hbc <;> simp [SVal.at, jacobi_zero]
  have hx1 : (1:ℝ) ≤ (i:ℝ) := by exact_mod_cast hpos
  have d4 : (a + b + i + 3) ≠ 0 := by linarith
  have d5 : (a + b + i + 2) ≠ 0 := by linarith
  split_ifs with h
  · fin_cases hbc <;> simp only [Side.pt, jac_right a b ha, jac_left a b hb] <;>
    simp only [SVal.at, bndFactor, gbinom_shift_prod, Finset.prod_range_succ, Finset.prod_range_zero,
      List.map_cons, List.map_nil, List.sum_cons, List.sum_nil, List.cons_append, List.nil_append, pow_add] <;>
    push_cast <;>
    (generalize h1 : a + i + 1 = e1 at *; generalize h2 : b + i + 1 = e2 at *; generalize h3 : a + b + 2*i + 4 = e3 at *;
     generalize h4 : a + b + i + 3 = e4 at *; generalize h5 : a + b + i + 2 = e5 at *
     field_simp; subst h1 h2 h3 h4 h5; ring)
  · push Not at h
    subst h
    fin_cases hbc <;> simp only [Side.pt, jac_right a a ha, jac_left a a hb] <;>
    simp only [SVal.at, bndFactor, gbinom_shift_prod, Finset.prod_range_succ, Finset.prod_range_zero,
      List.map_cons, List.map_nil, List.sum_cons, List.sum_nil, List.append_nil, pow_add] <;>
    push_cast <;>
    (generalize h1 : a + i + 1 = e1 at *; generalize h3 : a + a + 2*i + 4 = e3 at *;
     generalize h4 : a + a + i + 3 = e4 at *
     field_simp; subst h1 h3 h4; ring)

/-- `/repo/shenfun/jacobi/bases.py:836`. -/
theorem C47_jacobi_UpperDirichlet (a b : ℝ) (ha : -1 < a) (N i : ℕ) (hi : i < N - 1) :
    Homogeneous [(.right, 0)] (basisFunction (jacobi a b) (stencilMatrix (JacStencil.UpperDirichlet a) N 1) i) := by
  refine homogeneous_of_sums hi (by simp [JacStencil.UpperDirichlet]) _ fun bc hbc => ?_
  fin_cases hbc
  have hx : (0:ℝ) ≤ (i:ℝ) := Nat.cast_nonneg _
  have d1 : (a + i + 1) ≠ 0 := by linarith
  simp only [Side.pt, jac_right a b ha]
  simp only [SVal.at, bndFactor, gbinom_shift_prod, Finset.prod_range_succ, Finset.prod_range_zero, JacStencil.UpperDirichlet,
      List.map_cons, List.map_nil, List.sum_cons, List.sum_nil, List.append_nil, pow_add]
  push_cast
  generalize h1 : a + i + 1 = e1 at *
  field_simp
  subst h1
  ring

/-- `/repo/shenfun/jacobi/bases.py:897`. -/
theorem C47_jacobi_LowerDirichlet (a b : ℝ) (hb : -1 < b) (N i : ℕ) (hi : i < N - 1) :
    Homogeneous [(.left, 0)] (basisFunction (jacobi a b) (stencilMatrix (JacStencil.LowerDirichlet b) N 1) i) := by
  refine homogeneous_of_sums hi (by simp [JacStencil.LowerDirichlet]) _ fun bc hbc => ?_
  fin_cases hbc
  have hx : (0:ℝ) ≤ (i:ℝ) := Nat.cast_nonneg _
  have d1 : (b + i + 1) ≠ 0 := by linarith
  simp only [Side.pt, jac_left a b hb]
  simp only [SVal.at, bndFactor, gbinom_shift_prod, Finset.prod_range_succ, Finset.prod_range_zero, JacStencil.LowerDirichlet,
      List.map_cons, List.map_nil, List.sum_cons, List.sum_nil, List.append_nil, pow_add]
  push_cast
  generalize h1 : b + i + 1 = e1 at *
  field_simp
  subst h1
  ring

/-! ## Gegenbauer -/

theorem rf_pos {x : ℝ} (hx : 0 < x) (n : ℕ) : 0 < rf x n := Finset.prod_pos fun i _ => by positivity

theorem rf_add (x : ℝ) (n m : ℕ) : rf x (n+m) = rf x n * ∏ j ∈ Finset.range m, (x + n + j) := by
  unfold rf
  rw [Finset.prod_range_add]
  congr 1
  refine Finset.prod_congr rfl fun j _ => ?_
  push_cast; ring

theorem gbinom_rf (a : ℝ) (ha : -1 < a) (n : ℕ) : gbinom (n + a) n = rf (a+1) n / (n.factorial : ℝ) := by
  induction n with
  | zero => simp [gbinom, rf]
  | succ n ih =>
    have hn : ((n:ℝ) + 1) ≠ 0 := by positivity
    have hf : (n.factorial : ℝ) ≠ 0 := by positivity
    rw [gbinom_step, ih, rf_add]
    simp only [Finset.prod_range_succ, Finset.prod_range_zero, Nat.factorial_succ]
    push_cast
    field_simp
    ring

/-- Boundary values of the Gegenbauer polynomials: `C_n(1) = (2a+1)_n / n!`. -/
theorem gegenC_right (a : ℝ) (ha : -(1/2) < a) (n k : ℕ) :
    (derivative^[k] (gegenC a n)).eval 1 = rf (2*a+1) n / n.factorial * bndFactor a a n k := by
  unfold gegenC
  have h := (rf_pos (x := a+1) (by linarith) n).ne'
  rw [iterate_derivative_C_mul, eval_mul, eval_C, jac_right a a (by linarith), gbinom_rf a (by linarith)]
  field_simp

theorem gegenC_left (a : ℝ) (ha : -(1/2) < a) (n k : ℕ) :
    (derivative^[k] (gegenC a n)).eval (-1) = (-1)^(n+k) * (rf (2*a+1) n / n.factorial * bndFactor a a n k) := by
  unfold gegenC
  have h := (rf_pos (x := a+1) (by linarith) n).ne'
  rw [iterate_derivative_C_mul, eval_mul, eval_C, jac_left a a (by linarith), gbinom_rf a (by linarith)]
  field_simp

/-- `gegenbauer.bases.CompactDirichlet`, `/repo/shenfun/gegenbauer/bases.py:442`, with the default `lambda_ = 2`. -/
theorem C47_gegen_CompactDirichlet_default (N i : ℕ) (hi : i < N - 2) :
    Homogeneous (both 1) (basisFunction (gegenC (2 - 1/2)) (stencilMatrix GegenStencil.CompactDirichlet N 2) i) := by
  refine homogeneous_both (gegenC_right _ (by norm_num)) (gegenC_left _ (by norm_num)) hi
    (by simp [GegenStencil.CompactDirichlet]) (by simp [GegenStencil.CompactDirichlet]; try decide) _ fun k hk => ?_
  rw [List.mem_range] at hk
  have hr := (rf_pos (x := 2*(2 - 1/2)+1) (by norm_num) i).ne'
  have hf : (i.factorial : ℝ) ≠ 0 := by positivity
  interval_cases k
  simp only [GegenStencil.CompactDirichlet, SVal.at, bndFactor, Finset.prod_range_zero, List.map_cons, List.map_nil,
    List.sum_cons, List.sum_nil, rf_add, Finset.prod_range_succ, Nat.factorial_succ, Nat.add_zero]
  push_cast
  field_simp
  ring

end Shenfun
