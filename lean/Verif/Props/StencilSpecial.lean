import Verif.Props.StencilJacobi

/-!
# C27: composite bases that override `stencil_matrix`, and the classes that miss their boundary conditions
-/

namespace Shenfun

open Polynomial Spec Function

set_option linter.unusedSimpArgs false
set_option linter.unusedTactic false
set_option linter.unnecessarySeqFocus false
set_option linter.unusedVariables false

/-- A row of a matrix with even offsets `-2, 0, 2, 4`: conditions at both ends follow from those at the right end. -/
theorem homogeneous_both_row {Q : ℕ → ℝ[X]} {R : ℕ → ℕ → ℝ}
    (hR : ∀ n k, (derivative^[k] (Q n)).eval 1 = R n k)
    (hL : ∀ n k, (derivative^[k] (Q n)).eval (-1) = (-1)^(n+k) * R n k)
    (p : ℝ[X]) (i : ℕ) (L : List (ℕ × ℝ)) (hp : p = (L.map fun e => C e.2 * Q e.1).sum)
    (he : ∀ e ∈ L, e.1 % 2 = i % 2) (ks : List ℕ) (h : ∀ k ∈ ks, (L.map fun e => e.2 * R e.1 k).sum = 0) :
    Homogeneous (ks.map (fun k => (Side.left, k)) ++ ks.map (fun k => (Side.right, k))) p := by
  have hd : ∀ k x, (derivative^[k] p).eval x = (L.map fun e => e.2 * (derivative^[k] (Q e.1)).eval x).sum := by
    intro k x
    rw [hp]
    clear hp he h
    induction L with
    | nil => simp
    | cons e L ih =>
      simp only [List.map_cons, List.sum_cons, iterate_map_add derivative, eval_add, ih, iterate_derivative_C_mul,
        eval_mul, eval_C]
  intro bc hbc
  rw [hd]
  rcases List.mem_append.1 hbc with hbc | hbc <;> obtain ⟨k, hk, rfl⟩ := List.mem_map.1 hbc
  · have key : ∀ e ∈ L, e.2 * (derivative^[k] (Q e.1)).eval (-1) = (-1)^(i+k) * (e.2 * R e.1 k) := fun e hst => by
      rw [hL]
      have h2 := he e hst
      have : ((-1:ℝ))^(e.1 + k) = (-1)^(i+k) := by
        rw [pow_add, pow_add, ← Nat.div_add_mod e.1 2, ← Nat.div_add_mod i 2, h2, pow_add, pow_mul, pow_add, pow_mul]
        simp
      rw [this]; ring
    show (L.map fun e => e.2 * (derivative^[k] (Q e.1)).eval (-1)).sum = 0
    rw [List.map_congr_left key, List.sum_map_mul_left, h k hk, mul_zero]
  · show (L.map fun e => e.2 * (derivative^[k] (Q e.1)).eval 1).sum = 0
    simp only [hR]
    exact h k hk

/-- Row of a three-diagonal matrix with offsets `-2, 0, 2`. -/
theorem row3 (Q : ℕ → ℝ[X]) (dm d dp : ℕ → ℝ) (N i : ℕ) (hi : i < N - 2) :
    basisFunction Q (SM.new [(-2, dm), (0, d), (2, dp)] N N 1) i =
      ((if 2 ≤ i then [(i-2, dm (i-2)), (i, d i), (i+2, dp i)] else [(i, d i), (i+2, dp i)]).map
        fun e : ℕ × ℝ => C e.2 * Q e.1).sum := by
  rw [basisFunction_new]
  simp only [List.map_cons, List.map_nil, List.sum_cons, List.sum_nil]
  have h1 := sum_diagEntry_neg Q 2 N i dm (by omega) (by omega)
  have h2 := sum_diagEntry_nonneg Q 0 N i d (by omega)
  have h3 := sum_diagEntry_nonneg Q 2 N i dp (by omega)
  simp only [Nat.cast_ofNat, Nat.cast_zero] at h1 h2 h3
  rw [h1, h2, h3]
  split_ifs <;> simp

/-- Row of a four-diagonal matrix with offsets `-2, 0, 2, 4`. -/
theorem row4 (Q : ℕ → ℝ[X]) (dm d dp dp4 : ℕ → ℝ) (N i : ℕ) (hi : i < N - 4) :
    basisFunction Q (SM.new [(-2, dm), (0, d), (2, dp), (4, dp4)] N N 1) i =
      ((if 2 ≤ i then [(i-2, dm (i-2)), (i, d i), (i+2, dp i), (i+4, dp4 i)]
        else [(i, d i), (i+2, dp i), (i+4, dp4 i)]).map fun e : ℕ × ℝ => C e.2 * Q e.1).sum := by
  rw [basisFunction_new]
  simp only [List.map_cons, List.map_nil, List.sum_cons, List.sum_nil]
  have h1 := sum_diagEntry_neg Q 2 N i dm (by omega) (by omega)
  have h2 := sum_diagEntry_nonneg Q 0 N i d (by omega)
  have h3 := sum_diagEntry_nonneg Q 2 N i dp (by omega)
  have h4 := sum_diagEntry_nonneg Q 4 N i dp4 (by omega)
  simp only [Nat.cast_ofNat, Nat.cast_zero] at h1 h2 h3 h4
  rw [h1, h2, h3, h4]
  split_ifs <;> simp

/-- `Heinrichs`, scaled or not, `/repo/shenfun/chebyshev/bases.py:751-765`. -/
theorem C27_cheb_Heinrichs (scaled : Bool) (N i : ℕ) (hi : i < N - 2) :
    Homogeneous (both 1) (basisFunction chebT (ChebStencil.heinrichs scaled N) i) := by
  have hi2 : i < N - 2 := hi
  have hi3 : 2 ≤ i → i - 2 < N - 2 - 2 := by omega
  cases scaled <;> simp only [ChebStencil.heinrichs, if_true, if_false, Bool.false_eq_true] <;>
    refine homogeneous_both_row chebT_right chebT_left _ i _ (row3 chebT _ _ _ N i hi) ?_ (List.range 1) fun k hk => ?_
  · split_ifs <;> simp <;> omega
  · rw [List.mem_range] at hk
    interval_cases k
    rcases i with _ | _ | i
    · have h2 : 2 < N := by omega
      simp [bndFactor, ChebStencil.zeroTail, h2]; norm_num
    · simp [bndFactor, Function.update]; norm_num
    · have h3 : i < N - 2 - 2 := by omega
      simp [bndFactor, ChebStencil.zeroTail, h3, hi2, Function.update]
      norm_num
  · split_ifs <;> simp <;> omega
  · rw [List.mem_range] at hk
    interval_cases k
    rcases i with _ | _ | i
    · have h2 : 2 < N := by omega
      simp [bndFactor, ChebStencil.zeroTail, h2]; norm_num
    · simp [bndFactor, Function.update]; norm_num
    · have h3 : i < N - 2 - 2 := by omega
      simp [bndFactor, ChebStencil.zeroTail, h3, hi2, Function.update]
      field_simp
      ring

/-- `CombinedShenNeumann`, `/repo/shenfun/chebyshev/bases.py:1036-1050`. -/
theorem C27_cheb_CombinedShenNeumann (N i : ℕ) (hi : i < N - 2) :
    Homogeneous [(.left, 1), (.right, 1)] (basisFunction chebT (ChebStencil.combinedShenNeumann N) i) := by
  have hi2 : i < N - 2 := hi
  refine homogeneous_both_row chebT_right chebT_left _ i _ (row3 chebT _ _ _ N i hi) ?_ [1] fun k hk => ?_
  · split_ifs <;> simp <;> omega
  · simp only [List.mem_singleton] at hk
    subst hk
    rcases i with _ | _ | _ | i
    · simp [bndFactor]
    · simp [bndFactor, Function.update]; norm_num
    · have h3 : 0 < N - 2 - 2 := by omega
      simp [bndFactor, ChebStencil.zeroTail, h3, Function.update]; norm_num
    · have h3 : i + 1 < N - 2 - 2 := by omega
      simp [bndFactor, ChebStencil.zeroTail, h3, hi2, Function.update]
      field_simp
      ring

/-- `MikNeumann`, `/repo/shenfun/chebyshev/bases.py:1151-1167`. -/
theorem C27_cheb_MikNeumann (N i : ℕ) (hi : i < N - 2) :
    Homogeneous [(.left, 1), (.right, 1)] (basisFunction chebT (ChebStencil.mikNeumann N) i) := by
  have hi2 : i < N - 2 := hi
  refine homogeneous_both_row chebT_right chebT_left _ i _ (row3 chebT _ _ _ N i hi) ?_ [1] fun k hk => ?_
  · split_ifs <;> simp <;> omega
  · simp only [List.mem_singleton] at hk
    subst hk
    rcases i with _ | _ | _ | i
    · simp [bndFactor]
    · simp [bndFactor, Function.update]; norm_num
    · have h3 : 0 < N - 2 - 2 := by omega
      simp [bndFactor, ChebStencil.zeroTail, h3, Function.update]; norm_num
    · have h3 : i + 1 < N - 2 - 2 := by omega
      have h4 : (i:ℝ) + 1 + 1 + 1 + 2 - 1 = i + 4 := by ring
      simp [bndFactor, ChebStencil.zeroTail, h3, hi2, Function.update, h4]
      field_simp
      ring

/-- `PolarDirichlet` (with the first `N-2` entries of its overlong diagonal), `/repo/shenfun/chebyshev/bases.py:1339-1345`. -/
theorem C27_cheb_PolarDirichlet (N i : ℕ) (hi : i < N - 2) :
    Homogeneous (both 1) (basisFunction chebT (ChebStencil.polarDirichlet N) i) := by
  have hi2 : i < N - 2 := hi
  refine homogeneous_both_row chebT_right chebT_left _ i _ (row3 chebT _ _ _ N i hi) ?_ (List.range 1) fun k hk => ?_
  · split_ifs <;> simp <;> omega
  · rw [List.mem_range] at hk
    interval_cases k
    rcases i with _ | _ | i
    · simp [bndFactor]
    · simp [bndFactor]
    · have h3 : i < N - 2 := by omega
      simp [bndFactor, ChebStencil.zeroTail, h3]

/-- Legendre `ShenBiPolar`, `/repo/shenfun/legendre/bases.py:1062-1082`. -/
theorem C27_leg_ShenBiPolar (N i : ℕ) (hi : i < N - 4) :
    Homogeneous (both 2) (basisFunction legP (LegStencil.shenBiPolar N) i) := by
  have hi2 : i < N - 4 := hi
  refine homogeneous_both_row legP_right legP_left _ i _ (row4 legP _ _ _ _ N i hi) ?_ (List.range 2) fun k hk => ?_
  · split_ifs <;> simp <;> omega
  · rw [List.mem_range] at hk
    rcases i with _ | _ | i
    · interval_cases k <;> simp [bndFactor] <;> norm_num
    · interval_cases k <;> simp [bndFactor, Function.update] <;> norm_num
    · have h3 : i < N - 6 := by omega
      have e1 : (2:ℝ) * ((i:ℝ) + 2) - 1 = 2 * i + 3 := by ring
      have e2 : (2:ℝ) * ((i:ℝ) + 1 + 1) - 1 = 2 * i + 3 := by ring
      have e3 : (2:ℝ) * ((i:ℝ) + 1 + 1 + 2) - 1 = 2 * i + 7 := by ring
      interval_cases k <;> simp [bndFactor, h3, hi2, Function.update, Finset.prod_range_succ, e1, e2, e3] <;> field_simp <;> ring

/-- Chebyshev `ShenBiPolar`, all functions but the first, `/repo/shenfun/chebyshev/bases.py:1949-1961`. -/
theorem C27_cheb_ShenBiPolar_partial (N i : ℕ) (hi : i < N - 4) (h0 : 0 < i) :
    Homogeneous (both 2) (basisFunction chebT (ChebStencil.shenBiPolar N) i) := by
  have hi2 : i < N - 4 := hi
  refine homogeneous_both_row chebT_right chebT_left _ i _ (row4 chebT _ _ _ _ N i hi) ?_ (List.range 2) fun k hk => ?_
  · split_ifs <;> simp <;> omega
  · rw [List.mem_range] at hk
    rcases i with _ | _ | i
    · omega
    · have h4 : 1 < N - 4 := by omega
      have h5 : 1 < N - 2 - 2 := by omega
      interval_cases k <;> simp [bndFactor, Function.update, ChebStencil.zeroTail, h4, h5] <;> norm_num
    · have h3 : i < N - 2 - 4 := by omega
      have h5 : i + 1 + 1 < N - 2 - 2 := by omega
      interval_cases k <;>
        simp [bndFactor, h3, hi2, h5, Function.update, ChebStencil.zeroTail, Finset.prod_range_succ] <;> ring

/-! ## Classes that miss the conditions they are declared with -/

/-- The first function of the Chebyshev `ShenBiPolar` basis, `½T₀ - ⅜T₂ + ⅛T₄`, violates both the value and the
derivative condition at `x = 1`, for every size. -/
theorem C27_cheb_ShenBiPolar_refuted (N : ℕ) (hN : 4 < N) :
    (basisFunction chebT (ChebStencil.shenBiPolar N) 0).eval 1 = 1/4 ∧
    (derivative (basisFunction chebT (ChebStencil.shenBiPolar N) 0)).eval 1 = 1/2 := by
  have h := row4 chebT (ChebStencil.zeroTail (N-2) 4 fun k => -((k + 2 : ℕ) + 1 : ℝ) / 8)
    (ChebStencil.zeroTail N 4 (Function.update (Function.update (fun k => ((k:ℝ) + 1) * 3 / 8) 0 (1/2)) 1 (1/2)))
    (ChebStencil.zeroTail (N-2) 2 fun k => -((k:ℝ) + 1) * 3 / 8) (fun k => ((k:ℝ) + 1) / 8) N 0 (by omega)
  have e : basisFunction chebT (ChebStencil.shenBiPolar N) 0 = C (1/2) * chebT 0 + (C (-3/8) * chebT 2 + C (1/8) * chebT 4) := by
    unfold ChebStencil.shenBiPolar
    simp only
    rw [h]
    have h4 : 0 < N - 4 := by omega
    have h5 : 0 < N - 2 - 2 := by omega
    simp [Function.update, ChebStencil.zeroTail, h4, h5]
  have r := fun n => chebT_right n 0
  have r1 := fun n => chebT_right n 1
  simp only [Function.iterate_zero, id, Function.iterate_one] at r r1
  rw [e]
  constructor
  · simp only [eval_add, eval_mul, eval_C, r, bndFactor]; norm_num
  · simp only [derivative_add, derivative_C_mul, eval_add, eval_mul, eval_C, r1, bndFactor, Finset.prod_range_one]
    norm_num

/-- `chebyshevu.LowerDirichlet` is declared with `bc=(None, 0)`, a condition at the right end
(`/repo/shenfun/chebyshevu/bases.py:971`), but its functions vanish at the left end and never at the right end. -/
theorem C47_chebu_LowerDirichlet_refuted (N i : ℕ) (hi : i < N - 1) :
    Homogeneous [(.left, 0)] (basisFunction chebU (stencilMatrix ChebUStencil.LowerDirichlet N 1) i) ∧
    ¬ Homogeneous [(.right, 0)] (basisFunction chebU (stencilMatrix ChebUStencil.LowerDirichlet N 1) i) := by
  constructor
  · refine homogeneous_of_sums hi (by simp [ChebUStencil.LowerDirichlet]) _ fun bc hbc => ?_
    fin_cases hbc
    simp only [Side.pt, chebU_left]
    stencil_asum [ChebUStencil.LowerDirichlet]
  · intro h
    have h1 := h (.right, 0) (by simp)
    rw [derivative_basisFunction chebU _ N 1 i _ _ hi (by simp [ChebUStencil.LowerDirichlet])] at h1
    simp only [Side.pt, chebU_right, ChebUStencil.LowerDirichlet, SVal.at, bndFactor, List.map_cons, List.map_nil,
      List.sum_cons, List.sum_nil, Finset.prod_range_zero] at h1
    push_cast at h1
    have : (0:ℝ) < 1 * ((i + 0 + 1) * 1) + ((i + 1) / (i + 2) * ((i + 1 + 1) * 1) + 0) := by positivity
    linarith

/-- The same for `ultraspherical.LowerDirichlet`, `/repo/shenfun/ultraspherical/bases.py:855-862`. -/
theorem C47_ultra_LowerDirichlet_refuted (a : ℝ) (ha : -1 < a) (N i : ℕ) (hi : i < N - 1) :
    Homogeneous [(.left, 0)] (basisFunction (ultraQ a) (stencilMatrix UltraStencil.LowerDirichlet N 1) i) ∧
    ¬ Homogeneous [(.right, 0)] (basisFunction (ultraQ a) (stencilMatrix UltraStencil.LowerDirichlet N 1) i) := by
  constructor
  · refine homogeneous_of_sums hi (by simp [UltraStencil.LowerDirichlet]) _ fun bc hbc => ?_
    fin_cases hbc
    simp only [Side.pt, ultraQ_left a ha]
    stencil_asum [UltraStencil.LowerDirichlet]
  · intro h
    have h1 := h (.right, 0) (by simp)
    rw [derivative_basisFunction _ _ N 1 i _ _ hi (by simp [UltraStencil.LowerDirichlet])] at h1
    simp only [Side.pt, ultraQ_right a ha, UltraStencil.LowerDirichlet, SVal.at, bndFactor, List.map_cons, List.map_nil,
      List.sum_cons, List.sum_nil, Finset.prod_range_zero] at h1
    norm_num at h1

/-- `gegenbauer.CompactDirichlet` does not use its parameter `lambda_`: with `lambda_ = 1` the first function does not
vanish at `x = 1`. -/
theorem C47_gegen_CompactDirichlet_refuted (N : ℕ) (hN : 2 < N) :
    (basisFunction (gegenC (1 - 1/2)) (stencilMatrix GegenStencil.CompactDirichlet N 2) 0).eval 1 = -7/4 := by
  have h := derivative_basisFunction (gegenC (1 - 1/2)) GegenStencil.CompactDirichlet N 2 0 0 1 (by omega)
    (by simp [GegenStencil.CompactDirichlet])
  simp only [Function.iterate_zero, id] at h
  have r := fun n => gegenC_right (1-1/2) (by norm_num) n 0
  simp only [Function.iterate_zero, id] at r
  rw [h]
  simp only [r, GegenStencil.CompactDirichlet, SVal.at, bndFactor, List.map_cons, List.map_nil,
      List.sum_cons, List.sum_nil, Finset.prod_range_zero, rf, Finset.prod_range_succ]
  norm_num [Nat.factorial]

/-- `gegenbauer.CompactBiharmonic` with its default `lambda_ = 2`: the first function is `277` at `x = 1`. -/
theorem C47_gegen_CompactBiharmonic_refuted (N : ℕ) (hN : 4 < N) :
    (basisFunction (gegenC (2 - 1/2)) (stencilMatrix GegenStencil.CompactBiharmonic N 4) 0).eval 1 = 277 := by
  have h := derivative_basisFunction (gegenC (2 - 1/2)) GegenStencil.CompactBiharmonic N 4 0 0 1 (by omega)
    (by simp [GegenStencil.CompactBiharmonic])
  simp only [Function.iterate_zero, id] at h
  have r := fun n => gegenC_right (2-1/2) (by norm_num) n 0
  simp only [Function.iterate_zero, id] at r
  rw [h]
  simp only [r, GegenStencil.CompactBiharmonic, SVal.at, bndFactor, List.map_cons, List.map_nil,
      List.sum_cons, List.sum_nil, Finset.prod_range_zero, rf, Finset.prod_range_succ]
  norm_num [Nat.factorial]

end Shenfun
