import Verif.Props.ChebMatrices
import Verif.Props.Lmat
import Verif.Model.ChebUMatrices

/-!
# C79: hard-coded matrices of the second-kind Chebyshev family
-/

namespace Shenfun

open Polynomial Spec

set_option linter.unusedSimpArgs false
set_option linter.unusedTactic false
set_option linter.unreachableTactic false
set_option linter.unusedVariables false

/-- Basis function `k` of second-kind Chebyshev's `Phi1(N, scaled=scaled)`. -/
noncomputable abbrev chebuP1 (scaled : Bool) (N k : ℕ) : ℝ[X] :=
  basisFunction chebU (stencilMatrix (ChebUStencil.phi1 scaled) N 2) k

/-- The factor by which the scaled functions are smaller. -/
noncomputable def p1Scale (scaled : Bool) (k : ℕ) : ℝ := if scaled then 1 / ((k:ℝ)+2) else 1

theorem chebuP1_eq {scaled : Bool} {N k : ℕ} (hk : k < N - 2) :
    chebuP1 scaled N k = C (p1Scale scaled k / Real.pi / (k+1)) * chebU k - C (p1Scale scaled k / Real.pi / (k+3)) * chebU (k+2) := by
  rw [chebuP1, basisFunction_stencil _ _ _ _ _ hk (by
    cases scaled <;> simp [ChebUStencil.phi1, ChebUStencil.Phi1, ChebUStencil.Phi1Scaled])]
  have hp := Real.pi_ne_zero
  have h1 : (k:ℝ) + 1 ≠ 0 := by positivity
  have h2 : (k:ℝ) + 2 ≠ 0 := by positivity
  have h3 : (k:ℝ) + 3 ≠ 0 := by positivity
  cases scaled
  · simp only [ChebUStencil.phi1, ChebUStencil.Phi1, p1Scale, SVal.at, List.map_cons, List.map_nil, List.sum_cons, List.sum_nil,
      add_zero, Bool.false_eq_true, if_false]
    rw [sub_eq_add_neg, ← neg_mul, ← C_neg]
    congr 3 <;> field_simp
  · simp only [ChebUStencil.phi1, ChebUStencil.Phi1Scaled, p1Scale, SVal.at, List.map_cons, List.map_nil, List.sum_cons, List.sum_nil,
      add_zero, if_true]
    rw [sub_eq_add_neg, ← neg_mul, ← C_neg]
    congr 3 <;> field_simp

theorem one_sub_sq_chebU (k : ℕ) : (1 - X^2) * chebU k = C (1/2) * (chebT k - chebT (k+2)) := by
  have h1 := Polynomial.Chebyshev.one_sub_X_sq_mul_U_eq_pol_in_T ℝ (k:ℤ)
  have h2 := Polynomial.Chebyshev.T_add_two ℝ (k:ℤ)
  unfold chebU chebT
  push_cast
  rw [h1]
  have h3 : (C (1/2) : ℝ[X]) * 2 = 1 := by rw [show (2:ℝ[X]) = C 2 from rfl, ← C_mul]; norm_num
  linear_combination (-1 + C (1/2)) * h2 + (X * Polynomial.Chebyshev.T ℝ (k+1) - Polynomial.Chebyshev.T ℝ (k:ℤ)) * h3

/-- `(1 - x²) φ_k` as combination of first-kind polynomials. -/
theorem one_sub_sq_chebuP1 {scaled : Bool} {N k : ℕ} (hk : k < N - 2) :
    (1 - X^2) * chebuP1 scaled N k = lc chebT [(k, p1Scale scaled k / Real.pi / (k+1) / 2),
      (k+2, -(p1Scale scaled k / Real.pi / (k+1) / 2 + p1Scale scaled k / Real.pi / (k+3) / 2)),
      (k+4, p1Scale scaled k / Real.pi / (k+3) / 2)] := by
  rw [chebuP1_eq hk, mul_sub, mul_left_comm, one_sub_sq_chebU, mul_left_comm (1 - X^2), one_sub_sq_chebU]
  simp only [lc, List.map_cons, List.map_nil, List.sum_cons, List.sum_nil, add_zero]
  generalize p1Scale scaled k / Real.pi / ((k:ℝ)+1) = a
  generalize p1Scale scaled k / Real.pi / ((k:ℝ)+3) = b
  rw [show a / 2 = a * (1/2) by ring, show b / 2 = b * (1/2) by ring, C_neg, C_add, C_mul, C_mul]
  ring

/-- The inner product of the second kind with a `Phi1` function as inner product of the first kind. -/
theorem wInt_chebuP1 (p q : ℝ[X]) : wInt (1/2) (1/2) (p * q) = chebI ((1 - X^2) * p * q) := by
  have := wInt_succ (a := -(1/2)) (b := -(1/2)) (by norm_num) (by norm_num) (p * q)
  norm_num at this
  show _ = wInt _ _ _
  rw [mul_assoc]
  convert this using 2 <;> norm_num

/-- **C79** `AP1SDmat` holds the entries `(ψ_j'', φ_k)_w`, `w = (1-x²)^{1/2}`, for `φ_k` in second-kind `Phi1` (scaled or
not) and `ψ_j` in first-kind `ShenDirichlet`, for every size. -/
theorem C79_AP1SD (scaled : Bool) (N : ℕ) :
    IsMatrixOf (ChebUMat.AP1SD scaled N) (N-2) (N-2) fun k j =>
      wInt (1/2) (1/2) (chebuP1 scaled N k * derivative^[2] (chebSD N j)) := by
  have hp := Real.pi_ne_zero
  constructor
  · unfold ChebUMat.AP1SD
    cases scaled <;> simp only [if_true, if_false, Bool.false_eq_true] <;> lens_lit
  · intro k hk j hj
    have h1 : (k:ℝ) + 1 ≠ 0 := by positivity
    have h2 : (k:ℝ) + 2 ≠ 0 := by positivity
    have h3 : (k:ℝ) + 3 ≠ 0 := by positivity
    rw [DMat.mat, denseAt_new _ _ _ _ _ hk hj, wInt_chebuP1, one_sub_sq_chebuP1 hk, chebSD_lc hj]
    show _ = chebForm 2 _ _
    rw [chebForm_lc 2 _ chebI_two]
    unfold ChebUMat.AP1SD
    cases scaled <;> simp only [if_true, if_false, Bool.false_eq_true, p1Scale, chebC2,
      List.map_cons, List.map_nil, List.sum_cons, List.sum_nil, diagsEntry_lit_cons, diagsEntry_lit_nil]
    · entry_cases k j
    · entry_cases k j

/-- **C79** `AP1SNmat` holds the entries `(ψ_j'', φ_k)_w` with `ψ_j` in first-kind `ShenNeumann`. -/
theorem C79_AP1SN (scaled : Bool) (N : ℕ) :
    IsMatrixOf (ChebUMat.AP1SN scaled N) (N-2) (N-2) fun k j =>
      wInt (1/2) (1/2) (chebuP1 scaled N k * derivative^[2] (chebSN N j)) := by
  have hp := Real.pi_ne_zero
  constructor
  · unfold ChebUMat.AP1SN
    cases scaled <;> simp only [if_true, if_false, Bool.false_eq_true] <;> lens_lit
  · intro k hk j hj
    have h1 : (k:ℝ) + 1 ≠ 0 := by positivity
    have h2 : (k:ℝ) + 2 ≠ 0 := by positivity
    have h3 : (k:ℝ) + 3 ≠ 0 := by positivity
    rw [DMat.mat, denseAt_new _ _ _ _ _ hk hj, wInt_chebuP1, one_sub_sq_chebuP1 hk, chebSN_lc hj]
    show _ = chebForm 2 _ _
    rw [chebForm_lc 2 _ chebI_two]
    unfold ChebUMat.AP1SN
    cases scaled <;> simp only [if_true, if_false, Bool.false_eq_true, p1Scale, chebC2,
      List.map_cons, List.map_nil, List.sum_cons, List.sum_nil, diagsEntry_lit_cons, diagsEntry_lit_nil]
    · entry_cases k j
    · entry_cases k j

/-- **C79** `BUUmat`: the entries are `(U_j, U_k)` for every inner product in which the polynomials below the sizes are
orthogonal with the squared norms used. -/
theorem C79_BUU (gc : Bool) (tN uN : ℕ) (I : ℝ[X] →ₗ[ℝ] ℝ) (hI : OrthogonalForm chebU I tN uN (ChebUMat.normSq gc tN)) :
    IsMatrixOf (ChebUMat.BUU gc tN uN) tN uN fun k j => I (chebU k * chebU j) := by
  constructor
  · unfold ChebUMat.BUU
    lens_lit
  · intro k hk j hj
    rw [DMat.mat, denseAt_new _ _ _ _ _ hk hj, hI k hk j hj]
    unfold ChebUMat.BUU
    simp only [List.map_cons, List.map_nil, diagsEntry_lit_cons, diagsEntry_lit_nil, add_zero, DVal.get]
    by_cases h : k = j
    · subst h; simp
    · rw [if_neg (by omega), if_neg h]

/-- The exact norms are those of the weighted inner product. -/
example (tN uN : ℕ) : OrthogonalForm chebU (wIntL (a := 1/2) (b := 1/2) (by norm_num) (by norm_num)) tN uN
    (ChebUMat.normSq false tN) := fun m _ n _ => by
  have := C51_chebyshevu m n
  show wInt _ _ _ = _
  rw [this]
  simp [chebuL2, ChebUMat.normSq]

/-- `hF` of the second derivatives of the first-kind polynomials. -/
theorem one_sub_sq_T2 (k : ℕ) : (1 - X^2) * derivative^[2] (chebT (k+2)) =
    C (((k:ℝ)+2) / 2) * (C ((k:ℝ)+3) * chebU k - C ((k:ℝ)+1) * chebU (k+2)) := by
  have h1 := Polynomial.Chebyshev.T_derivative_eq_U (R := ℝ) ((k+2:ℕ):ℤ)
  have h2 := Polynomial.Chebyshev.add_one_mul_T_eq_poly_in_U (R := ℝ) ((k+1:ℕ):ℤ)
  have h3 := Polynomial.Chebyshev.T_eq_U_sub_X_mul_U ℝ ((k+2:ℕ):ℤ)
  have h4 := Polynomial.Chebyshev.U_add_two ℝ (k:ℤ)
  unfold chebU chebT
  show (1 - X^2) * derivative (derivative _) = _
  rw [h1]
  rw [show ((k+2:ℕ):ℤ) - 1 = (k:ℤ) + 1 by push_cast; ring] at *
  push_cast at *
  rw [show (k:ℤ) + 1 + 1 = k + 2 by ring] at h2
  have c2 : (C (2:ℝ) : ℝ[X]) = 2 := rfl
  have c3 : (C (3:ℝ) : ℝ[X]) = 3 := rfl
  have e : ((k:ℝ[X]) + 2) = C ((k:ℝ)+2) := by simp [c2]
  have e3 : C ((k:ℝ)+3) = ((k:ℝ[X]) + 3) := by simp [c3]
  have e1 : C ((k:ℝ)+1) = ((k:ℝ[X]) + 1) := by simp
  have e2 : C (((k:ℝ)+2)/2) * 2 = (k:ℝ[X]) + 2 := by
    rw [← c2, ← C_mul, div_mul_cancel₀ _ (by norm_num), c2, ← e]
  rw [e3, e1, e, derivative_C_mul, ← e]
  generalize C (((k:ℝ)+2)/2) = h at *
  have ek : (k:ℝ[X]) = h * 2 - 2 := by linear_combination -e2
  rw [ek] at h2 ⊢
  linear_combination (2*h) * h2 - 4*h^2 * h3 - h*(1+2*h) * h4

theorem hF_cheb_two (k : ℕ) : hF (-(1/2)) (-(1/2)) (k+2) 2 (cnF (-(1/2)) (-(1/2))) =
    Real.pi / 2 * ((k+1) * (k+2)^2 * (k+3)) := by
  have h := scaledJacobi_chebT
  have hh := C51_h h.ha h.hb (cnF (-(1/2)) (-(1/2))) 2 (k+2) (k+2) (by omega) (by omega) (Or.inl (by omega))
  rw [if_pos rfl, ← h.hQ, wInt_add_nat h.ha h.hb] at hh
  rw [← hh]
  have hp := Real.pi_ne_zero
  have e : (1 - X^2)^2 * (derivative^[2] (chebT (k+2)) * derivative^[2] (chebT (k+2))) =
      lc chebT [(k, ((k:ℝ)+2)*(k+3)/4), (k+2, -(((k:ℝ)+2)*(k+3)/4 + ((k:ℝ)+2)*(k+1)/4)), (k+4, ((k:ℝ)+2)*(k+1)/4)] *
        derivative^[2] (lc chebT [(k+2, 1)]) := by
    rw [← chebT_lc, pow_two (1 - X^2 : ℝ[X]), mul_assoc, ← mul_assoc (1 - X^2 : ℝ[X]) (derivative^[2] _), one_sub_sq_T2,
      ← mul_assoc]
    congr 1
    rw [mul_left_comm, mul_sub, mul_left_comm, one_sub_sq_chebU, mul_left_comm (1 - X^2), one_sub_sq_chebU]
    simp only [lc, List.map_cons, List.map_nil, List.sum_cons, List.sum_nil, add_zero]
    rw [show ((k:ℝ)+2)*(k+3)/4 = ((k:ℝ)+2)/2 * (k+3) * (1/2) by ring, show ((k:ℝ)+2)*(k+1)/4 = ((k:ℝ)+2)/2 * (k+1) * (1/2) by ring]
    generalize ((k:ℝ)+2)/2 = a
    generalize (k:ℝ)+3 = b
    generalize (k:ℝ)+1 = c
    simp only [C_neg, C_add, C_mul]
    ring
  rw [e]
  show chebForm 2 _ _ = _
  rw [chebForm_lc 2 _ chebI_two]
  simp only [List.map_cons, List.map_nil, List.sum_cons, List.sum_nil, chebC2]
  entry_close

/-- The test functions of `Lmat(2, 0, 2, ...)` times the first-kind weight are the `Phi1` functions times the second-kind
weight. -/
theorem phiK_cheb_two {scaled : Bool} {N k : ℕ} (hk : k < N - 2) :
    (1 - X^2) * chebuP1 scaled N k =
      C (p1Scale scaled k * (k+2)) * phiK (-(1/2)) (-(1/2)) (cnF (-(1/2)) (-(1/2))) chebT 2 k := by
  have hp := Real.pi_ne_zero
  have h1 : (k:ℝ) + 1 ≠ 0 := by positivity
  have h2 : (k:ℝ) + 2 ≠ 0 := by positivity
  have h3 : (k:ℝ) + 3 ≠ 0 := by positivity
  unfold phiK
  rw [hF_cheb_two, pow_two (1 - X^2 : ℝ[X]), mul_assoc (1 - X^2 : ℝ[X]), one_sub_sq_T2, chebuP1_eq hk]
  rw [mul_left_comm (C (1 / _)), mul_left_comm (C (p1Scale scaled k * (k+2)))]
  congr 1
  simp only [mul_sub, ← mul_assoc, ← C_mul]
  congr 3 <;> field_simp

/-- The entries of `B2 * K.T` are inner products. -/
theorem BP1_entry (scaled : Bool) (st : Stencil) (N k j : ℕ) (hk : k < N - 2) (hj : j < N - 2) :
    (∑ i ∈ Finset.range (N - 2 + 2),
      (if scaled then Lmat 2 0 2 (N-2) (N-2+2) (-(1/2)) (-(1/2)) (cnF (-(1/2)) (-(1/2))) k i else
        ((k:ℝ) + 2) * Lmat 2 0 2 (N-2) (N-2+2) (-(1/2)) (-(1/2)) (cnF (-(1/2)) (-(1/2))) k i) *
      SM.denseAt { stencilMatrix st N 2 with rows := N - 2, cols := N - 2 + 2 } j i) =
    wInt (1/2) (1/2) (chebuP1 scaled N k * basisFunction chebT (stencilMatrix st N 2) j) := by
  rw [wInt_chebuP1, phiK_cheb_two hk]
  have hN : N - 2 + 2 = N := by omega
  show _ = wInt _ _ _
  rw [mul_assoc, wInt_C_mul]
  unfold basisFunction
  rw [Finset.mul_sum, wInt_sum (by norm_num) (by norm_num), Finset.mul_sum]
  rw [show (stencilMatrix st N 2).cols = N - 2 + 2 from hN.symm]
  refine Finset.sum_congr rfl fun i hi => ?_
  rw [C53_Lmat scaledJacobi_chebT (by norm_num) (by norm_num) _ _ _ _ hk (Finset.mem_range.1 hi), pow_zero, one_mul,
    mul_left_comm, wInt_C_mul, mul_comm (phiK _ _ _ _ _ _)]
  rw [SM.denseAt, if_pos (show j < N - 2 ∧ i < N - 2 + 2 from ⟨hj, Finset.mem_range.1 hi⟩)]
  have h2 : (k:ℝ) + 2 ≠ 0 := by positivity
  show (if scaled = true then _ else _) * ((stencilMatrix st N 2).scale * diagsEntry (stencilMatrix st N 2).diags j i) = _
  cases scaled
  · simp only [p1Scale, Bool.false_eq_true, if_false]
    rw [show (2 - 2 : ℕ) = 0 from rfl]
    simp only [Function.iterate_zero, id]
    ring
  · simp only [p1Scale, if_true]
    rw [show (2 - 2 : ℕ) = 0 from rfl]
    simp only [Function.iterate_zero, id]
    field_simp

theorem diagsEntry_four (M : ℤ → ℤ → ℝ) (L : ℤ → ℕ) (k j : ℕ) :
    diagsEntry ((([-2, 0, 2, 4] : List ℤ).map fun o => (o, DVal.array (L o) (diagOf M o))).map fun e => (e.1, e.2.get)) k j =
      if (j:ℤ) - k = -2 ∨ (j:ℤ) - k = 0 ∨ (j:ℤ) - k = 2 ∨ (j:ℤ) - k = 4 then M k j else 0 := by
  simp only [List.map_cons, List.map_nil, diagsEntry_lit_cons, diagsEntry_lit_nil, add_zero, DVal.get, diagOf]
  by_cases h1 : (j:ℤ) - k = -2
  · obtain rfl : k = j + 2 := by omega
    ifs
    simp
  by_cases h2 : (j:ℤ) - k = 0
  · obtain rfl : k = j := by omega
    ifs
    simp
  by_cases h3 : (j:ℤ) - k = 2
  · obtain rfl : j = k + 2 := by omega
    ifs
    simp
  by_cases h4 : (j:ℤ) - k = 4
  · obtain rfl : j = k + 4 := by omega
    ifs
    simp
  · ifs
    simp

theorem denseAt_BP1 (scaled : Bool) (st : Stencil) (N k j : ℕ) (hk : k < N - 2) (hj : j < N - 2) :
    ((ChebUMat.BP1 scaled st N).mat (N-2) (N-2)).denseAt k j =
      if (j:ℤ) - k = -2 ∨ (j:ℤ) - k = 0 ∨ (j:ℤ) - k = 2 ∨ (j:ℤ) - k = 4 then
        wInt (1/2) (1/2) (chebuP1 scaled N k * basisFunction chebT (stencilMatrix st N 2) j) else 0 := by
  rw [DMat.mat, denseAt_new _ _ _ _ _ hk hj, ← BP1_entry scaled st N k j hk hj]
  unfold ChebUMat.BP1
  dsimp only
  rw [diagsEntry_four]
  simp only [Int.toNat_natCast]

theorem fits_BP1 (scaled : Bool) (st : Stencil) (N : ℕ) :
    ∀ e ∈ ChebUMat.BP1 scaled st N, e.2.Fits (diagLength (N-2) (N-2) e.1) := by
  intro e he
  simp only [ChebUMat.BP1, List.mem_map] at he
  obtain ⟨o, -, rfl⟩ := he
  rfl

/-- Off the four diagonals the inner products vanish. -/
theorem chebuP1_band (scaled : Bool) (N k j : ℕ) (hk : k < N - 2) (c : ℝ)
    (h : ¬ ((j:ℤ) - k = -2 ∨ (j:ℤ) - k = 0 ∨ (j:ℤ) - k = 2 ∨ (j:ℤ) - k = 4)) :
    wInt (1/2) (1/2) (chebuP1 scaled N k * lc chebT [(j, 1), (j+2, c)]) = 0 := by
  rw [wInt_chebuP1, one_sub_sq_chebuP1 hk]
  rw [show (lc chebT [(j, 1), (j+2, c)]) = derivative^[0] (lc chebT [(j, 1), (j+2, c)]) from rfl]
  show chebForm 0 _ (lc chebT [(j, 1), (j+2, c)]) = _
  rw [chebForm_lc 0 _ chebI_zero]
  simp only [List.map_cons, List.map_nil, List.sum_cons, List.sum_nil, chebC0]
  ifs
  simp

/-- **C79** `BP1SDmat`: the four stored diagonals are all of the matrix `(ψ_j, φ_k)_w`, `w = (1-x²)^{1/2}`, of first-kind
`ShenDirichlet` against second-kind `Phi1` (scaled or not), for every size. -/
theorem C79_BP1SD (scaled : Bool) (N : ℕ) :
    IsMatrixOf (ChebUMat.BP1SD scaled N) (N-2) (N-2) fun k j => wInt (1/2) (1/2) (chebuP1 scaled N k * chebSD N j) := by
  refine ⟨fits_BP1 _ _ _, fun k hk j hj => ?_⟩
  rw [ChebUMat.BP1SD, denseAt_BP1 _ _ _ _ _ hk hj]
  split_ifs with h
  · rfl
  · rw [chebSD_lc hj, chebuP1_band _ _ _ _ hk _ h]

/-- **C79** `BP1SNmat`, the same with first-kind `ShenNeumann`. -/
theorem C79_BP1SN (scaled : Bool) (N : ℕ) :
    IsMatrixOf (ChebUMat.BP1SN scaled N) (N-2) (N-2) fun k j => wInt (1/2) (1/2) (chebuP1 scaled N k * chebSN N j) := by
  refine ⟨fits_BP1 _ _ _, fun k hk j hj => ?_⟩
  rw [ChebUMat.BP1SN, denseAt_BP1 _ _ _ _ _ hk hj]
  split_ifs with h
  · rfl
  · rw [chebSN_lc hj, chebuP1_band _ _ _ _ hk _ h]

/-- A concrete entry: in `AP1SDmat` with `N = 8`, unscaled, row 1 column 3 holds 3, which is the inner product. -/
example : wInt (1/2) (1/2) (chebuP1 false 8 1 * derivative^[2] (chebSD 8 3)) = 3 := by
  rw [← (C79_AP1SD false 8).entries 1 (by norm_num) 3 (by norm_num), DMat.mat, denseAt_new _ _ _ _ _ (by norm_num) (by norm_num)]
  simp only [ChebUMat.AP1SD, Bool.false_eq_true, if_false, List.map_cons, List.map_nil, diagsEntry_lit_cons, diagsEntry_lit_nil,
    DVal.get]
  norm_num

end Shenfun
