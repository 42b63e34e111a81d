import Verif.Props.Matvecs

/-!
# C69: matrix-vector products with running sums
-/

namespace Shenfun

open Polynomial Spec Finset ChebLA

set_option linter.unusedSimpArgs false

namespace SpecMat

/-- A row with a diagonal entry and a tail of the same parity. -/
theorem sum_diag_tail (n i : ℕ) (hi : i < n) (d : ℝ) (g v : ℕ → ℝ) :
    ∑ j ∈ range n, (if j = i then d else if i < j ∧ j % 2 = i % 2 then g j else 0) * v j =
      d * v i + pSum n ((i+2)%2) (i+2) fun j => g j * v j := by
  rw [← sum_row, show d * v i = ∑ j ∈ range n, if j = i then d * v j else 0 by
    rw [Finset.sum_ite_eq' (range n) i fun j => d * v j, if_pos (Finset.mem_range.2 hi)], ← Finset.sum_add_distrib]
  refine Finset.sum_congr rfl fun j _ => ?_
  by_cases h : j = i
  · subst h; rw [if_pos rfl, if_pos rfl, if_neg (by omega)]; ring
  · rw [if_neg h, if_neg h, zero_add]
    congr 1
    exact if_congr (by omega) rfl rfl

/-- A row with a tail only. -/
theorem sum_tail (n i off : ℕ) (g v : ℕ → ℝ) :
    ∑ j ∈ range n, (if i + off ≤ j ∧ j % 2 = (i + off) % 2 then g j else 0) * v j =
      pSum n ((i+off)%2) (i+off) fun j => g j * v j := sum_row _ _ _ _ _

/-! ## Entries -/

theorem ctt_entry {N i j : ℕ} (hi : i < N) (hj : j < N) :
    chebForm 1 (chebT i) (chebT j) = if i + 1 ≤ j ∧ j % 2 = (i + 1) % 2 then Real.pi * j else 0 := by
  rw [← (C28_cheb_CTT N N le_rfl).entries i hi j hj, DMat.mat, denseAt_new _ _ _ _ _ hi hj, ChebMat.CTT, diagsEntry_fromkeys2]
  by_cases h : i + 1 ≤ j ∧ j % 2 = (i + 1) % 2
  · rw [if_pos h, if_pos (by omega), if_pos (by omega)]
    show Real.pi * ((i + ((j:ℤ) - i).toNat : ℕ) : ℝ) = _
    rw [(by omega : i + ((j:ℤ) - i).toNat = j)]
  · rw [if_neg h, if_neg (by omega)]

theorem att_entry {N i j : ℕ} (hi : i < N) (hj : j < N) :
    chebForm 2 (chebT i) (chebT j) =
      if i + 2 ≤ j ∧ j % 2 = (i + 2) % 2 then (j:ℝ) * ((j:ℝ) ^ 2 - (i:ℝ) ^ 2) * Real.pi / 2 else 0 := by
  rw [← (C28_cheb_ATT N N le_rfl).entries i hi j hj, DMat.mat, denseAt_new _ _ _ _ _ hi hj, ChebMat.ATT, diagsEntry_fromkeys2]
  by_cases h : i + 2 ≤ j ∧ j % 2 = (i + 2) % 2
  · rw [if_pos h, if_pos (by omega), if_pos (by omega)]
    show ((i + ((j:ℤ) - i).toNat : ℕ) : ℝ) * (((i + ((j:ℤ) - i).toNat : ℕ) : ℝ) ^ 2 - (i:ℝ) ^ 2) * Real.pi / 2 = _
    rw [(by omega : i + ((j:ℤ) - i).toNat = j)]
  · rw [if_neg h, if_neg (by omega)]

theorem ctsd_entry {N i j : ℕ} (hi : i < N) (hj : j < N - 2) :
    chebForm 1 (chebT i) (chebSD N j) =
      (if (j:ℤ) = i + -1 then -((i:ℝ) + 1) * Real.pi else 0) +
        (if i + 1 ≤ j ∧ j % 2 = (i + 1) % 2 then -2 * Real.pi else 0) := by
  rw [← (C28_cheb_CTSD N).entries i hi j hj, DMat.mat, denseAt_new _ _ _ _ _ hi hj, ChebMat.CTSD, diagsEntry_fromkeys2]
  by_cases h : (j:ℤ) = i + -1
  · obtain rfl : i = j + 1 := by omega
    rw [if_pos (by omega), if_pos (by push_cast; omega), if_pos h, if_neg (by omega), if_neg (by omega), add_zero]
    show -(((j + 1 : ℕ):ℝ) + 1) * Real.pi = _
    rfl
  · rw [if_neg h, zero_add]
    by_cases h2 : i + 1 ≤ j ∧ j % 2 = (i + 1) % 2
    · rw [if_pos (by omega), if_neg (by omega), if_pos h2]; rfl
    · rw [if_neg (by omega), if_neg h2]

theorem cll_entry {N i j : ℕ} (hi : i < N) (hj : j < N) :
    legForm 0 1 1 (legP i) (legP j) = if i + 1 ≤ j ∧ j % 2 = (i + 1) % 2 then 2 else 0 := by
  rw [← (C56_leg_CLL N N).entries i hi j hj, DMat.mat, denseAt_new _ _ _ _ _ hi hj, LegMat.CLL, diagsEntry_fromkeys2]
  by_cases h : i + 1 ≤ j ∧ j % 2 = (i + 1) % 2
  · rw [if_pos h, if_pos (by omega)]; rfl
  · rw [if_neg h, if_neg (by omega)]

theorem all_entry {N i j : ℕ} (hi : i < N) (hj : j < N) :
    legForm 0 2 1 (legP i) (legP j) =
      if i + 2 ≤ j ∧ j % 2 = (i + 2) % 2 then ((i:ℝ) + 1/2) * (j * (j + 1) - i * (i + 1)) * 2 / (2 * i + 1) else 0 := by
  rw [← (C56_leg_ALL N N le_rfl).entries i hi j hj, DMat.mat, denseAt_new _ _ _ _ _ hi hj, LegMat.ALL, diagsEntry_fromkeys2]
  by_cases h : i + 2 ≤ j ∧ j % 2 = (i + 2) % 2
  · rw [if_pos h, if_pos (by omega), if_pos (by omega)]
    show ((i:ℝ) + 1/2) * (((i + ((j:ℤ) - i).natAbs : ℕ) : ℝ) * (((i + ((j:ℤ) - i).natAbs : ℕ) : ℝ) + 1) - i * (i + 1)) * 2 / (2 * i + 1) = _
    rw [(by omega : i + ((j:ℤ) - i).natAbs = j)]
  · rw [if_neg h, if_neg (by omega)]

theorem legForm_sum (n : ℕ) (r m : ℕ) (v : ℝ[X]) (φ : ℕ → ℝ[X]) (x : ℕ → ℝ) :
    legForm r m 1 v (∑ j ∈ range n, C (x j) * φ j) = ∑ j ∈ range n, legForm r m 1 v (φ j) * x j := by
  unfold legForm
  show legI _ = ∑ j ∈ range n, legI _ * x j
  have : (1 : ℝ[X]) * (derivative^[r] v * derivative^[m] (∑ j ∈ range n, C (x j) * φ j)) =
      ∑ j ∈ range n, x j • ((1 : ℝ[X]) * (derivative^[r] v * derivative^[m] (φ j))) := by
    rw [iterate_derivative_sum, Finset.mul_sum, Finset.mul_sum]
    refine Finset.sum_congr rfl fun j _ => ?_
    rw [iterate_derivative_C_mul, smul_eq_C_mul]
    ring
  rw [this, map_sum]
  refine Finset.sum_congr rfl fun j _ => ?_
  rw [map_smul, smul_eq_mul, mul_comm]

/-! ## Theorems -/

/-- **C69** `CTTmat`. -/
theorem C69_CTT (N : ℕ) (hN : 1 ≤ N) (ks s : ℝ) (hs : ScaleOK (s * ks)) (v : ℕ → ℝ) :
    IsFormProduct (chebForm 1) chebT chebT N N (s * ks) v (matvecCTT N ⟨ChebMat.CTT N N, ks, s⟩ v) := by
  have hk : ∀ i, kernelCTT N v zeros i = if i < N - 1 then Real.pi * pSum N ((i+1)%2) (i+1) (fun j => j * v j) else 0 := by
    intro i
    unfold kernelCTT
    try dsimp only
    rw [sumLoop_apply, (by omega : N - 1 + 1 = N)]
    simp only [Function.update_apply, zeros]
    split_ifs <;> rfl
  constructor
  · intro i hi
    show scaleArray _ _ i = _
    rw [scaleArray_apply _ _ hs, chebForm_sum, hk, mul_comm]
    congr 1
    rw [Finset.sum_congr rfl fun j hj => by rw [ctt_entry hi (Finset.mem_range.1 hj)], sum_tail]
    split_ifs with h
    · rw [mul_pSum]; congr 1; funext j; ring
    · exact (pSum_zero _ (by omega)).symm
  · intro i hi
    show scaleArray _ _ i = _
    rw [scaleArray_apply _ _ hs, hk, if_neg (by omega), zero_mul]

/-- **C69** `ATTmat`. -/
theorem C69_ATT (N : ℕ) (hN : 2 ≤ N) (ks s : ℝ) (hs : ScaleOK (s * ks)) (v : ℕ → ℝ) :
    IsFormProduct (chebForm 2) chebT chebT N N (s * ks) v (matvecATT N ⟨ChebMat.ATT N N, ks, s⟩ v) := by
  have hk : ∀ i, kernelATT N v zeros i = if i < N - 2 then
      Real.pi / 2 * pSum N ((i+2)%2) (i+2) (fun j => (j:ℝ) ^ 3 * v j) -
        Real.pi / 2 * (i:ℝ) ^ 2 * pSum N ((i+2)%2) (i+2) (fun j => j * v j) else 0 := by
    intro i
    unfold kernelATT
    try dsimp only
    rw [sumLoop_apply, (by omega : N - 2 + 2 = N)]
    simp only [Function.update_apply, zeros]
    split_ifs <;> rfl
  constructor
  · intro i hi
    show scaleArray _ _ i = _
    rw [scaleArray_apply _ _ hs, chebForm_sum, hk, mul_comm]
    congr 1
    rw [Finset.sum_congr rfl fun j hj => by rw [att_entry hi (Finset.mem_range.1 hj)], sum_tail]
    split_ifs with h
    · rw [mul_pSum, mul_pSum, pSum_sub]; congr 1; funext j; ring
    · exact (pSum_zero _ (by omega)).symm
  · intro i hi
    show scaleArray _ _ i = _
    rw [scaleArray_apply _ _ hs, hk, if_neg (by omega), zero_mul]

/-- **C69** `CTSDmat`, when no factor has been multiplied into the diagonals. -/
theorem C69_CTSD (N : ℕ) (hN : 4 ≤ N) (s : ℝ) (hs : ScaleOK s) (v : ℕ → ℝ) :
    IsFormProduct (chebForm 1) chebT (chebSD N) N (N-2) s v (matvecCTSD N ⟨ChebMat.CTSD N, 1, s⟩ v) := by
  have hk : ∀ i < N, kernelCTSD N v zeros i = (if 0 < i ∧ i < N - 1 then -((i:ℝ) + 1) * Real.pi * v (i-1) else 0) -
      pSum (N-2) ((i+1)%2) (i+1) v * (2 * Real.pi) := by
    intro i hi
    unfold kernelCTSD
    try dsimp only
    rw [sumLoop_apply, (by omega : N - 3 + 1 = N - 2)]
    simp only [Function.update_apply, zeros]
    rcases (by omega : i < N - 3 ∨ i = N - 3 ∨ i = N - 2 ∨ i = N - 1) with h | h | h | h
    · rw [if_pos h]
      congr 1
      exact if_congr (by omega) rfl rfl
    · rw [if_neg (by omega), if_pos h, pSum_zero _ (by omega), zero_mul, sub_zero, if_pos (by omega), h]
      rw [show N - 3 - 1 = N - 4 by omega, Nat.cast_sub (by omega)]; push_cast; ring
    · rw [if_neg (by omega), if_neg (by omega), if_pos h, pSum_zero _ (by omega), zero_mul, sub_zero, if_pos (by omega), h]
      rw [show N - 2 - 1 = N - 3 by omega, Nat.cast_sub (by omega)]; push_cast; ring
    · rw [if_neg (by omega), if_neg (by omega), if_neg (by omega), if_pos h, pSum_zero _ (by omega), zero_mul, sub_zero, if_neg (by omega)]
  constructor
  · intro i hi
    show scaleArray _ _ i = _
    rw [scaleArray_apply _ _ hs, chebForm_sum, hk i hi, mul_comm]
    congr 1
    rw [Finset.sum_congr rfl fun j hj => by rw [ctsd_entry hi (Finset.mem_range.1 hj), add_mul], Finset.sum_add_distrib, sum_tail,
      sum_diag (N-2) i (-1) (fun _ => -((i:ℝ) + 1) * Real.pi) v, sub_eq_add_neg]
    congr 1
    · by_cases h : 0 < i ∧ i < N - 1
      · rw [if_pos h, if_pos (by omega), (by omega : ((i:ℤ) + -1).toNat = i - 1)]
      · rw [if_neg h, if_neg (by omega)]
    · rw [← mul_pSum]; ring
  · intro i hi
    show scaleArray _ _ i = _
    rw [scaleArray_apply _ _ hs]
    unfold kernelCTSD
    try dsimp only
    rw [sumLoop_apply, if_neg (by omega)]
    simp only [Function.update_apply, zeros]
    rw [if_neg (by omega), if_neg (by omega), if_neg (by omega), zero_mul]

/-- **C69** `ASDSDmat`. -/
theorem C69_ASDSD (N : ℕ) (hN : 4 ≤ N) (ks s : ℝ) (hks : ks ≠ 0) (hs : ScaleOK (s * ks)) (v : ℕ → ℝ) :
    IsFormProduct (chebForm 2) (chebSD N) (chebSD N) (N-2) (N-2) (s * ks) v (matvecASDSD (N-2) ⟨ChebMat.ASDSD N, ks, s⟩ v) := by
  have hd : (fun k => (SpecMat.mk (ChebMat.ASDSD N) ks s).get 0 k / ks) = fun t : ℕ => -2 * Real.pi * ((t:ℝ) + 1) * (t + 2) := by
    funext t
    rw [SpecMat.get, sdsd_at0 N (by omega), mul_div_cancel_left₀ _ hks]
  have hk : ∀ i, kernelADD (N-2) (fun t : ℕ => -2 * Real.pi * ((t:ℝ) + 1) * (t + 2)) v zeros i = if i < N - 2 then
      -2 * Real.pi * ((i:ℝ) + 1) * (i + 2) * v i + -4 * ((i:ℝ) + 1) * Real.pi * pSum (N-2) ((i+2)%2) (i+2) v else 0 := by
    intro i
    unfold kernelADD
    try dsimp only
    rw [sumLoop_apply, (by omega : N - 2 - 2 + 2 = N - 2)]
    simp only [Function.update_apply, zeros]
    split_ifs with h1 h2 h3 h4 h5 h6
    all_goals first
      | rfl
      | (exfalso; omega)
      | (rw [pSum_zero _ (by omega), mul_zero, add_zero]; subst_vars; rfl)
  constructor
  · intro i hi
    show scaleArray (kernelADD (N-2) (fun k => (SpecMat.mk (ChebMat.ASDSD N) ks s).get 0 k / ks) v zeros) _ i = _
    rw [hd, scaleArray_apply _ _ hs, chebForm_sum, hk, if_pos hi, mul_comm]
    congr 1
    rw [Finset.sum_congr rfl fun j hj => by rw [sdsd_entry hi (Finset.mem_range.1 hj)], sum_diag_tail _ _ hi, mul_pSum]
    congr 2; funext j; ring
  · intro i hi
    show scaleArray (kernelADD (N-2) (fun k => (SpecMat.mk (ChebMat.ASDSD N) ks s).get 0 k / ks) v zeros) _ i = _
    rw [hd, scaleArray_apply _ _ hs, hk, if_neg (by omega), zero_mul]

theorem ssbsb_at0 (N : ℕ) (hN : 5 ≤ N) (t : ℕ) :
    (ChebMat.SSBSB N).at 0 t = Real.pi * 8 * ((t:ℝ) + 1) ^ 2 * (t + 2) * (t + 4) := by
  rw [ChebMat.SSBSB, fromkeys2_at _ _ _ _ le_rfl (by omega) (by norm_num)]; rfl

/-- **C69** `SSBSBmat`. -/
theorem C69_SSBSB (N : ℕ) (hN : 6 ≤ N) (ks s : ℝ) (hks : ks ≠ 0) (hs : ScaleOK (s * ks)) (v : ℕ → ℝ) :
    IsFormProduct (chebForm 4) (chebSB N) (chebSB N) (N-4) (N-4) (s * ks) v (matvecSSBSB (N-4) ⟨ChebMat.SSBSB N, ks, s⟩ v) := by
  have hd : (fun k => (SpecMat.mk (ChebMat.SSBSB N) ks s).get 0 k / ks) =
      fun t : ℕ => Real.pi * 8 * ((t:ℝ) + 1) ^ 2 * (t + 2) * (t + 4) := by
    funext t
    rw [SpecMat.get, ssbsb_at0 N (by omega), mul_div_cancel_left₀ _ hks]
  have hk : ∀ i, kernelSBB (N-4) (fun t : ℕ => Real.pi * 8 * ((t:ℝ) + 1) ^ 2 * (t + 2) * (t + 4)) v zeros i = if i < N - 4 then
      Real.pi * 8 * ((i:ℝ) + 1) ^ 2 * (i + 2) * (i + 4) * v i +
        (i * (Real.pi * 8 * ((i:ℝ) + 1) ^ 2 * (i + 2) * (i + 4)) / (i + 1) * pSum (N-4) ((i+2)%2) (i+2) (fun j => v j / (j + 3)) +
        24 * (i + 1) * (i + 2) * Real.pi * pSum (N-4) ((i+2)%2) (i+2) (fun j => (j + 2) * (j + 2) * (v j / (j + 3)))) else 0 := by
    intro i
    unfold kernelSBB
    try dsimp only
    rw [sumLoop_apply, (by omega : N - 4 - 2 + 2 = N - 4)]
    simp only [Function.update_apply, zeros]
    split_ifs with h1 h2 h3 h4 h5 h6
    all_goals first
      | (exfalso; omega)
      | (rw [add_assoc])
      | rfl
      | (rw [pSum_zero _ (by omega), pSum_zero _ (by omega), mul_zero, mul_zero, add_zero, add_zero]; subst_vars; rfl)
  constructor
  · intro i hi
    show scaleArray (kernelSBB (N-4) (fun k => (SpecMat.mk (ChebMat.SSBSB N) ks s).get 0 k / ks) v zeros) _ i = _
    rw [hd, scaleArray_apply _ _ hs, chebForm_sum, hk, if_pos hi, mul_comm]
    congr 1
    rw [Finset.sum_congr rfl fun j hj => by rw [ssbsb_entry hi (Finset.mem_range.1 hj)], sum_diag_tail _ _ hi, mul_pSum, mul_pSum, pSum_add]
    congr 2; funext j
    have h1 : ((i:ℝ) + 1) ≠ 0 := by positivity
    have h2 : ((j:ℝ) + 3) ≠ 0 := by positivity
    field_simp
    ring
  · intro i hi
    show scaleArray (kernelSBB (N-4) (fun k => (SpecMat.mk (ChebMat.SSBSB N) ks s).get 0 k / ks) v zeros) _ i = _
    rw [hd, scaleArray_apply _ _ hs, hk, if_neg (by omega), zero_mul]

/-- **C69** `CLLmat` of Legendre, compiled. -/
theorem C69_CLL (N : ℕ) (hN : 1 ≤ N) (ks s : ℝ) (hs : ScaleOK (s * ks)) (v : ℕ → ℝ) :
    IsFormProduct (legForm 0 1 1) legP legP N N (s * ks) v (matvecCLL N ⟨LegMat.CLL N, ks, s⟩ v) := by
  have hk : ∀ i, kernelCLL N v zeros i = if i < N - 1 then 2 * pSum N ((i+1)%2) (i+1) v else 0 := by
    intro i
    unfold kernelCLL
    try dsimp only
    rw [sumLoop_apply, (by omega : N - 1 + 1 = N)]
    simp only [Function.update_apply, zeros]
    split_ifs <;> rfl
  constructor
  · intro i hi
    show scaleArray _ _ i = _
    rw [scaleArray_apply _ _ hs, legForm_sum, hk, mul_comm]
    congr 1
    rw [Finset.sum_congr rfl fun j hj => by rw [cll_entry hi (Finset.mem_range.1 hj)], sum_tail]
    split_ifs with h
    · rw [mul_pSum]
    · exact (pSum_zero _ (by omega)).symm
  · intro i hi
    show scaleArray _ _ i = _
    rw [scaleArray_apply _ _ hs, hk, if_neg (by omega), zero_mul]

/-- **C69** the unused kernel `GLL_matvec` multiplies with the second-derivative matrix of Legendre polynomials. -/
theorem C69_GLL_kernel (N : ℕ) (hN : 2 ≤ N) (v : ℕ → ℝ) :
    IsFormProduct (legForm 0 2 1) legP legP N N 1 v (kernelGLL N v zeros) := by
  have hk : ∀ i, kernelGLL N v zeros i = if i < N - 2 then
      2 * ((i:ℝ) + 0.5) / (2 * i + 1) * pSum N ((i+2)%2) (i+2) (fun j => j * (j + 1) * v j) -
        2 * ((i:ℝ) + 0.5) / (2 * i + 1) * i * (i + 1) * pSum N ((i+2)%2) (i+2) v else 0 := by
    intro i
    unfold kernelGLL
    try dsimp only
    rw [sumLoop_apply, (by omega : N - 2 + 2 = N)]
    simp only [Function.update_apply, zeros]
    split_ifs <;> rfl
  constructor
  · intro i hi
    rw [legForm_sum, hk, one_mul]
    rw [Finset.sum_congr rfl fun j hj => by rw [all_entry hi (Finset.mem_range.1 hj)], sum_tail]
    split_ifs with h
    · rw [mul_pSum, mul_pSum, pSum_sub]; congr 1; funext j
      ring
    · exact (pSum_zero _ (by omega)).symm
  · intro i hi
    rw [hk, if_neg (by omega)]

end SpecMat

end Shenfun
