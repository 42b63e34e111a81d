import Verif.Props.ChebMatrices

/-!
# C28: Chebyshev matrices of bases with their own stencil, the norms, and the matrices that are wrong
-/

namespace Shenfun

open Polynomial Spec Function

set_option linter.unusedSimpArgs false
set_option linter.unusedTactic false
set_option linter.unreachableTactic false
set_option linter.unusedVariables false

/-! ## Rows -/

/-- The factor `1/((k+1)(k+2))` of scaled bases. -/
noncomputable def hhScale (scaled : Bool) (k : ℕ) : ℝ := if scaled then 1 / (((k:ℝ) + 1) * (k + 2)) else 1

theorem chebHH_lc {scaled : Bool} {N k : ℕ} (hk : k < N - 2) :
    chebHH scaled N k = lc chebT (if k = 0 then [(0, 1/2 * hhScale scaled 0), (2, -1/2 * hhScale scaled 0)]
      else if k = 1 then [(1, 1/4 * hhScale scaled 1), (3, -1/4 * hhScale scaled 1)]
      else [(k - 2, -1/4 * hhScale scaled k), (k, 1/2 * hhScale scaled k), (k+2, -1/4 * hhScale scaled k)]) := by
  have hk2 : k < N - 2 := hk
  cases scaled <;> simp only [chebHH, ChebStencil.heinrichs, if_true, if_false, Bool.false_eq_true, hhScale] <;>
    rw [row3 chebT _ _ _ N k hk] <;> unfold lc <;> congr 1 <;> rcases k with _ | _ | k
  · have h2 : 2 < N := by omega
    simp [ChebStencil.zeroTail, h2]
  · simp [Function.update]
  · have h3 : k < N - 2 - 2 := by omega
    simp [ChebStencil.zeroTail, h3, hk2, Function.update]
  · have h2 : 2 < N := by omega
    simp [ChebStencil.zeroTail, h2, div_eq_mul_inv]
  · simp [Function.update, div_eq_mul_inv]
  · have h3 : k < N - 2 - 2 := by omega
    simp [ChebStencil.zeroTail, h3, hk2, Function.update, div_eq_mul_inv]
    left
    rw [show (k:ℝ) + 1 + 1 + 2 = k + 4 by ring, show (k:ℝ) + 1 + 1 + 1 = k + 3 by ring]

theorem chebCN_lc {N k : ℕ} (hk : k < N - 2) :
    chebCN N k = lc chebT (if k = 0 then [(0, 1), (2, 0)] else if k = 1 then [(1, 1), (3, -1/9)]
      else if k = 2 then [(2, 1/4), (4, -1/16)]
      else [(k - 2, -1 / ((k:ℝ) - 2)^2), (k, 2 / (k:ℝ)^2), (k+2, -1 / ((k:ℝ) + 2)^2)]) := by
  have hk2 : k < N - 2 := hk
  simp only [chebCN, ChebStencil.combinedShenNeumann]
  rw [row3 chebT _ _ _ N k hk]
  rcases k with _ | _ | _ | k
  · simp [lc]
  · simp [lc, Function.update]; norm_num
  · have h3 : 0 < N - 2 - 2 := by omega
    simp [lc, ChebStencil.zeroTail, h3, Function.update]; norm_num
  · have h3 : k + 1 < N - 2 - 2 := by omega
    have e1 : (k:ℝ) + 1 + 1 + 1 - 2 = k + 1 := by ring
    simp [lc, ChebStencil.zeroTail, h3, hk2, Function.update, e1]

theorem chebMN_lc {N k : ℕ} (hk : k < N - 2) :
    chebMN N k = lc chebT (if k = 0 then [(0, 1), (2, 0)] else if k = 1 then [(1, 3/2), (3, -1/6)]
      else if k = 2 then [(2, 1/3), (4, -1/12)]
      else [(k - 2, -1 / ((k:ℝ) - 2) / (k + 1)), (k, 2 / (k:ℝ) / (k + 1)), (k+2, -1 / ((k:ℝ) + 2) / (k + 1))]) := by
  have hk2 : k < N - 2 := hk
  simp only [chebMN, ChebStencil.mikNeumann]
  rw [row3 chebT _ _ _ N k hk]
  rcases k with _ | _ | _ | k
  · simp [lc]
  · simp [lc, Function.update]; norm_num
  · have h3 : 0 < N - 2 - 2 := by omega
    simp [lc, ChebStencil.zeroTail, h3, Function.update]; norm_num
  · have h3 : k + 1 < N - 2 - 2 := by omega
    have e1 : (k:ℝ) + 1 + 1 + 1 - 2 = k + 1 := by ring
    have e2 : (k:ℝ) + 1 + 1 + 1 + 2 - 1 = k + 4 := by ring
    have e3 : (k:ℝ) + 1 + 1 + 1 + 1 = k + 4 := by ring
    simp [lc, ChebStencil.zeroTail, h3, hk2, Function.update, e1, e2, e3]
    left
    ring_nf


theorem chebHH_zero {scaled : Bool} {N : ℕ} (hk : 0 < N - 2) :
    chebHH scaled N 0 = lc chebT [(0, 1/2 * hhScale scaled 0), (2, -1/2 * hhScale scaled 0)] := by simp [chebHH_lc hk]
theorem chebHH_one {scaled : Bool} {N : ℕ} (hk : 1 < N - 2) :
    chebHH scaled N 1 = lc chebT [(1, 1/4 * hhScale scaled 1), (3, -1/4 * hhScale scaled 1)] := by simp [chebHH_lc hk]
theorem chebHH_add_two {scaled : Bool} {N m : ℕ} (hk : m + 2 < N - 2) : chebHH scaled N (m+2) =
    lc chebT [(m, -1/4 * hhScale scaled (m+2)), (m+2, 1/2 * hhScale scaled (m+2)), (m+4, -1/4 * hhScale scaled (m+2))] := by
  simp [chebHH_lc hk]

theorem chebCN_zero {N : ℕ} (hk : 0 < N - 2) : chebCN N 0 = lc chebT [(0, 1), (2, 0)] := by simp [chebCN_lc hk]
theorem chebCN_one {N : ℕ} (hk : 1 < N - 2) : chebCN N 1 = lc chebT [(1, 1), (3, -1/9)] := by simp [chebCN_lc hk]
theorem chebCN_two {N : ℕ} (hk : 2 < N - 2) : chebCN N 2 = lc chebT [(2, 1/4), (4, -1/16)] := by simp [chebCN_lc hk]
theorem chebCN_add_three {N m : ℕ} (hk : m + 3 < N - 2) : chebCN N (m+3) =
    lc chebT [(m + 1, -1 / ((m:ℝ) + 1)^2), (m+3, 2 / ((m:ℝ) + 3)^2), (m+5, -1 / ((m:ℝ) + 5)^2)] := by
  rw [chebCN_lc hk, if_neg (by omega), if_neg (by omega), if_neg (by omega)]
  push_cast
  rw [show (m:ℝ) + 3 - 2 = m + 1 by ring, show (m:ℝ) + 3 + 2 = m + 5 by ring]

theorem chebMN_zero {N : ℕ} (hk : 0 < N - 2) : chebMN N 0 = lc chebT [(0, 1), (2, 0)] := by simp [chebMN_lc hk]
theorem chebMN_one {N : ℕ} (hk : 1 < N - 2) : chebMN N 1 = lc chebT [(1, 3/2), (3, -1/6)] := by simp [chebMN_lc hk]
theorem chebMN_two {N : ℕ} (hk : 2 < N - 2) : chebMN N 2 = lc chebT [(2, 1/3), (4, -1/12)] := by simp [chebMN_lc hk]
theorem chebMN_add_three {N m : ℕ} (hk : m + 3 < N - 2) : chebMN N (m+3) =
    lc chebT [(m + 1, -1 / ((m:ℝ) + 1) / (m + 4)), (m+3, 2 / ((m:ℝ) + 3) / (m + 4)), (m+5, -1 / ((m:ℝ) + 5) / (m + 4))] := by
  rw [chebMN_lc hk, if_neg (by omega), if_neg (by omega), if_neg (by omega)]
  push_cast
  rw [show (m:ℝ) + 3 - 2 = m + 1 by ring, show (m:ℝ) + 3 + 2 = m + 5 by ring, show (m:ℝ) + 3 + 1 = m + 4 by ring]

/-! ## The matrices -/

theorem entry_dist2 (k j : ℕ) : (∃ s, k = j + 5 + s) ∨ k = j + 4 ∨ k = j + 3 ∨ k = j + 2 ∨ k = j + 1 ∨ j = k ∨ j = k + 1 ∨
    j = k + 2 ∨ j = k + 3 ∨ j = k + 4 ∨ ∃ s, j = k + 5 + s := by
  rcases entry_dist k j with h | h | h | h | h | h | h | h | h | h | h <;> try tauto
  exact Or.inl ⟨k - j - 5, by omega⟩

theorem add_three_sub_two (x : ℝ) : x + 3 - 2 = x + 1 := by ring

/-- Close one case. -/
macro "special_close" : tactic => `(tactic|
  (simp only [chebC2]
   try ifs
   try simp only [DVal.get, toNat_cast_add_sub, toNat_cast_add_add_sub, Function.update, dite_eq_ite]
   try ifs
   try push_cast
   try simp only [add_three_sub_two]
   try norm_num
   try field_simp
   try ring))

macro "special_close2" s:ident : tactic => `(tactic|
  first | (special_close; done) | (by_cases hp : $s % 2 = 0 <;> special_close; done) | skip)

/-- One index is a literal. -/
macro "special_lit" n:ident : tactic => `(tactic|
  (rcases ($n) with _ | _ | _ | _ | _ | s
   all_goals special_close2 s))

/-- No index is a literal. -/
macro "special_gen" k:ident j:ident : tactic => `(tactic|
  (rcases entry_dist2 $k $j with ⟨s, hd⟩ | hd | hd | hd | hd | hd | hd | hd | hd | hd | ⟨s, hd⟩
   all_goals subst hd
   all_goals special_close2 s))

set_option maxHeartbeats 2000000 in
/-- **C28** `ACNCNmat`. -/
theorem C28_cheb_ACNCN (N : ℕ) :
    IsMatrixOf (ChebMat.ACNCN N) (N-2) (N-2) fun k j => chebForm 2 (chebCN N k) (chebCN N j) := by
  unfold ChebMat.ACNCN
  try dsimp only
  constructor
  · lens_lit
  · intro k hk j hj
    show _ = chebForm 2 (chebCN N k) (chebCN N j)
    rw [DMat.mat, denseAt_new _ _ _ _ _ hk hj]
    rcases k with _ | _ | _ | k <;> rcases j with _ | _ | _ | j
    all_goals try simp only [zero_add, Nat.add_assoc, Nat.reduceAdd] at hk hj ⊢
    all_goals simp (disch := omega) only [chebCN_zero, chebCN_one, chebCN_two, chebCN_add_three, chebMN_zero, chebMN_one,
      chebMN_two, chebMN_add_three, chebSD_lc, chebSN_lc, chebForm_lc 2 _ chebI_two, List.map_cons, List.map_nil,
      List.sum_cons, List.sum_nil, diagsEntry_lit_cons, diagsEntry_lit_nil]
    · special_close
    · special_close
    · special_close
    · special_lit j
    · special_close
    · special_close
    · special_close
    · special_lit j
    · special_close
    · special_close
    · special_close
    · special_lit j
    · special_lit k
    · special_lit k
    · special_lit k
    · special_gen k j

/-- **C28** `ASDMNmat`. -/
theorem C28_cheb_ASDMN (N : ℕ) :
    IsMatrixOf (ChebMat.ASDMN N) (N-2) (N-2) fun k j => chebForm 2 (chebSD N k) (chebMN N j) := by
  unfold ChebMat.ASDMN
  try dsimp only
  constructor
  · lens_lit
  · intro k hk j hj
    show _ = chebForm 2 (chebSD N k) (chebMN N j)
    rw [DMat.mat, denseAt_new _ _ _ _ _ hk hj]
    rcases k with _ | _ | _ | k <;> rcases j with _ | _ | _ | j
    all_goals try simp only [zero_add, Nat.add_assoc, Nat.reduceAdd] at hk hj ⊢
    all_goals simp (disch := omega) only [chebCN_zero, chebCN_one, chebCN_two, chebCN_add_three, chebMN_zero, chebMN_one,
      chebMN_two, chebMN_add_three, chebSD_lc, chebSN_lc, chebForm_lc 2 _ chebI_two, List.map_cons, List.map_nil,
      List.sum_cons, List.sum_nil, diagsEntry_lit_cons, diagsEntry_lit_nil]
    · special_close
    · special_close
    · special_close
    · special_lit j
    · special_close
    · special_close
    · special_close
    · special_lit j
    · special_close
    · special_close
    · special_close
    · special_lit j
    · special_lit k
    · special_lit k
    · special_lit k
    · special_gen k j

/-- **C28** `ASNCNmat`. -/
theorem C28_cheb_ASNCN (N : ℕ) :
    IsMatrixOf (ChebMat.ASNCN N) (N-2) (N-2) fun k j => chebForm 2 (chebSN N k) (chebCN N j) := by
  unfold ChebMat.ASNCN
  try dsimp only
  constructor
  · lens_lit
  · intro k hk j hj
    show _ = chebForm 2 (chebSN N k) (chebCN N j)
    rw [DMat.mat, denseAt_new _ _ _ _ _ hk hj]
    rcases k with _ | _ | _ | k <;> rcases j with _ | _ | _ | j
    all_goals try simp only [zero_add, Nat.add_assoc, Nat.reduceAdd] at hk hj ⊢
    all_goals simp (disch := omega) only [chebCN_zero, chebCN_one, chebCN_two, chebCN_add_three, chebMN_zero, chebMN_one,
      chebMN_two, chebMN_add_three, chebSD_lc, chebSN_lc, chebForm_lc 2 _ chebI_two, List.map_cons, List.map_nil,
      List.sum_cons, List.sum_nil, diagsEntry_lit_cons, diagsEntry_lit_nil]
    · special_close
    · special_close
    · special_close
    · special_lit j
    · special_close
    · special_close
    · special_close
    · special_lit j
    · special_close
    · special_close
    · special_close
    · special_lit j
    · special_lit k
    · special_lit k
    · special_lit k
    · special_gen k j

/-- Close one case. -/
macro "hh_close" h0:ident h1:ident hm:ident : tactic => `(tactic|
  (simp only [chebC2]
   try ifs
   try simp only [DVal.get, toNat_cast_add_sub, toNat_cast_add_add_sub, Function.update, dite_eq_ite]
   try ifs
   try simp only [Nat.add_assoc, Nat.reduceAdd]
   try simp (disch := omega) only [$h0:ident, $h1:ident, $hm:ident]
   try ifs
   try push_cast
   try norm_num
   try field_simp
   try ring))

macro "hh_close2" h0:ident h1:ident hm:ident s:ident : tactic => `(tactic|
  first | (hh_close $h0 $h1 $hm; done) | (by_cases hp : $s % 2 = 0 <;> hh_close $h0 $h1 $hm; done) | skip)

/-- One index is a literal. -/
macro "hh_lit" h0:ident h1:ident hm:ident n:ident : tactic => `(tactic|
  (rcases ($n) with _ | _ | _ | _ | _ | s
   all_goals hh_close2 $h0 $h1 $hm s))

/-- No index is a literal. -/
macro "hh_gen" h0:ident h1:ident hm:ident k:ident j:ident : tactic => `(tactic|
  (rcases entry_dist2 $k $j with ⟨s, hd⟩ | hd | hd | hd | hd | hd | hd | hd | hd | hd | ⟨s, hd⟩
   all_goals subst hd
   all_goals hh_close2 $h0 $h1 $hm s))

set_option maxHeartbeats 2000000 in
/-- **C28** `ASDHHmat`, scaled bases or not. -/
theorem C28_cheb_ASDHH (scaled : Bool) (N : ℕ) (h : ℕ → ℝ) (hh : ChebNorms N N h) :
    IsMatrixOf (ChebMat.ASDHH scaled N h) (N-2) (N-2) fun k j => chebForm 2 (chebSD N k) (chebHH scaled N j) := by
  have h0 := hh.zero
  have h1 : 1 < N - 2 → h 1 = Real.pi / 2 := fun hN => hh.mid 1 (by omega) (by omega)
  have hmid : ∀ k, k + 2 < N - 2 → h (k+2) = Real.pi / 2 := fun k hk => hh.mid _ (by omega) (by omega)
  have hpi := Real.pi_ne_zero
  cases scaled <;> simp only [ChebMat.ASDHH, if_true, if_false, Bool.false_eq_true]
  all_goals
    constructor
    · lens_lit
    · intro k hk j hj
      rw [DMat.mat, denseAt_new _ _ _ _ _ hk hj]
      rcases k with _ | _ | k <;> rcases j with _ | _ | j
      all_goals try simp only [zero_add, Nat.add_assoc, Nat.reduceAdd] at hk hj ⊢
      all_goals simp (disch := omega) only [chebHH_zero, chebHH_one, chebHH_add_two, chebSD_lc, chebForm_lc 2 _ chebI_two,
        List.map_cons, List.map_nil, hhScale, if_true, if_false, Bool.false_eq_true,
        List.sum_cons, List.sum_nil, diagsEntry_lit_cons, diagsEntry_lit_nil]
      · hh_close h0 h1 hmid
      · hh_close h0 h1 hmid
      · hh_lit h0 h1 hmid j
      · hh_close h0 h1 hmid
      · hh_close h0 h1 hmid
      · hh_lit h0 h1 hmid j
      · hh_lit h0 h1 hmid k
      · hh_lit h0 h1 hmid k
      · hh_gen h0 h1 hmid k j

set_option maxHeartbeats 2000000 in
/-- **C28** `AHHHHmat`, scaled bases or not. -/
theorem C28_cheb_AHHHH (scaled : Bool) (N : ℕ) (h : ℕ → ℝ) (hh : ChebNorms N N h) :
    IsMatrixOf (ChebMat.AHHHH scaled N h) (N-2) (N-2) fun k j => chebForm 2 (chebHH scaled N k) (chebHH scaled N j) := by
  have h0 := hh.zero
  have h1 : 1 < N - 2 → h 1 = Real.pi / 2 := fun hN => hh.mid 1 (by omega) (by omega)
  have hmid : ∀ k, k + 2 < N - 2 → h (k+2) = Real.pi / 2 := fun k hk => hh.mid _ (by omega) (by omega)
  have hpi := Real.pi_ne_zero
  cases scaled <;> simp only [ChebMat.AHHHH, if_true, if_false, Bool.false_eq_true]
  all_goals
    constructor
    · lens_lit
    · intro k hk j hj
      rw [DMat.mat, denseAt_new _ _ _ _ _ hk hj]
      rcases k with _ | _ | k <;> rcases j with _ | _ | j
      all_goals try simp only [zero_add, Nat.add_assoc, Nat.reduceAdd] at hk hj ⊢
      all_goals simp (disch := omega) only [chebHH_zero, chebHH_one, chebHH_add_two, chebSD_lc, chebForm_lc 2 _ chebI_two,
        List.map_cons, List.map_nil, hhScale, if_true, if_false, Bool.false_eq_true,
        List.sum_cons, List.sum_nil, diagsEntry_lit_cons, diagsEntry_lit_nil]
      · hh_close h0 h1 hmid
      · hh_close h0 h1 hmid
      · hh_lit h0 h1 hmid j
      · hh_close h0 h1 hmid
      · hh_close h0 h1 hmid
      · hh_lit h0 h1 hmid j
      · hh_lit h0 h1 hmid k
      · hh_lit h0 h1 hmid k
      · hh_gen h0 h1 hmid k j

/-! ## The norms returned by `get_norm_sq` -/

/-- The exact norms and those of Gauss and Gauss-Lobatto quadrature, for test and trial spaces of equal size. -/
theorem C28_chebNormSq_norms (gl : Bool) (N : ℕ) (hN : 2 ≤ N) : ChebNorms N N (chebNormSq gl N) := by
  refine ⟨by simp [chebNormSq], fun k hk h => ?_⟩
  rw [chebNormSq, if_neg (by rintro (h1 | ⟨_, h1⟩) <;> omega)]

/-- Exact integration, any sizes. -/
theorem C28_chebNormSq_exact (tN uN : ℕ) : ChebNorms tN uN (chebNormSq false tN) := by
  refine ⟨by simp [chebNormSq], fun k hk h => ?_⟩
  rw [chebNormSq, if_neg (by simp; omega)]

/-- Exact integration meets the hypotheses of the theorems on mass matrices. -/
theorem C28_cheb_exact_form (tN uN : ℕ) : OrthogonalForm chebT chebI tN uN (chebNormSq false tN) := by
  intro m _ n _
  rw [chebI_zero, chebC0, chebNormSq]
  simp

/-- Instance: the exact mass matrix of Chebyshev `ShenDirichlet(6)`. -/
example : IsMatrixOf (ChebMat.BSDSD 6 6 (chebNormSq false 6)) 4 4 fun k j => chebI (chebSD 6 k * chebSD 6 j) :=
  C28_cheb_BSDSD 6 6 _ _ (C28_chebNormSq_norms false 6 (by norm_num)) (C28_cheb_exact_form 6 6)

/-- Instance: one entry of the stiffness matrix of `ShenDirichlet(6)`. -/
example : chebForm 2 (chebSD 6 1) (chebSD 6 3) = -8 * Real.pi := by
  rw [← (C28_cheb_ASDSD 6).entries 1 (by norm_num) 3 (by norm_num), DMat.mat, denseAt_new _ _ _ _ _ (by norm_num) (by norm_num),
    ChebMat.ASDSD, diagsEntry_fromkeys2]
  norm_num [DVal.get]
  ring

/-! ## Matrices that are not produced for spaces of different size -/

/-- `BSNSNmat` of spaces of different size has an array of the wrong length. -/
theorem C28_cheb_BSNSN_rect_refuted (tN uN : ℕ) (h : ℕ → ℝ) (F : ℕ → ℕ → ℝ) (ht : 4 < tN) (hu : 4 < uN) (hne : tN ≠ uN) :
    ¬ IsMatrixOf (ChebMat.BSNSN tN uN h) (tN-2) (uN-2) F := by
  intro H
  have h1 := H.lengths _ (by unfold ChebMat.BSNSN; exact List.mem_cons_of_mem _ (List.mem_cons_self ..))
  have h2 := H.lengths _ (by unfold ChebMat.BSNSN; exact List.mem_cons_of_mem _ (List.mem_cons_of_mem _ (List.mem_cons_self ..)))
  simp [DVal.Fits, diagLength, dmax, show Int.sign 2 = 1 from rfl] at h1 h2
  omega

/-- `CTTmat` with a larger trial space has an array of the wrong length. -/
theorem C28_cheb_CTT_rect_refuted (tN uN : ℕ) (F : ℕ → ℕ → ℝ) (ht : 0 < tN) (hu : tN < uN) :
    ¬ IsMatrixOf (ChebMat.CTT tN uN) tN uN F := by
  intro H
  have h1 := H.lengths (1, .array (min tN uN - 1) fun t => Real.pi * ((t + 1 : ℕ) : ℝ)) (by
    unfold ChebMat.CTT fromkeys2
    refine List.mem_map.2 ⟨0, List.mem_range.2 (by omega), ?_⟩
    simp)
  simp [DVal.Fits, diagLength] at h1
  omega

end Shenfun
