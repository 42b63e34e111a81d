import Verif.Lemmas.Helmholtz
import Verif.Props.ChebMatrices
import Verif.Props.ChebMatricesSpecial

/-!
# C65, C66, C67: dedicated Chebyshev solvers for Poisson and Helmholtz problems
-/

namespace Shenfun

open Polynomial Spec Finset

set_option linter.unusedSimpArgs false

/-! ## Lookups and entries -/

theorem fromkeys2_at (lo hi : ℤ) (f : ℤ → DVal) (key : ℤ) (h1 : lo ≤ key) (h2 : key < hi) (h3 : (key - lo) % 2 = 0) :
    (fromkeys2 lo hi f).at key = (f key).get := by
  unfold DMat.at
  cases hf : (fromkeys2 lo hi f).find? fun e => e.1 == key with
  | none =>
    rw [List.find?_eq_none] at hf
    have := hf (key, f key) (by
      unfold fromkeys2
      rw [List.mem_map]
      refine ⟨((key - lo) / 2).toNat, List.mem_range.2 (by omega), ?_⟩
      have : lo + 2 * (((key - lo) / 2).toNat : ℤ) = key := by omega
      rw [this])
    simp at this
  | some e =>
    have hm := List.mem_of_find?_eq_some hf
    have hk := List.find?_some hf
    unfold fromkeys2 at hm
    rw [List.mem_map] at hm
    obtain ⟨t, _, rfl⟩ := hm
    simp only [beq_iff_eq] at hk
    simp only [hk]

/-- Value of a linear form on a sum of basis functions. -/
theorem chebForm_sum (r n : ℕ) (v : ℝ[X]) (φ : ℕ → ℝ[X]) (x : ℕ → ℝ) :
    chebForm r v (∑ j ∈ range n, C (x j) * φ j) = ∑ j ∈ range n, chebForm r v (φ j) * x j := by
  show chebI _ = ∑ j ∈ range n, chebI _ * x j
  have : v * derivative^[r] (∑ j ∈ range n, C (x j) * φ j) = ∑ j ∈ range n, x j • (v * derivative^[r] (φ j)) := by
    rw [iterate_derivative_sum, Finset.mul_sum]
    refine Finset.sum_congr rfl fun j _ => ?_
    rw [iterate_derivative_C_mul, smul_eq_C_mul]
    ring
  rw [this, map_sum]
  refine Finset.sum_congr rfl fun j _ => ?_
  rw [map_smul, smul_eq_mul, mul_comm]

theorem form_sum (I : ℝ[X] →ₗ[ℝ] ℝ) (n : ℕ) (v : ℝ[X]) (φ : ℕ → ℝ[X]) (x : ℕ → ℝ) :
    I (v * ∑ j ∈ range n, C (x j) * φ j) = ∑ j ∈ range n, I (v * φ j) * x j := by
  have : v * (∑ j ∈ range n, C (x j) * φ j) = ∑ j ∈ range n, x j • (v * φ j) := by
    rw [Finset.mul_sum]
    refine Finset.sum_congr rfl fun j _ => ?_
    rw [smul_eq_C_mul]
    ring
  rw [this, map_sum]
  refine Finset.sum_congr rfl fun j _ => ?_
  rw [map_smul, smul_eq_mul, mul_comm]

/-- Entries of the Dirichlet stiffness matrix. -/
theorem sdsd_entry {N i j : ℕ} (hi : i < N - 2) (hj : j < N - 2) :
    chebForm 2 (chebSD N i) (chebSD N j) =
      if j = i then -2 * Real.pi * (i + 1) * (i + 2) else if i < j ∧ j % 2 = i % 2 then -4 * Real.pi * (i + 1) else 0 := by
  rw [← (C28_cheb_ASDSD N).entries i hi j hj, DMat.mat, denseAt_new _ _ _ _ _ hi hj, ChebMat.ASDSD, diagsEntry_fromkeys2]
  by_cases h : j = i
  · subst h
    rw [if_pos (by omega), if_pos rfl, if_pos (by omega), if_pos (by omega)]
    rfl
  · rw [if_neg h]
    by_cases h2 : i < j ∧ j % 2 = i % 2
    · rw [if_pos (by omega), if_pos h2, if_neg (by omega)]
      split_ifs <;> first | rfl | omega
    · rw [if_neg (by omega), if_neg h2]

theorem sdsd_at0 (N : ℕ) (hN : 3 ≤ N) (t : ℕ) : (ChebMat.ASDSD N).at 0 t = -2 * Real.pi * (t + 1) * (t + 2) := by
  rw [ChebMat.ASDSD, fromkeys2_at _ _ _ _ le_rfl (by omega) (by norm_num)]; rfl

theorem sdsd_at2 (N : ℕ) (hN : 5 ≤ N) (t : ℕ) : (ChebMat.ASDSD N).at 2 t = -4 * Real.pi * (t + 1) := by
  rw [ChebMat.ASDSD, fromkeys2_at _ _ _ _ (by norm_num) (by omega) (by norm_num)]; rfl

theorem sdsd_at4 (N : ℕ) (hN : 7 ≤ N) (t : ℕ) : (ChebMat.ASDSD N).at 4 t = -4 * Real.pi * (t + 1) := by
  rw [ChebMat.ASDSD, fromkeys2_at _ _ _ _ (by norm_num) (by omega) (by norm_num)]; rfl

/-- Entries of the Neumann stiffness matrix. -/
theorem snsn_entry {N i j : ℕ} (hi : i < N - 2) (hj : j < N - 2) :
    chebForm 2 (chebSN N i) (chebSN N j) =
      if j = i then -2 * Real.pi * (i:ℝ) ^ 2 * (i + 1) / (i + 2)
      else if i < j ∧ j % 2 = i % 2 then -4 * Real.pi * (j:ℝ) ^ 2 * (i + 1) / ((i:ℝ) + 2) ^ 2 else 0 := by
  rw [← (C28_cheb_ASNSN N).entries i hi j hj, DMat.mat, denseAt_new _ _ _ _ _ hi hj, ChebMat.ASNSN, diagsEntry_fromkeys2]
  by_cases h : j = i
  · subst h
    rw [if_pos (by omega), if_pos rfl, if_pos (by omega), if_pos (by omega)]
    rfl
  · rw [if_neg h]
    by_cases h2 : i < j ∧ j % 2 = i % 2
    · rw [if_pos (by omega), if_pos h2, if_neg (by omega), if_pos (by omega)]
      obtain ⟨s, rfl⟩ : ∃ s, j = i + s := ⟨j - i, by omega⟩
      show -4 * Real.pi * ((i:ℝ) + ((((i + s : ℕ):ℤ) - (i:ℤ)).toNat : ℝ)) ^ 2 * (i + 1) / ((i:ℝ) + 2) ^ 2 = _
      rw [show ((((i + s : ℕ):ℤ) - (i:ℤ)).toNat) = s by omega]
      push_cast
      ring
    · rw [if_neg (by omega), if_neg h2]

theorem snsn_at0 (N : ℕ) (hN : 3 ≤ N) (t : ℕ) :
    (ChebMat.ASNSN N).at 0 t = -2 * Real.pi * (t:ℝ) ^ 2 * (t + 1) / (t + 2) := by
  rw [ChebMat.ASNSN, fromkeys2_at _ _ _ _ le_rfl (by omega) (by norm_num)]; rfl

theorem snsn_at2 (N : ℕ) (hN : 5 ≤ N) (t : ℕ) :
    (ChebMat.ASNSN N).at 2 t = -4 * Real.pi * ((t:ℝ) + 2) ^ 2 * (t + 1) / ((t:ℝ) + 2) ^ 2 := by
  rw [ChebMat.ASNSN, fromkeys2_at _ _ _ _ (by norm_num) (by omega) (by norm_num)]
  show -4 * Real.pi * ((t:ℝ) + (2:ℕ)) ^ 2 * (t + 1) / ((t:ℝ) + 2) ^ 2 = _
  norm_num

theorem snsn_at4 (N : ℕ) (hN : 7 ≤ N) (t : ℕ) :
    (ChebMat.ASNSN N).at 4 t = -4 * Real.pi * ((t:ℝ) + 4) ^ 2 * (t + 1) / ((t:ℝ) + 2) ^ 2 := by
  rw [ChebMat.ASNSN, fromkeys2_at _ _ _ _ (by norm_num) (by omega) (by norm_num)]
  show -4 * Real.pi * ((t:ℝ) + (4:ℕ)) ^ 2 * (t + 1) / ((t:ℝ) + 2) ^ 2 = _
  norm_num

/-! ## C65: Poisson problem with Dirichlet conditions -/

namespace ChebLA

variable {K : Type*} [Field K]

/-- Row `i` of the sweep, with the row sums of the matrix "`d` on the diagonal, `d1 i` in row `i` on every second upper
diagonal". -/
theorem mulVec_rowconst (n : ℕ) (d d1 u : ℕ → K) (i : ℕ) (hi : i < n) :
    Spec.mulVec n (fun i j => if j = i then d i else if i < j ∧ j % 2 = i % 2 then d1 i else 0) u i =
      d i * u i + d1 i * pSum n (i%2) (i+2) u := by
  unfold Spec.mulVec pSum
  rw [Finset.mul_sum, show d i * u i = ∑ j ∈ range n, if j = i then d i * u j else 0 by
    rw [Finset.sum_ite_eq' (range n) i fun j => d i * u j, if_pos (Finset.mem_range.2 hi)], ← Finset.sum_add_distrib]
  refine Finset.sum_congr rfl fun j _ => ?_
  dsimp only
  by_cases h : j = i
  · subst h; rw [if_pos rfl, if_pos rfl, if_neg (by omega)]; ring
  · rw [if_neg h, if_neg h]
    by_cases h2 : i < j ∧ j % 2 = i % 2
    · rw [if_pos h2, if_pos (by omega)]; ring
    · rw [if_neg h2, if_neg (by omega)]; ring

/-- **C65** `ADDSolver` (Python kernel): for every number of unknowns, every non-vanishing diagonal, every scale and every
right-hand side, in place or into another array, the result solves the system whose matrix has diagonal `d` and the
constant value `d1 i` in row `i` on the even upper diagonals. -/
theorem C65_poisson_add (n : ℕ) (hn : 2 ≤ n) (d d1 : ℕ → K) (hd : ∀ i < n, d i ≠ 0) (scale : K) (hs : scale ≠ 0)
    (b u : ℕ → K) (inplace : Bool) (hu : inplace = true → u = b) :
    Spec.Solves n (fun i j => scale * (if j = i then d i else if i < j ∧ j % 2 = i % 2 then d1 i else 0))
      (addSolverSolve n d d1 scale b u inplace) b := by
  intro i hi
  have hu' : (if inplace then u else b) = b := by
    cases inplace
    · rfl
    · exact hu rfl
  have inv := addSweep_inv n hn d d1 b b inplace (fun _ _ _ => rfl) (n-2) (by omega)
    fun i _ => hd i
  have := inv.rows i (by omega) hi
  rw [← mulVec_rowconst n d d1 _ i hi] at this
  unfold addSolverSolve poissonADD
  simp only [hu']
  rw [← this]
  unfold Spec.mulVec
  refine Finset.sum_congr rfl fun j _ => ?_
  field_simp

end ChebLA

open ChebLA

/-- **C65** the Poisson problem with homogeneous Dirichlet conditions: the solver called with the assembled matrix returns
the Galerkin solution. -/
theorem C65_poisson_dirichlet (N : ℕ) (hN : 5 ≤ N) (scale : ℝ) (hs : scale ≠ 0) (b u : ℕ → ℝ) (inplace : Bool)
    (hu : inplace = true → u = b) :
    let x := addSolverSolve (N-2) ((ChebMat.ASDSD N).at 0) ((ChebMat.ASDSD N).at 2) scale b u inplace
    ∀ k < N - 2, scale * chebForm 2 (chebSD N k) (∑ j ∈ range (N-2), C (x j) * chebSD N j) = b k := by
  intro x k hk
  have hd : ∀ i < N - 2, (ChebMat.ASDSD N).at 0 i ≠ 0 := fun i _ => by
    rw [sdsd_at0 N (by omega)]
    have := Real.pi_pos
    have : (0:ℝ) < 2 * Real.pi * (i + 1) * (i + 2) := by positivity
    intro h
    nlinarith
  rw [chebForm_sum, ← C65_poisson_add (N-2) (by omega) _ ((ChebMat.ASDSD N).at 2) hd scale hs b u inplace hu k hk, Spec.mulVec,
    Finset.mul_sum]
  refine Finset.sum_congr rfl fun j hj => ?_
  rw [sdsd_entry hk (Finset.mem_range.1 hj), sdsd_at0 N (by omega), sdsd_at2 N hN]
  ring

/-- **C65** compiled kernels: the division by the scale is skipped for a scale within `1e-8` of 1; the residual is then at
most `1e-8` times the right-hand side, and otherwise zero. -/
theorem C65_poisson_compiled (N : ℕ) (hN : 5 ≤ N) (scale : ℝ) (hs : scale ≠ 0) (b u : ℕ → ℝ) (inplace : Bool)
    (hu : inplace = true → u = b) :
    let x := poissonADDCompiled (N-2) ((ChebMat.ASDSD N).at 0) ((ChebMat.ASDSD N).at 2) scale b inplace u
    ∀ k < N - 2,
      |scale * chebForm 2 (chebSD N k) (∑ j ∈ range (N-2), C (x j) * chebSD N j) - b k| ≤ 1e-8 * |b k| ∧
      (scale = 1 ∨ 1e-8 ≤ |scale - 1| →
        scale * chebForm 2 (chebSD N k) (∑ j ∈ range (N-2), C (x j) * chebSD N j) = b k) := by
  intro x k hk
  have hd : ∀ i < N - 2, (ChebMat.ASDSD N).at 0 i ≠ 0 := fun i _ => by
    rw [sdsd_at0 N (by omega)]
    have := Real.pi_pos
    have : (0:ℝ) < 2 * Real.pi * (i + 1) * (i + 2) := by positivity
    intro h
    nlinarith
  have inv := addSweep_inv (N-2) (by omega) ((ChebMat.ASDSD N).at 0) ((ChebMat.ASDSD N).at 2) b u inplace
    (fun h i _ => by rw [hu h]) (N-2-2) (by omega) fun i _ => hd i
  have hrow := inv.rows k (by omega) hk
  rw [← mulVec_rowconst (N-2) _ _ _ k hk] at hrow
  set w := (addSweep (N-2) ((ChebMat.ASDSD N).at 0) ((ChebMat.ASDSD N).at 2) b inplace u (N-2-2)).u with hw
  have hform : ∑ j ∈ range (N-2), chebForm 2 (chebSD N k) (chebSD N j) * w j = b k := by
    rw [← hrow]
    unfold Spec.mulVec
    refine Finset.sum_congr rfl fun j hj => ?_
    dsimp only
    rw [sdsd_entry hk (Finset.mem_range.1 hj), sdsd_at0 N (by omega), sdsd_at2 N hN]
  rw [chebForm_sum]
  by_cases hc : |scale - 1| < 1e-8
  · have hx : x = w := if_neg (not_not.2 hc)
    rw [hx, hform]
    have h0 : |scale * b k - b k| ≤ 1e-8 * |b k| := by
      rw [show scale * b k - b k = (scale - 1) * b k by ring, abs_mul]
      exact mul_le_mul_of_nonneg_right hc.le (abs_nonneg _)
    refine ⟨h0, ?_⟩
    rintro (h | h)
    · rw [h, one_mul]
    · exact absurd hc (not_lt.2 h)
  · have hx : x = fun k => if k < N - 2 then w k / scale else w k := if_pos hc
    have h0 : scale * ∑ j ∈ range (N-2), chebForm 2 (chebSD N k) (chebSD N j) * x j = b k := by
      rw [← hform, Finset.mul_sum]
      refine Finset.sum_congr rfl fun j hj => ?_
      have : x j = w j / scale := by rw [hx]; exact if_pos (Finset.mem_range.1 hj)
      rw [this]
      field_simp
    refine ⟨?_, fun _ => h0⟩
    rw [h0, sub_self, abs_zero]
    positivity

/-- Non-vacuity: with six quadrature points and right-hand side `(1, 2, 3, 4)` the last unknown is `4/(-40π)`. -/
example : addSolverSolve 4 ((ChebMat.ASDSD 6).at 0) ((ChebMat.ASDSD 6).at 2) 1 (fun i => (i:ℝ) + 1) (fun _ => 0) false 3 =
    4 / (-40 * Real.pi) := by
  have inv := addSweep_inv (K := ℝ) 4 (by omega) ((ChebMat.ASDSD 6).at 0) ((ChebMat.ASDSD 6).at 2) (fun i => (i:ℝ) + 1)
    (fun i => (i:ℝ) + 1) false (fun h => by simp at h) 2 (by omega) (fun i _ _ => by
      rw [sdsd_at0 6 (by omega)]
      have := Real.pi_pos
      have : (0:ℝ) < 2 * Real.pi * (i + 1) * (i + 2) := by positivity
      intro h
      nlinarith)
  have h := inv.rows 3 (by omega) (by omega)
  rw [pSum_zero _ (by omega), sdsd_at0 6 (by omega)] at h
  show (addSweep 4 _ _ _ false (fun i => (i:ℝ) + 1) 2).u 3 / 1 = _
  have := Real.pi_pos
  push_cast at h
  rw [div_one, eq_div_iff (by nlinarith)]
  rw [mul_zero, add_zero] at h
  linarith

/-! ## C66: Poisson problem with Neumann conditions -/

theorem j2_ne (k : ℕ) : (j2 k : ℝ) ≠ 0 := by
  unfold j2
  split_ifs with h
  · exact one_ne_zero
  · have : (k:ℝ) ≠ 0 := by exact_mod_cast h
    positivity

theorem annSolve_single (n : ℕ) (A0 A2 : ℕ → ℝ) (scale c : ℝ) (b : ℕ → ℝ) (inplace : Bool) (u : ℕ → ℝ) (k : ℕ) (hk : k < n) :
    annSolve n A0 A2 scale [(0, c)] b inplace u k = if k = 0 then c else
      (addSweep n (fun k => A0 k * j2 k) (fun k => A2 k * j2 (k+2)) b inplace u (n-3)).u k * j2 k / scale := by
  unfold annSolve
  dsimp only [List.foldl]
  by_cases h : k = 0
  · subst h; rw [Function.update_self, if_pos rfl]
  · rw [Function.update_of_ne h, if_neg h, if_pos hk]

/-- **C66** the Neumann Poisson solver satisfies every Galerkin equation but the first one, and the constrained mean value:
the first column of the matrix is zero, so the first equation is a condition on the right-hand side. -/
theorem C66_poisson_neumann (N : ℕ) (hN : 5 ≤ N) (scale : ℝ) (hs : scale ≠ 0) (c : ℝ) (b u : ℕ → ℝ) (inplace : Bool)
    (hu : inplace = true → u = b) :
    let x := annSolve (N-2) ((ChebMat.ASNSN N).at 0) ((ChebMat.ASNSN N).at 2) scale [(0, c)] b inplace u
    x 0 = c ∧ ∀ k, 1 ≤ k → k < N - 2 →
      scale * chebForm 2 (chebSN N k) (∑ j ∈ range (N-2), C (x j) * chebSN N j) = b k := by
  intro x
  refine ⟨(annSolve_single _ _ _ _ _ _ _ _ 0 (by omega)).trans (if_pos rfl), fun k hk1 hk => ?_⟩
  set d : ℕ → ℝ := fun k => (ChebMat.ASNSN N).at 0 k * j2 k with hd_def
  set d1 : ℕ → ℝ := fun k => (ChebMat.ASNSN N).at 2 k * j2 (k+2) with hd1_def
  have hdv : ∀ i, 1 ≤ i → d i = -2 * Real.pi * (i + 1) / (i + 2) := fun i hi => by
    have h0 : (i:ℝ) ≠ 0 := by exact_mod_cast (by omega : i ≠ 0)
    rw [hd_def]
    dsimp only
    rw [snsn_at0 N (by omega), j2, if_neg (by omega)]
    field_simp
  have hd1v : ∀ i, d1 i = -4 * Real.pi * (i + 1) / ((i:ℝ) + 2) ^ 2 := fun i => by
    have h0 : (i:ℝ) + 2 ≠ 0 := by positivity
    rw [hd1_def]
    dsimp only
    rw [snsn_at2 N (by omega), j2, if_neg (by omega)]
    push_cast
    field_simp
  have hpi := Real.pi_pos
  have inv := addSweep_inv (N-2) (by omega) d d1 b u inplace (fun h i _ => by rw [hu h]) (N-2-3) (by omega) fun i hi hiN => by
    rw [hdv i (by omega)]
    have : (0:ℝ) < 2 * Real.pi * (i + 1) / (i + 2) := by positivity
    intro h
    have h' : -(2 * Real.pi * ((i:ℝ) + 1) / (i + 2)) = 0 := by rw [← h]; ring
    linarith
  have hrow := inv.rows k (by omega) hk
  rw [← mulVec_rowconst (N-2) _ _ _ k hk] at hrow
  rw [chebForm_sum, ← hrow, Finset.mul_sum, Spec.mulVec]
  refine Finset.sum_congr rfl fun j hj => ?_
  have hj' := Finset.mem_range.1 hj
  have hx : x j = if j = 0 then c else (addSweep (N-2) d d1 b inplace u (N-2-3)).u j * j2 j / scale := annSolve_single (N-2) _ _ scale c b inplace u j hj'
  rw [hx, snsn_entry hk hj']
  generalize (addSweep (N-2) d d1 b inplace u (N-2-3)).u j = wj
  by_cases h : j = k
  · subst h
    have h0 : (j:ℝ) ≠ 0 := by exact_mod_cast (by omega : j ≠ 0)
    rw [if_pos rfl, if_pos rfl, if_neg (by omega), hdv j hk1, j2, if_neg (by omega)]
    field_simp
  · rw [if_neg h, if_neg h]
    by_cases h2 : k < j ∧ j % 2 = k % 2
    · have h0 : (j:ℝ) ≠ 0 := by exact_mod_cast (by omega : j ≠ 0)
      rw [if_pos h2, if_pos h2, if_neg (by omega), hd1v, j2, if_neg (by omega)]
      field_simp
    · rw [if_neg h2, if_neg h2]; ring

/-- **C66** what the skipped first equation says: its value does not depend on the constrained unknown, so it can only hold
for a compatible right-hand side. -/
theorem C66_first_equation (N : ℕ) (hN : 3 ≤ N) (x : ℕ → ℝ) (c : ℝ) :
    chebForm 2 (chebSN N 0) (∑ j ∈ range (N-2), C (x j) * chebSN N j) =
      chebForm 2 (chebSN N 0) (∑ j ∈ range (N-2), C (Function.update x 0 c j) * chebSN N j) := by
  rw [chebForm_sum, chebForm_sum]
  refine Finset.sum_congr rfl fun j hj => ?_
  by_cases h : j = 0
  · subst h
    rw [snsn_entry (by omega) (by omega), if_pos rfl]
    simp
  · rw [Function.update_of_ne h]

/-- Non-vacuity: eight points, mean value 3, right-hand side `k`. -/
example : let x := annSolve 6 ((ChebMat.ASNSN 8).at 0) ((ChebMat.ASNSN 8).at 2) 2 [(0, 3)] (fun i => (i:ℝ)) false (fun _ => 0)
    x 0 = 3 ∧ 2 * chebForm 2 (chebSN 8 4) (∑ j ∈ range 6, C (x j) * chebSN 8 j) = 4 :=
  have h := C66_poisson_neumann 8 (by norm_num) 2 (by norm_num) 3 (fun i => (i:ℝ)) (fun _ => 0) false (by simp)
  ⟨h.1, (h.2 4 (by norm_num) (by norm_num)).trans (by norm_num)⟩

end Shenfun
