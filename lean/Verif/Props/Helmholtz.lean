import Verif.Props.ChebSolvers
import Mathlib.LinearAlgebra.Matrix.ToLinearEquiv

/-!
# C67: the Chebyshev Helmholtz solver
-/

namespace Shenfun

open Polynomial Spec Finset ChebLA

set_option linter.unusedSimpArgs false

/-- A matrix whose quadratic form does not vanish allows elimination without pivoting. -/
theorem eliminable_of_definite (n : ℕ) (M : ℕ → ℕ → ℝ)
    (h : ∀ x : ℕ → ℝ, (∃ i < n, x i ≠ 0) → ∑ i ∈ range n, ∑ j ∈ range n, x i * M i j * x j ≠ 0) : Spec.Eliminable n M := by
  intro k hk hdet
  unfold Spec.leadMinor at hdet
  obtain ⟨v, hv, hMv⟩ := Matrix.exists_mulVec_eq_zero_iff.2 hdet
  set x : ℕ → ℝ := fun i => if h : i < k then v ⟨i, h⟩ else 0 with hx
  have hxv : ∀ i : Fin k, x i = v i := fun i => by rw [hx]; exact dif_pos i.2
  have hx0 : ∀ i, k ≤ i → x i = 0 := fun i hi => dif_neg (by omega)
  obtain ⟨i₀, hi₀⟩ := Function.ne_iff.1 hv
  refine h x ⟨i₀, by have := i₀.2; omega, by rw [hxv]; exact hi₀⟩ ?_
  refine Finset.sum_eq_zero fun i hi => ?_
  rcases Nat.lt_or_ge i k with hik | hik
  · have hrow := congrFun hMv ⟨i, hik⟩
    simp only [Matrix.mulVec, dotProduct, Matrix.of_apply, Pi.zero_apply] at hrow
    have e : ∑ j ∈ range n, x i * M i j * x j = x i * ∑ j ∈ range k, M i j * x j := by
      rw [Finset.mul_sum]
      symm
      refine (Finset.sum_subset (fun j hj => Finset.mem_range.2 (by have := Finset.mem_range.1 hj; omega))
        fun j _ hj => ?_).trans (Finset.sum_congr rfl fun j _ => by ring)
      rw [hx0 j (by simpa using hj)]; ring
    rw [e, ← Fin.sum_univ_eq_sum_range (fun j => M i j * x j) k]
    simp only [hxv]
    rw [hrow, mul_zero]
  · refine Finset.sum_eq_zero fun j _ => ?_
    rw [hx0 i hik]; ring

/-- Summation by parts for the stiffness form. -/
theorem abel_two (g : ℕ → ℝ) (m : ℕ) :
    ∑ i ∈ range m, ((i:ℝ) + 1) * (g i - g (i+2)) + m * g (m+1) + ((m:ℝ) - 1) * g m = - g 0 + 2 * ∑ i ∈ range m, g i := by
  induction m with
  | zero => simp
  | succ m ih =>
    rw [Finset.sum_range_succ, Finset.sum_range_succ]
    push_cast
    linarith

theorem stiffness_form (n : ℕ) (x : ℕ → ℝ) :
    ∑ i ∈ range n, x i * (((i:ℝ) + 2) * ((i:ℝ) + 1) * x i + 2 * ((i:ℝ) + 1) * pSum n (i%2) (i+2) x) =
      ∑ i ∈ range n, (((i:ℝ) + 1) * x i) ^ 2 +
        ∑ i ∈ range n, ((i:ℝ) + 1) * ((pSum n (i%2) i x) ^ 2 - (pSum n ((i+2)%2) (i+2) x) ^ 2) := by
  rw [← Finset.sum_add_distrib]
  refine Finset.sum_congr rfl fun i hi => ?_
  have hi' := Finset.mem_range.1 hi
  have e : pSum n (i%2) i x = x i + pSum n (i%2) (i+2) x := by
    rw [pSum_succ x hi' rfl, pSum_skip (t := i+1) x (by omega)]
  rw [e, show (i + 2) % 2 = i % 2 by omega]
  ring

theorem stiffness_pos (n : ℕ) (x : ℕ → ℝ) (hx : ∃ i < n, x i ≠ 0) :
    0 < ∑ i ∈ range n, x i * (((i:ℝ) + 2) * ((i:ℝ) + 1) * x i + 2 * ((i:ℝ) + 1) * pSum n (i%2) (i+2) x) := by
  rw [stiffness_form]
  obtain ⟨i, hi, hxi⟩ := hx
  have h1 : 0 < ∑ i ∈ range n, (((i:ℝ) + 1) * x i) ^ 2 := by
    refine Finset.sum_pos' (fun i _ => sq_nonneg _) ⟨i, Finset.mem_range.2 hi, ?_⟩
    have : ((i:ℝ) + 1) * x i ≠ 0 := mul_ne_zero (by positivity) hxi
    positivity
  have h2 := abel_two (fun i => (pSum n (i%2) i x) ^ 2) n
  rw [pSum_zero x (le_refl n), pSum_zero x (by omega : n ≤ n+1)] at h2
  have h3 : (pSum n (0%2) 0 x) ^ 2 ≤ ∑ i ∈ range n, (pSum n (i%2) i x) ^ 2 :=
    Finset.single_le_sum (f := fun i => (pSum n (i%2) i x) ^ 2) (fun i _ => sq_nonneg _) (Finset.mem_range.2 (by omega : 0 < n))
  have h4 : 0 ≤ ∑ i ∈ range n, (pSum n (i%2) i x) ^ 2 := Finset.sum_nonneg fun i _ => sq_nonneg _
  simp only [ne_eq, OfNat.ofNat_ne_zero, not_false_eq_true, zero_pow, mul_zero, add_zero] at h2
  rw [h2]
  linarith

/-- The Dirichlet stiffness form is negative definite. -/
theorem sdsd_neg (N : ℕ) (x : ℕ → ℝ) (hx : ∃ i < N - 2, x i ≠ 0) :
    ∑ i ∈ range (N-2), ∑ j ∈ range (N-2), x i * chebForm 2 (chebSD N i) (chebSD N j) * x j < 0 := by
  have key : ∑ i ∈ range (N-2), ∑ j ∈ range (N-2), x i * chebForm 2 (chebSD N i) (chebSD N j) * x j =
      -(2 * Real.pi) * ∑ i ∈ range (N-2), x i * (((i:ℝ) + 2) * ((i:ℝ) + 1) * x i + 2 * ((i:ℝ) + 1) * pSum (N-2) (i%2) (i+2) x) := by
    rw [Finset.mul_sum]
    refine Finset.sum_congr rfl fun i hi => ?_
    have hi' := Finset.mem_range.1 hi
    have := mulVec_rowconst (N-2) (fun i : ℕ => -2 * Real.pi * ((i:ℝ) + 1) * (i + 2)) (fun i : ℕ => -4 * Real.pi * ((i:ℝ) + 1)) x i hi'
    unfold Spec.mulVec at this
    dsimp only at this
    rw [Finset.sum_congr rfl fun j hj => show x i * chebForm 2 (chebSD N i) (chebSD N j) * x j =
      x i * ((if j = i then -2 * Real.pi * ((i:ℝ) + 1) * (i + 2) else if i < j ∧ j % 2 = i % 2 then -4 * Real.pi * ((i:ℝ) + 1) else 0) * x j) by
        rw [sdsd_entry hi' (Finset.mem_range.1 hj)]; ring, ← Finset.mul_sum, this]
    ring
  rw [key]
  have := stiffness_pos (N-2) x hx
  have := Real.pi_pos
  nlinarith

/-- The squared norms are positive. -/
theorem chebNormSq_pos (gl : Bool) (N k : ℕ) : 0 < chebNormSq gl N k := by
  unfold chebNormSq
  have := Real.pi_pos
  split_ifs <;> linarith

/-- A form in which the Chebyshev polynomials are orthogonal is non-negative on squares of polynomials in the span. -/
theorem form_sq_nonneg (N : ℕ) (h : ℕ → ℝ) (hpos : ∀ k < N, 0 ≤ h k) (I : ℝ[X] →ₗ[ℝ] ℝ) (hI : OrthogonalForm chebT I N N h)
    (c : ℕ → ℝ) : 0 ≤ I ((∑ k ∈ range N, C (c k) * chebT k) * ∑ k ∈ range N, C (c k) * chebT k) := by
  rw [form_sum]
  refine Finset.sum_nonneg fun k hk => ?_
  rw [mul_comm (∑ k ∈ range N, C (c k) * chebT k), form_sum]
  have hk' := Finset.mem_range.1 hk
  rw [Finset.sum_eq_single k]
  · rw [hI k hk' k hk', if_pos rfl]
    have := hpos k hk'
    nlinarith [mul_nonneg this (sq_nonneg (c k))]
  · intro j hj hne
    rw [hI k hk' j (Finset.mem_range.1 hj), if_neg (Ne.symm hne), zero_mul]
  · intro h; exact absurd hk h

/-- The Dirichlet mass form is non-negative. -/
theorem bsdsd_nonneg (N : ℕ) (h : ℕ → ℝ) (hpos : ∀ k < N, 0 ≤ h k) (I : ℝ[X] →ₗ[ℝ] ℝ) (hI : OrthogonalForm chebT I N N h)
    (hN : 2 ≤ N) (x : ℕ → ℝ) :
    0 ≤ ∑ i ∈ range (N-2), ∑ j ∈ range (N-2), x i * I (chebSD N i * chebSD N j) * x j := by
  set U : ℝ[X] := ∑ j ∈ range (N-2), C (x j) * chebSD N j with hU
  have e1 : ∑ i ∈ range (N-2), ∑ j ∈ range (N-2), x i * I (chebSD N i * chebSD N j) * x j = I (U * U) := by
    rw [hU, form_sum]
    refine Finset.sum_congr rfl fun i _ => ?_
    rw [mul_comm _ (chebSD N i), form_sum, Finset.sum_mul]
    exact Finset.sum_congr rfl fun j _ => by ring
  obtain ⟨n, rfl⟩ : ∃ n, N = n + 2 := ⟨N - 2, by omega⟩
  have e2 : U = ∑ k ∈ range (n+2), C ((if k < n then x k else 0) - (if 2 ≤ k then x (k-2) else 0)) * chebT k := by
    have a1 : ∑ k ∈ range (n+2), C (if k < n then x k else 0) * chebT k = ∑ k ∈ range n, C (x k) * chebT k := by
      rw [Finset.sum_range_succ, Finset.sum_range_succ, if_neg (by omega), if_neg (by omega)]
      simp only [C_0, zero_mul, add_zero]
      exact Finset.sum_congr rfl fun k hk => by rw [if_pos (Finset.mem_range.1 hk)]
    have a2 : ∑ k ∈ range (n+2), C (if 2 ≤ k then x (k-2) else 0) * chebT k = ∑ k ∈ range n, C (x k) * chebT (k+2) := by
      rw [Finset.sum_range_succ', Finset.sum_range_succ', if_neg (by omega), if_neg (by omega)]
      simp only [C_0, zero_mul, add_zero]
      exact Finset.sum_congr rfl fun k hk => by rw [if_pos (by omega)]; congr 2
    simp only [C_sub, sub_mul, Finset.sum_sub_distrib]
    rw [a1, a2, ← Finset.sum_sub_distrib]
    refine Finset.sum_congr rfl fun k hk => ?_
    rw [chebSD_lc (Finset.mem_range.1 hk)]
    simp only [lc, List.map_cons, List.map_nil, List.sum_cons, List.sum_nil]
    simp only [C_1, C_neg]
    ring
  rw [e1, e2]
  exact form_sq_nonneg (n+2) h hpos I hI _

/-- Entries of the Dirichlet mass matrix. -/
theorem bsdsd_entry {N i j : ℕ} (hi : i < N - 2) (hj : j < N - 2) (h : ℕ → ℝ) (I : ℝ[X] →ₗ[ℝ] ℝ) (hh : ChebNorms N N h)
    (hI : OrthogonalForm chebT I N N h) :
    I (chebSD N i * chebSD N j) = if j = i then h i + h (i+2) else if j = i + 2 ∨ j + 2 = i then -h 1 else 0 := by
  rw [← (C28_cheb_BSDSD N N h I hh hI).entries i hi j hj, DMat.mat, denseAt_new _ _ _ _ _ hi hj, ChebMat.BSDSD]
  simp only [List.map_cons, List.map_nil, diagsEntry_lit_cons, diagsEntry_lit_nil, DVal.get]
  rcases (by omega : j = i ∨ j = i + 2 ∨ j + 2 = i ∨ (j ≠ i ∧ j ≠ i + 2 ∧ j + 2 ≠ i)) with h | h | h | h
  · subst h; ifs; simp
  · subst h; ifs; simp
  · subst h; ifs; simp
  · ifs; simp

/-- Entries of the Neumann mass matrix. -/
theorem bsnsn_entry {N i j : ℕ} (hi : i < N - 2) (hj : j < N - 2) (h : ℕ → ℝ) (I : ℝ[X] →ₗ[ℝ] ℝ) (hh : ChebNorms N N h)
    (hI : OrthogonalForm chebT I N N h) :
    I (chebSN N i * chebSN N j) = if j = i then h i + (((i:ℝ) / (i + 2)) ^ 2) ^ 2 * h (i+2)
      else if j = i + 2 then -(((i:ℝ) / (i + 2)) ^ 2) * h (i+2)
      else if j + 2 = i then -(((j:ℝ) / (j + 2)) ^ 2) * h (j+2) else 0 := by
  rw [← (C28_cheb_BSNSN N h I hh hI).entries i hi j hj, DMat.mat, denseAt_new _ _ _ _ _ hi hj, ChebMat.BSNSN]
  simp only [List.map_cons, List.map_nil, diagsEntry_lit_cons, diagsEntry_lit_nil, DVal.get]
  rcases (by omega : j = i ∨ j = i + 2 ∨ j + 2 = i ∨ (j ≠ i ∧ j ≠ i + 2 ∧ j + 2 ≠ i)) with h | h | h | h
  · subst h; ifs; simp
  · subst h; ifs; simp
  · subst h; ifs; simp
  · ifs; simp

theorem helmholtzEquation_iff (I : ℝ[X] →ₗ[ℝ] ℝ) (φ : ℕ → ℝ[X]) (n : ℕ) (α β : ℝ) (x b : ℕ → ℝ) (k : ℕ) :
    HelmholtzEquation I φ n α β x b k ↔ ∑ j ∈ range n, helmholtzMatrix I φ α β k j * x j = b k := by
  unfold HelmholtzEquation helmholtzMatrix
  rw [chebForm_sum, form_sum, Finset.mul_sum, Finset.mul_sum, ← Finset.sum_add_distrib]
  rw [Finset.sum_congr rfl fun j _ => show α * (chebForm 2 (φ k) (φ j) * x j) + β * (I (φ k * φ j) * x j) =
    (α * chebForm 2 (φ k) (φ j) + β * I (φ k * φ j)) * x j by ring]

theorem eliminable_congr {n : ℕ} {A B : ℕ → ℕ → ℝ} (h : ∀ i < n, ∀ j < n, A i j = B i j) (hA : Spec.Eliminable n A) :
    Spec.Eliminable n B := by
  intro k hk
  have := hA k hk
  unfold Spec.leadMinor at *
  convert this using 2
  refine Matrix.ext fun i j => ?_
  exact (h i (by omega) j (by omega)).symm

/-! ## Dirichlet -/

theorem dirichlet_helmMat (N : ℕ) (hN : 7 ≤ N) (h : ℕ → ℝ) (I : ℝ[X] →ₗ[ℝ] ℝ) (hh : ChebNorms N N h)
    (hI : OrthogonalForm chebT I N N h) (α β : ℝ) (i : ℕ) (hi : i < N - 2) (j : ℕ) (hj : j < N - 2) :
    helmholtzMatrix I (chebSD N) α β i j = helmMat (helmDiags (ChebMat.ASDSD N) (ChebMat.BSDSD N N h)) α β i j := by
  have b0 : (ChebMat.BSDSD N N h).at 0 i = h i + h (i+2) := rfl
  have b2 : (ChebMat.BSDSD N N h).at 2 i = -h 1 := rfl
  have bm2 : (ChebMat.BSDSD N N h).at (-2) j = -h 1 := rfl
  unfold helmholtzMatrix helmMat helmDiags
  dsimp only
  rw [sdsd_entry hi hj, bsdsd_entry hi hj h I hh hI, sdsd_at0 N (by omega), sdsd_at2 N (by omega), sdsd_at4 N hN, b0, b2, bm2]
  rcases (by omega : j = i ∨ j = i + 2 ∨ j + 2 = i ∨ (i + 4 ≤ j ∧ j % 2 = i % 2) ∨
    (j ≠ i ∧ j ≠ i + 2 ∧ j + 2 ≠ i ∧ ¬ (i + 4 ≤ j ∧ j % 2 = i % 2))) with h | h | h | h | h
  · ifs
  · ifs
  · ifs; ring
  · ifs; ring
  · ifs; ring

/-- With `α u'' + β u`, `α β ≤ 0`, elimination is possible. -/
theorem dirichlet_eliminable (N : ℕ) (hN : 2 ≤ N) (h : ℕ → ℝ) (hpos : ∀ k < N, 0 ≤ h k) (I : ℝ[X] →ₗ[ℝ] ℝ)
    (hI : OrthogonalForm chebT I N N h) (α β : ℝ) (hα : α ≠ 0) (hαβ : α * β ≤ 0) :
    Spec.Eliminable (N-2) (helmholtzMatrix I (chebSD N) α β) := by
  refine eliminable_of_definite _ _ fun x hx hzero => ?_
  have h1 := sdsd_neg N x hx
  have h2 := bsdsd_nonneg N h hpos I hI hN x
  have e : ∑ i ∈ range (N-2), ∑ j ∈ range (N-2), x i * helmholtzMatrix I (chebSD N) α β i j * x j =
      α * ∑ i ∈ range (N-2), ∑ j ∈ range (N-2), x i * chebForm 2 (chebSD N i) (chebSD N j) * x j +
      β * ∑ i ∈ range (N-2), ∑ j ∈ range (N-2), x i * I (chebSD N i * chebSD N j) * x j := by
    simp only [Finset.mul_sum, ← Finset.sum_add_distrib]
    exact Finset.sum_congr rfl fun i _ => Finset.sum_congr rfl fun j _ => by unfold helmholtzMatrix; ring
  rw [e] at hzero
  set P := ∑ i ∈ range (N-2), ∑ j ∈ range (N-2), x i * chebForm 2 (chebSD N i) (chebSD N j) * x j
  set Q := ∑ i ∈ range (N-2), ∑ j ∈ range (N-2), x i * I (chebSD N i * chebSD N j) * x j
  have h3 : α * (α * P + β * Q) = 0 := by rw [hzero, mul_zero]
  have h4 : α ^ 2 * P < 0 := mul_neg_of_pos_of_neg (by positivity) h1
  have h5 : α * β * Q ≤ 0 := mul_nonpos_of_nonpos_of_nonneg hαβ h2
  linarith

/-- **C67** Helmholtz problem with Dirichlet conditions, either compiled kernel: whenever elimination without pivoting is
possible the computed coefficients satisfy all Galerkin equations. -/
theorem C67_helmholtz_dirichlet_general (gl : Bool) (N : ℕ) (hN : 8 ≤ N) (I : ℝ[X] →ₗ[ℝ] ℝ)
    (hI : OrthogonalForm chebT I N N (chebNormSq gl N)) (α β : ℝ)
    (hM : Spec.Eliminable (N-2) (helmholtzMatrix I (chebSD N) α β)) (b u : ℕ → ℝ) :
    let m := helmDiags (ChebMat.ASDSD N) (ChebMat.BSDSD N N (chebNormSq gl N))
    ∀ f : HelmLU ℝ, f = luHelmholtzNumba (N-2) m false α β ∨ f = luHelmholtzCython (N-2) m false α β →
    ∀ k < N - 2, HelmholtzEquation I (chebSD N) (N-2) α β (solveHelmholtz (N-2) false f b u) b k := by
  intro m f hf k hk
  have hf' : f = luHelmholtzCore (N-2) m α β := by
    rcases hf with rfl | rfl
    · unfold luHelmholtzNumba numbaFix preLU; simp
    · unfold luHelmholtzCython cythonPrep; simp
  have hent := dirichlet_helmMat N (by omega) _ I (C28_chebNormSq_norms gl N (by omega)) hI α β
  have := helm_solves (N-2) (by omega) m α β (eliminable_congr hent hM) b u k hk
  rw [helmholtzEquation_iff, ← this, Spec.mulVec, hf']
  refine Finset.sum_congr rfl fun j hj => ?_
  rw [hent k hk j (Finset.mem_range.1 hj)]
  rfl

/-- **C67** Helmholtz problem `α u'' + β u = f` with Dirichlet conditions and `α β ≤ 0` (in particular every Poisson
problem, where `α = 1` and `β = -|k|²`): no pivot vanishes and the computed coefficients satisfy all Galerkin equations. -/
theorem C67_helmholtz_dirichlet (gl : Bool) (N : ℕ) (hN : 8 ≤ N) (I : ℝ[X] →ₗ[ℝ] ℝ)
    (hI : OrthogonalForm chebT I N N (chebNormSq gl N)) (α β : ℝ) (hα : α ≠ 0) (hαβ : α * β ≤ 0) (b u : ℕ → ℝ) :
    let m := helmDiags (ChebMat.ASDSD N) (ChebMat.BSDSD N N (chebNormSq gl N))
    ∀ f : HelmLU ℝ, f = luHelmholtzNumba (N-2) m false α β ∨ f = luHelmholtzCython (N-2) m false α β →
    ∀ k < N - 2, HelmholtzEquation I (chebSD N) (N-2) α β (solveHelmholtz (N-2) false f b u) b k :=
  C67_helmholtz_dirichlet_general gl N hN I hI α β
    (dirichlet_eliminable N (by omega) _ (fun k _ => (chebNormSq_pos gl N k).le) I hI α β hα hαβ) b u

/-- Non-vacuity: exact integration, ten points, `u'' - 5 u`. -/
example (b u : ℕ → ℝ) : ∀ k < 8, HelmholtzEquation chebI (chebSD 10) 8 1 (-5)
    (solveHelmholtz 8 false (luHelmholtzCython 8 (helmDiags (ChebMat.ASDSD 10) (ChebMat.BSDSD 10 10 (chebNormSq false 10))) false 1 (-5)) b u) b k :=
  C67_helmholtz_dirichlet false 10 (by norm_num) chebI (C28_cheb_exact_form 10 10) 1 (-5) one_ne_zero (by norm_num) b u _
    (Or.inr rfl)

/-! ## Neumann -/

/-- The matrix factored in the Neumann case: columns scaled by `1/j²`. -/
theorem neumann_helmMat (N : ℕ) (hN : 7 ≤ N) (h : ℕ → ℝ) (I : ℝ[X] →ₗ[ℝ] ℝ) (hh : ChebNorms N N h)
    (hI : OrthogonalForm chebT I N N h) (α β : ℝ) (i : ℕ) (hi : i < N - 2) (j : ℕ) (hj : j < N - 2) :
    j2 j * helmholtzMatrix I (chebSN N) α β i j =
      helmMat (preLU true (helmDiags (ChebMat.ASNSN N) (ChebMat.BSNSN N N h))) α β i j := by
  have b0 : (ChebMat.BSNSN N N h).at 0 i = h i + (((i:ℝ) / (i + 2)) ^ 2) ^ 2 * h (i+2) := rfl
  have b2 : (ChebMat.BSNSN N N h).at 2 i = -(((i:ℝ) / (i + 2)) ^ 2) * h (i+2) := rfl
  have bm2 : (ChebMat.BSNSN N N h).at (-2) j = -(((j:ℝ) / (j + 2)) ^ 2) * h (j+2) := rfl
  unfold helmholtzMatrix helmMat helmDiags preLU
  dsimp only
  rw [if_pos rfl]
  dsimp only
  rw [snsn_entry hi hj, bsnsn_entry hi hj h I hh hI, snsn_at0 N (by omega), snsn_at2 N (by omega), snsn_at4 N hN, b0, b2, bm2]
  rcases (by omega : j = i ∨ j = i + 2 ∨ j + 2 = i ∨ (i + 4 ≤ j ∧ j % 2 = i % 2) ∨
    (j ≠ i ∧ j ≠ i + 2 ∧ j + 2 ≠ i ∧ ¬ (i + 4 ≤ j ∧ j % 2 = i % 2))) with h | h | h | h | h
  · subst h
    ifs
    by_cases h0 : j = 0
    · subst h0; simp [j2]
    · rw [if_neg h0]; ring
  · subst h
    ifs
    push_cast
    ring
  · ifs; ring
  · ifs
    have h0 : (j:ℝ) ≠ 0 := by exact_mod_cast (by omega : j ≠ 0)
    have h1 : (i:ℝ) + 4 ≠ 0 := by positivity
    unfold j2
    ifs
    push_cast
    field_simp
    ring
  · ifs; ring

theorem eliminable_scale {n : ℕ} {M : ℕ → ℕ → ℝ} (c : ℕ → ℝ) (hc : ∀ i < n, c i ≠ 0) (h : Spec.Eliminable n M) :
    Spec.Eliminable n fun i j => c j * M i j := by
  intro k hk
  unfold Spec.leadMinor
  rw [show (Matrix.of fun i j : Fin k => c j * M i j) = Matrix.of fun i j : Fin k => (fun t : Fin k => c t) j *
    (Matrix.of fun i j : Fin k => M i j) i j from rfl, Matrix.det_mul_row]
  exact mul_ne_zero (Finset.prod_ne_zero_iff.2 fun i _ => hc i (by omega)) (h k hk)

theorem cythonPrep_eq (N : ℕ) (hN : 3 ≤ N) (h : ℕ → ℝ) (α β : ℝ) (hβ : ¬ |β| < 1e-8) :
    cythonPrep true α β (helmDiags (ChebMat.ASNSN N) (ChebMat.BSNSN N N h)) =
      preLU true (helmDiags (ChebMat.ASNSN N) (ChebMat.BSNSN N N h)) := by
  unfold cythonPrep preLU
  rw [if_pos rfl, if_pos rfl]
  simp only [if_neg hβ]
  have e : ∀ (g : ℕ → ℝ), (fun i : ℕ => if 1 ≤ i then g i / (i:ℝ) ^ 2 else g i) = fun i => g i * j2 i := by
    intro g
    funext i
    unfold j2
    by_cases h0 : i = 0
    · subst h0; simp
    · ifs; ring
  congr 1
  · funext i
    by_cases h0 : i = 0
    · subst h0
      rw [if_neg (by omega), if_pos rfl, mul_zero]
      show (ChebMat.ASNSN N).at 0 0 = 0
      rw [snsn_at0 N hN]; simp
    · ifs; unfold j2; ifs; ring
  · funext i; unfold j2; ifs; ring
  · funext i; unfold j2; ifs; ring
  · exact e _
  · exact e _
  · funext i; unfold j2; ifs; ring

/-- The result of the Neumann solve when the first unknown is not reset. -/
theorem solve_neumann (n : ℕ) (f : HelmLU ℝ) (hf : ¬ (f.d0 0 - 1) * (f.d0 0 - 1) < 1e-16) (b u : ℕ → ℝ) (i : ℕ) (hi : i < n) :
    solveHelmholtz n true f b u i = j2 i * solveHelmholtzCore n f b u i := by
  unfold solveHelmholtz
  simp only [if_neg hf, if_true]
  unfold j2
  by_cases h0 : i = 0
  · subst h0; simp
  · ifs
    have : (i:ℝ) ≠ 0 := by exact_mod_cast h0
    field_simp

theorem luCore_d0_zero (n : ℕ) (m : HelmDiags ℝ) (α β : ℝ) : (luHelmholtzCore n m α β).d0 0 = α * m.A0 0 + β * m.B0 0 := by
  have := (luCore_inv n m α β).d0 0 (by omega)
  simpa using this

theorem neumann_d0_zero (N : ℕ) (hN : 3 ≤ N) (gl : Bool) (α β : ℝ) :
    (luHelmholtzCore (N-2) (preLU true (helmDiags (ChebMat.ASNSN N) (ChebMat.BSNSN N N (chebNormSq gl N)))) α β).d0 0 = β * Real.pi := by
  rw [luCore_d0_zero]
  unfold preLU helmDiags
  rw [if_pos rfl]
  dsimp only
  rw [if_pos rfl, mul_zero, mul_zero, zero_add, j2, if_pos rfl, mul_one]
  show β * (chebNormSq gl N 0 + ((((0:ℕ):ℝ) / ((0:ℕ) + 2)) ^ 2) ^ 2 * chebNormSq gl N 2) = _
  simp [chebNormSq]

theorem neumann_factor (gl : Bool) (N : ℕ) (hN : 3 ≤ N) (α β : ℝ) (hβ : 1e-8 ≤ |β|) (f : HelmLU ℝ)
    (hf : f = luHelmholtzNumba (N-2) (helmDiags (ChebMat.ASNSN N) (ChebMat.BSNSN N N (chebNormSq gl N))) true α β ∨
      f = luHelmholtzCython (N-2) (helmDiags (ChebMat.ASNSN N) (ChebMat.BSNSN N N (chebNormSq gl N))) true α β) :
    f = luHelmholtzCore (N-2) (preLU true (helmDiags (ChebMat.ASNSN N) (ChebMat.BSNSN N N (chebNormSq gl N)))) α β := by
  rcases hf with rfl | rfl
  · unfold luHelmholtzNumba numbaFix
    rw [if_neg (by rintro ⟨_, h⟩; exact absurd h (not_lt.2 hβ))]
  · unfold luHelmholtzCython
    rw [cythonPrep_eq N hN _ α β (not_lt.2 hβ)]

/-- **C67** Helmholtz problem with Neumann conditions: for a mass coefficient that is neither tiny nor such that the first
pivot `β π` is mistaken for the marker 1, and whenever elimination is possible, all Galerkin equations hold. -/
theorem C67_helmholtz_neumann (gl : Bool) (N : ℕ) (hN : 8 ≤ N) (I : ℝ[X] →ₗ[ℝ] ℝ)
    (hI : OrthogonalForm chebT I N N (chebNormSq gl N)) (α β : ℝ) (hβ : 1e-8 ≤ |β|) (hβ1 : 1e-16 ≤ (β * Real.pi - 1) ^ 2)
    (hM : Spec.Eliminable (N-2) (helmholtzMatrix I (chebSN N) α β)) (b u : ℕ → ℝ) :
    let m := helmDiags (ChebMat.ASNSN N) (ChebMat.BSNSN N N (chebNormSq gl N))
    ∀ f : HelmLU ℝ, f = luHelmholtzNumba (N-2) m true α β ∨ f = luHelmholtzCython (N-2) m true α β →
    ∀ k < N - 2, HelmholtzEquation I (chebSN N) (N-2) α β (solveHelmholtz (N-2) true f b u) b k := by
  intro m f hf k hk
  have hf' := neumann_factor gl N (by omega) α β hβ f hf
  have hent := neumann_helmMat N (by omega) _ I (C28_chebNormSq_norms gl N (by omega)) hI α β
  have := helm_solves (N-2) (by omega) (preLU true m) α β
    (eliminable_congr hent (eliminable_scale j2 (fun i _ => j2_ne i) hM)) b u k hk
  have hd0 := neumann_d0_zero N (by omega) gl α β
  rw [← hf'] at hd0
  have hreset : ¬ (f.d0 0 - 1) * (f.d0 0 - 1) < 1e-16 := by rw [hd0, ← sq]; exact not_lt.2 hβ1
  rw [helmholtzEquation_iff, ← this, Spec.mulVec]
  refine Finset.sum_congr rfl fun j hj => ?_
  have hj' := Finset.mem_range.1 hj
  rw [← hent k hk j hj', solve_neumann _ f hreset b u j hj', hf']
  ring

/-- **C67** the pure Neumann Poisson problem (`β = 0`): the mean is set to zero and every equation but the first one (a
condition on the right-hand side) holds. -/
theorem C67_helmholtz_neumann_poisson (gl : Bool) (N : ℕ) (hN : 8 ≤ N) (I : ℝ[X] →ₗ[ℝ] ℝ)
    (hI : OrthogonalForm chebT I N N (chebNormSq gl N)) (α : ℝ) (hα : α ≠ 0) (b u : ℕ → ℝ) :
    let m := helmDiags (ChebMat.ASNSN N) (ChebMat.BSNSN N N (chebNormSq gl N))
    ∀ f : HelmLU ℝ, f = luHelmholtzNumba (N-2) m true α 0 ∨ f = luHelmholtzCython (N-2) m true α 0 →
    solveHelmholtz (N-2) true f b u 0 = 0 ∧
    ∀ k, 1 ≤ k → k < N - 2 → HelmholtzEquation I (chebSN N) (N-2) α 0 (solveHelmholtz (N-2) true f b u) b k := by
  intro m f hf
  have hsmall : |(0:ℝ)| < 1e-8 := by norm_num
  obtain ⟨m', hm', hA0, hAi, hA2, hA4⟩ : ∃ m' : HelmDiags ℝ, f = luHelmholtzCore (N-2) m' α 0 ∧ m'.A0 0 = 1 / α ∧
      (∀ i, 1 ≤ i → m'.A0 i = m.A0 i * j2 i) ∧ (∀ i, m'.A2 i = m.A2 i * j2 (i+2)) ∧ (∀ i, m'.A4 i = m.A4 i * j2 (i+4)) := by
    rcases hf with rfl | rfl
    · refine ⟨_, rfl, ?_, fun i hi => ?_, fun i => ?_, fun i => ?_⟩
      all_goals
        unfold numbaFix preLU
        rw [if_pos ⟨rfl, hsmall⟩]
        try rfl
      · dsimp only
        rw [Function.update_of_ne (by omega), if_pos rfl]
        dsimp only
        rw [if_neg (by omega)]
    · refine ⟨_, rfl, ?_, fun i hi => ?_, fun i => ?_, fun i => ?_⟩
      all_goals
        unfold cythonPrep
        rw [if_pos rfl]
        simp only [if_pos hsmall]
      · rw [if_neg (by omega), Function.update_self]
      · rw [if_pos hi, Function.update_of_ne (by omega), j2, if_neg (by omega)]; ring
      · rw [j2, if_neg (by omega)]; ring
      · rw [j2, if_neg (by omega)]; ring
  have hpi := Real.pi_pos
  have hmA0 : ∀ i, 1 ≤ i → m'.A0 i = -2 * Real.pi * (i + 1) / (i + 2) := fun i hi => by
    have h0 : (i:ℝ) ≠ 0 := by exact_mod_cast (by omega : i ≠ 0)
    rw [hAi i hi]
    show (ChebMat.ASNSN N).at 0 i * j2 i = _
    rw [snsn_at0 N (by omega), j2, if_neg (by omega)]
    field_simp
  have inv := luCore_inv (N-2) m' α 0
  have hL : ∀ i, i < N - 2 - 2 → (luHelmholtzCore (N-2) m' α 0).L i = 0 := fun i hi => by rw [inv.L i hi]; simp
  have hd0 : ∀ i, i < N - 2 → (luHelmholtzCore (N-2) m' α 0).d0 i = α * m'.A0 i := fun i hi => by
    rw [inv.d0 i (by omega)]
    by_cases h2 : 2 ≤ i
    · rw [if_pos h2, hL (i-2) (by omega)]; ring
    · rw [if_neg h2]; ring
  have hd0' : ∀ i < N - 2, (luHelmholtzCore (N-2) m' α 0).d0 i ≠ 0 := fun i hi => by
    rw [hd0 i hi]
    refine mul_ne_zero hα ?_
    by_cases h0 : i = 0
    · subst h0; rw [hA0]; exact one_div_ne_zero hα
    · rw [hmA0 i (by omega)]
      have : (0:ℝ) < 2 * Real.pi * (i + 1) / (i + 2) := by positivity
      intro h
      have h' : -(2 * Real.pi * ((i:ℝ) + 1) / (i + 2)) = 0 := by rw [← h]; ring
      linarith
  have hel : Spec.Eliminable (N-2) (helmMat m' α 0) :=
    minors_of_pivots (helm_isLU (N-2) _) (helm_luRel (N-2) m' α 0) fun i hi => by
      rw [helmU, upSum_diag]; exact hd0' i hi
  have hone : f.d0 0 = 1 := by rw [hm', hd0 0 (by omega), hA0]; field_simp
  have hreset : (f.d0 0 - 1) * (f.d0 0 - 1) < 1e-16 := by rw [hone]; norm_num
  have hx : ∀ i, solveHelmholtz (N-2) true f b u i = if i = 0 then 0 else if i < N - 2 then
      j2 i * solveHelmholtzCore (N-2) f b u i else solveHelmholtzCore (N-2) f b u i := by
    intro i
    unfold solveHelmholtz
    simp only [if_pos hreset, if_true]
    by_cases h0 : i = 0
    · subst h0; simp
    · rw [Function.update_of_ne h0, if_neg h0]
      by_cases hi : i < N - 2
      · rw [if_pos ⟨by omega, hi⟩, if_pos hi, j2, if_neg h0]
        have : (i:ℝ) ≠ 0 := by exact_mod_cast h0
        field_simp
      · rw [if_neg (by omega), if_neg hi]
  refine ⟨by rw [hx, if_pos rfl], fun k hk1 hk => ?_⟩
  have hsol := helm_solves (N-2) (by omega) m' α 0 hel b u k hk
  rw [helmholtzEquation_iff, ← hsol, Spec.mulVec, ← hm']
  refine Finset.sum_congr rfl fun j hj => ?_
  have hj' := Finset.mem_range.1 hj
  have hent := neumann_helmMat N (by omega) _ I (C28_chebNormSq_norms gl N (by omega)) hI α 0 k hk j hj'
  by_cases h0 : j = 0
  · subst h0
    rw [hx, if_pos rfl, mul_zero]
    unfold helmMat
    ifs
    by_cases h2 : 0 + 2 = k
    · rw [if_pos h2]; ring
    · rw [if_neg h2]; ring
  · rw [hx, if_neg h0, if_pos hj', ← mul_assoc, mul_comm _ (j2 j), hent]
    congr 1
    unfold helmMat
    rcases (by omega : j = k ∨ j ≠ k) with h | h
    · subst h; ifs; rw [hAi j hk1]; unfold preLU; rw [if_pos rfl]; dsimp only; ifs; ring
    · rw [if_neg h, if_neg h, hA2, hA4]
      unfold preLU
      rw [if_pos rfl]
      dsimp only
      simp only [zero_mul, add_zero]
      rfl

/-- **C67** refuted near `β = 1/π`: the solver takes the regular first pivot `β π ≈ 1` for the marker of a singular problem
and sets the first unknown to zero, so for some right-hand side an equation of the regular problem fails. -/
theorem C67_reset_refuted (gl : Bool) (N : ℕ) (hN : 8 ≤ N) (I : ℝ[X] →ₗ[ℝ] ℝ) (α β : ℝ)
    (hβ1 : (β * Real.pi - 1) ^ 2 < 1e-16) (u : ℕ → ℝ) :
    let m := helmDiags (ChebMat.ASNSN N) (ChebMat.BSNSN N N (chebNormSq gl N))
    ∀ f : HelmLU ℝ, f = luHelmholtzNumba (N-2) m true α β ∨ f = luHelmholtzCython (N-2) m true α β →
    ∃ b : ℕ → ℝ, ∃ k < N - 2, ¬ HelmholtzEquation I (chebSN N) (N-2) α β (solveHelmholtz (N-2) true f b u) b k := by
  intro m f hf
  have hβ : 1e-8 ≤ |β| := by
    by_contra hlt
    push Not at hlt
    have h4 : Real.pi < 4 := Real.pi_lt_four
    have hp := Real.pi_pos
    have h1 : |β * Real.pi| ≤ 1e-8 * 4 := by
      rw [abs_mul, abs_of_pos hp]
      exact mul_le_mul hlt.le h4.le hp.le (by norm_num)
    have h2 := (abs_le.1 h1).2
    nlinarith
  have hf' := neumann_factor gl N (by omega) α β hβ f hf
  have hd0 := neumann_d0_zero N (by omega) gl α β
  rw [← hf'] at hd0
  have hreset : (f.d0 0 - 1) * (f.d0 0 - 1) < 1e-16 := by rw [hd0, ← sq]; exact hβ1
  have hx0 : ∀ b, solveHelmholtz (N-2) true f b u 0 = 0 := fun b => by
    unfold solveHelmholtz
    simp only [if_pos hreset, if_true]
    simp
  by_contra hall
  push Not at hall
  let M : Matrix (Fin (N-2)) (Fin (N-2)) ℝ := fun i j => helmholtzMatrix I (chebSN N) α β i j
  have hM : ∀ (c : Fin (N-2) → ℝ), ∃ x : Fin (N-2) → ℝ, x ⟨0, by omega⟩ = 0 ∧ M.mulVec x = c := fun c => by
    refine ⟨fun i => solveHelmholtz (N-2) true f (fun i => if h : i < N - 2 then c ⟨i, h⟩ else 0) u i, hx0 _, ?_⟩
    funext i
    have := hall (fun i => if h : i < N - 2 then c ⟨i, h⟩ else 0) i i.2
    rw [helmholtzEquation_iff] at this
    rw [dif_pos i.2, Finset.sum_range] at this
    exact this
  have hsurj : Function.Surjective M.mulVecLin := fun c => by
    obtain ⟨x, _, hx⟩ := hM c
    exact ⟨x, hx⟩
  have hinj := LinearMap.injective_iff_surjective.2 hsurj
  let e : Fin (N-2) → ℝ := fun i => if (i:ℕ) = 0 then 1 else 0
  obtain ⟨x, hx1, hx2⟩ := hM (M.mulVec e)
  have := congrFun (hinj (show M.mulVecLin x = M.mulVecLin e from hx2)) ⟨0, by omega⟩
  rw [hx1] at this
  simp [e] at this

/-- **C67** refuted for several lines with the numba factorisation: after a line with vanishing mass coefficient, the
factorisation of every later line is spoilt, since the replaced entry `A_0[0] = 1/α` stays: its first pivot is
`α₂/α₁ + β₂ π`, while the same line factorised by itself has `β₂ π`. -/
theorem C67_numba_shared_refuted (gl : Bool) (N : ℕ) (hN : 8 ≤ N) (α₁ α₂ β₂ : ℝ) (h1 : α₁ ≠ 0) (h2 : α₂ ≠ 0) (hβ : 1e-8 ≤ |β₂|) :
    let m := helmDiags (ChebMat.ASNSN N) (ChebMat.BSNSN N N (chebNormSq gl N))
    ∃ f g : HelmLU ℝ, luHelmholtzManyNumba (N-2) m true [(α₁, 0), (α₂, β₂)] = [f, g] ∧
      f = luHelmholtzNumba (N-2) m true α₁ 0 ∧
      g.d0 0 = α₂ / α₁ + β₂ * Real.pi ∧
      (luHelmholtzNumba (N-2) m true α₂ β₂).d0 0 = β₂ * Real.pi ∧
      g ≠ luHelmholtzNumba (N-2) m true α₂ β₂ := by
  intro m
  have hg : (luHelmholtzCore (N-2) (numbaFix true α₂ β₂ (numbaFix true α₁ 0 (preLU true m))) α₂ β₂).d0 0 =
      α₂ / α₁ + β₂ * Real.pi := by
    have hd0 := neumann_d0_zero N (by omega) gl α₂ β₂
    rw [luCore_d0_zero] at hd0 ⊢
    have hA : (numbaFix true α₂ β₂ (numbaFix true α₁ 0 (preLU true m))).A0 0 = 1 / α₁ := by
      unfold numbaFix
      rw [if_neg (by rintro ⟨_, h⟩; exact absurd h (not_lt.2 hβ)), if_pos ⟨rfl, by norm_num⟩]
      show Function.update (preLU true m).A0 0 (1 / α₁) 0 = _
      exact Function.update_self ..
    have hB : (numbaFix true α₂ β₂ (numbaFix true α₁ 0 (preLU true m))).B0 0 = (preLU true m).B0 0 := by
      unfold numbaFix
      rw [if_neg (by rintro ⟨_, h⟩; exact absurd h (not_lt.2 hβ)), if_pos ⟨rfl, by norm_num⟩]
    have hA0 : (preLU true m).A0 0 = 0 := by
      unfold preLU
      rw [if_pos rfl]
      simp
    rw [hA, hB]
    change α₂ * (preLU true m).A0 0 + β₂ * (preLU true m).B0 0 = _ at hd0
    rw [hA0] at hd0
    linear_combination hd0
  have hs : (luHelmholtzNumba (N-2) m true α₂ β₂).d0 0 = β₂ * Real.pi := by
    rw [neumann_factor gl N (by omega) α₂ β₂ hβ _ (Or.inl rfl)]
    exact neumann_d0_zero N (by omega) gl α₂ β₂
  refine ⟨_, _, rfl, rfl, hg, hs, fun h => ?_⟩
  rw [← h, hg] at hs
  have : α₂ / α₁ ≠ 0 := div_ne_zero h2 h1
  exact this (by linarith)

/-- For `α ≠ 0` elimination is possible for all but finitely many mass coefficients. -/
theorem C67_neumann_generic (gl : Bool) (N : ℕ) (hN : 8 ≤ N) (I : ℝ[X] →ₗ[ℝ] ℝ)
    (hI : OrthogonalForm chebT I N N (chebNormSq gl N)) (α : ℝ) (hα : α ≠ 0) :
    {β : ℝ | ¬ Spec.Eliminable (N-2) (helmholtzMatrix I (chebSN N) α β)}.Finite := by
  have hh := C28_chebNormSq_norms gl N (by omega)
  let P (k : ℕ) : Matrix (Fin k) (Fin k) ℝ[X] := Matrix.of fun i j =>
    if (j:ℕ) = 0 then C (I (chebSN N i * chebSN N 0)) else
      C (α * chebForm 2 (chebSN N i) (chebSN N j)) + X * C (I (chebSN N i * chebSN N j))
  have hev : ∀ k (x : ℝ), (P k).det.eval x = ((P k).map (eval x)).det := fun k x => by
    show evalRingHom x (P k).det = _
    rw [RingHom.map_det]; rfl
  have hcol : ∀ i < N - 2, 1 ≤ i → I (chebSN N i * chebSN N 0) = 0 := fun i hi h1 => by
    rw [bsnsn_entry hi (by omega) _ I hh hI]
    by_cases h2 : 0 + 2 = i
    · ifs; simp
    · ifs
  have hcol0 : I (chebSN N 0 * chebSN N 0) = Real.pi := by
    rw [bsnsn_entry (by omega) (by omega) _ I hh hI, if_pos rfl, hh.zero]; simp
  have hP0 : ∀ k ≤ N - 2, (P k).det ≠ 0 := fun k hk h0 => by
    have h := hev k 0
    rw [h0, eval_zero, Matrix.det_of_upperTriangular] at h
    · refine Finset.prod_ne_zero_iff.2 (fun i _ => ?_) h.symm
      show eval 0 (if (i:ℕ) = 0 then C (I (chebSN N i * chebSN N 0)) else
        C (α * chebForm 2 (chebSN N i) (chebSN N i)) + X * C (I (chebSN N i * chebSN N i))) ≠ 0
      by_cases hi : (i:ℕ) = 0
      · rw [if_pos hi, hi, eval_C, hcol0]; exact Real.pi_pos.ne'
      · rw [if_neg hi, eval_add, eval_C, eval_mul, eval_X, zero_mul, add_zero, snsn_entry (by omega) (by omega), if_pos rfl]
        refine mul_ne_zero hα ?_
        have h1 : (0:ℝ) < i := by exact_mod_cast (by omega : 0 < (i:ℕ))
        have hp := Real.pi_pos
        have h2 : (0:ℝ) < 2 * Real.pi * (i:ℝ) ^ 2 * (i + 1) / (i + 2) := by positivity
        intro h'
        have h3 : -(2 * Real.pi * (i:ℝ) ^ 2 * (i + 1) / (i + 2)) = 0 := by rw [← h']; ring
        linarith
    · intro i j hij
      have hij' : (j:ℕ) < i := hij
      show eval 0 (if (j:ℕ) = 0 then C (I (chebSN N i * chebSN N 0)) else
        C (α * chebForm 2 (chebSN N i) (chebSN N j)) + X * C (I (chebSN N i * chebSN N j))) = 0
      by_cases hj : (j:ℕ) = 0
      · rw [if_pos hj, eval_C, hcol i (by omega) (by omega)]
      · rw [if_neg hj, eval_add, eval_C, eval_mul, eval_X, zero_mul, add_zero, snsn_entry (by omega) (by omega), if_neg (by omega),
          if_neg (by omega), mul_zero]
  refine Set.Finite.subset ((Set.finite_singleton (0:ℝ)).union
    (Set.Finite.biUnion (Set.finite_le_nat (N-2)) fun k _ => ((P k).det.roots.toFinset.finite_toSet))) ?_
  intro β hβ
  by_contra hno
  simp only [Set.mem_union, Set.mem_singleton_iff, Set.mem_iUnion, not_or, not_exists] at hno
  refine hβ fun k hk => ?_
  have hr : (P k).det.eval β ≠ 0 := fun h => hno.2 k hk (by
    rw [Finset.mem_coe, Multiset.mem_toFinset, mem_roots (hP0 k hk)]; exact h)
  rw [hev] at hr
  unfold Spec.leadMinor
  have : (Matrix.of fun i j : Fin k => helmholtzMatrix I (chebSN N) α β i j) =
      Matrix.of fun i j : Fin k => (fun t : Fin k => if (t:ℕ) = 0 then β else 1) j * ((P k).map (eval β)) i j := by
    refine Matrix.ext fun i j => ?_
    show helmholtzMatrix I (chebSN N) α β i j = (if (j:ℕ) = 0 then β else 1) * eval β (if (j:ℕ) = 0 then C (I (chebSN N i * chebSN N 0)) else
      C (α * chebForm 2 (chebSN N i) (chebSN N j)) + X * C (I (chebSN N i * chebSN N j)))
    unfold helmholtzMatrix
    by_cases hj : (j:ℕ) = 0
    · rw [if_pos hj, if_pos hj, eval_C, hj, snsn_entry (by omega) (by omega)]
      by_cases hi : 0 = (i:ℕ)
      · rw [if_pos hi, ← hi]; simp
      · rw [if_neg hi, if_neg (by omega)]; ring
    · rw [if_neg hj, if_neg hj, eval_add, eval_C, eval_mul, eval_X, eval_C, one_mul]
  rw [this, Matrix.det_mul_row]
  refine mul_ne_zero (Finset.prod_ne_zero_iff.2 fun i _ => ?_) hr
  split_ifs
  · exact hno.1
  · exact one_ne_zero

/-- Non-vacuity of the Neumann theorem: on ten points, with exact integration and `α = 1`, some mass coefficient larger than
one meets its hypotheses. -/
example : ∃ β : ℝ, 1 < β ∧ 1e-8 ≤ |β| ∧ 1e-16 ≤ (β * Real.pi - 1) ^ 2 ∧
    Spec.Eliminable 8 (helmholtzMatrix chebI (chebSN 10) 1 β) := by
  have hfin := C67_neumann_generic false 10 (by norm_num) chebI (C28_cheb_exact_form 10 10) 1 one_ne_zero
  obtain ⟨β, hβ, hn⟩ := (Set.Ioi_infinite (1:ℝ)).exists_notMem_finite hfin
  have hβ' : 1 < β := hβ
  refine ⟨β, hβ', ?_, ?_, not_not.1 hn⟩
  · rw [abs_of_pos (by linarith)]; linarith
  · have := Real.pi_gt_three
    have h3 : 3 ≤ β * Real.pi := by nlinarith
    have : (1:ℝ) ≤ (β * Real.pi - 1) ^ 2 := by nlinarith
    linarith

end Shenfun
