import Verif.Props.MatvecSums

/-!
# C69: matrix-vector products of the dedicated solvers; methods that lose or repeat a scale
-/

namespace Shenfun

open Polynomial Spec Finset ChebLA

set_option linter.unusedSimpArgs false

namespace SpecMat

/-! ## Helmholtz, Dirichlet -/

theorem kernelHelmholtz_apply (M : ℕ) (hM : 4 ≤ M) (alf bet : ℝ) (dd ud bd v : ℕ → ℝ) (i : ℕ) :
    kernelHelmholtz M alf bet dd ud bd v zeros i = if i < M then
      (dd i * alf + bd i * bet) * v i
        - Real.pi / 2 * bet * ((if 2 ≤ i then v (i-2) else 0) + (if i + 2 < M then v (i+2) else 0))
        + ud i * alf * pSum M ((i+2)%2) (i+2) v else 0 := by
  unfold kernelHelmholtz
  set b1 := Function.update (Function.update zeros (M-1) ((dd (M-1) * alf + bd (M-1) * bet) * v (M-1) - Real.pi / 2 * bet * v (M-3)))
    (M-2) ((dd (M-2) * alf + bd (M-2) * bet) * v (M-2) - Real.pi / 2 * bet * v (M-4)) with hb1
  obtain ⟨h1, -, h3, -, h5⟩ := sumLoop_inv (M-2) 2 v (fun _ => 0)
    (fun k s _ => (dd k * alf + bd k * bet) * v k - Real.pi / 2 * bet * (v (k-2) + v (k+2)) + ud k * alf * s) b1 (M-4) (by omega)
  rw [(by omega : M - 2 - (M - 4) = 2), (by omega : M - 2 + 2 = M)] at h1 h3
  rw [(by omega : M - 2 - (M - 4) = 2), (by omega : M - 2 + 2 = M)] at h5
  have e1 : (sumLoop (M-2) 2 v (fun _ => 0)
    (fun k s _ => (dd k * alf + bd k * bet) * v k - Real.pi / 2 * bet * (v (k-2) + v (k+2)) + ud k * alf * s) b1 (M-4)).o1 + v 3 = pSum M 1 3 v := by
    rw [h3, pSum_succ v (by omega : 3 < M) rfl, add_comm]
  have e2 : (sumLoop (M-2) 2 v (fun _ => 0)
    (fun k s _ => (dd k * alf + bd k * bet) * v k - Real.pi / 2 * bet * (v (k-2) + v (k+2)) + ud k * alf * s) b1 (M-4)).e1 + v 2 = pSum M 0 2 v := by
    rw [h1, pSum_succ v (by omega : 2 < M) rfl, pSum_skip v (by norm_num : 3 % 2 ≠ 0), add_comm]
  rw [e1, e2, Function.update_apply, Function.update_apply, h5, hb1, Function.update_apply, Function.update_apply]
  rcases (by omega : i = 0 ∨ i = 1 ∨ (2 ≤ i ∧ i < M-2) ∨ (i = M-2 ∧ 2 ≤ i) ∨ (i = M-1 ∧ 2 ≤ i) ∨ M ≤ i) with hc | hc | hc | ⟨hc, hc'⟩ | ⟨hc, hc'⟩ | hc
  · subst hc; ifs; norm_num
  · subst hc; ifs; norm_num
  · ifs
  · ifs
    rw [pSum_zero _ (by omega), hc, (by omega : M - 2 - 2 = M - 4)]; ring
  · ifs
    rw [pSum_zero _ (by omega), hc, (by omega : M - 1 - 2 = M - 3)]; ring
  · ifs; rfl

/-- A row with a diagonal entry and second upper and lower entries. -/
theorem sum_tri (n i : ℕ) (hi : i < n) (d u : ℝ) (l : ℕ → ℝ) (v : ℕ → ℝ) :
    ∑ j ∈ range n, (if j = i then d else if j = i + 2 then u else if j + 2 = i then l j else 0) * v j =
      d * v i + (if i + 2 < n then u * v (i+2) else 0) + (if 2 ≤ i then l (i-2) * v (i-2) else 0) := by
  have h1 : d * v i = ∑ j ∈ range n, if j = i then d * v j else 0 := by
    rw [Finset.sum_ite_eq' (range n) i fun j => d * v j, if_pos (Finset.mem_range.2 hi)]
  have h2 : (if i + 2 < n then u * v (i+2) else 0) = ∑ j ∈ range n, if j = i + 2 then u * v j else 0 := by
    rw [Finset.sum_ite_eq' (range n) (i+2) fun j => u * v j]
    exact if_congr Finset.mem_range.symm rfl rfl
  have h3 : (if 2 ≤ i then l (i-2) * v (i-2) else 0) = ∑ j ∈ range n, if j + 2 = i then l j * v j else 0 := by
    by_cases h : 2 ≤ i
    · rw [if_pos h, Finset.sum_congr rfl fun j _ => show (if j + 2 = i then l j * v j else 0) = if j = i - 2 then l j * v j else 0 from
        if_congr (by omega) rfl rfl, Finset.sum_ite_eq' (range n) (i-2) fun j => l j * v j, if_pos (Finset.mem_range.2 (by omega))]
    · rw [if_neg h]
      exact (Finset.sum_eq_zero fun j _ => if_neg (by omega)).symm
  rw [h1, h2, h3, ← Finset.sum_add_distrib, ← Finset.sum_add_distrib]
  refine Finset.sum_congr rfl fun j _ => ?_
  rcases (by omega : j = i ∨ j = i + 2 ∨ j + 2 = i ∨ (j ≠ i ∧ j ≠ i + 2 ∧ j + 2 ≠ i)) with h | h | h | h
  · ifs; ring
  · ifs; ring
  · ifs; ring
  · ifs; ring

/-- Row `i` of `Helmholtz.matvec`, and of the Galerkin matrix, for Dirichlet spaces. -/
theorem helmholtz_row (N : ℕ) (hN : 6 ≤ N) (h : ℕ → ℝ) (I : ℝ[X] →ₗ[ℝ] ℝ) (hh : ChebNorms N N h) (hI : OrthogonalForm chebT I N N h)
    (alf bet : ℝ) (v : ℕ → ℝ) (i : ℕ) (hi : i < N - 2) :
    ∑ j ∈ range (N-2), helmholtzMatrix I (chebSD N) alf bet i j * v j =
      (-2 * Real.pi * (i + 1) * (i + 2) * alf + (h i + h (i+2)) * bet) * v i
        - Real.pi / 2 * bet * ((if 2 ≤ i then v (i-2) else 0) + (if i + 2 < N - 2 then v (i+2) else 0))
        + -4 * Real.pi * (i + 1) * alf * pSum (N-2) ((i+2)%2) (i+2) v := by
  unfold helmholtzMatrix
  rw [Finset.sum_congr rfl fun j hj => show (alf * chebForm 2 (chebSD N i) (chebSD N j) + bet * I (chebSD N i * chebSD N j)) * v j =
    alf * ((if j = i then -2 * Real.pi * (i + 1) * (i + 2) else if i < j ∧ j % 2 = i % 2 then -4 * Real.pi * (i + 1) else 0) * v j)
    + bet * ((if j = i then h i + h (i+2) else if j = i + 2 then -h 1 else if j + 2 = i then -h 1 else 0) * v j) by
      rw [sdsd_entry hi (Finset.mem_range.1 hj), bsdsd_entry hi (Finset.mem_range.1 hj) h I hh hI]
      rcases (by omega : j = i ∨ j = i + 2 ∨ j + 2 = i ∨ (j ≠ i ∧ j ≠ i + 2 ∧ j + 2 ≠ i)) with hc | hc | hc | hc
      · ifs; ring
      · ifs; ring
      · ifs; ring
      · simp only [if_neg hc.1, if_neg hc.2.1, if_neg hc.2.2, if_neg (show ¬ (j = i + 2 ∨ j + 2 = i) by omega)]; ring,
    Finset.sum_add_distrib, ← Finset.mul_sum, ← Finset.mul_sum, sum_diag_tail _ _ hi, sum_tri _ _ hi _ _ (fun _ => -h 1), ← mul_pSum,
    hh.mid 1 le_rfl (by omega)]
  split_ifs <;> ring

theorem bsdsd_at0 (N : ℕ) (h : ℕ → ℝ) (t : ℕ) : (ChebMat.BSDSD N N h).at 0 t = h t + h (t+2) := rfl

/-- **C69** `Helmholtz.matvec` for Dirichlet spaces, when no factor is incorporated in the mass matrix: the output is
`α u'' + β u` tested with every basis function, `u` having the coefficients `v`. -/
theorem C69_helmholtz (N : ℕ) (hN : 6 ≤ N) (h : ℕ → ℝ) (I : ℝ[X] →ₗ[ℝ] ℝ) (hh : ChebNorms N N h) (hI : OrthogonalForm chebT I N N h)
    (kA sA sB alf bet : ℝ) (v : ℕ → ℝ) :
    (∀ i < N - 2, HelmholtzEquation I (chebSD N) (N-2) (alf * kA) bet v
      (helmholtzMatvec (N-2) ⟨ChebMat.ASDSD N, kA, sA⟩ ⟨ChebMat.BSDSD N N h, 1, sB⟩ alf bet v) i) ∧
    ∀ i, N - 2 ≤ i → helmholtzMatvec (N-2) ⟨ChebMat.ASDSD N, kA, sA⟩ ⟨ChebMat.BSDSD N N h, 1, sB⟩ alf bet v i = 0 := by
  refine ⟨fun i hi => ?_, fun i hi => ?_⟩
  · rw [helmholtzEquation_iff, helmholtz_row N hN h I hh hI _ _ _ _ hi]
    unfold helmholtzMatvec
    rw [kernelHelmholtz_apply _ (by omega), if_pos hi]
    simp only [SpecMat.get]
    rw [sdsd_at0 N (by omega), sdsd_at2 N (by omega), bsdsd_at0]
    ring
  · unfold helmholtzMatvec
    rw [kernelHelmholtz_apply _ (by omega), if_neg (by omega)]

/-- **C69** refuted for `Helmholtz.matvec` when a factor `kB ≠ 1` is incorporated in the mass matrix, as on every domain
other than `(-1, 1)`: the off-diagonal entries `-π/2` are hard-wired. -/
theorem C69_helmholtz_domain_refuted (N : ℕ) (hN : 6 ≤ N) (h : ℕ → ℝ) (I : ℝ[X] →ₗ[ℝ] ℝ) (hh : ChebNorms N N h)
    (hI : OrthogonalForm chebT I N N h) (kA sA kB sB alf bet : ℝ) (hk : kB ≠ 1) (hb : bet ≠ 0) :
    ∃ v : ℕ → ℝ, ∃ i < N - 2, ¬ HelmholtzEquation I (chebSD N) (N-2) (alf * kA) (bet * kB) v
      (helmholtzMatvec (N-2) ⟨ChebMat.ASDSD N, kA, sA⟩ ⟨ChebMat.BSDSD N N h, kB, sB⟩ alf bet v) i := by
  refine ⟨fun j => if j = 2 then 1 else 0, 0, by omega, fun hcon => ?_⟩
  rw [helmholtzEquation_iff, helmholtz_row N hN h I hh hI _ _ _ _ (by omega)] at hcon
  unfold helmholtzMatvec at hcon
  rw [kernelHelmholtz_apply _ (by omega), if_pos (show 0 < N - 2 by omega)] at hcon
  dsimp only [SpecMat.get] at hcon
  rw [sdsd_at2 N (by omega)] at hcon
  simp only [if_pos (by omega : (0:ℕ) + 2 < N - 2)] at hcon
  norm_num at hcon
  have : Real.pi / 2 * bet * (kB - 1) = 0 := by linarith
  have hpi := Real.pi_ne_zero
  rcases mul_eq_zero.1 this with h1 | h1
  · rcases mul_eq_zero.1 h1 with h2 | h2
    · exact hpi (by linarith)
    · exact hb h2
  · exact hk (by linarith)

/-! ## Helmholtz, Neumann -/

theorem kernelHelmholtzNeumann_apply (M : ℕ) (hM : 4 ≤ M) (alf bet : ℝ) (dd ud bl bd bu v : ℕ → ℝ) (i : ℕ) :
    kernelHelmholtzNeumann false M alf bet dd ud bl bd bu v zeros i = if i < M then
      (dd i * alf + bd i * bet) * (v i * (i:ℝ) ^ 2)
        + bet * ((if 2 ≤ i then bl (i-2) * (v (i-2) * ((i-2 : ℕ):ℝ) ^ 2) else 0)
          + (if i + 2 < M then bu i * (v (i+2) * ((i+2 : ℕ):ℝ) ^ 2) else 0))
        + ud i * alf * pSum M ((i+2)%2) (i+2) (fun k => v k * (k:ℝ) ^ 2)
        + (if i = 0 then bd 0 * v 0 * bet else 0) + (if i = 2 then bl 0 * v 0 * bet else 0) else 0 := by
  unfold kernelHelmholtzNeumann
  dsimp only
  simp only [Bool.false_eq_true, if_false]
  set w : ℕ → ℝ := fun k => v k * (k:ℝ) ^ 2 with hw
  set b1 := Function.update (Function.update zeros (M-1) ((dd (M-1) * alf + bd (M-1) * bet) * v (M-1) * ((M-1 : ℕ):ℝ) ^ 2 +
    bl (M-1-2) * bet * v (M-1-2) * ((M-1-2 : ℕ):ℝ) ^ 2))
    (M-2) ((dd (M-2) * alf + bd (M-2) * bet) * v (M-2) * ((M-2 : ℕ):ℝ) ^ 2 +
    bl (M-2-2) * bet * v (M-2-2) * ((M-2-2 : ℕ):ℝ) ^ 2) with hb1
  have hw' : ∀ k, v k * (k:ℝ) ^ 2 = w k := fun _ => rfl
  simp only [hw']
  obtain ⟨h1, -, h3, -, h5⟩ := sumLoop_inv (M-2) 2 w (fun _ => 0)
    (fun k s _ => (dd k * alf + bd k * bet) * w k + bet * (bl (k-2) * w (k-2) + bu k * w (k+2)) + ud k * alf * s) b1 (M-4) (by omega)
  rw [(by omega : M - 2 - (M - 4) = 2), (by omega : M - 2 + 2 = M)] at h1 h3
  rw [(by omega : M - 2 - (M - 4) = 2), (by omega : M - 2 + 2 = M)] at h5
  set S := sumLoop (M-2) 2 w (fun _ => 0)
    (fun k s _ => (dd k * alf + bd k * bet) * w k + bet * (bl (k-2) * w (k-2) + bu k * w (k+2)) + ud k * alf * s) b1 (M-4) with hS
  have e1 : S.o1 + w 3 = pSum M 1 3 w := by
    rw [h3, pSum_succ w (by omega : 3 < M) rfl, add_comm]
  have e2 : S.e1 + w 2 = pSum M 0 2 w := by
    rw [h1, pSum_succ w (by omega : 2 < M) rfl, pSum_skip w (by norm_num : 3 % 2 ≠ 0), add_comm]
  rw [e1, e2]
  simp only [Function.update_apply, h5]
  rw [hb1]
  simp only [Function.update_apply]
  rcases (by omega : i = 0 ∨ i = 1 ∨ (i = 2 ∧ i < M-2) ∨ (3 ≤ i ∧ i < M-2) ∨ (i = 2 ∧ i = M-2) ∨ (i = M-2 ∧ 3 ≤ i) ∨ (i = M-1 ∧ 3 ≤ i) ∨ M ≤ i)
    with hc | hc | ⟨hc, hc'⟩ | hc | ⟨hc, hc'⟩ | ⟨hc, hc'⟩ | ⟨hc, hc'⟩ | hc
  · subst hc; ifs; norm_num
  · subst hc; ifs; norm_num
  · subst hc; ifs; norm_num
  · ifs; ring
  · subst hc
    rw [← hc']
    ifs
    rw [pSum_zero _ (by omega), ← hw' 2, ← hw' (2-2)]; norm_num; ring
  · ifs
    rw [pSum_zero _ (by omega), hc, ← hw' (M-2), ← hw' (M-2-2)]; ring
  · ifs
    rw [pSum_zero _ (by omega), hc, ← hw' (M-1), ← hw' (M-1-2)]; ring
  · ifs; rfl

theorem bsnsn_at0 (N : ℕ) (h : ℕ → ℝ) (t : ℕ) : (ChebMat.BSNSN N N h).at 0 t = h t + (((t:ℝ) / (t + 2)) ^ 2) ^ 2 * h (t+2) := rfl
theorem bsnsn_at2 (N : ℕ) (h : ℕ → ℝ) (t : ℕ) : (ChebMat.BSNSN N N h).at 2 t = -(((t:ℝ) / (t + 2)) ^ 2) * h (t+2) := rfl
theorem bsnsn_atm2 (N : ℕ) (h : ℕ → ℝ) (t : ℕ) : (ChebMat.BSNSN N N h).at (-2) t = -(((t:ℝ) / (t + 2)) ^ 2) * h (t+2) := rfl

/-- Row `i` of the Galerkin matrix for Neumann spaces. -/
theorem helmholtz_neumann_row (N : ℕ) (h : ℕ → ℝ) (I : ℝ[X] →ₗ[ℝ] ℝ) (hh : ChebNorms N N h) (hI : OrthogonalForm chebT I N N h)
    (alf bet : ℝ) (v : ℕ → ℝ) (i : ℕ) (hi : i < N - 2) :
    ∑ j ∈ range (N-2), helmholtzMatrix I (chebSN N) alf bet i j * v j =
      alf * (-2 * Real.pi * (i:ℝ) ^ 2 * (i + 1) / (i + 2) * v i
        + pSum (N-2) ((i+2)%2) (i+2) (fun j => -4 * Real.pi * (j:ℝ) ^ 2 * (i + 1) / ((i:ℝ) + 2) ^ 2 * v j))
      + bet * ((h i + (((i:ℝ) / (i + 2)) ^ 2) ^ 2 * h (i+2)) * v i
        + (if i + 2 < N - 2 then -(((i:ℝ) / (i + 2)) ^ 2) * h (i+2) * v (i+2) else 0)
        + (if 2 ≤ i then -((((i-2 : ℕ):ℝ) / ((i-2 : ℕ) + 2)) ^ 2) * h (i-2+2) * v (i-2) else 0)) := by
  unfold helmholtzMatrix
  rw [Finset.sum_congr rfl fun j hj => show (alf * chebForm 2 (chebSN N i) (chebSN N j) + bet * I (chebSN N i * chebSN N j)) * v j =
    alf * ((if j = i then -2 * Real.pi * (i:ℝ) ^ 2 * (i + 1) / (i + 2)
      else if i < j ∧ j % 2 = i % 2 then -4 * Real.pi * (j:ℝ) ^ 2 * (i + 1) / ((i:ℝ) + 2) ^ 2 else 0) * v j)
    + bet * ((if j = i then h i + (((i:ℝ) / (i + 2)) ^ 2) ^ 2 * h (i+2) else if j = i + 2 then -(((i:ℝ) / (i + 2)) ^ 2) * h (i+2)
      else if j + 2 = i then -(((j:ℝ) / (j + 2)) ^ 2) * h (j+2) else 0) * v j) by
      rw [snsn_entry hi (Finset.mem_range.1 hj), bsnsn_entry hi (Finset.mem_range.1 hj) h I hh hI]; ring,
    Finset.sum_add_distrib, ← Finset.mul_sum, ← Finset.mul_sum,
    sum_diag_tail (N-2) i hi _ (fun j => -4 * Real.pi * (j:ℝ) ^ 2 * (i + 1) / ((i:ℝ) + 2) ^ 2),
    sum_tri _ _ hi _ _ (fun j => -(((j:ℝ) / (j + 2)) ^ 2) * h (j+2))]

/-- **C69** `Helmholtz.matvec` for Neumann spaces with numba. -/
theorem C69_helmholtz_neumann_numba (N : ℕ) (hN : 6 ≤ N) (h : ℕ → ℝ) (I : ℝ[X] →ₗ[ℝ] ℝ) (hh : ChebNorms N N h)
    (hI : OrthogonalForm chebT I N N h) (kA sA kB sB alf bet : ℝ) (v : ℕ → ℝ) :
    (∀ i < N - 2, HelmholtzEquation I (chebSN N) (N-2) (alf * kA) (bet * kB) v
      (helmholtzNeumannMatvec false (N-2) ⟨ChebMat.ASNSN N, kA, sA⟩ ⟨ChebMat.BSNSN N N h, kB, sB⟩ alf bet v) i) ∧
    ∀ i, N - 2 ≤ i → helmholtzNeumannMatvec false (N-2) ⟨ChebMat.ASNSN N, kA, sA⟩ ⟨ChebMat.BSNSN N N h, kB, sB⟩ alf bet v i = 0 := by
  refine ⟨fun i hi => ?_, fun i hi => ?_⟩
  · rw [helmholtzEquation_iff, helmholtz_neumann_row N h I hh hI _ _ _ _ hi]
    unfold helmholtzNeumannMatvec
    dsimp only
    rw [kernelHelmholtzNeumann_apply _ (by omega), if_pos hi]
    simp only [SpecMat.get, Bool.false_eq_true, if_false]
    rw [snsn_at0 N (by omega), snsn_at2 N (by omega), bsnsn_at0, bsnsn_at0, bsnsn_at2, bsnsn_atm2, bsnsn_atm2]
    rw [show pSum (N-2) ((i+2)%2) (i+2) (fun j => -4 * Real.pi * (j:ℝ) ^ 2 * ((i:ℝ) + 1) / ((i:ℝ) + 2) ^ 2 * v j) =
      -4 * Real.pi * ((i:ℝ) + 1) / ((i:ℝ) + 2) ^ 2 * pSum (N-2) ((i+2)%2) (i+2) (fun k => v k * (k:ℝ) ^ 2) by
        rw [mul_pSum]; congr 1; funext j; ring]
    generalize pSum (N-2) ((i+2)%2) (i+2) (fun k => v k * (k:ℝ) ^ 2) = P
    have p2 : ((i:ℝ) + 2) ≠ 0 := by positivity
    rw [if_neg (by omega : ¬ i + 2 = 0)]
    rcases (by omega : i = 0 ∨ i = 1 ∨ i = 2 ∨ 3 ≤ i) with hc | hc | hc | hc
    · subst hc
      ifs
      norm_num
      ring
    · subst hc
      ifs
      norm_num
      ring
    · subst hc
      ifs
      norm_num
      split_ifs <;> ring
    · have q0 : (i:ℝ) ≠ 0 := by
        have : (3:ℝ) ≤ i := by exact_mod_cast hc
        linarith
      obtain ⟨t, rfl⟩ : ∃ t, i = t + 2 := ⟨i - 2, by omega⟩
      have q1 : (t:ℝ) ≠ 0 := by
        have : (1:ℝ) ≤ t := by exact_mod_cast (by omega : 1 ≤ t)
        linarith
      rw [(by omega : t + 2 - 2 = t)]
      ifs
      have r1 : ((t:ℝ) + 2 + 2) ≠ 0 := by positivity
      have r2 : ((t:ℝ) + 2) ≠ 0 := by positivity
      push_cast
      split_ifs <;> field_simp <;> ring
  · unfold helmholtzNeumannMatvec
    dsimp only
    rw [kernelHelmholtzNeumann_apply _ (by omega), if_neg (by omega)]

/-- **C69** refuted for `Helmholtz.matvec` for Neumann spaces with the default (Cython) kernel: the weights `1/k²` are
stored in an integer array and vanish for `k ≥ 2`. -/
theorem C69_helmholtz_neumann_cython_refuted (N : ℕ) (hN : 9 ≤ N) (h : ℕ → ℝ) (I : ℝ[X] →ₗ[ℝ] ℝ) (hh : ChebNorms N N h)
    (hI : OrthogonalForm chebT I N N h) (kA sA kB sB alf bet : ℝ) (hne : alf * kA ≠ 0 ∨ bet * kB ≠ 0) :
    ∃ v : ℕ → ℝ, ∃ i < N - 2, ¬ HelmholtzEquation I (chebSN N) (N-2) (alf * kA) (bet * kB) v
      (helmholtzNeumannMatvec true (N-2) ⟨ChebMat.ASNSN N, kA, sA⟩ ⟨ChebMat.BSNSN N N h, kB, sB⟩ alf bet v) i := by
  -- with an unknown beyond the first two only, row 2 is computed as zero
  have hz : ∀ v : ℕ → ℝ, v 0 = 0 → v 1 = 0 →
      helmholtzNeumannMatvec true (N-2) ⟨ChebMat.ASNSN N, kA, sA⟩ ⟨ChebMat.BSNSN N N h, kB, sB⟩ alf bet v 2 = 0 := by
    intro v hv hv1
    unfold helmholtzNeumannMatvec kernelHelmholtzNeumann
    dsimp only
    rw [Function.update_self, Function.update_of_ne (by omega), Function.update_of_ne (by omega), Function.update_of_ne (by omega)]
    rw [(sumLoop_inv (N-2-2) 2 _ _ _ _ (N-2-4) (by omega)).2.2.2.2 2, if_pos (by omega)]
    norm_num [hv]
  have hpi := Real.pi_ne_zero
  by_cases hA : alf * kA = 0
  · refine ⟨fun j => if j = 4 then 1 else 0, 2, by omega, fun hcon => ?_⟩
    rw [helmholtzEquation_iff, helmholtz_neumann_row N h I hh hI _ _ _ _ (by omega), hz _ (by norm_num) (by norm_num), hA,
      hh.mid (2+2) (by omega) (by omega), if_pos (by omega : (2:ℕ) + 2 < N - 2)] at hcon
    norm_num at hcon
    have hB : bet * kB ≠ 0 := hne.resolve_left (not_not.2 hA)
    exact hB (mul_eq_zero.2 hcon)
  · refine ⟨fun j => if j = 6 then 1 else 0, 2, by omega, fun hcon => ?_⟩
    rw [helmholtzEquation_iff, helmholtz_neumann_row N h I hh hI _ _ _ _ (by omega), hz _ (by norm_num) (by norm_num)] at hcon
    have hp : pSum (N-2) ((2+2)%2) (2+2) (fun j => -4 * Real.pi * (j:ℝ) ^ 2 * (((2:ℕ):ℝ) + 1) / (((2:ℕ):ℝ) + 2) ^ 2 *
        (if j = 6 then (1:ℝ) else 0)) = -27 * Real.pi := by
      unfold pSum
      rw [Finset.sum_eq_single 6]
      · norm_num; ring
      · intro j _ hj; simp [hj]
      · intro hn; exact absurd (Finset.mem_range.2 (by omega)) hn
    rw [hp] at hcon
    norm_num at hcon
    exact hA (mul_eq_zero.2 hcon)

end SpecMat

end Shenfun
