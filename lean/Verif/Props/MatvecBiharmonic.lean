import Verif.Props.MatvecSolvers

/-!
# C69: matrix-vector product of the biharmonic solver, and of the remaining methods
-/

namespace Shenfun

open Polynomial Spec Finset ChebLA

set_option linter.unusedSimpArgs false

namespace SpecMat

/-! ## Biharmonic -/

theorem pSum_two (n t : ℕ) (p : ℕ) (hp : t % 2 = p) (x : ℕ → ℝ) : pSum n p t x = (if t < n then x t else 0) + pSum n p (t+2) x := by
  by_cases h : t < n
  · rw [if_pos h, pSum_succ x h hp, pSum_skip x (by omega : (t+1) % 2 ≠ p)]
  · rw [if_neg h, pSum_zero _ (by omega), pSum_zero _ (by omega), add_zero]

/-- A row with entries at distance 0, 2 and 4. -/
theorem sum_penta (n i : ℕ) (hi : i < n) (d u u2 : ℝ) (l l2 : ℕ → ℝ) (v : ℕ → ℝ) :
    ∑ j ∈ range n, (if j = i then d else if j = i + 2 then u else if j = i + 4 then u2 else if j + 2 = i then l j
        else if j + 4 = i then l2 j else 0) * v j =
      d * v i + (if i + 2 < n then u * v (i+2) else 0) + (if 2 ≤ i then l (i-2) * v (i-2) else 0)
        + (if i + 4 < n then u2 * v (i+4) else 0) + (if 4 ≤ i then l2 (i-4) * v (i-4) else 0) := by
  have h2 : (if i + 4 < n then u2 * v (i+4) else 0) = ∑ j ∈ range n, if j = i + 4 then u2 * v j else 0 := by
    rw [Finset.sum_ite_eq' (range n) (i+4) fun j => u2 * v j]
    exact if_congr Finset.mem_range.symm rfl rfl
  have h3 : (if 4 ≤ i then l2 (i-4) * v (i-4) else 0) = ∑ j ∈ range n, if j + 4 = i then l2 j * v j else 0 := by
    by_cases h : 4 ≤ i
    · rw [if_pos h, Finset.sum_congr rfl fun j _ => show (if j + 4 = i then l2 j * v j else 0) = if j = i - 4 then l2 j * v j else 0 from
        if_congr (by omega) rfl rfl, Finset.sum_ite_eq' (range n) (i-4) fun j => l2 j * v j, if_pos (Finset.mem_range.2 (by omega))]
    · rw [if_neg h]
      exact (Finset.sum_eq_zero fun j _ => if_neg (by omega)).symm
  rw [← sum_tri n i hi d u l v, h2, h3, ← Finset.sum_add_distrib, ← Finset.sum_add_distrib]
  refine Finset.sum_congr rfl fun j _ => ?_
  rcases (by omega : j = i ∨ j = i + 2 ∨ j + 2 = i ∨ j = i + 4 ∨ j + 4 = i ∨ (j ≠ i ∧ j ≠ i + 2 ∧ j + 2 ≠ i ∧ j ≠ i + 4 ∧ j + 4 ≠ i))
    with h | h | h | h | h | h
  · ifs; ring
  · ifs; ring
  · ifs; ring
  · ifs; ring
  · ifs; ring
  · ifs; ring

/-- Row `i` of `Biharmonic.matvec`. -/
theorem biharmonicMatvec_apply (M : ℕ) (hM : 10 ≤ M) (S A B : SpecMat) (a0 alf bet : ℝ) (v : ℕ → ℝ) (i : ℕ) :
    biharmonicMatvec M S A B a0 alf bet v i = if i < M then
      (if 4 ≤ i then bet * B.get (-4) (i-4) * v (i-4) else 0)
      + (if 2 ≤ i then (alf * A.get (-2) (i-2) + bet * B.get (-2) (i-2)) * v (i-2) else 0)
      + (a0 * S.get 0 i + alf * A.get 0 i + bet * B.get 0 i) * v i
      + (if i + 2 < M then (a0 * S.get 2 i + alf * A.get 2 i + bet * B.get 2 i) * v (i+2) else 0)
      + (if i + 4 < M then (a0 * S.get 4 i + bet * B.get 4 i) * v (i+4) else 0)
      + a0 * (i * S.get 0 i / (i + 1) * pSum M ((i+6)%2) (i+6) (fun j => v j / (j + 3))
        + 24 * (i + 1) * (i + 2) * Real.pi * pSum M ((i+6)%2) (i+6) (fun j => (j + 2) * (j + 2) * (v j / (j + 3)))) else 0 := by
  unfold biharmonicMatvec
  dsimp only
  rw [sumLoop_apply, (by omega : M - 6 + 6 = M)]
  simp only [Function.update_apply, zeros]
  rcases (by omega : i < 2 ∨ (2 ≤ i ∧ i < 4 ∧ i < M-6) ∨ (4 ≤ i ∧ i < M-6) ∨ i = M-6 ∨ i = M-5 ∨ i = M-4 ∨ i = M-3 ∨ i = M-2 ∨ i = M-1 ∨ M ≤ i)
    with h | h | h | h | h | h | h | h | h | h
  · ifs; ring
  · ifs; ring
  · ifs; ring
  · ifs; rw [pSum_zero _ (by omega), pSum_zero _ (by omega), ← h]; ring
  · ifs; rw [pSum_zero _ (by omega), pSum_zero _ (by omega), ← h]; ring
  · ifs; rw [pSum_zero _ (by omega), pSum_zero _ (by omega), ← h]; ring
  · ifs; rw [pSum_zero _ (by omega), pSum_zero _ (by omega), ← h]; ring
  · ifs; rw [pSum_zero _ (by omega), pSum_zero _ (by omega), ← h]; ring
  · ifs; rw [pSum_zero _ (by omega), pSum_zero _ (by omega), ← h]; ring
  · ifs

/-- Row `i` of the Galerkin matrix. -/
theorem biharmonic_row (N : ℕ) (h : ℕ → ℝ) (I : ℝ[X] →ₗ[ℝ] ℝ) (hh : ChebNorms N N h) (hI : OrthogonalForm chebT I N N h)
    (a alf bet : ℝ) (v : ℕ → ℝ) (i : ℕ) (hi : i < N - 4) :
    ∑ j ∈ range (N-4), biharmonicMatrix I (chebSB N) a alf bet i j * v j =
      a * (Real.pi * 8 * ((i:ℝ) + 1) ^ 2 * (i + 2) * (i + 4) * v i
        + pSum (N-4) ((i+2)%2) (i+2) (fun j => 8 * ((i:ℝ) + 1) * (i + 2) * (i * (i + 4) + 3 * ((j:ℝ) + 2) ^ 2) * Real.pi / (j + 3) * v j))
      + alf * (-4 * (((i:ℝ) + 1) * ((i:ℝ) + 2) ^ 2) / (i + 3) * Real.pi * v i
        + (if i + 2 < N - 4 then 2 * ((i:ℝ) + 1) * (i + 2) * Real.pi * v (i+2) else 0)
        + (if 2 ≤ i then 2 * (((i - 2 + 2 : ℕ) : ℝ) - 1) * (((i - 2 + 2 : ℕ) : ℝ) + 2) * Real.pi * v (i-2) else 0))
      + bet * ((ChebMat.BSBSB N N h).at 0 i * v i + (if i + 2 < N - 4 then (ChebMat.BSBSB N N h).at 2 i * v (i+2) else 0)
        + (if 2 ≤ i then (ChebMat.BSBSB N N h).at (-2) (i-2) * v (i-2) else 0)
        + (if i + 4 < N - 4 then (ChebMat.BSBSB N N h).at 4 i * v (i+4) else 0)
        + (if 4 ≤ i then (ChebMat.BSBSB N N h).at (-4) (i-4) * v (i-4) else 0)) := by
  unfold biharmonicMatrix
  rw [Finset.sum_congr rfl fun j hj => show (a * chebForm 4 (chebSB N i) (chebSB N j) + alf * chebForm 2 (chebSB N i) (chebSB N j) +
      bet * I (chebSB N i * chebSB N j)) * v j =
    a * ((if j = i then Real.pi * 8 * ((i:ℝ) + 1) ^ 2 * (i + 2) * (i + 4)
      else if i < j ∧ j % 2 = i % 2 then 8 * ((i:ℝ) + 1) * (i + 2) * (i * (i + 4) + 3 * ((j:ℝ) + 2) ^ 2) * Real.pi / (j + 3) else 0) * v j)
    + alf * ((if j = i then -4 * (((i:ℝ) + 1) * ((i:ℝ) + 2) ^ 2) / (i + 3) * Real.pi
      else if j = i + 2 then 2 * ((i:ℝ) + 1) * (i + 2) * Real.pi
      else if j + 2 = i then 2 * (((j + 2 : ℕ) : ℝ) - 1) * (((j + 2 : ℕ) : ℝ) + 2) * Real.pi else 0) * v j)
    + bet * ((if j = i then (ChebMat.BSBSB N N h).at 0 i else if j = i + 2 then (ChebMat.BSBSB N N h).at 2 i
      else if j = i + 4 then (ChebMat.BSBSB N N h).at 4 i else if j + 2 = i then (ChebMat.BSBSB N N h).at (-2) j
      else if j + 4 = i then (ChebMat.BSBSB N N h).at (-4) j else 0) * v j) by
      rw [ssbsb_entry hi (Finset.mem_range.1 hj), asbsb_entry hi (Finset.mem_range.1 hj), bsbsb_entry hi (Finset.mem_range.1 hj) h I hh hI]; ring,
    Finset.sum_add_distrib, Finset.sum_add_distrib, ← Finset.mul_sum, ← Finset.mul_sum, ← Finset.mul_sum,
    sum_diag_tail (N-4) i hi _ (fun j => 8 * ((i:ℝ) + 1) * (i + 2) * (i * (i + 4) + 3 * ((j:ℝ) + 2) ^ 2) * Real.pi / (j + 3)),
    sum_tri _ _ hi _ _ (fun j => 2 * (((j + 2 : ℕ) : ℝ) - 1) * (((j + 2 : ℕ) : ℝ) + 2) * Real.pi),
    sum_penta _ _ hi _ _ _ ((ChebMat.BSBSB N N h).at (-2)) ((ChebMat.BSBSB N N h).at (-4))]

theorem ssbsb_at2 (N : ℕ) (hN : 7 ≤ N) (t : ℕ) : (ChebMat.SSBSB N).at 2 t =
    8 * ((t:ℝ) + 1) * (t + 2) * (t * (t + 4) + 3 * (((t + 2 : ℕ) : ℝ) + 2) ^ 2) * Real.pi / (((t + 2 : ℕ) : ℝ) + 3) := by
  rw [ChebMat.SSBSB, fromkeys2_at _ _ _ _ (by norm_num) (by omega) (by norm_num)]; rfl
theorem ssbsb_at4 (N : ℕ) (hN : 9 ≤ N) (t : ℕ) : (ChebMat.SSBSB N).at 4 t =
    8 * ((t:ℝ) + 1) * (t + 2) * (t * (t + 4) + 3 * (((t + 4 : ℕ) : ℝ) + 2) ^ 2) * Real.pi / (((t + 4 : ℕ) : ℝ) + 3) := by
  rw [ChebMat.SSBSB, fromkeys2_at _ _ _ _ (by norm_num) (by omega) (by norm_num)]; rfl
theorem asbsb_at0 (N : ℕ) (t : ℕ) : (ChebMat.ASBSB N).at 0 t = -4 * (((t:ℝ) + 1) * ((t:ℝ) + 2) ^ 2) / (t + 3) * Real.pi := rfl
theorem asbsb_at2 (N : ℕ) (t : ℕ) : (ChebMat.ASBSB N).at 2 t = 2 * ((t:ℝ) + 1) * (t + 2) * Real.pi := rfl
theorem asbsb_atm2 (N : ℕ) (t : ℕ) : (ChebMat.ASBSB N).at (-2) t = 2 * (((t + 2 : ℕ) : ℝ) - 1) * (((t + 2 : ℕ) : ℝ) + 2) * Real.pi := rfl

/-- **C69** `Biharmonic.matvec`, when no factor is incorporated in the fourth-order matrix. -/
theorem C69_biharmonic (N : ℕ) (hN : 14 ≤ N) (h : ℕ → ℝ) (I : ℝ[X] →ₗ[ℝ] ℝ) (hh : ChebNorms N N h) (hI : OrthogonalForm chebT I N N h)
    (sS kA sA kB sB a0 alf bet : ℝ) (v : ℕ → ℝ) :
    (∀ i < N - 4, BiharmonicEquation I (chebSB N) (N-4) a0 (alf * kA) (bet * kB) v
      (biharmonicMatvec (N-4) ⟨ChebMat.SSBSB N, 1, sS⟩ ⟨ChebMat.ASBSB N, kA, sA⟩ ⟨ChebMat.BSBSB N N h, kB, sB⟩ a0 alf bet v) i) ∧
    ∀ i, N - 4 ≤ i →
      biharmonicMatvec (N-4) ⟨ChebMat.SSBSB N, 1, sS⟩ ⟨ChebMat.ASBSB N, kA, sA⟩ ⟨ChebMat.BSBSB N N h, kB, sB⟩ a0 alf bet v i = 0 := by
  refine ⟨fun i hi => ?_, fun i hi => ?_⟩
  · rw [biharmonicEquation_iff, biharmonic_row N h I hh hI _ _ _ _ _ hi, biharmonicMatvec_apply _ (by omega), if_pos hi]
    simp only [SpecMat.get]
    rw [ssbsb_at0 N (by omega), ssbsb_at2 N (by omega), ssbsb_at4 N (by omega), asbsb_at0, asbsb_at2, asbsb_atm2]
    rw [pSum_two (N-4) (i+2) _ rfl, pSum_two (N-4) (i+2+2) _ (by omega : (i+2+2) % 2 = (i+2) % 2)]
    have e : pSum (N-4) ((i+2)%2) (i+2+2+2)
        (fun j => 8 * ((i:ℝ) + 1) * (i + 2) * (i * (i + 4) + 3 * ((j:ℝ) + 2) ^ 2) * Real.pi / (j + 3) * v j) =
      i * (1 * (Real.pi * 8 * ((i:ℝ) + 1) ^ 2 * (i + 2) * (i + 4))) / (i + 1) * pSum (N-4) ((i+6)%2) (i+6) (fun j => v j / (j + 3))
        + 24 * (i + 1) * (i + 2) * Real.pi * pSum (N-4) ((i+6)%2) (i+6) (fun j => (j + 2) * (j + 2) * (v j / (j + 3))) := by
      rw [mul_pSum, mul_pSum, pSum_add, (by omega : (i+6) % 2 = (i+2) % 2), (by omega : i+2+2+2 = i+6)]
      congr 1; funext j
      have h1 : ((i:ℝ) + 1) ≠ 0 := by positivity
      have h2 : ((j:ℝ) + 3) ≠ 0 := by positivity
      field_simp
      ring
    rw [e]
    rw [show i + 2 + 2 = i + 4 by omega]
    split_ifs <;> ring
  · rw [biharmonicMatvec_apply _ (by omega), if_neg (by omega)]

/-- **C69** refuted for `Biharmonic.matvec` when a factor `kS ≠ 1` is incorporated in the fourth-order matrix, as on every
domain other than `(-1, 1)`. -/
theorem C69_biharmonic_domain_refuted (N : ℕ) (hN : 14 ≤ N) (h : ℕ → ℝ) (I : ℝ[X] →ₗ[ℝ] ℝ) (hh : ChebNorms N N h)
    (hI : OrthogonalForm chebT I N N h) (kS sS kA sA kB sB a0 alf bet : ℝ) (hk : kS ≠ 1) (ha : a0 ≠ 0) :
    ∃ v : ℕ → ℝ, ∃ i < N - 4, ¬ BiharmonicEquation I (chebSB N) (N-4) (a0 * kS) (alf * kA) (bet * kB) v
      (biharmonicMatvec (N-4) ⟨ChebMat.SSBSB N, kS, sS⟩ ⟨ChebMat.ASBSB N, kA, sA⟩ ⟨ChebMat.BSBSB N N h, kB, sB⟩ a0 alf bet v) i := by
  refine ⟨fun j => if j = 6 then 1 else 0, 0, by omega, fun hcon => ?_⟩
  rw [biharmonicEquation_iff, biharmonic_row N h I hh hI _ _ _ _ _ (by omega), biharmonicMatvec_apply _ (by omega),
    if_pos (show 0 < N - 4 by omega)] at hcon
  have hp : ∀ (g : ℕ → ℝ) (t : ℕ), t ≤ 6 → pSum (N-4) 0 t (fun j => g j * (if j = 6 then (1:ℝ) else 0)) = g 6 := by
    intro g t ht
    unfold pSum
    rw [Finset.sum_eq_single 6]
    · rw [if_pos (by omega)]; simp
    · intro j _ hj; simp [hj]
    · intro hn; exact absurd (Finset.mem_range.2 (by omega)) hn
  have h1 := hp (fun j => 8 * (((0:ℕ):ℝ) + 1) * (((0:ℕ):ℝ) + 2) * (((0:ℕ):ℝ) * (((0:ℕ):ℝ) + 4) + 3 * ((j:ℝ) + 2) ^ 2) * Real.pi / (j + 3)) 2 (by norm_num)
  have h2 := hp (fun j => ((j:ℝ) + 2) * (j + 2) / (j + 3)) 6 (by norm_num)
  have h2' : pSum (N-4) 0 6 (fun j => ((j:ℝ) + 2) * (j + 2) * ((if j = 6 then (1:ℝ) else 0) / (j + 3))) = 64 / 9 := by
    rw [show (fun j : ℕ => ((j:ℝ) + 2) * (j + 2) * ((if j = 6 then (1:ℝ) else 0) / (j + 3))) =
      fun j : ℕ => ((j:ℝ) + 2) * (j + 2) / (j + 3) * (if j = 6 then (1:ℝ) else 0) by funext j; ring, h2]
    norm_num
  simp only [Nat.zero_add, show 2 % 2 = 0 from rfl, show 6 % 2 = 0 from rfl, h1, h2'] at hcon
  norm_num at hcon
  have hpi := Real.pi_pos
  have : a0 * (kS - 1) * Real.pi = 0 := by linarith
  rcases mul_eq_zero.1 this with h3 | h3
  · rcases mul_eq_zero.1 h3 with h4 | h4
    · exact ha h4
    · exact hk (by linarith)
  · linarith

/-! ## Neumann mass and stiffness matrices -/

/-- **C69** `BSNSNmat`: the rows of the matrix are right; the rest of the array is not cleared. -/
theorem C69_BSNSN (N : ℕ) (hN : 6 ≤ N) (h : ℕ → ℝ) (I : ℝ[X] →ₗ[ℝ] ℝ) (hh : ChebNorms N N h) (hI : OrthogonalForm chebT I N N h)
    (ks s : ℝ) (v c : ℕ → ℝ) (hc : ∀ i, N - 2 ≤ i → c i = 0) :
    IsFormProduct (fun p q => I (p * q)) (chebSN N) (chebSN N) (N-2) (N-2) (s * ks) v
      (matvecBSNSN (N-2) ⟨ChebMat.BSNSN N N h, ks, s⟩ v c) := by
  refine mass_product _ _ _ I _ _ (C28_cheb_BSNSN N h I hh hI) _ _ _ (fun i hi => ?_) fun i hi => ?_
  · unfold matvecBSNSN ChebMat.BSNSN
    mv_open
    rcases (by omega : i = 0 ∨ i = 1 ∨ (2 ≤ i ∧ i < N-2-2) ∨ i = N-2-2 ∨ i = N-2-1) with hc | hc | hc | hc | hc <;> try subst hc
    all_goals mv_close
  · unfold matvecBSNSN
    mv_open
    simp (disch := omega) only [if_pos, if_neg]
    rw [hc i hi, zero_mul]

/-- **C69** refuted for `BSNSNmat` when the output array holds old values beyond the rows of the matrix. -/
theorem C69_BSNSN_stale (N : ℕ) (hN : 6 ≤ N) (A : SpecMat) (v c : ℕ → ℝ) (i : ℕ) (hi : N - 2 ≤ i) :
    matvecBSNSN (N-2) A v c i = c i * A.scale := by
  unfold matvecBSNSN
  mv_open
  simp (disch := omega) only [if_pos, if_neg]

theorem asnsn_rows (N : ℕ) (hN : 4 ≤ N) (ks s : ℝ) (v c : ℕ → ℝ) (i : ℕ) (hi : i < N - 2) :
    matvecASNSN (N-2) ⟨ChebMat.ASNSN N, ks, s⟩ v c i = s * s * ks * chebForm 2 (chebSN N i) (∑ j ∈ range (N-2), C (v j) * chebSN N j) := by
  rw [chebForm_sum, Finset.sum_congr rfl fun j hj => by rw [snsn_entry hi (Finset.mem_range.1 hj)],
    sum_diag_tail (N-2) i hi _ (fun j => -4 * Real.pi * (j:ℝ) ^ 2 * (i + 1) / ((i:ℝ) + 2) ^ 2)]
  unfold matvecASNSN
  dsimp only
  rw [sumLoop_apply, (by omega : N - 2 - 2 + 2 = N - 2)]
  simp only [Function.update_apply]
  rw [show pSum (N-2) ((i+2)%2) (i+2) (fun j => -4 * Real.pi * (j:ℝ) ^ 2 * ((i:ℝ) + 1) / ((i:ℝ) + 2) ^ 2 * v j) =
      -4 * Real.pi * ((i:ℝ) + 1) / ((i:ℝ) + 2) ^ 2 * pSum (N-2) ((i+2)%2) (i+2) (fun k => v k * (k:ℝ) ^ 2) by
        rw [mul_pSum]; congr 1; funext j; ring]
  rcases (by omega : i < N-2-2 ∨ i = N-2-2 ∨ i = N-2-1) with hc | hc | hc
  · ifs; ring
  · ifs; rw [pSum_zero _ (by omega), hc]; ring
  · ifs; rw [pSum_zero _ (by omega), hc]; ring

theorem asnsn_rest (N : ℕ) (hN : 4 ≤ N) (A : SpecMat) (v c : ℕ → ℝ) (i : ℕ) (hi : N - 2 ≤ i) :
    matvecASNSN (N-2) A v c i = c i * A.scale := by
  unfold matvecASNSN
  dsimp only
  rw [sumLoop_apply]
  simp only [Function.update_apply]
  ifs

/-- **C69** `ASNSNmat` when its `scale` is 1 (as after assembly). -/
theorem C69_ASNSN (N : ℕ) (hN : 4 ≤ N) (ks : ℝ) (v c : ℕ → ℝ) (hc : ∀ i, N - 2 ≤ i → c i = 0) :
    IsFormProduct (chebForm 2) (chebSN N) (chebSN N) (N-2) (N-2) (1 * ks) v (matvecASNSN (N-2) ⟨ChebMat.ASNSN N, ks, 1⟩ v c) := by
  refine ⟨fun i hi => ?_, fun i hi => ?_⟩
  · rw [asnsn_rows N hN _ _ _ _ _ hi]; ring
  · rw [asnsn_rest N hN _ _ _ _ hi, hc i hi, zero_mul]

theorem snsn_row1 (N : ℕ) (hN : 6 ≤ N) :
    chebForm 2 (chebSN N 1) (∑ j ∈ range (N-2), C ((fun j => if j = 1 then (1:ℝ) else 0) j) * chebSN N j) = -4 * Real.pi / 3 := by
  rw [chebForm_sum, Finset.sum_eq_single 1]
  · rw [snsn_entry (by omega) (by omega), if_pos rfl]; norm_num; ring
  · intro j _ hj; simp [hj]
  · intro hn; exact absurd (Finset.mem_range.2 (by omega)) hn

/-- **C69** refuted for `ASNSNmat` with any other scale: the scale is applied twice. -/
theorem C69_ASNSN_scale_refuted (N : ℕ) (hN : 6 ≤ N) (ks s : ℝ) (hks : ks ≠ 0) (h0 : s ≠ 0) (h1 : s ≠ 1) (c : ℕ → ℝ) :
    ∃ v : ℕ → ℝ, ¬ IsFormProduct (chebForm 2) (chebSN N) (chebSN N) (N-2) (N-2) (s * ks) v
      (matvecASNSN (N-2) ⟨ChebMat.ASNSN N, ks, s⟩ v c) := by
  refine ⟨fun j => if j = 1 then 1 else 0, fun hcon => ?_⟩
  have h2 := hcon.row 1 (by omega)
  rw [asnsn_rows N (by omega) _ _ _ _ _ (by omega), snsn_row1 N hN] at h2
  have hpi := Real.pi_ne_zero
  have : s * ks * (s - 1) * Real.pi = 0 := by linarith
  simp [h0, hks, hpi, sub_eq_zero, h1] at this

/-- Row `i` of the numba version: the product is divided by the scale. -/
theorem asnsnNumba_rows (N : ℕ) (hN : 6 ≤ N) (ks s : ℝ) (v c : ℕ → ℝ) (i : ℕ) (hi : i < N - 2) :
    matvecASNSNnumba (N-2) ⟨ChebMat.ASNSN N, ks, s⟩ v c i = ks * chebForm 2 (chebSN N i) (∑ j ∈ range (N-2), C (v j) * chebSN N j) / s := by
  rw [chebForm_sum, Finset.sum_congr rfl fun j hj => by rw [snsn_entry hi (Finset.mem_range.1 hj)],
    sum_diag_tail (N-2) i hi _ (fun j => -4 * Real.pi * (j:ℝ) ^ 2 * (i + 1) / ((i:ℝ) + 2) ^ 2)]
  rw [show pSum (N-2) ((i+2)%2) (i+2) (fun j => -4 * Real.pi * (j:ℝ) ^ 2 * ((i:ℝ) + 1) / ((i:ℝ) + 2) ^ 2 * v j) =
      -4 * Real.pi * ((i:ℝ) + 1) / ((i:ℝ) + 2) ^ 2 * pSum (N-2) ((i+2)%2) (i+2) (fun k => v k * (k:ℝ) ^ 2) by
        rw [mul_pSum]; congr 1; funext j; ring]
  have key : (sumLoop (N-2-2) 2 (fun j => v j * (j:ℝ) ^ 2) (fun _ => 0)
      (fun k s' _ => (SpecMat.mk (ChebMat.ASNSN N) ks s).get 0 k * v k + s' * (SpecMat.mk (ChebMat.ASNSN N) ks s).get 2 k / ((k:ℝ) + 2) ^ 2)
      (Function.update (Function.update c (N-2-1) ((SpecMat.mk (ChebMat.ASNSN N) ks s).get 0 (N-2-1) * v (N-2-1))) (N-2-2)
        ((SpecMat.mk (ChebMat.ASNSN N) ks s).get 0 (N-2-2) * v (N-2-2))) (N-2-2)).b i =
      ks * (-2 * Real.pi * (i:ℝ) ^ 2 * (i + 1) / (i + 2) * v i +
        -4 * Real.pi * ((i:ℝ) + 1) / ((i:ℝ) + 2) ^ 2 * pSum (N-2) ((i+2)%2) (i+2) (fun k => v k * (k:ℝ) ^ 2)) := by
    rw [sumLoop_apply, (by omega : N - 2 - 2 + 2 = N - 2)]
    simp only [Function.update_apply, SpecMat.get]
    rw [snsn_at0 N (by omega), snsn_at2 N (by omega), snsn_at0 N (by omega), snsn_at0 N (by omega)]
    have p2 : ((i:ℝ) + 2) ≠ 0 := by positivity
    rcases (by omega : i < N-2-2 ∨ i = N-2-2 ∨ i = N-2-1) with hc | hc | hc
    · ifs; field_simp
    · ifs; rw [pSum_zero _ (by omega), ← hc]; ring
    · ifs; rw [pSum_zero _ (by omega), ← hc]; ring
  unfold matvecASNSNnumba
  dsimp only
  by_cases hs : s = 1
  · subst hs
    rw [if_neg (by simp), key, div_one]
  · rw [if_pos hs, key]

/-- **C69** refuted for `ASNSNmat` with numba for scales other than ±1. -/
theorem C69_ASNSN_numba_refuted (N : ℕ) (hN : 6 ≤ N) (ks s : ℝ) (hks : ks ≠ 0) (h0 : s ≠ 0) (h1 : s ^ 2 ≠ 1) (c : ℕ → ℝ) :
    ∃ v : ℕ → ℝ, ¬ IsFormProduct (chebForm 2) (chebSN N) (chebSN N) (N-2) (N-2) (s * ks) v
      (matvecASNSNnumba (N-2) ⟨ChebMat.ASNSN N, ks, s⟩ v c) := by
  refine ⟨fun j => if j = 1 then 1 else 0, fun hcon => ?_⟩
  have h2 := hcon.row 1 (by omega)
  rw [asnsnNumba_rows N hN _ _ _ _ _ (by omega), snsn_row1 N hN] at h2
  have hpi := Real.pi_ne_zero
  field_simp at h2
  apply h1
  linarith

/-- **C69** `ASNSNmat` with numba when the scale is 1. -/
theorem C69_ASNSN_numba (N : ℕ) (hN : 6 ≤ N) (ks : ℝ) (v c : ℕ → ℝ) (i : ℕ) (hi : i < N - 2) :
    matvecASNSNnumba (N-2) ⟨ChebMat.ASNSN N, ks, 1⟩ v c i =
      ks * chebForm 2 (chebSN N i) (∑ j ∈ range (N-2), C (v j) * chebSN N j) := by
  rw [asnsnNumba_rows N hN _ _ _ _ _ hi, div_one]

/-! ## `CTSDmat` and `CLLmat` -/

/-- **C69** refuted for `CTSDmat` when a factor is multiplied into its diagonals, as `inner` does for a form with a
coefficient: the kernel does not look at the diagonals. -/
theorem C69_CTSD_factor_refuted (N : ℕ) (hN : 4 ≤ N) (ks s : ℝ) (hs : ScaleOK s) (h0 : s ≠ 0) (h1 : ks ≠ 1) :
    ∃ v : ℕ → ℝ, ¬ IsFormProduct (chebForm 1) chebT (chebSD N) N (N-2) (s * ks) v (matvecCTSD N ⟨ChebMat.CTSD N, ks, s⟩ v) := by
  refine ⟨fun j => if j = 0 then 1 else 0, fun hcon => ?_⟩
  have h2 := hcon.row 1 (by omega)
  have h3 := (C69_CTSD N hN s hs (fun j => if j = 0 then 1 else 0)).row 1 (by omega)
  have e : matvecCTSD N ⟨ChebMat.CTSD N, ks, s⟩ = matvecCTSD N ⟨ChebMat.CTSD N, 1, s⟩ := rfl
  rw [e, h3] at h2
  have hf : chebForm 1 (chebT 1) (∑ j ∈ range (N-2), C ((fun j => if j = 0 then (1:ℝ) else 0) j) * chebSD N j) = -2 * Real.pi := by
    rw [chebForm_sum, Finset.sum_eq_single 0]
    · rw [ctsd_entry (N := N) (by omega) (by omega), if_pos (by norm_num), if_neg (by omega)]; norm_num
    · intro j _ hj; simp [hj]
    · intro hn; exact absurd (Finset.mem_range.2 (by omega)) hn
  rw [hf] at h2
  have hpi := Real.pi_ne_zero
  have : s * (ks - 1) * Real.pi = 0 := by linarith
  simp [h0, hpi, sub_eq_zero, h1] at this

theorem cumsum_pSum (N a : ℕ) (ha : a < N) (ha2 : N ≤ a + 2) (v : ℕ → ℝ) (t : ℕ) (ht : 2 * t ≤ a) :
    cumsum (fun t => v (a - 2 * t)) t = pSum N (a % 2) (a - 2 * t) v := by
  induction t with
  | zero =>
    rw [pSum_two N (a - 2 * 0) _ (by omega), if_pos (by omega), pSum_zero _ (by omega)]
    simp [cumsum]
  | succ t ih =>
    have : cumsum (fun t => v (a - 2 * t)) (t+1) = cumsum (fun t => v (a - 2 * t)) t + v (a - 2 * (t+1)) := by
      unfold cumsum
      rw [List.range_succ, List.map_append, List.sum_append]
      simp
    rw [this, ih (by omega), pSum_two N (a - 2 * (t+1)) _ (by omega), if_pos (by omega), (by omega : a - 2 * (t+1) + 2 = a - 2 * t), add_comm]

/-- **C69** `CLLmat` of Legendre, numpy. -/
theorem C69_CLL_self (N : ℕ) (hN : 2 ≤ N) (ks s : ℝ) (hs : ScaleOK (s * ks)) (v : ℕ → ℝ) :
    IsFormProduct (legForm 0 1 1) legP legP N N (s * ks) v (matvecCLLself N ⟨LegMat.CLL N, ks, s⟩ v) := by
  have hk : ∀ i, matvecCLLself N ⟨LegMat.CLL N, ks, s⟩ v i = (if i < N - 1 then 2 * pSum N ((i+1)%2) (i+1) v else 0) * (s * ks) := by
    intro i
    unfold matvecCLLself
    dsimp only
    rw [scaleArray_apply _ _ hs]
    congr 1
    rcases (by omega : (i + 2 ≤ N ∧ (N - 2 - i) % 2 = 0) ∨ (i + 3 ≤ N ∧ (N - 3 - i) % 2 = 0) ∨ N ≤ i + 1) with h | h | h
    · rw [if_pos h, if_pos (by omega), cumsum_pSum N (N-1) (by omega) (by omega) v _ (by omega), mul_comm]
      rw [(by omega : N - 1 - 2 * ((N - 2 - i) / 2) = i + 1), (by omega : (N - 1) % 2 = (i + 1) % 2)]
    · rw [if_neg (by omega), if_pos h, if_pos (by omega), cumsum_pSum N (N-2) (by omega) (by omega) v _ (by omega), mul_comm]
      rw [(by omega : N - 2 - 2 * ((N - 3 - i) / 2) = i + 1), (by omega : (N - 2) % 2 = (i + 1) % 2)]
    · rw [if_neg (by omega), if_neg (by omega), if_neg (by omega)]; rfl
  constructor
  · intro i hi
    rw [hk, legForm_sum, mul_comm]
    congr 1
    rw [Finset.sum_congr rfl fun j hj => by rw [cll_entry hi (Finset.mem_range.1 hj)], sum_tail]
    split_ifs with h
    · rw [mul_pSum]
    · exact (pSum_zero _ (by omega)).symm
  · intro i hi
    rw [hk, if_neg (by omega), zero_mul]

end SpecMat

end Shenfun
