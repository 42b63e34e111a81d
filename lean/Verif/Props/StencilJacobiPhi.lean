import Verif.Props.StencilJacobi

/-!
# C47: the Jacobi `Phi` bases
-/

namespace Shenfun

open Polynomial Spec

set_option linter.unusedSimpArgs false
set_option linter.unusedTactic false
set_option linter.unnecessarySeqFocus false
set_option linter.unusedVariables false

/-- Numerator of the boundary factor. -/
noncomputable def bndNum (a b : ℝ) (n k : ℕ) : ℝ := ∏ i ∈ Finset.range k, ((n - i) * (n + a + b + 1 + i))

theorem bndFactor_eq_num (a b : ℝ) (n k : ℕ) :
    bndFactor a b n k = bndNum a b n k * (∏ i ∈ Finset.range k, (2 * (a + 1 + i)))⁻¹ := by
  unfold bndFactor bndNum
  rw [Finset.prod_div_distrib, div_eq_mul_inv]

/-- Conditions at both ends for a Jacobi stencil, with all common factors removed. -/
theorem homogeneous_both_jac {a b : ℝ} (ha : -1 < a) (hb : -1 < b) {st : Stencil} {N nbc i K : ℕ}
    (hi : i < N - nbc) (ho : ∀ e ∈ st, e.1 ≤ nbc)
    (hR : ∀ k < K, (st.map fun e => e.2.at i * ((∏ j ∈ Finset.range e.1, (((i:ℝ) + j + 1 + a) / (i + j + 1))) *
      bndNum a b (i + e.1) k)).sum = 0)
    (hL : ∀ k < K, (st.map fun e => e.2.at i * ((-1)^e.1 * (∏ j ∈ Finset.range e.1, (((i:ℝ) + j + 1 + b) / (i + j + 1))) *
      bndNum b a (i + e.1) k)).sum = 0) :
    Homogeneous (both K) (basisFunction (jacobi a b) (stencilMatrix st N nbc) i) := by
  refine homogeneous_of_sums hi ho _ fun bc hbc => ?_
  rcases List.mem_append.1 hbc with hbc | hbc <;> obtain ⟨k, hk, rfl⟩ := List.mem_map.1 hbc <;>
    rw [List.mem_range] at hk <;> simp only [Side.pt, jac_right a b ha, jac_left a b hb]
  · have key : ∀ e : ℕ × SVal, e.2.at i * ((-1)^(i + e.1 + k) * (gbinom ((i + e.1 : ℕ) + b) (i + e.1) *
        bndFactor b a (i + e.1) k)) = ((-1)^(i+k) * gbinom (i + b) i * (∏ i ∈ Finset.range k, (2 * (b + 1 + i)))⁻¹) *
        (e.2.at i * ((-1)^e.1 * (∏ j ∈ Finset.range e.1, (((i:ℝ) + j + 1 + b) / (i + j + 1))) *
      bndNum b a (i + e.1) k)) := fun e => by
      rw [gbinom_shift_prod, bndFactor_eq_num, pow_add, pow_add, pow_add]; ring
    rw [List.map_congr_left fun e _ => key e, List.sum_map_mul_left, hL k hk, mul_zero]
  · have key : ∀ e : ℕ × SVal, e.2.at i * (gbinom ((i + e.1 : ℕ) + a) (i + e.1) *
        bndFactor a b (i + e.1) k) = (gbinom (i + a) i * (∏ i ∈ Finset.range k, (2 * (a + 1 + i)))⁻¹) *
        (e.2.at i * ((∏ j ∈ Finset.range e.1, (((i:ℝ) + j + 1 + a) / (i + j + 1))) *
      bndNum a b (i + e.1) k)) := fun e => by
      rw [gbinom_shift_prod, bndFactor_eq_num]; ring
    rw [List.map_congr_left fun e _ => key e, List.sum_map_mul_left, hR k hk, mul_zero]

/-- The `alpha != beta` branch may be taken always: its entries vanish when `alpha = beta`. -/
theorem sum_map_ite {a b : ℝ} (L M : Stencil) (f : ℕ × SVal → ℝ) [Decidable (a ≠ b)]
    (h : a = b → ∀ e ∈ M, f e = 0) :
    ((L ++ if a ≠ b then M else []).map f).sum = (L.map f).sum + (M.map f).sum := by
  split_ifs with hab
  · simp
  · have h0 : (M.map f).sum = 0 := by
      push Not at hab
      rw [List.map_congr_left (h hab)]
      simp
    simp [h0]

theorem gamma_step (x : ℝ) (hx : 0 < x) : Real.Gamma (x + 1) = x * Real.Gamma x := Real.Gamma_add_one hx.ne'

set_option maxHeartbeats 40000000 in
private theorem jacPhi1_R (a b : ℝ) (ha : -1 < a) (hb : -1 < b) (i k : ℕ) (hk : k < 1) :
    (((JacStencil.Phi1 a b).map fun e => e.2.at i * ((∏ j ∈ Finset.range e.1, (((i:ℝ) + j + 1 + a) / (i + j + 1))) *
      bndNum a b (i + e.1) k)).sum = 0) := by
  have hx : (0:ℝ) ≤ (i:ℝ) := Nat.cast_nonneg _
  obtain ⟨p, hp⟩ : ∃ p, p = a + (i:ℝ) + 1 := ⟨_, rfl⟩
  obtain ⟨q, hq⟩ : ∃ q, q = b + (i:ℝ) + 1 := ⟨_, rfl⟩
  have hp0 : 0 < p := by linarith
  have hq0 : 0 < q := by linarith
  have n2 : Real.Gamma ((i:ℝ) + 2) = ((i:ℝ) + 1) * Real.Gamma ((i:ℝ) + 1) := by
    rw [← gamma_step _ (by linarith)]; ring_nf
  have n3 : Real.Gamma ((i:ℝ) + 3) = ((i:ℝ) + 2) * Real.Gamma ((i:ℝ) + 2) := by
    rw [← gamma_step _ (by linarith)]; ring_nf
  have ga2 : Real.Gamma (a + (i:ℝ) + 2) = (a + (i:ℝ) + 1) * Real.Gamma (a + (i:ℝ) + 1) := by
    rw [← gamma_step _ (by linarith)]; ring_nf
  have gb2 : Real.Gamma (b + (i:ℝ) + 2) = (b + (i:ℝ) + 1) * Real.Gamma (b + (i:ℝ) + 1) := by
    rw [← gamma_step _ (by linarith)]; ring_nf
  have ga0 : Real.Gamma (a + (i:ℝ) + 1) ≠ 0 := (Real.Gamma_pos_of_pos (by linarith)).ne'
  have gb0 : Real.Gamma (b + (i:ℝ) + 1) ≠ 0 := (Real.Gamma_pos_of_pos (by linarith)).ne'
  have s0 : a + b + 2 * (i:ℝ) + 2 = p + q := by rw [hp, hq]; ring
  have s1 : a + b + 2 * (i:ℝ) + 3 = p + q + 1 := by rw [hp, hq]; ring
  have s2 : a + b + 2 * (i:ℝ) + 4 = p + q + 2 := by rw [hp, hq]; ring
  have s3 : a + b + 2 * (i:ℝ) + 5 = p + q + 3 := by rw [hp, hq]; ring
  have p0 : a + (i:ℝ) + 1 = p := by linarith
  have q0 : b + (i:ℝ) + 1 = q := by linarith
  unfold JacStencil.Phi1
  rw [sum_map_ite _ _ _ (by rintro rfl; simp [SVal.at])]
  simp only [SVal.at, List.map_cons, List.map_nil, List.sum_cons, List.sum_nil, n2, n3, ga2, gb2]
  generalize Real.Gamma (a + (i:ℝ) + 1) = GA at *
  generalize Real.Gamma (b + (i:ℝ) + 1) = GB at *
  generalize Real.Gamma ((i:ℝ) + 1) = GN at *
  generalize Real.Gamma (a + b + (i:ℝ) + 2) = W at *
  generalize (2:ℝ)^(-a-b) = T at *
  simp only [s0, s1, s2, s3, p0, q0]
  clear n2 n3 ga2 gb2 s0 s1 s2 s3 p0 q0
  obtain rfl : a = p - i - 1 := by rw [hp]; ring
  obtain rfl : b = q - i - 1 := by rw [hq]; ring
  clear hp hq ha hb
  interval_cases k <;> simp only [bndNum, Finset.prod_range_succ, Finset.prod_range_zero] <;> push_cast <;>
    generalize (i:ℝ) = x at * <;> (field_simp; ring)

set_option maxHeartbeats 40000000 in
private theorem jacPhi1_L (a b : ℝ) (ha : -1 < a) (hb : -1 < b) (i k : ℕ) (hk : k < 1) :
    (((JacStencil.Phi1 a b).map fun e => e.2.at i * ((-1)^e.1 * (∏ j ∈ Finset.range e.1, (((i:ℝ) + j + 1 + b) / (i + j + 1))) *
      bndNum b a (i + e.1) k)).sum = 0) := by
  have hx : (0:ℝ) ≤ (i:ℝ) := Nat.cast_nonneg _
  obtain ⟨p, hp⟩ : ∃ p, p = a + (i:ℝ) + 1 := ⟨_, rfl⟩
  obtain ⟨q, hq⟩ : ∃ q, q = b + (i:ℝ) + 1 := ⟨_, rfl⟩
  have hp0 : 0 < p := by linarith
  have hq0 : 0 < q := by linarith
  have n2 : Real.Gamma ((i:ℝ) + 2) = ((i:ℝ) + 1) * Real.Gamma ((i:ℝ) + 1) := by
    rw [← gamma_step _ (by linarith)]; ring_nf
  have n3 : Real.Gamma ((i:ℝ) + 3) = ((i:ℝ) + 2) * Real.Gamma ((i:ℝ) + 2) := by
    rw [← gamma_step _ (by linarith)]; ring_nf
  have ga2 : Real.Gamma (a + (i:ℝ) + 2) = (a + (i:ℝ) + 1) * Real.Gamma (a + (i:ℝ) + 1) := by
    rw [← gamma_step _ (by linarith)]; ring_nf
  have gb2 : Real.Gamma (b + (i:ℝ) + 2) = (b + (i:ℝ) + 1) * Real.Gamma (b + (i:ℝ) + 1) := by
    rw [← gamma_step _ (by linarith)]; ring_nf
  have ga0 : Real.Gamma (a + (i:ℝ) + 1) ≠ 0 := (Real.Gamma_pos_of_pos (by linarith)).ne'
  have gb0 : Real.Gamma (b + (i:ℝ) + 1) ≠ 0 := (Real.Gamma_pos_of_pos (by linarith)).ne'
  have s0 : a + b + 2 * (i:ℝ) + 2 = p + q := by rw [hp, hq]; ring
  have s1 : a + b + 2 * (i:ℝ) + 3 = p + q + 1 := by rw [hp, hq]; ring
  have s2 : a + b + 2 * (i:ℝ) + 4 = p + q + 2 := by rw [hp, hq]; ring
  have s3 : a + b + 2 * (i:ℝ) + 5 = p + q + 3 := by rw [hp, hq]; ring
  have p0 : a + (i:ℝ) + 1 = p := by linarith
  have q0 : b + (i:ℝ) + 1 = q := by linarith
  unfold JacStencil.Phi1
  rw [sum_map_ite _ _ _ (by rintro rfl; simp [SVal.at])]
  simp only [SVal.at, List.map_cons, List.map_nil, List.sum_cons, List.sum_nil, n2, n3, ga2, gb2]
  generalize Real.Gamma (a + (i:ℝ) + 1) = GA at *
  generalize Real.Gamma (b + (i:ℝ) + 1) = GB at *
  generalize Real.Gamma ((i:ℝ) + 1) = GN at *
  generalize Real.Gamma (a + b + (i:ℝ) + 2) = W at *
  generalize (2:ℝ)^(-a-b) = T at *
  simp only [s0, s1, s2, s3, p0, q0]
  clear n2 n3 ga2 gb2 s0 s1 s2 s3 p0 q0
  obtain rfl : a = p - i - 1 := by rw [hp]; ring
  obtain rfl : b = q - i - 1 := by rw [hq]; ring
  clear hp hq ha hb
  interval_cases k <;> simp only [bndNum, Finset.prod_range_succ, Finset.prod_range_zero] <;> push_cast <;>
    generalize (i:ℝ) = x at * <;> (field_simp; ring)

/-- `/repo/shenfun/jacobi/bases.py:359-365`. -/
theorem C47_jacobi_Phi1 (a b : ℝ) (ha : -1 < a) (hb : -1 < b) (N i : ℕ) (hi : i < N - 2) :
    Homogeneous (both 1) (basisFunction (jacobi a b) (stencilMatrix (JacStencil.Phi1 a b) N 2) i) := by
  refine homogeneous_both_jac ha hb hi ?_ (jacPhi1_R a b ha hb i) (jacPhi1_L a b ha hb i)
  unfold JacStencil.Phi1; split_ifs <;> simp

set_option maxHeartbeats 40000000 in
private theorem jacPhi2_R (a b : ℝ) (ha : -1 < a) (hb : -1 < b) (i k : ℕ) (hk : k < 2) :
    (((JacStencil.Phi2 a b).map fun e => e.2.at i * ((∏ j ∈ Finset.range e.1, (((i:ℝ) + j + 1 + a) / (i + j + 1))) *
      bndNum a b (i + e.1) k)).sum = 0) := by
  have hx : (0:ℝ) ≤ (i:ℝ) := Nat.cast_nonneg _
  obtain ⟨p, hp⟩ : ∃ p, p = a + (i:ℝ) + 1 := ⟨_, rfl⟩
  obtain ⟨q, hq⟩ : ∃ q, q = b + (i:ℝ) + 1 := ⟨_, rfl⟩
  have hp0 : 0 < p := by linarith
  have hq0 : 0 < q := by linarith
  have n2 : Real.Gamma ((i:ℝ) + 2) = ((i:ℝ) + 1) * Real.Gamma ((i:ℝ) + 1) := by
    rw [← gamma_step _ (by linarith)]; ring_nf
  have n3 : Real.Gamma ((i:ℝ) + 3) = ((i:ℝ) + 2) * Real.Gamma ((i:ℝ) + 2) := by
    rw [← gamma_step _ (by linarith)]; ring_nf
  have n4 : Real.Gamma ((i:ℝ) + 4) = ((i:ℝ) + 3) * Real.Gamma ((i:ℝ) + 3) := by
    rw [← gamma_step _ (by linarith)]; ring_nf
  have n5 : Real.Gamma ((i:ℝ) + 5) = ((i:ℝ) + 4) * Real.Gamma ((i:ℝ) + 4) := by
    rw [← gamma_step _ (by linarith)]; ring_nf
  have ga2 : Real.Gamma (a + (i:ℝ) + 2) = (a + (i:ℝ) + 1) * Real.Gamma (a + (i:ℝ) + 1) := by
    rw [← gamma_step _ (by linarith)]; ring_nf
  have ga3 : Real.Gamma (a + (i:ℝ) + 3) = (a + (i:ℝ) + 2) * Real.Gamma (a + (i:ℝ) + 2) := by
    rw [← gamma_step _ (by linarith)]; ring_nf
  have gb2 : Real.Gamma (b + (i:ℝ) + 2) = (b + (i:ℝ) + 1) * Real.Gamma (b + (i:ℝ) + 1) := by
    rw [← gamma_step _ (by linarith)]; ring_nf
  have gb3 : Real.Gamma (b + (i:ℝ) + 3) = (b + (i:ℝ) + 2) * Real.Gamma (b + (i:ℝ) + 2) := by
    rw [← gamma_step _ (by linarith)]; ring_nf
  have ga0 : Real.Gamma (a + (i:ℝ) + 1) ≠ 0 := (Real.Gamma_pos_of_pos (by linarith)).ne'
  have gb0 : Real.Gamma (b + (i:ℝ) + 1) ≠ 0 := (Real.Gamma_pos_of_pos (by linarith)).ne'
  have s0 : a + b + 2 * (i:ℝ) + 2 = p + q := by rw [hp, hq]; ring
  have s1 : a + b + 2 * (i:ℝ) + 3 = p + q + 1 := by rw [hp, hq]; ring
  have s2 : a + b + 2 * (i:ℝ) + 4 = p + q + 2 := by rw [hp, hq]; ring
  have s3 : a + b + 2 * (i:ℝ) + 5 = p + q + 3 := by rw [hp, hq]; ring
  have s4 : a + b + 2 * (i:ℝ) + 6 = p + q + 4 := by rw [hp, hq]; ring
  have s5 : a + b + 2 * (i:ℝ) + 7 = p + q + 5 := by rw [hp, hq]; ring
  have s6 : a + b + 2 * (i:ℝ) + 8 = p + q + 6 := by rw [hp, hq]; ring
  have s7 : a + b + 2 * (i:ℝ) + 9 = p + q + 7 := by rw [hp, hq]; ring
  have p0 : a + (i:ℝ) + 1 = p := by linarith
  have q0 : b + (i:ℝ) + 1 = q := by linarith
  have p1 : a + (i:ℝ) + 2 = p + 1 := by linarith
  have q1 : b + (i:ℝ) + 2 = q + 1 := by linarith
  have t1 : (2:ℝ)^(-a - b + 2) = 2 * 2^(-a - b + 1) := by
    rw [show -a - b + 2 = (-a - b + 1) + 1 by ring, Real.rpow_add (by norm_num), Real.rpow_one]; ring
  unfold JacStencil.Phi2
  rw [sum_map_ite _ _ _ (by rintro rfl; simp [SVal.at])]
  simp only [SVal.at, List.map_cons, List.map_nil, List.sum_cons, List.sum_nil, n2, n3, n4, n5, ga2, ga3, gb2, gb3, t1]
  generalize Real.Gamma (a + (i:ℝ) + 1) = GA at *
  generalize Real.Gamma (b + (i:ℝ) + 1) = GB at *
  generalize Real.Gamma ((i:ℝ) + 1) = GN at *
  generalize Real.Gamma (a + b + (i:ℝ) + 3) = W at *
  generalize (2:ℝ)^(-a - b + 1) = T at *
  simp only [s0, s1, s2, s3, s4, s5, s6, s7, p0, p1, q0, q1]
  clear n2 n3 n4 n5 ga2 ga3 gb2 gb3 s0 s1 s2 s3 s4 s5 s6 s7 p0 p1 q0 q1 t1
  obtain rfl : a = p - i - 1 := by rw [hp]; ring
  obtain rfl : b = q - i - 1 := by rw [hq]; ring
  clear hp hq ha hb
  interval_cases k <;> simp only [bndNum, Finset.prod_range_succ, Finset.prod_range_zero] <;> push_cast <;>
    generalize (i:ℝ) = x at * <;> (field_simp; ring)

set_option maxHeartbeats 40000000 in
private theorem jacPhi2_L (a b : ℝ) (ha : -1 < a) (hb : -1 < b) (i k : ℕ) (hk : k < 2) :
    (((JacStencil.Phi2 a b).map fun e => e.2.at i * ((-1)^e.1 * (∏ j ∈ Finset.range e.1, (((i:ℝ) + j + 1 + b) / (i + j + 1))) *
      bndNum b a (i + e.1) k)).sum = 0) := by
  have hx : (0:ℝ) ≤ (i:ℝ) := Nat.cast_nonneg _
  obtain ⟨p, hp⟩ : ∃ p, p = a + (i:ℝ) + 1 := ⟨_, rfl⟩
  obtain ⟨q, hq⟩ : ∃ q, q = b + (i:ℝ) + 1 := ⟨_, rfl⟩
  have hp0 : 0 < p := by linarith
  have hq0 : 0 < q := by linarith
  have n2 : Real.Gamma ((i:ℝ) + 2) = ((i:ℝ) + 1) * Real.Gamma ((i:ℝ) + 1) := by
    rw [← gamma_step _ (by linarith)]; ring_nf
  have n3 : Real.Gamma ((i:ℝ) + 3) = ((i:ℝ) + 2) * Real.Gamma ((i:ℝ) + 2) := by
    rw [← gamma_step _ (by linarith)]; ring_nf
  have n4 : Real.Gamma ((i:ℝ) + 4) = ((i:ℝ) + 3) * Real.Gamma ((i:ℝ) + 3) := by
    rw [← gamma_step _ (by linarith)]; ring_nf
  have n5 : Real.Gamma ((i:ℝ) + 5) = ((i:ℝ) + 4) * Real.Gamma ((i:ℝ) + 4) := by
    rw [← gamma_step _ (by linarith)]; ring_nf
  have ga2 : Real.Gamma (a + (i:ℝ) + 2) = (a + (i:ℝ) + 1) * Real.Gamma (a + (i:ℝ) + 1) := by
    rw [← gamma_step _ (by linarith)]; ring_nf
  have ga3 : Real.Gamma (a + (i:ℝ) + 3) = (a + (i:ℝ) + 2) * Real.Gamma (a + (i:ℝ) + 2) := by
    rw [← gamma_step _ (by linarith)]; ring_nf
  have gb2 : Real.Gamma (b + (i:ℝ) + 2) = (b + (i:ℝ) + 1) * Real.Gamma (b + (i:ℝ) + 1) := by
    rw [← gamma_step _ (by linarith)]; ring_nf
  have gb3 : Real.Gamma (b + (i:ℝ) + 3) = (b + (i:ℝ) + 2) * Real.Gamma (b + (i:ℝ) + 2) := by
    rw [← gamma_step _ (by linarith)]; ring_nf
  have ga0 : Real.Gamma (a + (i:ℝ) + 1) ≠ 0 := (Real.Gamma_pos_of_pos (by linarith)).ne'
  have gb0 : Real.Gamma (b + (i:ℝ) + 1) ≠ 0 := (Real.Gamma_pos_of_pos (by linarith)).ne'
  have s0 : a + b + 2 * (i:ℝ) + 2 = p + q := by rw [hp, hq]; ring
  have s1 : a + b + 2 * (i:ℝ) + 3 = p + q + 1 := by rw [hp, hq]; ring
  have s2 : a + b + 2 * (i:ℝ) + 4 = p + q + 2 := by rw [hp, hq]; ring
  have s3 : a + b + 2 * (i:ℝ) + 5 = p + q + 3 := by rw [hp, hq]; ring
  have s4 : a + b + 2 * (i:ℝ) + 6 = p + q + 4 := by rw [hp, hq]; ring
  have s5 : a + b + 2 * (i:ℝ) + 7 = p + q + 5 := by rw [hp, hq]; ring
  have s6 : a + b + 2 * (i:ℝ) + 8 = p + q + 6 := by rw [hp, hq]; ring
  have s7 : a + b + 2 * (i:ℝ) + 9 = p + q + 7 := by rw [hp, hq]; ring
  have p0 : a + (i:ℝ) + 1 = p := by linarith
  have q0 : b + (i:ℝ) + 1 = q := by linarith
  have p1 : a + (i:ℝ) + 2 = p + 1 := by linarith
  have q1 : b + (i:ℝ) + 2 = q + 1 := by linarith
  have t1 : (2:ℝ)^(-a - b + 2) = 2 * 2^(-a - b + 1) := by
    rw [show -a - b + 2 = (-a - b + 1) + 1 by ring, Real.rpow_add (by norm_num), Real.rpow_one]; ring
  unfold JacStencil.Phi2
  rw [sum_map_ite _ _ _ (by rintro rfl; simp [SVal.at])]
  simp only [SVal.at, List.map_cons, List.map_nil, List.sum_cons, List.sum_nil, n2, n3, n4, n5, ga2, ga3, gb2, gb3, t1]
  generalize Real.Gamma (a + (i:ℝ) + 1) = GA at *
  generalize Real.Gamma (b + (i:ℝ) + 1) = GB at *
  generalize Real.Gamma ((i:ℝ) + 1) = GN at *
  generalize Real.Gamma (a + b + (i:ℝ) + 3) = W at *
  generalize (2:ℝ)^(-a - b + 1) = T at *
  simp only [s0, s1, s2, s3, s4, s5, s6, s7, p0, p1, q0, q1]
  clear n2 n3 n4 n5 ga2 ga3 gb2 gb3 s0 s1 s2 s3 s4 s5 s6 s7 p0 p1 q0 q1 t1
  obtain rfl : a = p - i - 1 := by rw [hp]; ring
  obtain rfl : b = q - i - 1 := by rw [hq]; ring
  clear hp hq ha hb
  interval_cases k <;> simp only [bndNum, Finset.prod_range_succ, Finset.prod_range_zero] <;> push_cast <;>
    generalize (i:ℝ) = x at * <;> (field_simp; ring)

/-- `/repo/shenfun/jacobi/bases.py:441-448`. -/
theorem C47_jacobi_Phi2 (a b : ℝ) (ha : -1 < a) (hb : -1 < b) (N i : ℕ) (hi : i < N - 4) :
    Homogeneous (both 2) (basisFunction (jacobi a b) (stencilMatrix (JacStencil.Phi2 a b) N 4) i) := by
  refine homogeneous_both_jac ha hb hi ?_ (jacPhi2_R a b ha hb i) (jacPhi2_L a b ha hb i)
  unfold JacStencil.Phi2; split_ifs <;> simp

end Shenfun
