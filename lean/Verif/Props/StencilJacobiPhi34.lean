import Verif.Props.StencilJacobiPhi

/-!
# C47: the Jacobi bases `Phi3` and `Phi4`
-/

namespace Shenfun

open Polynomial Spec

set_option linter.unusedSimpArgs false
set_option linter.unusedTactic false
set_option linter.unnecessarySeqFocus false
set_option linter.unusedVariables false

/-- A linear functional on polynomials that vanishes on a Newton basis vanishes on all low degrees. -/
theorem sum_eval_eq_zero_of_newton {ι : Type} (L : List ι) (c Y : ι → ℝ) (z : ℕ → ℝ) (K : ℕ)
    (h : ∀ k < K, (L.map fun e => c e * ∏ l ∈ Finset.range k, (Y e - z l)).sum = 0) :
    ∀ p : ℝ[X], p.degree < (K : ℕ) → (L.map fun e => c e * p.eval (Y e)).sum = 0 := by
  induction K with
  | zero =>
    intro p hp
    have : p = 0 := by simpa using hp
    simp [this]
  | succ K ih =>
    intro p hp
    have hle : p.natDegree ≤ K := by
      by_cases h0 : p = 0
      · simp [h0]
      · have := (natDegree_lt_iff_degree_lt h0).2 hp; omega
    set W : ℝ[X] := ∏ l ∈ Finset.range K, (X - C (z l)) with hW
    have hWm : W.Monic := monic_prod_of_monic _ _ fun l _ => monic_X_sub_C _
    have hWd : W.natDegree = K := by
      rw [hW, natDegree_prod_of_monic _ _ fun l _ => monic_X_sub_C _]
      simp
    have hr : (p - C (p.coeff K) * W).degree < (K : ℕ) := by
      rw [degree_lt_iff_coeff_zero]
      intro j hj
      rw [coeff_sub, coeff_C_mul]
      rcases Nat.eq_or_lt_of_le hj with rfl | hj
      · have : W.coeff K = 1 := by
          have := hWm.coeff_natDegree
          rwa [hWd] at this
        rw [this]; ring
      · rw [coeff_eq_zero_of_natDegree_lt (p := p) (by omega), coeff_eq_zero_of_natDegree_lt (p := W) (by rw [hWd]; exact hj)]; ring
    have h1 := ih (fun k hk => h k (by omega)) _ hr
    have h2 := h K (by omega)
    have : ∀ e ∈ L, c e * p.eval (Y e) = c e * (p - C (p.coeff K) * W).eval (Y e) +
        p.coeff K * (c e * ∏ l ∈ Finset.range K, (Y e - z l)) := fun e _ => by
      rw [eval_sub, eval_mul, eval_C, hW, eval_prod]
      simp only [eval_sub, eval_X, eval_C]
      ring
    rw [List.map_congr_left this, List.sum_map_add, List.sum_map_mul_left, h1, h2]
    ring

/-- The conditions on a Jacobi stencil only involve the two numbers `a + i + 1` and `a + b + 2 i + 2`. -/
theorem bndNum_sum_of_newton {st : Stencil} {a b s : ℝ} {i K : ℕ} (w : ℕ × SVal → ℝ) (hs : s = a + b + 2 * i + 2)
    (h : ∀ k < K, (st.map fun e => w e * ∏ l ∈ Finset.range k, (((e.1:ℝ) - l) * (s + e.1 + l - 1))).sum = 0)
    (k : ℕ) (hk : k < K) : (st.map fun e => w e * bndNum a b (i + e.1) k).sum = 0 := by
  have key := sum_eval_eq_zero_of_newton st w (fun e => ((i:ℝ) + e.1) * (i + e.1 + a + b + 1))
    (fun l => ((i:ℝ) + l) * (i + l + a + b + 1)) K (fun k hk => by
      rw [← h k hk]
      congr 1
      refine List.map_congr_left fun e _ => ?_
      congr 1
      refine Finset.prod_congr rfl fun l _ => ?_
      subst hs; ring)
    (∏ l ∈ Finset.range k, (X - C ((l:ℝ) * (l + a + b + 1)))) (by
      refine (degree_prod_le _ _).trans_lt ?_
      simp only [degree_X_sub_C, Finset.sum_const, Finset.card_range, nsmul_eq_mul, mul_one]
      exact_mod_cast hk)
  rw [← key]
  congr 1
  refine List.map_congr_left fun e _ => ?_
  congr 1
  unfold bndNum
  rw [eval_prod]
  refine Finset.prod_congr rfl fun l _ => ?_
  simp only [eval_sub, eval_X, eval_C]
  push_cast
  ring

/-- Numerators of the entries of `Phi3` over their common denominator, with `p = a + i + 1`, `s = a + b + 2 i + 2`. -/
private noncomputable def num3 (p s : ℝ) : ℕ → ℝ
  | 0 => 1 * (s - p + 0) * (s - p + 1) * (s - p + 2) * (s + 6) * (s + 7) * (s + 8) * (s + 9) * (s + 10)
  | 2 => 3 * ((p - 1)^2 - 3 * (p - 1) * (s - p - 1) - (p - 1) * (0:ℝ) - 3 * (p - 1) + (s - p - 1)^2 - (s - p - 1) * (0:ℝ) - 3 * (s - p - 1) - (0:ℝ)^2 - 6 * (0:ℝ) - 8) * (s - p + 2) * (s + 0) * (s + 3) * (s + 8) * (s + 9) * (s + 10)
  | 4 => 3 * (-(p - 1)^2 + 3 * (p - 1) * (s - p - 1) + (p - 1) * (0:ℝ) + 4 * (p - 1) - (s - p - 1)^2 + (s - p - 1) * (0:ℝ) + 4 * (s - p - 1) + (0:ℝ)^2 + 8 * (0:ℝ) + 15) * (p + 3) * (s + 0) * (s + 1) * (s + 2) * (s + 7) * (s + 10)
  | 6 => -1 * (p + 3) * (p + 4) * (p + 5) * (s + 0) * (s + 1) * (s + 2) * (s + 3) * (s + 4)
  | 1 => 3 * (2*p - s) * (s - p + 1) * (s - p + 2) * (s + 1) * (s + 7) * (s + 8) * (s + 9) * (s + 10)
  | 3 => (2*p - s) * (s + 5) * ((p - 1)^2 - 8 * (p - 1) * (s - p - 1) - 6 * (p - 1) * (0:ℝ) - 21 * (p - 1) + (s - p - 1)^2 - 6 * (s - p - 1) * (0:ℝ) - 21 * (s - p - 1) - 6 * (0:ℝ)^2 - 42 * (0:ℝ) - 70) * (s + 0) * (s + 1) * (s + 9) * (s + 10)
  | 5 => 3 * (2*p - s) * (p + 3) * (p + 4) * (s + 0) * (s + 1) * (s + 2) * (s + 3) * (s + 9)
  | _ => 0

set_option maxRecDepth 4000 in
set_option maxHeartbeats 40000000 in
private theorem jacPhi3_terms (a b : ℝ) (ha : -1 < a) (hb : -1 < b) (i : ℕ) :
    ∃ κ : ℝ, ∀ e ∈ JacStencil.Phi3 a b, e.2.at i * (∏ j ∈ Finset.range e.1, (((i:ℝ) + j + 1 + a) / (i + j + 1))) =
      κ * num3 (a + i + 1) (a + b + 2 * i + 2) e.1 := by
  have hx : (0:ℝ) ≤ (i:ℝ) := Nat.cast_nonneg _
  obtain ⟨p, hp⟩ : ∃ p, p = a + (i:ℝ) + 1 := ⟨_, rfl⟩
  obtain ⟨s, hs⟩ : ∃ s, s = a + b + 2 * (i:ℝ) + 2 := ⟨_, rfl⟩
  rw [← hp, ← hs]
  have hp0 : 0 < p := by linarith
  have hq0 : 0 < s - p := by linarith
  have hs0 : 0 < s := by linarith
  have hA : a = p - i - 1 := by rw [hp]; ring
  have hB : b = s - p - i - 1 := by rw [hs, hp]; ring
  have nn : ∀ m : ℕ, 1 ≤ m → Real.Gamma ((i:ℝ) + (m+1:ℕ)) = ((i:ℝ) + m) * Real.Gamma ((i:ℝ) + m) := fun m hm => by
    have : (1:ℝ) ≤ m := by exact_mod_cast hm
    rw [← gamma_step _ (by linarith)]; push_cast; ring_nf
  have na : ∀ m : ℕ, 1 ≤ m → Real.Gamma (a + (i:ℝ) + (m+1:ℕ)) = (a + (i:ℝ) + m) * Real.Gamma (a + (i:ℝ) + m) := fun m hm => by
    have : (1:ℝ) ≤ m := by exact_mod_cast hm
    rw [← gamma_step _ (by linarith)]; push_cast; ring_nf
  have nb : ∀ m : ℕ, 1 ≤ m → Real.Gamma (b + (i:ℝ) + (m+1:ℕ)) = (b + (i:ℝ) + m) * Real.Gamma (b + (i:ℝ) + m) := fun m hm => by
    have : (1:ℝ) ≤ m := by exact_mod_cast hm
    rw [← gamma_step _ (by linarith)]; push_cast; ring_nf
  have n2 := nn 1 (by omega)
  have n3 := nn 2 (by omega)
  have n4 := nn 3 (by omega)
  have n5 := nn 4 (by omega)
  have n6 := nn 5 (by omega)
  have n7 := nn 6 (by omega)
  have a2 := na 1 (by omega)
  have b2 := nb 1 (by omega)
  have a3 := na 2 (by omega)
  have b3 := nb 2 (by omega)
  have a4 := na 3 (by omega)
  have b4 := nb 3 (by omega)
  clear nn na nb
  norm_num at n2 n3 n4 n5 n6 n7 a2 b2 a3 b3 a4 b4
  have e2 : a^2 - 3 * a * b - a * (i:ℝ) - 3 * a + b^2 - b * (i:ℝ) - 3 * b - (i:ℝ)^2 - 6 * (i:ℝ) - 8 = (p - 1)^2 - 3 * (p - 1) * (s - p - 1) - (p - 1) * (0:ℝ) - 3 * (p - 1) + (s - p - 1)^2 - (s - p - 1) * (0:ℝ) - 3 * (s - p - 1) - (0:ℝ)^2 - 6 * (0:ℝ) - 8 := by rw [hA, hB]; ring
  have e4 : -a^2 + 3 * a * b + a * (i:ℝ) + 4 * a - b^2 + b * (i:ℝ) + 4 * b + (i:ℝ)^2 + 8 * (i:ℝ) + 15 = -(p - 1)^2 + 3 * (p - 1) * (s - p - 1) + (p - 1) * (0:ℝ) + 4 * (p - 1) - (s - p - 1)^2 + (s - p - 1) * (0:ℝ) + 4 * (s - p - 1) + (0:ℝ)^2 + 8 * (0:ℝ) + 15 := by rw [hA, hB]; ring
  have e3 : a^2 - 8 * a * b - 6 * a * (i:ℝ) - 21 * a + b^2 - 6 * b * (i:ℝ) - 21 * b - 6 * (i:ℝ)^2 - 42 * (i:ℝ) - 70 = (p - 1)^2 - 8 * (p - 1) * (s - p - 1) - 6 * (p - 1) * (0:ℝ) - 21 * (p - 1) + (s - p - 1)^2 - 6 * (s - p - 1) * (0:ℝ) - 21 * (s - p - 1) - 6 * (0:ℝ)^2 - 42 * (0:ℝ) - 70 := by rw [hA, hB]; ring
  have ga0 : Real.Gamma (a + (i:ℝ) + 1) ≠ 0 := (Real.Gamma_pos_of_pos (by linarith)).ne'
  have gb0 : Real.Gamma (b + (i:ℝ) + 1) ≠ 0 := (Real.Gamma_pos_of_pos (by linarith)).ne'
  have hq1 : s - p + 1 ≠ 0 := by linarith
  have hq2 : s - p + 2 ≠ 0 := by linarith
  refine ⟨2^(-a - b + 2) * Real.Gamma ((i:ℝ) + 1) * Real.Gamma (a + b + (i:ℝ) + 4) /
    (Real.Gamma (a + (i:ℝ) + 1) * Real.Gamma (b + (i:ℝ) + 1) * ((s + 0) * (s + 1) * (s + 2) * (s + 3) * (s + 4) * (s + 6) * (s + 7) * (s + 8) * (s + 9) * (s + 10) * (s - p + 0) * (s - p + 1) * (s - p + 2))), ?_⟩
  have all : ∀ {L M : Stencil} {P : ℕ × SVal → Prop} [Decidable (a ≠ b)], (∀ e ∈ L, P e) → (∀ e ∈ M, P e) →
      ∀ e ∈ (L ++ if a ≠ b then M else []), P e := fun h1 h2 e he => by
    rcases List.mem_append.1 he with he | he
    · exact h1 e he
    · split_ifs at he
      · exact h2 e he
      · simp at he
  unfold JacStencil.Phi3
  refine all ?_ ?_ <;>
  simp only [List.forall_mem_cons, List.not_mem_nil, IsEmpty.forall_iff, implies_true, and_true, SVal.at, e2, e4, e3, n2, n3, n4, n5, n6, n7, a2, b2, a3, b3, a4, b4, num3] <;>
  generalize Real.Gamma (a + (i:ℝ) + 1) = GA at * <;>
  generalize Real.Gamma (b + (i:ℝ) + 1) = GB at * <;>
  generalize Real.Gamma ((i:ℝ) + 1) = GN at * <;>
  generalize Real.Gamma (a + b + (i:ℝ) + 4) = W at * <;>
  generalize (2:ℝ)^(-a - b + 2) = T at * <;>
  clear n2 n3 n4 n5 n6 n7 a2 b2 a3 b3 a4 b4 e2 e4 e3 all <;>
  subst hA hB <;>
  clear hp hs ha hb <;>
  simp only [show ∀ c : ℝ, p - i - 1 + (s - p - i - 1) + 2 * (i:ℝ) + c = s + (c - 2) from fun c => by ring,
    show ∀ c : ℝ, p - (i:ℝ) - 1 + i + c = p + (c - 1) from fun c => by ring,
    show ∀ c : ℝ, s - p - (i:ℝ) - 1 + i + c = s - p + (c - 1) from fun c => by ring,
    show ∀ c : ℝ, (i:ℝ) + c + 1 + (p - i - 1) = p + c from fun c => by ring,
    show p - (i:ℝ) - 1 - (s - p - i - 1) = 2 * p - s by ring,
    Finset.prod_range_succ, Finset.prod_range_zero] <;>
  push_cast <;>
  generalize (i:ℝ) = x at * <;>
  norm_num only <;>
  (repeat' apply And.intro) <;>
  (first | (field_simp; done) | (field_simp; ring))

set_option maxRecDepth 4000 in
set_option maxHeartbeats 40000000 in
private theorem jacPhi3_N (a b : ℝ) (ha : -1 < a) (hb : -1 < b) (i k : ℕ) (hk : k < 3) :
    ((JacStencil.Phi3 a b).map fun e => (e.2.at i * (∏ j ∈ Finset.range e.1, (((i:ℝ) + j + 1 + a) / (i + j + 1)))) *
      ∏ l ∈ Finset.range k, (((e.1:ℝ) - l) * ((a + b + 2 * i + 2) + e.1 + l - 1))).sum = 0 := by
  obtain ⟨κ, hκ⟩ := jacPhi3_terms a b ha hb i
  rw [List.map_congr_left (fun e he => by rw [hκ e he, mul_assoc]), List.sum_map_mul_left]
  refine mul_eq_zero_of_right _ ?_
  unfold JacStencil.Phi3
  rw [sum_map_ite _ _ _ (by
    intro hab
    have h0 : 2 * (a + (i:ℝ) + 1) - (a + b + 2 * (i:ℝ) + 2) = 0 := by rw [hab]; ring
    simp [num3, h0])]
  simp only [num3, List.map_cons, List.map_nil, List.sum_cons, List.sum_nil]
  generalize a + (i:ℝ) + 1 = p
  generalize a + b + 2 * (i:ℝ) + 2 = s
  interval_cases k <;> simp only [Finset.prod_range_succ, Finset.prod_range_zero] <;> push_cast <;> ring

set_option maxRecDepth 4000 in
set_option maxHeartbeats 4000000 in
/-- `/repo/shenfun/jacobi/bases.py:520-532`. -/
theorem C47_jacobi_Phi3 (a b : ℝ) (ha : -1 < a) (hb : -1 < b) (N i : ℕ) (hi : i < N - 6) :
    Homogeneous (both 3) (basisFunction (jacobi a b) (stencilMatrix (JacStencil.Phi3 a b) N 6) i) := by
  refine homogeneous_both_jac ha hb hi ?_ (fun k hk => ?_) (fun k hk => ?_)
  · unfold JacStencil.Phi3; split_ifs <;> simp
  · rw [← bndNum_sum_of_newton (K := 3) (a := a) (b := b) (i := i) _ rfl (jacPhi3_N a b ha hb i) k hk]
    congr 1
    refine List.map_congr_left fun e _ => ?_
    ring
  · rw [← bndNum_sum_of_newton (K := 3) (a := b) (b := a) (i := i) _ rfl (jacPhi3_N b a hb ha i) k hk]
    unfold JacStencil.Phi3
    rw [sum_map_ite _ _ _ (by rintro rfl; simp [SVal.at]), sum_map_ite _ _ _ (by rintro rfl; simp [SVal.at])]
    simp only [SVal.at, List.map_cons, List.map_nil, List.sum_cons, List.sum_nil, add_comm b a, show -b - a = -a - b by ring]
    generalize bndNum b a = B
    generalize Real.Gamma = G
    ring

/-- Numerators of the entries of `Phi4` over their common denominator, with `p = a + i + 1`, `s = a + b + 2 i + 2`. -/
private noncomputable def num4 (p s : ℝ) : ℕ → ℝ
  | 0 => 1 * (s - p + 0) * (s - p + 1) * (s - p + 2) * (s - p + 3) * (s + 8) * (s + 9) * (s + 10) * (s + 11) * (s + 12) * (s + 13) * (s + 14)
  | 2 => 2 * (3 * (p - 1)^2 - 8 * (p - 1) * (s - p - 1) - 2 * (p - 1) * (0:ℝ) - 7 * (p - 1) + 3 * (s - p - 1)^2 - 2 * (s - p - 1) * (0:ℝ) - 7 * (s - p - 1) - 2 * (0:ℝ)^2 - 14 * (0:ℝ) - 20) * (s - p + 2) * (s - p + 3) * (s + 0) * (s + 3) * (s + 10) * (s + 11) * (s + 12) * (s + 13) * (s + 14)
  | 4 => (s + 7) * ((p - 1)^4 - 16 * (p - 1)^3 * (s - p - 1) - 12 * (p - 1)^3 * (0:ℝ) - 54 * (p - 1)^3 + 36 * (p - 1)^2 * (s - p - 1)^2 + 24 * (p - 1)^2 * (s - p - 1) * (0:ℝ) + 108 * (p - 1)^2 * (s - p - 1) - 6 * (p - 1)^2 * (0:ℝ)^2 - 54 * (p - 1)^2 * (0:ℝ) - 109 * (p - 1)^2 - 16 * (p - 1) * (s - p - 1)^3 + 24 * (p - 1) * (s - p - 1)^2 * (0:ℝ) + 108 * (p - 1) * (s - p - 1)^2 + 48 * (p - 1) * (s - p - 1) * (0:ℝ)^2 + 432 * (p - 1) * (s - p - 1) * (0:ℝ) + 932 * (p - 1) * (s - p - 1) + 12 * (p - 1) * (0:ℝ)^3 + 162 * (p - 1) * (0:ℝ)^2 + 714 * (p - 1) * (0:ℝ) + 1026 * (p - 1) + (s - p - 1)^4 - 12 * (s - p - 1)^3 * (0:ℝ) - 54 * (s - p - 1)^3 - 6 * (s - p - 1)^2 * (0:ℝ)^2 - 54 * (s - p - 1)^2 * (0:ℝ) - 109 * (s - p - 1)^2 + 12 * (s - p - 1) * (0:ℝ)^3 + 162 * (s - p - 1) * (0:ℝ)^2 + 714 * (s - p - 1) * (0:ℝ) + 1026 * (s - p - 1) + 6 * (0:ℝ)^4 + 108 * (0:ℝ)^3 + 714 * (0:ℝ)^2 + 2052 * (0:ℝ) + 2160) * (s + 0) * (s + 1) * (s + 2) * (s + 12) * (s + 13) * (s + 14)
  | 6 => 2 * (3 * (p - 1)^2 - 8 * (p - 1) * (s - p - 1) - 2 * (p - 1) * (0:ℝ) - 11 * (p - 1) + 3 * (s - p - 1)^2 - 2 * (s - p - 1) * (0:ℝ) - 11 * (s - p - 1) - 2 * (0:ℝ)^2 - 22 * (0:ℝ) - 56) * (p + 4) * (p + 5) * (s + 0) * (s + 1) * (s + 2) * (s + 3) * (s + 4) * (s + 11) * (s + 14)
  | 8 => 1 * (p + 4) * (p + 5) * (p + 6) * (p + 7) * (s + 0) * (s + 1) * (s + 2) * (s + 3) * (s + 4) * (s + 5) * (s + 6)
  | 1 => 4 * (2*p - s) * (s - p + 1) * (s - p + 2) * (s - p + 3) * (s + 1) * (s + 9) * (s + 10) * (s + 11) * (s + 12) * (s + 13) * (s + 14)
  | 3 => 4 * (2*p - s) * ((p - 1)^2 - 5 * (p - 1) * (s - p - 1) - 3 * (p - 1) * (0:ℝ) - 12 * (p - 1) + (s - p - 1)^2 - 3 * (s - p - 1) * (0:ℝ) - 12 * (s - p - 1) - 3 * (0:ℝ)^2 - 24 * (0:ℝ) - 43) * (s - p + 3) * (s + 0) * (s + 1) * (s + 5) * (s + 11) * (s + 12) * (s + 13) * (s + 14)
  | 5 => 4 * (2*p - s) * (-(p - 1)^2 + 5 * (p - 1) * (s - p - 1) + 3 * (p - 1) * (0:ℝ) + 15 * (p - 1) - (s - p - 1)^2 + 3 * (s - p - 1) * (0:ℝ) + 15 * (s - p - 1) + 3 * (0:ℝ)^2 + 30 * (0:ℝ) + 70) * (p + 4) * (s + 0) * (s + 1) * (s + 2) * (s + 3) * (s + 9) * (s + 13) * (s + 14)
  | 7 => -4 * (2*p - s) * (p + 4) * (p + 5) * (p + 6) * (s + 0) * (s + 1) * (s + 2) * (s + 3) * (s + 4) * (s + 5) * (s + 13)
  | _ => 0

set_option maxRecDepth 4000 in
set_option maxHeartbeats 40000000 in
private theorem jacPhi4_terms (a b : ℝ) (ha : -1 < a) (hb : -1 < b) (i : ℕ) :
    ∃ κ : ℝ, ∀ e ∈ JacStencil.Phi4 a b, e.2.at i * (∏ j ∈ Finset.range e.1, (((i:ℝ) + j + 1 + a) / (i + j + 1))) =
      κ * num4 (a + i + 1) (a + b + 2 * i + 2) e.1 := by
  have hx : (0:ℝ) ≤ (i:ℝ) := Nat.cast_nonneg _
  obtain ⟨p, hp⟩ : ∃ p, p = a + (i:ℝ) + 1 := ⟨_, rfl⟩
  obtain ⟨s, hs⟩ : ∃ s, s = a + b + 2 * (i:ℝ) + 2 := ⟨_, rfl⟩
  rw [← hp, ← hs]
  have hp0 : 0 < p := by linarith
  have hq0 : 0 < s - p := by linarith
  have hs0 : 0 < s := by linarith
  have hA : a = p - i - 1 := by rw [hp]; ring
  have hB : b = s - p - i - 1 := by rw [hs, hp]; ring
  have nn : ∀ m : ℕ, 1 ≤ m → Real.Gamma ((i:ℝ) + (m+1:ℕ)) = ((i:ℝ) + m) * Real.Gamma ((i:ℝ) + m) := fun m hm => by
    have : (1:ℝ) ≤ m := by exact_mod_cast hm
    rw [← gamma_step _ (by linarith)]; push_cast; ring_nf
  have na : ∀ m : ℕ, 1 ≤ m → Real.Gamma (a + (i:ℝ) + (m+1:ℕ)) = (a + (i:ℝ) + m) * Real.Gamma (a + (i:ℝ) + m) := fun m hm => by
    have : (1:ℝ) ≤ m := by exact_mod_cast hm
    rw [← gamma_step _ (by linarith)]; push_cast; ring_nf
  have nb : ∀ m : ℕ, 1 ≤ m → Real.Gamma (b + (i:ℝ) + (m+1:ℕ)) = (b + (i:ℝ) + m) * Real.Gamma (b + (i:ℝ) + m) := fun m hm => by
    have : (1:ℝ) ≤ m := by exact_mod_cast hm
    rw [← gamma_step _ (by linarith)]; push_cast; ring_nf
  have n2 := nn 1 (by omega)
  have n3 := nn 2 (by omega)
  have n4 := nn 3 (by omega)
  have n5 := nn 4 (by omega)
  have n6 := nn 5 (by omega)
  have n7 := nn 6 (by omega)
  have n8 := nn 7 (by omega)
  have n9 := nn 8 (by omega)
  have a2 := na 1 (by omega)
  have b2 := nb 1 (by omega)
  have a3 := na 2 (by omega)
  have b3 := nb 2 (by omega)
  have a4 := na 3 (by omega)
  have b4 := nb 3 (by omega)
  have a5 := na 4 (by omega)
  have b5 := nb 4 (by omega)
  clear nn na nb
  norm_num at n2 n3 n4 n5 n6 n7 n8 n9 a2 b2 a3 b3 a4 b4 a5 b5
  have e2 : 3 * a^2 - 8 * a * b - 2 * a * (i:ℝ) - 7 * a + 3 * b^2 - 2 * b * (i:ℝ) - 7 * b - 2 * (i:ℝ)^2 - 14 * (i:ℝ) - 20 = 3 * (p - 1)^2 - 8 * (p - 1) * (s - p - 1) - 2 * (p - 1) * (0:ℝ) - 7 * (p - 1) + 3 * (s - p - 1)^2 - 2 * (s - p - 1) * (0:ℝ) - 7 * (s - p - 1) - 2 * (0:ℝ)^2 - 14 * (0:ℝ) - 20 := by rw [hA, hB]; ring
  have e4 : a^4 - 16 * a^3 * b - 12 * a^3 * (i:ℝ) - 54 * a^3 + 36 * a^2 * b^2 + 24 * a^2 * b * (i:ℝ) + 108 * a^2 * b - 6 * a^2 * (i:ℝ)^2 - 54 * a^2 * (i:ℝ) - 109 * a^2 - 16 * a * b^3 + 24 * a * b^2 * (i:ℝ) + 108 * a * b^2 + 48 * a * b * (i:ℝ)^2 + 432 * a * b * (i:ℝ) + 932 * a * b + 12 * a * (i:ℝ)^3 + 162 * a * (i:ℝ)^2 + 714 * a * (i:ℝ) + 1026 * a + b^4 - 12 * b^3 * (i:ℝ) - 54 * b^3 - 6 * b^2 * (i:ℝ)^2 - 54 * b^2 * (i:ℝ) - 109 * b^2 + 12 * b * (i:ℝ)^3 + 162 * b * (i:ℝ)^2 + 714 * b * (i:ℝ) + 1026 * b + 6 * (i:ℝ)^4 + 108 * (i:ℝ)^3 + 714 * (i:ℝ)^2 + 2052 * (i:ℝ) + 2160 = (p - 1)^4 - 16 * (p - 1)^3 * (s - p - 1) - 12 * (p - 1)^3 * (0:ℝ) - 54 * (p - 1)^3 + 36 * (p - 1)^2 * (s - p - 1)^2 + 24 * (p - 1)^2 * (s - p - 1) * (0:ℝ) + 108 * (p - 1)^2 * (s - p - 1) - 6 * (p - 1)^2 * (0:ℝ)^2 - 54 * (p - 1)^2 * (0:ℝ) - 109 * (p - 1)^2 - 16 * (p - 1) * (s - p - 1)^3 + 24 * (p - 1) * (s - p - 1)^2 * (0:ℝ) + 108 * (p - 1) * (s - p - 1)^2 + 48 * (p - 1) * (s - p - 1) * (0:ℝ)^2 + 432 * (p - 1) * (s - p - 1) * (0:ℝ) + 932 * (p - 1) * (s - p - 1) + 12 * (p - 1) * (0:ℝ)^3 + 162 * (p - 1) * (0:ℝ)^2 + 714 * (p - 1) * (0:ℝ) + 1026 * (p - 1) + (s - p - 1)^4 - 12 * (s - p - 1)^3 * (0:ℝ) - 54 * (s - p - 1)^3 - 6 * (s - p - 1)^2 * (0:ℝ)^2 - 54 * (s - p - 1)^2 * (0:ℝ) - 109 * (s - p - 1)^2 + 12 * (s - p - 1) * (0:ℝ)^3 + 162 * (s - p - 1) * (0:ℝ)^2 + 714 * (s - p - 1) * (0:ℝ) + 1026 * (s - p - 1) + 6 * (0:ℝ)^4 + 108 * (0:ℝ)^3 + 714 * (0:ℝ)^2 + 2052 * (0:ℝ) + 2160 := by rw [hA, hB]; ring
  have e6 : 3 * a^2 - 8 * a * b - 2 * a * (i:ℝ) - 11 * a + 3 * b^2 - 2 * b * (i:ℝ) - 11 * b - 2 * (i:ℝ)^2 - 22 * (i:ℝ) - 56 = 3 * (p - 1)^2 - 8 * (p - 1) * (s - p - 1) - 2 * (p - 1) * (0:ℝ) - 11 * (p - 1) + 3 * (s - p - 1)^2 - 2 * (s - p - 1) * (0:ℝ) - 11 * (s - p - 1) - 2 * (0:ℝ)^2 - 22 * (0:ℝ) - 56 := by rw [hA, hB]; ring
  have e3 : a^2 - 5 * a * b - 3 * a * (i:ℝ) - 12 * a + b^2 - 3 * b * (i:ℝ) - 12 * b - 3 * (i:ℝ)^2 - 24 * (i:ℝ) - 43 = (p - 1)^2 - 5 * (p - 1) * (s - p - 1) - 3 * (p - 1) * (0:ℝ) - 12 * (p - 1) + (s - p - 1)^2 - 3 * (s - p - 1) * (0:ℝ) - 12 * (s - p - 1) - 3 * (0:ℝ)^2 - 24 * (0:ℝ) - 43 := by rw [hA, hB]; ring
  have e5 : -a^2 + 5 * a * b + 3 * a * (i:ℝ) + 15 * a - b^2 + 3 * b * (i:ℝ) + 15 * b + 3 * (i:ℝ)^2 + 30 * (i:ℝ) + 70 = -(p - 1)^2 + 5 * (p - 1) * (s - p - 1) + 3 * (p - 1) * (0:ℝ) + 15 * (p - 1) - (s - p - 1)^2 + 3 * (s - p - 1) * (0:ℝ) + 15 * (s - p - 1) + 3 * (0:ℝ)^2 + 30 * (0:ℝ) + 70 := by rw [hA, hB]; ring
  have ga0 : Real.Gamma (a + (i:ℝ) + 1) ≠ 0 := (Real.Gamma_pos_of_pos (by linarith)).ne'
  have gb0 : Real.Gamma (b + (i:ℝ) + 1) ≠ 0 := (Real.Gamma_pos_of_pos (by linarith)).ne'
  have t1 : (2:ℝ)^(-a - b + 4) = 2 * 2^(-a - b + 3) := by
    rw [show -a - b + 4 = (-a - b + 3) + 1 by ring, Real.rpow_add (by norm_num), Real.rpow_one]; ring
  have t2 : (2:ℝ)^(-a - b + 5) = 4 * 2^(-a - b + 3) := by
    rw [show -a - b + 5 = (-a - b + 3) + (2:ℕ) by push_cast; ring, Real.rpow_add (by norm_num), Real.rpow_natCast]; norm_num; ring
  have hq1 : s - p + 1 ≠ 0 := by linarith
  have hq2 : s - p + 2 ≠ 0 := by linarith
  have hq3 : s - p + 3 ≠ 0 := by linarith
  refine ⟨2^(-a - b + 3) * Real.Gamma ((i:ℝ) + 1) * Real.Gamma (a + b + (i:ℝ) + 5) /
    (Real.Gamma (a + (i:ℝ) + 1) * Real.Gamma (b + (i:ℝ) + 1) * ((s + 0) * (s + 1) * (s + 2) * (s + 3) * (s + 4) * (s + 5) * (s + 6) * (s + 8) * (s + 9) * (s + 10) * (s + 11) * (s + 12) * (s + 13) * (s + 14) * (s - p + 0) * (s - p + 1) * (s - p + 2) * (s - p + 3))), ?_⟩
  have all : ∀ {L M : Stencil} {P : ℕ × SVal → Prop} [Decidable (a ≠ b)], (∀ e ∈ L, P e) → (∀ e ∈ M, P e) →
      ∀ e ∈ (L ++ if a ≠ b then M else []), P e := fun h1 h2 e he => by
    rcases List.mem_append.1 he with he | he
    · exact h1 e he
    · split_ifs at he
      · exact h2 e he
      · simp at he
  unfold JacStencil.Phi4
  refine all ?_ ?_ <;>
  simp only [List.forall_mem_cons, List.not_mem_nil, IsEmpty.forall_iff, implies_true, and_true, SVal.at, t1, t2, e2, e4, e6, e3, e5, n2, n3, n4, n5, n6, n7, n8, n9, a2, b2, a3, b3, a4, b4, a5, b5, num4] <;>
  generalize Real.Gamma (a + (i:ℝ) + 1) = GA at * <;>
  generalize Real.Gamma (b + (i:ℝ) + 1) = GB at * <;>
  generalize Real.Gamma ((i:ℝ) + 1) = GN at * <;>
  generalize Real.Gamma (a + b + (i:ℝ) + 5) = W at * <;>
  generalize (2:ℝ)^(-a - b + 3) = T at * <;>
  clear n2 n3 n4 n5 n6 n7 n8 n9 a2 b2 a3 b3 a4 b4 a5 b5 e2 e4 e6 e3 e5 t1 t2 all <;>
  subst hA hB <;>
  clear hp hs ha hb <;>
  simp only [show ∀ c : ℝ, p - i - 1 + (s - p - i - 1) + 2 * (i:ℝ) + c = s + (c - 2) from fun c => by ring,
    show ∀ c : ℝ, p - (i:ℝ) - 1 + i + c = p + (c - 1) from fun c => by ring,
    show ∀ c : ℝ, s - p - (i:ℝ) - 1 + i + c = s - p + (c - 1) from fun c => by ring,
    show ∀ c : ℝ, (i:ℝ) + c + 1 + (p - i - 1) = p + c from fun c => by ring,
    show p - (i:ℝ) - 1 - (s - p - i - 1) = 2 * p - s by ring,
    Finset.prod_range_succ, Finset.prod_range_zero] <;>
  push_cast <;>
  generalize (i:ℝ) = x at * <;>
  norm_num only <;>
  (repeat' apply And.intro) <;>
  (first | (field_simp; done) | (field_simp; ring))

set_option maxRecDepth 4000 in
set_option maxHeartbeats 40000000 in
private theorem jacPhi4_N (a b : ℝ) (ha : -1 < a) (hb : -1 < b) (i k : ℕ) (hk : k < 4) :
    ((JacStencil.Phi4 a b).map fun e => (e.2.at i * (∏ j ∈ Finset.range e.1, (((i:ℝ) + j + 1 + a) / (i + j + 1)))) *
      ∏ l ∈ Finset.range k, (((e.1:ℝ) - l) * ((a + b + 2 * i + 2) + e.1 + l - 1))).sum = 0 := by
  obtain ⟨κ, hκ⟩ := jacPhi4_terms a b ha hb i
  rw [List.map_congr_left (fun e he => by rw [hκ e he, mul_assoc]), List.sum_map_mul_left]
  refine mul_eq_zero_of_right _ ?_
  unfold JacStencil.Phi4
  rw [sum_map_ite _ _ _ (by
    intro hab
    have h0 : 2 * (a + (i:ℝ) + 1) - (a + b + 2 * (i:ℝ) + 2) = 0 := by rw [hab]; ring
    simp [num4, h0])]
  simp only [num4, List.map_cons, List.map_nil, List.sum_cons, List.sum_nil]
  generalize a + (i:ℝ) + 1 = p
  generalize a + b + 2 * (i:ℝ) + 2 = s
  interval_cases k <;> simp only [Finset.prod_range_succ, Finset.prod_range_zero] <;> push_cast <;> ring

set_option maxRecDepth 4000 in
set_option maxHeartbeats 4000000 in
/-- `/repo/shenfun/jacobi/bases.py:607-623`. -/
theorem C47_jacobi_Phi4 (a b : ℝ) (ha : -1 < a) (hb : -1 < b) (N i : ℕ) (hi : i < N - 8) :
    Homogeneous (both 4) (basisFunction (jacobi a b) (stencilMatrix (JacStencil.Phi4 a b) N 8) i) := by
  refine homogeneous_both_jac ha hb hi ?_ (fun k hk => ?_) (fun k hk => ?_)
  · unfold JacStencil.Phi4; split_ifs <;> simp
  · rw [← bndNum_sum_of_newton (K := 4) (a := a) (b := b) (i := i) _ rfl (jacPhi4_N a b ha hb i) k hk]
    congr 1
    refine List.map_congr_left fun e _ => ?_
    ring
  · rw [← bndNum_sum_of_newton (K := 4) (a := b) (b := a) (i := i) _ rfl (jacPhi4_N b a hb ha i) k hk]
    unfold JacStencil.Phi4
    rw [sum_map_ite _ _ _ (by rintro rfl; simp [SVal.at]), sum_map_ite _ _ _ (by rintro rfl; simp [SVal.at])]
    simp only [SVal.at, List.map_cons, List.map_nil, List.sum_cons, List.sum_nil, add_comm b a, show -b - a = -a - b by ring]
    generalize bndNum b a = B
    generalize Real.Gamma = G
    ring

end Shenfun
