import Verif.Model.ChebTransforms
import Verif.Model.Stencil
import Verif.Lemmas.ChebSums
import Mathlib.LinearAlgebra.Matrix.NonsingularInverse

/-!
# C61: fast transforms of the Chebyshev spaces
-/

namespace Shenfun

open Real Spec Polynomial

variable {E : Type*} [AddCommGroup E] [Module ℝ E]

/-! ## Points and basis functions -/

theorem chebPts_GC (N j : ℕ) : chebPts .gc N j = cos ((j + 1/2) * π / N) := by
  simp only [chebPts]; congr 1
  rcases eq_or_ne (N:ℝ) 0 with h | h
  · rw [h]; simp
  · field_simp; ring

theorem chebPts_GL (n j : ℕ) : chebPts .gl (n + 1) j = cos (j * π / n) := by
  simp only [chebPts]
  rw [show -π + j * (π / (((n + 1 : ℕ):ℝ) - 1)) = j * π / n - π by push_cast; ring, cos_sub_pi, neg_neg]

theorem chebPts_GU (N j : ℕ) : chebPts .gu N j = cos ((j + 1) * π / (N + 1)) := rfl

theorem eval_chebT_cos (k : ℕ) (θ : ℝ) : (chebT k).eval (cos θ) = cos (k * θ) := by
  rw [chebT, Chebyshev.T_real_cos]; push_cast; rfl

theorem eval_chebU_cos (k : ℕ) (θ : ℝ) : (chebU k).eval (cos θ) * sin θ = sin ((k + 1) * θ) := by
  rw [chebU, Chebyshev.U_real_cos]; push_cast; rfl

theorem sin_gu_ne {N j : ℕ} (hj : j < N) : sin ((j + 1) * π / (N + 1)) ≠ 0 := by
  have hN : (0:ℝ) < N + 1 := by positivity
  refine (sin_pos_of_pos_of_lt_pi (by positivity) ?_).ne'
  rw [div_lt_iff₀ hN]
  have : (j:ℝ) + 1 < N + 1 := by exact_mod_cast Nat.succ_lt_succ hj
  nlinarith [pi_pos]

theorem sin_gc_ne {N j : ℕ} (hj : j < N) : sin ((j + 1/2) * π / N) ≠ 0 := by
  have hN : (0:ℝ) < N := by have : 0 < N := by omega
                            exact_mod_cast this
  refine (sin_pos_of_pos_of_lt_pi (by positivity) ?_).ne'
  rw [div_lt_iff₀ hN]
  have : (j:ℝ) + 1 ≤ N := by exact_mod_cast hj
  nlinarith [pi_pos]

/-! ## The real-to-real transforms as sums over all points -/

theorem dct1_eq {n : ℕ} (hn : 0 < n) (X : ℕ → E) (k : ℕ) :
    dct1 (n + 1) X k = (2:ℝ) • ∑ j ∈ Finset.range (n + 1), trapW n j • cos (k * (j * π / n)) • X j := by
  have hn' : (n:ℝ) ≠ 0 := by positivity
  unfold dct1
  rw [Nat.add_sub_cancel, show Finset.range (n+1) = Finset.Ico 0 (n+1) by simp, Finset.sum_Ico_succ_top (by omega),
    Finset.sum_eq_sum_Ico_succ_bot hn]
  have e : ∀ j ∈ Finset.Ico (0+1) n, trapW n j • cos (k * (j * π / n)) • X j = cos (π * j * k / (((n + 1 : ℕ):ℝ) - 1)) • X j := by
    intro j hj
    have := Finset.mem_Ico.1 hj
    rw [trapW, if_neg (by omega), if_neg (by omega), div_one, div_one, one_smul]
    congr 2; push_cast; ring
  rw [Finset.sum_congr rfl e, trapW, trapW, if_pos rfl, if_neg (by omega), if_neg (by omega), if_pos rfl,
    show (k:ℝ) * (n * π / n) = k * π by field_simp, cos_nat_mul_pi]
  simp only [Nat.cast_zero, zero_mul, zero_div, mul_zero, cos_zero, zero_add]
  module

theorem range_split0 {M : ℕ} (hM : 0 < M) (f : ℕ → E) : ∑ k ∈ Finset.range M, f k = f 0 + ∑ k ∈ Finset.Ico 1 M, f k := by
  rw [show Finset.range M = Finset.Ico 0 M by simp, Finset.sum_eq_sum_Ico_succ_bot hM]

theorem range_split01 {n : ℕ} (hn : 0 < n) (f : ℕ → E) :
    ∑ k ∈ Finset.range (n + 1), f k = f 0 + ∑ k ∈ Finset.Ico 1 n, f k + f n := by
  rw [Finset.sum_range_succ, range_split0 hn]

theorem sum_padArr {N M : ℕ} (h : N ≤ M) (c : ℕ → ℝ) (u : ℕ → E) :
    ∑ k ∈ Finset.range M, c k • padArr N u k = ∑ k ∈ Finset.range N, c k • u k := by
  unfold padArr
  rw [← Finset.sum_subset (Finset.range_subset_range.2 h)]
  · exact Finset.sum_congr rfl fun k hk => by rw [if_pos (Finset.mem_range.1 hk)]
  · intro k _ hk; rw [if_neg (by simpa using hk), smul_zero]

/-! ## Scalar product and backward transform -/

/-- **C61** `backward(kind='fast')`, first kind, GC and GL points, any padding: the values of the series at the quadrature
points. -/
theorem C61_cheb_backward (q : ChebQuad) (hq : q ≠ .gu) (N M : ℕ) (hNM : N ≤ M) (hM : 2 ≤ M) (u : ℕ → E) (j : ℕ) :
    chebBackwardFast q N M u j = ∑ k ∈ Finset.range N, (chebT k).eval (chebPts q M j) • u k := by
  rw [← sum_padArr hNM]
  set X := padArr N u with hX
  cases q with
  | gu => exact absurd rfl hq
  | gc =>
    simp only [chebBackwardFast, dct3, chebPts_GC, ← hX, eval_chebT_cos]
    rw [range_split0 (by omega)]
    simp only [Nat.cast_zero, zero_mul, cos_zero, zero_add]
    rw [Finset.sum_congr rfl (g := fun k : ℕ => cos (k * ((j + 1/2) * π / M)) • X k) fun k _ => by congr 2; ring]
    module
  | gl =>
    obtain ⟨n, rfl⟩ : ∃ n, M = n + 1 := ⟨M - 1, by omega⟩
    have hn : (n:ℝ) ≠ 0 := by have : n ≠ 0 := by omega
                              exact_mod_cast this
    simp only [chebBackwardFast, dct1, chebPts_GL, ← hX, eval_chebT_cos]
    rw [range_split01 (by omega) fun k : ℕ => cos (k * (j * π / n)) • X k, Nat.add_sub_cancel]
    rw [Finset.sum_congr rfl (g := fun k : ℕ => cos (k * (j * π / n)) • X k) fun k _ => by congr 2; push_cast; ring]
    rw [show (n:ℝ) * (j * π / n) = j * π by field_simp, cos_nat_mul_pi]
    simp only [Nat.cast_zero, zero_mul, cos_zero, zero_add]
    rcases Nat.mod_two_eq_zero_or_one j with h | h
    · rw [if_pos h, (Nat.even_iff.2 h).neg_one_pow]; module
    · rw [if_neg (by omega), (Nat.odd_iff.2 h).neg_one_pow]; module

/-- **C61** `scalar_product(kind='fast')`, first kind, GC and GL points: the quadrature sum
`Σ_j w_j u_j T_k(x_j)/domain_factor` over all `M = padding_factor·N` points. -/
theorem C61_cheb_scalar_product (q : ChebQuad) (hq : q ≠ .gu) (df pf : ℝ) (N M : ℕ) (hM : (M:ℝ) = N * pf) (hM2 : 2 ≤ M)
    (old u : ℕ → E) (k : ℕ) :
    chebScalarFast q df pf N M old u k =
      ∑ j ∈ Finset.range M, (chebWts q M j * (chebT k).eval (chebPts q M j) / df) • u j := by
  cases q with
  | gu => exact absurd rfl hq
  | gc =>
    simp only [chebScalarFast, dct2, chebPts_GC, eval_chebT_cos, chebWts]
    rw [smul_smul, Finset.smul_sum]
    refine Finset.sum_congr rfl fun j _ => ?_
    rw [smul_smul, show 2 * df * N * pf = 2 * df * (N * pf) by ring, ← hM,
      show π * ((j:ℝ) + 1/2) * k / M = k * ((j + 1/2) * π / M) by ring]
    congr 1; ring
  | gl =>
    obtain ⟨n, rfl⟩ : ∃ n, M = n + 1 := ⟨M - 1, by omega⟩
    simp only [chebScalarFast, chebPts_GL, eval_chebT_cos, chebWts, dct1_eq (show 0 < n by omega)]
    rw [smul_smul, Finset.smul_sum]
    refine Finset.sum_congr rfl fun j _ => ?_
    rw [smul_smul, smul_smul, ← hM, Nat.add_sub_cancel, trapW]
    congr 1; push_cast; ring

/-- **C61** The same two facts for the second kind, GC and GU points (no padding). -/
theorem C61_chebu_backward (q : ChebQuad) (hq : q ≠ .gl) (N : ℕ) (u : ℕ → E) (j : ℕ) (hj : j < N) :
    chebuBackwardFast q N u j = ∑ k ∈ Finset.range N, (chebU k).eval (chebPts q N j) • u k := by
  cases q with
  | gl => exact absurd rfl hq
  | gu =>
    simp only [chebuBackwardFast, dst1, chebPts_GU]
    rw [smul_smul, Finset.smul_sum]
    refine Finset.sum_congr rfl fun k _ => ?_
    have h := eval_chebU_cos k ((j + 1) * π / (N + 1))
    have hs := sin_gu_ne hj
    rw [smul_smul, show π * ((k:ℝ) + 1) * (j + 1) / (N + 1) = (k + 1) * ((j + 1) * π / (N + 1)) by ring, ← h]
    congr 1; field_simp
  | gc =>
    have hs := sin_gc_ne hj
    have hN : (N:ℝ) ≠ 0 := by have : N ≠ 0 := by omega
                              exact_mod_cast this
    simp only [chebuBackwardFast, dst3, chebPts_GC]
    have key : (1/2 : ℝ) • (((-1:ℝ)^j) • u (N - 1) + (2:ℝ) • ∑ k ∈ Finset.range (N - 1), sin (π * (k + 1) * (j + 1/2) / N) • u k) +
        (if j % 2 = 0 then (1/2 : ℝ) • u (N - 1) else -((1/2 : ℝ) • u (N - 1))) =
        ∑ k ∈ Finset.range N, sin ((k + 1) * ((j + 1/2) * π / N)) • u k := by
      obtain ⟨n, rfl⟩ : ∃ n, N = n + 1 := ⟨N - 1, by omega⟩
      rw [Finset.sum_range_succ, Nat.add_sub_cancel]
      rw [Finset.sum_congr (s₁ := Finset.range n) rfl (g := fun k : ℕ => sin ((k + 1) * ((j + 1/2) * π / (n + 1 : ℕ))) • u k)
        fun k _ => by congr 2; ring]
      have e : sin (((n:ℝ) + 1) * ((j + 1/2) * π / (n + 1 : ℕ))) = (-1)^j := by
        rw [show ((n:ℝ) + 1) * ((j + 1/2) * π / (n + 1 : ℕ)) = π / 2 + j * π by
          push_cast; push_cast at hN; field_simp; ring, sin_add_nat_mul_pi, sin_pi_div_two, mul_one]
      rw [e]
      rcases Nat.mod_two_eq_zero_or_one j with h | h
      · rw [if_pos h, (Nat.even_iff.2 h).neg_one_pow]; module
      · rw [if_neg (by omega), (Nat.odd_iff.2 h).neg_one_pow]; module
    rw [key, Finset.smul_sum]
    refine Finset.sum_congr rfl fun k _ => ?_
    rw [smul_smul, ← eval_chebU_cos, mul_comm, mul_assoc, mul_one_div_cancel hs, mul_one]

theorem C61_chebu_scalar_product (q : ChebQuad) (hq : q ≠ .gl) (df : ℝ) (N : ℕ) (u : ℕ → E) (k : ℕ) :
    chebuScalarFast q df 1 N u k =
      ∑ j ∈ Finset.range N, (chebuWts q N j * (chebU k).eval (chebPts q N j) / df) • u j := by
  cases q with
  | gl => exact absurd rfl hq
  | gu =>
    simp only [chebuScalarFast, dst1, chebuWts, chebWts, chebPts_GU]
    rw [smul_smul, Finset.smul_sum]
    refine Finset.sum_congr rfl fun j _ => ?_
    have h := eval_chebU_cos k ((j + 1) * π / (N + 1))
    rw [smul_smul, smul_smul, show π * ((j:ℝ) + 1) * (k + 1) / (N + 1) = (k + 1) * ((j + 1) * π / (N + 1)) by ring, ← h,
      show π / ((N:ℝ) + 1) * (j + 1) = (j + 1) * π / (N + 1) by ring, ← sin_sq,
      show π / (2 * ((N:ℝ) + 1) * 1 * df) = π / (N + 1) / 2 / df by rw [div_div, div_div]; congr 1; ring]
    congr 1; ring
  | gc =>
    simp only [chebuScalarFast, dst2, chebuWts, chebWts, chebPts_GC]
    rw [smul_smul, Finset.smul_sum]
    refine Finset.sum_congr rfl fun j _ => ?_
    have h := eval_chebU_cos k ((j + 1/2) * π / N)
    rw [smul_smul, smul_smul, show π * ((j:ℝ) + 1/2) * (k + 1) / N = (k + 1) * ((j + 1/2) * π / N) by ring, ← h, ← sin_sq]
    congr 1; ring

/-! ## Discrete orthogonality: `l2_norm_sq` -/

/-- **C61** First kind: on `M` GC or GL points the basis is orthogonal for the quadrature, with squared norms
`l2_norm_sq` of the space with `M` coefficients. -/
theorem C61_cheb_norms (q : ChebQuad) (hq : q ≠ .gu) (M : ℕ) (hM : 2 ≤ M) (k m : ℕ) (hk : k < M) (hm : m < M) :
    ∑ j ∈ Finset.range M, chebWts q M j * ((chebT k).eval (chebPts q M j) * (chebT m).eval (chebPts q M j)) =
      if k = m then chebNormSq (decide (q = .gl)) M k else 0 := by
  cases q with
  | gu => exact absurd rfl hq
  | gc =>
    have hM' : (M:ℝ) ≠ 0 := by have : M ≠ 0 := by omega
                               exact_mod_cast this
    have := gc_ortho hk hm
    simp only [chebWts, ← Finset.mul_sum, chebT, chebPts_GC]
    rw [show ∑ j ∈ Finset.range M, (Chebyshev.T ℝ k).eval (cos ((j + 1/2) * π / M)) * (Chebyshev.T ℝ m).eval (cos ((j + 1/2) * π / M)) =
      _ from this]
    unfold chebNormSq
    by_cases h : k = m
    · rw [if_pos h, if_pos h]
      by_cases h0 : k = 0
      · rw [if_pos h0, if_pos (Or.inl h0)]; field_simp
      · rw [if_neg h0, if_neg (by simp [h0])]; field_simp
    · rw [if_neg h, if_neg h, mul_zero]
  | gl =>
    obtain ⟨n, rfl⟩ : ∃ n, M = n + 1 := ⟨M - 1, by omega⟩
    have hn : (n:ℝ) ≠ 0 := by have : n ≠ 0 := by omega
                              exact_mod_cast this
    have := cos_ortho_gl (n := n) (m := k) (k := m) (by omega) (by omega) (by omega)
    simp only [chebPts_GL, eval_chebT_cos]
    rw [Finset.sum_congr rfl (g := fun j : ℕ => π / n * (trapW n j * (cos (k * (j * π / n)) * cos (m * (j * π / n)))))
      fun j _ => by simp only [chebWts, trapW, Nat.add_sub_cancel]; push_cast; ring, ← Finset.mul_sum, this]
    unfold chebNormSq
    by_cases h : k = m
    · rw [if_pos h, if_pos h]
      by_cases h0 : k = 0 ∨ k = n
      · rw [if_pos h0, if_pos (by simpa using h0)]; field_simp
      · rw [if_neg h0, if_neg (by simpa using h0)]; field_simp
    · rw [if_neg h, if_neg h, mul_zero]

/-- **C61** Second kind, GC and GU points. -/
theorem C61_chebu_norms (q : ChebQuad) (hq : q ≠ .gl) (N : ℕ) (k m : ℕ) (hk : k < N) (hm : m < N) :
    ∑ j ∈ Finset.range N, chebuWts q N j * ((chebU k).eval (chebPts q N j) * (chebU m).eval (chebPts q N j)) =
      if k = m then chebuNormSq q N k else 0 := by
  have hN : (N:ℝ) ≠ 0 := by have : N ≠ 0 := by omega
                            exact_mod_cast this
  have hN1 : (N:ℝ) + 1 ≠ 0 := by positivity
  cases q with
  | gl => exact absurd rfl hq
  | gu =>
    have := sin_ortho_gu hk hm
    rw [Finset.sum_congr rfl (g := fun j : ℕ => π / (N + 1) *
      (sin ((k + 1) * ((j + 1) * π / (N + 1))) * sin ((m + 1) * ((j + 1) * π / (N + 1))))) fun j _ => by
        simp only [chebuWts, chebWts, chebPts_GU, ← eval_chebU_cos, ← sin_sq]; ring, ← Finset.mul_sum, this]
    by_cases h : k = m
    · rw [if_pos h, if_pos h, chebuNormSq, if_neg (by simp)]; field_simp
    · rw [if_neg h, if_neg h, mul_zero]
  | gc =>
    have := sin_ortho_gc hk hm
    rw [Finset.sum_congr rfl (g := fun j : ℕ => π / N *
      (sin ((k + 1) * ((j + 1/2) * π / N)) * sin ((m + 1) * ((j + 1/2) * π / N)))) fun j _ => by
        simp only [chebuWts, chebWts, chebPts_GC, ← eval_chebU_cos, ← sin_sq]; ring, ← Finset.mul_sum, this]
    unfold chebuNormSq
    by_cases h : k = m
    · rw [if_pos h, if_pos h]
      by_cases hl : k = N - 1
      · rw [if_pos hl, if_pos ⟨rfl, hl⟩]; field_simp
      · rw [if_neg hl, if_neg (by simp [hl])]; field_simp
    · rw [if_neg h, if_neg h, mul_zero]

/-! ## Forward and backward are inverse to each other -/

theorem sum_smul_sum_smul {M N : ℕ} (a : ℕ → ℝ) (b : ℕ → ℕ → ℝ) (u : ℕ → E) :
    ∑ j ∈ Finset.range M, a j • ∑ m ∈ Finset.range N, b j m • u m =
      ∑ m ∈ Finset.range N, (∑ j ∈ Finset.range M, a j * b j m) • u m := by
  simp only [Finset.smul_sum, Finset.sum_smul, smul_smul]
  rw [Finset.sum_comm]

/-- A left inverse of a square matrix is a right inverse. -/
theorem range_mul_eq_one_comm {N : ℕ} {F B : ℕ → ℕ → ℝ}
    (h : ∀ k < N, ∀ m < N, ∑ j ∈ Finset.range N, F k j * B j m = if k = m then 1 else 0) (i j : ℕ) (hi : i < N) (hj : j < N) :
    ∑ k ∈ Finset.range N, B i k * F k j = if i = j then 1 else 0 := by
  have e : (Matrix.of fun k j : Fin N => F k j) * (Matrix.of fun j m : Fin N => B j m) = 1 := by
    refine Matrix.ext fun k m => ?_
    rw [Matrix.mul_apply]
    simp only [Matrix.of_apply]
    rw [← Finset.sum_range fun j : ℕ => F k j * B j m, h k k.2 m m.2, Matrix.one_apply]
    simp only [Fin.ext_iff]
  have e1 := mul_eq_one_comm.1 e
  have e2 := congrFun (congrFun e1 ⟨i, hi⟩) ⟨j, hj⟩
  rw [Matrix.mul_apply] at e2
  simp only [Matrix.of_apply] at e2
  rw [← Finset.sum_range fun k : ℕ => B i k * F k j, Matrix.one_apply] at e2
  rw [e2]
  simp only [Fin.mk.injEq]

/-- The factor applied to coefficient `k` by `BTTmat.solve`. -/
noncomputable def bttFac (q : ChebQuad) (df : ℝ) (N k : ℕ) : ℝ := df / chebNormSq false N k * (if q = .gl ∧ k = N - 1 then 1/2 else 1)

theorem bttSolve_eq (q : ChebQuad) (df : ℝ) (N : ℕ) (b : ℕ → E) (k : ℕ) : bttSolve q df N b k = bttFac q df N k • b k := by
  have hpi := pi_ne_zero
  unfold bttSolve bttFac chebNormSq
  simp only [Bool.false_eq_true, false_and, or_false]
  by_cases h0 : k = 0
  · by_cases h1 : q = .gl ∧ k = N - 1
    · rw [if_pos h1, if_pos h1, if_pos h0, if_pos h0, smul_smul, smul_smul]; congr 1; field_simp
    · rw [if_neg h1, if_neg h1, if_pos h0, if_pos h0, smul_smul]; congr 1; field_simp
  · by_cases h1 : q = .gl ∧ k = N - 1
    · rw [if_pos h1, if_pos h1, if_neg h0, if_neg h0, smul_smul]; congr 1; field_simp
    · rw [if_neg h1, if_neg h1, if_neg h0, if_neg h0]; congr 1; field_simp

/-- `forward(backward(û))` for any padding: `û_k`, times one half for the last coefficient of a padded GL space. -/
theorem cheb_forward_backward (q : ChebQuad) (hq : q ≠ .gu) (df pf : ℝ) (hdf : df ≠ 0) (N M : ℕ) (hM : (M:ℝ) = N * pf)
    (hNM : N ≤ M) (hM2 : 2 ≤ M) (old u : ℕ → E) (k : ℕ) (hk : k < N) :
    chebForward q df pf N M old (chebBackwardFast q N M u) k =
      if q = .gl ∧ N < M ∧ k = N - 1 then (1/2 : ℝ) • u k else u k := by
  have hpi := pi_ne_zero
  unfold chebForward
  rw [bttSolve_eq, C61_cheb_scalar_product q hq df pf N M hM hM2,
    Finset.sum_congr rfl fun j _ => by rw [C61_cheb_backward q hq N M hNM hM2], sum_smul_sum_smul,
    Finset.sum_congr rfl (g := fun m => ((if k = m then chebNormSq (decide (q = .gl)) M k else 0) / df) • u m) fun m hm => by
      rw [← C61_cheb_norms q hq M hM2 k m (by omega) (lt_of_lt_of_le (Finset.mem_range.1 hm) hNM), Finset.sum_div]
      congr 1
      exact Finset.sum_congr rfl fun j _ => by ring]
  rw [Finset.sum_eq_single k (fun m _ hne => by rw [if_neg (Ne.symm hne), zero_div, zero_smul])
    (fun h => absurd (Finset.mem_range.2 hk) h), if_pos rfl, smul_smul]
  have key : bttFac q df N k * (chebNormSq (decide (q = .gl)) M k / df) = if q = .gl ∧ N < M ∧ k = N - 1 then 1/2 else 1 := by
    unfold bttFac chebNormSq
    simp only [Bool.false_eq_true, false_and, or_false, decide_eq_true_eq]
    by_cases h0 : k = 0
    · rw [if_pos h0, if_pos (Or.inl h0)]
      by_cases h1 : q = .gl ∧ k = N - 1
      · rw [if_pos h1, if_pos ⟨h1.1, by omega, h1.2⟩]; field_simp
      · rw [if_neg h1, if_neg (by rintro ⟨a, _, b⟩; exact h1 ⟨a, b⟩)]; field_simp
    · rw [if_neg h0]
      by_cases h1 : q = .gl ∧ k = N - 1
      · rw [if_pos h1]
        by_cases h2 : N < M
        · rw [if_neg (by omega), if_pos ⟨h1.1, h2, h1.2⟩]; field_simp
        · rw [if_pos (Or.inr ⟨h1.1, by omega⟩), if_neg (by tauto)]; field_simp
      · rw [if_neg h1, if_neg (by rintro (a | ⟨a, b⟩); exacts [h0 a, h1 ⟨a, by omega⟩]), if_neg (by tauto)]; field_simp
  rw [key]
  split_ifs <;> simp

/-- **C61** First kind: `forward` recovers the coefficients from the values at the quadrature points: GC with any integer
padding `M = padding_factor·N`, GL without padding. -/
theorem C61_cheb_forward_backward (q : ChebQuad) (hq : q ≠ .gu) (df pf : ℝ) (hdf : df ≠ 0) (N M : ℕ) (hM : (M:ℝ) = N * pf)
    (hNM : N ≤ M) (hM2 : 2 ≤ M) (hGL : q = .gl → N = M) (old u : ℕ → E) (k : ℕ) (hk : k < N) :
    chebForward q df pf N M old (chebBackwardFast q N M u) k = u k := by
  rw [cheb_forward_backward q hq df pf hdf N M hM hNM hM2 old u k hk, if_neg]
  rintro ⟨h, h2, _⟩
  have := hGL h
  omega

theorem chebForward_eq (q : ChebQuad) (hq : q ≠ .gu) (df pf : ℝ) (N M : ℕ) (hM : (M:ℝ) = N * pf) (hM2 : 2 ≤ M) (old u : ℕ → E)
    (k : ℕ) : chebForward q df pf N M old u k =
      ∑ j ∈ Finset.range M, (bttFac q df N k * (chebWts q M j * (chebT k).eval (chebPts q M j) / df)) • u j := by
  unfold chebForward
  rw [bttSolve_eq, C61_cheb_scalar_product q hq df pf N M hM hM2, Finset.smul_sum]
  simp only [smul_smul]

/-- **C61** First kind, no padding: the series computed by `forward` takes the given values at the quadrature points. -/
theorem C61_cheb_backward_forward (q : ChebQuad) (hq : q ≠ .gu) (df : ℝ) (hdf : df ≠ 0) (N : ℕ) (hN : 2 ≤ N)
    (old u : ℕ → E) (j : ℕ) (hj : j < N) :
    chebBackwardFast q N N (chebForward q df 1 N N old u) j = u j := by
  have hM : (N:ℝ) = N * 1 := by ring
  rw [C61_cheb_backward q hq N N le_rfl hN, Finset.sum_congr rfl fun k _ => by rw [chebForward_eq q hq df 1 N N hM hN],
    sum_smul_sum_smul]
  have h := range_mul_eq_one_comm (N := N) (F := fun k j => bttFac q df N k * (chebWts q N j * (chebT k).eval (chebPts q N j) / df))
    (B := fun j k => (chebT k).eval (chebPts q N j)) (by
      intro k hk m hm
      have e := C61_cheb_forward_backward (E := ℝ) q hq df 1 hdf N N hM le_rfl hN (fun _ => rfl) (fun _ => 0)
        (fun i => if i = m then 1 else 0) k hk
      rw [chebForward_eq q hq df 1 N N hM hN] at e
      rw [← e]
      refine Finset.sum_congr rfl fun j _ => ?_
      rw [C61_cheb_backward q hq N N le_rfl hN]
      simp only [smul_eq_mul, mul_ite, mul_one, mul_zero, Finset.sum_ite_eq', Finset.mem_range, if_pos hm])
  rw [Finset.sum_congr rfl (g := fun i => (if j = i then (1:ℝ) else 0) • u i) fun i hi => by
    rw [h j i hj (Finset.mem_range.1 hi)]]
  simp only [ite_smul, one_smul, zero_smul, Finset.sum_ite_eq, Finset.mem_range, if_pos hj]

/-- **C61** First kind: `forward` of the values of a polynomial of degree below `N` returns its Chebyshev coefficients. -/
theorem C61_cheb_interpolation (q : ChebQuad) (hq : q ≠ .gu) (df pf : ℝ) (hdf : df ≠ 0) (N M : ℕ) (hM : (M:ℝ) = N * pf)
    (hNM : N ≤ M) (hM2 : 2 ≤ M) (hGL : q = .gl → N = M) (old : ℕ → ℝ) (p : ℝ[X]) (hp : p.degree < N) :
    ∑ k ∈ Finset.range N, C (chebForward q df pf N M old (fun j => p.eval (chebPts q M j)) k) * chebT k = p := by
  rcases Nat.eq_zero_or_pos N with rfl | hN
  · simp at hM; omega
  obtain ⟨n, rfl⟩ : ∃ n, N = n + 1 := ⟨N - 1, by omega⟩
  obtain ⟨c, rfl⟩ := exists_cheb p hp
  refine Finset.sum_congr rfl fun k hk => ?_
  have e : (fun j => (∑ n ∈ Finset.range (n + 1), c n • Chebyshev.T ℝ n).eval (chebPts q M j)) = chebBackwardFast q (n+1) M c := by
    funext j
    rw [C61_cheb_backward q hq _ _ hNM hM2, eval_finsetSum]
    exact Finset.sum_congr rfl fun m _ => by rw [eval_smul, smul_eq_mul, smul_eq_mul, mul_comm]; rfl
  rw [e, C61_cheb_forward_backward q hq df pf hdf _ M hM hNM hM2 hGL old c k (Finset.mem_range.1 hk), ← smul_eq_C_mul]
  rfl

/-- **C61** Second kind, GC and GU points: `forward` recovers the coefficients. -/
theorem C61_chebu_forward_backward (q : ChebQuad) (hq : q ≠ .gl) (df : ℝ) (hdf : df ≠ 0) (N : ℕ) (u : ℕ → E) (k : ℕ) (hk : k < N) :
    chebuForward q df 1 N (chebuBackwardFast q N u) k = u k := by
  have hpi := pi_ne_zero
  have hn : chebuNormSq q N k ≠ 0 := by unfold chebuNormSq; split_ifs <;> simp
  unfold chebuForward
  rw [C61_chebu_scalar_product q hq df N,
    Finset.sum_congr rfl fun j hj => by rw [C61_chebu_backward q hq N u j (Finset.mem_range.1 hj)], sum_smul_sum_smul,
    Finset.sum_congr rfl (g := fun m => ((if k = m then chebuNormSq q N k else 0) / df) • u m) fun m hm => by
      rw [← C61_chebu_norms q hq N k m hk (Finset.mem_range.1 hm), Finset.sum_div]
      congr 1
      exact Finset.sum_congr rfl fun j _ => by ring]
  rw [Finset.sum_eq_single k (fun m _ hne => by rw [if_neg (Ne.symm hne), zero_div, zero_smul])
    (fun h => absurd (Finset.mem_range.2 hk) h), if_pos rfl, smul_smul]
  rw [show (chebuNormSq q N k * df⁻¹)⁻¹ * (chebuNormSq q N k / df) = 1 by field_simp, one_smul]

/-- **C61** Second kind: the series computed by `forward` takes the given values at the quadrature points. -/
theorem C61_chebu_backward_forward (q : ChebQuad) (hq : q ≠ .gl) (df : ℝ) (hdf : df ≠ 0) (N : ℕ) (u : ℕ → E) (j : ℕ) (hj : j < N) :
    chebuBackwardFast q N (chebuForward q df 1 N u) j = u j := by
  have hF : ∀ {E : Type _} [AddCommGroup E] [Module ℝ E] (u : ℕ → E) (k : ℕ), chebuForward q df 1 N u k =
      ∑ j ∈ Finset.range N, ((chebuNormSq q N k * df⁻¹)⁻¹ * (chebuWts q N j * (chebU k).eval (chebPts q N j) / df)) • u j := by
    intro E _ _ u k
    unfold chebuForward
    rw [C61_chebu_scalar_product q hq df N, Finset.smul_sum]
    simp only [smul_smul]
  rw [C61_chebu_backward q hq N _ j hj, Finset.sum_congr rfl fun k _ => by rw [hF], sum_smul_sum_smul]
  have h := range_mul_eq_one_comm (N := N)
    (F := fun k j => (chebuNormSq q N k * df⁻¹)⁻¹ * (chebuWts q N j * (chebU k).eval (chebPts q N j) / df))
    (B := fun j k => (chebU k).eval (chebPts q N j)) (by
      intro k hk m hm
      have e : (chebuNormSq q N k * df⁻¹)⁻¹ * (chebuNormSq q N k * df⁻¹) = 1 := by
        have hn : chebuNormSq q N k ≠ 0 := by
          have hpi := pi_ne_zero
          unfold chebuNormSq; split_ifs <;> simp
        field_simp
      have hG := C61_chebu_norms q hq N k m hk hm
      rw [Finset.sum_congr rfl (g := fun j => (chebuNormSq q N k * df⁻¹)⁻¹ * df⁻¹ *
        (chebuWts q N j * ((chebU k).eval (chebPts q N j) * (chebU m).eval (chebPts q N j)))) fun j _ => by ring,
        ← Finset.mul_sum, hG]
      by_cases hkm : k = m
      · rw [if_pos hkm, if_pos hkm, ← e]; ring
      · rw [if_neg hkm, if_neg hkm, mul_zero])
  rw [Finset.sum_congr rfl (g := fun i => (if j = i then (1:ℝ) else 0) • u i) fun i hi => by
    rw [h j i hj (Finset.mem_range.1 hi)]]
  simp only [ite_smul, one_smul, zero_smul, Finset.sum_ite_eq, Finset.mem_range, if_pos hj]

/-! ## Complex arrays -/

/-- **C61** `DCTWrap`: transforming real and imaginary part with the real transform is the transform of the complex array. -/
theorem C61_complex (n : ℕ) (u : ℕ → ℂ) (k : ℕ) :
    dctWrap (dct1 n) u k = dct1 n u k ∧ dctWrap (dct2 n) u k = dct2 n u k ∧ dctWrap (dct3 n) u k = dct3 n u k ∧
    dctWrap (dst1 n) u k = dst1 n u k ∧ dctWrap (dst2 n) u k = dst2 n u k ∧ dctWrap (dst3 n) u k = dst3 n u k := by
  refine ⟨?_, ?_, ?_, ?_, ?_, ?_⟩ <;>
  · apply Complex.ext <;>
    simp only [dctWrap, dct1, dct2, dct3, dst1, dst2, dst3, Complex.re_sum, Complex.im_sum, Complex.add_re, Complex.add_im,
      Complex.smul_re, Complex.smul_im, smul_eq_mul]

/-! ## What fails -/

/-- Padded GL: `forward(backward(û))` halves the last coefficient, whatever the padding. -/
theorem C61_padded_GL_refuted (df pf : ℝ) (hdf : df ≠ 0) (N M : ℕ) (hM : (M:ℝ) = N * pf) (hN : 1 ≤ N) (hNM : N < M)
    (old u : ℕ → ℝ) : chebForward .gl df pf N M old (chebBackwardFast .gl N M u) (N - 1) = u (N - 1) / 2 := by
  rw [cheb_forward_backward .gl (by simp) df pf hdf N M hM hNM.le (by omega) old u (N-1) (by omega), if_pos ⟨rfl, hNM, rfl⟩,
    smul_eq_mul]
  ring

/-- First kind with `quad='GU'`: the fast scalar product leaves the previous buffer in place, and `backward` of `T_1` is not
`T_1` at the points. -/
theorem C61_cheb_GU_refuted : (∀ df pf N M, ∀ old u : ℕ → ℝ, chebScalarFast .gu df pf N M old u = old) ∧
    chebBackwardFast .gu 2 2 (fun k => if k = 1 then (1:ℝ) else 0) 0 ≠ (chebT 1).eval (chebPts .gu 2 0) := by
  refine ⟨fun _ _ _ _ _ _ => rfl, ?_⟩
  have h : (chebT 1).eval (chebPts .gu 2 0) = 1/2 := by
    simp only [chebPts, chebT]
    norm_num [Chebyshev.T_one]
  rw [h]
  norm_num [chebBackwardFast, dct1, padArr]

/-- A padding factor with `padding_factor·N` not an integer scales the scalar product wrongly: `N = 3`, factor `3/2`. -/
theorem C61_padding_noninteger_refuted : chebScalarFast .gc 1 (3/2) 3 4 (fun _ => (0:ℝ)) (fun _ => 1) 0 ≠
    ∑ j ∈ Finset.range 4, (chebWts .gc 4 j * (chebT 0).eval (chebPts .gc 4 j) / 1) • (1:ℝ) := by
  have hpi := pi_pos
  simp only [chebScalarFast, dct2, chebWts, chebT]
  simp
  intro h
  nlinarith

/-! ## Non-vacuity -/

/-- `N = 4` on `M = 6` GC points and a padding factor `3/2`, on the domain with factor 2, complex coefficients. -/
example (u old : ℕ → ℂ) (k : ℕ) (hk : k < 4) :
    chebForward .gc 2 (3/2) 4 6 old (chebBackwardFast .gc 4 6 u) k = u k :=
  C61_cheb_forward_backward .gc (by simp) 2 (3/2) (by norm_num) 4 6 (by norm_num) (by norm_num) (by norm_num) (by simp) old u k hk

example (u old : ℕ → ℝ) (j : ℕ) (hj : j < 5) : chebBackwardFast .gl 5 5 (chebForward .gl 1 1 5 5 old u) j = u j :=
  C61_cheb_backward_forward .gl (by simp) 1 one_ne_zero 5 (by norm_num) old u j hj

end Shenfun
