import Verif.Props.FMM
import Verif.Lemmas.ChebGauss
import Mathlib.LinearAlgebra.Lagrange

/-!
# C60: the data of the hierarchical conversion
-/

namespace Shenfun

open Polynomial

namespace FMMLevel

variable {F : FMMLevel}

theorem cos_T (m : ℕ) (θ : ℝ) : Real.cos (m * θ) = (Chebyshev.T ℝ m).eval (Real.cos θ) := by
  rw [Chebyshev.T_real_cos]; push_cast; rfl

theorem gcPt_mem (M j : ℕ) : -1 ≤ gcPt M j ∧ gcPt M j ≤ 1 := ⟨Real.neg_one_le_cos _, Real.cos_le_one _⟩

theorem cos_arccos_T (k : ℕ) {y : ℝ} (h1 : -1 ≤ y) (h2 : y ≤ 1) :
    Real.cos (k * Real.arccos y) = (Chebyshev.T ℝ k).eval y := by
  rw [cos_T, Real.cos_arccos h1 h2]

/-- Local coordinate of a point of the subcell in the parent cell. -/
noncomputable def sub (D q : ℕ) : ℝ[X] := Polynomial.C (1 / (D:ℝ)) * (X + Polynomial.C (1 + 2 * (q:ℝ) - D))

theorem sub_eval (D q : ℕ) (x : ℝ) : (sub D q).eval x = (x + 1 + 2 * q - D) / D := by
  unfold sub
  simp only [eval_mul, eval_C, eval_add, eval_X]
  ring

theorem sub_natDegree (D q : ℕ) : (sub D q).natDegree ≤ 1 := by
  unfold sub
  refine (natDegree_C_mul_le _ _).trans ?_
  rw [natDegree_X_add_C]

theorem convMat_eq {D M q k m : ℕ} (hq : q < D) :
    convMat D M q k m = gcCoef M (fun y => ((Chebyshev.T ℝ k).comp (sub D q)).eval y) m := by
  have hD : (0:ℝ) < D := by have : 0 < D := by omega
                            exact_mod_cast this
  have hqD : (q:ℝ) + 1 ≤ D := by exact_mod_cast hq
  unfold convMat gcCoef
  have e : ∑ j ∈ Finset.range M, Real.cos (k * Real.arccos ((Real.cos (((j:ℝ) + 1 / 2) * Real.pi / M) + 1 + 2 * q - D) / D)) *
      Real.cos (m * (((j:ℝ) + 1 / 2) * Real.pi / M)) =
      ∑ j ∈ Finset.range M, ((Chebyshev.T ℝ k).comp (sub D q)).eval (gcPt M j) * (Chebyshev.T ℝ m).eval (gcPt M j) := by
    refine Finset.sum_congr rfl fun j _ => ?_
    obtain ⟨h1, h2⟩ := gcPt_mem M j
    have hq0 : (0:ℝ) ≤ q := Nat.cast_nonneg q
    rw [eval_comp, sub_eval, ← cos_arccos_T k (y := (gcPt M j + 1 + 2 * q - D) / D), cos_T m]
    · rfl
    · rw [le_div_iff₀ hD]; linarith
    · rw [div_le_iff₀ hD]; linarith
  dsimp only
  rw [e]
  by_cases h0 : m = 0
  · rw [if_pos h0, if_pos h0]; ring
  · rw [if_neg h0, if_neg h0]; ring

theorem degree_T_comp (D q k : ℕ) : ((Chebyshev.T ℝ k).comp (sub D q)).degree < (k + 1 : ℕ) := by
  refine lt_of_le_of_lt degree_le_natDegree ?_
  have h1 := natDegree_comp_le (p := Chebyshev.T ℝ k) (q := sub D q)
  have h2 : (Chebyshev.T ℝ (k:ℤ)).natDegree = k := by simp
  have h3 := sub_natDegree D q
  rw [h2] at h1
  have : ((Chebyshev.T ℝ k).comp (sub D q)).natDegree ≤ k := h1.trans (by nlinarith)
  exact_mod_cast Nat.lt_succ_of_le this

/-- **The matrices of `conversionmatrix` re-expand the Chebyshev polynomials of a cell exactly on its subcells.** -/
theorem C60_conversionmatrix {D M q k : ℕ} (hq : q < D) (hk : k < M) (x : ℝ) :
    (Chebyshev.T ℝ k).eval ((x + 1 + 2 * q - D) / D) =
      ∑ m ∈ Finset.range (k + 1), convMat D M q k m * (Chebyshev.T ℝ m).eval x := by
  have := gcCoef_poly hk ((Chebyshev.T ℝ k).comp (sub D q)) (degree_T_comp D q k) x
  rw [eval_comp, sub_eval] at this
  rw [this]
  refine Finset.sum_congr rfl fun m _ => ?_
  rw [convMat_eq hq]

theorem Built.thExact {fn : ℝ → ℝ → ℝ} {Mmax : ℕ} {Nx : ℕ → ℕ → ℕ → ℕ → ℕ} (hB : F.Built fn Mmax Nx) : F.ThExact := by
  intro l hl q hq n hn x
  obtain ⟨l', hl', hn⟩ := hn
  rw [C60_conversionmatrix hq (lt_of_lt_of_le hn (hB.Mmax_ge l' hl')) x, hB.Th_eq (l + 1) hl q hq]

/-! ## The submatrices -/

/-- The map of a cell to its true domain. -/
noncomputable def cellMap (h a : ℕ) (x : ℝ) : ℝ := 2 * a + h * (x + 1)

theorem subCoef_eq (fn : ℝ → ℝ → ℝ) (Nx h r c m n : ℕ) :
    subCoef fn Nx h r c m n = if m < Nx ∧ n < Nx then
      gcCoef Nx (fun x => gcCoef Nx (fun y => fn (cellMap h r x) (cellMap h c y)) n) m else 0 := by
  by_cases hmn : m < Nx ∧ n < Nx
  · unfold subCoef gcCoef
    simp only [if_pos hmn]
    have e : ∀ j : ℕ, ∑ k ∈ Finset.range Nx, fn (2 * r + h * (Real.cos (((j:ℝ) + 1 / 2) * Real.pi / Nx) + 1))
        (2 * c + h * (Real.cos (((k:ℝ) + 1 / 2) * Real.pi / Nx) + 1)) * Real.cos (n * (((k:ℝ) + 1 / 2) * Real.pi / Nx)) =
        ∑ k ∈ Finset.range Nx, fn (cellMap h r (gcPt Nx j)) (cellMap h c (gcPt Nx k)) * (Chebyshev.T ℝ n).eval (gcPt Nx k) := by
      intro j
      refine Finset.sum_congr rfl fun k _ => ?_
      rw [cos_T]; rfl
    simp only [e, cos_T m]
    have e2 : ∀ a : ℕ → ℝ, ∀ γ : ℝ, ∑ j ∈ Finset.range Nx, γ / Nx * a j * (Chebyshev.T ℝ m).eval (gcPt Nx j) =
        γ / Nx * ∑ j ∈ Finset.range Nx, a j * (Chebyshev.T ℝ m).eval (gcPt Nx j) := by
      intro a γ
      rw [Finset.mul_sum]
      exact Finset.sum_congr rfl fun j _ => by ring
    have e3 : ∀ a : ℕ → ℝ, ∑ j ∈ Finset.range Nx, 2 * a j * (Chebyshev.T ℝ m).eval (Real.cos (((j:ℝ) + 1 / 2) * Real.pi / Nx)) =
        2 * ∑ j ∈ Finset.range Nx, a j * (Chebyshev.T ℝ m).eval (gcPt Nx j) := by
      intro a
      rw [Finset.mul_sum]
      exact Finset.sum_congr rfl fun j _ => by rw [mul_assoc]; rfl
    rw [e2 (fun j => ∑ k ∈ Finset.range Nx, fn (cellMap h r (gcPt Nx j)) (cellMap h c (gcPt Nx k)) *
      (Chebyshev.T ℝ n).eval (gcPt Nx k)), e3]
    rcases eq_or_ne m 0 with h1 | h1 <;> rcases eq_or_ne n 0 with h2 | h2 <;> simp only [h1, h2, if_true, if_false] <;>
      ring
  · unfold subCoef
    simp only [if_neg hmn, zero_div, ite_self]

theorem gcCoef_sub (M : ℕ) (f g : ℝ → ℝ) (m : ℕ) : gcCoef M (fun x => f x - g x) m = gcCoef M f m - gcCoef M g m := by
  unfold gcCoef
  rw [← mul_sub, ← Finset.sum_sub_distrib]
  congr 1
  exact Finset.sum_congr rfl fun j _ => by ring

theorem abs_T_le (n : ℕ) {x : ℝ} (h1 : -1 ≤ x) (h2 : x ≤ 1) : |(Chebyshev.T ℝ n).eval x| ≤ 1 := by
  rw [← cos_arccos_T n h1 h2]
  exact Real.abs_cos_le_one _

theorem abs_gcCoef_le {M : ℕ} (hM : 0 < M) (f : ℝ → ℝ) {δ : ℝ} (hf : ∀ x, -1 ≤ x → x ≤ 1 → |f x| ≤ δ) (m : ℕ) :
    |gcCoef M f m| ≤ 2 * δ := by
  have hM' : (0:ℝ) < M := by exact_mod_cast hM
  have hδ : 0 ≤ δ := (abs_nonneg _).trans (hf 0 (by norm_num) (by norm_num))
  have hsum : |∑ j ∈ Finset.range M, f (gcPt M j) * (Chebyshev.T ℝ m).eval (gcPt M j)| ≤ M * δ := by
    refine (Finset.abs_sum_le_sum_abs _ _).trans ((Finset.sum_le_card_nsmul _ _ δ fun j _ => ?_).trans ?_)
    · obtain ⟨h1, h2⟩ := gcPt_mem M j
      rw [abs_mul]
      calc _ ≤ δ * 1 := mul_le_mul (hf _ h1 h2) (abs_T_le m h1 h2) (abs_nonneg _) hδ
        _ = δ := mul_one _
    · rw [Finset.card_range, nsmul_eq_mul]
  unfold gcCoef
  rw [abs_mul, abs_div, abs_of_pos hM']
  have hg : |if m = 0 then (1:ℝ) else 2| ≤ 2 := by split_ifs <;> norm_num
  calc _ ≤ 2 / M * (M * δ) := mul_le_mul (div_le_div_of_nonneg_right hg hM'.le) hsum (abs_nonneg _) (by positivity)
    _ = 2 * δ := by field_simp

/-- Coefficients of a kernel within `δ` of a bivariate polynomial. -/
theorem subCoef_close {Nx K : ℕ} (hNx : 0 < Nx) (hK : K ≤ Nx) (fn : ℝ → ℝ → ℝ) (h r c : ℕ) (p : ℕ → ℕ → ℝ) {δ : ℝ}
    (hδ : ∀ x y, -1 ≤ x → x ≤ 1 → -1 ≤ y → y ≤ 1 → |fn (cellMap h r x) (cellMap h c y) -
      ∑ m ∈ Finset.range K, (∑ n ∈ Finset.range K, p m n * (Chebyshev.T ℝ n).eval y) * (Chebyshev.T ℝ m).eval x| ≤ δ) (m n : ℕ) :
    |subCoef fn Nx h r c m n - (if m < K ∧ n < K then p m n else 0)| ≤ 4 * δ := by
  have hδ0 : 0 ≤ δ := (abs_nonneg _).trans (hδ 0 0 (by norm_num) (by norm_num) (by norm_num) (by norm_num))
  rw [subCoef_eq]
  by_cases hmn : m < Nx ∧ n < Nx
  · rw [if_pos hmn]
    have hp : gcCoef Nx (fun x => gcCoef Nx (fun y => ∑ m ∈ Finset.range K, (∑ n ∈ Finset.range K, p m n *
        (Chebyshev.T ℝ n).eval y) * (Chebyshev.T ℝ m).eval x) n) m = if m < K ∧ n < K then p m n else 0 := by
      have e : ∀ x, gcCoef Nx (fun y => ∑ m ∈ Finset.range K, (∑ n ∈ Finset.range K, p m n *
          (Chebyshev.T ℝ n).eval y) * (Chebyshev.T ℝ m).eval x) n =
          ∑ m ∈ Finset.range K, (if n < K then p m n else 0) * (Chebyshev.T ℝ m).eval x := by
        intro x
        have e1 : (fun y => ∑ m ∈ Finset.range K, (∑ n ∈ Finset.range K, p m n * (Chebyshev.T ℝ n).eval y) *
            (Chebyshev.T ℝ m).eval x) = fun y => ∑ n ∈ Finset.range K, (∑ m ∈ Finset.range K, p m n * (Chebyshev.T ℝ m).eval x) *
            (Chebyshev.T ℝ n).eval y := by
          funext y
          simp only [Finset.sum_mul]
          rw [Finset.sum_comm]
          refine Finset.sum_congr rfl fun n _ => Finset.sum_congr rfl fun m _ => ?_
          ring
        rw [e1, gcCoef_sum hK (fun n => ∑ m ∈ Finset.range K, p m n * (Chebyshev.T ℝ m).eval x) hmn.2]
        by_cases hn : n < K
        · simp only [if_pos hn]
        · simp only [if_neg hn, zero_mul, Finset.sum_const_zero]
      rw [show (fun x => gcCoef Nx (fun y => ∑ m ∈ Finset.range K, (∑ n ∈ Finset.range K, p m n *
        (Chebyshev.T ℝ n).eval y) * (Chebyshev.T ℝ m).eval x) n) = _ from funext e,
        gcCoef_sum hK (fun m => if n < K then p m n else 0) hmn.1]
      split_ifs <;> tauto
    rw [← hp, ← gcCoef_sub, show 4 * δ = 2 * (2 * δ) by ring]
    refine abs_gcCoef_le hNx _ (fun x h1 h2 => ?_) m
    rw [← gcCoef_sub]
    exact abs_gcCoef_le hNx _ (fun y h3 h4 => hδ x y h1 h2 h3 h4) n
  · rw [if_neg hmn, if_neg (by omega), sub_zero, abs_zero]
    linarith

/-- The submatrix in the local coordinates, at the point `t`. -/
theorem cellMap_pt {W : ℕ} (hW : 0 < W) (a t odd : ℕ) :
    cellMap W a (-1 + ((2 * t + odd : ℕ) : ℝ) / W) = ((2 * (a + t) + odd : ℕ) : ℝ) := by
  have : (W:ℝ) ≠ 0 := by exact_mod_cast hW.ne'
  unfold cellMap
  push_cast
  field_simp
  ring

theorem pt_mem {W t odd : ℕ} (ht : t < W) (ho : odd < 2) :
    -1 ≤ (-1 + ((2 * t + odd : ℕ) : ℝ) / W) ∧ (-1 + ((2 * t + odd : ℕ) : ℝ) / W) ≤ 1 := by
  have hW : (0:ℝ) < W := by have : 0 < W := by omega
                            exact_mod_cast this
  have h2 : ((2 * t + odd : ℕ) : ℝ) ≤ 2 * W := by
    have : 2 * t + odd ≤ 2 * W := by omega
    exact_mod_cast this
  constructor
  · have : 0 ≤ ((2 * t + odd : ℕ) : ℝ) / W := by positivity
    linarith
  · have : ((2 * t + odd : ℕ) : ℝ) / W ≤ 2 := by rw [div_le_iff₀ hW]; linarith
    linarith

/-- Every submatrix's kernel function is within `δ` of a polynomial of degree below the rank kept, in each of the two local
coordinates. -/
def Smooth (F : FMMLevel) (fn : ℝ → ℝ → ℝ) (Nx : ℕ → ℕ → ℕ → ℕ → ℕ) (δ : ℝ) : Prop :=
  ∀ l < F.L, ∀ b < F.nBlocks l, ∀ q < F.D l, ∀ p ≤ q, ∃ K, K ≤ Nx l b q p ∧ K ≤ F.Nk l b q p ∧ ∃ a : ℕ → ℕ → ℝ,
    ∀ x y : ℝ, -1 ≤ x → x ≤ 1 → -1 ≤ y → y ≤ 1 →
      |fn (cellMap (F.W l) (F.rowStart l b + p * F.W l) x) (cellMap (F.W l) (F.colStart l b + (q + 1) * F.W l) y) -
        ∑ m ∈ Finset.range K, (∑ n ∈ Finset.range K, a m n * (Chebyshev.T ℝ n).eval y) * (Chebyshev.T ℝ m).eval x| ≤ δ

/-- **Submatrices by sampling are as accurate as the best polynomial, up to `1 + 4 rank²`.** -/
theorem Built.accurate (h : F.Valid) {fn : ℝ → ℝ → ℝ} {Mmax : ℕ} {Nx : ℕ → ℕ → ℕ → ℕ → ℕ} (hB : F.Built fn Mmax Nx)
    (hNx : ∀ l b q p, 0 < Nx l b q p) {R : ℕ} (hR : ∀ l b q p, F.Nk l b q p ≤ R) {δ : ℝ} (hδ : 0 ≤ δ) (hS : F.Smooth fn Nx δ)
    (K : ℕ → ℕ → ℝ) (hK : ∀ i j : ℕ, i < j → j % 2 = i % 2 → K i j = fn i j) :
    F.Accurate K ((1 + 4 * (R:ℝ) ^ 2) * δ) := by
  intro l hl b hb q hq p hp odd ho t ht t' ht'
  have hW := h.W_pos hl
  obtain ⟨k, hk1, hk2, a, ha⟩ := hS l hl b hb q hq p hp
  have hrow : F.rowStart l b + p * F.W l = (b * F.D l + p) * F.W l := F.rowStart_eq l b p
  have hcol : F.colStart l b + (q + 1) * F.W l = F.off l + (b * F.D l + q + 1) * F.W l := F.colStart_eq l b q
  set r := F.rowStart l b + p * F.W l with hr
  set c := F.colStart l b + (q + 1) * F.W l with hc
  have hlt : r + t < c + t' := by
    have : (b * F.D l + p) * F.W l + F.W l ≤ (b * F.D l + q + 1) * F.W l := by
      rw [← Nat.succ_mul]
      exact Nat.mul_le_mul_right _ (by omega)
    omega
  set x := -1 + ((2 * t + odd : ℕ) : ℝ) / F.W l with hx
  set y := -1 + ((2 * t' + odd : ℕ) : ℝ) / F.W l with hy
  obtain ⟨hx1, hx2⟩ : -1 ≤ x ∧ x ≤ 1 := pt_mem ht ho
  obtain ⟨hy1, hy2⟩ : -1 ≤ y ∧ y ≤ 1 := pt_mem ht' ho
  have hKfn : K (2 * (r + t) + odd) (2 * (c + t') + odd) = fn (cellMap (F.W l) r x) (cellMap (F.W l) c y) := by
    rw [hx, hy, cellMap_pt hW, cellMap_pt hW]
    exact hK _ _ (by omega) (by omega)
  have hpoly : ∑ m ∈ Finset.range k, (∑ n ∈ Finset.range k, a m n * (Chebyshev.T ℝ n).eval y) * (Chebyshev.T ℝ m).eval x =
      ∑ m ∈ Finset.range (F.Nk l b q p), ∑ n ∈ Finset.range (F.Nk l b q p),
        F.tv odd l t m * (if m < k ∧ n < k then a m n else 0) * F.tv odd l t' n := by
    have e1 : ∀ m n, F.tv odd l t m * (if m < k ∧ n < k then a m n else 0) * F.tv odd l t' n =
        if m < k then (if n < k then F.tv odd l t m * a m n * F.tv odd l t' n else 0) else 0 := by
      intro m n; split_ifs <;> first | rfl | tauto | simp
    simp only [e1]
    rw [Finset.sum_congr rfl fun m _ => (show (∑ n ∈ Finset.range (F.Nk l b q p), if m < k then
      (if n < k then F.tv odd l t m * a m n * F.tv odd l t' n else 0) else 0) =
      if m < k then ∑ n ∈ Finset.range (F.Nk l b q p), (if n < k then F.tv odd l t m * a m n * F.tv odd l t' n else 0) else 0 by
        split_ifs <;> simp), sum_trunc _ hk2]
    refine Finset.sum_congr rfl fun m _ => ?_
    rw [sum_trunc _ hk2, Finset.sum_mul]
    refine Finset.sum_congr rfl fun n _ => ?_
    unfold tv
    rw [← hx, ← hy]; ring
  have hblk : |F.blockK odd l b q p t t' - ∑ m ∈ Finset.range k, (∑ n ∈ Finset.range k, a m n * (Chebyshev.T ℝ n).eval y) *
      (Chebyshev.T ℝ m).eval x| ≤ 4 * (R:ℝ) ^ 2 * δ := by
    rw [hpoly]
    unfold blockK
    rw [← Finset.sum_sub_distrib]
    simp only [← Finset.sum_sub_distrib]
    have hterm : ∀ m n, |F.tv odd l t m * F.A l b q p m n * F.tv odd l t' n -
        F.tv odd l t m * (if m < k ∧ n < k then a m n else 0) * F.tv odd l t' n| ≤ 4 * δ := by
      intro m n
      rw [← sub_mul, ← mul_sub, abs_mul, abs_mul, hB.A_eq l hl b hb q hq p hp]
      have h1 := subCoef_close (hNx l b q p) hk1 fn (F.W l) r c a ha m n
      have h2 : |F.tv odd l t m| ≤ 1 := abs_T_le m hx1 hx2
      have h3 : |F.tv odd l t' n| ≤ 1 := abs_T_le n hy1 hy2
      have h1' : |subCoef fn (Nx l b q p) (F.s * F.getH l) (F.rowStart l b + p * (F.s * F.getH l))
          (F.colStart l b + (q + 1) * (F.s * F.getH l)) m n - (if m < k ∧ n < k then a m n else 0)| ≤ 4 * δ := h1
      calc _ ≤ 1 * (4 * δ) * 1 := mul_le_mul (mul_le_mul h2 h1' (abs_nonneg _) (by norm_num)) h3 (abs_nonneg _) (by linarith)
        _ = 4 * δ := by ring
    have hNk : (F.Nk l b q p : ℝ) ≤ R := by exact_mod_cast hR l b q p
    have hin : ∀ m, |∑ n ∈ Finset.range (F.Nk l b q p), (F.tv odd l t m * F.A l b q p m n * F.tv odd l t' n -
        F.tv odd l t m * (if m < k ∧ n < k then a m n else 0) * F.tv odd l t' n)| ≤ F.Nk l b q p * (4 * δ) := by
      intro m
      refine (Finset.abs_sum_le_sum_abs _ _).trans ((Finset.sum_le_card_nsmul _ _ (4 * δ) fun n _ => hterm m n).trans ?_)
      rw [Finset.card_range, nsmul_eq_mul]
    refine (Finset.abs_sum_le_sum_abs _ _).trans ((Finset.sum_le_card_nsmul _ _ _ fun m _ => hin m).trans ?_)
    rw [Finset.card_range, nsmul_eq_mul]
    have hN0 : (0:ℝ) ≤ F.Nk l b q p := Nat.cast_nonneg _
    nlinarith [mul_le_mul hNk hNk hN0 (hN0.trans hNk)]
  rw [hKfn, show (1 + 4 * (R:ℝ) ^ 2) * δ = 4 * (R:ℝ) ^ 2 * δ + δ by ring]
  have htri := abs_sub_le (F.blockK odd l b q p t t')
    (∑ m ∈ Finset.range k, (∑ n ∈ Finset.range k, a m n * (Chebyshev.T ℝ n).eval y) * (Chebyshev.T ℝ m).eval x)
    (fn (cellMap (F.W l) r x) (cellMap (F.W l) c y))
  have h2 := ha x y hx1 hx2 hy1 hy2
  rw [abs_sub_comm] at h2
  linarith

/-! ## The kernel functions at the integers -/

theorem Mxy_int {i j : ℕ} (hij : i < j) (hp : j % 2 = i % 2) : l2cK i j = Mxy i j := by
  unfold l2cK Mxy l2cA
  have e1 : (((j - i) / 2 : ℕ) : ℝ) = ((j:ℝ) - i) / 2 := by
    rw [Nat.cast_div (by omega) (by norm_num), Nat.cast_sub hij.le]; norm_num
  have e2 : (((j + i) / 2 : ℕ) : ℝ) = ((j:ℝ) + i) / 2 := by
    rw [Nat.cast_div (by omega) (by norm_num), Nat.cast_add]; norm_num
  rw [e1, e2]

theorem c2lA_eq {k : ℕ} (hk : 0 < k) : c2lA k = Lam ((k:ℝ) - 1 / 2) / (2 * k + 1) := by
  have hk' : (0:ℝ) < k := by exact_mod_cast hk
  unfold c2lA Lam
  rw [if_neg (by omega), show (k:ℝ) - 1 / 2 + 1 / 2 = k by ring, show (k:ℝ) - 1 / 2 + 1 = k + 1 / 2 by ring,
    Real.Gamma_add_one hk'.ne']
  have h1 : Real.Gamma k ≠ 0 := (Real.Gamma_pos_of_pos hk').ne'
  have h2 : Real.Gamma ((k:ℝ) + 1 / 2) ≠ 0 := (Real.Gamma_pos_of_pos (by linarith)).ne'
  have h3 : (k:ℝ) + 1 / 2 ≠ 0 := by linarith
  have h4 : 2 * (k:ℝ) + 1 ≠ 0 := by linarith
  field_simp

theorem Lxy_int {i j : ℕ} (hij : i < j) (hp : j % 2 = i % 2) : c2lK i j = Lxy i j := by
  rw [c2lK_ne hij.ne, c2lA_eq (by omega)]
  unfold Lxy c2lD
  have e1 : (((j - i) / 2 : ℕ) : ℝ) = ((j:ℝ) - i) / 2 := by
    rw [Nat.cast_div (by omega) (by norm_num), Nat.cast_sub hij.le]; norm_num
  have e2 : (((j + i) / 2 : ℕ) : ℝ) = ((j:ℝ) + i) / 2 := by
    rw [Nat.cast_div (by omega) (by norm_num), Nat.cast_add]; norm_num
  have h0 : (j - i) / 2 ≠ 0 := by omega
  simp only [if_neg h0, e1, e2]
  have hij' : (i:ℝ) < j := by exact_mod_cast hij
  have hi0 : (0:ℝ) ≤ i := Nat.cast_nonneg i
  have hd : (j:ℝ) - i ≠ 0 := by linarith
  have hs : (i:ℝ) + j + 1 ≠ 0 := by linarith
  rw [show 2 * (((j:ℝ) - i) / 2) = j - i by ring, show 2 * (((j:ℝ) + i) / 2) + 1 = i + j + 1 by ring,
    show ((j:ℝ) + i) / 2 - 1 / 2 = (j + i - 1) / 2 by ring]
  field_simp

/-! ## The padded size is large enough -/

/-- The Cython class pads to a length that holds the array, and its `s` is positive. -/
theorem C60_cython_size {N : ℕ} (hs : F.s = cySize N F.diags (F.nBlocks F.L)) (hd : F.diags ≤ N / 2) : N ≤ 2 * F.half := by
  unfold half
  have h1 := Nat.div_add_mod' (N / 2 - F.diags) (F.nBlocks F.L)
  have hn := F.nBlocks_pos F.L
  have h2 := Nat.mod_lt (N / 2 - F.diags) hn
  rw [hs]
  unfold cySize
  split_ifs with hc
  · rw [Nat.add_mul, one_mul]
    omega
  · omega

theorem C60_cython_pos {N : ℕ} (hs : F.s = cySize N F.diags (F.nBlocks F.L)) (hd : F.diags < N / 2 ∨ N % 2 = 1) : 0 < F.s := by
  have h1 := Nat.div_add_mod' (N / 2 - F.diags) (F.nBlocks F.L)
  rw [hs]
  unfold cySize
  split_ifs with hc
  · exact Nat.succ_pos _
  · refine Nat.pos_of_ne_zero fun h0 => ?_
    rw [h0] at h1
    omega

theorem C60_python_size {N : ℕ} (hs : F.s = pySize N (F.nBlocks F.L)) (hd : F.diags = F.s) : N ≤ 2 * F.half := by
  unfold half
  have h1 := Nat.div_add_mod' (N + (2 * (1 + F.nBlocks F.L) - 1)) (2 * (1 + F.nBlocks F.L))
  have h2 := Nat.mod_lt (N + (2 * (1 + F.nBlocks F.L) - 1)) (show 0 < 2 * (1 + F.nBlocks F.L) by omega)
  rw [hd, hs]
  unfold pySize
  have e : 2 * ((N + (2 * (1 + F.nBlocks F.L) - 1)) / (2 * (1 + F.nBlocks F.L)) +
      (N + (2 * (1 + F.nBlocks F.L) - 1)) / (2 * (1 + F.nBlocks F.L)) * F.nBlocks F.L) =
      (N + (2 * (1 + F.nBlocks F.L) - 1)) / (2 * (1 + F.nBlocks F.L)) * (2 * (1 + F.nBlocks F.L)) := by ring
  rw [e]
  omega

/-! ## The whole conversion -/

section whole
variable {E : Type*} [NormedAddCommGroup E] [NormedSpace ℝ E]

/-- **C60**: an object built by the code from kernel samples, with kernel within `δ` of polynomials of the kept degree on every
submatrix, converts Legendre to Chebyshev coefficients to within `(2/π)(1+4R²)δ Σ|c_j|`. -/
theorem C60_leg2cheb_built (h : F.Valid) {Mmax : ℕ} {Nx : ℕ → ℕ → ℕ → ℕ → ℕ} (hB : F.Built Mxy Mmax Nx)
    (hNx : ∀ l b q p, 0 < Nx l b q p) (hRk : F.RankOK) {R : ℕ} (hR : ∀ l b q p, F.Nk l b q p ≤ R) {δ : ℝ} (hδ : 0 ≤ δ)
    (hS : F.Smooth Mxy Nx δ) {N : ℕ} (hN : N ≤ 2 * F.half) (t : Bool) (c : ℕ → E) {i : ℕ} (hi : i < N) :
    ‖F.leg2cheb N t c i - Shenfun.leg2cheb N t c i‖ ≤ 2 / Real.pi * ((1 + 4 * (R:ℝ) ^ 2) * δ) * ∑ j ∈ Finset.range N, ‖c j‖ := by
  have hA := hB.accurate h hNx hR hδ hS l2cK fun i j hij hp => Mxy_int hij hp
  cases t
  · exact C60_leg2cheb h hB.thExact hRk (by positivity) hA hN c hi
  · exact C60_leg2chebT h hB.thExact hRk (by positivity) hA hN c hi

/-- **C60**, Chebyshev to Legendre. -/
theorem C60_cheb2leg_built (h : F.Valid) {Mmax : ℕ} {Nx : ℕ → ℕ → ℕ → ℕ → ℕ} (hB : F.Built Lxy Mmax Nx)
    (hNx : ∀ l b q p, 0 < Nx l b q p) (hRk : F.RankOK) {R : ℕ} (hR : ∀ l b q p, F.Nk l b q p ≤ R) (hd : 0 < F.diags)
    {δ : ℝ} (hδ : 0 ≤ δ) (hS : F.Smooth Lxy Nx δ) {N : ℕ} (hN : N ≤ 2 * F.half) (c : ℕ → E) {i : ℕ} (hi : i < N) :
    ‖F.cheb2leg N c i - Shenfun.cheb2leg N c i‖ ≤
      ((i:ℝ) + 1 / 2) * ((1 + 4 * (R:ℝ) ^ 2) * δ * (‖c 0‖ + ∑ j ∈ Finset.range N, (j:ℝ) * ‖c j‖)) :=
  C60_cheb2leg h hB.thExact hRk hd (by positivity)
    (hB.accurate h hNx hR hδ hS c2lK fun i j hij hp => Lxy_int hij hp) hN c hi

/-- **C60 on the functions**: on `[-1, 1]` the Chebyshev expansion returned differs from the Legendre expansion given by at most
`N (2/π) ε Σ|c_j|`. -/
theorem C60_function (h : F.Valid) (hT : F.ThExact) (hR : F.RankOK) {ε : ℝ} (hε : 0 ≤ ε) (hA : F.Accurate l2cK ε)
    {N : ℕ} (hN : N ≤ 2 * F.half) (c : ℕ → ℝ) {x : ℝ} (h1 : -1 ≤ x) (h2 : x ≤ 1) :
    |(∑ i ∈ Finset.range N, F.leg2cheb N false c i * (Chebyshev.T ℝ i).eval x) -
      ∑ i ∈ Finset.range N, c i * (legP i).eval x| ≤ N * (2 / Real.pi * ε * ∑ j ∈ Finset.range N, |c j|) := by
  have e := C59_leg2cheb N c x
  simp only [smul_eq_mul] at e
  have e' : ∑ i ∈ Finset.range N, c i * (legP i).eval x =
      ∑ i ∈ Finset.range N, Shenfun.leg2cheb N false c i * (Chebyshev.T ℝ i).eval x := by
    rw [Finset.sum_congr rfl fun i _ => mul_comm (c i) _, ← e]
    exact Finset.sum_congr rfl fun i _ => mul_comm _ _
  rw [e', ← Finset.sum_sub_distrib]
  refine (Finset.abs_sum_le_sum_abs _ _).trans ((Finset.sum_le_card_nsmul _ _
    (2 / Real.pi * ε * ∑ j ∈ Finset.range N, |c j|) fun i hi => ?_).trans ?_)
  · have hi := Finset.mem_range.1 hi
    have hb := C60_leg2cheb h hT hR hε hA hN c hi
    rw [← sub_mul, abs_mul]
    refine (mul_le_of_le_one_right (abs_nonneg _) (abs_T_le i h1 h2)).trans ?_
    simpa only [Real.norm_eq_abs] using hb
  · rw [Finset.card_range, nsmul_eq_mul]

end whole

/-! ## Non-vacuity: exact submatrices exist for every geometry -/

/-- Values at `n` distinct points are those of an expansion with `n` Chebyshev polynomials. -/
theorem exists_interp (n : ℕ) (x : ℕ → ℝ) (hx : ∀ i < n, ∀ j < n, x i = x j → i = j) (f : ℕ → ℝ) :
    ∃ c : ℕ → ℝ, ∀ k < n, ∑ m ∈ Finset.range n, c m * (Chebyshev.T ℝ m).eval (x k) = f k := by
  rcases Nat.eq_zero_or_pos n with rfl | hn
  · exact ⟨fun _ => 0, fun k hk => absurd hk (by omega)⟩
  obtain ⟨k, rfl⟩ : ∃ k, n = k + 1 := ⟨n - 1, by omega⟩
  have hinj : Set.InjOn x (Finset.range (k + 1)) := by
    intro i hi j hj hij
    exact hx i (by simpa using hi) j (by simpa using hj) hij
  have hdeg := Lagrange.degree_interpolate_lt (s := Finset.range (k + 1)) (v := x) f hinj
  rw [Finset.card_range] at hdeg
  obtain ⟨c, hc⟩ := exists_cheb _ hdeg
  refine ⟨c, fun j hj => ?_⟩
  have := Lagrange.eval_interpolate_at_node f hinj (Finset.mem_range.2 hj)
  rw [hc, eval_finsetSum] at this
  simpa only [eval_smul, smul_eq_mul] using this

theorem exists_interp2 {W : ℕ} (hW : 0 < W) (M : ℕ → ℕ → ℝ) :
    ∃ A : ℕ → ℕ → ℝ, ∀ k < 2 * W, ∀ k' < 2 * W, ∑ m ∈ Finset.range (2 * W), ∑ n ∈ Finset.range (2 * W),
      (Chebyshev.T ℝ m).eval (-1 + (k:ℝ) / W) * A m n * (Chebyshev.T ℝ n).eval (-1 + (k':ℝ) / W) = M k k' := by
  have hW' : (W:ℝ) ≠ 0 := by exact_mod_cast hW.ne'
  have hx : ∀ i < 2 * W, ∀ j < 2 * W, (fun k : ℕ => -1 + (k:ℝ) / W) i = (fun k : ℕ => -1 + (k:ℝ) / W) j → i = j := by
    intro i _ j _ hij
    have : (i:ℝ) / W = (j:ℝ) / W := by simpa using hij
    rw [div_left_inj' hW'] at this
    exact_mod_cast this
  choose c hc using fun k : ℕ => exists_interp (2 * W) (fun k => -1 + (k:ℝ) / W) hx (M k)
  choose d hd using fun n : ℕ => exists_interp (2 * W) (fun k => -1 + (k:ℝ) / W) hx (fun k => c k n)
  refine ⟨fun m n => d n m, fun k hk k' hk' => ?_⟩
  rw [← hc k k' hk', Finset.sum_comm]
  refine Finset.sum_congr rfl fun n _ => ?_
  rw [← Finset.sum_mul, ← hd n k hk]
  congr 1
  exact Finset.sum_congr rfl fun m _ => mul_comm _ _

/-- For every geometry and kernel there are ranks and submatrices that reproduce the kernel exactly, with the conversion matrices
of the code. -/
theorem exists_exact (L : ℕ) (D : ℕ → ℕ) (s diags : ℕ) (hL : 0 < L) (hs : 0 < s) (hD : ∀ l < L, 0 < D l) (K : ℕ → ℕ → ℝ) :
    ∃ F : FMMLevel, F.L = L ∧ F.D = D ∧ F.s = s ∧ F.diags = diags ∧ F.Valid ∧ F.ThExact ∧ F.RankOK ∧ F.Accurate K 0 := by
  let G : FMMLevel := ⟨L, D, s, diags, fun _ => 0, fun _ _ _ _ => 0, fun _ _ _ _ _ _ => 0, fun _ _ _ _ => 0⟩
  have hG : G.Valid := ⟨hL, hs, hD⟩
  have hA : ∀ l b q p, ∃ A : ℕ → ℕ → ℝ, l < L → ∀ k < 2 * G.W l, ∀ k' < 2 * G.W l, ∑ m ∈ Finset.range (2 * G.W l),
      ∑ n ∈ Finset.range (2 * G.W l),
      (Chebyshev.T ℝ m).eval (-1 + (k:ℝ) / G.W l) * A m n * (Chebyshev.T ℝ n).eval (-1 + (k':ℝ) / G.W l) =
        K (2 * (G.rowStart l b + p * G.W l) + k) (2 * (G.colStart l b + (q + 1) * G.W l) + k') := by
    intro l b q p
    by_cases hl : l < L
    · obtain ⟨A, hA⟩ := exists_interp2 (hG.W_pos (l := l) hl)
        fun k k' => K (2 * (G.rowStart l b + p * G.W l) + k) (2 * (G.colStart l b + (q + 1) * G.W l) + k')
      exact ⟨A, fun _ => hA⟩
    · exact ⟨fun _ _ => 0, fun h => absurd h hl⟩
  choose A hA using hA
  let M := ∑ l ∈ Finset.range L, 2 * G.W l
  have hM : ∀ l < L, 2 * G.W l ≤ M := fun l hl =>
    Finset.single_le_sum (f := fun l => 2 * G.W l) (fun _ _ => Nat.zero_le _) (Finset.mem_range.2 hl)
  let F : FMMLevel := ⟨L, D, s, diags, fun _ => M, fun l _ _ _ => 2 * G.W l, A, fun d q => convMat d M q⟩
  refine ⟨F, rfl, rfl, rfl, rfl, ⟨hL, hs, hD⟩, ?_, ?_, ?_⟩
  · intro l hl q hq n hn x
    obtain ⟨l', _, hn⟩ := hn
    exact C60_conversionmatrix hq hn x
  · intro l l' h1 h2 b q p
    exact hM l (lt_of_le_of_lt h1 h2)
  · intro l hl b hb q hq p hp odd ho t ht t' ht'
    have e := hA l b q p hl (2 * t + odd) (show 2 * t + odd < 2 * F.W l by omega) (2 * t' + odd)
      (show 2 * t' + odd < 2 * F.W l by omega)
    have e2 : F.blockK odd l b q p t t' = K (2 * (F.rowStart l b + p * F.W l) + (2 * t + odd))
        (2 * (F.colStart l b + (q + 1) * F.W l) + (2 * t' + odd)) := e
    rw [e2, show 2 * (F.rowStart l b + p * F.W l + t) + odd = 2 * (F.rowStart l b + p * F.W l) + (2 * t + odd) by ring,
      show 2 * (F.colStart l b + (q + 1) * F.W l + t') + odd = 2 * (F.colStart l b + (q + 1) * F.W l) + (2 * t' + odd) by ring,
      sub_self, abs_zero]

/-- Two levels with two domains each, submatrices of size 3, 2 diagonals: length 46, three-level recursion of the kind the code
builds, exact. -/
example : ∃ F : FMMLevel, F.L = 2 ∧ F.half = 23 ∧ F.nBlocks 1 = 3 ∧
    ∀ (c : ℕ → ℝ), ∀ i < 46, F.leg2cheb 46 false c i = Shenfun.leg2cheb 46 false c i := by
  obtain ⟨F, h1, h2, h3, h4, hV, hT, hR, hA⟩ := exists_exact 2 (fun _ => 2) 3 2 (by norm_num) (by norm_num) (fun _ _ => by norm_num) l2cK
  have hn0 := F.nBlocks_zero
  have hn1 := F.nBlocks_succ 0
  have hn2 := F.nBlocks_succ 1
  rw [h2, hn0] at hn1
  rw [h2, hn1] at hn2
  norm_num at hn1 hn2
  have hhalf : F.half = 23 := by unfold half; rw [h1, h3, h4, hn2]
  refine ⟨F, h1, hhalf, by omega, fun c i hi => ?_⟩
  have := C60_leg2cheb hV hT hR le_rfl hA (N := 46) (by omega) c hi
  simp only [mul_zero, zero_mul] at this
  exact sub_eq_zero.1 (norm_le_zero_iff.1 this)

/-- A kernel continuous away from the treated diagonals meets the smoothness hypothesis with some `δ`. -/
theorem exists_smooth (h : F.Valid) (fn : ℝ → ℝ → ℝ)
    (hfn : ContinuousOn (fun p : ℝ × ℝ => fn p.1 p.2) {p | 0 ≤ p.1 ∧ p.1 + 2 * F.diags ≤ p.2})
    (Nx : ℕ → ℕ → ℕ → ℕ → ℕ) : ∃ δ, 0 ≤ δ ∧ F.Smooth fn Nx δ := by
  have hb : ∀ l b q p, ∃ C : ℝ, 0 ≤ C ∧ (l < F.L → p ≤ q → ∀ x y : ℝ, -1 ≤ x → x ≤ 1 → -1 ≤ y → y ≤ 1 →
      |fn (cellMap (F.W l) (F.rowStart l b + p * F.W l) x) (cellMap (F.W l) (F.colStart l b + (q + 1) * F.W l) y)| ≤ C) := by
    intro l b q p
    by_cases hl : l < F.L ∧ p ≤ q
    · set r := F.rowStart l b + p * F.W l with hr
      set c := F.colStart l b + (q + 1) * F.W l with hc
      have hrc : r + F.W l + F.diags ≤ c := by
        rw [hr, hc, F.rowStart_eq, F.colStart_eq]
        have h1 : (b * F.D l + p) * F.W l + F.W l ≤ (b * F.D l + q + 1) * F.W l := by
          rw [← Nat.succ_mul]; exact Nat.mul_le_mul_right _ (by omega)
        have h2 : F.diags ≤ F.off l := Nat.le_add_right _ _
        omega
      have hrc' : (r:ℝ) + F.W l + F.diags ≤ c := by exact_mod_cast hrc
      have hW0 : (0:ℝ) ≤ F.W l := Nat.cast_nonneg _
      have hr0 : (0:ℝ) ≤ r := Nat.cast_nonneg _
      have hcomp : IsCompact (Set.Icc (-1:ℝ) 1 ×ˢ Set.Icc (-1:ℝ) 1) := isCompact_Icc.prod isCompact_Icc
      have hcont : ContinuousOn (fun z : ℝ × ℝ => fn (cellMap (F.W l) r z.1) (cellMap (F.W l) c z.2))
          (Set.Icc (-1:ℝ) 1 ×ˢ Set.Icc (-1:ℝ) 1) := by
        refine hfn.comp (f := fun z : ℝ × ℝ => (cellMap (F.W l) r z.1, cellMap (F.W l) c z.2)) ?_ ?_
        · unfold cellMap; fun_prop
        · rintro ⟨x, y⟩ ⟨⟨h1, h2⟩, h3, h4⟩
          simp only at h1 h2 h3 h4
          have e1 : 0 ≤ (F.W l:ℝ) * (x + 1) := mul_nonneg hW0 (by linarith)
          have e2 : (F.W l:ℝ) * (x + 1) ≤ F.W l * 2 := mul_le_mul_of_nonneg_left (by linarith) hW0
          have e3 : 0 ≤ (F.W l:ℝ) * (y + 1) := mul_nonneg hW0 (by linarith)
          refine ⟨?_, ?_⟩ <;> simp only [cellMap] <;> linarith
      obtain ⟨C, hC⟩ := hcomp.exists_bound_of_continuousOn hcont
      refine ⟨|C|, abs_nonneg _, fun _ _ x y h1 h2 h3 h4 => ?_⟩
      have := hC (x, y) ⟨⟨h1, h2⟩, h3, h4⟩
      rw [Real.norm_eq_abs] at this
      exact this.trans (le_abs_self C)
    · exact ⟨0, le_rfl, fun h1 h2 => absurd ⟨h1, h2⟩ hl⟩
  choose C hC0 hC using hb
  refine ⟨∑ l ∈ Finset.range F.L, ∑ b ∈ Finset.range (F.nBlocks l), ∑ q ∈ Finset.range (F.D l), ∑ p ∈ Finset.range (q + 1),
    C l b q p, ?_, ?_⟩
  · exact Finset.sum_nonneg fun _ _ => Finset.sum_nonneg fun _ _ => Finset.sum_nonneg fun _ _ => Finset.sum_nonneg fun _ _ => hC0 _ _ _ _
  · intro l hl b hb q hq p hp
    refine ⟨0, Nat.zero_le _, Nat.zero_le _, fun _ _ => 0, fun x y h1 h2 h3 h4 => ?_⟩
    rw [Finset.sum_range_zero, sub_zero]
    refine (hC l b q p hl hp x y h1 h2 h3 h4).trans ?_
    have s1 := Finset.single_le_sum (f := fun p => C l b q p) (fun p _ => hC0 l b q p) (Finset.mem_range.2 (Nat.lt_succ_of_le hp))
    have s2 := Finset.single_le_sum (f := fun q => ∑ p ∈ Finset.range (q + 1), C l b q p)
      (fun q _ => Finset.sum_nonneg fun p _ => hC0 l b q p) (Finset.mem_range.2 hq)
    have s3 := Finset.single_le_sum (f := fun b => ∑ q ∈ Finset.range (F.D l), ∑ p ∈ Finset.range (q + 1), C l b q p)
      (fun b _ => Finset.sum_nonneg fun q _ => Finset.sum_nonneg fun p _ => hC0 l b q p) (Finset.mem_range.2 hb)
    have s4 := Finset.single_le_sum (f := fun l => ∑ b ∈ Finset.range (F.nBlocks l), ∑ q ∈ Finset.range (F.D l),
      ∑ p ∈ Finset.range (q + 1), C l b q p)
      (fun l _ => Finset.sum_nonneg fun b _ => Finset.sum_nonneg fun q _ => Finset.sum_nonneg fun p _ => hC0 l b q p)
      (Finset.mem_range.2 hl)
    exact s1.trans (s2.trans (s3.trans s4))

theorem continuousAt_Lam {z : ℝ} (hz : -1 / 2 < z) : ContinuousAt Lam z := by
  have hG : ∀ x : ℝ, 0 < x → ContinuousAt Real.Gamma x := fun x hx =>
    (Real.differentiableAt_Gamma fun m => by have : (0:ℝ) ≤ m := Nat.cast_nonneg m
                                             linarith).continuousAt
  unfold Lam
  refine ContinuousAt.div ?_ ?_ (Real.Gamma_pos_of_pos (by linarith)).ne'
  · exact ContinuousAt.comp (g := Real.Gamma) (hG _ (by linarith)) (by fun_prop)
  · exact ContinuousAt.comp (g := Real.Gamma) (hG _ (by linarith)) (by fun_prop)

theorem continuousOn_Mxy (d : ℕ) : ContinuousOn (fun p : ℝ × ℝ => Mxy p.1 p.2) {p | 0 ≤ p.1 ∧ p.1 + 2 * d ≤ p.2} := by
  rintro ⟨x, y⟩ ⟨h1, h2⟩
  simp only at h1 h2
  have hd : (0:ℝ) ≤ d := Nat.cast_nonneg d
  unfold Mxy
  refine ContinuousAt.continuousWithinAt (ContinuousAt.mul ?_ ?_)
  · exact ContinuousAt.comp (g := Lam) (continuousAt_Lam (by simp only; linarith)) (by fun_prop)
  · exact ContinuousAt.comp (g := Lam) (continuousAt_Lam (by simp only; linarith)) (by fun_prop)

theorem continuousOn_Lxy {d : ℕ} (hd : 0 < d) :
    ContinuousOn (fun p : ℝ × ℝ => Lxy p.1 p.2) {p | 0 ≤ p.1 ∧ p.1 + 2 * d ≤ p.2} := by
  rintro ⟨x, y⟩ ⟨h1, h2⟩
  simp only at h1 h2
  have hd : (1:ℝ) ≤ d := by exact_mod_cast hd
  unfold Lxy
  refine ContinuousAt.continuousWithinAt (ContinuousAt.mul (ContinuousAt.mul ?_ ?_) ?_)
  · refine ContinuousAt.div (ContinuousAt.div (by fun_prop) (by fun_prop) ?_) (by fun_prop) ?_
    · simp only; linarith
    · simp only; linarith
  · exact ContinuousAt.comp (g := Lam) (continuousAt_Lam (by simp only; linarith)) (by fun_prop)
  · exact ContinuousAt.comp (g := Lam) (continuousAt_Lam (by simp only; linarith)) (by fun_prop)

/-- The data the code would build with `M` points for every submatrix and no truncation. -/
noncomputable def build (fn : ℝ → ℝ → ℝ) (L : ℕ) (D : ℕ → ℕ) (s diags M : ℕ) : FMMLevel :=
  let G : FMMLevel := ⟨L, D, s, diags, fun _ => M, fun _ _ _ _ => M, fun _ _ _ _ _ _ => 0, fun d q => convMat d M q⟩
  ⟨L, D, s, diags, fun _ => M, fun _ _ _ _ => M,
    fun l b q p m n => subCoef fn M (s * G.getH l) (G.rowStart l b + p * (s * G.getH l))
      (G.colStart l b + (q + 1) * (s * G.getH l)) m n, fun d q => convMat d M q⟩

theorem build_built (fn : ℝ → ℝ → ℝ) (L : ℕ) (D : ℕ → ℕ) (s diags M : ℕ) :
    (build fn L D s diags M).Built fn M fun _ _ _ _ => M :=
  ⟨fun _ _ => le_rfl, fun _ _ _ _ => rfl, fun _ _ _ _ _ _ _ _ _ _ => rfl⟩

/-- The hypotheses of the two theorems hold for a two-level object of length 46 with 20 points in each submatrix, for some `δ`. -/
example : ∃ δ, 0 ≤ δ ∧ ∀ (c : ℕ → ℝ), ∀ i < 46,
    ‖(build Mxy 2 (fun _ => 2) 3 2 20).leg2cheb 46 false c i - Shenfun.leg2cheb 46 false c i‖ ≤
      2 / Real.pi * ((1 + 4 * ((20:ℕ):ℝ) ^ 2) * δ) * ∑ j ∈ Finset.range 46, ‖c j‖ := by
  have hV : (build Mxy 2 (fun _ => 2) 3 2 20).Valid := ⟨by decide, by decide, fun _ _ => Nat.succ_pos 1⟩
  obtain ⟨δ, h0, hS⟩ := exists_smooth hV Mxy (continuousOn_Mxy _) fun _ _ _ _ => 20
  refine ⟨δ, h0, fun c i hi => ?_⟩
  exact C60_leg2cheb_built hV (build_built _ _ _ _ _ _) (fun _ _ _ _ => by norm_num) (fun _ _ _ _ _ _ _ => le_rfl)
    (fun _ _ _ _ => le_rfl) h0 hS (N := 46) (by decide) false c hi

example : ∃ δ, 0 ≤ δ ∧ ∀ (c : ℕ → ℝ), ∀ i < 46,
    ‖(build Lxy 2 (fun _ => 2) 3 2 20).cheb2leg 46 c i - Shenfun.cheb2leg 46 c i‖ ≤
      ((i:ℝ) + 1 / 2) * ((1 + 4 * ((20:ℕ):ℝ) ^ 2) * δ * (‖c 0‖ + ∑ j ∈ Finset.range 46, (j:ℝ) * ‖c j‖)) := by
  have hV : (build Lxy 2 (fun _ => 2) 3 2 20).Valid := ⟨by decide, by decide, fun _ _ => Nat.succ_pos 1⟩
  obtain ⟨δ, h0, hS⟩ := exists_smooth hV Lxy (continuousOn_Lxy (by decide)) fun _ _ _ _ => 20
  refine ⟨δ, h0, fun c i hi => ?_⟩
  exact C60_cheb2leg_built hV (build_built _ _ _ _ _ _) (fun _ _ _ _ => by norm_num) (fun _ _ _ _ _ _ _ => le_rfl)
    (fun _ _ _ _ => le_rfl) (by decide) h0 hS (N := 46) (by decide) c hi

end FMMLevel
end Shenfun
