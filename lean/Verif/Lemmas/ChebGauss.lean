import Mathlib.Analysis.SpecialFunctions.Trigonometric.Chebyshev.ChebyshevGauss
import Mathlib.Analysis.SpecialFunctions.Trigonometric.Chebyshev.Basic
import Mathlib.Algebra.Polynomial.Sequence
import Mathlib.Tactic.LinearCombination

/-!
# Discrete orthogonality of the Chebyshev polynomials on the Chebyshev-Gauss points
-/

namespace Shenfun

open Polynomial

/-- The Chebyshev-Gauss points `cos((j+1/2)π/M)`. -/
noncomputable def gcPt (M j : ℕ) : ℝ := Real.cos (((j:ℝ) + 1 / 2) * Real.pi / M)

theorem gcPt_eq (M j : ℕ) : gcPt M j = Real.cos ((2 * j + 1) / (2 * M) * Real.pi) := by
  unfold gcPt
  congr 1
  rcases eq_or_ne (M:ℝ) 0 with h | h
  · rw [h]; simp
  · field_simp

theorem sum_T_gc {M : ℕ} {k : ℤ} (hk : ¬ (2 * M : ℤ) ∣ k) :
    ∑ j ∈ Finset.range M, (Chebyshev.T ℝ k).eval (gcPt M j) = 0 := by
  rcases eq_or_ne M 0 with rfl | hM
  · simp
  have h := Chebyshev.sumZeroes_T_of_not_dvd hk
  unfold Chebyshev.sumZeroes at h
  have hpi : Real.pi / (M:ℝ) ≠ 0 := div_ne_zero Real.pi_ne_zero (by exact_mod_cast hM)
  have := (mul_eq_zero.1 h).resolve_left hpi
  simpa only [gcPt_eq] using this

/-- Discrete orthogonality, `m, n < M`. -/
theorem gc_ortho {M m n : ℕ} (hm : m < M) (hn : n < M) :
    ∑ j ∈ Finset.range M, (Chebyshev.T ℝ m).eval (gcPt M j) * (Chebyshev.T ℝ n).eval (gcPt M j) =
      if m = n then (if m = 0 then (M:ℝ) else M / 2) else 0 := by
  have hprod : ∀ x : ℝ, (Chebyshev.T ℝ m).eval x * (Chebyshev.T ℝ n).eval x =
      ((Chebyshev.T ℝ ((m:ℤ) + n)).eval x + (Chebyshev.T ℝ ((m:ℤ) - n)).eval x) / 2 := by
    intro x
    have := congrArg (eval x) (Chebyshev.T_mul_T ℝ (m:ℤ) n)
    simp only [eval_mul, eval_add, eval_ofNat] at this
    linarith
  rw [Finset.sum_congr rfl fun j _ => hprod _, ← Finset.sum_div, Finset.sum_add_distrib]
  have key : ∀ k : ℤ, |k| < 2 * M → ∑ j ∈ Finset.range M, (Chebyshev.T ℝ k).eval (gcPt M j) = if k = 0 then (M:ℝ) else 0 := by
    intro k hk
    by_cases h0 : k = 0
    · subst h0; simp
    · rw [if_neg h0]
      refine sum_T_gc fun hd => h0 (Int.eq_zero_of_abs_lt_dvd hd hk)
  rw [key _ (by rw [abs_lt]; omega), key _ (by rw [abs_lt]; omega)]
  by_cases hmn : m = n
  · subst hmn
    rw [if_pos rfl, sub_self, if_pos rfl]
    by_cases h0 : m = 0
    · subst h0; simp
    · rw [if_neg h0, if_neg (by omega), zero_add]
  · rw [if_neg hmn, if_neg (by omega), if_neg (by omega)]; simp

/-- `Σ_n c_n T_n` is a polynomial of degree at most `k`, and every such polynomial is of this form. -/
theorem exists_cheb (P : ℝ[X]) {k : ℕ} (hP : P.degree < (k + 1 : ℕ)) :
    ∃ c : ℕ → ℝ, P = ∑ n ∈ Finset.range (k + 1), c n • Chebyshev.T ℝ n := by
  have hmem : P ∈ degreeLT ℝ (k + 1) := by rwa [mem_degreeLT]
  rw [← Sequence.span_degreeLT (Chebyshev.chebyshevTsequence ℝ) (by simp),
    show Set.Iio (k + 1) = Finset.range (k + 1) by simp,
    Submodule.mem_span_image_finset_iff_exists_fun'] at hmem
  obtain ⟨c, hc⟩ := hmem
  exact ⟨c, hc.symm⟩

/-- Chebyshev coefficient `m` of a polynomial by the discrete transform with `M` points. -/
noncomputable def gcCoef (M : ℕ) (f : ℝ → ℝ) (m : ℕ) : ℝ :=
  (if m = 0 then 1 else 2) / M * ∑ j ∈ Finset.range M, f (gcPt M j) * (Chebyshev.T ℝ m).eval (gcPt M j)

theorem gcCoef_sum {M K : ℕ} (hK : K ≤ M) (c : ℕ → ℝ) {m : ℕ} (hm : m < M) :
    gcCoef M (fun x => ∑ n ∈ Finset.range K, c n * (Chebyshev.T ℝ n).eval x) m = if m < K then c m else 0 := by
  have hM : (M:ℝ) ≠ 0 := by have : M ≠ 0 := by omega
                            exact_mod_cast this
  unfold gcCoef
  have e : ∑ j ∈ Finset.range M, (∑ n ∈ Finset.range K, c n * (Chebyshev.T ℝ n).eval (gcPt M j)) * (Chebyshev.T ℝ m).eval (gcPt M j) =
      ∑ n ∈ Finset.range K, c n * ∑ j ∈ Finset.range M, (Chebyshev.T ℝ n).eval (gcPt M j) * (Chebyshev.T ℝ m).eval (gcPt M j) := by
    simp only [Finset.sum_mul, Finset.mul_sum]
    rw [Finset.sum_comm]
    refine Finset.sum_congr rfl fun n _ => Finset.sum_congr rfl fun j _ => ?_
    ring
  rw [e, Finset.sum_congr rfl fun n hn => by rw [gc_ortho (lt_of_lt_of_le (Finset.mem_range.1 hn) hK) hm]]
  by_cases h : m < K
  · rw [if_pos h, Finset.sum_eq_single m]
    · rw [if_pos rfl]
      by_cases h0 : m = 0
      · rw [if_pos h0, if_pos h0]; field_simp
      · rw [if_neg h0, if_neg h0]; field_simp
    · intro n _ hne; rw [if_neg hne, mul_zero]
    · intro hn; exact absurd (Finset.mem_range.2 h) hn
  · rw [if_neg h, Finset.sum_eq_zero, mul_zero]
    intro n hn
    have := Finset.mem_range.1 hn
    rw [if_neg (by omega), mul_zero]

/-- **Interpolation**: a polynomial of degree `≤ k < M` is reproduced by its first `k+1` discrete Chebyshev coefficients. -/
theorem gcCoef_poly {M k : ℕ} (hk : k < M) (P : ℝ[X]) (hP : P.degree < (k + 1 : ℕ)) (x : ℝ) :
    P.eval x = ∑ m ∈ Finset.range (k + 1), gcCoef M (fun y => P.eval y) m * (Chebyshev.T ℝ m).eval x := by
  obtain ⟨c, rfl⟩ := exists_cheb P hP
  have e : ∀ y : ℝ, (∑ n ∈ Finset.range (k + 1), c n • Chebyshev.T ℝ n).eval y =
      ∑ n ∈ Finset.range (k + 1), c n * (Chebyshev.T ℝ n).eval y := by
    intro y; rw [eval_finsetSum]; simp only [eval_smul, smul_eq_mul]
  simp only [e]
  refine Finset.sum_congr rfl fun m hm => ?_
  have hm := Finset.mem_range.1 hm
  rw [gcCoef_sum (by omega) c (by omega), if_pos hm]

end Shenfun
