import Verif.Lemmas.LegIP
import Mathlib.RingTheory.Polynomial.Chebyshev

/-!
# Connection coefficients between Legendre and Chebyshev polynomials
-/

namespace Shenfun

open Polynomial Spec

/-- `(1/2)_m / m!`. -/
noncomputable def halfBin : ℕ → ℝ
  | 0 => 1
  | m + 1 => halfBin m * (2 * m + 1) / (2 * m + 2)

theorem halfBin_pos (m : ℕ) : 0 < halfBin m := by
  induction m with
  | zero => exact one_pos
  | succ m ih => unfold halfBin; positivity

/-- Extension by zero to negative indices. -/
noncomputable def halfBinZ (j : ℤ) : ℝ := if j < 0 then 0 else halfBin j.toNat

theorem halfBinZ_nat (j : ℕ) : halfBinZ j = halfBin j := by simp [halfBinZ]

theorem halfBinZ_rec (j : ℤ) : 2 * j * halfBinZ j = (2 * j - 1) * halfBinZ (j - 1) := by
  unfold halfBinZ
  by_cases h : j < 0
  · rw [if_pos h, if_pos (by omega)]; ring
  · by_cases h0 : j = 0
    · subst h0; simp
    · rw [if_neg h, if_neg (by omega)]
      obtain ⟨m, rfl⟩ : ∃ m : ℕ, j = m + 1 := ⟨j.toNat - 1, by omega⟩
      rw [show ((m:ℤ)+1).toNat = m + 1 by omega, show ((m:ℤ)+1-1).toNat = m by omega]
      rw [show halfBin (m+1) = halfBin m * (2 * m + 1) / (2 * m + 2) from rfl]
      push_cast
      have : (2 * (m:ℝ) + 2) ≠ 0 := by positivity
      field_simp
      ring

theorem halfBinZ_conv (j m : ℤ) (hj : 0 ≤ j) (hm : 0 ≤ m) :
    (j + m : ℝ) * (halfBinZ j * halfBinZ m) =
      (2 * (j + m : ℝ) - 1) / 2 * (halfBinZ j * halfBinZ (m-1) + halfBinZ (j-1) * halfBinZ m) -
      (j + m - 1 : ℝ) * (halfBinZ (j-1) * halfBinZ (m-1)) := by
  have hjr := halfBinZ_rec j
  have hmr := halfBinZ_rec m
  have z : halfBinZ (0 - 1) = 0 := by simp [halfBinZ]
  rcases eq_or_lt_of_le hj with h0 | hj'
  · subst h0
    rw [z]
    push_cast
    linear_combination halfBinZ 0 / 2 * hmr
  rcases eq_or_lt_of_le hm with h0 | hm'
  · subst h0
    rw [z]
    push_cast
    linear_combination halfBinZ 0 / 2 * hjr
  have hj0 : (j:ℝ) ≠ 0 := by exact_mod_cast hj'.ne'
  have hm0 : (m:ℝ) ≠ 0 := by exact_mod_cast hm'.ne'
  have e1 : halfBinZ j = (2 * j - 1) * halfBinZ (j - 1) / (2 * j) := by field_simp; linear_combination hjr
  have e2 : halfBinZ m = (2 * m - 1) * halfBinZ (m - 1) / (2 * m) := by field_simp; linear_combination hmr
  rw [e1, e2]
  field_simp
  ring

/-- `Σ_j β_j β_{n-j} T_{n-2j}`. -/
noncomputable def legSum (t : ℤ → ℝ) (n : ℕ) : ℝ :=
  ∑ j ∈ Finset.range (n+1), halfBin j * halfBin (n - j) * t (n - 2 * j)

theorem legSum_eq (t : ℤ → ℝ) (n : ℕ) :
    legSum t n = ∑ j ∈ Finset.range (n+1), halfBinZ j * halfBinZ ((n:ℤ) - j) * t (n - 2 * j) := by
  refine Finset.sum_congr rfl fun j hj => ?_
  have := Finset.mem_range.1 hj
  rw [halfBinZ_nat, show (n:ℤ) - j = ((n - j : ℕ) : ℤ) by omega, halfBinZ_nat]

theorem legSum_rec (t : ℤ → ℝ) (x : ℝ) (ht : ∀ m, 2 * x * t m = t (m+1) + t (m-1)) (n : ℕ) :
    ((n:ℝ) + 2) * legSum t (n+2) = (2 * n + 3) * x * legSum t (n+1) - (n + 1) * legSum t n := by
  have A : legSum t n = ∑ j ∈ Finset.range (n+3),
      halfBinZ ((j:ℤ)-1) * halfBinZ ((n:ℤ) + 1 - j) * t (n + 2 - 2 * j) := by
    rw [Finset.sum_range_succ', Finset.sum_range_succ, legSum_eq]
    simp only [Nat.cast_zero]
    rw [show halfBinZ (0 - 1) = 0 by simp [halfBinZ]]
    rw [show (n:ℤ) + 1 - ((n+1+1 : ℕ):ℤ) = -1 by push_cast; ring, show halfBinZ (-1) = 0 by simp [halfBinZ]]
    simp only [zero_mul, mul_zero, add_zero]
    refine Finset.sum_congr rfl fun j _ => ?_
    rw [show (((j+1:ℕ):ℤ) - 1) = j by push_cast; ring, show (n:ℤ) + 1 - ((j+1:ℕ):ℤ) = n - j by push_cast; ring,
      show (n:ℤ) + 2 - 2 * ((j+1:ℕ):ℤ) = n - 2 * j by push_cast; ring]
  have B1 : ∑ j ∈ Finset.range (n+2), halfBinZ j * halfBinZ ((n:ℤ) + 1 - j) * t (n + 1 - 2 * j + 1) =
      ∑ j ∈ Finset.range (n+3), halfBinZ j * halfBinZ ((n:ℤ) + 1 - j) * t (n + 2 - 2 * j) := by
    rw [Finset.sum_range_succ _ (n+2)]
    rw [show (n:ℤ) + 1 - ((n+2 : ℕ):ℤ) = -1 by push_cast; ring, show halfBinZ (-1) = 0 by simp [halfBinZ]]
    simp only [zero_mul, mul_zero, add_zero]
    refine Finset.sum_congr rfl fun j _ => ?_
    congr 2
    ring
  have B2 : ∑ j ∈ Finset.range (n+2), halfBinZ j * halfBinZ ((n:ℤ) + 1 - j) * t (n + 1 - 2 * j - 1) =
      ∑ j ∈ Finset.range (n+3), halfBinZ ((j:ℤ)-1) * halfBinZ ((n:ℤ) + 2 - j) * t (n + 2 - 2 * j) := by
    rw [Finset.sum_range_succ' _ (n+2)]
    simp only [Nat.cast_zero]
    rw [show halfBinZ (0 - 1) = 0 by simp [halfBinZ]]
    simp only [zero_mul, add_zero]
    refine Finset.sum_congr rfl fun j _ => ?_
    rw [show (((j+1:ℕ):ℤ) - 1) = j by push_cast; ring, show (n:ℤ) + 2 - ((j+1:ℕ):ℤ) = n + 1 - j by push_cast; ring,
      show (n:ℤ) + 2 - 2 * ((j+1:ℕ):ℤ) = n + 1 - 2 * j - 1 by push_cast; ring]
  have B : 2 * x * legSum t (n+1) = ∑ j ∈ Finset.range (n+3),
      (halfBinZ j * halfBinZ ((n:ℤ) + 1 - j) + halfBinZ ((j:ℤ)-1) * halfBinZ ((n:ℤ) + 2 - j)) * t (n + 2 - 2 * j) := by
    simp only [add_mul, Finset.sum_add_distrib]
    rw [← B1, ← B2, ← Finset.sum_add_distrib, legSum_eq, Finset.mul_sum]
    refine Finset.sum_congr rfl fun j _ => ?_
    push_cast
    linear_combination halfBinZ j * halfBinZ ((n:ℤ) + 1 - j) * ht ((n:ℤ) + 1 - 2 * j)
  have C : legSum t (n+2) = ∑ j ∈ Finset.range (n+3), halfBinZ j * halfBinZ ((n:ℤ) + 2 - j) * t (n + 2 - 2 * j) := by
    rw [legSum_eq]
    push_cast
    rfl
  have goal : ((n:ℝ) + 2) * legSum t (n+2) = (2 * n + 3) / 2 * (2 * x * legSum t (n+1)) - (n + 1) * legSum t n := by
    rw [A, B, C, Finset.mul_sum, Finset.mul_sum, Finset.mul_sum, ← Finset.sum_sub_distrib]
    refine Finset.sum_congr rfl fun j hj => ?_
    have hj' := Finset.mem_range.1 hj
    have e := halfBinZ_conv j ((n:ℤ) + 2 - j) (by omega) (by omega)
    rw [show (n:ℤ) + 2 - j - 1 = (n:ℤ) + 1 - j by ring] at e
    push_cast at e
    linear_combination t (n + 2 - 2 * j) * e
  rw [goal]; ring

/-- `P_n = Σ_j β_j β_{n-j} T_{n-2j}`. -/
theorem legP_eq_legSum (x : ℝ) (n : ℕ) : (legP n).eval x = legSum (fun m => (Chebyshev.T ℝ m).eval x) n := by
  have ht : ∀ m : ℤ, 2 * x * (Chebyshev.T ℝ m).eval x = (Chebyshev.T ℝ (m+1)).eval x + (Chebyshev.T ℝ (m-1)).eval x := by
    intro m
    rw [Chebyshev.T_add_one]
    simp
  induction n using Nat.strong_induction_on with
  | _ n ih =>
    rcases n with _ | _ | n
    · simp [legP_zero, legSum, halfBin]
    · simp [legP_one, legSum, halfBin, Finset.sum_range_succ]
      ring
    · have h := congrArg (Polynomial.eval x) (legP_bonnet n)
      have e := legSum_rec (fun m => (Chebyshev.T ℝ m).eval x) x ht n
      rw [← ih (n+1) (by omega), ← ih n (by omega)] at e
      have hn : ((n:ℝ) + 2) ≠ 0 := by positivity
      apply mul_left_cancel₀ hn
      rw [e]
      simp at h
      linear_combination h

/-! ## The other direction -/

/-- `-1, 1/2, 1/8, …`: `β_{m-1}/(2m)` for `m ≥ 1`. -/
noncomputable def halfGam : ℕ → ℝ
  | 0 => -1
  | m + 1 => halfGam m * (2 * m - 1) / (2 * m + 2)

theorem halfGam_succ (m : ℕ) : halfGam (m+1) = halfBin m / (2 * (m+1)) := by
  induction m with
  | zero => norm_num [halfGam, halfBin]
  | succ m ih =>
    rw [show halfGam (m+1+1) = halfGam (m+1) * (2 * ((m+1:ℕ):ℝ) - 1) / (2 * ((m+1:ℕ):ℝ) + 2) from rfl, ih,
      show halfBin (m+1) = halfBin m * (2 * m + 1) / (2 * m + 2) from rfl]
    push_cast
    have : (m:ℝ) + 1 ≠ 0 := by positivity
    have : (m:ℝ) + 2 ≠ 0 := by positivity
    have : (2 * (m:ℝ) + 2) ≠ 0 := by positivity
    field_simp
    ring

/-- The coefficient of `P_k` in `T_{k+2m}`. -/
noncomputable def chebCo (m k : ℕ) : ℝ :=
  if m = 0 ∧ k = 0 then 1
  else -((2 * k + 1) * (k + 2 * m) * halfGam m / (2 * halfBin (m + k) * (m + k) * (2 * (m + k) + 1)))

/-- Extension by zero. -/
noncomputable def chebCoZ (m k : ℤ) : ℝ := if m < 0 ∨ k < 0 then 0 else chebCo m.toNat k.toNat

theorem chebCo_zero (k : ℕ) : chebCo 0 (k+1) = 1 / (2 * halfBin (k+1)) := by
  unfold chebCo
  rw [if_neg (by omega), show halfGam 0 = -1 from rfl, zero_add]
  have := (halfBin_pos (k+1)).ne'
  have : ((k+1:ℕ):ℝ) ≠ 0 := by positivity
  have : 2 * ((k+1:ℕ):ℝ) + 1 ≠ 0 := by positivity
  push_cast at *
  field_simp
  ring

theorem chebCo_rec_zero (m : ℕ) :
    chebCo (m+2) 0 + chebCo (m+1) 0 = chebCo (m+1) 1 * (2 / 3) := by
  unfold chebCo
  rw [if_neg (by omega), if_neg (by omega), if_neg (by omega)]
  rw [show halfGam (m+2) = halfGam (m+1) * (2 * ((m+1:ℕ):ℝ) - 1) / (2 * ((m+1:ℕ):ℝ) + 2) from rfl,
    show m + 2 + 0 = m + 1 + 1 by ring, show m + 1 + 0 = m + 1 by ring,
    show halfBin (m+1+1) = halfBin (m+1) * (2 * ((m+1:ℕ):ℝ) + 1) / (2 * ((m+1:ℕ):ℝ) + 2) from rfl]
  have b := (halfBin_pos (m+1)).ne'
  push_cast
  have : (m:ℝ) + 1 ≠ 0 := by positivity
  have : (m:ℝ) + 2 ≠ 0 := by positivity
  have : (2 * ((m:ℝ) + 1) + 1) ≠ 0 := by positivity
  have : (2 * ((m:ℝ) + 2) + 1) ≠ 0 := by positivity
  have : (2 * ((m:ℝ) + 1) + 2) ≠ 0 := by positivity
  simp only [add_zero, mul_zero, zero_add, one_mul]
  field_simp
  ring

theorem chebCo_rec (m k : ℕ) :
    chebCo (m+1) (k+1) + chebCo m (k+1) =
      chebCo (m+1) k * (2 * (k+1) / (2 * k + 1)) + chebCo m (k+2) * (2 * (k+2) / (2 * k + 5)) := by
  unfold chebCo
  rw [if_neg (by omega), if_neg (by omega), if_neg (by omega), if_neg (by omega)]
  rw [show halfGam (m+1) = halfGam m * (2 * (m:ℝ) - 1) / (2 * (m:ℝ) + 2) from rfl,
    show m + 1 + (k + 1) = m + k + 1 + 1 by ring, show m + (k + 1) = m + k + 1 by ring,
    show m + 1 + k = m + k + 1 by ring, show m + (k + 2) = m + k + 1 + 1 by ring,
    show halfBin (m+k+1+1) = halfBin (m+k+1) * (2 * ((m+k+1:ℕ):ℝ) + 1) / (2 * ((m+k+1:ℕ):ℝ) + 2) from rfl]
  have b := (halfBin_pos (m+k+1)).ne'
  generalize halfBin (m+k+1) = B at *
  generalize halfGam m = G
  push_cast
  have : (m:ℝ) + 1 ≠ 0 := by positivity
  have : (m:ℝ) + k + 1 ≠ 0 := by positivity
  have : (m:ℝ) + k + 2 ≠ 0 := by positivity
  have : 2 * (m:ℝ) + 2 * k + 3 ≠ 0 := by positivity
  have : 2 * (m:ℝ) + 2 * k + 5 ≠ 0 := by positivity
  have : 2 * (k:ℝ) + 1 ≠ 0 := by positivity
  have : 2 * (k:ℝ) + 3 ≠ 0 := by positivity
  have : 2 * (k:ℝ) + 5 ≠ 0 := by positivity
  rw [show (m:ℝ) + 1 + (k + 1) = m + k + 2 by ring, show (m:ℝ) + (k + 1) = m + k + 1 by ring,
    show (m:ℝ) + 1 + k = m + k + 1 by ring, show (m:ℝ) + (k + 2) = m + k + 2 by ring,
    show 2 * ((m:ℝ) + k + 2) + 1 = 2 * m + 2 * k + 5 by ring, show 2 * ((m:ℝ) + k + 1) + 1 = 2 * m + 2 * k + 3 by ring,
    show 2 * ((m:ℝ) + k + 1) + 2 = 2 * (m + k + 2) by ring, show 2 * ((k:ℝ) + 2) + 1 = 2 * k + 5 by ring,
    show 2 * (m:ℝ) + 2 = 2 * (m + 1) by ring]
  field_simp
  ring

theorem chebCoZ_rec (m k : ℤ) (hm : 0 ≤ m) (h : 3 ≤ k + 2 * m) :
    chebCoZ m k + chebCoZ (m-1) k = chebCoZ m (k-1) * (2 * k / (2 * k - 1)) +
      chebCoZ (m-1) (k+1) * (2 * (k+1) / (2 * k + 3)) := by
  unfold chebCoZ
  by_cases hk : k < 0
  · rw [if_pos (Or.inr hk), if_pos (Or.inr hk), if_pos (Or.inr (by omega))]
    by_cases hk1 : k = -1
    · subst hk1; simp
    · rw [if_pos (Or.inr (by omega))]; ring
  · by_cases hm0 : m = 0
    · subst hm0
      obtain ⟨j, rfl⟩ : ∃ j : ℕ, k = j + 2 := ⟨k.toNat - 2, by omega⟩
      rw [if_neg (by omega), if_pos (by omega), if_neg (by omega), if_pos (by omega)]
      simp only [Int.toNat_zero]
      rw [show ((j:ℤ) + 2).toNat = j + 1 + 1 by omega, show ((j:ℤ) + 2 - 1).toNat = j + 1 by omega, chebCo_zero, chebCo_zero,
        show halfBin (j+1+1) = halfBin (j+1) * (2 * ((j+1:ℕ):ℝ) + 1) / (2 * ((j+1:ℕ):ℝ) + 2) from rfl]
      have b := (halfBin_pos (j+1)).ne'
      push_cast
      have : (2 * ((j:ℝ) + 1) + 1) ≠ 0 := by positivity
      rw [show 2 * ((j:ℝ) + 2) - 1 = 2 * (j + 1) + 1 by ring]
      field_simp
      ring
    · by_cases hk0 : k = 0
      · subst hk0
        obtain ⟨j, rfl⟩ : ∃ j : ℕ, m = j + 2 := ⟨m.toNat - 2, by omega⟩
        rw [if_neg (by omega), if_neg (by omega), if_pos (by omega), if_neg (by omega)]
        rw [show ((j:ℤ) + 2).toNat = j + 2 by omega, show ((j:ℤ) + 2 - 1).toNat = j + 1 by omega]
        have := chebCo_rec_zero j
        norm_num at this ⊢
        exact this
      · obtain ⟨j, rfl⟩ : ∃ j : ℕ, m = j + 1 := ⟨m.toNat - 1, by omega⟩
        obtain ⟨i, rfl⟩ : ∃ i : ℕ, k = i + 1 := ⟨k.toNat - 1, by omega⟩
        rw [if_neg (by omega), if_neg (by omega), if_neg (by omega), if_neg (by omega)]
        rw [show ((j:ℤ) + 1).toNat = j + 1 by omega, show ((j:ℤ) + 1 - 1).toNat = j by omega,
          show ((i:ℤ) + 1).toNat = i + 1 by omega, show ((i:ℤ) + 1 - 1).toNat = i by omega,
          show ((i:ℤ) + 1 + 1).toNat = i + 2 by omega]
        have := chebCo_rec j i
        push_cast
        rw [show 2 * ((i:ℝ) + 1) - 1 = 2 * i + 1 by ring, show 2 * ((i:ℝ) + 1) + 3 = 2 * i + 5 by ring,
          show (i:ℝ) + 1 + 1 = i + 2 by ring]
        exact this

/-- `Σ_m e_{m,n-2m} P_{n-2m}`. -/
noncomputable def chebSum (p : ℤ → ℝ) (n : ℤ) (M : ℕ) : ℝ :=
  ∑ m ∈ Finset.range M, chebCoZ m (n - 2 * m) * p (n - 2 * m)

theorem chebSum_extend (p : ℤ → ℝ) (n : ℤ) (M : ℕ) (h : n < 2 * M) : chebSum p n (M+1) = chebSum p n M := by
  unfold chebSum
  rw [Finset.sum_range_succ, chebCoZ, if_pos (Or.inr (by omega))]
  simp

theorem chebSum_rec (p : ℤ → ℝ) (x : ℝ) (hp : ∀ k : ℤ, 0 ≤ k → (2 * k + 1) * x * p k = (k + 1) * p (k+1) + k * p (k-1))
    (n : ℕ) (M : ℕ) (hM : n + 2 < 2 * M) :
    chebSum p (n+3) (M+1) + chebSum p (n+1) M = 2 * x * chebSum p (n+2) M := by
  have A : chebSum p (n+1) M = ∑ m ∈ Finset.range (M+1), chebCoZ ((m:ℤ)-1) (n + 3 - 2 * m) * p (n + 3 - 2 * m) := by
    rw [Finset.sum_range_succ']
    simp only [Nat.cast_zero]
    rw [show chebCoZ (0 - 1) (n + 3 - 2 * 0) = 0 by simp [chebCoZ], zero_mul, add_zero, chebSum]
    refine Finset.sum_congr rfl fun m _ => ?_
    rw [show ((m+1:ℕ):ℤ) - 1 = m by push_cast; ring, show (n:ℤ) + 3 - 2 * ((m+1:ℕ):ℤ) = n + 1 - 2 * m by push_cast; ring]
  have B : 2 * x * chebSum p (n+2) M = ∑ m ∈ Finset.range (M+1),
      (chebCoZ m (n + 3 - 2 * m - 1) * (2 * ((n + 3 - 2 * m : ℤ) : ℝ) / (2 * ((n + 3 - 2 * m : ℤ) : ℝ) - 1)) +
        chebCoZ ((m:ℤ) - 1) (n + 3 - 2 * m + 1) *
          (2 * (((n + 3 - 2 * m : ℤ) : ℝ) + 1) / (2 * ((n + 3 - 2 * m : ℤ) : ℝ) + 3))) * p (n + 3 - 2 * m) := by
    simp only [add_mul, Finset.sum_add_distrib]
    rw [Finset.sum_range_succ, chebCoZ, if_pos (Or.inr (by omega)), zero_mul, zero_mul, add_zero,
      Finset.sum_range_succ' (n := M)]
    simp only [Nat.cast_zero]
    rw [show chebCoZ (0 - 1) (n + 3 - 2 * 0 + 1) = 0 by simp [chebCoZ], zero_mul, zero_mul, add_zero,
      ← Finset.sum_add_distrib, chebSum, Finset.mul_sum]
    refine Finset.sum_congr rfl fun m _ => ?_
    rw [show ((m+1:ℕ):ℤ) - 1 = m by push_cast; ring, show (n:ℤ) + 3 - 2 * ((m+1:ℕ):ℤ) = (n + 2 - 2 * m) - 1 by push_cast; ring,
      show (n:ℤ) + 3 - 2 * m = (n + 2 - 2 * m) + 1 by ring, add_sub_cancel_right, sub_add_cancel]
    generalize hk : (n:ℤ) + 2 - 2 * m = k
    by_cases h0 : 0 ≤ k
    · have e := hp k h0
      have h0' : (0:ℝ) ≤ k := by exact_mod_cast h0
      have : 2 * (k:ℝ) + 1 ≠ 0 := by positivity
      push_cast
      rw [show 2 * ((k:ℝ) + 1) - 1 = 2 * k + 1 by ring, show 2 * ((k:ℝ) - 1) + 3 = 2 * k + 1 by ring]
      field_simp
      linear_combination chebCoZ m k * e
    · rw [chebCoZ, if_pos (Or.inr (by omega))]; ring
  rw [A, B, chebSum, ← Finset.sum_add_distrib]
  refine Finset.sum_congr rfl fun m _ => ?_
  have := chebCoZ_rec m (n + 3 - 2 * m) (by omega) (by omega)
  rw [← add_mul, this]

/-- `T_n = Σ_m e_{m,n-2m} P_{n-2m}`. -/
theorem chebT_eq_chebSum (x : ℝ) (n : ℕ) (M : ℕ) (hM : n < 2 * M) :
    (Chebyshev.T ℝ n).eval x = chebSum (fun k => (legP k.toNat).eval x) n M := by
  have hp : ∀ k : ℤ, 0 ≤ k → (2 * k + 1) * x * (legP k.toNat).eval x =
      (k + 1) * (legP (k+1).toNat).eval x + k * (legP (k-1).toNat).eval x := by
    intro k hk
    obtain ⟨j, rfl⟩ : ∃ j : ℕ, k = j := ⟨k.toNat, by omega⟩
    rcases j with _ | j
    · simp [legP_zero, legP_one]
    · have h := congrArg (Polynomial.eval x) (legP_bonnet j)
      rw [show (((j+1:ℕ):ℤ)).toNat = j+1 by omega, show (((j+1:ℕ):ℤ)+1).toNat = j+2 by omega,
        show (((j+1:ℕ):ℤ)-1).toNat = j by omega]
      simp at h
      push_cast
      linear_combination -h
  have key : ∀ n : ℕ, ∀ M : ℕ, n < 2 * M →
      chebSum (fun k => (legP k.toNat).eval x) n M = chebSum (fun k => (legP k.toNat).eval x) n (n/2+1) := by
    intro n M hM
    obtain ⟨d, rfl⟩ : ∃ d, M = n/2 + 1 + d := ⟨M - (n/2+1), by omega⟩
    clear hM
    induction d with
    | zero => rfl
    | succ d ih => rw [show n/2+1+(d+1) = n/2+1+d+1 by ring, chebSum_extend _ _ _ (by omega), ih]
  rw [key n M hM]
  clear hM
  induction n using Nat.strong_induction_on with
  | _ n ih =>
    rcases n with _ | _ | _ | n
    · simp [chebSum, chebCoZ, chebCo, legP_zero]
    · simp [chebSum, chebCoZ, legP_one, show chebCo 0 1 = 1 / (2 * halfBin 1) from chebCo_zero 0, halfBin]
    · have b := legP_bonnet 0
      have b' := congrArg (Polynomial.eval x) b
      simp [legP_one, legP_zero] at b'
      have e1 : chebCo 1 0 = -(1/3) := by
        unfold chebCo
        simp [halfGam, halfBin]
        norm_num
      have e2 : chebCo 0 2 = 4/3 := by
        rw [chebCo_zero 1]
        simp [halfBin]
        norm_num
      simp [chebSum, chebCoZ, Finset.sum_range_succ, e1, e2, legP_zero, Chebyshev.T_two]
      linear_combination -(2/3) * b'
    · have r := chebSum_rec (fun k => (legP k.toNat).eval x) x hp n ((n+2)/2+1) (by omega)
      have t : (Chebyshev.T ℝ ((n:ℤ)+3)).eval x = 2 * x * (Chebyshev.T ℝ ((n:ℤ)+2)).eval x - (Chebyshev.T ℝ ((n:ℤ)+1)).eval x := by
        have := Chebyshev.T_add_two ℝ ((n:ℤ)+1)
        rw [show (n:ℤ)+1+2 = n + 3 by ring, show (n:ℤ)+1+1 = n + 2 by ring] at this
        rw [this]; simp
      have i1 := ih (n+1) (by omega)
      have i2 := ih (n+1+1) (by omega)
      have k1 := key (n+1) ((n+2)/2+1) (by omega)
      have k3 := key (n+3) ((n+2)/2+1+1) (by omega)
      push_cast at *
      rw [show (n:ℤ)+1+1 = n + 2 by ring] at i2
      rw [show (n:ℤ)+1+1+1 = n + 3 by ring, t, i1, i2]
      rw [show n + 1 + 1 + 1 = n + 3 by ring, ← k3, ← k1]
      rw [show (n+1+1)/2 + 1 = (n+2)/2+1 by ring]
      linear_combination -r

end Shenfun
