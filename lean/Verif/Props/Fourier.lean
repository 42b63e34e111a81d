import Verif.Model.Fourier
import Verif.Spec.Trig
import Mathlib.RingTheory.RootsOfUnity.Complex
import Mathlib.Algebra.Ring.GeomSum
import Mathlib.Tactic.Ring
import Mathlib.Tactic.NormNum
import Mathlib.Tactic.Linarith
import Mathlib.Tactic.LinearCombination

/-!
# Fourier bases: C18 (pad/truncate), C19 (same function), C20 (2/3 rule), C21 (alias-free products)
-/

set_option linter.unusedSimpArgs false
set_option linter.unusedVariables false

namespace Shenfun.Fourier

open Complex Finset

/-! ## C18 -/

/-- **C18** (complex).  Truncating the padded array gives back all `N` coefficients, for every `2 ≤ N < M`. -/
theorem C18_C2C (N M : ℕ) (hN : 2 ≤ N) (hM : N < M) (u : ℕ → ℂ) :
    ∀ i < N, truncC2C N M (padC2C N M u) i = u i := by
  intro i hi
  have h0 : N / 2 ≠ 0 := by omega
  have e1 : tailStart N (N / 2) = N - N / 2 := by simp [tailStart, h0]
  have e2 : tailStart M (N / 2) = M - N / 2 := by simp [tailStart, h0]
  have hi' : ¬ N / 2 = 0 := h0
  rcases Nat.even_or_odd' N with ⟨n, hn | hn⟩
  · have hd : N / 2 = n := by omega
    have hm : N % 2 = 0 := by omega
    rw [hd] at e1 e2 h0
    simp only [truncC2C, padC2C, hd, e1, e2, hm, if_true, h0, if_false]
    have : n ≠ M - n := by omega
    rcases lt_trichotomy i n with h | h | h
    · have c1 : ¬ (N - n ≤ i ∧ i < N) := by omega
      have c2 : i < n + 1 := by omega
      have c3 : i ≠ M - n := by omega
      have c4 : i ≠ n := by omega
      have c5 : ¬ (M - n ≤ i ∧ i < M) := by omega
      simp only [if_neg c1, if_pos c2, Function.update_of_ne c3, Function.update_of_ne c4, if_neg c5]
    · subst h
      have c1 : (N - i ≤ i ∧ i < N) := by omega
      have c2 : i < i + 1 := by omega
      have c5 : ¬ (M - i ≤ i ∧ i < M) := by omega
      have c6 : i - (N - i) + (M - i) = M - i := by omega
      have c7 : (M - i ≤ M - i ∧ M - i < M) := by omega
      have c8 : M - i - (M - i) + (N - i) = i := by omega
      simp only [if_pos c1, if_pos c2, c6, Function.update_self, Function.update_of_ne this,
        Function.update_of_ne this.symm, if_neg c5, if_pos c7, c8]
      ring
    · have c1 : (N - n ≤ i ∧ i < N) := by omega
      have c2 : ¬ i < n + 1 := by omega
      have c3 : i - (N - n) + (M - n) ≠ M - n := by omega
      have c4 : i - (N - n) + (M - n) ≠ n := by omega
      have c5 : (M - n ≤ i - (N - n) + (M - n) ∧ i - (N - n) + (M - n) < M) := by omega
      have c6 : i - (N - n) + (M - n) - (M - n) + (N - n) = i := by omega
      simp only [if_pos c1, if_neg c2, Function.update_of_ne c3, Function.update_of_ne c4, if_pos c5, c6]
      ring
  · have hd : N / 2 = n := by omega
    have hm : ¬ N % 2 = 0 := by omega
    rw [hd] at e1 e2 h0
    simp only [truncC2C, padC2C, hd, e1, e2, if_neg hm, h0, if_false]
    rcases lt_or_ge i (n + 1) with h | h
    · have c1 : ¬ (N - n ≤ i ∧ i < N) := by omega
      have c5 : ¬ (M - n ≤ i ∧ i < M) := by omega
      simp only [if_neg c1, if_pos h, if_neg c5]
    · have c1 : (N - n ≤ i ∧ i < N) := by omega
      have c2 : ¬ i < n + 1 := by omega
      have c5 : (M - n ≤ i - (N - n) + (M - n) ∧ i - (N - n) + (M - n) < M) := by omega
      have c6 : i - (N - n) + (M - n) - (M - n) + (N - n) = i := by omega
      simp only [if_pos c1, if_neg c2, if_pos c5, c6]
      ring

/-- **C18** (real).  Truncating the padded array gives back the `N/2+1` coefficients; for even `N` the
imaginary part of the Nyquist coefficient, which carries no information for real functions, is dropped. -/
theorem C18_R2C (N : ℕ) (u : ℕ → ℂ) (i : ℕ) (hi : i < N / 2 + 1) :
    truncR2C N (padR2C N u) i = if N % 2 = 0 ∧ i = N / 2 then ((u i).re : ℂ) else u i := by
  by_cases hm : N % 2 = 0
  · by_cases h : i = N / 2
    · subst h
      simp only [truncR2C, padR2C, hm, if_true, Function.update_self, if_pos (Nat.lt_succ_self (N / 2)), and_self]
      have e : (((u (N / 2)).re : ℂ) * 0.5).re = (u (N / 2)).re * 0.5 := by
        rw [show (0.5 : ℂ) = ((0.5 : ℝ) : ℂ) by push_cast; norm_num, ← Complex.ofReal_mul, Complex.ofReal_re]
      rw [e]
      push_cast
      ring
    · simp only [truncR2C, padR2C, hm, if_true, Function.update_of_ne h, if_pos hi, h, and_false, if_false]
  · simp only [truncR2C, padR2C, if_neg hm, if_pos hi, hm, false_and, if_false]

/-- For `N = 1` and more than one padded point the complex padding is wrong: the slice `[-0:]` is the whole
array, so the mean value is also written to other wavenumbers. -/
theorem C18_one_point_broadcast (u : ℕ → ℂ) : padC2C 1 2 u 0 = u 0 ∧ padC2C 1 2 u 1 = u 0 := by
  simp [padC2C, tailStart]

/-! ## C19: the padded coefficients represent the same function -/

/-- **C19** (complex).  For every wavenumber, the coefficient of the function represented by the padded
array of length `M` is the coefficient of the function represented by the original array. -/
theorem C19_C2C (N M : ℕ) (hN : 2 ≤ N) (hM : N < M) (u : ℕ → ℂ) :
    Spec.coefC M (padC2C N M u) = Spec.coefC N u := by
  funext k
  have h0 : N / 2 ≠ 0 := by omega
  have e1 : tailStart N (N / 2) = N - N / 2 := by simp [tailStart, h0]
  have e2 : tailStart M (N / 2) = M - N / 2 := by simp [tailStart, h0]
  have hmodM : ∀ k : ℤ, 2 * |k| < M → (k % (M : ℤ)).toNat = if 0 ≤ k then k.toNat else M - (-k).toNat := by
    intro k hk
    split_ifs with h
    · rw [abs_of_nonneg h] at hk
      rw [Int.emod_eq_of_lt h (by omega)]
    · rw [abs_of_neg (by omega)] at hk
      rw [← Int.add_emod_right, Int.emod_eq_of_lt (by omega) (by omega)]
      omega
  have hmodN : ∀ k : ℤ, 2 * |k| < N → (k % (N : ℤ)).toNat = if 0 ≤ k then k.toNat else N - (-k).toNat := by
    intro k hk
    split_ifs with h
    · rw [abs_of_nonneg h] at hk
      rw [Int.emod_eq_of_lt h (by omega)]
    · rw [abs_of_neg (by omega)] at hk
      rw [← Int.add_emod_right, Int.emod_eq_of_lt (by omega) (by omega)]
      omega
  -- value of the padded array
  have val : ∀ i < M, padC2C N M u i =
      if N % 2 = 0 ∧ (i = N / 2 ∨ i = M - N / 2) then u (N / 2) / 2
      else if i < N / 2 + 1 then u i else if M - N / 2 ≤ i then u (i + N - M) else 0 := by
    intro i hi
    rcases Nat.even_or_odd' N with ⟨n, hn | hn⟩
    · have hd : N / 2 = n := by omega
      have hm : N % 2 = 0 := by omega
      rw [hd] at e1 e2 h0
      simp only [padC2C, hd, e1, e2, hm, if_true, h0, if_false, true_and]
      have : n ≠ M - n := by omega
      by_cases ha : i = M - n
      · subst ha
        have c7 : (M - n ≤ M - n ∧ M - n < M) := by omega
        have c8 : M - n - (M - n) + (N - n) = n := by omega
        have hv : u (N - n) = u n := by congr 1; omega
        simp only [Function.update_self, Function.update_of_ne this.symm, if_pos c7, c8, or_true, if_true, Nat.sub_self, zero_add, hv]
        ring
      · by_cases hb : i = n
        · subst hb
          have c5 : ¬ (M - i ≤ i ∧ i < M) := by omega
          simp only [Function.update_of_ne ha, Function.update_self, if_neg c5, if_pos (Nat.lt_succ_self i), true_or, if_true]
          ring
        · have hor : ¬ (i = n ∨ i = M - n) := by omega
          rw [if_neg hor, Function.update_of_ne ha, Function.update_of_ne hb]
          by_cases hc : M - n ≤ i
          · have c2 : ¬ i < n + 1 := by omega
            rw [if_pos ⟨hc, hi⟩, if_neg c2, if_pos hc]
            congr 1; omega
          · rw [if_neg (by tauto), if_neg hc]
    · have hd : N / 2 = n := by omega
      have hm : ¬ N % 2 = 0 := by omega
      rw [hd] at e1 e2 h0
      simp only [padC2C, hd, e1, e2, if_neg hm, h0, if_false]
      rw [if_neg (t := u n / 2) (fun h => hm h.1)]
      by_cases hc : M - n ≤ i
      · have c2 : ¬ i < n + 1 := by omega
        rw [if_pos ⟨hc, hi⟩, if_neg c2, if_pos hc]
        congr 1; omega
      · rw [if_neg (fun h => hc h.1), if_neg hc]
  simp only [Spec.coefC]
  by_cases h1 : 2 * |k| < M
  · rw [if_pos h1, hmodM k h1]
    by_cases h2 : 2 * |k| < N
    · rw [if_pos h2, hmodN k h2]
      split_ifs with hk
      · rw [abs_of_nonneg hk] at h1 h2
        rw [val _ (by omega), if_neg (by omega), if_pos (by omega)]
      · rw [abs_of_neg (by omega)] at h1 h2
        rw [val _ (by omega), if_neg (by omega), if_neg (by omega), if_pos (by omega)]
        congr 1; omega
    · rw [if_neg h2]
      by_cases h3 : 2 * |k| = N
      · rw [if_pos h3]
        split_ifs with hk
        · rw [abs_of_nonneg hk] at h1 h2 h3
          rw [val _ (by omega), if_pos (by omega)]
        · rw [abs_of_neg (by omega)] at h1 h2 h3
          rw [val _ (by omega), if_pos (by omega)]
      · rw [if_neg h3]
        split_ifs with hk
        · rw [abs_of_nonneg hk] at h1 h2 h3
          rw [val _ (by omega), if_neg (by omega), if_neg (by omega), if_neg (by omega)]
        · rw [abs_of_neg (by omega)] at h1 h2 h3
          rw [val _ (by omega), if_neg (by omega), if_neg (by omega), if_neg (by omega)]
  · rw [if_neg h1]
    have r1 : ¬ 2 * |k| < N := by omega
    have r2 : ¬ 2 * |k| = N := by omega
    simp only [if_neg r1, if_neg r2]
    split_ifs with h2
    · rw [val _ (by omega)]
      rw [if_neg (by omega), if_neg (by omega), if_neg (by omega)]
      simp
    · rfl

/-- **C19** (real). -/
theorem C19_R2C (N M : ℕ) (hN : 1 ≤ N) (hM : N < M) (u : ℕ → ℂ) :
    Spec.coefR M (padR2C N u) = Spec.coefR N u := by
  funext k
  have val : ∀ i, padR2C N u i = if N % 2 = 0 ∧ i = N / 2 then ((u (N / 2)).re : ℂ) / 2
      else if i < N / 2 + 1 then u i else 0 := by
    intro i
    by_cases hm : N % 2 = 0
    · by_cases h : i = N / 2
      · subst h
        simp only [padR2C, hm, if_true, Function.update_self, true_and, if_pos (Nat.lt_succ_self (N / 2))]
        ring
      · simp only [padR2C, hm, if_true, Function.update_of_ne h, true_and, h, if_false]
    · simp [padR2C, hm]
  simp only [Spec.coefR]
  have hre : ∀ x : ℝ, ((x : ℂ) / 2) = ((x / 2 : ℝ) : ℂ) := by intro x; push_cast; rfl
  by_cases h1 : 2 * |k| < M
  · rw [if_pos h1]
    by_cases h2 : 2 * |k| < N
    · rw [if_pos h2]
      split_ifs with hk hk'
      · rw [val, if_neg (by omega), if_pos (by omega)]
      · rw [abs_of_pos hk'] at h2
        rw [val, if_neg (by omega), if_pos (by omega)]
      · rw [abs_of_neg (by omega)] at h2
        rw [val, if_neg (by omega), if_pos (by omega)]
    · rw [if_neg h2]
      have hk0 : k ≠ 0 := by rintro rfl; simp at h2; omega
      rw [if_neg hk0]
      by_cases h3 : 2 * |k| = N
      · rw [if_pos h3]
        split_ifs with hk'
        · rw [abs_of_pos hk'] at h3
          rw [val, if_pos (by omega)]
        · rw [abs_of_neg (by omega)] at h3
          rw [val, if_pos (by omega), hre, Complex.conj_ofReal]
      · rw [if_neg h3]
        split_ifs with hk'
        · rw [abs_of_pos hk'] at h2 h3
          rw [val, if_neg (by omega), if_neg (by omega)]
        · rw [abs_of_neg (by omega)] at h2 h3
          rw [val, if_neg (by omega), if_neg (by omega), map_zero]
  · rw [if_neg h1]
    have r1 : ¬ 2 * |k| < N := by omega
    have r2 : ¬ 2 * |k| = N := by omega
    simp only [if_neg r1, if_neg r2]
    split_ifs with h2
    · rw [val, if_neg (by omega), if_neg (by omega)]
      simp
    · rfl

/-! ### Mesh values -/

theorem wave_add (k l : ℤ) (x : ℝ) : wave (k + l) x = wave k x * wave l x := by
  simp only [wave, ← Complex.exp_add]
  congr 1
  push_cast
  ring

theorem wave_mesh_period (M : ℕ) (hM : M ≠ 0) (j : ℕ) (m : ℤ) : wave (m * M) (mesh M j) = 1 := by
  rw [wave, Complex.exp_eq_one_iff]
  refine ⟨m * j, ?_⟩
  have : (M : ℂ) ≠ 0 := by exact_mod_cast hM
  simp only [mesh]
  push_cast
  field_simp

theorem wave_mesh_congr (M : ℕ) (hM : M ≠ 0) (j : ℕ) {k l : ℤ} (h : (M : ℤ) ∣ k - l) :
    wave k (mesh M j) = wave l (mesh M j) := by
  obtain ⟨m, hm⟩ := h
  have : k = m * M + l := by rw [mul_comm]; omega
  rw [this, wave_add, wave_mesh_period M hM j m, one_mul]

theorem wave_pow (d : ℤ) (M j : ℕ) : wave d (mesh M j) = (wave d (mesh M 1)) ^ j := by
  simp only [wave, ← Complex.exp_nat_mul]
  congr 1
  simp only [mesh]
  push_cast
  ring

/-- Discrete orthogonality. -/
theorem sum_wave (M : ℕ) (hM : M ≠ 0) (d : ℤ) :
    ∑ j ∈ range M, wave d (mesh M j) = if (M : ℤ) ∣ d then (M : ℂ) else 0 := by
  by_cases hd : (M : ℤ) ∣ d
  · rw [if_pos hd, Finset.sum_congr rfl fun j _ => wave_mesh_congr M hM j (l := 0) (by simpa using hd)]
    simp [wave]
  · rw [if_neg hd, Finset.sum_congr rfl fun j _ => wave_pow d M j]
    have hne : wave d (mesh M 1) ≠ 1 := by
      intro h
      rw [wave, Complex.exp_eq_one_iff] at h
      obtain ⟨n, hn⟩ := h
      apply hd
      refine ⟨n, ?_⟩
      have hM' : (M : ℂ) ≠ 0 := by exact_mod_cast hM
      simp only [mesh] at hn
      push_cast at hn
      have h2 : (2 * (Real.pi : ℂ) * I) ≠ 0 := by simp [Real.pi_ne_zero]
      have : ((d : ℂ)) = (M : ℂ) * n := by
        have e : (d : ℂ) * (2 * (Real.pi : ℂ) * I) = (M : ℂ) * n * (2 * (Real.pi : ℂ) * I) := by
          field_simp at hn
          linear_combination (2 * (Real.pi : ℂ) * I) * hn
        exact mul_right_cancel₀ h2 e
      exact_mod_cast this
    have h1 : (wave d (mesh M 1)) ^ M = 1 := by
      rw [← wave_pow, wave, Complex.exp_eq_one_iff]
      refine ⟨d, ?_⟩
      have hM' : (M : ℂ) ≠ 0 := by exact_mod_cast hM
      simp only [mesh]
      push_cast
      field_simp
    rw [geom_sum_eq hne, h1, sub_self, zero_div]

/-- The mesh values FFTW computes from `M` coefficients are the values of the represented trigonometric
polynomial. -/
theorem idft_eq_trig (M : ℕ) (hM : M ≠ 0) (p : ℕ → ℂ) (j : ℕ) :
    idft M p j = Spec.trig M (Spec.coefC M p) (mesh M j) := by
  have hM0 : (0 : ℤ) < M := by omega
  rw [idft, Spec.trig]
  have hmap : ∀ k ∈ Finset.Icc (-(M : ℤ)) M, (k % (M : ℤ)).toNat ∈ range M := by
    intro k _
    have h1 := Int.emod_nonneg k (b := (M : ℤ)) (by omega)
    have h2 := Int.emod_lt_of_pos k hM0
    simp only [Finset.mem_range]
    omega
  rw [← Finset.sum_fiberwise_of_maps_to hmap]
  apply Finset.sum_congr rfl
  intro i hi
  rw [Finset.mem_range] at hi
  have hcong : ∀ k ∈ {k ∈ Finset.Icc (-(M : ℤ)) M | (k % (M : ℤ)).toNat = i}, (M : ℤ) ∣ k - i := by
    intro k hk
    simp only [Finset.mem_filter] at hk
    have h1 := Int.emod_nonneg k (b := (M : ℤ)) (by omega)
    have : k % (M : ℤ) = i := by omega
    rw [← this]
    exact Int.dvd_self_sub_emod
  have hw : ∀ k ∈ {k ∈ Finset.Icc (-(M : ℤ)) M | (k % (M : ℤ)).toNat = i},
      Spec.coefC M p k * exp (I * k * (mesh M j)) = Spec.coefC M p k * wave i (mesh M j) := by
    intro k hk
    have := wave_mesh_congr M hM j (hcong k hk)
    rw [← this]
    rfl
  rw [Finset.sum_congr rfl hw, ← Finset.sum_mul]
  congr 1
  have hsub : ({(i : ℤ), (i : ℤ) - M} : Finset ℤ) ⊆ {k ∈ Finset.Icc (-(M : ℤ)) M | (k % (M : ℤ)).toNat = i} := by
    intro k hk
    simp only [Finset.mem_insert, Finset.mem_singleton] at hk
    simp only [Finset.mem_filter, Finset.mem_Icc]
    rcases hk with rfl | rfl
    · rw [Int.emod_eq_of_lt (by omega) (by omega)]; omega
    · rw [Int.sub_emod_right, Int.emod_eq_of_lt (by omega) (by omega)]; omega
  rw [← Finset.sum_subset hsub]
  · rw [Finset.sum_pair (by omega)]
    simp only [Spec.coefC]
    rcases lt_trichotomy (2 * i) M with h | h | h
    · rw [if_pos (by rw [abs_of_nonneg (by omega)]; omega), if_neg (by rw [abs_of_neg (by omega)]; omega),
        if_neg (by rw [abs_of_neg (by omega)]; omega), Int.emod_eq_of_lt (by omega) (by omega)]
      simp
    · rw [if_neg (by rw [abs_of_nonneg (by omega)]; omega), if_pos (by rw [abs_of_nonneg (by omega)]; omega),
        if_neg (by rw [abs_of_neg (by omega)]; omega), if_pos (by rw [abs_of_neg (by omega)]; omega)]
      have : M / 2 = i := by omega
      rw [this]; ring
    · rw [if_neg (by rw [abs_of_nonneg (by omega)]; omega), if_neg (by rw [abs_of_nonneg (by omega)]; omega),
        if_pos (by rw [abs_of_neg (by omega)]; omega), Int.sub_emod_right, Int.emod_eq_of_lt (by omega) (by omega)]
      simp
  · intro k hk hkn
    obtain ⟨m, hm⟩ := hcong k hk
    simp only [Finset.mem_insert, Finset.mem_singleton, not_or] at hkn
    simp only [Spec.coefC]
    have : ¬ (2 * |k| ≤ M) := by
      intro hle
      have hb : -(M : ℤ) ≤ 2 * k ∧ 2 * k ≤ M := by
        have := abs_le.1 (show |k| ≤ |k| from le_refl _)
        omega
      have hm1 : m < 1 := by
        by_contra hc
        have : (M : ℤ) * 1 ≤ M * m := Int.mul_le_mul_of_nonneg_left (by omega) (by omega)
        omega
      have hm2 : -2 < m := by
        by_contra hc
        have : (M : ℤ) * m ≤ M * (-2) := Int.mul_le_mul_of_nonneg_left (by omega) (by omega)
        omega
      have : m = 0 ∨ m = -1 := by omega
      rcases this with rfl | rfl
      · exact hkn.1 (by omega)
      · exact hkn.2 (by omega)
    rw [if_neg (by omega), if_neg (by omega)]

theorem trig_eq_of_support (B B' : ℕ) (c : ℤ → ℂ) (hB : ∀ k, c k ≠ 0 → |k| ≤ B) (hB' : ∀ k, c k ≠ 0 → |k| ≤ B') (x : ℝ) :
    Spec.trig B c x = Spec.trig B' c x := by
  have key : ∀ B B' : ℕ, B ≤ B' → (∀ k, c k ≠ 0 → |k| ≤ B) → Spec.trig B c x = Spec.trig B' c x := by
    intro B B' hle hB
    apply Finset.sum_subset
    · intro k hk
      simp only [Finset.mem_Icc] at hk ⊢
      omega
    · intro k _ hk
      have : c k = 0 := by
        by_contra hc
        have := abs_le.1 (hB k hc)
        simp only [Finset.mem_Icc] at hk
        omega
      rw [this, zero_mul]
  rcases le_total B B' with h | h
  · exact key B B' h hB
  · exact (key B' B h hB').symm

theorem coefC_support (N : ℕ) (u : ℕ → ℂ) (k : ℤ) (h : Spec.coefC N u k ≠ 0) : 2 * |k| ≤ N := by
  by_contra hc
  apply h
  rw [Spec.coefC, if_neg (by omega), if_neg (by omega)]

theorem coefR_support (N : ℕ) (u : ℕ → ℂ) (k : ℤ) (h : Spec.coefR N u k ≠ 0) : 2 * |k| ≤ N := by
  by_contra hc
  apply h
  rw [Spec.coefR, if_neg (by omega), if_neg (by omega)]

/-- The Hermitian array of FFTW represents the real function. -/
theorem coefC_herm (M : ℕ) (hM : M ≠ 0) (p : ℕ → ℂ) : Spec.coefC M (herm M p) = Spec.coefR M p := by
  funext k
  simp only [Spec.coefC, Spec.coefR]
  by_cases h : 2 * |k| < M
  · rw [if_pos h, if_pos h]
    split_ifs with h0 h1
    · subst h0; simp [herm]
    · rw [abs_of_pos h1] at h
      rw [Int.emod_eq_of_lt (by omega) (by omega), herm, if_neg (by omega), if_pos (by omega)]
    · rw [abs_of_neg (by omega)] at h
      rw [← Int.add_emod_right, Int.emod_eq_of_lt (by omega) (by omega), herm, if_neg (by omega), if_neg (by omega),
        if_neg (by omega)]
      congr 2
      omega
  · rw [if_neg h, if_neg h]
    split_ifs with h2
    · have hk : |k| ≠ 0 := by omega
      have : 2 * (M / 2) = M := by omega
      rw [herm, if_neg (by omega), if_neg (by omega), if_pos this]
    · rfl

/-- **C19** (values, complex).  The padded backward transform evaluates, on the finer mesh of `M` points, the
trigonometric polynomial represented by the original `N` coefficients. -/
theorem C19_values_C2C (N M : ℕ) (hN : 2 ≤ N) (hM : N < M) (u : ℕ → ℂ) (j : ℕ) :
    idft M (padC2C N M u) j = Spec.trig N (Spec.coefC N u) (mesh M j) := by
  rw [idft_eq_trig M (by omega), C19_C2C N M hN hM]
  apply trig_eq_of_support
  · intro k hk; have := coefC_support N u k hk; omega
  · intro k hk; have := coefC_support N u k hk; omega

/-- **C19** (values, real). -/
theorem C19_values_R2C (N M : ℕ) (hN : 1 ≤ N) (hM : N < M) (u : ℕ → ℂ) (j : ℕ) :
    irfft M (padR2C N u) j = Spec.trig N (Spec.coefR N u) (mesh M j) := by
  rw [irfft, idft_eq_trig M (by omega), coefC_herm M (by omega), C19_R2C N M hN hM]
  apply trig_eq_of_support
  · intro k hk; have := coefR_support N u k hk; omega
  · intro k hk; have := coefR_support N u k hk; omega

/-! ## C20 -/

/-- **C20** (complex).  For `N ≥ 6`, `dealias_direct` removes exactly the wavenumbers `|k| ≥ N//3`. -/
theorem C20_C2C (N : ℕ) (hN : 6 ≤ N) (u : ℕ → ℂ) (i : ℕ) (hi : i < N) :
    dealiasC2C N u i = if (N / 3 : ℕ) ≤ |Spec.freq N i| then 0 else u i := by
  have hs : sliceStop N (-((N / 3 : ℕ) : ℤ) + 1) = N - N / 3 + 1 := by
    simp only [sliceStop]
    rw [if_pos (by omega)]
    omega
  rw [dealiasC2C, hs, Spec.freq]
  by_cases h : 2 * i < N
  · rw [if_pos h, abs_of_nonneg (by omega)]
    congr 1
    apply propext
    omega
  · rw [if_neg h, abs_of_neg (by omega)]
    congr 1
    apply propext
    omega

/-- **C20** (real).  For all `N`, `dealias_direct` removes exactly the wavenumbers `k ≥ N//3`. -/
theorem C20_R2C (N : ℕ) (u : ℕ → ℂ) (k : ℕ) :
    dealiasR2C N u k = if N / 3 ≤ k then 0 else u k := rfl

theorem freq_pos (N : ℕ) (k : ℤ) (h : 2 * |k| < N) : Spec.freq N (k % (N : ℤ)).toNat = k ∧ (k % (N : ℤ)).toNat < N := by
  have := abs_le.1 (le_refl |k|)
  rcases le_or_gt 0 k with h0 | h0
  · rw [Int.emod_eq_of_lt h0 (by omega), Spec.freq]
    split_ifs <;> omega
  · rw [← Int.add_emod_right, Int.emod_eq_of_lt (by omega) (by omega), Spec.freq]
    split_ifs <;> omega

/-- **C20** (values, complex).  With `dealias_direct` the backward transform evaluates the function with all
wavenumbers `|k| ≥ N//3` removed. -/
theorem C20_values_C2C (N : ℕ) (hN : 6 ≤ N) (u : ℕ → ℂ) (j : ℕ) :
    idft N (dealiasC2C N u) j
      = Spec.trig N (fun k => if (N / 3 : ℕ) ≤ |k| then 0 else Spec.coefC N u k) (mesh N j) := by
  rw [idft_eq_trig N (by omega)]
  congr 1
  funext k
  simp only [Spec.coefC]
  by_cases h : 2 * |k| < N
  · obtain ⟨h1, h2⟩ := freq_pos N k h
    rw [if_pos h, if_pos h, C20_C2C N hN u _ h2, h1]
  · have r : ((N / 3 : ℕ) : ℤ) ≤ |k| := by omega
    rw [if_neg h, if_neg h, if_pos r]
    split_ifs with h2
    · have hf : (N / 3 : ℕ) ≤ |Spec.freq N (N / 2)| := by
        rw [Spec.freq, if_neg (by omega), abs_of_neg (by omega)]
        omega
      rw [C20_C2C N hN u _ (by omega), if_pos hf, zero_div]
    · rfl

/-- **C20** (values, real). -/
theorem C20_values_R2C (N : ℕ) (hN : 1 ≤ N) (u : ℕ → ℂ) (j : ℕ) :
    irfft N (dealiasR2C N u) j
      = Spec.trig N (fun k => if (N / 3 : ℕ) ≤ |k| then 0 else Spec.coefR N u k) (mesh N j) := by
  rw [irfft, idft_eq_trig N (by omega), coefC_herm N (by omega)]
  congr 1
  funext k
  simp only [Spec.coefR, dealiasR2C]
  have hk : |k| = if 0 ≤ k then k else -k := by
    split_ifs with h
    · exact abs_of_nonneg h
    · exact abs_of_neg (by omega)
  rw [hk]
  by_cases h : 2 * (if 0 ≤ k then k else -k) < N
  · rw [if_pos h, if_pos h]
    by_cases h3 : ((N / 3 : ℕ) : ℤ) ≤ if 0 ≤ k then k else -k
    · rw [if_pos h3]
      split_ifs at h h3 ⊢ <;> first | rfl | omega | simp
    · rw [if_neg h3]
      split_ifs at h h3 ⊢ <;> first | rfl | omega
  · have r : ((N / 3 : ℕ) : ℤ) ≤ if 0 ≤ k then k else -k := by
      split_ifs at h ⊢ <;> omega
    rw [if_neg h, if_neg h, if_pos r]
    split_ifs <;> first | rfl | omega | simp

/-- For `N = 3, 4, 5` the slice `[1:0]` is empty and nothing at all is removed. -/
theorem C20_C2C_small (N : ℕ) (hN : 3 ≤ N) (hN' : N ≤ 5) (u : ℕ → ℂ) : dealiasC2C N u = u := by
  funext i
  have h3 : N / 3 = 1 := by omega
  simp [dealiasC2C, sliceStop, h3]

/-- The full statement of C20 for the complex transform. -/
def C20Full : Prop := ∀ (N : ℕ) (u : ℕ → ℂ) (i : ℕ), i < N →
  dealiasC2C N u i = if (N / 3 : ℕ) ≤ |Spec.freq N i| then 0 else u i

theorem C20_full_refuted : ¬ C20Full := by
  intro h
  have := h 4 (fun _ => 1) 2 (by omega)
  rw [C20_C2C_small 4 (by omega) (by omega)] at this
  norm_num [Spec.freq] at this

/-! ## C21 -/

/-- What the transform computes for the product of two trigonometric polynomials: all wavenumbers that are
equal modulo `M` are lumped together. -/
theorem dft_product (M : ℕ) (hM : M ≠ 0) (B : ℕ) (c d : ℤ → ℂ) (i : ℕ) :
    dft M (fun j => Spec.trig B c (mesh M j) * Spec.trig B d (mesh M j)) i
      = ∑ p ∈ Finset.Icc (-(B : ℤ)) B, ∑ q ∈ Finset.Icc (-(B : ℤ)) B,
          if (M : ℤ) ∣ p + q - i then c p * d q else 0 := by
  have hM' : (M : ℂ) ≠ 0 := by exact_mod_cast hM
  have e : ∀ j, Spec.trig B c (mesh M j) * Spec.trig B d (mesh M j) * wave (-i) (mesh M j)
      = ∑ p ∈ Finset.Icc (-(B : ℤ)) B, ∑ q ∈ Finset.Icc (-(B : ℤ)) B, c p * d q * wave (p + q - i) (mesh M j) := by
    intro j
    simp only [Spec.trig]
    rw [Finset.sum_mul_sum, Finset.sum_mul]
    apply Finset.sum_congr rfl; intro p _
    rw [Finset.sum_mul]
    apply Finset.sum_congr rfl; intro q _
    rw [show p + q - (i : ℤ) = p + (q + -(i : ℤ)) by ring, wave_add, wave_add]
    simp only [wave]
    ring
  rw [dft, Finset.sum_congr rfl fun j _ => e j, Finset.sum_comm, Finset.sum_mul]
  apply Finset.sum_congr rfl; intro p _
  rw [Finset.sum_comm, Finset.sum_mul]
  apply Finset.sum_congr rfl; intro q _
  rw [← Finset.mul_sum, sum_wave M hM]
  split_ifs
  · field_simp
  · simp

theorem conv_eq_sum (B : ℕ) (c d : ℤ → ℂ) (hd : ∀ k, d k ≠ 0 → |k| ≤ B) (k : ℤ) :
    ∑ p ∈ Finset.Icc (-(B : ℤ)) B, ∑ q ∈ Finset.Icc (-(B : ℤ)) B, (if p + q = k then c p * d q else 0)
      = Spec.conv B c d k := by
  rw [Spec.conv]
  apply Finset.sum_congr rfl; intro p _
  by_cases hq : d (k - p) = 0
  · rw [hq, mul_zero]
    apply Finset.sum_eq_zero
    intro q _
    split_ifs with h
    · rw [show q = k - p by omega, hq, mul_zero]
    · rfl
  · have := abs_le.1 (hd _ hq)
    rw [Finset.sum_eq_single (k - p)]
    · rw [if_pos (by ring)]
    · intro q _ hne
      rw [if_neg (by omega)]
    · intro hc
      simp only [Finset.mem_Icc] at hc
      omega

/-- Position of wavenumber `k` in an array of length `M`. -/
def pos (M : ℕ) (k : ℤ) : ℕ := if 0 ≤ k then k.toNat else M - (-k).toNat

/-- The transform of the product is exact at every wavenumber for which no alias is in the support. -/
theorem dft_product_exact (M N : ℕ) (hM : M ≠ 0) (c d : ℤ → ℂ)
    (hc : ∀ k, c k ≠ 0 → 2 * |k| ≤ N) (hd : ∀ k, d k ≠ 0 → 2 * |k| ≤ N) (k : ℤ) (hk : 2 * ((N / 2 : ℕ) : ℤ) + |k| < M) :
    dft M (fun j => Spec.trig N c (mesh M j) * Spec.trig N d (mesh M j)) (pos M k) = Spec.conv N c d k := by
  rw [dft_product M hM, ← conv_eq_sum N c d (fun k hk => by have := hd k hk; omega)]
  apply Finset.sum_congr rfl; intro p _
  apply Finset.sum_congr rfl; intro q _
  by_cases hcp : c p = 0
  · simp [hcp]
  by_cases hdq : d q = 0
  · simp [hdq]
  have h1 := hc p hcp
  have h2 := hd q hdq
  have hdvd : ((M : ℤ) ∣ p + q - (pos M k : ℤ)) ↔ p + q = k := by
    have hpos : ((pos M k : ℕ) : ℤ) = k ∨ ((pos M k : ℕ) : ℤ) = k + M := by
      have := abs_lt.1 (show |k| < |k| + 1 by omega)
      simp only [pos]
      split_ifs with h0
      · left; omega
      · right; omega
    have hd' : ((M : ℤ) ∣ p + q - (pos M k : ℤ)) ↔ (M : ℤ) ∣ p + q - k := by
      rcases hpos with h | h
      · rw [h]
      · rw [h, show p + q - (k + M) = p + q - k - M by ring]
        exact dvd_sub_self_right
    rw [hd']
    constructor
    · intro h
      have := Int.eq_zero_of_abs_lt_dvd h (by
        have a1 : |p + q - k| ≤ |p + q| + |k| := abs_sub _ _
        have a2 : |p + q| ≤ |p| + |q| := abs_add_le _ _
        omega)
      omega
    · intro h
      simp [h]
  simp only [hdvd]

theorem truncC2C_low (N M : ℕ) (hN : 2 ≤ N) (hM : N < M) (p : ℕ → ℂ) (k : ℤ) (hk : 2 * |k| < N) :
    truncC2C N M p (pos N k) = p (pos M k) := by
  have h0 : N / 2 ≠ 0 := by omega
  simp only [truncC2C, tailStart, if_neg h0, pos]
  have := abs_le.1 (le_refl |k|)
  split_ifs <;> first | omega | (simp only [zero_add]; congr 1; omega) | rfl

/-- **C21** (complex).  With at least `⌊3N/2⌋` points in the padded mesh, every coefficient of the dealiased
product with `|k| < N/2` is the exact coefficient of the product of the two trigonometric polynomials. -/
theorem C21_C2C (N M : ℕ) (hN : 2 ≤ N) (hM : N < M) (hpad : 3 * N ≤ 2 * M + 1) (u v : ℕ → ℂ) (k : ℤ)
    (hk : 2 * |k| < N) :
    convolveC2C N M u v (pos N k) = Spec.conv N (Spec.coefC N u) (Spec.coefC N v) k := by
  rw [convolveC2C, truncC2C_low N M hN hM _ k hk]
  simp only [C19_values_C2C N M hN hM]
  exact dft_product_exact M N (by omega) _ _ (coefC_support N u) (coefC_support N v) k (by omega)

/-- **C21** (complex, Nyquist).  For even `N`, if the padded mesh has more than `3N/2` points, the coefficient
in the Nyquist position is the sum of the exact ones for `±N/2`: it is the Nyquist coefficient of the
truncated product. -/
theorem C21_C2C_nyquist (N M : ℕ) (hN : 2 ≤ N) (hM : N < M) (heven : N % 2 = 0) (hpad : 3 * N < 2 * M)
    (u v : ℕ → ℂ) :
    convolveC2C N M u v (N / 2) = Spec.conv N (Spec.coefC N u) (Spec.coefC N v) ((N / 2 : ℕ) : ℤ)
      + Spec.conv N (Spec.coefC N u) (Spec.coefC N v) (-((N / 2 : ℕ) : ℤ)) := by
  have h0 : N / 2 ≠ 0 := by omega
  rw [← dft_product_exact M N (by omega) _ _ (coefC_support N u) (coefC_support N v) ((N / 2 : ℕ) : ℤ)
      (by rw [abs_of_nonneg (by omega)]; omega),
    ← dft_product_exact M N (by omega) _ _ (coefC_support N u) (coefC_support N v) (-((N / 2 : ℕ) : ℤ))
      (by rw [abs_neg, abs_of_nonneg (by omega)]; omega)]
  simp only [convolveC2C, truncC2C, tailStart, if_neg h0, C19_values_C2C N M hN hM]
  rw [if_pos (by omega), if_pos (by omega)]
  congr 2
  · simp only [pos]; rw [if_neg (by omega)]; omega

/-- **C21** (real).  The same for real functions. -/
theorem C21_R2C (N M : ℕ) (hN : 1 ≤ N) (hM : N < M) (hpad : 3 * N ≤ 2 * M + 1) (u v : ℕ → ℂ) (k : ℕ)
    (hk : 2 * k < N) :
    convolveR2C N M u v k = Spec.conv N (Spec.coefR N u) (Spec.coefR N v) k := by
  rw [← dft_product_exact M N (by omega) _ _ (coefR_support N u) (coefR_support N v) k
      (by rw [abs_of_nonneg (by omega)]; omega)]
  have hp : pos M (k : ℤ) = k := by simp [pos]
  have h1 : k < N / 2 + 1 := by omega
  have h2 : k < M / 2 + 1 := by omega
  rw [hp]
  simp only [convolveR2C, truncR2C, C19_values_R2C N M hN hM]
  by_cases h : N % 2 = 0
  · have hne : k ≠ N / 2 := by omega
    simp only [h, if_true, Function.update_of_ne hne, if_pos h1, rfft, if_pos h2]
  · simp only [h, if_false, if_pos h1, rfft, if_pos h2]

/-- C21 is not true of the Nyquist coefficient of even `N` when the padded mesh has exactly `3N/2` points:
the wavenumbers `N` and `-N` of the product are aliased to it. -/
theorem C21_nyquist_refuted :
    ¬ ∀ (N M : ℕ) (u v : ℕ → ℂ), 2 ≤ N → N < M → N % 2 = 0 → 3 * N ≤ 2 * M →
      convolveC2C N M u v (N / 2) = Spec.conv N (Spec.coefC N u) (Spec.coefC N v) ((N / 2 : ℕ) : ℤ)
        + Spec.conv N (Spec.coefC N u) (Spec.coefC N v) (-((N / 2 : ℕ) : ℤ)) := by
  intro h
  have h1 := h 2 3 (fun i => if i = 1 then 1 else 0) (fun i => if i = 1 then 1 else 0) (by omega) (by omega) rfl (by omega)
  simp only [convolveC2C, truncC2C, tailStart, C19_values_C2C 2 3 (by omega) (by omega)] at h1
  norm_num [dft_product, Spec.conv] at h1
  rw [show Finset.Icc (-2 : ℤ) 2 = {-2, -1, 0, 1, 2} by decide] at h1
  norm_num [Spec.coefC, Finset.sum_insert, Int.emod_eq_of_lt] at h1

/-- Non-vacuity: `cos(x)² = 1/2 + cos(2x)/2`, with 4 coefficients and 6 points. -/
example : convolveC2C 4 6 (fun i => if i = 1 ∨ i = 3 then 1 / 2 else 0) (fun i => if i = 1 ∨ i = 3 then 1 / 2 else 0)
    (pos 4 0) = 1 / 2 := by
  rw [C21_C2C 4 6 (by omega) (by omega) (by omega) _ _ 0 (by simp), Spec.conv]
  norm_num
  rw [show Finset.Icc (-4 : ℤ) 4 = {-4, -3, -2, -1, 0, 1, 2, 3, 4} by decide]
  norm_num [Spec.coefC, Finset.sum_insert, show Int.toNat 3 = 3 from rfl]

end Shenfun.Fourier
