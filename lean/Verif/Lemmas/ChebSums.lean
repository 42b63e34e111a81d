import Verif.Lemmas.ChebGauss

/-!
# Trigonometric sums over the Chebyshev points
-/

namespace Shenfun

open Real

/-- `Σ_{j<n} cos((j+½)kπ/n)` vanishes unless `2n` divides `k`. -/
theorem mid_sum {n : ℕ} {k : ℤ} (hk : ¬ (2 * n : ℤ) ∣ k) :
    ∑ j ∈ Finset.range n, cos (k * ((j + 1/2) * π / n)) = 0 := by
  rw [← sum_T_gc hk]
  refine Finset.sum_congr rfl fun j _ => ?_
  rw [gcPt, Polynomial.Chebyshev.T_real_cos]

theorem mid_sum_two_n {n : ℕ} (hn : 0 < n) :
    ∑ j ∈ Finset.range n, cos (((2 * n : ℤ) : ℝ) * ((j + 1/2) * π / n)) = -n := by
  have hn' : (n:ℝ) ≠ 0 := by positivity
  rw [Finset.sum_congr rfl fun j _ => by
    rw [show ((2 * n : ℤ) : ℝ) * ((j + 1/2) * π / n) = π + j * (2 * π) by push_cast; field_simp; ring,
      cos_add_nat_mul_two_pi, cos_pi]]
  simp

/-- The weights of the trapezoidal rule with `n` intervals. -/
noncomputable def trapW (n j : ℕ) : ℝ := 1 / (if j = 0 then 2 else 1) / (if j = n then 2 else 1)

theorem trap_sum {E : Type*} [AddCommGroup E] [Module ℝ E] {n : ℕ} (hn : 0 < n) (f : ℕ → E) :
    ∑ j ∈ Finset.range (n + 1), trapW n j • f j = ∑ j ∈ Finset.range n, (1/2 : ℝ) • (f j + f (j + 1)) := by
  have h1 : ∑ j ∈ Finset.range (n + 1), trapW n j • f j =
      ∑ j ∈ Finset.range (n + 1), f j - (1/2 : ℝ) • f 0 - (1/2 : ℝ) • f n := by
    have hz : ∀ j, j ∈ Finset.range (n+1) →
        trapW n j • f j = f j - (if j = 0 then (1/2 : ℝ) • f 0 else 0) - (if j = n then (1/2 : ℝ) • f n else 0) := by
      intro j _
      unfold trapW
      by_cases h0 : j = 0
      · subst h0
        rw [if_pos rfl, if_pos rfl, if_neg (by omega), if_neg (by omega)]
        module
      · by_cases h1 : j = n
        · subst h1
          rw [if_neg h0, if_neg h0, if_pos rfl, if_pos rfl]
          module
        · rw [if_neg h0, if_neg h0, if_neg h1, if_neg h1]
          module
    rw [Finset.sum_congr rfl hz, Finset.sum_sub_distrib, Finset.sum_sub_distrib, Finset.sum_ite_eq', Finset.sum_ite_eq',
      if_pos (by simp), if_pos (by simp)]
  rw [h1, ← Finset.smul_sum, Finset.sum_add_distrib]
  have h2 := Finset.sum_range_succ f n
  have h3 := Finset.sum_range_succ' f n
  have e1 : ∑ j ∈ Finset.range n, f j = ∑ j ∈ Finset.range (n+1), f j - f n := by rw [h2]; abel
  have e2 : ∑ j ∈ Finset.range n, f (j+1) = ∑ j ∈ Finset.range (n+1), f j - f 0 := by rw [h3]; abel
  rw [e1, e2]
  module

/-- `Σ''_{j≤n} cos(jkπ/n)` vanishes unless `2n` divides `k`. -/
theorem trap_cos {n : ℕ} (hn : 0 < n) {k : ℤ} (hk : ¬ (2 * n : ℤ) ∣ k) :
    ∑ j ∈ Finset.range (n + 1), trapW n j * cos (k * (j * π / n)) = 0 := by
  have hn' : (n:ℝ) ≠ 0 := by positivity
  have := trap_sum hn fun j => cos (k * (j * π / n))
  simp only [smul_eq_mul] at this
  rw [this, Finset.sum_congr rfl fun j _ => by
    rw [cos_add_cos, show (k * (j * π / n) + k * ((j + 1 : ℕ) * π / n)) / 2 = k * ((j + 1/2) * π / n) by
      push_cast; field_simp; ring, show (k * (j * π / n) - k * ((j + 1 : ℕ) * π / n)) / 2 = -(k * π / n / 2) by
      push_cast; field_simp; ring, show 1 / 2 * (2 * cos (k * ((j + 1/2) * π / n)) * cos (-(k * π / n / 2))) =
      cos (-(k * π / n / 2)) * cos (k * ((j + 1/2) * π / n)) by ring], ← Finset.mul_sum, mid_sum hk, mul_zero]

theorem trap_one {n : ℕ} (hn : 0 < n) : ∑ j ∈ Finset.range (n + 1), trapW n j = n := by
  have := trap_sum hn fun _ => (1:ℝ)
  simp only [smul_eq_mul, mul_one] at this
  rw [this]; norm_num

theorem trap_cos_dvd {n : ℕ} (hn : 0 < n) (c : ℤ) :
    ∑ j ∈ Finset.range (n + 1), trapW n j * cos (((2 * n * c : ℤ) : ℝ) * (j * π / n)) = n := by
  have hn' : (n:ℝ) ≠ 0 := by positivity
  refine Eq.trans (Finset.sum_congr rfl fun j _ => ?_) (trap_one hn)
  rw [show ((2 * n * c : ℤ) : ℝ) * (j * π / n) = ((j * c : ℤ) : ℝ) * (2 * π) by push_cast; field_simp,
    cos_int_mul_two_pi, mul_one]

theorem sum_mul_sub_div (s : Finset ℕ) (w f g : ℕ → ℝ) :
    ∑ j ∈ s, w j * (f j / 2 - g j / 2) = (∑ j ∈ s, w j * f j) / 2 - (∑ j ∈ s, w j * g j) / 2 := by
  rw [Finset.sum_div, Finset.sum_div, ← Finset.sum_sub_distrib]
  exact Finset.sum_congr rfl fun j _ => by ring

theorem sum_mul_add_div (s : Finset ℕ) (w f g : ℕ → ℝ) :
    ∑ j ∈ s, w j * (f j / 2 + g j / 2) = (∑ j ∈ s, w j * f j) / 2 + (∑ j ∈ s, w j * g j) / 2 := by
  rw [Finset.sum_div, Finset.sum_div, ← Finset.sum_add_distrib]
  exact Finset.sum_congr rfl fun j _ => by ring

/-- Sine products on the interior points `(j+1)π/(N+1)`. -/
theorem sin_ortho_gu {N m n : ℕ} (hm : m < N) (hn : n < N) :
    ∑ j ∈ Finset.range N, sin ((m + 1) * ((j + 1) * π / (N + 1))) * sin ((n + 1) * ((j + 1) * π / (N + 1))) =
      if m = n then ((N:ℝ) + 1) / 2 else 0 := by
  set f : ℕ → ℝ := fun j => sin ((m + 1) * (j * π / (N + 1 : ℕ))) * sin ((n + 1) * (j * π / (N + 1 : ℕ))) with hf
  have f0 : f 0 = 0 := by simp [hf]
  have hN : ((N + 1 : ℕ) : ℝ) ≠ 0 := by positivity
  have f1 : f (N + 1) = 0 := by
    simp only [hf]
    rw [show ((m:ℝ) + 1) * ((N + 1 : ℕ) * π / (N + 1 : ℕ)) = (m + 1 : ℕ) * π by push_cast; push_cast at hN; field_simp,
      sin_nat_mul_pi, zero_mul]
  have e : ∑ j ∈ Finset.range N, sin ((m + 1) * ((j + 1) * π / (N + 1))) * sin ((n + 1) * ((j + 1) * π / (N + 1))) =
      ∑ j ∈ Finset.range (N + 1 + 1), trapW (N + 1) j * f j := by
    rw [Finset.sum_range_succ', Finset.sum_range_succ, f0, f1, mul_zero, mul_zero, add_zero, add_zero]
    refine Finset.sum_congr rfl fun j hj => ?_
    have hj := Finset.mem_range.1 hj
    rw [trapW, if_neg (by omega), if_neg (by omega)]
    simp only [hf]; push_cast; ring
  have g : ∀ j : ℕ, f j = cos (((m - n : ℤ) : ℝ) * (j * π / (N + 1 : ℕ))) / 2 -
      cos (((m + n + 2 : ℤ) : ℝ) * (j * π / (N + 1 : ℕ))) / 2 := by
    intro j
    simp only [hf]
    rw [show ((m - n : ℤ) : ℝ) * (j * π / (N + 1 : ℕ)) = (m + 1) * (j * π / (N + 1 : ℕ)) - (n + 1) * (j * π / (N + 1 : ℕ)) by
      push_cast; ring, show ((m + n + 2 : ℤ) : ℝ) * (j * π / (N + 1 : ℕ)) =
      (m + 1) * (j * π / (N + 1 : ℕ)) + (n + 1) * (j * π / (N + 1 : ℕ)) by push_cast; ring, cos_sub, cos_add]
    ring
  rw [e, Finset.sum_congr rfl fun j _ => by rw [g], sum_mul_sub_div, trap_cos (n := N + 1) (by omega) (k := m + n + 2)
      (fun h => by have := Int.le_of_dvd (by omega) h; push_cast at this; omega)]
  by_cases h : m = n
  · subst h
    have := trap_cos_dvd (n := N + 1) (by omega) 0
    rw [if_pos rfl, show ((m - m : ℤ)) = 2 * (N + 1 : ℕ) * 0 by push_cast; ring, this]; push_cast; ring
  · rw [if_neg h, trap_cos (n := N + 1) (by omega) (k := m - n)]
    · ring
    · intro hd
      have := Int.eq_zero_of_abs_lt_dvd hd (by rw [abs_lt]; push_cast; omega)
      omega

/-- Sine products on the midpoints `(j+½)π/N`. -/
theorem sin_ortho_gc {N m n : ℕ} (hm : m < N) (hn : n < N) :
    ∑ j ∈ Finset.range N, sin ((m + 1) * ((j + 1/2) * π / N)) * sin ((n + 1) * ((j + 1/2) * π / N)) =
      if m = n then (if m = N - 1 then (N:ℝ) else N / 2) else 0 := by
  have g : ∀ j : ℕ, sin ((m + 1) * ((j + 1/2) * π / N)) * sin ((n + 1) * ((j + 1/2) * π / N)) =
      cos (((m - n : ℤ) : ℝ) * ((j + 1/2) * π / N)) / 2 - cos (((m + n + 2 : ℤ) : ℝ) * ((j + 1/2) * π / N)) / 2 := by
    intro j
    rw [show ((m - n : ℤ) : ℝ) * ((j + 1/2) * π / N) = (m + 1) * ((j + 1/2) * π / N) - (n + 1) * ((j + 1/2) * π / N) by
      push_cast; ring, show ((m + n + 2 : ℤ) : ℝ) * ((j + 1/2) * π / N) =
      (m + 1) * ((j + 1/2) * π / N) + (n + 1) * ((j + 1/2) * π / N) by push_cast; ring, cos_sub, cos_add]
    ring
  rw [Finset.sum_congr rfl fun j _ => g j, Finset.sum_sub_distrib, ← Finset.sum_div, ← Finset.sum_div]
  by_cases h : m = n
  · subst h
    rw [if_pos rfl, show ∑ j ∈ Finset.range N, cos (((m - m : ℤ) : ℝ) * ((j + 1/2) * π / N)) = (N:ℝ) by simp]
    by_cases hl : m = N - 1
    · rw [if_pos hl, show ((m + m + 2 : ℤ)) = (2 * N : ℤ) by omega, mid_sum_two_n (by omega)]; ring
    · rw [if_neg hl, mid_sum]
      · ring
      · intro hd; have := Int.le_of_dvd (by omega) hd; omega
  · rw [if_neg h, mid_sum, mid_sum]
    · ring
    · intro hd; have := Int.le_of_dvd (by omega) hd; omega
    · intro hd
      have := Int.eq_zero_of_abs_lt_dvd hd (by rw [abs_lt]; omega)
      omega

/-- Cosine products with the trapezoidal rule, `m, k ≤ n`. -/
theorem cos_ortho_gl {n m k : ℕ} (hn : 0 < n) (hm : m ≤ n) (hk : k ≤ n) :
    ∑ j ∈ Finset.range (n + 1), trapW n j * (cos (m * (j * π / n)) * cos (k * (j * π / n))) =
      if m = k then (if m = 0 ∨ m = n then (n:ℝ) else n / 2) else 0 := by
  have g : ∀ j : ℕ, cos (m * (j * π / n)) * cos (k * (j * π / n)) =
      cos (((m - k : ℤ) : ℝ) * (j * π / n)) / 2 + cos (((m + k : ℤ) : ℝ) * (j * π / n)) / 2 := by
    intro j
    rw [show ((m - k : ℤ) : ℝ) * (j * π / n) = m * (j * π / n) - k * (j * π / n) by
      push_cast; ring, show ((m + k : ℤ) : ℝ) * (j * π / n) =
      m * (j * π / n) + k * (j * π / n) by push_cast; ring, cos_sub, cos_add]
    ring
  rw [Finset.sum_congr rfl fun j _ => by rw [g j], sum_mul_add_div]
  have hz : ∑ j ∈ Finset.range (n + 1), trapW n j * cos (((0 : ℤ) : ℝ) * (j * π / n)) = n := by
    simpa using trap_one hn
  by_cases h : m = k
  · subst h
    rw [if_pos rfl, sub_self, hz]
    by_cases h0 : m = 0
    · subst h0
      rw [if_pos (Or.inl rfl), Nat.cast_zero, zero_add, hz]; ring
    · by_cases h1 : m = n
      · subst h1
        have := trap_cos_dvd hn 1
        rw [if_pos (Or.inr rfl), show ((m + m : ℤ)) = 2 * m * 1 by ring, this]; ring
      · rw [if_neg (by omega), trap_cos hn]
        · ring
        · intro hd; have := Int.le_of_dvd (by omega) hd; omega
  · rw [if_neg h, trap_cos hn, trap_cos hn]
    · ring
    · intro hd; have := Int.le_of_dvd (by omega) hd; omega
    · intro hd
      have := Int.eq_zero_of_abs_lt_dvd hd (by rw [abs_lt]; omega)
      omega

end Shenfun
