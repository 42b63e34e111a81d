import Verif.Props.Integrators
import Mathlib.MeasureTheory.Integral.IntervalIntegral.FundThmCalculus
import Mathlib.MeasureTheory.Integral.DominatedConvergence
import Mathlib.Analysis.SpecialFunctions.Exponential
import Mathlib.Analysis.SpecialFunctions.ExpDeriv
import Mathlib.Analysis.Calculus.Deriv.Mul

/-!
# C43: the contour means of the exponential integrators, for real linear operators
-/

set_option linter.unusedSimpArgs false
set_option linter.unusedVariables false

namespace Shenfun.Integrators

open MeasureTheory intervalIntegral

/-- The points on the unit circle. -/
theorem circle_sum (M n : ℕ) (hM : 0 < M) (hn : ¬ 2 * M ∣ n) :
    ∑ k ∈ Finset.range M, ((Complex.exp (Real.pi * Complex.I * ((k + 1 : ℕ) - 0.5) / M)) ^ n).re = 0 := by
  have hMC : (M : ℂ) ≠ 0 := by exact_mod_cast hM.ne'
  set ζ : ℂ := Complex.exp (Real.pi * Complex.I * n / (2 * M)) with hζ
  have hζ0 : ζ ≠ 0 := Complex.exp_ne_zero _
  have hterm : ∀ k : ℕ, (Complex.exp (Real.pi * Complex.I * ((k + 1 : ℕ) - 0.5) / M)) ^ n = ζ * (ζ ^ 2) ^ k := by
    intro k
    rw [hζ, ← Complex.exp_nat_mul, ← Complex.exp_nat_mul, ← Complex.exp_nat_mul, ← Complex.exp_add]
    congr 1
    push_cast
    field_simp
    ring
  have hne : ζ ^ 2 ≠ 1 := by
    intro h
    rw [hζ, ← Complex.exp_nat_mul, Complex.exp_eq_one_iff] at h
    obtain ⟨j, hj⟩ := h
    have hpi : (Real.pi : ℂ) ≠ 0 := by exact_mod_cast Real.pi_ne_zero
    have h2 : (n : ℂ) = j * (2 * M) := by
      have hI := Complex.I_ne_zero
      field_simp at hj
      push_cast at hj
      linear_combination hj / 2
    have h3 : (n : ℤ) = j * (2 * M) := by exact_mod_cast h2
    apply hn
    have : ((2 * M : ℕ) : ℤ) ∣ (n : ℤ) := ⟨j, by push_cast; linear_combination h3⟩
    exact_mod_cast this
  have hsum : ∑ k ∈ Finset.range M, ζ * (ζ ^ 2) ^ k = ζ * (((ζ ^ 2) ^ M - 1) / (ζ ^ 2 - 1)) := by
    rw [← Finset.mul_sum, geom_sum_eq hne]
  have hM2 : (ζ ^ 2) ^ M = (-1) ^ n := by
    rw [hζ, ← Complex.exp_nat_mul, ← Complex.exp_nat_mul, ← Complex.exp_pi_mul_I, ← Complex.exp_nat_mul]
    congr 1
    push_cast
    field_simp
  rw [← Complex.re_sum, Finset.sum_congr rfl (fun k _ => hterm k), hsum, hM2]
  rcases Nat.even_or_odd n with he | ho
  · rw [he.neg_one_pow]; simp
  · rw [ho.neg_one_pow]
    have hconj : (starRingEnd ℂ) ζ = ζ⁻¹ := by
      rw [hζ, ← Complex.exp_conj, ← Complex.exp_neg]
      congr 1
      have c2 : (starRingEnd ℂ) 2 = 2 := map_ofNat _ 2
      simp [c2]
      ring
    have hd : ζ ^ 2 - 1 ≠ 0 := sub_ne_zero.2 hne
    have e : ζ * ((-1 - 1) / (ζ ^ 2 - 1)) = -2 / (ζ - ζ⁻¹) := by
      have : ζ - ζ⁻¹ = (ζ ^ 2 - 1) / ζ := by field_simp
      rw [this]
      field_simp
      ring
    rw [e]
    have hskew : (starRingEnd ℂ) (-2 / (ζ - ζ⁻¹)) = -(-2 / (ζ - ζ⁻¹)) := by
      rw [map_div₀, map_sub, map_inv₀, hconj, inv_inv, map_neg, ← div_neg, neg_sub]
      congr 2
      exact map_ofNat (starRingEnd ℂ) 2
    have := congrArg Complex.re hskew
    rw [Complex.conj_re, Complex.neg_re] at this
    linarith

/-- For a function given by a power series with real coefficients around the centre, the mean differs from the value in
the centre by at most the coefficients of degree at least `2M`. -/
theorem contour_error (M : ℕ) (hM : 0 < M) (f : ℂ → ℂ) (z : ℂ) (a : ℕ → ℝ) (ha : Summable fun n => |a n|)
    (hf : ∀ k < M, let w := Complex.exp (Real.pi * Complex.I * ((k + 1 : ℕ) - 0.5) / M)
      HasSum (fun n => (a n : ℂ) * w ^ n) (f (z + w))) :
    |contour M f z - a 0| ≤ ∑' n, |a (n + 2 * M)| := by
  have hMR : (M : ℝ) ≠ 0 := by exact_mod_cast hM.ne'
  set w : ℕ → ℂ := fun k => Complex.exp (Real.pi * Complex.I * ((k + 1 : ℕ) - 0.5) / M) with hw
  have hnorm : ∀ k, ‖w k‖ = 1 := by
    intro k
    have : w k = Complex.exp (((Real.pi * ((k + 1 : ℕ) - 0.5) / M : ℝ) : ℂ) * Complex.I) := by
      simp only [hw]; congr 1; push_cast; ring
    rw [this, Complex.norm_exp_ofReal_mul_I]
  set c : ℕ → ℝ := fun n => (∑ k ∈ Finset.range M, (w k ^ n).re) / M with hc
  have hc1 : ∀ n, |c n| ≤ 1 := by
    intro n
    rw [hc, abs_div, Nat.abs_cast, div_le_one (by positivity)]
    calc |∑ k ∈ Finset.range M, (w k ^ n).re| ≤ ∑ k ∈ Finset.range M, |(w k ^ n).re| := Finset.abs_sum_le_sum_abs _ _
      _ ≤ ∑ k ∈ Finset.range M, (1 : ℝ) := by
        apply Finset.sum_le_sum
        intro k _
        refine le_trans (Complex.abs_re_le_norm _) ?_
        rw [norm_pow, hnorm, one_pow]
      _ = M := by simp
  have hc0 : c 0 = 1 := by simp [hc, hMR]
  have hcz : ∀ n, 0 < n → n < 2 * M → c n = 0 := by
    intro n h0 h1
    simp only [hc, hw]
    rw [circle_sum M n hM (fun h => by have := Nat.le_of_dvd h0 h; omega), zero_div]
  have hsum : HasSum (fun n => a n * c n) (contour M f z) := by
    have h1 : ∀ k ∈ Finset.range M, HasSum (fun n => a n * (w k ^ n).re) (f (z + w k)).re := by
      intro k hk
      have := Complex.hasSum_re (hf k (Finset.mem_range.1 hk))
      simp only [Complex.re_ofReal_mul] at this
      exact this
    have h2 := (hasSum_sum h1).div_const (M : ℝ)
    have e : (fun n => a n * c n) = fun n => (∑ k ∈ Finset.range M, a n * (w k ^ n).re) / M := by
      funext n
      rw [hc, ← Finset.mul_sum, mul_div_assoc]
    rw [e]
    exact h2
  have hs2 : HasSum (fun n => a (n + 2 * M) * c (n + 2 * M)) (contour M f z - a 0) := by
    have h1 := (hasSum_nat_add_iff' (2 * M)).2 hsum
    have e : ∑ i ∈ Finset.range (2 * M), a i * c i = a 0 := by
      rw [Finset.sum_eq_single 0]
      · rw [hc0, mul_one]
      · intro n hn h0
        rw [hcz n (Nat.pos_of_ne_zero h0) (Finset.mem_range.1 hn), mul_zero]
      · intro h; simp at h; omega
    rwa [e] at h1
  have ha2 : Summable fun n => |a (n + 2 * M)| := (summable_nat_add_iff (2 * M)).2 ha
  rw [← hs2.tsum_eq]
  have hle : ∀ n, ‖a (n + 2 * M) * c (n + 2 * M)‖ ≤ |a (n + 2 * M)| := by
    intro n
    rw [norm_mul, Real.norm_eq_abs, Real.norm_eq_abs]
    exact mul_le_of_le_one_right (abs_nonneg _) (hc1 _)
  have := tsum_of_norm_bounded ha2.hasSum hle
  rwa [Real.norm_eq_abs] at this

/-- The `φ`-functions of exponential integrators: `φ_1(z) = ∫ e^{sz}`, `φ_2(z) = ∫ (1-s) e^{sz}`,
`φ_3(z) = ∫ (1-s)²/2 e^{sz}` over `0 ≤ s ≤ 1`. -/
noncomputable def Spec.phi (n : ℕ) (z : ℂ) : ℂ := ∫ s in (0 : ℝ)..1, ((1 - s) ^ (n - 1) / ((n - 1).factorial : ℝ) : ℝ) * Complex.exp (s * z)

theorem phi_deriv (z : ℂ) (s : ℝ) : HasDerivAt (fun s : ℝ => Complex.exp (s * z)) (z * Complex.exp (s * z)) s := by
  have h : HasDerivAt (fun x : ℂ => Complex.exp (x * z)) (Complex.exp (s * z) * z) (s : ℂ) := by
    simpa using ((hasDerivAt_id (s : ℂ)).mul_const z).cexp
  rw [mul_comm]
  exact h.comp_ofReal

theorem phi1_eq (z : ℂ) (hz : z ≠ 0) : Spec.phi 1 z = (Complex.exp z - 1) / z := by
  have h : ∀ s ∈ Set.uIcc (0 : ℝ) 1, HasDerivAt (fun s : ℝ => Complex.exp (s * z) / z)
      (((1 - s) ^ (1 - 1) / ((1 - 1).factorial : ℝ) : ℝ) * Complex.exp (s * z)) s := by
    intro s _
    have := (phi_deriv z s).div_const z
    refine this.congr_deriv ?_
    simp
    field_simp
  rw [Spec.phi, integral_eq_sub_of_hasDerivAt h (Continuous.intervalIntegrable (by fun_prop) _ _)]
  simp
  ring

theorem phi2_eq (z : ℂ) (hz : z ≠ 0) : Spec.phi 2 z = (Complex.exp z - z - 1) / z ^ 2 := by
  have h : ∀ s ∈ Set.uIcc (0 : ℝ) 1, HasDerivAt (fun s : ℝ => (1 - (s : ℂ)) * Complex.exp (s * z) / z + Complex.exp (s * z) / z ^ 2)
      (((1 - s) ^ (2 - 1) / ((2 - 1).factorial : ℝ) : ℝ) * Complex.exp (s * z)) s := by
    intro s _
    have hs : HasDerivAt (fun s : ℝ => (1 - (s : ℂ))) (-1) s := by
      simpa using (Complex.ofRealCLM.hasDerivAt (x := s)).const_sub 1
    have := ((hs.mul (phi_deriv z s)).div_const z).add ((phi_deriv z s).div_const (z ^ 2))
    refine this.congr_deriv ?_
    simp
    field_simp
    ring
  rw [Spec.phi, integral_eq_sub_of_hasDerivAt h (Continuous.intervalIntegrable (by fun_prop) _ _)]
  simp
  field_simp
  ring

theorem phi3_eq (z : ℂ) (hz : z ≠ 0) : Spec.phi 3 z = (Complex.exp z - 0.5 * z ^ 2 - z - 1) / z ^ 3 := by
  have h : ∀ s ∈ Set.uIcc (0 : ℝ) 1, HasDerivAt
      (fun s : ℝ => (1 - (s : ℂ)) * (1 - (s : ℂ)) * Complex.exp (s * z) / (2 * z) + (1 - (s : ℂ)) * Complex.exp (s * z) / z ^ 2 + Complex.exp (s * z) / z ^ 3)
      (((1 - s) ^ (3 - 1) / ((3 - 1).factorial : ℝ) : ℝ) * Complex.exp (s * z)) s := by
    intro s _
    have hs : HasDerivAt (fun s : ℝ => (1 - (s : ℂ))) (-1) s := by
      simpa using (Complex.ofRealCLM.hasDerivAt (x := s)).const_sub 1
    have := ((((hs.mul hs).mul (phi_deriv z s)).div_const (2 * z)).add ((hs.mul (phi_deriv z s)).div_const (z ^ 2))).add
      ((phi_deriv z s).div_const (z ^ 3))
    refine this.congr_deriv ?_
    simp
    field_simp
    ring
  rw [Spec.phi, integral_eq_sub_of_hasDerivAt h (Continuous.intervalIntegrable (by fun_prop) _ _)]
  simp
  field_simp
  ring

/-- Power series of `φ_n` around a real point. -/
theorem phi_series (n : ℕ) (z : ℝ) : ∃ a : ℕ → ℝ, (∀ k, |a k| ≤ max 1 (Real.exp z) / (k.factorial : ℝ)) ∧
    (a 0 : ℂ) = Spec.phi n z ∧ ∀ w : ℂ, HasSum (fun k => (a k : ℂ) * w ^ k) (Spec.phi n (z + w)) := by
  set g : ℝ → ℝ := fun s => (1 - s) ^ (n - 1) / ((n - 1).factorial : ℝ) with hg
  have hgc : Continuous g := by fun_prop
  have hg1 : ∀ s ∈ Set.uIoc (0 : ℝ) 1, |g s| ≤ 1 := by
    intro s hs
    rw [Set.uIoc_of_le (by norm_num)] at hs
    have h0 : 0 ≤ 1 - s := by linarith [hs.2]
    have h1 : 1 - s ≤ 1 := by linarith [hs.1]
    have hf : (1 : ℝ) ≤ ((n - 1).factorial : ℝ) := by exact_mod_cast Nat.one_le_iff_ne_zero.2 (Nat.factorial_ne_zero _)
    rw [hg, abs_div, abs_of_nonneg (pow_nonneg h0 _), abs_of_nonneg (by linarith)]
    rw [div_le_one (by linarith)]
    exact le_trans (pow_le_one₀ h0 h1) hf
  have hexp : ∀ s ∈ Set.uIoc (0 : ℝ) 1, Real.exp (s * z) ≤ max 1 (Real.exp z) := by
    intro s hs
    rw [Set.uIoc_of_le (by norm_num)] at hs
    rcases le_total 0 z with h | h
    · refine le_trans ?_ (le_max_right _ _)
      apply Real.exp_le_exp.2
      nlinarith [hs.2]
    · refine le_trans ?_ (le_max_left _ _)
      rw [← Real.exp_zero]
      apply Real.exp_le_exp.2
      nlinarith [hs.1]
  set C := max 1 (Real.exp z)
  have hC : 0 ≤ C := le_trans zero_le_one (le_max_left _ _)
  have hbound : ∀ (k : ℕ) (s : ℝ), s ∈ Set.uIoc (0 : ℝ) 1 → |g s * Real.exp (s * z) * s ^ k / (k.factorial : ℝ)| ≤ C / (k.factorial : ℝ) := by
    intro k s hs
    have hs' := hs
    rw [Set.uIoc_of_le (by norm_num)] at hs'
    rw [abs_div, Nat.abs_cast]
    apply div_le_div_of_nonneg_right _ (by positivity)
    rw [abs_mul, abs_mul, abs_of_pos (Real.exp_pos _), abs_of_nonneg (pow_nonneg hs'.1.le _)]
    calc |g s| * Real.exp (s * z) * s ^ k ≤ 1 * C * 1 := by
          apply mul_le_mul _ (pow_le_one₀ hs'.1.le hs'.2) (pow_nonneg hs'.1.le _) (by linarith)
          exact mul_le_mul (hg1 s hs) (hexp s hs) (Real.exp_pos _).le zero_le_one
      _ = C := by ring
  refine ⟨fun k => ∫ s in (0 : ℝ)..1, g s * Real.exp (s * z) * s ^ k / (k.factorial : ℝ), ?_, ?_, ?_⟩
  · intro k
    have := norm_integral_le_of_norm_le_const (a := 0) (b := 1) (f := fun s => g s * Real.exp (s * z) * s ^ k / (k.factorial : ℝ))
      (C := C / (k.factorial : ℝ)) (fun s hs => by rw [Real.norm_eq_abs]; exact hbound k s hs)
    rw [Real.norm_eq_abs] at this
    simpa only [sub_zero, abs_one, mul_one] using this
  · rw [Spec.phi, ← intervalIntegral.integral_ofReal]
    congr 1
    funext s
    push_cast
    simp [hg]
  · intro w
    have hfun : ∀ s : ℝ, HasSum (fun k => ((g s * Real.exp (s * z) * s ^ k / (k.factorial : ℝ) : ℝ) : ℂ) * w ^ k)
        ((g s : ℂ) * Complex.exp (s * (z + w))) := by
      intro s
      have h1 := NormedSpace.expSeries_div_hasSum_exp (𝔸 := ℂ) ((s : ℂ) * w)
      rw [← Complex.exp_eq_exp_ℂ] at h1
      have h2 := h1.mul_left ((g s : ℂ) * Complex.exp (s * z))
      rw [mul_assoc, ← Complex.exp_add, ← mul_add] at h2
      have e : (fun k : ℕ => ((g s * Real.exp (s * z) * s ^ k / (k.factorial : ℝ) : ℝ) : ℂ) * w ^ k)
          = fun i : ℕ => (g s : ℂ) * Complex.exp (s * z) * ((s * w) ^ i / (i.factorial : ℂ)) := by
        funext k
        push_cast
        rw [mul_pow]
        ring
      rw [e]
      exact h2
    have hb : ∀ (k : ℕ), ∀ᵐ s : ℝ ∂volume, s ∈ Set.uIoc (0 : ℝ) 1 →
        ‖((g s * Real.exp (s * z) * s ^ k / (k.factorial : ℝ) : ℝ) : ℂ) * w ^ k‖ ≤ C / (k.factorial : ℝ) * ‖w‖ ^ k :=
      fun k => Filter.Eventually.of_forall fun s hs => by
        rw [norm_mul, norm_pow, Complex.norm_real, Real.norm_eq_abs]
        exact mul_le_mul_of_nonneg_right (hbound k s hs) (by positivity)
    have hsum : Summable fun k : ℕ => C / (k.factorial : ℝ) * ‖w‖ ^ k := by
      have h := (Real.summable_pow_div_factorial ‖w‖).mul_left C
      have e : (fun k : ℕ => C / (k.factorial : ℝ) * ‖w‖ ^ k) = fun k : ℕ => C * (‖w‖ ^ k / (k.factorial : ℝ)) := by
        funext k; ring
      rw [e]
      exact h
    have hmeas : ∀ k : ℕ, AEStronglyMeasurable (fun s : ℝ => ((g s * Real.exp (s * z) * s ^ k / (k.factorial : ℝ) : ℝ) : ℂ) * w ^ k)
        (volume.restrict (Set.uIoc (0 : ℝ) 1)) := fun k => Continuous.aestronglyMeasurable (by fun_prop)
    have hbs : ∀ᵐ s : ℝ ∂volume, s ∈ Set.uIoc (0 : ℝ) 1 → Summable fun k : ℕ => C / (k.factorial : ℝ) * ‖w‖ ^ k :=
      Filter.Eventually.of_forall fun s _ => hsum
    have hbi : IntervalIntegrable (fun _ : ℝ => ∑' k : ℕ, C / (k.factorial : ℝ) * ‖w‖ ^ k) volume 0 1 :=
      _root_.intervalIntegrable_const
    have hlim : ∀ᵐ s : ℝ ∂volume, s ∈ Set.uIoc (0 : ℝ) 1 →
        HasSum (fun k => ((g s * Real.exp (s * z) * s ^ k / (k.factorial : ℝ) : ℝ) : ℂ) * w ^ k)
          ((g s : ℂ) * Complex.exp (s * (z + w))) := Filter.Eventually.of_forall fun s _ => hfun s
    have hs := intervalIntegral.hasSum_integral_of_dominated_convergence (μ := volume) (a := 0) (b := 1)
      (fun (k : ℕ) (_ : ℝ) => C / (k.factorial : ℝ) * ‖w‖ ^ k) hmeas hb hbs hbi hlim
    have e : (fun k : ℕ => ((∫ s in (0 : ℝ)..1, g s * Real.exp (s * z) * s ^ k / (k.factorial : ℝ) : ℝ) : ℂ) * w ^ k)
        = fun k : ℕ => ∫ s in (0 : ℝ)..1, ((g s * Real.exp (s * z) * s ^ k / (k.factorial : ℝ) : ℝ) : ℂ) * w ^ k := by
      funext k
      rw [intervalIntegral.integral_mul_const, intervalIntegral.integral_ofReal]
    rw [e]
    exact hs

/-- **C43** For a real factor `z = dt L` the computed means are the `φ`-functions up to `max(1, e^z) 2 / 100!`. -/
theorem contour_phi (n : ℕ) (f : ℂ → ℂ) (hf : ∀ z, z ≠ 0 → f z = Spec.phi n z) (z : ℝ) :
    ‖(contour 50 f z : ℂ) - Spec.phi n z‖ ≤ max 1 (Real.exp z) * (2 / (Nat.factorial 100 : ℝ)) := by
  obtain ⟨a, ha, ha0, hs⟩ := phi_series n z
  set C := max 1 (Real.exp z) with hC
  have hC0 : 0 ≤ C := le_trans zero_le_one (le_max_left _ _)
  have hsumf : Summable fun k : ℕ => C / (k.factorial : ℝ) := by
    have := (Real.summable_pow_div_factorial 1).mul_left C
    simpa [div_eq_mul_inv] using this
  have hsa : Summable fun k => |a k| := Summable.of_nonneg_of_le (fun _ => abs_nonneg _) ha hsumf
  have h1 := contour_error 50 (by norm_num) f z a hsa (by
    intro k hk w
    have hne : (z : ℂ) + w ≠ 0 := by
      intro h
      have him := congrArg Complex.im h
      have hw : w = Complex.exp (((Real.pi * ((k + 1 : ℕ) - 0.5) / (50 : ℕ) : ℝ) : ℂ) * Complex.I) := by
        simp only [w]; congr 1; push_cast; ring
      rw [Complex.add_im, Complex.ofReal_im, zero_add, Complex.zero_im, hw, Complex.exp_ofReal_mul_I_im] at him
      have hk' : ((k : ℕ) : ℝ) + 1 ≤ 50 := by exact_mod_cast hk
      refine absurd him (Real.sin_pos_of_pos_of_lt_pi ?_ ?_).ne'
      · have : (0 : ℝ) < ((k + 1 : ℕ) : ℝ) - 0.5 := by push_cast; have : (0 : ℝ) ≤ k := by positivity
                                                       norm_num; linarith
        have := Real.pi_pos
        positivity
      · rw [mul_div_assoc]
        have : (((k + 1 : ℕ) : ℝ) - 0.5) / (50 : ℕ) < 1 := by
          rw [div_lt_one (by norm_num)]; push_cast; norm_num; linarith
        nlinarith [Real.pi_pos]
    rw [hf _ hne]
    exact hs w)
  rw [← ha0, ← Complex.ofReal_sub, Complex.norm_real, Real.norm_eq_abs]
  refine le_trans h1 ?_
  have h2 : ∑' k, |a (k + 2 * 50)| ≤ ∑' k : ℕ, C / ((k + 100).factorial : ℝ) := by
    apply Summable.tsum_le_tsum (fun k => ha _) ((summable_nat_add_iff 100).2 hsa) ((summable_nat_add_iff 100).2 hsumf)
  refine le_trans h2 ?_
  have hexp : HasSum (fun k : ℕ => 1 / (k.factorial : ℝ)) (Real.exp 1) := by
    have := NormedSpace.expSeries_div_hasSum_exp (𝔸 := ℝ) 1
    rw [← Real.exp_eq_exp_ℝ] at this
    simpa using this
  have h3 := (hasSum_nat_add_iff' 100).2 hexp
  have h4 : ∑' k : ℕ, C / ((k + 100).factorial : ℝ) = C * (Real.exp 1 - ∑ i ∈ Finset.range 100, 1 / (i.factorial : ℝ)) := by
    rw [← h3.tsum_eq, ← tsum_mul_left]
    congr 1
    funext k
    ring
  rw [h4]
  apply mul_le_mul_of_nonneg_left _ hC0
  have h5 := Real.exp_bound (x := 1) (by simp) (n := 100) (by norm_num)
  have h6 : ∑ m ∈ Finset.range 100, (1 : ℝ) ^ m / (m.factorial : ℝ) = ∑ i ∈ Finset.range 100, 1 / (i.factorial : ℝ) :=
    Finset.sum_congr rfl fun i _ => by rw [one_pow]
  rw [h6] at h5
  refine le_trans (le_abs_self _) (le_trans h5 ?_)
  rw [abs_one, one_pow, one_mul]
  have hpos : (0 : ℝ) < (Nat.factorial 100 : ℝ) := by exact_mod_cast Nat.factorial_pos 100
  rw [div_le_div_iff₀ (by positivity) hpos]
  push_cast
  nlinarith

/-- **C43** For a real diagonal operator, one step of `ETD` is one step of the exponential Euler method
`e^{dt L} u + dt φ_1(dt L) N(u)`, up to `dt max(1, e^{dt L}) |N(u)| 2/100!`. -/
theorem C43_etd_real {ι : Type*} (L : ι → ℝ) (N : (ι → ℂ) → ι → ℂ) (dt : ℝ) (hdt : 0 ≤ dt) (u : ι → ℂ) (i : ι) :
    ‖etdStep (fun i => (L i : ℂ)) N dt u i
        - (Complex.exp (L i * dt) * u i + dt * Spec.phi 1 (L i * dt) * N u i)‖
      ≤ dt * (max 1 (Real.exp (L i * dt)) * (2 / (Nat.factorial 100 : ℝ))) * ‖N u i‖ := by
  have h := contour_phi 1 (fun ll => (Complex.exp ll - 1) / ll) (fun z hz => (phi1_eq z hz).symm) (L i * dt)
  simp only [etdStep]
  push_cast at h
  have e : Complex.exp (↑(L i) * ↑dt) * u i + ↑dt * ↑(contour 50 (fun ll => (Complex.exp ll - 1) / ll) (↑(L i) * ↑dt)) * N u i
      - (Complex.exp (↑(L i) * ↑dt) * u i + ↑dt * Spec.phi 1 (↑(L i) * ↑dt) * N u i)
      = (dt : ℂ) * (↑(contour 50 (fun ll => (Complex.exp ll - 1) / ll) (↑(L i) * ↑dt)) - Spec.phi 1 (↑(L i) * ↑dt)) * N u i := by
    ring
  rw [e, norm_mul, norm_mul, Complex.norm_real, Real.norm_eq_abs, abs_of_nonneg hdt]
  exact mul_le_mul_of_nonneg_right (mul_le_mul_of_nonneg_left h hdt) (norm_nonneg _)

/-- **C43** For a real diagonal operator, the weights of `ETDRK4` are the `φ`-functions of the method of Cox and Matthews
(`C43_etdrk4`), up to `max(1, e^z) 2/100!`. -/
theorem C43_etdrk4_real {ι : Type*} (L : ι → ℝ) (dt : ℝ) (i : ι) :
    let w := etdrk4Setup (fun i => (L i : ℂ)) dt
    let ε := fun z : ℝ => max 1 (Real.exp z) * (2 / (Nat.factorial 100 : ℝ))
    w.ehL i = Complex.exp (L i * dt) ∧ w.ehL_h i = Complex.exp (L i * dt / 2) ∧
    ‖w.psi 0 i - Spec.phi 1 (L i * dt)‖ ≤ ε (L i * dt) ∧ ‖w.psi 1 i - Spec.phi 2 (L i * dt)‖ ≤ ε (L i * dt) ∧
    ‖w.psi 2 i - Spec.phi 3 (L i * dt)‖ ≤ ε (L i * dt) ∧ ‖w.psi 3 i - Spec.phi 1 (L i * dt / 2)‖ ≤ ε (L i * dt / 2) := by
  have h1 := contour_phi 1 (fun ll => (Complex.exp ll - 1) / ll) (fun z hz => (phi1_eq z hz).symm) (L i * dt)
  have h2 := contour_phi 2 (fun ll => (Complex.exp ll - ll - 1) / ll ^ 2) (fun z hz => (phi2_eq z hz).symm) (L i * dt)
  have h3 := contour_phi 3 (fun ll => (Complex.exp ll - 0.5 * ll ^ 2 - ll - 1) / ll ^ 3) (fun z hz => (phi3_eq z hz).symm) (L i * dt)
  have h4 := contour_phi 1 (fun ll => (Complex.exp ll - 1) / ll) (fun z hz => (phi1_eq z hz).symm) (L i * dt / 2)
  push_cast at h1 h2 h3 h4
  exact ⟨rfl, rfl, h1, h2, h3, h4⟩

end Shenfun.Integrators
