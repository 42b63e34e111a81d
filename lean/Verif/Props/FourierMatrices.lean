import Verif.Model.FourierMatrices
import Verif.Spec.FourierForms
import Verif.Props.Fourier
import Verif.Props.Utilities
import Verif.Props.ChebMatrices
import Mathlib.Analysis.SpecialFunctions.Integrals.Basic
import Mathlib.Analysis.Calculus.IteratedDeriv.Lemmas

/-!
# C70: Fourier matrices
-/

namespace Shenfun.Fourier

open Complex Spec Finset

set_option linter.unusedSimpArgs false
set_option linter.unusedVariables false

/-! ## Modes -/

theorem wavenumbersC2C_eq (N i : ℕ) (hi : i < N) : wavenumbersC2C N i = freq N i := by
  unfold wavenumbersC2C freq
  split_ifs <;> omega

theorem mode_eq (a b : ℝ) (k : ℤ) (x : ℝ) :
    mode a b k x = exp (I * k * (2 * Real.pi / (b - a) : ℝ) * (x - a : ℝ)) := by
  unfold mode
  congr 1
  push_cast
  ring

theorem mode_ref (k : ℤ) (x : ℝ) : mode 0 (2 * Real.pi) k x = wave k x := by
  rw [mode_eq, wave]
  congr 1
  rw [sub_zero, sub_zero, div_self (by positivity)]
  push_cast
  ring

theorem hasDerivAt_mode (a b : ℝ) (k : ℤ) (x : ℝ) :
    HasDerivAt (mode a b k) (I * k * (2 * Real.pi / (b - a) : ℝ) * mode a b k x) x := by
  have h : HasDerivAt (fun y : ℝ => I * k * (2 * Real.pi / (b - a) : ℝ) * ((y - a : ℝ) : ℂ))
      (I * k * (2 * Real.pi / (b - a) : ℝ)) x := by
    have h1 : HasDerivAt (fun y : ℝ => y - a) 1 x := (hasDerivAt_id x).sub_const a
    have h2 := h1.ofReal_comp.const_mul (I * k * (2 * Real.pi / (b - a) : ℝ))
    simpa using h2
  have h3 := h.cexp
  have e : mode a b k = fun y : ℝ => exp (I * k * (2 * Real.pi / (b - a) : ℝ) * ((y - a : ℝ) : ℂ)) :=
    funext fun y => mode_eq a b k y
  rw [e]
  convert h3 using 1
  ring

theorem iteratedDeriv_mode (a b : ℝ) (k : ℤ) (r : ℕ) (x : ℝ) :
    iteratedDeriv r (mode a b k) x = (I * k * (2 * Real.pi / (b - a) : ℝ)) ^ r * mode a b k x := by
  induction r generalizing x with
  | zero => simp
  | succ r ih =>
    rw [iteratedDeriv_succ, funext ih, deriv_const_mul _ (hasDerivAt_mode a b k x).differentiableAt,
      (hasDerivAt_mode a b k x).deriv]
    ring

theorem conj_wave (k : ℤ) (x : ℝ) : (starRingEnd ℂ) (wave k x) = wave (-k) x := by
  rw [wave, wave, ← Complex.exp_conj]
  congr 1
  simp

/-! ## Values of the forms -/

/-- `w` is the trigonometric polynomial `c0 + c1 exp(isx) + c2 exp(-isx)`. -/
def IsTrig (w : ℝ → ℝ) (s : ℤ) (c0 c1 c2 : ℂ) : Prop :=
  ∀ x, (w x : ℂ) = c0 * wave 0 x + c1 * wave s x + c2 * wave (-s) x

theorem wave_zero (x : ℝ) : wave 0 x = 1 := by simp [wave]

theorem isTrig_cos : IsTrig Real.cos 1 0 (1/2) (1/2) := by
  intro x
  have : ∀ k : ℤ, wave k x = exp ((k * x : ℂ) * I) := fun k => by rw [wave]; congr 1; ring
  rw [this 1, this (-1), this 0]
  push_cast
  rw [Complex.cos]
  simp only [one_mul, neg_mul, zero_mul, zero_add]
  ring

theorem isTrig_sin : IsTrig Real.sin 1 0 (-I/2) (I/2) := by
  intro x
  have : ∀ k : ℤ, wave k x = exp ((k * x : ℂ) * I) := fun k => by rw [wave]; congr 1; ring
  rw [this 1, this (-1), this 0]
  push_cast
  rw [Complex.sin]
  simp only [one_mul, neg_mul, zero_mul, zero_add]
  ring

theorem isTrig_cos2 : IsTrig (fun x => Real.cos x ^ 2) 2 (1/2) (1/4) (1/4) := by
  intro x
  have h := isTrig_cos x
  have e2 : wave 2 x = wave 1 x * wave 1 x := by rw [← wave_add]; norm_num
  have em2 : wave (-2) x = wave (-1) x * wave (-1) x := by rw [← wave_add]; norm_num
  have e0 : wave 1 x * wave (-1) x = 1 := by rw [← wave_add]; simp [wave]
  push_cast at h ⊢
  rw [h, e2, em2, wave_zero]
  linear_combination (1/2 : ℂ) * e0

theorem isTrig_sincos : IsTrig (fun x => Real.sin (2 * x) / 2) 2 0 (-I/4) (I/4) := by
  intro x
  have h := isTrig_sin (2 * x)
  have e2 : wave 1 (2 * x) = wave 2 x := by simp only [wave]; congr 1; push_cast; ring
  have em2 : wave (-1) (2 * x) = wave (-2) x := by simp only [wave]; congr 1; push_cast; ring
  push_cast at h ⊢
  rw [h, e2, em2, wave_zero]
  rw [wave_zero]
  ring

theorem quad_wave (N : ℕ) (hN : N ≠ 0) (c : ℂ) (p k : ℤ) :
    (1 / (N : ℂ)) * ∑ j ∈ range N, c * wave p (mesh N j) * wave (-k) (mesh N j) = if (N : ℤ) ∣ p - k then c else 0 := by
  have : ∀ j, c * wave p (mesh N j) * wave (-k) (mesh N j) = c * wave (p - k) (mesh N j) := fun j => by
    rw [mul_assoc, ← wave_add, sub_eq_add_neg]
  simp only [this]
  rw [← mul_sum, sum_wave N hN]
  have hN' : (N : ℂ) ≠ 0 := by exact_mod_cast hN
  split_ifs
  · field_simp
  · simp

theorem quadForm_eq (N : ℕ) (hN : N ≠ 0) (w : ℝ → ℝ) (s : ℤ) (c0 c1 c2 : ℂ) (hw : IsTrig w s c0 c1 c2) (r i j : ℕ) :
    fourierQuadForm N w r i j = (I * (freq N j : ℂ)) ^ r *
      ((if (N : ℤ) ∣ freq N j - freq N i then c0 else 0) + (if (N : ℤ) ∣ freq N j + s - freq N i then c1 else 0) +
        (if (N : ℤ) ∣ freq N j - s - freq N i then c2 else 0)) := by
  unfold fourierQuadForm periodicQuad
  have hx : ∀ m : ℕ, 0 + (m:ℝ) * (2 * Real.pi - 0) / N = mesh N m := fun m => by unfold mesh; ring
  have e2p : (2 * Real.pi / (2 * Real.pi - 0) : ℝ) = 1 := by rw [sub_zero, div_self (by positivity)]
  rw [sum_congr rfl fun m _ => show _ =
      (I * (freq N j : ℂ)) ^ r * (c0 * wave (freq N j) (mesh N m) * wave (-(freq N i)) (mesh N m) +
        c1 * wave (freq N j + s) (mesh N m) * wave (-(freq N i)) (mesh N m) +
        c2 * wave (freq N j - s) (mesh N m) * wave (-(freq N i)) (mesh N m)) by
    rw [hx]
    beta_reduce
    rw [hw, iteratedDeriv_mode, mode_ref, mode_ref, conj_wave, e2p, wave_zero, sub_eq_add_neg (freq N j) s, wave_add, wave_add]
    push_cast
    ring]
  rw [← mul_sum, sum_add_distrib, sum_add_distrib, ← quad_wave N hN c0, ← quad_wave N hN c1, ← quad_wave N hN c2]
  ring

theorem integral_wave (p : ℤ) : (1 / ((2 * Real.pi - 0 : ℝ) : ℂ)) * ∫ x in (0:ℝ)..(2 * Real.pi), wave p x =
    if p = 0 then 1 else 0 := by
  have hpi : ((2 * Real.pi : ℝ) : ℂ) ≠ 0 := by exact_mod_cast (by positivity : (2 * Real.pi) ≠ 0)
  split_ifs with h
  · subst h
    simp only [wave_zero]
    rw [intervalIntegral.integral_const, sub_zero]
    simp only [Complex.real_smul, mul_one]
    field_simp
  · have hc : I * (p : ℂ) ≠ 0 := mul_ne_zero I_ne_zero (by exact_mod_cast h)
    have := integral_exp_mul_complex (a := 0) (b := 2 * Real.pi) hc
    simp only [wave]
    rw [this]
    have e1 : exp (I * p * ((2 * Real.pi : ℝ) : ℂ)) = 1 := by
      rw [Complex.exp_eq_one_iff]
      exact ⟨p, by push_cast; ring⟩
    rw [e1]
    simp

theorem continuous_wave (p : ℤ) : Continuous (wave p) := by
  unfold wave
  fun_prop

theorem form_eq (N : ℕ) (w : ℝ → ℝ) (s : ℤ) (c0 c1 c2 : ℂ) (hw : IsTrig w s c0 c1 c2) (r i j : ℕ) :
    fourierForm N w r i j = (I * (freq N j : ℂ)) ^ r *
      ((if freq N j - freq N i = 0 then c0 else 0) + (if freq N j + s - freq N i = 0 then c1 else 0) +
        (if freq N j - s - freq N i = 0 then c2 else 0)) := by
  unfold fourierForm periodicIP
  have e2p : (2 * Real.pi / (2 * Real.pi - 0) : ℝ) = 1 := by rw [sub_zero, div_self (by positivity)]
  have hf : (fun x : ℝ => (w x : ℂ) * iteratedDeriv r (mode 0 (2 * Real.pi) (freq N j)) x *
        (starRingEnd ℂ) (mode 0 (2 * Real.pi) (freq N i) x)) = fun x : ℝ =>
      (I * (freq N j : ℂ)) ^ r * (c0 * wave (freq N j - freq N i) x +
        c1 * wave (freq N j + s - freq N i) x + c2 * wave (freq N j - s - freq N i) x) := by
    funext x
    rw [hw, iteratedDeriv_mode, mode_ref, mode_ref, conj_wave, e2p, wave_zero]
    simp only [sub_eq_add_neg, wave_add]
    push_cast
    ring
  rw [hf, intervalIntegral.integral_const_mul, intervalIntegral.integral_add, intervalIntegral.integral_add,
    intervalIntegral.integral_const_mul, intervalIntegral.integral_const_mul, intervalIntegral.integral_const_mul]
  · have h0 := integral_wave (freq N j - freq N i)
    have h1 := integral_wave (freq N j + s - freq N i)
    have h2 := integral_wave (freq N j - s - freq N i)
    have e : ∀ P : Prop, ∀ [Decidable P], ∀ c : ℂ, (if P then c else 0) = c * if P then 1 else 0 := by
      intro P _ c; split_ifs <;> simp
    rw [e _ c0, e _ c1, e _ c2, ← h0, ← h1, ← h2]
    ring
  all_goals
    apply Continuous.intervalIntegrable
    have := continuous_wave
    fun_prop

/-! ## Dictionaries -/

theorem dictSet_new (d : DMat) (e : ℤ × DVal) (h : ∀ f ∈ d, f.1 ≠ e.1) : dictSet d e = d ++ [e] := by
  unfold dictSet
  rw [if_neg]
  simpa using fun b hf => h (e.1, b) hf rfl

theorem foldl_dictSet (l d : DMat) (h : ((d ++ l).map Prod.fst).Nodup) : l.foldl dictSet d = d ++ l := by
  induction l generalizing d with
  | nil => simp
  | cons e l ih =>
    rw [List.foldl_cons, dictSet_new, ih]
    · simp
    · simpa using h
    · intro f hf he
      rw [List.map_append, List.nodup_append] at h
      exact h.2.2 f.1 (List.mem_map_of_mem hf) e.1 (by simp) he

/-- A dictionary display with different keys. -/
theorem dictOf_eq (l : DMat) (h : (l.map Prod.fst).Nodup) : dictOf l = l := by
  have := foldl_dictSet l [] (by simpa using h)
  simpa [dictOf] using this

theorem dvd_freq (N i j : ℕ) (hi : i < N) (hj : j < N) (s : ℤ) (hs : |s| ≤ N) :
    (N : ℤ) ∣ freq N j + s - freq N i ↔ (j : ℤ) + s - i = 0 ∨ (j : ℤ) + s - i = N ∨ (j : ℤ) + s - i = -N := by
  have hs' := abs_le.mp hs
  have e : ∃ m : ℤ, freq N j + s - freq N i = (j : ℤ) + s - i + N * m := by
    unfold freq
    split_ifs
    · exact ⟨0, by ring⟩
    · exact ⟨1, by ring⟩
    · exact ⟨-1, by ring⟩
    · exact ⟨0, by ring⟩
  obtain ⟨m, hm⟩ := e
  rw [hm]
  constructor
  · intro h
    have h2 : (N : ℤ) ∣ (j : ℤ) + s - i := by
      have := dvd_sub h (Dvd.intro m rfl)
      simpa using this
    obtain ⟨q, hq⟩ := h2
    have hq1 : q < 2 := by nlinarith
    have hq2 : -2 < q := by nlinarith
    have : q = -1 ∨ q = 0 ∨ q = 1 := by omega
    rcases this with h | h | h <;> subst h <;> omega
  · rintro (h | h | h) <;> rw [h]
    · exact ⟨m, by ring⟩
    · exact ⟨1 + m, by ring⟩
    · exact ⟨-1 + m, by ring⟩

theorem dvd_freq0 (N i j : ℕ) (hi : i < N) (hj : j < N) : (N : ℤ) ∣ freq N j - freq N i ↔ i = j := by
  have := dvd_freq N i j hi hj 0 (by simp)
  rw [add_zero] at this
  rw [this]
  omega

theorem dvd_freq_sub (N i j : ℕ) (hi : i < N) (hj : j < N) (s : ℤ) (hs : |s| ≤ N) :
    (N : ℤ) ∣ freq N j - s - freq N i ↔ (j : ℤ) - s - i = 0 ∨ (j : ℤ) - s - i = N ∨ (j : ℤ) - s - i = -N := by
  have := dvd_freq N i j hi hj (-s) (by rwa [abs_neg])
  simpa only [← sub_eq_add_neg] using this

theorem freq_zero (N : ℕ) (hN : 0 < N) : freq N 0 = 0 := by unfold freq; rw [if_pos (by omega)]; simp

theorem freq_last (N : ℕ) (hN : 2 ≤ N) : freq N (N - 1) = -1 := by unfold freq; rw [if_neg (by omega)]; omega

theorem mat_entry (l : DMat) (N i j : ℕ) (hi : i < N) (hj : j < N) :
    (DMat.mat l N N).denseAt i j = diagsEntry (l.map fun e => (e.1, e.2.get)) i j := by
  rw [DMat.mat, denseAt_new _ _ _ _ _ hi hj]

/-- **C70** `Bcosmat`: quadrature of `conj(φ_i) cos(x) φ_j`. -/
theorem C70_Bcos (N : ℕ) (hN : 3 ≤ N) : IsFourierMatrix (bcosmat N) N (fourierQuadForm N Real.cos 0) := by
  have hd : bcosmat N = [(1, .scalar 0.5), (-1, .scalar 0.5), ((N : ℤ) - 1, .scalar 0.5), (-((N : ℤ) - 1), .scalar 0.5)] := by
    unfold bcosmat
    rw [dictOf_eq]
    simp
    omega
  refine ⟨?_, ?_⟩
  · rw [hd]
    simp [DVal.Fits]
  · intro i hi j hj
    rw [mat_entry _ _ _ _ hi hj, hd, quadForm_eq N (by omega) _ 1 _ _ _ isTrig_cos]
    simp only [dvd_freq0 N i j hi hj, dvd_freq N i j hi hj 1 (by rw [abs_one]; omega), dvd_freq_sub N i j hi hj 1 (by rw [abs_one]; omega)]
    simp only [List.map_cons, List.map_nil, diagsEntry_lit_cons, diagsEntry_lit_nil, DVal.get, pow_zero, one_mul]
    have c1 : (N = 0) ∨ i + 1 = j ∨ j + 1 = i ∨ (i = 0 ∧ j = N - 1) ∨ (j = 0 ∧ i = N - 1) ∨
      (i + 1 ≠ j ∧ j + 1 ≠ i ∧ ¬ (i = 0 ∧ j = N - 1) ∧ ¬ (j = 0 ∧ i = N - 1)) := by omega
    rcases c1 with h | h | h | h | h | h
    · omega
    all_goals
      ifs
      norm_num

/-- **C70** `Acosmat`: quadrature of `conj(φ_i) cos(x) φ_j''`. -/
theorem C70_Acos (N : ℕ) (hN : 3 ≤ N) : IsFourierMatrix (acosmat N) N (fourierQuadForm N Real.cos 2) := by
  have hd : acosmat N = [(1, .array (N - 1) fun t => -0.5 * (wavenumbersC2C N (1 + t) : ℝ) ^ 2), (-1, .array (N - 1) fun t => -0.5 * (wavenumbersC2C N t : ℝ) ^ 2),
      ((N : ℤ) - 1, .scalar (-0.5 * (wavenumbersC2C N (N - 1) : ℝ) ^ 2))] := by
    unfold acosmat
    dsimp only
    rw [dictOf_eq]
    simp
    omega
  refine ⟨?_, ?_⟩
  · rw [hd]
    simp only [List.forall_mem_cons, List.not_mem_nil, IsEmpty.forall_iff, implies_true, and_true, DVal.Fits, diagLength]
    split_ifs <;> omega
  · intro i hi j hj
    rw [mat_entry _ _ _ _ hi hj, hd, quadForm_eq N (by omega) _ 1 _ _ _ isTrig_cos]
    simp only [dvd_freq0 N i j hi hj, dvd_freq N i j hi hj 1 (by simp; omega), dvd_freq_sub N i j hi hj 1 (by simp; omega)]
    simp only [List.map_cons, List.map_nil, diagsEntry_lit_cons, diagsEntry_lit_nil, DVal.get]
    have f0 := freq_zero N (by omega)
    have f1 := freq_last N (by omega)
    have hw : ∀ t < N, (wavenumbersC2C N t : ℝ) = (freq N t : ℝ) := fun t ht => by rw [wavenumbersC2C_eq N t ht]
    have c1 : i + 1 = j ∨ j + 1 = i ∨ (i = 0 ∧ j = N - 1) ∨ (j = 0 ∧ i = N - 1) ∨
      (i + 1 ≠ j ∧ j + 1 ≠ i ∧ ¬ (i = 0 ∧ j = N - 1) ∧ ¬ (j = 0 ∧ i = N - 1)) := by omega
    rcases c1 with h | h | ⟨h, h'⟩ | ⟨h, h'⟩ | h
    · ifs
      rw [hw _ (by omega), show 1 + i = j by omega]
      push_cast
      rw [mul_pow, I_sq]
      ring
    · ifs
      rw [hw _ (by omega)]
      push_cast
      rw [mul_pow, I_sq]
      ring
    · ifs
      rw [hw _ (by omega), h']
      push_cast
      rw [mul_pow, I_sq]
      ring
    · ifs
      rw [h, f0]
      norm_num
    · ifs
      norm_num

/-- **C70** `Csinmat`: quadrature of `conj(φ_i) sin(x) φ_j'`. -/
theorem C70_Csin (N : ℕ) (hN : 3 ≤ N) : IsFourierMatrix (csinmat N) N (fourierQuadForm N Real.sin 1) := by
  have hd : csinmat N = [(1, .array (N - 1) fun t => -0.5 * (wavenumbersC2C N (1 + t) : ℝ)), (-1, .array (N - 1) fun t => 0.5 * (wavenumbersC2C N t : ℝ)),
      ((N : ℤ) - 1, .scalar (-0.5))] := by
    unfold csinmat
    dsimp only
    rw [dictOf_eq]
    simp
    omega
  refine ⟨?_, ?_⟩
  · rw [hd]
    simp only [List.forall_mem_cons, List.not_mem_nil, IsEmpty.forall_iff, implies_true, and_true, DVal.Fits, diagLength]
    split_ifs <;> omega
  · intro i hi j hj
    rw [mat_entry _ _ _ _ hi hj, hd, quadForm_eq N (by omega) _ 1 _ _ _ isTrig_sin]
    simp only [dvd_freq0 N i j hi hj, dvd_freq N i j hi hj 1 (by simp; omega), dvd_freq_sub N i j hi hj 1 (by simp; omega)]
    simp only [List.map_cons, List.map_nil, diagsEntry_lit_cons, diagsEntry_lit_nil, DVal.get]
    have f0 := freq_zero N (by omega)
    have f1 := freq_last N (by omega)
    have hw : ∀ t < N, (wavenumbersC2C N t : ℝ) = (freq N t : ℝ) := fun t ht => by rw [wavenumbersC2C_eq N t ht]
    have c1 : i + 1 = j ∨ j + 1 = i ∨ (i = 0 ∧ j = N - 1) ∨ (j = 0 ∧ i = N - 1) ∨
      (i + 1 ≠ j ∧ j + 1 ≠ i ∧ ¬ (i = 0 ∧ j = N - 1) ∧ ¬ (j = 0 ∧ i = N - 1)) := by omega
    rcases c1 with h | h | ⟨h, h'⟩ | ⟨h, h'⟩ | h
    · ifs
      rw [hw _ (by omega), show 1 + i = j by omega]
      push_cast
      linear_combination (-1) * (freq N j : ℂ) / 2 * I_sq
    · ifs
      rw [hw _ (by omega)]
      push_cast
      linear_combination  (freq N j : ℂ) / 2 * I_sq
    · ifs
      rw [h', f1]
      push_cast
      linear_combination (-1/2 : ℂ) * I_sq
    · ifs
      rw [h, f0]
      norm_num
    · ifs
      norm_num

/-- **C70** `Acos2mat`: quadrature of `conj(φ_i) cos²(x) φ_j''`. -/
theorem C70_Acos2 (N : ℕ) (hN : 3 ≤ N) (h4 : N ≠ 4) : IsFourierMatrix (acos2mat N) N (fourierQuadForm N (fun x => Real.cos x ^ 2) 2) := by
  have hd : acos2mat N = [(0, .array N fun t => -0.5 * (wavenumbersC2C N t : ℝ) ^ 2), (2, .array (N - 2) fun t => -0.25 * (wavenumbersC2C N (2 + t) : ℝ) ^ 2),
      (-2, .array (N - 2) fun t => -0.25 * (wavenumbersC2C N t : ℝ) ^ 2), ((N : ℤ) - 2, .array (min N 2) fun t => -0.25 * (wavenumbersC2C N (N - 2 + t) : ℝ) ^ 2),
      (-((N : ℤ) - 2), .array (min N 2) fun t => -0.25 * (wavenumbersC2C N t : ℝ) ^ 2)] := by
    unfold acos2mat
    dsimp only
    rw [dictOf_eq]
    simp
    omega
  refine ⟨?_, ?_⟩
  · rw [hd]
    simp only [List.forall_mem_cons, List.not_mem_nil, IsEmpty.forall_iff, implies_true, and_true, DVal.Fits, diagLength]
    split_ifs <;> omega
  · intro i hi j hj
    rw [mat_entry _ _ _ _ hi hj, hd, quadForm_eq N (by omega) _ 2 _ _ _ isTrig_cos2]
    simp only [dvd_freq0 N i j hi hj, dvd_freq N i j hi hj 2 (by simp; omega), dvd_freq_sub N i j hi hj 2 (by simp; omega)]
    simp only [List.map_cons, List.map_nil, diagsEntry_lit_cons, diagsEntry_lit_nil, DVal.get]
    have hw : ∀ t < N, (wavenumbersC2C N t : ℝ) = (freq N t : ℝ) := fun t ht => by rw [wavenumbersC2C_eq N t ht]
    have c1 : i = j ∨ i + 2 = j ∨ j + 2 = i ∨ i + N = j + 2 ∨ j + N = i + 2 ∨
      (i ≠ j ∧ i + 2 ≠ j ∧ j + 2 ≠ i ∧ i + N ≠ j + 2 ∧ j + N ≠ i + 2) := by omega
    rcases c1 with h | h | h | h | h | h
    · ifs
      rw [hw _ (by omega), h]
      push_cast
      rw [mul_pow, I_sq]
      ring
    · ifs
      rw [hw _ (by omega), show 2 + i = j by omega]
      push_cast
      rw [mul_pow, I_sq]
      ring
    · ifs
      rw [hw _ (by omega)]
      push_cast
      rw [mul_pow, I_sq]
      ring
    · ifs
      rw [hw _ (by omega), show N - 2 + i = j by omega]
      push_cast
      rw [mul_pow, I_sq]
      ring
    · ifs
      rw [hw _ (by omega)]
      push_cast
      rw [mul_pow, I_sq]
      ring
    · ifs
      norm_num

/-- **C70** `Csincosmat`: quadrature of `conj(φ_i) sin(2x)/2 φ_j'`. -/
theorem C70_Csincos (N : ℕ) (hN : 3 ≤ N) (h4 : N ≠ 4) : IsFourierMatrix (csincosmat N) N (fourierQuadForm N (fun x => Real.sin (2 * x) / 2) 1) := by
  have hd : csincosmat N = [(2, .array (N - 2) fun t => -0.25 * (wavenumbersC2C N (2 + t) : ℝ)),
      (-2, .array (N - 2) fun t => 0.25 * (wavenumbersC2C N t : ℝ)), ((N : ℤ) - 2, .array (min N 2) fun t => 0.25 * (wavenumbersC2C N (N - 2 + t) : ℝ)),
      (-((N : ℤ) - 2), .array (min N 2) fun t => -0.25 * (wavenumbersC2C N t : ℝ))] := by
    unfold csincosmat
    dsimp only
    rw [dictOf_eq]
    simp
    omega
  refine ⟨?_, ?_⟩
  · rw [hd]
    simp only [List.forall_mem_cons, List.not_mem_nil, IsEmpty.forall_iff, implies_true, and_true, DVal.Fits, diagLength]
    split_ifs <;> omega
  · intro i hi j hj
    rw [mat_entry _ _ _ _ hi hj, hd, quadForm_eq N (by omega) _ 2 _ _ _ isTrig_sincos]
    simp only [dvd_freq0 N i j hi hj, dvd_freq N i j hi hj 2 (by simp; omega), dvd_freq_sub N i j hi hj 2 (by simp; omega)]
    simp only [List.map_cons, List.map_nil, diagsEntry_lit_cons, diagsEntry_lit_nil, DVal.get]
    have hw : ∀ t < N, (wavenumbersC2C N t : ℝ) = (freq N t : ℝ) := fun t ht => by rw [wavenumbersC2C_eq N t ht]
    have c1 : i = j ∨ i + 2 = j ∨ j + 2 = i ∨ i + N = j + 2 ∨ j + N = i + 2 ∨
      (i ≠ j ∧ i + 2 ≠ j ∧ j + 2 ≠ i ∧ i + N ≠ j + 2 ∧ j + N ≠ i + 2) := by omega
    rcases c1 with h | h | h | h | h | h
    · ifs
      norm_num
    · ifs
      rw [hw _ (by omega), show 2 + i = j by omega]
      push_cast
      linear_combination (-1) * (freq N j : ℂ) / 4 * I_sq
    · ifs
      rw [hw _ (by omega)]
      push_cast
      linear_combination (freq N j : ℂ) / 4 * I_sq
    · ifs
      rw [hw _ (by omega), show N - 2 + i = j by omega]
      push_cast
      linear_combination (freq N j : ℂ) / 4 * I_sq
    · ifs
      rw [hw _ (by omega)]
      push_cast
      linear_combination (-1) * (freq N j : ℂ) / 4 * I_sq
    · ifs
      norm_num

/-- **C70** `Bcos2mat`: quadrature of `conj(φ_i) cos²(x) φ_j`. -/
theorem C70_Bcos2 (N : ℕ) (hN : 3 ≤ N) (h4 : N ≠ 4) : IsFourierMatrix (bcos2mat N) N (fourierQuadForm N (fun x => Real.cos x ^ 2) 0) := by
  have hd : bcos2mat N = [(0, .scalar 0.5), (2, .scalar 0.25), (-2, .scalar 0.25), ((N : ℤ) - 2, .scalar 0.25),
      (-((N : ℤ) - 2), .scalar 0.25)] := by
    unfold bcos2mat
    rw [dictOf_eq]
    simp
    omega
  refine ⟨?_, ?_⟩
  · rw [hd]
    simp only [List.forall_mem_cons, List.not_mem_nil, IsEmpty.forall_iff, implies_true, and_true, DVal.Fits, diagLength]
  · intro i hi j hj
    rw [mat_entry _ _ _ _ hi hj, hd, quadForm_eq N (by omega) _ 2 _ _ _ isTrig_cos2]
    simp only [dvd_freq0 N i j hi hj, dvd_freq N i j hi hj 2 (by simp; omega), dvd_freq_sub N i j hi hj 2 (by simp; omega)]
    simp only [List.map_cons, List.map_nil, diagsEntry_lit_cons, diagsEntry_lit_nil, DVal.get]
    have hw : ∀ t < N, (wavenumbersC2C N t : ℝ) = (freq N t : ℝ) := fun t ht => by rw [wavenumbersC2C_eq N t ht]
    have c1 : i = j ∨ i + 2 = j ∨ j + 2 = i ∨ i + N = j + 2 ∨ j + N = i + 2 ∨
      (i ≠ j ∧ i + 2 ≠ j ∧ j + 2 ≠ i ∧ i + N ≠ j + 2 ∧ j + N ≠ i + 2) := by omega
    rcases c1 with h | h | h | h | h | h
    all_goals
      ifs
      norm_num

/-! ## Exact integration -/

/-- **C70** Entries between modes whose wavenumbers do not wrap around are the integrals themselves (the weights are the
four that occur in the matrix table). -/
theorem C70_exact (N : ℕ) (hN : N ≠ 0) (w : ℝ → ℝ)
    (hw : w ∈ ({Real.cos, Real.sin, (fun x => Real.cos x ^ 2), (fun x => Real.sin (2 * x) / 2)} : Set (ℝ → ℝ)))
    (r i j : ℕ) (h : |freq N j - freq N i| + 2 < N) : fourierQuadForm N w r i j = fourierForm N w r i j := by
  have key : ∀ (s : ℤ) (c0 c1 c2 : ℂ), IsTrig w s c0 c1 c2 → |s| ≤ 2 → fourierQuadForm N w r i j = fourierForm N w r i j := by
    intro s c0 c1 c2 hw hs
    rw [quadForm_eq N hN w s c0 c1 c2 hw, form_eq N w s c0 c1 c2 hw]
    have hs' := abs_le.mp hs
    have hz : ∀ z : ℤ, |z| < N → ((N : ℤ) ∣ z ↔ z = 0) := fun z hz =>
      ⟨fun hd => Int.eq_zero_of_abs_lt_dvd hd hz, fun hd => hd ▸ dvd_zero _⟩
    have e := abs_lt.mp (show |freq N j - freq N i| < N - 2 by omega)
    simp only [hz (freq N j - freq N i) (abs_lt.mpr (by omega)), hz (freq N j + s - freq N i) (abs_lt.mpr (by omega)),
      hz (freq N j - s - freq N i) (abs_lt.mpr (by omega))]
  simp only [Set.mem_insert_iff, Set.mem_singleton_iff] at hw
  rcases hw with h | h | h | h <;> subst h
  · exact key 1 _ _ _ isTrig_cos (by simp)
  · exact key 1 _ _ _ isTrig_sin (by simp)
  · exact key 2 _ _ _ isTrig_cos2 (by simp)
  · exact key 2 _ _ _ isTrig_sincos (by simp)

/-- **C70** The same dictionary is returned for `assemble='exact'`, but it is not the matrix of the integrals: the two
wavenumbers `N/2-1` and `-N/2` are coupled by aliasing. -/
theorem C70_exact_refuted : ¬ ∀ N, 3 ≤ N → IsFourierMatrix (bcosmat N) N (fourierForm N Real.cos 0) := by
  intro h
  have h1 := (h 4 (by omega)).entries 1 (by omega) 2 (by omega)
  rw [(C70_Bcos 4 (by omega)).entries 1 (by omega) 2 (by omega), quadForm_eq 4 (by omega) _ 1 _ _ _ isTrig_cos,
    form_eq 4 _ 1 _ _ _ isTrig_cos] at h1
  norm_num [freq] at h1

/-- **C70** With four points the dictionary keys `2` and `N-2` coincide and the second replaces the first instead of
being added. -/
theorem C70_four_points_refuted : ¬ IsFourierMatrix (bcos2mat 4) 4 (fourierQuadForm 4 (fun x => Real.cos x ^ 2) 0) := by
  intro h
  have h1 := h.entries 0 (by omega) 2 (by omega)
  rw [mat_entry _ _ _ _ (by omega) (by omega), quadForm_eq 4 (by omega) _ 2 _ _ _ isTrig_cos2] at h1
  norm_num [freq, bcos2mat, dictOf, dictSet, diagsEntry, diagEntry, DVal.get] at h1

/-- **C70** With two points the keys `1` and `N-1` coincide. -/
theorem C70_two_points_refuted : ¬ IsFourierMatrix (bcosmat 2) 2 (fourierQuadForm 2 Real.cos 0) := by
  intro h
  have h1 := h.entries 0 (by omega) 1 (by omega)
  rw [mat_entry _ _ _ _ (by omega) (by omega), quadForm_eq 2 (by omega) _ 1 _ _ _ isTrig_cos] at h1
  norm_num [freq, bcosmat, dictOf, dictSet, diagsEntry, diagEntry, DVal.get] at h1

theorem find_dictSet (d : DMat) (e : ℤ × DVal) (k : ℤ) :
    (dictSet d e).find? (fun f => f.1 = k) = if e.1 = k then some e else d.find? (fun f => f.1 = k) := by
  unfold dictSet
  by_cases h : d.any (fun f => f.1 = e.1) = true
  · rw [if_pos h]
    induction d with
    | nil => simp at h
    | cons f d ih =>
      rw [List.map_cons, List.find?_cons, List.find?_cons]
      by_cases hf : f.1 = e.1
      · rw [if_pos hf]
        by_cases hk : e.1 = k
        · simp only [hf, hk, decide_true, if_true]
          exact congrArg some (Prod.ext hk.symm rfl)
        · simp only [hf, hk, decide_false, if_false]
          by_cases h' : d.any (fun f => f.1 = e.1) = true
          · rw [ih h', if_neg hk]
          · have : d.map (fun f => if f.1 = e.1 then (f.1, e.2) else f) = d := by
              conv_rhs => rw [← List.map_id d]
              refine List.map_congr_left fun g hg => ?_
              rw [if_neg, id]
              intro hge
              exact h' (List.any_eq_true.2 ⟨g, hg, by simpa using hge⟩)
            rw [this]
      · rw [if_neg hf]
        have h' : d.any (fun f => f.1 = e.1) = true := by
          rw [List.any_cons] at h
          simpa [hf] using h
        by_cases hk : f.1 = k
        · simp only [hk, decide_true]
          rw [if_neg]
          intro hc; exact hf (hk.trans hc.symm)
        · simp only [hk, decide_false]
          exact ih h'
  · rw [if_neg h, List.find?_append]
    by_cases hk : e.1 = k
    · have : d.find? (fun f => f.1 = k) = none := by
        rw [List.find?_eq_none]
        intro g hg hc
        exact h (List.any_eq_true.2 ⟨g, hg, by rw [hk]; exact hc⟩)
      rw [this, if_pos hk]
      simp [hk]
    · rw [if_neg hk]
      simp [hk]

/-- A dictionary display gives every key the last of the values written for it. -/
theorem C70_dict_last (l : DMat) (k : ℤ) :
    (dictOf l).find? (fun f => f.1 = k) = l.reverse.find? (fun f => f.1 = k) := by
  induction l using List.reverseRecOn with
  | nil => rfl
  | append_singleton l e ih =>
    have : dictOf (l ++ [e]) = dictSet (dictOf l) e := by simp [dictOf]
    rw [this, find_dictSet, List.reverse_append, List.reverse_singleton, List.singleton_append, List.find?_cons, ih]
    by_cases hk : e.1 = k
    · simp [hk]
    · simp [hk]

/-- **C70** With four points the second diagonal of `Csincosmat` has the opposite sign of what the first of the two
coinciding keys says. -/
theorem C70_four_points_csincos : (csincosmat 4).find? (fun f => f.1 = 2) = some (2, .array 2 fun t => 0.25 * (wavenumbersC2C 4 (2 + t) : ℝ)) := by
  unfold csincosmat
  simp only
  rw [C70_dict_last]
  norm_num

/-! ## Other domains -/

/-- The domain is admissible: not empty, and its length is `2π` or differs from it by `1e-12` (shorter differences are
ignored by `domain_factor`). -/
structure GoodDomain (dom : Domain ℝ) : Prop where
  pos : dom.lower < dom.upper
  far : dom.upper - dom.lower = 2 * Real.pi ∨ 1 / 10 ^ 12 ≤ |dom.upper - dom.lower - 2 * Real.pi|

theorem domainFactor_good (dom : Domain ℝ) (h : GoodDomain dom) :
    domainFactor dom refDomain = 2 * Real.pi / (dom.upper - dom.lower) := by
  have hp := Real.pi_pos
  unfold domainFactor refDomain
  dsimp only
  rw [sub_zero]
  split_ifs with h1
  · rcases h.far with h2 | h2
    · rw [h2, div_self (by positivity)]
    · linarith
  · rfl

/-- Quadrature on the domain of `conj(φ_i) w φ_j^{(r)}`, where the weight is `w` of the reference coordinate. -/
noncomputable def domainQuadForm (dom : Domain ℝ) (N : ℕ) (w : ℝ → ℝ) (r i j : ℕ) : ℂ :=
  periodicQuad N dom.lower dom.upper
    (fun x => (w (2 * Real.pi / (dom.upper - dom.lower) * (x - dom.lower)) : ℂ) *
      iteratedDeriv r (mode dom.lower dom.upper (freq N j)) x)
    (mode dom.lower dom.upper (freq N i))

theorem domainQuadForm_eq (dom : Domain ℝ) (hd : dom.lower < dom.upper) (N : ℕ) (hN : N ≠ 0) (w : ℝ → ℝ) (r i j : ℕ) :
    domainQuadForm dom N w r i j = ((2 * Real.pi / (dom.upper - dom.lower) : ℝ) : ℂ) ^ r * fourierQuadForm N w r i j := by
  have hL : dom.upper - dom.lower ≠ 0 := by linarith
  have hN' : (N : ℝ) ≠ 0 := by exact_mod_cast hN
  have hp : Real.pi ≠ 0 := Real.pi_ne_zero
  unfold domainQuadForm fourierQuadForm periodicQuad
  rw [mul_left_comm]
  congr 1
  rw [Finset.mul_sum]
  refine sum_congr rfl fun m _ => ?_
  beta_reduce
  have hm : ∀ k : ℤ, mode dom.lower dom.upper k (dom.lower + m * (dom.upper - dom.lower) / N) =
      mode 0 (2 * Real.pi) k (0 + m * (2 * Real.pi - 0) / N) := by
    intro k
    unfold mode
    congr 3
    field_simp
    ring
  have hx : 2 * Real.pi / (dom.upper - dom.lower) * (dom.lower + m * (dom.upper - dom.lower) / N - dom.lower) =
      0 + m * (2 * Real.pi - 0) / N := by
    field_simp
    ring
  rw [iteratedDeriv_mode, iteratedDeriv_mode, hm, hm, hx, sub_zero, div_self (by positivity)]
  push_cast
  ring

/-- **C70** What the hard-coded matrices are on another domain: the value wanted divided by the domain factor
(test functions are never differentiated in the table). -/
theorem C70_domain (dom : Domain ℝ) (hd : GoodDomain dom) (N : ℕ) (hN : N ≠ 0) (d : DMat) (w : ℝ → ℝ) (r : ℕ)
    (h : IsFourierMatrix d N (fourierQuadForm N w r)) (i j : ℕ) (hi : i < N) (hj : j < N) :
    (((onDomain dom 0 r N d).denseAt i j : ℝ) : ℂ) * ((domainFactor dom refDomain : ℝ) : ℂ) = domainQuadForm dom N w r i j := by
  have h1 := h.entries i hi j hj
  rw [mat_entry _ _ _ _ hi hj] at h1
  have hne : domainFactor dom refDomain ≠ 0 :=
    domainFactor_ne _ _ hd.pos (by unfold refDomain; dsimp only; exact mul_pos two_pos Real.pi_pos)
  have h2 : (onDomain dom 0 r N d).denseAt i j = matScale dom 0 r * diagsEntry (d.map fun e => (e.1, e.2.get)) i j := by
    unfold onDomain
    rw [← SM.entry_new]
    unfold SM.denseAt SM.entry
    exact if_pos ⟨hi, hj⟩
  have h3 : matScale dom 0 r * domainFactor dom refDomain = domainFactor dom refDomain ^ r := by
    unfold matScale
    split_ifs with h4
    · rw [← zpow_add_one₀ hne]
      norm_num
    · rw [not_not] at h4
      rw [h4]
      simp
  rw [domainQuadForm_eq dom hd.pos N hN, ← h1, ← domainFactor_good dom hd, h2, ← Complex.ofReal_pow, ← h3]
  push_cast
  ring

/-- **C70** So they are wrong on every domain whose length is not `2π`; here twice the right value on `(0, 4π)`.  The same
form assembled by quadrature (`kind='vandermonde'`) is right. -/
theorem C70_domain_refuted : ¬ ∀ (dom : Domain ℝ) (N : ℕ), GoodDomain dom → 3 ≤ N → ∀ i < N, ∀ j < N,
    (((onDomain dom 0 0 N (bcosmat N)).denseAt i j : ℝ) : ℂ) = domainQuadForm dom N Real.cos 0 i j := by
  intro h
  have hp := Real.pi_gt_three
  have hg : GoodDomain ⟨0, 4 * Real.pi⟩ := ⟨by dsimp only; linarith, Or.inr (by
    dsimp only
    rw [show 4 * Real.pi - 0 - 2 * Real.pi = 2 * Real.pi by ring, abs_of_pos (by linarith)]
    have : (1 : ℝ) / 10 ^ 12 ≤ 1 := by norm_num
    linarith)⟩
  have h1 := h ⟨0, 4 * Real.pi⟩ 3 hg (by omega) 0 (by omega) 1 (by omega)
  have h2 := C70_domain ⟨0, 4 * Real.pi⟩ hg 3 (by omega) _ _ _ (C70_Bcos 3 (by omega)) 0 1 (by omega) (by omega)
  rw [h1, domainQuadForm_eq _ hg.pos 3 (by omega), quadForm_eq 3 (by omega) _ 1 _ _ _ isTrig_cos,
    domainFactor_good _ hg] at h2
  norm_num [freq] at h2
  have h3 : (2 * Real.pi / (4 * Real.pi) : ℝ) = 1 / 2 := by field_simp; norm_num
  have h4 : (2 * (Real.pi : ℂ) / (4 * Real.pi)) = 1 / 2 := by
    have : (Real.pi : ℂ) ≠ 0 := by exact_mod_cast Real.pi_ne_zero
    field_simp
    norm_num
  rw [h4] at h2
  norm_num at h2

/-! ## Constant coefficients -/

theorem periodicIP_mode (dom : Domain ℝ) (hd : dom.lower < dom.upper) (k l : ℤ) :
    periodicIP dom.lower dom.upper (mode dom.lower dom.upper l) (mode dom.lower dom.upper k) = if l = k then 1 else 0 := by
  have hL : dom.upper - dom.lower ≠ 0 := by linarith
  have hp : Real.pi ≠ 0 := Real.pi_ne_zero
  unfold periodicIP
  have hf : ∀ x : ℝ, mode dom.lower dom.upper l x * (starRingEnd ℂ) (mode dom.lower dom.upper k x) =
      wave (l - k) (2 * Real.pi / (dom.upper - dom.lower) * x - 2 * Real.pi / (dom.upper - dom.lower) * dom.lower) := by
    intro x
    have : ∀ m : ℤ, mode dom.lower dom.upper m x =
        wave m (2 * Real.pi / (dom.upper - dom.lower) * x - 2 * Real.pi / (dom.upper - dom.lower) * dom.lower) := by
      intro m
      unfold mode wave
      congr 2
      push_cast
      ring
    rw [this, this, conj_wave, ← wave_add, show l + -k = l - k by ring]
  simp only [hf]
  rw [intervalIntegral.integral_comp_mul_sub (f := wave (l - k)) (by positivity), sub_self,
    show 2 * Real.pi / (dom.upper - dom.lower) * dom.upper - 2 * Real.pi / (dom.upper - dom.lower) * dom.lower = 2 * Real.pi by
      field_simp]
  have h1 := integral_wave (l - k)
  rw [sub_zero] at h1
  have e : (1 / ((dom.upper - dom.lower : ℝ) : ℂ)) * ((2 * Real.pi / (dom.upper - dom.lower))⁻¹ • ∫ x in (0:ℝ)..(2 * Real.pi), wave (l - k) x) =
      1 / ((2 * Real.pi : ℝ) : ℂ) * ∫ x in (0:ℝ)..(2 * Real.pi), wave (l - k) x := by
    rw [Complex.real_smul]
    have hL' : ((dom.upper - dom.lower : ℝ) : ℂ) ≠ 0 := by exact_mod_cast hL
    have hp' : (Real.pi : ℂ) ≠ 0 := by exact_mod_cast hp
    push_cast at hL' ⊢
    field_simp
  rw [e, h1]
  simp only [sub_eq_zero]

/-- **C70** `FourierMatrix` for any number of derivatives of test and trial function on any domain is the matrix of the
integrals `1/L ∫ φ_l^{(r)} conj(φ_k^{(t)}) dx`: diagonal with the given entries. -/
theorem C70_constant (dom : Domain ℝ) (hd : GoodDomain dom) (t r : ℕ) (measure : ℝ) (k l : ℤ) :
    (measure : ℂ) * periodicIP dom.lower dom.upper (iteratedDeriv r (mode dom.lower dom.upper l))
      (iteratedDeriv t (mode dom.lower dom.upper k)) = if l = k then fourierMatrix dom t r measure k else 0 := by
  set f : ℝ := 2 * Real.pi / (dom.upper - dom.lower) with hf
  have hlin : periodicIP dom.lower dom.upper (iteratedDeriv r (mode dom.lower dom.upper l))
      (iteratedDeriv t (mode dom.lower dom.upper k)) = (I * l * (f : ℂ)) ^ r * (-I * k * (f : ℂ)) ^ t *
        periodicIP dom.lower dom.upper (mode dom.lower dom.upper l) (mode dom.lower dom.upper k) := by
    unfold periodicIP
    rw [funext fun x : ℝ => show iteratedDeriv r (mode dom.lower dom.upper l) x *
        (starRingEnd ℂ) (iteratedDeriv t (mode dom.lower dom.upper k) x) = (I * l * (f : ℂ)) ^ r * (-I * k * (f : ℂ)) ^ t *
          (mode dom.lower dom.upper l x * (starRingEnd ℂ) (mode dom.lower dom.upper k x)) by
      rw [iteratedDeriv_mode, iteratedDeriv_mode, map_mul, map_pow, map_mul, map_mul, Complex.conj_I, Complex.conj_ofReal,
        ← hf, map_intCast]
      ring]
    rw [intervalIntegral.integral_const_mul]
    ring
  rw [hlin, periodicIP_mode dom hd.pos]
  split_ifs with h
  · subst h
    unfold fourierMatrix fourierAssemble matScale
    have hdf := domainFactor_good dom hd
    rw [← hf] at hdf
    have hne : f ≠ 0 := by
      rw [hf]
      exact div_ne_zero (by positivity) (by linarith [hd.pos])
    simp only [hdf]
    have hval : (if (r + t) % 2 = 0 then ((((I * (l : ℂ)) ^ r * (-I * l) ^ t).re : ℝ) : ℂ) else (I * l) ^ r * (-I * l) ^ t) =
        (I * l) ^ r * (-I * l) ^ t := by
      split_ifs with he
      · have e1 : (I * (l : ℂ)) ^ r * (-I * l) ^ t = (-1) ^ t * (l : ℂ) ^ (r + t) * I ^ (r + t) := by
          rw [neg_mul, neg_pow, mul_pow, mul_pow, pow_add, pow_add]
          ring
        obtain ⟨m, hm⟩ := Nat.dvd_of_mod_eq_zero he
        rw [e1, hm, pow_mul I, I_sq]
        have : ((-1) ^ t * (l : ℂ) ^ (2 * m) * (-1) ^ m) = (((-1) ^ t * (l : ℝ) ^ (2 * m) * (-1) ^ m : ℝ) : ℂ) := by push_cast; ring
        rw [this, Complex.ofReal_re]
      · rfl
    have hs : (if f ≠ 1 then f ^ ((t + r : ℤ) - 1) else 1) * f = f ^ (t + r) := by
      split_ifs with h1
      · rw [← zpow_add_one₀ hne]
        norm_num
        exact_mod_cast rfl
      · rw [not_not] at h1
        rw [h1]
        simp
    have hs' := congrArg (fun x : ℝ => (x : ℂ)) hs
    push_cast at hs'
    by_cases h0 : r + t > 0
    · rw [if_pos h0]
      rw [hval]
      push_cast
      have : ((if f ≠ 1 then f ^ ((t + r : ℤ) - 1) else 1 : ℝ) : ℂ) * (f : ℂ) = (f : ℂ) ^ (t + r) := by
        exact_mod_cast congrArg (fun x : ℝ => (x : ℂ)) hs
      push_cast at this
      linear_combination (- (measure : ℂ) * ((I * l) ^ r * (-I * l) ^ t)) * this
    · rw [if_neg h0]
      have hr : r = 0 := by omega
      have ht : t = 0 := by omega
      subst hr ht
      have : ((if f ≠ 1 then f ^ (((0:ℕ) + (0:ℕ) : ℤ) - 1) else 1 : ℝ) : ℂ) * (f : ℂ) = 1 := by
        rw [← Complex.ofReal_mul, hs]
        simp
      push_cast at this ⊢
      linear_combination (-(measure : ℂ)) * this
  · simp

theorem freq_inj (N i j : ℕ) (hi : i < N) (hj : j < N) (h : freq N i = freq N j) : i = j := by
  unfold freq at h
  split_ifs at h <;> omega

/-- **C70** The same by position, complex transforms. -/
theorem C70_constant_C2C (dom : Domain ℝ) (hd : GoodDomain dom) (t r : ℕ) (measure : ℝ) (N i j : ℕ) (hi : i < N) (hj : j < N) :
    (measure : ℂ) * periodicIP dom.lower dom.upper (iteratedDeriv r (mode dom.lower dom.upper (freq N j)))
      (iteratedDeriv t (mode dom.lower dom.upper (freq N i))) =
      if i = j then fourierMatrix dom t r measure (wavenumbersC2C N i) else 0 := by
  rw [C70_constant dom hd, wavenumbersC2C_eq N i hi]
  by_cases h : i = j
  · rw [if_pos (by rw [h]), if_pos h]
  · rw [if_neg (fun e => h (freq_inj N j i hj hi e).symm), if_neg h]

/-- **C70** The same by position, real transforms (wavenumbers `0, …, N/2`). -/
theorem C70_constant_R2C (dom : Domain ℝ) (hd : GoodDomain dom) (t r : ℕ) (measure : ℝ) (N i j : ℕ) :
    (measure : ℂ) * periodicIP dom.lower dom.upper (iteratedDeriv r (mode dom.lower dom.upper j))
      (iteratedDeriv t (mode dom.lower dom.upper i)) =
      if i = j then fourierMatrix dom t r measure (wavenumbersR2C N i) else 0 := by
  rw [C70_constant dom hd]
  unfold wavenumbersR2C
  by_cases h : i = j
  · rw [if_pos (by rw [h]), if_pos h]
  · rw [if_neg (by exact_mod_cast Ne.symm h), if_neg h]

/-- An odd derivative keeps the highest wavenumber: with an even number of points the entry for `-N/2` is not zero,
although the module says that the symmetric interpolator (whose odd derivatives have no such component) is used for odd
derivatives, `/repo/shenfun/fourier/bases.py:17-27`; setting it to zero is commented out at
`/repo/shenfun/fourier/matrices.py:166-168`. -/
theorem C70_nyquist_kept : fourierMatrix refDomain 0 1 1 (wavenumbersC2C 4 2) = -2 * I := by
  have hg : GoodDomain refDomain := ⟨by unfold refDomain; dsimp only; exact mul_pos two_pos Real.pi_pos, Or.inl (by unfold refDomain; ring)⟩
  have h1 : domainFactor refDomain refDomain = 1 := by
    rw [domainFactor_good _ hg]
    unfold refDomain
    dsimp only
    rw [sub_zero, div_self (by positivity)]
  norm_num [fourierMatrix, matScale, h1, fourierAssemble, wavenumbersC2C]
  ring

theorem fourierMatrix_ne (dom : Domain ℝ) (hd : GoodDomain dom) (t r : ℕ) (measure : ℝ) (hm : measure ≠ 0) (k : ℤ) :
    fourierMatrix dom t r measure k = 0 ↔ k = 0 ∧ 0 < t + r := by
  have h := C70_constant dom hd t r measure k k
  rw [if_pos rfl] at h
  have hL : dom.upper - dom.lower ≠ 0 := by linarith [hd.pos]
  have hf : (2 * Real.pi / (dom.upper - dom.lower) : ℝ) ≠ 0 := div_ne_zero (by positivity) hL
  set f : ℝ := 2 * Real.pi / (dom.upper - dom.lower) with hfd
  have hlin : periodicIP dom.lower dom.upper (iteratedDeriv r (mode dom.lower dom.upper k))
      (iteratedDeriv t (mode dom.lower dom.upper k)) = (I * k * (f : ℂ)) ^ r * (-I * k * (f : ℂ)) ^ t := by
    have h2 := periodicIP_mode dom hd.pos k k
    rw [if_pos rfl] at h2
    rw [← mul_one ((I * k * (f : ℂ)) ^ r * (-I * k * (f : ℂ)) ^ t), ← h2]
    unfold periodicIP
    rw [funext fun x : ℝ => show iteratedDeriv r (mode dom.lower dom.upper k) x *
        (starRingEnd ℂ) (iteratedDeriv t (mode dom.lower dom.upper k) x) = (I * k * (f : ℂ)) ^ r * (-I * k * (f : ℂ)) ^ t *
          (mode dom.lower dom.upper k x * (starRingEnd ℂ) (mode dom.lower dom.upper k x)) by
      rw [iteratedDeriv_mode, iteratedDeriv_mode, map_mul, map_pow, map_mul, map_mul, Complex.conj_I, Complex.conj_ofReal,
        ← hfd, map_intCast]
      ring]
    rw [intervalIntegral.integral_const_mul]
    ring
  rw [← h, hlin]
  have hm' : (measure : ℂ) ≠ 0 := by exact_mod_cast hm
  have hf' : (f : ℂ) ≠ 0 := by exact_mod_cast hf
  simp [hm', hf', pow_eq_zero_iff']
  omega

/-- What `solve` must return: at the zero wavenumber of a differentiated form, zero; elsewhere the solution. -/
def FourierSolved (n : ℕ) (k : ℕ → ℤ) (order : ℕ) (entry : ℕ → ℂ) (b : ℕ → ℂ) (res : ℕ → Option ℂ) : Prop :=
  ∀ i < n, ∃ u, res i = some u ∧ (k i = 0 ∧ 0 < order → u = 0) ∧ (¬ (k i = 0 ∧ 0 < order) → entry i * u = b i)

theorem fourierSolve_spec (n : ℕ) (k : ℕ → ℤ) (hk : ∀ i < n, k i = 0 → i = 0) (dom : Domain ℝ) (hd : GoodDomain dom) (t r : ℕ)
    (measure : ℝ) (hm : measure ≠ 0) (s : ℂ) (hs : s ≠ 0) (b : ℕ → ℂ) :
    FourierSolved n k (t + r) (fun i => s * fourierMatrix dom t r measure (k i)) b
      (fourierSolve n (decide (0 < t + r)) (fun i => fourierMatrix dom t r measure (k i)) s b) := by
  intro i hi
  have hz := fourierMatrix_ne dom hd t r measure hm (k i)
  unfold fourierSolve
  dsimp only
  by_cases h0 : fourierMatrix dom t r measure (k i) = 0
  · have h1 := hz.mp h0
    have hi0 := hk i hi h1.1
    subst hi0
    refine ⟨0, ?_, fun _ => rfl, fun h => absurd h1 h⟩
    have : recip (fourierMatrix dom t r measure (k 0)) = none := by unfold recip; rw [if_pos h0]
    simp only [this, h1.2, decide_true, if_true]
    split_ifs with h2
    · by_cases hn : n / 2 = 0
      · simp [hn]
      · rw [Function.update_of_ne (by omega)]
        simp
    · simp
  · have h1 : ¬ (k i = 0 ∧ 0 < t + r) := fun h => h0 (hz.mpr h)
    refine ⟨b i * (1 / fourierMatrix dom t r measure (k i)) / s, ?_, fun h => absurd h h1, fun _ => by field_simp⟩
    have hr : recip (fourierMatrix dom t r measure (k i)) = some (1 / fourierMatrix dom t r measure (k i)) := by
      unfold recip; rw [if_neg h0]
    have e : ∀ (d : ℕ → Option ℂ) (m : ℕ), d i = some (1 / fourierMatrix dom t r measure (k i)) →
        (if d m = none then Function.update d m (some 0) else d) i = some (1 / fourierMatrix dom t r measure (k i)) := by
      intro d m hdi
      split_ifs with h3
      · rw [Function.update_of_ne _, hdi]
        intro he
        rw [← he, hdi] at h3
        simp at h3
      · exact hdi
    by_cases ho : decide (0 < t + r) = true
    · rw [if_pos ho, e _ (n / 2) (e (fun i => recip (fourierMatrix dom t r measure (k i))) 0 hr)]
      rfl
    · rw [if_neg ho, hr]
      rfl

/-- **C70** `solve` of a constant-coefficient Fourier matrix, complex transforms: never an infinite value, zero in the
null space, the solution elsewhere, for every domain, order, scale and right-hand side. -/
theorem C70_solve_C2C (N : ℕ) (dom : Domain ℝ) (hd : GoodDomain dom) (t r : ℕ) (measure : ℝ) (hm : measure ≠ 0) (s : ℂ) (hs : s ≠ 0)
    (b : ℕ → ℂ) :
    FourierSolved N (freq N) (t + r) (fun i => s * fourierMatrix dom t r measure (freq N i)) b
      (fourierSolve N (decide (0 < t + r)) (fun i => fourierMatrix dom t r measure (freq N i)) s b) := by
  refine fourierSolve_spec N (freq N) ?_ dom hd t r measure hm s hs b
  intro i hi h
  unfold freq at h
  split_ifs at h <;> omega

/-- **C70** The same for real transforms, where the matrix has `N/2+1` rows. -/
theorem C70_solve_R2C (N : ℕ) (dom : Domain ℝ) (hd : GoodDomain dom) (t r : ℕ) (measure : ℝ) (hm : measure ≠ 0) (s : ℂ) (hs : s ≠ 0)
    (b : ℕ → ℂ) :
    FourierSolved (N / 2 + 1) (wavenumbersR2C N) (t + r) (fun i => s * fourierMatrix dom t r measure (wavenumbersR2C N i)) b
      (fourierSolve (N / 2 + 1) (decide (0 < t + r)) (fun i => fourierMatrix dom t r measure (wavenumbersR2C N i)) s b) := by
  refine fourierSolve_spec _ _ ?_ dom hd t r measure hm s hs b
  intro i _ h
  unfold wavenumbersR2C at h
  omega

/-- The hypotheses are met: the domain `(0, 4π)`, eight points, second derivative. -/
example : GoodDomain ⟨0, 4 * Real.pi⟩ ∧ fourierMatrix ⟨0, 4 * Real.pi⟩ 0 2 1 (wavenumbersC2C 8 5) = -9/4 := by
  have hp := Real.pi_gt_three
  have hg : GoodDomain ⟨0, 4 * Real.pi⟩ := ⟨by dsimp only; linarith, Or.inr (by
    dsimp only
    rw [show 4 * Real.pi - 0 - 2 * Real.pi = 2 * Real.pi by ring, abs_of_pos (by linarith)]
    have : (1 : ℝ) / 10 ^ 12 ≤ 1 := by norm_num
    linarith)⟩
  have h1 : domainFactor ⟨0, 4 * Real.pi⟩ refDomain = 1 / 2 := by
    rw [domainFactor_good _ hg]
    dsimp only
    field_simp
    ring
  refine ⟨hg, ?_⟩
  norm_num [fourierMatrix, matScale, h1, fourierAssemble, wavenumbersC2C, mul_pow, I_sq, pow_two]

end Shenfun.Fourier
