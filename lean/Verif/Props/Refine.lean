import Verif.Spec.Refine
import Verif.Props.Axis
import Verif.Props.Fourier
import Verif.Props.TensorTransform
import Mathlib.Tactic.FinCases
import Mathlib.Tactic.IntervalCases

/-!
# C89: refinement of a function
-/

namespace Shenfun.Refine

open Complex Finset Fourier Spec

/-! ## One axis -/

theorem tailStart_pos {L n : ℕ} (h : n ≠ 0) : tailStart L n = L - n := if_neg h

/-- The values of the padded complex array. -/
theorem padC2C_apply (N M : ℕ) (hN : 2 ≤ N) (hM : N < M) (u : ℕ → ℂ) (i : ℕ) (hi : i < M) :
    padC2C N M u i = if 2 * i < N then u i
      else if 2 * i = N then u (N / 2) / 2
      else if i = M - N / 2 ∧ N % 2 = 0 then u (N / 2) / 2
      else if M - N / 2 ≤ i then u (i + N - M) else 0 := by
  have h0 : N / 2 ≠ 0 := by omega
  have h5 : ∀ z : ℂ, z * 0.5 = z / 2 := by intro z; norm_num [div_eq_mul_inv]
  unfold padC2C
  rw [tailStart_pos h0, tailStart_pos h0]
  simp only [h0, if_false]
  by_cases he : N % 2 = 0
  · simp only [he, if_true, and_true, h5]
    by_cases h1 : i = M - N / 2
    · subst h1
      rw [Function.update_self, Function.update_of_ne (by omega)]
      have : M - N / 2 - (M - N / 2) + (N - N / 2) = N / 2 := by omega
      rw [this]
      split_ifs <;> first | rfl | (exfalso; omega)
    · rw [Function.update_of_ne h1]
      by_cases h2 : i = N / 2
      · subst h2
        rw [Function.update_self]
        split_ifs <;> first | rfl | (exfalso; omega)
      · rw [Function.update_of_ne h2]
        split_ifs <;> first | rfl | (exfalso; omega) | (congr 1; omega)
  · simp only [he, if_false, and_false]
    split_ifs <;> first | rfl | (exfalso; omega) | (congr 1; omega)

theorem freq_low {N i : ℕ} (h : 2 * i < N) : Shenfun.Spec.freq N i = i := if_pos h
theorem freq_high {N i : ℕ} (h : ¬ 2 * i < N) : Shenfun.Spec.freq N i = (i : ℤ) - N := if_neg h

theorem cos_half (n : ℕ) (x : ℝ) (c : ℂ) :
    c / 2 * exp (I * ((n : ℤ) : ℂ) * x) + c / 2 * exp (I * ((-(n : ℤ) : ℤ) : ℂ) * x) = c * (Real.cos (n * x) : ℂ) := by
  push_cast
  rw [Complex.cos]
  have e1 : I * (n : ℂ) * x = n * x * I := by ring
  have e2 : I * -(n : ℂ) * x = -(n * x) * I := by ring
  rw [e1, e2]
  ring

theorem wave_mode (k : ℤ) (x : ℝ) {l : ℤ} (h : k = l) : exp (I * (k : ℂ) * x) = exp (I * (l : ℂ) * x) := by rw [h]

/-- The layout of the padded complex array: `N/2+1` low, zeros, `N/2` high. -/
theorem sum_layout (N M : ℕ) (hN : 2 ≤ N) (hM : N < M) (F G : ℕ → ℂ) (hlow : ∀ i, 2 * i < N → F i = G i)
    (hhigh : ∀ i j, i + N = j + M → j < N → N < 2 * j → F i = G j)
    (hmid : ∀ i, N < 2 * i → i < M - N / 2 → F i = 0)
    (hny : ∀ i i', 2 * i = N → i' = M - i → F i + F i' = G i) :
    ∑ i ∈ range M, F i = ∑ i ∈ range N, G i := by
  rcases Nat.even_or_odd' N with ⟨t, rfl | rfl⟩
  · obtain ⟨t, rfl⟩ : ∃ s, t = s + 1 := ⟨t - 1, by omega⟩
    obtain ⟨m, rfl⟩ : ∃ m, M = (t + 1) + 1 + m + (1 + t) := ⟨M - (t + 1) - 1 - 1 - t, by omega⟩
    rw [sum_range_add F ((t + 1) + 1 + m) (1 + t), sum_range_add F ((t + 1) + 1) m, sum_range_succ F (t + 1),
      sum_range_add _ 1 t, sum_range_one]
    rw [show range (2 * (t + 1)) = range ((t + 1) + 1 + t) by congr 1; omega, sum_range_add G ((t + 1) + 1) t,
      sum_range_succ G (t + 1)]
    rw [sum_eq_zero (s := range m) fun i hi => hmid _ (by omega) (by have := mem_range.1 hi; omega), add_zero]
    rw [sum_congr rfl fun i hi => hlow i (by have := mem_range.1 hi; omega)]
    rw [sum_congr rfl fun i hi => hhigh (t + 1 + 1 + m + (1 + i)) (t + 1 + 1 + i) (by omega)
      (by have := mem_range.1 hi; omega) (by omega)]
    rw [← hny (t + 1) (t + 1 + 1 + m + 0) (by omega) (by omega)]
    ring
  · obtain ⟨m, rfl⟩ : ∃ m, M = (t + 1) + m + t := ⟨M - (t + 1) - t, by omega⟩
    rw [sum_range_add F ((t + 1) + m) t, sum_range_add F (t + 1) m]
    rw [show range (2 * t + 1) = range ((t + 1) + t) by congr 1; omega, sum_range_add G (t + 1) t]
    rw [sum_eq_zero (s := range m) fun i hi => hmid _ (by omega) (by have := mem_range.1 hi; omega), add_zero]
    rw [sum_congr rfl fun i hi => hlow i (by have := mem_range.1 hi; omega)]
    rw [sum_congr rfl fun i hi => hhigh (t + 1 + m + i) (t + 1 + i) (by omega)
      (by have := mem_range.1 hi; omega) (by have := mem_range.1 hi; omega)]

theorem pad_c2c_value (N M : ℕ) (hN : 2 ≤ N) (hM : N < M) (ψ β : ℕ → ℝ → ℝ) (u : ℕ → ℂ) (x : ℝ) :
    ∑ i ∈ range M, padC2C N M u i * basisFn .c2c M ψ β i x = ∑ i ∈ range N, u i * basisFn .c2c N ψ β i x := by
  have hlow : ∀ i, 2 * i < N → padC2C N M u i * basisFn .c2c M ψ β i x = u i * basisFn .c2c N ψ β i x := by
    intro i hi
    rw [padC2C_apply _ _ hN (by omega) _ _ (by omega), if_pos (by omega)]
    simp only [basisFn]
    rw [if_neg (by omega), if_neg (by omega), freq_low (by omega), freq_low (by omega)]
  have hhigh : ∀ i j, i + N = j + M → j < N → N < 2 * j →
      padC2C N M u i * basisFn .c2c M ψ β i x = u j * basisFn .c2c N ψ β j x := by
    intro i j hij hj hj'
    rw [padC2C_apply _ _ hN (by omega) _ _ (by omega), if_neg (by omega), if_neg (by omega), if_neg (by omega),
      if_pos (by omega)]
    simp only [basisFn]
    rw [if_neg (by omega), if_neg (by omega), freq_high (by omega), freq_high (by omega),
      wave_mode ((i : ℤ) - M) x (show (i : ℤ) - M = (j : ℤ) - N by omega)]
    congr 2
    omega
  have hmid : ∀ i, N < 2 * i → i < M - N / 2 → padC2C N M u i * basisFn .c2c M ψ β i x = 0 := by
    intro i hi hi'
    rw [padC2C_apply _ _ hN (by omega) _ _ (by omega), if_neg (by omega), if_neg (by omega), if_neg (by omega),
      if_neg (by omega), zero_mul]
  have hny : ∀ i i', 2 * i = N → i' = M - i → padC2C N M u i * basisFn .c2c M ψ β i x
      + padC2C N M u i' * basisFn .c2c M ψ β i' x = u i * basisFn .c2c N ψ β i x := by
    intro i i' hi hi'
    rw [padC2C_apply _ _ hN (by omega) _ _ (by omega), if_neg (by omega), if_pos (by omega),
      padC2C_apply _ _ hN (by omega) _ _ (by omega), if_neg (by omega), if_neg (by omega), if_pos (by omega)]
    simp only [basisFn]
    rw [if_neg (by omega), if_neg (by omega), if_pos hi, freq_low (by omega), freq_high (by omega),
      wave_mode ((i' : ℤ) - M) x (show (i' : ℤ) - M = -(i : ℤ) by omega), cos_half]
    congr 2
    omega
  exact sum_layout N M hN hM _ _ hlow hhigh hmid hny

/-- With an odd number of points nothing happens to an array of the same length. -/
theorem padC2C_same (N : ℕ) (hN : N % 2 = 1) (u : ℕ → ℂ) (i : ℕ) (hi : i < N) : padC2C N N u i = u i := by
  unfold padC2C tailStart
  simp only [show ¬ N % 2 = 0 by omega, if_false]
  split_ifs <;> first | rfl | (exfalso; omega) | (congr 1; omega)

theorem pad_r2c_value (N M : ℕ) (hN : 1 ≤ N) (hM : N < M) (ψ β : ℕ → ℝ → ℝ) (u : ℕ → ℂ) (x : ℝ)
    (hu : N % 2 = 0 → (u (N / 2)).im = 0) :
    ∑ i ∈ range (M / 2 + 1), padR2C N u i * basisFn .r2c M ψ β i x
      = ∑ i ∈ range (N / 2 + 1), u i * basisFn .r2c N ψ β i x := by
  have hsub : range (N / 2 + 1) ⊆ range (M / 2 + 1) := range_subset_range.2 (by omega)
  rw [← sum_subset hsub]
  · refine sum_congr rfl fun i hi => ?_
    rw [mem_range] at hi
    by_cases he : N % 2 = 0 ∧ i = N / 2
    · obtain ⟨he, rfl⟩ := he
      have h5 : ((u (N / 2)).re : ℂ) = u (N / 2) := by
        apply Complex.ext
        · simp
        · simp [hu he]
      unfold padR2C
      simp only [he, if_true, Function.update_self, basisFn]
      rw [if_pos (by omega), h5, if_neg (by omega), if_pos (by omega)]
      norm_num
      ring
    · have : padR2C N u i = u i := by
        unfold padR2C
        by_cases h : N % 2 = 0
        · simp only [h, if_true]
          rw [Function.update_of_ne (by omega), Function.update_of_ne (by omega), if_pos (by omega)]
        · simp only [h, if_false]
          rw [if_pos (by omega)]
      rw [this]
      simp only [basisFn]
      by_cases h0 : i = 0
      · simp [h0]
      · rw [if_neg (by omega), if_neg (by omega)]
  · intro i _ hi
    rw [mem_range] at hi
    have : padR2C N u i = 0 := by
      unfold padR2C
      by_cases h : N % 2 = 0
      · simp only [h, if_true]
        rw [Function.update_of_ne (by omega), Function.update_of_ne (by omega), if_neg (by omega)]
      · simp only [h, if_false]
        rw [if_neg (by omega)]
    rw [this, zero_mul]

theorem padR2C_same (N : ℕ) (hN : N % 2 = 1) (u : ℕ → ℂ) (i : ℕ) (hi : i < N / 2 + 1) : padR2C N u i = u i := by
  unfold padR2C
  simp only [show ¬ N % 2 = 0 by omega, if_false, if_pos hi]

theorem pad_poly_value (nb N M : ℕ) (hb : nb ≤ N) (hM : N ≤ M) (ψ β : ℕ → ℝ → ℝ) (u : ℕ → ℂ) (x : ℝ) :
    ∑ i ∈ range M, padPoly nb N M u i * basisFn (.poly nb) M ψ β i x
      = ∑ i ∈ range N, u i * basisFn (.poly nb) N ψ β i x := by
  obtain ⟨n, rfl⟩ : ∃ n, N = n + nb := ⟨N - nb, by omega⟩
  obtain ⟨m, rfl⟩ : ∃ m, M = n + m + nb := ⟨M - n - nb, by omega⟩
  have val : ∀ i < n + m + nb, padPoly nb (n + nb) (n + m + nb) u i
      = if i < n then u i else if n + m ≤ i then u (i - m) else 0 := by
    intro i hi
    unfold padPoly
    by_cases h0 : nb = 0
    · subst h0
      simp only [if_true]
      split_ifs <;> first | rfl | (exfalso; omega)
    · simp only [h0, if_false]
      split_ifs <;> first | rfl | (exfalso; omega) | (congr 1; omega)
  rw [sum_range_add, sum_range_add, sum_range_add _ n nb]
  rw [sum_eq_zero (s := range m) fun i hi => by
    rw [mem_range] at hi
    rw [val _ (by omega), if_neg (by omega), if_neg (by omega), zero_mul], add_zero]
  congr 1
  · refine sum_congr rfl fun i hi => ?_
    rw [mem_range] at hi
    rw [val _ (by omega), if_pos hi]
    simp only [basisFn]
    rw [if_pos (by omega), if_pos (by omega)]
  · refine sum_congr rfl fun i hi => ?_
    rw [mem_range] at hi
    rw [val _ (by omega), if_neg (by omega), if_pos (by omega)]
    simp only [basisFn]
    rw [if_neg (by omega), if_neg (by omega)]
    rw [show n + m + i - m = n + i by omega, show n + m + i - (n + m + nb - nb) = n + i - (n + nb - nb) by omega]

/-- Padding one axis does not change the function. -/
theorem padLine_value (k : Kind) (N M : ℕ) (h : Grows k N M) (ψ β : ℕ → ℝ → ℝ) (u : ℕ → ℂ)
    (hu : k = .r2c → N % 2 = 0 → (u (N / 2)).im = 0) (x : ℝ) :
    value1 k M ψ β (padLine k N (stored k M) u) x = value1 k N ψ β u x := by
  unfold value1
  cases k with
  | c2c =>
    simp only [stored, padLine]
    rcases h with ⟨h1, h2⟩ | ⟨h1, rfl⟩
    · exact pad_c2c_value N M h1 h2 ψ β u x
    · exact sum_congr rfl fun i hi => by rw [padC2C_same M h1 u i (mem_range.1 hi)]
  | r2c =>
    simp only [stored, padLine]
    rcases h with ⟨h1, h2⟩ | ⟨h1, rfl⟩
    · exact pad_r2c_value N M h1 h2 ψ β u x (hu rfl)
    · exact sum_congr rfl fun i hi => by rw [padR2C_same M h1 u i (mem_range.1 hi)]
  | poly nb =>
    simp only [stored, padLine]
    exact pad_poly_value nb N M h.1 h.2.2 ψ β u x

/-! ## Real coefficients stay real -/

theorem im_half {z : ℂ} (h : z.im = 0) : (z * 0.5).im = 0 := by
  rw [Complex.mul_im, h]
  norm_num

theorem padLine_real (k : Kind) (N L : ℕ) (u : ℕ → ℂ) (h : ∀ j, (u j).im = 0) (i : ℕ) : (padLine k N L u i).im = 0 := by
  cases k with
  | c2c =>
    have base : ∀ j, ((fun i => if tailStart L (N / 2) ≤ i ∧ i < L then
        u (if N / 2 = 0 then 0 else i - tailStart L (N / 2) + tailStart N (N / 2)) else
        (if i < N / 2 + 1 then u i else 0)) j : ℂ).im = 0 := by
      intro j
      dsimp only
      split_ifs <;> simp [h]
    have upd : ∀ (p : ℕ → ℂ) (a : ℕ), (∀ j, (p j).im = 0) → ∀ j, (Function.update p a (p a * 0.5) j).im = 0 := by
      intro p a hp j
      by_cases hj : j = a
      · subst hj
        rw [Function.update_self]
        exact im_half (hp j)
      · rw [Function.update_of_ne hj]
        exact hp j
    unfold padLine padC2C
    by_cases he : N % 2 = 0
    · simp only [he, if_true]
      exact upd _ _ (upd _ _ base) i
    · simp only [he, if_false]
      exact base i
  | r2c =>
    have base : ∀ j, ((fun i => if i < N / 2 + 1 then u i else 0) j : ℂ).im = 0 := by
      intro j
      dsimp only
      split_ifs <;> simp [h]
    unfold padLine padR2C
    by_cases he : N % 2 = 0
    · simp only [he, if_true]
      by_cases hj : i = N / 2
      · subst hj
        rw [Function.update_self]
        apply im_half
        rw [Function.update_self]
        exact Complex.ofReal_im _
      · rw [Function.update_of_ne hj, Function.update_of_ne hj]
        exact base i
    · simp only [he, if_false]
      exact base i
  | poly nb =>
    have base : ∀ j, ((fun i => if i < N - nb then u i else 0) j : ℂ).im = 0 := by
      intro j
      dsimp only
      split_ifs <;> simp [h]
    unfold padLine padPoly
    by_cases he : nb = 0
    · simp only [he, if_true] at base ⊢
      exact base i
    · simp only [he, if_false]
      split_ifs <;> simp [h]

/-! ## All axes -/

variable {D : ℕ}

/-- Changing the array along one axis without changing the functions on the lines does not change the function. -/
theorem value_step (k : Fin D → Kind) (N N' : Fin D → ℕ) (ψ β : Fin D → ℕ → ℝ → ℝ) (a : Fin D) (h : ∀ b, b ≠ a → N' b = N b)
    (f : (ℕ → ℂ) → ℕ → ℂ) (u : Arr D ℂ) (x : Fin D → ℝ)
    (hf : ∀ I : Fin D → ℕ, value1 (k a) (N' a) (ψ a) (β a) (f fun j => u (Function.update I a j)) (x a)
      = value1 (k a) (N a) (ψ a) (β a) (fun j => u (Function.update I a j)) (x a)) :
    value k N' ψ β (alongLine a f u) x = value k N ψ β u x := by
  have key : ∀ (N : Fin D → ℕ) (v : Arr D ℂ), value k N ψ β v x
      = ((Finset.univ.erase a).toList ++ [a]).foldr (fun b w => TPT.along (stored (k b) (N b))
          (fun _ j => basisFn (k b) (N b) (ψ b) (β b) j (x b)) b w) v (fun _ => 0) := by
    intro N v
    have hnd : ((Finset.univ.erase a).toList ++ [a]).Nodup := by
      rw [List.nodup_append]
      refine ⟨Finset.nodup_toList _, List.nodup_singleton _, ?_⟩
      intro b hb c hc hbc
      rw [List.mem_singleton] at hc
      rw [Finset.mem_toList, Finset.mem_erase] at hb
      exact hb.1 (hbc.trans hc)
    rw [TPT.all_axes (fun b => stored (k b) (N b)) (fun b _ j => basisFn (k b) (N b) (ψ b) (β b) j (x b)) _ hnd
      (fun b => by by_cases hb : b = a <;> simp [hb])]
    unfold value Shenfun.Spec.tensorApply Shenfun.Spec.tensorEntry
    refine Finset.sum_congr rfl fun I _ => ?_
    rw [one_mul, mul_comm]
  rw [key, key, List.foldr_append, List.foldr_append, List.foldr_cons, List.foldr_cons, List.foldr_nil, List.foldr_nil]
  have e : TPT.along (stored (k a) (N' a)) (fun _ j => basisFn (k a) (N' a) (ψ a) (β a) j (x a)) a (alongLine a f u)
      = TPT.along (stored (k a) (N a)) (fun _ j => basisFn (k a) (N a) (ψ a) (β a) j (x a)) a u := by
    funext I
    have := hf I
    unfold value1 at this
    unfold TPT.along alongLine
    simp only [Function.update_idem, Function.update_self]
    rw [Finset.sum_congr rfl fun j _ => mul_comm _ _, this]
    exact Finset.sum_congr rfl fun j _ => mul_comm _ _
  rw [e]
  have gen : ∀ (L : List (Fin D)), a ∉ L → ∀ v : Arr D ℂ,
      L.foldr (fun b w => TPT.along (stored (k b) (N' b)) (fun _ j => basisFn (k b) (N' b) (ψ b) (β b) j (x b)) b w) v
      = L.foldr (fun b w => TPT.along (stored (k b) (N b)) (fun _ j => basisFn (k b) (N b) (ψ b) (β b) j (x b)) b w) v := by
    intro L hL v
    induction L with
    | nil => rfl
    | cons b L ih =>
      rw [List.mem_cons, not_or] at hL
      rw [List.foldr_cons, List.foldr_cons, ih hL.2, h b (Ne.symm hL.1)]
  rw [gen _ (by simp)]

theorem grows_stored {k : Kind} {N M : ℕ} (h : Grows k N M) : stored k N ≤ stored k M := by
  cases k <;> simp only [Grows, stored] at * <;> omega

theorem step_spec (fl : ℚ → ℚ) (k : Fin D → Kind) (N M : Fin D → ℕ) (first : Bool) (a : Fin D) (v : Arr D ℂ)
    (hg : Grows (k a) (N a) (M a)) (hl : newLen fl first (k a) (N a) (M a) = stored (k a) (M a)) :
    step fl k N M first a v = some (alongLine a (padLine (k a) (N a) (stored (k a) (M a))) v) := by
  unfold step
  simp only [hl, grows_stored hg, if_true]

theorem pad_value (k : Fin D → Kind) (N M N1 : Fin D → ℕ) (a : Fin D) (v : Arr D ℂ) (h1 : N1 a = N a)
    (hg : Grows (k a) (N a) (M a)) (hv : k a = .r2c → N a % 2 = 0 → ∀ I : Fin D → ℕ, I a = N a / 2 → (v I).im = 0)
    (ψ β : Fin D → ℕ → ℝ → ℝ) (x : Fin D → ℝ) :
    value k (Function.update N1 a (M a)) ψ β (alongLine a (padLine (k a) (N a) (stored (k a) (M a))) v) x
      = value k N1 ψ β v x := by
  refine value_step k N1 _ ψ β a (fun b hb => Function.update_of_ne hb _ _) _ v x fun I => ?_
  rw [Function.update_self, h1]
  refine padLine_value _ _ _ hg _ _ _ (fun hk he => hv hk he _ (by rw [Function.update_self])) _

theorem steps_spec (fl : ℚ → ℚ) (k : Fin D → Kind) (N M : Fin D → ℕ) (hg : ∀ a, Grows (k a) (N a) (M a))
    (L : List (Fin D)) (hL : L.Nodup) (N1 : Fin D → ℕ) (v : Arr D ℂ) (h1 : ∀ a ∈ L, N1 a = N a)
    (hv : ∀ a ∈ L, k a = .r2c → N a % 2 = 0 → ∀ I : Fin D → ℕ, I a = N a / 2 → (v I).im = 0)
    (hl : ∀ a ∈ L, newLen fl false (k a) (N a) (M a) = stored (k a) (M a)) :
    ∃ w, steps fl k N M L v = some w ∧ ∀ ψ β x, value k (fun a => if a ∈ L then M a else N1 a) ψ β w x = value k N1 ψ β v x := by
  induction L generalizing N1 v with
  | nil => exact ⟨v, rfl, fun ψ β x => by simp⟩
  | cons a L ih =>
    obtain ⟨ha, hL'⟩ := List.nodup_cons.1 hL
    have hne : ∀ b ∈ L, b ≠ a := fun b hb h => ha (h ▸ hb)
    obtain ⟨w, hw, hval⟩ := ih hL' (Function.update N1 a (M a))
      (alongLine a (padLine (k a) (N a) (stored (k a) (M a))) v)
      (fun b hb => by rw [Function.update_of_ne (hne b hb)]; exact h1 b (by simp [hb]))
      (fun b hb hk he I hI => padLine_real _ _ _ _ (fun j => hv b (by simp [hb]) hk he _
        (by rw [Function.update_of_ne (hne b hb), hI])) _)
      (fun b hb => hl b (by simp [hb]))
    refine ⟨w, ?_, fun ψ β x => ?_⟩
    · rw [steps, step_spec fl k N M false a v (hg a) (hl a (by simp)), Option.bind_some, hw]
    · rw [← pad_value k N M N1 a v (h1 a (by simp)) (hg a) (hv a (by simp)) ψ β x, ← hval]
      congr 1
      funext b
      by_cases hb : b = a
      · subst hb
        simp [ha]
      · simp [hb]

/-- **C89 (`refine`).** If the new lengths are computed exactly, the refined function exists and is the same function: it has
the same value at every point, for every family of basis functions, in every number of dimensions, for every order of the
axes. The Nyquist coefficients along a real Fourier axis must be real. -/
theorem C89_refine (fl : ℚ → ℚ) (k : Fin D → Kind) (N M : Fin D → ℕ) (axes : List (Fin D)) (hax : axes.Nodup)
    (hall : ∀ a, a ∈ axes) (hne : axes ≠ []) (u : Arr D ℂ) (hu : RealNyquist k N u) (hg : ∀ a, Grows (k a) (N a) (M a))
    (hl : ∀ a, newLen fl (axes.head? = some a) (k a) (N a) (M a) = stored (k a) (M a)) :
    ∃ w, refine fl k N M axes u = some w ∧ ∀ ψ β x, value k M ψ β w x = value k N ψ β u x := by
  cases axes with
  | nil => exact absurd rfl hne
  | cons a L =>
    obtain ⟨ha, hL'⟩ := List.nodup_cons.1 hax
    have hne' : ∀ b ∈ L, b ≠ a := fun b hb h => ha (h ▸ hb)
    have hl0 : newLen fl true (k a) (N a) (M a) = stored (k a) (M a) := by simpa using hl a
    have hl1 : ∀ b ∈ L, newLen fl false (k b) (N b) (M b) = stored (k b) (M b) := fun b hb => by
      have := hl b
      simpa [Ne.symm (hne' b hb)] using this
    obtain ⟨w, hw, hval⟩ := steps_spec fl k N M hg L hL' (Function.update N a (M a))
      (alongLine a (padLine (k a) (N a) (stored (k a) (M a))) u)
      (fun b hb => Function.update_of_ne (hne' b hb) _ _)
      (fun b hb hk he I hI => padLine_real _ _ _ _ (fun j => hu b hk he _
        (by rw [Function.update_of_ne (hne' b hb), hI])) _) hl1
    refine ⟨w, ?_, fun ψ β x => ?_⟩
    · rw [refine, if_pos ⟨hl0, hl1⟩, step_spec fl k N M true a u (hg a) hl0, Option.bind_some, hw]
    · rw [← pad_value k N M N a u rfl (hg a) (hu a) ψ β x, ← hval]
      congr 1
      funext b
      by_cases hb : b = a
      · subst hb
        simp [ha]
      · have := hall b
        simp only [List.mem_cons, hb, false_or] at this
        simp [this]

/-! ## The new lengths -/

/-- **C89 (lengths).** In exact arithmetic the new lengths are right, with an even number of points if the first axis is
real Fourier. -/
theorem C89_length_exact (first : Bool) (k : Kind) (N M : ℕ) (hN : 1 ≤ N)
    (hf : first = true → k = .r2c → N % 2 = 0) : newLen id first k N M = stored k M := by
  have h0 : (N : ℚ) ≠ 0 := by positivity
  have e : (N : ℚ) * ((M : ℚ) / N) = M := by field_simp
  cases k with
  | c2c => simp only [newLen, stored, id, e, Nat.floor_natCast]
  | poly nb => simp only [newLen, stored, id, e, Nat.floor_natCast]
  | r2c =>
    simp only [newLen, stored, id, e, Nat.floor_natCast]
    split_ifs with h
    · obtain ⟨t, rfl⟩ : ∃ t, N = 2 * t := ⟨N / 2, by have := hf h rfl; omega⟩
      have e2 : (2 * ((2 * t / 2 + 1 : ℕ) : ℚ) - 2) = ((2 * t : ℕ) : ℚ) := by
        rw [Nat.mul_div_cancel_left _ (by norm_num)]
        push_cast
        ring
      rw [e2, e, Nat.floor_natCast]
    · rfl

/-- **C89 (lengths).** With any rounding that keeps the integers up to `B` the new lengths are right when the number of
points is multiplied by an integer. -/
theorem C89_length_multiple (fl : ℚ → ℚ) (B : ℕ) (hfl : ∀ n : ℕ, n ≤ B → fl n = n) (first : Bool) (k : Kind) (N M : ℕ)
    (hN : 1 ≤ N) (hd : N ∣ M) (hB : M ≤ B) (hf : first = true → k = .r2c → N % 2 = 0) :
    newLen fl first k N M = stored k M := by
  obtain ⟨c, rfl⟩ := hd
  have h0 : (N : ℚ) ≠ 0 := by positivity
  have e : fl (((N * c : ℕ) : ℚ) / N) = c := by
    have : ((N * c : ℕ) : ℚ) / N = c := by push_cast; field_simp
    rw [this]
    exact hfl c (le_trans (Nat.le_mul_of_pos_left c hN) hB)
  have e2 : fl ((N : ℚ) * c) = ((N * c : ℕ) : ℚ) := by
    rw [← Nat.cast_mul]
    exact hfl _ hB
  cases k with
  | c2c => simp only [newLen, stored, e, e2, Nat.floor_natCast]
  | poly nb => simp only [newLen, stored, e, e2, Nat.floor_natCast]
  | r2c =>
    simp only [newLen, stored, e, e2, Nat.floor_natCast]
    split_ifs with h
    · obtain ⟨t, rfl⟩ : ∃ t, N = 2 * t := ⟨N / 2, by have := hf h rfl; omega⟩
      have e3 : (2 * ((2 * t / 2 + 1 : ℕ) : ℚ) - 2) = ((2 * t : ℕ) : ℚ) := by
        rw [Nat.mul_div_cancel_left _ (by norm_num)]
        push_cast
        ring
      rw [e3, e2, Nat.floor_natCast]
    · rfl

/-- binary64 keeps the integers up to `2^53`. -/
theorem binary64_nat (n : ℕ) (hn : n ≤ 2 ^ 53) : binary64 n = n := by
  rcases Nat.eq_zero_or_pos n with rfl | h
  · simp [binary64, roundEven]
  · have hlog : Int.log 2 (n : ℚ) = Nat.log 2 n := by simp
    have hle : Nat.log 2 n ≤ 53 := by
      calc Nat.log 2 n ≤ Nat.log 2 (2 ^ 53) := Nat.log_mono_right hn
        _ = 53 := Nat.log_pow (by norm_num) _
    unfold binary64
    simp only [hlog]
    rcases Nat.lt_or_ge (Nat.log 2 n) 53 with hl | hl
    · have e : ((n : ℚ) / (2 : ℚ) ^ ((Nat.log 2 n : ℤ) - 52)) = ((n * 2 ^ (52 - Nat.log 2 n) : ℕ) : ℚ) := by
        have : ((Nat.log 2 n : ℤ) - 52) = -((52 - Nat.log 2 n : ℕ) : ℤ) := by omega
        rw [this, zpow_neg, div_inv_eq_mul, zpow_natCast]
        push_cast
        rfl
      rw [e]
      have hr : ∀ m : ℕ, roundEven (m : ℚ) = m := by
        intro m
        simp [roundEven]
      rw [hr, Int.cast_natCast, ← e, div_mul_cancel₀ _ (by positivity)]
    · have hn' : n = 2 ^ 53 := by
        have := Nat.pow_log_le_self 2 (Nat.pos_iff_ne_zero.1 h)
        have h53 : Nat.log 2 n = 53 := le_antisymm hle hl
        rw [h53] at this
        omega
      subst hn'
      have : Nat.log 2 (2 ^ 53) = 53 := Nat.log_pow (by norm_num) _
      rw [this]
      norm_num [roundEven]

/-- The hypotheses on the lengths hold for floating point numbers when the numbers of points are doubled. -/
theorem C89_double (first : Bool) (k : Kind) (N : ℕ) (hN : 1 ≤ N) (hB : 2 * N ≤ 2 ^ 53)
    (hf : first = true → k = .r2c → N % 2 = 0) : newLen binary64 first k N (2 * N) = stored k (2 * N) :=
  C89_length_multiple _ (2 ^ 53) binary64_nat first k N _ hN (dvd_mul_left _ _) hB hf

theorem roundEven_down (q : ℚ) (n : ℤ) (h0 : (n : ℚ) ≤ q) (h1 : q - n < 1 / 2) : roundEven q = n := by
  have hf : ⌊q⌋ = n := by
    rw [Int.floor_eq_iff]
    exact ⟨h0, by linarith⟩
  unfold roundEven
  rw [hf, if_pos h1]

/-- `11 * (15 / 11)` in binary64. -/
theorem binary64_15_11 : binary64 (11 * binary64 (15 / 11)) = 8444249301319679 / 2 ^ 49 := by
  have hlog1 : Int.log 2 (15 / 11 : ℚ) = 0 := by
    rw [Int.log_of_one_le_right 2 (by norm_num)]
    have : ⌊(15 / 11 : ℚ)⌋₊ = 1 := by rw [Nat.floor_eq_iff (by norm_num)]; norm_num
    rw [this]
    simp
  have h1 : binary64 (15 / 11 : ℚ) = 6141272219141585 / 2 ^ 52 := by
    unfold binary64
    rw [hlog1]
    have hz : (2 : ℚ) ^ ((0 : ℤ) - 52) = 1 / 2 ^ 52 := by norm_num
    simp only [hz]
    rw [roundEven_down _ 6141272219141585 (by norm_num) (by norm_num)]
    norm_num
  rw [h1]
  have hlog2 : Int.log 2 (11 * (6141272219141585 / 2 ^ 52) : ℚ) = 3 := by
    rw [Int.log_of_one_le_right 2 (by norm_num)]
    have : ⌊(11 * (6141272219141585 / 2 ^ 52) : ℚ)⌋₊ = 14 := by rw [Nat.floor_eq_iff (by norm_num)]; norm_num
    rw [this]
    have : Nat.log 2 14 = 3 := by decide +kernel
    rw [this]
    rfl
  unfold binary64
  rw [hlog2]
  have hz : (2 : ℚ) ^ ((3 : ℤ) - 52) = 1 / 2 ^ 49 := by norm_num
  simp only [hz]
  rw [roundEven_down _ 8444249301319679 (by norm_num) (by norm_num)]
  norm_num

/-- **C89 is wrong for floating point numbers**: from 11 to 15 points the code allocates 14. -/
theorem C89_length_wrong (first : Bool) (nb : ℕ) : newLen binary64 first (.poly nb) 11 15 = 14 := by
  simp only [newLen, stored]
  push_cast
  rw [binary64_15_11, Nat.floor_eq_iff (by norm_num)]
  norm_num

/-- **C89 is wrong for floating point numbers**: `refine` fails for every function of a space with 11 points along some
axis that shall get 15 there. -/
theorem C89_refine_fails (nb : ℕ) (k : Fin D → Kind) (N M : Fin D → ℕ) (axes : List (Fin D)) (a : Fin D) (ha : a ∈ axes)
    (hk : k a = .poly nb) (hN : N a = 11) (hM : M a = 15) (u : Arr D ℂ) : refine binary64 k N M axes u = none := by
  have hw : ∀ first, newLen binary64 first (k a) (N a) (M a) ≠ stored (k a) (M a) := fun first => by
    rw [hk, hN, hM, C89_length_wrong]
    simp [stored]
  cases axes with
  | nil => rfl
  | cons b L =>
    have : ¬ (newLen binary64 true (k b) (N b) (M b) = stored (k b) (M b) ∧
        ∀ c ∈ L, newLen binary64 false (k c) (N c) (M c) = stored (k c) (M c)) := ?_
    · simp only [refine, if_neg this]
    rintro ⟨h1, h2⟩
    rcases List.mem_cons.1 ha with rfl | ha
    · exact hw _ h1
    · exact hw _ (h2 a ha)

/-! ## What is wrong -/

/-- **C89 is wrong for the same even number of Fourier points**: the highest coefficient is divided by four. -/
theorem C89_same_points_wrong (N : ℕ) (hN : 2 ≤ N) (he : N % 2 = 0) (u : ℕ → ℂ) :
    padLine .c2c N N u (N / 2) = u (N / 2) / 4 := by
  have h0 : N / 2 ≠ 0 := by omega
  have h1 : N - N / 2 = N / 2 := by omega
  unfold padLine padC2C
  simp only [he, if_true, tailStart_pos h0, h1, Function.update_self]
  rw [if_pos ⟨le_refl _, by omega⟩, if_neg h0, Nat.sub_self, zero_add]
  norm_num
  ring

/-- The function `sin x cos y` on `4 × 2` points, complex in `x` and real in `y`. -/
noncomputable def sinCos : Arr 2 ℂ := fun I => if I 1 = 1 then (if I 0 = 1 then -Complex.I / 2 else if I 0 = 3 then Complex.I / 2 else 0) else 0

theorem sinCos_re (I : Fin 2 → ℕ) : (sinCos I).re = 0 := by
  unfold sinCos
  split_ifs <;> simp

/-- **C89 is wrong without `RealNyquist`**: the refinement of `sin x cos y` from `4 × 2` to `8 × 4` points is zero. -/
theorem C89_nyquist_wrong :
    (∀ ψ β, (value ![.c2c, .r2c] ![4, 2] ψ β sinCos ![Real.pi / 2, 0]).re = 1) ∧
    ∃ w, refine id ![.c2c, .r2c] ![4, 2] ![8, 4] [0, 1] sinCos = some w ∧
      ∀ ψ β x, value ![.c2c, .r2c] ![8, 4] ψ β w x = 0 := by
  constructor
  · intro ψ β
    unfold value
    have hsub : ({![1, 1], ![3, 1]} : Finset (Fin 2 → ℕ)) ⊆
        Fintype.piFinset fun a => Finset.range (stored (![Kind.c2c, .r2c] a) (![4, 2] a)) := by
      intro I hI
      rw [Finset.mem_insert, Finset.mem_singleton] at hI
      rw [Fintype.mem_piFinset]
      intro a
      rcases hI with rfl | rfl <;> fin_cases a <;> simp [stored]
    rw [← Finset.sum_subset hsub, Finset.sum_pair (by intro h; simpa using congrFun h 0)]
    · have e1 : sinCos ![1, 1] = -Complex.I / 2 := by simp [sinCos]
      have e2 : sinCos ![3, 1] = Complex.I / 2 := by simp [sinCos]
      rw [e1, e2, Fin.prod_univ_two, Fin.prod_univ_two]
      have f1 : basisFn .c2c 4 (ψ 0) (β 0) 1 (Real.pi / 2) = Complex.I := by
        simp only [basisFn, Shenfun.Spec.freq]
        norm_num
        rw [show Complex.I * (Real.pi / 2 : ℂ) = Real.pi / 2 * Complex.I by ring, Complex.exp_pi_div_two_mul_I]
      have f2 : basisFn .c2c 4 (ψ 0) (β 0) 3 (Real.pi / 2) = -Complex.I := by
        simp only [basisFn, Shenfun.Spec.freq]
        norm_num
        rw [show -(Complex.I * (Real.pi / 2 : ℂ)) = -Real.pi / 2 * Complex.I by ring, Complex.exp_neg_pi_div_two_mul_I]
      have f3 : basisFn .r2c 2 (ψ 1) (β 1) 1 0 = 1 := by simp [basisFn]
      simp only [Matrix.cons_val_zero, Matrix.cons_val_one, f1, f2, f3]
      have : (-Complex.I / 2 * (Complex.I * 1) + Complex.I / 2 * (-Complex.I * 1)) = 1 := by
        linear_combination -Complex.I_sq
      rw [this, Complex.one_re]
    · intro I _ hI
      rw [Finset.mem_insert, Finset.mem_singleton, not_or] at hI
      have hz : sinCos I = 0 := by
        unfold sinCos
        split_ifs with h1 h2 h3
        · exact absurd (funext fun a => by fin_cases a <;> simp [h1, h2]) hI.1
        · exact absurd (funext fun a => by fin_cases a <;> simp [h1, h3]) hI.2
        · rfl
        · rfl
      rw [hz, zero_mul]
  · have l0 : newLen id true (![Kind.c2c, .r2c] 0) (![4, 2] 0) (![8, 4] 0) = 8 := by
      rw [C89_length_exact _ _ _ _ (by simp) (by simp)]; simp [stored]
    have l1 : newLen id false (![Kind.c2c, .r2c] 1) (![4, 2] 1) (![8, 4] 1) = 3 := by
      rw [C89_length_exact _ _ _ _ (by simp) (by simp)]; simp [stored]
    refine ⟨alongLine 1 (padLine .r2c 2 3) (alongLine 0 (padLine .c2c 4 8) sinCos), ?_, fun ψ β x => ?_⟩
    · have hs : newLen id true (![Kind.c2c, .r2c] 0) (![4, 2] 0) (![8, 4] 0) = stored (![Kind.c2c, .r2c] 0) (![8, 4] 0) ∧
          ∀ b ∈ [(1 : Fin 2)], newLen id false (![Kind.c2c, .r2c] b) (![4, 2] b) (![8, 4] b)
            = stored (![Kind.c2c, .r2c] b) (![8, 4] b) := by
        refine ⟨by rw [l0]; simp [stored], fun b hb => ?_⟩
        rw [List.mem_singleton.1 hb, l1]
        simp [stored]
      simp only [refine, if_pos hs]
      simp only [step, steps, l0, l1]
      simp [stored]
    · unfold value
      refine Finset.sum_eq_zero fun J hJ => ?_
      rw [Fintype.mem_piFinset] at hJ
      have h0 : J 0 < 8 := by simpa [stored] using hJ 0
      have hcol : ∀ j, alongLine 0 (padLine .c2c 4 8) sinCos (Function.update J 1 j)
          = if j = 1 then padC2C 4 8 (fun i => sinCos ![i, 1]) (J 0) else 0 := by
        intro j
        have hrow : ∀ i, Function.update (Function.update J 1 j) 0 i = ![i, j] := fun i => by
          funext a; fin_cases a <;> simp
        unfold alongLine padLine
        simp only [hrow]
        rw [Function.update_of_ne (by decide)]
        by_cases hj : j = 1
        · rw [hj, if_pos rfl]
        · have : (fun i => sinCos ![i, j]) = fun _ => 0 := by
            funext i
            simp [sinCos, hj]
          rw [this, if_neg hj, padC2C_apply 4 8 (by norm_num) (by norm_num) _ _ h0]
          split_ifs <;> simp
      have hre : (padC2C 4 8 (fun i => sinCos ![i, 1]) (J 0)).re = 0 := by
        rw [padC2C_apply 4 8 (by norm_num) (by norm_num) _ _ h0]
        have hh : ∀ z : ℂ, z.re = 0 → (z / 2).re = 0 := fun z hz => by simp [hz]
        split_ifs
        · exact sinCos_re _
        · exact hh _ (sinCos_re _)
        · exact hh _ (sinCos_re _)
        · exact sinCos_re _
        · rfl
      have hz : alongLine 1 (padLine .r2c 2 3) (alongLine 0 (padLine .c2c 4 8) sinCos) J = 0 := by
        unfold alongLine at hcol ⊢
        unfold padLine at hcol ⊢
        simp only [hcol]
        unfold padR2C
        by_cases h1 : J 1 = 1
        · rw [h1]
          simp [hre, Function.update_self]
        · simp [h1]
      rw [hz, zero_mul]

theorem assign1_fewer (k : Kind) (N M : ℕ) (h : stored k M < stored k N) (u : ℕ → ℂ) :
    assign1 k N M u = truncLine k N (stored k M) u := by
  unfold assign1
  dsimp only
  rw [if_neg (by omega), if_neg (by omega)]

/-- **C89 (`assign` to fewer points) is wrong** for all bases but Fourier without boundary conditions: it fails. -/
theorem C89_truncate_fails (N M : ℕ) (h : M < N) (u : ℕ → ℂ) : assign1 (.poly 0) N M u = none := by
  rw [assign1_fewer (.poly 0) N M h]
  simp only [truncLine, truncPoly]
  rw [if_neg]
  simp only [stored]
  omega

/-- **C89 (`assign` to fewer points) is wrong** for real Fourier bases with an even number of points: from 4 to 3 points the
coefficient of `exp(ix)` becomes twice its real part. -/
theorem C89_truncate_r2c_wrong (u : ℕ → ℂ) : ∃ w, assign1 .r2c 4 3 u = some w ∧ w 1 = 2 * ((u 1).re : ℂ) := by
  refine ⟨truncHalf 4 2 u, by norm_num [assign1, stored, truncLine], ?_⟩
  simp [truncHalf, Function.update_self]
  ring

/-- **C89 (`assign` in one dimension).** To at least as many points: the same function. (`hlen`: two real Fourier bases with
`N` and `N + 1` points can have equally many coefficients.) -/
theorem C89_assign (k : Kind) (N M : ℕ) (hg : Grows k N M ∨ M = N) (u : ℕ → ℂ)
    (hu : k = .r2c → N % 2 = 0 → (u (N / 2)).im = 0) (hlen : stored k N = stored k M → M = N) :
    ∃ w, assign1 k N M u = some w ∧ ∀ ψ β x, value1 k M ψ β w x = value1 k N ψ β u x := by
  by_cases h : M = N
  · subst h
    exact ⟨u, by simp [assign1], fun ψ β x => rfl⟩
  · have hg := hg.resolve_right h
    have := grows_stored hg
    have hlt : stored k N < stored k M := lt_of_le_of_ne this fun e => h (hlen e)
    exact ⟨_, by simp only [assign1, if_pos hlt], fun ψ β x => padLine_value k N M hg ψ β u hu x⟩

/-- **C89 (`assign` in one dimension) is wrong without `hlen`**: from 2 to 3 real Fourier points the coefficient of `cos x`
is doubled. -/
theorem C89_assign_wrong : ∃ (u w : ℕ → ℂ), assign1 .r2c 2 3 u = some w ∧
    ∀ ψ β, value1 .r2c 2 ψ β u 0 = 1 ∧ value1 .r2c 3 ψ β w 0 = 2 := by
  refine ⟨fun i => if i = 1 then 1 else 0, fun i => if i = 1 then 1 else 0, by norm_num [assign1, stored], fun ψ β => ?_⟩
  simp [value1, stored, Finset.sum_range_succ, basisFn]

/-- **C89 (`assign` to fewer complex Fourier points).** The coefficients of all the waves the new space resolves are kept. -/
theorem C89_truncate_c2c (N M : ℕ) (hM : 2 ≤ M) (h : M < N) (u : ℕ → ℂ) :
    ∃ w, assign1 .c2c N M u = some w ∧ ∀ κ : ℤ, 2 * |κ| < M →
      Shenfun.Spec.coefC M w κ = Shenfun.Spec.coefC N u κ := by
  refine ⟨truncC2C M N u, assign1_fewer .c2c N M h u, fun κ hκ => ?_⟩
  have := truncC2C_low M N hM h u κ hκ
  unfold Shenfun.Spec.coefC
  rw [if_pos hκ, if_pos (by omega)]
  have e : ∀ L : ℕ, 2 * |κ| < L → (κ % (L : ℤ)).toNat = pos L κ := by
    intro L hL
    unfold pos
    split_ifs with h0
    · rw [abs_of_nonneg h0] at hL
      rw [Int.emod_eq_of_lt h0 (by omega)]
    · rw [abs_of_neg (by omega)] at hL
      rw [← Int.add_emod_right, Int.emod_eq_of_lt (by omega) (by omega)]
      omega
  rw [e M hκ, e N (by omega), this]

/-- **C89 (`assign` to fewer real Fourier points).** From an odd number of points the coefficients of all the waves the new
space resolves are kept. -/
theorem C89_truncate_r2c (N M : ℕ) (hN : N % 2 = 1) (hM : 1 ≤ M) (h : M < N) (u : ℕ → ℂ) (hlen : M / 2 < N / 2) :
    ∃ w, assign1 .r2c N M u = some w ∧ ∀ κ : ℤ, 2 * |κ| < M →
      Shenfun.Spec.coefR M w κ = Shenfun.Spec.coefR N u κ := by
  refine ⟨truncHalf N (M / 2 + 1) u, assign1_fewer .r2c N M (by simp only [stored]; omega) u, fun κ hκ => ?_⟩
  · have hval : ∀ i, i < M / 2 + 1 → truncHalf N (M / 2 + 1) u i = u i := by
      intro i hi
      unfold truncHalf
      simp only [show ¬ N % 2 = 0 by omega, if_false, if_pos hi]
    unfold Shenfun.Spec.coefR
    rw [if_pos hκ, if_pos (show 2 * |κ| < (N : ℤ) by omega)]
    have := abs_lt.1 (show |κ| < M by omega)
    split_ifs with h0 h1
    · rw [hval 0 (by omega)]
    · rw [hval _ (by rw [abs_of_pos h1] at hκ; omega)]
    · rw [hval _ (by rw [abs_of_nonpos (by omega)] at hκ; omega)]

/-! ## Vector functions -/

/-- **C89 (vector functions, `assign`).** Every component is the same function when the result is read in the refinement of
its own space, as `assign` does. -/
theorem C89_assign_vector {n : ℕ} (fl : ℚ → ℚ) (k : Fin n → Fin D → Kind) (N M : Fin D → ℕ) (axes : List (Fin D))
    (hax : axes.Nodup) (hall : ∀ a, a ∈ axes) (hne : axes ≠ []) (u : Fin n → Arr D ℂ) (hu : ∀ i, RealNyquist (k i) N (u i))
    (hg : ∀ i a, Grows (k i a) (N a) (M a))
    (hl : ∀ i a, newLen fl (axes.head? = some a) (k i a) (N a) (M a) = stored (k i a) (M a)) :
    ∃ w, refineVec fl k N M axes u = some w ∧ ∀ i ψ β x, value (k i) M ψ β (w i) x = value (k i) N ψ β (u i) x := by
  have h := fun i => C89_refine fl (k i) N M axes hax hall hne (u i) (hu i) (hg i) (hl i)
  choose w hw hv using h
  refine ⟨w, ?_, hv⟩
  unfold refineVec
  rw [if_pos fun i => by rw [hw i]; rfl]
  congr 1
  funext i
  rw [hw i, Option.getD_some]

/-- **C89 (vector functions, `refine`).** If all components are in the same space, the refined vector function is the same
function: component `i` of the result is read in the space given to it by the code. `ψ i`, `β i` are the functions of the
space of component `i`. -/
theorem C89_refine_vector {n : ℕ} (fl : ℚ → ℚ) (k : Fin (n + 1) → Fin D → Kind) (N M : Fin D → ℕ) (axes : List (Fin D))
    (hax : axes.Nodup) (hall : ∀ a, a ∈ axes) (hne : axes ≠ []) (u : Fin (n + 1) → Arr D ℂ)
    (hu : ∀ i, RealNyquist (k i) N (u i)) (hg : ∀ i a, Grows (k i a) (N a) (M a))
    (hl : ∀ i a, newLen fl (axes.head? = some a) (k i a) (N a) (M a) = stored (k i a) (M a))
    (ψ β : Fin (n + 1) → Fin D → ℕ → ℝ → ℝ) (hk : ∀ i, k i = k 0) (hψ : ∀ i, ψ i = ψ 0) (hβ : ∀ i, β i = β 0) :
    ∃ w, refineVec fl k N M axes u = some w ∧ ∀ i x,
      value (resultSpace k i) M (resultSpace ψ i) (resultSpace β i) (w i) x = value (k i) N (ψ i) (β i) (u i) x := by
  obtain ⟨w, hw, hv⟩ := C89_assign_vector fl k N M axes hax hall hne u hu hg hl
  refine ⟨w, hw, fun i x => ?_⟩
  rw [← hv i (ψ i) (β i) x]
  simp only [resultSpace, hk i, hψ i, hβ i]

/-- **C89 is wrong for vector spaces with different components**: a vector function of two components with as many boundary
conditions, Dirichlet conditions in the first space (first basis function `1 - x²`) and Neumann conditions in the second
(first basis function `1`). The second component is `1` at the corner and its refinement is `0` there. -/
theorem C89_mixed_vector_wrong (ψ β : Fin 2 → Fin 2 → ℕ → ℝ → ℝ) (hD : ∀ a x, ψ 0 a 0 x = 1 - x ^ 2) (hN : ∀ a x, ψ 1 a 0 x = 1) :
    ∃ (u w : Fin 2 → Arr 2 ℂ), refineVec id (fun _ _ => .poly 2) (fun _ => 6) (fun _ => 12) [0, 1] u = some w ∧
      value (fun _ => .poly 2) (fun _ => 6) (ψ 1) (β 1) (u 1) (fun _ => 1) = 1 ∧
      value (resultSpace (fun _ : Fin 2 => fun _ => Kind.poly 2) 1) (fun _ => 12) (resultSpace ψ 1) (resultSpace β 1) (w 1)
        (fun _ => 1) = 0 := by
  let e : Arr 2 ℂ := fun I => if I = fun _ => 0 then 1 else 0
  have hval : ∀ ψ β : Fin 2 → ℕ → ℝ → ℝ, value (fun _ => .poly 2) (fun _ => 6) ψ β e (fun _ => 1)
      = (ψ 0 0 1 : ℂ) * (ψ 1 0 1 : ℂ) := by
    intro ψ β
    unfold value
    rw [Finset.sum_eq_single (fun _ => 0)]
    · simp [e, basisFn, Fin.prod_univ_two]
    · intro I _ hI
      simp [e, hI]
    · intro h
      exact absurd (Fintype.mem_piFinset.2 fun a => by simp [stored]) h
  obtain ⟨w, hw, hv⟩ := C89_assign_vector (n := 2) id (fun _ _ => .poly 2) (fun _ : Fin 2 => 6) (fun _ => 12) [0, 1]
    (by decide) (by decide) (by decide) (fun _ => e) (fun _ a h => by simp at h) (fun _ a => by simp [Grows])
    (fun _ a => C89_length_exact _ _ _ _ (by norm_num) (by simp))
  refine ⟨fun _ => e, w, hw, ?_, ?_⟩
  · rw [hval, hN, hN]
    norm_num
  · have := hv 1 (ψ 0) (β 0) fun _ => 1
    simp only [resultSpace]
    rw [this, hval, hD, hD]
    norm_num

/-- A case of `C89_refine` for floating point numbers: a Chebyshev basis with two boundary functions and a real Fourier basis. -/
noncomputable example : ∃ w, refine binary64 ![.poly 2, .r2c] ![10, 8] ![20, 16] [0, 1] (fun I => (I 0 + I 1 : ℕ)) = some w ∧
    ∀ ψ β x, value ![.poly 2, .r2c] ![20, 16] ψ β w x = value ![.poly 2, .r2c] ![10, 8] ψ β (fun I => (I 0 + I 1 : ℕ)) x := by
  refine C89_refine binary64 _ _ _ _ (by decide) (by decide) (by decide) _ (fun a _ _ I _ => by simp) ?_ ?_
  · intro a
    fin_cases a <;> simp [Grows]
  · intro a
    fin_cases a
    · exact C89_double _ (.poly 2) 10 (by norm_num) (by norm_num) (by simp)
    · exact C89_double _ .r2c 8 (by norm_num) (by norm_num) (by simp)

end Shenfun.Refine
