import Verif.Lemmas.DerivIP
import Verif.Props.Assembly

/-!
# Legendre polynomials: derivative relations and inner products with derivatives
-/

namespace Shenfun

open Polynomial Spec

set_option linter.unusedSimpArgs false

/-- Bonnet's recursion. -/
theorem legP_bonnet (m : ℕ) :
    C ((m:ℝ)+2) * legP (m+2) = C (2*(m:ℝ)+3) * (X * legP (m+1)) - C ((m:ℝ)+1) * legP m := by
  have h := jacobi_X_mul 0 0 (by norm_num) (by norm_num) m
  have hm : (0:ℝ) ≤ m := by positivity
  unfold legP
  rw [h]
  have p1 : (2 * ((m:ℝ)+1)) ≠ 0 := by positivity
  have p2 : (2 * ((m:ℝ)+1) + 1) ≠ 0 := by positivity
  have p3 : (2 * ((m:ℝ)+1) + 2) ≠ 0 := by positivity
  have e1 : (2 * ((m:ℝ) + 1 + 0) * (m + 1 + 0) / ((2 * (m + 1) + 0 + 0 + 1) * (2 * (m + 1) + 0 + 0))) = (m+1)/(2*m+3) := by
    rw [show 2 * ((m:ℝ)+1) + 0 + 0 + 1 = 2*m+3 by ring]
    field_simp
    ring
  have e2 : (-((0:ℝ) ^ 2 - 0 ^ 2) / ((2 * ((m:ℝ) + 1) + 0 + 0 + 2) * (2 * (m + 1) + 0 + 0))) = 0 := by simp
  have e3 : (2 * ((m:ℝ) + 1 + 1) * (m + 1 + 0 + 0 + 1) / ((2 * (m + 1) + 0 + 0 + 2) * (2 * (m + 1) + 0 + 0 + 1))) = (m+2)/(2*m+3) := by
    rw [show 2 * ((m:ℝ)+1) + 0 + 0 + 1 = 2*m+3 by ring, show 2 * ((m:ℝ)+1) + 0 + 0 + 2 = 2*(m+2) by ring]
    field_simp
    ring
  have e2' : (-(((0:ℝ) ^ 2 - 0 ^ 2) / ((2 * ((m:ℝ) + 1) + 0 + 0 + 2) * (2 * (m + 1) + 0 + 0)))) = 0 := by simp
  rw [e1, e2', e3, C_0, zero_mul, add_zero, mul_add, ← mul_assoc, ← mul_assoc, ← C_mul, ← C_mul]
  have q : 2*(m:ℝ)+3 ≠ 0 := by positivity
  rw [mul_div_cancel₀ _ q, mul_div_cancel₀ _ q]
  ring

theorem legP_zero : legP 0 = 1 := jacobi_zero 0 0
theorem legP_one : legP 1 = X := by unfold legP; rw [jacobi_one]; simp

theorem legP_AB (k : ℕ) :
    derivative (legP (k+1)) - X * derivative (legP k) = C ((k:ℝ)+1) * legP k ∧
    X * derivative (legP (k+1)) - derivative (legP k) = C ((k:ℝ)+1) * legP (k+1) := by
  induction k with
  | zero => simp [legP_zero, legP_one]
  | succ k ih =>
    obtain ⟨hA, hB⟩ := ih
    have hb := legP_bonnet k
    have hd := congrArg derivative hb
    simp only [derivative_sub, derivative_mul, derivative_C, derivative_X, zero_mul, zero_add, one_mul] at hd
    have hne : (C ((k:ℝ)+2) : ℝ[X]) ≠ 0 := by
      rw [Ne, C_eq_zero]; positivity
    have hA2 : derivative (legP (k+2)) - X * derivative (legP (k+1)) = C ((k:ℝ)+2) * legP (k+1) := by
      apply mul_left_cancel₀ hne
      simp only [C_add, C_mul, map_natCast, map_ofNat, map_one] at hd hA hB ⊢
      linear_combination hd + ((k:ℝ[X])+1) * hB
    refine ⟨?_, ?_⟩
    · rw [show k + 1 + 1 = k + 2 from rfl, hA2]; push_cast; ring_nf
    · rw [show k + 1 + 1 = k + 2 from rfl]
      push_cast
      simp only [C_add, C_mul, map_natCast, map_ofNat, map_one] at hb hA2 hA hB ⊢
      linear_combination X * hA2 - hb + X * hB - hA

theorem derivative_legP_add_one (k : ℕ) :
    derivative (legP (k+1)) = X * derivative (legP k) + C ((k:ℝ)+1) * legP k := by
  linear_combination (legP_AB k).1

theorem X_mul_derivative_legP_add_one (k : ℕ) :
    X * derivative (legP (k+1)) = derivative (legP k) + C ((k:ℝ)+1) * legP (k+1) := by
  linear_combination (legP_AB k).2

theorem derivative_legP_add_two (m : ℕ) :
    derivative (legP (m+2)) = derivative (legP m) + C (2*(m:ℝ)+3) * legP (m+1) := by
  have h1 := (legP_AB (m+1)).1
  have h2 := (legP_AB m).2
  push_cast at h1 h2
  simp only [C_add, C_mul, map_natCast, map_ofNat, map_one] at h1 h2 ⊢
  linear_combination h1 + h2

theorem X_mul_legP_add_one (m : ℕ) :
    C (2*(m:ℝ)+3) * (X * legP (m+1)) = C ((m:ℝ)+2) * legP (m+2) + C ((m:ℝ)+1) * legP m := by
  linear_combination -legP_bonnet m

/-- The exact Legendre inner product. -/
noncomputable def legI : ℝ[X] →ₗ[ℝ] ℝ := wIntL (a := 0) (b := 0) (by norm_num) (by norm_num)

theorem leg_ip_succ (I : ℝ[X] →ₗ[ℝ] ℝ) (r k : ℕ) (c c' : ℕ → ℝ)
    (h : ∀ j, I (legP k * derivative^[r] (legP j)) = c j)
    (h0 : c' 0 = 0) (h1 : c' 1 = c 0)
    (h2 : ∀ m : ℕ, c' (m+2) = c' m + (2*(m:ℝ)+3) * c (m+1)) (j : ℕ) :
    I (legP k * derivative^[r+1] (legP j)) = c' j := by
  induction j using Nat.strong_induction_on with
  | _ j ih =>
    match j with
    | 0 => rw [Function.iterate_succ_apply, legP_zero, derivative_one, iterate_derivative_zero, mul_zero, map_zero, h0]
    | 1 => rw [Function.iterate_succ_apply, legP_one, derivative_X, ← legP_zero, h, h1]
    | m + 2 =>
      have key := map_derivative_relation I (legP k) r (α := 1) (β := 1) (γ := 2*(m:ℝ)+3)
        (p := derivative (legP (m+2))) (q := derivative (legP m)) (s := legP (m+1))
        (by rw [C_1, one_mul, one_mul]; exact derivative_legP_add_two m)
      simp only [← Function.iterate_succ_apply, one_mul] at key
      rw [ih m (by omega), h] at key
      rw [key, h2]

noncomputable def legC0 (k j : ℕ) : ℝ := if k = j then 2 / (2*(j:ℝ)+1) else 0
noncomputable def legC1 (k j : ℕ) : ℝ := if k < j ∧ (j + k) % 2 = 1 then 2 else 0
noncomputable def legC2 (k j : ℕ) : ℝ := if k < j ∧ (j + k) % 2 = 0 then (j:ℝ)*(j+1) - k*(k+1) else 0
noncomputable def legC3 (k j : ℕ) : ℝ :=
  if k < j ∧ (j + k) % 2 = 1 then ((j:ℝ)*(j+1) - (k+1)*(k+2)) * ((j:ℝ)*(j+1) - (k-1)*k) / 4 else 0
noncomputable def legC4 (k j : ℕ) : ℝ :=
  if k < j ∧ (j + k) % 2 = 0 then
    ((j:ℝ)*(j+1) - k*(k+1)) * (((j:ℝ)*(j+1) - (k+2)*(k+3)) * ((j:ℝ)*(j+1) - (k-2)*(k-1))) / 24 else 0

theorem legI_zero (k j : ℕ) : legI (legP k * legP j) = legC0 k j := by
  have := C51_legendre k j
  unfold legL2 at this
  show wInt _ _ _ = _
  rw [this]
  rfl

theorem legI_one (k j : ℕ) : legI (legP k * derivative^[1] (legP j)) = legC1 k j := by
  refine leg_ip_succ legI 0 k (legC0 k) (legC1 k) (fun j => legI_zero k j) ?_ ?_ ?_ j <;> simp only [legC0, legC1]
  · simp
  · rcases k with _ | k
    · simp
    · simp
  · intro m
    rcases lt_trichotomy k (m+1) with hk | hk | hk
    · by_cases hp : (m + k) % 2 = 1
      · by_cases hk2 : k < m
        · ifs; ring
        · exfalso; omega
      · ifs; ring
    · subst hk; ifs; push_cast; field_simp; ring
    · ifs; ring

theorem legI_two (k j : ℕ) : legI (legP k * derivative^[2] (legP j)) = legC2 k j := by
  refine leg_ip_succ legI 1 k (legC1 k) (legC2 k) (fun j => legI_one k j) ?_ ?_ ?_ j <;> simp only [legC1, legC2]
  · simp
  · rcases k with _ | k
    · simp
    · simp
  · intro m
    by_cases hp : (m + k) % 2 = 0
    · rcases lt_trichotomy k m with hk | hk | hk
      · ifs; push_cast; ring
      · subst hk; ifs; push_cast; ring
      · ifs; ring
    · ifs; ring

theorem legI_three (k j : ℕ) : legI (legP k * derivative^[3] (legP j)) = legC3 k j := by
  refine leg_ip_succ legI 2 k (legC2 k) (legC3 k) (fun j => legI_two k j) ?_ ?_ ?_ j <;> simp only [legC2, legC3]
  · simp
  · rcases k with _ | k
    · simp; norm_num
    · simp
  · intro m
    by_cases hp : (m + k) % 2 = 1
    · rcases lt_trichotomy k (m+1) with hk | hk | hk
      · ifs; push_cast; ring
      · subst hk; ifs; push_cast; ring
      · ifs; ring
    · ifs; ring

theorem legI_four (k j : ℕ) : legI (legP k * derivative^[4] (legP j)) = legC4 k j := by
  refine leg_ip_succ legI 3 k (legC3 k) (legC4 k) (fun j => legI_three k j) ?_ ?_ ?_ j <;> simp only [legC3, legC4]
  · simp
  · rcases k with _ | k
    · simp
    · simp
  · intro m
    by_cases hp : (m + k) % 2 = 0
    · rcases lt_trichotomy k m with hk | hk | hk
      · ifs; push_cast; ring
      · subst hk; ifs; push_cast; ring
      · ifs; ring
    · ifs; ring

/-- Fundamental theorem of calculus. -/
theorem legI_derivative (p : ℝ[X]) : legI (derivative p) = p.eval 1 - p.eval (-1) := by
  show wInt 0 0 _ = _
  rw [wInt_zero_zero]
  exact intervalIntegral.integral_eq_sub_of_hasDerivAt (fun x _ => p.hasDerivAt x)
    ((derivative p).continuous.intervalIntegrable _ _)

/-- Integration by parts. -/
theorem legI_parts (p q : ℝ[X]) :
    legI (derivative p * q) = (p * q).eval 1 - (p * q).eval (-1) - legI (p * derivative q) := by
  have := legI_derivative (p * q)
  rw [derivative_mul, map_add] at this
  linarith

end Shenfun
