import Verif.Props.Norms
import Verif.Spec.Galerkin
import Verif.Lemmas.Loop

/-!
# Inner products of orthogonal polynomials with derivatives of orthogonal polynomials
-/

namespace Shenfun

open Polynomial Spec

set_option linter.unusedSimpArgs false

/-- `wInt` as a linear map. -/
noncomputable def wIntL {a b : ℝ} (ha : -1 < a) (hb : -1 < b) : ℝ[X] →ₗ[ℝ] ℝ where
  toFun := wInt a b
  map_add' := wInt_add ha hb
  map_smul' c p := by rw [smul_eq_C_mul, wInt_C_mul]; rfl

/-- A combination of members of a family. -/
noncomputable def lc (Q : ℕ → ℝ[X]) (L : List (ℕ × ℝ)) : ℝ[X] := (L.map fun e => C e.2 * Q e.1).sum

theorem map_C_mul (I : ℝ[X] →ₗ[ℝ] ℝ) (c : ℝ) (p : ℝ[X]) : I (C c * p) = c * I p := by
  rw [← smul_eq_C_mul, map_smul, smul_eq_mul]

theorem iterate_derivative_lc (Q : ℕ → ℝ[X]) (L : List (ℕ × ℝ)) (r : ℕ) :
    derivative^[r] (lc Q L) = lc (fun n => derivative^[r] (Q n)) L := by
  unfold lc
  induction L with
  | nil => simp
  | cons e L ih => simp only [List.map_cons, List.sum_cons, iterate_map_add derivative, ih, iterate_derivative_C_mul]

/-- Bilinear expansion. -/
theorem map_lc_mul_lc (I : ℝ[X] →ₗ[ℝ] ℝ) (Q R : ℕ → ℝ[X]) (L M : List (ℕ × ℝ)) :
    I (lc Q L * lc R M) = (L.map fun e => (M.map fun f => e.2 * f.2 * I (Q e.1 * R f.1)).sum).sum := by
  unfold lc
  induction L with
  | nil => simp
  | cons e L ih =>
    simp only [List.map_cons, List.sum_cons, add_mul, map_add, ih]
    congr 1
    clear ih
    induction M with
    | nil => simp
    | cons f M ih =>
      simp only [List.map_cons, List.sum_cons, mul_add, map_add, ih]
      congr 1
      rw [show C e.2 * Q e.1 * (C f.2 * R f.1) = C (e.2 * f.2) * (Q e.1 * R f.1) by rw [C_mul]; ring, map_C_mul]

/-! ## Chebyshev -/

/-- The first derivatives of Chebyshev polynomials, three-term form. -/
theorem derivative_chebT_add_three (m : ℕ) :
    C ((m:ℝ)+1) * derivative (chebT (m+3)) = C ((m:ℝ)+3) * derivative (chebT (m+1)) + C (2*((m:ℝ)+1)*(m+3)) * chebT (m+2) := by
  unfold chebT
  have h1 := Polynomial.Chebyshev.T_derivative_eq_U (R := ℝ) ((m+3:ℕ):ℤ)
  have h2 := Polynomial.Chebyshev.T_derivative_eq_U (R := ℝ) ((m+1:ℕ):ℤ)
  have h3 := Polynomial.Chebyshev.two_mul_T_eq_U_sub_U (R := ℝ) (m:ℤ)
  rw [show ((m+3:ℕ):ℤ) - 1 = (m:ℤ) + 2 by push_cast; ring] at h1
  rw [show ((m+1:ℕ):ℤ) - 1 = (m:ℤ) by push_cast; ring] at h2
  rw [h1, h2, show ((m+2:ℕ):ℤ) = (m:ℤ) + 2 by push_cast; ring]
  simp only [C_mul, C_add, map_natCast, map_ofNat, map_one]
  push_cast
  linear_combination (-((m:ℝ[X])+1)*(m+3)) * h3

theorem derivative_chebT_zero : derivative (chebT 0) = 0 := by simp [chebT]
theorem derivative_chebT_one : derivative (chebT 1) = chebT 0 := by simp [chebT]
theorem derivative_chebT_two : derivative (chebT 2) = C 4 * chebT 1 := by
  simp [chebT, Polynomial.Chebyshev.T_two]
  rw [show (C (4:ℝ) : ℝ[X]) = 4 from rfl]
  ring

/-- Applying a functional to a relation between derivatives. -/
theorem map_derivative_relation (I : ℝ[X] →ₗ[ℝ] ℝ) (t : ℝ[X]) (r : ℕ) {α β γ : ℝ} {p q s : ℝ[X]}
    (h : C α * p = C β * q + C γ * s) :
    α * I (t * derivative^[r] p) = β * I (t * derivative^[r] q) + γ * I (t * derivative^[r] s) := by
  have key := congrArg (fun p => I (t * derivative^[r] p)) h
  simpa only [iterate_map_add derivative, iterate_derivative_C_mul, mul_add, map_add, mul_left_comm t, map_C_mul] using key

/-- Passing from order `r` to order `r+1`. -/
theorem cheb_ip_succ (I : ℝ[X] →ₗ[ℝ] ℝ) (r k : ℕ) (c c' : ℕ → ℝ)
    (h : ∀ j, I (chebT k * derivative^[r] (chebT j)) = c j)
    (h0 : c' 0 = 0) (h1 : c' 1 = c 0) (h2 : c' 2 = 4 * c 1)
    (h3 : ∀ m : ℕ, ((m:ℝ)+1) * c' (m+3) = (m+3) * c' (m+1) + 2*((m:ℝ)+1)*(m+3) * c (m+2)) (j : ℕ) :
    I (chebT k * derivative^[r+1] (chebT j)) = c' j := by
  induction j using Nat.strong_induction_on with
  | _ j ih =>
    match j with
    | 0 => rw [Function.iterate_succ_apply, derivative_chebT_zero, iterate_derivative_zero, mul_zero, map_zero, h0]
    | 1 => rw [Function.iterate_succ_apply, derivative_chebT_one, h, h1]
    | 2 => rw [Function.iterate_succ_apply, derivative_chebT_two, iterate_derivative_C_mul, mul_left_comm, map_C_mul, h, h2]
    | m + 3 =>
      have key := map_derivative_relation I (chebT k) r (derivative_chebT_add_three m)
      simp only [← Function.iterate_succ_apply] at key
      rw [ih (m+1) (by omega), h] at key
      have hm : (m:ℝ) + 1 ≠ 0 := by positivity
      exact mul_left_cancel₀ hm (by rw [key, h3])

/-- The exact Chebyshev inner product. -/
noncomputable def chebI : ℝ[X] →ₗ[ℝ] ℝ := wIntL (a := -(1/2)) (b := -(1/2)) (by norm_num) (by norm_num)

/-- `(T_k, T_j)_w`, `(T_k, T_j')_w`, ... in closed form. -/
noncomputable def chebC0 (k j : ℕ) : ℝ := if k = j then (if j = 0 then Real.pi else Real.pi/2) else 0
noncomputable def chebC1 (k j : ℕ) : ℝ := if k < j ∧ (j + k) % 2 = 1 then Real.pi * j else 0
noncomputable def chebC2 (k j : ℕ) : ℝ := if k < j ∧ (j + k) % 2 = 0 then Real.pi / 2 * (j * ((j:ℝ)^2 - k^2)) else 0
noncomputable def chebC3 (k j : ℕ) : ℝ :=
  if k < j ∧ (j + k) % 2 = 1 then Real.pi / 8 * (j * (((j:ℝ)^2 - (k+1)^2) * ((j:ℝ)^2 - (k-1)^2))) else 0
noncomputable def chebC4 (k j : ℕ) : ℝ :=
  if k < j ∧ (j + k) % 2 = 0 then
    Real.pi / 48 * (j * (((j:ℝ)^2 - k^2) * (((j:ℝ)^2 - (k+2)^2) * ((j:ℝ)^2 - (k-2)^2)))) else 0

theorem chebI_zero (k j : ℕ) : chebI (chebT k * chebT j) = chebC0 k j := by
  have := C51_chebyshev k j
  unfold chebL2 at this
  show wInt _ _ _ = _
  rw [this]
  unfold chebC0
  split_ifs <;> ring

theorem chebI_one (k j : ℕ) : chebI (chebT k * derivative^[1] (chebT j)) = chebC1 k j := by
  refine cheb_ip_succ chebI 0 k (chebC0 k) (chebC1 k) (fun j => chebI_zero k j) ?_ ?_ ?_ ?_ j <;>
    simp only [chebC0, chebC1]
  · simp
  · rcases k with _ | k
    · simp
    · simp
  · rcases k with _ | _ | k
    · simp
    · simp; ring
    · simp
  · intro m
    by_cases hp : (m + k) % 2 = 1
    · have e1 : ¬ k = m + 2 := by omega
      simp only [e1, if_false]
      ifs
      ring
    · rcases lt_trichotomy k (m+2) with hk | hk | hk
      · ifs; push_cast; ring
      · subst hk; ifs; push_cast; ring
      · ifs; ring

theorem chebI_two (k j : ℕ) : chebI (chebT k * derivative^[2] (chebT j)) = chebC2 k j := by
  refine cheb_ip_succ chebI 1 k (chebC1 k) (chebC2 k) (fun j => chebI_one k j) ?_ ?_ ?_ ?_ j <;>
    simp only [chebC1, chebC2]
  · simp
  · rcases k with _ | k
    · simp
    · simp
  · rcases k with _ | _ | k
    · simp; ring
    · simp
    · ifs; simp
  · intro m
    by_cases hp : (m + k) % 2 = 1
    · rcases lt_trichotomy k (m+1) with hk | hk | hk
      · ifs; push_cast; ring
      · subst hk; ifs; push_cast; ring
      · ifs; ring
    · ifs; ring

theorem chebI_three (k j : ℕ) : chebI (chebT k * derivative^[3] (chebT j)) = chebC3 k j := by
  refine cheb_ip_succ chebI 2 k (chebC2 k) (chebC3 k) (fun j => chebI_two k j) ?_ ?_ ?_ ?_ j <;>
    simp only [chebC2, chebC3]
  · simp
  · rcases k with _ | k
    · simp
    · simp
  · rcases k with _ | _ | k
    · simp
    · simp; ring
    · ifs; simp
  · intro m
    by_cases hp : (m + k) % 2 = 1
    · ifs; ring
    · rcases lt_trichotomy k (m+2) with hk | hk | hk
      · ifs; push_cast; ring
      · subst hk; ifs; push_cast; ring
      · ifs; ring

theorem chebI_four (k j : ℕ) : chebI (chebT k * derivative^[4] (chebT j)) = chebC4 k j := by
  refine cheb_ip_succ chebI 3 k (chebC3 k) (chebC4 k) (fun j => chebI_three k j) ?_ ?_ ?_ ?_ j <;>
    simp only [chebC3, chebC4]
  · simp
  · rcases k with _ | k
    · simp
    · simp
  · rcases k with _ | _ | k
    · simp
    · simp
    · ifs; simp
  · intro m
    by_cases hp : (m + k) % 2 = 1
    · rcases lt_trichotomy k (m+1) with hk | hk | hk
      · ifs; push_cast; ring
      · subst hk; ifs; push_cast; ring
      · ifs; ring
    · ifs; ring


end Shenfun
