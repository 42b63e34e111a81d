import Verif.Model.Integrators
import Mathlib.Tactic.Ring
import Mathlib.Tactic.FieldSimp
import Mathlib.Tactic.Linarith
import Mathlib.Tactic.NormNum
import Mathlib.Tactic.LinearCombination
import Mathlib.Tactic.Module
import Mathlib.Tactic.IntervalCases
import Mathlib.Algebra.BigOperators.Intervals
import Mathlib.Algebra.BigOperators.Module
import Mathlib.Analysis.SpecificLimits.Basic

/-!
# Time integrators: C29 (time loop), C30 (RK4), C42 (IMEX Runge-Kutta), C43 (exponential integrators),
C44 (backward Euler), C45 (assembling again), C46 (history independence)
-/

set_option linter.unusedSimpArgs false
set_option linter.unusedVariables false
set_option linter.unusedSectionVars false

namespace Shenfun.Integrators

/-! ## C29 -/

section Loop

variable {K : Type*} [Field K] [LinearOrder K] {S : Type*}

/-- The times reached by repeated addition. -/
def Spec.time (add : K → K → K) (t0 dt : K) : ℕ → K
  | 0 => t0
  | k + 1 => add (Spec.time add t0 dt k) dt

/-- The states reached: step number `k+1` starts from time number `k`. -/
def Spec.state (τ : ℕ → K) (step : K → S → S) (s : S) : ℕ → S
  | 0 => s
  | k + 1 => step (τ k) (Spec.state τ step s k)

theorem time_shift (add : K → K → K) (t0 dt : K) (k : ℕ) :
    Spec.time add (add t0 dt) dt k = Spec.time add t0 dt (k + 1) := by
  induction k with
  | zero => rfl
  | succ k ih => rw [Spec.time, ih]; rfl

theorem state_shift (τ τ' : ℕ → K) (step : K → S → S) (s : S) (h : ∀ k, τ' k = τ (k + 1)) (k : ℕ) :
    Spec.state τ' step (step (τ 0) s) k = Spec.state τ step s (k + 1) := by
  induction k with
  | zero => rfl
  | succ k ih => rw [Spec.state, ih, h]; rfl

/-- If the time stays below the limit for `n` steps and then not, there are exactly `n` steps. -/
theorem run_iff (add : K → K → K) (dt endTime : K) (step : K → S → S) (n : ℕ) : ∀ (t : K) (k : ℕ) (s : S)
    (_ : ∀ j < n, Spec.time add t dt j < endTime - 1 / 10 ^ 8) (_ : ¬ Spec.time add t dt n < endTime - 1 / 10 ^ 8)
    (l : List (K × ℕ × S)) (s' : S),
    Run add dt endTime step t k s l s' ↔
      l = (List.range n).map (fun j => (Spec.time add t dt (j + 1), k + (j + 1),
        Spec.state (Spec.time add t dt) step s (j + 1))) ∧ s' = Spec.state (Spec.time add t dt) step s n := by
  induction n with
  | zero =>
    intro t k s _ h2 l s'
    constructor
    · intro h
      cases h with
      | stop _ => exact ⟨rfl, rfl⟩
      | step h => exact absurd h h2
    · rintro ⟨rfl, rfl⟩
      exact Run.stop h2
  | succ n ih =>
    intro t k s h1 h2 l s'
    have ih' := ih (add t dt) (k + 1) (step t s)
      (fun j hj => by rw [time_shift]; exact h1 (j + 1) (by omega)) (by rw [time_shift]; exact h2)
    have hst : ∀ j, Spec.state (Spec.time add (add t dt) dt) step (step t s) j = Spec.state (Spec.time add t dt) step s (j + 1) :=
      fun j => state_shift (Spec.time add t dt) _ step s (fun k => time_shift add t dt k) j
    have h0 : t < endTime - 1 / 10 ^ 8 := h1 0 (by omega)
    simp only [time_shift, hst] at ih'
    rw [List.range_succ_eq_map, List.map_cons, List.map_map]
    constructor
    · intro h
      cases h with
      | stop h => exact absurd h0 h
      | step _ hr =>
        obtain ⟨e1, e2⟩ := (ih' _ _).1 hr
        refine ⟨?_, e2⟩
        rw [e1]
        congr 1
        apply List.map_congr_left
        intro j _
        simp only [Function.comp]
        rw [show k + 1 + (j + 1) = k + (j.succ + 1) by omega]
    · rintro ⟨rfl, rfl⟩
      refine Run.step h0 ((ih' _ _).2 ⟨?_, rfl⟩)
      apply List.map_congr_left
      intro j _
      simp only [Function.comp]
      rw [show k + 1 + (j + 1) = k + (j.succ + 1) by omega]

variable [IsStrictOrderedRing K]

theorem time_exact (t0 dt : K) (k : ℕ) : Spec.time (· + ·) t0 dt k = t0 + k * dt := by
  induction k with
  | zero => simp [Spec.time]
  | succ k ih => rw [Spec.time, ih]; push_cast; ring

/-- **C29** (exact arithmetic).  With `end_time = t0 + n dt` and `dt > 1e-8` exactly `n` steps are taken, `update`
is called after every step with the time `t0 + k dt` and the number `k`. -/
theorem C29_steps (dt t0 : K) (n : ℕ) (hdt : 1 / 10 ^ 8 < dt) (step : K → S → S) (s s' : S) (l : List (K × ℕ × S)) :
    Solves (· + ·) dt t0 (t0 + n * dt) step s l s' ↔
      l = (List.range n).map (fun j => (t0 + (j + 1 : ℕ) * dt, j + 1,
        Spec.state (fun k => t0 + k * dt) step s (j + 1))) ∧ s' = Spec.state (fun k => t0 + k * dt) step s n := by
  have hpos : (0 : K) < 1 / 10 ^ 8 := by positivity
  have hτ : Spec.time (· + ·) t0 dt = fun k : ℕ => t0 + k * dt := funext (time_exact t0 dt)
  rw [Solves, run_iff (· + ·) dt (t0 + n * dt) step n t0 0 s]
  · simp only [hτ, Nat.zero_add]
  · intro j hj
    rw [time_exact]
    have : ((j : K) + 1) * dt ≤ n * dt := by
      apply mul_le_mul_of_nonneg_right _ (by linarith)
      exact_mod_cast hj
    linarith
  · rw [time_exact]
    intro h
    linarith

/-- **C29** (rounding).  With any addition for which the accumulated error of the time is at most `e`, where
`e ≤ 1e-8` and `e < dt - 1e-8`, the number of steps is still exactly `n`. -/
theorem C29_rounding (add : K → K → K) (dt t0 e : K) (n : ℕ) (he : e ≤ 1 / 10 ^ 8) (he' : e < dt - 1 / 10 ^ 8)
    (hadd : ∀ k ≤ n, |Spec.time add t0 dt k - (t0 + k * dt)| ≤ e) (step : K → S → S) (s s' : S) (l : List (K × ℕ × S))
    (h : Solves add dt t0 (t0 + n * dt) step s l s') :
    l.length = n ∧ s' = Spec.state (Spec.time add t0 dt) step s n := by
  have hpos : (0 : K) < 1 / 10 ^ 8 := by positivity
  have h0 : 0 ≤ e := le_trans (abs_nonneg _) (hadd 0 (Nat.zero_le _))
  rw [Solves, run_iff add dt (t0 + n * dt) step n t0 0 s] at h
  · exact ⟨by rw [h.1]; simp, h.2⟩
  · intro j hj
    have h1 := (abs_le.1 (hadd j hj.le)).2
    have : ((j : K) + 1) * dt ≤ n * dt := by
      apply mul_le_mul_of_nonneg_right _ (by linarith)
      exact_mod_cast hj
    linarith
  · have h1 := (abs_le.1 (hadd n le_rfl)).1
    intro hc
    linarith

/-- **C29** (any end time).  The number of steps is the least `n` with `t0 + n dt ≥ end_time - 1e-8`. -/
theorem C29_number (dt t0 endTime : K) (hdt : 0 < dt) (step : K → S → S) (s s' : S) (l : List (K × ℕ × S))
    (h : Solves (· + ·) dt t0 endTime step s l s') (n : ℕ) :
    l.length = n ↔ endTime - 1 / 10 ^ 8 ≤ t0 + n * dt ∧ ∀ m < n, t0 + m * dt < endTime - 1 / 10 ^ 8 := by
  have key : ∀ n : ℕ, (endTime - 1 / 10 ^ 8 ≤ t0 + n * dt ∧ ∀ m : ℕ, m < n → t0 + m * dt < endTime - 1 / 10 ^ 8) → l.length = n := by
    rintro n ⟨h1, h2⟩
    rw [Solves, run_iff (· + ·) dt endTime step n t0 0 s] at h
    · rw [h.1]; simp
    · intro j hj; rw [time_exact]; exact h2 j hj
    · rw [time_exact]; exact not_lt.2 h1
  constructor
  · have gen : ∀ (t : K) (k : ℕ) (s : S) (l : List (K × ℕ × S)) (s' : S), Run (· + ·) dt endTime step t k s l s' →
        endTime - 1 / 10 ^ 8 ≤ t + l.length * dt ∧ ∀ m : ℕ, m < l.length → t + m * dt < endTime - 1 / 10 ^ 8 := by
      intro t k s l s' hr
      induction hr with
      | stop h => exact ⟨by simpa using h, by simp⟩
      | @step t k s l s' h1 _ ih =>
        simp only [List.length_cons]
        refine ⟨by push_cast; linarith [ih.1], ?_⟩
        intro m hm
        cases m with
        | zero => simpa using h1
        | succ m => have := ih.2 m (by omega); push_cast; linarith
    rintro rfl
    exact gen _ _ _ _ _ h
  · exact key n

/-- With a step of `1e-8` (or less) the loop may stop too early: no step is taken from `t0` to `t0 + dt`. -/
theorem C29_small_dt_refuted : ¬ ∀ (dt t0 : ℚ) (n : ℕ) (l : List (ℚ × ℕ × ℕ)) (s' : ℕ), 0 < dt →
    Solves (· + ·) dt t0 (t0 + n * dt) (fun _ s => s + 1) 0 l s' → l.length = n := by
  intro h
  have := h (1 / 10 ^ 8) 0 1 [] 0 (by norm_num) (Run.stop (by norm_num))
  simp at this

/-- With `dt ≤ 0` and `t0 < end_time - 1e-8` the loop does not terminate. -/
theorem C29_nonterminating (dt t0 endTime : K) (hdt : dt ≤ 0) (h0 : t0 < endTime - 1 / 10 ^ 8) (step : K → S → S) (s : S) :
    ¬ ∃ l s', Solves (· + ·) dt t0 endTime step s l s' := by
  rintro ⟨l, s', h⟩
  have gen : ∀ (t : K) (k : ℕ) (s : S) (l : List (K × ℕ × S)) (s' : S), Run (· + ·) dt endTime step t k s l s' →
      ¬ t < endTime - 1 / 10 ^ 8 := by
    intro t k s l s' hr
    induction hr with
    | stop h => exact h
    | step h1 _ ih => intro hc; exact ih (by linarith)
  exact gen _ _ _ _ _ h h0

/-- Non-vacuity: three steps of size one half. -/
example : Solves (· + ·) (1 / 2 : ℚ) 0 (3 / 2) (fun _ (s : ℕ) => 2 * s) 1 [(1 / 2, 1, 2), (1, 2, 4), (3 / 2, 3, 8)] 8 := by
  have := (C29_steps (1 / 2 : ℚ) 0 3 (by norm_num) (fun _ (s : ℕ) => 2 * s) 1 8 [(1 / 2, 1, 2), (1, 2, 4), (3 / 2, 3, 8)]).2 (by
    constructor <;> decide +kernel)
  norm_num at this
  exact this

/-- **C46** (splitting).  Solving to `t0 + n dt` and from there to `t0 + (n+m) dt` gives the same final state as
solving at once, for every stepper whose step does not depend on time. -/
theorem C46_split (dt t0 : K) (n m : ℕ) (hdt : 1 / 10 ^ 8 < dt) (step : S → S) (s s1 s2 s3 : S)
    (l1 l2 l3 : List (K × ℕ × S))
    (h1 : Solves (· + ·) dt t0 (t0 + n * dt) (fun _ => step) s l1 s1)
    (h2 : Solves (· + ·) dt (t0 + n * dt) (t0 + n * dt + m * dt) (fun _ => step) s1 l2 s2)
    (h3 : Solves (· + ·) dt t0 (t0 + (n + m : ℕ) * dt) (fun _ => step) s l3 s3) : s3 = s2 := by
  rw [C29_steps _ _ _ hdt] at h1 h2 h3
  have it : ∀ (τ : ℕ → K) (s : S) (n : ℕ), Spec.state τ (fun _ => step) s n = step^[n] s := by
    intro τ s n
    induction n with
    | zero => rfl
    | succ n ih => rw [Spec.state, ih, Function.iterate_succ_apply']
  rw [h3.2, h2.2, h1.2, it, it, it, Nat.add_comm, Function.iterate_add_apply]

end Loop

/-! ## C30 -/

section RK4

variable {K : Type*} [Field K] [CharZero K] {A : Type*} [CommRing A] [Algebra K A]

/-- The classical Runge-Kutta method for `u' = f(u)`. -/
def Spec.classicalRK4 {V : Type*} [AddCommGroup V] [Module K V] (f : V → V) (h : K) (u : V) : V :=
  let k1 := f u
  let k2 := f (u + (h / 2) • k1)
  let k3 := f (u + (h / 2) • k2)
  let k4 := f (u + h • k3)
  u + (h / 6) • (k1 + (2 : K) • k2 + (2 : K) • k3 + k4)

/-- **C30** One step of `RK4` is one step of the classical method for `f(u) = N(u) + L u`, if `L` is an array. -/
theorem C30_array (N : A → A) (l : A) (dt : K) (u : A) :
    rk4Step N (LinOp.array l) dt u = Spec.classicalRK4 (fun u => N u + l * u) dt u := by
  simp only [rk4Step, List.range, List.range.loop, List.foldl, rk4Stage, rk4A, rk4B, Spec.classicalRK4]
  norm_num
  rw [show (1 / 2 : K) * dt = dt / 2 by ring]
  generalize N u + l * u = k1
  generalize N (u + (dt / 2) • k1) + l * (u + (dt / 2) • k1) = k2
  generalize N (u + (dt / 2) • k2) + l * (u + (dt / 2) • k2) = k3
  generalize N (u + dt • k3) + l * (u + dt • k3) = k4
  module

/-- If the linear operator is not an array (for example a number, or the default), it is not used. -/
theorem C30_number (N : A → A) (x : K) (dt : K) (u : A) :
    rk4Step N (LinOp.number x) dt u = Spec.classicalRK4 N dt u := by
  simp only [rk4Step, List.range, List.range.loop, List.foldl, rk4Stage, rk4A, rk4B, Spec.classicalRK4]
  norm_num
  rw [show (1 / 2 : K) * dt = dt / 2 by ring]
  generalize N u = k1
  generalize N (u + (dt / 2) • k1) = k2
  generalize N (u + (dt / 2) • k2) = k3
  generalize N (u + dt • k3) = k4
  module

/-- So the property fails for a linear operator given by a number. -/
theorem C30_number_refuted : ¬ ∀ (N : ℚ → ℚ) (x dt u : ℚ),
    rk4Step N (LinOp.number x : LinOp ℚ ℚ) dt u = Spec.classicalRK4 (fun u => N u + x * u) dt u := by
  intro h
  have := h (fun _ => 0) 1 1 1
  rw [C30_number] at this
  norm_num [Spec.classicalRK4] at this

/-- **C30** For a linear right-hand side the step is the Taylor polynomial of degree 4 of the exponential. -/
theorem C30_linear (Λ : A →ₗ[K] A) (l : A) (dt : K) (u : A) :
    rk4Step (fun u => Λ u) (LinOp.array l) dt u
      = ∑ j ∈ Finset.range 5, (dt ^ j / (j.factorial : K)) • ((Λ + LinearMap.mulLeft K l) ^ j) u := by
  rw [C30_array]
  have hf : ∀ v, Λ v + l * v = (Λ + LinearMap.mulLeft K l) v := fun v => by simp
  simp only [hf]
  generalize Λ + LinearMap.mulLeft K l = B
  simp only [Spec.classicalRK4, Finset.sum_range_succ, Finset.sum_range_zero, map_add, map_smul, pow_succ, pow_zero,
    Module.End.mul_apply, Module.End.one_apply, one_mul]
  norm_num [Nat.factorial]
  module

/-- Non-vacuity: `u' = u` with step one. -/
example : rk4Step (fun _ => 0) (LinOp.array 1 : LinOp ℚ ℚ) 1 1 = 1 + 1 + 1 / 2 + 1 / 6 + 1 / 24 := by
  rw [C30_array]
  norm_num [Spec.classicalRK4]

end RK4

/-! ## C43 -/

section ETD

/-- The exponential Euler and `ETDRK4` methods are exact when there is no nonlinear term. -/
theorem C43_etd_linear {ι : Type*} (L : ι → ℂ) (dt : ℝ) (u : ι → ℂ) (i : ι) :
    etdStep L (fun _ _ => 0) dt u i = Complex.exp (L i * dt) * u i := by
  simp [etdStep]

/-- **C43** After `n` steps the solution of `u' = L u` at time `n dt` is obtained. -/
theorem C43_etd_linear_steps {ι : Type*} (L : ι → ℂ) (dt : ℝ) (u : ι → ℂ) (n : ℕ) (i : ι) :
    (etdStep L (fun _ _ => 0) dt)^[n] u i = Complex.exp (L i * (n * dt)) * u i := by
  induction n with
  | zero => simp
  | succ n ih =>
    rw [Function.iterate_succ_apply', C43_etd_linear, ih, ← mul_assoc, ← Complex.exp_add]
    congr 2
    push_cast
    ring

section
variable {K : Type*} [Field K] [CharZero K] {A : Type*} [CommRing A] [Algebra K A]

/-- The method of Cox and Matthews: `E`, `E2` stand for `exp(hL)`, `exp(hL/2)`, `φ1, φ2, φ3` for the `φ`-functions at
`hL` and `ψ` for `φ1(hL/2)`. -/
def Spec.coxMatthews (E E2 φ1 φ2 φ3 ψ : A) (N : A → A) (h : K) (u : A) : A :=
  let a := E2 * u + (h / 2) • (ψ * N u)
  let b := E2 * u + (h / 2) • (ψ * N a)
  let c := E2 * a + (h / 2) • (ψ * (2 * N b - N u))
  E * u + h • ((φ1 - 3 * φ2 + 4 * φ3) * N u + (2 * φ2 - 4 * φ3) * (N a + N b) + (4 * φ3 - φ2) * N c)

/-- **C43** One step of `ETDRK4` is one step of the method of Cox and Matthews, whatever is left in the work arrays. -/
theorem C43_etdrk4 (w : ETDRK4Weights A) (hw : w.a = etdrk4A w.psi) (N : A → A) (dt : K) (u d v : A) :
    (etdrk4Step w N dt u d v).u
      = Spec.coxMatthews w.ehL w.ehL_h (w.psi 0) (w.psi 1) (w.psi 2) (w.psi 3) N dt u := by
  simp only [etdrk4Step, List.range, List.range.loop, List.foldl, etdrk4Stage, hw, etdrk4A, Spec.coxMatthews]
  norm_num
  rw [show (1 / 2 : K) * dt = dt / 2 by ring, mul_comm u w.ehL_h, mul_comm u w.ehL]
  generalize N u = n0
  generalize N (w.ehL_h * u + (dt / 2) • (w.psi 3 * n0)) = n1
  generalize N (w.ehL_h * u + (dt / 2) • (w.psi 3 * n1)) = n2
  generalize N _ = n3
  simp only [Algebra.smul_def]
  ring

/-- The weights of `setup` are of this form. -/
theorem etdrk4Setup_a {ι : Type*} (L : ι → ℂ) (dt : ℝ) : (etdrk4Setup L dt).a = etdrk4A (etdrk4Setup L dt).psi := rfl

/-- Without linear term and with exact `φ`-functions it is the classical Runge-Kutta method. -/
theorem C43_etdrk4_rk4 (N : A → A) (h : K) (u : A) :
    Spec.coxMatthews 1 1 1 (algebraMap K A (1 / 2)) (algebraMap K A (1 / 6)) 1 N h u = Spec.classicalRK4 N h u := by
  simp only [Spec.coxMatthews, Spec.classicalRK4, one_mul]
  have h1 : u + (h / 2) • (N u) + (h / 2) • (2 * N (u + (h / 2) • N (u + (h / 2) • N u)) - N u)
      = u + h • N (u + (h / 2) • N (u + (h / 2) • N u)) := by
    rw [two_mul]; module
  rw [h1]
  generalize N u = n0
  generalize N (u + (h / 2) • n0) = n1
  generalize N (u + (h / 2) • n1) = n2
  generalize N _ = n3
  have e3 : (3 : A) = algebraMap K A 3 := (map_ofNat (algebraMap K A) 3).symm
  have e4 : (4 : A) = algebraMap K A 4 := (map_ofNat (algebraMap K A) 4).symm
  have e2 : (2 : A) = algebraMap K A 2 := (map_ofNat (algebraMap K A) 2).symm
  rw [e3, e4, e2, ← (algebraMap K A).map_one]
  simp only [← map_mul, ← map_add, ← map_sub, ← Algebra.smul_def]
  norm_num
  module

end

/-- The computed `φ`-functions are real: for purely oscillating modes (imaginary `L`) they are not the functions
they should be.  The exact weight of exponential Euler for `hL = iπ` is `(e^{iπ}-1)/(iπ) = 2i/π`; the error is at
least `2/π`. -/
theorem C43_complex_refuted (f : ℂ → ℂ) (M : ℕ) :
    2 / Real.pi ≤ ‖(contour M f (Complex.I * Real.pi) : ℂ) - (Complex.exp (Complex.I * Real.pi) - 1) / (Complex.I * Real.pi)‖ := by
  have hpi : (Real.pi : ℂ) ≠ 0 := by exact_mod_cast Real.pi_ne_zero
  have e : (Complex.exp (Complex.I * Real.pi) - 1) / (Complex.I * Real.pi) = ((2 / Real.pi : ℝ) : ℂ) * Complex.I := by
    rw [mul_comm, Complex.exp_pi_mul_I]
    push_cast
    field_simp
    rw [Complex.I_sq]
    ring
  rw [e]
  have := Complex.abs_im_le_norm ((contour M f (Complex.I * Real.pi) : ℂ) - ((2 / Real.pi : ℝ) : ℂ) * Complex.I)
  simp only [Complex.sub_im, Complex.ofReal_im, Complex.mul_im, Complex.I_re, Complex.I_im, Complex.ofReal_re, mul_zero,
    mul_one, zero_sub, abs_neg, zero_add, add_zero] at this
  rwa [abs_of_pos (by positivity)] at this

end ETD

/-! ## C42 -/

section Implicit

variable {K : Type*} [Field K] {V W : Type*} [AddCommGroup V] [Module K V] [AddCommGroup W] [Module K W]

theorem foldl_add {W : Type*} [AddCommGroup W] (f : ℕ → W) (n : ℕ) (r : W) :
    (List.range n).foldl (fun r j => r + f j) r = r + ∑ j ∈ Finset.range n, f j := by
  induction n with
  | zero => simp
  | succ n ih => rw [List.range_succ, List.foldl_append, ih, Finset.sum_range_succ]; simp [add_assoc]

/-- The implicit-explicit Runge-Kutta method (Ascher, Ruuth and Spiteri) for `M u' = N(u) + L u`: `U 0, ..., U s` are
the stages of one step from `u` and `U s` is the result. -/
def Spec.IsImex (T : Tableau K) (M L : V →ₗ[K] W) (N : V → W) (dt : K) (u v : V) (U : ℕ → V) : Prop :=
  U 0 = u ∧ U T.steps = v ∧ ∀ i, 1 ≤ i → i ≤ T.steps →
    M (U i) = M u + dt • ∑ j ∈ Finset.range i, T.b i j • N (U j)
      + dt • ∑ j ∈ Finset.Icc 1 i, T.a i j • L (U j)

/-- **C42** For every tableau with constant diagonal, and with a linear solver that solves, one step is a step of the
implicit-explicit Runge-Kutta method, whatever is left in the work arrays. -/
theorem C42_scheme (T : Tableau K) (hdiag : ∀ i, 1 ≤ i → i ≤ T.steps → T.a i i = T.a 1 1) (M L : V →ₗ[K] W) (N : V → W)
    (solve : K → W → V) (dt : K)
    (hsolve : ∀ r, M (solve (dt * T.a 1 1) r) - (dt * T.a 1 1) • L (solve (dt * T.a 1 1) r) = r) (s : ImexState V W) :
    ∃ U, Spec.IsImex T M L N dt s.u (imexStep T M L N solve dt s).u U := by
  set f := fun (s : ImexState V W) rk => solveStep T solve dt (computeRhs T M L N dt s rk) with hf
  set S : ℕ → ImexState V W := fun k => (List.range k).foldl f s with hS
  have S_succ : ∀ k, S (k + 1) = f (S k) k := by
    intro k; simp only [hS, List.range_succ, List.foldl_append, List.foldl]
  have S0 : S 0 = s := rfl
  -- invariants
  have inv : ∀ k, (∀ j < k, (S k).Krhs j = N (S j).u) ∧ (∀ j, 1 ≤ j → j < k → (S k).Lrhs (j - 1) = L (S j).u) ∧
      (1 ≤ k → (S k).u0rhs = M s.u) := by
    intro k
    induction k with
    | zero => exact ⟨by omega, by omega, by omega⟩
    | succ k ih =>
      obtain ⟨i1, i2, i3⟩ := ih
      have hK : (S (k + 1)).Krhs = Function.update (S k).Krhs k (N (S k).u) := by rw [S_succ]; rfl
      have hL : (S (k + 1)).Lrhs = if 0 < k then Function.update (S k).Lrhs (k - 1) (L (S k).u) else (S k).Lrhs := by
        rw [S_succ]; rfl
      have h0 : (S (k + 1)).u0rhs = if k = 0 then M (S k).u else (S k).u0rhs := by rw [S_succ]; rfl
      refine ⟨?_, ?_, ?_⟩
      · intro j hj
        rw [hK]
        by_cases h : j = k
        · rw [h, Function.update_self]
        · rw [Function.update_of_ne h]; exact i1 j (by omega)
      · intro j h1 hj
        rw [hL, if_pos (by omega)]
        by_cases h : j = k
        · rw [h, Function.update_self]
        · rw [Function.update_of_ne (by omega)]; exact i2 j h1 (by omega)
      · intro _
        rw [h0]
        split_ifs with h
        · rw [h, S0]
        · exact i3 (by omega)
  refine ⟨fun k => (S k).u, rfl, rfl, ?_⟩
  intro i h1 hi
  obtain ⟨k, rfl⟩ : ∃ k, i = k + 1 := ⟨i - 1, by omega⟩
  obtain ⟨j1, j2, j3⟩ := inv (k + 1)
  have hu : (S (k + 1)).u = solve (dt * T.a 1 1) (S (k + 1)).rhs := by rw [S_succ]; rfl
  have hrhs : (S (k + 1)).rhs = M s.u + dt • ∑ j ∈ Finset.range (k + 1), T.b (k + 1) j • N (S j).u
      + dt • ∑ j ∈ Finset.Icc 1 k, T.a (k + 1) j • L (S j).u := by
    have hr : (S (k + 1)).rhs = if 0 < k then
        (List.range k).foldl (fun r j => r + (dt * T.a (k + 1) (j + 1)) • (S (k + 1)).Lrhs j)
          ((List.range (k + 1)).foldl (fun r j => r + (dt * T.b (k + 1) j) • (S (k + 1)).Krhs j) (S (k + 1)).u0rhs)
        else (List.range (k + 1)).foldl (fun r j => r + (dt * T.b (k + 1) j) • (S (k + 1)).Krhs j) (S (k + 1)).u0rhs := by
      rw [S_succ]; rfl
    have e1 : ∑ j ∈ Finset.range (k + 1), (dt * T.b (k + 1) j) • (S (k + 1)).Krhs j
        = dt • ∑ j ∈ Finset.range (k + 1), T.b (k + 1) j • N (S j).u := by
      rw [Finset.smul_sum]
      apply Finset.sum_congr rfl
      intro j hj
      rw [j1 j (Finset.mem_range.1 hj), mul_smul]
    have e2 : ∑ j ∈ Finset.range k, (dt * T.a (k + 1) (j + 1)) • (S (k + 1)).Lrhs j
        = dt • ∑ j ∈ Finset.Icc 1 k, T.a (k + 1) j • L (S j).u := by
      have := Finset.sum_Ico_add' (fun j => (dt * T.a (k + 1) j) • (S (k + 1)).Lrhs (j - 1)) 0 k 1
      simp only [Nat.add_sub_cancel] at this
      rw [Finset.smul_sum, Finset.range_eq_Ico, this]
      apply Finset.sum_congr
      · ext j; simp only [Finset.mem_Ico, Finset.mem_Icc]; omega
      · intro j hj
        rw [Finset.mem_Icc] at hj
        rw [j2 j hj.1 (by omega), mul_smul]
    rw [hr, foldl_add, foldl_add, e1, e2, j3 (by omega)]
    split_ifs with h
    · rfl
    · obtain rfl : k = 0 := by omega
      simp
  have hs := hsolve (S (k + 1)).rhs
  rw [← hu, hrhs] at hs
  rw [Finset.sum_Icc_succ_top (by omega), hdiag (k + 1) h1 hi, smul_add, ← mul_smul]
  rw [sub_eq_iff_eq_add] at hs
  rw [hs]
  abel

/-! ### Order on the linear test equation -/

open Asymptotics Filter Topology

/-- A one-step method with amplification factor `R h` for `u' = c u` has order `p`: the error of one step is
`O(h^(p+1))`. -/
def Spec.OrderAtLeast (p : ℕ) (c : ℝ) (R : ℝ → ℝ) : Prop :=
  (fun h => R h - Real.exp (h * c)) =O[𝓝 0] fun h : ℝ => h ^ (p + 1)

theorem order_of_identity (p : ℕ) (c : ℝ) (R Q : ℝ → ℝ) (hQ : ContinuousAt Q 0)
    (hR : ∀ᶠ h in 𝓝 (0 : ℝ), R h = ∑ k ∈ Finset.range (p + 1), (h * c) ^ k / (k.factorial : ℝ) + h ^ (p + 1) * Q h) :
    Spec.OrderAtLeast p c R := by
  have h1 : (fun h : ℝ => h ^ (p + 1) * Q h) =O[𝓝 0] fun h : ℝ => h ^ (p + 1) := by
    simpa using (isBigO_refl (fun h : ℝ => h ^ (p + 1)) (𝓝 0)).mul (hQ.tendsto.isBigO_one ℝ)
  have ht : Tendsto (fun h : ℝ => h * c) (𝓝 0) (𝓝 0) := by
    have : ContinuousAt (fun h : ℝ => h * c) 0 := by fun_prop
    simpa [ContinuousAt] using this
  have h2 : (fun h : ℝ => Real.exp (h * c) - ∑ k ∈ Finset.range (p + 1), (h * c) ^ k / (k.factorial : ℝ))
      =O[𝓝 0] fun h : ℝ => h ^ (p + 1) := by
    have := (Real.exp_sub_sum_range_isBigO_pow (p + 1)).comp_tendsto ht
    refine IsBigO.trans this ?_
    have e : ((fun x : ℝ => x ^ (p + 1)) ∘ fun h : ℝ => h * c) = fun h => c ^ (p + 1) * h ^ (p + 1) := by
      funext h; simp only [Function.comp]; ring
    rw [e]
    exact isBigO_const_mul_self _ _ _
  refine IsBigO.congr' (h1.sub h2) ?_ EventuallyEq.rfl
  filter_upwards [hR] with h hh
  rw [hh]
  ring

/-- The test equation `u' = λ u + μ u`, `λ` treated implicitly and `μ` explicitly: one step from one. -/
noncomputable def testFactor (T : Tableau ℝ) (l m : ℝ) (h : ℝ) : ℝ :=
  (imexStep T LinearMap.id (l • LinearMap.id) (fun u => m * u) (fun c r => r / (1 - c * l)) h
    ⟨1, 0, fun _ => 0, fun _ => 0, 0⟩).u

theorem eventually_ne (γ l : ℝ) : ∀ᶠ h in 𝓝 (0 : ℝ), 1 - h * γ * l ≠ 0 := by
  have : ContinuousAt (fun h : ℝ => 1 - h * γ * l) 0 := by fun_prop
  exact this.eventually_ne (by simp)

/-- **C42** `IMEXRK111` has order one. -/
theorem C42_order_111 (l m : ℝ) : Spec.OrderAtLeast 1 (l + m) (testFactor imexrk111 l m) := by
  apply order_of_identity 1 (l + m) _ (fun h => (l * m + l ^ 2) / (1 - h * 1 * l))
  · exact ContinuousAt.div (by fun_prop) (by fun_prop) (by simp)
  · filter_upwards [eventually_ne 1 l] with h hh
    simp [testFactor, imexStep, imexrk111, rows, computeRhs, solveStep, List.range, List.range.loop, Finset.sum_range_succ]
    simp at hh
    field_simp
    ring

/-- **C42** `IMEXRK222` (with its `γ`) has order two. -/
theorem C42_order_222 (l m : ℝ) : Spec.OrderAtLeast 2 (l + m) (testFactor (imexrk222 ((2 - √2) / 2)) l m) := by
  set g := (2 - √2) / 2 with hg
  have h2 : √2 ^ 2 = 2 := Real.sq_sqrt (by norm_num)
  have hgq : g ^ 2 = 2 * g - 1 / 2 := by rw [hg]; linear_combination h2 / 4
  have hg0 : g ≠ 0 := by
    intro h0; rw [h0] at hgq; norm_num at hgq
  have hinv : 1 / (2 * g) = 2 - g := by
    field_simp
    linear_combination 2 * hgq
  apply order_of_identity 2 (l + m) _ (fun h => ((-1)*g*h*l^2*m^2 + (-2)*g*h*l^3*m + (-1)*g*h*l^4 + (1)*g*l*m^2 + (-1)*g*l^3
    + (1/4)*h*l^2*m^2 + (1/2)*h*l^3*m + (1/4)*h*l^4 + (1/2)*l^2*m + (1/2)*l^3) / (1 - h * g * l) ^ 2)
  · exact ContinuousAt.div (by fun_prop) (by fun_prop) (by simp)
  · filter_upwards [eventually_ne g l] with h hh
    simp only [testFactor, imexStep, imexrk222, hinv]
    simp [rows, computeRhs, solveStep, List.range, List.range.loop, Finset.sum_range_succ, Function.update_apply]
    field_simp
    linear_combination ((-16)*h^2*l*m + (-8)*h^2*l^2 + (-8)*h^2*m^2 + (-8)*h^3*l^2*m + (-8)*h^3*l^3 + (-4)*h^4*l^2*m^2
      + (-8)*h^4*l^3*m + (-4)*h^4*l^4) * hgq

/-- **C42** `IMEXRK443` has order three. -/
theorem C42_order_443 (l m : ℝ) : Spec.OrderAtLeast 3 (l + m) (testFactor imexrk443 l m) := by
  apply order_of_identity 3 (l + m) _ (fun h => ((-1/4)*h*l^2*m^3 + (-1/2)*h*l^3*m^2 + (-5/16)*h*l^4*m + (-1/16)*h*l^5
    + (1/12)*h^2*l^3*m^3 + (7/32)*h^2*l^4*m^2 + (3/16)*h^2*l^5*m + (5/96)*h^2*l^6 + (-1/96)*h^3*l^4*m^3 + (-1/32)*h^3*l^5*m^2
    + (-1/32)*h^3*l^6*m + (-1/96)*h^3*l^7 + (13/96)*l*m^3 + (23/96)*l^2*m^2 + (29/288)*l^3*m + (1/48)*l^4 + (-7/288)*m^4)
    / (1 - h * (1 / 2) * l) ^ 4)
  · exact ContinuousAt.div (by fun_prop) (by fun_prop) (by simp)
  · filter_upwards [eventually_ne (1 / 2) l] with h hh
    simp only [testFactor, imexStep, imexrk443]
    simp [rows, computeRhs, solveStep, List.range, List.range.loop, Finset.sum_range_succ, Function.update_apply]
    rw [one_div] at hh
    obtain ⟨D, hD⟩ : ∃ D, D = 1 - h * 2⁻¹ * l := ⟨_, rfl⟩
    rw [← hD] at hh ⊢
    simp only [Nat.factorial]
    push_cast
    field_simp
    rw [hD]
    ring

/-- `IMEXRK011` does not use the linear operator: the result is the same for all `L`. -/
theorem C42_011_ignores_linear (M L L' : V →ₗ[K] W) (N : V → W) (solve : K → W → V) (dt : K) (s : ImexState V W) :
    (imexStep imexrk011 M L N solve dt s).u = (imexStep imexrk011 M L' N solve dt s).u := by
  simp [imexStep, imexrk011, rows, computeRhs, solveStep, List.range, List.range.loop]

/-- One step of `IMEXRK3` (or `IRK3`) for the test equation. -/
noncomputable def testFactor3 (l m : ℝ) (h : ℝ) : ℝ :=
  (irk3Step LinearMap.id (l • LinearMap.id) (fun u => m * u) (fun c r => r / (1 - c * l)) h (1, 0)).1

theorem testFactor3_eq (l m h : ℝ) : testFactor3 l m h =
    let u1 := (1 + h * (4 / 15) * l + h * (8 / 15) * m) / (1 - h * (4 / 15) * l)
    let u2 := (u1 + h * (1 / 15) * l * u1 + h * (5 / 12) * m * u1 - h * (17 / 60) * m) / (1 - h * (1 / 15) * l)
    (u2 + h * (1 / 6) * l * u2 + h * (3 / 4) * m * u2 - h * (5 / 12) * m * u1) / (1 - h * (1 / 6) * l) := by
  simp only [testFactor3, irk3Step, List.range, List.range.loop, List.foldl, irk3Stage, irk3A, irk3B, LinearMap.id_coe, id,
    LinearMap.smul_apply, smul_eq_mul]
  rw [show (8 / 15 + 0 : ℝ) * h / 2 = h * (4 / 15) by ring, show ((5 / 12 + -17 / 60 : ℝ)) * h / 2 = h * (1 / 15) by ring,
    show ((3 / 4 + -5 / 12 : ℝ)) * h / 2 = h * (1 / 6) by ring]
  simp only [mul_one]
  rw [show (8 / 15 * h * m + 0 * h * 0 + (1 + h * (4 / 15) * l)) = (1 + h * (4 / 15) * l + h * (8 / 15) * m) by ring]
  generalize (1 + h * (4 / 15) * l + h * (8 / 15) * m) / (1 - h * (4 / 15) * l) = u1
  rw [show 5 / 12 * h * (m * u1) + -17 / 60 * h * m + (u1 + h * (1 / 15) * (l * u1))
    = (u1 + h * (1 / 15) * l * u1 + h * (5 / 12) * m * u1 - h * (17 / 60) * m) by ring]
  generalize (u1 + h * (1 / 15) * l * u1 + h * (5 / 12) * m * u1 - h * (17 / 60) * m) / (1 - h * (1 / 15) * l) = u2
  congr 1
  ring

/-- **C42** `IMEXRK3` and `IRK3` have order two. -/
theorem C42_order_irk3_partial (l m : ℝ) : Spec.OrderAtLeast 2 (l + m) (testFactor3 l m) := by
  apply order_of_identity 2 (l + m) _ (fun h => ((-11/300)*h*l^2*m^2 + (-19/270)*h*l^3*m + (-91/2700)*h*l^4
    + (1/675)*h^2*l^3*m^2 + (2/675)*h^2*l^4*m + (1/675)*h^2*l^5 + (253/540)*l*m^2 + (109/225)*l^2*m + (493/2700)*l^3
    + (1/6)*m^3) / ((1 - h * (4 / 15) * l) * (1 - h * (1 / 15) * l) * (1 - h * (1 / 6) * l)))
  · exact ContinuousAt.div (by fun_prop) (by fun_prop) (by simp)
  · filter_upwards [eventually_ne (4 / 15) l, eventually_ne (1 / 15) l, eventually_ne (1 / 6) l] with h h1 h2 h3
    rw [testFactor3_eq]
    simp only [Finset.sum_range_succ, Finset.sum_range_zero, Nat.factorial]
    push_cast
    obtain ⟨D1, hD1⟩ : ∃ D, D = 1 - h * (4 / 15) * l := ⟨_, rfl⟩
    obtain ⟨D2, hD2⟩ : ∃ D, D = 1 - h * (1 / 15) * l := ⟨_, rfl⟩
    obtain ⟨D3, hD3⟩ : ∃ D, D = 1 - h * (1 / 6) * l := ⟨_, rfl⟩
    rw [← hD1] at h1 ⊢
    rw [← hD2] at h2 ⊢
    rw [← hD3] at h3 ⊢
    field_simp
    rw [hD1, hD2, hD3]
    ring

/-- **C42** Without linear operator `IMEXRK3` has order three. -/
theorem C42_order_irk3_explicit (m : ℝ) : Spec.OrderAtLeast 3 m (testFactor3 0 m) := by
  apply order_of_identity 3 m _ (fun _ => 0) continuousAt_const
  filter_upwards with h
  rw [testFactor3_eq]
  simp only [Finset.sum_range_succ, Finset.sum_range_zero]
  norm_num [Nat.factorial]
  field_simp
  ring

/-- The documented third order ("third order accurate implicit Runge-Kutta solver") does not hold when there is
a linear operator: for `u' = u` the error of one step is not `O(h⁴)`. -/
theorem C42_order_irk3_refuted : ¬ ∀ l m : ℝ, Spec.OrderAtLeast 3 (l + m) (testFactor3 l m) := by
  intro hall
  have h := hall 1 0
  have hexp := (Real.exp_sub_sum_range_isBigO_pow 4)
  have h' : (fun h : ℝ => testFactor3 1 0 h - ∑ k ∈ Finset.range 4, h ^ k / (k.factorial : ℝ)) =O[𝓝 0] fun h : ℝ => h ^ 4 := by
    refine IsBigO.congr' (h.add hexp) ?_ EventuallyEq.rfl
    filter_upwards with x
    simp
  -- the difference is h³ q(h) with q continuous and q 0 ≠ 0
  set q : ℝ → ℝ := fun h => (43 / 2700 + (67 / 1350) * h - (29 / 2700) * h ^ 2 + (1 / 2025) * h ^ 3)
      / ((1 - h * (4 / 15)) * (1 - h * (1 / 15)) * (1 - h * (1 / 6))) with hq
  have hqc : ContinuousAt q 0 := ContinuousAt.div (by fun_prop) (by fun_prop) (by simp)
  have heq : ∀ᶠ h in 𝓝 (0 : ℝ), testFactor3 1 0 h - ∑ k ∈ Finset.range 4, h ^ k / (k.factorial : ℝ) = h ^ 3 * q h := by
    filter_upwards [eventually_ne (4 / 15) 1, eventually_ne (1 / 15) 1, eventually_ne (1 / 6) 1] with h h1 h2 h3
    rw [mul_one] at h1 h2 h3
    rw [testFactor3_eq]
    simp only [Finset.sum_range_succ, Finset.sum_range_zero, Nat.factorial, hq, mul_one]
    push_cast
    obtain ⟨D1, hD1⟩ : ∃ D, D = 1 - h * (4 / 15) := ⟨_, rfl⟩
    obtain ⟨D2, hD2⟩ : ∃ D, D = 1 - h * (1 / 15) := ⟨_, rfl⟩
    obtain ⟨D3, hD3⟩ : ∃ D, D = 1 - h * (1 / 6) := ⟨_, rfl⟩
    rw [← hD1] at h1 ⊢
    rw [← hD2] at h2 ⊢
    rw [← hD3] at h3 ⊢
    field_simp
    rw [hD1, hD2, hD3]
    ring
  obtain ⟨C, hC⟩ := (h'.congr' heq EventuallyEq.rfl).bound
  have hlim : Tendsto (fun h => |q h| - C * |h|) (𝓝[≠] 0) (𝓝 (|q 0| - C * |0|)) := by
    have hcont : ContinuousAt (fun h => |q h| - C * |h|) 0 := by fun_prop
    exact hcont.tendsto.mono_left nhdsWithin_le_nhds
  have hle : ∀ᶠ h in 𝓝[≠] (0 : ℝ), |q h| - C * |h| ≤ 0 := by
    filter_upwards [eventually_nhdsWithin_of_eventually_nhds hC, self_mem_nhdsWithin] with h hb hne
    have hpos : 0 < |h| ^ 3 := pow_pos (abs_pos.2 hne) 3
    simp only [Real.norm_eq_abs, abs_mul, abs_pow] at hb
    have : |h| ^ 3 * |q h| ≤ |h| ^ 3 * (C * |h|) := by linarith [hb, (by ring : C * |h| ^ 4 = |h| ^ 3 * (C * |h|))]
    linarith [le_of_mul_le_mul_left this hpos]
  have := le_of_tendsto hlim hle
  norm_num [hq] at this

/-! ## C44 -/

/-- The first order backward Euler method, implicit in `L` and explicit in `N`. -/
def Spec.IsBackwardEuler (M L : V →ₗ[K] W) (N : V → W) (dt : K) (u v : V) : Prop :=
  M v - dt • L v = M u + dt • N u

/-- One step solves `(M - dt L) v = M u + dt (2 N(u) - d)`, where `d` is the nonlinear term stored by the previous
step. -/
theorem C44_step (M L : V →ₗ[K] W) (N : V → W) (solve : K → W → V) (dt : K)
    (hsolve : ∀ r, M (solve dt r) - dt • L (solve dt r) = r) (u : V) (d : W) :
    let v := (backwardEulerStep M L N solve dt (u, d)).1
    M v - dt • L v = M u + dt • ((2 : K) • N u - d) ∧ (backwardEulerStep M L N solve dt (u, d)).2 = N u := by
  refine ⟨?_, rfl⟩
  simp only [backwardEulerStep, hsolve]
  module

/-- **C44** Without nonlinear term, starting from a new object, every step is a step of backward Euler. -/
theorem C44_linear_partial (M L : V →ₗ[K] W) (solve : K → W → V) (dt : K)
    (hsolve : ∀ r, M (solve dt r) - dt • L (solve dt r) = r) (u : V) (n : ℕ) :
    let st := fun n => (backwardEulerStep M L (fun _ => 0) solve dt)^[n] (u, 0)
    Spec.IsBackwardEuler M L (fun _ => 0) dt (st n).1 (st (n + 1)).1 := by
  intro st
  have h0 : (st n).2 = 0 := by
    cases n with
    | zero => rfl
    | succ n => simp only [st, Function.iterate_succ_apply']; rfl
  have hs : st (n + 1) = backwardEulerStep M L (fun _ => 0) solve dt ((st n).1, (st n).2) := by
    simp only [st, Function.iterate_succ_apply']
  have := (C44_step M L (fun _ => 0) solve dt hsolve (st n).1 (st n).2).1
  rw [← hs, h0] at this
  simpa [Spec.IsBackwardEuler] using this

/-- **C44** From the second step on a step is first order in a constant nonlinear term: `2 N - N = N`. -/
theorem C44_constant_partial (M L : V →ₗ[K] W) (c : W) (solve : K → W → V) (dt : K)
    (hsolve : ∀ r, M (solve dt r) - dt • L (solve dt r) = r) (u : V) (d : W) (n : ℕ) :
    let st := fun n => (backwardEulerStep M L (fun _ => c) solve dt)^[n] (u, d)
    Spec.IsBackwardEuler M L (fun _ => c) dt (st (n + 1)).1 (st (n + 2)).1 := by
  intro st
  have h0 : (st (n + 1)).2 = c := by simp only [st, Function.iterate_succ_apply']; rfl
  have hs : st (n + 2) = backwardEulerStep M L (fun _ => c) solve dt ((st (n + 1)).1, (st (n + 1)).2) := by
    simp only [st, Function.iterate_succ_apply' _ (n + 1)]
  have := (C44_step M L (fun _ => c) solve dt hsolve (st (n + 1)).1 (st (n + 1)).2).1
  rw [← hs, h0] at this
  rw [Spec.IsBackwardEuler, this]
  congr 2
  module

/-- The first step of a new object is not consistent: it uses twice the nonlinear term.  For `u' = 1` the error
of one step is `dt`, not `O(dt²)`. -/
theorem C44_first_step (dt u : ℚ) :
    (backwardEulerStep LinearMap.id (0 : ℚ →ₗ[ℚ] ℚ) (fun _ => 1) (fun _ r => r) dt (u, 0)).1 = u + 2 * dt := by
  simp [backwardEulerStep]
  ring

/-- So the property fails, for new objects and for every first step of a new `solve`. -/
theorem C44_refuted : ¬ ∀ (M L : ℚ →ₗ[ℚ] ℚ) (N : ℚ → ℚ) (solve : ℚ → ℚ → ℚ) (dt u : ℚ),
    (∀ r, M (solve dt r) - dt • L (solve dt r) = r) →
    Spec.IsBackwardEuler M L N dt u (backwardEulerStep M L N solve dt (u, 0)).1 := by
  intro h
  have := h LinearMap.id 0 (fun _ => 1) (fun _ r => r) 1 0 (by simp)
  rw [C44_first_step] at this
  norm_num [Spec.IsBackwardEuler] at this

/-! ## C45 -/

/-- **C45** For `IRK3`, `BackwardEuler`, `ETD`, `ETDRK4`: after any sequence of earlier calls of `solve` with any time
steps, the solvers used by a call with time step `dt` are those for a time step that differs from `dt` by at most
`1e-12`. -/
theorem C45_integrators [LinearOrder K] [IsStrictOrderedRing K] (dts : List K) (dt p : K) :
    ∃ d, ((dts.foldl IntObj.prepare ⟨p, none⟩).prepare dt).made = some d ∧ |d - dt| ≤ 1 / 10 ^ 12 := by
  have hpos : (0 : K) ≤ 1 / 10 ^ 12 := by positivity
  have inv : ∀ (dts : List K) (o : IntObj K), (∀ d, o.made = some d → d = o.paramDt) →
      ∀ d, (dts.foldl IntObj.prepare o).made = some d → d = (dts.foldl IntObj.prepare o).paramDt := by
    intro dts
    induction dts with
    | nil => intro o h; exact h
    | cons x l ih =>
      intro o h
      rw [List.foldl_cons]
      apply ih
      intro d hd
      unfold IntObj.prepare at hd ⊢
      split_ifs at hd ⊢ with hc
      · exact (Option.some.inj hd).symm
      · exact h d hd
  have h := inv dts ⟨p, none⟩ (by simp)
  set o := dts.foldl IntObj.prepare ⟨p, none⟩
  unfold IntObj.prepare
  split_ifs with hc
  · exact ⟨dt, rfl, by simpa using hpos⟩
  · push Not at hc
    obtain ⟨d, hd⟩ := Option.ne_none_iff_exists'.1 hc.1
    exact ⟨d, hd, by rw [h d hd]; exact hc.2⟩

/-- **C45** For the IMEX classes: the solver used after the first `assemble` belongs to the current time step. -/
theorem C45_imex_partial (T : Tableau K) (dt : K) : (ImexObj.assemble T ⟨dt, []⟩).used = some (dt * T.a 1 1) := rfl

/-- After changing the time step and assembling again the solver is still the first one. -/
theorem C45_imex_stale (T : Tableau K) (dt dt' : K) :
    (ImexObj.assemble T { ImexObj.assemble T ⟨dt, []⟩ with dt := dt' }).used = some (dt * T.a 1 1) := rfl

/-- The property fails for the IMEX classes. -/
theorem C45_imex_refuted : ¬ ∀ dt dt' : ℚ,
    (ImexObj.assemble imexrk111 { ImexObj.assemble imexrk111 ⟨dt, []⟩ with dt := dt' }).used
      = some (dt' * imexrk111.a 1 1) := by
  intro h
  have := h 1 2
  rw [C45_imex_stale] at this
  simp [imexrk111, rows] at this

/-- The consequence: `u' = -u` with the stale solver (`M - dt L = 2`, time step changed from one to a half) gives one
half of the start value instead of two thirds. -/
example : ∃ dt dt' : ℚ, ∃ c, (ImexObj.assemble imexrk111 { ImexObj.assemble imexrk111 ⟨dt, []⟩ with dt := dt' }).used = some c ∧
    (1 : ℚ) / (1 + c) ≠ 1 / (1 + dt') := ⟨1, 1 / 2, 1, by simp [C45_imex_stale, imexrk111, rows], by norm_num⟩

/-! ## C46 -/

/-- **C46** One step of `IRK3` or `IMEXRK3` does not depend on what earlier steps (or other runs) left in the work
array. -/
theorem C46_irk3 (M L : V →ₗ[K] W) (N : V → W) (solve : K → W → V) (dt : K) (u : V) (d d' : W) :
    irk3Step M L N solve dt (u, d) = irk3Step M L N solve dt (u, d') := by
  simp [irk3Step, List.range, List.range.loop, irk3Stage, irk3B]

/-- **C46** One step of the IMEX classes does not depend on what is left in the work arrays, for every tableau. -/
theorem C46_imex (T : Tableau K) (M L : V →ₗ[K] W) (N : V → W) (solve : K → W → V) (dt : K) (s s' : ImexState V W)
    (hu : s.u = s'.u) : (imexStep T M L N solve dt s).u = (imexStep T M L N solve dt s').u := by
  have inv : ∀ k, let S := (List.range k).foldl (fun s rk => solveStep T solve dt (computeRhs T M L N dt s rk)) s
      let S' := (List.range k).foldl (fun s rk => solveStep T solve dt (computeRhs T M L N dt s rk)) s'
      S.u = S'.u ∧ (∀ j < k, S.Krhs j = S'.Krhs j) ∧ (∀ j, j + 1 < k → S.Lrhs j = S'.Lrhs j) ∧
        (1 ≤ k → S.u0rhs = S'.u0rhs) := by
    intro k
    induction k with
    | zero => exact ⟨hu, by omega, by omega, by omega⟩
    | succ k ih =>
      simp only [List.range_succ, List.foldl_append, List.foldl_cons, List.foldl_nil] at ih ⊢
      revert ih
      generalize (List.range k).foldl (fun s rk => solveStep T solve dt (computeRhs T M L N dt s rk)) s = S
      generalize (List.range k).foldl (fun s rk => solveStep T solve dt (computeRhs T M L N dt s rk)) s' = S'
      rintro ⟨i1, i2, i3, i4⟩
      have hK : ∀ j < k + 1, Function.update S.Krhs k (N S.u) j = Function.update S'.Krhs k (N S'.u) j := by
        intro j hj
        by_cases h : j = k
        · rw [h, Function.update_self, Function.update_self, i1]
        · rw [Function.update_of_ne h, Function.update_of_ne h]; exact i2 j (by omega)
      have hL : ∀ j, j < k → (if 0 < k then Function.update S.Lrhs (k - 1) (L S.u) else S.Lrhs) j
          = (if 0 < k then Function.update S'.Lrhs (k - 1) (L S'.u) else S'.Lrhs) j := by
        intro j hj
        rw [if_pos (by omega : 0 < k), if_pos (by omega : 0 < k)]
        by_cases h : j = k - 1
        · rw [h, Function.update_self, Function.update_self, i1]
        · rw [Function.update_of_ne h, Function.update_of_ne h]; exact i3 j (by omega)
      have h0 : (if k = 0 then M S.u else S.u0rhs) = (if k = 0 then M S'.u else S'.u0rhs) := by
        split_ifs with h
        · rw [i1]
        · exact i4 (by omega)
      refine ⟨?_, hK, fun j hj => hL j (by omega), fun _ => h0⟩
      simp only [solveStep, computeRhs]
      congr 1
      simp only [foldl_add]
      rw [h0]
      have e1 : ∑ j ∈ Finset.range (k + 1), (dt * T.b (k + 1) j) • Function.update S.Krhs k (N S.u) j
          = ∑ j ∈ Finset.range (k + 1), (dt * T.b (k + 1) j) • Function.update S'.Krhs k (N S'.u) j :=
        Finset.sum_congr rfl fun j hj => by rw [hK j (Finset.mem_range.1 hj)]
      have e2 : ∑ j ∈ Finset.range k, (dt * T.a (k + 1) (j + 1)) • (if 0 < k then Function.update S.Lrhs (k - 1) (L S.u) else S.Lrhs) j
          = ∑ j ∈ Finset.range k, (dt * T.a (k + 1) (j + 1)) • (if 0 < k then Function.update S'.Lrhs (k - 1) (L S'.u) else S'.Lrhs) j :=
        Finset.sum_congr rfl fun j hj => by rw [hL j (Finset.mem_range.1 hj)]
      rw [e1, e2]
  exact (inv T.steps).1

/-- **C46** One step of `ETDRK4` does not depend on the work arrays. -/
theorem C46_etdrk4 {A : Type*} [CommRing A] [Algebra K A] (w : ETDRK4Weights A) (N : A → A) (dt : K) (u d v d' v' : A) :
    (etdrk4Step w N dt u d v).u = (etdrk4Step w N dt u d' v').u := by
  simp [etdrk4Step, List.range, List.range.loop, etdrk4Stage]

/-- `BackwardEuler` depends on the history: after another run the same initial value gives another result. -/
theorem C46_backwardEuler_refuted : ¬ ∀ (N : ℚ → ℚ) (dt u d d' : ℚ),
    (backwardEulerStep LinearMap.id (0 : ℚ →ₗ[ℚ] ℚ) N (fun _ r => r) dt (u, d)).1
      = (backwardEulerStep LinearMap.id (0 : ℚ →ₗ[ℚ] ℚ) N (fun _ r => r) dt (u, d')).1 := by
  intro h
  have := h (fun _ => 0) 1 0 0 1
  norm_num [backwardEulerStep] at this

/-- Non-vacuity of `C42_scheme`: `IMEXRK443` for `2 u' = u² - 3 u` over the rationals. -/
example : ∃ U, Spec.IsImex imexrk443 ((2 : ℚ) • LinearMap.id) ((-3 : ℚ) • LinearMap.id) (fun u => u ^ 2) (1 / 2 : ℚ) (1 : ℚ)
    (imexStep imexrk443 ((2 : ℚ) • LinearMap.id) ((-3 : ℚ) • LinearMap.id) (fun u => u ^ 2) (fun c r => r / (2 + 3 * c))
      (1 / 2) ⟨1, 0, fun _ => 0, fun _ => 0, 0⟩).u U := by
  apply C42_scheme imexrk443 _ _ _ _ _ (1 / 2 : ℚ) _ ⟨1, 0, fun _ => 0, fun _ => 0, 0⟩
  · intro i h1 h2
    simp only [imexrk443] at h2 ⊢
    interval_cases i <;> simp [rows]
  · intro r
    simp [imexrk443, rows]
    ring

/-- The tableaux in use have constant diagonal. -/
theorem tableaux_diag (i : ℕ) (h1 : 1 ≤ i) :
    (i ≤ (imexrk011 (K := K)).steps → (imexrk011 (K := K)).a i i = (imexrk011 (K := K)).a 1 1) ∧
    (i ≤ (imexrk111 (K := K)).steps → (imexrk111 (K := K)).a i i = (imexrk111 (K := K)).a 1 1) ∧
    (∀ γ : K, i ≤ (imexrk222 γ).steps → (imexrk222 γ).a i i = (imexrk222 γ).a 1 1) ∧
    (i ≤ (imexrk443 (K := K)).steps → (imexrk443 (K := K)).a i i = (imexrk443 (K := K)).a 1 1) := by
  refine ⟨?_, ?_, ?_, ?_⟩
  · intro h; simp only [imexrk011] at h ⊢; interval_cases i; rfl
  · intro h; simp only [imexrk111] at h ⊢; interval_cases i; rfl
  · intro γ h; simp only [imexrk222] at h ⊢; interval_cases i <;> simp [rows]
  · intro h; simp only [imexrk443] at h ⊢; interval_cases i <;> simp [rows]

end Implicit

end Shenfun.Integrators
