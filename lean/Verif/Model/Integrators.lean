import Mathlib.Algebra.Algebra.Basic
import Mathlib.Algebra.BigOperators.Group.Finset.Basic
import Mathlib.Algebra.Order.Field.Basic
import Mathlib.Algebra.Module.LinearMap.Defs
import Mathlib.Analysis.SpecialFunctions.Exp
import Mathlib.Analysis.SpecialFunctions.Trigonometric.Basic

/-!
# Time integrators, `/repo/shenfun/utilities/integrators.py`

Nyquist masks, the physical array `u` and the keyword parameters are not modelled; the right hand sides given
by the user are functions of the coefficients `u_hat`.
-/

namespace Shenfun.Integrators

/-! ## The time loop -/

section Loop

variable {K : Type*} [Field K] [LinearOrder K] {S : Type*}

/-- The loop `while t < end_time-1e-8: t += dt; tstep += 1; ...; update(u, u_hat, t, tstep)` of all integrators:
`/repo/shenfun/utilities/integrators.py:210-225` (IRK3), `296-310` (BackwardEuler), `388-396` (ETD), `494-517`
(ETDRK4), `586-600` (RK4).  `add` is the (floating point) addition, `step t` one step of the state from time
`t`, and the list contains the arguments `t`, `tstep` and the state of every call of `update`. -/
inductive Run (add : K → K → K) (dt endTime : K) (step : K → S → S) : K → ℕ → S → List (K × ℕ × S) → S → Prop
  | stop {t k s} : ¬ t < endTime - 1 / 10 ^ 8 → Run add dt endTime step t k s [] s
  | step {t k s l s'} : t < endTime - 1 / 10 ^ 8 →
      Run add dt endTime step (add t dt) (k + 1) (step t s) l s' →
      Run add dt endTime step t k s ((add t dt, k + 1, step t s) :: l) s'

/-- `solve(u, u_hat, dt, (t0, end_time))`: the step counter starts from zero. -/
def Solves (add : K → K → K) (dt t0 endTime : K) (step : K → S → S) (s : S) (l : List (K × ℕ × S)) (s' : S) : Prop :=
  Run add dt endTime step t0 0 s l s'

end Loop

/-! ## RK4 -/

section RK4

variable {K : Type*} [Field K] {A : Type*} [CommRing A] [Algebra K A]

/-- `self.a`, `/repo/shenfun/utilities/integrators.py:544`. -/
def rk4A : ℕ → K
  | 0 => 1 / 6
  | 1 => 1 / 3
  | 2 => 1 / 3
  | _ => 1 / 6

/-- `self.b`, `/repo/shenfun/utilities/integrators.py:545`. -/
def rk4B : ℕ → K
  | 0 => 1 / 2
  | 1 => 1 / 2
  | _ => 1

/-- The linear operator after `/repo/shenfun/utilities/integrators.py:570-584`: an array (elementwise factors)
or something else, like a number. -/
inductive LinOp (K A : Type*)
  | array (l : A)
  | number (x : K)

/-- Coefficients and work arrays. -/
structure RK4State (A : Type*) where
  u : A
  U0 : A
  U1 : A

/-- One stage, `/repo/shenfun/utilities/integrators.py:591-597`. -/
def rk4Stage (N : A → A) (L : LinOp K A) (dt : K) (s : RK4State A) (rk : ℕ) : RK4State A :=
  let dU := N s.u
  let dU := match L with
    | .array l => dU + l * s.u
    | .number _ => dU
  let u := if rk < 3 then s.U0 + (rk4B rk * dt) • dU else s.u
  { s with u := u, U1 := s.U1 + (rk4A rk * dt) • dU }

/-- One step, `/repo/shenfun/utilities/integrators.py:589-598`. -/
def rk4Step (N : A → A) (L : LinOp K A) (dt : K) (u : A) : A :=
  ((List.range 4).foldl (rk4Stage N L dt) ⟨u, u, u⟩).U1

end RK4

/-! ## Exponential integrators -/

section ETD

variable {ι : Type*}

/-- The mean over half of the unit circle around `z` used for the `φ`-functions,
`/repo/shenfun/utilities/integrators.py:365-370, 461-469`: `∑_k Re f(z + exp(iπ(k-1/2)/M)) / M`. -/
noncomputable def contour (M : ℕ) (f : ℂ → ℂ) (z : ℂ) : ℝ :=
  (∑ k ∈ Finset.range M, (f (z + Complex.exp (Real.pi * Complex.I * ((k + 1 : ℕ) - 0.5) / M))).re) / M

/-- `ETD.setup` and one step, `/repo/shenfun/utilities/integrators.py:361-370, 388-394`; all operations are
elementwise. -/
noncomputable def etdStep (L : ι → ℂ) (N : (ι → ℂ) → ι → ℂ) (dt : ℝ) (u : ι → ℂ) : ι → ℂ :=
  let hL := fun i => L i * dt
  let ehL := fun i => Complex.exp (hL i)
  let psi := fun i => contour 50 (fun ll => (Complex.exp ll - 1) / ll) (hL i)
  let dU := N u
  fun i => ehL i * u i + dt * psi i * dU i

/-- The weights computed in `ETDRK4.setup`, `/repo/shenfun/utilities/integrators.py:457-477`. -/
structure ETDRK4Weights (A : Type*) where
  ehL : A
  ehL_h : A
  psi : ℕ → A
  a : ℕ → A

/-- `self.a` from `psi`, `/repo/shenfun/utilities/integrators.py:472-477`. -/
def etdrk4A {A : Type*} [CommRing A] (psi : ℕ → A) : ℕ → A
  | 0 => psi 0 - 3 * psi 1 + 4 * psi 2
  | 1 => 2 * psi 1 - 4 * psi 2
  | 2 => 2 * psi 1 - 4 * psi 2
  | _ => -psi 1 + 4 * psi 2

/-- `ETDRK4.setup`, `/repo/shenfun/utilities/integrators.py:455-477`. -/
noncomputable def etdrk4Setup (L : ι → ℂ) (dt : ℝ) : ETDRK4Weights (ι → ℂ) :=
  let hL := fun i => L i * dt
  let psi : ℕ → ι → ℂ := fun n i => match n with
    | 0 => contour 50 (fun ll => (Complex.exp ll - 1) / ll) (hL i)
    | 1 => contour 50 (fun ll => (Complex.exp ll - ll - 1) / ll ^ 2) (hL i)
    | 2 => contour 50 (fun ll => (Complex.exp ll - 0.5 * ll ^ 2 - ll - 1) / ll ^ 3) (hL i)
    | _ => contour 50 (fun ll => (Complex.exp ll - 1) / ll) (hL i / 2)
  { ehL := fun i => Complex.exp (hL i), ehL_h := fun i => Complex.exp (hL i / 2), psi := psi, a := etdrk4A psi }

/-- Coefficients and work arrays of `ETDRK4`. -/
structure ETDRK4State (A : Type*) where
  u : A
  U0 : A
  U1 : A
  dU0 : A
  V2 : A

variable {K : Type*} [Field K] {A : Type*} [CommRing A] [Algebra K A]

/-- One stage of `ETDRK4`, `/repo/shenfun/utilities/integrators.py:502-513`. -/
def etdrk4Stage (w : ETDRK4Weights A) (N : A → A) (dt : K) (s : ETDRK4State A) (rk : ℕ) : ETDRK4State A :=
  let dU := N s.u
  let u := if rk < 2 then s.U0 + (1 / 2 * dt) • (w.psi 3 * dU)
    else if rk = 2 then w.ehL_h * s.V2 + (1 / 2 * dt) • (w.psi 3 * (2 * dU - s.dU0)) else s.u
  let dU0 := if rk = 0 then dU else s.dU0
  let V2 := if rk = 0 then u else s.V2
  { u := u, U0 := s.U0, U1 := s.U1 + dt • (w.a rk * dU), dU0 := dU0, V2 := V2 }

/-- One step of `ETDRK4`, `/repo/shenfun/utilities/integrators.py:498-514`; `d` and `v` are the contents of the
work arrays `dU0` and `V2` from earlier steps. -/
def etdrk4Step (w : ETDRK4Weights A) (N : A → A) (dt : K) (u d v : A) : ETDRK4State A :=
  let s := (List.range 4).foldl (etdrk4Stage w N dt) ⟨u, u * w.ehL_h, u * w.ehL, d, v⟩
  { s with u := s.U1 }

end ETD

/-! ## Implicit methods

`M` is the mass matrix `inner(v, u)`, `L` the matrix `inner(v, L(u))`, `N` the vector `inner(v, N(u))`; `solve c`
is the linear solver assembled for the matrix `M - c L`. -/

section Implicit

variable {K : Type*} [Field K] {V W : Type*} [AddCommGroup V] [Module K V] [AddCommGroup W] [Module K W]

/-- `self.a`, `self.b`, `/repo/shenfun/utilities/integrators.py:143-144, 666-667`. -/
def irk3A : ℕ → K
  | 0 => 8 / 15
  | 1 => 5 / 12
  | _ => 3 / 4

@[inherit_doc irk3A]
def irk3B : ℕ → K
  | 0 => 0
  | 1 => -17 / 60
  | _ => -5 / 12

/-- One stage of `IRK3`, `/repo/shenfun/utilities/integrators.py:167-192, 194-205, 213-217`; the pair is `u_hat` and
the stored nonlinear term `dU1`. -/
def irk3Stage (M L : V →ₗ[K] W) (N : V → W) (solve : K → W → V) (dt : K) (s : V × W) (rk : ℕ) : V × W :=
  let dU := N s.1
  let w1 := (irk3A rk * dt) • dU + (irk3B rk * dt) • s.2
  let c := (irk3A rk + irk3B rk) * dt / 2
  let rhs := w1 + (M s.1 + c • L s.1)
  (solve c rhs, dU)

/-- One step of `IRK3`, `/repo/shenfun/utilities/integrators.py:212-219`.  `IMEXRK3` does the same:
`/repo/shenfun/utilities/integrators.py:671-700`. -/
def irk3Step (M L : V →ₗ[K] W) (N : V → W) (solve : K → W → V) (dt : K) (s : V × W) : V × W :=
  (List.range 3).foldl (irk3Stage M L N solve dt) s

/-- One step of `BackwardEuler`, `/repo/shenfun/utilities/integrators.py:258-291, 299-304`. -/
def backwardEulerStep (M _L : V →ₗ[K] W) (N : V → W) (solve : K → W → V) (dt : K) (s : V × W) : V × W :=
  let dU := N s.1
  let w1 := (2 * dt) • dU - dt • s.2
  (solve dt (w1 + M s.1), dU)

/-- A pair of Butcher tableaux as returned by `stages`: number of steps, implicit `a` and explicit `b`. -/
structure Tableau (K : Type*) where
  steps : ℕ
  a : ℕ → ℕ → K
  b : ℕ → ℕ → K

/-- Entries of a list of rows. -/
def rows (l : List (List K)) (i j : ℕ) : K := (l.getD i []).getD j 0

/-- `/repo/shenfun/utilities/integrators.py:819-834`. -/
def imexrk011 : Tableau K := ⟨1, rows [[0, 0], [0, 0]], rows [[0, 0], [1, 0]]⟩

/-- `/repo/shenfun/utilities/integrators.py:836-850`. -/
def imexrk111 : Tableau K := ⟨1, rows [[0, 0], [0, 1]], rows [[0, 0], [1, 0]]⟩

/-- `/repo/shenfun/utilities/integrators.py:852-870`; `γ` is `(2-√2)/2`. -/
def imexrk222 (γ : K) : Tableau K :=
  let δ := 1 - 1 / (2 * γ)
  ⟨2, rows [[0, 0, 0], [0, γ, 0], [0, 1 - γ, γ]], rows [[0, 0, 0], [γ, 0, 0], [δ, 1 - δ, 0]]⟩

/-- `/repo/shenfun/utilities/integrators.py:872-894`. -/
def imexrk443 : Tableau K :=
  ⟨4, rows [[0, 0, 0, 0, 0], [0, 1/2, 0, 0, 0], [0, 1/6, 1/2, 0, 0], [0, -1/2, 1/2, 1/2, 0], [0, 3/2, -3/2, 1/2, 1/2]],
    rows [[0, 0, 0, 0, 0], [1/2, 0, 0, 0, 0], [11/18, 1/18, 0, 0, 0], [5/6, -5/6, 1/2, 0, 0], [1/4, 7/4, 3/4, -7/4, 0]]⟩

/-- Solution and work arrays of `PDEIMEXRK`. -/
structure ImexState (V W : Type*) where
  u : V
  u0rhs : W
  Krhs : ℕ → W
  Lrhs : ℕ → W
  rhs : W

/-- `PDEIMEXRK.compute_rhs`, `/repo/shenfun/utilities/integrators.py:798-813`. -/
def computeRhs (T : Tableau K) (M L : V →ₗ[K] W) (N : V → W) (dt : K) (s : ImexState V W) (rk : ℕ) : ImexState V W :=
  let K' := Function.update s.Krhs rk (N s.u)
  let u0rhs := if rk = 0 then M s.u else s.u0rhs
  let rhs := u0rhs
  let rhs := (List.range (rk + 1)).foldl (fun r j => r + (dt * T.b (rk + 1) j) • K' j) rhs
  let Lrhs := if 0 < rk then Function.update s.Lrhs (rk - 1) (L s.u) else s.Lrhs
  let rhs := if 0 < rk then (List.range rk).foldl (fun r j => r + (dt * T.a (rk + 1) (j + 1)) • Lrhs j) rhs else rhs
  { s with u0rhs := u0rhs, Krhs := K', Lrhs := Lrhs, rhs := rhs }

/-- `PDEIMEXRK.solve_step`, `/repo/shenfun/utilities/integrators.py:815-817`: one solver, for `M - dt a[1,1] L`
(`assemble`, `/repo/shenfun/utilities/integrators.py:782-796`). -/
def solveStep (T : Tableau K) (solve : K → W → V) (dt : K) (s : ImexState V W) : ImexState V W :=
  { s with u := solve (dt * T.a 1 1) s.rhs }

/-- One time step, as programs use it (`for rk in range(steps): compute_rhs(rk); solve_step(rk)`, e.g.
`/repo/demo/ChannelFlow.py`). -/
def imexStep (T : Tableau K) (M L : V →ₗ[K] W) (N : V → W) (solve : K → W → V) (dt : K) (s : ImexState V W) :
    ImexState V W :=
  (List.range T.steps).foldl (fun s rk => solveStep T solve dt (computeRhs T M L N dt s rk)) s

/-- The part of an IMEX object that `assemble` works with: the time step and the list of assembled solvers, each
given by the coefficient `c` of its matrix `M - c L`. -/
structure ImexObj (K : Type*) where
  dt : K
  solvers : List K

/-- `PDEIMEXRK.assemble`, `/repo/shenfun/utilities/integrators.py:782-788`: appends. -/
def ImexObj.assemble (T : Tableau K) (o : ImexObj K) : ImexObj K :=
  { o with solvers := o.solvers ++ [o.dt * T.a 1 1] }

/-- Coefficient of the matrix used by `solve_step`, `/repo/shenfun/utilities/integrators.py:817`. -/
def ImexObj.used (o : ImexObj K) : Option K := o.solvers[0]?

/-- The part of `IRK3`, `BackwardEuler`, `ETD` and `ETDRK4` objects that `setup` works with: `params['dt']` and the time
step for which solvers (weights) have been made, if any. -/
structure IntObj (K : Type*) where
  paramDt : K
  made : Option K

/-- Start of `solve`: `if self.solver is None or abs(self.params['dt']-dt) > 1e-12: self.setup(dt)`,
`/repo/shenfun/utilities/integrators.py:208-209, 294-295, 384-385, 492-493`; `setup` stores `params['dt'] = dt` and
makes solvers for `dt`. -/
def IntObj.prepare [LinearOrder K] (o : IntObj K) (dt : K) : IntObj K :=
  if o.made = none ∨ 1 / 10 ^ 12 < |o.paramDt - dt| then ⟨dt, some dt⟩ else o

end Implicit

end Shenfun.Integrators
