import Verif.Spec.ExprEval
import Mathlib.Tactic.FinCases

/-!
# C88: `Expr.eval` returns the value of the expression
-/

namespace Shenfun.Eval

open Finset

variable (V : Space2) {ψ : ℕ → Fin 2 → ℕ → ℝ → ℂ}

theorem contDiff_phys (hR : V.Right ψ) (q : ℕ) (a : Fin 2) (j m : ℕ) :
    ContDiff ℝ (m : ℕ) fun y => ψ q a j (V.mapRef q a y) := by
  refine (hR.smooth q a j m).comp ?_
  unfold Space2.mapRef
  fun_prop

/-- The rows are the derivatives of the basis functions in the true coordinates. -/
theorem P_val (hR : V.Right ψ) (q : ℕ) (a : Fin 2) (k : ℕ) (x : ℝ) (j : ℕ) :
    (V.P q a k x).val j = iteratedDeriv k (fun y => ψ q a j (V.mapRef q a y)) x := by
  have hd : iteratedDeriv k (fun y => ψ q a j (V.mapRef q a y)) x
      = (V.df q a ^ k : ℝ) • iteratedDeriv k (ψ q a j) (V.mapRef q a x) := by
    have e : (fun y => ψ q a j (V.mapRef q a y)) = fun y =>
        (fun z => (fun w => ψ q a j (V.refLower q a + w)) (V.df q a * z)) (y - V.lower q a) := by
      funext y
      simp only [Space2.mapRef]
      congr 1
      ring
    have hs : ContDiff ℝ (k : ℕ) fun w => ψ q a j (V.refLower q a + w) :=
      (hR.smooth q a j k).comp (by fun_prop)
    have e2 := iteratedDeriv_comp_sub_const k (fun z => (fun w => ψ q a j (V.refLower q a + w)) (V.df q a * z)) (V.lower q a)
    have e3 := iteratedDeriv_comp_const_smul hs (V.df q a)
    have e4 := iteratedDeriv_comp_const_add k (ψ q a j) (V.refLower q a)
    rw [e, congrFun e2 x, congrFun e3, congrFun e4]
    simp only [Space2.mapRef]
    congr 2
    ring
  rw [hd]
  simp only [Space2.P]
  split_ifs with h
  · rw [h, one_pow, one_smul, hR.row]
  · rw [← hR.row q a k (V.mapRef q a x) j]
    cases V.row q a k (V.mapRef q a x) with
    | r P => simp [Row.scale, Row.val, mul_comm]
    | c P => simp [Row.scale, Row.val, mul_comm]

theorem field_deriv (hR : V.Right ψ) (mult : ℕ → ℕ → ℝ) (u : ℕ → ℕ → ℕ → ℂ) (q d0 d1 : ℕ) (x y : ℝ) :
    partialDeriv d0 d1 (V.field ψ mult u q) x y
      = ∑ k ∈ range (V.cols q 0), ∑ l ∈ range (V.cols q 1), (mult k l : ℂ) * u q k l
        * (V.P q 0 d0 x).val k * (V.P q 1 d1 y).val l := by
  have h0 := contDiff_phys V hR q 0
  have h1 := contDiff_phys V hR q 1
  unfold partialDeriv
  have e1 : (fun s => iteratedDeriv d1 (fun t => V.field ψ mult u q s t) y) = fun s =>
      ∑ k ∈ range (V.cols q 0), ∑ l ∈ range (V.cols q 1),
        ((mult k l : ℂ) * u q k l * (V.P q 1 d1 y).val l) * ψ q 0 k (V.mapRef q 0 s) := by
    funext s
    simp only [Space2.field]
    rw [iteratedDeriv_fun_sum fun k _ => (ContDiff.sum fun l _ => contDiff_const.mul (h1 l d1)).contDiffAt]
    refine sum_congr rfl fun k _ => ?_
    rw [iteratedDeriv_fun_sum fun l _ => (contDiff_const.mul (h1 l d1)).contDiffAt]
    refine sum_congr rfl fun l _ => ?_
    rw [iteratedDeriv_const_mul_field, P_val V hR]
    ring
  rw [e1, iteratedDeriv_fun_sum fun k _ => (ContDiff.sum fun l _ => contDiff_const.mul (h0 k d0)).contDiffAt]
  refine sum_congr rfl fun k _ => ?_
  rw [iteratedDeriv_fun_sum fun l _ => (contDiff_const.mul (h0 k d0)).contDiffAt]
  refine sum_congr rfl fun l _ => ?_
  rw [iteratedDeriv_const_mul_field, P_val V hR q 0]
  ring

/-- The slices of a `CompositeSpace` do no harm: no R2C axis 0, and not more coefficients along axis 1 than points along
axis 0. -/
def Space2.SlicesOk : Prop := V.composite = true → ∀ q, V.r2c q 0 = none ∧ V.cols q 1 ≤ V.phys 0 0

/-- Which component a term refers to. -/
def Space2.comp (t : FTerm Fn2 2) : ℕ := if V.composite then t.ind else 0

theorem foldl_some (work : FTerm Fn2 2 → Option ℂ) (val : FTerm Fn2 2 → ℂ) (x : Fin 2 → ℝ) (c : List (FTerm Fn2 2))
    (h : ∀ t ∈ c, work t = some (val t)) (r : ℂ) :
    c.foldl (fun out t => do
      let out ← out
      let work ← work t
      return out + (t.scale x : ℂ) * work) (some r) = some (r + (c.map fun t => (t.scale x : ℂ) * val t).sum) := by
  induction c generalizing r with
  | nil => simp
  | cons t c ih =>
    have ht := h t (by simp)
    rw [List.foldl_cons]
    simp only [ht]
    have := ih (fun t' ht' => h t' (by simp [ht'])) (r + (t.scale x : ℂ) * val t)
    rw [List.map_cons, List.sum_cons, ← add_assoc, ← this]
    rfl

/-- `eval` adds up all terms of all components. -/
theorem eval_eq (e : FExpr Fn2 2) (u : ℕ → ℕ → ℕ → ℂ) (x : Fin 2 → ℝ) (val : FTerm Fn2 2 → ℂ)
    (h : ∀ c ∈ e, ∀ t ∈ c, V.work u t x = some (val t)) :
    V.eval e u x = some (e.map fun c => (c.map fun t => (t.scale x : ℂ) * val t).sum).sum := by
  have key : ∀ (e : FExpr Fn2 2), (∀ c ∈ e, ∀ t ∈ c, V.work u t x = some (val t)) → ∀ r : ℂ,
      e.foldl (fun out vec => vec.foldl (fun out t => do
        let out ← out
        let work ← V.work u t x
        return out + (t.scale x : ℂ) * work) out) (some r)
      = some (r + (e.map fun c => (c.map fun t => (t.scale x : ℂ) * val t).sum).sum) := by
    intro e
    induction e with
    | nil => simp
    | cons c e ih =>
      intro h r
      rw [List.foldl_cons, foldl_some (fun t => V.work u t x) val x c (h c (by simp)) r, ih fun c' hc' => h c' (by simp [hc'])]
      rw [List.map_cons, List.sum_cons, add_assoc]
  rw [Space2.eval, key e h 0, zero_add]

theorem work_plain (hR : V.Right ψ) (hs : V.SlicesOk) (hr : ∀ q a, V.r2c q a = none) (u : ℕ → ℕ → ℕ → ℂ) (x : Fin 2 → ℝ)
    (t : FTerm Fn2 2) : V.work u t x
      = some (partialDeriv (t.der 0) (t.der 1) (V.field ψ (fun _ _ => 1) u (V.comp t)) (x 0) (x 1)) := by
  rw [field_deriv V hR]
  unfold Space2.work
  simp only [hr, Option.isSome_none, Bool.false_eq_true, if_false]
  rw [if_neg (by
    rintro ⟨hc, h | h⟩
    · omega
    · exact absurd (hs hc (V.comp t)).2 (by simpa [Space2.comp, hc] using h)), C82_eval2D _ _ _ _ _ _ _ (by omega)]
  congr 1
  unfold Spec.value2
  refine sum_congr rfl fun k _ => sum_congr rfl fun l _ => ?_
  simp only [Space2.comp]
  push_cast
  ring

/-- **C88 (no R2C axis).** `e.eval(x)` of an expression with one component is the sum over its terms of the scale at the point
times the partial derivative of the function at the point, in the true coordinates. -/
theorem C88_eval (hR : V.Right ψ) (hs : V.SlicesOk) (hr : ∀ q a, V.r2c q a = none) (c : List (FTerm Fn2 2))
    (u : ℕ → ℕ → ℕ → ℂ) (x : Fin 2 → ℝ) :
    V.eval [c] u x = some (c.map fun t => (t.scale x : ℂ)
      * partialDeriv (t.der 0) (t.der 1) (V.field ψ (fun _ _ => 1) u (V.comp t)) (x 0) (x 1)).sum := by
  have h := eval_eq V [c] u x (fun t => partialDeriv (t.der 0) (t.der 1) (V.field ψ (fun _ _ => 1) u (V.comp t)) (x 0) (x 1))
    (fun c' _ t _ => work_plain V hR hs hr u x t)
  rw [h]
  simp

/-- **C88 (R2C axis).** The same for a real function, an axis `ax` being R2C with `N` points: the coefficients stand for two
conjugate wavenumbers, except zero and the Nyquist wavenumber, whose coefficients are assumed to be zero (see
`C82_nyquist_twice`). -/
theorem C88_eval_real (hR : V.Right ψ) (hs : V.SlicesOk) {N : ℕ} (hN : 0 < N) (ax : Fin 2)
    (hr : ∀ q a, V.r2c q a = if a = ax then some N else none) (hc : ∀ q k X, ∃ Q, V.row q ax k X = .c Q)
    (c : List (FTerm Fn2 2)) (u : ℕ → ℕ → ℕ → ℂ)
    (hny : ∀ q k l, k < V.cols q 0 → l < V.cols q 1 → 2 * (if ax = 0 then k else l) = N → u q k l = 0) (x : Fin 2 → ℝ) :
    V.eval [c] u x = some ((c.map fun t => t.scale x * (partialDeriv (t.der 0) (t.der 1)
      (V.field ψ (fun k l => Spec.mult N (if ax = 0 then k else l)) u (V.comp t)) (x 0) (x 1)).re).sum : ℝ) := by
  have hP : ∀ q k y, ∃ Q, V.P q ax k y = .c Q := fun q k y => by
    obtain ⟨Q, hQ⟩ := hc q k (V.mapRef q ax y)
    simp only [Space2.P, hQ]
    split_ifs
    · exact ⟨_, rfl⟩
    · exact ⟨_, rfl⟩
  have h := eval_eq V [c] u x (fun t => ((partialDeriv (t.der 0) (t.der 1)
      (V.field ψ (fun k l => Spec.mult N (if ax = 0 then k else l)) u (V.comp t)) (x 0) (x 1)).re : ℝ))
    (fun c' _ t _ => by
      have hax : (if (V.r2c (V.comp t) 1).isSome then (1:ℤ) else if (V.r2c (V.comp t) 0).isSome then 0 else -1)
          = (ax.val : ℤ) := by
        simp only [hr]
        fin_cases ax <;> simp
      have hN' : ((V.r2c (V.comp t) 1).or (V.r2c (V.comp t) 0)).getD 0 = N := by
        simp only [hr]
        fin_cases ax <;> simp
      have hw : V.work u t x = some (evaluate2D (V.cols (V.comp t) 0) (V.cols (V.comp t) 1) (u (V.comp t))
          (V.P (V.comp t) 0 (t.der 0) (x 0)) (V.P (V.comp t) 1 (t.der 1) (x 1)) (ax.val : ℤ) (lastConj N) 0) := by
        have e : V.comp t = if V.composite then t.ind else 0 := rfl
        unfold Space2.work
        simp only [← e, hax, hN']
        rw [if_neg, if_neg (by omega)]
        rintro ⟨hcm, h | h⟩
        · have h0 := (hs hcm 0).1
          rw [hr] at h0
          have : ax = 0 := by
            ext
            simpa using h
          simp [this] at h0
        · exact absurd (hs hcm (V.comp t)).2 (by omega)
      rw [hw, C82_eval2D_ok hN ax.val 0 _ _ _ _ _ (by
        fin_cases ax
        · exact Or.inl (hP _ _ _)
        · exact Or.inr (hP _ _ _)) (fun k hk l hl h => hny _ k l hk hl (by
          rw [← h]
          fin_cases ax <;> simp)), field_deriv V hR]
      congr 2
      unfold Spec.real2
      rw [Complex.re_sum]
      refine sum_congr rfl fun k _ => ?_
      rw [Complex.re_sum]
      refine sum_congr rfl fun l _ => ?_
      have e : (if (ax.val : ℕ) = 0 then k else l) + 0 = if ax = 0 then k else l := by
        fin_cases ax <;> simp
      rw [e, mul_assoc, mul_assoc, mul_assoc, Complex.re_ofReal_mul, ← mul_assoc])
  rw [h]
  simp only [List.map_cons, List.map_nil, List.sum_cons, List.sum_nil, add_zero]
  congr 1
  clear h
  induction c with
  | nil => simp
  | cons t c ih =>
    rw [List.map_cons, List.sum_cons, ih, List.map_cons, List.sum_cons]
    push_cast
    rfl

/-- **C88 (refuted: vector expressions).** For an expression with two components `eval` returns one number, the sum of the
values of the components. -/
theorem C88_components_summed (hR : V.Right ψ) (hs : V.SlicesOk) (hr : ∀ q a, V.r2c q a = none) (c0 c1 : List (FTerm Fn2 2))
    (u : ℕ → ℕ → ℕ → ℂ) (x : Fin 2 → ℝ) :
    ∃ v0 v1, V.eval [c0] u x = some v0 ∧ V.eval [c1] u x = some v1 ∧ V.eval [c0, c1] u x = some (v0 + v1) := by
  refine ⟨_, _, C88_eval V hR hs hr c0 u x, C88_eval V hR hs hr c1 u x, ?_⟩
  rw [eval_eq V [c0, c1] u x _ fun c' _ t _ => work_plain V hR hs hr u x t]
  simp

/-- **C88 (refuted: vector spaces).** On a `CompositeSpace` with more coefficients along axis 1 than points along axis 0 (or
with an R2C axis 0) every expression with a term reads behind the end of a row (or raises a `TypeError`). -/
theorem C88_composite_refuted (hc : V.composite = true) (t : FTerm Fn2 2) (c : List (FTerm Fn2 2))
    (h : V.phys 0 0 < V.cols t.ind 1 ∨ ((V.r2c t.ind 1 = none) ∧ (V.r2c t.ind 0).isSome)) (u : ℕ → ℕ → ℕ → ℂ)
    (x : Fin 2 → ℝ) : V.eval [t :: c] u x = none := by
  have hw : V.work u t x = none := by
    unfold Space2.work
    rw [if_pos]
    refine ⟨hc, ?_⟩
    simp only [hc, if_true]
    rcases h with h | ⟨h1, h0⟩
    · exact Or.inr h
    · refine Or.inl ?_
      rw [h1, if_neg (by simp), if_pos h0]
  have hn : ∀ L : List (FTerm Fn2 2), L.foldl (fun out t => do
      let out ← out
      let work ← V.work u t x
      return out + (t.scale x : ℂ) * work) (none : Option ℂ) = none := by
    intro L
    induction L with
    | nil => rfl
    | cons t L ih => exact ih
  unfold Space2.eval
  rw [List.foldl_cons, List.foldl_nil, List.foldl_cons]
  simp only [hw]
  exact hn c

/-! ## Examples -/

/-- Monomials as reference functions on the domain `[0, 1]` with reference domain `[-1, 1]`. -/
noncomputable def exSpace2 (composite : Bool) (p : ℕ) : Space2 where
  composite := composite
  lower _ _ := 0
  refLower _ _ := -1
  df _ _ := 2
  row _ _ k X := .c fun j => iteratedDeriv k (fun y : ℝ => ((y ^ j : ℝ) : ℂ)) X
  cols _ a := if a = 0 then 2 else 3
  phys _ a := if a = 0 then p else 3
  r2c _ _ := none

theorem exSpace2_right (b : Bool) (p : ℕ) : (exSpace2 b p).Right fun _ _ j y => ((y ^ j : ℝ) : ℂ) where
  smooth q a j m := Complex.ofRealCLM.contDiff.comp (contDiff_id.pow j)
  row q a k X j := rfl

/-- The hypotheses of `C88_eval` are met by a scalar space, `x ∂u/∂y + u` for every `u`. -/
example (u : ℕ → ℕ → ℕ → ℂ) (x : Fin 2 → ℝ) : (exSpace2 false 2).eval [[⟨![0, 1], fun x => x 0, 0⟩, ⟨![0, 0], fun _ => 1, 0⟩]] u x
    = some ((x 0 : ℂ) * partialDeriv 0 1 ((exSpace2 false 2).field (fun _ _ j y => ((y ^ j : ℝ) : ℂ)) (fun _ _ => 1) u 0) (x 0) (x 1)
      + (1 : ℝ) * partialDeriv 0 0 ((exSpace2 false 2).field (fun _ _ j y => ((y ^ j : ℝ) : ℂ)) (fun _ _ => 1) u 0) (x 0) (x 1)) := by
  rw [C88_eval _ (exSpace2_right false 2) (by intro h; simp [exSpace2] at h) (fun _ _ => rfl)]
  simp [Space2.comp, exSpace2]

/-- A vector space with two coefficients along axis 0 and three along axis 1. -/
example (u : ℕ → ℕ → ℕ → ℂ) (x : Fin 2 → ℝ) : (exSpace2 true 2).eval [[⟨![0, 0], fun _ => 1, 0⟩]] u x = none :=
  C88_composite_refuted _ rfl _ _ (Or.inl (by simp [exSpace2])) u x

end Shenfun.Eval
