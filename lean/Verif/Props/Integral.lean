import Verif.Spec.Integral
import Verif.Props.ChebQuadrature
import Verif.Props.Assembly
import Mathlib.MeasureTheory.Integral.Pi
import Mathlib.Algebra.MvPolynomial.Eval

/-!
# C87: `inner(c, u)` with a number is the integral over the true domain
-/

namespace Shenfun.Integral

open MeasureTheory Polynomial Spec

variable {D M : ℕ} (T : Space D M)

/-- Sympy's answer is only used when it is right, and then the measure is one as well. -/
def Space.MeasureOk : Prop := T.hiOne = true → ∀ x, T.sg x = 1

/-- In orthogonal coordinates `sqrt(det g)` is the product of the scaling factors. -/
theorem sg_orthogonal (h : T.Orthogonal) (x : Fin D → ℝ) : T.sg x = ∏ i, T.hi x i := by
  have e : (Matrix.of fun i j => ∑ k, T.b x i k * T.b x j k) = Matrix.diagonal fun i => ∑ j, T.b x i j ^ 2 := by
    ext i j
    rw [Matrix.of_apply]
    by_cases hij : i = j
    · subst hij
      rw [Matrix.diagonal_apply_eq]
      exact Finset.sum_congr rfl fun k _ => by rw [sq]
    · rw [Matrix.diagonal_apply_ne _ hij]
      exact h x i j hij
  rw [Space.sg, e, Matrix.det_diagonal]
  simp only [Space.hi]
  rw [Real.sqrt_eq_iff_mul_self_eq (Finset.prod_nonneg fun i _ => Finset.sum_nonneg fun j _ => sq_nonneg _)
    (Finset.prod_nonneg fun i _ => Real.sqrt_nonneg _), ← Finset.prod_mul_distrib]
  exact Finset.prod_congr rfl fun i _ => (Real.mul_self_sqrt (Finset.sum_nonneg fun j _ => sq_nonneg _)).symm

/-- **C87 (orthogonal coordinates).** In orthogonal coordinates the test `hi.prod() != 1` does decide correctly whether the
array has to be measured. -/
theorem C87_orthogonal (h : T.Orthogonal) (hs : T.hiOne = true → ∀ x, ∏ i, T.hi x i = 1) : T.MeasureOk := fun h1 x => by
  rw [sg_orthogonal T h, hs h1]

/-- **C87 (quadrature).** `inner(c, u)` is `c` times the sum over all quadrature points of `u` times `sqrt(det g)` times the
weights of the true domain. -/
theorem C87_quadrature (hm : T.MeasureOk) (c : ℝ) (u : (Fin D → ℕ) → ℝ) :
    T.integral c u = c * ∑ k ∈ Fintype.piFinset fun a => Finset.range (T.n a),
      u k * T.sg (T.mesh k) * ∏ a, T.w a (k a) / domainFactorR (T.lower a) (T.upper a) := by
  have e : dxND T.n T.w (if T.hiOne = true then u else T.measured u) = ∑ k ∈ Fintype.piFinset fun a => Finset.range (T.n a),
      u k * T.sg (T.mesh k) * ∏ a, T.w a (k a) := by
    rw [C62_dx]
    refine Finset.sum_congr rfl fun k _ => ?_
    split_ifs with h
    · rw [hm h, mul_one]
    · rfl
  simp only [Space.integral]
  rw [e, div_mul_eq_mul_div, mul_div_assoc, Finset.sum_div]
  congr 1
  refine Finset.sum_congr rfl fun k _ => ?_
  rw [Finset.prod_div_distrib, mul_div_assoc]

/-- One axis: an exact rule on the reference domain gives an exact rule on the true domain. -/
theorem axis_exact {n : ℕ} {x w : ℕ → ℝ} (hx : ExactRule 0 0 x w n n) {l u : ℝ} (hlu : l < u) (hr : Resolved l u)
    (p : ℝ[X]) (hp : p.degree < n) :
    ∑ k ∈ Finset.range n, w k / domainFactorR l u * p.eval ((mapTrue l u).eval (x k)) = ∫ y in l..u, p.eval y := by
  have hne : u - l ≠ 0 := by linarith
  have hdf : domainFactorR l u = 2 / (u - l) := domainFactorR_eq hr
  have hq : (p.comp (mapTrue l u)).degree < n := by
    have hd : (mapTrue l u).natDegree ≤ 1 := by
      unfold mapTrue
      split_ifs
      · simp
      · compute_degree
    by_cases h0 : p = 0
    · subst h0
      simp only [zero_comp]
      exact hp
    · refine lt_of_le_of_lt degree_le_natDegree ?_
      rw [degree_eq_natDegree h0] at hp
      have hp : p.natDegree < n := by exact_mod_cast hp
      have : (p.comp (mapTrue l u)).natDegree ≤ p.natDegree * (mapTrue l u).natDegree := natDegree_comp_le
      have h2 : p.natDegree * (mapTrue l u).natDegree ≤ p.natDegree * 1 := Nat.mul_le_mul_left _ hd
      exact_mod_cast (by omega : (p.comp (mapTrue l u)).natDegree < n)
  have h := hx _ hq
  rw [wInt_zero_zero] at h
  simp only [eval_comp] at h
  have hmap : ∀ t, (mapTrue l u).eval t = (u - l) / 2 * t + (u + l) / 2 := by
    intro t
    unfold mapTrue
    split_ifs with hc
    · obtain ⟨rfl, rfl⟩ := hc
      rw [eval_X]; ring
    · rw [hdf]
      simp
      field_simp
      ring
  have hc0 : (u - l) / 2 ≠ 0 := div_ne_zero hne two_ne_zero
  have hcv := intervalIntegral.integral_comp_mul_add (a := -1) (b := 1) (fun y => p.eval y) hc0 ((u + l) / 2)
  have e1 : (u - l) / 2 * (-1) + (u + l) / 2 = l := by ring
  have e2 : (u - l) / 2 * 1 + (u + l) / 2 = u := by ring
  rw [e1, e2] at hcv
  simp only [hmap] at h ⊢
  rw [hcv, smul_eq_mul] at h
  have h2 : ∑ k ∈ Finset.range n, w k / domainFactorR l u * p.eval ((u - l) / 2 * x k + (u + l) / 2)
      = (u - l) / 2 * ∑ k ∈ Finset.range n, w k * p.eval ((u - l) / 2 * x k + (u + l) / 2) := by
    rw [Finset.mul_sum]
    refine Finset.sum_congr rfl fun k _ => ?_
    rw [hdf]
    field_simp
  rw [h2, h, ← mul_assoc, mul_inv_cancel₀ hc0, one_mul]

/-- **C87 (exactness).** With rules that integrate polynomials of degree below the number of points (C62, C63), `inner(c, u)`
for the point values `u` of a function `f` is exactly `c` times the integral of `f` over the physical domain, whenever `f`
times `sqrt(det g)` is a polynomial of degree below the number of points in each coordinate. -/
theorem C87_exact (hm : T.MeasureOk) (hx : ∀ a, ExactRule 0 0 (T.pts a) (T.w a) (T.n a) (T.n a))
    (hlu : ∀ a, T.lower a < T.upper a) (hr : ∀ a, Resolved (T.lower a) (T.upper a)) (f : (Fin D → ℝ) → ℝ)
    (P : MvPolynomial (Fin D) ℝ) (hd : ∀ a, P.degreeOf a < T.n a) (hP : ∀ x ∈ T.box, f x * T.sg x = MvPolynomial.eval x P)
    (hP' : ∀ k, f (T.mesh k) * T.sg (T.mesh k) = MvPolynomial.eval (T.mesh k) P) (c : ℝ) :
    T.integral c (fun k => f (T.mesh k)) = c * T.physical f := by
  rw [C87_quadrature T hm]
  congr 1
  have hbox : MeasurableSet T.box := MeasurableSet.univ_pi fun a => measurableSet_Ioc
  rw [Space.physical, setIntegral_congr_fun hbox (g := fun x => MvPolynomial.eval x P) hP]
  simp only [hP', MvPolynomial.eval_eq']
  rw [integral_finsetSum]
  · simp only [Finset.sum_mul]
    rw [Finset.sum_comm]
    refine Finset.sum_congr rfl fun d hd' => ?_
    rw [integral_const_mul]
    have e1 : ∫ x in T.box, ∏ i, x i ^ d i = ∏ i, ∫ y in T.lower i..T.upper i, y ^ d i := by
      rw [Space.box, volume_pi, Measure.restrict_pi_pi,
        integral_fintype_prod_eq_prod (fun i (y : ℝ) => y ^ d i)]
      exact Finset.prod_congr rfl fun i _ => (intervalIntegral.integral_of_le (hlu i).le).symm
    rw [e1]
    have e2 : ∀ i, ∫ y in T.lower i..T.upper i, y ^ d i = ∑ k ∈ Finset.range (T.n i),
        T.w i k / domainFactorR (T.lower i) (T.upper i) * ((mapTrue (T.lower i) (T.upper i)).eval (T.pts i k)) ^ d i := by
      intro i
      have hdeg : (X ^ d i : ℝ[X]).degree < T.n i := by
        rw [degree_X_pow]
        exact_mod_cast lt_of_le_of_lt (MvPolynomial.monomial_le_degreeOf i hd') (hd i)
      have := axis_exact (hx i) (hlu i) (hr i) _ hdeg
      simp only [eval_pow, eval_X] at this
      exact this.symm
    simp only [e2]
    rw [Finset.prod_univ_sum, Finset.mul_sum]
    refine Finset.sum_congr rfl fun k _ => ?_
    rw [mul_assoc, ← Finset.prod_mul_distrib]
    congr 1
    exact Finset.prod_congr rfl fun i _ => by simp only [Space.mesh]; ring
  · intro d _
    refine Integrable.const_mul ?_ _
    have hsub : T.box ⊆ Set.univ.pi fun a => Set.Icc (T.lower a) (T.upper a) :=
      Set.pi_mono fun a _ => Set.Ioc_subset_Icc_self
    refine (ContinuousOn.integrableOn_compact (isCompact_univ_pi fun a => isCompact_Icc) ?_).mono_set hsub
    exact (continuous_finsetProd _ fun i _ => (continuous_apply i).pow _).continuousOn

/-- **C87 (arrays with several components).** `inner((c0, c1, ...), u)` is the sum over the components. -/
theorem C87_tuple (cs : List ℝ) (us : List (Space D M × ((Fin D → ℕ) → ℝ))) :
    integralTuple cs us = ((cs.zip us).map fun e => e.2.1.integral e.1 e.2.2).sum := by
  have key : ∀ (L : List (ℝ × (Space D M × ((Fin D → ℕ) → ℝ)))) (r : ℝ),
      L.foldl (fun result e => result + e.2.1.integral e.1 e.2.2) r = r + (L.map fun e => e.2.1.integral e.1 e.2.2).sum := by
    intro L
    induction L with
    | nil => simp
    | cons e L ih => intro r; rw [List.foldl_cons, ih, List.map_cons, List.sum_cons]; ring
  rw [integralTuple, key, zero_add]

/-! ## Examples -/

/-- Two Chebyshev axes with `N` Gauss points on `[0, 1] × [0, 1]`, coordinates `x + 3/5 y, 4/5 y` (`oblique`) or `x, y`. -/
noncomputable def exSpace (N : ℕ) (oblique : Bool) : Space 2 2 where
  n _ := N
  lower _ := 0
  upper _ := 1
  pts _ := chebPtsU .gc N
  w _ := chebWtsU .gc N
  b _ i := if i = 0 then ![1, 0] else if oblique then ![3/5, 4/5] else ![0, 1]
  hiOne := true

theorem exSpace_rule (N : ℕ) (o : Bool) (a : Fin 2) :
    ExactRule 0 0 ((exSpace N o).pts a) ((exSpace N o).w a) ((exSpace N o).n a) ((exSpace N o).n a) := C62_unweighted_GC N

theorem exSpace_sg (N : ℕ) (x : Fin 2 → ℝ) : (exSpace N false).sg x = 1 := by
  simp [Space.sg, exSpace, Matrix.det_fin_two, Fin.sum_univ_two]

theorem exSpace_sg_oblique (N : ℕ) (x : Fin 2 → ℝ) : (exSpace N true).sg x = 4/5 := by
  have h : (√(16/25 : ℝ)) = 4/5 := by
    rw [show (16/25 : ℝ) = (4/5)^2 by norm_num]
    exact Real.sqrt_sq (by norm_num)
  rw [← h, Space.sg]
  congr 1
  simp [exSpace, Matrix.det_fin_two, Fin.sum_univ_two]
  norm_num

/-- The hypotheses of `C87_exact` are met: the integral of `x y` over the unit square. -/
example (N : ℕ) (hN : 2 ≤ N) : (exSpace N false).integral 3 (fun k => (exSpace N false).mesh k 0 * (exSpace N false).mesh k 1)
    = 3 * (exSpace N false).physical fun x => x 0 * x 1 := by
  refine C87_exact (exSpace N false) (fun _ x => exSpace_sg N x) (exSpace_rule N false) (fun a => by simp [exSpace])
    (fun a => Or.inr (by simp [exSpace]; norm_num)) (fun x => x 0 * x 1) (MvPolynomial.X 0 * MvPolynomial.X 1) (fun a => ?_)
    (fun x _ => by rw [exSpace_sg]; simp) (fun k => by rw [exSpace_sg]; simp) 3
  refine lt_of_le_of_lt (MvPolynomial.degreeOf_mul_le a _ _) ?_
  have h : ∀ i j : Fin 2, MvPolynomial.degreeOf i (MvPolynomial.X (R := ℝ) j) = if i = j then 1 else 0 := fun i j =>
    MvPolynomial.degreeOf_X i j
  simp only [h, exSpace]
  fin_cases a <;> simp <;> omega

/-- **C87 (refuted: oblique coordinates).** With basis vectors of length one that are not orthogonal the product of the
scaling factors is one, and the array is not measured: `inner(1, Array(T, val=1))` is `1` although the area of the
parallelogram is `4/5`. -/
theorem C87_oblique_refuted (N : ℕ) (hN : 1 ≤ N) :
    (∀ x i, (exSpace N true).hi x i = 1) ∧ (exSpace N true).integral 1 (fun _ => 1) = 1
      ∧ (exSpace N true).physical (fun _ => 1) = 4/5 := by
  refine ⟨fun x i => ?_, ?_, ?_⟩
  · fin_cases i
    · simp [Space.hi, exSpace, Fin.sum_univ_two]
    · simp [Space.hi, exSpace, Fin.sum_univ_two]
      norm_num
  · have h := C87_exact (exSpace N false) (fun _ x => exSpace_sg N x) (exSpace_rule N false) (fun a => by simp [exSpace])
      (fun a => Or.inr (by simp [exSpace]; norm_num)) (fun x => 1) 1 (fun a => by
        simp only [MvPolynomial.degreeOf_one]; exact hN)
      (fun x _ => by rw [exSpace_sg]; simp) (fun k => by rw [exSpace_sg]; simp) 1
    have e : (exSpace N true).integral 1 (fun _ => 1) = (exSpace N false).integral 1 fun _ => 1 := by
      simp only [Space.integral, exSpace, if_true]
    rw [e, h, one_mul]
    simp only [Space.physical, exSpace_sg, mul_one]
    simp [Space.box, exSpace, volume_pi_pi, Measure.real]
  · simp only [Space.physical, exSpace_sg_oblique, one_mul]
    simp [Space.box, exSpace, volume_pi_pi, Measure.real]

end Shenfun.Integral
