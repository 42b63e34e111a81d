import Verif.Props.Curvilinear
import Verif.Lemmas.Smooth
import Mathlib.LinearAlgebra.Matrix.Notation

/-!
# C31, C32, C57: coordinates that meet the hypotheses, and places where the operators are wrong
-/

namespace Shenfun

open Spec Matrix Smooth

/-- The coordinates `x = e^s cos θ, y = e^s sin θ, z` on smooth functions, in orthonormal or covariant basis, with and without
sympy recognising that they are orthogonal. -/
noncomputable def logCyl (orth normal : Bool) : FormEnv (Smooth 3) 3 3 where
  D := D
  rv := ![exp 0 * cos 1, exp 0 * sin 1, coord 2]
  isZero := isZero
  sqrt := Smooth.sqrt
  cart := false
  orth := orth
  normal := normal

theorem logCyl_b (o nm : Bool) : (logCyl o nm).b =
    !![exp 0 * cos 1, exp 0 * sin 1, 0; -(exp 0 * sin 1), exp 0 * cos 1, 0; 0, 0, 1] := by
  refine Matrix.ext fun i j => ?_
  fin_cases i <;> fin_cases j <;>
    simp [FormEnv.b, logCyl, Derivation.leibniz, D_exp, D_cos, D_sin, D_coord, mul_comm]

theorem logCyl_g (o nm : Bool) : (logCyl o nm).g = Matrix.diagonal ![exp 0 ^ 2, exp 0 ^ 2, 1] := by
  rw [FormEnv.g_eq, logCyl_b]
  have h := sin_sq_add_cos_sq (n := 3) 1
  refine Matrix.ext fun i j => ?_
  fin_cases i <;> fin_cases j <;> simp [Matrix.mul_apply, Fin.sum_univ_three, Matrix.diagonal] <;>
    first
    | linear_combination exp 0 ^ 2 * h
    | ring

theorem logCyl_det (o nm : Bool) : (logCyl o nm).g.det = (exp 0 ^ 2) ^ 2 := by
  rw [logCyl_g, Matrix.det_diagonal, Fin.prod_univ_three]; simp; ring

theorem sqrt_exp_sq {n : ℕ} (i : Fin n) : Smooth.sqrt (exp i ^ 2) = exp i := sqrt_sq _ (exp_pos i)

theorem sqrt_one' {n : ℕ} : Smooth.sqrt (1 : Smooth n) = 1 := by
  have h := sqrt_sq (1 : Smooth n) (fun x => by show (0:ℝ) ≤ 1; norm_num)
  rwa [one_pow] at h

theorem sqrt_exp_four {n : ℕ} (i : Fin n) : Smooth.sqrt ((exp i ^ 2) ^ 2) = exp i ^ 2 :=
  sqrt_sq _ (fun x => by show 0 ≤ ((exp i).1 x) ^ 2; positivity)

theorem logCyl_regular (o nm : Bool) : Regular (logCyl o nm) where
  comm := commuting
  zero a h := by simpa [logCyl, isZero] using h
  two := isUnit_two
  det := by rw [logCyl_det]; exact ((isUnit_exp 0).pow 2).pow 2
  sqrt_det := by
    rw [logCyl_det]
    show Smooth.sqrt ((exp 0 ^ 2) ^ 2) ^ 2 = _
    rw [sqrt_exp_four]
  sqrt_diag i := by
    rw [logCyl_g]
    show Smooth.sqrt _ ^ 2 = _
    fin_cases i <;> simp [sqrt_exp_sq, sqrt_one']
  diag i := by
    rw [logCyl_g]
    fin_cases i <;> simp [isUnit_exp]
  cart h := by simp [logCyl] at h
  orth _ i j hij := by rw [logCyl_g]; exact Matrix.diagonal_apply_ne _ hij

theorem logCyl_right (o nm : Bool) : (logCyl o nm).sqrt (logCyl o nm).g.det =
    (Matrix.of fun i a => (logCyl o nm).D i ((logCyl o nm).rv a) : Matrix (Fin 3) (Fin 3) (Smooth 3)).det := by
  have h := sin_sq_add_cos_sq (n := 3) 1
  rw [logCyl_det]
  show Smooth.sqrt ((exp 0 ^ 2) ^ 2) = (logCyl o nm).b.det
  rw [sqrt_exp_four, logCyl_b, Matrix.det_fin_three]
  simp
  linear_combination (-(exp 0) ^ 2) * h

/-- The hypotheses of the C57 theorems hold for cylindrical coordinates: all four combinations of branches are covered. -/
example (o nm : Bool) : ∃ d : Fin 3 → Derivation ℤ (Smooth 3) (Smooth 3), ChainRule (logCyl o nm).D (logCyl o nm).rv d ∧
    (∀ f : Smooth 3, value D (fun _ => f) ((logCyl o nm).div ((logCyl o nm).grad (FExpr.ofBasis 1 0))) 0 =
      ∑ a, d a (d a f)) ∧
    ∀ (u : ℕ → Smooth 3) (a : Fin 3), cartesian (logCyl o nm) (value D u ((logCyl o nm).curl3 (FExpr.ofBasis 3 0))) a =
      d (a+1) (cartesian (logCyl o nm) u (a+2)) - d (a+2) (cartesian (logCyl o nm) u (a+1)) := by
  obtain ⟨d, hd⟩ := FormEnv.exists_chainRule (logCyl_regular o nm).det
  refine ⟨d, hd, fun f => ?_, fun u a => ?_⟩
  · have h := C57_div_grad (logCyl_regular o nm) (by norm_num) hd (fun _ => f) (FExpr.ofBasis 1 0) rfl
    rw [C31_ofBasis (D := (logCyl o nm).D) (fun _ => f) 1 0 0 (by norm_num)] at h
    exact h
  · have h := (C57_curl3 (logCyl_regular o nm) hd (logCyl_right o nm) u (FExpr.ofBasis 3 0)).2 a
    have h1 : ∀ c, cartesian (logCyl o nm) (value (logCyl o nm).D u (FExpr.ofBasis 3 0)) c = cartesian (logCyl o nm) u c := by
      intro c
      unfold cartesian
      refine Finset.sum_congr rfl fun i _ => ?_
      rw [C31_ofBasis (D := (logCyl o nm).D) u 3 0 i i.2, zero_add]
    rw [h1, h1] at h
    exact h

/-! ## Where the operators are wrong -/

/-- `psi = (p, q, r)` with position vector `(q, p, r)`: left-handed coordinates with the identity as metric tensor. -/
noncomputable def swapped : FormEnv (Smooth 3) 3 3 where
  D := D
  rv := ![coord 1, coord 0, coord 2]
  isZero := isZero
  sqrt := Smooth.sqrt
  cart := true
  orth := true
  normal := false

theorem swapped_b : swapped.b = !![0, 1, 0; 1, 0, 0; 0, 0, 1] := by
  refine Matrix.ext fun i j => ?_
  fin_cases i <;> fin_cases j <;> simp [FormEnv.b, swapped, D_coord]

theorem swapped_g : swapped.g = 1 := by
  rw [FormEnv.g_eq, swapped_b]
  refine Matrix.ext fun i j => ?_
  fin_cases i <;> fin_cases j <;> simp [Matrix.mul_apply, Fin.sum_univ_three]

theorem swapped_regular : Regular swapped where
  comm := commuting
  zero a h := by simpa [swapped, isZero] using h
  two := isUnit_two
  det := by rw [swapped_g, Matrix.det_one]; exact isUnit_one
  sqrt_det := by rw [swapped_g, Matrix.det_one]; show Smooth.sqrt 1 ^ 2 = _; rw [sqrt_one', one_pow]
  sqrt_diag i := by rw [swapped_g, Matrix.one_apply_eq]; show Smooth.sqrt 1 ^ 2 = _; rw [sqrt_one', one_pow]
  diag i := by rw [swapped_g, Matrix.one_apply_eq]; exact isUnit_one
  cart _ := ⟨swapped_g, sqrt_one'⟩
  orth _ i j hij := by rw [swapped_g, Matrix.one_apply_ne hij]

/-- `curl` has the wrong sign in left-handed coordinates: the vector field `(0, x, 0)` has curl `(0, 0, 1)`, and the third
component computed is `-1`. -/
theorem C57_curl3_left_handed_wrong : ∃ (E : FormEnv (Smooth 3) 3 3) (d : Fin 3 → Derivation ℤ (Smooth 3) (Smooth 3))
    (u : ℕ → Smooth 3), Regular E ∧ ChainRule E.D E.rv d ∧
    cartesian E (value E.D u (FExpr.ofBasis 3 0)) = ![0, E.rv 0, 0] ∧
    cartesian E (value E.D u (E.curl3 (FExpr.ofBasis 3 0))) 2 = -1 := by
  have hu : ∀ (u : ℕ → Smooth 3) c, cartesian swapped (value swapped.D u (FExpr.ofBasis 3 0)) c =
      ![u 1, u 0, u 2] c := by
    intro u c
    unfold cartesian basisVector
    have hn : swapped.normal = false := rfl
    simp only [hn, Bool.false_eq_true, if_false]
    have hb : ∀ i a, swapped.D i (swapped.rv a) = swapped.b i a := fun _ _ => rfl
    simp only [hb, swapped_b, Fin.sum_univ_three]
    have h3 : ∀ i : Fin 3, value swapped.D u (FExpr.ofBasis 3 0) i = u i := fun i => by
      rw [C31_ofBasis (D := swapped.D) u 3 0 i i.2, zero_add]
    rw [h3, h3, h3]
    fin_cases c <;> simp
  refine ⟨swapped, ![D 1, D 0, D 2], fun i => if i = 0 then coord 1 else 0, swapped_regular, ?_, ?_, ?_⟩
  · intro i f
    have hb : ∀ i a, swapped.D i (swapped.rv a) = swapped.b i a := fun _ _ => rfl
    simp only [hb, swapped_b, Fin.sum_univ_three]
    fin_cases i <;> simp [swapped]
  · funext c
    rw [hu]
    fin_cases c <;> simp [swapped]
  · have hd : ChainRule swapped.D swapped.rv ![D 1, D 0, D 2] := by
      intro i f
      have hb : ∀ i a, swapped.D i (swapped.rv a) = swapped.b i a := fun _ _ => rfl
      simp only [hb, swapped_b, Fin.sum_univ_three]
      fin_cases i <;> simp [swapped]
    rw [C57_curl3_left_handed swapped_regular hd (by
      rw [swapped_g, Matrix.det_one]
      show Smooth.sqrt 1 = -swapped.b.det
      rw [sqrt_one', swapped_b, Matrix.det_fin_three]; simp)]
    rw [hu, hu]
    have i1 : (2 : Fin 3) + 1 = 0 := rfl
    have i2 : (2 : Fin 3) + 2 = 1 := rfl
    rw [i1, i2]
    simp [D_coord]

/-- `x = e^s` in one dimension, covariant basis. -/
noncomputable def logLine : FormEnv (Smooth 1) 1 1 where
  D := D
  rv := ![exp 0]
  isZero := isZero
  sqrt := Smooth.sqrt
  cart := false
  orth := true
  normal := false

theorem logLine_b : logLine.b = !![exp 0] := by
  refine Matrix.ext fun i j => ?_
  fin_cases i; fin_cases j; simp [FormEnv.b, logLine, D_exp]

theorem logLine_g : logLine.g = !![exp 0 ^ 2] := by
  rw [FormEnv.g_eq, logLine_b]
  refine Matrix.ext fun i j => ?_
  fin_cases i; fin_cases j; simp [Matrix.mul_apply, sq]

theorem logLine_regular : Regular logLine where
  comm := commuting
  zero a h := by simpa [logLine, isZero] using h
  two := isUnit_two
  det := by rw [logLine_g, Matrix.det_fin_one]; exact (isUnit_exp 0).pow 2
  sqrt_det := by rw [logLine_g, Matrix.det_fin_one]; show Smooth.sqrt (exp 0 ^ 2) ^ 2 = _; rw [sqrt_exp_sq]; rfl
  sqrt_diag i := by
    rw [logLine_g]; fin_cases i; show Smooth.sqrt (exp 0 ^ 2) ^ 2 = _; rw [sqrt_exp_sq]; rfl
  diag i := by rw [logLine_g]; fin_cases i; exact (isUnit_exp 0).pow 2
  cart h := by simp [logLine] at h
  orth _ i j hij := absurd (Subsingleton.elim i j) hij

theorem logLine_gt : logLine.gt 0 0 = expNeg 0 ^ 2 := by
  have h := congrFun (congrFun (FormEnv.g_mul_gt logLine_regular.det) 0) 0
  rw [Matrix.mul_apply, logLine_g] at h
  simp at h
  have h2 := exp_mul_expNeg (n := 1) 0
  have h3 : exp 0 ^ 2 * expNeg 0 ^ 2 = (1 : Smooth 1) := by rw [← mul_pow, h2, one_pow]
  linear_combination (expNeg 0 ^ 2) * h - (logLine.gt 0 0) * h3

theorem D_expNeg {n : ℕ} (i : Fin n) : D i (expNeg i) = -expNeg i := by
  have h := D_ofCoord i i (fun t => Real.exp (-t)) (fun t => -Real.exp (-t)) (Real.contDiff_exp.comp contDiff_neg)
    (Real.contDiff_exp.comp contDiff_neg).neg (fun t => by
      have := (Real.hasDerivAt_exp (-t)).comp t (hasDerivAt_neg t)
      simpa [Function.comp_def] using this)
  rw [if_pos rfl] at h
  exact h

/-- In one dimension `grad(grad(u))` takes the first gradient for a scalar, and the Christoffel term is missing in the covariant
basis: the second gradient of `u = x` is not zero. -/
theorem C57_grad_grad_line_wrong : ∃ (E : FormEnv (Smooth 1) 1 1), Regular E ∧ E.normal = false ∧
    cartesian2 E (value E.D (fun _ => E.rv 0) (E.grad (E.grad (FExpr.ofBasis 1 0)))) 0 0 ≠ 0 ∧
    ∀ d, ChainRule E.D E.rv d → d 0 (d 0 (E.rv 0)) = 0 := by
  have hb : ∀ i a, logLine.D i (logLine.rv a) = logLine.b i a := fun _ _ => rfl
  refine ⟨logLine, logLine_regular, rfl, ?_, ?_⟩
  · obtain ⟨h1, h2⟩ := FormEnv.grad_scalar_raw logLine_regular (fun _ => logLine.rv 0) (FExpr.ofBasis 1 0) rfl
    obtain ⟨h3, h4⟩ := FormEnv.grad_scalar_raw logLine_regular (fun _ => logLine.rv 0) _ h1
    unfold cartesian2 basisVector
    have hn : logLine.normal = false := rfl
    have hs : logLine.sc 0 = 1 := rfl
    simp only [hn, Bool.false_eq_true, if_false, hb, logLine_b, Fin.sum_univ_one]
    have e1 : value logLine.D (fun _ => logLine.rv 0) (logLine.grad (logLine.grad (FExpr.ofBasis 1 0)))
        (((0 : Fin 1) : ℕ) * 1 + ((0 : Fin 1) : ℕ)) = _ := h4 0
    rw [e1, Fin.sum_univ_one, hs, mul_one]
    have e2 : value logLine.D (fun _ => logLine.rv 0) (logLine.grad (FExpr.ofBasis 1 0)) 0 = _ := h2 0
    rw [e2, Fin.sum_univ_one, hs, mul_one, C31_ofBasis (D := logLine.D) _ 1 0 0 (by norm_num), hb, logLine_b, logLine_gt]
    have h5 := exp_mul_expNeg (n := 1) 0
    have h6 : expNeg 0 ^ 2 * !![exp 0] 0 0 = (expNeg 0 : Smooth 1) := by
      show expNeg 0 ^ 2 * exp 0 = _
      linear_combination expNeg 0 * h5
    rw [h6]
    have h7 : logLine.D 0 (expNeg 0) = -expNeg 0 := D_expNeg 0
    rw [h7]
    intro h8
    have h9 : expNeg 0 ^ 2 * -expNeg 0 * exp 0 * exp 0 = (-expNeg 0 : Smooth 1) := by
      linear_combination (-(expNeg 0) ^ 2 * exp 0 - expNeg 0) * h5
    have h10 : (-expNeg 0 : Smooth 1) = 0 := h9.symm.trans h8
    have h11 : (0 : Smooth 1) = 1 := by
      rw [← h5, neg_eq_zero.1 h10, mul_zero]
    exact zero_ne_one h11
  · intro d hd
    have h1 := hd 0 (logLine.rv 0)
    rw [Fin.sum_univ_one] at h1
    have hu : IsUnit (logLine.D 0 (logLine.rv 0)) := by
      rw [hb, logLine_b]; exact isUnit_exp 0
    have h2 : d 0 (logLine.rv 0) = 1 := hu.mul_left_cancel (by rw [← h1, mul_one])
    rw [h2]; exact (d 0).map_one_eq_zero

/-- After `curl(grad(u))` in Cartesian coordinates, whose three components have lost all their terms, `expr_rank` raises: the
result cannot be indexed or differentiated further although its value is the zero vector. -/
theorem C32_curl_grad_no_rank {R : Type*} [CommRing R] (E : FormEnv R 3 3) (hc : E.cart = true) (hn : E.normal = false)
    (h0 : E.isZero 0 = true) (h01 : E.isZero 1 = false) : (E.curl3 (E.grad (FExpr.ofBasis 1 0))) = [[], [], []] ∧
      (E.curl3 (E.grad (FExpr.ofBasis 1 0))).exprRank = none := by
  have h1 : E.curl3 (E.grad (FExpr.ofBasis 1 0)) = [[], [], []] := by
    have hr : List.range 1 = [0] := rfl
    have hf : List.finRange 3 = [0, 1, 2] := rfl
    have a1 : Function.update (Function.update (fun _ => 0 : Fin 3 → ℕ) 1 1) 2 1 =
        Function.update (Function.update (fun _ => 0 : Fin 3 → ℕ) 2 1) 1 1 := by decide
    have a2 : Function.update (Function.update (fun _ => 0 : Fin 3 → ℕ) 2 1) 0 1 =
        Function.update (Function.update (fun _ => 0 : Fin 3 → ℕ) 0 1) 2 1 := by decide
    have a3 : Function.update (Function.update (fun _ => 0 : Fin 3 → ℕ) 0 1) 1 1 =
        Function.update (Function.update (fun _ => 0 : Fin 3 → ℕ) 1 1) 0 1 := by decide
    have hz : (0 : Fin 3 → ℕ) = fun _ => 0 := rfl
    simp [FormEnv.grad, FormEnv.curl3, hc, hn, FExpr.ofBasis, FormEnv.fromComponents, FormEnv.his, FormEnv.dx1, FExpr.item,
      FExpr.sub, FExpr.simplify, FExpr.simplifyStep, FExpr.mul, hr, hf, h0, h01, hz, a1, a2, a3, List.findIdx?_cons]
  refine ⟨h1, ?_⟩
  rw [h1]; rfl

/-- Cartesian coordinates in any dimension meet the hypotheses of the C32 theorems. -/
noncomputable def cartEnv (n : ℕ) (normal : Bool) : FormEnv (Smooth n) n n where
  D := D
  rv := coord
  isZero := isZero
  sqrt := Smooth.sqrt
  cart := true
  orth := true
  normal := normal

theorem cartEnv_regular (n : ℕ) (nm : Bool) : Regular (cartEnv n nm) := by
  have hg : (cartEnv n nm).g = 1 := by
    rw [FormEnv.g_eq]
    have hb : (cartEnv n nm).b = 1 := by
      refine Matrix.ext fun i j => ?_
      show D i (coord j) = _
      rw [D_coord, Matrix.one_apply]
    rw [hb, Matrix.transpose_one, Matrix.mul_one]
  refine ⟨commuting, fun a h => by simpa [cartEnv, isZero] using h, isUnit_two, ?_, ?_, fun i => ?_, fun i => ?_,
    fun _ => ⟨hg, sqrt_one'⟩, fun _ i j hij => ?_⟩
  · rw [hg, Matrix.det_one]; exact isUnit_one
  · rw [hg, Matrix.det_one]; show Smooth.sqrt 1 ^ 2 = _; rw [sqrt_one', one_pow]
  · rw [hg, Matrix.one_apply_eq]; show Smooth.sqrt 1 ^ 2 = _; rw [sqrt_one', one_pow]
  · rw [hg, Matrix.one_apply_eq]; exact isUnit_one
  · rw [hg, Matrix.one_apply_ne hij]

example (n : ℕ) (h0 : n ≠ 0) (f : Smooth n) :
    value D (fun _ => f) ((cartEnv n true).div ((cartEnv n true).grad (FExpr.ofBasis 1 0))) 0 = ∑ i : Fin n, D i (D i f) := by
  have h := C32_div_grad (cartEnv_regular n true) rfl h0 (fun _ => f) (FExpr.ofBasis 1 0) rfl
  rw [C31_ofBasis (D := (cartEnv n true).D) (fun _ => f) 1 0 0 (by norm_num)] at h
  exact h

end Shenfun
