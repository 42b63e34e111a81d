import Verif.Model.Assembly
import Verif.Spec.PhysicalForm
import Verif.Props.Recursions
import Verif.Props.Norms

/-!
# C54: matrices assembled by the stencil method are Galerkin matrices
-/

namespace Shenfun

open Polynomial Spec

/-! ## Reference domain -/

/-- Truncating `p Q_n` to the first `N` members is harmless against polynomials of degree below `N`. -/
theorem measureMatrix_spec {a b : ℝ} {gn : ℕ → ℝ} {Q : ℕ → ℝ[X]} (h : ScaledJacobi a b gn Q) (N n : ℕ) (hn : n < N)
    (p g : ℝ[X]) (hg : g.degree < N) :
    ∑ m ∈ Finset.range N, measureMatrix a b gn N p m n * wInt a b (Q m * g) = wInt a b (p * Q n * g) := by
  have hF : JacobiFamily a b Q := ⟨h.ha, h.hb, gn, h.hg, h.hQ⟩
  have key : ∀ q, ∑ m ∈ Finset.range N, (pmat (aEntry a b) q gn N N).denseAt m n * wInt a b (Q m * g) =
      wInt a b (X^q * Q n * g) := by
    intro q
    have e := C52_a h q (N + q) (n+1) n (by omega) (by omega)
    rw [e, Finset.sum_mul, wInt_sum h.ha h.hb, Finset.sum_range_add,
      Finset.sum_eq_zero (s := Finset.range q) fun m _ => ?_, add_zero]
    · refine Finset.sum_congr rfl fun m hm => ?_
      have hm' := Finset.mem_range.1 hm
      rw [mul_assoc, wInt_C_mul, denseAt_pmat (tri_aEntry a b) _ _ _ _ _ _ hm' hn,
        denseAt_pmat (tri_aEntry a b) _ _ _ _ _ _ (by omega) (by omega)]
    · rw [mul_assoc, wInt_C_mul, mul_comm (Q _) g, hF.orthogonal_lower _ g (hg.trans_le (by exact_mod_cast Nat.le_add_right N m)),
        mul_zero]
  unfold measureMatrix
  simp only [Polynomial.sum_def, Finset.sum_mul]
  rw [Finset.sum_comm]
  conv_rhs => rw [p.as_sum_support_C_mul_X_pow, Finset.sum_mul, Finset.sum_mul, wInt_sum h.ha h.hb]
  refine Finset.sum_congr rfl fun q _ => ?_
  rw [mul_assoc, mul_assoc, wInt_C_mul, ← mul_assoc, ← key q, Finset.mul_sum]
  exact Finset.sum_congr rfl fun m _ => by ring

theorem degree_basisFunction_lt {R : ℕ → ℝ[X]} (hR : ∀ n, (R n).natDegree ≤ n) (S : SM ℝ) (j r : ℕ) (N : ℕ)
    (hN : S.cols ≤ N) (hN0 : 0 < N) : (derivative^[r] (basisFunction R S j)).degree < N := by
  have h1 : (basisFunction R S j).natDegree ≤ N - 1 := by
    unfold basisFunction
    refine natDegree_sum_le_of_forall_le _ _ fun o ho => (natDegree_C_mul_le _ _).trans ((hR o).trans ?_)
    have := Finset.mem_range.1 ho
    omega
  have h2 := (natDegree_iterate_derivative (basisFunction R S j) r)
  refine lt_of_le_of_lt degree_le_natDegree ?_
  exact_mod_cast (by omega : (derivative^[r] (basisFunction R S j)).natDegree < N)

/-- **C54** (reference domain) `_assemble_stencil` with an undifferentiated test function, any polynomial measure, any
derivative of the trial function: entry `(i, j)` is `(p ψ_i, ∂^r φ_j)_w`. -/
theorem C54_reference {a b : ℝ} {gn : ℕ → ℝ} {Q R : ℕ → ℝ[X]} (h : ScaledJacobi a b gn Q)
    (hR : ∀ n, (R n).natDegree ≤ n) {Nv Nu : ℕ} (hN : Nu ≤ Nv) (K S : SM ℝ) (hK : K.cols = Nv) (hS : S.cols = Nu)
    (r : ℕ) (B : ℕ → ℕ → ℝ) (hB : ∀ m < Nv, ∀ o < Nu, B m o = wInt a b (Q m * derivative^[r] (R o))) (p : ℝ[X]) (i j : ℕ) :
    assembleStencil a b gn Nv Nu K S B p i j =
      wInt a b (p * basisFunction Q K i * derivative^[r] (basisFunction R S j)) := by
  have hsum : ∀ m < Nv, ∑ o ∈ Finset.range Nu, B m o * (S.scale * diagsEntry S.diags j o) =
      wInt a b (Q m * derivative^[r] (basisFunction R S j)) := fun m hm => by
    unfold basisFunction
    rw [hS, iterate_derivative_sum, Finset.mul_sum, wInt_sum h.ha h.hb]
    refine Finset.sum_congr rfl fun o ho => ?_
    rw [iterate_derivative_C_mul, mul_left_comm (Q m), wInt_C_mul, hB m hm o (Finset.mem_range.1 ho), mul_comm]
  rcases Nat.eq_zero_or_pos Nv with rfl | hpos
  · unfold assembleStencil basisFunction
    rw [hK]
    simp [wInt_zero]
  have hg := degree_basisFunction_lt hR S j r Nv (by omega) hpos
  set g := derivative^[r] (basisFunction R S j) with hgdef
  unfold assembleStencil
  split_ifs with hp
  · subst hp
    rw [one_mul]
    unfold basisFunction
    rw [hK, Finset.sum_mul, wInt_sum h.ha h.hb]
    refine Finset.sum_congr rfl fun n hn => ?_
    rw [mul_assoc, wInt_C_mul, ← hsum n (Finset.mem_range.1 hn), Finset.mul_sum]
    exact Finset.sum_congr rfl fun o _ => by ring
  · unfold basisFunction
    rw [hK, Finset.mul_sum, Finset.sum_mul, wInt_sum h.ha h.hb]
    refine Finset.sum_congr rfl fun n hn => ?_
    rw [show p * (C (K.scale * diagsEntry K.diags i n) * Q n) * g = C (K.scale * diagsEntry K.diags i n) * (p * Q n * g) by
      ring, wInt_C_mul, ← measureMatrix_spec h Nv n (Finset.mem_range.1 hn) p g hg, Finset.mul_sum]
    refine Finset.sum_congr rfl fun m hm => ?_
    rw [← hsum m (Finset.mem_range.1 hm), Finset.mul_sum, Finset.mul_sum]
    exact Finset.sum_congr rfl fun o _ => by ring

/-- **C54** (reference domain) With unit measure the test function may be differentiated too. -/
theorem C54_reference_unit {a b : ℝ} {Q R : ℕ → ℝ[X]} (ha : -1 < a) (hb : -1 < b) {gn : ℕ → ℝ}
    {Nv Nu : ℕ} (K S : SM ℝ) (hK : K.cols = Nv) (hS : S.cols = Nu) (t r : ℕ) (B : ℕ → ℕ → ℝ)
    (hB : ∀ m < Nv, ∀ o < Nu, B m o = wInt a b (derivative^[t] (Q m) * derivative^[r] (R o))) (i j : ℕ) :
    assembleStencil a b gn Nv Nu K S B 1 i j =
      wInt a b (derivative^[t] (basisFunction Q K i) * derivative^[r] (basisFunction R S j)) := by
  unfold assembleStencil basisFunction
  rw [if_pos rfl, hK, hS, iterate_derivative_sum, iterate_derivative_sum, Finset.sum_mul, wInt_sum ha hb]
  refine Finset.sum_congr rfl fun n hn => ?_
  rw [Finset.mul_sum, wInt_sum ha hb]
  refine Finset.sum_congr rfl fun o ho => ?_
  rw [iterate_derivative_C_mul, iterate_derivative_C_mul,
    show ∀ (c d : ℝ) (x y : ℝ[X]), C c * x * (C d * y) = C (c * d) * (x * y) by intros; rw [C_mul]; ring, wInt_C_mul,
    hB n (Finset.mem_range.1 hn) o (Finset.mem_range.1 ho)]
  ring

/-! ## True domain -/

/-- The domain factor is the ratio of the lengths: the domain has length 2 or differs from it by at least the tolerance
of the code. -/
def Resolved (l u : ℝ) : Prop := u - l = 2 ∨ (1e-12 : ℝ) ≤ |(u - l) - 2|

theorem domainFactorR_eq {l u : ℝ} (h : Resolved l u) : domainFactorR l u = 2 / (u - l) := by
  unfold domainFactorR
  rcases h with h | h
  · rw [h]; norm_num
  · rw [if_neg (by linarith)]

theorem iterate_derivative_comp_linear (c d : ℝ) (p : ℝ[X]) (r : ℕ) :
    derivative^[r] (p.comp (C c * X + C d)) = C (c^r) * (derivative^[r] p).comp (C c * X + C d) := by
  induction r generalizing p with
  | zero => simp
  | succ r ih =>
    rw [Function.iterate_succ_apply, derivative_comp, Function.iterate_succ_apply]
    have : derivative (C c * X + C d) = C c := by simp
    rw [this, iterate_derivative_C_mul, ih, ← mul_assoc, ← C_mul]
    congr 2
    ring

theorem mapTrue_eval {l u : ℝ} (hlu : l < u) (h : Resolved l u) (x : ℝ) :
    (mapTrue l u).eval ((toRef l u).eval x) = x := by
  have hne : u - l ≠ 0 := by linarith
  unfold mapTrue toRef
  split_ifs with hc
  · obtain ⟨rfl, rfl⟩ := hc
    simp; norm_num
  · rw [domainFactorR_eq h]
    simp
    field_simp
    ring

/-- The bilinear form on the true domain is the reference integral times `df^(t+r-1)`. -/
theorem physicalForm_eq {l u a b : ℝ} (hlu : l < u) (h : Resolved l u) (p ψ φ : ℝ[X]) (t r : ℕ) :
    physicalForm l u a b p ψ φ t r = (2 / (u - l)) ^ ((t + r : ℤ) - 1) *
      wInt a b (measureToReference l u p * derivative^[t] ψ * derivative^[r] φ) := by
  have hne : u - l ≠ 0 := by linarith
  have hc : (2 / (u - l) : ℝ) ≠ 0 := by positivity
  set c := 2 / (u - l) with hcdef
  set d := -(u + l) / (u - l) with hddef
  set F : ℝ → ℝ := fun y => (1 - y)^a * (1 + y)^b *
    (measureToReference l u p * derivative^[t] ψ * derivative^[r] φ).eval y with hF
  have e1 : physicalForm l u a b p ψ φ t r = ∫ x in l..u, c^(t+r) * F (c * x + d) := by
    unfold physicalForm wIntPhys
    refine intervalIntegral.integral_congr fun x _ => ?_
    have hm : p.eval x = (measureToReference l u p).eval (c * x + d) := by
      unfold measureToReference
      rw [eval_comp]
      congr 1
      have := mapTrue_eval hlu h x
      have ht : (toRef l u).eval x = c * x + d := by simp [toRef, hcdef, hddef]
      rw [ht] at this
      exact this.symm
    have ht : (toRef l u).eval x = c * x + d := by simp [toRef, hcdef, hddef]
    simp only [ht]
    rw [eval_mul, eval_mul, hm]
    unfold toRef
    rw [← hcdef, ← hddef, iterate_derivative_comp_linear, iterate_derivative_comp_linear]
    simp only [eval_mul, eval_C, eval_comp, eval_add, eval_X, hF]
    rw [pow_add]
    ring
  rw [e1, intervalIntegral.integral_const_mul, intervalIntegral.integral_comp_mul_add F hc d]
  have el : c * l + d = -1 := by rw [hcdef, hddef]; field_simp; ring
  have eu : c * u + d = 1 := by rw [hcdef, hddef]; field_simp; ring
  rw [el, eu, smul_eq_mul, ← mul_assoc]
  congr 1
  rw [zpow_sub_one₀ hc]
  congr 1

theorem scale_eq {l u : ℝ} (h : Resolved l u) (t r : ℕ) :
    (if domainFactorR l u ≠ 1 then domainFactorR l u ^ ((t + r : ℤ) - 1) else 1) = (2 / (u - l)) ^ ((t + r : ℤ) - 1) := by
  rw [domainFactorR_eq h]
  split_ifs with hc
  · rfl
  · rw [not_not.1 hc, one_zpow]

/-- **C54** The matrix assembled for the form `(v, p ∂^r u)_w` on the domain `[l, u]` has as entry `(i, j)` that form
applied to the true basis functions: any polynomial measure `p` of the true coordinate, any order `r`, any composite
bases over any Jacobi family, all sizes. -/
theorem C54_assembled {a b : ℝ} {gn : ℕ → ℝ} {Q R : ℕ → ℝ[X]} (h : ScaledJacobi a b gn Q)
    (hR : ∀ n, (R n).natDegree ≤ n) {Nv Nu : ℕ} (hN : Nu ≤ Nv) (K S : SM ℝ) (hK : K.cols = Nv) (hS : S.cols = Nu)
    (r : ℕ) (B : ℕ → ℕ → ℝ) (hB : ∀ m < Nv, ∀ o < Nu, B m o = wInt a b (Q m * derivative^[r] (R o)))
    {l u : ℝ} (hlu : l < u) (hres : Resolved l u) (p : ℝ[X]) (i j : ℕ) :
    stencilEntry a b gn Nv Nu K S B l u 0 r p i j =
      physicalForm l u a b p (basisFunction Q K i) (basisFunction R S j) 0 r := by
  unfold stencilEntry
  rw [scale_eq hres, C54_reference h hR hN K S hK hS r B hB, physicalForm_eq hlu hres]
  rfl

theorem measureToReference_one (l u : ℝ) : measureToReference l u 1 = 1 := by simp [measureToReference]

/-- **C54** With unit measure, test and trial function may both be differentiated. -/
theorem C54_assembled_unit {a b : ℝ} {gn : ℕ → ℝ} {Q R : ℕ → ℝ[X]} (ha : -1 < a) (hb : -1 < b) {Nv Nu : ℕ} (K S : SM ℝ)
    (hK : K.cols = Nv) (hS : S.cols = Nu) (t r : ℕ) (B : ℕ → ℕ → ℝ)
    (hB : ∀ m < Nv, ∀ o < Nu, B m o = wInt a b (derivative^[t] (Q m) * derivative^[r] (R o)))
    {l u : ℝ} (hlu : l < u) (hres : Resolved l u) (i j : ℕ) :
    stencilEntry a b gn Nv Nu K S B l u t r 1 i j =
      physicalForm l u a b 1 (basisFunction Q K i) (basisFunction R S j) t r := by
  unfold stencilEntry
  rw [scale_eq hres, measureToReference_one, C54_reference_unit ha hb K S hK hS t r B hB, physicalForm_eq hlu hres,
    measureToReference_one, one_mul]

/-- **C54** `assemble='exact'` on the reference domain. -/
theorem C54_exact_reference (a b : ℝ) (ψ φ : ℝ[X]) (t r : ℕ) (p : ℝ[X]) :
    exactEntry a b (-1) 1 ψ φ t r p = physicalForm (-1) 1 a b p ψ φ t r := by
  have hres : Resolved (-1) 1 := Or.inl (by norm_num)
  have hm : ∀ q, measureToReference (-1) 1 q = q := fun q => by simp [measureToReference, mapTrue]
  unfold exactEntry
  rw [scale_eq hres, physicalForm_eq (by norm_num) hres, hm, hm]
  rfl

/-- **C54** `assemble='exact'` maps the measure twice: for the constant Legendre function on `[0, 1]` and the measure `x`
the entry is 3/4 instead of 1/2. -/
theorem C54_exact_refuted : exactEntry 0 0 0 1 1 1 0 0 X = 3/4 ∧ physicalForm 0 1 0 0 X 1 1 0 0 = 1/2 := by
  have hres : Resolved 0 1 := Or.inr (by norm_num)
  have hm : mapTrue 0 1 = C (1/2) * (X + 1) := by
    unfold mapTrue
    rw [if_neg (by norm_num), domainFactorR_eq hres]
    refine Polynomial.funext fun x => ?_
    simp
  constructor
  · unfold exactEntry
    rw [scale_eq hres]
    have : ∀ x : ℝ, (measureToReference 0 1 (measureToReference 0 1 X) * derivative^[0] 1 * derivative^[0] 1).eval x =
        (x + 3) / 4 := by
      intro x
      simp [measureToReference, hm]
      ring
    simp only [this, Real.rpow_zero, one_mul]
    have hint : ∫ x in (-1:ℝ)..1, (x + 3) / 4 = 3/2 := by
      rw [intervalIntegral.integral_div, intervalIntegral.integral_add
        (by exact continuous_id.intervalIntegrable _ _) (by exact continuous_const.intervalIntegrable _ _)]
      simp; norm_num
    rw [hint]
    norm_num
  · unfold physicalForm wIntPhys
    simp

/-! ## Differentiated test functions with a measure -/

/-- What `_assemble_stencil` computes when the test function is differentiated: the derivative of the product. -/
theorem assembleStencil_product {a b : ℝ} {gn : ℕ → ℝ} {Q R : ℕ → ℝ[X]} (h : ScaledJacobi a b gn Q) {Nv Nu : ℕ}
    (K S : SM ℝ) (hK : K.cols = Nv) (hS : S.cols = Nu) (t r : ℕ) (B : ℕ → ℕ → ℝ)
    (hB : ∀ m < Nv, ∀ o < Nu, B m o = wInt a b (derivative^[t] (Q m) * derivative^[r] (R o))) (p : ℝ[X]) (hp : p ≠ 1)
    (i j : ℕ) (hi : ∀ n < Nv, n + p.natDegree < Nv ∨ diagsEntry K.diags i n = 0) :
    assembleStencil a b gn Nv Nu K S B p i j =
      wInt a b (derivative^[t] (p * basisFunction Q K i) * derivative^[r] (basisFunction R S j)) := by
  have hsum : ∀ m < Nv, ∑ o ∈ Finset.range Nu, B m o * (S.scale * diagsEntry S.diags j o) =
      wInt a b (derivative^[t] (Q m) * derivative^[r] (basisFunction R S j)) := fun m hm => by
    unfold basisFunction
    rw [hS, iterate_derivative_sum, Finset.mul_sum, wInt_sum h.ha h.hb]
    refine Finset.sum_congr rfl fun o ho => ?_
    rw [iterate_derivative_C_mul, mul_left_comm (derivative^[t] (Q m)), wInt_C_mul, hB m hm o (Finset.mem_range.1 ho), mul_comm]
  set g := derivative^[r] (basisFunction R S j) with hgdef
  unfold assembleStencil
  rw [if_neg hp]
  unfold basisFunction
  rw [hK, Finset.mul_sum, iterate_derivative_sum, Finset.sum_mul, wInt_sum h.ha h.hb]
  refine Finset.sum_congr rfl fun n hn => ?_
  have hn' := Finset.mem_range.1 hn
  rcases hi n hn' with hi | hi
  · have hexp : p * Q n = ∑ m ∈ Finset.range Nv, C (measureMatrix a b gn Nv p m n) * Q m := by
      conv_lhs => rw [p.as_sum_support_C_mul_X_pow, Finset.sum_mul]
      have : ∀ q ∈ p.support, C (p.coeff q) * X^q * Q n =
          ∑ m ∈ Finset.range Nv, C (p.coeff q * (pmat (aEntry a b) q gn Nv Nv).denseAt m n) * Q m := fun q hq => by
        have hle := le_natDegree_of_mem_supp q hq
        rw [mul_assoc, C52_a h q Nv Nv n hn' (by omega), Finset.mul_sum]
        exact Finset.sum_congr rfl fun m _ => by rw [C_mul, mul_assoc]
      rw [Finset.sum_congr rfl this, Finset.sum_comm]
      refine Finset.sum_congr rfl fun m _ => ?_
      unfold measureMatrix
      rw [Polynomial.sum_def, map_sum, Finset.sum_mul]
    rw [show p * (C (K.scale * diagsEntry K.diags i n) * Q n) = C (K.scale * diagsEntry K.diags i n) * (p * Q n) by ring,
      hexp, iterate_derivative_C_mul, iterate_derivative_sum, mul_assoc, wInt_C_mul, Finset.sum_mul, wInt_sum h.ha h.hb,
      Finset.mul_sum]
    refine Finset.sum_congr rfl fun m hm => ?_
    rw [iterate_derivative_C_mul, mul_assoc (C (measureMatrix a b gn Nv p m n)), wInt_C_mul, ← hsum m (Finset.mem_range.1 hm),
      Finset.mul_sum, Finset.mul_sum]
    exact Finset.sum_congr rfl fun o _ => by ring
  · rw [hi]
    simp [wInt_zero]

theorem legP_two : legP 2 = C (3/2) * X^2 - C (1/2) := by
  have h := jacobi_X_mul 0 0 (by norm_num) (by norm_num) 0
  rw [jacobi_one, jacobi_zero] at h
  unfold legP
  refine Polynomial.funext fun x => ?_
  have := congrArg (eval x) h
  simp at this ⊢
  norm_num at this
  linarith

theorem legP_three : legP 3 = C (5/2) * X^3 - C (3/2) * X := by
  have h := jacobi_X_mul 0 0 (by norm_num) (by norm_num) 1
  have h2 := legP_two
  unfold legP at h2 ⊢
  rw [h2, jacobi_one] at h
  refine Polynomial.funext fun x => ?_
  have := congrArg (eval x) h
  simp at this ⊢
  norm_num at this
  linarith

theorem integral_even (a b c : ℝ) : ∫ x in (-1:ℝ)..1, (a + b * x^2 + c * x^4) = 2 * a + 2 * b / 3 + 2 * c / 5 := by
  rw [intervalIntegral.integral_add ((by fun_prop : Continuous fun x : ℝ => a + b * x^2).intervalIntegrable _ _)
    ((by fun_prop : Continuous fun x : ℝ => c * x^4).intervalIntegrable _ _),
    intervalIntegral.integral_add ((by fun_prop : Continuous fun _ : ℝ => a).intervalIntegrable _ _)
    ((by fun_prop : Continuous fun x : ℝ => b * x^2).intervalIntegrable _ _),
    intervalIntegral.integral_const_mul, intervalIntegral.integral_const_mul, integral_pow, integral_pow]
  simp
  ring

/-- **C54** With a differentiated test function and a measure the stencil method is wrong: for Legendre's
`ShenDirichlet`, six quadrature points and the form `(x D v, D u)` the entry `(0, 1)` is 6 instead of 4. -/
theorem C54_test_derivative_refuted (B : ℕ → ℕ → ℝ)
    (hB : ∀ m < 6, ∀ o < 6, B m o = wInt 0 0 (derivative^[1] (legP m) * derivative^[1] (legP o))) :
    let K := stencilMatrix LegStencil.ShenDirichlet 6 2
    stencilEntry 0 0 (fun _ => 1) 6 6 K K B (-1) 1 1 1 X 0 1 = 6 ∧
      physicalForm (-1) 1 0 0 X (basisFunction legP K 0) (basisFunction legP K 1) 1 1 = 4 := by
  intro K
  have hres : Resolved (-1) 1 := Or.inl (by norm_num)
  have hm : ∀ q, measureToReference (-1) 1 q = q := fun q => by simp [measureToReference, mapTrue]
  have hent : ∀ i j : ℕ, diagsEntry K.diags i j =
      diagsEntry [((0:ℤ), stencilDiag 6 2 (.const 1)), ((2:ℤ), stencilDiag 6 2 (.const (-1)))] i j := fun i j =>
    SM.diagsEntry_perm (SM.sortD_perm _) i j
  have hdiag : ∀ i < 4, ∀ j : ℕ, diagsEntry K.diags i j = (if j = i then 1 else 0) + (if j = i + 2 then -1 else 0) := by
    intro i hi j
    rw [hent]
    simp only [diagsEntry, diagEntry, List.map_cons, List.map_nil, List.sum_cons, List.sum_nil, add_zero, stencilDiag]
    have e1 : ((j:ℤ) = i + 0) = (j = i) := propext (by omega)
    have e2 : ((j:ℤ) = i + 2) = (j = i + 2) := propext (by omega)
    simp only [e1, e2]
    norm_num
  have hsc : K.scale = 1 := rfl
  have hcols : K.cols = 6 := rfl
  have b0 : basisFunction legP K 0 = legP 0 - legP 2 := by
    unfold basisFunction
    simp only [hdiag 0 (by norm_num), hsc, hcols, Finset.sum_range_succ, Finset.sum_range_zero]
    norm_num
    ring
  have b1 : basisFunction legP K 1 = legP 1 - legP 3 := by
    unfold basisFunction
    simp only [hdiag 1 (by norm_num), hsc, hcols, Finset.sum_range_succ, Finset.sum_range_zero]
    norm_num
    ring
  have l0 : legP 0 = 1 := jacobi_zero 0 0
  have l1 : legP 1 = X := by unfold legP; rw [jacobi_one]; simp
  constructor
  · unfold stencilEntry
    rw [scale_eq hres, hm, assembleStencil_product scaledJacobi_legP K K hcols hcols 1 1 B hB X (X_ne_C 1) 0 1 (by
      intro n hn
      rw [natDegree_X, hdiag 0 (by norm_num)]
      by_cases h5 : n = 5
      · subst h5; right; norm_num
      · left; omega), b0, b1, l0, l1, legP_two, legP_three, wInt_zero_zero]
    have e : ∀ x : ℝ, (derivative^[1] (X * ((1 : ℝ[X]) - (C (3/2) * X^2 - C (1/2)))) *
        derivative^[1] ((X : ℝ[X]) - (C (5/2) * X^3 - C (3/2) * X))).eval x = 15/4 + -(45/2) * x^2 + 135/4 * x^4 := by
      intro x
      simp
      ring
    simp only [e, integral_even]
    norm_num
  · rw [physicalForm_eq (by norm_num) hres, hm, b0, b1, l0, l1, legP_two, legP_three, wInt_zero_zero]
    have e : ∀ x : ℝ, (X * derivative^[1] ((1 : ℝ[X]) - (C (3/2) * X^2 - C (1/2))) *
        derivative^[1] ((X : ℝ[X]) - (C (5/2) * X^3 - C (3/2) * X))).eval x = 0 + -(15/2) * x^2 + 45/2 * x^4 := by
      intro x
      simp
      ring
    simp only [e, integral_even]
    norm_num

/-! ## `extract_diagonal_matrix` -/

theorem le_absMax (n : ℕ) (f : ℕ → ℝ) (i : ℕ) (hi : i < n) : |f i| ≤ absMax n f := by
  unfold absMax
  have mono : ∀ (L : List ℕ) (x : ℝ), x ≤ L.foldl (fun a i => max a |f i|) x := by
    intro L
    induction L with
    | nil => intro x; exact le_rfl
    | cons y L ih => intro x; exact (le_max_left _ _).trans (ih _)
  have : ∀ (L : List ℕ) (x : ℝ), i ∈ L → |f i| ≤ L.foldl (fun a i => max a |f i|) x := by
    intro L
    induction L with
    | nil => intro x h; simp at h
    | cons y L ih =>
      intro x h
      rcases List.mem_cons.1 h with rfl | h
      · exact (le_max_right _ _).trans (mono _ _)
      · exact ih _ h
  exact this _ _ (List.mem_range.2 hi)

theorem absMax_nonneg (n : ℕ) (f : ℕ → ℝ) : 0 ≤ absMax n f := by
  unfold absMax
  have mono : ∀ (L : List ℕ) (x : ℝ), x ≤ L.foldl (fun a i => max a |f i|) x := by
    intro L
    induction L with
    | nil => intro x; exact le_rfl
    | cons y L ih => intro x; exact (le_max_left _ _).trans (ih _)
  exact mono _ _

theorem diagsEntry_map_nodup (L : List ℤ) (hL : L.Nodup) (M : ℕ → ℕ → ℝ) (i j : ℕ) :
    diagsEntry (L.map fun k => (k, fun t : ℕ => if 0 ≤ k then M t (t + k.toNat) else M (t + (-k).toNat) t)) i j =
      if (j:ℤ) - i ∈ L then M i j else 0 := by
  unfold diagsEntry
  rw [List.map_map]
  have : (fun d => diagEntry d i j) ∘ (fun k : ℤ => (k, fun t : ℕ => if 0 ≤ k then M t (t + k.toNat) else M (t + (-k).toNat) t)) =
      fun k => if k = (j:ℤ) - i then M i j else 0 := by
    funext k
    simp only [Function.comp, diagEntry]
    by_cases h : (j:ℤ) = i + k
    · rw [if_pos h, if_pos (show k = (j:ℤ) - i by omega)]
      by_cases hk : 0 ≤ k
      · simp only [if_pos hk]
        congr 1
        omega
      · simp only [if_neg hk]
        congr 1
        omega
    · rw [if_neg h, if_neg (show ¬ k = (j:ℤ) - i by omega)]
  rw [this, sum_ite_mem _ hL]

/-- **C55** Every entry of `extract_diagonal_matrix(M, lowerband, upperband, abstol, reltol)` is the entry of `M`, or it
is zero because it lies outside the given band or is at most `abstol` or at most `reltol` times the largest entry. -/
theorem C55_extract (M : ℕ → ℕ → ℝ) (rows cols : ℕ) (lower upper : Option ℕ) (abstol reltol : ℝ) (i j : ℕ)
    (hi : i < rows) (hj : j < cols) :
    (extractDiagonal M rows cols lower upper abstol reltol).denseAt i j = M i j ∨
    ((extractDiagonal M rows cols lower upper abstol reltol).denseAt i j = 0 ∧
      ((∃ b ∈ upper, i + b < j) ∨ (∃ b ∈ lower, j + b < i) ∨ |M i j| ≤ abstol ∨ |M i j| ≤ reltol * matMax rows cols M)) := by
  unfold extractDiagonal
  rw [denseAt_new _ _ _ _ _ hi hj, diagsEntry_map_nodup]
  swap
  · refine List.Nodup.filter _ (List.Nodup.map (fun x y h => ?_) List.nodup_range)
    omega
  split_ifs with hmem
  · exact Or.inl rfl
  right
  refine ⟨rfl, ?_⟩
  rw [List.mem_filter, not_and_or] at hmem
  rcases hmem with hmem | hmem
  · have hb : ∀ ub lb : ℕ, (j:ℤ) - i ∉ (List.range (lb + ub)).map (fun i : ℕ => (i:ℤ) - (lb:ℤ)) → (ub:ℤ) ≤ (j:ℤ) - i ∨ (j:ℤ) - i < -lb := by
      intro ub lb h
      by_contra hc
      exact h (List.mem_map.2 ⟨((j:ℤ) - i + lb).toNat, List.mem_range.2 (by omega), by omega⟩)
    have := hb _ _ hmem
    rcases this with h | h
    · left
      rcases upper with _ | b
      · simp only at h; omega
      · exact ⟨b, rfl, by simp only at h; omega⟩
    · right; left
      rcases lower with _ | b
      · simp only at h; omega
      · exact ⟨b, rfl, by simp only at h; omega⟩
  · right; right
    rw [decide_eq_true_eq, not_and_or, not_lt, not_lt] at hmem
    have hle : |M i j| ≤ absMax (diagLength rows cols ((j:ℤ) - i))
        (fun t : ℕ => if 0 ≤ (j:ℤ) - i then M t (t + ((j:ℤ) - i).toNat) else M (t + (-((j:ℤ) - i)).toNat) t) := by
      by_cases h : 0 ≤ (j:ℤ) - i
      · have := le_absMax (diagLength rows cols ((j:ℤ) - i))
          (fun t : ℕ => if 0 ≤ (j:ℤ) - i then M t (t + ((j:ℤ) - i).toNat) else M (t + (-((j:ℤ) - i)).toNat) t) i
          (by unfold diagLength; rw [if_pos h]; omega)
        simp only [if_pos h] at this ⊢
        rwa [show i + ((j:ℤ) - i).toNat = j by omega] at this
      · have := le_absMax (diagLength rows cols ((j:ℤ) - i))
          (fun t : ℕ => if 0 ≤ (j:ℤ) - i then M t (t + ((j:ℤ) - i).toNat) else M (t + (-((j:ℤ) - i)).toNat) t) j
          (by unfold diagLength; rw [if_neg h]; omega)
        simp only [if_neg h] at this ⊢
        rwa [show j + (-((j:ℤ) - i)).toNat = i by omega] at this
    rcases hmem with h | h
    · exact Or.inl (hle.trans h)
    · right
      have hM : |M i j| ≤ matMax rows cols M := by
        unfold matMax
        refine (le_absMax cols (fun j => M i j) j hj).trans ?_
        have := le_absMax rows (fun i => absMax cols fun j => M i j) i hi
        rwa [abs_of_nonneg (absMax_nonneg _ _)] at this
      rcases eq_or_lt_of_le (absMax_nonneg rows fun i => absMax cols fun j => M i j) with h0 | h0
      · change 0 = matMax rows cols M at h0
        rw [← h0] at hM ⊢
        simpa using hM
      · refine hle.trans ?_
        exact (div_le_iff₀ h0).1 h

/-- **C55** A matrix whose entries all lie in the band and whose nonzero entries all exceed the tolerances is reproduced
exactly. -/
theorem C55_extract_exact (M : ℕ → ℕ → ℝ) (rows cols : ℕ) (lower upper : Option ℕ) (abstol reltol : ℝ)
    (hM : ∀ i < rows, ∀ j < cols, M i j ≠ 0 → (∀ b ∈ upper, j ≤ i + b) ∧ (∀ b ∈ lower, i ≤ j + b) ∧
      abstol < |M i j| ∧ reltol * matMax rows cols M < |M i j|) (i j : ℕ) (hi : i < rows) (hj : j < cols) :
    (extractDiagonal M rows cols lower upper abstol reltol).denseAt i j = M i j := by
  rcases C55_extract M rows cols lower upper abstol reltol i j hi hj with h | ⟨h, hc⟩
  · exact h
  · by_contra hne
    have h0 : M i j ≠ 0 := fun h' => hne (by rw [h, h'])
    obtain ⟨h1, h2, h3, h4⟩ := hM i hi j hj h0
    rcases hc with ⟨b, hb, hlt⟩ | ⟨b, hb, hlt⟩ | hc | hc
    · have := h1 b hb; omega
    · have := h2 b hb; omega
    · linarith
    · linarith

example : (extractDiagonal (fun i j => if j = i + 1 then 5 else 0) 3 4 (some 0) (some 1) 1e-10 1e-10).denseAt 1 2 = 5 := by
  have e : matMax 3 4 (fun i j => if j = i + 1 then (5:ℝ) else 0) = 5 := by
    norm_num [matMax, absMax, List.range_succ]
  refine C55_extract_exact _ 3 4 (some 0) (some 1) _ _ (fun i hi j hj h => ?_) 1 2 (by norm_num) (by norm_num)
  by_cases hc : j = i + 1
  · rw [e]; simp [hc]; norm_num
  · simp [hc] at h


/-- Non-vacuity of `C54_assembled`: Chebyshev `ShenDirichlet` test and trial functions, eight points, the form
`(v, (x^2+1) D^2 u)_w` on `[0, 3]`. -/
example (i j : ℕ) :
    let K := stencilMatrix ChebStencil.ShenDirichlet 8 2
    stencilEntry (-(1/2)) (-(1/2)) (cnF (-(1/2)) (-(1/2))) 8 8 K K
        (fun m o => wInt (-(1/2)) (-(1/2)) (chebT m * derivative^[2] (chebT o))) 0 3 0 2 (X^2 + 1) i j =
      physicalForm 0 3 (-(1/2)) (-(1/2)) (X^2 + 1) (basisFunction chebT K i) (basisFunction chebT K j) 0 2 :=
  C54_assembled scaledJacobi_chebT (fun n => natDegree_le_of_degree_le (degree_chebT n).le) le_rfl _ _ rfl rfl 2 _
    (fun _ _ _ _ => rfl) (by norm_num) (Or.inr (by norm_num [abs_of_nonneg])) _ i j

end Shenfun
