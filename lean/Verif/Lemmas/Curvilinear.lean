import Verif.Spec.Coordinates
import Verif.Lemmas.FormOps
import Mathlib.LinearAlgebra.Matrix.Adjugate

/-!
# Curvilinear coordinates over a ring with commuting derivations
-/

namespace Shenfun

open Spec Matrix

variable {R : Type*} [CommRing R] {n m : ℕ}

/-- Derivation of a product over a finite set. -/
theorem derivation_prod (d : Derivation ℤ R R) {ι : Type*} [DecidableEq ι] (s : Finset ι) (f : ι → R) :
    d (∏ i ∈ s, f i) = ∑ i ∈ s, (∏ j ∈ s.erase i, f j) * d (f i) := by
  induction s using Finset.induction_on with
  | empty => simp
  | insert a s ha ih =>
    rw [Finset.prod_insert ha, Derivation.leibniz, ih, Finset.sum_insert ha, Finset.erase_insert ha, smul_eq_mul, smul_eq_mul,
      Finset.mul_sum, add_comm]
    congr 1
    refine Finset.sum_congr rfl fun i hi => ?_
    have hia : a ≠ i := fun h => ha (h ▸ hi)
    rw [Finset.erase_insert_of_ne hia, Finset.prod_insert (fun h => ha (Finset.mem_of_mem_erase h))]
    ring

/-- Jacobi's formula. -/
theorem derivation_det (d : Derivation ℤ R R) (M : Matrix (Fin n) (Fin n) R) :
    d M.det = ∑ i, ∑ j, M.adjugate i j * d (M j i) := by
  have h1 : ∀ i, ∑ j, M.adjugate i j * d (M j i) = (M.updateCol i fun j => d (M j i)).det := by
    intro i
    rw [← cramer_apply, cramer_eq_adjugate_mulVec]
    rfl
  simp only [h1, det_apply', map_sum, Derivation.leibniz, derivation_prod, smul_eq_mul]
  rw [Finset.sum_comm]
  refine Finset.sum_congr rfl fun σ _ => ?_
  have h2 : d ((Equiv.Perm.sign σ : ℤ) : R) = 0 := d.map_intCast _
  rw [h2, mul_zero, add_zero, Finset.mul_sum]
  refine Finset.sum_congr rfl fun i _ => ?_
  rw [← Finset.mul_prod_erase Finset.univ _ (Finset.mem_univ i), updateCol_self]
  rw [show ∏ x ∈ Finset.univ.erase i, M.updateCol i (fun j => d (M j i)) (σ x) x = ∏ x ∈ Finset.univ.erase i, M (σ x) x from
    Finset.prod_congr rfl fun x hx => updateCol_ne (Finset.ne_of_mem_erase hx)]
  ring

namespace FormEnv

variable (E : FormEnv R n m)

theorem b_symm (hD : Commuting E.D) (i j : Fin n) (a : Fin m) : E.D j (E.b i a) = E.D i (E.b j a) := by
  simp only [b, of_apply]; exact hD _ _ _

theorem g_eq : E.g = E.b * E.bᵀ := by
  ext i j; simp [g, mul_apply]

theorem g_symm : E.gᵀ = E.g := by rw [g_eq, transpose_mul, transpose_transpose]

theorem gt_symm : E.gtᵀ = E.gt := by unfold gt; rw [transpose_nonsing_inv, g_symm]

theorem gt_symm_apply (i j : Fin n) : E.gt i j = E.gt j i := by
  conv_lhs => rw [← gt_symm]
  rfl

theorem bt_eq : E.bt = E.gt * E.b := by
  ext i a; simp [bt, mul_apply]

variable {E}

theorem gt_mul_g (h : IsUnit E.g.det) : E.gt * E.g = 1 := nonsing_inv_mul _ h
theorem g_mul_gt (h : IsUnit E.g.det) : E.g * E.gt = 1 := mul_nonsing_inv _ h

/-- The two bases are dual. -/
theorem bt_mul_bT (h : IsUnit E.g.det) : E.bt * E.bᵀ = 1 := by
  rw [bt_eq, Matrix.mul_assoc, ← g_eq, gt_mul_g h]

theorem bt_dot_b (h : IsUnit E.g.det) (i j : Fin n) : ∑ a, E.bt i a * E.b j a = if i = j then 1 else 0 := by
  have := congrFun (congrFun (bt_mul_bT h) i) j
  simpa [mul_apply, one_apply] using this

theorem isUnit_b {E : FormEnv R n n} (h : IsUnit E.g.det) : IsUnit E.b.det := by
  rw [g_eq, det_mul, det_transpose] at h
  exact isUnit_of_mul_isUnit_left h

theorem bT_mul_bt {E : FormEnv R n n} (h : IsUnit E.g.det) : E.bᵀ * E.bt = 1 :=
  mul_eq_one_comm.1 (bt_mul_bT h)

theorem b_dot_bt {E : FormEnv R n n} (h : IsUnit E.g.det) (a c : Fin n) : ∑ i, E.b i a * E.bt i c = if a = c then 1 else 0 := by
  have := congrFun (congrFun (bT_mul_bt h) a) c
  simpa [mul_apply, one_apply] using this

/-- The Cartesian derivatives in terms of the new coordinates. -/
theorem cart_deriv {E : FormEnv R n n} (h : IsUnit E.g.det) {d : Fin n → Derivation ℤ R R} (hd : ChainRule E.D E.rv d)
    (a : Fin n) (f : R) : ∑ i, E.bt i a * E.D i f = d a f := by
  have h1 : ∀ i, E.D i f = ∑ c, E.b i c * d c f := fun i => by rw [hd i f]; rfl
  simp only [h1, Finset.mul_sum]
  rw [Finset.sum_comm]
  simp only [← mul_assoc, ← Finset.sum_mul]
  have h2 : ∀ c, ∑ i, E.bt i a * E.b i c = if c = a then 1 else 0 := fun c => by
    rw [← b_dot_bt h c a]; exact Finset.sum_congr rfl fun i _ => mul_comm _ _
  simp [h2]

/-- Derivative of the volume element. -/
theorem trace_ct (hR : Regular E) (i : Fin n) : E.D i E.sg = E.sg * ∑ j, E.ct j i j := by
  have h0 : E.sg ^ 2 = E.g.det := hR.sqrt_det
  have hsg : IsUnit E.sg := isUnit_of_mul_isUnit_left (by rw [← sq, h0]; exact hR.det)
  have h1 : E.D i (E.sg ^ 2) = 2 * E.sg * E.D i E.sg := by
    rw [Derivation.leibniz_pow]; simp; ring
  have h2 : E.D i E.g.det = E.g.det * ∑ j, ∑ k, E.gt j k * E.D i (E.g k j) := by
    have hadj : E.g.adjugate = E.g.det • E.gt := by
      have h5 : E.g.adjugate * (E.g * E.gt) = E.g.det • E.gt := by
        rw [← Matrix.mul_assoc, adjugate_mul, smul_mul, Matrix.one_mul]
      rw [← h5, g_mul_gt hR.det, Matrix.mul_one]
    rw [derivation_det, hadj, Finset.mul_sum]
    refine Finset.sum_congr rfl fun j _ => ?_
    rw [Finset.mul_sum]
    refine Finset.sum_congr rfl fun k _ => ?_
    rw [Matrix.smul_apply, smul_eq_mul]; ring
  have h3 : ∑ j, ∑ k, E.gt j k * E.D i (E.g k j) = 2 * ∑ j, E.ct j i j := by
    have e1 : ∀ j k, E.D i (E.g k j) = ∑ a, (E.b j a * E.D i (E.b k a) + E.b k a * E.D i (E.b j a)) := by
      intro j k
      rw [g, of_apply, map_sum]
      refine Finset.sum_congr rfl fun a _ => ?_
      rw [Derivation.leibniz, smul_eq_mul, smul_eq_mul]; ring
    have e2 : ∀ j, E.ct j i j = ∑ k, ∑ a, E.gt j k * (E.b k a * E.D i (E.b j a)) := by
      intro j
      rw [ct, Finset.sum_comm]
      refine Finset.sum_congr rfl fun a _ => ?_
      rw [bt, of_apply, Finset.mul_sum, b_symm E hR.comm i j]
      refine Finset.sum_congr rfl fun k _ => ?_
      ring
    have e3 : ∑ j, ∑ k, ∑ a, E.gt j k * (E.b j a * E.D i (E.b k a)) = ∑ j, ∑ k, ∑ a, E.gt j k * (E.b k a * E.D i (E.b j a)) := by
      rw [Finset.sum_comm]
      refine Finset.sum_congr rfl fun j _ => Finset.sum_congr rfl fun k _ => Finset.sum_congr rfl fun a _ => ?_
      rw [gt_symm_apply]
    simp only [e1, Finset.mul_sum, mul_add, Finset.sum_add_distrib, e2]
    rw [e3]
    simp only [two_mul, Finset.sum_add_distrib]
  rw [← h0] at h2
  rw [h1, h3] at h2
  have h4 : 2 * E.sg * E.D i E.sg = 2 * E.sg * (E.sg * ∑ j, E.ct j i j) := by rw [h2]; ring
  exact (hR.two.mul hsg).mul_left_cancel h4

/-- Derivatives of the basis vectors. -/
theorem deriv_b {E : FormEnv R n n} (h : IsUnit E.g.det) (k l a : Fin n) : ∑ i, E.b i a * E.ct i k l = E.D l (E.b k a) := by
  simp only [ct, Finset.mul_sum]
  rw [Finset.sum_comm]
  have h1 : ∀ c, ∑ i, E.b i a * (E.D l (E.b k c) * E.bt i c) = E.D l (E.b k c) * if a = c then 1 else 0 := by
    intro c
    rw [← b_dot_bt h, Finset.mul_sum]
    exact Finset.sum_congr rfl fun i _ => by ring
  simp [h1]

/-- In Cartesian coordinates the Christoffel symbols vanish. -/
theorem ct_cart (hR : Regular E) (hg : E.g = 1) (k i j : Fin n) : E.ct k i j = 0 := by
  have hbt : E.bt = E.b := by
    rw [bt_eq, gt, hg, inv_one, Matrix.one_mul]
  have hs : ∀ i j k, (∑ a, E.D j (E.b i a) * E.b k a) = ∑ a, E.D i (E.b j a) * E.b k a := fun i j k =>
    Finset.sum_congr rfl fun a _ => by rw [b_symm E hR.comm i j]
  have ha : ∀ i j k, (∑ a, E.D j (E.b i a) * E.b k a) = -∑ a, E.D j (E.b k a) * E.b i a := by
    intro i j k
    have h1 : E.D j (E.g i k) = 0 := by
      rw [hg, one_apply]; split_ifs <;> simp
    rw [g, of_apply, map_sum] at h1
    simp only [Derivation.leibniz, smul_eq_mul, Finset.sum_add_distrib] at h1
    have e1 : ∑ x, E.b i x * E.D j (E.b k x) = ∑ a, E.D j (E.b k a) * E.b i a :=
      Finset.sum_congr rfl fun a _ => mul_comm _ _
    have e2 : ∑ x, E.b k x * E.D j (E.b i x) = ∑ a, E.D j (E.b i a) * E.b k a :=
      Finset.sum_congr rfl fun a _ => mul_comm _ _
    rw [e1, e2] at h1
    linear_combination h1
  have key : 2 * (∑ a, E.D j (E.b i a) * E.b k a) = 2 * 0 := by
    have e1 := ha i j k
    rw [hs k j i, ha j k i, hs i k j, ha k i j, hs j i k] at e1
    linear_combination e1
  unfold ct
  rw [hbt]
  exact hR.two.mul_left_cancel key

theorem gt_cart (hg : E.g = 1) : E.gt = 1 := by unfold gt; rw [hg, inv_one]

theorem hi_eq (i : Fin n) : E.hi i = E.sqrt (E.g i i) := by
  unfold hi; congr 1; rw [g, of_apply]; exact Finset.sum_congr rfl fun a _ => sq _

theorem hi_sq (hR : Regular E) (i : Fin n) : E.hi i ^ 2 = E.g i i := by rw [hi_eq]; exact hR.sqrt_diag i

theorem isUnit_hi (hR : Regular E) (i : Fin n) : IsUnit (E.hi i) :=
  isUnit_of_mul_isUnit_left (by rw [← sq, hi_sq hR]; exact hR.diag i)

theorem isUnit_sg (hR : Regular E) : IsUnit E.sg :=
  isUnit_of_mul_isUnit_left (by rw [← sq, show E.sg ^ 2 = E.g.det from hR.sqrt_det]; exact hR.det)

theorem hi_cart (hR : Regular E) (hc : E.cart = true) (i : Fin n) : E.hi i = 1 := by
  rw [hi_eq, (hR.cart hc).1, one_apply_eq, (hR.cart hc).2]

/-- Regular coordinates have Cartesian partial derivatives. -/
theorem exists_chainRule {E : FormEnv R n n} (h : IsUnit E.g.det) : ∃ d : Fin n → Derivation ℤ R R, ChainRule E.D E.rv d := by
  refine ⟨fun a => ∑ j, E.bt j a • E.D j, fun i f => ?_⟩
  have h1 : ∀ a, (∑ j, E.bt j a • E.D j) f = ∑ j, E.bt j a * E.D j f := by
    intro a
    exact (map_sum ({ toFun := fun δ : Derivation ℤ R R => δ f, map_zero' := rfl, map_add' := fun _ _ => rfl } :
      Derivation ℤ R R →+ R) (fun j => E.bt j a • E.D j) Finset.univ)
  simp only [h1, Finset.mul_sum]
  rw [Finset.sum_comm]
  simp only [← mul_assoc, ← Finset.sum_mul]
  have h2 : ∀ j, ∑ a, E.D i (E.rv a) * E.bt j a = if j = i then 1 else 0 := fun j => by
    rw [← bt_dot_b h j i]; exact Finset.sum_congr rfl fun a _ => mul_comm _ _
  simp [h2]

/-- The Cartesian partial derivatives commute. -/
theorem commuting_of_chainRule {E : FormEnv R n n} (h : IsUnit E.g.det) (hc : Commuting E.D)
    {d : Fin n → Derivation ℤ R R} (hd : ChainRule E.D E.rv d) : Commuting d := by
  intro a0 c0 f
  set B : Matrix (Fin n) (Fin n) R := Matrix.of fun c a => d c (d a f) - d a (d c f) with hB
  have h1 : ∀ i j, E.D i (E.D j f) = ∑ a, E.D i (E.b j a) * d a f + ∑ c, ∑ a, E.b i c * d c (d a f) * E.b j a := by
    intro i j
    rw [hd j f, map_sum, Finset.sum_comm, ← Finset.sum_add_distrib]
    refine Finset.sum_congr rfl fun a _ => ?_
    rw [Derivation.leibniz, smul_eq_mul, smul_eq_mul, hd i (d a f), Finset.mul_sum, add_comm]
    congr 1
    · rw [mul_comm]; rfl
    · exact Finset.sum_congr rfl fun c _ => by simp only [b, of_apply]; ring
  have h2 : E.b * B * E.bᵀ = 0 := by
    ext i j
    have e1 := h1 i j
    have e2 := h1 j i
    have e3 : ∀ a, E.D i (E.b j a) = E.D j (E.b i a) := fun a => b_symm E hc j i a
    simp only [e3] at e1
    have e4 := hc i j f
    have e5 : (E.b * B * E.bᵀ) i j = ∑ c, ∑ a, E.b i c * d c (d a f) * E.b j a - ∑ c, ∑ a, E.b j c * d c (d a f) * E.b i a := by
      simp only [mul_apply, Finset.sum_mul, transpose_apply, hB, of_apply]
      rw [Finset.sum_comm]
      conv_rhs => rw [Finset.sum_comm (f := fun c a => E.b j c * d c (d a f) * E.b i a)]
      rw [← Finset.sum_sub_distrib]
      refine Finset.sum_congr rfl fun c _ => ?_
      rw [← Finset.sum_sub_distrib]
      exact Finset.sum_congr rfl fun a _ => by ring
    rw [e5, Matrix.zero_apply]
    linear_combination e4 - e1 + e2
  have h3 : B = 0 := by
    have hu := isUnit_b h
    have e1 : E.b⁻¹ * (E.b * B * E.bᵀ) * (E.bᵀ)⁻¹ = B := by
      rw [Matrix.mul_assoc E.b, nonsing_inv_mul_cancel_left _ _ hu, mul_nonsing_inv_cancel_right _ _ (by rwa [det_transpose])]
    rw [← e1, h2]; simp
  have h4 := congrFun (congrFun h3 a0) c0
  simp only [hB, of_apply, Matrix.zero_apply] at h4
  exact sub_eq_zero.1 h4

end FormEnv


end Shenfun
