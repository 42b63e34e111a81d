import Verif.Lemmas.Curvilinear

/-!
# C32, C57: `grad`, `div`, `curl` are the Cartesian operators, in every regular coordinate system
-/

namespace Shenfun

open Spec Matrix

variable {R : Type*} [CommRing R] {n m : ℕ}

namespace FormEnv

/-- Factor from stored to contravariant components. -/
noncomputable def inv (E : FormEnv R n m) (i : Fin n) : R := if E.normal then Ring.inverse (E.hi i) else 1
/-- Factor from contravariant to stored components. -/
def sc (E : FormEnv R n m) (i : Fin n) : R := if E.normal then E.hi i else 1

variable {E : FormEnv R n m}

theorem sc_mul_inv (hR : Regular E) (i : Fin n) : E.sc i * E.inv i = 1 := by
  unfold sc inv
  split_ifs
  · exact Ring.mul_inverse_cancel _ (isUnit_hi hR i)
  · exact mul_one 1

theorem basisVector_eq (i : Fin n) (a : Fin m) : basisVector E i a = E.inv i * E.b i a := by
  unfold basisVector inv
  split_ifs
  · rfl
  · rw [one_mul]; rfl

theorem inv_cart (hR : Regular E) (hc : E.cart = true) (i : Fin n) : E.inv i = 1 := by
  unfold inv; rw [hi_cart hR hc]; simp

theorem sc_cart (hR : Regular E) (hc : E.cart = true) (i : Fin n) : E.sc i = 1 := by
  unfold sc; rw [hi_cart hR hc]; simp

theorem simplify_val (hR : Regular E) (e : FExpr R n) (u : ℕ → R) (i : ℕ) :
    value E.D u (FExpr.simplify E.isZero e) i = value E.D u e i := (C31_simplify E.D u hR.zero e i).2

theorem simplify_len (E : FormEnv R n m) (e : FExpr R n) : (FExpr.simplify E.isZero e).length = e.length := by
  unfold FExpr.simplify; split_ifs <;> simp

theorem dx1_len (E : FormEnv R n m) (x : Fin n) (e : FExpr R n) : (E.dx1 x e).length = e.length := by
  unfold dx1; simp

theorem dx1_val (hR : Regular E) (x : Fin n) (e : FExpr R n) (u : ℕ → R) (i : ℕ) :
    value E.D u (E.dx1 x e) i = E.D x (value E.D u e i) := (C32_dx1 u E hR.comm hR.zero x e i).2

theorem mul_val (u : ℕ → R) (e : FExpr R n) (a : R) (i : ℕ) : value E.D u (FExpr.mul e a) i = value E.D u e i * a :=
  (C31_mul E.D u e a i).2

theorem mul_len (e : FExpr R n) (a : R) : (FExpr.mul e a).length = e.length := by simp [FExpr.mul]

theorem comp_val (u : ℕ → R) (e : FExpr R n) (i : Fin n) : value E.D u (E.comp e i) 0 = value E.D u e i * E.inv i :=
  (value_comp E.D u E e i).2

theorem comp_len (e : FExpr R n) (i : Fin n) : (E.comp e i).length = 1 := (value_comp E.D (fun _ => 0) E e i).1

theorem comp2_val (hR : Regular E) (u : ℕ → R) (e : FExpr R n) (i j : Fin n) :
    value E.D u (E.comp2 e i j) 0 = value E.D u e (i * n + j) * (E.inv i * E.inv j) := by
  rw [(value_comp2 E.D u E e i j).2]
  unfold inv
  split_ifs
  · rw [Ring.mul_inverse_rev]; ring
  · ring

theorem comp2_len (e : FExpr R n) (i j : Fin n) : (E.comp2 e i j).length = 1 := (value_comp2 E.D (fun _ => 0) E e i j).1

theorem sub_val (u : ℕ → R) (e f : FExpr R n) (h : e.length = f.length) (i : ℕ) :
    value E.D u (FExpr.sub e f) i = value E.D u e i - value E.D u f i := (C31_sub E.D u e f h i).2

theorem sub_len (e f : FExpr R n) (h : e.length = f.length) : (FExpr.sub e f).length = e.length := by simp [FExpr.sub, h]

/-- A row of the contravariant metric tensor that is not recognised as zero. -/
theorem gt_row_ne [Nontrivial R] (hR : Regular E) (j : Fin n) : ∃ l, E.isZero (E.gt l j) = false := by
  by_contra hcon
  push Not at hcon
  have h0 : ∀ l, E.gt l j = 0 := fun l => hR.zero _ (by simpa using hcon l)
  have h1 := congrFun (congrFun (g_mul_gt hR.det) j) j
  rw [mul_apply, one_apply_eq] at h1
  simp [h0] at h1

theorem unlessZero_ne_nil {sc : R} (h : E.isZero sc = false) (e : FExpr R n) : E.unlessZero sc e ≠ [] := by
  unfold unlessZero; rw [h]; simp

/-! ## Values in terms of the metric -/

/-- Gradient of a scalar. -/
theorem grad_scalar_raw [Nontrivial R] (hR : Regular E) (u : ℕ → R) (e : FExpr R n) (he : e.length = 1) :
    (E.grad e).length = n ∧ ∀ i : Fin n, value E.D u (E.grad e) i = (∑ j, E.gt j i * E.D j (value E.D u e 0)) * E.sc i := by
  unfold grad
  rw [simplify_len]
  simp only [simplify_val hR, he, gt_iff_lt, lt_irrefl, if_false]
  by_cases hc : E.cart = true
  · simp only [hc, if_true]
    have hlen : ∀ c ∈ (List.finRange n).map (fun i => E.dx1 i e), c.length = 1 := by
      intro c hc; obtain ⟨i, -, rfl⟩ := List.mem_map.1 hc; rw [dx1_len, he]
    have h := fromComponents_eq E _ hlen
    refine ⟨by rw [h.1]; simp, fun i => ?_⟩
    rw [h.2 i (by simp), his_vec _ _ _ (by simp)]
    rw [List.getElem_map, List.getElem_finRange, dx1_val hR, gt_cart (hR.cart hc).1]
    simp [one_apply, sc]
  · simp only [hc, Bool.false_eq_true, if_false]
    have hlen : ∀ c ∈ (List.finRange n).map (fun i => FExpr.sumE ((List.finRange n).flatMap
        fun j => E.unlessZero (E.gt j i) (E.dx1 j e))), c.length = 1 := by
      intro c hc
      obtain ⟨i, -, rfl⟩ := List.mem_map.1 hc
      refine length_sumE _ 1 ?_ ?_
      · intro f hf
        obtain ⟨j, -, hj⟩ := List.mem_flatMap.1 hf
        rw [mem_unlessZero E hj, dx1_len, he]
      · obtain ⟨l, hl⟩ := gt_row_ne hR i
        intro hnil
        rw [List.flatMap_eq_nil_iff] at hnil
        exact unlessZero_ne_nil hl _ (hnil l (List.mem_finRange l))
    have h := fromComponents_eq E _ hlen
    refine ⟨by rw [h.1]; simp, fun i => ?_⟩
    rw [h.2 i (by simp), his_vec _ _ _ (by simp)]
    rw [List.getElem_map, List.getElem_finRange, value_sumE _ _ _ 1 (by
      intro f hf
      obtain ⟨j, -, hj⟩ := List.mem_flatMap.1 hf
      rw [mem_unlessZero E hj, dx1_len, he])]
    rw [sum_map_flatMap]
    simp only [unlessZero_sum E.D u E hR.zero, sum_finRange, dx1_val hR]
    simp only [Fin.cast_mk, Fin.eta, sc]
    congr 1
    exact Finset.sum_congr rfl fun j _ => mul_comm _ _

/-- Gradient of a vector. -/
theorem grad_vector_raw [Nontrivial R] (hR : Regular E) (hn : n ≠ 1) (u : ℕ → R) (e : FExpr R n) (he : e.length = n) (h0 : n ≠ 0) :
    (E.grad e).length = n ^ 2 ∧ ∀ i j : Fin n, value E.D u (E.grad e) (i * n + j) =
      (∑ l, E.gt l j * (E.D l (value E.D u e i * E.inv i) + ∑ k, E.ct i k l * (value E.D u e k * E.inv k))) *
        (E.sc i * E.sc j) := by
  have h1 : e.length > 1 := by omega
  unfold grad
  rw [simplify_len]
  simp only [simplify_val hR, h1, if_true]
  by_cases hc : E.cart = true
  · simp only [hc, if_true]
    have hlen : ∀ c ∈ (List.range e.length).flatMap (fun i => (List.finRange n).map fun j => E.dx1 j (FExpr.item e i)),
        c.length = 1 := by
      intro c hc
      obtain ⟨i, -, hi⟩ := List.mem_flatMap.1 hc
      obtain ⟨j, -, rfl⟩ := List.mem_map.1 hi
      rw [dx1_len]; rfl
    have hL : ((List.range e.length).flatMap fun i => (List.finRange n).map fun j => E.dx1 j (FExpr.item e i)).length = n ^ 2 := by
      rw [List.length_flatMap]; simp [he, sq]
    have h := fromComponents_eq E _ hlen
    refine ⟨by rw [h.1, hL], fun i j => ?_⟩
    have hij : (i:ℕ) * n + j < n ^ 2 := by
      have := i.2; have := j.2; rw [sq]; nlinarith
    rw [h.2 _ (by rw [hL]; exact hij), his_tensor _ _ _ hn _ hL]
    have hget : ((List.range e.length).flatMap fun i => (List.finRange n).map fun j => E.dx1 j (FExpr.item e i))[(i:ℕ) * n + j]'(by
        rw [hL]; exact hij) = E.dx1 j (FExpr.item e i) := by
      apply Option.some_inj.1
      rw [← List.getElem?_eq_getElem, getElem?_flatMap_const _ _ n (by simp) _ _ j.2]
      simp [he]
    rw [hget, dx1_val hR, value_item, gt_cart (hR.cart hc).1]
    simp only [ct_cart hR (hR.cart hc).1, inv_cart hR hc, sc_cart hR hc, hi_cart hR hc]
    simp [one_apply]
  · simp only [hc, Bool.false_eq_true, if_false]
    set F : Fin n → Fin n → List (FExpr R n) := fun i j => (List.finRange n).flatMap fun l =>
            E.unlessZero (E.gt l j) (E.dx1 l (E.comp e i)) ++
            (List.finRange n).flatMap fun k => E.unlessZero (E.gt l j * E.ct i k l) (E.comp e k) with hF
    have hFl : ∀ i j, ∀ f ∈ F i j, f.length = 1 := by
      intro i j f hf
      obtain ⟨l, -, hl⟩ := List.mem_flatMap.1 hf
      rcases List.mem_append.1 hl with h | h
      · rw [mem_unlessZero E h, dx1_len, comp_len]
      · obtain ⟨k, -, hk⟩ := List.mem_flatMap.1 h
        rw [mem_unlessZero E hk, comp_len]
    have hFne : ∀ i j, F i j ≠ [] := by
      intro i j hnil
      obtain ⟨l, hl⟩ := gt_row_ne hR j
      rw [hF, List.flatMap_eq_nil_iff] at hnil
      have := hnil l (List.mem_finRange l)
      rw [List.append_eq_nil_iff] at this
      exact unlessZero_ne_nil hl _ this.1
    have hlen : ∀ c ∈ (List.finRange n).flatMap (fun i => (List.finRange n).map fun j => FExpr.sumE (F i j)),
        c.length = 1 := by
      intro c hc
      obtain ⟨i, -, hi⟩ := List.mem_flatMap.1 hc
      obtain ⟨j, -, rfl⟩ := List.mem_map.1 hi
      exact length_sumE _ 1 (hFl i j) (hFne i j)
    have hL : ((List.finRange n).flatMap fun i => (List.finRange n).map fun j => FExpr.sumE (F i j)).length = n ^ 2 := by
      rw [List.length_flatMap]; simp [sq]
    have h := fromComponents_eq E _ hlen
    refine ⟨by rw [h.1, hL], fun i j => ?_⟩
    have hij : (i:ℕ) * n + j < n ^ 2 := by
      have := i.2; have := j.2; rw [sq]; nlinarith
    rw [h.2 _ (by rw [hL]; exact hij), his_tensor _ _ _ hn _ hL]
    have hget : ((List.finRange n).flatMap fun i => (List.finRange n).map fun j => FExpr.sumE (F i j))[(i:ℕ) * n + j]'(by
        rw [hL]; exact hij) = FExpr.sumE (F i j) := by
      apply Option.some_inj.1
      rw [← List.getElem?_eq_getElem, getElem?_flatMap_const _ _ n (by simp) _ _ j.2]
      simp
    rw [hget, value_sumE _ _ _ 1 (hFl i j), hF, sum_map_flatMap]
    simp only [List.map_append, List.sum_append, sum_map_flatMap, unlessZero_sum E.D u E hR.zero, sum_finRange, dx1_val hR,
      comp_val]
    have hsc : (if E.normal then E.hi i * E.hi j else 1) = E.sc i * E.sc j := by
      unfold sc; split_ifs <;> simp
    rw [hsc]
    congr 1
    refine Finset.sum_congr rfl fun l _ => ?_
    rw [mul_add, Finset.mul_sum]
    congr 1
    · ring
    · exact Finset.sum_congr rfl fun k _ => by ring

/-- Divergence of a vector. -/
theorem div_vector_raw (hR : Regular E) (h0 : n ≠ 0) (u : ℕ → R) (e : FExpr R n) (he : e.length = n) :
    (E.div e).length = 1 ∧ value E.D u (E.div e) 0 =
      ∑ i, E.D i (value E.D u e i * E.inv i * E.sg) * Ring.inverse E.sg := by
  have hne : List.finRange n ≠ [] := by
    intro h
    have := congrArg List.length h
    simp at this; exact h0 this
  have hfin : ∀ f : Fin n → FExpr R n, (∀ i, (f i).length = 1) →
      (FExpr.sumE ((List.finRange n).map f)).length = 1 ∧
      value E.D u (FExpr.sumE ((List.finRange n).map f)) 0 = ∑ i, value E.D u (f i) 0 := by
    intro f hf
    have hm : ∀ c ∈ (List.finRange n).map f, c.length = 1 := by
      intro c hc; obtain ⟨i, -, rfl⟩ := List.mem_map.1 hc; exact hf i
    refine ⟨length_sumE _ 1 hm (by simpa using hne), ?_⟩
    rw [value_sumE _ _ _ 1 hm, List.map_map, ← sum_finRange]
    rfl
  unfold div
  by_cases hc : E.cart = true
  · have hsg : ∀ i, E.D i E.sg = 0 := fun i => by
      rw [trace_ct hR, Finset.sum_eq_zero (fun j _ => ct_cart hR (hR.cart hc).1 j i j), mul_zero]
    have hfinal : ∀ i : Fin n, E.D i (value E.D u e i * E.inv i * E.sg) * Ring.inverse E.sg = E.D i (value E.D u e i) := by
      intro i
      rw [inv_cart hR hc, mul_one, Derivation.leibniz, hsg, smul_zero, zero_add, smul_eq_mul, mul_comm, ← mul_assoc,
        Ring.inverse_mul_cancel _ (isUnit_sg hR), one_mul]
    simp only [hc, if_true]
    split_ifs with h1 h2
    · subst h1
      have := hfin (fun i => E.dx1 i e) (fun i => by rw [dx1_len, he])
      refine ⟨this.1, ?_⟩
      rw [this.2]
      refine Finset.sum_congr rfl fun i _ => ?_
      rw [hfinal, dx1_val hR]
      fin_cases i; rfl
    · exfalso
      rw [he, sq] at h2
      have : n * n = n * 1 := by omega
      exact h1 (Nat.eq_of_mul_eq_mul_left (by omega) this)
    · unfold divVecCart
      have := hfin (fun i => E.dx1 i (FExpr.item e i)) (fun i => by rw [dx1_len]; rfl)
      rw [simplify_len, simplify_val hR]
      refine ⟨this.1, ?_⟩
      rw [this.2]
      refine Finset.sum_congr rfl fun i _ => ?_
      rw [hfinal, dx1_val hR, value_item]
  · simp only [hc, Bool.false_eq_true, if_false]
    have := hfin (fun i => FExpr.mul (E.dx1 i (FExpr.mul (E.comp e i) E.sg)) (Ring.inverse E.sg))
      (fun i => by rw [mul_len, dx1_len, mul_len, comp_len])
    split_ifs with h1 h2
    · refine ⟨this.1, ?_⟩
      rw [this.2]
      refine Finset.sum_congr rfl fun i _ => ?_
      rw [mul_val, dx1_val hR, mul_val, comp_val]
    · exfalso
      rw [he, sq] at h2
      have : n * n = n * 1 := by omega
      exact h1 (Nat.eq_of_mul_eq_mul_left (by omega) this)
    · rw [simplify_len, simplify_val hR]
      refine ⟨this.1, ?_⟩
      rw [this.2]
      refine Finset.sum_congr rfl fun i _ => ?_
      rw [mul_val, dx1_val hR, mul_val, comp_val]

end FormEnv


namespace FormEnv

variable {E : FormEnv R n m}

/-- Divergence of a tensor. -/
theorem div_tensor_raw (hR : Regular E) (hn : n ≠ 1) (h0 : n ≠ 0) (u : ℕ → R) (e : FExpr R n) (he : e.length = n ^ 2) :
    (E.div e).length = n ∧ ∀ i : Fin n, value E.D u (E.div e) i =
      (∑ j, (E.D j (value E.D u e (i * n + j) * (E.inv i * E.inv j)) +
        ∑ k, (E.ct i k j * (value E.D u e (k * n + j) * (E.inv k * E.inv j)) +
          E.ct j k j * (value E.D u e (i * n + k) * (E.inv i * E.inv k))))) * E.sc i := by
  have hne : List.finRange n ≠ [] := by
    intro h
    have := congrArg List.length h
    simp at this; exact h0 this
  unfold div
  by_cases hc : E.cart = true
  · simp only [hc, if_true, hn, if_false, he]
    have hlen1 : ∀ i : Fin n, (E.divVecCart (FExpr.row e i)).length = 1 := by
      intro i
      unfold divVecCart
      rw [simplify_len]
      refine length_sumE _ 1 ?_ (by simpa using hne)
      intro c hc
      obtain ⟨j, -, rfl⟩ := List.mem_map.1 hc
      rw [dx1_len]; rfl
    have hlen : ∀ c ∈ (List.finRange n).map (fun i : Fin n => E.divVecCart (FExpr.row e i)), c.length = 1 := by
      intro c hc; obtain ⟨i, -, rfl⟩ := List.mem_map.1 hc; exact hlen1 i
    have h := fromComponents_eq E _ hlen
    refine ⟨by rw [h.1]; simp, fun i => ?_⟩
    rw [h.2 i (by simp), his_vec _ _ _ (by simp)]
    rw [List.getElem_map, List.getElem_finRange]
    unfold divVecCart
    rw [simplify_val hR, value_sumE _ _ _ 1 (by
      intro c hc
      obtain ⟨j, -, rfl⟩ := List.mem_map.1 hc
      rw [dx1_len]; rfl), List.map_map]
    have e1 : ∀ f : Fin n → FExpr R n, ((List.finRange n).map ((fun g => value E.D u g 0) ∘ f)).sum = ∑ j, value E.D u (f j) 0 :=
      fun f => sum_finRange _
    rw [e1]
    simp only [ct_cart hR (hR.cart hc).1, inv_cart hR hc, sc_cart hR hc, hi_cart hR hc, dx1_val hR, value_item]
    simp only [mul_one, zero_mul, add_zero, Finset.sum_const_zero, ite_self]
    refine Finset.sum_congr rfl fun j _ => ?_
    rw [value_row _ _ _ _ _ j.2]
    rfl
  · simp only [hc, Bool.false_eq_true, if_false, hn, he, if_true]
    set F : Fin n → List (FExpr R n) := fun i => (List.finRange n).flatMap fun j =>
          E.dx1 j (E.comp2 e i j) ::
          (List.finRange n).flatMap fun k =>
            E.unlessZero (E.ct i k j) (E.comp2 e k j) ++ E.unlessZero (E.ct j k j) (E.comp2 e i k) with hF
    have hFl : ∀ i, ∀ f ∈ F i, f.length = 1 := by
      intro i f hf
      obtain ⟨j, -, hj⟩ := List.mem_flatMap.1 hf
      rcases List.mem_cons.1 hj with h | h
      · rw [h, dx1_len, comp2_len]
      · obtain ⟨k, -, hk⟩ := List.mem_flatMap.1 h
        rcases List.mem_append.1 hk with h | h
        · rw [mem_unlessZero E h, comp2_len]
        · rw [mem_unlessZero E h, comp2_len]
    have hFne : ∀ i, F i ≠ [] := by
      intro i hnil
      rw [hF, List.flatMap_eq_nil_iff] at hnil
      have := hnil i (List.mem_finRange i)
      simp at this
    have hlen : ∀ c ∈ (List.finRange n).map (fun i => FExpr.simplify E.isZero (FExpr.sumE (F i))), c.length = 1 := by
      intro c hc
      obtain ⟨i, -, rfl⟩ := List.mem_map.1 hc
      rw [simplify_len]
      exact length_sumE _ 1 (hFl i) (hFne i)
    have h := fromComponents_eq E _ hlen
    refine ⟨by rw [h.1]; simp, fun i => ?_⟩
    rw [h.2 i (by simp), his_vec _ _ _ (by simp)]
    rw [List.getElem_map, List.getElem_finRange, simplify_val hR, value_sumE _ _ _ 1 (hFl _), hF, sum_map_flatMap]
    simp only [List.map_cons, List.sum_cons, List.map_append, List.sum_append, sum_map_flatMap, unlessZero_sum E.D u E hR.zero,
      sum_finRange, dx1_val hR, comp2_val hR]
    simp only [Fin.cast_mk, Fin.eta, sc]
    congr 1
    refine Finset.sum_congr rfl fun j _ => ?_
    congr 1
    exact Finset.sum_congr rfl fun k _ => by ring

end FormEnv

/-! ## Gradient and divergence -/

section main

open FormEnv

/-- **C57** (gradient of a scalar): in every regular coordinate system, for both conventions of basis vectors, the vector
with the components returned by `grad` has the Cartesian components `∂f/∂x_a`. -/
theorem C57_grad [Nontrivial R] {E : FormEnv R n n} (hR : Regular E) {d : Fin n → Derivation ℤ R R}
    (hd : ChainRule E.D E.rv d) (u : ℕ → R) (e : FExpr R n) (he : e.length = 1) :
    (E.grad e).length = n ∧ ∀ a, cartesian E (value E.D u (E.grad e)) a = d a (value E.D u e 0) := by
  obtain ⟨hl, hv⟩ := grad_scalar_raw hR u e he
  refine ⟨hl, fun a => ?_⟩
  rw [← cart_deriv hR.det hd]
  unfold cartesian
  simp only [hv, basisVector_eq]
  have : ∀ i, (∑ j, E.gt j i * E.D j (value E.D u e 0)) * E.sc i * (E.inv i * E.b i a) =
      ∑ j, E.gt j i * E.b i a * E.D j (value E.D u e 0) := by
    intro i
    rw [show ∀ x, x * E.sc i * (E.inv i * E.b i a) = (E.sc i * E.inv i) * (x * E.b i a) by intro x; ring, sc_mul_inv hR,
      one_mul, Finset.sum_mul]
    exact Finset.sum_congr rfl fun j _ => by ring
  simp only [this]
  rw [Finset.sum_comm]
  refine Finset.sum_congr rfl fun j _ => ?_
  rw [bt, of_apply, Finset.sum_mul]

/-- **C57** (gradient on an embedded curve or surface): the returned vector is the tangent vector whose product with
each `b_j` is `D_j f`. -/
theorem C57_grad_surface [Nontrivial R] {E : FormEnv R n m} (hR : Regular E) (u : ℕ → R) (e : FExpr R n) (he : e.length = 1)
    (j : Fin n) : ∑ a, cartesian E (value E.D u (E.grad e)) a * E.D j (E.rv a) = E.D j (value E.D u e 0) := by
  obtain ⟨hl, hv⟩ := grad_scalar_raw hR u e he
  unfold cartesian
  simp only [hv, basisVector_eq, Finset.sum_mul]
  rw [Finset.sum_comm]
  have h1 : ∀ i, ∑ a, ((∑ k, E.gt k i * E.D k (value E.D u e 0)) * E.sc i * (E.inv i * E.b i a)) * E.D j (E.rv a) =
      ∑ k, E.gt k i * E.D k (value E.D u e 0) * E.g i j := by
    intro i
    have h2 : ∀ a, ((∑ k, E.gt k i * E.D k (value E.D u e 0)) * E.sc i * (E.inv i * E.b i a)) * E.D j (E.rv a) =
        (∑ k, E.gt k i * E.D k (value E.D u e 0)) * (E.b i a * E.b j a) := by
      intro a
      rw [show ∀ x y, x * E.sc i * (E.inv i * E.b i a) * y = (E.sc i * E.inv i) * (x * (E.b i a * y)) by intro x y; ring,
        sc_mul_inv hR, one_mul]
      rfl
    simp only [h2]
    rw [← Finset.mul_sum, Finset.sum_mul]
    rfl
  simp only [← Finset.sum_mul]
  simp only [h1]
  rw [Finset.sum_comm]
  have h3 : ∀ k, ∑ i, E.gt k i * E.D k (value E.D u e 0) * E.g i j = (if k = j then 1 else 0) * E.D k (value E.D u e 0) := by
    intro k
    have := congrFun (congrFun (gt_mul_g hR.det) k) j
    rw [mul_apply, one_apply] at this
    rw [← this, Finset.sum_mul]
    exact Finset.sum_congr rfl fun i _ => by ring
  simp [h3]

/-- The divergence in terms of the dual basis. -/
theorem div_dual {E : FormEnv R n m} (hR : Regular E) (h0 : n ≠ 0) (u : ℕ → R) (e : FExpr R n) (he : e.length = n) :
    (E.div e).length = 1 ∧ value E.D u (E.div e) 0 = ∑ a, ∑ j, E.bt j a * E.D j (cartesian E (value E.D u e) a) := by
  obtain ⟨hl, hv⟩ := div_vector_raw hR h0 u e he
  refine ⟨hl, ?_⟩
  rw [hv]
  set v : Fin n → R := fun i => value E.D u e i * E.inv i with hvdef
  have hcart : ∀ a, cartesian E (value E.D u e) a = ∑ i, v i * E.b i a := by
    intro a
    unfold cartesian
    refine Finset.sum_congr rfl fun i _ => ?_
    rw [basisVector_eq, hvdef]; ring
  have h1 : ∀ i, E.D i (v i * E.sg) * Ring.inverse E.sg = E.D i (v i) + v i * ∑ j, E.ct j i j := by
    intro i
    have hu := Ring.mul_inverse_cancel _ (isUnit_sg hR)
    rw [Derivation.leibniz, trace_ct hR, smul_eq_mul, smul_eq_mul]
    linear_combination (E.D i (v i) + v i * ∑ j, E.ct j i j) * hu
  have h2 : ∀ a j, E.bt j a * E.D j (∑ i, v i * E.b i a) = ∑ i, (E.D j (v i) * (E.bt j a * E.b i a) +
      v i * (E.D j (E.b i a) * E.bt j a)) := by
    intro a j
    rw [map_sum, Finset.mul_sum]
    refine Finset.sum_congr rfl fun i _ => ?_
    rw [Derivation.leibniz, smul_eq_mul, smul_eq_mul]; ring
  have h3 : ∑ a, ∑ j, E.bt j a * E.D j (∑ i, v i * E.b i a) = ∑ i, (E.D i (v i) + v i * ∑ j, E.ct j i j) := by
    simp only [h2]
    rw [Finset.sum_comm]
    have h4 : ∀ j, ∑ a, ∑ i, (E.D j (v i) * (E.bt j a * E.b i a) + v i * (E.D j (E.b i a) * E.bt j a)) =
        ∑ i, (E.D j (v i) * (if j = i then 1 else 0) + v i * E.ct j i j) := by
      intro j
      rw [Finset.sum_comm]
      refine Finset.sum_congr rfl fun i _ => ?_
      rw [Finset.sum_add_distrib, ← Finset.mul_sum, ← Finset.mul_sum, bt_dot_b hR.det]
      rfl
    simp only [h4]
    rw [Finset.sum_comm]
    refine Finset.sum_congr rfl fun i _ => ?_
    rw [Finset.sum_add_distrib, Finset.mul_sum]
    congr 1
    simp
  simp only [hcart, h3]
  exact Finset.sum_congr rfl fun i _ => h1 i

/-- **C57** (divergence of a vector): the value is `Σ_a ∂V_a/∂x_a`, with `V_a` the Cartesian components. -/
theorem C57_div {E : FormEnv R n n} (hR : Regular E) (h0 : n ≠ 0) {d : Fin n → Derivation ℤ R R}
    (hd : ChainRule E.D E.rv d) (u : ℕ → R) (e : FExpr R n) (he : e.length = n) :
    (E.div e).length = 1 ∧ value E.D u (E.div e) 0 = ∑ a, d a (cartesian E (value E.D u e) a) := by
  obtain ⟨hl, hv⟩ := div_dual hR h0 u e he
  refine ⟨hl, ?_⟩
  rw [hv]
  exact Finset.sum_congr rfl fun a _ => cart_deriv hR.det hd a _

/-- **C57** (Laplace operator). -/
theorem C57_div_grad [Nontrivial R] {E : FormEnv R n n} (hR : Regular E) (h0 : n ≠ 0) {d : Fin n → Derivation ℤ R R}
    (hd : ChainRule E.D E.rv d) (u : ℕ → R) (e : FExpr R n) (he : e.length = 1) :
    value E.D u (E.div (E.grad e)) 0 = ∑ a, d a (d a (value E.D u e 0)) := by
  have h1 := C57_grad hR hd u e he
  rw [(C57_div hR h0 hd u _ h1.1).2]
  simp only [h1.2]

/-- **C57** (gradient of a vector): the component `(a, c)` of the tensor is `∂V_a/∂x_c`. -/
theorem C57_grad_vector [Nontrivial R] {E : FormEnv R n n} (hR : Regular E) (hn : n ≠ 1) (h0 : n ≠ 0)
    {d : Fin n → Derivation ℤ R R} (hd : ChainRule E.D E.rv d) (u : ℕ → R) (e : FExpr R n) (he : e.length = n) :
    (E.grad e).length = n ^ 2 ∧
      ∀ a c, cartesian2 E (value E.D u (E.grad e)) a c = d c (cartesian E (value E.D u e) a) := by
  obtain ⟨hl, hv⟩ := grad_vector_raw hR hn u e he h0
  refine ⟨hl, fun a c => ?_⟩
  set v : Fin n → R := fun i => value E.D u e i * E.inv i with hvdef
  have hcart : ∀ a, cartesian E (value E.D u e) a = ∑ i, v i * E.b i a := by
    intro a
    unfold cartesian
    refine Finset.sum_congr rfl fun i _ => ?_
    rw [basisVector_eq, hvdef]; ring
  rw [← cart_deriv hR.det hd, hcart]
  have h1 : ∀ l, E.D l (∑ i, v i * E.b i a) = ∑ i, E.b i a * (E.D l (v i) + ∑ k, E.ct i k l * v k) := by
    intro l
    have h2 : ∑ i, E.b i a * ∑ k, E.ct i k l * v k = ∑ k, v k * E.D l (E.b k a) := by
      simp only [Finset.mul_sum]
      rw [Finset.sum_comm]
      refine Finset.sum_congr rfl fun k _ => ?_
      rw [← deriv_b hR.det, Finset.mul_sum]
      exact Finset.sum_congr rfl fun i _ => by ring
    simp only [mul_add, Finset.sum_add_distrib, h2, map_sum, Derivation.leibniz, smul_eq_mul]
    rw [add_comm]
  unfold cartesian2
  simp only [hv, basisVector_eq, h1]
  have h3 : ∀ i j, (∑ l, E.gt l j * (E.D l (v i) + ∑ k, E.ct i k l * v k)) * (E.sc i * E.sc j) *
      (E.inv i * E.b i a) * (E.inv j * E.b j c) =
      ∑ l, E.gt l j * E.b j c * (E.b i a * (E.D l (v i) + ∑ k, E.ct i k l * v k)) := by
    intro i j
    have hi := sc_mul_inv hR i
    have hj := sc_mul_inv hR j
    rw [show ∀ x, x * (E.sc i * E.sc j) * (E.inv i * E.b i a) * (E.inv j * E.b j c) =
      (E.sc i * E.inv i) * (E.sc j * E.inv j) * (x * (E.b j c * E.b i a)) by intro x; ring, hi, hj, one_mul, one_mul, Finset.sum_mul]
    exact Finset.sum_congr rfl fun l _ => by ring
  simp only [hvdef] at h3
  simp only [h3]
  have h4 : ∀ l, E.bt l c * ∑ i, E.b i a * (E.D l (v i) + ∑ k, E.ct i k l * v k) =
      ∑ i, ∑ j, E.gt l j * E.b j c * (E.b i a * (E.D l (v i) + ∑ k, E.ct i k l * v k)) := by
    intro l
    rw [Finset.mul_sum]
    refine Finset.sum_congr rfl fun i _ => ?_
    rw [bt, of_apply, Finset.sum_mul]
  simp only [h4]
  rw [Finset.sum_comm]
  have h5 : ∀ i, ∑ j, ∑ l, E.gt l j * E.b j c * (E.b i a * (E.D l (v i) + ∑ k, E.ct i k l * v k)) =
      ∑ l, ∑ j, E.gt l j * E.b j c * (E.b i a * (E.D l (v i) + ∑ k, E.ct i k l * v k)) := fun i => Finset.sum_comm
  rw [Finset.sum_comm]
  conv_rhs => rw [Finset.sum_comm]
  exact Finset.sum_congr rfl fun i _ => h5 i

/-- **C57** (divergence of a tensor): the vector returned has Cartesian components `Σ_c ∂S_ac/∂x_c`. -/
theorem C57_div_tensor {E : FormEnv R n n} (hR : Regular E) (hn : n ≠ 1) (h0 : n ≠ 0)
    {d : Fin n → Derivation ℤ R R} (hd : ChainRule E.D E.rv d) (u : ℕ → R) (e : FExpr R n) (he : e.length = n ^ 2) :
    (E.div e).length = n ∧
      ∀ a, cartesian E (value E.D u (E.div e)) a = ∑ c, d c (cartesian2 E (value E.D u e) a c) := by
  obtain ⟨hl, hv⟩ := div_tensor_raw hR hn h0 u e he
  refine ⟨hl, fun a => ?_⟩
  set S : Fin n → Fin n → R := fun i j => value E.D u e (i * n + j) * (E.inv i * E.inv j) with hS
  have hcart : ∀ c, cartesian2 E (value E.D u e) a c = ∑ i, ∑ j, S i j * (E.b i a * E.b j c) := by
    intro c
    unfold cartesian2
    refine Finset.sum_congr rfl fun i _ => Finset.sum_congr rfl fun j _ => ?_
    rw [basisVector_eq, basisVector_eq, hS]; ring
  have hR1 : ∀ c, d c (cartesian2 E (value E.D u e) a c) = ∑ l, E.bt l c * E.D l (∑ i, ∑ j, S i j * (E.b i a * E.b j c)) := by
    intro c; rw [hcart, cart_deriv hR.det hd]
  simp only [hR1]
  have h1 : ∀ c l, E.bt l c * E.D l (∑ i, ∑ j, S i j * (E.b i a * E.b j c)) = ∑ i, ∑ j,
      ((E.D l (S i j) * E.b i a + S i j * E.D l (E.b i a)) * (E.bt l c * E.b j c) +
        S i j * E.b i a * (E.D l (E.b j c) * E.bt l c)) := by
    intro c l
    simp only [map_sum, Finset.mul_sum]
    refine Finset.sum_congr rfl fun i _ => Finset.sum_congr rfl fun j _ => ?_
    simp only [Derivation.leibniz, smul_eq_mul]; ring
  have h2 : ∑ c, ∑ l, E.bt l c * E.D l (∑ i, ∑ j, S i j * (E.b i a * E.b j c)) =
      ∑ i, ∑ j, (E.D j (S i j) * E.b i a + S i j * E.D j (E.b i a) + S i j * E.b i a * ∑ l, E.ct l j l) := by
    simp only [h1]
    rw [Finset.sum_comm]
    have h3 : ∀ l, ∑ c, ∑ i, ∑ j, ((E.D l (S i j) * E.b i a + S i j * E.D l (E.b i a)) * (E.bt l c * E.b j c) +
        S i j * E.b i a * (E.D l (E.b j c) * E.bt l c)) = ∑ i, ∑ j,
        ((E.D l (S i j) * E.b i a + S i j * E.D l (E.b i a)) * (if l = j then 1 else 0) + S i j * E.b i a * E.ct l j l) := by
      intro l
      rw [Finset.sum_comm]
      refine Finset.sum_congr rfl fun i _ => ?_
      rw [Finset.sum_comm]
      refine Finset.sum_congr rfl fun j _ => ?_
      rw [Finset.sum_add_distrib, ← Finset.mul_sum, ← Finset.mul_sum, bt_dot_b hR.det]
      rfl
    simp only [h3]
    rw [Finset.sum_comm]
    refine Finset.sum_congr rfl fun i _ => ?_
    rw [Finset.sum_comm]
    refine Finset.sum_congr rfl fun j _ => ?_
    rw [Finset.sum_add_distrib, ← Finset.mul_sum]
    congr 1
    simp
  rw [h2]
  unfold cartesian
  simp only [hv, basisVector_eq]
  have h4 : ∀ i, (∑ j, (E.D j (S i j) + ∑ k, (E.ct i k j * S k j + E.ct j k j * S i k))) * E.sc i * (E.inv i * E.b i a) =
      ∑ j, E.D j (S i j) * E.b i a + ∑ j, ∑ k, S k j * (E.b i a * E.ct i k j) + ∑ j, ∑ k, S i k * E.b i a * E.ct j k j := by
    intro i
    rw [show ∀ x, x * E.sc i * (E.inv i * E.b i a) = (E.sc i * E.inv i) * (x * E.b i a) by intro x; ring, sc_mul_inv hR, one_mul,
      Finset.sum_mul, ← Finset.sum_add_distrib, ← Finset.sum_add_distrib]
    refine Finset.sum_congr rfl fun j _ => ?_
    rw [add_mul, Finset.sum_mul, add_assoc, ← Finset.sum_add_distrib]
    congr 1
    exact Finset.sum_congr rfl fun k _ => by ring
  simp only [hS] at h4
  simp only [h4]
  simp only [Finset.sum_add_distrib]
  have h5 : ∑ i, ∑ j, ∑ k, S k j * (E.b i a * E.ct i k j) = ∑ i, ∑ j, S i j * E.D j (E.b i a) := by
    rw [Finset.sum_comm]
    conv_rhs => rw [Finset.sum_comm]
    refine Finset.sum_congr rfl fun j _ => ?_
    rw [Finset.sum_comm]
    refine Finset.sum_congr rfl fun k _ => ?_
    rw [← Finset.mul_sum, deriv_b hR.det]
  have h6 : ∑ i, ∑ j, ∑ k, S i k * E.b i a * E.ct j k j = ∑ i, ∑ j, S i j * E.b i a * ∑ l, E.ct l j l := by
    refine Finset.sum_congr rfl fun i _ => ?_
    rw [Finset.sum_comm]
    refine Finset.sum_congr rfl fun k _ => ?_
    rw [Finset.mul_sum]
  simp only [hS] at h5 h6
  rw [h5, h6]

end main


/-! ## Curl -/

section curl

open FormEnv

/-- Covariant component `k` from stored components. -/
noncomputable def FormEnv.cov (E : FormEnv R n m) (w : ℕ → R) (k : Fin n) : R := ∑ i, E.g k i * (w i * E.inv i)

theorem FormEnv.cov_orth {E : FormEnv R n m} (hR : Regular E) (ho : E.orth = true) (w : ℕ → R) (k : Fin n) :
    w k * E.inv k * E.hi k ^ 2 = E.cov w k := by
  unfold FormEnv.cov
  rw [Finset.sum_eq_single k (fun i _ hi => by rw [hR.orth ho k i (Ne.symm hi), zero_mul]) (by simp), hi_sq hR, mul_comm]

theorem FormEnv.cov_cart {E : FormEnv R n m} (hR : Regular E) (hc : E.cart = true) (w : ℕ → R) (k : Fin n) :
    E.cov w k = w k := by
  unfold FormEnv.cov
  simp only [inv_cart hR hc, (hR.cart hc).1, one_apply]
  simp

theorem FormEnv.sg_cart {E : FormEnv R n m} (hR : Regular E) (hc : E.cart = true) : E.sg = 1 := by
  unfold sg; rw [(hR.cart hc).1, det_one, (hR.cart hc).2]

theorem curl3_raw {E : FormEnv R 3 m} (hR : Regular E) (u : ℕ → R) (e : FExpr R 3) :
    (E.curl3 e).length = 3 ∧
    value E.D u (E.curl3 e) 0 = (E.D 1 (E.cov (value E.D u e) 2) - E.D 2 (E.cov (value E.D u e) 1)) * Ring.inverse E.sg * E.sc 0 ∧
    value E.D u (E.curl3 e) 1 = (E.D 2 (E.cov (value E.D u e) 0) - E.D 0 (E.cov (value E.D u e) 2)) * Ring.inverse E.sg * E.sc 1 ∧
    value E.D u (E.curl3 e) 2 = (E.D 0 (E.cov (value E.D u e) 1) - E.D 1 (E.cov (value E.D u e) 0)) * Ring.inverse E.sg * E.sc 2 := by
  unfold curl3
  rw [simplify_len]
  simp only [simplify_val hR]
  split_ifs with hc ho
  · simp only [sg_cart hR hc, sc_cart hR hc, Ring.inverse_one, mul_one, cov_cart hR hc]
    have hl : ∀ i j k l, (FExpr.sub (E.dx1 i (FExpr.item e k)) (E.dx1 j (FExpr.item e l))).length = 1 := by
      intro i j k l; rw [sub_len _ _ (by rw [dx1_len, dx1_len]; rfl), dx1_len]; rfl
    have hs : ∀ i j k l, value E.D u (FExpr.sub (E.dx1 i (FExpr.item e k)) (E.dx1 j (FExpr.item e l))) 0 =
        E.D i (value E.D u e k) - E.D j (value E.D u e l) := by
      intro i j k l
      rw [sub_val _ _ _ (by rw [dx1_len, dx1_len]; rfl), dx1_val hR, dx1_val hR, value_item, value_item]
    have h3 : ∀ A B C : FExpr R 3, A.length = 1 → B.length = 1 → C.length = 1 →
        (A ++ B ++ C).length = 3 ∧ value E.D u (A ++ B ++ C) 0 = value E.D u A 0 ∧
        value E.D u (A ++ B ++ C) 1 = value E.D u B 0 ∧ value E.D u (A ++ B ++ C) 2 = value E.D u C 0 := by
      intro A B C hA hB hC
      rw [List.length_eq_one_iff] at hA hB hC
      obtain ⟨a, rfl⟩ := hA
      obtain ⟨b, rfl⟩ := hB
      obtain ⟨c, rfl⟩ := hC
      exact ⟨rfl, rfl, rfl, rfl⟩
    have := h3 _ _ _ (hl 1 2 2 1) (hl 2 0 0 2) (hl 0 1 1 0)
    rw [hs, hs, hs] at this
    exact this
  · set c : Fin 3 → FExpr R 3 := fun i => FExpr.mul (E.comp e i) (E.hi i ^ 2) with hcdef
    have hcl : ∀ i, (c i).length = 1 := fun i => by rw [hcdef, mul_len, comp_len]
    have hcv : ∀ i, value E.D u (c i) 0 = E.cov (value E.D u e) i := fun i => by
      rw [hcdef, mul_val, comp_val, cov_orth hR ho]
    have hl : ∀ i j k l, (FExpr.mul (FExpr.sub (E.dx1 i (c k)) (E.dx1 j (c l))) (Ring.inverse E.sg)).length = 1 := by
      intro i j k l; rw [mul_len, sub_len _ _ (by rw [dx1_len, dx1_len, hcl, hcl]), dx1_len, hcl]
    have hs : ∀ i j k l, value E.D u (FExpr.mul (FExpr.sub (E.dx1 i (c k)) (E.dx1 j (c l))) (Ring.inverse E.sg)) 0 =
        (E.D i (E.cov (value E.D u e) k) - E.D j (E.cov (value E.D u e) l)) * Ring.inverse E.sg := by
      intro i j k l
      rw [mul_val, sub_val _ _ _ (by rw [dx1_len, dx1_len, hcl, hcl]), dx1_val hR, dx1_val hR, hcv, hcv]
    have h := fromComponents_eq E [FExpr.mul (FExpr.sub (E.dx1 1 (c 2)) (E.dx1 2 (c 1))) (Ring.inverse E.sg),
      FExpr.mul (FExpr.sub (E.dx1 2 (c 0)) (E.dx1 0 (c 2))) (Ring.inverse E.sg),
      FExpr.mul (FExpr.sub (E.dx1 0 (c 1)) (E.dx1 1 (c 0))) (Ring.inverse E.sg)] (by simp [hl])
    have hh : ∀ i : Fin 3, E.his 3 i = E.sc i := fun i => his_vec E i 3 rfl
    refine ⟨h.1, ?_, ?_, ?_⟩
    · rw [← hs]; exact (h.2 0 (by simp) E.D u).trans (congrArg _ (hh 0))
    · rw [← hs]; exact (h.2 1 (by simp) E.D u).trans (congrArg _ (hh 1))
    · rw [← hs]; exact (h.2 2 (by simp) E.D u).trans (congrArg _ (hh 2))
  · set c : Fin 3 → Fin 3 → FExpr R 3 := fun k i => FExpr.mul (E.comp e i) (E.g k i) with hcdef
    have hcl : ∀ k i, (c k i).length = 1 := fun k i => by rw [hcdef, mul_len, comp_len]
    have hl1 : ∀ i j k l q, (FExpr.mul (FExpr.sub (E.dx1 i (c k q)) (E.dx1 j (c l q))) (Ring.inverse E.sg)).length = 1 := by
      intro i j k l q; rw [mul_len, sub_len _ _ (by rw [dx1_len, dx1_len, hcl, hcl]), dx1_len, hcl]
    have hl2 : ∀ i j k l, ∀ f ∈ (List.finRange 3).map
        (fun q => FExpr.mul (FExpr.sub (E.dx1 i (c k q)) (E.dx1 j (c l q))) (Ring.inverse E.sg)), f.length = 1 := by
      intro i j k l f hf
      obtain ⟨q, -, rfl⟩ := List.mem_map.1 hf
      exact hl1 i j k l q
    have hl : ∀ i j k l, (FExpr.sumE ((List.finRange 3).map
        (fun q => FExpr.mul (FExpr.sub (E.dx1 i (c k q)) (E.dx1 j (c l q))) (Ring.inverse E.sg)))).length = 1 := by
      intro i j k l
      exact length_sumE _ 1 (hl2 i j k l) (by simp [List.finRange_succ])
    have hs : ∀ i j k l, value E.D u (FExpr.sumE ((List.finRange 3).map
        (fun q => FExpr.mul (FExpr.sub (E.dx1 i (c k q)) (E.dx1 j (c l q))) (Ring.inverse E.sg)))) 0 =
        (E.D i (E.cov (value E.D u e) k) - E.D j (E.cov (value E.D u e) l)) * Ring.inverse E.sg := by
      intro i j k l
      rw [value_sumE _ _ _ 1 (hl2 i j k l), List.map_map]
      have e1 : ((List.finRange 3).map ((fun f => value E.D u f 0) ∘ fun q =>
          FExpr.mul (FExpr.sub (E.dx1 i (c k q)) (E.dx1 j (c l q))) (Ring.inverse E.sg))).sum =
          ∑ q, (E.D i (E.g k q * (value E.D u e q * E.inv q)) - E.D j (E.g l q * (value E.D u e q * E.inv q))) *
            Ring.inverse E.sg := by
        rw [sum_finRange]
        refine Finset.sum_congr rfl fun q _ => ?_
        simp only [Function.comp_apply]
        rw [mul_val, sub_val _ _ _ (by rw [dx1_len, dx1_len, hcl, hcl]), dx1_val hR, dx1_val hR, hcdef]
        simp only [mul_val, comp_val]
        rw [mul_comm (E.g k q), mul_comm (E.g l q)]
      rw [e1, ← Finset.sum_mul, Finset.sum_sub_distrib, ← map_sum, ← map_sum]
      rfl
    have h := fromComponents_eq E [
      FExpr.sumE ((List.finRange 3).map (fun q => FExpr.mul (FExpr.sub (E.dx1 1 (c 2 q)) (E.dx1 2 (c 1 q))) (Ring.inverse E.sg))),
      FExpr.sumE ((List.finRange 3).map (fun q => FExpr.mul (FExpr.sub (E.dx1 2 (c 0 q)) (E.dx1 0 (c 2 q))) (Ring.inverse E.sg))),
      FExpr.sumE ((List.finRange 3).map (fun q => FExpr.mul (FExpr.sub (E.dx1 0 (c 1 q)) (E.dx1 1 (c 0 q))) (Ring.inverse E.sg)))]
      (by simp only [List.forall_mem_cons, List.not_mem_nil, IsEmpty.forall_iff, implies_true, and_true]; exact ⟨hl _ _ _ _, hl _ _ _ _, hl _ _ _ _⟩)
    have hh : ∀ i : Fin 3, E.his 3 i = E.sc i := fun i => his_vec E i 3 rfl
    refine ⟨h.1, ?_, ?_, ?_⟩
    · rw [← hs]; exact (h.2 0 (by simp) E.D u).trans (congrArg _ (hh 0))
    · rw [← hs]; exact (h.2 1 (by simp) E.D u).trans (congrArg _ (hh 1))
    · rw [← hs]; exact (h.2 2 (by simp) E.D u).trans (congrArg _ (hh 2))

/-- Covariant components are products with the basis vectors. -/
theorem cov_eq {E : FormEnv R n m} (w : ℕ → R) (k : Fin n) : E.cov w k = ∑ a, cartesian E w a * E.b k a := by
  unfold FormEnv.cov cartesian
  simp only [Finset.sum_mul]
  rw [Finset.sum_comm]
  refine Finset.sum_congr rfl fun i _ => ?_
  rw [g, of_apply, Finset.sum_mul]
  refine Finset.sum_congr rfl fun a _ => ?_
  rw [basisVector_eq]; ring

/-- The antisymmetric derivative of the covariant components. -/
theorem cov_antisymm {E : FormEnv R n n} (hR : Regular E) {d : Fin n → Derivation ℤ R R} (hd : ChainRule E.D E.rv d)
    (w : ℕ → R) (j k : Fin n) : E.D j (E.cov w k) - E.D k (E.cov w j) =
      ∑ a, ∑ c, d c (cartesian E w a) * (E.b j c * E.b k a - E.b k c * E.b j a) := by
  rw [cov_eq, cov_eq, map_sum, map_sum, ← Finset.sum_sub_distrib]
  refine Finset.sum_congr rfl fun a _ => ?_
  rw [Derivation.leibniz, Derivation.leibniz, b_symm E hR.comm k j]
  simp only [smul_eq_mul]
  rw [hd j (cartesian E w a), hd k (cartesian E w a)]
  have : ∀ i c, E.D i (E.rv c) = E.b i c := fun i c => rfl
  simp only [this]
  rw [add_sub_add_left_eq_sub, Finset.mul_sum, Finset.mul_sum, ← Finset.sum_sub_distrib]
  exact Finset.sum_congr rfl fun c _ => by ring

/-- The curl with the volume element as the code computes it. -/
theorem curl3_signed {E : FormEnv R 3 3} (hR : Regular E) {d : Fin 3 → Derivation ℤ R R} (hd : ChainRule E.D E.rv d)
    (u : ℕ → R) (e : FExpr R 3) (a : Fin 3) :
    cartesian E (value E.D u (E.curl3 e)) a = E.b.det * Ring.inverse E.sg *
      (d (a+1) (cartesian E (value E.D u e) (a+2)) - d (a+2) (cartesian E (value E.D u e) (a+1))) := by
  obtain ⟨-, h0, h1, h2⟩ := curl3_raw hR u e
  rw [cov_antisymm hR hd] at h0 h1 h2
  set V := cartesian E (value E.D u e)
  have e0 := sc_mul_inv hR 0
  have e1 := sc_mul_inv hR 1
  have e2 := sc_mul_inv hR 2
  unfold cartesian
  simp only [Fin.sum_univ_three, basisVector_eq] at h0 h1 h2 ⊢
  have v0 : ((0 : Fin 3) : ℕ) = 0 := rfl
  have v1 : ((1 : Fin 3) : ℕ) = 1 := rfl
  have v2 : ((2 : Fin 3) : ℕ) = 2 := rfl
  rw [v0, v1, v2, h0, h1, h2, det_fin_three]
  set s := Ring.inverse E.sg
  generalize E.sc 0 = s0 at *
  generalize E.sc 1 = s1 at *
  generalize E.sc 2 = s2 at *
  have r : ∀ x si ii y : R, si * ii = 1 → x * s * si * (ii * y) = x * s * y := by
    intro x si ii y h; linear_combination (x * s * y) * h
  rw [r _ _ _ _ e0, r _ _ _ _ e1, r _ _ _ _ e2]
  fin_cases a <;> simp <;> ring

/-- **C57** (curl in three dimensions, right-handed coordinates): the vector returned by `curl` has the Cartesian components
`∂V_{a+2}/∂x_{a+1} - ∂V_{a+1}/∂x_{a+2}`. -/
theorem C57_curl3 {E : FormEnv R 3 3} (hR : Regular E) {d : Fin 3 → Derivation ℤ R R} (hd : ChainRule E.D E.rv d)
    (hright : E.sqrt E.g.det = (Matrix.of fun i a => E.D i (E.rv a) : Matrix (Fin 3) (Fin 3) R).det) (u : ℕ → R) (e : FExpr R 3) :
    (E.curl3 e).length = 3 ∧ ∀ a, cartesian E (value E.D u (E.curl3 e)) a =
      d (a+1) (cartesian E (value E.D u e) (a+2)) - d (a+2) (cartesian E (value E.D u e) (a+1)) := by
  refine ⟨(curl3_raw hR u e).1, fun a => ?_⟩
  rw [curl3_signed hR hd]
  have h1 : E.b.det = E.sg := hright.symm
  rw [h1, Ring.mul_inverse_cancel _ (isUnit_sg hR), one_mul]

/-- In left-handed coordinates (determinant of the Jacobian matrix negative) `curl` returns the negative of the curl. -/
theorem C57_curl3_left_handed {E : FormEnv R 3 3} (hR : Regular E) {d : Fin 3 → Derivation ℤ R R} (hd : ChainRule E.D E.rv d)
    (hleft : E.sqrt E.g.det = -(Matrix.of fun i a => E.D i (E.rv a) : Matrix (Fin 3) (Fin 3) R).det) (u : ℕ → R) (e : FExpr R 3)
    (a : Fin 3) : cartesian E (value E.D u (E.curl3 e)) a =
      -(d (a+1) (cartesian E (value E.D u e) (a+2)) - d (a+2) (cartesian E (value E.D u e) (a+1))) := by
  rw [curl3_signed hR hd]
  have h1 : E.b.det = -E.sg := by
    rw [show E.sg = -E.b.det from hleft, neg_neg]
  rw [h1, neg_mul, Ring.mul_inverse_cancel _ (isUnit_sg hR), neg_one_mul]

/-- **C57** (curl in two dimensions, right-handed coordinates). -/
theorem C57_curl2 {E : FormEnv R 2 2} (hR : Regular E) {d : Fin 2 → Derivation ℤ R R} (hd : ChainRule E.D E.rv d)
    (hright : E.sqrt E.g.det = (Matrix.of fun i a => E.D i (E.rv a) : Matrix (Fin 2) (Fin 2) R).det) (u : ℕ → R) (e : FExpr R 2) :
    (E.curl2 e).length = 1 ∧ value E.D u (E.curl2 e) 0 =
      d 0 (cartesian E (value E.D u e) 1) - d 1 (cartesian E (value E.D u e) 0) := by
  have hraw : (E.curl2 e).length = 1 ∧ value E.D u (E.curl2 e) 0 =
      (E.D 0 (E.cov (value E.D u e) 1) - E.D 1 (E.cov (value E.D u e) 0)) * Ring.inverse E.sg := by
    unfold curl2
    rw [simplify_len]
    simp only [simplify_val hR]
    split_ifs with hc ho
    · rw [sg_cart hR hc, Ring.inverse_one, mul_one, cov_cart hR hc, cov_cart hR hc,
        sub_len _ _ (by rw [dx1_len, dx1_len]; rfl), sub_val _ _ _ (by rw [dx1_len, dx1_len]; rfl), dx1_val hR, dx1_val hR, dx1_len]
      exact ⟨rfl, rfl⟩
    · have hcl : ∀ i, (FExpr.mul (E.comp e i) (E.hi i ^ 2)).length = 1 := fun i => by rw [mul_len, comp_len]
      rw [mul_len, mul_val, sub_len _ _ (by rw [dx1_len, dx1_len, hcl, hcl]), sub_val _ _ _ (by rw [dx1_len, dx1_len, hcl, hcl]),
        dx1_val hR, dx1_val hR, dx1_len, hcl, mul_val, mul_val, comp_val, comp_val, cov_orth hR ho, cov_orth hR ho]
      exact ⟨rfl, rfl⟩
    · have hcl : ∀ k i, (FExpr.mul (E.comp e i) (E.g k i)).length = 1 := fun k i => by rw [mul_len, comp_len]
      have hl2 : ∀ f ∈ (List.finRange 2).map (fun i => FExpr.mul (FExpr.sub (E.dx1 0 (FExpr.mul (E.comp e i) (E.g 1 i)))
          (E.dx1 1 (FExpr.mul (E.comp e i) (E.g 0 i)))) (Ring.inverse E.sg)), f.length = 1 := by
        intro f hf
        obtain ⟨q, -, rfl⟩ := List.mem_map.1 hf
        rw [mul_len, sub_len _ _ (by rw [dx1_len, dx1_len, hcl, hcl]), dx1_len, hcl]
      refine ⟨length_sumE _ 1 hl2 (by simp [List.finRange_succ]), ?_⟩
      rw [value_sumE _ _ _ 1 hl2, List.map_map, sum_finRange]
      have e1 : ∀ i, ((fun f => value E.D u f 0) ∘ fun i => FExpr.mul (FExpr.sub (E.dx1 0 (FExpr.mul (E.comp e i) (E.g 1 i)))
          (E.dx1 1 (FExpr.mul (E.comp e i) (E.g 0 i)))) (Ring.inverse E.sg)) i =
          (E.D 0 (E.g 1 i * (value E.D u e i * E.inv i)) - E.D 1 (E.g 0 i * (value E.D u e i * E.inv i))) * Ring.inverse E.sg := by
        intro i
        simp only [Function.comp_apply]
        rw [mul_val, sub_val _ _ _ (by rw [dx1_len, dx1_len, hcl, hcl]), dx1_val hR, dx1_val hR, mul_val, mul_val, comp_val,
          mul_comm (E.g 1 i), mul_comm (E.g 0 i)]
      simp only [e1]
      rw [← Finset.sum_mul, Finset.sum_sub_distrib, ← map_sum, ← map_sum]
      rfl
  refine ⟨hraw.1, ?_⟩
  rw [hraw.2, cov_antisymm hR hd]
  have h1 : E.b.det * Ring.inverse E.sg = 1 := by
    rw [show E.b.det = E.sg from hright.symm, Ring.mul_inverse_cancel _ (isUnit_sg hR)]
  rw [det_fin_two] at h1
  simp only [Fin.sum_univ_two]
  set V := cartesian E (value E.D u e)
  linear_combination (d 0 (V 1) - d 1 (V 0)) * h1

/-- **C32** (curl of a scalar in two Cartesian dimensions): `(∂f/∂y, -∂f/∂x)`. -/
theorem C32_curl2Scalar {E : FormEnv R 2 m} (hR : Regular E) (hc : E.cart = true) (u : ℕ → R) (e : FExpr R 2) (he : e.length = 1) :
    (E.curl2Scalar e).length = 2 ∧ value E.D u (E.curl2Scalar e) 0 = E.D 1 (value E.D u e 0) ∧
      value E.D u (E.curl2Scalar e) 1 = -E.D 0 (value E.D u e 0) := by
  unfold curl2Scalar
  rw [simplify_len]
  simp only [simplify_val hR]
  have hn : (FExpr.neg (E.dx1 0 e)).length = 1 := by simp [FExpr.neg, dx1_len, he]
  have h := fromComponents_eq E [E.dx1 1 e, FExpr.neg (E.dx1 0 e)] (by simp [dx1_len, he, hn])
  have hh : ∀ i : Fin 2, E.his 2 i = 1 := fun i => by rw [his_vec E i 2 rfl, hi_cart hR hc]; simp
  refine ⟨h.1, ?_, ?_⟩
  · refine (h.2 0 (by simp) E.D u).trans ?_
    rw [show E.his [E.dx1 1 e, FExpr.neg (E.dx1 0 e)].length 0 = 1 from hh 0, mul_one]
    exact dx1_val hR _ _ _ _
  · refine (h.2 1 (by simp) E.D u).trans ?_
    rw [show E.his [E.dx1 1 e, FExpr.neg (E.dx1 0 e)].length 1 = 1 from hh 1, mul_one]
    exact ((C31_neg E.D u _ 0).2).trans (by rw [dx1_val hR])

/-- **C57**: `div(curl(v)) = 0`. -/
theorem C57_div_curl {E : FormEnv R 3 3} (hR : Regular E) {d : Fin 3 → Derivation ℤ R R} (hd : ChainRule E.D E.rv d)
    (u : ℕ → R) (e : FExpr R 3) :
    value E.D u (E.div (E.curl3 e)) 0 = 0 := by
  have hdc := FormEnv.commuting_of_chainRule hR.det hR.comm hd
  rw [(C57_div hR (by norm_num) hd u _ (curl3_raw hR u e).1).2]
  simp only [curl3_signed hR hd]
  have h : E.b.det * Ring.inverse E.sg * (E.b.det * Ring.inverse E.sg) = 1 := by
    have h1 : E.sg ^ 2 = E.b.det * E.b.det := by
      rw [show E.sg ^ 2 = E.g.det from hR.sqrt_det, g_eq, det_mul, det_transpose]
    have h2 := Ring.mul_inverse_cancel _ (isUnit_sg hR)
    linear_combination (-(Ring.inverse E.sg) ^ 2) * h1 + (E.sg * Ring.inverse E.sg + 1) * h2
  -- the ratio is constant: its square is 1
  set s := E.b.det * Ring.inverse E.sg
  have hs : ∀ a, d a s = 0 := by
    intro a
    have h1 := congrArg (d a) h
    rw [Derivation.leibniz, smul_eq_mul, Derivation.map_one_eq_zero] at h1
    have h2 : 2 * s * d a s = 0 := by linear_combination h1
    have hu : IsUnit (2 * s) := hR.two.mul (IsUnit.of_mul_eq_one _ h)
    exact (hu.mul_right_eq_zero).1 h2
  simp only [Derivation.leibniz, hs, smul_eq_mul, mul_zero, add_zero, map_sub, Fin.sum_univ_three]
  set V := cartesian E (value E.D u e)
  have i1 : (0:Fin 3) + 1 = 1 := rfl
  have i2 : (0:Fin 3) + 2 = 2 := rfl
  have i3 : (1:Fin 3) + 1 = 2 := rfl
  have i4 : (1:Fin 3) + 2 = 0 := rfl
  have i5 : (2:Fin 3) + 1 = 0 := rfl
  have i6 : (2:Fin 3) + 2 = 1 := rfl
  rw [i1, i2, i3, i4, i5, i6, hdc 0 1 (V 2), hdc 0 2 (V 1), hdc 1 2 (V 0)]
  ring

/-- **C57**: `curl(grad(f)) = 0`. -/
theorem C57_curl_grad [Nontrivial R] {E : FormEnv R 3 3} (hR : Regular E) {d : Fin 3 → Derivation ℤ R R} (hd : ChainRule E.D E.rv d)
    (u : ℕ → R) (e : FExpr R 3) (he : e.length = 1) (a : Fin 3) :
    cartesian E (value E.D u (E.curl3 (E.grad e))) a = 0 := by
  have hdc := FormEnv.commuting_of_chainRule hR.det hR.comm hd
  rw [curl3_signed hR hd]
  simp only [(C57_grad hR hd u e he).2]
  rw [hdc, sub_self, mul_zero]

end curl


/-! ## Cartesian coordinates (C32) -/

section cartesian32

open FormEnv

variable {R : Type*} [CommRing R] {n m : ℕ}

/-- **C32** (`grad` of a scalar in Cartesian coordinates, any dimension). -/
theorem C32_grad [Nontrivial R] {E : FormEnv R n m} (hR : Regular E) (hc : E.cart = true) (u : ℕ → R) (e : FExpr R n)
    (he : e.length = 1) : (E.grad e).length = n ∧ ∀ i : Fin n, value E.D u (E.grad e) i = E.D i (value E.D u e 0) := by
  obtain ⟨h1, h2⟩ := grad_scalar_raw hR u e he
  refine ⟨h1, fun i => ?_⟩
  rw [h2 i, sc_cart hR hc, mul_one]
  simp [gt_cart (hR.cart hc).1, Matrix.one_apply]

/-- **C32** (`div` of a vector in Cartesian coordinates, any dimension). -/
theorem C32_div {E : FormEnv R n m} (hR : Regular E) (hc : E.cart = true) (h0 : n ≠ 0) (u : ℕ → R) (e : FExpr R n)
    (he : e.length = n) : (E.div e).length = 1 ∧ value E.D u (E.div e) 0 = ∑ i : Fin n, E.D i (value E.D u e i) := by
  obtain ⟨h1, h2⟩ := div_vector_raw hR h0 u e he
  refine ⟨h1, ?_⟩
  rw [h2]
  simp [inv_cart hR hc, sg_cart hR hc]

/-- **C32** (`curl` of a vector in three Cartesian dimensions). -/
theorem C32_curl3 {E : FormEnv R 3 m} (hR : Regular E) (hc : E.cart = true) (u : ℕ → R) (e : FExpr R 3) :
    (E.curl3 e).length = 3 ∧
    value E.D u (E.curl3 e) 0 = E.D 1 (value E.D u e 2) - E.D 2 (value E.D u e 1) ∧
    value E.D u (E.curl3 e) 1 = E.D 2 (value E.D u e 0) - E.D 0 (value E.D u e 2) ∧
    value E.D u (E.curl3 e) 2 = E.D 0 (value E.D u e 1) - E.D 1 (value E.D u e 0) := by
  obtain ⟨h, h0, h1, h2⟩ := curl3_raw hR u e
  refine ⟨h, ?_, ?_, ?_⟩
  · rw [h0]; simp [cov_cart hR hc, sc_cart hR hc, sg_cart hR hc]
  · rw [h1]; simp [cov_cart hR hc, sc_cart hR hc, sg_cart hR hc]
  · rw [h2]; simp [cov_cart hR hc, sc_cart hR hc, sg_cart hR hc]

/-- **C32** (Laplace operator in Cartesian coordinates). -/
theorem C32_div_grad [Nontrivial R] {E : FormEnv R n m} (hR : Regular E) (hc : E.cart = true) (h0 : n ≠ 0) (u : ℕ → R)
    (e : FExpr R n) (he : e.length = 1) :
    value E.D u (E.div (E.grad e)) 0 = ∑ i : Fin n, E.D i (E.D i (value E.D u e 0)) := by
  have h1 := C32_grad hR hc u e he
  rw [(C32_div hR hc h0 u _ h1.1).2]
  exact Finset.sum_congr rfl fun i _ => by rw [h1.2 i]

end cartesian32

end Shenfun
