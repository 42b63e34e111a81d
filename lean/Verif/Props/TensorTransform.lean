import Verif.Model.TensorTransform
import Verif.Props.Axis
import Mathlib.Algebra.BigOperators.Ring.Finset
import Mathlib.Tactic.FinCases
import Mathlib.Tactic.IntervalCases
import Mathlib.Tactic.Linarith

/-!
# C84: the transforms of a tensor product space
-/

namespace Shenfun.TPT

open Finset

variable {K : Type*} [Field K] {D : ℕ}

/-! ## Operators along different axes -/

theorem along_eq (n : ℕ) (M : ℕ → ℕ → K) (a : Fin D) (v : Arr D K) : along n M a v = Spec.applyAxis n M a v := rfl

theorem along_comm {m n : ℕ} (M N : ℕ → ℕ → K) {a b : Fin D} (h : a ≠ b) (v : Arr D K) :
    along m M a (along n N b v) = along n N b (along m M a v) := by
  funext I
  simp only [along, Finset.mul_sum, Function.update_of_ne h, Function.update_of_ne h.symm]
  rw [Finset.sum_comm]
  refine Finset.sum_congr rfl fun j _ => Finset.sum_congr rfl fun i _ => ?_
  rw [Function.update_comm h]
  ring

/-- An operator along axis `a` goes through a list of operators along other axes. -/
theorem foldr_comm (n : Fin D → ℕ) (M : Fin D → ℕ → ℕ → K) {m : ℕ} (N : ℕ → ℕ → K) (a : Fin D) (L : List (Fin D))
    (h : a ∉ L) (v : Arr D K) :
    L.foldr (fun b w => along (n b) (M b) b w) (along m N a v)
      = along m N a (L.foldr (fun b w => along (n b) (M b) b w) v) := by
  induction L with
  | nil => rfl
  | cons b L ih =>
    simp only [List.mem_cons, not_or] at h
    rw [List.foldr_cons, List.foldr_cons, ih h.2, along_comm _ _ (Ne.symm h.1)]

/-- Operators along other axes only see the values with the same index along `a`. -/
theorem foldr_congr_on (n : Fin D → ℕ) (M : Fin D → ℕ → ℕ → K) (a : Fin D) (P : ℕ → Prop) (L : List (Fin D))
    (h : a ∉ L) (v w : Arr D K) (hvw : ∀ I, P (I a) → v I = w I) (I : Fin D → ℕ) (hI : P (I a)) :
    L.foldr (fun b w => along (n b) (M b) b w) v I = L.foldr (fun b w => along (n b) (M b) b w) w I := by
  induction L generalizing I with
  | nil => exact hvw I hI
  | cons b L ih =>
    simp only [List.mem_cons, not_or] at h
    rw [List.foldr_cons, List.foldr_cons]
    refine Finset.sum_congr rfl fun j _ => ?_
    rw [ih h.2 _ (by rwa [Function.update_of_ne h.1])]

/-- All axes together: the sum over all multi-indices. -/
theorem all_axes (n : Fin D → ℕ) (M : Fin D → ℕ → ℕ → K) (L : List (Fin D)) (hL : L.Nodup) (hall : ∀ a, a ∈ L)
    (v : Arr D K) (I : Fin D → ℕ) :
    L.foldr (fun b w => along (n b) (M b) b w) v I = Spec.tensorApply n (Spec.tensorEntry (fun _ => 1) M) v I := by
  have := tensor_of_axes n M L hL (fun a ha => absurd (hall a) ha) v I fun a ha => absurd (hall a) ha
  simp only [along_eq, this, Spec.tensorApply, Spec.tensorEntry, one_mul]

/-! ## Hypotheses on the one-dimensional transforms -/

/-- The solver along axis `a` solves with its mass matrix. -/
def Space.Solves (T : Space D K) (a : Fin D) : Prop :=
  ∀ (b : ℕ → K), ∀ i < (T.base a).nm,
    ∑ j ∈ range (T.base a).nm, (T.base a).mass (T.massMeasure a) i j * (T.base a).solve (T.massMeasure a) b j = b i

/-- The mass matrix along axis `a` is nonsingular. -/
def Space.Regular (T : Space D K) (a : Fin D) : Prop :=
  ∀ x : ℕ → K, (∀ i < (T.base a).nm, ∑ j ∈ range (T.base a).nm, (T.base a).mass (T.massMeasure a) i j * x j = 0) →
    ∀ i < (T.base a).nm, x i = 0

/-- The mass matrix along axis `a` is the quadrature of the products of basis functions with measure `g`. -/
def Base.Quadrature (B : Base K) (g : K → K) : Prop :=
  ∀ i < B.nm, ∀ j < B.nm, B.mass g i j = ∑ k ∈ range B.nq, B.S i k * g (B.pts k) * B.E k j

/-- `measure = 1` in Cartesian coordinates. -/
def Space.Sound (T : Space D K) : Prop := T.cartesian = true → ∀ x, T.sg x = 1

/-- What `forward` and `scalar_product` integrate against is the function times the measure. -/
theorem measured_eq (T : Space D K) (hT : T.Sound) (f : Arr D K) :
    (if T.cartesian then f else T.measured f) = T.measured f := by
  by_cases h : T.cartesian = true
  · rw [if_pos h]
    funext I
    rw [Space.measured, hT h, mul_one]
  · rw [if_neg h]

theorem solve_unique (T : Space D K) (a : Fin D) (hs : T.Solves a) (hr : T.Regular a) (b x : ℕ → K)
    (h : ∀ i < (T.base a).nm, ∑ j ∈ range (T.base a).nm, (T.base a).mass (T.massMeasure a) i j * x j = b i) :
    ∀ i < (T.base a).nm, (T.base a).solve (T.massMeasure a) b i = x i := by
  intro i hi
  have := hr (fun j => (T.base a).solve (T.massMeasure a) b j - x j) (fun i hi => by
    simp only [mul_sub, Finset.sum_sub_distrib]
    rw [hs b i hi, h i hi, sub_self]) i hi
  exact sub_eq_zero.1 this

/-! ## The Galerkin equations -/

theorem forward1_galerkin (T : Space D K) (a : Fin D) (hs : T.Solves a) (v : Arr D K) (I : Fin D → ℕ)
    (hI : I a < (T.base a).nm) :
    along (T.base a).nm ((T.base a).mass (T.massMeasure a)) a (T.forward1 a v) I = T.scalar1 a v I := by
  simp only [along, Space.forward1, Function.update_idem, Function.update_self]
  rw [hs _ _ hI, Function.update_eq_self]

theorem galerkin_list (T : Space D K) (L : List (Fin D)) (hL : L.Nodup) (hs : ∀ a ∈ L, T.Solves a) (v : Arr D K)
    (I : Fin D → ℕ) (hI : ∀ a ∈ L, I a < (T.base a).nm) :
    L.reverse.foldr (fun a w => along (T.base a).nm ((T.base a).mass (T.massMeasure a)) a w)
        (L.foldr (fun a w => T.forward1 a w) v) I
      = L.foldr (fun a w => T.scalar1 a w) v I := by
  induction L generalizing I with
  | nil => rfl
  | cons a L ih =>
    obtain ⟨ha, hL'⟩ := List.nodup_cons.1 hL
    rw [List.reverse_cons, List.foldr_append, List.foldr_cons, List.foldr_nil, List.foldr_cons, List.foldr_cons]
    rw [foldr_congr_on (fun a => (T.base a).nm) (fun a => (T.base a).mass (T.massMeasure a)) a
      (fun i => i < (T.base a).nm) L.reverse (by simpa using ha) _
      (T.scalar1 a (L.foldr (fun a w => T.forward1 a w) v))
      (fun J hJ => forward1_galerkin T a (hs a (by simp)) _ J hJ) I (hI a (by simp))]
    unfold Space.scalar1
    rw [foldr_comm (fun a => (T.base a).nm) (fun a => (T.base a).mass (T.massMeasure a)) _ a L.reverse
      (by simpa using ha)]
    simp only [along]
    refine Finset.sum_congr rfl fun k _ => ?_
    congr 1
    refine ih hL' (fun b hb => hs b (by simp [hb])) _ fun b hb => ?_
    have : b ≠ a := fun h => ha (h ▸ hb)
    rw [Function.update_of_ne this]
    exact hI b (by simp [hb])

/-- **C84 (`scalar_product`).** For every function on the quadrature mesh, whatever the calls made before, the result is
the sum over all quadrature points of test function times weight times `sqrt(det g)` times the function. -/
theorem C84_scalar_product (T : Space D K) (hT : T.Sound) (axes : List (Fin D)) (hax : axes.Nodup)
    (hall : ∀ a, a ∈ axes) (buf : Arr D K) (h : List (Call D K)) (f : Arr D K) (I : Fin D → ℕ) :
    (T.call axes (T.run axes buf h) (.scalar (some f))).1 I
      = ∑ J ∈ Fintype.piFinset fun a => range (T.base a).nq,
          (∏ a, (T.base a).S (I a) (J a)) * (f J * T.sg fun a => (T.base a).pts (J a)) := by
  simp only [Space.call, Option.getD_some]
  rw [measured_eq T hT]
  unfold Space.scalar1
  rw [all_axes (fun a => (T.base a).nq) (fun a => (T.base a).S) axes hax hall]
  simp only [Spec.tensorApply, Spec.tensorEntry, one_mul]
  rfl

/-- **C84 (`forward`, Galerkin).** For every function on the quadrature mesh, every order of the axes and whatever the
calls made before, the coefficients returned by `forward` solve the tensor product mass system against the scalar
products of the function. -/
theorem C84_forward_galerkin (T : Space D K) (hT : T.Sound) (axes : List (Fin D)) (hax : axes.Nodup)
    (hall : ∀ a, a ∈ axes) (hs : ∀ a, T.Solves a) (buf : Arr D K) (h : List (Call D K)) (f : Arr D K)
    (I : Fin D → ℕ) (hI : ∀ a, I a < (T.base a).nm) :
    ∑ J ∈ Fintype.piFinset fun a => range (T.base a).nm,
        (∏ a, (T.base a).mass (T.massMeasure a) (I a) (J a))
          * (T.call axes (T.run axes buf h) (.forward (some f))).1 J
      = ∑ J ∈ Fintype.piFinset fun a => range (T.base a).nq,
          (∏ a, (T.base a).S (I a) (J a)) * (f J * T.sg fun a => (T.base a).pts (J a)) := by
  rw [← C84_scalar_product T hT axes hax hall buf h f I]
  have := galerkin_list T axes hax (fun a _ => hs a) (if T.cartesian then f else T.measured f) I fun a _ => hI a
  rw [all_axes (fun a => (T.base a).nm) (fun a => (T.base a).mass (T.massMeasure a)) axes.reverse (by simpa using hax)
    (by simpa using hall)] at this
  simp only [Spec.tensorApply, Spec.tensorEntry, one_mul] at this
  simp only [Space.call, Option.getD_some]
  exact this

/-! ## `forward` inverts `backward` -/

/-- Evaluation times the measure of the mass matrix. -/
def Space.weighted1 (T : Space D K) (a : Fin D) (u : Arr D K) : Arr D K :=
  fun I => T.massMeasure a ((T.base a).pts (I a)) * T.backward1 a u I

theorem forward1_weighted (T : Space D K) (a : Fin D) (hs : T.Solves a) (hr : T.Regular a)
    (hq : (T.base a).Quadrature (T.massMeasure a)) (v u : Arr D K) (I : Fin D → ℕ) (hI : I a < (T.base a).nm)
    (hv : ∀ k, v (Function.update I a k) = T.weighted1 a u (Function.update I a k)) :
    T.forward1 a v I = u I := by
  unfold Space.forward1
  rw [solve_unique T a hs hr _ (fun j => u (Function.update I a j)) ?_ (I a) hI, Function.update_eq_self]
  intro i hi
  simp only [Space.scalar1, along, Function.update_self, Function.update_idem, hv, Space.weighted1, Space.backward1]
  simp only [Finset.mul_sum]
  rw [Finset.sum_comm]
  refine Finset.sum_congr rfl fun j hj => ?_
  rw [hq i hi j (Finset.mem_range.1 hj), Finset.sum_mul]
  refine Finset.sum_congr rfl fun k _ => ?_
  ring

theorem inverse_list (T : Space D K) (L : List (Fin D)) (hL : L.Nodup) (hs : ∀ a ∈ L, T.Solves a)
    (hr : ∀ a ∈ L, T.Regular a) (hq : ∀ a ∈ L, (T.base a).Quadrature (T.massMeasure a)) (u : Arr D K)
    (I : Fin D → ℕ) (hI : ∀ a ∈ L, I a < (T.base a).nm) :
    L.foldr (fun a w => T.forward1 a w) (L.foldl (fun w a => T.weighted1 a w) u) I = u I := by
  induction L generalizing u I with
  | nil => rfl
  | cons a L ih =>
    obtain ⟨ha, hL'⟩ := List.nodup_cons.1 hL
    rw [List.foldr_cons, List.foldl_cons]
    refine forward1_weighted T a (hs a (by simp)) (hr a (by simp)) (hq a (by simp)) _ u I (hI a (by simp)) fun k => ?_
    refine ih hL' (fun b hb => hs b (by simp [hb])) (fun b hb => hr b (by simp [hb])) (fun b hb => hq b (by simp [hb]))
      _ _ fun b hb => ?_
    have : b ≠ a := fun h => ha (h ▸ hb)
    rw [Function.update_of_ne this]
    exact hI b (by simp [hb])

theorem foldl_factor (T : Space D K) (L : List (Fin D)) (c : (Fin D → ℕ) → K)
    (hc : ∀ a ∈ L, ∀ I k, c (Function.update I a k) = c I) (u : Arr D K) (I : Fin D → ℕ) :
    L.foldl (fun w a => T.backward1 a w) (fun I => c I * u I) I = c I * L.foldl (fun w a => T.backward1 a w) u I := by
  induction L generalizing u I with
  | nil => rfl
  | cons a L ih =>
    rw [List.foldl_cons, List.foldl_cons]
    have : T.backward1 a (fun I => c I * u I) = fun I => c I * T.backward1 a u I := by
      funext J
      simp only [Space.backward1, along, hc a (by simp), Finset.mul_sum]
      refine Finset.sum_congr rfl fun j _ => ?_
      ring
    rw [this]
    exact ih (fun b hb => hc b (by simp [hb])) _ I

theorem foldl_weighted (T : Space D K) (L : List (Fin D)) (hL : L.Nodup) (u : Arr D K) (I : Fin D → ℕ) :
    L.foldl (fun w a => T.weighted1 a w) u I
      = (L.map fun a => T.massMeasure a ((T.base a).pts (I a))).prod * L.foldl (fun w a => T.backward1 a w) u I := by
  induction L generalizing u I with
  | nil => simp
  | cons a L ih =>
    obtain ⟨ha, hL'⟩ := List.nodup_cons.1 hL
    rw [List.foldl_cons, List.foldl_cons, ih hL', List.map_cons, List.prod_cons]
    have := foldl_factor T L (fun I => T.massMeasure a ((T.base a).pts (I a))) (fun b hb J k => by
      have : a ≠ b := fun h => ha (h ▸ hb)
      simp only [Function.update_of_ne this]) (T.backward1 a u) I
    unfold Space.weighted1
    rw [this]
    ring

/-- The measure of the mass matrices is the measure when it is separable. -/
theorem prod_massMeasure (T : Space D K) (hD : 0 < D) (t : Term D K) (ht : T.split = [t]) (x : Fin D → K) :
    ∏ a, T.massMeasure a (x a) = T.sg x := by
  simp only [Space.massMeasure, Space.sg, ht, List.map_cons, List.map_nil, List.sum_cons, List.sum_nil, add_zero]
  have : ∀ a : Fin D, (if a.val = D - 1 then t.fac a (x a) * t.coeff else t.fac a (x a))
      = t.fac a (x a) * if a = ⟨D - 1, by omega⟩ then t.coeff else 1 := by
    intro a
    by_cases h : a.val = D - 1
    · rw [if_pos h, if_pos (Fin.ext h)]
    · rw [if_neg h, if_neg (fun h' => h (by rw [h'])), mul_one]
  simp only [this, Finset.prod_mul_distrib, Finset.prod_ite_eq', Finset.mem_univ, if_true]
  ring

theorem prod_list (axes : List (Fin D)) (hax : axes.Nodup) (hall : ∀ a, a ∈ axes) (f : Fin D → K) :
    (axes.map f).prod = ∏ a, f a := by
  rw [← List.prod_toFinset _ hax]
  congr 1
  ext a
  simp [hall a]

theorem inverse_all (T : Space D K) (hT : T.Sound) (hD : 0 < D) (t : Term D K) (ht : T.split = [t])
    (axes : List (Fin D)) (hax : axes.Nodup) (hall : ∀ a, a ∈ axes) (hs : ∀ a, T.Solves a) (hr : ∀ a, T.Regular a)
    (hq : ∀ a, (T.base a).Quadrature (T.massMeasure a)) (u : Arr D K) (I : Fin D → ℕ)
    (hI : ∀ a, I a < (T.base a).nm) :
    axes.foldr (fun a w => T.forward1 a w) (if T.cartesian then axes.foldl (fun w a => T.backward1 a w) u else
      T.measured (axes.foldl (fun w a => T.backward1 a w) u)) I = u I := by
  rw [measured_eq T hT, ← inverse_list T axes hax (fun a _ => hs a) (fun a _ => hr a) (fun a _ => hq a) u I
    fun a _ => hI a]
  refine congrArg (fun v => axes.foldr (fun a w => T.forward1 a w) v I) (funext fun J => ?_)
  rw [foldl_weighted T axes hax, prod_list axes hax hall, prod_massMeasure T hD t ht fun a => (T.base a).pts (J a)]
  rw [Space.measured, mul_comm]
  rfl

/-- **C84 (`forward` inverts `backward`).** For all coefficients, every order of the axes, any number of dimensions and
whatever was called before, `forward(backward(u))` is `u` when `sqrt(det g)` is one product of functions of the
coordinates and every base's mass matrix is nonsingular, integrated exactly and solved. -/
theorem C84_roundtrip (T : Space D K) (hT : T.Sound) (hD : 0 < D) (t : Term D K) (ht : T.split = [t])
    (axes : List (Fin D)) (hax : axes.Nodup) (hall : ∀ a, a ∈ axes) (hs : ∀ a, T.Solves a) (hr : ∀ a, T.Regular a)
    (hq : ∀ a, (T.base a).Quadrature (T.massMeasure a)) (buf buf' : Arr D K) (h h' : List (Call D K)) (u : Arr D K)
    (I : Fin D → ℕ) (hI : ∀ a, I a < (T.base a).nm) :
    (T.call axes (T.run axes buf' h')
      (.forward (some (T.call axes (T.run axes buf h) (.backward u)).1))).1 I = u I := by
  simp only [Space.call, Option.getD_some]
  exact inverse_all T hT hD t ht axes hax hall hs hr hq u I hI

/-- **C84 (planned arrays).** `forward()` without an input array right after `backward(u)` returns `u`. -/
theorem C84_roundtrip_planned (T : Space D K) (hT : T.Sound) (hD : 0 < D) (t : Term D K) (ht : T.split = [t])
    (axes : List (Fin D)) (hax : axes.Nodup) (hall : ∀ a, a ∈ axes) (hs : ∀ a, T.Solves a) (hr : ∀ a, T.Regular a)
    (hq : ∀ a, (T.base a).Quadrature (T.massMeasure a)) (buf : Arr D K) (h : List (Call D K)) (u : Arr D K)
    (I : Fin D → ℕ) (hI : ∀ a, I a < (T.base a).nm) :
    (T.call axes (T.run axes buf (h ++ [.backward u])) (.forward none)).1 I = u I := by
  simp only [Space.run, List.foldl_append, List.foldl_cons, List.foldl_nil]
  simp only [Space.call, Option.getD_none]
  exact inverse_all T hT hD t ht axes hax hall hs hr hq u I hI

/-- **C84 (`backward`).** In any order of the axes the result at a quadrature point is the sum over all modes of
coefficient times the product of the basis functions at the point. -/
theorem C84_backward (T : Space D K) (axes : List (Fin D)) (hax : axes.Nodup) (hall : ∀ a, a ∈ axes) (u : Arr D K)
    (buf : Arr D K) (I : Fin D → ℕ) :
    (T.call axes buf (.backward u)).1 I
      = ∑ J ∈ Fintype.piFinset fun a => range (T.base a).nm, (∏ a, (T.base a).E (I a) (J a)) * u J := by
  have := all_axes (fun a => (T.base a).nm) (fun a => (T.base a).E) axes.reverse (by simpa using hax)
    (by simpa using hall) u I
  simp only [Spec.tensorApply, Spec.tensorEntry, one_mul] at this
  rw [← this, List.foldr_reverse]
  rfl

/-! ## A concrete space -/

/-- Two points `1, 3`, modes `1, x`, unit weights; the mass matrix is the quadrature and is solved by Cramer's rule. -/
def exBase : Base ℚ where
  nq := 2
  nm := 2
  pts k := if k = 0 then 1 else 3
  E k j := (if k = 0 then 1 else 3) ^ j
  S i k := (if k = 0 then 1 else 3) ^ i
  mass g i j := ∑ k ∈ range 2, (if k = 0 then 1 else 3) ^ i * g (if k = 0 then 1 else 3) * (if k = 0 then 1 else 3) ^ j
  solve g b := fun i =>
    let m := fun i j : ℕ =>
      ∑ k ∈ range 2, (if k = 0 then (1 : ℚ) else 3) ^ i * g (if k = 0 then 1 else 3) * (if k = 0 then 1 else 3) ^ j
    let det := m 0 0 * m 1 1 - m 0 1 * m 1 0
    if i = 0 then (b 0 * m 1 1 - m 0 1 * b 1) / det else (m 0 0 * b 1 - m 1 0 * b 0) / det

/-- Two such bases in coordinates with measure `5 x (y + 1)`. -/
def exSpace : Space 2 ℚ where
  base _ := exBase
  cartesian := false
  split := [⟨5, fun a x => if a = 0 then x else x + 1⟩]

theorem exSpace_solves (a : Fin 2) : exSpace.Solves a := by
  intro b i hi
  change i < 2 at hi
  fin_cases a <;> interval_cases i <;>
    simp [exSpace, exBase, Space.massMeasure, Finset.sum_range_succ] <;> ring

theorem exSpace_regular (a : Fin 2) : exSpace.Regular a := by
  intro x h i hi
  have h0 := h 0 (by change 0 < 2; decide)
  have h1 := h 1 (by change 1 < 2; decide)
  change i < 2 at hi
  fin_cases a <;>
    simp [exSpace, exBase, Space.massMeasure, Finset.sum_range_succ] at h0 h1 <;>
    interval_cases i <;> linarith

/-- The hypotheses of `C84_roundtrip` hold for it, in both orders of the axes. -/
example (buf u : Arr 2 ℚ) (h : List (Call 2 ℚ)) (I : Fin 2 → ℕ) (hI : ∀ a, I a < 2) :
    (exSpace.call [1, 0] buf (.forward (some (exSpace.call [1, 0] (exSpace.run [1, 0] buf h) (.backward u)).1))).1 I
      = u I :=
  C84_roundtrip exSpace (by intro h; exact absurd h (by decide)) (by decide) _ rfl [1, 0] (by decide) (by decide)
    exSpace_solves exSpace_regular (fun _ _ _ _ _ => rfl) buf buf h [] u I hI

/-- **C84 (refuted: repeated `forward()`).** In curvilinear coordinates `forward()` without an input array multiplies the
planned array by the measure in place: a second `forward()` returns other coefficients. -/
theorem C84_twice_refuted :
    ∃ (u : Arr 2 ℚ) (I : Fin 2 → ℕ), (∀ a, I a < 2) ∧
      (exSpace.call [0, 1] (exSpace.run [0, 1] (fun _ => 0) [.backward u]) (.forward none)).1 I = u I ∧
      (exSpace.call [0, 1] (exSpace.run [0, 1] (fun _ => 0) [.backward u, .forward none]) (.forward none)).1 I ≠ u I := by
  refine ⟨fun _ => 1, fun _ => 0, by decide, ?_, ?_⟩
  · exact C84_roundtrip_planned exSpace (by intro h; exact absurd h (by decide)) (by decide) _ rfl [0, 1] (by decide)
      (by decide) exSpace_solves exSpace_regular (fun _ _ _ _ _ => rfl) (fun _ => 0) [] _ _ (by decide)
  · decide +kernel

/-- The same bases in coordinates with measure `x + y`, which `split` writes as two terms. -/
def exSpace2 : Space 2 ℚ where
  base _ := exBase
  cartesian := false
  split := [⟨1, fun a x => if a = 0 then x else 1⟩, ⟨1, fun a x => if a = 0 then 1 else x⟩]

theorem exSpace2_solves (a : Fin 2) : exSpace2.Solves a := by
  intro b i hi
  change i < 2 at hi
  fin_cases a <;> interval_cases i <;>
    simp [exSpace2, exBase, Space.massMeasure, Finset.sum_range_succ] <;> ring

theorem exSpace2_regular (a : Fin 2) : exSpace2.Regular a := by
  intro x h i hi
  have h0 := h 0 (by change 0 < 2; decide)
  have h1 := h 1 (by change 1 < 2; decide)
  change i < 2 at hi
  fin_cases a <;>
    simp [exSpace2, exBase, Space.massMeasure, Finset.sum_range_succ] at h0 h1 <;>
    interval_cases i <;> linarith

/-- **C84 (refuted: measures that are sums).** The measure `x + y` is split into two terms and only the first reaches the
mass matrices: everything the one-dimensional transforms promise holds, no error is raised, and
`forward(backward(u))` is not `u`. -/
theorem C84_unseparable_refuted :
    (∀ a, exSpace2.Solves a) ∧ (∀ a, exSpace2.Regular a)
      ∧ (∀ a, (exSpace2.base a).Quadrature (exSpace2.massMeasure a)) ∧ (∀ x, exSpace2.sg x = x 0 + x 1) ∧
    ∃ (u : Arr 2 ℚ) (I : Fin 2 → ℕ), (∀ a, I a < 2) ∧
      (exSpace2.call [0, 1] (fun _ => 0) (.forward (some (exSpace2.call [0, 1] (fun _ => 0) (.backward u)).1))).1 I
        ≠ u I := by
  refine ⟨exSpace2_solves, exSpace2_regular, fun _ _ _ _ _ => rfl, fun x => ?_, fun _ => 1, fun _ => 0, by decide, ?_⟩
  · simp [Space.sg, exSpace2]
  · decide +kernel

end Shenfun.TPT
