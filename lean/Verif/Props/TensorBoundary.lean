import Verif.Model.TensorBoundary
import Verif.Props.TensorTransform

/-!
# C85: transforms with inhomogeneous boundary conditions along one axis of a tensor product space
-/

namespace Shenfun.TPT

open Finset

variable {K : Type*} [Field K] {D : ℕ}

/-- Number of trial functions along axis `a`: all modes and, along the inhomogeneous axis, the boundary functions. -/
def Boundary.size (T : Space D K) (b : Boundary D K) (a : Fin D) : ℕ :=
  if a = b.axis then (T.base a).nm + b.m else (T.base a).nm

/-- The mass matrix along axis `a` with the columns of the boundary functions. -/
def Boundary.full (T : Space D K) (b : Boundary D K) (a : Fin D) (i j : ℕ) : K :=
  if a = b.axis ∧ (T.base a).nm ≤ j then b.B (T.massMeasure a) i (j - (T.base a).nm)
  else (T.base a).mass (T.massMeasure a) i j

/-- The boundary mass matrix is the quadrature of test functions times boundary functions with measure `g`. -/
def Boundary.Quadrature (T : Space D K) (b : Boundary D K) : Prop :=
  ∀ i < (T.base b.axis).nm, ∀ j < b.m, b.B (T.massMeasure b.axis) i j
    = ∑ k ∈ range (T.base b.axis).nq,
        (T.base b.axis).S i k * T.massMeasure b.axis ((T.base b.axis).pts k) * (T.base b.axis).E k ((T.base b.axis).nm + j)

/-! ## One axis -/

theorem Boundary.forward1_lift (T : Space D K) (b : Boundary D K) (bcs : ℕ → Arr D K)
    (hb : ∀ j I k, bcs j (Function.update I b.axis k) = bcs j I) (hs : T.Solves b.axis) (v : Arr D K) (I : Fin D → ℕ)
    (hI : I b.axis < (T.base b.axis).nm) :
    along ((T.base b.axis).nm + b.m) (b.full T b.axis) b.axis (b.forward1 T bcs v) I = T.scalar1 b.axis v I := by
  have h1 : ∀ j, j < (T.base b.axis).nm → b.full T b.axis (I b.axis) j
      = (T.base b.axis).mass (T.massMeasure b.axis) (I b.axis) j := by
    intro j hj
    rw [Boundary.full, if_neg (by omega)]
  have h2 : ∀ j, b.full T b.axis (I b.axis) ((T.base b.axis).nm + j)
      = b.B (T.massMeasure b.axis) (I b.axis) j := by
    intro j
    rw [Boundary.full, if_pos ⟨rfl, by omega⟩, Nat.add_sub_cancel_left]
  simp only [along]
  rw [Finset.sum_range_add]
  have h3 : ∀ j ∈ range b.m, b.full T b.axis (I b.axis) ((T.base b.axis).nm + j)
      * b.forward1 T bcs v (Function.update I b.axis ((T.base b.axis).nm + j))
      = b.B (T.massMeasure b.axis) (I b.axis) j * bcs j I := by
    intro j hj
    have hj' := Finset.mem_range.1 hj
    rw [h2, Boundary.forward1]
    simp only [Function.update_self, Function.update_idem]
    rw [if_neg (by omega), if_neg (by omega), if_pos (by omega), Nat.add_sub_cancel_left, hb]
  rw [Finset.sum_congr rfl h3]
  simp only [Boundary.forward1, Function.update_self, Function.update_idem]
  have h4 : ∀ j ∈ range (T.base b.axis).nm, ∀ z z' : K, b.full T b.axis (I b.axis) j
      * (if j < (T.base b.axis).nm then z else z') = (T.base b.axis).mass (T.massMeasure b.axis) (I b.axis) j * z := by
    intro j hj z z'
    rw [h1 j (Finset.mem_range.1 hj), if_pos (Finset.mem_range.1 hj)]
  rw [Finset.sum_congr rfl fun j hj => h4 j hj _ _]
  have hw : ∀ j, (fun i => if i < (T.base b.axis).nm then
        (if (T.base b.axis).nm ≤ i ∧ i < (T.base b.axis).nm + b.m then
            bcs (i - (T.base b.axis).nm) (Function.update I b.axis j)
          else T.scalar1 b.axis v (Function.update I b.axis i))
        - ∑ x ∈ range b.m, b.B (T.massMeasure b.axis) i x *
            (if (T.base b.axis).nm ≤ (T.base b.axis).nm + x ∧ (T.base b.axis).nm + x < (T.base b.axis).nm + b.m then
              bcs ((T.base b.axis).nm + x - (T.base b.axis).nm) (Function.update I b.axis j)
            else T.scalar1 b.axis v (Function.update I b.axis ((T.base b.axis).nm + x)))
      else if (T.base b.axis).nm ≤ i ∧ i < (T.base b.axis).nm + b.m then
            bcs (i - (T.base b.axis).nm) (Function.update I b.axis j)
          else T.scalar1 b.axis v (Function.update I b.axis i))
      = fun i => if i < (T.base b.axis).nm then T.scalar1 b.axis v (Function.update I b.axis i)
          - ∑ x ∈ range b.m, b.B (T.massMeasure b.axis) i x * bcs x I
        else if (T.base b.axis).nm ≤ i ∧ i < (T.base b.axis).nm + b.m then bcs (i - (T.base b.axis).nm) I
          else T.scalar1 b.axis v (Function.update I b.axis i) := by
    intro j
    funext i
    simp only [hb]
    by_cases hi : i < (T.base b.axis).nm
    · rw [if_pos hi, if_pos hi, if_neg (by omega)]
      congr 1
      refine Finset.sum_congr rfl fun x hx => ?_
      have := Finset.mem_range.1 hx
      rw [if_pos (by omega), Nat.add_sub_cancel_left]
    · rw [if_neg hi, if_neg hi]
  simp only [hw]
  rw [hs _ _ hI, if_pos hI, Function.update_eq_self, sub_add_cancel]

theorem Boundary.forward1_dofs (T : Space D K) (b : Boundary D K) (bcs : ℕ → Arr D K) (v : Arr D K) (I : Fin D → ℕ)
    (j : ℕ) (hj : j < b.m) :
    b.forward1 T bcs v (Function.update I b.axis ((T.base b.axis).nm + j))
      = bcs j (Function.update I b.axis ((T.base b.axis).nm + j)) := by
  rw [Boundary.forward1]
  simp only [Function.update_self, Function.update_idem]
  rw [if_neg (by omega), if_neg (by omega), if_pos (by omega), Nat.add_sub_cancel_left]

/-! ## Lists of axes -/

/-- Generic form of `galerkin_list`. -/
theorem galerkin_gen (n p : Fin D → ℕ) (M : Fin D → ℕ → ℕ → K) (q : Fin D → ℕ) (S : Fin D → ℕ → ℕ → K)
    (F : Fin D → Arr D K → Arr D K) (L : List (Fin D)) (hL : L.Nodup)
    (hF : ∀ a ∈ L, ∀ v I, I a < n a → along (p a) (M a) a (F a v) I = along (q a) (S a) a v I) (v : Arr D K)
    (I : Fin D → ℕ) (hI : ∀ a ∈ L, I a < n a) :
    L.reverse.foldr (fun a w => along (p a) (M a) a w) (L.foldr (fun a w => F a w) v) I
      = L.foldr (fun a w => along (q a) (S a) a w) v I := by
  induction L generalizing I with
  | nil => rfl
  | cons a L ih =>
    obtain ⟨ha, hL'⟩ := List.nodup_cons.1 hL
    rw [List.reverse_cons, List.foldr_append, List.foldr_cons, List.foldr_nil, List.foldr_cons, List.foldr_cons]
    rw [foldr_congr_on p M a (fun i => i < n a) L.reverse (by simpa using ha) _
      (along (q a) (S a) a (L.foldr (fun a w => F a w) v)) (fun J hJ => hF a (by simp) _ J hJ) I (hI a (by simp))]
    rw [foldr_comm p M _ a L.reverse (by simpa using ha)]
    simp only [along]
    refine Finset.sum_congr rfl fun k _ => ?_
    congr 1
    refine ih hL' (fun b hb => hF b (by simp [hb])) _ fun b hb => ?_
    have : b ≠ a := fun h => ha (h ▸ hb)
    rw [Function.update_of_ne this]
    exact hI b (by simp [hb])

/-- The slice of an array at one place along axis `c`. -/
def slice (c : Fin D) (k : ℕ) (v : Arr D K) : Arr D K := fun I => v (Function.update I c k)

theorem slice_forward1 (T : Space D K) {a c : Fin D} (h : a ≠ c) (k : ℕ) (v : Arr D K) :
    slice c k (T.forward1 a v) = T.forward1 a (slice c k v) := by
  funext I
  simp only [slice, Space.forward1, Space.scalar1, along, Function.update_of_ne h, Function.update_idem]
  congr 1
  funext i
  refine Finset.sum_congr rfl fun j _ => ?_
  simp only [Function.update_self]
  rw [Function.update_comm h]

theorem slice_foldr (T : Space D K) (c : Fin D) (L : List (Fin D)) (h : c ∉ L) (k : ℕ) (v : Arr D K) :
    slice c k (L.foldr (fun a w => T.forward1 a w) v) = L.foldr (fun a w => T.forward1 a w) (slice c k v) := by
  induction L with
  | nil => rfl
  | cons a L ih =>
    simp only [List.mem_cons, not_or] at h
    rw [List.foldr_cons, List.foldr_cons, slice_forward1 T (Ne.symm h.1), ih h.2]

/-- Data that do not vary along axis `c` stay so. -/
theorem const_foldr (T : Space D K) (c : Fin D) (L : List (Fin D)) (h : c ∉ L) (v : Arr D K)
    (hv : ∀ I k, v (Function.update I c k) = v I) (I : Fin D → ℕ) (k : ℕ) :
    L.foldr (fun a w => T.forward1 a w) v (Function.update I c k) = L.foldr (fun a w => T.forward1 a w) v I := by
  have := congrFun (slice_foldr T c L h k v) I
  rw [slice] at this
  rw [this]
  congr 1
  have : slice c k v = v := funext fun J => hv J k
  rw [this]

/-- The data are functions of the other coordinates. -/
def Boundary.Const (b : Boundary D K) : Prop := ∀ j I k, b.vals j (Function.update I b.axis k) = b.vals j I

/-- The axes transformed after the inhomogeneous one. -/
def Boundary.after (b : Boundary D K) (axes : List (Fin D)) : List (Fin D) := axes.takeWhile fun a => a ≠ b.axis

theorem Boundary.axes_eq (b : Boundary D K) (axes : List (Fin D)) (hc : b.axis ∈ axes) :
    axes = b.after axes ++ b.axis :: b.before axes := by
  unfold Boundary.after Boundary.before
  induction axes with
  | nil => simp at hc
  | cons a L ih =>
    by_cases h : a = b.axis
    · simp [h]
    · have := ih (by simpa [Ne.symm h] using hc)
      simp only [ne_eq, h, not_false_eq_true, decide_true, List.takeWhile_cons_of_pos, List.dropWhile_cons_of_pos,
        List.cons_append, List.cons.injEq, true_and]
      exact this

theorem Boundary.nodup (b : Boundary D K) (axes : List (Fin D)) (hax : axes.Nodup) (hc : b.axis ∈ axes) :
    b.axis ∉ b.after axes ∧ b.axis ∉ b.before axes ∧ (b.after axes ++ b.before axes).Nodup := by
  have h := hax
  rw [b.axes_eq axes hc, List.nodup_append] at h
  obtain ⟨h1, h2, h3⟩ := h
  obtain ⟨h4, h5⟩ := List.nodup_cons.1 h2
  refine ⟨fun h => h3 _ h _ (by simp) rfl, h4, List.nodup_append.2 ⟨h1, h5, fun a ha d hd => h3 a ha d (by simp [hd])⟩⟩

theorem Boundary.bcs_const (T : Space D K) (b : Boundary D K) (hb : b.Const) (axes : List (Fin D)) (hax : axes.Nodup)
    (hc : b.axis ∈ axes) (j : ℕ) (I : Fin D → ℕ) (k : ℕ) :
    b.bcs T axes j (Function.update I b.axis k) = b.bcs T axes j I := by
  unfold Boundary.bcs
  split_ifs
  · exact hb j I k
  · exact const_foldr T b.axis _ (b.nodup axes hax hc).2.1 _ (fun J k => by rw [hb]) I k

theorem foldr_other (T : Space D K) (b : Boundary D K) (g : Arr D K → Arr D K) (L : List (Fin D)) (h : b.axis ∉ L)
    (v : Arr D K) :
    L.foldr (fun a w => if a = b.axis then g w else T.forward1 a w) v = L.foldr (fun a w => T.forward1 a w) v := by
  induction L with
  | nil => rfl
  | cons a L ih =>
    simp only [List.mem_cons, not_or] at h
    rw [List.foldr_cons, List.foldr_cons, if_neg (Ne.symm h.1), ih h.2]

theorem Boundary.forward_eq (T : Space D K) (b : Boundary D K) (axes : List (Fin D)) (hax : axes.Nodup)
    (hc : b.axis ∈ axes) (f : Arr D K) :
    b.forward T axes f = (b.after axes).foldr (fun a w => T.forward1 a w)
      (b.forward1 T (b.bcs T axes) ((b.before axes).foldr (fun a w => T.forward1 a w)
        (if T.cartesian then f else T.measured f))) := by
  unfold Boundary.forward
  generalize b.bcs T axes = z
  rw [congrArg (List.foldr _ _) (b.axes_eq axes hc)]
  obtain ⟨h1, h2, _⟩ := b.nodup axes hax hc
  rw [List.foldr_append, List.foldr_cons, if_pos rfl, foldr_other T b _ _ h1, foldr_other T b _ _ h2]

/-- The boundary dofs of a transformed function: the intermediate values transformed along the remaining axes. -/
theorem Boundary.dofs_eq (T : Space D K) (b : Boundary D K) (hb : b.Const) (axes : List (Fin D)) (hax : axes.Nodup)
    (hc : b.axis ∈ axes) (f : Arr D K) (j : ℕ) (hj : j < b.m) (I : Fin D → ℕ) :
    b.forward T axes f (Function.update I b.axis ((T.base b.axis).nm + j))
      = (b.after axes).foldr (fun a w => T.forward1 a w) (b.bcs T axes j) I := by
  rw [b.forward_eq T axes hax hc]
  have := congrFun (slice_foldr T b.axis (b.after axes) (b.nodup axes hax hc).1 ((T.base b.axis).nm + j)
    (b.forward1 T (b.bcs T axes) ((b.before axes).foldr (fun a w => T.forward1 a w)
        (if T.cartesian then f else T.measured f)))) I
  rw [slice] at this
  rw [this]
  congr 1
  have : slice b.axis ((T.base b.axis).nm + j) (b.forward1 T (b.bcs T axes)
      ((b.before axes).foldr (fun a w => T.forward1 a w) (if T.cartesian then f else T.measured f)))
      = b.bcs T axes j := by
    funext J
    rw [slice, b.forward1_dofs T _ _ _ _ hj, b.bcs_const T hb axes hax hc]
  rw [this]

/-- **C85 (boundary dofs).** Whatever function is transformed, the boundary dofs of the result are the boundary dofs that
`set_boundary_dofs(final=True)` gives every function of the space. -/
theorem C85_dofs (T : Space D K) (b : Boundary D K) (hb : b.Const) (axes : List (Fin D)) (hax : axes.Nodup)
    (hc : b.axis ∈ axes) (f : Arr D K) (j : ℕ) (hj : j < b.m) (I : Fin D → ℕ) :
    b.forward T axes f (Function.update I b.axis ((T.base b.axis).nm + j)) = b.final T axes j I := by
  rw [Boundary.final, b.dofs_eq T hb axes hax hc f j hj I, b.dofs_eq T hb axes hax hc _ j hj I]

/-- **C85 (Galerkin equations).** For every function on the quadrature mesh, every order of the axes and separable or
not measure: the coefficients returned by `forward`, boundary dofs included, tested with every test function, give the
scalar product of the function. -/
theorem C85_galerkin (T : Space D K) (hT : T.Sound) (b : Boundary D K) (hb : b.Const) (axes : List (Fin D))
    (hax : axes.Nodup) (hall : ∀ a, a ∈ axes) (hs : ∀ a, T.Solves a) (f : Arr D K) (I : Fin D → ℕ)
    (hI : ∀ a, I a < (T.base a).nm) :
    ∑ J ∈ Fintype.piFinset fun a => range (b.size T a), (∏ a, b.full T a (I a) (J a)) * b.forward T axes f J
      = ∑ J ∈ Fintype.piFinset fun a => range (T.base a).nq,
          (∏ a, (T.base a).S (I a) (J a)) * (f J * T.sg fun a => (T.base a).pts (J a)) := by
  have key := galerkin_gen (fun a => (T.base a).nm) (b.size T) (b.full T) (fun a => (T.base a).nq)
    (fun a => (T.base a).S)
    (fun a w => if a = b.axis then b.forward1 T (b.bcs T axes) w else T.forward1 a w) axes hax ?_
    (if T.cartesian then f else T.measured f) I fun a _ => hI a
  · rw [all_axes _ _ axes.reverse (by simpa using hax) (by simpa using hall), all_axes _ _ axes hax hall,
      measured_eq T hT] at key
    simp only [Spec.tensorApply, Spec.tensorEntry, one_mul] at key
    simp only [Boundary.forward]
    rw [measured_eq T hT, key]
    rfl
  · intro a _ v J hJ
    by_cases h : a = b.axis
    · subst h
      simp only [if_true, Boundary.size]
      exact b.forward1_lift T _ (fun j I k => b.bcs_const T hb axes hax (hall _) j I k) (hs _) v J hJ
    · simp only [if_neg h, Boundary.size]
      have : b.full T a = (T.base a).mass (T.massMeasure a) := by
        funext i j
        rw [Boundary.full, if_neg (fun h' => h h'.1)]
      rw [this]
      exact forward1_galerkin T a (hs a) v J hJ

/-! ## The round trip -/

theorem inject_list (T : Space D K) (L : List (Fin D)) (hr : ∀ a ∈ L, T.Regular a) (x : Arr D K)
    (h : ∀ I : Fin D → ℕ, (∀ d, I d < (T.base d).nm) →
      L.foldr (fun a w => along (T.base a).nm ((T.base a).mass (T.massMeasure a)) a w) x I = 0) (I : Fin D → ℕ)
    (hI : ∀ d, I d < (T.base d).nm) : x I = 0 := by
  induction L with
  | nil => exact h I hI
  | cons a L ih =>
    refine ih (fun d hd => hr d (by simp [hd])) fun J hJ => ?_
    have := hr a (by simp) (fun j => L.foldr (fun a w => along (T.base a).nm ((T.base a).mass (T.massMeasure a)) a w) x
      (Function.update J a j)) (fun i hi => ?_) (J a) (hJ a)
    · simpa using this
    · have := h (Function.update J a i) (fun d => by
        by_cases hd : d = a
        · subst hd; simpa using hi
        · rw [Function.update_of_ne hd]; exact hJ d)
      simpa only [List.foldr_cons, along, Function.update_self, Function.update_idem] using this

theorem foldl_along (T : Space D K) (b : Boundary D K) (axes : List (Fin D)) (hax : axes.Nodup) (hall : ∀ a, a ∈ axes)
    (u : Arr D K) (I : Fin D → ℕ) :
    b.backward T axes u I
      = ∑ J ∈ Fintype.piFinset fun a => range (b.size T a), (∏ a, (T.base a).E (I a) (J a)) * u J := by
  have := all_axes (b.size T) (fun a => (T.base a).E) axes.reverse (by simpa using hax) (by simpa using hall) u I
  simp only [Spec.tensorApply, Spec.tensorEntry, one_mul] at this
  rw [← this, List.foldr_reverse, Boundary.backward]
  refine congrArg (fun g : Arr D K → Fin D → Arr D K => axes.foldl g u I) (funext fun w => funext fun a => ?_)
  by_cases h : a = b.axis
  · simp [Boundary.size, h]
  · simp [Boundary.size, h, Space.backward1]

/-- **C85 (`backward`).** The value at a quadrature point is the sum over all modes and boundary functions. -/
theorem C85_backward (T : Space D K) (b : Boundary D K) (axes : List (Fin D)) (hax : axes.Nodup)
    (hall : ∀ a, a ∈ axes) (u : Arr D K) (I : Fin D → ℕ) :
    b.backward T axes u I
      = ∑ J ∈ Fintype.piFinset fun a => range (b.size T a), (∏ a, (T.base a).E (I a) (J a)) * u J :=
  foldl_along T b axes hax hall u I

theorem full_quadrature (T : Space D K) (b : Boundary D K)
    (hq : ∀ a, (T.base a).Quadrature (T.massMeasure a)) (hqb : b.Quadrature T) (a : Fin D) (i : ℕ)
    (hi : i < (T.base a).nm) (j : ℕ) (hj : j < b.size T a) :
    b.full T a i j
      = ∑ k ∈ range (T.base a).nq, (T.base a).S i k * T.massMeasure a ((T.base a).pts k) * (T.base a).E k j := by
  by_cases h : a = b.axis
  · subst h
    by_cases hj' : (T.base b.axis).nm ≤ j
    · have h2 : j < (T.base b.axis).nm + b.m := by simpa [Boundary.size] using hj
      rw [Boundary.full, if_pos ⟨rfl, hj'⟩, hqb i hi _ (by omega), Nat.add_sub_cancel' hj']
    · rw [Boundary.full, if_neg (by omega), hq b.axis i hi j (by omega)]
  · rw [Boundary.full, if_neg (fun h' => h h'.1), hq a i hi j (by simpa [Boundary.size, h] using hj)]

theorem scalar_backward (T : Space D K) (hD : 0 < D) (t : Term D K) (ht : T.split = [t]) (b : Boundary D K)
    (hq : ∀ a, (T.base a).Quadrature (T.massMeasure a)) (hqb : b.Quadrature T) (axes : List (Fin D)) (hax : axes.Nodup)
    (hall : ∀ a, a ∈ axes) (u : Arr D K) (I : Fin D → ℕ) (hI : ∀ a, I a < (T.base a).nm) :
    ∑ J ∈ Fintype.piFinset fun a => range (T.base a).nq,
          (∏ a, (T.base a).S (I a) (J a)) * (b.backward T axes u J * T.sg fun a => (T.base a).pts (J a))
      = ∑ J ∈ Fintype.piFinset fun a => range (b.size T a), (∏ a, b.full T a (I a) (J a)) * u J := by
  simp only [foldl_along T b axes hax hall, Finset.sum_mul, Finset.mul_sum]
  rw [Finset.sum_comm]
  refine Finset.sum_congr rfl fun J hJ => ?_
  rw [Fintype.mem_piFinset] at hJ
  have : ∏ a, b.full T a (I a) (J a) = ∏ a, ∑ k ∈ range (T.base a).nq,
      (T.base a).S (I a) k * T.massMeasure a ((T.base a).pts k) * (T.base a).E k (J a) :=
    Finset.prod_congr rfl fun a _ => full_quadrature T b hq hqb a _ (hI a) _ (Finset.mem_range.1 (hJ a))
  rw [this, Finset.prod_univ_sum, Finset.sum_mul]
  refine Finset.sum_congr rfl fun k _ => ?_
  rw [← prod_massMeasure T hD t ht fun a => (T.base a).pts (k a)]
  simp only [Finset.prod_mul_distrib]
  ring

/-- **C85 (round trip).** `forward(backward(u)) == u` for all coefficients with the boundary dofs of the space, every order
of the axes, any number of dimensions and every separable measure. -/
theorem C85_roundtrip (T : Space D K) (hT : T.Sound) (hD : 0 < D) (t : Term D K) (ht : T.split = [t])
    (b : Boundary D K) (hb : b.Const) (axes : List (Fin D)) (hax : axes.Nodup) (hall : ∀ a, a ∈ axes)
    (hs : ∀ a, T.Solves a) (hr : ∀ a, T.Regular a) (hq : ∀ a, (T.base a).Quadrature (T.massMeasure a))
    (hqb : b.Quadrature T) (u : Arr D K)
    (hu : ∀ j < b.m, ∀ I : Fin D → ℕ, (∀ a, a ≠ b.axis → I a < (T.base a).nm) →
      u (Function.update I b.axis ((T.base b.axis).nm + j)) = b.final T axes j I)
    (I : Fin D → ℕ) (hI : ∀ a, I a < b.size T a) :
    b.forward T axes (b.backward T axes u) I = u I := by
  -- the boundary dofs agree
  have hbd : ∀ J : Fin D → ℕ, (∀ a, J a < b.size T a) → (T.base b.axis).nm ≤ J b.axis →
      b.forward T axes (b.backward T axes u) J = u J := by
    intro J hJ hJc
    have h1 : J b.axis < (T.base b.axis).nm + b.m := by simpa [Boundary.size] using hJ b.axis
    have h2 := C85_dofs T b hb axes hax (hall _) (b.backward T axes u) (J b.axis - (T.base b.axis).nm) (by omega) J
    have h3 := hu (J b.axis - (T.base b.axis).nm) (by omega) J fun a ha => by
      simpa [Boundary.size, ha] using hJ a
    rw [Nat.add_sub_cancel' hJc, Function.update_eq_self] at h2 h3
    rw [h2, h3]
  by_cases hIc : (T.base b.axis).nm ≤ I b.axis
  · exact hbd I hI hIc
  have hI' : ∀ a, I a < (T.base a).nm := by
    intro a
    by_cases ha : a = b.axis
    · subst ha; omega
    · simpa [Boundary.size, ha] using hI a
  refine sub_eq_zero.1 (inject_list T axes (fun a _ => hr a)
    (fun J => b.forward T axes (b.backward T axes u) J - u J) (fun P hP => ?_) I hI')
  rw [all_axes _ _ axes hax hall]
  simp only [Spec.tensorApply, Spec.tensorEntry, one_mul]
  have e := C85_galerkin T hT b hb axes hax hall hs (b.backward T axes u) P hP
  rw [scalar_backward T hD t ht b hq hqb axes hax hall u P hP, ← sub_eq_zero, ← Finset.sum_sub_distrib] at e
  rw [← e]
  have hsub : (Fintype.piFinset fun a => range (T.base a).nm) ⊆ Fintype.piFinset fun a => range (b.size T a) := by
    intro J hJ
    rw [Fintype.mem_piFinset] at hJ ⊢
    intro a
    have := Finset.mem_range.1 (hJ a)
    rw [Finset.mem_range, Boundary.size]
    split_ifs <;> omega
  rw [← Finset.sum_subset hsub]
  · refine Finset.sum_congr rfl fun J hJ => ?_
    rw [Fintype.mem_piFinset] at hJ
    have : ∏ a, b.full T a (P a) (J a) = ∏ a, (T.base a).mass (T.massMeasure a) (P a) (J a) := by
      refine Finset.prod_congr rfl fun a _ => ?_
      have := Finset.mem_range.1 (hJ a)
      rw [Boundary.full, if_neg (by omega)]
    rw [this]
    ring
  · intro J hJ hJ'
    rw [Fintype.mem_piFinset] at hJ hJ'
    have hJ1 : ∀ a, J a < b.size T a := fun a => Finset.mem_range.1 (hJ a)
    rw [hbd J hJ1 ?_, sub_self]
    by_contra hc
    apply hJ'
    intro a
    rw [Finset.mem_range]
    by_cases ha : a = b.axis
    · subst ha; omega
    · simpa [Boundary.size, ha] using hJ1 a

/-! ## The boundary dofs represent the boundary data -/

/-- **C85 (boundary data).** Where the measure does not depend on the other coordinates (in particular in Cartesian
coordinates): if the data of condition `j` are the values on the quadrature mesh of the expansion with coefficients `v` in
the other bases, then the boundary dofs are `v`. The condition on the constant of the measure holds for the default order
of the axes (`C85_default_order`). -/
theorem C85_data (T : Space D K) (t : Term D K) (ht : T.split = [t]) (b : Boundary D K) (hb : b.Const)
    (axes : List (Fin D)) (hax : axes.Nodup) (hall : ∀ a, a ∈ axes) (hs : ∀ a, T.Solves a) (hr : ∀ a, T.Regular a)
    (hq : ∀ a, (T.base a).Quadrature (T.massMeasure a)) (hfac : ∀ a, a ≠ b.axis → ∀ x, t.fac a x = 1)
    (hco : t.coeff = 1 ∨ (b.axis.val = D - 1 ↔ b.before axes = [])) (j : ℕ) (hj : j < b.m) (v : Arr D K)
    (hv : ∀ I, b.vals j I = ((b.after axes ++ b.before axes).foldl (fun w a => T.backward1 a w) v) I)
    (I : Fin D → ℕ) (hI : ∀ a, a ≠ b.axis → I a < (T.base a).nm) :
    b.final T axes j I = v I := by
  have hmem := b.axes_eq axes (hall _)
  obtain ⟨n1, n2, n3⟩ := b.nodup axes hax (hall _)
  have hin : ∀ a ∈ b.after axes ++ b.before axes, a ≠ b.axis := by
    intro a ha h
    subst h
    rcases List.mem_append.1 ha with h | h
    · exact n1 h
    · exact n2 h
  rw [Boundary.final, b.dofs_eq T hb axes hax (hall _) _ j hj I]
  have hw := inverse_list T (b.after axes ++ b.before axes) n3 (fun a _ => hs a) (fun a _ => hr a) (fun a _ => hq a) v I
    fun a ha => hI a (hin a ha)
  rw [← hw, List.foldr_append]
  -- the constant
  have hprod : ∀ J : Fin D → ℕ,
      ((b.after axes ++ b.before axes).map fun a => T.massMeasure a ((T.base a).pts (J a))).prod
        = if b.before axes = [] then 1 else t.coeff := by
    intro J
    have hm : ∀ a ∈ b.after axes ++ b.before axes, T.massMeasure a ((T.base a).pts (J a))
        = if a.val = D - 1 then t.coeff else 1 := by
      intro a ha
      simp only [Space.massMeasure, ht, hfac a (hin a ha), one_mul]
    rw [List.map_congr_left hm]
    by_cases hc1 : t.coeff = 1
    · simp [hc1]
    have hco' := hco.resolve_left hc1
    by_cases hl : b.axis.val = D - 1
    · rw [if_pos (hco'.1 hl), List.prod_eq_one]
      intro z hz
      obtain ⟨a, ha, rfl⟩ := List.mem_map.1 hz
      rw [if_neg]
      intro h
      exact hin a ha (Fin.ext (h.trans hl.symm))
    · rw [if_neg (fun h => hl (hco'.2 h))]
      have hD : 0 < D := b.axis.pos
      have hlast : (⟨D - 1, by omega⟩ : Fin D) ∈ b.after axes ++ b.before axes := by
        have := hall ⟨D - 1, by omega⟩
        rw [hmem] at this
        simp only [List.mem_append, List.mem_cons] at this ⊢
        rcases this with h | h | h
        · exact Or.inl h
        · exact absurd (by rw [← h]) hl
        · exact Or.inr h
      have hf : ∀ a : Fin D, (if a.val = D - 1 then t.coeff else 1)
          = if a = (⟨D - 1, by omega⟩ : Fin D) then t.coeff else 1 := by
        intro a
        by_cases h : a.val = D - 1
        · rw [if_pos h, if_pos (Fin.ext h)]
        · rw [if_neg h, if_neg (fun h' => h (by rw [h']))]
      simp only [hf]
      rw [← List.prod_toFinset _ n3, Finset.prod_ite_eq', if_pos (by simpa using hlast)]
  have hb2 : (b.after axes ++ b.before axes).foldl (fun w a => T.weighted1 a w) v
      = fun J => (if b.before axes = [] then 1 else t.coeff) * b.vals j J := by
    funext J
    rw [foldl_weighted T _ n3, hprod J, hv J]
  rw [hb2]
  congr 1
  rw [Boundary.bcs]
  by_cases he : b.before axes = []
  · simp [he]
  · rw [if_neg (by simpa using he)]
    have : T.coeff = t.coeff := by simp [Space.coeff, ht]
    rw [this, if_neg he]

/-- The order `0, 1, ..., D - 1` of the axes, which is the default (`/repo/shenfun/tensorproductspace.py:314-345`),
satisfies the condition of `C85_data`. -/
theorem C85_default_order (b : Boundary D K) : b.axis.val = D - 1 ↔ b.before (List.finRange D) = [] := by
  have hm := b.axes_eq (List.finRange D) (List.mem_finRange _)
  have hs : (List.finRange D).Pairwise (· < ·) := List.pairwise_lt_finRange D
  rw [hm, List.pairwise_append] at hs
  obtain ⟨_, h2, h3⟩ := hs
  constructor
  · intro h
    rw [List.eq_nil_iff_forall_not_mem]
    intro a ha
    have h4 := (List.pairwise_cons.1 h2).1 a ha
    have := a.isLt
    rw [Fin.lt_def] at h4
    omega
  · intro h
    by_contra hne
    have hD : 0 < D := b.axis.pos
    have hmem : (⟨D - 1, by omega⟩ : Fin D) ∈ List.finRange D := List.mem_finRange _
    rw [hm, h] at hmem
    simp only [List.mem_append, List.mem_cons, List.not_mem_nil, or_false] at hmem
    rcases hmem with hmem | hmem
    · have := h3 _ hmem b.axis (by simp)
      rw [Fin.lt_def] at this
      have := b.axis.isLt
      simp at *
      omega
    · exact hne (by rw [← hmem])

/-! ## A concrete space -/

/-- Three points `0, 1, 3`, one mode `x` that vanishes at `0`, one boundary function `1`, unit weights. -/
def exBase1 : Base ℚ where
  nq := 3
  nm := 1
  pts k := if k = 0 then 0 else if k = 1 then 1 else 3
  E k j := if j = 0 then (if k = 0 then 0 else if k = 1 then 1 else 3) else 1
  S _ k := if k = 0 then 0 else if k = 1 then 1 else 3
  mass g _ _ := 1 * g 1 * 1 + 3 * g 3 * 3
  solve g b := fun i => b i / (1 * g 1 * 1 + 3 * g 3 * 3)

/-- `exBase` along axis 0, `exBase1` along axis 1, measure `7 g(x)`. -/
def exBSpace (g : ℚ → ℚ) : Space 2 ℚ where
  base a := if a = 0 then exBase else exBase1
  cartesian := false
  split := [⟨7, fun a x => if a = 0 then g x else 1⟩]

/-- The condition `u = 2 + x` on the boundary of axis 1. -/
def exBoundary : Boundary 2 ℚ where
  axis := 1
  m := 1
  B g _ _ := 1 * g 1 + 3 * g 3
  vals _ I := 2 + exBase.pts (I 0)

theorem exBSpace_solves (g : ℚ → ℚ) (hg : g = (fun _ => 1) ∨ g = fun x => x) (a : Fin 2) : (exBSpace g).Solves a := by
  intro b i hi
  rcases hg with rfl | rfl <;> fin_cases a
  · change i < 2 at hi
    interval_cases i <;> simp [exBSpace, exBase, Space.massMeasure, Finset.sum_range_succ] <;> ring
  · change i < 1 at hi
    interval_cases i
    simp [exBSpace, exBase1, Space.massMeasure]
    ring
  · change i < 2 at hi
    interval_cases i <;> simp [exBSpace, exBase, Space.massMeasure, Finset.sum_range_succ] <;> ring
  · change i < 1 at hi
    interval_cases i
    simp [exBSpace, exBase1, Space.massMeasure]
    ring

theorem exBSpace_regular (g : ℚ → ℚ) (hg : g = (fun _ => 1) ∨ g = fun x => x) (a : Fin 2) :
    (exBSpace g).Regular a := by
  intro x h i hi
  rcases hg with rfl | rfl <;> fin_cases a
  · have h0 := h 0 (by change 0 < 2; decide)
    have h1 := h 1 (by change 1 < 2; decide)
    change i < 2 at hi
    simp [exBSpace, exBase, Space.massMeasure, Finset.sum_range_succ] at h0 h1
    interval_cases i <;> linarith
  · have h0 := h 0 (by change 0 < 1; decide)
    change i < 1 at hi
    simp [exBSpace, exBase1, Space.massMeasure] at h0
    interval_cases i
    rcases h0 with h0 | h0
    · norm_num at h0
    · exact h0
  · have h0 := h 0 (by change 0 < 2; decide)
    have h1 := h 1 (by change 1 < 2; decide)
    change i < 2 at hi
    simp [exBSpace, exBase, Space.massMeasure, Finset.sum_range_succ] at h0 h1
    interval_cases i <;> linarith
  · have h0 := h 0 (by change 0 < 1; decide)
    change i < 1 at hi
    simp [exBSpace, exBase1, Space.massMeasure] at h0
    interval_cases i
    rcases h0 with h0 | h0
    · norm_num at h0
    · exact h0

theorem exBSpace_quadrature (g : ℚ → ℚ) (a : Fin 2) :
    ((exBSpace g).base a).Quadrature ((exBSpace g).massMeasure a) := by
  intro i hi j hj
  fin_cases a
  · rfl
  · change i < 1 at hi
    change j < 1 at hj
    obtain rfl : i = 0 := by omega
    obtain rfl : j = 0 := by omega
    simp [exBSpace, exBase1, Finset.sum_range_succ]

theorem exBoundary_quadrature (g : ℚ → ℚ) : exBoundary.Quadrature (exBSpace g) := by
  intro i hi j hj
  change i < 1 at hi
  change j < 1 at hj
  obtain rfl : i = 0 := by omega
  obtain rfl : j = 0 := by omega
  simp [exBSpace, exBase1, exBoundary, Finset.sum_range_succ]

/-- The coefficients `2, 1` of the data `2 + x`. -/
def exData : Arr 2 ℚ := fun I => if I 0 = 0 then 2 else if I 0 = 1 then 1 else 0

theorem exData_vals (g : ℚ → ℚ) (I : Fin 2 → ℕ) : exBoundary.vals 0 I
    = ((exBoundary.after [0, 1] ++ exBoundary.before [0, 1]).foldl (fun w a => (exBSpace g).backward1 a w) exData) I := by
  simp [Boundary.after, Boundary.before, exBoundary, Space.backward1, along, exBSpace, exBase, exData,
    Finset.sum_range_succ]

/-- The hypotheses of `C85_data` and `C85_roundtrip` hold for it with measure 7: the boundary dofs are `2, 1`. -/
example (I : Fin 2 → ℕ) (hI : I 0 < 2) : exBoundary.final (exBSpace fun _ => 1) [0, 1] 0 I = exData I :=
  C85_data (exBSpace fun _ => 1) _ rfl exBoundary (by intro j I k; simp [exBoundary]) [0, 1] (by decide) (by decide)
    (exBSpace_solves _ (Or.inl rfl)) (exBSpace_regular _ (Or.inl rfl)) (exBSpace_quadrature _)
    (by intro a ha x; simp) (Or.inr (by decide)) 0 (by decide) exData (exData_vals _) I
    (by intro a ha; fin_cases a; exacts [hI, absurd rfl ha])

example (u : Arr 2 ℚ) (hu : ∀ I : Fin 2 → ℕ, I 0 < 2 → u (Function.update I 1 1) = exData I) (I : Fin 2 → ℕ)
    (h0 : I 0 < 2) (h1 : I 1 < 2) :
    exBoundary.forward (exBSpace fun _ => 1) [0, 1] (exBoundary.backward (exBSpace fun _ => 1) [0, 1] u) I = u I := by
  refine C85_roundtrip (exBSpace fun _ => 1) (by intro h; exact absurd h (by decide)) (by decide) _ rfl exBoundary
    (by intro j I k; simp [exBoundary]) [0, 1] (by decide) (by decide) (exBSpace_solves _ (Or.inl rfl))
    (exBSpace_regular _ (Or.inl rfl)) (exBSpace_quadrature _) (exBoundary_quadrature _) u ?_ I
    (by intro a; fin_cases a; exacts [h0, h1])
  intro j hj J hJ
  change j < 1 at hj
  obtain rfl : j = 0 := by omega
  refine (hu J (hJ 0 (by decide))).trans ?_
  symm
  exact C85_data (exBSpace fun _ => 1) _ rfl exBoundary (by intro j I k; simp [exBoundary]) [0, 1] (by decide) (by decide)
    (exBSpace_solves _ (Or.inl rfl)) (exBSpace_regular _ (Or.inl rfl)) (exBSpace_quadrature _)
    (by intro a ha x; simp) (Or.inr (by decide)) 0 (by decide) exData (exData_vals _) J hJ

/-- **C85 (refuted in curvilinear coordinates).** In coordinates whose measure `7 x` depends on the coordinate along which
the boundary data vary (a boundary `theta = const` in polar coordinates), the data `2 + x` are representable and all
one-dimensional transforms are exact, but the boundary dofs are not those of `2 + x`: the data are solved with the mass
matrix of measure `x` without being multiplied by `x`. -/
theorem C85_curvilinear_refuted :
    (∀ a, (exBSpace fun x => x).Solves a) ∧ (∀ a, (exBSpace fun x => x).Regular a)
      ∧ (∀ a, ((exBSpace fun x => x).base a).Quadrature ((exBSpace fun x => x).massMeasure a))
      ∧ exBoundary.Quadrature (exBSpace fun x => x) ∧ exBoundary.Const
      ∧ (∀ I, exBoundary.vals 0 I = ((exBoundary.after [0, 1] ++ exBoundary.before [0, 1]).foldl
          (fun w a => (exBSpace fun x => x).backward1 a w) exData) I)
      ∧ ∃ I : Fin 2 → ℕ, (∀ a, a ≠ exBoundary.axis → I a < ((exBSpace fun x => x).base a).nm)
          ∧ exBoundary.final (exBSpace fun x => x) [0, 1] 0 I ≠ exData I := by
  refine ⟨exBSpace_solves _ (Or.inr rfl), exBSpace_regular _ (Or.inr rfl), exBSpace_quadrature _,
    exBoundary_quadrature _, by intro j I k; simp [exBoundary], exData_vals _, fun _ => 0, ?_, ?_⟩
  · intro a _
    fin_cases a <;> decide
  · decide +kernel

end Shenfun.TPT
