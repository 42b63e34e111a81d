import Verif.Spec.Forms
import Mathlib.Tactic.LinearCombination
import Mathlib.Tactic.Ring
import Mathlib.Data.List.GetD

/-!
# C31, C32: arithmetic of expressions and derivatives
-/

namespace Shenfun

open Spec

variable {R : Type*} [CommRing R] {n m : ℕ}

section values

variable (D : Fin n → Derivation ℤ R R) (u : ℕ → R)

theorem compVal_nil : compVal D u [] = 0 := rfl

theorem compVal_cons (t : FTerm R n) (c : List (FTerm R n)) :
    compVal D u (t :: c) = t.scale * mixed D t.der (u t.ind) + compVal D u c := rfl

theorem compVal_append (c d : List (FTerm R n)) : compVal D u (c ++ d) = compVal D u c + compVal D u d := by
  unfold compVal; rw [List.map_append, List.sum_append]

theorem compVal_mul (c : List (FTerm R n)) (a : R) :
    compVal D u (c.map fun t => { t with scale := t.scale * a }) = compVal D u c * a := by
  induction c with
  | nil => simp [compVal]
  | cons t c ih => rw [List.map_cons, compVal_cons, compVal_cons, ih]; ring

theorem compVal_neg (c : List (FTerm R n)) :
    compVal D u (c.map fun t => { t with scale := -t.scale }) = -compVal D u c := by
  induction c with
  | nil => simp [compVal]
  | cons t c ih => rw [List.map_cons, compVal_cons, compVal_cons, ih]; ring

theorem value_of_le (e : FExpr R n) (i : ℕ) (h : e.length ≤ i) : value D u e i = 0 := by
  unfold value; rw [List.getD_eq_default _ _ h]; rfl

/-- **C31** (multiplication with a function). -/
theorem C31_mul (e : FExpr R n) (a : R) (i : ℕ) :
    (FExpr.mul e a).length = e.length ∧ value D u (FExpr.mul e a) i = value D u e i * a := by
  refine ⟨by simp [FExpr.mul], ?_⟩
  unfold value FExpr.mul
  by_cases h : i < e.length
  · rw [List.getD_eq_getElem _ _ (by simpa using h), List.getElem_map, List.getD_eq_getElem _ _ h, compVal_mul]
  · rw [List.getD_eq_default _ _ (by simpa using h), List.getD_eq_default _ _ (by simpa using h)]; simp [compVal]

/-- **C31** (multiplication with a tuple). -/
theorem C31_mulTuple (e : FExpr R n) (a : List R) (ha : a.length = e.length) (i : ℕ) :
    (FExpr.mulTuple e a).length = e.length ∧ value D u (FExpr.mulTuple e a) i = value D u e i * a.getD i 0 := by
  refine ⟨by simp [FExpr.mulTuple, ha], ?_⟩
  unfold value FExpr.mulTuple
  by_cases h : i < e.length
  · rw [List.getD_eq_getElem _ _ (by simpa [ha] using h), List.getElem_zipWith, List.getD_eq_getElem _ _ h,
      List.getD_eq_getElem _ _ (by omega), compVal_mul]
  · rw [List.getD_eq_default _ _ (by simp; omega), List.getD_eq_default _ _ (by omega)]; simp [compVal]

/-- **C31** (sum). -/
theorem C31_add (e f : FExpr R n) (h : e.length = f.length) (i : ℕ) :
    (FExpr.add e f).length = e.length ∧ value D u (FExpr.add e f) i = value D u e i + value D u f i := by
  refine ⟨by simp [FExpr.add, h], ?_⟩
  unfold value FExpr.add
  by_cases hi : i < e.length
  · rw [List.getD_eq_getElem _ _ (by simp; omega), List.getElem_zipWith, List.getD_eq_getElem _ _ hi,
      List.getD_eq_getElem _ _ (by omega), compVal_append]
  · rw [List.getD_eq_default _ _ (by simp; omega), List.getD_eq_default _ _ (by omega), List.getD_eq_default _ _ (by omega)]
    simp [compVal]

/-- **C31** (difference). -/
theorem C31_sub (e f : FExpr R n) (h : e.length = f.length) (i : ℕ) :
    (FExpr.sub e f).length = e.length ∧ value D u (FExpr.sub e f) i = value D u e i - value D u f i := by
  refine ⟨by simp [FExpr.sub, h], ?_⟩
  unfold value FExpr.sub
  by_cases hi : i < e.length
  · rw [List.getD_eq_getElem _ _ (by simp; omega), List.getElem_zipWith, List.getD_eq_getElem _ _ hi,
      List.getD_eq_getElem _ _ (by omega), compVal_append, compVal_neg]; ring
  · rw [List.getD_eq_default _ _ (by simp; omega), List.getD_eq_default _ _ (by omega), List.getD_eq_default _ _ (by omega)]
    simp [compVal]

/-- **C31** (negation). -/
theorem C31_neg (e : FExpr R n) (i : ℕ) :
    (FExpr.neg e).length = e.length ∧ value D u (FExpr.neg e) i = -value D u e i := by
  have h := C31_mul D u e (-1) i
  refine ⟨h.1, ?_⟩
  have h2 := h.2
  rw [mul_neg_one] at h2
  exact h2

theorem compVal_set {c : List (FTerm R n)} {k : ℕ} {s : FTerm R n} (hs : c[k]? = some s) (a : R) :
    compVal D u (c.set k { s with scale := s.scale + a }) = compVal D u c + a * mixed D s.der (u s.ind) := by
  induction c generalizing k with
  | nil => simp at hs
  | cons t c ih =>
    cases k with
    | zero =>
      simp only [List.getElem?_cons_zero, Option.some.injEq] at hs
      subst hs
      rw [List.set_cons_zero, compVal_cons, compVal_cons]; ring
    | succ k =>
      rw [List.getElem?_cons_succ] at hs
      rw [List.set_cons_succ, compVal_cons, compVal_cons, ih hs]; ring

theorem compVal_eraseIdx {c : List (FTerm R n)} {k : ℕ} {s : FTerm R n} (hs : c[k]? = some s) :
    compVal D u (c.eraseIdx k) = compVal D u c - s.scale * mixed D s.der (u s.ind) := by
  induction c generalizing k with
  | nil => simp at hs
  | cons t c ih =>
    cases k with
    | zero =>
      simp only [List.getElem?_cons_zero, Option.some.injEq] at hs
      subst hs
      rw [List.eraseIdx_cons_zero, compVal_cons]; ring
    | succ k =>
      rw [List.getElem?_cons_succ] at hs
      rw [List.eraseIdx_cons_succ, compVal_cons, compVal_cons, ih hs]; ring

theorem compVal_simplifyStep {isZero : R → Bool} (hz : ∀ a, isZero a = true → a = 0) (acc : List (FTerm R n)) (t : FTerm R n) :
    compVal D u (FExpr.simplifyStep isZero acc t) = compVal D u acc + t.scale * mixed D t.der (u t.ind) := by
  unfold FExpr.simplifyStep
  split
  · rename_i k hk
    rw [List.findIdx?_eq_some_iff_getElem] at hk
    obtain ⟨hlt, hp, -⟩ := hk
    rw [List.getElem?_eq_getElem hlt]
    simp only [Bool.and_eq_true, decide_eq_true_eq] at hp
    dsimp only
    have hg : acc[k]? = some acc[k] := List.getElem?_eq_getElem hlt
    split_ifs with h0
    · rw [compVal_eraseIdx D u hg, ← hp.1, ← hp.2]
      have := hz _ h0
      linear_combination (-mixed D acc[k].der (u acc[k].ind)) * this
    · rw [compVal_set D u hg, ← hp.1, ← hp.2]
  · split_ifs with h0
    · rw [hz _ h0]; ring
    · rw [compVal_append, compVal_cons, compVal_nil]; ring

/-- **C31** (`simplify`): whatever sympy recognises as zero, as long as it is zero. -/
theorem C31_simplify {isZero : R → Bool} (hz : ∀ a, isZero a = true → a = 0) (e : FExpr R n) (i : ℕ) :
    (FExpr.simplify isZero e).length = e.length ∧ value D u (FExpr.simplify isZero e) i = value D u e i := by
  unfold FExpr.simplify
  split_ifs
  · exact ⟨rfl, rfl⟩
  · refine ⟨by simp, ?_⟩
    unfold value
    by_cases h : i < e.length
    · rw [List.getD_eq_getElem _ _ (by simpa using h), List.getElem_map, List.getD_eq_getElem _ _ h]
      have key : ∀ (c acc : List (FTerm R n)), compVal D u (c.foldl (FExpr.simplifyStep isZero) acc) =
          compVal D u acc + compVal D u c := by
        intro c
        induction c with
        | nil => intro acc; simp [compVal]
        | cons t c ih =>
          intro acc
          rw [List.foldl_cons, ih, compVal_simplifyStep D u hz, compVal_cons]; ring
      rw [key, compVal_nil, zero_add]
    · rw [List.getD_eq_default _ _ (by simpa using h), List.getD_eq_default _ _ (by simpa using h)]

/-- **C31** (`simplify` leaves no two terms of a component that could be joined, unless it returns early). -/
theorem C31_simplify_distinct {isZero : R → Bool} (e : FExpr R n) :
    ∀ c ∈ FExpr.simplify isZero e, c.Pairwise fun s t => ¬ (s.der = t.der ∧ s.ind = t.ind) := by
  unfold FExpr.simplify
  split_ifs with h
  · intro c hc
    rw [List.all_eq_true] at h
    have h1 := h c hc
    rw [beq_iff_eq, List.length_eq_one_iff] at h1
    obtain ⟨t, rfl⟩ := h1
    simp
  · intro c hc
    obtain ⟨c0, -, rfl⟩ := List.mem_map.1 hc
    have key : ∀ (c acc : List (FTerm R n)), (acc.Pairwise fun s t => ¬ (s.der = t.der ∧ s.ind = t.ind)) →
        (c.foldl (FExpr.simplifyStep isZero) acc).Pairwise fun s t => ¬ (s.der = t.der ∧ s.ind = t.ind) := by
      intro c
      induction c with
      | nil => intro acc h; exact h
      | cons t c ih =>
        intro acc h
        rw [List.foldl_cons]
        apply ih
        unfold FExpr.simplifyStep
        split
        · rename_i k hk
          rw [List.findIdx?_eq_some_iff_getElem] at hk
          obtain ⟨hlt, hp, -⟩ := hk
          rw [List.getElem?_eq_getElem hlt]
          dsimp only
          split_ifs with h0
          · exact h.sublist (List.eraseIdx_sublist ..)
          · rw [List.pairwise_iff_getElem] at h ⊢
            intro i j hi hj hij
            rw [List.length_set] at hi hj
            have := h i j hi hj hij
            simp only [List.getElem_set]
            split_ifs <;> simp_all
        · rename_i hk
          rw [List.findIdx?_eq_none_iff] at hk
          split_ifs
          · exact h
          · rw [List.pairwise_append]
            refine ⟨h, by simp, ?_⟩
            intro s hs t' ht'
            rw [List.mem_singleton] at ht'
            subst ht'
            have := hk s hs
            simpa using this
    exact key c0 [] List.Pairwise.nil

end values

/-! ## Derivatives -/

section derivs

variable {D : Fin n → Derivation ℤ R R} (u : ℕ → R)

theorem iterate_comm_apply (hD : Commuting D) (i j : Fin n) (k : ℕ) (f : R) : D i ((D j)^[k] f) = (D j)^[k] (D i f) := by
  induction k generalizing f with
  | zero => rfl
  | succ k ih => rw [Function.iterate_succ_apply, ih, hD, Function.iterate_succ_apply]

theorem D_foldr (hD : Commuting D) (x : Fin n) (α : Fin n → ℕ) (L : List (Fin n)) (f : R) :
    L.foldr (fun i h => (D i)^[α i] h) (D x f) = D x (L.foldr (fun i h => (D i)^[α i] h) f) := by
  induction L with
  | nil => rfl
  | cons i L ih => rw [List.foldr_cons, List.foldr_cons, ih, iterate_comm_apply hD]

theorem foldr_update (hD : Commuting D) (x : Fin n) (α : Fin n → ℕ) (L : List (Fin n)) (hL : L.Nodup) (f : R) :
    L.foldr (fun i h => (D i)^[Function.update α x (α x + 1) i] h) f =
      if x ∈ L then D x (L.foldr (fun i h => (D i)^[α i] h) f) else L.foldr (fun i h => (D i)^[α i] h) f := by
  induction L with
  | nil => rfl
  | cons i L ih =>
    rw [List.nodup_cons] at hL
    rw [List.foldr_cons, List.foldr_cons, ih hL.2]
    by_cases hx : x = i
    · subst hx
      rw [if_neg hL.1, if_pos (by simp), Function.update_self, Function.iterate_succ_apply']
    · rw [Function.update_of_ne (Ne.symm hx)]
      by_cases hm : x ∈ L
      · rw [if_pos hm, if_pos (by simp [hm]), iterate_comm_apply hD]
      · rw [if_neg hm, if_neg (by simp [hm, hx])]

theorem mixed_update (hD : Commuting D) (x : Fin n) (α : Fin n → ℕ) (f : R) :
    mixed D (Function.update α x (α x + 1)) f = D x (mixed D α f) := by
  unfold mixed
  rw [foldr_update hD x α _ (List.nodup_finRange n), if_pos (List.mem_finRange x)]

theorem mixed_zero (f : R) : mixed D 0 f = f := by
  unfold mixed
  induction List.finRange n with
  | nil => rfl
  | cons i L ih => rw [List.foldr_cons, ih]; rfl

/-- **C32** (first derivative): product rule included. -/
theorem C32_dx1 (E : FormEnv R n m) (hD : Commuting E.D) (hz : ∀ a, E.isZero a = true → a = 0) (x : Fin n) (e : FExpr R n)
    (i : ℕ) : (E.dx1 x e).length = e.length ∧ value E.D u (E.dx1 x e) i = E.D x (value E.D u e i) := by
  unfold FormEnv.dx1
  refine ⟨by simp, ?_⟩
  unfold value
  by_cases h : i < e.length
  · rw [List.getD_eq_getElem _ _ (by simpa using h), List.getElem_map, List.getD_eq_getElem _ _ h]
    generalize e[i] = c
    rw [compVal_append]
    induction c with
    | nil => simp [compVal]
    | cons t c ih =>
      rw [List.map_cons, compVal_cons, compVal_cons, map_add, ← ih, Derivation.leibniz, mixed_update hD, List.filter_cons]
      by_cases h0 : E.isZero (E.D x t.scale) = true
      · rw [h0]
        simp only [Bool.not_true, Bool.false_eq_true, if_false, smul_eq_mul]
        rw [hz _ h0]; ring
      · rw [Bool.not_eq_true] at h0
        rw [h0]
        simp only [Bool.not_false, if_true, smul_eq_mul, List.map_cons, compVal_cons]
        ring
  · rw [List.getD_eq_default _ _ (by simpa using h), List.getD_eq_default _ _ (by simpa using h)]; simp [compVal]

/-- **C32** (`Dx(e, x, k)`): the value is the `k`-th partial derivative of the value, for all `k`. -/
theorem C32_dx (E : FormEnv R n m) (hD : Commuting E.D) (hz : ∀ a, E.isZero a = true → a = 0) (x : Fin n) (k : ℕ)
    (e : FExpr R n) (i : ℕ) :
    (E.dx x k e).length = e.length ∧ value E.D u (E.dx x k e) i = (E.D x)^[k] (value E.D u e i) := by
  unfold FormEnv.dx
  induction k with
  | zero => exact ⟨rfl, rfl⟩
  | succ k ih =>
    rw [Function.iterate_succ_apply', Function.iterate_succ_apply']
    have := C32_dx1 u E hD hz x ((E.dx1 x)^[k] e) i
    exact ⟨this.1.trans ih.1, by rw [this.2, ih.2]⟩

/-- **C31** (basis function): `Expr(u)` is the function itself. -/
theorem C31_ofBasis (nc offset i : ℕ) (h : i < nc) :
    value D u (FExpr.ofBasis nc offset) i = u (offset + i) := by
  unfold value FExpr.ofBasis
  rw [List.getD_eq_getElem _ _ (by simpa using h), List.getElem_map, List.getElem_range]
  simp [compVal, mixed_zero]

end derivs

end Shenfun
