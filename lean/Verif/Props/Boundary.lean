import Verif.Model.Boundary
import Verif.Spec.BoundaryData
import Verif.Lemmas.Stencil
import Verif.Lemmas.StencilBasis
import Verif.Props.StencilJacobi

/-!
# C49: boundary values, generic stencils and boundary bases
-/

namespace Shenfun

open Polynomial Spec

/-! ## `bnd_values` -/

/-- **C49** (boundary values).  `bnd_values(alf, bet, k, gn)` returns, for every order `k`, index `n` and all Jacobi
parameters and scalings, the `k`-th derivative of `g_n P_n^{(alf,bet)}` at the two ends. -/
theorem C49_bnd_values (a b : ℝ) (gn : ℕ → ℝ) (k : ℕ) (s : Side) (n : ℕ) :
    bndValues a b gn k s n = (derivative^[k] (C (gn n) * jacobi a b n)).eval s.pt := by
  rw [iterate_derivative_C_mul, eval_mul, eval_C]
  rcases lt_or_ge n k with h | h
  · have h1 : ((n:ℤ) - k) < 0 := by omega
    rw [iterate_derivative_eq_zero ((natDegree_jacobi_le a b n).trans_lt h), eval_zero, mul_zero]
    cases s <;> simp [bndValues, spBinomial, h1]
  · obtain ⟨m, rfl⟩ := Nat.exists_eq_add_of_le' h
    have h1 : ¬ (((m + k : ℕ):ℤ) - k < 0) := by omega
    have h2 : (((m + k : ℕ):ℤ) - k).toNat = m := by omega
    have hg : bndGam a b k (m+k) = ∏ i ∈ Finset.range k, (((m:ℝ) + k + a + b + 1 + i) / 2) := by
      unfold bndGam
      rw [Finset.prod_div_distrib]
      split_ifs with hk
      · simp [rf, div_eq_mul_inv]
      · obtain rfl : k = 0 := by omega
        simp
    rw [iterate_derivative_jacobi, eval_mul, eval_C]
    cases s
    · simp only [bndValues, spBinomial, h1, h2, if_false, hg, Side.pt, jacobi_eval_neg_one]
      have e : ((-1:ℝ))^(k + (m+k)) = (-1)^m := by
        rw [show k + (m+k) = m + 2*k by ring, pow_add, pow_mul]; simp
      have e2 : ((m + k : ℕ) : ℝ) + b = m + (b + k) := by push_cast; ring
      rw [e, e2]
      ring
    · simp only [bndValues, spBinomial, h1, h2, if_false, hg, Side.pt, jacobi_eval_one]
      have e2 : ((m + k : ℕ) : ℝ) + a = m + (a + k) := by push_cast; ring
      rw [e2]
      ring

/-- The boundary values `bv` handed to `findbasis` are those of the family `Q`. -/
def BoundaryValuesOf (Q : ℕ → ℝ[X]) (bv : ℕ → Side → ℕ → ℝ) : Prop :=
  ∀ k s n, bv k s n = (derivative^[k] (Q n)).eval s.pt

/-- **C49** Chebyshev polynomials of the first kind (`alpha = beta = -1/2`, `gn = cn`). -/
theorem C49_bnd_chebyshev :
    BoundaryValuesOf chebT (bndValues (-(1/2)) (-(1/2)) (cnF (-(1/2)) (-(1/2)))) := fun k s n => by
  rw [C49_bnd_values]
  unfold chebT cnF
  rw [chebyshevT_eq_jacobi, jacobi_eval_one]

/-- **C49** Chebyshev polynomials of the second kind (`alpha = beta = 1/2`, `gn = un`). -/
theorem C49_bnd_chebyshevu :
    BoundaryValuesOf chebU (bndValues (1/2) (1/2) (unF (1/2) (1/2))) := fun k s n => by
  rw [C49_bnd_values]
  unfold chebU unF
  rw [chebyshevU_eq_jacobi, jacobi_eval_one]

/-- **C49** Legendre polynomials (`alpha = beta = 0`, `gn = 1`). -/
theorem C49_bnd_legendre : BoundaryValuesOf legP (bndValues 0 0 fun _ => 1) := fun k s n => by
  rw [C49_bnd_values]; simp [legP]

/-- **C49** ultraspherical polynomials (`gn = cn`). -/
theorem C49_bnd_ultraspherical (a : ℝ) : BoundaryValuesOf (ultraQ a) (bndValues a a (cnF a a)) := fun k s n => by
  rw [C49_bnd_values]; rfl

/-- **C49** Gegenbauer polynomials (`gn = wn`). -/
theorem C49_bnd_gegenbauer (a : ℝ) : BoundaryValuesOf (gegenC a) (bndValues a a (wnF a)) := fun k s n => by
  rw [C49_bnd_values]; rfl

/-- **C49** Jacobi polynomials (`gn = 1`). -/
theorem C49_bnd_jacobi (a b : ℝ) : BoundaryValuesOf (jacobi a b) (bndValues a b fun _ => 1) := fun k s n => by
  rw [C49_bnd_values]; simp

/-! ## Conditions as functionals -/

/-- Value at `p` of the condition of a row: `p^(k)(side)` or `p^(k)(side) + alfa p^(k+1)(side)`. -/
noncomputable def condValue (r : Side × BCRow) (p : ℝ[X]) : ℝ :=
  match r.2 with
  | .deriv k => (derivative^[k] p).eval r.1.pt
  | .mixed k alfa => (derivative^[k] p).eval r.1.pt + alfa * (derivative^[k+1] p).eval r.1.pt

theorem condValue_add (r : Side × BCRow) (p q : ℝ[X]) : condValue r (p + q) = condValue r p + condValue r q := by
  unfold condValue
  split <;> simp only [iterate_map_add derivative, eval_add] <;> ring

theorem condValue_C_mul (r : Side × BCRow) (c : ℝ) (p : ℝ[X]) : condValue r (C c * p) = c * condValue r p := by
  unfold condValue
  split <;> simp only [iterate_derivative_C_mul, eval_mul, eval_C] <;> ring

theorem condValue_zero (r : Side × BCRow) : condValue r 0 = 0 := by
  have := condValue_C_mul r 0 0
  simpa using this

theorem condValue_sum {ι : Type*} (r : Side × BCRow) (s : Finset ι) (f : ι → ℝ[X]) :
    condValue r (∑ i ∈ s, f i) = ∑ i ∈ s, condValue r (f i) := by
  classical
  induction s using Finset.induction_on with
  | empty => simp [condValue_zero]
  | insert a s ha ih => rw [Finset.sum_insert ha, Finset.sum_insert ha, condValue_add, ih]

theorem rowValue_eq {Q : ℕ → ℝ[X]} {bv : ℕ → Side → ℕ → ℝ} (h : BoundaryValuesOf Q bv) (r : Side × BCRow) (j : ℕ) :
    rowValue bv r j = condValue r (Q j) := by
  obtain ⟨s, r⟩ := r
  cases r <;> simp only [rowValue, condValue, h _ _ _]

/-! ## `get_stencil_matrix` -/

theorem getStencil_offsets {bv : ℕ → Side → ℕ → ℝ} {rows : List (Side × BCRow)} {st : Stencil}
    (h : getStencilMatrix bv rows = some st) : ∀ e ∈ st, e.1 ≤ rows.length := by
  unfold getStencilMatrix at h
  split_ifs at h
  cases h
  intro e he
  rcases List.mem_cons.1 he with rfl | he
  · simp
  · obtain ⟨i, _, hi⟩ := List.mem_filterMap.1 he
    split_ifs at hi <;> (cases hi; simp)

theorem getStencil_sum {bv : ℕ → Side → ℕ → ℝ} {rows : List (Side × BCRow)} {st : Stencil}
    (h : getStencilMatrix bv rows = some st) (Q : ℕ → ℝ[X]) (i : ℕ) :
    (st.map fun e => C (e.2.at i) * Q (i + e.1)).sum =
      Q i + ∑ j, C (stencilSolution bv rows i j) * Q (i + (1 + (j:ℕ))) := by
  unfold getStencilMatrix at h
  split_ifs at h
  cases h
  rw [List.map_cons, List.sum_cons]
  congr 1
  · simp [SVal.at]
  · rw [← List.sum_ofFn, List.ofFn_eq_map]
    generalize List.finRange rows.length = L
    induction L with
    | nil => simp
    | cons j L ih =>
      rw [List.map_cons, List.sum_cons, ← ih]
      by_cases h0 : ∀ n, stencilSolution bv rows n j = 0
      · rw [List.filterMap_cons_none (by simp [h0])]
        simp [h0 i]
      · rw [List.filterMap_cons_some (by rw [if_neg h0])]
        rw [List.map_cons, List.sum_cons]
        congr 1
        split_ifs with hc
        · simp only [SVal.at, hc i, add_comm 1]
        · simp only [SVal.at, Nat.floor_natCast, add_comm 1]

/-- **C49** (generic composite bases).  For every list of conditions for which `get_stencil_matrix` returns a stencil,
every basis function assembled from the stencil satisfies all the conditions homogeneously (at every index where the
symbolic system is regular). -/
theorem C49_get_stencil_matrix {Q : ℕ → ℝ[X]} {bv : ℕ → Side → ℕ → ℝ} (hQ : BoundaryValuesOf Q bv)
    {rows : List (Side × BCRow)} {st : Stencil} (h : getStencilMatrix bv rows = some st)
    {N i : ℕ} (hi : i < N - rows.length) (hdet : (stencilSystem bv rows i).det ≠ 0) :
    ∀ r ∈ rows, condValue r (basisFunction Q (stencilMatrix st N rows.length) i) = 0 := by
  intro r hr
  obtain ⟨t, rfl⟩ := List.get_of_mem hr
  rw [basisFunction_stencil Q st N rows.length i hi (getStencil_offsets h), getStencil_sum h, condValue_add,
    condValue_sum]
  simp only [condValue_C_mul]
  have hs : (stencilSystem bv rows i).mulVec (stencilSolution bv rows i) = fun r => -rowValue bv (rows.get r) i := by
    unfold stencilSolution
    rw [Matrix.mulVec_mulVec, Matrix.mul_nonsing_inv _ (isUnit_iff_ne_zero.2 hdet), Matrix.one_mulVec]
  have := congrFun hs t
  simp only [Matrix.mulVec, dotProduct, stencilSystem, rowValue_eq hQ] at this
  have e : ∑ j : Fin rows.length, stencilSolution bv rows i j * condValue (rows.get t) (Q (i + (1 + (j:ℕ)))) =
      ∑ j : Fin rows.length, condValue (rows.get t) (Q (i + (1 + (j:ℕ)))) * stencilSolution bv rows i j :=
    Finset.sum_congr rfl fun j _ => mul_comm _ _
  rw [e, this]
  ring

/-- **C49** (narrowest, leading coefficient one).  The basis function is `Q_i` plus a combination of the next
`num_bcs` orthogonal functions, and it is the only function of that form satisfying the conditions. -/
theorem C49_get_stencil_matrix_unique {Q : ℕ → ℝ[X]} {bv : ℕ → Side → ℕ → ℝ} (hQ : BoundaryValuesOf Q bv)
    {rows : List (Side × BCRow)} {st : Stencil} (h : getStencilMatrix bv rows = some st)
    {N i : ℕ} (hi : i < N - rows.length) (hdet : (stencilSystem bv rows i).det ≠ 0) :
    (∃ c : Fin rows.length → ℝ, basisFunction Q (stencilMatrix st N rows.length) i =
      Q i + ∑ j, C (c j) * Q (i + 1 + (j:ℕ))) ∧
    ∀ c : Fin rows.length → ℝ, (∀ r ∈ rows, condValue r (Q i + ∑ j, C (c j) * Q (i + 1 + (j:ℕ))) = 0) →
      Q i + ∑ j, C (c j) * Q (i + 1 + (j:ℕ)) = basisFunction Q (stencilMatrix st N rows.length) i := by
  have hb : basisFunction Q (stencilMatrix st N rows.length) i =
      Q i + ∑ j, C (stencilSolution bv rows i j) * Q (i + 1 + (j:ℕ)) := by
    rw [basisFunction_stencil Q st N rows.length i hi (getStencil_offsets h), getStencil_sum h]
    simp only [add_assoc]
  refine ⟨⟨_, hb⟩, fun c hc => ?_⟩
  rw [hb]
  have hs : (stencilSystem bv rows i).mulVec c = fun r => -rowValue bv (rows.get r) i := by
    funext t
    have := hc (rows.get t) (List.get_mem rows t)
    rw [condValue_add, condValue_sum] at this
    simp only [condValue_C_mul] at this
    simp only [Matrix.mulVec, dotProduct, stencilSystem, rowValue_eq hQ, ← add_assoc]
    rw [Finset.sum_congr rfl fun j _ => mul_comm _ _]
    linarith
  have : c = stencilSolution bv rows i := by
    unfold stencilSolution
    rw [← hs, Matrix.mulVec_mulVec, Matrix.nonsing_inv_mul _ (isUnit_iff_ne_zero.2 hdet), Matrix.one_mulVec]
  rw [this]

/-! ## `get_bc_basis` -/

/-- **C49** (boundary functions).  Whenever `get_bc_basis` succeeds its functions are dual to the conditions: function
`r` takes the value one in condition `r` and zero in all the others. -/
theorem C49_get_bc_basis {Q : ℕ → ℝ[X]} {bv : ℕ → Side → ℕ → ℝ} (hQ : BoundaryValuesOf Q bv)
    {rows : List (Side × BCRow)} {nd first : ℕ} (h : getBcFirst bv rows nd = some first)
    (r s : Fin rows.length) :
    condValue (rows.get s) (bcBasisFunction Q bv rows first r) = if r = s then 1 else 0 := by
  classical
  have hdet : (bcSystem bv rows first).det ≠ 0 := by
    have := List.find?_some h
    simpa using this
  unfold bcBasisFunction
  rw [condValue_sum]
  simp only [condValue_C_mul]
  have key := congrFun (congrFun (Matrix.mul_nonsing_inv _ (isUnit_iff_ne_zero.2 hdet)) s) r
  rw [Matrix.mul_apply, Matrix.one_apply] at key
  rw [Finset.sum_range_add, Finset.sum_eq_zero, zero_add, Finset.sum_range]
  · rw [show (if r = s then (1:ℝ) else 0) = if s = r then 1 else 0 by simp only [eq_comm], ← key]
    refine Finset.sum_congr rfl fun j _ => ?_
    have hb : bcSol bv rows first r (first + (j:ℕ)) = (bcSystem bv rows first)⁻¹ j r := by
      unfold bcSol
      rw [dif_pos ⟨by omega, by simp⟩]
      simp [Matrix.transpose_apply]
    rw [hb, bcSystem, rowValue_eq hQ]
    exact mul_comm _ _
  · intro j hj
    have : ¬ (first ≤ j ∧ j - first < rows.length) := by have := Finset.mem_range.1 hj; omega
    simp [bcSol, this]

/-- The boundary basis is found at the first attempt for which no nonzero combination of
`Q_first, ..., Q_{first+num_bcs-1}` satisfies all conditions homogeneously. -/
theorem det_bcSystem_ne_zero {Q : ℕ → ℝ[X]} {bv : ℕ → Side → ℕ → ℝ} (hQ : BoundaryValuesOf Q bv)
    (rows : List (Side × BCRow)) (first : ℕ)
    (h : ∀ c : Fin rows.length → ℝ, (∀ r ∈ rows, condValue r (∑ j, C (c j) * Q (first + (j:ℕ))) = 0) → c = 0) :
    (bcSystem bv rows first).det ≠ 0 := by
  intro hdet
  obtain ⟨c, hc, h0⟩ := Matrix.exists_mulVec_eq_zero_iff.2 hdet
  refine hc (h c fun r hr => ?_)
  obtain ⟨t, rfl⟩ := List.get_of_mem hr
  rw [condValue_sum]
  simp only [condValue_C_mul]
  have := congrFun h0 t
  simp only [Matrix.mulVec, dotProduct, bcSystem, rowValue_eq hQ, Pi.zero_apply] at this
  rw [← this]
  exact Finset.sum_congr rfl fun j _ => mul_comm _ _

theorem degree_C_mul_le' (c : ℝ) (p : ℝ[X]) : (C c * p).degree ≤ p.degree := by
  refine (degree_mul_le _ _).trans ?_
  calc (C c).degree + p.degree ≤ 0 + p.degree := by gcongr; exact degree_C_le
    _ = p.degree := zero_add _

/-- Independence of polynomials of different degrees. -/
theorem eq_zero_of_sum_degree {Q : ℕ → ℝ[X]} (hd : ∀ n, (Q n).degree = n) (first m : ℕ) (c : Fin m → ℝ)
    (h : ∑ j, C (c j) * Q (first + (j:ℕ)) = 0) : c = 0 := by
  induction m with
  | zero => exact Subsingleton.elim _ _
  | succ m ih =>
    have hlast : c (Fin.last m) = 0 := by
      rw [Fin.sum_univ_castSucc] at h
      by_contra hne
      have h1 : (∑ j : Fin m, C (c j.castSucc) * Q (first + (j.castSucc:ℕ))).degree < ((first + m : ℕ) : WithBot ℕ) := by
        refine (degree_sum_le _ _).trans_lt ?_
        rw [Finset.sup_lt_iff (WithBot.bot_lt_coe _)]
        intro j _
        refine (degree_C_mul_le' _ _).trans_lt ?_
        rw [hd]
        exact_mod_cast (by have := j.2; simp : first + (j.castSucc:ℕ) < first + m)
      have h2 : (C (c (Fin.last m)) * Q (first + ((Fin.last m : Fin (m+1)):ℕ))).degree = ((first + m : ℕ) : WithBot ℕ) := by
        rw [degree_C_mul hne, hd]; simp
      have := degree_add_eq_right_of_degree_lt (h1.trans_eq h2.symm)
      rw [h, h2, degree_zero] at this
      exact absurd this.symm (by simp)
    have ih' := ih (fun j => c j.castSucc) (by
      rw [Fin.sum_univ_castSucc, hlast] at h
      simpa using h)
    funext j
    refine Fin.lastCases hlast (fun j => ?_) j
    exact congrFun ih' j

/-- Rows of the conditions "value and derivatives of order less than `K` at both ends". -/
def bothRows (K : ℕ) : List (Side × BCRow) := (both K).map fun c => (c.1, .deriv c.2)

/-- **C49** (existence).  For value and derivatives of order less than `K` at both ends -- the conditions of the tuple
forms -- `get_bc_basis` succeeds at once, for every family whose `n`-th member has degree `n`. -/
theorem C49_get_bc_basis_both {Q : ℕ → ℝ[X]} {bv : ℕ → Side → ℕ → ℝ} (hQ : BoundaryValuesOf Q bv)
    (hd : ∀ n, (Q n).degree = n) (K nd : ℕ) : getBcFirst bv (bothRows K) nd = some 0 := by
  classical
  have hdet : (bcSystem bv (bothRows K) 0).det ≠ 0 := by
    refine det_bcSystem_ne_zero hQ _ 0 fun c hc => ?_
    refine eq_zero_of_sum_degree hd 0 _ c ?_
    refine both_unisolvent K _ ?_ ?_
    · refine (degree_sum_le _ _).trans_lt ?_
      rw [Finset.sup_lt_iff (WithBot.bot_lt_coe _)]
      intro j _
      refine (degree_C_mul_le' _ _).trans_lt ?_
      rw [hd]
      have h2 := j.2
      have h3 : (bothRows K).length = 2 * K := by simp [bothRows, both]; omega
      exact_mod_cast (by omega : 0 + (j:ℕ) < 2 * K)
    · intro bc hbc
      have := hc (bc.1, .deriv bc.2) (List.mem_map.2 ⟨bc, hbc, rfl⟩)
      simpa [condValue] using this
  unfold getBcFirst
  rw [List.range_succ_eq_map, List.find?_cons_of_pos (by simpa using hdet)]

/-- **C49** (existence, Neumann).  For Neumann conditions at both ends the attempt `first = 0` is singular (the constant
`Q_0` satisfies both conditions) and the attempt `first = 1` succeeds. -/
theorem C49_get_bc_basis_neumann {Q : ℕ → ℝ[X]} {bv : ℕ → Side → ℕ → ℝ} (hQ : BoundaryValuesOf Q bv)
    (hd : ∀ n, (Q n).degree = n) (nd : ℕ) (hnd : 1 ≤ nd) :
    getBcFirst bv [(Side.left, .deriv 1), (Side.right, .deriv 1)] nd = some 1 := by
  classical
  have hdet0 : (bcSystem bv [(Side.left, .deriv 1), (Side.right, .deriv 1)] 0).det = 0 := by
    refine Matrix.det_eq_zero_of_column_eq_zero (0 : Fin 2) fun r => ?_
    have hc : derivative (Q 0) = 0 := by
      rw [eq_C_of_degree_eq_zero (hd 0)]; simp
    simp only [bcSystem, rowValue_eq hQ]
    fin_cases r <;> simp [condValue, hc]
  have hdet1 : (bcSystem bv [(Side.left, .deriv 1), (Side.right, .deriv 1)] 1).det ≠ 0 := by
    refine det_bcSystem_ne_zero hQ _ 1 fun c hc => ?_
    set p := ∑ j, C (c j) * Q (1 + (j:ℕ)) with hp
    have hdeg : p.degree < (3 : ℕ) := by
      refine (degree_sum_le _ _).trans_lt ?_
      rw [Finset.sup_lt_iff (WithBot.bot_lt_coe _)]
      intro j _
      refine (degree_C_mul_le' _ _).trans_lt ?_
      rw [hd]
      have h2 : (j:ℕ) < 2 := j.2
      exact_mod_cast (by omega : 1 + (j:ℕ) < 3)
    have hL := hc (Side.left, .deriv 1) (by simp)
    have hR := hc (Side.right, .deriv 1) (by simp)
    have hder : derivative p = 0 := by
      refine both_unisolvent 1 _ ?_ ?_
      · rcases eq_or_ne p 0 with h0 | h0
        · rw [h0, derivative_zero, degree_zero]; exact WithBot.bot_lt_coe _
        · have h1 := degree_derivative_lt h0
          have h2 : p.natDegree < 3 := (natDegree_lt_iff_degree_lt h0).2 hdeg
          rcases eq_or_ne (derivative p) 0 with h3 | h3
          · rw [h3, degree_zero]; exact WithBot.bot_lt_coe _
          · rw [← natDegree_lt_iff_degree_lt h3]
            have := natDegree_derivative_le p
            omega
      · intro bc hbc
        simp only [both, List.range_one, List.map_cons, List.map_nil, List.mem_append, List.mem_singleton] at hbc
        rcases hbc with rfl | rfl
        · simpa [condValue] using hL
        · simpa [condValue] using hR
    have hconst := natDegree_eq_zero_of_derivative_eq_zero hder
    rw [eq_C_of_natDegree_eq_zero hconst] at hp
    -- add the constant as a multiple of `Q 0`
    have hq : Q 0 = C ((Q 0).coeff 0) := eq_C_of_degree_eq_zero (hd 0)
    have hq0 : (Q 0).coeff 0 ≠ 0 := by
      intro h0
      rw [h0, C_0] at hq
      have := hd 0
      rw [hq, degree_zero] at this
      exact absurd this (by simp)
    have := eq_zero_of_sum_degree hd 0 3 ![-(p.coeff 0) / (Q 0).coeff 0, c 0, c 1] (by
      rw [Fin.sum_univ_three]
      have hs : ∑ j, C (c j) * Q (1 + (j:ℕ)) = C (c 0) * Q 1 + C (c 1) * Q 2 := Fin.sum_univ_two _
      rw [hs] at hp
      simp only [Matrix.cons_val_zero, Matrix.cons_val_one, Matrix.cons_val_two, Matrix.cons_val]
      have e : C (-(p.coeff 0) / (Q 0).coeff 0) * Q (0 + ((0:Fin 3):ℕ)) = -C (p.coeff 0) := by
        show C (-(p.coeff 0) / (Q 0).coeff 0) * Q 0 = _
        conv_lhs => rw [hq]
        rw [← C_mul, ← C_neg]
        congr 1
        simp only [coeff_C_zero]
        field_simp
      rw [e, hp]
      show -_ + C (c 0) * Q 1 + C (c 1) * Q 2 = 0
      ring)
    funext j
    fin_cases j
    · exact congrFun this 1
    · exact congrFun this 2
  unfold getBcFirst
  obtain ⟨m, rfl⟩ := Nat.exists_eq_add_of_le' hnd
  rw [List.range_succ_eq_map, List.find?_cons_of_neg (by simpa using hdet0), List.range_succ_eq_map, List.map_cons,
    List.find?_cons_of_pos (by simpa using hdet1)]

end Shenfun
