import Verif.Props.Boundary
import Verif.Lemmas.JacobiGram

/-!
# C49: the generic stencil exists at every index
-/

namespace Shenfun

open Polynomial Spec

/-- A polynomial with value and `K-1` derivatives zero at both ends is divisible by `(1-x²)^K`. -/
theorem dvd_of_both (K : ℕ) (p : ℝ[X]) (h : Homogeneous (both K) p) : (1 - X^2)^K ∣ p := by
  rcases eq_or_ne p 0 with rfl | hne
  · exact dvd_zero _
  rcases Nat.eq_zero_or_pos K with rfl | hK
  · simp
  have key : ∀ s : Side, (X - C s.pt)^K ∣ p := fun s => by
    rw [← le_rootMultiplicity_iff hne]
    have : K - 1 < p.rootMultiplicity s.pt := by
      rw [lt_rootMultiplicity_iff_isRoot_iterate_derivative hne]
      intro m hm
      refine h (s, m) ?_
      unfold both
      cases s
      · refine List.mem_append_left _ (List.mem_map.2 ⟨m, List.mem_range.2 (by omega), rfl⟩)
      · refine List.mem_append_right _ (List.mem_map.2 ⟨m, List.mem_range.2 (by omega), rfl⟩)
    omega
  have hcop : IsCoprime ((X - C (Side.left.pt))^K) ((X - C (Side.right.pt))^K) := by
    refine IsCoprime.pow (isCoprime_X_sub_C_of_isUnit_sub ?_)
    simp only [Side.pt]
    rw [isUnit_iff_ne_zero]; norm_num
  have hdvd := hcop.mul_dvd (key .left) (key .right)
  rw [← mul_pow] at hdvd
  have e : (X - C Side.left.pt) * (X - C Side.right.pt) = -(1 - X^2 : ℝ[X]) := by
    simp only [Side.pt, C_neg, C_1]; ring
  rw [e, neg_pow] at hdvd
  exact (dvd_mul_left _ _).trans hdvd

theorem dvd_iff_both (K : ℕ) (r : ℝ[X]) : Homogeneous (both K) ((1 - X^2)^K * r) := by
  intro bc hbc
  have hlt : bc.2 < K := by
    unfold both at hbc
    rcases List.mem_append.1 hbc with h | h <;>
    · obtain ⟨m, hm, rfl⟩ := List.mem_map.1 h
      exact List.mem_range.1 hm
  have e : (1 - X^2 : ℝ[X])^K = (X - C bc.1.pt)^K * (-(X + C bc.1.pt))^K := by
    rw [← mul_pow]
    congr 1
    have : (C bc.1.pt : ℝ[X]) * C bc.1.pt = 1 := by
      rw [← C_mul]; cases bc.1 <;> simp [Side.pt]
    linear_combination -this
  rw [e, mul_assoc]
  rcases eq_or_ne ((X - C bc.1.pt)^K * ((-(X + C bc.1.pt))^K * r)) 0 with h0 | h0
  · rw [h0]; simp
  · have hm : bc.2 < rootMultiplicity bc.1.pt ((X - C bc.1.pt)^K * ((-(X + C bc.1.pt))^K * r)) :=
      hlt.trans_le ((le_rootMultiplicity_iff h0).2 (dvd_mul_right _ _))
    exact isRoot_iterate_derivative_of_lt_rootMultiplicity hm

/-- The family consists of nonzero multiples of Jacobi polynomials. -/
structure JacobiFamily (a b : ℝ) (Q : ℕ → ℝ[X]) : Prop where
  ha : -1 < a
  hb : -1 < b
  scaled : ∃ g : ℕ → ℝ, (∀ n, g n ≠ 0) ∧ ∀ n, Q n = C (g n) * jacobi a b n

theorem JacobiFamily.degree {a b : ℝ} {Q : ℕ → ℝ[X]} (h : JacobiFamily a b Q) (n : ℕ) : (Q n).degree = n := by
  obtain ⟨g, hg, hQ⟩ := h.scaled
  rw [hQ, degree_C_mul (hg n), degree_jacobi h.ha h.hb]

theorem JacobiFamily.orthogonal_lower {a b : ℝ} {Q : ℕ → ℝ[X]} (h : JacobiFamily a b Q) (n : ℕ) (p : ℝ[X])
    (hp : p.degree < n) : wInt a b (p * Q n) = 0 := by
  obtain ⟨g, hg, hQ⟩ := h.scaled
  rw [hQ, mul_left_comm, wInt_C_mul, jacobi_orthogonal_lower h.ha h.hb n p hp, mul_zero]

theorem jacobiFamily_chebT : JacobiFamily (-(1/2)) (-(1/2)) chebT :=
  ⟨by norm_num, by norm_num, fun n => 1 / gbinom (n + -(1/2)) n,
    fun n => (one_div_pos.2 (gbinom_pos _ (by norm_num) n)).ne', fun n => chebyshevT_eq_jacobi n⟩

theorem jacobiFamily_chebU : JacobiFamily (1/2) (1/2) chebU :=
  ⟨by norm_num, by norm_num, fun n => (n+1) / gbinom (n + 1/2) n,
    fun n => (div_pos (by positivity) (gbinom_pos _ (by norm_num) n)).ne', fun n => chebyshevU_eq_jacobi n⟩

theorem jacobiFamily_legP : JacobiFamily 0 0 legP :=
  ⟨by norm_num, by norm_num, fun _ => 1, fun _ => one_ne_zero, fun n => by simp [legP]⟩

theorem jacobiFamily_jacobi {a b : ℝ} (ha : -1 < a) (hb : -1 < b) : JacobiFamily a b (jacobi a b) :=
  ⟨ha, hb, fun _ => 1, fun _ => one_ne_zero, fun n => by simp⟩

theorem jacobiFamily_ultraQ {a : ℝ} (ha : -1 < a) : JacobiFamily a a (ultraQ a) :=
  ⟨ha, ha, fun n => 1 / (jacobi a a n).eval 1, fun n => by
    show 1 / (jacobi a a n).eval 1 ≠ 0
    rw [jacobi_eval_one]; exact (one_div_pos.2 (gbinom_pos _ ha n)).ne', fun n => rfl⟩

/-- No nonzero combination of `2K` consecutive members satisfies the `2K` conditions at both ends. -/
theorem both_independent {a b : ℝ} {Q : ℕ → ℝ[X]} (hF : JacobiFamily a b Q) (K first : ℕ) (c : Fin (2*K) → ℝ)
    (h : Homogeneous (both K) (∑ j, C (c j) * Q (first + (j:ℕ)))) : c = 0 := by
  obtain ⟨r, hr⟩ := dvd_of_both K _ h
  refine eq_zero_of_sum_degree hF.degree first _ c ?_
  by_contra hne
  have hr0 : r ≠ 0 := fun h0 => by rw [h0, mul_zero] at hr; exact hne hr
  have hdeg : r.degree < first := by
    have h1 : (∑ j, C (c j) * Q (first + (j:ℕ))).degree < ((first + 2*K : ℕ) : WithBot ℕ) := by
      refine (degree_sum_le _ _).trans_lt ?_
      rw [Finset.sup_lt_iff (WithBot.bot_lt_coe _)]
      intro j _
      refine (degree_C_mul_le' _ _).trans_lt ?_
      rw [hF.degree]
      exact_mod_cast (by have := j.2; omega : first + (j:ℕ) < first + 2*K)
    have h2 : ((1 - X^2 : ℝ[X])^K).degree = ((2*K : ℕ) : WithBot ℕ) := by
      have : (1 - X^2 : ℝ[X]).degree = 2 := by
        rw [show (1 - X^2 : ℝ[X]) = -(X^2 - C 1) by rw [C_1]; ring, degree_neg, degree_X_pow_sub_C (by norm_num)]
        rfl
      rw [degree_pow, this]
      rw [nsmul_eq_mul]; push_cast; ring
    rw [hr, degree_mul, h2, degree_eq_natDegree hr0] at h1
    rw [degree_eq_natDegree hr0]
    have : 2*K + r.natDegree < first + 2*K := by exact_mod_cast h1
    exact_mod_cast (by omega : r.natDegree < first)
  have hz : wInt a b (r * ∑ j, C (c j) * Q (first + (j:ℕ))) = 0 := by
    rw [Finset.mul_sum, wInt_sum hF.ha hF.hb]
    refine Finset.sum_eq_zero fun j _ => ?_
    rw [mul_left_comm, wInt_C_mul, hF.orthogonal_lower _ _ (hdeg.trans_le (by exact_mod_cast Nat.le_add_right _ _)), mul_zero]
  rw [hr, show r * ((1 - X^2)^K * r) = (1 - X^2)^K * (r * r) by ring, ← wInt_add_nat hF.ha hF.hb] at hz
  have hK : (0:ℝ) ≤ K := by positivity
  exact absurd hz (wInt_sq_pos (by linarith [hF.ha]) (by linarith [hF.hb]) hr0).ne'

theorem bothRows_length (K : ℕ) : (bothRows K).length = 2 * K := by simp [bothRows, both]; omega

theorem homogeneous_of_bothRows {K : ℕ} {p : ℝ[X]} (h : ∀ r ∈ bothRows K, condValue r p = 0) : Homogeneous (both K) p := by
  intro bc hbc
  have := h (bc.1, .deriv bc.2) (List.mem_map.2 ⟨bc, hbc, rfl⟩)
  simpa [condValue] using this

theorem det_bcSystem_both {a b : ℝ} {Q : ℕ → ℝ[X]} (hF : JacobiFamily a b Q) {bv : ℕ → Side → ℕ → ℝ}
    (hQ : BoundaryValuesOf Q bv) (K first : ℕ) : (bcSystem bv (bothRows K) first).det ≠ 0 := by
  refine det_bcSystem_ne_zero hQ _ _ fun c hc => ?_
  have hl := bothRows_length K
  have := both_independent hF K first (fun j => c (Fin.cast hl.symm j)) (by
    have := homogeneous_of_bothRows (p := ∑ j, C (c j) * Q (first + (j:ℕ))) (fun r hr => hc r hr)
    convert this using 1
    exact Fintype.sum_equiv (finCongr hl.symm) _ _ fun j => by simp)
  funext j
  have := congrFun this (Fin.cast hl j)
  simpa using this

/-- **C49** (existence at every index).  For every Jacobi family and value and derivatives of order less than `K` at
both ends, the symbolic system of `get_stencil_matrix` is regular at every index. -/
theorem C49_stencil_regular {a b : ℝ} {Q : ℕ → ℝ[X]} (hF : JacobiFamily a b Q) {bv : ℕ → Side → ℕ → ℝ}
    (hQ : BoundaryValuesOf Q bv) (K n : ℕ) : (stencilSystem bv (bothRows K) n).det ≠ 0 := by
  have : stencilSystem bv (bothRows K) n = bcSystem bv (bothRows K) (n+1) := by
    funext r j
    simp only [stencilSystem, bcSystem, add_assoc]
  rw [this]
  exact det_bcSystem_both hF hQ K (n+1)

/-- **C49** For these conditions `get_stencil_matrix` succeeds for every Jacobi family, and every one of its basis
functions, at every size and index, satisfies the conditions and is nonzero. -/
theorem C49_get_stencil_matrix_both {a b : ℝ} {Q : ℕ → ℝ[X]} (hF : JacobiFamily a b Q) {bv : ℕ → Side → ℕ → ℝ}
    (hQ : BoundaryValuesOf Q bv) (K : ℕ) : ∃ st, getStencilMatrix bv (bothRows K) = some st ∧
      ∀ N i, i < N - 2 * K → Homogeneous (both K) (basisFunction Q (stencilMatrix st N (2*K)) i) ∧
        basisFunction Q (stencilMatrix st N (2*K)) i ≠ 0 := by
  have hreg := fun n => C49_stencil_regular hF hQ K n
  have hs : ∃ st, getStencilMatrix bv (bothRows K) = some st := by
    unfold getStencilMatrix
    rw [if_neg (fun h => hreg 0 (h 0))]
    exact ⟨_, rfl⟩
  obtain ⟨st, hst⟩ := hs
  refine ⟨st, hst, fun N i hi => ?_⟩
  have hl := bothRows_length K
  rw [← hl] at hi ⊢
  refine ⟨homogeneous_of_bothRows (C49_get_stencil_matrix hQ hst hi (hreg i)), ?_⟩
  obtain ⟨⟨c, hc⟩, _⟩ := C49_get_stencil_matrix_unique hQ hst hi (hreg i)
  rw [hc]
  intro h0
  have := eq_zero_of_sum_degree hF.degree i ((bothRows K).length + 1) (Fin.cons 1 c) (by
    rw [Fin.sum_univ_succ]
    simp only [Fin.cons_zero, Fin.cons_succ, Fin.val_zero, add_zero, C_1, one_mul, Fin.val_succ]
    rw [← h0]
    congr 1
    exact Finset.sum_congr rfl fun j _ => by rw [show i + ((j:ℕ) + 1) = i + 1 + j by ring])
  have h1 := congrFun this 0
  simp at h1

/-- Chebyshev, clamped conditions: `get_stencil_matrix` gives Shen's biharmonic space. -/
example : ∃ st, getStencilMatrix (bndValues (-(1/2)) (-(1/2)) (cnF (-(1/2)) (-(1/2)))) (bothRows 2) = some st ∧
    ∀ N i, i < N - 2 * 2 → Homogeneous (both 2) (basisFunction chebT (stencilMatrix st N (2*2)) i) ∧
      basisFunction chebT (stencilMatrix st N (2*2)) i ≠ 0 :=
  C49_get_stencil_matrix_both jacobiFamily_chebT C49_bnd_chebyshev 2


/-! ## Derivatives of consecutive orders -/

/-- Rows of the conditions "derivatives of order `s, ..., s+K-1` at both ends" (`s = 1, K = 1` is Neumann). -/
def shiftRows (s K : ℕ) : List (Side × BCRow) := (both K).map fun c => (c.1, .deriv (c.2 + s))

theorem JacobiFamily.derivative {a b : ℝ} {Q : ℕ → ℝ[X]} (hF : JacobiFamily a b Q) (s : ℕ) :
    JacobiFamily (a+s) (b+s) fun n => derivative^[s] (Q (n+s)) := by
  have hs : (0:ℝ) ≤ s := by positivity
  obtain ⟨g, hg, hQ⟩ := hF.scaled
  have h1 := hF.ha
  have h2 := hF.hb
  refine ⟨by linarith, by linarith,
    fun n => g (n+s) * ∏ i ∈ Finset.range s, ((n + s + a + b + 1 + i) / 2), fun n => ?_, fun n => ?_⟩
  · refine mul_ne_zero (hg _) (Finset.prod_ne_zero_iff.2 fun i hi => ?_)
    have hi' : (i:ℝ) + 1 ≤ s := by exact_mod_cast Finset.mem_range.1 hi
    have hn : (0:ℝ) ≤ n := by positivity
    have hi0 : (0:ℝ) ≤ i := by positivity
    exact ne_of_gt (by linarith)
  · rw [hQ, iterate_derivative_C_mul, iterate_derivative_jacobi, C_mul, mul_assoc]

/-- **C49** (existence, derivative conditions).  With conditions on the derivatives of orders `s, ..., s+K-1` at both
ends the systems of `findbasis` are regular as soon as the first function has degree at least `s`; for
`get_stencil_matrix` this means from index `n = s - 1` on. -/
theorem C49_shift_regular {a b : ℝ} {Q : ℕ → ℝ[X]} (hF : JacobiFamily a b Q) {bv : ℕ → Side → ℕ → ℝ}
    (hQ : BoundaryValuesOf Q bv) (s K first : ℕ) (h : s ≤ first) : (bcSystem bv (shiftRows s K) first).det ≠ 0 := by
  refine det_bcSystem_ne_zero hQ _ _ fun c hc => ?_
  have hl : (shiftRows s K).length = 2 * K := by simp [shiftRows, both]; omega
  obtain ⟨m, rfl⟩ := Nat.exists_eq_add_of_le' h
  have hsum : derivative^[s] (∑ j, C (c j) * Q (m + s + (j:ℕ))) = ∑ j, C (c j) * derivative^[s] (Q (m + (j:ℕ) + s)) := by
    rw [iterate_derivative_sum]
    exact Finset.sum_congr rfl fun j _ => by
      rw [iterate_derivative_C_mul, show m + s + (j:ℕ) = m + j + s by ring]
  have := both_independent (hF.derivative s) K m (fun j => c (Fin.cast hl.symm j)) (by
    have hh : Homogeneous (both K) (∑ j, C (c j) * derivative^[s] (Q (m + (j:ℕ) + s))) := by
      intro bc hbc
      have := hc (bc.1, .deriv (bc.2 + s)) (List.mem_map.2 ⟨bc, hbc, rfl⟩)
      simp only [condValue, Function.iterate_add_apply] at this
      rwa [hsum] at this
    convert hh using 1
    exact Fintype.sum_equiv (finCongr hl.symm) _ _ fun j => by simp)
  funext j
  have := congrFun this (Fin.cast hl j)
  simpa using this

/-- **C49** Neumann at both ends: the generic stencil is regular at every index, and each basis function of the space
satisfies both conditions. -/
theorem C49_get_stencil_matrix_neumann {a b : ℝ} {Q : ℕ → ℝ[X]} (hF : JacobiFamily a b Q) {bv : ℕ → Side → ℕ → ℝ}
    (hQ : BoundaryValuesOf Q bv) : ∃ st, getStencilMatrix bv [(Side.left, .deriv 1), (Side.right, .deriv 1)] = some st ∧
      ∀ N i, i < N - 2 → Homogeneous [(Side.left, 1), (Side.right, 1)] (basisFunction Q (stencilMatrix st N 2) i) := by
  have hreg : ∀ n, (stencilSystem bv [(Side.left, .deriv 1), (Side.right, .deriv 1)] n).det ≠ 0 := fun n => by
    have : stencilSystem bv [(Side.left, .deriv 1), (Side.right, .deriv 1)] n =
        bcSystem bv [(Side.left, .deriv 1), (Side.right, .deriv 1)] (n+1) := by
      funext r j
      simp only [stencilSystem, bcSystem, add_assoc]
    rw [this]
    exact C49_shift_regular hF hQ 1 1 (n+1) (by omega)
  have hs : ∃ st, getStencilMatrix bv [(Side.left, .deriv 1), (Side.right, .deriv 1)] = some st := by
    unfold getStencilMatrix
    rw [if_neg (fun h => hreg 0 (h 0))]
    exact ⟨_, rfl⟩
  obtain ⟨st, hst⟩ := hs
  refine ⟨st, hst, fun N i hi => ?_⟩
  have := C49_get_stencil_matrix hQ hst (N := N) (i := i) hi (hreg i)
  intro bc hbc
  have h2 := this (bc.1, .deriv bc.2) (by
    simp only [List.mem_cons, List.not_mem_nil, or_false] at hbc ⊢
    rcases hbc with rfl | rfl
    · exact Or.inl rfl
    · exact Or.inr rfl)
  simpa [condValue] using h2

end Shenfun
