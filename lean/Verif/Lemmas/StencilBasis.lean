import Verif.Lemmas.StencilBC
import Mathlib.Algebra.Polynomial.FieldDivision

/-!
# Triangular systems of polynomials are bases of constrained spaces
-/

namespace Shenfun

open Polynomial Spec

theorem Spec.Homogeneous.add {bcs : List (Side × ℕ)} {p q : ℝ[X]} (hp : Homogeneous bcs p) (hq : Homogeneous bcs q) :
    Homogeneous bcs (p + q) := fun bc h => by
  rw [iterate_map_add derivative, eval_add, hp bc h, hq bc h, add_zero]

theorem Spec.Homogeneous.C_mul {bcs : List (Side × ℕ)} {p : ℝ[X]} (c : ℝ) (hp : Homogeneous bcs p) :
    Homogeneous bcs (C c * p) := fun bc h => by
  rw [iterate_derivative_C_mul, eval_mul, hp bc h, mul_zero]

theorem Spec.Homogeneous.sub {bcs : List (Side × ℕ)} {p q : ℝ[X]} (hp : Homogeneous bcs p) (hq : Homogeneous bcs q) :
    Homogeneous bcs (p - q) := by
  have := hp.add (hq.C_mul (-1))
  simpa [sub_eq_add_neg] using this

/-- Triangular systems: if `φ i` has degree `i + m` from index `i0` on and the first `i0` functions span the
constrained polynomials of degree less than `i0 + m`, then `φ` is a basis. -/
theorem existsUnique_expansion {bcs : List (Side × ℕ)} {φ : ℕ → ℝ[X]} {m i0 n : ℕ} (h0 : i0 ≤ n)
    (hdeg : ∀ i, i0 ≤ i → i < n → (φ i).degree = (i + m : ℕ))
    (hom : ∀ i < n, Homogeneous bcs (φ i))
    (base : ∀ p : ℝ[X], p.degree < (i0 + m : ℕ) → Homogeneous bcs p → ∃! c : Fin i0 → ℝ, p = ∑ i, C (c i) * φ i)
    (hbase : ∀ i < i0, (φ i).degree < (i0 + m : ℕ)) :
    ∀ p : ℝ[X], p.degree < (n + m : ℕ) → Homogeneous bcs p → ∃! c : Fin n → ℝ, p = ∑ i, C (c i) * φ i := by
  induction n, h0 using Nat.le_induction with
  | base => exact base
  | succ n hn ih =>
    intro p hp hph
    have ih' := ih (fun i h1 h2 => hdeg i h1 (by omega)) (fun i h => hom i (by omega))
    have hφ := hdeg n hn (by omega)
    have hlt : ∀ i < n, (φ i).degree < (n + m : ℕ) := fun i hi => by
      by_cases h : i0 ≤ i
      · rw [hdeg i h (by omega)]; exact_mod_cast (by omega)
      · exact (hbase i (by omega)).trans_le (by exact_mod_cast (by omega))
    have hco : (φ n).coeff (n + m) ≠ 0 := by
      have h := coeff_ne_zero_of_eq_degree hφ
      exact h
    have hsum : ∀ c : Fin n → ℝ, (∑ i : Fin n, C (c i) * φ i).degree < (n + m : ℕ) := fun c => by
      refine (degree_sum_le _ _).trans_lt ?_
      rw [Finset.sup_lt_iff (WithBot.bot_lt_coe _)]
      intro i _
      refine (degree_mul_le _ _).trans_lt ?_
      have := hlt i i.2
      calc (C (c i)).degree + (φ i).degree ≤ 0 + (φ i).degree := by gcongr; exact degree_C_le
        _ = (φ i).degree := zero_add _
        _ < _ := this
    set k := p.coeff (n + m) / (φ n).coeff (n + m) with hk
    have hq : (p - C k * φ n).degree < (n + m : ℕ) := by
      rw [degree_lt_iff_coeff_zero]
      intro j hj
      rw [coeff_sub, coeff_C_mul]
      rcases Nat.eq_or_lt_of_le hj with rfl | hj
      · rw [hk]; field_simp; ring
      · rw [coeff_eq_zero_of_degree_lt (hp.trans_le (by exact_mod_cast (by omega))),
          coeff_eq_zero_of_degree_lt (by rw [hφ]; exact_mod_cast hj)]
        ring
    obtain ⟨c, hc, huniq⟩ := ih' (p - C k * φ n) hq (hph.sub ((hom n (by omega)).C_mul k))
    refine ⟨Fin.snoc c k, ?_, ?_⟩
    · show p = _
      rw [Fin.sum_univ_castSucc]
      simp only [Fin.snoc_castSucc, Fin.snoc_last, Fin.val_castSucc, Fin.val_last]
      have hc' : p - C k * φ n = ∑ i : Fin n, C (c i) * φ i := hc
      rw [← hc']; ring
    · intro d hd
      rw [Fin.sum_univ_castSucc] at hd
      simp only [Fin.val_castSucc, Fin.val_last] at hd
      have hlast : d (Fin.last n) = k := by
        have := congrArg (fun q => q.coeff (n + m)) hd
        simp only [coeff_add, coeff_C_mul] at this
        rw [coeff_eq_zero_of_degree_lt (hsum _)] at this
        rw [hk, this]; field_simp; ring
      have hinit : (fun i : Fin n => d i.castSucc) = c := by
        refine huniq _ ?_
        show p - C k * φ n = _
        rw [hd, hlast]; ring
      funext i
      refine Fin.lastCases ?_ (fun i => ?_) i
      · rw [hlast, Fin.snoc_last]
      · rw [Fin.snoc_castSucc, ← hinit]

/-- Only the zero polynomial of degree less than `2K` has value and `K-1` derivatives zero at both ends. -/
theorem both_unisolvent (K : ℕ) (p : ℝ[X]) (hp : p.degree < (2 * K : ℕ)) (h : Homogeneous (both K) p) : p = 0 := by
  by_contra hne
  rcases Nat.eq_zero_or_pos K with rfl | hK
  · simp at hp; exact hne hp
  have key : ∀ s : Side, (X - C s.pt)^K ∣ p := fun s => by
    rw [← le_rootMultiplicity_iff hne]
    have : K - 1 < p.rootMultiplicity s.pt := by
      rw [lt_rootMultiplicity_iff_isRoot_iterate_derivative hne]
      intro m hm
      refine h (s, m) ?_
      unfold both
      cases s
      · refine List.mem_append_left _ (List.mem_map.2 ⟨m, List.mem_range.2 (by omega), rfl⟩)
      · refine List.mem_append_right _ (List.mem_map.2 ⟨m, List.mem_range.2 (by omega), rfl⟩)
    omega
  have hcop : IsCoprime ((X - C (Side.left.pt))^K) ((X - C (Side.right.pt))^K) := by
    refine IsCoprime.pow (isCoprime_X_sub_C_of_isUnit_sub ?_)
    simp only [Side.pt]
    rw [isUnit_iff_ne_zero]; norm_num
  have hdvd := hcop.mul_dvd (key .left) (key .right)
  have hd := degree_le_of_dvd hdvd hne
  rw [degree_mul, degree_pow, degree_pow, degree_X_sub_C, degree_X_sub_C] at hd
  have : ((2 * K : ℕ) : WithBot ℕ) = K • (1 : WithBot ℕ) + K • 1 := by
    simp [two_mul]
  rw [this] at hp
  exact absurd hp (not_lt.2 hd)

/-! ## Degrees -/

theorem natDegree_eq_of_derivative {p : ℝ[X]} {n : ℕ} {x : ℝ} (hle : p.natDegree ≤ n)
    (h : (derivative^[n] p).eval x ≠ 0) : p.degree = n := by
  have hn : p.natDegree = n := by
    by_contra hne
    apply h
    rw [iterate_derivative_eq_zero (by omega), eval_zero]
  have hp0 : p ≠ 0 := by rintro rfl; apply h; simp
  rw [degree_eq_natDegree hp0, hn]

theorem bndFactor_self_ne_zero {a b : ℝ} (ha : -1 < a) (hb : -1 < b) (n : ℕ) : bndFactor a b n n ≠ 0 := by
  unfold bndFactor
  rw [Finset.prod_ne_zero_iff]
  intro i hi
  rw [Finset.mem_range] at hi
  have h1 : (0:ℝ) < n - i := by rw [sub_pos]; exact_mod_cast hi
  have h2 : (1:ℝ) ≤ n := by exact_mod_cast (by omega : 1 ≤ n)
  have h3 : (0:ℝ) ≤ i := Nat.cast_nonneg _
  have h4 : (0:ℝ) < n + a + b + 1 + i := by linarith
  have h5 : (0:ℝ) < 2 * (a + 1 + i) := by linarith
  positivity

theorem degree_jacobi {a b : ℝ} (ha : -1 < a) (hb : -1 < b) (n : ℕ) : (jacobi a b n).degree = n := by
  refine natDegree_eq_of_derivative (x := 1) (natDegree_jacobi_le a b n) ?_
  rw [iterate_derivative_jacobi_eval_one a b ha]
  exact mul_ne_zero (gbinom_pos a ha n).ne' (bndFactor_self_ne_zero ha hb n)

theorem degree_chebT (n : ℕ) : (chebT n).degree = n := by
  unfold chebT; rw [Chebyshev.degree_T]; simp

theorem degree_chebU (n : ℕ) : (chebU n).degree = n := Chebyshev.degree_U_natCast ℝ n

theorem degree_legP (n : ℕ) : (legP n).degree = n := degree_jacobi (by norm_num) (by norm_num) n

theorem degree_ultraQ {a : ℝ} (ha : -1 < a) (n : ℕ) : (ultraQ a n).degree = n := by
  unfold ultraQ
  rw [degree_C_mul, degree_jacobi ha ha]
  rw [jacobi_eval_one]
  exact one_div_ne_zero (gbinom_pos a ha n).ne'

/-- Degree of a basis function with a nonzero entry at the last offset. -/
theorem degree_basisFunction {Q : ℕ → ℝ[X]} (hQ : ∀ n, (Q n).degree = n) (st : Stencil) (N nbc i : ℕ) (hi : i < N - nbc)
    (ho : ∀ e ∈ st, e.1 ≤ nbc)
    (ht : ((st.filter fun e => e.1 = nbc).map fun e => e.2.at i).sum ≠ 0) :
    (basisFunction Q (stencilMatrix st N nbc) i).degree = (i + nbc : ℕ) := by
  rw [basisFunction_stencil Q st N nbc i hi ho]
  have hle : ((st.map fun e : ℕ × SVal => C (e.2.at i) * Q (i + e.1)).sum).natDegree ≤ i + nbc := by
    clear ht
    induction st with
    | nil => simp
    | cons e st ih =>
      simp only [List.map_cons, List.sum_cons]
      refine (natDegree_add_le _ _).trans (max_le ?_ (ih fun e he => ho e (List.mem_cons_of_mem _ he)))
      refine (natDegree_C_mul_le _ _).trans ?_
      rw [natDegree_eq_of_degree_eq_some (hQ _)]
      have := ho e List.mem_cons_self
      omega
  have hco : ((st.map fun e : ℕ × SVal => C (e.2.at i) * Q (i + e.1)).sum).coeff (i + nbc) =
      ((st.filter fun e => e.1 = nbc).map fun e => e.2.at i).sum * (Q (i + nbc)).coeff (i + nbc) := by
    clear ht hle
    induction st with
    | nil => simp
    | cons e st ih =>
      have ih' := ih fun e he => ho e (List.mem_cons_of_mem _ he)
      have h1 := ho e List.mem_cons_self
      simp only [List.map_cons, List.sum_cons, coeff_add, coeff_C_mul, ih', List.filter_cons]
      by_cases he : e.1 = nbc
      · simp [he]; ring
      · have : (Q (i + e.1)).coeff (i + nbc) = 0 :=
          coeff_eq_zero_of_degree_lt (by rw [hQ]; exact_mod_cast (by omega))
        simp [he, this]
  have hne : ((st.map fun e : ℕ × SVal => C (e.2.at i) * Q (i + e.1)).sum).coeff (i + nbc) ≠ 0 := by
    rw [hco]
    exact mul_ne_zero ht (coeff_ne_zero_of_eq_degree (hQ _))
  exact degree_eq_of_le_of_coeff_ne_zero (natDegree_le_iff_degree_le.1 hle) hne

/-- The whole argument for one class. -/
theorem isBasisFor_stencil {Q : ℕ → ℝ[X]} (hQ : ∀ n, (Q n).degree = n) {st : Stencil} {bcs : List (Side × ℕ)} {nbc : ℕ}
    (ho : ∀ e ∈ st, e.1 ≤ nbc)
    (ht : ∀ i : ℕ, ((st.filter fun e => e.1 = nbc).map fun e => e.2.at i).sum ≠ 0)
    (hom : ∀ N i, i < N - nbc → Homogeneous bcs (basisFunction Q (stencilMatrix st N nbc) i))
    (uni : ∀ p : ℝ[X], p.degree < (nbc : ℕ) → Homogeneous bcs p → p = 0) (N : ℕ) (hN : nbc ≤ N) :
    IsBasisFor bcs N (N - nbc) (basisFunction Q (stencilMatrix st N nbc)) := by
  have hd : ∀ i, i < N - nbc → (basisFunction Q (stencilMatrix st N nbc) i).degree = (i + nbc : ℕ) := fun i hi =>
    degree_basisFunction hQ st N nbc i hi ho (ht i)
  refine ⟨fun i hi => ⟨?_, hom N i hi⟩, ?_⟩
  · rw [hd i hi]; exact_mod_cast (by omega)
  · have h := existsUnique_expansion (bcs := bcs) (φ := basisFunction Q (stencilMatrix st N nbc)) (m := nbc) (i0 := 0)
      (n := N - nbc) (Nat.zero_le _) (fun i _ hi => hd i hi) (hom N)
      (fun p hp hh => ⟨Fin.elim0, by simp [uni p (by simpa using hp) hh], fun d _ => by funext i; exact i.elim0⟩)
      (fun i hi => absurd hi (Nat.not_lt_zero _))
    rwa [Nat.sub_add_cancel hN] at h

end Shenfun
