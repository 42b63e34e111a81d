import Verif.Lemmas.Lobatto
import Mathlib.Analysis.Calculus.LocalExtr.Rolle
import Mathlib.Order.WellFounded

/-!
# The roots of the Jacobi polynomials and the existence of the Gauss rules
-/

namespace Shenfun

open Real Spec Polynomial Finset

/-- `x 0 < ... < x (n-1)` are `n` roots of `p` inside the open interval `(-1, 1)`. -/
def IncRoots (n : ℕ) (x : ℕ → ℝ) (p : ℝ[X]) : Prop :=
  (∀ j < n, -1 < x j ∧ x j < 1) ∧ (∀ i j, i < j → j < n → x i < x j) ∧ ∀ j < n, p.eval (x j) = 0

/-- The Jacobi polynomial of degree `n` has `n` distinct roots in `(-1, 1)`: Rolle's theorem on the weighted derivative. -/
theorem exists_jacobi_roots (n : ℕ) {a b : ℝ} (ha : -1 < a) (hb : -1 < b) : ∃ x, IncRoots n x (jacobi a b n) := by
  induction n generalizing a b with
  | zero => exact ⟨fun _ => 0, by intro j h; omega, by intro i j _ h; omega, by intro j h; omega⟩
  | succ n ih =>
    obtain ⟨r, hr1, hr2, hr3⟩ := ih (a := a+1) (b := b+1) (by linarith) (by linarith)
    set q := derivative (jacobi a b (n+1)) with hq
    have hqr : ∀ j < n, q.eval (r j) = 0 := fun j hj => by
      rw [hq, derivative_jacobi, eval_mul, hr3 j hj, mul_zero]
    set F : ℝ → ℝ := fun x => (1-x)^(a+1) * (1+x)^(b+1) * q.eval x with hF
    set lam : ℝ := ((n+1 : ℕ):ℝ) * (((n+1 : ℕ):ℝ) + a + b + 1) with hlam
    have hlam0 : lam ≠ 0 := by
      rw [hlam]
      refine mul_ne_zero (by positivity) ?_
      push_cast
      have : (0:ℝ) ≤ n := by positivity
      intro h; linarith
    have hd : ∀ x ∈ Set.Ioo (-1:ℝ) 1, HasDerivAt F ((1-x)^a * (1+x)^b * (-lam * (jacobi a b (n+1)).eval x)) x := by
      intro x hx
      have l1 : (1 - x) ≠ 0 := by have := hx.2; intro h; linarith
      have l2 : (1 + x) ≠ 0 := by have := hx.1; intro h; linarith
      have d1 : HasDerivAt (fun x : ℝ => (1-x)^(a+1)) ((0 - 1) * (a+1) * (1-x)^(a+1-1)) x :=
        ((hasDerivAt_const x (1:ℝ)).sub (hasDerivAt_id x)).rpow_const (Or.inl l1)
      have d2 : HasDerivAt (fun x : ℝ => (1+x)^(b+1)) ((0 + 1) * (b+1) * (1+x)^(b+1-1)) x :=
        ((hasDerivAt_const x (1:ℝ)).add (hasDerivAt_id x)).rpow_const (Or.inl l2)
      have d3 := (d1.mul d2).mul (q.hasDerivAt x)
      refine d3.congr_deriv ?_
      have e1 : (1-x)^(a+1) = (1-x)^a * (1-x) := Real.rpow_add_one l1 a
      have e2 : (1+x)^(b+1) = (1+x)^b * (1+x) := Real.rpow_add_one l2 b
      have ode := congrArg (fun p => p.eval x) (jacobi_ode (a := a) (b := b) ha (n+1))
      simp only [eval_add, eval_sub, eval_mul, eval_one, eval_pow, eval_X, eval_C, eval_zero, ← hq] at ode
      simp only [add_sub_cancel_right, e1, e2, Pi.mul_apply]
      rw [hlam]
      linear_combination ((1-x)^a * (1+x)^b) * ode
    have hc : Continuous F := by
      have e1 : Continuous (fun x : ℝ => (1-x)^(a+1)) :=
        Continuous.rpow_const (by fun_prop) fun x => Or.inr (by linarith)
      have e2 : Continuous (fun x : ℝ => (1+x)^(b+1)) :=
        Continuous.rpow_const (by fun_prop) fun x => Or.inr (by linarith)
      exact (e1.mul e2).mul q.continuous
    set z : ℕ → ℝ := fun j => if j = 0 then -1 else if j = n + 1 then 1 else r (j - 1) with hz
    have hz0 : ∀ j ≤ n + 1, F (z j) = 0 := by
      intro j hj
      simp only [hz, hF]
      split_ifs with h1 h2
      · rw [show (1:ℝ) + -1 = 0 by ring, Real.zero_rpow (by linarith)]; ring
      · rw [show (1:ℝ) - 1 = 0 by ring, Real.zero_rpow (by linarith)]; ring
      · rw [hqr (j-1) (by omega), mul_zero]
    have hzlt : ∀ j ≤ n, z j < z (j+1) := by
      intro j hj
      simp only [hz]
      rw [if_neg (by omega : ¬ j + 1 = 0)]
      by_cases h1 : j = 0
      · rw [if_pos h1]
        split_ifs with h2
        · norm_num
        · exact (hr1 _ (by omega)).1
      · rw [if_neg h1, if_neg (by omega : ¬ j = n + 1)]
        split_ifs with h2
        · exact (hr1 _ (by omega)).2
        · exact hr2 _ _ (by omega) (by omega)
    have hzmem : ∀ j ≤ n + 1, -1 ≤ z j ∧ z j ≤ 1 := by
      intro j hj
      simp only [hz]
      split_ifs with h1 h2
      · norm_num
      · norm_num
      · exact ⟨(hr1 _ (by omega)).1.le, (hr1 _ (by omega)).2.le⟩
    have hroll : ∀ j, ∃ c : ℝ, j ≤ n → z j < c ∧ c < z (j+1) ∧ (jacobi a b (n+1)).eval c = 0 := by
      intro j
      by_cases hj : j ≤ n
      · obtain ⟨c, hc1, hc2⟩ := exists_deriv_eq_zero (hzlt j hj) hc.continuousOn
          (by rw [hz0 j (by omega), hz0 (j+1) (by omega)])
        refine ⟨c, fun _ => ⟨hc1.1, hc1.2, ?_⟩⟩
        have m1 : -1 < c := lt_of_le_of_lt (hzmem j (by omega)).1 hc1.1
        have m2 : c < 1 := lt_of_lt_of_le hc1.2 (hzmem (j+1) (by omega)).2
        rw [(hd c ⟨m1, m2⟩).deriv] at hc2
        have p1 : (1 - c)^a ≠ 0 := (Real.rpow_pos_of_pos (by linarith) a).ne'
        have p2 : (1 + c)^b ≠ 0 := (Real.rpow_pos_of_pos (by linarith) b).ne'
        have := (mul_eq_zero.1 hc2).resolve_left (mul_ne_zero p1 p2)
        exact (mul_eq_zero.1 this).resolve_left (neg_ne_zero.2 hlam0)
      · exact ⟨0, fun h => absurd h hj⟩
    choose x hx using hroll
    have hzmono : ∀ i j, i ≤ j → j ≤ n + 1 → z i ≤ z j := by
      intro i j hij hj
      induction j, hij using Nat.le_induction with
      | base => exact le_refl _
      | succ j hij ihj => exact (ihj (by omega)).trans (hzlt j (by omega)).le
    refine ⟨x, fun j hj => ?_, fun i j hij hj => ?_, fun j hj => (hx j (by omega)).2.2⟩
    · exact ⟨lt_of_le_of_lt (hzmem j (by omega)).1 (hx j (by omega)).1,
        lt_of_lt_of_le (hx j (by omega)).2.1 (hzmem (j+1) (by omega)).2⟩
    · exact lt_of_lt_of_le (hx i (by omega)).2.1 ((hzmono (i+1) j (by omega) (by omega)).trans (hx j (by omega)).1.le)

theorem IncRoots.injOn {n : ℕ} {x : ℕ → ℝ} {p : ℝ[X]} (h : IncRoots n x p) : Set.InjOn x (range n) := by
  intro i hi j hj e
  have hi : i < n := by simpa using hi
  have hj : j < n := by simpa using hj
  rcases lt_trichotomy i j with l | l | l
  · exact absurd e (h.2.1 i j l hj).ne
  · exact l
  · exact absurd e (h.2.1 j i l hi).ne'

/-- The roots of a polynomial of degree `n` in increasing order are unique. -/
theorem IncRoots.unique {n : ℕ} {x y : ℕ → ℝ} {p : ℝ[X]} (hp : p.degree = n) (hx : IncRoots n x p) (hy : IncRoots n y p)
    (j : ℕ) (hj : j < n) : x j = y j := by
  classical
  have hp0 : p ≠ 0 := by rintro rfl; rw [degree_zero] at hp; exact WithBot.bot_ne_coe hp
  have key : ∀ z : ℕ → ℝ, IncRoots n z p → Set.range (fun i : Fin n => z i) = {t | p.eval t = 0} := by
    intro z hz
    have hsub : (range n).image z ⊆ p.roots.toFinset := by
      intro t ht
      obtain ⟨i, hi, rfl⟩ := mem_image.1 ht
      rw [Multiset.mem_toFinset, mem_roots hp0]
      exact hz.2.2 i (mem_range.1 hi)
    have hcard : p.roots.toFinset.card ≤ ((range n).image z).card := by
      rw [card_image_of_injOn hz.injOn, card_range]
      have h1 := (Multiset.toFinset_card_le p.roots).trans (card_roots' p)
      rwa [natDegree_eq_of_degree_eq_some hp] at h1
    have he := eq_of_subset_of_card_le hsub hcard
    ext t
    simp only [Set.mem_range, Set.mem_ofPred_eq]
    constructor
    · rintro ⟨i, rfl⟩
      exact hz.2.2 i i.2
    · intro ht
      have : t ∈ p.roots.toFinset := by rw [Multiset.mem_toFinset, mem_roots hp0]; exact ht
      rw [← he] at this
      obtain ⟨i, hi, rfl⟩ := mem_image.1 this
      exact ⟨⟨i, mem_range.1 hi⟩, rfl⟩
  have mono : ∀ z : ℕ → ℝ, IncRoots n z p → StrictMono (fun i : Fin n => z i) :=
    fun z hz i j hij => hz.2.1 i j hij j.2
  have := (StrictMono.range_inj (mono x hx) (mono y hy)).1 ((key x hx).trans (key y hy).symm)
  exact congrFun this ⟨j, hj⟩

/-- Existence of the Gauss rule with `N` points for every Jacobi weight, with positive weights and points inside the
interval. -/
theorem exists_gauss (N : ℕ) {a b : ℝ} (ha : -1 < a) (hb : -1 < b) :
    ∃ x w : ℕ → ℝ, ExactRule a b x w N (2 * N) ∧ IncRoots N x (jacobi a b N) ∧ ∀ j < N, 0 < w j := by
  obtain ⟨x, hx⟩ := exists_jacobi_roots N ha hb
  obtain ⟨c, hc0, hc⟩ := eq_C_mul_nodal hx.injOn (degree_jacobi ha hb N) hx.2.2
  have h := exactRule_of_nodal ha hb (le_refl N) hx.injOn fun q hq => by
    have := jacobi_orthogonal_lower ha hb N q hq
    rw [hc, mul_left_comm, wInt_C_mul, mul_comm q] at this
    exact (mul_eq_zero.1 this).resolve_left hc0
  rw [← two_mul] at h
  refine ⟨x, _, h, hx, fun j hj => ?_⟩
  set L := Lagrange.basis (range N) x j with hL
  have hLd : L.degree = ((N - 1 : ℕ) : WithBot ℕ) := by
    rw [hL, Lagrange.degree_basis hx.injOn (mem_range.2 hj), card_range]
  have hL0 : L ≠ 0 := by intro h0; rw [h0, degree_zero] at hLd; exact WithBot.bot_ne_coe hLd
  have hLL := h (L * L) (by rw [degree_mul, hLd]; exact_mod_cast (by omega))
  have hpos := wInt_sq_pos ha hb hL0
  rw [← hLL, sum_eq_single j] at hpos
  · rw [eval_mul, hL, Lagrange.eval_basis_self hx.injOn (mem_range.2 hj)] at hpos
    simpa using hpos
  · intro i hi hij
    rw [eval_mul, hL, Lagrange.eval_basis_of_ne (Ne.symm hij) hi]
    simp
  · intro h; exact absurd (mem_range.2 hj) h

end Shenfun
