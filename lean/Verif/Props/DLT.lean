import Verif.Model.DLT
import Verif.Props.Leg2Cheb
import Verif.Props.GaussRules
import Mathlib.Analysis.Calculus.MeanValue
import Mathlib.Analysis.SpecialFunctions.Trigonometric.Bounds
import Mathlib.Topology.Algebra.Order.Floor
import Mathlib.Analysis.Real.Pi.Bounds

/-!
# C64: the fast discrete Legendre transform
-/

namespace Shenfun

open Real Spec Polynomial Finset Filter

variable {E : Type*} [NormedAddCommGroup E] [NormedSpace ℝ E]

/-! ## Taylor polynomials of the cosine -/

/-- Taylor polynomial of degree `m` of `cos` at `a`, increment `h`. -/
noncomputable def cosTaylor (m : ℕ) (a h : ℝ) : ℝ := ∑ i ∈ range (m+1), cos (a + i * (π/2)) * h^i / i.factorial

theorem cosTaylor_hasDerivAt (m : ℕ) (a h : ℝ) :
    HasDerivAt (cosTaylor (m+1) a) (cosTaylor m (a + π/2) h) h := by
  unfold cosTaylor
  have : HasDerivAt (fun h : ℝ => ∑ i ∈ range (m+1+1), cos (a + i * (π/2)) * h^i / i.factorial)
      (∑ i ∈ range (m+1+1), cos (a + i * (π/2)) * (i * h^(i-1)) / i.factorial) h :=
    HasDerivAt.fun_sum fun i _ => ((hasDerivAt_pow i h).const_mul _).div_const _
  refine this.congr_deriv ?_
  rw [sum_range_succ']
  simp only [Nat.cast_zero, zero_mul, mul_zero, zero_div, add_zero]
  refine sum_congr rfl fun i _ => ?_
  have hf : ((i+1).factorial : ℝ) = (i+1) * i.factorial := by rw [Nat.factorial_succ]; push_cast; ring
  have hi : (i.factorial : ℝ) ≠ 0 := by positivity
  rw [hf, Nat.add_sub_cancel, show a + ((i+1:ℕ):ℝ) * (π/2) = a + π/2 + i * (π/2) by push_cast; ring]
  push_cast
  field_simp

theorem cosTaylor_bound_nonneg (m : ℕ) (a h : ℝ) (hh : 0 ≤ h) :
    |cos (a + h) - cosTaylor m a h| ≤ h^(m+1) / (m+1).factorial := by
  induction m generalizing a h with
  | zero =>
    simp only [cosTaylor, zero_add, range_one, sum_singleton, Nat.cast_zero, zero_mul, add_zero, pow_zero, mul_one,
      Nat.factorial_zero, Nat.cast_one, div_one, pow_one, Nat.factorial_one]
    have := abs_cos_sub_cos_le (a + h) a
    rwa [add_sub_cancel_left, abs_of_nonneg hh] at this
  | succ m ih =>
    have hd : ∀ t : ℝ, HasDerivAt (fun t => cos (a + t) - cosTaylor (m+1) a t) (cos (a + π/2 + t) - cosTaylor m (a + π/2) t) t := by
      intro t
      have h1 : HasDerivAt (fun t => cos (a + t)) (-sin (a + t)) t := by
        have := (hasDerivAt_id t).const_add a
        simpa using this.cos
      have e : cos (a + π/2 + t) = -sin (a + t) := by rw [show a + π/2 + t = a + t + π/2 by ring, cos_add_pi_div_two]
      rw [e]
      exact h1.sub (cosTaylor_hasDerivAt m a t)
    have hB : ∀ t : ℝ, HasDerivAt (fun t => t^(m+1+1) / ((m+1+1).factorial : ℝ)) (t^(m+1) / (m+1).factorial) t := by
      intro t
      refine ((hasDerivAt_pow (m+1+1) t).div_const _).congr_deriv ?_
      have hf : ((m+1+1).factorial : ℝ) = (m+1+1) * (m+1).factorial := by rw [Nat.factorial_succ (m+1)]; push_cast; ring
      have hi : ((m+1).factorial : ℝ) ≠ 0 := by positivity
      rw [hf, Nat.add_sub_cancel]
      push_cast
      field_simp
    have := image_norm_le_of_norm_deriv_right_le_deriv_boundary (a := 0) (b := h)
      (f := fun t => cos (a + t) - cosTaylor (m+1) a t)
      (f' := fun t => cos (a + π/2 + t) - cosTaylor m (a + π/2) t)
      (fun t _ => (hd t).continuousAt.continuousWithinAt) (fun t _ => (hd t).hasDerivWithinAt)
      (B := fun t => t^(m+1+1) / ((m+1+1).factorial : ℝ)) (B' := fun t => t^(m+1) / ((m+1).factorial : ℝ)) ?_ hB
      (fun t ht => ih (a + π/2) t ht.1) (x := h) ⟨hh, le_refl h⟩
    · exact this
    · simp only [cosTaylor, add_zero]
      rw [sum_range_succ']
      simp

/-- Taylor's theorem for the cosine. -/
theorem cosTaylor_bound (m : ℕ) (a h : ℝ) : |cos (a + h) - cosTaylor m a h| ≤ |h|^(m+1) / (m+1).factorial := by
  rcases le_total 0 h with hh | hh
  · rw [abs_of_nonneg hh]; exact cosTaylor_bound_nonneg m a h hh
  · have := cosTaylor_bound_nonneg m (-a) (-h) (by linarith)
    rw [abs_of_nonpos hh]
    have e1 : cos (-a + -h) = cos (a + h) := by rw [← cos_neg]; congr 1; ring
    have e2 : cosTaylor m (-a) (-h) = cosTaylor m a h := by
      unfold cosTaylor
      refine sum_congr rfl fun i _ => ?_
      congr 1
      have hc : cos (-a + i * (π/2)) = (-1)^i * cos (a + i * (π/2)) := by
        have : -a + i * (π/2) = -(a + i * (π/2) - i * π) := by ring
        rw [this, cos_neg, cos_sub_nat_mul_pi]
      rw [hc, neg_pow h]
      have : ((-1:ℝ)^i) * (-1)^i = 1 := by rw [← mul_pow]; simp
      linear_combination (cos (a + i * (π/2)) * h^i) * this
    rwa [e1, e2] at this

/-- The sign and the choice between cosine and sine in the loop give the derivatives of the cosine. -/
theorem dlt_sign (n : ℕ) (a : ℝ) :
    (if (n + 1) / 2 % 2 = 0 then (1:ℝ) else -1) * (if n % 2 = 0 then cos a else sin a) = cos (a + n * (π/2)) := by
  obtain ⟨q, r, hr, rfl⟩ : ∃ q r, r < 4 ∧ n = 4 * q + r := ⟨n / 4, n % 4, Nat.mod_lt _ (by norm_num), (Nat.div_add_mod n 4).symm⟩
  have e : cos (a + ((4 * q + r : ℕ):ℝ) * (π/2)) = cos (a + r * (π/2)) := by
    rw [← cos_add_nat_mul_two_pi (a + r * (π/2)) q]
    congr 1; push_cast; ring
  rw [e]
  interval_cases r
  · rw [if_pos (by omega), if_pos (by omega)]; simp
  · rw [if_neg (by omega), if_neg (by omega)]; simp [cos_add_pi_div_two]
  · rw [if_neg (by omega), if_pos (by omega)]
    rw [show a + ((2:ℕ):ℝ) * (π/2) = a + π by push_cast; ring, cos_add_pi]; simp
  · rw [if_pos (by omega), if_neg (by omega)]
    rw [show a + ((3:ℕ):ℝ) * (π/2) = a + π + π/2 by push_cast; ring, cos_add_pi_div_two, sin_add_pi]; simp

/-! ## The cosine and sine transforms with the scalings of the code -/

/-- The Chebyshev angle. -/
noncomputable def thC (N j : ℕ) : ℝ := π * (j + 1/2) / N

theorem dltDCT_eq (N : ℕ) (hN : 0 < N) (x : ℕ → E) (j : ℕ) :
    dltDCT true N x j = ∑ k ∈ range N, cos (k * thC N j) • x k := by
  unfold dltDCT dct3
  rw [if_pos rfl, range_eq_Ico, sum_eq_sum_Ico_succ_bot hN, zero_add]
  have e : ∀ k : ℕ, cos (π * k * (j + 1/2) / N) = cos (k * thC N j) := by
    intro k; congr 1; unfold thC; ring
  simp only [e, Nat.cast_zero, zero_mul, cos_zero, one_smul]
  module

theorem dltDST_eq (N : ℕ) (hN : 0 < N) (x : ℕ → E) (j : ℕ) :
    dltDST true N x j = ∑ k ∈ range N, sin (k * thC N j) • x k := by
  obtain ⟨n, rfl⟩ : ∃ n, N = n + 1 := ⟨N - 1, by omega⟩
  unfold dltDST dst3
  rw [if_pos rfl, sum_range_succ', Nat.add_sub_cancel]
  beta_reduce
  rw [if_neg (lt_irrefl n), smul_zero, zero_add, smul_smul,
    show (1/2:ℝ) * 2 = 1 by norm_num, one_smul]
  simp only [Nat.cast_zero, zero_mul, sin_zero, zero_smul, add_zero]
  refine sum_congr rfl fun k hk => ?_
  rw [if_pos (mem_range.1 hk)]
  congr 2
  unfold thC
  push_cast
  ring

theorem dltDCT_eq' (N : ℕ) (x : ℕ → E) (k : ℕ) : dltDCT false N x k = ∑ j ∈ range N, cos (k * thC N j) • x j := by
  unfold dltDCT dct2
  rw [if_neg (by simp), smul_smul, show (1/2:ℝ) * 2 = 1 by norm_num, one_smul]
  refine sum_congr rfl fun j _ => ?_
  congr 2; unfold thC; ring

theorem dltDST_eq' (N : ℕ) (x : ℕ → E) (k : ℕ) : dltDST false N x k = ∑ j ∈ range N, sin (k * thC N j) • x j := by
  unfold dltDST dst2
  rw [if_neg (by simp)]
  rcases k with _ | k
  · simp
  · rw [if_neg (by omega), smul_smul, show (1/2:ℝ) * 2 = 1 by norm_num, one_smul]
    refine sum_congr rfl fun j _ => ?_
    congr 2; unfold thC; rw [Nat.add_sub_cancel]; push_cast; ring

/-! ## Invariant of the loop -/

/-- Entry of the `m`-th increment. -/
noncomputable def dltTerm (N : ℕ) (dth : ℕ → ℝ) (m j k : ℕ) : ℝ :=
  cos (k * thC N j + m * (π/2)) * (k * dth j)^m / m.factorial

theorem dltTerm_sum (N : ℕ) (dth : ℕ → ℝ) (m j k : ℕ) :
    ∑ i ∈ range (m+1), dltTerm N dth i j k = cosTaylor m (k * thC N j) (k * dth j) := rfl

theorem dltAfter_succ (bw : Bool) (N : ℕ) (dth wl : ℕ → ℝ) (conv : (ℕ → E) → ℕ → E) (u : ℕ → E) (m : ℕ) :
    dltAfter bw N dth wl conv u (m+1) = dltStep bw N dth (dltAfter bw N dth wl conv u m) := rfl

theorem dlt_inv_backward (N : ℕ) (hN : 0 < N) (dth wl : ℕ → ℝ) (conv : (ℕ → E) → ℕ → E) (u : ℕ → E) (m : ℕ) :
    let s := dltAfter true N dth wl conv u m
    (∀ k, s.x k = ((k:ℝ)^m) • conv u k) ∧ (∀ j, s.y j = dth j ^ m) ∧ s.nfac = m.factorial ∧ s.n = m + 1 ∧
    (∀ j, s.fk j = ∑ k ∈ range N, cosTaylor m (k * thC N j) (k * dth j) • conv u k) ∧
    (1 ≤ m → ∀ j, s.df j = ∑ k ∈ range N, dltTerm N dth m j k • conv u k) := by
  induction m with
  | zero =>
    refine ⟨fun k => ?_, fun j => ?_, rfl, rfl, fun j => ?_, fun h => absurd h (by norm_num)⟩
    · show conv u k = _
      rw [pow_zero, one_smul]
    · show (1:ℝ) = _; rw [pow_zero]
    · show dltDCT true N (conv u) j = _
      rw [dltDCT_eq N hN]
      refine sum_congr rfl fun k _ => ?_
      simp [cosTaylor]
  | succ m ih =>
    obtain ⟨hx, hy, hf, hn, hk, -⟩ := ih
    set s := dltAfter true N dth wl conv u m with hs
    have hxs : (dltStep true N dth s).x = fun k : ℕ => ((k:ℝ)^(m+1)) • conv u k := by
      funext k
      show (k:ℝ) • s.x k = _
      rw [hx, smul_smul, pow_succ, mul_comm]
    have hys : (dltStep true N dth s).y = fun j => dth j ^ (m+1) := by
      funext j
      show s.y j * dth j = _
      rw [hy, pow_succ]
    have hfs : (dltStep true N dth s).nfac = (m+1).factorial := by
      show s.nfac * s.n = _
      rw [hf, hn, Nat.factorial_succ, mul_comm]
    have hdf : ∀ j, (dltStep true N dth s).df j = ∑ k ∈ range N, dltTerm N dth (m+1) j k • conv u k := by
      intro j
      have e : (dltStep true N dth s).df j = ((if (s.n + 1) / 2 % 2 = 0 then (1:ℝ) else -1) /
          ((dltStep true N dth s).nfac : ℝ) * (dltStep true N dth s).y j) •
          (if s.n % 2 = 0 then dltDCT true N (dltStep true N dth s).x else dltDST true N (dltStep true N dth s).x) j := rfl
      rw [e, hxs, hys, hfs, hn]
      have e2 : (if (m+1) % 2 = 0 then dltDCT true N (fun k : ℕ => ((k:ℝ)^(m+1)) • conv u k)
          else dltDST true N (fun k : ℕ => ((k:ℝ)^(m+1)) • conv u k)) j =
          ∑ k ∈ range N, (if (m+1) % 2 = 0 then cos (k * thC N j) else sin (k * thC N j)) • ((k:ℝ)^(m+1)) • conv u k := by
        split_ifs
        · exact dltDCT_eq N hN _ j
        · exact dltDST_eq N hN _ j
      rw [e2, smul_sum]
      refine sum_congr rfl fun k _ => ?_
      rw [smul_smul, smul_smul]
      congr 1
      unfold dltTerm
      rw [← dlt_sign (m+1), mul_pow]
      ring
    refine ⟨fun k => congrFun hxs k, fun j => congrFun hys j, hfs, ?_, fun j => ?_, fun _ => hdf⟩
    · show s.n + 1 = _; rw [hn]
    · have e : (dltAfter true N dth wl conv u (m+1)).fk j = s.fk j + (dltStep true N dth s).df j := rfl
      rw [e, hk, hdf, ← sum_add_distrib]
      refine sum_congr rfl fun k _ => ?_
      rw [← add_smul, ← dltTerm_sum, ← dltTerm_sum, sum_range_succ _ (m+1)]

theorem dlt_inv_scalar (N : ℕ) (dth wl : ℕ → ℝ) (conv : (ℕ → E) → ℕ → E) (u : ℕ → E) (m : ℕ) :
    let s := dltAfter false N dth wl conv u m
    (∀ j, s.x j = (dth j ^ m) • wl j • u j) ∧ (∀ k, s.y k = (k:ℝ)^m) ∧ s.nfac = m.factorial ∧ s.n = m + 1 ∧
    (∀ k, s.fk k = ∑ j ∈ range N, cosTaylor m (k * thC N j) (k * dth j) • wl j • u j) ∧
    (1 ≤ m → ∀ k, s.df k = ∑ j ∈ range N, dltTerm N dth m j k • wl j • u j) := by
  induction m with
  | zero =>
    refine ⟨fun j => ?_, fun k => ?_, rfl, rfl, fun k => ?_, fun h => absurd h (by norm_num)⟩
    · show wl j • u j = _
      rw [pow_zero, one_smul]
    · show (1:ℝ) = _; rw [pow_zero]
    · show dltDCT false N (fun j => wl j • u j) k = _
      rw [dltDCT_eq' N]
      refine sum_congr rfl fun j _ => ?_
      simp [cosTaylor]
  | succ m ih =>
    obtain ⟨hx, hy, hf, hn, hk, -⟩ := ih
    set s := dltAfter false N dth wl conv u m with hs
    have hxs : (dltStep false N dth s).x = fun j => (dth j ^ (m+1)) • wl j • u j := by
      funext j
      show dth j • s.x j = _
      rw [hx, smul_smul, pow_succ, mul_comm]
    have hys : (dltStep false N dth s).y = fun k : ℕ => (k:ℝ)^(m+1) := by
      funext k
      show s.y k * k = _
      rw [hy, pow_succ]
    have hfs : (dltStep false N dth s).nfac = (m+1).factorial := by
      show s.nfac * s.n = _
      rw [hf, hn, Nat.factorial_succ, mul_comm]
    have hdf : ∀ k, (dltStep false N dth s).df k = ∑ j ∈ range N, dltTerm N dth (m+1) j k • wl j • u j := by
      intro k
      have e : (dltStep false N dth s).df k = ((if (s.n + 1) / 2 % 2 = 0 then (1:ℝ) else -1) /
          ((dltStep false N dth s).nfac : ℝ) * (dltStep false N dth s).y k) •
          (if s.n % 2 = 0 then dltDCT false N (dltStep false N dth s).x else dltDST false N (dltStep false N dth s).x) k := rfl
      rw [e, hxs, hys, hfs, hn]
      have e2 : (if (m+1) % 2 = 0 then dltDCT false N (fun j => (dth j ^ (m+1)) • wl j • u j)
          else dltDST false N (fun j => (dth j ^ (m+1)) • wl j • u j)) k =
          ∑ j ∈ range N, (if (m+1) % 2 = 0 then cos (k * thC N j) else sin (k * thC N j)) • (dth j ^ (m+1)) • wl j • u j := by
        split_ifs
        · exact dltDCT_eq' N _ k
        · exact dltDST_eq' N _ k
      rw [e2, smul_sum]
      refine sum_congr rfl fun j _ => ?_
      rw [smul_smul, smul_smul]
      congr 1
      unfold dltTerm
      rw [← dlt_sign (m+1), mul_pow]
      ring
    refine ⟨fun k => congrFun hxs k, fun j => congrFun hys j, hfs, ?_, fun k => ?_, fun _ => hdf⟩
    · show s.n + 1 = _; rw [hn]
    · have e : (dltAfter false N dth wl conv u (m+1)).fk k = s.fk k + (dltStep false N dth s).df k := rfl
      rw [e, hk, hdf, ← sum_add_distrib]
      refine sum_congr rfl fun j _ => ?_
      rw [← add_smul, ← dltTerm_sum, ← dltTerm_sum, sum_range_succ _ (m+1)]

/-! ## Termination -/

theorem dltTerm_tendsto (N : ℕ) (dth : ℕ → ℝ) (j k : ℕ) : Tendsto (fun m => dltTerm N dth m j k) atTop (nhds 0) := by
  have h := FloorSemiring.tendsto_pow_div_factorial_atTop (|k * dth j|)
  refine squeeze_zero_norm (fun m => ?_) h
  unfold dltTerm
  rw [Real.norm_eq_abs, abs_div, abs_mul, abs_pow, Nat.abs_cast]
  refine div_le_div_of_nonneg_right ?_ (by positivity)
  calc |cos (k * thC N j + m * (π/2))| * |k * dth j|^m ≤ 1 * |k * dth j|^m :=
        mul_le_mul_of_nonneg_right (abs_cos_le_one _) (by positivity)
    _ = _ := one_mul _

theorem dltError_tendsto (bw : Bool) (N : ℕ) (dth wl : ℕ → ℝ) (conv : (ℕ → E) → ℕ → E) (u : ℕ → E) :
    Tendsto (fun m => dltError N (dltAfter bw N dth wl conv u m)) atTop (nhds 0) := by
  rcases Nat.eq_zero_or_pos N with rfl | hN
  · simp [dltError]
  have hc : ∀ i ∈ range N, Tendsto (fun m => ‖(dltAfter bw N dth wl conv u m).df i‖ ^ 2) atTop (nhds 0) := by
    intro i _
    have h1 : Tendsto (fun m => (dltAfter bw N dth wl conv u m).df i) atTop (nhds 0) := by
      cases bw
      · have h2 : Tendsto (fun m => ∑ j ∈ range N, dltTerm N dth m j i • wl j • u j) atTop (nhds (∑ j ∈ range N, (0:ℝ) • wl j • u j)) :=
          tendsto_finsetSum _ fun j _ => (dltTerm_tendsto N dth j i).smul_const _
        simp only [zero_smul, sum_const_zero] at h2
        refine h2.congr' ?_
        filter_upwards [eventually_ge_atTop 1] with m hm
        exact ((dlt_inv_scalar N dth wl conv u m).2.2.2.2.2 hm i).symm
      · have h2 : Tendsto (fun m => ∑ k ∈ range N, dltTerm N dth m i k • conv u k) atTop (nhds (∑ k ∈ range N, (0:ℝ) • conv u k)) :=
          tendsto_finsetSum _ fun k _ => (dltTerm_tendsto N dth i k).smul_const _
        simp only [zero_smul, sum_const_zero] at h2
        refine h2.congr' ?_
        filter_upwards [eventually_ge_atTop 1] with m hm
        exact ((dlt_inv_backward N hN dth wl conv u m).2.2.2.2.2 hm i).symm
    have := (h1.norm).pow 2
    simpa using this
  have hs := tendsto_finsetSum (range N) hc
  rw [sum_const_zero] at hs
  have := hs.sqrt
  rw [sqrt_zero] at this
  exact this

/-- **C64** The loop of the fast Legendre transform stops, for every input and both directions, and the number of passes is
determined by the input. -/
theorem C64_terminates (tol : ℝ) (htol : 0 < tol) (bw : Bool) (N : ℕ) (dth wl : ℕ → ℝ) (conv : (ℕ → E) → ℕ → E) (u : ℕ → E) :
    ∃! m, dltStops tol bw N dth wl conv u m := by
  classical
  have hex : ∃ m, 1 ≤ m ∧ dltError N (dltAfter bw N dth wl conv u m) < tol := by
    have h := (dltError_tendsto bw N dth wl conv u).eventually_lt_const htol
    obtain ⟨m, h1, h2⟩ := ((eventually_ge_atTop 1).and h).exists
    exact ⟨m, h1, h2⟩
  refine ⟨Nat.find hex, ⟨(Nat.find_spec hex).1, (Nat.find_spec hex).2, fun i h1 h2 h3 => Nat.find_min hex h2 ⟨h1, h3⟩⟩, ?_⟩
  rintro m ⟨h1, h2, h3⟩
  rcases lt_trichotomy m (Nat.find hex) with h | h | h
  · exact absurd ⟨h1, h2⟩ (Nat.find_min hex h)
  · exact h
  · exact absurd (Nat.find_spec hex).2 (h3 _ (Nat.find_spec hex).1 h)

/-! ## Accuracy -/

/-- What `fastgl.leggauss(N)` has to return: the Gauss-Legendre rule, points in increasing order. -/
structure GaussLegendre (N : ℕ) (xl wl : ℕ → ℝ) : Prop where
  exact : ExactRule 0 0 xl wl N (2 * N)
  mono : ∀ i j, i < j → j < N → xl i < xl j

theorem legP_eval_neg (n : ℕ) (t : ℝ) : (legP n).eval (-t) = (-1)^n * (legP n).eval t := by
  have := congrArg (fun p => p.eval t) (legP_comp_neg n)
  simpa only [eval_comp, eval_neg, eval_X, eval_mul, eval_C] using this

/-- The points lie in the interval and are symmetric. -/
theorem GaussLegendre.points {N : ℕ} {xl wl : ℕ → ℝ} (h : GaussLegendre N xl wl) (j : ℕ) (hj : j < N) :
    -1 < xl j ∧ xl j < 1 ∧ xl (N - 1 - j) = -xl j := by
  obtain ⟨x, w, h1, h2, h3⟩ := exists_gauss N (a := 0) (b := 0) (by norm_num) (by norm_num)
  have e := fun i hi => (C63_gauss_unique (by norm_num) (by norm_num) h.exact h1 h.mono h2.2.1 i hi).1
  have hrefl : IncRoots N (fun i => -x (N - 1 - i)) (jacobi 0 0 N) := by
    refine ⟨fun i hi => ?_, fun i k hik hk => ?_, fun i hi => ?_⟩
    · have := h2.1 (N-1-i) (by omega)
      constructor <;> linarith
    · have := h2.2.1 (N-1-k) (N-1-i) (by omega) (by omega)
      linarith
    · have := legP_eval_neg N (x (N-1-i))
      unfold legP at this
      rw [this, h2.2.2 _ (by omega), mul_zero]
  have hs := h2.unique (degree_jacobi (by norm_num) (by norm_num) N) hrefl j hj
  rw [e j hj, e (N-1-j) (by omega)]
  exact ⟨(h2.1 j hj).1, (h2.1 j hj).2, by linarith⟩

theorem l2cMat_nonneg (i n : ℕ) : 0 ≤ l2cMat i n := by
  unfold l2cMat
  have h1 := (halfBin_pos ((n-i)/2)).le
  have h2 := (halfBin_pos ((n+i)/2)).le
  split_ifs <;> positivity

theorem l2cMat_sum (N n : ℕ) (hn : n < N) : ∑ i ∈ range N, l2cMat i n = 1 := by
  have := legP_l2cMat 1 N n hn
  simp only [Chebyshev.T_eval_one, mul_one] at this
  have h2 := legP_right n 0
  simp only [Function.iterate_zero, id_eq] at h2
  rw [← this, h2]
  simp [bndFactor]

/-- What the loop uses for the value `P_n(cos(thetal_j))` after `m` passes. -/
noncomputable def dltLeg (N : ℕ) (dth : ℕ → ℝ) (m j n : ℕ) : ℝ :=
  ∑ i ∈ range N, l2cMat i n * cosTaylor m (i * thC N j) (i * dth j)

theorem thC_arccos (N j : ℕ) (hj : j < N) : arccos (cos (π * (1 + 2 * j) / (2 * N))) = thC N j := by
  have hN : (0:ℝ) < N := by exact_mod_cast (by omega)
  have e : π * (1 + 2 * (j:ℝ)) / (2 * N) = thC N j := by unfold thC; field_simp; ring
  rw [e]
  refine arccos_cos ?_ ?_ <;> unfold thC
  · have := pi_pos; positivity
  · have : (j:ℝ) + 1/2 ≤ N := by have : (j:ℝ) + 1 ≤ N := by exact_mod_cast hj
                                 linarith
    rw [div_le_iff₀ hN]
    exact mul_le_mul_of_nonneg_left this pi_pos.le

/-- The error of the Legendre polynomial: `(n |dtheta_j|)^(m+1) / (m+1)!`. -/
theorem dltLeg_bound {N : ℕ} {xl wl : ℕ → ℝ} (h : GaussLegendre N xl wl) (m j n : ℕ) (hj : j < N) (hn : n < N) :
    |(legP n).eval (xl (N - 1 - j)) - dltLeg N (dltDtheta N xl) m j n| ≤
      (n * |dltDtheta N xl j|)^(m+1) / (m+1).factorial := by
  set d := dltDtheta N xl j with hd
  have hx := h.points (N-1-j) (by omega)
  have hth : thC N j + d = arccos (xl (N-1-j)) := by
    rw [hd, dltDtheta, thC_arccos N j hj]; ring
  have hT : ∀ i : ℕ, (Chebyshev.T ℝ i).eval (xl (N-1-j)) = cos (i * thC N j + i * d) := by
    intro i
    rw [← mul_add, hth]
    have := eval_chebT_cos i (arccos (xl (N-1-j)))
    rw [cos_arccos hx.1.le hx.2.1.le] at this
    exact this
  rw [legP_l2cMat _ N n hn]
  unfold dltLeg
  rw [← sum_sub_distrib]
  calc |∑ i ∈ range N, (l2cMat i n * (Chebyshev.T ℝ i).eval (xl (N-1-j)) - l2cMat i n * cosTaylor m (i * thC N j) (i * d))|
      ≤ ∑ i ∈ range N, |l2cMat i n * (Chebyshev.T ℝ i).eval (xl (N-1-j)) - l2cMat i n * cosTaylor m (i * thC N j) (i * d)| :=
        abs_sum_le_sum_abs _ _
    _ ≤ ∑ i ∈ range N, l2cMat i n * ((n * |d|)^(m+1) / (m+1).factorial) := by
        refine sum_le_sum fun i _ => ?_
        rw [← mul_sub, abs_mul, abs_of_nonneg (l2cMat_nonneg i n)]
        by_cases hin : i ≤ n
        · refine mul_le_mul_of_nonneg_left ?_ (l2cMat_nonneg i n)
          rw [hT]
          refine (cosTaylor_bound m _ _).trans ?_
          rw [abs_mul, Nat.abs_cast]
          have : (i:ℝ) ≤ n := by exact_mod_cast hin
          gcongr
        · have : l2cMat i n = 0 := by unfold l2cMat; rw [if_neg (fun h => hin h.1)]
          rw [this, zero_mul, zero_mul]
    _ = _ := by rw [← sum_mul, l2cMat_sum N n hn, one_mul]

/-- The result of `kind='backward'` after `m` passes of the loop. -/
theorem dlt_backward_eq {N : ℕ} (dth wl : ℕ → ℝ) (u : ℕ → E) (m j : ℕ) (hj : j < N) :
    dltFinishB N (dltAfter true N dth wl (leg2cheb N false) u m) j =
      ∑ n ∈ range N, dltLeg N dth m (N - 1 - j) n • u n := by
  unfold dltFinishB
  rw [(dlt_inv_backward N (by omega) dth wl (leg2cheb N false) u m).2.2.2.2.1]
  rw [sum_congr rfl fun k hk => by rw [leg2cheb_mat N u k (mem_range.1 hk), smul_sum], sum_comm]
  refine sum_congr rfl fun n _ => ?_
  unfold dltLeg
  rw [sum_smul]
  refine sum_congr rfl fun k _ => ?_
  rw [smul_smul, mul_comm]

/-- The result of `kind='scalar product'` (or `'forward'`) after `m` passes of the loop. -/
theorem dlt_scalar_eq {N : ℕ} (fw : Bool) (dth wl : ℕ → ℝ) (conv : (ℕ → E) → ℕ → E) (u : ℕ → E) (m k : ℕ) (hk : k < N) :
    dltFinishS fw (leg2cheb N true) (dltAfter false N dth wl conv u m) k =
      ((if fw then (k:ℝ) + 1/2 else 1) : ℝ) • ∑ j ∈ range N, (((-1)^k * dltLeg N dth m j k) * wl j) • u j := by
  unfold dltFinishS
  rw [leg2chebT_mat N _ k hk]
  rw [sum_congr rfl fun i _ => by
    rw [(dlt_inv_scalar N dth wl conv u m).2.2.2.2.1 i, smul_sum], sum_comm]
  have hs : (if k % 2 = 1 then (-1:ℝ) else 1) = (-1)^k := by
    split_ifs with h
    · rw [Odd.neg_one_pow (Nat.odd_iff.2 h)]
    · rw [Even.neg_one_pow (Nat.even_iff.2 (by omega))]
  rw [hs, mul_comm, mul_smul, smul_sum]
  congr 1
  refine sum_congr rfl fun j _ => ?_
  unfold dltLeg
  simp only [smul_smul, ← sum_smul, mul_sum, sum_mul]
  congr 1
  exact sum_congr rfl fun i _ => by ring

/-- **C64** `backward(kind='fast')`: when the loop stops after `m` passes, the value at the quadrature point `x_j` differs
from `Σ_n û_n P_n(x_j)` by at most the Taylor remainder `Σ_n (n |dtheta_j|)^(m+1)/(m+1)! |û_n|`. -/
theorem C64_backward {N : ℕ} {xl wl : ℕ → ℝ} (h : GaussLegendre N xl wl) (u : ℕ → E) (m j : ℕ) (hj : j < N) :
    ‖dltFinishB N (dltAfter true N (dltDtheta N xl) wl (leg2cheb N false) u m) j -
      ∑ n ∈ range N, (legP n).eval (xl j) • u n‖ ≤
      ∑ n ∈ range N, (n * |dltDtheta N xl (N - 1 - j)|)^(m+1) / (m+1).factorial * ‖u n‖ := by
  rw [dlt_backward_eq _ _ _ _ _ hj, ← sum_sub_distrib]
  refine (norm_sum_le _ _).trans (sum_le_sum fun n hn => ?_)
  rw [← sub_smul, norm_smul]
  refine mul_le_mul_of_nonneg_right ?_ (norm_nonneg _)
  have := dltLeg_bound h m (N-1-j) n (by omega) (mem_range.1 hn)
  rw [show N - 1 - (N - 1 - j) = j by omega] at this
  rw [Real.norm_eq_abs, abs_sub_comm]
  exact this

/-- **C64** `scalar_product(kind='fast')`: when the loop stops after `m` passes the result differs from
`Σ_j w_j u_j P_k(x_j)` by at most `Σ_j (k |dtheta_j|)^(m+1)/(m+1)! |w_j u_j|`. -/
theorem C64_scalar_product {N : ℕ} {xl wl : ℕ → ℝ} (h : GaussLegendre N xl wl) (conv : (ℕ → E) → ℕ → E) (u : ℕ → E)
    (m k : ℕ) (hk : k < N) :
    ‖dltFinishS false (leg2cheb N true) (dltAfter false N (dltDtheta N xl) wl conv u m) k -
      ∑ j ∈ range N, (wl j * (legP k).eval (xl j)) • u j‖ ≤
      ∑ j ∈ range N, (k * |dltDtheta N xl j|)^(m+1) / (m+1).factorial * ‖wl j • u j‖ := by
  rw [dlt_scalar_eq _ _ _ _ _ _ _ hk, if_neg (by simp), one_smul, ← sum_sub_distrib]
  refine (norm_sum_le _ _).trans (sum_le_sum fun j hj => ?_)
  have hj := mem_range.1 hj
  have e : (-1)^k * dltLeg N (dltDtheta N xl) m j k * wl j - wl j * (legP k).eval (xl j) =
      (-((-1)^k * ((legP k).eval (xl (N-1-j)) - dltLeg N (dltDtheta N xl) m j k))) * wl j := by
    rw [(h.points j hj).2.2, legP_eval_neg]
    have : ((-1:ℝ)^k) * (-1)^k = 1 := by rw [← mul_pow]; simp
    linear_combination wl j * (legP k).eval (xl j) * this
  rw [← sub_smul, e, mul_smul, norm_smul]
  refine mul_le_mul_of_nonneg_right ?_ (norm_nonneg _)
  rw [norm_neg, norm_mul, norm_pow, norm_neg, norm_one, one_pow, one_mul, Real.norm_eq_abs]
  exact dltLeg_bound h m j k hj hk

theorem remainder_tendsto (c : ℝ) : Tendsto (fun m : ℕ => c^(m+1) / ((m+1).factorial : ℝ)) atTop (nhds 0) :=
  (FloorSemiring.tendsto_pow_div_factorial_atTop c).comp (tendsto_add_atTop_nat 1)

/-- **C64** Without the stopping test both transforms converge to the exact ones. -/
theorem C64_converges {N : ℕ} {xl wl : ℕ → ℝ} (h : GaussLegendre N xl wl) (u : ℕ → E) (i : ℕ) (hi : i < N) :
    Tendsto (fun m => dltFinishB N (dltAfter true N (dltDtheta N xl) wl (leg2cheb N false) u m) i) atTop
      (nhds (vanderBackward xl legP N u i)) ∧
    Tendsto (fun m => dltFinishS false (leg2cheb N true) (dltAfter false N (dltDtheta N xl) wl (leg2cheb N false) u m) i) atTop
      (nhds (vanderScalar xl wl legP 1 N u i)) ∧
    Tendsto (fun m => dltFinishS true (leg2cheb N true) (dltAfter false N (dltDtheta N xl) wl (leg2cheb N false) u m) i) atTop
      (nhds (vanderForward xl wl legP legL2 1 N u i)) := by
  have hb : Tendsto (fun m => dltFinishB N (dltAfter true N (dltDtheta N xl) wl (leg2cheb N false) u m) i) atTop
      (nhds (vanderBackward xl legP N u i)) := by
    rw [tendsto_iff_norm_sub_tendsto_zero]
    refine squeeze_zero (fun m => norm_nonneg _) (fun m => C64_backward h u m i hi) ?_
    have := tendsto_finsetSum (range N) fun n _ =>
      (remainder_tendsto (n * |dltDtheta N xl (N - 1 - i)|)).mul_const ‖u n‖
    simpa using this
  have hs : Tendsto (fun m => dltFinishS false (leg2cheb N true)
      (dltAfter false N (dltDtheta N xl) wl (leg2cheb N false) u m) i) atTop (nhds (vanderScalar xl wl legP 1 N u i)) := by
    have e : vanderScalar xl wl legP 1 N u i = ∑ j ∈ range N, (wl j * (legP i).eval (xl j)) • u j := by
      unfold vanderScalar
      exact sum_congr rfl fun j _ => by rw [div_one, smul_smul, mul_comm]
    rw [e, tendsto_iff_norm_sub_tendsto_zero]
    refine squeeze_zero (fun m => norm_nonneg _) (fun m => C64_scalar_product h _ u m i hi) ?_
    have := tendsto_finsetSum (range N) fun j _ =>
      (remainder_tendsto (i * |dltDtheta N xl j|)).mul_const ‖wl j • u j‖
    simpa using this
  refine ⟨hb, hs, ?_⟩
  have e1 : vanderForward xl wl legP legL2 1 N u i = ((i:ℝ) + 1/2) • vanderScalar xl wl legP 1 N u i := by
    unfold vanderForward legL2
    congr 1
    field_simp
  rw [e1]
  refine (hs.const_smul ((i:ℝ) + 1/2)).congr fun m => ?_
  rw [dlt_scalar_eq _ _ _ _ _ _ _ hi, dlt_scalar_eq _ _ _ _ _ _ _ hi, if_neg (by simp), if_pos rfl, one_smul]

/-- Non-vacuity: the rule exists for every `N`. -/
example (N : ℕ) : ∃ xl wl, GaussLegendre N xl wl := by
  obtain ⟨x, w, h1, _, h3⟩ := C63_gauss_exists N (a := 0) (b := 0) (by norm_num) (by norm_num)
  exact ⟨x, w, ⟨h1, h3⟩⟩


/-- The Gauss-Legendre rule with two points. -/
theorem GaussLegendre.two {xl wl : ℕ → ℝ} (h : GaussLegendre 2 xl wl) : xl 1 = 1 / √3 ∧ xl 0 = -(1 / √3) := by
  have hp := (h.points 0 (by norm_num)).2.2
  have hm := h.mono 0 1 (by norm_num) (by norm_num)
  rw [show 2 - 1 - 0 = 1 from rfl] at hp
  have h0 := h.exact 1 (by rw [degree_one]; exact_mod_cast (by norm_num))
  have h2 := h.exact (X^2) (by rw [degree_X_pow]; exact_mod_cast (by norm_num))
  rw [wInt_zero_zero] at h0 h2
  simp only [sum_range_succ, range_zero, sum_empty, eval_one, eval_pow, eval_X, zero_add, mul_one, hp] at h0 h2
  rw [integral_pow] at h2
  norm_num at h0 h2
  have hsq : xl 1 ^ 2 = 1/3 := by
    rw [hp, neg_sq]
    nlinarith
  have hpos : 0 < xl 1 := by linarith
  have : xl 1 = 1 / √3 := by
    rw [← Real.sqrt_sq hpos.le, hsq, Real.sqrt_div (by norm_num), Real.sqrt_one]
  exact ⟨this, by linarith⟩

theorem dlt_gap {d : ℝ} (hdl : 1/10 ≤ d) (hdu : d < 0.8) : 1/500 < 1 - d - cos d + sin d := by
  have hc := cos_bound (x := d) (by rw [abs_of_nonneg (by linarith)]; linarith)
  have hsn := sin_gt_sub_cube (x := d) (by linarith)
  rw [abs_of_nonneg (show (0:ℝ) ≤ d by linarith)] at hc
  have hc' := (abs_le.1 hc).2
  have h1 : d^2/2 - d^4 * (5/96) - d^3/6 < 1 - d - cos d + sin d := by linarith
  have h0 : 0 ≤ 1/2 - d^2*(5/96) - d/6 - 1/5 := by nlinarith
  have h2 : 0 ≤ d^2 * (1/2 - d^2*(5/96) - d/6 - 1/5) := mul_nonneg (by positivity) h0
  have h3 : 1/100 ≤ d^2 := by nlinarith
  have h4 : d^2 * (1/2 - d^2*(5/96) - d/6 - 1/5) = d^2/2 - d^4 * (5/96) - d^3/6 - d^2 * (1/5) := by ring
  linarith

/-- **C64** (refuted) The transform is not homogeneous: the stopping test `error < 1e-16` is absolute.  For `N = 2` and the
coefficients `(0, ε)` with `0 < ε ≤ 1e-16` the loop stops after one pass, and the value at the second quadrature point has an
error above `ε/1000`, although the loop run to convergence is exact to rounding for the coefficients `(0, 1)`. -/
theorem C64_small_input_refuted {xl wl : ℕ → ℝ} (h : GaussLegendre 2 xl wl) (ε : ℝ) (hε : 0 < ε) (hε' : ε ≤ 1e-16) :
    let u : ℕ → ℝ := fun n => if n = 1 then ε else 0
    dltStops 1e-16 true 2 (dltDtheta 2 xl) wl (leg2cheb 2 false) u 1 ∧
    ε / 1000 < dltFinishB 2 (dltAfter true 2 (dltDtheta 2 xl) wl (leg2cheb 2 false) u 1) 1 -
      ∑ n ∈ range 2, (legP n).eval (xl 1) * u n := by
  intro u
  obtain ⟨hx1, hx0⟩ := h.two
  have hs3 : (√3)^2 = 3 := Real.sq_sqrt (by norm_num)
  have hs2 : (√2)^2 = 2 := Real.sq_sqrt (by norm_num)
  have h3p : 0 < √3 := by positivity
  have h2p : 0 < √2 := by positivity
  have ht : (1/√3)^2 = 1/3 := by rw [div_pow, hs3, one_pow]
  have htp : 0 < 1/√3 := by positivity
  set d := arccos (1/√3) - π/4 with hd
  have hth0 : thC 2 0 = π/4 := by unfold thC; push_cast; ring
  have hth1 : thC 2 1 = 3*π/4 := by unfold thC; push_cast; ring
  have hd0 : dltDtheta 2 xl 0 = d := by
    unfold dltDtheta; rw [thC_arccos 2 0 (by norm_num), hth0, hx1]
  have hd1 : dltDtheta 2 xl 1 = -d := by
    unfold dltDtheta; rw [thC_arccos 2 1 (by norm_num), hth1, show 2 - 1 - 1 = 0 from rfl, hx0, arccos_neg, hd]; ring
  have hs2lt : √2 < 1.4143 := by rw [Real.sqrt_lt' (by norm_num)]; norm_num
  have hs2gt : 1.4142 < √2 := by rw [Real.lt_sqrt (by norm_num)]; norm_num
  -- 0.1 ≤ d < 0.8
  have hdl : 1/10 ≤ d := by
    have hc : 1/√3 ≤ cos (π/4 + 1/10) := by
      rw [cos_add, cos_pi_div_four, sin_pi_div_four]
      have c1 : 1 - (1/10:ℝ)^2/2 ≤ cos (1/10) := one_sub_sq_div_two_le_cos
      have c2 : sin (1/10:ℝ) ≤ 1/10 := sin_le (by norm_num)
      have : 1/√3 ≤ 0.5774 := by
        rw [div_le_iff₀ h3p]
        have : 1.7320 < √3 := by rw [Real.lt_sqrt (by norm_num)]; norm_num
        nlinarith
      nlinarith
    have hle : arccos (cos (π/4 + 1/10)) ≤ arccos (1/√3) := arccos_le_arccos hc
    rw [arccos_cos (by positivity) (by linarith [pi_gt_three])] at hle
    rw [hd]; linarith
  have hdu : d < 0.8 := by
    have : arccos (1/√3) < π/2 := arccos_lt_pi_div_two.2 htp
    have := pi_lt_d2
    rw [hd]; linarith
  have hu : ∀ n, u n = if n = 1 then ε else 0 := fun n => rfl
  have hM11 : l2cMat 1 1 = 1 := by
    unfold l2cMat
    rw [if_pos (by norm_num), if_neg (by norm_num), show (1-1)/2 = 0 from rfl, show (1+1)/2 = 0 + 1 from rfl]
    norm_num [halfBin]
  have hM01 : l2cMat 0 1 = 0 := by unfold l2cMat; rw [if_neg (by norm_num)]
  have hconv : leg2cheb 2 false u 0 = 0 ∧ leg2cheb 2 false u 1 = ε := by
    constructor
    · rw [leg2cheb_mat 2 u 0 (by norm_num)]
      simp [sum_range_succ, hu, hM01]
    · rw [leg2cheb_mat 2 u 1 (by norm_num)]
      simp [sum_range_succ, hu, hM11]
  constructor
  · refine ⟨le_refl 1, ?_, fun i h1 h2 => by omega⟩
    have hdf := (dlt_inv_backward 2 (by norm_num) (dltDtheta 2 xl) wl (leg2cheb 2 false) u 1).2.2.2.2.2 (le_refl 1)
    unfold dltError
    have e0 : (dltAfter true 2 (dltDtheta 2 xl) wl (leg2cheb 2 false) u 1).df 0 = -(√2/2 * d * ε) := by
      rw [hdf 0]
      simp only [sum_range_succ, range_zero, sum_empty, hconv.1, hconv.2, smul_zero, zero_add, dltTerm, hd0, hth0,
        Nat.cast_one, one_mul, cos_add_pi_div_two, sin_pi_div_four, smul_eq_mul, pow_one, Nat.factorial_one, div_one]
      ring
    have e1 : (dltAfter true 2 (dltDtheta 2 xl) wl (leg2cheb 2 false) u 1).df 1 = √2/2 * d * ε := by
      rw [hdf 1]
      have hsin : sin (3*π/4) = √2/2 := by
        rw [show 3*π/4 = π - π/4 by ring, sin_pi_sub, sin_pi_div_four]
      simp only [sum_range_succ, range_zero, sum_empty, hconv.1, hconv.2, smul_zero, zero_add, dltTerm, hd1, hth1,
        Nat.cast_one, one_mul, cos_add_pi_div_two, hsin, smul_eq_mul, pow_one, Nat.factorial_one, div_one]
      ring
    simp only [sum_range_succ, range_zero, sum_empty, zero_add, e0, e1, norm_neg, Real.norm_eq_abs, sq_abs, neg_sq]
    rw [Real.sqrt_lt' (by norm_num)]
    have : (√2/2*d*ε)^2 + (√2/2*d*ε)^2 = (d*ε)^2 := by
      linear_combination (d*ε)^2/2 * hs2
    rw [this]
    refine pow_lt_pow_left₀ ?_ (by positivity) (by norm_num)
    nlinarith
  · rw [dlt_backward_eq _ _ _ _ _ (by norm_num)]
    have hL : dltLeg 2 (dltDtheta 2 xl) 1 (2 - 1 - 1) 1 = √2/2 * (1 - d) := by
      unfold dltLeg cosTaylor
      simp only [show 2 - 1 - 1 = 0 from rfl, sum_range_succ, range_zero, sum_empty, hM01, hM11, zero_mul, zero_add, hd0, hth0,
        Nat.cast_one, one_mul, cos_add_pi_div_two, sin_pi_div_four, cos_pi_div_four, Nat.cast_zero, add_zero, pow_zero,
        Nat.factorial_zero, Nat.factorial_one, div_one, pow_one, mul_one]
      ring
    simp only [sum_range_succ, range_zero, sum_empty, zero_add, hu, smul_eq_mul, if_pos, hL, legP_one, eval_X, hx1,
      if_neg (show ¬ (0:ℕ) = 1 by norm_num), mul_zero]
    have hex : 1/√3 = √2/2 * (cos d - sin d) := by
      have : cos (π/4 + d) = 1/√3 := by
        rw [hd, add_sub_cancel]
        exact cos_arccos (by linarith) (by nlinarith)
      rw [← this, cos_add, cos_pi_div_four, sin_pi_div_four]; ring
    rw [hex]
    have key := dlt_gap hdl hdu
    have : √2/2 * (1 - d) * ε - √2/2 * (cos d - sin d) * ε = √2/2 * ((1 - d - cos d + sin d) * ε) := by ring
    rw [this]
    have : ε/500 < (1 - d - cos d + sin d) * ε := by nlinarith
    nlinarith


/-- **C64** With the hierarchical conversion (more than 1000 coefficients, `C60`) in place of the direct one its errors add
up: backward. -/
theorem C64_backward_conv {N : ℕ} {xl wl : ℕ → ℝ} (h : GaussLegendre N xl wl) (conv : (ℕ → E) → ℕ → E) (u : ℕ → E)
    (m j : ℕ) (hj : j < N) :
    ‖dltFinishB N (dltAfter true N (dltDtheta N xl) wl conv u m) j - ∑ n ∈ range N, (legP n).eval (xl j) • u n‖ ≤
      ∑ k ∈ range N, ((k * |dltDtheta N xl (N - 1 - j)|)^(m+1) / (m+1).factorial * ‖conv u k‖ +
        ‖conv u k - leg2cheb N false u k‖) := by
  unfold dltFinishB
  rw [(dlt_inv_backward N (by omega) _ wl conv u m).2.2.2.2.1, ← C59_leg2cheb, ← sum_sub_distrib]
  refine (norm_sum_le _ _).trans (sum_le_sum fun k hk => ?_)
  set d := dltDtheta N xl (N-1-j) with hd
  have hx := h.points j hj
  have hth : thC N (N-1-j) + d = arccos (xl j) := by
    rw [hd, dltDtheta, thC_arccos N (N-1-j) (by omega), show N - 1 - (N - 1 - j) = j by omega]; ring
  have hT : (Chebyshev.T ℝ k).eval (xl j) = cos (k * thC N (N-1-j) + k * d) := by
    rw [← mul_add, hth]
    have := eval_chebT_cos k (arccos (xl j))
    rw [cos_arccos hx.1.le hx.2.1.le] at this
    exact this
  have e : cosTaylor m (k * thC N (N-1-j)) (k * d) • conv u k - (Chebyshev.T ℝ k).eval (xl j) • leg2cheb N false u k =
      (cosTaylor m (k * thC N (N-1-j)) (k * d) - cos (k * thC N (N-1-j) + k * d)) • conv u k +
        cos (k * thC N (N-1-j) + k * d) • (conv u k - leg2cheb N false u k) := by
    rw [hT]; module
  rw [e]
  refine (norm_add_le _ _).trans (add_le_add ?_ ?_)
  · rw [norm_smul]
    refine mul_le_mul_of_nonneg_right ?_ (norm_nonneg _)
    have := cosTaylor_bound m (k * thC N (N-1-j)) (k * d)
    rw [Real.norm_eq_abs, abs_sub_comm]
    rwa [abs_mul, Nat.abs_cast] at this
  · rw [norm_smul, Real.norm_eq_abs]
    exact mul_le_of_le_one_left (norm_nonneg _) (abs_cos_le_one _)

/-- **C64** With the hierarchical conversion in place of the direct one: scalar product. -/
theorem C64_scalar_conv {N : ℕ} {xl wl : ℕ → ℝ} (h : GaussLegendre N xl wl) (conv convT : (ℕ → E) → ℕ → E) (u : ℕ → E)
    (m k : ℕ) (hk : k < N) :
    ‖dltFinishS false convT (dltAfter false N (dltDtheta N xl) wl conv u m) k -
      ∑ j ∈ range N, (wl j * (legP k).eval (xl j)) • u j‖ ≤
      (∑ j ∈ range N, (k * |dltDtheta N xl j|)^(m+1) / (m+1).factorial * ‖wl j • u j‖) +
        ‖convT (dltAfter false N (dltDtheta N xl) wl conv u m).fk k -
          leg2cheb N true (dltAfter false N (dltDtheta N xl) wl conv u m).fk k‖ := by
  have h1 := C64_scalar_product h conv u m k hk
  set s := dltAfter false N (dltDtheta N xl) wl conv u m
  have e : dltFinishS false convT s k - ∑ j ∈ range N, (wl j * (legP k).eval (xl j)) • u j =
      (dltFinishS false (leg2cheb N true) s k - ∑ j ∈ range N, (wl j * (legP k).eval (xl j)) • u j) +
      (if k % 2 = 1 then (-1:ℝ) else 1) • (convT s.fk k - leg2cheb N true s.fk k) := by
    unfold dltFinishS
    simp only [Bool.false_eq_true, if_false, mul_one]
    module
  rw [e]
  refine (norm_add_le _ _).trans (add_le_add h1 ?_)
  rw [norm_smul]
  refine mul_le_of_le_one_left (norm_nonneg _) ?_
  split_ifs <;> simp

end Shenfun
