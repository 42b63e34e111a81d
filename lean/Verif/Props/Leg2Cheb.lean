import Verif.Model.Leg2Cheb
import Verif.Lemmas.Connection
import Verif.Lemmas.Loop
import Mathlib.Tactic.Module

/-!
# C59: conversions between Legendre and Chebyshev coefficients

Specification: the two coefficient arrays represent the same function, `Σ_k v_k T_k(x) = Σ_n c_n P_n(x)` for all `x`.
-/

namespace Shenfun

open Polynomial Spec

variable {E : Type*} [AddCommGroup E] [Module ℝ E]

set_option linter.unusedSectionVars false

theorem Lam_nat (m : ℕ) : Lam m = Real.sqrt Real.pi * halfBin m := by
  unfold Lam
  induction m with
  | zero => simp [halfBin, ← Real.Gamma_one_half_eq]
  | succ m ih =>
    have h1 : ((m+1:ℕ):ℝ) + 1/2 = ((m:ℝ) + 1/2) + 1 := by push_cast; ring
    have h2 : ((m+1:ℕ):ℝ) + 1 = ((m:ℝ) + 1) + 1 := by push_cast; ring
    rw [h1, h2, Real.Gamma_add_one (by positivity), Real.Gamma_add_one (by positivity)]
    rw [show halfBin (m+1) = halfBin m * (2 * m + 1) / (2 * m + 2) from rfl]
    have hg : Real.Gamma ((m:ℝ) + 1) ≠ 0 := (Real.Gamma_pos_of_pos (by positivity)).ne'
    have e : Real.Gamma ((m:ℝ) + 1/2) = Real.sqrt Real.pi * halfBin m * Real.Gamma ((m:ℝ) + 1) := by
      rw [← ih]; field_simp
    rw [e]
    have : (m:ℝ) + 1 ≠ 0 := by positivity
    have : 2 * (m:ℝ) + 2 ≠ 0 := by positivity
    field_simp

/-! ## What the loops compute -/

theorem forN_accum (f : ℕ → E) (v : ℕ → E) (n j : ℕ) :
    forN (fun i v => Function.update v i (v i + f i)) v n j = v j + if j < n then f j else 0 := by
  induction n with
  | zero => simp
  | succ n ih =>
    rw [forN_succ]
    by_cases h : j = n
    · subst h
      rw [Function.update_self, ih]; simp
    · rw [Function.update_of_ne h, ih]
      by_cases h1 : j < n
      · rw [if_pos h1, if_pos (by omega)]
      · rw [if_neg h1, if_neg (by omega)]

theorem forN_accum_shift (s : ℕ) (f : ℕ → E) (v : ℕ → E) (n j : ℕ) :
    forN (fun i v => Function.update v (i + s) (v (i + s) + f i)) v n j =
      v j + if s ≤ j ∧ j < s + n then f (j - s) else 0 := by
  induction n with
  | zero => simp
  | succ n ih =>
    rw [forN_succ]
    by_cases h : j = n + s
    · subst h
      rw [Function.update_self, ih, if_neg (by omega), if_pos (by omega), add_zero, Nat.add_sub_cancel]
    · rw [Function.update_of_ne h, ih]
      by_cases h1 : s ≤ j ∧ j < s + n
      · rw [if_pos h1, if_pos (by omega)]
      · rw [if_neg h1, if_neg (by omega)]

theorem l2c_sum (a : ℕ → ℝ) (N n0 : ℕ) (u v : ℕ → E) (i : ℕ) :
    forN (l2cRow a N u) v n0 i =
      v i + ∑ t ∈ Finset.range n0, if i < N - 2 * t then (a t * a (t + i)) • u (2 * t + i) else 0 := by
  induction n0 with
  | zero => simp
  | succ n ih =>
    rw [forN_succ, l2cRow, forN_accum, ih, Finset.sum_range_succ, add_assoc]

theorem l2cT_sum (a : ℕ → ℝ) (N n0 : ℕ) (u v : ℕ → E) (j : ℕ) :
    forN (l2cRowT a N u) v n0 j =
      v j + ∑ t ∈ Finset.range n0, if 2 * t ≤ j ∧ j < 2 * t + (N - 2 * t) then (a t * a (t + (j - 2 * t))) • u (j - 2 * t)
        else 0 := by
  induction n0 with
  | zero => simp
  | succ n ih =>
    rw [forN_succ, l2cRowT, forN_accum_shift, ih, Finset.sum_range_succ, add_assoc]

theorem c2l_sum (dn a : ℕ → ℝ) (N n0 : ℕ) (u v : ℕ → E) (i : ℕ) :
    forN (fun t c => c2lRow dn a N u (t + 1) c) v n0 i =
      v i + ∑ t ∈ Finset.range n0, if i < N - 2 * (t+1) then (-(dn (t+1) * a (t + 1 + i))) • u (2 * (t+1) + i) else 0 := by
  induction n0 with
  | zero => simp
  | succ n ih =>
    rw [forN_succ]
    have h : c2lRow dn a N u (n+1) (forN (fun t c => c2lRow dn a N u (t + 1) c) v n) =
        forN (fun i v => Function.update v i (v i + (-(dn (n+1) * a (n + 1 + i))) • u (2 * (n+1) + i)))
          (forN (fun t c => c2lRow dn a N u (t + 1) c) v n) (N - 2 * (n+1)) := by
      unfold c2lRow
      congr 1
      funext i v
      rw [neg_smul, sub_eq_add_neg]
    rw [h, forN_accum, ih, Finset.sum_range_succ, add_assoc]

/-! ## Matrices -/

/-- Matrix of the conversion from Legendre to Chebyshev. -/
noncomputable def l2cMat (i n : ℕ) : ℝ :=
  if i ≤ n ∧ (n - i) % 2 = 0 then (if i = 0 then 1 else 2) * (halfBin ((n - i) / 2) * halfBin ((n + i) / 2)) else 0

/-- Matrix of the conversion from Chebyshev to Legendre. -/
noncomputable def c2lMat (i n : ℕ) : ℝ := if i ≤ n ∧ (n - i) % 2 = 0 then chebCo ((n - i) / 2) i else 0

theorem l2cMat_pos {i n : ℕ} (h : i ≤ n ∧ (n - i) % 2 = 0) :
    l2cMat i n = (if i = 0 then 1 else 2) * (halfBin ((n - i) / 2) * halfBin ((n + i) / 2)) := if_pos h

theorem c2lMat_pos {i n : ℕ} (h : i ≤ n ∧ (n - i) % 2 = 0) : c2lMat i n = chebCo ((n - i) / 2) i := if_pos h

theorem c2lIn_pos (c : ℕ → E) {i : ℕ} (h : i ≠ 0) : c2lIn c i = (i:ℝ) • c i := if_neg h

/-- Regrouping: a sum over `t` with `2t + i < N` is a sum over `n = 2t + i`. -/
theorem sum_parity (N i n0 : ℕ) (hn : N ≤ i + 2 * n0) (f : ℕ → E) :
    (∑ t ∈ Finset.range n0, if i < N - 2 * t then f (2 * t + i) else 0) =
      ∑ n ∈ Finset.range N, if i ≤ n ∧ (n - i) % 2 = 0 then f n else 0 := by
  rw [← Finset.sum_filter, ← Finset.sum_filter]
  refine Finset.sum_bij (fun t _ => 2 * t + i) ?_ ?_ ?_ ?_
  · intro t ht
    simp only [Finset.mem_filter, Finset.mem_range] at ht ⊢
    omega
  · intro t _ t' _ h
    have : 2 * t + i = 2 * t' + i := h
    omega
  · intro n hn'
    simp only [Finset.mem_filter, Finset.mem_range] at hn'
    refine ⟨(n - i) / 2, ?_, ?_⟩
    · simp only [Finset.mem_filter, Finset.mem_range]
      omega
    · show 2 * ((n - i) / 2) + i = n
      omega
  · intro t _; rfl

theorem pi_cancel (b c : ℝ) : 2 / Real.pi * (Real.sqrt Real.pi * b * (Real.sqrt Real.pi * c)) = 2 * (b * c) := by
  have h := Real.mul_self_sqrt Real.pi_pos.le
  have hp := Real.pi_ne_zero
  rw [show Real.sqrt Real.pi * b * (Real.sqrt Real.pi * c) = (Real.sqrt Real.pi * Real.sqrt Real.pi) * (b * c) by ring, h]
  field_simp

theorem l2c_core (N n0 : ℕ) (hn : N ≤ 2 * n0) (c : ℕ → E) (i : ℕ) (_hi : i < N) :
    (2 / Real.pi) • (forN (l2cRow l2cA N c) (fun _ => 0) n0 i) =
      ∑ n ∈ Finset.range N, (if i ≤ n ∧ (n - i) % 2 = 0 then
        2 * (halfBin ((n - i) / 2) * halfBin ((n + i) / 2)) else 0) • c n := by
  rw [l2c_sum, zero_add]
  have e : ∀ t, (if i < N - 2 * t then (l2cA t * l2cA (t + i)) • c (2 * t + i) else 0) =
      if i < N - 2 * t then (fun n => (l2cA ((n - i) / 2) * l2cA ((n + i) / 2)) • c n) (2 * t + i) else 0 := by
    intro t
    dsimp only
    rw [show (2 * t + i - i) / 2 = t by omega, show (2 * t + i + i) / 2 = t + i by omega]
  rw [Finset.sum_congr rfl fun t _ => e t, sum_parity N i n0 (by omega)
    (fun n => (l2cA ((n - i) / 2) * l2cA ((n + i) / 2)) • c n), Finset.smul_sum]
  refine Finset.sum_congr rfl fun n _ => ?_
  by_cases h : i ≤ n ∧ (n - i) % 2 = 0
  · rw [if_pos h, if_pos h, smul_smul]
    unfold l2cA
    rw [Lam_nat, Lam_nat, pi_cancel]
  · rw [if_neg h, if_neg h]; simp

theorem leg2cheb_mat (N : ℕ) (c : ℕ → E) (i : ℕ) (hi : i < N) :
    leg2cheb N false c i = ∑ n ∈ Finset.range N, l2cMat i n • c n := by
  have h := l2c_core N ((N+1)/2) (by omega) c i hi
  unfold leg2cheb
  simp only [Bool.false_eq_true, if_false]
  unfold l2cMat
  by_cases h0 : i = 0
  · subst h0
    rw [Function.update_self, smul_comm, h, Finset.smul_sum]
    refine Finset.sum_congr rfl fun n _ => ?_
    rw [smul_smul]
    congr 1
    by_cases h' : 0 ≤ n ∧ (n - 0) % 2 = 0
    · rw [if_pos h', if_pos h', if_pos rfl]; ring
    · rw [if_neg h', if_neg h', mul_zero]
  · rw [Function.update_of_ne h0, h]
    simp only [h0, if_false]

/-- The multidimensional branch does the same when `n0` reaches the last row. -/
theorem leg2chebND_eq (N n0 : ℕ) (hn : N ≤ 2 * n0) (c : ℕ → E) (i : ℕ) (hi : i < N) :
    leg2chebND N n0 false c i = leg2cheb N false c i := by
  have h := l2c_core N n0 hn c i hi
  rw [leg2cheb_mat N c i hi]
  unfold leg2chebND FMMdirect1
  simp only [Bool.false_eq_true, if_false]
  unfold l2cMat
  by_cases h0 : i = 0
  · subst h0
    rw [Function.update_self, h, Finset.smul_sum]
    refine Finset.sum_congr rfl fun n _ => ?_
    rw [smul_smul]
    congr 1
    by_cases h' : 0 ≤ n ∧ (n - 0) % 2 = 0
    · rw [if_pos h', if_pos h', if_pos rfl]; ring
    · rw [if_neg h', if_neg h', mul_zero]
  · rw [Function.update_of_ne h0, h]
    simp only [h0, if_false]

theorem l2cT_core (N n0 : ℕ) (hn : N ≤ 2 * n0) (c : ℕ → E) (j : ℕ) (hj : j < N) :
    forN (l2cRowT l2cA N (Function.update (fun i => (2 / Real.pi) • c i) 0 ((1 / 2 : ℝ) • (2 / Real.pi) • c 0)))
      (fun _ => 0) n0 j = ∑ i ∈ Finset.range N, l2cMat i j • c i := by
  rw [l2cT_sum, zero_add, ← Finset.sum_filter]
  have : ∑ i ∈ Finset.range N, l2cMat i j • c i =
      ∑ i ∈ (Finset.range N).filter (fun i => i ≤ j ∧ (j - i) % 2 = 0), l2cMat i j • c i := by
    rw [Finset.sum_filter]
    refine Finset.sum_congr rfl fun i _ => ?_
    unfold l2cMat
    by_cases h : i ≤ j ∧ (j - i) % 2 = 0
    · rw [if_pos h, if_pos h]
    · rw [if_neg h, if_neg h, zero_smul]
  rw [this]
  refine Finset.sum_bij (fun t _ => j - 2 * t) ?_ ?_ ?_ ?_
  · intro t ht
    simp only [Finset.mem_filter, Finset.mem_range] at ht ⊢
    omega
  · intro t ht t' ht' h
    simp only [Finset.mem_filter, Finset.mem_range] at ht ht'
    have : j - 2 * t = j - 2 * t' := h
    omega
  · intro i hi
    simp only [Finset.mem_filter, Finset.mem_range] at hi
    refine ⟨(j - i) / 2, ?_, ?_⟩
    · simp only [Finset.mem_filter, Finset.mem_range]
      omega
    · show j - 2 * ((j - i) / 2) = i
      omega
  · intro t ht
    simp only [Finset.mem_filter, Finset.mem_range] at ht
    generalize hi : j - 2 * t = i
    have ht1 : t = (j - i) / 2 := by omega
    have ht2 : t + i = (j + i) / 2 := by omega
    unfold l2cMat
    rw [if_pos (by omega), ← ht1, ← ht2]
    unfold l2cA
    rw [Lam_nat, Lam_nat]
    have h := pi_cancel (halfBin t) (halfBin (t + i))
    by_cases h0 : i = 0
    · rw [if_pos h0]
      subst h0
      rw [Function.update_self, smul_smul, smul_smul]
      congr 1
      linear_combination (1/2) * h
    · rw [if_neg h0, Function.update_of_ne h0, smul_smul]
      congr 1
      linear_combination h

theorem leg2chebT_mat (N : ℕ) (c : ℕ → E) (j : ℕ) (hj : j < N) :
    leg2cheb N true c j = ∑ i ∈ Finset.range N, l2cMat i j • c i := by
  have := l2cT_core N ((N+1)/2) (by omega) c j hj
  unfold leg2cheb
  simpa using this

theorem leg2chebND_T (N n0 : ℕ) (hn : N ≤ 2 * n0) (c : ℕ → E) (j : ℕ) (hj : j < N) :
    leg2chebND N n0 true c j = leg2cheb N true c j := by
  rw [leg2chebT_mat N c j hj, ← l2cT_core N n0 hn c j hj]
  simp [leg2chebND, FMMdirect1]

/-- Entries of the Chebyshev-to-Legendre matrix as the code forms them. -/
theorem c2l_entry (i t : ℕ) :
    ((i:ℝ) + 1/2) * -(c2lD (t+1) * c2lA (t + 1 + i)) * ((2 * (t+1) + i : ℕ) : ℝ) = chebCo (t+1) i := by
  unfold c2lD c2lA chebCo
  rw [if_neg (by omega), if_neg (by omega), if_neg (by omega), halfGam_succ]
  dsimp only
  have e : (2 * ((t+1:ℕ):ℝ) - 2) / 2 = (t:ℕ) := by push_cast; ring
  rw [e, Lam_nat, Lam_nat]
  have hp : Real.sqrt Real.pi ≠ 0 := (Real.sqrt_pos.2 Real.pi_pos).ne'
  have hb := (halfBin_pos (t+1+i)).ne'
  push_cast
  have : (t:ℝ) + 1 ≠ 0 := by positivity
  have : (t:ℝ) + 1 + i ≠ 0 := by positivity
  have : (2 * ((t:ℝ) + 1 + i) + 1) ≠ 0 := by positivity
  have h3 : ((t:ℝ) + 1 + i + 1/2) = (2 * ((t:ℝ) + 1 + i) + 1) / 2 := by ring
  rw [h3]
  field_simp
  ring

theorem c2l_diag (i : ℕ) (hi : i ≠ 0) : ((i:ℝ) + 1/2) * (Real.sqrt Real.pi * c2lA i) * i = chebCo 0 i := by
  obtain ⟨k, rfl⟩ : ∃ k, i = k + 1 := ⟨i - 1, by omega⟩
  rw [chebCo_zero]
  unfold c2lA
  rw [if_neg hi, Lam_nat]
  have hp : Real.sqrt Real.pi ≠ 0 := (Real.sqrt_pos.2 Real.pi_pos).ne'
  have hb := (halfBin_pos (k+1)).ne'
  push_cast
  have : (k:ℝ) + 1 ≠ 0 := by positivity
  have h3 : (k:ℝ) + 1 + 1/2 ≠ 0 := by positivity
  field_simp

theorem c2l_diag_zero : (((0:ℕ):ℝ) + 1/2) * (Real.sqrt Real.pi * c2lA 0) = chebCo 0 0 := by
  unfold c2lA chebCo
  have hp : Real.sqrt Real.pi ≠ 0 := (Real.sqrt_pos.2 Real.pi_pos).ne'
  simp
  field_simp

theorem c2l_core (N n0 : ℕ) (hn : N ≤ 2 * n0 + 2) (c : ℕ → E) (i : ℕ) (hi : i < N) :
    ((i:ℝ) + 1/2) • (forN (fun t v => c2lRow c2lD c2lA N (c2lIn c) (t + 1) v)
      (fun i => (Real.sqrt Real.pi * c2lA i) • c2lIn c i) n0 i) = ∑ n ∈ Finset.range N, c2lMat i n • c n := by
  rw [c2l_sum]
  have e : ∀ t, (if i < N - 2 * (t+1) then (-(c2lD (t+1) * c2lA (t + 1 + i))) • c2lIn c (2 * (t+1) + i) else 0) =
      if i + 2 < N - 2 * t then (fun n => (-(c2lD ((n - i) / 2) * c2lA ((n + i) / 2))) • c2lIn c n) (2 * t + (i + 2)) else 0 := by
    intro t
    dsimp only
    rw [show (2 * t + (i + 2) - i) / 2 = t + 1 by omega, show (2 * t + (i + 2) + i) / 2 = t + 1 + i by omega,
      show 2 * t + (i + 2) = 2 * (t+1) + i by ring]
    by_cases h : i < N - 2 * (t+1)
    · rw [if_pos h, if_pos (by omega)]
    · rw [if_neg h, if_neg (by omega)]
  rw [Finset.sum_congr rfl fun t _ => e t, sum_parity N (i+2) n0 (by omega)
    (fun n => (-(c2lD ((n - i) / 2) * c2lA ((n + i) / 2))) • c2lIn c n), smul_add, Finset.smul_sum]
  have hd : ∑ n ∈ Finset.range N, c2lMat i n • c n = ∑ n ∈ Finset.range N, ((if n = i then c2lMat i i • c i else 0) +
      if i + 2 ≤ n ∧ (n - (i + 2)) % 2 = 0 then c2lMat i n • c n else 0) := by
    refine Finset.sum_congr rfl fun n _ => ?_
    by_cases h1 : n = i
    · subst h1; rw [if_pos rfl, if_neg (by omega), add_zero]
    · rw [if_neg h1, zero_add]
      by_cases h2 : i + 2 ≤ n ∧ (n - (i + 2)) % 2 = 0
      · rw [if_pos h2]
      · rw [if_neg h2]
        unfold c2lMat
        rw [if_neg (by omega), zero_smul]
  rw [hd, Finset.sum_add_distrib, Finset.sum_ite_eq' (Finset.range N) i, if_pos (Finset.mem_range.2 hi)]
  congr 1
  · rw [c2lMat_pos (by omega), Nat.sub_self, Nat.zero_div]
    by_cases h0 : i = 0
    · subst h0
      rw [show c2lIn c 0 = c 0 from rfl, smul_smul, c2l_diag_zero]
    · rw [c2lIn_pos c h0, smul_smul, smul_smul, ← mul_assoc, ← c2l_diag i h0]
      congr 1
      ring
  · refine Finset.sum_congr rfl fun n _ => ?_
    by_cases h2 : i + 2 ≤ n ∧ (n - (i + 2)) % 2 = 0
    · rw [if_pos h2, if_pos h2]
      rw [c2lMat_pos (by omega), c2lIn_pos c (by omega), smul_smul, smul_smul]
      obtain ⟨t, ht⟩ : ∃ t, n = 2 * (t+1) + i := ⟨(n - (i+2)) / 2, by omega⟩
      subst ht
      rw [show (2 * (t+1) + i - i) / 2 = t + 1 by omega, show (2 * (t+1) + i + i) / 2 = t + 1 + i by omega, ← c2l_entry i t]
    · rw [if_neg h2, if_neg h2, smul_zero]

theorem cheb2leg_mat (N : ℕ) (c : ℕ → E) (i : ℕ) (hi : i < N) :
    cheb2leg N c i = ∑ n ∈ Finset.range N, c2lMat i n • c n :=
  c2l_core N ((N-1)/2) (by omega) c i hi

theorem cheb2legND_eq (N n0 : ℕ) (hn : N ≤ 2 * n0) (c : ℕ → E) (i : ℕ) (hi : i < N) :
    cheb2legND N n0 c i = cheb2leg N c i := by
  rw [cheb2leg_mat N c i hi, ← c2l_core N (n0 - 1) (by omega) c i hi]
  simp [cheb2legND, FMMdirect4]

/-! ## Columns of the matrices are expansions -/

theorem sum_half (n : ℕ) (F : ℕ → ℝ) (hF : ∀ j ≤ n, F (n - j) = F j) :
    ∑ j ∈ Finset.range (n+1), F j =
      ∑ j ∈ Finset.range (n+1), if 2 * j < n then 2 * F j else if 2 * j = n then F j else 0 := by
  have h1 : ∑ j ∈ Finset.range (n+1), (if n < 2 * j then F j else 0) =
      ∑ j ∈ Finset.range (n+1), if 2 * j < n then F j else 0 := by
    rw [← Finset.sum_range_reflect]
    refine Finset.sum_congr rfl fun j hj => ?_
    have := Finset.mem_range.1 hj
    rw [show n + 1 - 1 - j = n - j by omega, hF j (by omega)]
    by_cases h : 2 * j < n
    · rw [if_pos h, if_pos (by omega)]
    · rw [if_neg h, if_neg (by omega)]
  have h2 : ∑ j ∈ Finset.range (n+1), F j = ∑ j ∈ Finset.range (n+1), ((if 2 * j < n then F j else 0) +
      (if 2 * j = n then F j else 0) + if n < 2 * j then F j else 0) := by
    refine Finset.sum_congr rfl fun j _ => ?_
    rcases lt_trichotomy (2 * j) n with h | h | h
    · rw [if_pos h, if_neg (by omega), if_neg (by omega)]; ring
    · rw [if_neg (by omega), if_pos h, if_neg (by omega)]; ring
    · rw [if_neg (by omega), if_neg (by omega), if_pos h]; ring
  rw [h2, Finset.sum_add_distrib, h1, ← Finset.sum_add_distrib]
  refine Finset.sum_congr rfl fun j _ => ?_
  rcases lt_trichotomy (2 * j) n with h | h | h
  · simp only [if_pos h, if_neg (show ¬ 2 * j = n by omega)]; ring
  · simp only [if_neg (show ¬ 2 * j < n by omega), if_pos h]; ring
  · simp only [if_neg (show ¬ 2 * j < n by omega), if_neg (show ¬ 2 * j = n by omega)]; ring

theorem legP_l2cMat (x : ℝ) (N n : ℕ) (hn : n < N) :
    (legP n).eval x = ∑ i ∈ Finset.range N, l2cMat i n * (Chebyshev.T ℝ i).eval x := by
  rw [legP_eq_legSum, legSum, sum_half]
  · rw [← Finset.sum_filter_of_ne (s := Finset.range (n+1)) (p := fun j => 2 * j ≤ n),
      ← Finset.sum_filter_of_ne (s := Finset.range N) (p := fun i => i ≤ n ∧ (n - i) % 2 = 0)]
    · refine Finset.sum_bij (fun j _ => n - 2 * j) ?_ ?_ ?_ ?_
      · intro j hj
        simp only [Finset.mem_filter, Finset.mem_range] at hj ⊢
        omega
      · intro j hj j' hj' h
        simp only [Finset.mem_filter, Finset.mem_range] at hj hj'
        have : n - 2 * j = n - 2 * j' := h
        omega
      · intro i hi
        simp only [Finset.mem_filter, Finset.mem_range] at hi
        refine ⟨(n - i) / 2, ?_, ?_⟩
        · simp only [Finset.mem_filter, Finset.mem_range]
          omega
        · show n - 2 * ((n - i) / 2) = i
          omega
      · intro j hj
        simp only [Finset.mem_filter, Finset.mem_range] at hj
        rw [l2cMat_pos (by omega), show (n - (n - 2 * j)) / 2 = j by omega, show (n + (n - 2 * j)) / 2 = n - j by omega,
          show ((n - 2 * j : ℕ) : ℤ) = (n:ℤ) - 2 * j by omega]
        by_cases h : 2 * j < n
        · rw [if_pos h, if_neg (by omega)]; ring
        · rw [if_neg h, if_pos (by omega), if_pos (by omega)]; ring
    · intro i _ h
      by_contra hc
      apply h
      unfold l2cMat
      rw [if_neg hc, zero_mul]
    · intro j _ h
      by_contra hc
      apply h
      rw [if_neg (by omega), if_neg (by omega)]
  · intro j hj
    rw [show n - (n - j) = j by omega]
    have : ((n:ℤ) - 2 * ((n - j : ℕ):ℤ)) = -((n:ℤ) - 2 * j) := by omega
    rw [this, Chebyshev.T_neg]
    ring

theorem chebT_c2lMat (x : ℝ) (N n : ℕ) (hn : n < N) :
    (Chebyshev.T ℝ n).eval x = ∑ i ∈ Finset.range N, c2lMat i n * (legP i).eval x := by
  rw [chebT_eq_chebSum x n (n+1) (by omega), chebSum,
    ← Finset.sum_filter_of_ne (s := Finset.range (n+1)) (p := fun j => 2 * j ≤ n),
    ← Finset.sum_filter_of_ne (s := Finset.range N) (p := fun i => i ≤ n ∧ (n - i) % 2 = 0)]
  · refine Finset.sum_bij (fun j _ => n - 2 * j) ?_ ?_ ?_ ?_
    · intro j hj
      simp only [Finset.mem_filter, Finset.mem_range] at hj ⊢
      omega
    · intro j hj j' hj' h
      simp only [Finset.mem_filter, Finset.mem_range] at hj hj'
      have : n - 2 * j = n - 2 * j' := h
      omega
    · intro i hi
      simp only [Finset.mem_filter, Finset.mem_range] at hi
      refine ⟨(n - i) / 2, ?_, ?_⟩
      · simp only [Finset.mem_filter, Finset.mem_range]
        omega
      · show n - 2 * ((n - i) / 2) = i
        omega
    · intro j hj
      simp only [Finset.mem_filter, Finset.mem_range] at hj
      unfold c2lMat chebCoZ
      rw [if_neg (by omega), if_pos (by omega), show (n - (n - 2 * j)) / 2 = j by omega,
        show ((n:ℤ) - 2 * j).toNat = n - 2 * j by omega, Int.toNat_natCast]
  · intro i _ h
    by_contra hc
    apply h
    unfold c2lMat
    rw [if_neg hc, zero_mul]
  · intro j _ h
    by_contra hc
    apply h
    unfold chebCoZ
    rw [if_pos (by omega), zero_mul]

/-! ## The property -/

/-- **C59** `leg2cheb` returns the Chebyshev coefficients of the same function: `Σ v_k T_k(x) = Σ c_n P_n(x)` for every
length, every coefficient array and every `x`. -/
theorem C59_leg2cheb (N : ℕ) (c : ℕ → E) (x : ℝ) :
    ∑ k ∈ Finset.range N, ((Chebyshev.T ℝ k).eval x) • leg2cheb N false c k =
      ∑ n ∈ Finset.range N, ((legP n).eval x) • c n := by
  rw [Finset.sum_congr rfl fun k hk => by rw [leg2cheb_mat N c k (Finset.mem_range.1 hk), Finset.smul_sum]]
  rw [Finset.sum_comm]
  refine Finset.sum_congr rfl fun n hn => ?_
  rw [legP_l2cMat x N n (Finset.mem_range.1 hn), Finset.sum_smul]
  refine Finset.sum_congr rfl fun k _ => ?_
  rw [smul_smul, mul_comm]

/-- **C59** `cheb2leg` returns the Legendre coefficients of the same function. -/
theorem C59_cheb2leg (N : ℕ) (c : ℕ → E) (x : ℝ) :
    ∑ k ∈ Finset.range N, ((legP k).eval x) • cheb2leg N c k =
      ∑ n ∈ Finset.range N, ((Chebyshev.T ℝ n).eval x) • c n := by
  rw [Finset.sum_congr rfl fun k hk => by rw [cheb2leg_mat N c k (Finset.mem_range.1 hk), Finset.smul_sum]]
  rw [Finset.sum_comm]
  refine Finset.sum_congr rfl fun n hn => ?_
  rw [chebT_c2lMat x N n (Finset.mem_range.1 hn), Finset.sum_smul]
  refine Finset.sum_congr rfl fun k _ => ?_
  rw [smul_smul, mul_comm]

/-- **C59** `leg2cheb(·, transpose=True)` is the transpose: `⟨leg2cheb c, b⟩ = ⟨c, leg2chebᵀ b⟩`. -/
theorem C59_transpose (N : ℕ) (c b : ℕ → ℝ) :
    ∑ k ∈ Finset.range N, leg2cheb N false c k * b k = ∑ k ∈ Finset.range N, c k * leg2cheb N true b k := by
  have h1 : ∀ k ∈ Finset.range N, leg2cheb N false c k * b k = ∑ n ∈ Finset.range N, l2cMat k n • c n * b k :=
    fun k hk => by rw [leg2cheb_mat N c k (Finset.mem_range.1 hk), Finset.sum_mul]
  have h2 : ∀ k ∈ Finset.range N, c k * leg2cheb N true b k = ∑ n ∈ Finset.range N, c k * l2cMat n k • b n :=
    fun k hk => by rw [leg2chebT_mat N b k (Finset.mem_range.1 hk), Finset.mul_sum]
  rw [Finset.sum_congr rfl h1, Finset.sum_congr rfl h2, Finset.sum_comm]
  refine Finset.sum_congr rfl fun n _ => Finset.sum_congr rfl fun k _ => ?_
  simp only [smul_eq_mul]
  ring

/-- Two expansions in a family with one polynomial of each degree agree only if the coefficients do. -/
theorem expansion_unique {Q : ℕ → ℝ[X]} (hQ : ∀ n, (Q n).degree = n) (N : ℕ) (c d : ℕ → ℝ)
    (h : ∀ x, ∑ k ∈ Finset.range N, (Q k).eval x * c k = ∑ k ∈ Finset.range N, (Q k).eval x * d k) :
    ∀ k < N, c k = d k := by
  have hp : ∑ k ∈ Finset.range N, C (c k - d k) * Q k = 0 := by
    refine Polynomial.funext fun x => ?_
    rw [eval_finsetSum, eval_zero]
    have := sub_eq_zero.2 (h x)
    rw [← Finset.sum_sub_distrib] at this
    rw [← this]
    refine Finset.sum_congr rfl fun k _ => ?_
    simp; ring
  induction N with
  | zero => intro k hk; omega
  | succ N ih =>
    have hN : c N = d N := by
      have hc := congrArg (fun p => Polynomial.coeff p N) hp
      simp only [finsetSum_coeff, coeff_C_mul, coeff_zero] at hc
      rw [Finset.sum_range_succ, Finset.sum_eq_zero, zero_add] at hc
      · have : (Q N).coeff N ≠ 0 := by
          have hd := hQ N
          have h0 : Q N ≠ 0 := by intro h0; rw [h0] at hd; simp at hd
          have hn : (Q N).natDegree = N := by
            rw [degree_eq_natDegree h0] at hd; exact_mod_cast hd
          have := leadingCoeff_ne_zero.2 h0
          rwa [leadingCoeff, hn] at this
        have := (mul_eq_zero.1 hc).resolve_right this
        linarith
      · intro k hk
        rw [coeff_eq_zero_of_degree_lt, mul_zero]
        rw [hQ k]
        exact_mod_cast Finset.mem_range.1 hk
    intro k hk
    rcases Nat.lt_succ_iff_lt_or_eq.1 hk with h' | h'
    · refine ih (fun x => ?_) ?_ k h'
      · have := h x
        rw [Finset.sum_range_succ, Finset.sum_range_succ, hN] at this
        linarith
      · rw [Finset.sum_range_succ, hN, sub_self] at hp
        simpa using hp
    · rw [h', hN]

/-- **C59** Converting to Chebyshev and back is the identity. -/
theorem C59_roundtrip (N : ℕ) (c : ℕ → ℝ) (k : ℕ) (hk : k < N) : cheb2leg N (leg2cheb N false c) k = c k := by
  refine expansion_unique degree_legP N _ _ (fun x => ?_) k hk
  have h1 := C59_cheb2leg N (leg2cheb N false c) x
  have h2 := C59_leg2cheb N c x
  simp only [smul_eq_mul] at h1 h2
  rw [h1, h2]

/-- **C59** Converting to Legendre and back is the identity. -/
theorem C59_roundtrip' (N : ℕ) (c : ℕ → ℝ) (k : ℕ) (hk : k < N) : leg2cheb N false (cheb2leg N c) k = c k := by
  refine expansion_unique (Q := fun k => Chebyshev.T ℝ k) (fun n => by rw [Chebyshev.degree_T]; simp) N _ _
    (fun x => ?_) k hk
  have h1 := C59_cheb2leg N c x
  have h2 := C59_leg2cheb N (cheb2leg N c) x
  simp only [smul_eq_mul] at h1 h2
  rw [h2, h1]

/-- **C59** The branch used for multidimensional arrays: the compiled `Leg2Cheb` passes `n0 = N`, and agrees with the
one-dimensional routine for every `N`, in both directions. -/
theorem C59_multidim (N : ℕ) (c : ℕ → E) (i : ℕ) (hi : i < N) :
    leg2chebND N N false c i = leg2cheb N false c i ∧ leg2chebND N N true c i = leg2cheb N true c i :=
  ⟨leg2chebND_eq N N (by omega) c i hi, leg2chebND_T N N (by omega) c i hi⟩

/-- **C59** `FMMLeg2Cheb` and `Cheb2Leg` pass `n0 = N//2`: right for even `N`. -/
theorem C59_multidim_even (m : ℕ) (c : ℕ → E) (i : ℕ) (hi : i < 2 * m) :
    leg2chebND (2 * m) (2 * m / 2) false c i = leg2cheb (2 * m) false c i ∧
      leg2chebND (2 * m) (2 * m / 2) true c i = leg2cheb (2 * m) true c i ∧
      cheb2legND (2 * m) (2 * m / 2) c i = cheb2leg (2 * m) c i :=
  ⟨leg2chebND_eq _ _ (by omega) c i hi, leg2chebND_T _ _ (by omega) c i hi, cheb2legND_eq _ _ (by omega) c i hi⟩

/-- **C59** For every odd `N ≥ 3` the multidimensional branch with `n0 = N//2` drops the contribution of the last
coefficient to the first one: the result is wrong for the array `e_{N-1}`. -/
theorem C59_multidim_odd_refuted (m : ℕ) (hm : 1 ≤ m) :
    leg2chebND (2 * m + 1) ((2 * m + 1) / 2) false (fun k => if k = 2 * m then (1:ℝ) else 0) 0 ≠
        leg2cheb (2 * m + 1) false (fun k => if k = 2 * m then (1:ℝ) else 0) 0 ∧
      cheb2legND (2 * m + 1) ((2 * m + 1) / 2) (fun k => if k = 2 * m then (1:ℝ) else 0) 0 ≠
        cheb2leg (2 * m + 1) (fun k => if k = 2 * m then (1:ℝ) else 0) 0 := by
  rw [show (2 * m + 1) / 2 = m by omega]
  constructor
  · rw [leg2cheb_mat _ _ 0 (by omega), Finset.sum_eq_single (2 * m)]
    · have h0 : leg2chebND (2 * m + 1) m false (fun k => if k = 2 * m then (1:ℝ) else 0) 0 = 0 := by
        unfold leg2chebND FMMdirect1
        simp only [Bool.false_eq_true, if_false, Function.update_self]
        rw [l2c_sum, Finset.sum_eq_zero]
        · simp
        · intro t ht
          have := Finset.mem_range.1 ht
          rw [if_pos (by omega), if_neg (by omega), smul_zero]
      rw [h0, if_pos rfl]
      unfold l2cMat
      rw [if_pos (by omega), if_pos rfl]
      have h1 := halfBin_pos ((2 * m - 0) / 2)
      have h2 := halfBin_pos ((2 * m + 0) / 2)
      simp only [smul_eq_mul]
      positivity
    · intro n _ hn
      rw [if_neg hn, smul_zero]
    · intro h; exact absurd (Finset.mem_range.2 (by omega)) h
  · rw [cheb2leg_mat _ _ 0 (by omega), Finset.sum_eq_single (2 * m)]
    · have h0 : cheb2legND (2 * m + 1) m (fun k => if k = 2 * m then (1:ℝ) else 0) 0 = 0 := by
        unfold cheb2legND FMMdirect4
        simp only
        rw [c2l_sum, Finset.sum_eq_zero]
        · unfold c2lIn
          have : (0:ℕ) ≠ 2 * m := by omega
          simp [this]
        · intro t ht
          have := Finset.mem_range.1 ht
          unfold c2lIn
          have : t + 1 ≠ m := by omega
          simp [this]
      rw [h0, if_pos rfl]
      unfold c2lMat
      rw [if_pos (by omega), show (2 * m - 0) / 2 = m by omega]
      obtain ⟨j, rfl⟩ : ∃ j, m = j + 1 := ⟨m - 1, by omega⟩
      unfold chebCo
      rw [if_neg (by omega), halfGam_succ]
      have h1 := halfBin_pos j
      have h2 := halfBin_pos (j + 1 + 0)
      simp only [smul_eq_mul, mul_one]
      refine (neg_neg_of_pos ?_).ne'
      positivity
    · intro n _ hn
      rw [if_neg hn, smul_zero]
    · intro h; exact absurd (Finset.mem_range.2 (by omega)) h

/-- Non-vacuity: `P_2 = T_0/4 + 3/4 T_2`. -/
example : leg2cheb 3 false (fun k => if k = 2 then (1:ℝ) else 0) 0 = 1/4 ∧
    leg2cheb 3 false (fun k => if k = 2 then (1:ℝ) else 0) 2 = 3/4 := by
  refine ⟨?_, ?_⟩
  · rw [leg2cheb_mat _ _ 0 (by omega)]
    simp [l2cMat, halfBin]
    norm_num
  · rw [leg2cheb_mat _ _ 2 (by omega)]
    simp [l2cMat, halfBin]
    norm_num

end Shenfun
