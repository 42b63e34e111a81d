import Verif.Lemmas.FMMKernel
import Verif.Props.Leg2Cheb
import Mathlib.Analysis.Normed.Module.Basic

/-!
# C60: the hierarchical conversion agrees with the direct one to the accuracy of its submatrices
-/

namespace Shenfun

open Polynomial

set_option linter.unusedSectionVars false

section sums
variable {E : Type*} [AddCommGroup E] [Module ℝ E]

/-- A sweep whose passes add `G k x` at `x`. -/
theorem forN_addG (step : ℕ → (ℕ → E) → ℕ → E) (G : ℕ → ℕ → E) (hs : ∀ k v x, step k v x = v x + G k x) (v : ℕ → E) (n x : ℕ) :
    forN step v n x = v x + ∑ k ∈ Finset.range n, G k x := by
  induction n with
  | zero => simp
  | succ n ih => rw [forN_succ, hs, ih, Finset.sum_range_succ, add_assoc]

/-- Sum over one parity class as a sum over half indices. -/
theorem sum_half_index (N H r : ℕ) (hN : N ≤ 2 * H) (hr : r < 2) (f : ℕ → E) :
    (∑ J ∈ Finset.range H, if 2 * J + r < N then f (2 * J + r) else 0) = ∑ j ∈ Finset.range N, if j % 2 = r then f j else 0 := by
  have h1 : (∑ j ∈ Finset.range N, if j % 2 = r then f j else 0) =
      ∑ j ∈ Finset.range (H * 2), if j < N then (if j % 2 = r then f j else 0) else 0 := by
    rw [← Finset.sum_filter (p := fun j => j < N)]
    refine Finset.sum_congr ?_ fun _ _ => rfl
    ext j; simp only [Finset.mem_filter, Finset.mem_range]; omega
  rw [h1, sum_mul_range]
  refine Finset.sum_congr rfl fun J _ => ?_
  rw [Finset.sum_eq_single r]
  · rw [mul_comm J 2]
    have : (2 * J + r) % 2 = r := by omega
    by_cases h : 2 * J + r < N
    · rw [if_pos h, if_pos h, if_pos this]
    · rw [if_neg h, if_neg h]
  · intro r' hr' hne
    have := Finset.mem_range.1 hr'
    have h2 : (J * 2 + r') % 2 ≠ r := by omega
    simp only [h2, if_false, ite_self]
  · intro hn; exact absurd (Finset.mem_range.2 hr) hn

/-- Sum over the columns `j ≥ i` of the parity of `i`. -/
theorem sum_upper (N i : ℕ) (hi : i < N) (f : ℕ → E) :
    (∑ t ∈ Finset.range N, if i + 2 * t < N then f (i + 2 * t) else 0) =
      ∑ j ∈ Finset.range N, if i ≤ j ∧ j % 2 = i % 2 then f j else 0 := by
  rw [← Finset.sum_filter, ← Finset.sum_filter]
  refine Finset.sum_nbij' (fun t => i + 2 * t) (fun j => (j - i) / 2) ?_ ?_ ?_ ?_ ?_
  · intro t ht; simp only [Finset.mem_filter, Finset.mem_range] at *; omega
  · intro t ht; simp only [Finset.mem_filter, Finset.mem_range] at *; omega
  · intro t ht; simp only [Finset.mem_filter, Finset.mem_range] at *; omega
  · intro t ht; simp only [Finset.mem_filter, Finset.mem_range] at *; omega
  · intro t _; rfl

/-- Sum over the rows `i ≤ j` of the parity of `j`. -/
theorem sum_lower (N j : ℕ) (hj : j < N) (f : ℕ → E) :
    (∑ t ∈ Finset.range N, if 2 * t ≤ j then f (j - 2 * t) else 0) =
      ∑ i ∈ Finset.range N, if i ≤ j ∧ i % 2 = j % 2 then f i else 0 := by
  rw [← Finset.sum_filter, ← Finset.sum_filter]
  refine Finset.sum_nbij' (fun t => j - 2 * t) (fun i => (j - i) / 2) ?_ ?_ ?_ ?_ ?_
  · intro t ht; simp only [Finset.mem_filter, Finset.mem_range] at *; omega
  · intro t ht; simp only [Finset.mem_filter, Finset.mem_range] at *; omega
  · intro t ht; simp only [Finset.mem_filter, Finset.mem_range] at *; omega
  · intro t ht; simp only [Finset.mem_filter, Finset.mem_range] at *; omega
  · intro t _; rfl

namespace FMMLevel
variable {F : FMMLevel}

/-- `FMMcheb` is the product with the far field matrix. -/
theorem cheb_false (h : F.Valid) (hT : F.ThExact) (hR : F.RankOK) {N : ℕ} (hN : N ≤ 2 * F.half) (u : ℕ → E) {i : ℕ} (hi : i < N) :
    F.cheb N false u i = ∑ j ∈ Finset.range N, if j % 2 = i % 2 then F.far (i % 2) (i / 2) (j / 2) • u j else 0 := by
  unfold cheb
  rw [chebHalf_false h hT hR _ _ (by omega), ← sum_half_index N F.half (i % 2) hN (Nat.mod_lt _ (by norm_num))]
  refine Finset.sum_congr rfl fun J _ => ?_
  have e : J < N / 2 + N % 2 * (1 - i % 2) ↔ 2 * J + i % 2 < N := by
    rcases Nat.mod_two_eq_zero_or_one i with h1 | h1 <;> rw [h1] <;> omega
  have e2 : (2 * J + i % 2) / 2 = J := by omega
  rw [e2]
  by_cases hc : 2 * J + i % 2 < N
  · rw [if_pos hc, if_pos (e.2 hc)]
  · rw [if_neg hc, if_neg (fun hh => hc (e.1 hh)), smul_zero]

theorem cheb_true (h : F.Valid) (hT : F.ThExact) (hR : F.RankOK) {N : ℕ} (hN : N ≤ 2 * F.half) (u : ℕ → E) {j : ℕ} (hj : j < N) :
    F.cheb N true u j = ∑ i ∈ Finset.range N, if i % 2 = j % 2 then F.far (j % 2) (i / 2) (j / 2) • u i else 0 := by
  unfold cheb
  rw [chebHalf_true h hT hR _ _ (by omega), ← sum_half_index N F.half (j % 2) hN (Nat.mod_lt _ (by norm_num))]
  refine Finset.sum_congr rfl fun J _ => ?_
  have e : J < N / 2 + N % 2 * (1 - j % 2) ↔ 2 * J + j % 2 < N := by
    rcases Nat.mod_two_eq_zero_or_one j with h1 | h1 <;> rw [h1] <;> omega
  have e2 : (2 * J + j % 2) / 2 = J := by omega
  rw [e2]
  by_cases hc : 2 * J + j % 2 < N
  · rw [if_pos hc, if_pos (e.2 hc)]
  · rw [if_neg hc, if_neg (fun hh => hc (e.1 hh)), smul_zero]

/-- The pairs treated by `FMMdirect2`/`FMMdirect3`. -/
def mid (F : FMMLevel) (i j : ℕ) : Prop :=
  i + 2 * F.diags ≤ j ∧ (j - 2 * F.diags) / (2 * F.s) = i / (2 * F.s)

instance (F : FMMLevel) (i j : ℕ) : Decidable (F.mid i j) := by unfold mid; infer_instance

/-- The loop structure of the second direct part: all `(k, t, jj)` with the row `k*h+jj` and column `n0+k*h+2t+jj`. -/
theorem mid_sum (hs : 0 < F.s) {N : ℕ} (hN : N ≤ 2 * F.half) (g : ℕ → ℕ → E) (P : ℕ → ℕ → Prop)
    [∀ i j, Decidable (P i j)] :
    (∑ k ∈ Finset.range (F.nBlocks F.L), ∑ t ∈ Finset.range ((2 * F.s + 1) / 2),
      ∑ jj ∈ Finset.range (min (N - (2 * F.diags + k * (2 * F.s) + 2 * t)) (2 * F.s - 2 * t)),
        if P (k * (2 * F.s) + jj) (2 * F.diags + k * (2 * F.s) + 2 * t + jj) then
          g (k * (2 * F.s) + jj) (2 * F.diags + k * (2 * F.s) + 2 * t + jj) else 0) =
      ∑ i ∈ Finset.range N, ∑ j ∈ Finset.range N, if P i j ∧ (j % 2 = i % 2 ∧ F.mid i j) then g i j else 0 := by
  have hh : 0 < 2 * F.s := by omega
  rw [Finset.sum_sigma', Finset.sum_sigma', Finset.sum_sigma', ← Finset.sum_filter, ← Finset.sum_filter]
  refine Finset.sum_nbij' (fun x => ⟨x.1.1 * (2 * F.s) + x.2, 2 * F.diags + x.1.1 * (2 * F.s) + 2 * x.1.2 + x.2⟩)
    (fun y => ⟨⟨y.1 / (2 * F.s), (y.2 - 2 * F.diags - y.1) / 2⟩, y.1 % (2 * F.s)⟩) ?_ ?_ ?_ ?_ ?_
  · rintro ⟨⟨k, t⟩, jj⟩ hx
    simp only [Finset.mem_filter, Finset.mem_sigma, Finset.mem_range, lt_min_iff] at *
    obtain ⟨⟨⟨hk, ht⟩, h1, h2⟩, hP⟩ := hx
    refine ⟨⟨by omega, by omega⟩, hP, by omega, by omega, ?_⟩
    rw [show 2 * F.diags + k * (2 * F.s) + 2 * t + jj - 2 * F.diags = k * (2 * F.s) + (2 * t + jj) by omega,
      mul_add_div' _ (by omega), mul_add_div' _ (by omega)]
  · rintro ⟨i, j⟩ hx
    simp only [Finset.mem_filter, Finset.mem_sigma, Finset.mem_range, lt_min_iff] at *
    obtain ⟨⟨hi, hj⟩, hP, hpar, hle, hdiv⟩ := hx
    have a1 := Nat.div_add_mod' i (2 * F.s)
    have a2 := Nat.div_add_mod' (j - 2 * F.diags) (2 * F.s)
    have a3 := Nat.mod_lt i hh
    have a4 := Nat.mod_lt (j - 2 * F.diags) hh
    rw [hdiv] at a2
    have hk : i / (2 * F.s) < F.nBlocks F.L := by
      rw [Nat.div_lt_iff_lt_mul hh]
      have : F.nBlocks F.L * (2 * F.s) = 2 * (F.s * F.nBlocks F.L) := by ring
      unfold half at hN
      omega
    have e1 : i / (2 * F.s) * (2 * F.s) + i % (2 * F.s) = i := a1
    have e2 : 2 * F.diags + i / (2 * F.s) * (2 * F.s) + 2 * ((j - 2 * F.diags - i) / 2) + i % (2 * F.s) = j := by omega
    rw [e1, e2]
    refine ⟨⟨⟨hk, ?_⟩, ?_, ?_⟩, hP⟩ <;> omega
  · rintro ⟨⟨k, t⟩, jj⟩ hx
    simp only [Finset.mem_filter, Finset.mem_sigma, Finset.mem_range, lt_min_iff] at hx
    obtain ⟨⟨⟨hk, ht⟩, h1, h2⟩, hP⟩ := hx
    have e1 : (k * (2 * F.s) + jj) / (2 * F.s) = k := mul_add_div' _ (by omega)
    have e2 : (k * (2 * F.s) + jj) % (2 * F.s) = jj := mul_add_mod'' _ (by omega)
    have e3 : (2 * F.diags + k * (2 * F.s) + 2 * t + jj - 2 * F.diags - (k * (2 * F.s) + jj)) / 2 = t := by omega
    simp only [e1, e2, e3]
  · rintro ⟨i, j⟩ hx
    simp only [Finset.mem_filter, Finset.mem_sigma, Finset.mem_range] at hx
    obtain ⟨⟨hi, hj⟩, hP, hpar, hle, hdiv⟩ := hx
    have a1 := Nat.div_add_mod' i (2 * F.s)
    have e2 : 2 * F.diags + i / (2 * F.s) * (2 * F.s) + 2 * ((j - 2 * F.diags - i) / 2) + i % (2 * F.s) = j := by omega
    simp only [a1, e2]
  · intro x _; rfl

/-- A sum with the row fixed. -/
theorem sum_row {N x : ℕ} (hx : x < N) (Q : ℕ → ℕ → Prop) [∀ i j, Decidable (Q i j)] (g : ℕ → ℕ → E) :
    (∑ i ∈ Finset.range N, ∑ j ∈ Finset.range N, if x = i ∧ Q i j then g i j else 0) =
      ∑ j ∈ Finset.range N, if Q x j then g x j else 0 := by
  rw [Finset.sum_eq_single x]
  · simp only [true_and]
  · intro i _ hne
    refine Finset.sum_eq_zero fun j _ => if_neg fun hh => hne hh.1.symm
  · intro hn; exact absurd (Finset.mem_range.2 hx) hn

theorem sum_col {N x : ℕ} (hx : x < N) (Q : ℕ → ℕ → Prop) [∀ i j, Decidable (Q i j)] (g : ℕ → ℕ → E) :
    (∑ i ∈ Finset.range N, ∑ j ∈ Finset.range N, if x = j ∧ Q i j then g i j else 0) =
      ∑ i ∈ Finset.range N, if Q i x then g i x else 0 := by
  rw [Finset.sum_comm]
  exact sum_row hx (fun j i => Q i j) (fun j i => g i j)

theorem direct2_false (a : ℕ → ℝ) (hs : 0 < F.s) {N : ℕ} (hN : N ≤ 2 * F.half) (u v : ℕ → E) {i : ℕ} (hi : i < N) :
    direct2 a N (2 * F.s) (F.nBlocks F.L) (2 * F.diags) false u v i =
      v i + ∑ j ∈ Finset.range N, if j % 2 = i % 2 ∧ F.mid i j then (a ((j - i) / 2) * a ((j + i) / 2)) • u j else 0 := by
  unfold direct2
  simp only [Bool.false_eq_true, if_false]
  rw [forN_addG _ _ fun k v x => forN_addG _ _ (fun t v x => forN_scatter _ _ _ _ _) _ _ _]
  congr 1
  rw [← sum_row hi (fun i j => j % 2 = i % 2 ∧ F.mid i j) (fun i j => (a ((j - i) / 2) * a ((j + i) / 2)) • u j),
    ← mid_sum hs hN (fun i j => (a ((j - i) / 2) * a ((j + i) / 2)) • u j) (fun i' _ => i = i')]
  refine Finset.sum_congr rfl fun k _ => Finset.sum_congr rfl fun t _ => Finset.sum_congr rfl fun jj _ => ?_
  congr 4
  · omega
  · congr 1; omega

theorem direct2_true (a : ℕ → ℝ) (hs : 0 < F.s) {N : ℕ} (hN : N ≤ 2 * F.half) (u v : ℕ → E) {j : ℕ} (hj : j < N) :
    direct2 a N (2 * F.s) (F.nBlocks F.L) (2 * F.diags) true u v j =
      v j + ∑ i ∈ Finset.range N, if j % 2 = i % 2 ∧ F.mid i j then (a ((j - i) / 2) * a ((j + i) / 2)) • u i else 0 := by
  unfold direct2
  simp only [if_true]
  rw [forN_addG _ _ fun k v x => forN_addG _ _ (fun t v x => forN_scatter _ _ _ _ _) _ _ _]
  congr 1
  rw [← sum_col hj (fun i j => j % 2 = i % 2 ∧ F.mid i j) (fun i j => (a ((j - i) / 2) * a ((j + i) / 2)) • u i),
    ← mid_sum hs hN (fun i j => (a ((j - i) / 2) * a ((j + i) / 2)) • u i) (fun _ j' => j = j')]
  refine Finset.sum_congr rfl fun k _ => Finset.sum_congr rfl fun t _ => Finset.sum_congr rfl fun jj _ => ?_
  congr 4
  · omega
  · congr 1; omega

theorem direct3_eq (dn a : ℕ → ℝ) (hs : 0 < F.s) {N : ℕ} (hN : N ≤ 2 * F.half) (u v : ℕ → E) {i : ℕ} (hi : i < N) :
    direct3 dn a N (2 * F.s) (F.nBlocks F.L) (2 * F.diags) u v i =
      v i + ∑ j ∈ Finset.range N, if j % 2 = i % 2 ∧ F.mid i j then (-(dn ((j - i) / 2) * a ((j + i) / 2))) • u j else 0 := by
  unfold direct3
  simp only [sub_eq_add_neg, ← neg_smul]
  rw [forN_addG _ _ fun k v x => forN_addG _ _ (fun t v x => forN_scatter _ _ _ _ _) _ _ _]
  congr 1
  rw [← sum_row hi (fun i j => j % 2 = i % 2 ∧ F.mid i j) (fun i j => (-(dn ((j - i) / 2) * a ((j + i) / 2))) • u j),
    ← mid_sum hs hN (fun i j => (-(dn ((j - i) / 2) * a ((j + i) / 2))) • u j) (fun i' _ => i = i')]
  refine Finset.sum_congr rfl fun k _ => Finset.sum_congr rfl fun t _ => Finset.sum_congr rfl fun jj _ => ?_
  congr 5
  · omega
  · congr 1; omega

/-- The pairs treated by `FMMdirect1`/`FMMdirect4`. -/
def close (F : FMMLevel) (i j : ℕ) : Prop := i ≤ j ∧ j < i + 2 * F.diags

instance (F : FMMLevel) (i j : ℕ) : Decidable (F.close i j) := by unfold close; infer_instance

theorem direct1_false (a : ℕ → ℝ) {N : ℕ} (u v : ℕ → E) {i : ℕ} (hi : i < N) :
    FMMdirect1 a N F.diags false u v i =
      v i + ∑ j ∈ Finset.range N, if j % 2 = i % 2 ∧ F.close i j then (a ((j - i) / 2) * a ((j + i) / 2)) • u j else 0 := by
  unfold FMMdirect1
  simp only [Bool.false_eq_true, if_false]
  rw [l2c_sum]
  congr 1
  rw [← Finset.sum_filter, ← Finset.sum_filter]
  unfold close
  refine Finset.sum_nbij' (fun t => i + 2 * t) (fun j => (j - i) / 2) ?_ ?_ ?_ ?_ ?_
  · intro t ht; simp only [Finset.mem_filter, Finset.mem_range] at *; omega
  · intro t ht; simp only [Finset.mem_filter, Finset.mem_range] at *; omega
  · intro t ht; simp only [Finset.mem_filter, Finset.mem_range] at *; omega
  · intro t ht; simp only [Finset.mem_filter, Finset.mem_range] at *; omega
  · intro t _
    rw [show (i + 2 * t - i) / 2 = t by omega, show (i + 2 * t + i) / 2 = t + i by omega, add_comm (2 * t)]

theorem direct1_true (a : ℕ → ℝ) {N : ℕ} (u v : ℕ → E) {j : ℕ} (hj : j < N) :
    FMMdirect1 a N F.diags true u v j =
      v j + ∑ i ∈ Finset.range N, if j % 2 = i % 2 ∧ F.close i j then (a ((j - i) / 2) * a ((j + i) / 2)) • u i else 0 := by
  unfold FMMdirect1
  simp only [if_true]
  rw [l2cT_sum]
  congr 1
  rw [← Finset.sum_filter, ← Finset.sum_filter]
  unfold close
  refine Finset.sum_nbij' (fun t => j - 2 * t) (fun i => (j - i) / 2) ?_ ?_ ?_ ?_ ?_
  · intro t ht; simp only [Finset.mem_filter, Finset.mem_range] at *; omega
  · intro t ht; simp only [Finset.mem_filter, Finset.mem_range] at *; omega
  · intro t ht; simp only [Finset.mem_filter, Finset.mem_range] at *; omega
  · intro t ht; simp only [Finset.mem_filter, Finset.mem_range] at *; omega
  · intro t ht
    simp only [Finset.mem_filter, Finset.mem_range] at ht
    rw [show (j - (j - 2 * t)) / 2 = t by omega, show (j + (j - 2 * t)) / 2 = t + (j - 2 * t) by omega]

/-- Coefficient of row `i`, column `j` of the compressed matrix for the kernel `K`. -/
noncomputable def coef (F : FMMLevel) (K : ℕ → ℕ → ℝ) (i j : ℕ) : ℝ :=
  if j % 2 = i % 2 then F.far (i % 2) (i / 2) (j / 2) + (if F.mid i j then K i j else 0) + (if F.close i j then K i j else 0)
  else 0

/-- The kernel of the Legendre to Chebyshev conversion. -/
noncomputable def l2cK (i j : ℕ) : ℝ := l2cA ((j - i) / 2) * l2cA ((j + i) / 2)

/-- The kernel of the Chebyshev to Legendre conversion. -/
noncomputable def c2lK (i j : ℕ) : ℝ :=
  if i = j then Real.sqrt Real.pi * c2lA i else -(c2lD ((j - i) / 2) * c2lA ((j + i) / 2))

theorem c2lK_self (i : ℕ) : c2lK i i = Real.sqrt Real.pi * c2lA i := if_pos rfl

theorem c2lK_ne {i j : ℕ} (h : i ≠ j) : c2lK i j = -(c2lD ((j - i) / 2) * c2lA ((j + i) / 2)) := if_neg h

/-- Diagonal plus `n` diagonals above as a sum over columns. -/
theorem c2l_cols {N n : ℕ} (u : ℕ → E) {i : ℕ} (hi : i < N) (P : ℕ → Prop) [DecidablePred P]
    (hP : ∀ j < N, P j ↔ i ≤ j ∧ j % 2 = i % 2 ∧ j ≤ i + 2 * n) :
    (Real.sqrt Real.pi * c2lA i) • u i + (∑ t ∈ Finset.range n, if i < N - 2 * (t+1) then
        (-(c2lD (t+1) * c2lA (t + 1 + i))) • u (2 * (t+1) + i) else 0) =
      ∑ j ∈ Finset.range N, if P j then c2lK i j • u j else 0 := by
  have hf : ∀ f : ℕ → E, (∑ j ∈ Finset.range N, if P j then f j else 0) =
      ∑ t ∈ Finset.range (n + 1), if i + 2 * t < N then f (i + 2 * t) else 0 := by
    intro f
    rw [← Finset.sum_filter, ← Finset.sum_filter]
    refine Finset.sum_nbij' (fun j => (j - i) / 2) (fun t => i + 2 * t) ?_ ?_ ?_ ?_ ?_
    · intro t ht
      simp only [Finset.mem_filter, Finset.mem_range] at *
      have := (hP t ht.1).1 ht.2
      omega
    · intro t ht
      simp only [Finset.mem_filter, Finset.mem_range] at *
      exact ⟨ht.2, (hP _ ht.2).2 (by omega)⟩
    · intro t ht
      simp only [Finset.mem_filter, Finset.mem_range] at *
      have := (hP t ht.1).1 ht.2
      omega
    · intro t ht; simp only [Finset.mem_filter, Finset.mem_range] at *; omega
    · intro t ht
      simp only [Finset.mem_filter, Finset.mem_range] at *
      have := (hP t ht.1).1 ht.2
      congr 1; omega
  rw [hf, Finset.sum_range_succ', add_comm]
  congr 1
  · refine Finset.sum_congr rfl fun t _ => ?_
    by_cases hc : i < N - 2 * (t + 1)
    · rw [if_pos hc, if_pos (by omega), c2lK_ne (by omega), show (i + 2 * (t + 1) - i) / 2 = t + 1 by omega,
        show (i + 2 * (t + 1) + i) / 2 = t + 1 + i by omega, add_comm i (2 * (t + 1))]
    · rw [if_neg hc, if_neg (by omega)]
  · rw [mul_zero, add_zero, if_pos hi, c2lK_self]

theorem direct4_eq (hd : 0 < F.diags) {N : ℕ} (u v : ℕ → E) {i : ℕ} (hi : i < N) :
    FMMdirect4 c2lD c2lA N F.diags u v i =
      v i + ∑ j ∈ Finset.range N, if j % 2 = i % 2 ∧ F.close i j then c2lK i j • u j else 0 := by
  unfold FMMdirect4
  rw [c2l_sum, add_assoc]
  congr 1
  exact c2l_cols u hi _ fun j _ => by unfold close; omega

theorem coef_smul (K : ℕ → ℕ → ℝ) (i j : ℕ) (x : E) :
    (if j % 2 = i % 2 then F.far (i % 2) (i / 2) (j / 2) • x else 0) +
      (if j % 2 = i % 2 ∧ F.mid i j then K i j • x else 0) + (if j % 2 = i % 2 ∧ F.close i j then K i j • x else 0) =
      F.coef K i j • x := by
  unfold coef
  by_cases h : j % 2 = i % 2
  · simp only [h, true_and, if_true, add_smul, ite_smul, zero_smul]
  · simp only [h, false_and, if_false, zero_smul, add_zero]

theorem applyL2C_false (h : F.Valid) (hT : F.ThExact) (hR : F.RankOK) {N : ℕ} (hN : N ≤ 2 * F.half) (u : ℕ → E) {i : ℕ} (hi : i < N) :
    F.applyL2C N false u i = ∑ j ∈ Finset.range N, F.coef l2cK i j • u j := by
  unfold applyL2C
  rw [direct1_false _ _ _ hi, direct2_false _ h.s_pos hN _ _ hi, cheb_false h hT hR hN _ hi, ← Finset.sum_add_distrib,
    ← Finset.sum_add_distrib]
  exact Finset.sum_congr rfl fun j _ => coef_smul l2cK i j (u j)

theorem applyL2C_true (h : F.Valid) (hT : F.ThExact) (hR : F.RankOK) {N : ℕ} (hN : N ≤ 2 * F.half) (u : ℕ → E) {j : ℕ} (hj : j < N) :
    F.applyL2C N true u j = ∑ i ∈ Finset.range N, F.coef l2cK i j • u i := by
  unfold applyL2C
  rw [direct1_true _ _ _ hj, direct2_true _ h.s_pos hN _ _ hj, cheb_true h hT hR hN _ hj, ← Finset.sum_add_distrib,
    ← Finset.sum_add_distrib]
  refine Finset.sum_congr rfl fun i _ => ?_
  rw [← coef_smul l2cK i j (u i)]
  congr 2
  by_cases hp : i % 2 = j % 2
  · rw [if_pos hp, if_pos hp.symm, hp]
  · rw [if_neg hp, if_neg (Ne.symm hp)]

theorem applyC2L_eq (h : F.Valid) (hT : F.ThExact) (hR : F.RankOK) (hd : 0 < F.diags) {N : ℕ} (hN : N ≤ 2 * F.half) (u : ℕ → E)
    {i : ℕ} (hi : i < N) : F.applyC2L N u i = ∑ j ∈ Finset.range N, F.coef c2lK i j • u j := by
  unfold applyC2L
  rw [direct4_eq hd _ _ hi, direct3_eq _ _ h.s_pos hN _ _ hi, cheb_false h hT hR hN _ hi, ← Finset.sum_add_distrib,
    ← Finset.sum_add_distrib]
  refine Finset.sum_congr rfl fun j _ => ?_
  rw [← coef_smul c2lK i j (u j)]
  congr 2
  by_cases hm : j % 2 = i % 2 ∧ F.mid i j
  · rw [if_pos hm, if_pos hm, c2lK_ne (by have := hm.2; unfold mid at this; omega)]
  · rw [if_neg hm, if_neg hm]

/-! ## Accuracy of the submatrices -/

/-- Every submatrix of the hierarchy reproduces the kernel `K` to within `ε` at the points of its rows and columns: the rows
`i0+p*h, …, i0+(p+1)*h-1` and columns `j0+(q+1)*h, …` (`i0, j0 = get_ij(level, block)`) of either parity. -/
def Accurate (F : FMMLevel) (K : ℕ → ℕ → ℝ) (ε : ℝ) : Prop :=
  ∀ l < F.L, ∀ b < F.nBlocks l, ∀ q < F.D l, ∀ p ≤ q, ∀ odd < 2, ∀ t < F.W l, ∀ t' < F.W l,
    |F.blockK odd l b q p t t' -
      K (2 * (F.rowStart l b + p * F.W l + t) + odd) (2 * (F.colStart l b + (q + 1) * F.W l + t') + odd)| ≤ ε

theorem far_close (h : F.Valid) {K : ℕ → ℕ → ℝ} {ε : ℝ} (hA : F.Accurate K ε) {l I J : ℕ} (hl : l < F.L) (hc : F.covers l I J)
    {odd : ℕ} (ho : odd < 2) : |F.far odd I J - K (2 * I + odd) (2 * J + odd)| ≤ ε := by
  have hD := h.D_pos l hl
  have hW := h.W_pos hl
  rw [far_of_covers h odd hl hc]
  unfold kern
  rw [if_pos hc]
  obtain ⟨h1, h2, h3⟩ := (covers_iff h hl I J).1 hc
  have hb : F.rc l I / F.D l < F.nBlocks l := (Nat.div_lt_iff_lt_mul hD).2 h1
  have := hA l hl (F.rc l I / F.D l) hb ((F.cc l J - 1) % F.D l) (Nat.mod_lt _ hD) (F.rc l I % F.D l)
    ((le_iff_mod hD h3).1 (by omega)) odd ho (I % F.W l) (Nat.mod_lt _ hW) ((J - F.off l) % F.W l) (Nat.mod_lt _ hW)
  rw [F.rowStart_eq, F.colStart_eq, div_mul_add_mod', h3, div_mul_add_mod'] at this
  have e1 : F.rc l I * F.W l + I % F.W l = I := Nat.div_add_mod' _ _
  have e2 : F.off l + (F.cc l J - 1 + 1) * F.W l + (J - F.off l) % F.W l = J := by
    rw [show F.cc l J - 1 + 1 = F.cc l J by omega, add_assoc]
    have e3 : F.cc l J * F.W l + (J - F.off l) % F.W l = J - F.off l := Nat.div_add_mod' _ _
    have e4 : F.off l ≤ J := by have := hc.2.1; omega
    omega
  rw [e1, e2, ← h3] at this
  exact this

/-- **Trichotomy**: every entry on or above the diagonal is handled by exactly one of the three parts. -/
theorem coef_close (h : F.Valid) {K : ℕ → ℕ → ℝ} {ε : ℝ} (hε : 0 ≤ ε) (hA : F.Accurate K ε) {i j : ℕ} (hj : j < 2 * F.half) :
    |F.coef K i j - (if i ≤ j ∧ j % 2 = i % 2 then K i j else 0)| ≤ ε := by
  have hs := h.s_pos
  unfold coef
  by_cases hp : j % 2 = i % 2
  · simp only [hp, if_true, and_true]
    have hrc : F.rc (F.L - 1) (i / 2) = i / 2 / F.s := by unfold rc; rw [W_last]
    have hcc : F.cc (F.L - 1) (j / 2) = (j / 2 - F.diags) / F.s := by unfold cc; rw [W_last, off_last]
    have hmid : (j - 2 * F.diags) / (2 * F.s) = (j / 2 - F.diags) / F.s := by
      rw [← Nat.div_div_eq_div_mul]; congr 1; omega
    have hmid' : i / (2 * F.s) = i / 2 / F.s := by rw [← Nat.div_div_eq_div_mul]
    by_cases hc : F.close i j
    · have hm : ¬ F.mid i j := by unfold mid close at *; omega
      have hf : F.far (i % 2) (i / 2) (j / 2) = 0 := by
        refine far_of_near h _ ?_
        rw [hrc, hcc]
        exact Nat.div_le_div_right (by unfold close at hc; omega)
      rw [if_neg hm, if_pos hc, hf, if_pos hc.1]
      simpa using hε
    · by_cases hm : F.mid i j
      · have hf : F.far (i % 2) (i / 2) (j / 2) = 0 := by
          refine far_of_near h _ ?_
          rw [hrc, hcc, ← hmid, ← hmid', hm.2]
        rw [if_pos hm, if_neg hc, hf, if_pos (by unfold mid at hm; omega)]
        simpa using hε
      · rw [if_neg hm, if_neg hc, add_zero, add_zero]
        by_cases hle : i ≤ j
        · rw [if_pos hle]
          have hlt : i + 2 * F.diags ≤ j := by unfold close at hc; omega
          have hne : (j / 2 - F.diags) / F.s ≠ i / 2 / F.s := fun he => hm ⟨hlt, by rw [hmid, hmid', he]⟩
          have hsep : F.rc (F.L - 1) (i / 2) < F.cc (F.L - 1) (j / 2) := by
            rw [hrc, hcc]
            exact lt_of_le_of_ne (Nat.div_le_div_right (by omega)) (Ne.symm hne)
          obtain ⟨l, hl, hcov⟩ := covers_exists h (show j / 2 < F.half by omega) hsep
          have := far_close h hA hl hcov (Nat.mod_lt i (by norm_num : 0 < 2))
          rwa [Nat.div_add_mod, show 2 * (j / 2) + i % 2 = j by omega] at this
        · rw [if_neg hle, far_of_near h _ (by rw [hrc, hcc]; exact Nat.div_le_div_right (by omega))]
          simpa using hε
  · simp only [hp, if_false, and_false, sub_zero, abs_zero]
    exact hε

end FMMLevel
end sums

/-! ## Error bounds -/

section bounds
variable {E : Type*} [NormedAddCommGroup E] [NormedSpace ℝ E]

namespace FMMLevel
variable {F : FMMLevel}

theorem norm_sum_coef (N : ℕ) (A B : ℕ → ℝ) (ε : ℝ) (hAB : ∀ j < N, |A j - B j| ≤ ε) (u : ℕ → E) :
    ‖(∑ j ∈ Finset.range N, A j • u j) - ∑ j ∈ Finset.range N, B j • u j‖ ≤ ε * ∑ j ∈ Finset.range N, ‖u j‖ := by
  rw [← Finset.sum_sub_distrib, Finset.mul_sum]
  refine (norm_sum_le _ _).trans (Finset.sum_le_sum fun j hj => ?_)
  rw [← sub_smul, norm_smul, Real.norm_eq_abs]
  exact mul_le_mul_of_nonneg_right (hAB j (Finset.mem_range.1 hj)) (norm_nonneg _)

theorem l2c_direct (N : ℕ) (c : ℕ → E) {i : ℕ} (hi : i < N) :
    forN (l2cRow l2cA N c) (fun _ => 0) ((N + 1) / 2) i =
      ∑ j ∈ Finset.range N, (if i ≤ j ∧ j % 2 = i % 2 then l2cK i j else 0) • c j := by
  rw [l2c_sum, zero_add]
  simp only [ite_smul, zero_smul]
  rw [← Finset.sum_filter, ← Finset.sum_filter]
  refine Finset.sum_nbij' (fun t => i + 2 * t) (fun j => (j - i) / 2) ?_ ?_ ?_ ?_ ?_
  · intro t ht; simp only [Finset.mem_filter, Finset.mem_range] at *; omega
  · intro t ht; simp only [Finset.mem_filter, Finset.mem_range] at *; omega
  · intro t ht; simp only [Finset.mem_filter, Finset.mem_range] at *; omega
  · intro t ht; simp only [Finset.mem_filter, Finset.mem_range] at *; omega
  · intro t _
    unfold l2cK
    rw [show (i + 2 * t - i) / 2 = t by omega, show (i + 2 * t + i) / 2 = t + i by omega, add_comm (2 * t)]

theorem l2cT_direct (N : ℕ) (c : ℕ → E) {j : ℕ} (hj : j < N) :
    forN (l2cRowT l2cA N c) (fun _ => 0) ((N + 1) / 2) j =
      ∑ i ∈ Finset.range N, (if i ≤ j ∧ j % 2 = i % 2 then l2cK i j else 0) • c i := by
  rw [l2cT_sum, zero_add]
  simp only [ite_smul, zero_smul]
  rw [← Finset.sum_filter, ← Finset.sum_filter]
  refine Finset.sum_nbij' (fun t => j - 2 * t) (fun i => (j - i) / 2) ?_ ?_ ?_ ?_ ?_
  · intro t ht; simp only [Finset.mem_filter, Finset.mem_range] at *; omega
  · intro t ht; simp only [Finset.mem_filter, Finset.mem_range] at *; omega
  · intro t ht; simp only [Finset.mem_filter, Finset.mem_range] at *; omega
  · intro t ht; simp only [Finset.mem_filter, Finset.mem_range] at *; omega
  · intro t ht
    simp only [Finset.mem_filter, Finset.mem_range] at ht
    unfold l2cK
    rw [show (j - (j - 2 * t)) / 2 = t by omega, show (j + (j - 2 * t)) / 2 = t + (j - 2 * t) by omega]

/-- **C60, Legendre to Chebyshev**: the hierarchical conversion differs from the direct one (which C59 shows exact) by at most
`(2/π) ε Σ|c_j|` in every coefficient, `ε` the accuracy of the submatrices. -/
theorem C60_leg2cheb (h : F.Valid) (hT : F.ThExact) (hR : F.RankOK) {ε : ℝ} (hε : 0 ≤ ε) (hA : F.Accurate l2cK ε)
    {N : ℕ} (hN : N ≤ 2 * F.half) (c : ℕ → E) {i : ℕ} (hi : i < N) :
    ‖F.leg2cheb N false c i - Shenfun.leg2cheb N false c i‖ ≤ 2 / Real.pi * ε * ∑ j ∈ Finset.range N, ‖c j‖ := by
  have hb : ‖F.applyL2C N false c i - forN (l2cRow l2cA N c) (fun _ => 0) ((N + 1) / 2) i‖ ≤ ε * ∑ j ∈ Finset.range N, ‖c j‖ := by
    rw [applyL2C_false h hT hR hN c hi, l2c_direct N c hi]
    exact norm_sum_coef N _ _ ε (fun j hj => coef_close h hε hA (by omega)) c
  have hpi : (0:ℝ) < 2 / Real.pi := by have := Real.pi_pos; positivity
  have hS : 0 ≤ ε * ∑ j ∈ Finset.range N, ‖c j‖ := mul_nonneg hε (Finset.sum_nonneg fun _ _ => norm_nonneg _)
  unfold FMMLevel.leg2cheb Shenfun.leg2cheb
  simp only [Bool.false_eq_true, if_false]
  rw [mul_assoc]
  by_cases h0 : i = 0
  · subst h0
    rw [Function.update_self, Function.update_self, smul_comm (1 / 2 : ℝ) (2 / Real.pi), ← smul_sub, ← smul_sub, norm_smul,
      norm_smul, Real.norm_of_nonneg hpi.le, Real.norm_of_nonneg (by norm_num : (0:ℝ) ≤ 1 / 2)]
    refine mul_le_mul_of_nonneg_left ?_ hpi.le
    linarith
  · rw [Function.update_of_ne h0, Function.update_of_ne h0, ← smul_sub, norm_smul, Real.norm_of_nonneg hpi.le]
    exact mul_le_mul_of_nonneg_left hb hpi.le

theorem C60_leg2chebT (h : F.Valid) (hT : F.ThExact) (hR : F.RankOK) {ε : ℝ} (hε : 0 ≤ ε) (hA : F.Accurate l2cK ε)
    {N : ℕ} (hN : N ≤ 2 * F.half) (c : ℕ → E) {j : ℕ} (hj : j < N) :
    ‖F.leg2cheb N true c j - Shenfun.leg2cheb N true c j‖ ≤ 2 / Real.pi * ε * ∑ i ∈ Finset.range N, ‖c i‖ := by
  have hpi : (0:ℝ) < 2 / Real.pi := by have := Real.pi_pos; positivity
  unfold FMMLevel.leg2cheb Shenfun.leg2cheb
  simp only [if_true]
  set cv : ℕ → E := Function.update (fun i => (2 / Real.pi) • c i) 0 ((1 / 2 : ℝ) • (2 / Real.pi) • c 0) with hcv
  have hb : ‖F.applyL2C N true cv j - forN (l2cRowT l2cA N cv) (fun _ => 0) ((N + 1) / 2) j‖ ≤ ε * ∑ j ∈ Finset.range N, ‖cv j‖ := by
    rw [applyL2C_true h hT hR hN cv hj, l2cT_direct N cv hj]
    exact norm_sum_coef N _ _ ε (fun i hi => coef_close h hε hA (by omega)) cv
  refine hb.trans ?_
  rw [mul_comm (2 / Real.pi), mul_assoc]
  refine mul_le_mul_of_nonneg_left ?_ hε
  rw [Finset.mul_sum]
  refine Finset.sum_le_sum fun i _ => ?_
  by_cases h0 : i = 0
  · subst h0
    rw [hcv, Function.update_self, norm_smul, norm_smul, Real.norm_of_nonneg hpi.le,
      Real.norm_of_nonneg (by norm_num : (0:ℝ) ≤ 1 / 2)]
    have : 0 ≤ 2 / Real.pi * ‖c 0‖ := mul_nonneg hpi.le (norm_nonneg _)
    linarith
  · rw [hcv, Function.update_of_ne h0, norm_smul, Real.norm_of_nonneg hpi.le]

theorem c2l_direct (N : ℕ) (c : ℕ → E) {i : ℕ} (hi : i < N) :
    Shenfun.cheb2leg N c i = ((i:ℝ) + 1 / 2) • ∑ j ∈ Finset.range N, (if i ≤ j ∧ j % 2 = i % 2 then c2lK i j else 0) • c2lIn c j := by
  unfold Shenfun.cheb2leg
  rw [c2l_sum, c2l_cols (c2lIn c) hi (fun j => i ≤ j ∧ j % 2 = i % 2) fun j hj => by omega]
  congr 1
  refine Finset.sum_congr rfl fun j _ => ?_
  rw [ite_smul, zero_smul]

/-- **C60, Chebyshev to Legendre**. -/
theorem C60_cheb2leg (h : F.Valid) (hT : F.ThExact) (hR : F.RankOK) (hd : 0 < F.diags) {ε : ℝ} (hε : 0 ≤ ε)
    (hA : F.Accurate c2lK ε) {N : ℕ} (hN : N ≤ 2 * F.half) (c : ℕ → E) {i : ℕ} (hi : i < N) :
    ‖F.cheb2leg N c i - Shenfun.cheb2leg N c i‖ ≤
      ((i:ℝ) + 1 / 2) * (ε * (‖c 0‖ + ∑ j ∈ Finset.range N, (j:ℝ) * ‖c j‖)) := by
  have hb := norm_sum_coef N (F.coef c2lK i) _ ε (fun j hj => coef_close (i := i) (j := j) h hε hA (by omega)) (c2lIn c)
  have hi0 : (0:ℝ) ≤ (i:ℝ) + 1 / 2 := by positivity
  rw [c2l_direct N c hi]
  unfold FMMLevel.cheb2leg
  rw [applyC2L_eq h hT hR hd hN _ hi, ← smul_sub, norm_smul, Real.norm_of_nonneg hi0]
  refine mul_le_mul_of_nonneg_left (hb.trans (mul_le_mul_of_nonneg_left ?_ hε)) hi0
  obtain ⟨M, rfl⟩ : ∃ M, N = M + 1 := ⟨N - 1, by omega⟩
  rw [Finset.sum_range_succ', Finset.sum_range_succ', add_comm]
  have e0 : c2lIn c 0 = c 0 := if_pos rfl
  rw [e0, Nat.cast_zero, zero_mul, add_zero]
  refine add_le_add le_rfl (Finset.sum_le_sum fun j _ => ?_)
  rw [c2lIn_pos c (by omega), norm_smul, Real.norm_of_nonneg (by positivity)]

end FMMLevel
end bounds

end Shenfun
