import Verif.Model.FMM
import Verif.Lemmas.Loop
import Mathlib.Algebra.BigOperators.Intervals
import Mathlib.Tactic.NormNum
import Mathlib.Tactic.Linarith

/-!
# Geometry of the hierarchical decomposition
-/

namespace Shenfun

namespace FMMLevel

variable (F : FMMLevel)

theorem forN_prod (f : ℕ → ℕ) (a n : ℕ) : forN (fun i h => h * f i) a n = a * ∏ i ∈ Finset.range n, f i := by
  induction n with
  | zero => simp
  | succ n ih => rw [forN_succ, ih, Finset.prod_range_succ, mul_assoc]

theorem forN_nsum (f : ℕ → ℕ) (a n : ℕ) : forN (fun i h => h + f i) a n = a + ∑ i ∈ Finset.range n, f i := by
  induction n with
  | zero => simp
  | succ n ih => rw [forN_succ, ih, Finset.sum_range_succ, add_assoc]

theorem getH_last : F.getH (F.L - 1) = 1 := by
  unfold getH
  rw [show F.L - (F.L - 1 + 1) = 0 by omega]
  rfl

theorem getH_succ {l : ℕ} (h : l + 1 < F.L) : F.getH l = F.D (l + 1) * F.getH (l + 1) := by
  unfold getH
  rw [forN_prod (fun i => F.D (l + 1 + i)), forN_prod (fun i => F.D (l + 1 + 1 + i)), one_mul, one_mul,
    show F.L - (l + 1) = F.L - (l + 1 + 1) + 1 by omega, Finset.prod_range_succ', mul_comm]
  congr 1
  refine Finset.prod_congr rfl fun i _ => ?_
  congr 1; omega

theorem nBlocks_zero : F.nBlocks 0 = 1 := rfl

theorem nBlocks_succ (l : ℕ) : F.nBlocks (l + 1) = 1 + F.D l * F.nBlocks l := by
  have key : ∀ l, F.nBlocks l = 1 + ∑ i ∈ Finset.range l, ∏ j ∈ Finset.range (i + 1), F.D (l - j - 1) := by
    intro l
    unfold nBlocks
    rw [forN_nsum (fun i => forN (fun j nd => nd * F.D (l - j - 1)) 1 (i + 1))]
    congr 1
    refine Finset.sum_congr rfl fun i _ => ?_
    rw [forN_prod (fun j => F.D (l - j - 1)), one_mul]
  rw [key, key l, Finset.sum_range_succ', mul_add, mul_one, Finset.mul_sum, add_comm (F.D l)]
  congr 2
  · refine Finset.sum_congr rfl fun i _ => ?_
    rw [Finset.prod_range_succ', mul_comm]
    congr 1
    refine Finset.prod_congr rfl fun j _ => ?_
    congr 1; omega
  · simp

theorem nBlocks_pos (l : ℕ) : 0 < F.nBlocks l := by
  cases l with
  | zero => simp [nBlocks_zero]
  | succ l => rw [nBlocks_succ]; omega

/-- Width of a cell. -/
def W (l : ℕ) : ℕ := F.s * F.getH l

/-- Offset of the columns of a level. -/
def off (l : ℕ) : ℕ := F.diags + ∑ i ∈ Finset.range (F.L - (l + 1)), F.W (l + 1 + i)

theorem W_last : F.W (F.L - 1) = F.s := by unfold W; rw [getH_last, mul_one]

theorem W_succ {l : ℕ} (h : l + 1 < F.L) : F.W l = F.D (l + 1) * F.W (l + 1) := by
  unfold W; rw [F.getH_succ h]; ring

theorem off_last : F.off (F.L - 1) = F.diags := by
  unfold off; rw [show F.L - (F.L - 1 + 1) = 0 by omega]; simp

theorem off_succ {l : ℕ} (h : l + 1 < F.L) : F.off l = F.off (l + 1) + F.W (l + 1) := by
  have key : ∀ n, ∑ i ∈ Finset.range (n + 1), F.W (l + 1 + i) =
      (∑ i ∈ Finset.range n, F.W (l + 1 + 1 + i)) + F.W (l + 1) := by
    intro n
    rw [Finset.sum_range_succ']
    congr 1
    refine Finset.sum_congr rfl fun i _ => ?_
    congr 1; omega
  have e : F.L - (l + 1) = F.L - (l + 1 + 1) + 1 := by omega
  unfold off
  rw [e, key]
  omega

theorem rowStart_eq (l b p : ℕ) : F.rowStart l b + p * F.W l = (b * F.D l + p) * F.W l := by
  unfold rowStart W; ring

theorem colStart_eq (l b q : ℕ) : F.colStart l b + (q + 1) * F.W l = F.off l + (b * F.D l + q + 1) * F.W l := by
  unfold colStart off
  rw [forN_nsum (fun i => F.s * F.getH (l + 1 + i))]
  unfold rowStart W
  ring

/-- `I` and `J` are in the rows and columns of a submatrix of the level: row cell `I/W`, column cell `(J-off)/W-1`, in the same
block, the column not to the left of the row. -/
def covers (l I J : ℕ) : Prop :=
  I / F.W l < F.nBlocks l * F.D l ∧ F.off l + F.W l ≤ J ∧
    I / F.W l / F.D l = ((J - F.off l) / F.W l - 1) / F.D l ∧ I / F.W l ≤ (J - F.off l) / F.W l - 1

instance (l I J : ℕ) : Decidable (F.covers l I J) := by unfold covers; infer_instance

/-- The data of a usable object: at least one level and one domain, submatrices of positive size. -/
structure Valid : Prop where
  L_pos : 0 < F.L
  s_pos : 0 < F.s
  D_pos : ∀ l < F.L, 0 < F.D l

variable {F}

theorem Valid.W_pos (h : F.Valid) {l : ℕ} (hl : l < F.L) : 0 < F.W l := by
  unfold W getH
  rw [forN_prod (fun i => F.D (l + 1 + i)), one_mul]
  refine Nat.mul_pos h.s_pos (Finset.prod_pos fun i hi => ?_)
  exact h.D_pos _ (by have := Finset.mem_range.1 hi; omega)


/-- Row cell and column cell numbers. -/
def rc (F : FMMLevel) (l I : ℕ) : ℕ := I / F.W l

/-- The column cell number, shifted by one. -/
def cc (F : FMMLevel) (l J : ℕ) : ℕ := (J - F.off l) / F.W l

theorem rc_up {l : ℕ} (hl : l + 1 < F.L) (I : ℕ) : F.rc l I = F.rc (l + 1) I / F.D (l + 1) := by
  unfold rc
  rw [F.W_succ hl, mul_comm, Nat.div_div_eq_div_mul]

theorem cc_up (h : F.Valid) {l : ℕ} (hl : l + 1 < F.L) (J : ℕ) : F.cc l J = (F.cc (l + 1) J - 1) / F.D (l + 1) := by
  unfold cc
  have hW := h.W_pos hl
  rw [F.off_succ hl, F.W_succ hl, mul_comm, ← Nat.div_div_eq_div_mul, ← Nat.sub_sub]
  congr 1
  have := Nat.sub_mul_div (J - F.off (l + 1)) (F.W (l + 1)) 1
  rwa [mul_one] at this

theorem covers_iff (h : F.Valid) {l : ℕ} (hl : l < F.L) (I J : ℕ) :
    F.covers l I J ↔ F.rc l I < F.nBlocks l * F.D l ∧ F.rc l I < F.cc l J ∧ F.rc l I / F.D l = (F.cc l J - 1) / F.D l := by
  have hW := h.W_pos hl
  have h1 : F.off l + F.W l ≤ J ↔ 1 ≤ F.cc l J := by
    unfold cc
    rw [Nat.le_div_iff_mul_le hW]
    omega
  unfold covers
  rw [h1]
  change (F.rc l I < _ ∧ _ ∧ F.rc l I / _ = (F.cc l J - 1) / _ ∧ F.rc l I ≤ F.cc l J - 1) ↔ _
  constructor
  · rintro ⟨a, b, c, d⟩; exact ⟨a, by omega, c⟩
  · rintro ⟨a, b, c⟩; exact ⟨a, by omega, c, by omega⟩

/-- Separated at some level implies separated at every finer level. -/
theorem sep_fine (h : F.Valid) (I J : ℕ) {l k : ℕ} (hk : l + k < F.L) (hs : F.rc l I < F.cc l J) :
    F.rc (l + k) I < F.cc (l + k) J := by
  induction k with
  | zero => exact hs
  | succ k ih =>
    have h1 := ih (by omega)
    rw [rc_up (l := l + k) (by omega), cc_up h (l := l + k) (by omega)] at h1
    by_contra hc
    have : (F.cc (l + k + 1) J - 1) / F.D (l + k + 1) ≤ F.rc (l + k + 1) I / F.D (l + k + 1) :=
      Nat.div_le_div_right (by have : F.cc (l + k + 1) J ≤ F.rc (l + k + 1) I := not_lt.1 hc
                               omega)
    omega

theorem cc_le (h : F.Valid) {J : ℕ} (hJ : J < F.half) {l : ℕ} (hl : l < F.L) : F.cc l J ≤ F.D l * F.nBlocks l := by
  have key : ∀ k, k < F.L → F.cc (F.L - 1 - k) J ≤ F.D (F.L - 1 - k) * F.nBlocks (F.L - 1 - k) := by
    intro k
    induction k with
    | zero =>
      intro _
      unfold cc half at *
      rw [Nat.sub_zero, off_last, W_last]
      have hn : F.nBlocks F.L = 1 + F.D (F.L - 1) * F.nBlocks (F.L - 1) := by
        rw [← nBlocks_succ]; congr 1; have := h.L_pos; omega
      have : (J - F.diags) / F.s < F.nBlocks F.L := by
        rw [Nat.div_lt_iff_lt_mul h.s_pos, mul_comm]
        have := Nat.mul_pos h.s_pos (F.nBlocks_pos F.L)
        omega
      omega
    | succ k ih =>
      intro hk
      have h1 := ih (by omega)
      have e : F.L - 1 - k = F.L - 1 - (k + 1) + 1 := by omega
      rw [e] at h1
      have hD := h.D_pos (F.L - 1 - (k + 1) + 1) (by omega)
      rw [cc_up h (by omega)]
      generalize F.L - 1 - (k + 1) = m at *
      have : (F.cc (m + 1) J - 1) / F.D (m + 1) < F.nBlocks (m + 1) := by
        rw [Nat.div_lt_iff_lt_mul hD, mul_comm]
        have := Nat.mul_pos hD (F.nBlocks_pos (m + 1))
        omega
      rw [nBlocks_succ] at this
      omega
  have := key (F.L - 1 - l) (by omega)
  rwa [show F.L - 1 - (F.L - 1 - l) = l by omega] at this

/-- **Coverage** by the submatrices: at the finest level, a column cell to the right of the row cell is covered by exactly one
level, the others by none. -/
theorem covers_exists (h : F.Valid) {I J : ℕ} (hJ : J < F.half) (hs : F.rc (F.L - 1) I < F.cc (F.L - 1) J) :
    ∃ l < F.L, F.covers l I J := by
  by_contra hc
  push Not at hc
  have key : ∀ k, k < F.L → F.rc (F.L - 1 - k) I < F.cc (F.L - 1 - k) J := by
    intro k
    induction k with
    | zero => intro _; exact hs
    | succ k ih =>
      intro hk
      have h1 := ih (by omega)
      have e : F.L - 1 - k = F.L - 1 - (k + 1) + 1 := by omega
      rw [e] at h1
      have h2 := hc (F.L - 1 - (k + 1) + 1) (by omega)
      have h3 := cc_le h hJ (l := F.L - 1 - (k + 1) + 1) (by omega)
      rw [covers_iff h (by omega)] at h2
      have hl : F.L - 1 - (k + 1) + 1 < F.L := by omega
      generalize F.L - 1 - (k + 1) = m at *
      rw [rc_up hl, cc_up h hl]
      refine lt_of_le_of_ne (Nat.div_le_div_right (by omega)) fun he => h2 ⟨?_, h1, he⟩
      rw [mul_comm]; omega
  have h0 := key (F.L - 1) (by have := h.L_pos; omega)
  rw [Nat.sub_self] at h0
  have h2 := hc 0 h.L_pos
  have h3 := cc_le h hJ h.L_pos
  rw [nBlocks_zero, mul_one] at h3
  rw [covers_iff h h.L_pos, nBlocks_zero, one_mul] at h2
  refine h2 ⟨by omega, h0, ?_⟩
  rw [Nat.div_eq_of_lt (by omega), Nat.div_eq_of_lt (by omega)]

theorem covers_sep (h : F.Valid) {I J l : ℕ} (hl : l < F.L) (hc : F.covers l I J) :
    F.rc (F.L - 1) I < F.cc (F.L - 1) J := by
  have := ((covers_iff h hl I J).1 hc).2.1
  have := sep_fine h I J (l := l) (k := F.L - 1 - l) (by omega) this
  rwa [show l + (F.L - 1 - l) = F.L - 1 by omega] at this

theorem covers_unique (h : F.Valid) {I J l l' : ℕ} (hl : l < F.L) (hl' : l' < F.L) (hc : F.covers l I J)
    (hc' : F.covers l' I J) : l = l' := by
  have key : ∀ l l', l < l' → l' < F.L → F.covers l I J → F.covers l' I J → False := by
    intro l l' hlt hl' hc hc'
    have h1 := ((covers_iff h (by omega) I J).1 hc).2.1
    have h2 := sep_fine h I J (l := l) (k := l' - 1 - l) (by omega) h1
    rw [show l + (l' - 1 - l) = l' - 1 by omega] at h2
    have h3 := ((covers_iff h hl' I J).1 hc').2.2
    obtain ⟨m, rfl⟩ : ∃ m, l' = m + 1 := ⟨l' - 1, by omega⟩
    rw [Nat.add_sub_cancel, rc_up hl', cc_up h hl', h3] at h2
    exact lt_irrefl _ h2
  rcases lt_trichotomy l l' with h1 | h1 | h1
  · exact (key l l' h1 hl' hc hc').elim
  · exact h1
  · exact (key l' l h1 hl hc' hc).elim

end FMMLevel
end Shenfun
