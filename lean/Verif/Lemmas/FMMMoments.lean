import Verif.Lemmas.FMMPass
import Mathlib.Algebra.BigOperators.Ring.Finset
import Mathlib.Algebra.Module.BigOperators
import Mathlib.Tactic.Module

/-!
# Upward sweep: moments and local coefficients
-/

namespace Shenfun

open Polynomial

variable {E : Type*} [AddCommGroup E] [Module ℝ E]

set_option linter.unusedSectionVars false

/-- `Σ_{c < N*D}` is `Σ_b Σ_q` with `c = b*D+q`. -/
theorem sum_mul_range (g : ℕ → E) (N D : ℕ) :
    ∑ c ∈ Finset.range (N * D), g c = ∑ b ∈ Finset.range N, ∑ q ∈ Finset.range D, g (b * D + q) := by
  induction N with
  | zero => simp
  | succ N ih => rw [Nat.succ_mul, Finset.sum_range_add, ih, Finset.sum_range_succ]

theorem mul_add_div' {D q : ℕ} (b : ℕ) (hq : q < D) : (b * D + q) / D = b := by
  rw [mul_comm, Nat.mul_add_div (by omega), Nat.div_eq_of_lt hq, Nat.add_zero]

theorem mul_add_mod'' {D q : ℕ} (b : ℕ) (hq : q < D) : (b * D + q) % D = q := by
  rw [mul_comm, Nat.mul_add_mod, Nat.mod_eq_of_lt hq]

/-- A sum over the cells of one block. -/
theorem sum_block (g : ℕ → E) (N D b : ℕ) (hb : b < N) :
    (∑ c ∈ Finset.range (N * D), if c / D = b then g c else 0) = ∑ q ∈ Finset.range D, g (b * D + q) := by
  rw [sum_mul_range, Finset.sum_eq_single b]
  · refine Finset.sum_congr rfl fun q hq => ?_
    rw [if_pos (mul_add_div' b (Finset.mem_range.1 hq))]
  · intro b' _ hb'
    refine Finset.sum_eq_zero fun q hq => ?_
    rw [if_neg]
    rw [mul_add_div' b' (Finset.mem_range.1 hq)]
    exact hb'
  · intro h; exact absurd (Finset.mem_range.2 hb) h

namespace FMMLevel

variable (F : FMMLevel)

/-- First index of a row cell. -/
def rowS (l c : ℕ) : ℕ := c * F.W l

/-- First index of a column cell. -/
def colS (l c : ℕ) : ℕ := F.off l + (c + 1) * F.W l

/-- Source cells: columns, or rows for the transposed product. -/
def srcS (trans : Bool) (l c : ℕ) : ℕ := if trans then F.rowS l c else F.colS l c

/-- Chebyshev polynomial `n` at the local coordinate of the point `t` of a cell of level `l`. -/
noncomputable def tv (odd l t n : ℕ) : ℝ := (Chebyshev.T ℝ n).eval (-1 + ((2 * t + odd : ℕ) : ℝ) / F.W l)

/-- Moments of the input on a cell. -/
noncomputable def mom (trans : Bool) (odd : ℕ) (cia : ℕ → E) (l c n : ℕ) : E :=
  ∑ t ∈ Finset.range (F.W l), F.tv odd l t n • cia (F.srcS trans l c + t)

/-- The matrices `Th` re-expand a Chebyshev polynomial of a cell on the subcell `q` of `d`. -/
def ThExact : Prop :=
  ∀ l, l + 1 < F.L → ∀ q < F.D (l + 1), ∀ n, (∃ l' < F.L, n < F.Mmin l') → ∀ x : ℝ,
    (Chebyshev.T ℝ n).eval ((x + 1 + 2 * q - F.D (l + 1)) / F.D (l + 1)) =
      ∑ m ∈ Finset.range (n + 1), F.Th (F.D (l + 1)) q n m * (Chebyshev.T ℝ m).eval x

/-- Mode `n` is kept on level `l` and all finer ones. -/
def Kept (l n : ℕ) : Prop := ∀ l', l ≤ l' → l' < F.L → n < F.Mmin l'

variable {F}

theorem tv_refine (h : F.Valid) (hT : F.ThExact) {l : ℕ} (hl : l + 1 < F.L) (odd : ℕ) {q : ℕ} (hq : q < F.D (l + 1)) (t n : ℕ)
    (hn : ∃ l' < F.L, n < F.Mmin l') :
    F.tv odd l (q * F.W (l + 1) + t) n =
      ∑ m ∈ Finset.range (n + 1), F.Th (F.D (l + 1)) q n m * F.tv odd (l + 1) t m := by
  unfold tv
  rw [← hT l hl q hq n hn]
  congr 1
  rw [F.W_succ hl]
  have hW : (F.W (l + 1) : ℝ) ≠ 0 := by exact_mod_cast (h.W_pos hl).ne'
  have hD : (F.D (l + 1) : ℝ) ≠ 0 := by exact_mod_cast (h.D_pos _ hl).ne'
  push_cast
  field_simp
  ring

/-- Moments of a cell from those of its subcells. -/
theorem mom_refine (h : F.Valid) (hT : F.ThExact) (trans : Bool) (odd : ℕ) (cia : ℕ → E) {l : ℕ} (hl : l + 1 < F.L) (c n : ℕ)
    (hn : ∃ l' < F.L, n < F.Mmin l') :
    F.mom trans odd cia l c n = ∑ q ∈ Finset.range (F.D (l + 1)), ∑ m ∈ Finset.range (n + 1),
      F.Th (F.D (l + 1)) q n m • F.mom trans odd cia (l + 1) ((if trans then c else c + 1) * F.D (l + 1) + q) m := by
  unfold mom
  rw [F.W_succ hl, sum_mul_range]
  refine Finset.sum_congr rfl fun q hq => ?_
  have hq := Finset.mem_range.1 hq
  have e : ∀ t, F.srcS trans l c + (q * F.W (l + 1) + t) =
      F.srcS trans (l + 1) ((if trans then c else c + 1) * F.D (l + 1) + q) + t := by
    intro t
    cases trans
    · simp only [srcS, colS, Bool.false_eq_true, if_false]
      rw [F.off_succ hl, F.W_succ hl]
      ring
    · simp only [srcS, rowS, if_true]
      rw [F.W_succ hl]
      ring
  simp only [e, Finset.smul_sum]
  rw [Finset.sum_comm]
  refine Finset.sum_congr rfl fun t _ => ?_
  rw [tv_refine h hT hl odd hq t n hn, Finset.sum_smul]
  refine Finset.sum_congr rfl fun m _ => ?_
  rw [smul_smul]

theorem wLeaf_eq (h : F.Valid) (trans : Bool) (odd : ℕ) (cia : ℕ → E) (c n : ℕ) (hn : n < F.Mmin (F.L - 1)) :
    F.wLeaf trans odd cia (F.L - 1) c n = F.mom trans odd cia (F.L - 1) c n := by
  unfold wLeaf mvT mom
  rw [if_pos hn, F.W_last]
  refine Finset.sum_congr rfl fun t _ => ?_
  have e1 : F.T odd t n = F.tv odd (F.L - 1) t n := by unfold T tv; rw [F.W_last]
  rw [e1]
  refine congrArg (fun i => F.tv odd (F.L - 1) t n • cia i) ?_
  have hc := div_mul_add_mod' c (F.D (F.L - 1))
  cases trans
  · have := F.colStart_eq (F.L - 1) (c / F.D (F.L - 1)) (c % F.D (F.L - 1))
    rw [F.W_last, hc] at this
    simp only [srcS, colS, Bool.false_eq_true, if_false, mul_one, F.W_last]
    omega
  · have := F.rowStart_eq (F.L - 1) (c / F.D (F.L - 1)) (c % F.D (F.L - 1))
    rw [F.W_last, hc] at this
    simp only [srcS, rowS, if_true, mul_zero, F.W_last]
    omega

/-- Local coefficients of a cell. -/
noncomputable def loc (F : FMMLevel) (trans : Bool) (odd : ℕ) (cia : ℕ → E) (l c' m : ℕ) : E :=
  ∑ c ∈ Finset.range (F.nBlocks l * F.D l), ∑ p ∈ Finset.range (c % F.D l + 1),
    if trans then (if c' = c then mvT (F.A l (c / F.D l) (c % F.D l) p)
        (F.mom trans odd cia l (c / F.D l * F.D l + p))
        (F.Nk l (c / F.D l) (c % F.D l) p) (F.Nk l (c / F.D l) (c % F.D l) p) m else 0)
    else (if c' = c / F.D l * F.D l + p then mv (F.A l (c / F.D l) (c % F.D l) p) (F.mom trans odd cia l c)
        (F.Nk l (c / F.D l) (c % F.D l) p) (F.Nk l (c / F.D l) (c % F.D l) p) m else 0)

/-- Ranks of the submatrices of a level do not exceed the number of modes kept on it and on finer levels. -/
def RankOK (F : FMMLevel) : Prop := ∀ l l', l ≤ l' → l' < F.L → ∀ b q p, F.Nk l b q p ≤ F.Mmin l'

/-- State after `t` levels. -/
structure UpInv (F : FMMLevel) (trans : Bool) (odd : ℕ) (cia : ℕ → E) (t : ℕ) (w : FMMWork E) : Prop where
  wk_zero : ∀ l, l + 1 < F.L - t ∨ t = 0 → ∀ c n, w.wk l c n = 0
  wk_next : ∀ l, l + 1 = F.L - t → t ≠ 0 → ∀ c < F.nBlocks l * F.D l, ∀ n, F.Kept l n → w.wk l c n = F.mom trans odd cia l c n
  ck_zero : ∀ l, l < F.L - t → ∀ c m, w.ck l c m = 0
  ck_done : ∀ l, F.L - t ≤ l → l < F.L → ∀ c m, w.ck l c m = F.loc trans odd cia l c m

theorem level_sweep (trans : Bool) (odd : ℕ) (cia : ℕ → E) (w0 : FMMWork E) (l : ℕ) :
    F.LevInv trans odd cia w0 l (F.nBlocks l * F.D l) (forN (fun block w => forN
      ((if trans then F.upStepT odd cia else F.upStep odd cia) l block) w (F.D l)) w0 (F.nBlocks l)) := by
  rw [forN_nested]
  refine forN_inv _ w0 (fun k w => F.LevInv trans odd cia w0 l k w) (F.nBlocks l * F.D l) (levInv_zero _ _ _ _ _) ?_ _ le_rfl
  intro k _ w hw
  cases trans
  · exact levInv_step odd cia w0 l k w hw
  · exact levInvT_step odd cia w0 l k w hw

theorem upInv_step (h : F.Valid) (hT : F.ThExact) (hR : F.RankOK) (trans : Bool) (odd : ℕ) (cia : ℕ → E) (t : ℕ)
    (ht : t < F.L) (w0 : FMMWork E) (h0 : F.UpInv trans odd cia t w0) (w : FMMWork E)
    (hw : F.LevInv trans odd cia w0 (F.L - 1 - t) (F.nBlocks (F.L - 1 - t) * F.D (F.L - 1 - t)) w) :
    F.UpInv trans odd cia (t + 1) w := by
  have hl : F.L - 1 - t + 1 = F.L - t := by omega
  generalize F.L - 1 - t = l at *
  have hlL : l < F.L := by omega
  have hD := h.D_pos l hlL
  have hf : ∀ c < F.nBlocks l * F.D l, ∀ n, F.Kept l n → F.wFin trans odd cia w0 l c n = F.mom trans odd cia l c n := by
    intro c hc n hn
    unfold wFin
    by_cases hL : l = F.L - 1
    · have ht0 : t = 0 := by omega
      have hn' : n < F.Mmin l := hn l le_rfl hlL
      rw [if_pos hL, h0.wk_zero l (Or.inr ht0)]
      subst hL
      rw [wLeaf_eq h _ _ _ _ _ hn', if_pos hn', zero_add]
      simp
    · rw [if_neg hL]
      exact h0.wk_next l (by omega) (by omega) c hc n hn
  refine ⟨?_, ?_, ?_, ?_⟩
  · intro l' hl' c n
    rw [hw.wk_other l' (by omega) (by omega)]
    exact h0.wk_zero l' (by omega) c n
  · intro l' hl' _ c' hc' n hn
    have hll : l' + 1 = l := by omega
    subst hll
    have hn' : F.Kept (l' + 1) n := fun k hk hk' => hn k (by omega) hk'
    have hnM : n < F.Mmin (l' + 1) := hn (l' + 1) (by omega) hlL
    rw [hw.wk_up l' rfl, h0.wk_zero l' (by omega), zero_add, mom_refine h hT trans odd cia hlL c' n ⟨_, hlL, hnM⟩]
    have hnb := F.nBlocks_succ l'
    rw [mul_comm] at hc'
    have hmain : ∀ b, b < F.nBlocks (l' + 1) → (∑ c ∈ Finset.range (F.nBlocks (l' + 1) * F.D (l' + 1)), if c / F.D (l' + 1) = b then
        mvLow (F.Th (F.D (l' + 1)) (c % F.D (l' + 1))) (F.wFin trans odd cia w0 (l' + 1) c) (F.Mmin (l' + 1)) n else 0) =
        ∑ q ∈ Finset.range (F.D (l' + 1)), ∑ m ∈ Finset.range (n + 1),
          F.Th (F.D (l' + 1)) q n m • F.mom trans odd cia (l' + 1) (b * F.D (l' + 1) + q) m := by
      intro b hb
      rw [sum_block _ _ _ b hb]
      refine Finset.sum_congr rfl fun q hq => ?_
      have hq := Finset.mem_range.1 hq
      unfold mvLow
      rw [if_pos hnM, mul_add_mod'' b hq]
      refine Finset.sum_congr rfl fun m hm => ?_
      have hm := Finset.mem_range.1 hm
      rw [hf _ _ m fun k hk hk' => lt_of_le_of_lt (by omega) (hn' k hk hk')]
      calc b * F.D (l' + 1) + q < b * F.D (l' + 1) + F.D (l' + 1) := by omega
        _ = (b + 1) * F.D (l' + 1) := by ring
        _ ≤ _ := Nat.mul_le_mul_right _ hb
    cases trans
    · simp only [Bool.false_eq_true, if_false]
      exact hmain (c' + 1) (by omega)
    · simp only [if_true]
      rw [← hmain c' (by omega)]
      refine Finset.sum_congr rfl fun c _ => ?_
      have : c' < F.nBlocks (l' + 1) - 1 := by omega
      simp only [this, and_true]
  · intro l' hl' c m
    rw [hw.ck_other l' (by omega)]
    exact h0.ck_zero l' (by omega) c m
  · intro l' h1 h2 c' m
    by_cases hll : l' = l
    · subst hll
      rw [hw.ck_same, h0.ck_zero l' (by omega), zero_add]
      unfold loc
      refine Finset.sum_congr rfl fun c hc => Finset.sum_congr rfl fun p hp => ?_
      have hc := Finset.mem_range.1 hc
      have hp := Finset.mem_range.1 hp
      have hk : ∀ b q p, ∀ n < F.Nk l' b q p, F.Kept l' n := fun b q p n hn k hk hk' => lt_of_lt_of_le hn (hR l' k hk hk' b q p)
      cases trans
      · simp only [Bool.false_eq_true, if_false]
        congr 1
        unfold mv
        congr 1
        refine Finset.sum_congr rfl fun n hn => ?_
        rw [hf c hc n (hk _ _ _ n (Finset.mem_range.1 hn))]
      · simp only [if_true]
        congr 1
        unfold mvT
        congr 1
        refine Finset.sum_congr rfl fun n hn => ?_
        rw [hf _ _ n (hk _ _ _ n (Finset.mem_range.1 hn))]
        have := div_mul_add_mod' c (F.D l')
        omega
    · rw [hw.ck_other l' hll]
      exact h0.ck_done l' (by omega) h2 c' m

/-- **Upward sweep**: the local coefficients are those of the moments. -/
theorem upSweep_ck (h : F.Valid) (hT : F.ThExact) (hR : F.RankOK) (trans : Bool) (odd : ℕ) (cia : ℕ → E) :
    ∀ l < F.L, ∀ c m, (F.upSweep trans odd cia).ck l c m = F.loc trans odd cia l c m := by
  have hinv := forN_inv (fun t w => forN (fun block w => forN
      ((if trans then F.upStepT odd cia else F.upStep odd cia) (F.L - 1 - t) block) w (F.D (F.L - 1 - t)))
    w (F.nBlocks (F.L - 1 - t))) (⟨fun _ _ _ => 0, fun _ _ _ => 0⟩ : FMMWork E) (fun t w => F.UpInv trans odd cia t w) F.L
    ⟨fun _ _ _ _ => rfl, fun _ _ h => absurd rfl h, fun _ _ _ _ => rfl, fun _ h1 h2 => by omega⟩
    (fun t ht w hw => upInv_step h hT hR trans odd cia t ht w hw _ (level_sweep trans odd cia w _)) F.L le_rfl
  intro l hl c m
  exact hinv.ck_done l (by omega) hl c m

end FMMLevel
end Shenfun
