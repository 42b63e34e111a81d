import Verif.Lemmas.FMMGeom
import Mathlib.Algebra.BigOperators.Group.Finset.Piecewise

/-!
# What the sweeps of the hierarchical algorithm compute
-/

namespace Shenfun

variable {E : Type*} [AddCommGroup E] [Module ℝ E]

set_option linter.unusedSectionVars false

theorem forN_add {S : Type*} (f : ℕ → S → S) (s : S) (m n : ℕ) :
    forN f s (m + n) = forN (fun i => f (m + i)) (forN f s m) n := by
  induction n with
  | zero => rfl
  | succ n ih => rw [← Nat.add_assoc, forN_succ, forN_succ, ih]

theorem forN_congr {S : Type*} {f g : ℕ → S → S} (s : S) (n : ℕ) (h : ∀ i < n, ∀ s, f i s = g i s) :
    forN f s n = forN g s n := by
  induction n with
  | zero => rfl
  | succ n ih => rw [forN_succ, forN_succ, ih fun i hi => h i (by omega), h n (by omega)]

/-- Two nested counted loops are one loop over `c = b*D + q`. -/
theorem forN_nested {S : Type*} (f : ℕ → ℕ → S → S) (s : S) (N D : ℕ) :
    forN (fun b s => forN (f b) s D) s N = forN (fun c => f (c / D) (c % D)) s (N * D) := by
  induction N with
  | zero => simp
  | succ N ih =>
    rw [forN_succ, ih, Nat.succ_mul, forN_add]
    refine forN_congr _ _ fun i hi s => ?_
    have hD : 0 < D := by omega
    rw [mul_comm N D, Nat.mul_add_div hD, Nat.div_eq_of_lt hi, Nat.mul_add_mod, Nat.mod_eq_of_lt hi, Nat.add_zero]

/-- The loop over `p` of the upward sweep. -/
theorem forN_ck (g : ℕ → ℕ → E) (h : ℕ → ℕ) (l : ℕ) (w : FMMWork E) (n : ℕ) :
    forN (fun p (w : FMMWork E) => (⟨w.wk, cellAdd w.ck l (h p) (g p)⟩ : FMMWork E)) w n =
      ⟨w.wk, fun l' c' m => w.ck l' c' m + ∑ p ∈ Finset.range n, if l' = l ∧ c' = h p then g p m else 0⟩ := by
  induction n with
  | zero => simp
  | succ n ih =>
    rw [forN_succ, ih]
    simp only [FMMWork.mk.injEq, true_and]
    funext l' c' m
    rw [Finset.sum_range_succ]
    unfold cellAdd
    by_cases hc : l' = l ∧ c' = h n
    · rw [if_pos hc, if_pos hc, add_assoc]
    · rw [if_neg hc, if_neg hc, add_zero]

theorem div_mul_add_mod' (c D : ℕ) : c / D * D + c % D = c := Nat.div_add_mod' c D

namespace FMMLevel

variable (F : FMMLevel)

/-- The moments set at the finest level. -/
noncomputable def wLeaf (trans : Bool) (odd : ℕ) (cia : ℕ → E) (l c : ℕ) : ℕ → E :=
  mvT (F.T odd) (fun t => cia (F.colStart l (c / F.D l) * (if trans then 0 else 1) +
    (if trans then F.rowStart l (c / F.D l) + c % F.D l * F.s else (c % F.D l + 1) * F.s) + t)) F.s (F.Mmin l)

/-- The moments of a cell when they are read. -/
noncomputable def wFin (trans : Bool) (odd : ℕ) (cia : ℕ → E) (w0 : FMMWork E) (l c n : ℕ) : E :=
  if l = F.L - 1 then (if trans then w0.wk l c n + F.wLeaf trans odd cia l c n
    else if n < F.Mmin l then F.wLeaf trans odd cia l c n else w0.wk l c n) else w0.wk l c n

/-- State after `k` cells of level `l`. -/
structure LevInv (trans : Bool) (odd : ℕ) (cia : ℕ → E) (w0 : FMMWork E) (l k : ℕ) (w : FMMWork E) : Prop where
  wk_other : ∀ l', l' ≠ l → l' + 1 ≠ l → w.wk l' = w0.wk l'
  wk_same : ∀ c n, w.wk l c n = if c < k then F.wFin trans odd cia w0 l c n else w0.wk l c n
  wk_up : ∀ l', l' + 1 = l → ∀ c' n, w.wk l' c' n = w0.wk l' c' n + ∑ c ∈ Finset.range k,
    if (if trans then c / F.D l = c' ∧ c' < F.nBlocks l - 1 else c / F.D l = c' + 1) then
      mvLow (F.Th (F.D l) (c % F.D l)) (F.wFin trans odd cia w0 l c) (F.Mmin l) n else 0
  ck_other : ∀ l', l' ≠ l → w.ck l' = w0.ck l'
  ck_same : ∀ c' m, w.ck l c' m = w0.ck l c' m + ∑ c ∈ Finset.range k, ∑ p ∈ Finset.range (c % F.D l + 1),
    if trans then (if c' = c then mvT (F.A l (c / F.D l) (c % F.D l) p)
        (F.wFin trans odd cia w0 l (c / F.D l * F.D l + p))
        (F.Nk l (c / F.D l) (c % F.D l) p) (F.Nk l (c / F.D l) (c % F.D l) p) m else 0)
    else (if c' = c / F.D l * F.D l + p then mv (F.A l (c / F.D l) (c % F.D l) p) (F.wFin trans odd cia w0 l c)
        (F.Nk l (c / F.D l) (c % F.D l) p) (F.Nk l (c / F.D l) (c % F.D l) p) m else 0)

variable {F}

theorem levInv_zero (trans : Bool) (odd : ℕ) (cia : ℕ → E) (w0 : FMMWork E) (l : ℕ) :
    F.LevInv trans odd cia w0 l 0 w0 :=
  ⟨fun _ _ _ => rfl, fun c n => by simp, fun l' _ c' n => by simp, fun _ _ => rfl, fun c' m => by simp⟩

theorem levInv_step (odd : ℕ) (cia : ℕ → E) (w0 : FMMWork E) (l k : ℕ) (w : FMMWork E)
    (h : F.LevInv false odd cia w0 l k w) :
    F.LevInv false odd cia w0 l (k + 1) (F.upStep odd cia l (k / F.D l) (k % F.D l) w) := by
  unfold upStep
  simp only [div_mul_add_mod']
  -- after the assignment of the leaf moments
  set w1 : FMMWork E := if l = F.L - 1 then
      ⟨cellSet w.wk l k (F.Mmin l) (mvT (F.T odd) (fun t => cia (F.colStart l (k / F.D l) +
        (k % F.D l + 1) * F.s + t)) F.s (F.Mmin l)), w.ck⟩ else w with hw1
  have h1s : ∀ c n, w1.wk l c n = if c < k + 1 then F.wFin false odd cia w0 l c n else w0.wk l c n := by
    intro c n
    have hs := h.wk_same c n
    rw [hw1]
    by_cases hL : l = F.L - 1
    · rw [if_pos hL]
      simp only [cellSet, true_and]
      by_cases hc : c = k
      · subst hc
        rw [if_pos (Nat.lt_succ_self _)]
        unfold wFin wLeaf
        simp only [if_pos hL, Bool.false_eq_true, if_false, mul_one]
        by_cases hn : n < F.Mmin l
        · simp [hn]
        · rw [if_neg (by simp [hn]), if_neg hn, hs, if_neg (lt_irrefl _)]
      · rw [if_neg (by tauto), hs]
        by_cases hk : c < k
        · rw [if_pos hk, if_pos (by omega)]
        · rw [if_neg hk, if_neg (by omega)]
    · rw [if_neg hL, hs]
      by_cases hk : c < k
      · rw [if_pos hk, if_pos (by omega)]
      · rw [if_neg hk]
        by_cases hk' : c < k + 1
        · rw [if_pos hk']
          unfold wFin; rw [if_neg hL]
        · rw [if_neg hk']
  have h1o : ∀ l', l' ≠ l → w1.wk l' = w.wk l' := by
    intro l' hl'
    rw [hw1]
    by_cases hL : l = F.L - 1
    · rw [if_pos hL]; funext c n; simp [cellSet, hl']
    · rw [if_neg hL]
  have h1c : w1.ck = w.ck := by
    rw [hw1]
    by_cases hL : l = F.L - 1
    · rw [if_pos hL]
    · rw [if_neg hL]
  have h1k : w1.wk l k = F.wFin false odd cia w0 l k := by
    funext n; rw [h1s, if_pos (Nat.lt_succ_self _)]
  -- after the addition to the parent
  set w2 : FMMWork E := if l > 0 ∧ k / F.D l > 0 then
      ⟨cellAdd w1.wk (l - 1) (k / F.D l - 1)
        (mvLow (F.Th (F.D l) (k % F.D l)) (w1.wk l k) (F.Mmin l)), w1.ck⟩ else w1 with hw2
  have h2c : w2.ck = w.ck := by
    rw [hw2]
    by_cases hL : l > 0 ∧ k / F.D l > 0
    · rw [if_pos hL]; exact h1c
    · rw [if_neg hL]; exact h1c
  have h2s : w2.wk l = w1.wk l := by
    rw [hw2]
    by_cases hL : l > 0 ∧ k / F.D l > 0
    · rw [if_pos hL]; funext c n; simp only [cellAdd]; rw [if_neg (by omega)]
    · rw [if_neg hL]
  have h2o : ∀ l', l' ≠ l → l' + 1 ≠ l → w2.wk l' = w.wk l' := by
    intro l' h1 h2
    rw [hw2, ← h1o l' h1]
    by_cases hL : l > 0 ∧ k / F.D l > 0
    · rw [if_pos hL]; funext c n; simp only [cellAdd]; rw [if_neg (by omega)]
    · rw [if_neg hL]
  have h2u : ∀ l', l' + 1 = l → ∀ c' n, w2.wk l' c' n = w.wk l' c' n + if k / F.D l = c' + 1 then
      mvLow (F.Th (F.D l) (k % F.D l)) (F.wFin false odd cia w0 l k) (F.Mmin l) n else 0 := by
    intro l' hl' c' n
    rw [hw2, ← h1o l' (by omega), h1k]
    by_cases hL : l > 0 ∧ k / F.D l > 0
    · rw [if_pos hL]
      simp only [cellAdd]
      by_cases hc : k / F.D l = c' + 1
      · rw [if_pos (by omega), if_pos hc]
      · rw [if_neg (by omega), if_neg hc, add_zero]
    · rw [if_neg hL, if_neg (by omega), add_zero]
  have hfin : forN (fun (p : ℕ) (w : FMMWork E) => (⟨w.wk, cellAdd w.ck l (k / F.D l * F.D l + p)
      (mv (F.A l (k / F.D l) (k % F.D l) p) (w.wk l k) (F.Nk l (k / F.D l) (k % F.D l) p)
        (F.Nk l (k / F.D l) (k % F.D l) p))⟩ : FMMWork E)) w2 (k % F.D l + 1) =
      ⟨w2.wk, fun l' c' m => w2.ck l' c' m + ∑ p ∈ Finset.range (k % F.D l + 1),
        if l' = l ∧ c' = k / F.D l * F.D l + p then (mv (F.A l (k / F.D l) (k % F.D l) p) (F.wFin false odd cia w0 l k)
          (F.Nk l (k / F.D l) (k % F.D l) p) (F.Nk l (k / F.D l) (k % F.D l) p)) m else 0⟩ := by
    rw [← forN_ck]
    have := forN_inv (fun (p : ℕ) (w : FMMWork E) => (⟨w.wk, cellAdd w.ck l (k / F.D l * F.D l + p)
      (mv (F.A l (k / F.D l) (k % F.D l) p) (w.wk l k) (F.Nk l (k / F.D l) (k % F.D l) p)
        (F.Nk l (k / F.D l) (k % F.D l) p))⟩ : FMMWork E)) w2
      (fun p w => w.wk = w2.wk ∧ w = forN (fun (p : ℕ) (w : FMMWork E) => (⟨w.wk, cellAdd w.ck l (k / F.D l * F.D l + p)
      (mv (F.A l (k / F.D l) (k % F.D l) p) (F.wFin false odd cia w0 l k) (F.Nk l (k / F.D l) (k % F.D l) p)
        (F.Nk l (k / F.D l) (k % F.D l) p))⟩ : FMMWork E)) w2 p) (k % F.D l + 1) ⟨rfl, rfl⟩
      (fun p _ t ht => by
        obtain ⟨h1, h2⟩ := ht
        refine ⟨h1, ?_⟩
        rw [forN_succ, ← h2]
        rw [h1, h2s, h1k])
    exact (this _ le_rfl).2
  rw [hfin]
  refine ⟨?_, ?_, ?_, ?_, ?_⟩
  · intro l' a b; exact (h2o l' a b).trans (h.wk_other l' a b)
  · intro c n
    show w2.wk l c n = _
    rw [h2s, h1s]
  · intro l' hl' c' n
    show w2.wk l' c' n = _
    rw [h2u l' hl', h.wk_up l' hl', Finset.sum_range_succ, ← add_assoc]
    simp only [Bool.false_eq_true, if_false]
  · intro l' hl'
    funext c' m
    show w2.ck l' c' m + _ = _
    rw [h2c, h.ck_other l' hl']
    simp [hl']
  · intro c' m
    show w2.ck l c' m + _ = _
    rw [h2c, h.ck_same, Finset.sum_range_succ (n := k), ← add_assoc]
    simp only [Bool.false_eq_true, if_false, true_and]

theorem levInvT_step (odd : ℕ) (cia : ℕ → E) (w0 : FMMWork E) (l k : ℕ) (w : FMMWork E)
    (h : F.LevInv true odd cia w0 l k w) :
    F.LevInv true odd cia w0 l (k + 1) (F.upStepT odd cia l (k / F.D l) (k % F.D l) w) := by
  unfold upStepT
  simp only [div_mul_add_mod', forN_succ, if_true]
  -- the loop over q < p
  have hlt : forN (fun q (w : FMMWork E) =>
      let cell := k / F.D l * F.D l + q
      let w : FMMWork E := if q = k % F.D l then
          let w : FMMWork E := if l = F.L - 1 then
              ⟨cellAdd w.wk l cell
                (mvT (F.T odd) (fun t => cia (F.rowStart l (k / F.D l) + q * F.s + t)) F.s (F.Mmin l)), w.ck⟩
            else w
          if l > 0 ∧ k / F.D l < F.nBlocks l - 1 then
            ⟨cellAdd w.wk (l - 1) (k / F.D l)
                (mvLow (F.Th (F.D l) q) (w.wk l cell) (F.Mmin l)), w.ck⟩
          else w
        else w
      (⟨w.wk, cellAdd w.ck l k
        (mvT (F.A l (k / F.D l) (k % F.D l) q) (w.wk l cell) (F.Nk l (k / F.D l) (k % F.D l) q)
          (F.Nk l (k / F.D l) (k % F.D l) q))⟩ : FMMWork E)) w (k % F.D l) =
      ⟨w.wk, fun l' c' m => w.ck l' c' m + ∑ q ∈ Finset.range (k % F.D l),
        if l' = l ∧ c' = k then (mvT (F.A l (k / F.D l) (k % F.D l) q) (F.wFin true odd cia w0 l (k / F.D l * F.D l + q))
          (F.Nk l (k / F.D l) (k % F.D l) q) (F.Nk l (k / F.D l) (k % F.D l) q)) m else 0⟩ := by
    rw [← forN_ck _ (fun _ => k)]
    have := forN_inv (fun q (w : FMMWork E) =>
      let cell := k / F.D l * F.D l + q
      let w : FMMWork E := if q = k % F.D l then
          let w : FMMWork E := if l = F.L - 1 then
              ⟨cellAdd w.wk l cell
                (mvT (F.T odd) (fun t => cia (F.rowStart l (k / F.D l) + q * F.s + t)) F.s (F.Mmin l)), w.ck⟩
            else w
          if l > 0 ∧ k / F.D l < F.nBlocks l - 1 then
            ⟨cellAdd w.wk (l - 1) (k / F.D l)
                (mvLow (F.Th (F.D l) q) (w.wk l cell) (F.Mmin l)), w.ck⟩
          else w
        else w
      (⟨w.wk, cellAdd w.ck l k
        (mvT (F.A l (k / F.D l) (k % F.D l) q) (w.wk l cell) (F.Nk l (k / F.D l) (k % F.D l) q)
          (F.Nk l (k / F.D l) (k % F.D l) q))⟩ : FMMWork E)) w
      (fun q w' => w'.wk = w.wk ∧ w' = forN (fun (q : ℕ) (w : FMMWork E) => (⟨w.wk, cellAdd w.ck l k
        (mvT (F.A l (k / F.D l) (k % F.D l) q) (F.wFin true odd cia w0 l (k / F.D l * F.D l + q))
          (F.Nk l (k / F.D l) (k % F.D l) q) (F.Nk l (k / F.D l) (k % F.D l) q))⟩ : FMMWork E)) w q) (k % F.D l) ⟨rfl, rfl⟩
      (fun q hq t ht => by
        obtain ⟨h1, h2⟩ := ht
        have hne : q ≠ k % F.D l := by omega
        have hlt : k / F.D l * F.D l + q < k := by have := div_mul_add_mod' k (F.D l); omega
        have hw : w.wk l (k / F.D l * F.D l + q) = F.wFin true odd cia w0 l (k / F.D l * F.D l + q) := by
          funext n; rw [h.wk_same, if_pos hlt]
        simp only [if_neg hne, forN_succ]
        refine ⟨h1, ?_⟩
        rw [← h2, h1, hw])
    exact (this _ le_rfl).2
  rw [hlt]
  -- the last pass
  set v : FMMWork E := ⟨w.wk, fun l' c' m => w.ck l' c' m + ∑ q ∈ Finset.range (k % F.D l),
        if l' = l ∧ c' = k then (mvT (F.A l (k / F.D l) (k % F.D l) q) (F.wFin true odd cia w0 l (k / F.D l * F.D l + q))
          (F.Nk l (k / F.D l) (k % F.D l) q) (F.Nk l (k / F.D l) (k % F.D l) q)) m else 0⟩ with hv
  set w1 : FMMWork E := if l = F.L - 1 then
      ⟨cellAdd v.wk l k (mvT (F.T odd) (fun t => cia (F.rowStart l (k / F.D l) +
        k % F.D l * F.s + t)) F.s (F.Mmin l)), v.ck⟩ else v with hw1
  have h1s : ∀ c n, w1.wk l c n = if c < k + 1 then F.wFin true odd cia w0 l c n else w0.wk l c n := by
    intro c n
    have hs := h.wk_same c n
    rw [hw1]
    by_cases hL : l = F.L - 1
    · rw [if_pos hL]
      simp only [cellAdd, true_and]
      by_cases hc : c = k
      · subst hc
        rw [if_pos rfl, if_pos (Nat.lt_succ_self _)]
        show w.wk l c n + _ = _
        rw [hs, if_neg (lt_irrefl _)]
        unfold wFin wLeaf
        simp only [if_pos hL, if_true, mul_zero, Nat.zero_add]
      · rw [if_neg hc]
        show w.wk l c n = _
        rw [hs]
        by_cases hk : c < k
        · rw [if_pos hk, if_pos (by omega)]
        · rw [if_neg hk, if_neg (by omega)]
    · rw [if_neg hL]
      show w.wk l c n = _
      rw [hs]
      by_cases hk : c < k
      · rw [if_pos hk, if_pos (by omega)]
      · rw [if_neg hk]
        by_cases hk' : c < k + 1
        · rw [if_pos hk']
          unfold wFin; rw [if_neg hL]
        · rw [if_neg hk']
  have h1o : ∀ l', l' ≠ l → w1.wk l' = w.wk l' := by
    intro l' hl'
    rw [hw1]
    by_cases hL : l = F.L - 1
    · rw [if_pos hL]; funext c n; simp [cellAdd, hl', hv]
    · rw [if_neg hL]
  have h1c : w1.ck = v.ck := by
    rw [hw1]
    by_cases hL : l = F.L - 1
    · rw [if_pos hL]
    · rw [if_neg hL]
  have h1k : w1.wk l k = F.wFin true odd cia w0 l k := by
    funext n; rw [h1s, if_pos (Nat.lt_succ_self _)]
  set w2 : FMMWork E := if l > 0 ∧ k / F.D l < F.nBlocks l - 1 then
      ⟨cellAdd w1.wk (l - 1) (k / F.D l)
        (mvLow (F.Th (F.D l) (k % F.D l)) (w1.wk l k) (F.Mmin l)), w1.ck⟩ else w1 with hw2
  have h2c : w2.ck = v.ck := by
    rw [hw2]
    by_cases hL : l > 0 ∧ k / F.D l < F.nBlocks l - 1
    · rw [if_pos hL]; exact h1c
    · rw [if_neg hL]; exact h1c
  have h2s : w2.wk l = w1.wk l := by
    rw [hw2]
    by_cases hL : l > 0 ∧ k / F.D l < F.nBlocks l - 1
    · rw [if_pos hL]; funext c n; simp only [cellAdd]; rw [if_neg (by omega)]
    · rw [if_neg hL]
  have h2o : ∀ l', l' ≠ l → l' + 1 ≠ l → w2.wk l' = w.wk l' := by
    intro l' h1 h2
    rw [hw2, ← h1o l' h1]
    by_cases hL : l > 0 ∧ k / F.D l < F.nBlocks l - 1
    · rw [if_pos hL]; funext c n; simp only [cellAdd]; rw [if_neg (by omega)]
    · rw [if_neg hL]
  have h2u : ∀ l', l' + 1 = l → ∀ c' n, w2.wk l' c' n = w.wk l' c' n + if k / F.D l = c' ∧ c' < F.nBlocks l - 1 then
      mvLow (F.Th (F.D l) (k % F.D l)) (F.wFin true odd cia w0 l k) (F.Mmin l) n else 0 := by
    intro l' hl' c' n
    rw [hw2, ← h1o l' (by omega), h1k]
    by_cases hL : l > 0 ∧ k / F.D l < F.nBlocks l - 1
    · rw [if_pos hL]
      simp only [cellAdd]
      by_cases hc : k / F.D l = c'
      · rw [if_pos (by omega), if_pos (by omega)]
      · rw [if_neg (by omega), if_neg (by omega), add_zero]
    · rw [if_neg hL, if_neg (by omega), add_zero]
  refine ⟨?_, ?_, ?_, ?_, ?_⟩
  · intro l' a b; exact (h2o l' a b).trans (h.wk_other l' a b)
  · intro c n
    show w2.wk l c n = _
    rw [h2s, h1s]
  · intro l' hl' c' n
    show w2.wk l' c' n = _
    rw [h2u l' hl', h.wk_up l' hl', Finset.sum_range_succ, ← add_assoc]
    simp only [if_true]
  · intro l' hl'
    funext c' m
    show cellAdd w2.ck l k _ l' c' m = _
    rw [h2c, ← h.ck_other l' hl']
    simp [hv, cellAdd, hl']
  · intro c' m
    show cellAdd w2.ck l k (mvT (F.A l (k / F.D l) (k % F.D l) (k % F.D l)) (w2.wk l k)
      (F.Nk l (k / F.D l) (k % F.D l) (k % F.D l)) (F.Nk l (k / F.D l) (k % F.D l) (k % F.D l))) l c' m = _
    rw [h2c, h2s, h1k, Finset.sum_range_succ (n := k), Finset.sum_range_succ (n := k % F.D l), ← add_assoc, ← add_assoc,
      ← h.ck_same, div_mul_add_mod']
    simp only [if_true, hv, cellAdd, true_and]
    by_cases hc : c' = k
    · rw [if_pos hc, if_pos hc]
    · rw [if_neg hc, if_neg hc, add_zero]

end FMMLevel
end Shenfun
