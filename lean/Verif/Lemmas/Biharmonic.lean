import Verif.Model.Biharmonic
import Verif.Lemmas.LU

namespace Shenfun

namespace ChebLA

open Finset Real

set_option linter.unusedSimpArgs false

section elimination

variable {K : Type*} [Field K]

/-- Elimination without pivoting for a matrix with two sub-diagonals: current row and the next one, reduced. -/
def ger (H : ℕ → ℕ → K) : ℕ → (ℕ → K) × (ℕ → K)
  | 0 => (H 0, H 1)
  | k+1 => (fun i => (ger H k).2 i - (ger H k).2 k / (ger H k).1 k * (ger H k).1 i,
      fun i => H (k+2) i - H (k+2) k / (ger H k).1 k * (ger H k).1 i)

abbrev gU (H : ℕ → ℕ → K) (k i : ℕ) : K := (ger H k).1 i
abbrev gW (H : ℕ → ℕ → K) (k i : ℕ) : K := (ger H k).2 i
abbrev gL0 (H : ℕ → ℕ → K) (k : ℕ) : K := gW H k k / gU H k k
abbrev gL1 (H : ℕ → ℕ → K) (k : ℕ) : K := H (k+2) k / gU H k k

theorem gU_succ (H : ℕ → ℕ → K) (k i : ℕ) : gU H (k+1) i = gW H k i - gL0 H k * gU H k i := rfl
theorem gW_succ (H : ℕ → ℕ → K) (k i : ℕ) : gW H (k+1) i = H (k+2) i - gL1 H k * gU H k i := rfl

/-- Row identity. -/
theorem gU_row (H : ℕ → ℕ → K) (k i : ℕ) : H k i = gU H k i + (if 1 ≤ k then gL0 H (k-1) * gU H (k-1) i else 0)
    + (if 2 ≤ k then gL1 H (k-2) * gU H (k-2) i else 0) := by
  rcases k with _ | _ | k
  · simp [gU, ger]
  · have := gU_succ H 0 i
    have h2 : gW H 0 i = H 1 i := rfl
    simp only [zero_add] at this ⊢
    rw [if_pos le_rfl, if_neg (by omega), this, h2]
    simp
  · have h1 := gU_succ H (k+1) i
    have h2 := gW_succ H k i
    rw [if_pos (by omega), if_pos (by omega), show k + 1 + 1 - 1 = k + 1 by omega, show k + 1 + 1 - 2 = k by omega, h1, h2]
    ring

theorem ger_zero (H : ℕ → ℕ → K) (hH : ∀ i j, j + 2 < i → H i j = 0) (k : ℕ) (hp : ∀ m < k, gU H m m ≠ 0) :
    ∀ j < k, gU H k j = 0 ∧ gW H k j = 0 := by
  induction k with
  | zero => intro j hj; omega
  | succ k ih =>
    intro j hj
    have hk := hp k (by omega)
    rw [gU_succ, gW_succ]
    rcases Nat.lt_or_ge j k with h | h
    · obtain ⟨h1, h2⟩ := ih (fun m hm => hp m (by omega)) j h
      rw [h1, h2, hH (k+2) j (by omega)]
      simp
    · obtain rfl : j = k := by omega
      constructor
      · rw [div_mul_cancel₀ _ hk, sub_self]
      · rw [div_mul_cancel₀ _ hk, sub_self]

/-- The upper factor. -/
def gUc (H : ℕ → ℕ → K) (k i : ℕ) : K := if i < k then 0 else gU H k i

theorem ger_isLU (n : ℕ) (H : ℕ → ℕ → K) : IsLU n (bandL 1 2 (gL0 H) (gL1 H)) (gUc H) where
  lower i j h := by unfold bandL; ifs; simp
  unit i := by unfold bandL; ifs; simp
  upper i j h := if_pos h

theorem ger_luRel (n : ℕ) (H : ℕ → ℕ → K) (hH : ∀ i j, j + 2 < i → H i j = 0) :
    LURel n H (bandL 1 2 (gL0 H) (gL1 H)) (gUc H) := by
  intro i hi j hj hp
  have hp' : ∀ m < i, gU H m m ≠ 0 := fun m hm => by
    have := hp m hm
    unfold gUc at this
    rwa [if_neg (by omega)] at this
  have e : ∀ m ≤ i, gUc H m j = gU H m j := by
    intro m hm
    unfold gUc
    by_cases h : j < m
    · rw [if_pos h, (ger_zero H hH m (fun t ht => hp' t (by omega)) j h).1]
    · rw [if_neg h]
  rw [sum_bandL n 1 2 _ _ i hi (fun m => gUc H m j), e i le_rfl, e (i-1) (by omega), e (i-2) (by omega)]
  exact gU_row H i j

end elimination

/-- The matrix of one parity class that is factored. -/
noncomputable def biMat (odd : ℕ) (a b c : ℝ) (m : BiDiags) (i j : ℕ) : ℝ :=
  if j = i then a * m.sii i + b * m.aii i + c * m.bii i
  else if j = i + 1 then a * m.siu i + b * m.aiu i + c * m.biu i
  else if j = i + 2 then a * m.siuu i + c * m.biuu i
  else if i + 3 ≤ j then biFar odd a (2 * i + odd) j
  else if j + 1 = i then b * m.ail j + c * m.bil j
  else if j + 2 = i then c * m.bill j
  else 0

theorem biMat_band (odd : ℕ) (a b c : ℝ) (m : BiDiags) (i j : ℕ) (h : j + 2 < i) : biMat odd a b c m i j = 0 := by
  unfold biMat; ifs

/-- Invariant of the factorisation. -/
structure BiInv (odd M : ℕ) (a b c : ℝ) (m : BiDiags) (q : ℕ) (s : BiLU) : Prop where
  c0 : ∀ i, q ≤ i → i < M → s.c0 i = gU (biMat odd a b c m) q i
  c1 : q + 1 < M → ∀ i, q ≤ i → i < M → s.c1 i = gW (biMat odd a b c m) q i
  c2 : q + 2 < M → ∀ i, q ≤ i → i < M → s.c2 i = biMat odd a b c m (q+2) i
  u0 : ∀ r ≤ q, s.u0 r = gU (biMat odd a b c m) r r
  u1 : ∀ r ≤ q, r + 1 < M → s.u1 r = gU (biMat odd a b c m) r (r+1)
  u2 : ∀ r ≤ q, r + 2 < M → s.u2 r = gU (biMat odd a b c m) r (r+2)
  l0 : ∀ r < q, s.l0 r = gL0 (biMat odd a b c m) r
  l1 : ∀ r < q, r + 2 < M → s.l1 r = gL1 (biMat odd a b c m) r

theorem biInv_init (odd M : ℕ) (hM : 5 ≤ M) (a b c : ℝ) (m : BiDiags) : BiInv odd M a b c m 0 (biInit odd M a b c m) := by
  have r0 : ∀ i < M, (biInit odd M a b c m).c0 i = biMat odd a b c m 0 i := by
    intro i hi
    unfold biInit biMat
    dsimp only
    rcases (by omega : i = 0 ∨ i = 1 ∨ i = 2 ∨ 3 ≤ i) with h | h | h | h
    · subst h; ifs
    · subst h; ifs
    · subst h; ifs
    · ifs; rw [mul_zero, zero_add]
  have r1 : ∀ i < M, (biInit odd M a b c m).c1 i = biMat odd a b c m 1 i := by
    intro i hi
    unfold biInit biMat
    dsimp only
    rcases (by omega : i = 0 ∨ i = 1 ∨ i = 2 ∨ i = 3 ∨ 4 ≤ i) with h | h | h | h | h
    · subst h; ifs
    · subst h; ifs
    · subst h; ifs
    · subst h; ifs
    · ifs; rw [mul_one, add_comm]
  have r2 : ∀ i < M, (biInit odd M a b c m).c2 i = biMat odd a b c m 2 i := by
    intro i hi
    unfold biInit biMat
    dsimp only
    rcases (by omega : i = 0 ∨ i = 1 ∨ i = 2 ∨ i = 3 ∨ i = 4 ∨ 5 ≤ i) with h | h | h | h | h | h
    · subst h; ifs
    · subst h; ifs
    · subst h; ifs
    · subst h; ifs
    · subst h; ifs
    · ifs; rw [show 2 * 2 + odd = odd + 4 by omega]
  refine ⟨fun i _ hi => r0 i hi, fun _ i _ hi => r1 i hi, fun _ i _ hi => r2 i hi, fun r hr => ?_, fun r hr h => ?_, fun r hr h => ?_,
    fun r hr => absurd hr (by omega), fun r hr => absurd hr (by omega)⟩
  · obtain rfl : r = 0 := by omega
    refine Eq.trans ?_ (r0 0 (by omega))
    simp [biInit]
  · obtain rfl : r = 0 := by omega
    refine Eq.trans ?_ (r0 1 (by omega))
    simp [biInit]
  · obtain rfl : r = 0 := by omega
    refine Eq.trans ?_ (r0 2 (by omega))
    simp [biInit]

theorem biInv_step (odd M : ℕ) (a b c : ℝ) (m : BiDiags) (q : ℕ) (hq : q + 1 < M) (s : BiLU) (h : BiInv odd M a b c m q s) :
    BiInv odd M a b c m (q+1) (biStep odd M a b c m q s) := by
  obtain ⟨h0, h1, h2, hu0, hu1, hu2, hl0, hl1⟩ := h
  obtain ⟨s', hs'⟩ : ∃ s', s' = biStep odd M a b c m q s := ⟨_, rfl⟩
  have rl0 : ∀ r, s'.l0 r = if r = q then s.c1 q / s.u0 q else s.l0 r := by
    intro r; rw [hs']; show Function.update s.l0 (q+1-1) _ r = _
    rw [Nat.add_sub_cancel, Function.update_apply]
  have rl1 : ∀ r, s'.l1 r = if r = q ∧ q + 2 < M then s.c2 q / s.u0 q else s.l1 r := by
    intro r; rw [hs']
    show (if q + 1 < M - 1 then Function.update s.l1 (q+1-1) (s.c2 (q+1-1) / s.u0 (q+1-1)) else s.l1) r = _
    by_cases h : q + 1 < M - 1
    · rw [if_pos h, Nat.add_sub_cancel, Function.update_apply]
      exact if_congr (by omega) rfl rfl
    · rw [if_neg h, if_neg (by omega)]
  have el0 : s'.l0 q = gL0 (biMat odd a b c m) q := by
    rw [rl0, if_pos rfl, h1 hq q le_rfl (by omega), hu0 q le_rfl]
  have el1 : q + 2 < M → s'.l1 q = gL1 (biMat odd a b c m) q := by
    intro h
    rw [rl1, if_pos ⟨rfl, h⟩, h2 h q le_rfl (by omega), hu0 q le_rfl]
  have e0 : ∀ i, q + 1 ≤ i → i < M → s'.c0 i = gU (biMat odd a b c m) (q+1) i := by
    intro i hi1 hi2
    have : s'.c0 i = s.c1 i - s'.l0 q * s.c0 i := by
      rw [hs']
      show (if q + 1 ≤ i ∧ i < M then (if q + 1 ≤ i ∧ i < M then s.c1 i -
        Function.update s.l0 (q+1-1) (s.c1 (q+1-1) / s.u0 (q+1-1)) (q+1-1) * s.c0 i else s.c1 i) else s.c0 i) = _
      rw [if_pos ⟨hi1, hi2⟩, if_pos ⟨hi1, hi2⟩]
      rfl
    rw [this, el0, h1 hq i (by omega) hi2, h0 i (by omega) hi2, gU_succ]
  have e1 : q + 2 < M → ∀ i, q + 1 ≤ i → i < M → s'.c1 i = gW (biMat odd a b c m) (q+1) i := by
    intro h i hi1 hi2
    have : s'.c1 i = s.c2 i - s'.l1 q * s.c0 i := by
      rw [hs']
      unfold biStep
      dsimp only
      rw [if_pos ⟨hi1, hi2⟩, if_pos (by omega : q + 1 < M - 1), if_pos (by omega : q + 1 < M - 1), if_pos ⟨hi1, hi2⟩, Nat.add_sub_cancel]
    rw [this, el1 h, h2 h i (by omega) hi2, h0 i (by omega) hi2, gW_succ]
  have e2 : q + 3 < M → ∀ i, q + 1 ≤ i → i < M → s'.c2 i = biMat odd a b c m (q+3) i := by
    intro h i hi1 hi2
    rw [hs']
    unfold biStep biMat
    dsimp only
    rw [if_pos (by omega : q + 1 < M - 2)]
    rcases (by omega : i = q + 1 ∨ i = q + 2 ∨ i = q + 3 ∨ i = q + 4 ∨ i = q + 5 ∨ q + 6 ≤ i) with h | h | h | h | h | h
    · subst h; ifs
    · subst h; ifs
    · subst h; ifs
    · subst h; ifs
    · subst h; ifs
    · ifs
  have ru0 : ∀ r, s'.u0 r = if r = q + 1 then s'.c0 (q+1) else s.u0 r := by
    intro r; rw [hs']; show Function.update s.u0 (q+1) _ r = _
    rw [Function.update_apply]; rfl
  have ru1 : ∀ r, s'.u1 r = if r = q + 1 ∧ q + 2 < M then s'.c0 (q+2) else s.u1 r := by
    intro r; rw [hs']
    show (if q + 1 < M - 1 then Function.update s.u1 (q+1) _ else s.u1) r = _
    by_cases h : q + 1 < M - 1
    · rw [if_pos h, Function.update_apply]
      exact if_congr (by omega) rfl rfl
    · rw [if_neg h, if_neg (by omega)]
  have ru2 : ∀ r, s'.u2 r = if r = q + 1 ∧ q + 3 < M then s'.c0 (q+3) else s.u2 r := by
    intro r; rw [hs']
    show (if q + 1 < M - 2 then Function.update s.u2 (q+1) _ else s.u2) r = _
    by_cases h : q + 1 < M - 2
    · rw [if_pos h, Function.update_apply]
      exact if_congr (by omega) rfl rfl
    · rw [if_neg h, if_neg (by omega)]
  rw [← hs']
  refine ⟨e0, fun h => e1 h, fun h => e2 h, fun r hr => ?_, fun r hr h => ?_, fun r hr h => ?_, fun r hr => ?_, fun r hr h => ?_⟩
  · rw [ru0]
    by_cases h : r = q + 1
    · subst h; rw [if_pos rfl]; exact e0 _ le_rfl (by omega)
    · rw [if_neg h]; exact hu0 r (by omega)
  · rw [ru1]
    by_cases h' : r = q + 1
    · subst h'; rw [if_pos ⟨rfl, by omega⟩]; exact e0 _ (by omega) (by omega)
    · rw [if_neg (by omega)]; exact hu1 r (by omega) h
  · rw [ru2]
    by_cases h' : r = q + 1
    · subst h'; rw [if_pos ⟨rfl, by omega⟩]; exact e0 _ (by omega) (by omega)
    · rw [if_neg (by omega)]; exact hu2 r (by omega) h
  · by_cases h' : r = q
    · subst h'; exact el0
    · rw [rl0, if_neg h']; exact hl0 r (by omega)
  · by_cases h' : r = q
    · subst h'; exact el1 h
    · rw [rl1, if_neg (by omega)]; exact hl1 r (by omega) h

theorem luBiharmonic_inv (odd M : ℕ) (hM : 5 ≤ M) (a b c : ℝ) (m : BiDiags) :
    BiInv odd M a b c m (M-1) (luBiharmonic odd M a b c m) :=
  forN_inv _ _ (BiInv odd M a b c m) (M-1) (biInv_init odd M hM a b c m)
    (fun q hq s hs => biInv_step odd M a b c m q (by omega) s hs) (M-1) le_rfl

/-- The arrays of the far entries. -/
theorem biFactor_spec (odd M : ℕ) (hM : 5 ≤ M) (p : ℕ → ℝ) (l0 l1 : ℕ → ℝ) (k : ℕ) (hk : k + 3 < M) :
    p (2 * k + odd) * π = biFactor odd M p l0 l1 k + (if 1 ≤ k then l0 (k-1) * biFactor odd M p l0 l1 (k-1) else 0)
      + (if 2 ≤ k then l1 (k-2) * biFactor odd M p l0 l1 (k-2) else 0) := by
  have key : ∀ t, t ≤ M + 1 - 3 - 2 → ∀ k < t + 2, p (2 * k + odd) * π =
      forN (fun t a => Function.update a (t+2) (p (2 * (t+2) + odd) * π - l0 (t+2-1) * a (t+2-1) - l1 (t+2-2) * a (t+2-2)))
        (Function.update (Function.update (fun _ => (0:ℝ)) 0 (p odd * π)) 1
          (p (2 + odd) * π - l0 0 * Function.update (fun _ => (0:ℝ)) 0 (p odd * π) 0)) t k
      + (if 1 ≤ k then l0 (k-1) * forN (fun t a => Function.update a (t+2) (p (2 * (t+2) + odd) * π - l0 (t+2-1) * a (t+2-1) - l1 (t+2-2) * a (t+2-2)))
        (Function.update (Function.update (fun _ => (0:ℝ)) 0 (p odd * π)) 1
          (p (2 + odd) * π - l0 0 * Function.update (fun _ => (0:ℝ)) 0 (p odd * π) 0)) t (k-1) else 0)
      + (if 2 ≤ k then l1 (k-2) * forN (fun t a => Function.update a (t+2) (p (2 * (t+2) + odd) * π - l0 (t+2-1) * a (t+2-1) - l1 (t+2-2) * a (t+2-2)))
        (Function.update (Function.update (fun _ => (0:ℝ)) 0 (p odd * π)) 1
          (p (2 + odd) * π - l0 0 * Function.update (fun _ => (0:ℝ)) 0 (p odd * π) 0)) t (k-2) else 0) := by
    intro t ht
    refine forN_inv _ _ (fun t (a : ℕ → ℝ) => ∀ k < t + 2, p (2 * k + odd) * π = a k + (if 1 ≤ k then l0 (k-1) * a (k-1) else 0)
      + (if 2 ≤ k then l1 (k-2) * a (k-2) else 0)) t ?_ ?_ t le_rfl
    · intro k hk
      rcases (by omega : k = 0 ∨ k = 1) with h | h <;> subst h
      · rw [Function.update_of_ne (by omega), Function.update_self]; simp
      · simp [Function.update_apply]
    · intro q _ a ha k hk
      rcases Nat.lt_or_ge k (q+2) with h | h
      · rw [ha k h, Function.update_of_ne (by omega), Function.update_of_ne (by omega), Function.update_of_ne (by omega)]
      · obtain rfl : k = q + 2 := by omega
        rw [Function.update_self, Function.update_of_ne (by omega), Function.update_of_ne (by omega), if_pos (by omega), if_pos (by omega)]
        ring
  exact key _ le_rfl k (by omega)

theorem biFar_eq (odd : ℕ) (a : ℝ) (k i : ℕ) :
    biFar odd a k i = a * (biP k * π + biR k * π * (((2 * i + odd : ℕ) : ℝ) + 2) ^ 2) / (((2 * i + odd : ℕ) : ℝ) + 3) := by
  unfold biFar biP biR
  dsimp only
  ring

/-- The far entries of the upper factor. -/
theorem far_entries (odd M : ℕ) (hM : 5 ≤ M) (a b c : ℝ) (m : BiDiags) (i : ℕ) (hi : i < M) (k : ℕ) (hk : k + 3 ≤ i)
    (l0 l1 : ℕ → ℝ) (hl0 : ∀ r < M - 1, l0 r = gL0 (biMat odd a b c m) r) (hl1 : ∀ r, r + 2 < M → l1 r = gL1 (biMat odd a b c m) r) :
    gU (biMat odd a b c m) k i = a * (biFactor odd M biP l0 l1 k + biFactor odd M biR l0 l1 k * (((2 * i + odd : ℕ) : ℝ) + 2) ^ 2)
      / (((2 * i + odd : ℕ) : ℝ) + 3) := by
  induction k using Nat.strong_induction_on with
  | _ k ih =>
    have hrow := gU_row (biMat odd a b c m) k i
    have hfar : biMat odd a b c m k i = biFar odd a (2 * k + odd) i := by unfold biMat; ifs
    rw [hfar, biFar_eq] at hrow
    have hP := biFactor_spec odd M hM biP l0 l1 k (by omega)
    have hR := biFactor_spec odd M hM biR l0 l1 k (by omega)
    rw [hP, hR] at hrow
    have hd : (((2 * i + odd : ℕ) : ℝ) + 3) ≠ 0 := by positivity
    have e0 : ∀ x : ℝ, (if 2 ≤ 0 then x else 0) = 0 := fun x => if_neg (by omega)
    have e1 : ∀ x : ℝ, (if 1 ≤ 0 then x else 0) = 0 := fun x => if_neg (by omega)
    have e2 : ∀ x : ℝ, (if 2 ≤ 0 + 1 then x else 0) = 0 := fun x => if_neg (by omega)
    have e3 : ∀ x : ℝ, (if 1 ≤ 0 + 1 then x else 0) = x := fun x => if_pos (by omega)
    have e4 : ∀ (n : ℕ) (x : ℝ), (if 1 ≤ n + 1 + 1 then x else 0) = x := fun n x => if_pos (by omega)
    have e5 : ∀ (n : ℕ) (x : ℝ), (if 2 ≤ n + 1 + 1 then x else 0) = x := fun n x => if_pos (by omega)
    rcases k with _ | _ | k
    · simp only [e0, e1, add_zero] at hrow
      exact hrow.symm
    · simp only [e2, e3, add_zero] at hrow
      rw [show 0 + 1 - 1 = 0 from rfl, ih 0 (by omega) (by omega), hl0 0 (by omega)] at hrow
      rw [← sub_eq_iff_eq_add.2 hrow]
      ring
    · simp only [e4, e5] at hrow
      rw [show k + 1 + 1 - 1 = k + 1 by omega, show k + 1 + 1 - 2 = k by omega, ih (k+1) (by omega) (by omega), ih k (by omega) (by omega),
        hl0 (k+1) (by omega), hl1 k (by omega)] at hrow
      have := sub_eq_iff_eq_add.2 (hrow.trans (add_assoc _ _ _))
      rw [← this]
      ring

/-- Forward substitution. -/
theorem biForward_spec (M : ℕ) (hM : 2 ≤ M) (l0 l1 f : ℕ → ℝ) (i : ℕ) (hi : i < M) :
    f i = biForward M l0 l1 f i + (if 1 ≤ i then l0 (i-1) * biForward M l0 l1 f (i-1) else 0)
      + (if 2 ≤ i then l1 (i-2) * biForward M l0 l1 f (i-2) else 0) := by
  obtain ⟨t, rfl⟩ : ∃ t, M = t + 2 := ⟨M - 2, by omega⟩
  unfold biForward
  rw [Nat.add_sub_cancel]
  dsimp only
  revert i
  refine forN_inv _ _ (fun t (a : ℕ → ℝ) => ∀ i < t + 2, f i = a i + (if 1 ≤ i then l0 (i-1) * a (i-1) else 0)
      + (if 2 ≤ i then l1 (i-2) * a (i-2) else 0)) t ?_ ?_ t le_rfl
  · intro k hk
    rcases (by omega : k = 0 ∨ k = 1) with h | h <;> subst h
    · rw [Function.update_of_ne (by omega), Function.update_self]; simp
    · simp [Function.update_apply]
  · intro q _ a ha k hk
    rcases Nat.lt_or_ge k (q+2) with h | h
    · rw [ha k h, Function.update_of_ne (by omega), Function.update_of_ne (by omega), Function.update_of_ne (by omega)]
    · obtain rfl : k = q + 2 := by omega
      rw [Function.update_self, Function.update_of_ne (by omega), Function.update_of_ne (by omega), if_pos (by omega), if_pos (by omega)]
      ring

/-- The two weighted suffix sums of the back substitution. -/
noncomputable def biS1 (M odd t : ℕ) (u : ℕ → ℝ) : ℝ := ∑ i ∈ Ico t M, u i / (((2 * i + odd : ℕ) : ℝ) + 3)
noncomputable def biS2 (M odd t : ℕ) (u : ℕ → ℝ) : ℝ :=
  ∑ i ∈ Ico t M, u i / (((2 * i + odd : ℕ) : ℝ) + 3) * ((((2 * i + odd : ℕ) : ℝ) + 2) * (((2 * i + odd : ℕ) : ℝ) + 2))

theorem biS1_congr (M odd t : ℕ) (u v : ℕ → ℝ) (h : ∀ i, t ≤ i → u i = v i) : biS1 M odd t u = biS1 M odd t v :=
  Finset.sum_congr rfl fun i hi => by rw [h i (Finset.mem_Ico.1 hi).1]
theorem biS2_congr (M odd t : ℕ) (u v : ℕ → ℝ) (h : ∀ i, t ≤ i → u i = v i) : biS2 M odd t u = biS2 M odd t v :=
  Finset.sum_congr rfl fun i hi => by rw [h i (Finset.mem_Ico.1 hi).1]

/-- One row of the upper triangular system as the code sees it. -/
def BiRow (M odd : ℕ) (f : ℕ → ℝ) (lu : BiLU) (a b : ℕ → ℝ) (ac : ℝ) (u : ℕ → ℝ) (r : ℕ) : Prop :=
  lu.u0 r * u r + (if r + 1 < M then lu.u1 r * u (r+1) else 0) + (if r + 2 < M then lu.u2 r * u (r+2) else 0)
    + (if r + 3 < M then a r * ac * biS1 M odd (r+3) u + b r * ac * biS2 M odd (r+3) u else 0) = f r

theorem BiRow.congr {M odd : ℕ} {f : ℕ → ℝ} {lu : BiLU} {a b : ℕ → ℝ} {ac : ℝ} {u v : ℕ → ℝ} {r : ℕ} (h : ∀ i, r ≤ i → u i = v i)
    (hu : BiRow M odd f lu a b ac u r) : BiRow M odd f lu a b ac v r := by
  unfold BiRow at *
  rw [← h r le_rfl, ← h (r+1) (by omega), ← h (r+2) (by omega), ← biS1_congr M odd (r+3) u v (fun i hi => h i (by omega)),
    ← biS2_congr M odd (r+3) u v (fun i hi => h i (by omega))]
  exact hu

theorem biBack_rows (M odd : ℕ) (hM : 3 ≤ M) (f u : ℕ → ℝ) (lu : BiLU) (a b : ℕ → ℝ) (ac : ℝ) (hd : ∀ i < M, lu.u0 i ≠ 0) :
    ∀ r < M, BiRow M odd f lu a b ac (biBack M odd f u lu a b ac) r := by
  obtain ⟨t, rfl⟩ : ∃ t, M = t + 3 := ⟨M - 3, by omega⟩
  unfold biBack
  rw [show t + 3 - 1 = t + 2 by omega, show t + 3 - 2 = t + 1 by omega, show t + 3 - 3 = t by omega]
  dsimp only
  have key := forN_inv (biBackStep (t+3) odd f lu a b ac) ⟨0, 0, Function.update (Function.update (Function.update u (t+2)
    (f (t+2) / lu.u0 (t+2))) (t+1) ((f (t+1) - lu.u1 (t+1) * Function.update u (t+2) (f (t+2) / lu.u0 (t+2)) (t+2)) / lu.u0 (t+1))) t
    ((f t - lu.u1 t * Function.update (Function.update u (t+2)
    (f (t+2) / lu.u0 (t+2))) (t+1) ((f (t+1) - lu.u1 (t+1) * Function.update u (t+2) (f (t+2) / lu.u0 (t+2)) (t+2)) / lu.u0 (t+1)) (t+1)
    - lu.u2 t * Function.update (Function.update u (t+2)
    (f (t+2) / lu.u0 (t+2))) (t+1) ((f (t+1) - lu.u1 (t+1) * Function.update u (t+2) (f (t+2) / lu.u0 (t+2)) (t+2)) / lu.u0 (t+1)) (t+2))
    / lu.u0 t)⟩
    (fun q (s : BiSweep) => s.s1 = biS1 (t+3) odd (t+3-q) s.u ∧ s.s2 = biS2 (t+3) odd (t+3-q) s.u ∧
      ∀ r, t - q ≤ r → r < t + 3 → BiRow (t+3) odd f lu a b ac s.u r) t ?_ ?_ t le_rfl
  · intro r hr
    exact key.2.2 r (by omega) hr
  · refine ⟨by simp [biS1], by simp [biS2], fun r hr1 hr2 => ?_⟩
    have h0 := hd t (by omega)
    have h1 := hd (t+1) (by omega)
    have h2 := hd (t+2) (by omega)
    unfold BiRow
    rcases (by omega : r = t ∨ r = t + 1 ∨ r = t + 2) with h | h | h <;> subst h
    · ifs
      simp only [Function.update_apply, Nat.reduceEqDiff, Nat.add_eq_left, Nat.add_left_cancel_iff, if_true, if_false, OfNat.ofNat_ne_zero, one_ne_zero,
        OfNat.ofNat_ne_one, OfNat.one_ne_ofNat, left_eq_add]
      field_simp
      ring
    · ifs
      simp only [Function.update_apply, show ¬ t + 1 = t by omega, show ¬ t + 1 + 1 = t by omega, show ¬ t + 1 + 1 = t + 1 by omega,
        show t + 1 + 1 = t + 2 by omega, show ¬ t + 1 = t + 2 by omega, show ¬ t + 2 = t + 1 by omega, show ¬ t + 2 = t by omega, if_true, if_false]
      field_simp
      ring
    · ifs
      simp only [Function.update_apply, show ¬ t + 2 = t by omega, show ¬ t + 2 = t + 1 by omega, if_true, if_false]
      field_simp
      ring
  · rintro q hq s ⟨h1, h2, hrow⟩
    obtain ⟨s', hs'⟩ : ∃ s', s' = biBackStep (t+3) odd f lu a b ac q s := ⟨_, rfl⟩
    have hk : t + 3 - 4 - q = t - 1 - q := by omega
    have ej : 2 * (t - 1 - q) + odd + 6 = 2 * (t - 1 - q + 3) + odd := by omega
    have e3 : t - 1 - q + 3 = t + 3 - (q + 1) := by omega
    have ru : ∀ i, s'.u i = if i = t - 1 - q then
        (f (t-1-q) - lu.u1 (t-1-q) * s.u (t-1-q+1) - lu.u2 (t-1-q) * s.u (t-1-q+2) - a (t-1-q) * ac * s'.s1 - b (t-1-q) * ac * s'.s2) / lu.u0 (t-1-q)
        else s.u i := by
      intro i
      rw [hs']
      show Function.update s.u (t+3-4-q) _ i = _
      rw [Function.update_apply, hk]
      rfl
    have hsu : ∀ i, t - q ≤ i → s'.u i = s.u i := fun i hi => by rw [ru, if_neg (by omega)]
    have rs1 : s'.s1 = s.s1 + s.u (t+3-(q+1)) / (((2 * (t+3-(q+1)) + odd : ℕ):ℝ) + 3) := by
      rw [hs']
      unfold biBackStep
      dsimp only
      rw [hk, ej, e3]
    have rs2 : s'.s2 = s.s2 + s.u (t+3-(q+1)) / (((2 * (t+3-(q+1)) + odd : ℕ):ℝ) + 3) *
        ((((2 * (t+3-(q+1)) + odd : ℕ):ℝ) + 2) * (((2 * (t+3-(q+1)) + odd : ℕ):ℝ) + 2)) := by
      rw [hs']
      unfold biBackStep
      dsimp only
      rw [hk, ej, e3]
    have es : t + 3 - q = t + 3 - (q+1) + 1 := by omega
    have g1 : s'.s1 = biS1 (t+3) odd (t+3-(q+1)) s'.u := by
      rw [biS1_congr _ _ _ s'.u s.u (fun i hi => hsu i (by omega)), rs1, h1, es]
      unfold biS1
      rw [Finset.sum_eq_sum_Ico_succ_bot (a := t+3-(q+1)) (by omega), add_comm]
    have g2 : s'.s2 = biS2 (t+3) odd (t+3-(q+1)) s'.u := by
      rw [biS2_congr _ _ _ s'.u s.u (fun i hi => hsu i (by omega)), rs2, h2, es]
      unfold biS2
      rw [Finset.sum_eq_sum_Ico_succ_bot (a := t+3-(q+1)) (by omega), add_comm]
    rw [← hs']
    refine ⟨g1, g2, fun r hr1 hr2 => ?_⟩
    by_cases h : r = t - 1 - q
    · subst h
      have hd0 := hd (t-1-q) (by omega)
      unfold BiRow
      rw [if_pos (by omega), if_pos (by omega), if_pos (by omega), e3, ← g1, ← g2, ru (t-1-q), if_pos rfl, hsu (t-1-q+1) (by omega), hsu (t-1-q+2) (by omega)]
      field_simp
      ring
    · exact (hrow r (by omega) hr2).congr fun i hi => (hsu i (by omega)).symm

/-- One parity class: whenever elimination is possible, the system is solved. -/
theorem biSolveHalf_solves (odd M : ℕ) (hM : 5 ≤ M) (a b c : ℝ) (m : BiDiags) (hE : Spec.Eliminable M (biMat odd a b c m)) (f u : ℕ → ℝ) :
    Spec.Solves M (biMat odd a b c m) (biSolveHalf M odd (luBiharmonic odd M a b c m) a f u) f := by
  have hrel := ger_luRel M _ (biMat_band odd a b c m)
  have hp := pivots_of_minors (ger_isLU M _) hrel hE
  have hinv := luBiharmonic_inv odd M hM a b c m
  set lu := luBiharmonic odd M a b c m
  have hd : ∀ i < M, lu.u0 i ≠ 0 := fun i hi => by
    have := hp i hi
    unfold gUc at this
    rw [if_neg (by omega)] at this
    rwa [hinv.u0 i (by omega)]
  have hl0 : ∀ r < M - 1, lu.l0 r = gL0 (biMat odd a b c m) r := fun r hr => hinv.l0 r hr
  have hl1 : ∀ r, r + 2 < M → lu.l1 r = gL1 (biMat odd a b c m) r := fun r hr => hinv.l1 r (by omega) hr
  have hrows := biBack_rows M odd (by omega) (biForward M lu.l0 lu.l1 f) u lu (biFactor odd M biP lu.l0 lu.l1)
    (biFactor odd M biR lu.l0 lu.l1) a hd
  refine solves_of_LU hrel hp (y := biForward M lu.l0 lu.l1 f) (fun i hi => ?_) (fun r hr => ?_)
  · unfold Spec.mulVec
    rw [sum_bandL M 1 2 _ _ i hi, biForward_spec M (by omega) lu.l0 lu.l1 f i hi]
    congr 1
    · congr 1
      by_cases h : 1 ≤ i
      · rw [if_pos h, if_pos h, hl0 (i-1) (by omega)]
      · rw [if_neg h, if_neg h]
    · by_cases h : 2 ≤ i
      · rw [if_pos h, if_pos h, hl1 (i-2) (by omega)]
      · rw [if_neg h, if_neg h]
  · have hrow := hrows r hr
    unfold biSolveHalf
    set x := biBack M odd (biForward M lu.l0 lu.l1 f) u lu (biFactor odd M biP lu.l0 lu.l1) (biFactor odd M biR lu.l0 lu.l1) a
    rw [← hrow]
    unfold Spec.mulVec
    have hlow : ∑ j ∈ range r, gUc (biMat odd a b c m) r j * x j = 0 :=
      Finset.sum_eq_zero fun j hj => by unfold gUc; rw [if_pos (Finset.mem_range.1 hj), zero_mul]
    rw [← Finset.sum_range_add_sum_Ico _ hr.le, hlow, zero_add, Finset.sum_eq_sum_Ico_succ_bot hr]
    have hU : ∀ j, r ≤ j → gUc (biMat odd a b c m) r j = gU (biMat odd a b c m) r j := fun j hj => if_neg (by omega)
    rw [hU r le_rfl, ← hinv.u0 r (by omega)]
    by_cases h1 : r + 1 < M
    · rw [Finset.sum_eq_sum_Ico_succ_bot h1, hU (r+1) (by omega), ← hinv.u1 r (by omega) h1, if_pos h1]
      by_cases h2 : r + 1 + 1 < M
      · rw [Finset.sum_eq_sum_Ico_succ_bot h2, hU (r+1+1) (by omega), show r + 1 + 1 = r + 2 by omega, ← hinv.u2 r (by omega) h2, if_pos (by omega)]
        by_cases h3 : r + 3 < M
        · rw [if_pos h3]
          unfold biS1 biS2
          rw [Finset.mul_sum, Finset.mul_sum, ← Finset.sum_add_distrib]
          rw [Finset.sum_congr rfl fun j hj => show gUc (biMat odd a b c m) r j * x j = _ by
            have := Finset.mem_Ico.1 hj
            rw [hU j (by omega), far_entries odd M hM a b c m j (by omega) r (by omega) lu.l0 lu.l1 hl0 hl1]]
          rw [← add_assoc, ← add_assoc]
          congr 1
          refine Finset.sum_congr rfl fun j _ => ?_
          ring
        · rw [if_neg h3, Finset.Ico_eq_empty (by omega), Finset.sum_empty]
          ring
      · rw [if_neg (by omega), if_neg (by omega), Finset.Ico_eq_empty (by omega), Finset.sum_empty]
        ring
    · rw [if_neg h1, if_neg (by omega), if_neg (by omega), Finset.Ico_eq_empty (by omega), Finset.sum_empty]
      ring

end ChebLA

end Shenfun
