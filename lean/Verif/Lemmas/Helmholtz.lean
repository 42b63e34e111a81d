import Verif.Lemmas.SuffixSweep

namespace Shenfun

namespace ChebLA

open Finset

variable {K : Type*} [Field K]

/-- The matrix factored by `LU_Helmholtz`: `α A + β B`. -/
def helmMat (m : HelmDiags K) (α β : K) (i j : ℕ) : K :=
  if j = i then α * m.A0 i + β * m.B0 i
  else if j = i + 2 then α * m.A2 i + β * m.B2 i
  else if i + 4 ≤ j ∧ j % 2 = i % 2 then α * m.A4 i
  else if j + 2 = i then β * m.Bm2 j else 0

/-- Invariant of the factorisation after the rows below `q+2`. -/
structure HelmLUInv (N : ℕ) (m : HelmDiags K) (α β : K) (q : ℕ) (s : HelmLU K) : Prop where
  d0 : ∀ i, i < q + 2 → s.d0 i = α * m.A0 i + β * m.B0 i - (if 2 ≤ i then s.L (i-2) * s.d1 (i-2) else 0)
  d1 : ∀ i, i < q + 2 → i + 2 < N → s.d1 i = α * m.A2 i + β * m.B2 i - (if 2 ≤ i then s.L (i-2) * s.d2 (i-2) else 0)
  d2 : ∀ i, i < q + 2 → i + 4 < N → s.d2 i = α * m.A4 i - (if 2 ≤ i then s.L (i-2) * s.d2 (i-2) else 0)
  L : ∀ i, i < q → s.L i = β * m.Bm2 i / s.d0 i

theorem luCore_inv (N : ℕ) (m : HelmDiags K) (α β : K) : HelmLUInv N m α β (N-2) (luHelmholtzCore N m α β) := by
  unfold luHelmholtzCore
  refine forN_inv _ _ (HelmLUInv N m α β) (N-2) ?_ ?_ (N-2) le_rfl
  · refine ⟨fun i hi => ?_, fun i hi _ => ?_, fun i hi _ => ?_, fun i hi => absurd hi (by omega)⟩
    all_goals
      rw [if_neg (by omega), sub_zero]
      rcases (by omega : i = 0 ∨ i = 1) with h | h <;> subst h
      · dsimp only
        rw [Function.update_of_ne (by omega), Function.update_self]
      · dsimp only
        rw [Function.update_self]
  · rintro k hk s ⟨h0, h1, h2, hL⟩
    have e : k + 2 - 2 = k := by omega
    obtain ⟨s', hs'⟩ : ∃ s', s' = luHelmholtzStep N m α β k s := ⟨_, rfl⟩
    have rL : ∀ i, s'.L i = if i = k then β * m.Bm2 k / s.d0 k else s.L i := by
      intro i
      rw [hs']
      show Function.update s.L (k+2-2) _ i = _
      rw [e, Function.update_apply]
    have r0 : ∀ i, s'.d0 i = if i = k + 2 then α * m.A0 (k+2) + β * m.B0 (k+2) - s'.L k * s.d1 k else s.d0 i := by
      intro i
      rw [rL, if_pos rfl, hs']
      show Function.update s.d0 (k+2) _ i = _
      rw [e, Function.update_self, Function.update_apply]
    have r1 : ∀ i, s'.d1 i = if i = k + 2 ∧ k + 4 < N then α * m.A2 (k+2) + β * m.B2 (k+2) - s'.L k * s.d2 k else s.d1 i := by
      intro i
      rw [rL, if_pos rfl, hs']
      show (if k + 2 < N - 2 then Function.update s.d1 (k+2) _ else s.d1) i = _
      by_cases h : k + 2 < N - 2
      · rw [if_pos h, e, Function.update_self, Function.update_apply]
        exact if_congr (by omega) rfl rfl
      · rw [if_neg h, if_neg (by omega)]
    have r2 : ∀ i, s'.d2 i = if i = k + 2 ∧ k + 6 < N then α * m.A4 (k+2) - s'.L k * s.d2 k else s.d2 i := by
      intro i
      rw [rL, if_pos rfl, hs']
      show (if k + 2 < N - 4 then Function.update s.d2 (k+2) _ else s.d2) i = _
      by_cases h : k + 2 < N - 4
      · rw [if_pos h, e, Function.update_self, Function.update_apply]
        exact if_congr (by omega) rfl rfl
      · rw [if_neg h, if_neg (by omega)]
    rw [← hs']
    refine ⟨fun i hi => ?_, fun i hi hiN => ?_, fun i hi hiN => ?_, fun i hi => ?_⟩
    · rw [r0]
      by_cases h : i = k + 2
      · subst h; rw [if_pos rfl, if_pos (by omega), e, r1 k, if_neg (by omega)]
      · rw [if_neg h, h0 i (by omega)]
        by_cases h2 : 2 ≤ i
        · rw [if_pos h2, if_pos h2, rL, if_neg (by omega), r1, if_neg (by omega)]
        · rw [if_neg h2, if_neg h2]
    · rw [r1]
      by_cases h : i = k + 2
      · subst h; rw [if_pos (by omega), if_pos (by omega), e, r2 k, if_neg (by omega)]
      · rw [if_neg (by omega), h1 i (by omega) hiN]
        by_cases h2 : 2 ≤ i
        · rw [if_pos h2, if_pos h2, rL, if_neg (by omega), r2, if_neg (by omega)]
        · rw [if_neg h2, if_neg h2]
    · rw [r2]
      by_cases h : i = k + 2
      · subst h; rw [if_pos (by omega), if_pos (by omega), e, r2 k, if_neg (by omega)]
      · rw [if_neg (by omega), h2 i (by omega) hiN]
        by_cases h2 : 2 ≤ i
        · rw [if_pos h2, if_pos h2, rL, if_neg (by omega), r2, if_neg (by omega)]
        · rw [if_neg h2, if_neg h2]
    · rw [r0 i, if_neg (show ¬ i = k + 2 by omega), rL]
      by_cases h : i = k
      · subst h; rw [if_pos rfl]
      · rw [if_neg h]; exact hL i (by omega)

abbrev helmL (f : HelmLU K) := bandL 2 4 f.L (fun _ => 0)
abbrev helmU (f : HelmLU K) := upSum f.d0 f.d1 f.d2

theorem helm_isLU (n : ℕ) (f : HelmLU K) : IsLU n (helmL f) (helmU f) where
  lower i j h := by unfold helmL bandL; ifs; simp
  unit i := by unfold helmL bandL; ifs; simp
  upper i j h := by unfold helmU upSum; ifs

theorem upSum_diag (d e f : ℕ → K) (i : ℕ) : upSum d e f i i = d i := if_pos rfl

theorem helm_luRel (N : ℕ) (m : HelmDiags K) (α β : K) :
    LURel N (helmMat m α β) (helmL (luHelmholtzCore N m α β)) (helmU (luHelmholtzCore N m α β)) := by
  intro i hi j hj hp
  obtain ⟨h0, h1, h2, hL⟩ := luCore_inv N m α β
  set f := luHelmholtzCore N m α β
  simp only [helmU, upSum_diag] at hp
  rw [sum_bandL N 2 4 _ _ i hi (fun m => helmU f m j)]
  simp only [zero_mul, ite_self, add_zero]
  unfold helmU upSum helmMat
  rcases (by omega : j + 2 = i ∨ j = i ∨ j = i + 2 ∨ (i + 4 ≤ j ∧ j % 2 = i % 2) ∨
    (j + 2 ≠ i ∧ j ≠ i ∧ j ≠ i + 2 ∧ ¬ (i + 4 ≤ j ∧ j % 2 = i % 2))) with h | h | h | h | h
  · subst h
    ifs
    have := hp j (by omega)
    rw [show j + 2 - 2 = j by omega, hL j (by omega), zero_add]
    field_simp
  · subst h
    ifs
    rw [h0 j (by omega)]
    by_cases h : 2 ≤ j
    · ifs; ring
    · ifs; ring
  · subst h
    ifs
    rw [h1 i (by omega) (by omega)]
    by_cases h : 2 ≤ i
    · ifs; ring
    · ifs; ring
  · ifs
    rw [h2 i (by omega) (by omega)]
    by_cases h : 2 ≤ i
    · ifs; ring
    · ifs; ring
  · ifs
    by_cases h2 : 2 ≤ i
    · have : ¬ (j = i - 2) := by omega
      have : ¬ (j = i - 2 + 2) := by omega
      have : ¬ (i - 2 + 4 ≤ j ∧ j % 2 = (i-2) % 2) := by omega
      ifs; simp
    · ifs; simp

/-- The factorisation and the substitutions solve the system, provided elimination without pivoting is possible. -/
theorem helm_solves (N : ℕ) (hN : 4 ≤ N) (m : HelmDiags K) (α β : K) (hm : Spec.Eliminable N (helmMat m α β)) (b u : ℕ → K) :
    Spec.Solves N (helmMat m α β) (solveHelmholtzCore N (luHelmholtzCore N m α β) b u) b := by
  have hp := pivots_of_minors (helm_isLU N _) (helm_luRel N m α β) hm
  have hd : ∀ i < N, (luHelmholtzCore N m α β).d0 i ≠ 0 := fun i hi => by
    have := hp i hi; rwa [helmU, upSum_diag] at this
  obtain ⟨hrows, _⟩ := solveCore_rows N hN (luHelmholtzCore N m α β) b u hd
  refine solves_of_LU (helm_luRel N m α β) hp (fun i hi => ?_) hrows
  unfold Spec.mulVec
  rw [sum_bandL N 2 4 _ _ i hi]
  simp only [zero_mul, ite_self, add_zero]
  exact helmForward_spec N _ b i hi

end ChebLA

end Shenfun
