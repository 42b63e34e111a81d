import Verif.Model.ChebSolvers
import Verif.Lemmas.Sweep
import Verif.Lemmas.Loop
import Mathlib.Tactic.Ring
import Mathlib.Tactic.FieldSimp
import Mathlib.Tactic.Linarith

namespace Shenfun

namespace ChebLA

open Finset

variable {K : Type*} [Field K]

/-- Sum of the unknowns from `t` on with parity `p`. -/
def pSum (N p t : ℕ) (u : ℕ → K) : K := ∑ j ∈ range N, if t ≤ j ∧ j % 2 = p then u j else 0

theorem pSum_congr {N p t : ℕ} {u v : ℕ → K} (h : ∀ j, t ≤ j → u j = v j) : pSum N p t u = pSum N p t v := by
  unfold pSum
  refine Finset.sum_congr rfl fun j _ => ?_
  by_cases hj : t ≤ j ∧ j % 2 = p
  · rw [if_pos hj, if_pos hj, h j hj.1]
  · rw [if_neg hj, if_neg hj]

theorem pSum_update {N p t k : ℕ} (u : ℕ → K) (v : K) (h : k < t) :
    pSum N p t (Function.update u k v) = pSum N p t u :=
  pSum_congr fun j hj => Function.update_of_ne (by omega) _ _

theorem pSum_zero {N p t : ℕ} (u : ℕ → K) (h : N ≤ t) : pSum N p t u = 0 := by
  unfold pSum
  refine Finset.sum_eq_zero fun j hj => if_neg ?_
  have := Finset.mem_range.1 hj
  omega

theorem pSum_succ {N p t : ℕ} (u : ℕ → K) (ht : t < N) (hp : t % 2 = p) :
    pSum N p t u = u t + pSum N p (t+1) u := by
  unfold pSum
  rw [← Finset.add_sum_erase (range N) (fun j => if t ≤ j ∧ j % 2 = p then u j else 0) (Finset.mem_range.2 ht),
    if_pos ⟨le_rfl, hp⟩]
  congr 1
  rw [← Finset.add_sum_erase (range N) (fun j => if t + 1 ≤ j ∧ j % 2 = p then u j else 0) (Finset.mem_range.2 ht),
    if_neg (by omega), zero_add]
  refine Finset.sum_congr rfl fun j hj => ?_
  have := Finset.ne_of_mem_erase hj
  exact if_congr (by omega) rfl rfl

theorem pSum_skip {N p t : ℕ} (u : ℕ → K) (hp : t % 2 ≠ p) : pSum N p t u = pSum N p (t+1) u := by
  unfold pSum
  refine Finset.sum_congr rfl fun j hj => ?_
  refine if_congr ?_ rfl rfl
  constructor
  · rintro ⟨h1, h2⟩
    refine ⟨?_, h2⟩
    rcases Nat.lt_or_ge t j with h | h
    · omega
    · have : j = t := by omega
      subst this; exact absurd h2 hp
  · rintro ⟨h1, h2⟩; exact ⟨by omega, h2⟩

/-- The upper triangular matrix of the running-sum sweeps: `d` on the diagonal, `e` on the second upper diagonal, and the
value `f i` on row `i` from column `i+4` on (same parity). -/
def upSum (d e f : ℕ → K) (i j : ℕ) : K :=
  if j = i then d i else if j = i + 2 then e i else if i + 4 ≤ j ∧ j % 2 = i % 2 then f i else 0

theorem mulVec_upSum (N : ℕ) (d e f u : ℕ → K) (i : ℕ) (hi : i < N) :
    Spec.mulVec N (upSum d e f) u i =
      d i * u i + (if i + 2 < N then e i * u (i+2) else 0) + f i * pSum N (i%2) (i+4) u := by
  unfold Spec.mulVec pSum
  rw [Finset.mul_sum]
  have h1 : d i * u i = ∑ j ∈ range N, if j = i then d i * u j else 0 := by
    rw [Finset.sum_ite_eq' (range N) i fun j => d i * u j, if_pos (Finset.mem_range.2 hi)]
  have h2 : (if i + 2 < N then e i * u (i+2) else 0) = ∑ j ∈ range N, if j = i + 2 then e i * u j else 0 := by
    rw [Finset.sum_ite_eq' (range N) (i+2) fun j => e i * u j]
    exact if_congr (by simp) rfl rfl
  rw [h1, h2, ← Finset.sum_add_distrib, ← Finset.sum_add_distrib]
  refine Finset.sum_congr rfl fun j _ => ?_
  unfold upSum
  rcases (by omega : j = i ∨ j = i + 2 ∨ (j ≠ i ∧ j ≠ i + 2)) with h | h | h
  · subst h; ifs; simp
  · subst h; ifs; simp
  · by_cases hc : i + 4 ≤ j ∧ j % 2 = i % 2 <;> ifs <;> simp

/-- Invariant of the sweep of `Poisson_Solve_ADD` after the rows from `t` on are done. -/
structure AddInv (N : ℕ) (d d1 b u₀ : ℕ → K) (t : ℕ) (s : Sweep K) : Prop where
  se : s.se = pSum N 0 (t+2) s.u
  so : s.so = pSum N 1 (t+2) s.u
  rows : ∀ i, t ≤ i → i < N → d i * s.u i + d1 i * pSum N (i%2) (i+2) s.u = b i
  low : ∀ i, i < t → s.u i = u₀ i
  high : ∀ i, N ≤ i → s.u i = u₀ i

theorem addStart_inv (N : ℕ) (hN : 2 ≤ N) (d d1 b u₀ : ℕ → K) (inplace : Bool) (hb : inplace = true → ∀ i < N, u₀ i = b i)
    (hd : ∀ i, N - 2 ≤ i → i < N → d i ≠ 0) : AddInv N d d1 b u₀ (N-2) ⟨0, 0, addStart N d b inplace u₀⟩ := by
  have e1 : (if inplace then u₀ (N-1) else b (N-1)) = b (N-1) := by
    cases inplace
    · rfl
    · exact hb rfl _ (by omega)
  have e2 : ∀ v, (if inplace then Function.update u₀ (N-1) v (N-2) else b (N-2)) = b (N-2) := by
    intro v
    cases inplace
    · rfl
    · exact (Function.update_of_ne (by omega) _ _).trans (hb rfl _ (by omega))
  have hu : addStart N d b inplace u₀ = Function.update (Function.update u₀ (N-1) (b (N-1) / d (N-1))) (N-2) (b (N-2) / d (N-2)) := by
    unfold addStart
    simp only [e1, e2]
  refine ⟨(pSum_zero _ (by omega)).symm, (pSum_zero _ (by omega)).symm, fun i hi hi' => ?_, fun i hi => ?_, fun i hi => ?_⟩
  · rw [pSum_zero _ (by omega), mul_zero, add_zero]
    show d i * addStart N d b inplace u₀ i = b i
    rw [hu]
    rcases (by omega : i = N-2 ∨ i = N-1) with h | h
    · subst h
      rw [Function.update_self]; exact mul_div_cancel₀ _ (hd _ (by omega) (by omega))
    · subst h
      rw [Function.update_of_ne (by omega), Function.update_self]; exact mul_div_cancel₀ _ (hd _ (by omega) (by omega))
  · show addStart N d b inplace u₀ i = _
    rw [hu, Function.update_of_ne (by omega), Function.update_of_ne (by omega)]
  · show addStart N d b inplace u₀ i = _
    rw [hu, Function.update_of_ne (by omega), Function.update_of_ne (by omega)]

theorem addStep_inv (N : ℕ) (d d1 b u₀ : ℕ → K) (inplace : Bool) (hb : inplace = true → ∀ i < N, u₀ i = b i)
    (q : ℕ) (hd : d (N-3-q) ≠ 0) (hq : q + 2 < N) (s : Sweep K) (h : AddInv N d d1 b u₀ (N-2-q) s) :
    AddInv N d d1 b u₀ (N-2-(q+1)) (addStep N d d1 b inplace q s) := by
  obtain ⟨k, hk⟩ : ∃ k, k = N - 3 - q := ⟨_, rfl⟩
  have hk1 : N - 2 - q = k + 1 := by omega
  have hk2 : N - 2 - (q+1) = k := by omega
  rw [hk1] at h
  rw [hk2]
  have hkN : k + 2 < N := by omega
  have e1 : (if inplace then s.u k else b k) = b k := by
    cases inplace
    · rfl
    · exact (h.low k (by omega)).trans (hb rfl _ (by omega))
  obtain ⟨hse, hso, hrows, hlow, hhigh⟩ := h
  unfold addStep
  simp only [← hk, e1]
  have hrest : ∀ v, ∀ i, k + 1 ≤ i → i < N →
      d i * Function.update s.u k v i + d1 i * pSum N (i%2) (i+2) (Function.update s.u k v) = b i := by
    intro v i hi hiN
    rw [pSum_update _ _ (by omega), Function.update_of_ne (by omega)]
    exact hrows i hi hiN
  have hmain : ∀ S : K, S = pSum N (k%2) (k+2) s.u → ∀ i, k ≤ i → i < N →
      d i * Function.update s.u k ((b k - d1 k * S) / d k) i +
        d1 i * pSum N (i%2) (i+2) (Function.update s.u k ((b k - d1 k * S) / d k)) = b i := by
    intro S hS i hi hiN
    rcases Nat.lt_or_ge k i with h | h
    · exact hrest _ i h hiN
    · obtain rfl : i = k := by omega
      rw [pSum_update _ _ (by omega), Function.update_self, ← hS, mul_div_cancel₀ _ (hk ▸ hd)]
      ring
  have hl : ∀ v, ∀ i, i < k → Function.update s.u k v i = u₀ i := fun v i hi => by
    rw [Function.update_of_ne (by omega)]; exact hlow i (by omega)
  have hh : ∀ v, ∀ i, N ≤ i → Function.update s.u k v i = u₀ i := fun v i hi => by
    rw [Function.update_of_ne (by omega)]; exact hhigh i hi
  by_cases hp : k % 2 = 0
  · rw [if_pos hp]
    have hS : s.se + s.u (k+2) = pSum N 0 (k+2) s.u := by
      rw [pSum_succ s.u hkN (by omega), hse, add_comm]
    refine ⟨?_, ?_, hmain _ (by rw [hS, hp]), hl _, hh _⟩
    · show s.se + s.u (k+2) = pSum N 0 (k+2) _
      rw [pSum_update _ _ (by omega), hS]
    · show s.so = pSum N 1 (k+2) _
      rw [pSum_update _ _ (by omega), hso, pSum_skip (t := k+2) s.u (by omega)]
  · rw [if_neg hp]
    have hS : s.so + s.u (k+2) = pSum N 1 (k+2) s.u := by
      rw [pSum_succ s.u hkN (by omega), hso, add_comm]
    refine ⟨?_, ?_, hmain _ (by rw [hS, (by omega : k % 2 = 1)]), hl _, hh _⟩
    · show s.se = pSum N 0 (k+2) _
      rw [pSum_update _ _ (by omega), hse, pSum_skip (t := k+2) s.u (by omega)]
    · show s.so + s.u (k+2) = pSum N 1 (k+2) _
      rw [pSum_update _ _ (by omega), hS]

theorem addSweep_inv (N : ℕ) (hN : 2 ≤ N) (d d1 b u₀ : ℕ → K) (inplace : Bool)
    (hb : inplace = true → ∀ i < N, u₀ i = b i) (q : ℕ) (hq : q + 2 ≤ N)
    (hd : ∀ i, N - 2 - q ≤ i → i < N → d i ≠ 0) : AddInv N d d1 b u₀ (N-2-q) (addSweep N d d1 b inplace u₀ q) := by
  induction q with
  | zero => exact addStart_inv N hN d d1 b u₀ inplace hb hd
  | succ q ih =>
    exact addStep_inv N d d1 b u₀ inplace hb q (hd _ (by omega) (by omega)) (by omega) _
      (ih (by omega) fun i hi hiN => hd i (by omega) hiN)

/-- Invariant of the back substitution of `Solve_Helmholtz_1D`. -/
structure HelmInv (N : ℕ) (f : HelmLU K) (y u₀ : ℕ → K) (t : ℕ) (s : Sweep K) : Prop where
  se : s.se = pSum N 0 (t+4) s.u
  so : s.so = pSum N 1 (t+4) s.u
  rows : ∀ i, t ≤ i → i < N →
    f.d0 i * s.u i + (if i + 2 < N then f.d1 i * s.u (i+2) else 0) + f.d2 i * pSum N (i%2) (i+4) s.u = y i
  high : ∀ i, N ≤ i → s.u i = u₀ i

theorem helmBackStep_inv (N : ℕ) (f : HelmLU K) (y u₀ : ℕ → K) (hd : ∀ i < N, f.d0 i ≠ 0) (q : ℕ) (hq : q + 4 < N)
    (s : Sweep K) (h : HelmInv N f y u₀ (N-4-q) s) : HelmInv N f y u₀ (N-4-(q+1)) (helmBackStep N f y q s) := by
  obtain ⟨k, hk⟩ : ∃ k, k = N - 5 - q := ⟨_, rfl⟩
  have hk1 : N - 4 - q = k + 1 := by omega
  have hk2 : N - 4 - (q+1) = k := by omega
  rw [hk1] at h
  rw [hk2]
  have hkN : k + 4 < N := by omega
  obtain ⟨hse, hso, hrows, hhigh⟩ := h
  unfold helmBackStep
  simp only [← hk]
  have hmain : ∀ S : K, S = pSum N (k%2) (k+4) s.u → ∀ i, k ≤ i → i < N →
      f.d0 i * Function.update s.u k ((y k - f.d1 k * s.u (k+2) - f.d2 k * S) / f.d0 k) i +
        (if i + 2 < N then f.d1 i * Function.update s.u k ((y k - f.d1 k * s.u (k+2) - f.d2 k * S) / f.d0 k) (i+2) else 0) +
        f.d2 i * pSum N (i%2) (i+4) (Function.update s.u k ((y k - f.d1 k * s.u (k+2) - f.d2 k * S) / f.d0 k)) = y i := by
    intro S hS i hi hiN
    rw [pSum_update _ _ (by omega), Function.update_of_ne (a := i+2) (by omega)]
    rcases Nat.lt_or_ge k i with h | h
    · rw [Function.update_of_ne (by omega)]
      exact hrows i h hiN
    · obtain rfl : i = k := by omega
      rw [Function.update_self, ← hS, mul_div_cancel₀ _ (hd _ hiN), if_pos (by omega)]
      ring
  have hh : ∀ v, ∀ i, N ≤ i → Function.update s.u k v i = u₀ i := fun v i hi => by
    rw [Function.update_of_ne (by omega)]; exact hhigh i hi
  by_cases hp : k % 2 = 0
  · rw [if_pos hp]
    have hS : s.se + s.u (k+4) = pSum N 0 (k+4) s.u := by
      rw [pSum_succ s.u hkN (by omega), hse, add_comm]
    refine ⟨?_, ?_, hmain _ (by rw [hS, hp]), hh _⟩
    · show s.se + s.u (k+4) = pSum N 0 (k+4) _
      rw [pSum_update _ _ (by omega), hS]
    · show s.so = pSum N 1 (k+4) _
      rw [pSum_update _ _ (by omega), hso, pSum_skip (t := k+4) s.u (by omega)]
  · rw [if_neg hp]
    have hS : s.so + s.u (k+4) = pSum N 1 (k+4) s.u := by
      rw [pSum_succ s.u hkN (by omega), hso, add_comm]
    refine ⟨?_, ?_, hmain _ (by rw [hS, (by omega : k % 2 = 1)]), hh _⟩
    · show s.se = pSum N 0 (k+4) _
      rw [pSum_update _ _ (by omega), hse, pSum_skip (t := k+4) s.u (by omega)]
    · show s.so + s.u (k+4) = pSum N 1 (k+4) _
      rw [pSum_update _ _ (by omega), hS]

theorem solveCore_rows (N : ℕ) (hN : 4 ≤ N) (f : HelmLU K) (b u₀ : ℕ → K) (hd : ∀ i < N, f.d0 i ≠ 0) :
    (∀ i < N, Spec.mulVec N (upSum f.d0 f.d1 f.d2) (solveHelmholtzCore N f b u₀) i = helmForward N f.L b i) ∧
    ∀ i, N ≤ i → solveHelmholtzCore N f b u₀ i = u₀ i := by
  set y := helmForward N f.L b with hy
  have start : ∀ u₁ : ℕ → K, u₁ = (Function.update (Function.update (Function.update (Function.update u₀ (N-1) (y (N-1) / f.d0 (N-1)))
      (N-2) (y (N-2) / f.d0 (N-2))) (N-3) ((y (N-3) - f.d1 (N-3) * (y (N-1) / f.d0 (N-1))) / f.d0 (N-3)))
      (N-4) ((y (N-4) - f.d1 (N-4) * (y (N-2) / f.d0 (N-2))) / f.d0 (N-4))) → HelmInv N f y u₀ (N-4) ⟨0, 0, u₁⟩ := by
    intro u₁ h₁
    have a1 : u₁ (N-1) = y (N-1) / f.d0 (N-1) := by
      rw [h₁, Function.update_of_ne (by omega), Function.update_of_ne (by omega), Function.update_of_ne (by omega),
        Function.update_self]
    have a2 : u₁ (N-2) = y (N-2) / f.d0 (N-2) := by
      rw [h₁, Function.update_of_ne (by omega), Function.update_of_ne (by omega), Function.update_self]
    have a3 : u₁ (N-3) = (y (N-3) - f.d1 (N-3) * (y (N-1) / f.d0 (N-1))) / f.d0 (N-3) := by
      rw [h₁, Function.update_of_ne (by omega), Function.update_self]
    have a4 : u₁ (N-4) = (y (N-4) - f.d1 (N-4) * (y (N-2) / f.d0 (N-2))) / f.d0 (N-4) := by
      rw [h₁, Function.update_self]
    refine ⟨(pSum_zero _ (by omega)).symm, (pSum_zero _ (by omega)).symm, fun i hi hiN => ?_, fun i hi => ?_⟩
    · rw [pSum_zero _ (by omega), mul_zero, add_zero]
      show f.d0 i * u₁ i + (if i + 2 < N then f.d1 i * u₁ (i+2) else 0) = y i
      have hdi := hd i hiN
      rcases (by omega : i = N-4 ∨ i = N-3 ∨ i = N-2 ∨ i = N-1) with h | h | h | h
      · rw [if_pos (by omega), (by omega : i + 2 = N - 2), a2, h, a4, mul_div_cancel₀ _ (h ▸ hdi)]; ring
      · rw [if_pos (by omega), (by omega : i + 2 = N - 1), a1, h, a3, mul_div_cancel₀ _ (h ▸ hdi)]; ring
      · rw [if_neg (by omega), h, a2, mul_div_cancel₀ _ (h ▸ hdi), add_zero]
      · rw [if_neg (by omega), h, a1, mul_div_cancel₀ _ (h ▸ hdi), add_zero]
    · show u₁ i = _
      rw [h₁, Function.update_of_ne (by omega), Function.update_of_ne (by omega), Function.update_of_ne (by omega),
        Function.update_of_ne (by omega)]
  have loop : ∀ (u₁ : ℕ → K), HelmInv N f y u₀ (N-4) ⟨0, 0, u₁⟩ → ∀ q, q + 4 ≤ N →
      HelmInv N f y u₀ (N-4-q) (forN (helmBackStep N f y) ⟨0, 0, u₁⟩ q) := by
    intro u₁ h q hq
    induction q with
    | zero => exact h
    | succ q ih => exact helmBackStep_inv N f y u₀ hd q (by omega) _ (ih (by omega))
  have eq : solveHelmholtzCore N f b u₀ = (forN (helmBackStep N f y) ⟨0, 0,
      (Function.update (Function.update (Function.update (Function.update u₀ (N-1) (y (N-1) / f.d0 (N-1)))
      (N-2) (y (N-2) / f.d0 (N-2))) (N-3) ((y (N-3) - f.d1 (N-3) * (y (N-1) / f.d0 (N-1))) / f.d0 (N-3)))
      (N-4) ((y (N-4) - f.d1 (N-4) * (y (N-2) / f.d0 (N-2))) / f.d0 (N-4)))⟩ (N-4)).u := by
    unfold solveHelmholtzCore
    rw [← hy]
    dsimp only
    rw [Function.update_of_ne (a := N-1) (a' := N-2) (by omega), Function.update_self,
      Function.update_of_ne (a := N-2) (a' := N-3) (by omega), Function.update_self]
  have fin := loop _ (start _ rfl) (N-4) (by omega)
  rw [Nat.sub_self] at fin
  rw [eq]
  exact ⟨fun i hi => by rw [mulVec_upSum N _ _ _ _ i hi]; exact fin.rows i (Nat.zero_le _) hi, fin.high⟩

/-- Forward substitution. -/
theorem helmForward_spec (N : ℕ) (L b : ℕ → K) (i : ℕ) (hi : i < N) :
    helmForward N L b i + (if 2 ≤ i then L (i-2) * helmForward N L b (i-2) else 0) = b i := by
  unfold helmForward
  have key : ∀ q, ∀ i, i < q + 2 →
      forN (fun k y => Function.update y (k+2) (b (k+2) - L (k+2-2) * y (k+2-2)))
        (Function.update (Function.update (fun _ => (0:K)) 0 (b 0)) 1 (b 1)) q i +
      (if 2 ≤ i then L (i-2) * forN (fun k y => Function.update y (k+2) (b (k+2) - L (k+2-2) * y (k+2-2)))
        (Function.update (Function.update (fun _ => (0:K)) 0 (b 0)) 1 (b 1)) q (i-2) else 0) = b i := by
    intro q
    induction q with
    | zero =>
      intro i hi
      rw [if_neg (by omega), add_zero, forN_zero]
      rcases (by omega : i = 0 ∨ i = 1) with h | h <;> subst h
      · rw [Function.update_of_ne (by omega), Function.update_self]
      · rw [Function.update_self]
    | succ q ih =>
      intro i hi
      rw [forN_succ]
      rcases Nat.lt_or_ge i (q+2) with h | h
      · rw [Function.update_of_ne (by omega), Function.update_of_ne (a := i-2) (by omega)]
        exact ih i h
      · obtain rfl : i = q + 2 := by omega
        rw [if_pos (by omega), Function.update_self, Function.update_of_ne (a := q+2-2) (by omega)]
        ring
  rcases Nat.lt_or_ge i 2 with h | h
  · have := key (N-2) i (by omega)
    exact this
  · exact key (N-2) i (by omega)

end ChebLA

end Shenfun
