import Verif.Model.Py
import Verif.Spec.Dense
import Mathlib.Algebra.BigOperators.Ring.Finset
import Mathlib.Tactic.Ring
import Mathlib.Tactic.FieldSimp
import Mathlib.Tactic.LinearCombination

namespace Shenfun

open Finset

/-- Evaluate every `if` whose condition `omega` can decide. -/
syntax "ifs" (Lean.Parser.Tactic.location)? : tactic
macro_rules
  | `(tactic| ifs $[$loc]?) => `(tactic| simp (disch := omega) only [if_pos, if_neg, and_true, true_and, ↓reduceIte] $[$loc]?)

@[simp] theorem forN_zero {S : Type*} (f : ℕ → S → S) (s : S) : forN f s 0 = s := rfl
@[simp] theorem forN_succ {S : Type*} (f : ℕ → S → S) (s : S) (k : ℕ) :
    forN f s (k+1) = f k (forN f s k) := rfl

theorem forN_inv {S : Type*} (f : ℕ → S → S) (s : S) (P : ℕ → S → Prop) (n : ℕ)
    (h0 : P 0 s) (hs : ∀ k < n, ∀ t, P k t → P (k+1) (f k t)) : ∀ k ≤ n, P k (forN f s k) := by
  intro k
  induction k with
  | zero => intro _; exact h0
  | succ k ih => intro hk; exact hs k (by omega) _ (ih (by omega))

variable {K : Type*}

@[simp] theorem Dia.set_same (D : Dia K) (r c : ℕ) (v : K) :
    D.set r c v r = Function.update (D r) c v := by simp [Dia.set]

theorem Dia.set_ne (D : Dia K) {r r' : ℕ} (c : ℕ) (v : K) (h : r' ≠ r) :
    D.set r c v r' = D r' := by simp [Dia.set, h]

theorem Dia.set_apply (D : Dia K) (r c r' c' : ℕ) (v : K) :
    D.set r c v r' c' = if r' = r ∧ c' = c then v else D r' c' := by
  by_cases h : r' = r
  · subst h
    simp [Function.update_apply]
  · simp [Dia.set_ne D c v h, h]

/-- Ascending sweep `for i in range(lo, lo+m): u[i] = G i u`. -/
theorem forN_sweep_up (lo : ℕ) (G : ℕ → (ℕ → K) → K) (b : ℕ → K) (m : ℕ) :
    let s := forN (fun k u => Function.update u (lo+k) (G (lo+k) u)) b m
    (∀ j, (j < lo ∨ lo + m ≤ j) → s j = b j) ∧
    ∀ i, lo ≤ i → i < lo + m →
      ∃ s', (∀ j, j < i → s' j = s j) ∧ (∀ j, i ≤ j → s' j = b j) ∧ s i = G i s' := by
  intro s
  induction m with
  | zero =>
    refine ⟨fun j _ => rfl, fun i h1 h2 => by omega⟩
  | succ m ih =>
    obtain ⟨h1, h2⟩ := ih
    have hs : s = Function.update (forN (fun k u => Function.update u (lo+k) (G (lo+k) u)) b m)
        (lo+m) (G (lo+m) (forN (fun k u => Function.update u (lo+k) (G (lo+k) u)) b m)) := rfl
    set t := forN (fun k u => Function.update u (lo+k) (G (lo+k) u)) b m
    refine ⟨fun j hj => ?_, fun i hi1 hi2 => ?_⟩
    · rw [hs, Function.update_of_ne (by omega)]
      exact h1 j (by omega)
    · by_cases hi : i = lo + m
      · subst hi
        refine ⟨t, fun j hj => ?_, fun j hj => h1 j (by omega), ?_⟩
        · rw [hs, Function.update_of_ne (by omega)]
        · rw [hs, Function.update_self]
      · obtain ⟨s', a1, a2, a3⟩ := h2 i hi1 (by omega)
        refine ⟨s', fun j hj => ?_, a2, ?_⟩
        · rw [hs, Function.update_of_ne (by omega)]; exact a1 j hj
        · rw [hs, Function.update_of_ne (by omega)]; exact a3

/-- Descending sweep `for i in range(m-1, -1, -1): u[i] = G i u`. -/
theorem forN_sweep_down (m : ℕ) (G : ℕ → (ℕ → K) → K) (b : ℕ → K) (q : ℕ) (hq : q ≤ m) :
    let s := forN (fun k u => Function.update u (m-1-k) (G (m-1-k) u)) b q
    (∀ j, (m ≤ j ∨ j < m - q) → s j = b j) ∧
    ∀ i, m - q ≤ i → i < m →
      ∃ s', (∀ j, i < j → s' j = s j) ∧ (∀ j, j ≤ i → s' j = b j) ∧ s i = G i s' := by
  intro s
  induction q with
  | zero =>
    refine ⟨fun j _ => rfl, fun i h1 h2 => by omega⟩
  | succ q ih =>
    obtain ⟨h1, h2⟩ := ih (by omega)
    have hs : s = Function.update (forN (fun k u => Function.update u (m-1-k) (G (m-1-k) u)) b q)
        (m-1-q) (G (m-1-q) (forN (fun k u => Function.update u (m-1-k) (G (m-1-k) u)) b q)) := rfl
    set t := forN (fun k u => Function.update u (m-1-k) (G (m-1-k) u)) b q
    refine ⟨fun j hj => ?_, fun i hi1 hi2 => ?_⟩
    · rw [hs, Function.update_of_ne (by omega)]
      exact h1 j (by omega)
    · by_cases hi : i = m-1-q
      · subst hi
        refine ⟨t, fun j hj => ?_, fun j hj => h1 j (by omega), ?_⟩
        · rw [hs, Function.update_of_ne (by omega)]
        · rw [hs, Function.update_self]
      · obtain ⟨s', a1, a2, a3⟩ := h2 i (by omega) hi2
        refine ⟨s', fun j hj => ?_, a2, ?_⟩
        · rw [hs, Function.update_of_ne (by omega)]; exact a1 j hj
        · rw [hs, Function.update_of_ne (by omega)]; exact a3

/-- Row `i` of the dia matrix times `u`, as the sum over its diagonals. -/
theorem mulVec_dia [Field K] (offs : List ℤ) (data : Dia K) (n : ℕ) (u : ℕ → K) (i : ℕ) :
    Spec.mulVec n (Spec.diaEntry offs data) u i =
      ((List.range offs.length).map fun r =>
        if 0 ≤ (i:ℤ) + offs.getD r 0 ∧ (i:ℤ) + offs.getD r 0 < n then
          data r ((i:ℤ) + offs.getD r 0).toNat * u ((i:ℤ) + offs.getD r 0).toNat else 0).sum := by
  unfold Spec.mulVec Spec.diaEntry
  generalize List.range offs.length = L
  induction L with
  | nil => simp
  | cons r L ih =>
    simp only [List.map_cons, List.sum_cons, add_mul, Finset.sum_add_distrib]
    rw [ih]
    congr 1
    set o := offs.getD r 0
    by_cases h : 0 ≤ (i:ℤ) + o ∧ (i:ℤ) + o < n
    · rw [if_pos h, Finset.sum_eq_single ((i:ℤ)+o).toNat]
      · rw [if_pos (by omega)]
      · intro j _ hj
        rw [if_neg (by omega), zero_mul]
      · intro hj
        simp only [Finset.mem_range] at hj
        omega
    · rw [if_neg h]
      apply Finset.sum_eq_zero
      intro j hj
      simp only [Finset.mem_range] at hj
      rw [if_neg (by omega), zero_mul]

theorem mulVec_congr [Field K] {n : ℕ} {A : ℕ → ℕ → K} {u v : ℕ → K} (h : ∀ i < n, u i = v i) (i : ℕ) :
    Spec.mulVec n A u i = Spec.mulVec n A v i := by
  unfold Spec.mulVec
  exact Finset.sum_congr rfl fun j hj => by rw [h j (Finset.mem_range.1 hj)]

end Shenfun
