import Verif.Model.Banded
import Verif.Lemmas.LU

namespace Shenfun

variable {K : Type*} [Field K]

def TDMA.Inv (data : Dia K) (k : ℕ) (D : Dia K) : Prop :=
      (∀ j, D 0 j = if j < k then data 0 j / D 1 j else data 0 j) ∧
      (∀ j, D 1 j = if 2 ≤ j ∧ j < k + 2 then data 1 j - D 0 (j-2) * data 2 j else data 1 j) ∧
      (∀ j, D 2 j = data 2 j)

theorem TDMA.lu_inv (n : ℕ) (data : Dia K) : TDMA.Inv data (n-2) (TDMA.lu n data) := by
  refine forN_inv _ _ (TDMA.Inv data) (n-2) ?_ ?_ (n-2) le_rfl
  · refine ⟨fun j => by simp, fun j => ?_, fun j => rfl⟩
    rw [if_neg (by omega)]
  · rintro k hk D ⟨h0, h1, h2⟩
    have e : k + 2 - 2 = k := by omega
    simp only [e]
    unfold TDMA.Inv
    have hr0 : ∀ j, ((D.set 0 k (D 0 k / D 1 k)).set 1 (k+2)
      ((D.set 0 k (D 0 k / D 1 k)) 1 (k+2) - (D.set 0 k (D 0 k / D 1 k)) 0 k *
        (D.set 0 k (D 0 k / D 1 k)) 2 (k+2))) 0 j = if j = k then D 0 k / D 1 k else D 0 j := by
      intro j; simp [Dia.set_apply]
    have hr1 : ∀ j, ((D.set 0 k (D 0 k / D 1 k)).set 1 (k+2)
      ((D.set 0 k (D 0 k / D 1 k)) 1 (k+2) - (D.set 0 k (D 0 k / D 1 k)) 0 k *
        (D.set 0 k (D 0 k / D 1 k)) 2 (k+2))) 1 j =
          if j = k+2 then D 1 (k+2) - D 0 k / D 1 k * D 2 (k+2) else D 1 j := by
      intro j; simp [Dia.set_apply]
    have hr2 : ∀ j, ((D.set 0 k (D 0 k / D 1 k)).set 1 (k+2)
      ((D.set 0 k (D 0 k / D 1 k)) 1 (k+2) - (D.set 0 k (D 0 k / D 1 k)) 0 k *
        (D.set 0 k (D 0 k / D 1 k)) 2 (k+2))) 2 j = D 2 j := by
      intro j; simp [Dia.set_apply]
    refine ⟨fun j => ?_, fun j => ?_, fun j => ?_⟩
    · rw [hr0, hr1]
      have := h0 j
      rcases lt_trichotomy j k with h | h | h
      · ifs at this ⊢; exact this
      · subst h
        ifs at this ⊢; rw [this]
      · ifs at this ⊢; exact this
    · rw [hr1, hr0]
      have := h1 j
      by_cases h : j = k+2
      · subst h
        ifs at this ⊢; rw [this, h2]
      · by_cases h' : 2 ≤ j ∧ j < k + 2 <;> ifs at this ⊢ <;> exact this
    · rw [hr2, h2]

/-- What LU computes. -/
theorem TDMA.lu_spec (n : ℕ) (data : Dia K) :
    let D := TDMA.lu n data
    (∀ j, j + 2 < n → D 0 j = data 0 j / D 1 j) ∧
    (∀ j, j < n → D 1 j = data 1 j - (if 2 ≤ j then D 0 (j-2) * data 2 j else 0)) ∧
    (∀ j, D 2 j = data 2 j) := by
  obtain ⟨h0, h1, h2⟩ := TDMA.lu_inv n data
  refine ⟨fun j hj => ?_, fun j hj => ?_, h2⟩
  · have := h0 j; rw [if_pos (by omega)] at this; exact this
  · have := h1 j
    by_cases h : 2 ≤ j
    · rw [if_pos (by omega)] at this; rw [if_pos h]; exact this
    · rw [if_neg (by omega)] at this; rw [if_neg h, sub_zero]; exact this

theorem pyIdx_nonneg (n i : ℕ) (hi : i ≤ n) : pyIdx n ((n:ℤ)-i) = n - i := by
  unfold pyIdx; rw [if_neg (by omega)]; omega

/-- What the two sweeps compute: `L y = b`, `U x = y`. -/
theorem TDMA.innerSolve_spec (n : ℕ) (hn : 2 ≤ n) (D : Dia K) (b : ℕ → K) :
    ∃ y : ℕ → K,
      (∀ i < n, y i = b i - (if 2 ≤ i then D 0 (i-2) * y (i-2) else 0)) ∧
      (∀ i < n, TDMA.innerSolve n D b i =
        (y i - (if i + 2 < n then D 2 (i+2) * TDMA.innerSolve n D b (i+2) else 0)) / D 1 i) ∧
      (∀ i, n ≤ i → TDMA.innerSolve n D b i = b i) := by
  obtain ⟨u1, u2⟩ := forN_sweep_up (K := K) 2 (fun i u => u i - D 0 (i-2) * u (i-2)) b (n-2)
  set y := forN (fun k u => Function.update u (2+k) (u (2+k) - D 0 (2+k-2) * u (2+k-2))) b (n-2) with hy
  have hpy1 : pyIdx n ((n:ℤ)-1) = n-1 := by exact_mod_cast pyIdx_nonneg n 1 (by omega)
  have hpy2 : pyIdx n ((n:ℤ)-2) = n-2 := by exact_mod_cast pyIdx_nonneg n 2 (by omega)
  set w0 := Function.update y (n-1) (y (n-1) / D 1 (n-1)) with hw0
  set w := Function.update w0 (n-2) (w0 (n-2) / D 1 (n-2)) with hw
  have hx : TDMA.innerSolve n D b = forN (fun k u => Function.update u (n-2-1-k)
      ((u (n-2-1-k) - D 2 (n-2-1-k+2) * u (n-2-1-k+2)) / D 1 (n-2-1-k))) w (n-2) := by
    unfold TDMA.innerSolve
    simp only [hpy1, hpy2, ← hy, ← hw0, ← hw]
  obtain ⟨d1, d2⟩ := forN_sweep_down (K := K) (n-2) (fun i u => (u i - D 2 (i+2) * u (i+2)) / D 1 i) w (n-2) le_rfl
  rw [← hx] at d1 d2
  refine ⟨y, fun i hi => ?_, fun i hi => ?_, fun i hi => ?_⟩
  · by_cases h : 2 ≤ i
    · rw [if_pos h]
      obtain ⟨s', a1, a2, a3⟩ := u2 i h (by omega)
      rw [a3, a2 i le_rfl, a1 (i-2) (by omega)]
    · rw [if_neg h, sub_zero]; exact u1 i (by omega)
  · by_cases h : i + 2 < n
    · rw [if_pos h]
      obtain ⟨s', a1, a2, a3⟩ := d2 i (by omega) (by omega)
      rw [a3, a2 i le_rfl, a1 (i+2) (by omega), hw, Function.update_of_ne (by omega), hw0,
        Function.update_of_ne (by omega)]
    · rw [if_neg h, sub_zero, d1 i (by omega)]
      by_cases h' : i = n-2
      · subst h'
        rw [hw, Function.update_self, hw0, Function.update_of_ne (by omega)]
      · have : i = n-1 := by omega
        subst this
        rw [hw, Function.update_of_ne (by omega), hw0, Function.update_self]
  · rw [d1 i (by omega), hw, Function.update_of_ne (by omega), hw0,
        Function.update_of_ne (by omega)]
    exact u1 i (by omega)

theorem TDMA.entry_eq (data : Dia K) (i j : ℕ) :
    Spec.diaEntry [-2, 0, 2] data i j =
      (if j + 2 = i then data 0 j else 0) + (if j = i then data 1 j else 0) +
      (if j = i + 2 then data 2 j else 0) := by
  unfold Spec.diaEntry
  simp only [List.length_cons, List.length_nil, List.range_succ, List.range_zero, List.map_append,
    List.map_cons, List.map_nil, List.sum_append, List.sum_cons, List.sum_nil, zero_add, Nat.reduceAdd,
    List.getD_cons_zero, List.getD_cons_succ, List.nil_append, add_zero]
  congr 1
  · congr 1
    · exact if_congr (by omega) rfl rfl
    · exact if_congr (by omega) rfl rfl
  · exact if_congr (by omega) rfl rfl

/-- The two factors held in the storage after `LU`. -/
abbrev TDMA.L (D : Dia K) := bandL 2 4 (D 0) (fun _ => 0)
abbrev TDMA.U (D : Dia K) := bandU 2 4 6 8 (D 1) (D 2) (fun _ => 0) (fun _ => 0) (fun _ => 0)

theorem TDMA.luRel (n : ℕ) (data : Dia K) :
    LURel n (Spec.diaEntry [-2, 0, 2] data) (TDMA.L (TDMA.lu n data)) (TDMA.U (TDMA.lu n data)) := by
  intro i hi j hj hp
  obtain ⟨h0, h1, h2⟩ := TDMA.lu_spec n data
  set D := TDMA.lu n data
  simp only [TDMA.U, bandU_diag _ _ _ _ _ _ _ _ _ (show 0 < 2 by omega) (show 0 < 4 by omega)
    (show 0 < 6 by omega) (show 0 < 8 by omega)] at hp
  rw [sum_bandL n 2 4 _ _ i hi (fun m => TDMA.U D m j), TDMA.entry_eq]
  unfold TDMA.U bandU
  simp only [ite_self, add_zero, zero_mul]
  rcases (by omega : j + 2 = i ∨ j = i ∨ j = i + 2 ∨ (j + 2 ≠ i ∧ j ≠ i ∧ j ≠ i + 2)) with h | h | h | h
  · subst h
    ifs
    have := hp j (by omega)
    simp only [Nat.add_sub_cancel]
    rw [h0 j (by omega)]
    field_simp
    simp
  · subst h
    have := h1 j hi
    by_cases h' : 2 ≤ j
    · ifs at *
      rw [this, h2]; ring
    · ifs at *
      rw [this]; ring
  · subst h
    by_cases h' : 2 ≤ i
    · ifs; rw [h2]; ring
    · ifs; rw [h2]; ring
  · by_cases h' : 2 ≤ i
    · ifs; try ring
    · ifs; try ring

theorem TDMA.solve_factors (n : ℕ) (hn : 2 ≤ n) (D : Dia K) (hp : ∀ i < n, D 1 i ≠ 0) (b : ℕ → K) :
    ∃ y, (∀ i < n, Spec.mulVec n (TDMA.L D) y i = b i) ∧
      ∀ i < n, Spec.mulVec n (TDMA.U D) (TDMA.innerSolve n D b) i = y i := by
  obtain ⟨y, hy, hx, _⟩ := TDMA.innerSolve_spec n hn D b
  refine ⟨y, fun i hi => ?_, fun i hi => ?_⟩
  · unfold Spec.mulVec TDMA.L
    rw [sum_bandL n 2 4 _ _ i hi, hy i hi]
    simp
  · unfold Spec.mulVec TDMA.U
    rw [sum_bandU n _ _ _ _ _ _ _ _ _ i hi, hx i hi]
    have := hp i hi
    simp only [zero_mul, ite_self, add_zero]
    field_simp
    simp

end Shenfun
