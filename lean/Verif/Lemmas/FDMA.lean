import Verif.Lemmas.Solve

set_option linter.unusedSimpArgs false

namespace Shenfun

variable {K : Type*} [Field K]

def FDMA.Inv (n : ℕ) (data : Dia K) (k : ℕ) (D : Dia K) : Prop :=
  (∀ j, D 0 j = if j < k then data 0 j / D 1 j else data 0 j) ∧
  (∀ j, D 1 j = if 2 ≤ j ∧ j < k + 2 then data 1 j - D 0 (j-2) * D 2 j else data 1 j) ∧
  (∀ j, D 2 j = if 4 ≤ j ∧ j < k + 4 ∧ j < n then data 2 j - D 0 (j-4) * data 3 j else data 2 j) ∧
  (∀ j, D 3 j = data 3 j)

theorem FDMA.luStep_row (n k : ℕ) (D : Dia K) :
    (∀ j, FDMA.luStep n k D 0 j = if j = k then D 0 k / D 1 k else D 0 j) ∧
    (∀ j, FDMA.luStep n k D 1 j =
        if j = k+2 then D 1 (k+2) - D 0 k / D 1 k * D 2 (k+2) else D 1 j) ∧
    (∀ j, FDMA.luStep n k D 2 j =
        if j = k+4 ∧ k + 4 < n then D 2 (k+4) - D 0 k / D 1 k * D 3 (k+4) else D 2 j) ∧
    (∀ j, FDMA.luStep n k D 3 j = D 3 j) := by
  have e : k + 2 - 2 = k := by omega
  have e2 : k + 2 + 2 = k + 4 := by omega
  unfold FDMA.luStep
  by_cases hh : k + 2 < n - 2
  · have : k + 4 < n := by omega
    simp only [e, e2, if_pos hh]
    refine ⟨fun j => ?_, fun j => ?_, fun j => ?_, fun j => ?_⟩ <;> simp [Dia.set_apply, this]
  · have : ¬ (k + 4 < n) := by omega
    simp only [e, e2, if_neg hh]
    refine ⟨fun j => ?_, fun j => ?_, fun j => ?_, fun j => ?_⟩ <;> simp [Dia.set_apply, this]

theorem FDMA.lu_inv (n : ℕ) (data : Dia K) : FDMA.Inv n data (n-2) (FDMA.lu n data) := by
  refine forN_inv _ _ (FDMA.Inv n data) (n-2) ?_ ?_ (n-2) le_rfl
  · refine ⟨fun j => by simp, fun j => ?_, fun j => ?_, fun j => rfl⟩
    · rw [if_neg (by omega)]
    · rw [if_neg (by omega)]
  · rintro k hk D ⟨h0, h1, h2, h3⟩
    have e : k + 2 - 2 = k := by omega
    obtain ⟨r0, r1, r2, r3⟩ := FDMA.luStep_row n k D
    refine ⟨fun j => ?_, fun j => ?_, fun j => ?_, fun j => ?_⟩
    · rw [r0, r1]
      have := h0 j
      rcases lt_trichotomy j k with h | h | h
      · ifs at this ⊢; exact this
      · subst h
        ifs at this ⊢; rw [this]
      · ifs at this ⊢; exact this
    · rw [r1, r0, r2]
      have := h1 j
      by_cases h : j = k+2
      · subst h
        ifs at this ⊢; rw [this]
      · by_cases h' : 2 ≤ j ∧ j < k + 2 <;> ifs at this ⊢ <;> exact this
    · rw [r2, r0]
      have := h2 j
      by_cases h : j = k+4
      · subst h
        have e4 : k + 4 - 4 = k := by omega
        by_cases h' : k + 4 < n
        · ifs at this ⊢; rw [this, h3]
        · ifs at this ⊢; exact this
      · by_cases h' : 4 ≤ j ∧ j < k + 4 ∧ j < n <;> ifs at this ⊢ <;> exact this
    · rw [r3, h3]

theorem FDMA.lu_spec (n : ℕ) (data : Dia K) :
    let D := FDMA.lu n data
    (∀ j, j + 2 < n → D 0 j = data 0 j / D 1 j) ∧
    (∀ j, j < n → D 1 j = data 1 j - (if 2 ≤ j then D 0 (j-2) * D 2 j else 0)) ∧
    (∀ j, j < n → D 2 j = data 2 j - (if 4 ≤ j then D 0 (j-4) * data 3 j else 0)) ∧
    (∀ j, D 3 j = data 3 j) := by
  obtain ⟨h0, h1, h2, h3⟩ := FDMA.lu_inv n data
  refine ⟨fun j hj => ?_, fun j hj => ?_, fun j hj => ?_, h3⟩
  · have := h0 j; rw [if_pos (by omega)] at this; exact this
  · have := h1 j
    by_cases h : 2 ≤ j
    · rw [if_pos (by omega)] at this; rw [if_pos h]; exact this
    · rw [if_neg (by omega)] at this; rw [if_neg h, sub_zero]; exact this
  · have := h2 j
    by_cases h : 4 ≤ j
    · rw [if_pos (by omega)] at this; rw [if_pos h]; exact this
    · rw [if_neg (by omega)] at this; rw [if_neg h, sub_zero]; exact this

theorem FDMA.entry_eq (data : Dia K) (i j : ℕ) :
    Spec.diaEntry [-2, 0, 2, 4] data i j =
      (if j + 2 = i then data 0 j else 0) + (if j = i then data 1 j else 0) +
      (if j = i + 2 then data 2 j else 0) + (if j = i + 4 then data 3 j else 0) := by
  unfold Spec.diaEntry
  simp only [List.length_cons, List.length_nil, List.range_succ, List.range_zero, List.map_append,
    List.map_cons, List.map_nil, List.sum_append, List.sum_cons, List.sum_nil, zero_add, Nat.reduceAdd,
    List.getD_cons_zero, List.getD_cons_succ, List.nil_append, add_zero]
  congr 1
  · congr 1
    · congr 1
      · exact if_congr (by omega) rfl rfl
      · exact if_congr (by omega) rfl rfl
    · exact if_congr (by omega) rfl rfl
  · exact if_congr (by omega) rfl rfl

abbrev FDMA.L (D : Dia K) := bandL 2 4 (D 0) (fun _ => 0)
abbrev FDMA.U (D : Dia K) := bandU 2 4 6 8 (D 1) (D 2) (D 3) (fun _ => 0) (fun _ => 0)

theorem FDMA.luRel (n : ℕ) (data : Dia K) :
    LURel n (Spec.diaEntry [-2, 0, 2, 4] data) (FDMA.L (FDMA.lu n data)) (FDMA.U (FDMA.lu n data)) := by
  intro i hi j hj hp
  obtain ⟨h0, h1, h2, h3⟩ := FDMA.lu_spec n data
  set D := FDMA.lu n data
  simp only [FDMA.U, bandU_diag _ _ _ _ _ _ _ _ _ (show 0 < 2 by omega) (show 0 < 4 by omega)
    (show 0 < 6 by omega) (show 0 < 8 by omega)] at hp
  rw [sum_bandL n 2 4 _ _ i hi (fun m => FDMA.U D m j), FDMA.entry_eq]
  unfold FDMA.U bandU
  simp only [ite_self, add_zero, zero_mul]
  rcases (by omega : j + 2 = i ∨ j = i ∨ j = i + 2 ∨ j = i + 4 ∨
    (j + 2 ≠ i ∧ j ≠ i ∧ j ≠ i + 2 ∧ j ≠ i + 4)) with h | h | h | h | h
  · subst h
    ifs
    have := hp j (by omega)
    simp only [Nat.add_sub_cancel]
    rw [h0 j (by omega)]
    field_simp
    simp
  · subst h
    have := h1 j hi
    by_cases h' : 2 ≤ j
    · ifs at *
      rw [this]; ring
    · ifs at *
      rw [this]; ring
  · subst h
    have h2' := h2 (i+2) hj
    by_cases h' : 2 ≤ i
    · have e : i + 2 - 4 = i - 2 := by omega
      ifs at *; rw [h2', e, h3]; ring
    · ifs at *; rw [h2']; ring
  · subst h
    by_cases h' : 2 ≤ i
    · ifs; rw [h3]; ring
    · ifs; rw [h3]; ring
  · by_cases h' : 2 ≤ i
    · ifs; try ring
    · ifs; try ring

/-! ### TwoDMA, ThreeDMA, DiagMA entries -/

theorem ThreeDMA.entry_eq (data : Dia K) (i j : ℕ) :
    Spec.diaEntry [0, 2, 4] data i j = bandU 2 4 6 8 (data 0) (data 1) (data 2) (fun _ => 0) (fun _ => 0) i j := by
  unfold Spec.diaEntry bandU
  simp only [List.length_cons, List.length_nil, List.range_succ, List.range_zero, List.map_append,
    List.map_cons, List.map_nil, List.sum_append, List.sum_cons, List.sum_nil, zero_add, Nat.reduceAdd,
    List.getD_cons_zero, List.getD_cons_succ, List.nil_append, add_zero, ite_self]
  congr 1
  · congr 1
    · exact if_congr (by omega) rfl rfl
    · exact if_congr (by omega) rfl rfl
  · exact if_congr (by omega) rfl rfl

theorem TwoDMA.entry_eq (data : Dia K) (i j : ℕ) :
    Spec.diaEntry [0, 2] data i j = bandU 2 4 6 8 (data 0) (data 1) (fun _ => 0) (fun _ => 0) (fun _ => 0) i j := by
  unfold Spec.diaEntry bandU
  simp only [List.length_cons, List.length_nil, List.range_succ, List.range_zero, List.map_append,
    List.map_cons, List.map_nil, List.sum_append, List.sum_cons, List.sum_nil, zero_add, Nat.reduceAdd,
    List.getD_cons_zero, List.getD_cons_succ, List.nil_append, add_zero, ite_self]
  congr 1
  · exact if_congr (by omega) rfl rfl
  · exact if_congr (by omega) rfl rfl

theorem DiagMA.entry_eq (data : Dia K) (i j : ℕ) :
    Spec.diaEntry [0] data i j = bandU 2 4 6 8 (data 0) (fun _ => 0) (fun _ => 0) (fun _ => 0) (fun _ => 0) i j := by
  unfold Spec.diaEntry bandU
  simp only [List.length_cons, List.length_nil, List.range_succ, List.range_zero, List.map_append,
    List.map_cons, List.map_nil, List.sum_append, List.sum_cons, List.sum_nil, zero_add, Nat.reduceAdd,
    List.getD_cons_zero, List.getD_cons_succ, List.nil_append, add_zero, ite_self]
  exact if_congr (by omega) rfl rfl

/-- A unit matrix in band form; lets the triangular cases reuse the LU facts. -/
abbrev idL : ℕ → ℕ → K := bandL 2 4 (fun _ => 0) (fun _ => 0)

theorem luRel_upper (n : ℕ) (A : ℕ → ℕ → K) : LURel n A idL A := by
  intro i hi j hj _
  rw [sum_bandL n 2 4 _ _ i hi (fun m => A m j)]
  simp

/-! ### TDMA_O -/

def TDMAO.Inv (data : Dia K) (k : ℕ) (D : Dia K) : Prop :=
      (∀ j, D 0 j = if j < k then data 0 j / D 1 j else data 0 j) ∧
      (∀ j, D 1 j = if 1 ≤ j ∧ j < k + 1 then data 1 j - D 0 (j-1) * data 2 j else data 1 j) ∧
      (∀ j, D 2 j = data 2 j)

theorem TDMAO.lu_inv (n : ℕ) (data : Dia K) : TDMAO.Inv data (n-1) (TDMAO.lu n data) := by
  refine forN_inv _ _ (TDMAO.Inv data) (n-1) ?_ ?_ (n-1) le_rfl
  · refine ⟨fun j => by simp, fun j => ?_, fun j => rfl⟩
    rw [if_neg (by omega)]
  · rintro k hk D ⟨h0, h1, h2⟩
    have e : k + 1 - 1 = k := by omega
    simp only [e]
    unfold TDMAO.Inv
    have hr0 : ∀ j, ((D.set 0 k (D 0 k / D 1 k)).set 1 (k+1)
      ((D.set 0 k (D 0 k / D 1 k)) 1 (k+1) - (D.set 0 k (D 0 k / D 1 k)) 0 k *
        (D.set 0 k (D 0 k / D 1 k)) 2 (k+1))) 0 j = if j = k then D 0 k / D 1 k else D 0 j := by
      intro j; simp [Dia.set_apply]
    have hr1 : ∀ j, ((D.set 0 k (D 0 k / D 1 k)).set 1 (k+1)
      ((D.set 0 k (D 0 k / D 1 k)) 1 (k+1) - (D.set 0 k (D 0 k / D 1 k)) 0 k *
        (D.set 0 k (D 0 k / D 1 k)) 2 (k+1))) 1 j =
          if j = k+1 then D 1 (k+1) - D 0 k / D 1 k * D 2 (k+1) else D 1 j := by
      intro j; simp [Dia.set_apply]
    have hr2 : ∀ j, ((D.set 0 k (D 0 k / D 1 k)).set 1 (k+1)
      ((D.set 0 k (D 0 k / D 1 k)) 1 (k+1) - (D.set 0 k (D 0 k / D 1 k)) 0 k *
        (D.set 0 k (D 0 k / D 1 k)) 2 (k+1))) 2 j = D 2 j := by
      intro j; simp [Dia.set_apply]
    refine ⟨fun j => ?_, fun j => ?_, fun j => ?_⟩
    · rw [hr0, hr1]
      have := h0 j
      rcases lt_trichotomy j k with h | h | h
      · ifs at this ⊢; exact this
      · subst h
        ifs at this ⊢; rw [this]
      · ifs at this ⊢; exact this
    · rw [hr1, hr0]
      have := h1 j
      by_cases h : j = k+1
      · subst h
        ifs at this ⊢; rw [this, h2]
      · by_cases h' : 1 ≤ j ∧ j < k + 1 <;> ifs at this ⊢ <;> exact this
    · rw [hr2, h2]

theorem TDMAO.lu_spec (n : ℕ) (data : Dia K) :
    let D := TDMAO.lu n data
    (∀ j, j + 1 < n → D 0 j = data 0 j / D 1 j) ∧
    (∀ j, j < n → D 1 j = data 1 j - (if 1 ≤ j then D 0 (j-1) * data 2 j else 0)) ∧
    (∀ j, D 2 j = data 2 j) := by
  obtain ⟨h0, h1, h2⟩ := TDMAO.lu_inv n data
  refine ⟨fun j hj => ?_, fun j hj => ?_, h2⟩
  · have := h0 j; rw [if_pos (by omega)] at this; exact this
  · have := h1 j
    by_cases h : 1 ≤ j
    · rw [if_pos (by omega)] at this; rw [if_pos h]; exact this
    · rw [if_neg (by omega)] at this; rw [if_neg h, sub_zero]; exact this

theorem TDMAO.innerSolve_spec (n : ℕ) (hn : 1 ≤ n) (D : Dia K) (b : ℕ → K) :
    ∃ y : ℕ → K,
      (∀ i < n, y i = b i - (if 1 ≤ i then D 0 (i-1) * y (i-1) else 0)) ∧
      (∀ i < n, TDMAO.innerSolve n D b i =
        (y i - (if i + 1 < n then D 2 (i+1) * TDMAO.innerSolve n D b (i+1) else 0)) / D 1 i) ∧
      (∀ i, n ≤ i → TDMAO.innerSolve n D b i = b i) := by
  obtain ⟨u1, u2⟩ := forN_sweep_up (K := K) 1 (fun i u => u i - D 0 (i-1) * u (i-1)) b (n-1)
  set y := forN (fun k u => Function.update u (1+k) (u (1+k) - D 0 (1+k-1) * u (1+k-1))) b (n-1) with hy
  have hpy1 : pyIdx n ((n:ℤ)-1) = n-1 := by exact_mod_cast pyIdx_nonneg n 1 (by omega)
  set w := Function.update y (n-1) (y (n-1) / D 1 (n-1)) with hw
  have hx : TDMAO.innerSolve n D b = forN (fun k u => Function.update u (n-1-1-k)
      ((u (n-1-1-k) - D 2 (n-1-1-k+1) * u (n-1-1-k+1)) / D 1 (n-1-1-k))) w (n-1) := by
    unfold TDMAO.innerSolve
    simp only [hpy1, ← hy, ← hw]
  obtain ⟨d1, d2⟩ := forN_sweep_down (K := K) (n-1) (fun i u => (u i - D 2 (i+1) * u (i+1)) / D 1 i) w (n-1) le_rfl
  rw [← hx] at d1 d2
  refine ⟨y, fun i hi => ?_, fun i hi => ?_, fun i hi => ?_⟩
  · by_cases h : 1 ≤ i
    · rw [if_pos h]
      obtain ⟨s', a1, a2, a3⟩ := u2 i h (by omega)
      rw [a3, a2 i le_rfl, a1 (i-1) (by omega)]
    · rw [if_neg h, sub_zero]; exact u1 i (by omega)
  · by_cases h : i + 1 < n
    · rw [if_pos h]
      obtain ⟨s', a1, a2, a3⟩ := d2 i (by omega) (by omega)
      rw [a3, a2 i le_rfl, a1 (i+1) (by omega), hw, Function.update_of_ne (by omega)]
    · rw [if_neg h, sub_zero, d1 i (by omega)]
      have : i = n-1 := by omega
      subst this
      rw [hw, Function.update_self]
  · rw [d1 i (by omega), hw, Function.update_of_ne (by omega)]
    exact u1 i (by omega)

theorem TDMAO.entry_eq (data : Dia K) (i j : ℕ) :
    Spec.diaEntry [-1, 0, 1] data i j =
      (if j + 1 = i then data 0 j else 0) + (if j = i then data 1 j else 0) +
      (if j = i + 1 then data 2 j else 0) := by
  unfold Spec.diaEntry
  simp only [List.length_cons, List.length_nil, List.range_succ, List.range_zero, List.map_append,
    List.map_cons, List.map_nil, List.sum_append, List.sum_cons, List.sum_nil, zero_add, Nat.reduceAdd,
    List.getD_cons_zero, List.getD_cons_succ, List.nil_append, add_zero]
  congr 1
  · congr 1
    · exact if_congr (by omega) rfl rfl
    · exact if_congr (by omega) rfl rfl
  · exact if_congr (by omega) rfl rfl

abbrev TDMAO.L (D : Dia K) := bandL 1 4 (D 0) (fun _ => 0)
abbrev TDMAO.U (D : Dia K) := bandU 1 4 6 8 (D 1) (D 2) (fun _ => 0) (fun _ => 0) (fun _ => 0)

theorem TDMAO.luRel (n : ℕ) (data : Dia K) :
    LURel n (Spec.diaEntry [-1, 0, 1] data) (TDMAO.L (TDMAO.lu n data)) (TDMAO.U (TDMAO.lu n data)) := by
  intro i hi j hj hp
  obtain ⟨h0, h1, h2⟩ := TDMAO.lu_spec n data
  set D := TDMAO.lu n data
  simp only [TDMAO.U, bandU_diag _ _ _ _ _ _ _ _ _ (show 0 < 1 by omega) (show 0 < 4 by omega)
    (show 0 < 6 by omega) (show 0 < 8 by omega)] at hp
  rw [sum_bandL n 1 4 _ _ i hi (fun m => TDMAO.U D m j), TDMAO.entry_eq]
  unfold TDMAO.U bandU
  simp only [ite_self, add_zero, zero_mul]
  rcases (by omega : j + 1 = i ∨ j = i ∨ j = i + 1 ∨ (j + 1 ≠ i ∧ j ≠ i ∧ j ≠ i + 1)) with h | h | h | h
  · subst h
    ifs
    have := hp j (by omega)
    simp only [Nat.add_sub_cancel]
    rw [h0 j (by omega)]
    field_simp
    simp
  · subst h
    have := h1 j hi
    by_cases h' : 1 ≤ j
    · ifs at *
      rw [this, h2]; ring
    · ifs at *
      rw [this]; ring
  · subst h
    by_cases h' : 1 ≤ i
    · ifs; rw [h2]; ring
    · ifs; rw [h2]; ring
  · by_cases h' : 1 ≤ i
    · ifs; try ring
    · ifs; try ring

theorem TDMAO.solve_factors (n : ℕ) (hn : 1 ≤ n) (D : Dia K) (hp : ∀ i < n, D 1 i ≠ 0) (b : ℕ → K) :
    ∃ y, (∀ i < n, Spec.mulVec n (TDMAO.L D) y i = b i) ∧
      ∀ i < n, Spec.mulVec n (TDMAO.U D) (TDMAO.innerSolve n D b) i = y i := by
  obtain ⟨y, hy, hx, _⟩ := TDMAO.innerSolve_spec n hn D b
  refine ⟨y, fun i hi => ?_, fun i hi => ?_⟩
  · unfold Spec.mulVec TDMAO.L
    rw [sum_bandL n 1 4 _ _ i hi, hy i hi]
    simp
  · unfold Spec.mulVec TDMAO.U
    rw [sum_bandU n _ _ _ _ _ _ _ _ _ i hi, hx i hi]
    have := hp i hi
    simp only [zero_mul, ite_self, add_zero]
    field_simp
    simp

end Shenfun
