import Verif.Lemmas.TDMA

set_option linter.unusedTactic false
set_option linter.unusedSimpArgs false
set_option linter.unnecessarySeqFocus false
set_option linter.unreachableTactic false

namespace Shenfun

variable {K : Type*} [Field K]

theorem PDMA.step0 (i : ℕ) (D : Dia K) (j : ℕ) : PDMA.luStep i D 0 j =
    if j = i then D 0 i / D 2 i else D 0 j := by
  simp [PDMA.luStep, Dia.set_apply]

theorem PDMA.step1 (i : ℕ) (D : Dia K) (j : ℕ) : PDMA.luStep i D 1 j =
    if j = i + 2 then D 1 (i+2) - D 0 i / D 2 i * D 3 (i+2) else if j = i then D 1 i / D 2 i else D 1 j := by
  simp [PDMA.luStep, Dia.set_apply]

theorem PDMA.step2 (i : ℕ) (D : Dia K) (j : ℕ) : PDMA.luStep i D 2 j =
    if j = i + 4 then D 2 (i+4) - D 0 i / D 2 i * D 4 (i+4) else if j = i + 2 then D 2 (i+2) - D 1 i / D 2 i * D 3 (i+2) else D 2 j := by
  simp [PDMA.luStep, Dia.set_apply]

theorem PDMA.step3 (i : ℕ) (D : Dia K) (j : ℕ) : PDMA.luStep i D 3 j =
    if j = i + 4 then D 3 (i+4) - D 1 i / D 2 i * D 4 (i+4) else D 3 j := by
  simp [PDMA.luStep, Dia.set_apply]

theorem PDMA.step4 (i : ℕ) (D : Dia K) (j : ℕ) : PDMA.luStep i D 4 j =
    D 4 j := by
  simp [PDMA.luStep, Dia.set_apply]

structure PDMA.Inv (n : ℕ) (data : Dia K) (k : ℕ) (D : Dia K) : Prop where
  r0 : ∀ j, D 0 j = if j < k then data 0 j / D 2 j else data 0 j
  r1 : ∀ j, D 1 j = if j < k then (data 1 j - (if 2 ≤ j then D 0 (j-2) * D 3 j else 0)) / D 2 j
        else if 2 ≤ j ∧ j < k + 2 then data 1 j - D 0 (j-2) * D 3 j else data 1 j
  r2 : ∀ j, D 2 j = data 2 j - (if 2 ≤ j ∧ j < k + 2 then D 1 (j-2) * D 3 j else 0)
        - (if 4 ≤ j ∧ j < k + 4 then D 0 (j-4) * D 4 j else 0)
  r3 : ∀ j, D 3 j = data 3 j - (if 4 ≤ j ∧ j < k + 4 then D 1 (j-4) * D 4 j else 0)
  r4 : ∀ j, D 4 j = data 4 j

theorem PDMA.inv_zero (n : ℕ) (data : Dia K) : PDMA.Inv n data 0 data := by
  constructor <;> intro j
  · ifs
  · rw [if_neg (by omega), if_neg (by omega)]
  · rw [if_neg (by omega), if_neg (by omega)]; ring
  · rw [if_neg (by omega)]; ring
  · rfl

theorem PDMA.inv_step (n : ℕ) (data : Dia K) (k : ℕ) (hk : k + 4 < n) (D : Dia K)
    (h : PDMA.Inv n data k D) : PDMA.Inv n data (k+1) (PDMA.luStep k D) := by
  constructor <;> intro j
  · have := h.r0 j
    rw [PDMA.step0, PDMA.step2]
    rcases lt_trichotomy j k with e | e | e
    · ifs at this ⊢; exact this
    · subst e; ifs at this ⊢; rw [this]
    · ifs at this ⊢; exact this
  · have := h.r1 j
    rw [PDMA.step1, PDMA.step0, PDMA.step2, PDMA.step3]
    rcases (by omega : j < k ∨ j = k ∨ j = k + 1 ∨ j = k + 2 ∨ k + 2 < j) with e | e | e | e | e
    · by_cases e2 : 2 ≤ j <;> ifs at this ⊢ <;> exact this
    · subst e
      by_cases e2 : 2 ≤ j <;> ifs at this ⊢ <;> rw [this] <;> try rw [sub_zero]
    · subst e
      by_cases e2 : 2 ≤ k + 1 <;> ifs at this ⊢ <;> exact this
    · subst e
      have e3 : k + 2 - 2 = k := by omega
      ifs at this ⊢
      rw [this]
    · ifs at this ⊢; exact this
  · have := h.r2 j
    rw [PDMA.step2, PDMA.step1, PDMA.step3, PDMA.step0, PDMA.step4]
    rcases (by omega : j = k + 2 ∨ j = k + 4 ∨ (j ≠ k + 2 ∧ j ≠ k + 4)) with e | e | e
    · subst e
      have e3 : k + 2 - 2 = k := by omega
      by_cases c0 : 4 ≤ k + 2 <;> first | (exfalso; omega) | (ifs at this ⊢; rw [this]; (try simp only [e3]); (try ifs); (try ring))
    · subst e
      have e3 : k + 4 - 4 = k := by omega
      by_cases c0 : 2 ≤ k + 4 <;> first | (exfalso; omega) | (ifs at this ⊢; rw [this]; (try simp only [e3]); (try ifs); (try ring))
    · by_cases c0 : 2 ≤ j ∧ j < k + 2 <;> by_cases c1 : 4 ≤ j ∧ j < k + 4 <;> ifs at this ⊢ <;> exact this
  · have := h.r3 j
    rw [PDMA.step3, PDMA.step1, PDMA.step4]
    rcases (by omega : j = k + 4 ∨ (j ≠ k + 4)) with e | e
    · subst e
      have e3 : k + 4 - 4 = k := by omega
      first | (exfalso; omega) | (ifs at this ⊢; rw [this]; (try simp only [e3]); (try ifs); (try ring))
    · by_cases c0 : 4 ≤ j ∧ j < k + 4 <;> ifs at this ⊢ <;> exact this
  · rw [PDMA.step4]; exact h.r4 j
theorem PDMA.tail0 (i : ℕ) (D : Dia K) (r j : ℕ) (h1 : r ≠ 1) (h2 : r ≠ 2) : PDMA.luTail i D r j = D r j := by
  simp [PDMA.luTail, Dia.set_apply, h1, h2]

theorem PDMA.tail1 (i : ℕ) (D : Dia K) (j : ℕ) : PDMA.luTail i D 1 j = if j = i then D 1 i / D 2 i else D 1 j := by
  simp [PDMA.luTail, Dia.set_apply]

theorem PDMA.tail2 (i : ℕ) (D : Dia K) (j : ℕ) : PDMA.luTail i D 2 j =
    if j = i + 2 then D 2 (i+2) - D 1 i / D 2 i * D 3 (i+2) else D 2 j := by
  simp [PDMA.luTail, Dia.set_apply]

structure PDMA.LUSpec (n : ℕ) (data F : Dia K) : Prop where
  s0 : ∀ j, j + 4 < n → F 0 j = data 0 j / F 2 j
  s1 : ∀ j, j + 2 < n → F 1 j = (data 1 j - (if 2 ≤ j then F 0 (j-2) * F 3 j else 0)) / F 2 j
  s2 : ∀ j, j < n → F 2 j = data 2 j - (if 2 ≤ j then F 1 (j-2) * F 3 j else 0) - (if 4 ≤ j then F 0 (j-4) * F 4 j else 0)
  s3 : ∀ j, j < n → F 3 j = data 3 j - (if 4 ≤ j then F 1 (j-4) * F 4 j else 0)
  s4 : ∀ j, F 4 j = data 4 j

theorem PDMA.lu_spec (n : ℕ) (hn : 4 ≤ n) (data : Dia K) : PDMA.LUSpec n data (PDMA.lu n data) := by
  have hI : PDMA.Inv n data (n-4) (forN PDMA.luStep data (n-4)) :=
    forN_inv _ _ (PDMA.Inv n data) (n-4) (PDMA.inv_zero n data)
      (fun k hk D h => PDMA.inv_step n data k (by omega) D h) (n-4) le_rfl
  have hF : PDMA.lu n data = PDMA.luTail (n-3) (PDMA.luTail (n-4) (forN PDMA.luStep data (n-4))) := rfl
  set D := forN PDMA.luStep data (n-4)
  obtain ⟨m, rfl⟩ : ∃ m, n = m + 4 := ⟨n-4, by omega⟩
  have e3 : m + 4 - 3 = m + 1 := by omega
  have e4 : m + 4 - 4 = m := by omega
  rw [e3, e4] at hF
  rw [e4] at hI
  have f1 : ∀ j, PDMA.lu (m+4) data 1 j = if j = m + 1 then D 1 (m+1) / D 2 (m+1) else
      if j = m then D 1 m / D 2 m else D 1 j := by
    intro j; rw [hF, PDMA.tail1, PDMA.tail1, PDMA.tail1, PDMA.tail2]; ifs
  have f2 : ∀ j, PDMA.lu (m+4) data 2 j = if j = m + 3 then D 2 (m+3) - D 1 (m+1) / D 2 (m+1) * D 3 (m+3) else
      if j = m + 2 then D 2 (m+2) - D 1 m / D 2 m * D 3 (m+2) else D 2 j := by
    intro j
    rw [hF, PDMA.tail2, PDMA.tail2, PDMA.tail2, PDMA.tail2, PDMA.tail1, PDMA.tail0 _ _ 3 _ (by omega) (by omega)]
    have : m + 1 + 2 = m + 3 := by omega
    simp only [this]
    ifs
  have f0 : ∀ j, PDMA.lu (m+4) data 0 j = D 0 j := by
    intro j; rw [hF, PDMA.tail0 _ _ 0 _ (by omega) (by omega), PDMA.tail0 _ _ 0 _ (by omega) (by omega)]
  have f3 : ∀ j, PDMA.lu (m+4) data 3 j = D 3 j := by
    intro j; rw [hF, PDMA.tail0 _ _ 3 _ (by omega) (by omega), PDMA.tail0 _ _ 3 _ (by omega) (by omega)]
  have f4 : ∀ j, PDMA.lu (m+4) data 4 j = D 4 j := by
    intro j; rw [hF, PDMA.tail0 _ _ 4 _ (by omega) (by omega), PDMA.tail0 _ _ 4 _ (by omega) (by omega)]
  constructor
  · intro j hj
    have := hI.r0 j
    rw [f0, f2]; ifs at this ⊢; exact this
  · intro j hj
    have := hI.r1 j
    rw [f0, f1, f2, f3]
    rcases (by omega : j < m ∨ j = m ∨ j = m + 1) with e | e | e
    · by_cases e2 : 2 ≤ j <;> ifs at this ⊢ <;> exact this
    · subst e
      by_cases e2 : 2 ≤ j <;> ifs at this ⊢ <;> rw [this] <;> try rw [sub_zero]
    · subst e
      by_cases e2 : 2 ≤ m + 1 <;> ifs at this ⊢ <;> rw [this] <;> try rw [sub_zero]
  · intro j hj
    have := hI.r2 j
    rw [f0, f1, f2, f3, f4]
    rcases (by omega : j < m + 2 ∨ j = m + 2 ∨ j = m + 3) with e | e | e
    · by_cases e2 : 2 ≤ j <;> by_cases e4 : 4 ≤ j <;> first | (exfalso; omega) | (ifs at this ⊢; exact this)
    · subst e
      have e5 : m + 2 - 2 = m := by omega
      by_cases e4 : 4 ≤ m + 2 <;> ifs at this ⊢ <;> rw [this] <;> ring
    · subst e
      have e5 : m + 3 - 2 = m + 1 := by omega
      by_cases e4 : 4 ≤ m + 3 <;> ifs at this ⊢ <;> rw [this] <;> ring
  · intro j hj
    have := hI.r3 j
    rw [f1, f3, f4]
    by_cases e4 : 4 ≤ j <;> first | (exfalso; omega) | (ifs at this ⊢; exact this)
  · intro j; rw [f4]; exact hI.r4 j

theorem PDMA.entry_eq (data : Dia K) (i j : ℕ) :
    Spec.diaEntry [-4, -2, 0, 2, 4] data i j =
      (if j + 4 = i then data 0 j else 0) + (if j + 2 = i then data 1 j else 0) + (if j = i then data 2 j else 0) + (if j = i + 2 then data 3 j else 0) + (if j = i + 4 then data 4 j else 0) := by
  unfold Spec.diaEntry
  simp only [List.length_cons, List.length_nil, List.range_succ, List.range_zero, List.map_append,
    List.map_cons, List.map_nil, List.sum_append, List.sum_cons, List.sum_nil, zero_add, Nat.reduceAdd,
    List.getD_cons_zero, List.getD_cons_succ, List.nil_append, add_zero]
  refine congrArg₂ (· + ·) (congrArg₂ (· + ·) (congrArg₂ (· + ·) (congrArg₂ (· + ·) (if_congr (by omega) rfl rfl) (if_congr (by omega) rfl rfl)) (if_congr (by omega) rfl rfl)) (if_congr (by omega) rfl rfl)) (if_congr (by omega) rfl rfl)

abbrev PDMA.L (D : Dia K) := bandL 2 4 (D 1) (D 0)
abbrev PDMA.U (D : Dia K) := bandU 2 4 6 8 (D 2) (D 3) (D 4) (fun _ => 0) (fun _ => 0)

theorem PDMA.luRel (n : ℕ) (hn : 4 ≤ n) (data : Dia K) :
    LURel n (Spec.diaEntry [-4, -2, 0, 2, 4] data) (PDMA.L (PDMA.lu n data)) (PDMA.U (PDMA.lu n data)) := by
  intro i hi j hj hp
  have h := PDMA.lu_spec n hn data
  set D := PDMA.lu n data
  simp only [PDMA.U, bandU_diag _ _ _ _ _ _ _ _ _ (show 0 < 2 by omega) (show 0 < 4 by omega)
    (show 0 < 6 by omega) (show 0 < 8 by omega)] at hp
  rw [sum_bandL n 2 4 _ _ i hi (fun m => PDMA.U D m j), PDMA.entry_eq]
  unfold PDMA.U bandU
  simp only [ite_self, add_zero]
  rcases (by omega : j + 4 = i ∨ j + 2 = i ∨ j = i ∨ j = i + 2 ∨ j = i + 4 ∨ (¬ (j + 4 = i) ∧ ¬ (j + 2 = i) ∧ ¬ (j = i) ∧ ¬ (j = i + 2) ∧ ¬ (j = i + 4))) with e | e | e | e | e | e
  · subst e
    have e2 : j + 4 - 4 = j := by omega
    have q := hp j (by omega)
    ifs
    rw [e2, h.s0 j (by omega)]
    field_simp
    try simp
  · subst e
    have e2 : j + 2 - 2 = j := by omega
    have e3 : j + 2 - 4 = j - 2 := by omega
    have q := hp j (by omega)
    have := h.s1 j (by omega)
    rw [eq_div_iff q] at this
    rw [e2, e3]
    by_cases c : 2 ≤ j <;> ifs at this ⊢ <;> linear_combination -this
  · subst e
    have := h.s2 j (by omega)
    by_cases c : 2 ≤ j <;> by_cases c' : 4 ≤ j <;> first | (exfalso; omega) | (ifs at this ⊢; linear_combination -this)
  · subst e
    have e8 : i + 2 - 4 = i - 2 := by omega
    have := h.s3 (i+2) (by omega)
    rw [e8] at this
    by_cases c2 : 2 ≤ i <;> by_cases c4 : 4 ≤ i <;> first | (exfalso; omega) | (ifs at this ⊢; linear_combination -this)
  · subst e
    by_cases c2 : 2 ≤ i <;> by_cases c4 : 4 ≤ i <;> first | (exfalso; omega) | (ifs; rw [h.s4]; ring)
  · by_cases c2 : 2 ≤ i <;> by_cases c4 : 4 ≤ i <;> first | (exfalso; omega) | (ifs; try ring)

end Shenfun
