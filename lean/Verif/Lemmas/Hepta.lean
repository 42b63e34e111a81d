import Verif.Lemmas.PDMA

set_option linter.unusedTactic false
set_option linter.unusedSimpArgs false
set_option linter.unnecessarySeqFocus false
set_option linter.unreachableTactic false

namespace Shenfun

variable {K : Type*} [Field K]

omit [Field K] in
theorem ite_set_apply (p : Prop) [Decidable p] (D : Dia K) (r c r' c' : ℕ) (v : K) :
    (if p then D.set r c v else D) r' c' = if p ∧ r' = r ∧ c' = c then v else D r' c' := by
  by_cases h : p <;> simp [h, Dia.set_apply]

theorem HeptaDMA.step0 (n i : ℕ) (D : Dia K) (j : ℕ) : HeptaDMA.luStep n i D 0 j =
    if j = i then D 0 i / D 2 i else D 0 j := by
  simp [HeptaDMA.luStep, Dia.set_apply, ite_set_apply]

theorem HeptaDMA.step1 (n i : ℕ) (D : Dia K) (j : ℕ) : HeptaDMA.luStep n i D 1 j =
    if j = i + 2 then D 1 (i+2) - D 0 i / D 2 i * D 3 (i+2) else if j = i then D 1 i / D 2 i else D 1 j := by
  simp [HeptaDMA.luStep, Dia.set_apply, ite_set_apply]

theorem HeptaDMA.step2 (n i : ℕ) (D : Dia K) (j : ℕ) : HeptaDMA.luStep n i D 2 j =
    if j = i + 4 then D 2 (i+4) - D 0 i / D 2 i * D 4 (i+4) else if j = i + 2 then D 2 (i+2) - D 1 i / D 2 i * D 3 (i+2) else D 2 j := by
  simp [HeptaDMA.luStep, Dia.set_apply, ite_set_apply]

theorem HeptaDMA.step3 (n i : ℕ) (D : Dia K) (j : ℕ) : HeptaDMA.luStep n i D 3 j =
    if i + 6 < n ∧ j = i + 6 then D 3 (i+6) - D 0 i / D 2 i * D 5 (i+6) else if j = i + 4 then D 3 (i+4) - D 1 i / D 2 i * D 4 (i+4) else D 3 j := by
  simp [HeptaDMA.luStep, Dia.set_apply, ite_set_apply]

theorem HeptaDMA.step4 (n i : ℕ) (D : Dia K) (j : ℕ) : HeptaDMA.luStep n i D 4 j =
    if i + 8 < n ∧ j = i + 8 then D 4 (i+8) - D 0 i / D 2 i * D 6 (i+8) else if i + 6 < n ∧ j = i + 6 then D 4 (i+6) - D 1 i / D 2 i * D 5 (i+6) else D 4 j := by
  simp [HeptaDMA.luStep, Dia.set_apply, ite_set_apply]

theorem HeptaDMA.step5 (n i : ℕ) (D : Dia K) (j : ℕ) : HeptaDMA.luStep n i D 5 j =
    if i + 8 < n ∧ j = i + 8 then D 5 (i+8) - D 1 i / D 2 i * D 6 (i+8) else D 5 j := by
  simp [HeptaDMA.luStep, Dia.set_apply, ite_set_apply]

theorem HeptaDMA.step6 (n i : ℕ) (D : Dia K) (j : ℕ) : HeptaDMA.luStep n i D 6 j =
    D 6 j := by
  simp [HeptaDMA.luStep, Dia.set_apply, ite_set_apply]

structure HeptaDMA.Inv (n : ℕ) (data : Dia K) (k : ℕ) (D : Dia K) : Prop where
  r0 : ∀ j, D 0 j = if j < k then data 0 j / D 2 j else data 0 j
  r1 : ∀ j, D 1 j = if j < k then (data 1 j - (if 2 ≤ j then D 0 (j-2) * D 3 j else 0)) / D 2 j
        else if 2 ≤ j ∧ j < k + 2 then data 1 j - D 0 (j-2) * D 3 j else data 1 j
  r2 : ∀ j, D 2 j = data 2 j - (if 2 ≤ j ∧ j < k + 2 then D 1 (j-2) * D 3 j else 0)
        - (if 4 ≤ j ∧ j < k + 4 then D 0 (j-4) * D 4 j else 0)
  r3 : ∀ j, D 3 j = data 3 j - (if 4 ≤ j ∧ j < k + 4 then D 1 (j-4) * D 4 j else 0)
        - (if 6 ≤ j ∧ j < k + 6 ∧ j < n then D 0 (j-6) * D 5 j else 0)
  r4 : ∀ j, D 4 j = data 4 j - (if 6 ≤ j ∧ j < k + 6 ∧ j < n then D 1 (j-6) * D 5 j else 0)
        - (if 8 ≤ j ∧ j < k + 8 ∧ j < n then D 0 (j-8) * D 6 j else 0)
  r5 : ∀ j, D 5 j = data 5 j - (if 8 ≤ j ∧ j < k + 8 ∧ j < n then D 1 (j-8) * D 6 j else 0)
  r6 : ∀ j, D 6 j = data 6 j

theorem HeptaDMA.inv_zero (n : ℕ) (data : Dia K) : HeptaDMA.Inv n data 0 data := by
  constructor <;> intro j
  · ifs
  · rw [if_neg (by omega), if_neg (by omega)]
  · rw [if_neg (by omega), if_neg (by omega)]; ring
  · rw [if_neg (by omega), if_neg (by omega)]; ring
  · rw [if_neg (by omega), if_neg (by omega)]; ring
  · rw [if_neg (by omega)]; ring
  · rfl

theorem HeptaDMA.inv_step (n : ℕ) (data : Dia K) (k : ℕ) (hk : k + 4 < n) (D : Dia K)
    (h : HeptaDMA.Inv n data k D) : HeptaDMA.Inv n data (k+1) (HeptaDMA.luStep n k D) := by
  constructor <;> intro j
  · have := h.r0 j
    rw [HeptaDMA.step0, HeptaDMA.step2]
    rcases lt_trichotomy j k with e | e | e
    · ifs at this ⊢; exact this
    · subst e; ifs at this ⊢; rw [this]
    · ifs at this ⊢; exact this
  · have := h.r1 j
    rw [HeptaDMA.step1, HeptaDMA.step0, HeptaDMA.step2, HeptaDMA.step3]
    rcases (by omega : j < k ∨ j = k ∨ j = k + 1 ∨ j = k + 2 ∨ k + 2 < j) with e | e | e | e | e
    · by_cases e2 : 2 ≤ j <;> ifs at this ⊢ <;> exact this
    · subst e
      by_cases e2 : 2 ≤ j <;> ifs at this ⊢ <;> rw [this] <;> try rw [sub_zero]
    · subst e
      by_cases e2 : 2 ≤ k + 1 <;> ifs at this ⊢ <;> exact this
    · subst e
      have e3 : k + 2 - 2 = k := by omega
      ifs at this ⊢
      rw [this]
    · ifs at this ⊢; exact this
  · have := h.r2 j
    rw [HeptaDMA.step2, HeptaDMA.step1, HeptaDMA.step3, HeptaDMA.step0, HeptaDMA.step4]
    rcases (by omega : j = k + 2 ∨ j = k + 4 ∨ (j ≠ k + 2 ∧ j ≠ k + 4)) with e | e | e
    · subst e
      have e3 : k + 2 - 2 = k := by omega
      by_cases c0 : 4 ≤ k + 2 <;> first | (exfalso; omega) | (ifs at this ⊢; rw [this]; (try simp only [e3]); (try ifs); (try ring))
    · subst e
      have e3 : k + 4 - 4 = k := by omega
      by_cases c0 : 2 ≤ k + 4 <;> first | (exfalso; omega) | (ifs at this ⊢; rw [this]; (try simp only [e3]); (try ifs); (try ring))
    · by_cases c0 : 2 ≤ j ∧ j < k + 2 <;> by_cases c1 : 4 ≤ j ∧ j < k + 4 <;> ifs at this ⊢ <;> exact this
  · have := h.r3 j
    rw [HeptaDMA.step3, HeptaDMA.step1, HeptaDMA.step4, HeptaDMA.step0, HeptaDMA.step5]
    rcases (by omega : j = k + 4 ∨ j = k + 6 ∨ (j ≠ k + 4 ∧ j ≠ k + 6)) with e | e | e
    · subst e
      have e3 : k + 4 - 4 = k := by omega
      by_cases c0 : 6 ≤ k + 4 <;> first | (exfalso; omega) | (ifs at this ⊢; rw [this]; (try simp only [e3]); (try ifs); (try ring))
    · subst e
      have e3 : k + 6 - 6 = k := by omega
      by_cases c0 : 4 ≤ k + 6 <;> by_cases c1 : k + 6 < n <;> first | (exfalso; omega) | (ifs at this ⊢; rw [this]; (try simp only [e3]); (try ifs); (try ring))
    · by_cases c0 : 4 ≤ j ∧ j < k + 4 <;> by_cases c1 : 6 ≤ j ∧ j < k + 6 ∧ j < n <;> ifs at this ⊢ <;> exact this
  · have := h.r4 j
    rw [HeptaDMA.step4, HeptaDMA.step1, HeptaDMA.step5, HeptaDMA.step0, HeptaDMA.step6]
    rcases (by omega : j = k + 6 ∨ j = k + 8 ∨ (j ≠ k + 6 ∧ j ≠ k + 8)) with e | e | e
    · subst e
      have e3 : k + 6 - 6 = k := by omega
      by_cases c0 : 8 ≤ k + 6 <;> by_cases c1 : k + 6 < n <;> first | (exfalso; omega) | (ifs at this ⊢; rw [this]; (try simp only [e3]); (try ifs); (try ring))
    · subst e
      have e3 : k + 8 - 8 = k := by omega
      by_cases c0 : 6 ≤ k + 8 <;> by_cases c1 : k + 8 < n <;> first | (exfalso; omega) | (ifs at this ⊢; rw [this]; (try simp only [e3]); (try ifs); (try ring))
    · by_cases c0 : 6 ≤ j ∧ j < k + 6 ∧ j < n <;> by_cases c1 : 8 ≤ j ∧ j < k + 8 ∧ j < n <;> ifs at this ⊢ <;> exact this
  · have := h.r5 j
    rw [HeptaDMA.step5, HeptaDMA.step1, HeptaDMA.step6]
    rcases (by omega : j = k + 8 ∨ (j ≠ k + 8)) with e | e
    · subst e
      have e3 : k + 8 - 8 = k := by omega
      by_cases c0 : k + 8 < n <;> first | (exfalso; omega) | (ifs at this ⊢; rw [this]; (try simp only [e3]); (try ifs); (try ring))
    · by_cases c0 : 8 ≤ j ∧ j < k + 8 ∧ j < n <;> ifs at this ⊢ <;> exact this
  · rw [HeptaDMA.step6]; exact h.r6 j
structure HeptaDMA.LUSpec (n : ℕ) (data F : Dia K) : Prop where
  s0 : ∀ j, j + 4 < n → F 0 j = data 0 j / F 2 j
  s1 : ∀ j, j + 2 < n → F 1 j = (data 1 j - (if 2 ≤ j then F 0 (j-2) * F 3 j else 0)) / F 2 j
  s2 : ∀ j, j < n → F 2 j = data 2 j - (if 2 ≤ j then F 1 (j-2) * F 3 j else 0) - (if 4 ≤ j then F 0 (j-4) * F 4 j else 0)
  s3 : ∀ j, j < n → F 3 j = data 3 j - (if 4 ≤ j then F 1 (j-4) * F 4 j else 0) - (if 6 ≤ j then F 0 (j-6) * F 5 j else 0)
  s4 : ∀ j, j < n → F 4 j = data 4 j - (if 6 ≤ j then F 1 (j-6) * F 5 j else 0) - (if 8 ≤ j then F 0 (j-8) * F 6 j else 0)
  s5 : ∀ j, j < n → F 5 j = data 5 j - (if 8 ≤ j then F 1 (j-8) * F 6 j else 0)
  s6 : ∀ j, F 6 j = data 6 j

theorem HeptaDMA.lu_spec (n : ℕ) (hn : 4 ≤ n) (data : Dia K) : HeptaDMA.LUSpec n data (HeptaDMA.lu n data) := by
  have hI : HeptaDMA.Inv n data (n-4) (forN (HeptaDMA.luStep n) data (n-4)) :=
    forN_inv _ _ (HeptaDMA.Inv n data) (n-4) (HeptaDMA.inv_zero n data)
      (fun k hk D h => HeptaDMA.inv_step n data k (by omega) D h) (n-4) le_rfl
  have hF : HeptaDMA.lu n data = PDMA.luTail (n-3) (PDMA.luTail (n-4) (forN (HeptaDMA.luStep n) data (n-4))) := rfl
  set D := forN (HeptaDMA.luStep n) data (n-4)
  obtain ⟨m, rfl⟩ : ∃ m, n = m + 4 := ⟨n-4, by omega⟩
  have e3 : m + 4 - 3 = m + 1 := by omega
  have e4 : m + 4 - 4 = m := by omega
  rw [e3, e4] at hF
  rw [e4] at hI
  have f1 : ∀ j, HeptaDMA.lu (m+4) data 1 j = if j = m + 1 then D 1 (m+1) / D 2 (m+1) else
      if j = m then D 1 m / D 2 m else D 1 j := by
    intro j; rw [hF, PDMA.tail1, PDMA.tail1, PDMA.tail1, PDMA.tail2]; ifs
  have f2 : ∀ j, HeptaDMA.lu (m+4) data 2 j = if j = m + 3 then D 2 (m+3) - D 1 (m+1) / D 2 (m+1) * D 3 (m+3) else
      if j = m + 2 then D 2 (m+2) - D 1 m / D 2 m * D 3 (m+2) else D 2 j := by
    intro j
    rw [hF, PDMA.tail2, PDMA.tail2, PDMA.tail2, PDMA.tail2, PDMA.tail1, PDMA.tail0 _ _ 3 _ (by omega) (by omega)]
    have : m + 1 + 2 = m + 3 := by omega
    simp only [this]
    ifs
  have f0 : ∀ j, HeptaDMA.lu (m+4) data 0 j = D 0 j := by
    intro j; rw [hF, PDMA.tail0 _ _ 0 _ (by omega) (by omega), PDMA.tail0 _ _ 0 _ (by omega) (by omega)]
  have f3 : ∀ j, HeptaDMA.lu (m+4) data 3 j = D 3 j := by
    intro j; rw [hF, PDMA.tail0 _ _ 3 _ (by omega) (by omega), PDMA.tail0 _ _ 3 _ (by omega) (by omega)]
  have f4 : ∀ j, HeptaDMA.lu (m+4) data 4 j = D 4 j := by
    intro j; rw [hF, PDMA.tail0 _ _ 4 _ (by omega) (by omega), PDMA.tail0 _ _ 4 _ (by omega) (by omega)]
  have f5 : ∀ j, HeptaDMA.lu (m+4) data 5 j = D 5 j := by
    intro j; rw [hF, PDMA.tail0 _ _ 5 _ (by omega) (by omega), PDMA.tail0 _ _ 5 _ (by omega) (by omega)]
  have f6 : ∀ j, HeptaDMA.lu (m+4) data 6 j = D 6 j := by
    intro j; rw [hF, PDMA.tail0 _ _ 6 _ (by omega) (by omega), PDMA.tail0 _ _ 6 _ (by omega) (by omega)]
  constructor
  · intro j hj
    have := hI.r0 j
    rw [f0, f2]; ifs at this ⊢; exact this
  · intro j hj
    have := hI.r1 j
    rw [f0, f1, f2, f3]
    rcases (by omega : j < m ∨ j = m ∨ j = m + 1) with e | e | e
    · by_cases e2 : 2 ≤ j <;> ifs at this ⊢ <;> exact this
    · subst e
      by_cases e2 : 2 ≤ j <;> ifs at this ⊢ <;> rw [this] <;> try rw [sub_zero]
    · subst e
      by_cases e2 : 2 ≤ m + 1 <;> ifs at this ⊢ <;> rw [this] <;> try rw [sub_zero]
  · intro j hj
    have := hI.r2 j
    rw [f0, f1, f2, f3, f4]
    rcases (by omega : j < m + 2 ∨ j = m + 2 ∨ j = m + 3) with e | e | e
    · by_cases e2 : 2 ≤ j <;> by_cases e4 : 4 ≤ j <;> first | (exfalso; omega) | (ifs at this ⊢; exact this)
    · subst e
      have e5 : m + 2 - 2 = m := by omega
      by_cases e4 : 4 ≤ m + 2 <;> ifs at this ⊢ <;> rw [this] <;> ring
    · subst e
      have e5 : m + 3 - 2 = m + 1 := by omega
      by_cases e4 : 4 ≤ m + 3 <;> ifs at this ⊢ <;> rw [this] <;> ring
  · intro j hj
    have := hI.r3 j
    rw [f0, f1, f3, f4, f5]
    by_cases e4 : 4 ≤ j <;> by_cases e6 : 6 ≤ j <;> first | (exfalso; omega) | (ifs at this ⊢; exact this)
  · intro j hj
    have := hI.r4 j
    rw [f0, f1, f4, f5, f6]
    by_cases e6 : 6 ≤ j <;> by_cases e8 : 8 ≤ j <;> first | (exfalso; omega) | (ifs at this ⊢; exact this)
  · intro j hj
    have := hI.r5 j
    rw [f1, f5, f6]
    by_cases e8 : 8 ≤ j <;> first | (exfalso; omega) | (ifs at this ⊢; exact this)
  · intro j; rw [f6]; exact hI.r6 j

theorem HeptaDMA.entry_eq (data : Dia K) (i j : ℕ) :
    Spec.diaEntry [-4, -2, 0, 2, 4, 6, 8] data i j =
      (if j + 4 = i then data 0 j else 0) + (if j + 2 = i then data 1 j else 0) + (if j = i then data 2 j else 0) + (if j = i + 2 then data 3 j else 0) + (if j = i + 4 then data 4 j else 0) + (if j = i + 6 then data 5 j else 0) + (if j = i + 8 then data 6 j else 0) := by
  unfold Spec.diaEntry
  simp only [List.length_cons, List.length_nil, List.range_succ, List.range_zero, List.map_append,
    List.map_cons, List.map_nil, List.sum_append, List.sum_cons, List.sum_nil, zero_add, Nat.reduceAdd,
    List.getD_cons_zero, List.getD_cons_succ, List.nil_append, add_zero]
  refine congrArg₂ (· + ·) (congrArg₂ (· + ·) (congrArg₂ (· + ·) (congrArg₂ (· + ·) (congrArg₂ (· + ·) (congrArg₂ (· + ·) (if_congr (by omega) rfl rfl) (if_congr (by omega) rfl rfl)) (if_congr (by omega) rfl rfl)) (if_congr (by omega) rfl rfl)) (if_congr (by omega) rfl rfl)) (if_congr (by omega) rfl rfl)) (if_congr (by omega) rfl rfl)

abbrev HeptaDMA.L (D : Dia K) := bandL 2 4 (D 1) (D 0)
abbrev HeptaDMA.U (D : Dia K) := bandU 2 4 6 8 (D 2) (D 3) (D 4) (D 5) (D 6)

theorem HeptaDMA.luRel (n : ℕ) (hn : 4 ≤ n) (data : Dia K) :
    LURel n (Spec.diaEntry [-4, -2, 0, 2, 4, 6, 8] data) (HeptaDMA.L (HeptaDMA.lu n data)) (HeptaDMA.U (HeptaDMA.lu n data)) := by
  intro i hi j hj hp
  have h := HeptaDMA.lu_spec n hn data
  set D := HeptaDMA.lu n data
  simp only [HeptaDMA.U, bandU_diag _ _ _ _ _ _ _ _ _ (show 0 < 2 by omega) (show 0 < 4 by omega)
    (show 0 < 6 by omega) (show 0 < 8 by omega)] at hp
  rw [sum_bandL n 2 4 _ _ i hi (fun m => HeptaDMA.U D m j), HeptaDMA.entry_eq]
  unfold HeptaDMA.U bandU
  simp only [ite_self, add_zero]
  rcases (by omega : j + 4 = i ∨ j + 2 = i ∨ j = i ∨ j = i + 2 ∨ j = i + 4 ∨ j = i + 6 ∨ j = i + 8 ∨ (¬ (j + 4 = i) ∧ ¬ (j + 2 = i) ∧ ¬ (j = i) ∧ ¬ (j = i + 2) ∧ ¬ (j = i + 4) ∧ ¬ (j = i + 6) ∧ ¬ (j = i + 8))) with e | e | e | e | e | e | e | e
  · subst e
    have e2 : j + 4 - 4 = j := by omega
    have q := hp j (by omega)
    ifs
    rw [e2, h.s0 j (by omega)]
    field_simp
    try simp
  · subst e
    have e2 : j + 2 - 2 = j := by omega
    have e3 : j + 2 - 4 = j - 2 := by omega
    have q := hp j (by omega)
    have := h.s1 j (by omega)
    rw [eq_div_iff q] at this
    rw [e2, e3]
    by_cases c : 2 ≤ j <;> ifs at this ⊢ <;> linear_combination -this
  · subst e
    have := h.s2 j (by omega)
    by_cases c : 2 ≤ j <;> by_cases c' : 4 ≤ j <;> first | (exfalso; omega) | (ifs at this ⊢; linear_combination -this)
  · subst e
    have e4 : i + 2 - 4 = i - 2 := by omega
    have e6 : i + 2 - 6 = i - 4 := by omega
    have := h.s3 (i+2) (by omega)
    rw [e4, e6] at this
    by_cases c4 : 2 ≤ i <;> by_cases c6 : 4 ≤ i <;> first | (exfalso; omega) | (ifs at this ⊢; linear_combination -this)
  · subst e
    have e6 : i + 4 - 6 = i - 2 := by omega
    have e8 : i + 4 - 8 = i - 4 := by omega
    have := h.s4 (i+4) (by omega)
    rw [e6, e8] at this
    by_cases c6 : 2 ≤ i <;> by_cases c8 : 4 ≤ i <;> first | (exfalso; omega) | (ifs at this ⊢; linear_combination -this)
  · subst e
    have e8 : i + 6 - 8 = i - 2 := by omega
    have := h.s5 (i+6) (by omega)
    rw [e8] at this
    by_cases c2 : 2 ≤ i <;> by_cases c4 : 4 ≤ i <;> first | (exfalso; omega) | (ifs at this ⊢; linear_combination -this)
  · subst e
    by_cases c2 : 2 ≤ i <;> by_cases c4 : 4 ≤ i <;> first | (exfalso; omega) | (ifs; rw [h.s6]; ring)
  · by_cases c2 : 2 ≤ i <;> by_cases c4 : 4 ≤ i <;> first | (exfalso; omega) | (ifs; try ring)

end Shenfun
