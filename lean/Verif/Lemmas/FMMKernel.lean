import Verif.Lemmas.FMMDown

/-!
# The far field as a matrix
-/

namespace Shenfun

open Polynomial

variable {E : Type*} [AddCommGroup E] [Module ℝ E]

set_option linter.unusedSectionVars false

namespace FMMLevel

variable (F : FMMLevel)

/-- Entry `(t, t')` of the submatrix `(p, q)` of a block as the low-rank factors give it. -/
noncomputable def blockK (odd l b q p t t' : ℕ) : ℝ :=
  ∑ m ∈ Finset.range (F.Nk l b q p), ∑ n ∈ Finset.range (F.Nk l b q p),
    F.tv odd l t m * F.A l b q p m n * F.tv odd l t' n

/-- Entry `(I, J)` of the part of the matrix handled by level `l`. -/
noncomputable def kern (odd l I J : ℕ) : ℝ :=
  if F.covers l I J then F.blockK odd l (F.rc l I / F.D l) ((F.cc l J - 1) % F.D l) (F.rc l I % F.D l) (I % F.W l)
    ((J - F.off l) % F.W l) else 0

variable {F}

theorem half_eq (h : F.Valid) : ∀ l < F.L, F.half = F.off l + F.W l + F.nBlocks l * F.D l * F.W l := by
  have key : ∀ k, k < F.L → F.half = F.off (F.L - 1 - k) + F.W (F.L - 1 - k) +
      F.nBlocks (F.L - 1 - k) * F.D (F.L - 1 - k) * F.W (F.L - 1 - k) := by
    intro k
    induction k with
    | zero =>
      intro _
      have hn : F.nBlocks F.L = 1 + F.D (F.L - 1) * F.nBlocks (F.L - 1) := by
        rw [← nBlocks_succ]; congr 1; have := h.L_pos; omega
      unfold half
      rw [Nat.sub_zero, off_last, W_last, hn]
      ring
    | succ k ih =>
      intro hk
      have e : F.L - 1 - k = F.L - 1 - (k + 1) + 1 := by omega
      rw [ih (by omega), e]
      have hl : F.L - 1 - (k + 1) + 1 < F.L := by omega
      generalize F.L - 1 - (k + 1) = m at *
      rw [F.off_succ hl, F.W_succ hl, F.nBlocks_succ]
      ring
  intro l hl
  have := key (F.L - 1 - l) (by omega)
  rwa [show F.L - 1 - (F.L - 1 - l) = l by omega] at this

theorem mul_add_div_W {W t : ℕ} (c : ℕ) (ht : t < W) : (c * W + t) / W = c := mul_add_div' c ht

/-- `c' = (c/D)*D+p` with `p ≤ c % D` determines `p`. -/
theorem cell_iff {D c c' p : ℕ} (hp : p ≤ c % D) (hD : 0 < D) :
    c' = c / D * D + p ↔ c / D = c' / D ∧ p = c' % D := by
  have hlt : p < D := lt_of_le_of_lt hp (Nat.mod_lt _ hD)
  constructor
  · rintro rfl
    exact ⟨(mul_add_div' _ hlt).symm, (mul_add_mod'' _ hlt).symm⟩
  · rintro ⟨a, b⟩
    rw [a, b, div_mul_add_mod']

theorem le_iff_mod {D c c' : ℕ} (hD : 0 < D) (hd : c' / D = c / D) : c' ≤ c ↔ c' % D ≤ c % D := by
  have h1 := div_mul_add_mod' c D
  have h2 := div_mul_add_mod' c' D
  rw [hd] at h2
  omega

theorem loc_false (h : F.Valid) (odd : ℕ) (cia : ℕ → E) {l : ℕ} (hl : l < F.L) (c' m : ℕ) :
    F.loc false odd cia l c' m = ∑ c ∈ Finset.range (F.nBlocks l * F.D l),
      if c' / F.D l = c / F.D l ∧ c' ≤ c then mv (F.A l (c' / F.D l) (c % F.D l) (c' % F.D l)) (F.mom false odd cia l c)
        (F.Nk l (c' / F.D l) (c % F.D l) (c' % F.D l)) (F.Nk l (c' / F.D l) (c % F.D l) (c' % F.D l)) m else 0 := by
  have hD := h.D_pos l hl
  unfold loc
  refine Finset.sum_congr rfl fun c _ => ?_
  simp only [Bool.false_eq_true, if_false]
  by_cases hc : c' / F.D l = c / F.D l ∧ c' ≤ c
  · rw [if_pos hc, Finset.sum_eq_single (c' % F.D l)]
    · rw [if_pos, hc.1]
      rw [← hc.1, div_mul_add_mod']
    · intro p hp hne
      rw [if_neg]
      intro he
      exact hne ((cell_iff (by have := Finset.mem_range.1 hp; omega) hD).1 he).2
    · intro hn
      exact absurd (Finset.mem_range.2 (by have := (le_iff_mod hD hc.1).1 hc.2; omega)) hn
  · rw [if_neg hc]
    refine Finset.sum_eq_zero fun p hp => ?_
    rw [if_neg]
    intro he
    have hp := Finset.mem_range.1 hp
    obtain ⟨h1, h2⟩ := (cell_iff (by omega) hD).1 he
    exact hc ⟨h1.symm, (le_iff_mod hD h1.symm).2 (by omega)⟩

theorem loc_true (h : F.Valid) (odd : ℕ) (cia : ℕ → E) {l : ℕ} (hl : l < F.L) (c' m : ℕ) (hc' : c' < F.nBlocks l * F.D l) :
    F.loc true odd cia l c' m = ∑ c ∈ Finset.range (F.nBlocks l * F.D l),
      if c / F.D l = c' / F.D l ∧ c ≤ c' then mvT (F.A l (c / F.D l) (c' % F.D l) (c % F.D l)) (F.mom true odd cia l c)
        (F.Nk l (c / F.D l) (c' % F.D l) (c % F.D l)) (F.Nk l (c / F.D l) (c' % F.D l) (c % F.D l)) m else 0 := by
  have hD := h.D_pos l hl
  unfold loc
  simp only [if_true]
  rw [Finset.sum_eq_single c' (fun c _ hne => Finset.sum_eq_zero fun p _ => if_neg (Ne.symm hne))
    (fun hn => absurd (Finset.mem_range.2 hc') hn)]
  simp only [if_true]
  have hb : c' / F.D l < F.nBlocks l := (Nat.div_lt_iff_lt_mul hD).2 hc'
  have e : ∀ c, (if c / F.D l = c' / F.D l ∧ c ≤ c' then mvT (F.A l (c / F.D l) (c' % F.D l) (c % F.D l)) (F.mom true odd cia l c)
        (F.Nk l (c / F.D l) (c' % F.D l) (c % F.D l)) (F.Nk l (c / F.D l) (c' % F.D l) (c % F.D l)) m else 0) =
      if c / F.D l = c' / F.D l then (if c ≤ c' then mvT (F.A l (c / F.D l) (c' % F.D l) (c % F.D l)) (F.mom true odd cia l c)
        (F.Nk l (c / F.D l) (c' % F.D l) (c % F.D l)) (F.Nk l (c / F.D l) (c' % F.D l) (c % F.D l)) m else 0) else 0 :=
    fun c => by split_ifs <;> tauto
  rw [Finset.sum_congr rfl fun c _ => e c, sum_block _ _ _ _ hb]
  have hsub : Finset.range (c' % F.D l + 1) ⊆ Finset.range (F.D l) := by
    intro p hp
    have := Finset.mem_range.1 hp
    have := Nat.mod_lt c' hD
    exact Finset.mem_range.2 (by omega)
  rw [← Finset.sum_subset hsub]
  · refine Finset.sum_congr rfl fun p hp => ?_
    have hp1 := Finset.mem_range.1 (hsub hp)
    have hp2 := Finset.mem_range.1 hp
    rw [mul_add_div' _ hp1, mul_add_mod'' _ hp1, if_pos]
    have := div_mul_add_mod' c' (F.D l)
    omega
  · intro p hp hp'
    have hp1 := Finset.mem_range.1 hp
    rw [if_neg]
    have := div_mul_add_mod' c' (F.D l)
    have : ¬ p < c' % F.D l + 1 := fun hh => hp' (Finset.mem_range.2 hh)
    omega

theorem sum_trunc (f : ℕ → E) {n M : ℕ} (hnM : n ≤ M) :
    (∑ m ∈ Finset.range M, if m < n then f m else 0) = ∑ m ∈ Finset.range n, f m := by
  rw [← Finset.sum_filter]
  refine Finset.sum_congr ?_ fun _ _ => rfl
  ext m; simp only [Finset.mem_filter, Finset.mem_range]; omega

theorem ev_mv (odd l t c : ℕ) (trans : Bool) (cia : ℕ → E) (A : ℕ → ℕ → ℝ) {n M : ℕ} (hnM : n ≤ M) :
    F.ev odd l t M (mv A (F.mom trans odd cia l c) n n) =
      ∑ t' ∈ Finset.range (F.W l), (∑ m ∈ Finset.range n, ∑ k ∈ Finset.range n,
        F.tv odd l t m * A m k * F.tv odd l t' k) • cia (F.srcS trans l c + t') := by
  unfold ev mv mom
  simp only [smul_ite, smul_zero]
  rw [sum_trunc _ hnM]
  simp only [Finset.smul_sum, Finset.sum_smul, smul_smul]
  rw [Finset.sum_congr rfl fun m _ => Finset.sum_comm, Finset.sum_comm]
  refine Finset.sum_congr rfl fun t' _ => Finset.sum_congr rfl fun m _ => Finset.sum_congr rfl fun k _ => ?_
  rw [mul_assoc]

theorem ev_mvT (odd l t c : ℕ) (trans : Bool) (cia : ℕ → E) (A : ℕ → ℕ → ℝ) {n M : ℕ} (hnM : n ≤ M) :
    F.ev odd l t M (mvT A (F.mom trans odd cia l c) n n) =
      ∑ t' ∈ Finset.range (F.W l), (∑ m ∈ Finset.range n, ∑ k ∈ Finset.range n,
        F.tv odd l t' m * A m k * F.tv odd l t k) • cia (F.srcS trans l c + t') := by
  rw [show mvT A (F.mom trans odd cia l c) n n = mv (fun i j => A j i) (F.mom trans odd cia l c) n n from rfl, ev_mv _ _ _ _ _ _ _ hnM]
  refine Finset.sum_congr rfl fun t' _ => ?_
  rw [Finset.sum_comm]
  congr 1
  refine Finset.sum_congr rfl fun m _ => Finset.sum_congr rfl fun k _ => ?_
  ring

theorem ev_sum {ι : Type*} (S : Finset ι) (odd l t M : ℕ) (g : ι → ℕ → E) :
    F.ev odd l t M (fun m => ∑ c ∈ S, g c m) = ∑ c ∈ S, F.ev odd l t M (g c) := by
  unfold ev
  simp only [Finset.smul_sum]
  rw [Finset.sum_comm]

theorem ev_ite (P : Prop) [Decidable P] (odd l t M : ℕ) (g : ℕ → E) :
    F.ev odd l t M (fun m => if P then g m else 0) = if P then F.ev odd l t M g else 0 := by
  by_cases h : P
  · simp only [if_pos h]
  · simp only [if_neg h]; unfold ev; simp

/-- Contribution of one level as a matrix. -/
theorem own_false (h : F.Valid) (hR : F.RankOK) (odd : ℕ) (cia : ℕ → E) {l : ℕ} (hl : l < F.L) (I : ℕ) :
    F.own false odd (F.loc false odd cia) l I = ∑ J ∈ Finset.range F.half, F.kern odd l I J • cia J := by
  have hD := h.D_pos l hl
  have hW := h.W_pos hl
  rw [half_eq h l hl, Finset.sum_range_add, Finset.sum_eq_zero (s := Finset.range (F.off l + F.W l)), zero_add, sum_mul_range]
  swap
  · intro J hJ
    have hJ := Finset.mem_range.1 hJ
    unfold kern
    rw [if_neg, zero_smul]
    unfold covers
    omega
  unfold own
  simp only [inCell, tl, tc, Bool.false_eq_true, if_false]
  by_cases hc : F.rc l I < F.nBlocks l * F.D l
  · rw [if_pos hc]
    have e : F.loc false odd cia l (F.rc l I) = fun m => _ := funext fun m => loc_false h odd cia hl (F.rc l I) m
    rw [e, ev_sum]
    refine Finset.sum_congr rfl fun c hcm => ?_
    rw [ev_ite]
    have hk : ∀ t < F.W l, F.kern odd l I (F.off l + F.W l + (c * F.W l + t)) =
        if F.rc l I / F.D l = c / F.D l ∧ F.rc l I ≤ c then
          F.blockK odd l (F.rc l I / F.D l) (c % F.D l) (F.rc l I % F.D l) (I % F.W l) t else 0 := by
      intro t ht
      have e1 : F.off l + F.W l + (c * F.W l + t) - F.off l = (c + 1) * F.W l + t := by
        rw [add_mul, one_mul]; omega
      have e2 : F.cc l (F.off l + F.W l + (c * F.W l + t)) = c + 1 := by
        unfold cc; rw [e1, mul_add_div' _ ht]
      unfold kern
      rw [e2, e1, mul_add_mod'' _ ht, Nat.add_sub_cancel]
      refine if_congr ?_ rfl rfl
      rw [covers_iff h hl, e2, Nat.add_sub_cancel]
      constructor
      · rintro ⟨_, a, b⟩; exact ⟨b, by omega⟩
      · rintro ⟨a, b⟩; exact ⟨hc, by omega, a⟩
    rw [Finset.sum_congr rfl fun t ht => by rw [hk t (Finset.mem_range.1 ht)]]
    by_cases hcc : F.rc l I / F.D l = c / F.D l ∧ F.rc l I ≤ c
    · simp only [if_pos hcc]
      rw [ev_mv _ _ _ _ _ _ _ (hR l l le_rfl hl _ _ _)]
      refine Finset.sum_congr rfl fun t _ => ?_
      unfold blockK
      congr 2
      simp only [srcS, colS, Bool.false_eq_true, if_false, add_mul, one_mul]
      ring
    · simp only [if_neg hcc, zero_smul, Finset.sum_const_zero]
  · rw [if_neg hc]
    symm
    refine Finset.sum_eq_zero fun c _ => Finset.sum_eq_zero fun t _ => ?_
    unfold kern
    rw [if_neg, zero_smul]
    rw [covers_iff h hl]
    tauto

theorem own_true (h : F.Valid) (hR : F.RankOK) (odd : ℕ) (cia : ℕ → E) {l : ℕ} (hl : l < F.L) {J : ℕ} (hJ : J < F.half) :
    F.own true odd (F.loc true odd cia) l J = ∑ I ∈ Finset.range F.half, F.kern odd l I J • cia I := by
  have hD := h.D_pos l hl
  have hW := h.W_pos hl
  have hsplit : F.half = F.nBlocks l * F.D l * F.W l + (F.off l + F.W l) := by rw [half_eq h l hl]; ring
  rw [hsplit, Finset.sum_range_add, Finset.sum_eq_zero (s := Finset.range (F.off l + F.W l)), add_zero, sum_mul_range]
  swap
  · intro t _
    unfold kern
    rw [if_neg, zero_smul]
    rw [covers_iff h hl]
    rintro ⟨a, -⟩
    unfold rc at a
    rw [Nat.div_lt_iff_lt_mul hW] at a
    omega
  unfold own
  simp only [inCell, tl, tc, if_true]
  have hle : F.cc l J ≤ F.nBlocks l * F.D l := by rw [mul_comm]; exact cc_le h hJ hl
  by_cases hc : 1 ≤ F.cc l J
  · rw [if_pos ⟨hc, hle⟩]
    have e : F.loc true odd cia l (F.cc l J - 1) = fun m => _ :=
      funext fun m => loc_true h odd cia hl (F.cc l J - 1) m (by omega)
    rw [e, ev_sum]
    refine Finset.sum_congr rfl fun c hcm => ?_
    have hcm := Finset.mem_range.1 hcm
    rw [ev_ite]
    have hk : ∀ t < F.W l, F.kern odd l (c * F.W l + t) J =
        if c / F.D l = (F.cc l J - 1) / F.D l ∧ c ≤ F.cc l J - 1 then
          F.blockK odd l (c / F.D l) ((F.cc l J - 1) % F.D l) (c % F.D l) t ((J - F.off l) % F.W l) else 0 := by
      intro t ht
      have e2 : F.rc l (c * F.W l + t) = c := by
        unfold rc; rw [mul_add_div' _ ht]
      unfold kern
      rw [e2, mul_add_mod'' _ ht]
      refine if_congr ?_ rfl rfl
      rw [covers_iff h hl, e2]
      constructor
      · rintro ⟨_, a, b⟩; exact ⟨b, by omega⟩
      · rintro ⟨a, b⟩; exact ⟨hcm, by omega, a⟩
    rw [Finset.sum_congr rfl fun t ht => by rw [hk t (Finset.mem_range.1 ht)]]
    by_cases hcc : c / F.D l = (F.cc l J - 1) / F.D l ∧ c ≤ F.cc l J - 1
    · simp only [if_pos hcc]
      rw [ev_mvT _ _ _ _ _ _ _ (hR l l le_rfl hl _ _ _)]
      refine Finset.sum_congr rfl fun t _ => ?_
      unfold blockK
      rfl
    · simp only [if_neg hcc, zero_smul, Finset.sum_const_zero]
  · rw [if_neg (by tauto)]
    symm
    refine Finset.sum_eq_zero fun c _ => Finset.sum_eq_zero fun t _ => ?_
    unfold kern
    rw [if_neg, zero_smul]
    rw [covers_iff h hl]
    rintro ⟨_, a, _⟩
    omega

/-- The matrix of the far field. -/
noncomputable def far (F : FMMLevel) (odd I J : ℕ) : ℝ := ∑ l ∈ Finset.range F.L, F.kern odd l I J

theorem chebHalf_false (h : F.Valid) (hT : F.ThExact) (hR : F.RankOK) (odd : ℕ) (cia : ℕ → E) {I : ℕ} (hI : I < F.half) :
    F.chebHalf false odd cia I = ∑ J ∈ Finset.range F.half, F.far odd I J • cia J := by
  rw [chebHalf_eq h hT hR false odd cia hI,
    Finset.sum_congr rfl fun l hl => own_false h hR odd cia (Finset.mem_range.1 hl) I, Finset.sum_comm]
  refine Finset.sum_congr rfl fun J _ => ?_
  rw [far, Finset.sum_smul]

theorem chebHalf_true (h : F.Valid) (hT : F.ThExact) (hR : F.RankOK) (odd : ℕ) (cia : ℕ → E) {J : ℕ} (hJ : J < F.half) :
    F.chebHalf true odd cia J = ∑ I ∈ Finset.range F.half, F.far odd I J • cia I := by
  rw [chebHalf_eq h hT hR true odd cia hJ,
    Finset.sum_congr rfl fun l hl => own_true h hR odd cia (Finset.mem_range.1 hl) hJ, Finset.sum_comm]
  refine Finset.sum_congr rfl fun I _ => ?_
  rw [far, Finset.sum_smul]

/-- The far field entry is that of the one submatrix that contains `(I, J)`, if any. -/
theorem far_of_covers (h : F.Valid) (odd : ℕ) {l I J : ℕ} (hl : l < F.L) (hc : F.covers l I J) :
    F.far odd I J = F.kern odd l I J := by
  unfold far
  refine Finset.sum_eq_single l (fun l' hl' hne => ?_) fun hn => absurd (Finset.mem_range.2 hl) hn
  unfold kern
  rw [if_neg]
  intro hc'
  exact hne (covers_unique h (Finset.mem_range.1 hl') hl hc' hc)

theorem far_of_near (h : F.Valid) (odd : ℕ) {I J : ℕ} (hn : F.cc (F.L - 1) J ≤ F.rc (F.L - 1) I) : F.far odd I J = 0 := by
  unfold far
  refine Finset.sum_eq_zero fun l hl => ?_
  unfold kern
  rw [if_neg]
  intro hc
  have := covers_sep h (Finset.mem_range.1 hl) hc
  omega

end FMMLevel
end Shenfun
