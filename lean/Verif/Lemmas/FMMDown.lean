import Verif.Lemmas.FMMMoments

/-!
# Downward sweep and evaluation on the finest cells
-/

namespace Shenfun

open Polynomial

variable {E : Type*} [AddCommGroup E] [Module ℝ E]

set_option linter.unusedSectionVars false

namespace FMMLevel

variable (F : FMMLevel)

/-- Does cell `c` of level `l+1` have a parent cell? -/
def hasPar (trans : Bool) (l c : ℕ) : Prop :=
  if trans then F.D (l + 1) ≤ c ∧ c < F.nBlocks (l + 1) * F.D (l + 1) else c < (F.nBlocks (l + 1) - 1) * F.D (l + 1)

instance (trans : Bool) (l c : ℕ) : Decidable (F.hasPar trans l c) := by unfold hasPar; infer_instance

/-- The parent cell. -/
def par (trans : Bool) (l c : ℕ) : ℕ := if trans then c / F.D (l + 1) - 1 else c / F.D (l + 1)

/-- Local coefficients after the downward sweep. -/
noncomputable def dn (trans : Bool) (ck : ℕ → ℕ → ℕ → E) : ℕ → ℕ → ℕ → E
  | 0 => ck 0
  | l + 1 => fun c m => ck (l + 1) c m + if F.hasPar trans l c then
      mvUp (F.Th (F.D (l + 1)) (c % F.D (l + 1))) (dn trans ck l (F.par trans l c)) (F.Mmin l) m else 0

/-- One level of the downward sweep: `target` and `source` cells of the flat loop index. -/
theorem forN_cellAdd (l : ℕ) (tgt : ℕ → ℕ) (g : ℕ → (ℕ → ℕ → E) → ℕ → E) (ck : ℕ → ℕ → ℕ → E) (n : ℕ) :
    forN (fun i ck => cellAdd ck (l + 1) (tgt i) (g i (ck l))) ck n =
      fun l' c m => ck l' c m + ∑ i ∈ Finset.range n, if l' = l + 1 ∧ c = tgt i then g i (ck l) m else 0 := by
  induction n with
  | zero => simp
  | succ n ih =>
    rw [forN_succ, ih]
    funext l' c m
    have e : (fun c m => ck l c m + ∑ i ∈ Finset.range n, if l = l + 1 ∧ c = tgt i then g i (ck l) m else 0) = ck l := by
      funext c m
      rw [Finset.sum_eq_zero, add_zero]
      intro i _
      rw [if_neg (by omega)]
    unfold cellAdd
    beta_reduce
    rw [e, Finset.sum_range_succ]
    by_cases hc : l' = l + 1 ∧ c = tgt n
    · rw [if_pos hc, if_pos hc, add_assoc]
    · rw [if_neg hc, if_neg hc, add_zero]

variable {F}

theorem nested_flat_lt {N D c : ℕ} (h : c < N * D) : 0 < D ∧ c / D < N := by
  have hD : 0 < D := Nat.pos_of_ne_zero fun h0 => by simp [h0] at h
  exact ⟨hD, (Nat.div_lt_iff_lt_mul hD).2 h⟩

/-- Closed form of one level of the downward sweep. -/
theorem downLevel (trans : Bool) (l : ℕ) (ck : ℕ → ℕ → ℕ → E) :
    (if trans then
      forN (fun b ck => forN (fun p ck => cellAdd ck (l + 1) ((b + 1) * F.D (l + 1) + p)
          (mvUp (F.Th (F.D (l + 1)) p)
            (ck l (b / F.D l * F.D l + b % F.D l)) (F.Mmin l))) ck (F.D (l + 1)))
        ck (F.nBlocks (l + 1) - 1)
    else
      forN (fun b ck => forN (fun p ck => cellAdd ck (l + 1) (b * F.D (l + 1) + p)
          (mvUp (F.Th (F.D (l + 1)) p) (ck l b) (F.Mmin l))) ck (F.D (l + 1)))
        ck (F.nBlocks (l + 1) - 1)) =
      fun l' c m => ck l' c m + if l' = l + 1 ∧ F.hasPar trans l c then
        mvUp (F.Th (F.D (l + 1)) (c % F.D (l + 1))) (ck l (F.par trans l c)) (F.Mmin l) m else 0 := by
  have hnb := F.nBlocks_pos (l + 1)
  cases trans
  · simp only [Bool.false_eq_true, if_false]
    rw [forN_nested (fun b p ck => cellAdd ck (l + 1) (b * F.D (l + 1) + p)
          (mvUp (F.Th (F.D (l + 1)) p) (ck l b) (F.Mmin l)))]
    simp only [div_mul_add_mod']
    rw [forN_cellAdd l (fun i => i) (fun i v => mvUp (F.Th (F.D (l + 1)) (i % F.D (l + 1))) (v (i / F.D (l + 1))) (F.Mmin l)) ck _]
    funext l' c m
    congr 1
    unfold hasPar par
    simp only [Bool.false_eq_true, if_false]
    by_cases hl : l' = l + 1
    · simp only [hl, true_and]
      rw [Finset.sum_ite_eq]
      simp only [Finset.mem_range]
    · simp [hl]
  · simp only [if_true]
    rw [forN_nested (fun b p ck => cellAdd ck (l + 1) ((b + 1) * F.D (l + 1) + p)
          (mvUp (F.Th (F.D (l + 1)) p) (ck l (b / F.D l * F.D l + b % F.D l)) (F.Mmin l)))]
    simp only [div_mul_add_mod']
    have e : ∀ i, (i / F.D (l + 1) + 1) * F.D (l + 1) + i % F.D (l + 1) = i + F.D (l + 1) := by
      intro i
      have := div_mul_add_mod' i (F.D (l + 1))
      rw [add_mul, one_mul]; omega
    simp only [e]
    rw [forN_cellAdd l (fun i => i + F.D (l + 1))
      (fun i v => mvUp (F.Th (F.D (l + 1)) (i % F.D (l + 1))) (v (i / F.D (l + 1))) (F.Mmin l)) ck _]
    funext l' c m
    congr 1
    unfold hasPar par
    simp only [if_true]
    by_cases hl : l' = l + 1
    · simp only [hl, true_and]
      by_cases hc : F.D (l + 1) ≤ c ∧ c < F.nBlocks (l + 1) * F.D (l + 1)
      · rw [if_pos hc]
        obtain ⟨hD, _⟩ := nested_flat_lt hc.2
        obtain ⟨d, rfl⟩ : ∃ d, c = d + F.D (l + 1) := ⟨c - F.D (l + 1), by omega⟩
        have hd : d < (F.nBlocks (l + 1) - 1) * F.D (l + 1) := by
          rw [Nat.sub_mul, one_mul]; omega
        rw [Finset.sum_eq_single d]
        · rw [if_pos rfl, Nat.add_mod_right, Nat.add_div_right _ hD, Nat.succ_sub_one]
        · intro i _ hi
          rw [if_neg (by omega)]
        · intro hi; exact absurd (Finset.mem_range.2 hd) hi
      · rw [if_neg hc]
        refine Finset.sum_eq_zero fun i hi => ?_
        have hi := Finset.mem_range.1 hi
        rw [if_neg]
        rintro rfl
        apply hc
        rw [Nat.sub_mul, one_mul] at hi
        omega
    · simp [hl]

theorem downSweep_eq (trans : Bool) (ck : ℕ → ℕ → ℕ → E) : ∀ l < F.L, F.downSweep trans ck l = F.dn trans ck l := by
  have key : ∀ t, t ≤ F.L - 1 → ∀ l, forN (fun level ck =>
    if trans then
      forN (fun b ck => forN (fun p ck => cellAdd ck (level + 1) ((b + 1) * F.D (level + 1) + p)
          (mvUp (F.Th (F.D (level + 1)) p)
            (ck level (b / F.D level * F.D level + b % F.D level)) (F.Mmin level))) ck (F.D (level + 1)))
        ck (F.nBlocks (level + 1) - 1)
    else
      forN (fun b ck => forN (fun p ck => cellAdd ck (level + 1) (b * F.D (level + 1) + p)
          (mvUp (F.Th (F.D (level + 1)) p) (ck level b) (F.Mmin level))) ck (F.D (level + 1)))
        ck (F.nBlocks (level + 1) - 1)) ck t l = if l ≤ t then F.dn trans ck l else ck l := by
    intro t
    induction t with
    | zero =>
      intro _ l
      by_cases h : l ≤ 0
      · rw [if_pos h]
        obtain rfl : l = 0 := by omega
        rfl
      · rw [if_neg h]; rfl
    | succ t ih =>
      intro ht l
      rw [forN_succ, downLevel]
      funext c m
      simp only [ih (by omega)]
      by_cases hl : l = t + 1
      · subst hl
        rw [if_neg (by omega), if_pos le_rfl, if_pos le_rfl]
        simp only [true_and, dn]
      · rw [if_neg (show ¬ (l = t + 1 ∧ F.hasPar trans t c) by tauto), add_zero]
        by_cases h : l ≤ t
        · rw [if_pos h, if_pos (by omega)]
        · rw [if_neg h, if_neg (by omega)]
  intro l hl
  unfold downSweep
  rw [key _ le_rfl, if_pos (by omega)]

/-! ## Support -/

theorem mvUp_zero (A : ℕ → ℕ → ℝ) (x : ℕ → E) (M K : ℕ) (hx : ∀ m, K ≤ m → x m = 0) (i : ℕ) (hi : K ≤ i) :
    mvUp A x M i = 0 := by
  unfold mvUp
  by_cases h : i < M
  · rw [if_pos h]
    refine Finset.sum_eq_zero fun j _ => ?_
    rw [hx _ (by omega), smul_zero]
  · rw [if_neg h]

theorem loc_zero (hR : F.RankOK) (trans : Bool) (odd : ℕ) (cia : ℕ → E) {l l' : ℕ} (hl : l ≤ l') (hl' : l' < F.L) (c m : ℕ)
    (hm : F.Mmin l' ≤ m) : F.loc trans odd cia l c m = 0 := by
  unfold loc
  refine Finset.sum_eq_zero fun c' _ => Finset.sum_eq_zero fun p _ => ?_
  have h1 : ∀ b q p, ¬ m < F.Nk l b q p := fun b q p h => by have := hR l l' hl hl' b q p; omega
  cases trans
  · simp only [Bool.false_eq_true, if_false, mv, if_neg (h1 _ _ _), ite_self]
  · simp only [if_true, mvT, if_neg (h1 _ _ _), ite_self]

theorem dn_zero (trans : Bool) (ck : ℕ → ℕ → ℕ → E)
    (hck : ∀ l l', l ≤ l' → l' < F.L → ∀ c m, F.Mmin l' ≤ m → ck l c m = 0) :
    ∀ l l', l ≤ l' → l' < F.L → ∀ c m, F.Mmin l' ≤ m → F.dn trans ck l c m = 0 := by
  intro l
  induction l with
  | zero => intro l' h1 h2 c m hm; exact hck 0 l' h1 h2 c m hm
  | succ l ih =>
    intro l' h1 h2 c m hm
    show ck (l + 1) c m + _ = 0
    rw [hck (l + 1) l' h1 h2 c m hm, zero_add,
      mvUp_zero _ _ _ (F.Mmin l') (fun m hm => ih l' (by omega) h2 _ m hm) m hm, ite_self]

/-- Value of an expansion with the modes of a level at a point of a cell. -/
noncomputable def ev (F : FMMLevel) (odd l t M : ℕ) (v : ℕ → E) : E := ∑ m ∈ Finset.range M, F.tv odd l t m • v m

theorem ev_mono (odd l t : ℕ) (v : ℕ → E) {M M' : ℕ} (h : ∀ m, M ≤ m → v m = 0) (h' : ∀ m, M' ≤ m → v m = 0) :
    F.ev odd l t M v = F.ev odd l t M' v := by
  have key : ∀ M M', M ≤ M' → (∀ m, M ≤ m → v m = 0) → F.ev odd l t M v = F.ev odd l t M' v := by
    intro M M' hM hz
    unfold ev
    refine Finset.sum_subset (fun x hx => Finset.mem_range.2 (lt_of_lt_of_le (Finset.mem_range.1 hx) hM)) fun x _ hx => ?_
    rw [hz x (by simpa using hx), smul_zero]
  rcases le_total M M' with hM | hM
  · exact key M M' hM h
  · exact (key M' M hM h').symm

theorem sum_triangle (M : ℕ) (f : ℕ → ℕ → E) :
    ∑ i ∈ Finset.range M, ∑ j ∈ Finset.range (M - i), f i (i + j) =
      ∑ k ∈ Finset.range M, ∑ i ∈ Finset.range (k + 1), f i k := by
  have h1 : ∀ i ∈ Finset.range M, ∑ j ∈ Finset.range (M - i), f i (i + j) = ∑ k ∈ Finset.range M, if i ≤ k then f i k else 0 := by
    intro i hi
    have hi := Finset.mem_range.1 hi
    conv_rhs => rw [show M = i + (M - i) by omega, Finset.sum_range_add]
    rw [Finset.sum_eq_zero (s := Finset.range i), zero_add]
    · refine Finset.sum_congr rfl fun j _ => ?_
      rw [if_pos (by omega)]
    · intro k hk
      rw [if_neg (by have := Finset.mem_range.1 hk; omega)]
  rw [Finset.sum_congr rfl h1, Finset.sum_comm]
  refine Finset.sum_congr rfl fun k hk => ?_
  have hk := Finset.mem_range.1 hk
  rw [← Finset.sum_filter]
  refine Finset.sum_congr ?_ fun _ _ => rfl
  ext i
  simp only [Finset.mem_filter, Finset.mem_range]
  omega

/-- A parent's expansion, evaluated in a subcell. -/
theorem ev_mvUp (h : F.Valid) (hT : F.ThExact) {l : ℕ} (hl : l + 1 < F.L) (odd : ℕ) {q : ℕ} (hq : q < F.D (l + 1)) (t : ℕ)
    (v : ℕ → E) :
    F.ev odd (l + 1) t (F.Mmin l) (mvUp (F.Th (F.D (l + 1)) q) v (F.Mmin l)) =
      F.ev odd l (q * F.W (l + 1) + t) (F.Mmin l) v := by
  unfold ev
  have e : ∀ m ∈ Finset.range (F.Mmin l), F.tv odd (l + 1) t m • mvUp (F.Th (F.D (l + 1)) q) v (F.Mmin l) m =
      ∑ j ∈ Finset.range (F.Mmin l - m), (fun i k => (F.Th (F.D (l + 1)) q k i * F.tv odd (l + 1) t i) • v k) m (m + j) := by
    intro m hm
    unfold mvUp
    rw [if_pos (Finset.mem_range.1 hm), Finset.smul_sum]
    refine Finset.sum_congr rfl fun j _ => ?_
    rw [smul_smul, mul_comm]
  rw [Finset.sum_congr rfl e, sum_triangle _ (fun i k => (F.Th (F.D (l + 1)) q k i * F.tv odd (l + 1) t i) • v k)]
  refine Finset.sum_congr rfl fun k hk => ?_
  rw [tv_refine h hT hl odd hq t k ⟨l, by omega, Finset.mem_range.1 hk⟩, Finset.sum_smul]

/-! ## Targets -/

/-- Cell of a target point. -/
def tc (F : FMMLevel) (trans : Bool) (l X : ℕ) : ℕ := if trans then F.cc l X - 1 else F.rc l X

/-- Position of a target point in its cell. -/
def tl (F : FMMLevel) (trans : Bool) (l X : ℕ) : ℕ := if trans then (X - F.off l) % F.W l else X % F.W l

/-- Is the point in a cell of the level? -/
def inCell (F : FMMLevel) (trans : Bool) (l X : ℕ) : Prop :=
  if trans then 1 ≤ F.cc l X ∧ F.cc l X ≤ F.nBlocks l * F.D l else F.rc l X < F.nBlocks l * F.D l

instance (trans : Bool) (l X : ℕ) : Decidable (F.inCell trans l X) := by unfold inCell; infer_instance

theorem tl_up (h : F.Valid) (trans : Bool) {l : ℕ} (hl : l + 1 < F.L) (X : ℕ) (hx : F.inCell trans (l + 1) X) :
    F.tl trans l X = F.tc trans (l + 1) X % F.D (l + 1) * F.W (l + 1) + F.tl trans (l + 1) X := by
  have hW := h.W_pos hl
  cases trans
  · simp only [tl, tc, rc, Bool.false_eq_true, if_false]
    rw [F.W_succ hl, mul_comm (F.D (l + 1)), Nat.mod_mul]
    ring
  · simp only [tl, tc, if_true]
    simp only [inCell, if_true] at hx
    have hc : F.cc (l + 1) X - 1 = (X - F.off l) / F.W (l + 1) := by
      unfold cc
      have := Nat.sub_mul_div (X - F.off (l + 1)) (F.W (l + 1)) 1
      rw [mul_one] at this
      rw [F.off_succ hl, ← Nat.sub_sub, this]
    have hge : F.W (l + 1) ≤ X - F.off (l + 1) := by
      have := hx.1
      unfold cc at this
      rw [Nat.le_div_iff_mul_le hW] at this
      omega
    have hm : (X - F.off (l + 1)) % F.W (l + 1) = (X - F.off l) % F.W (l + 1) := by
      rw [F.off_succ hl, ← Nat.sub_sub]
      exact (Nat.mod_eq_sub_mod hge)
    rw [hc, hm, F.W_succ hl, mul_comm (F.D (l + 1)), Nat.mod_mul]
    ring

theorem tc_up (h : F.Valid) (trans : Bool) {l : ℕ} (hl : l + 1 < F.L) (X : ℕ) (hx : F.inCell trans (l + 1) X) :
    (F.hasPar trans l (F.tc trans (l + 1) X) ↔ F.inCell trans l X) ∧
      (F.inCell trans l X → F.par trans l (F.tc trans (l + 1) X) = F.tc trans l X) := by
  have hD := h.D_pos _ hl
  have hn := F.nBlocks_succ l
  cases trans
  · simp only [hasPar, tc, inCell, par, Bool.false_eq_true, if_false] at *
    rw [rc_up hl, Nat.div_lt_iff_lt_mul hD, hn, Nat.add_sub_cancel_left, mul_comm (F.nBlocks l)]
    exact ⟨Iff.rfl, fun _ => rfl⟩
  · simp only [hasPar, tc, inCell, par, if_true] at *
    rw [cc_up h hl]
    have h1 : F.D (l + 1) ≤ F.cc (l + 1) X - 1 ↔ 1 ≤ (F.cc (l + 1) X - 1) / F.D (l + 1) := by
      rw [Nat.le_div_iff_mul_le hD, one_mul]
    have h2 : (F.cc (l + 1) X - 1) / F.D (l + 1) ≤ F.nBlocks l * F.D l := by
      have : (F.cc (l + 1) X - 1) / F.D (l + 1) < F.nBlocks (l + 1) := by
        rw [Nat.div_lt_iff_lt_mul hD]; omega
      rw [hn, mul_comm (F.D l)] at this
      omega
    refine ⟨?_, fun _ => rfl⟩
    rw [h1]
    constructor
    · rintro ⟨a, b⟩; exact ⟨a, h2⟩
    · rintro ⟨a, b⟩; exact ⟨a, by omega⟩

theorem inCell_fine (h : F.Valid) (trans : Bool) {l : ℕ} (hl : l + 1 < F.L) {X : ℕ} (hX : X < F.half) (hx : F.inCell trans l X) :
    F.inCell trans (l + 1) X := by
  have hD := h.D_pos _ hl
  cases trans
  · simp only [inCell, Bool.false_eq_true, if_false] at *
    rw [rc_up hl, Nat.div_lt_iff_lt_mul hD] at hx
    refine lt_of_lt_of_le hx (Nat.mul_le_mul_right _ ?_)
    rw [F.nBlocks_succ, mul_comm (F.D l)]; omega
  · simp only [inCell, if_true] at *
    rw [cc_up h hl, Nat.le_div_iff_mul_le hD] at hx
    refine ⟨by omega, ?_⟩
    rw [mul_comm]; exact cc_le h hX hl

/-- Contribution of one level at a target. -/
noncomputable def own (F : FMMLevel) (trans : Bool) (odd : ℕ) (ck : ℕ → ℕ → ℕ → E) (l X : ℕ) : E :=
  if F.inCell trans l X then F.ev odd l (F.tl trans l X) (F.Mmin l) (ck l (F.tc trans l X)) else 0

/-- The downward sweep adds up the contributions of the levels. -/
theorem dn_value (h : F.Valid) (hT : F.ThExact) (trans : Bool) (odd : ℕ) (ck : ℕ → ℕ → ℕ → E)
    (hck : ∀ l l', l ≤ l' → l' < F.L → ∀ c m, F.Mmin l' ≤ m → ck l c m = 0) {X : ℕ} (hX : X < F.half) :
    ∀ l < F.L, F.own trans odd (F.dn trans ck) l X = ∑ k ∈ Finset.range (l + 1), F.own trans odd ck k X := by
  have hz := dn_zero (F := F) trans ck hck
  intro l
  induction l with
  | zero => intro _; simp [own, dn]
  | succ l ih =>
    intro hl
    rw [Finset.sum_range_succ, ← ih (by omega)]
    by_cases hx : F.inCell trans (l + 1) X
    · have hD := h.D_pos _ hl
      have hq : F.tc trans (l + 1) X % F.D (l + 1) < F.D (l + 1) := Nat.mod_lt _ hD
      obtain ⟨t1, t2⟩ := tc_up h trans hl X hx
      unfold own
      rw [if_pos hx, if_pos hx]
      have e : F.dn trans ck (l + 1) (F.tc trans (l + 1) X) = fun m => ck (l + 1) (F.tc trans (l + 1) X) m +
          if F.hasPar trans l (F.tc trans (l + 1) X) then
            mvUp (F.Th (F.D (l + 1)) (F.tc trans (l + 1) X % F.D (l + 1)))
              (F.dn trans ck l (F.par trans l (F.tc trans (l + 1) X))) (F.Mmin l) m else 0 := rfl
      rw [e]
      by_cases hp : F.inCell trans l X
      · rw [if_pos hp, ← t2 hp, tl_up h trans hl X hx, ← ev_mvUp h hT hl odd hq]
        have h3 : F.ev odd (l + 1) (F.tl trans (l + 1) X) (F.Mmin l) (mvUp (F.Th (F.D (l + 1)) (F.tc trans (l + 1) X % F.D (l + 1)))
              (F.dn trans ck l (F.par trans l (F.tc trans (l + 1) X))) (F.Mmin l)) =
            F.ev odd (l + 1) (F.tl trans (l + 1) X) (F.Mmin (l + 1)) (mvUp (F.Th (F.D (l + 1)) (F.tc trans (l + 1) X % F.D (l + 1)))
              (F.dn trans ck l (F.par trans l (F.tc trans (l + 1) X))) (F.Mmin l)) :=
          ev_mono odd (l + 1) _ _ (fun m hm => mvUp_zero _ _ _ _ (fun m hm => hz l l le_rfl (by omega) _ m hm) m hm)
            (fun m hm => mvUp_zero _ _ _ _ (fun m hm => hz l (l + 1) (by omega) hl _ m hm) m hm)
        rw [h3]
        unfold ev
        rw [← Finset.sum_add_distrib]
        refine Finset.sum_congr rfl fun m _ => ?_
        beta_reduce
        rw [if_pos (t1.2 hp), smul_add, add_comm]
      · rw [if_neg hp, zero_add]
        simp only [t1, if_neg hp, add_zero]
    · unfold own
      rw [if_neg hx, if_neg hx, if_neg fun hp => hx (inCell_fine h trans hl hX hp), add_zero]

/-! ## The last loop -/

theorem forN_scatter (g : ℕ → ℕ) (f : ℕ → E) (v : ℕ → E) (n x : ℕ) :
    forN (fun i v => Function.update v (g i) (v (g i) + f i)) v n x =
      v x + ∑ i ∈ Finset.range n, if x = g i then f i else 0 := by
  induction n with
  | zero => simp
  | succ n ih =>
    rw [forN_succ, Finset.sum_range_succ]
    by_cases hx : x = g n
    · rw [hx, Function.update_self, if_pos rfl, ← hx, ih, add_assoc]
    · rw [Function.update_of_ne hx, ih, if_neg hx, add_zero]

theorem leafOut_eq (h : F.Valid) (trans : Bool) (odd : ℕ) (ck : ℕ → ℕ → ℕ → E) (X : ℕ) :
    F.leafOut trans odd ck X = F.own trans odd ck (F.L - 1) X := by
  unfold leafOut
  have hs := h.s_pos
  set l := F.L - 1 with hl
  have hWl : F.W l = F.s := F.W_last
  dsimp only
  rw [forN_nested (fun block p coa =>
      forN (fun t (coa : ℕ → E) => Function.update coa
        ((if trans then F.colStart l block + (p + 1) * F.s else F.rowStart l block + p * F.s) + t)
        (coa ((if trans then F.colStart l block + (p + 1) * F.s else F.rowStart l block + p * F.s) + t) +
        ∑ n ∈ Finset.range (F.Mmin l), F.T odd t n • ck l (block * F.D l + p) n)) coa F.s)]
  simp only [div_mul_add_mod']
  have hst : ∀ c, (if trans then F.colStart l (c / F.D l) + (c % F.D l + 1) * F.s else F.rowStart l (c / F.D l) + c % F.D l * F.s) =
      if trans then F.colS l c else F.rowS l c := by
    intro c
    have hc := div_mul_add_mod' c (F.D l)
    cases trans
    · simp only [Bool.false_eq_true, if_false, rowS]
      have := F.rowStart_eq l (c / F.D l) (c % F.D l)
      rw [hc] at this
      rw [← this, hWl]
    · simp only [if_true, colS]
      have := F.colStart_eq l (c / F.D l) (c % F.D l)
      rw [hc] at this
      rw [← this, hWl]
  simp only [hst]
  rw [forN_nested (fun c t (coa : ℕ → E) => Function.update coa ((if trans then F.colS l c else F.rowS l c) + t)
      (coa ((if trans then F.colS l c else F.rowS l c) + t) +
        ∑ n ∈ Finset.range (F.Mmin l), F.T odd t n • ck l c n))]
  rw [forN_scatter (fun i => (if trans then F.colS l (i / F.s) else F.rowS l (i / F.s)) + i % F.s)
    (fun i => ∑ n ∈ Finset.range (F.Mmin l), F.T odd (i % F.s) n • ck l (i / F.s) n), zero_add]
  have hidx : ∀ i, (if trans then F.colS l (i / F.s) else F.rowS l (i / F.s)) + i % F.s =
      if trans then F.off l + F.s + i else i := by
    intro i
    have := div_mul_add_mod' i F.s
    cases trans
    · simp only [Bool.false_eq_true, if_false, rowS, hWl]; exact this
    · simp only [if_true, colS, hWl, add_mul, one_mul]; omega
  simp only [hidx]
  have hT' : ∀ t n, F.T odd t n = F.tv odd l t n := by intro t n; unfold T tv; rw [hWl]
  unfold own ev
  simp only [hT']
  cases trans
  · simp only [inCell, tl, tc, rc, Bool.false_eq_true, if_false, hWl]
    rw [Finset.sum_ite_eq]
    simp only [Finset.mem_range, Nat.div_lt_iff_lt_mul hs]
  · simp only [inCell, tl, tc, cc, if_true, hWl]
    by_cases hX : 1 ≤ (X - F.off l) / F.s ∧ (X - F.off l) / F.s ≤ F.nBlocks l * F.D l
    · rw [if_pos hX]
      have h1 := (Nat.le_div_iff_mul_le hs).1 hX.1
      rw [one_mul] at h1
      obtain ⟨i, rfl⟩ : ∃ i, X = F.off l + F.s + i := ⟨X - F.off l - F.s, by omega⟩
      have e1 : F.off l + F.s + i - F.off l = i + F.s := by omega
      rw [e1] at hX ⊢
      rw [Nat.add_div_right _ hs, Nat.add_mod_right, Nat.succ_sub_one] at *
      rw [Finset.sum_eq_single i, if_pos rfl]
      · intro j _ hj; rw [if_neg (by omega)]
      · intro hi
        refine absurd (Finset.mem_range.2 ?_) hi
        rw [← Nat.div_lt_iff_lt_mul hs]
        omega
    · rw [if_neg hX]
      refine Finset.sum_eq_zero fun i hi => ?_
      have hi := Finset.mem_range.1 hi
      rw [if_neg]
      rintro rfl
      apply hX
      have e1 : F.off l + F.s + i - F.off l = i + F.s := by omega
      rw [e1, Nat.add_div_right _ hs]
      have := (Nat.div_lt_iff_lt_mul hs).2 hi
      exact ⟨Nat.succ_le_succ (Nat.zero_le _), this⟩

/-- **The hierarchical product is the sum of the contributions of the levels.** -/
theorem chebHalf_eq (h : F.Valid) (hT : F.ThExact) (hR : F.RankOK) (trans : Bool) (odd : ℕ) (cia : ℕ → E) {X : ℕ}
    (hX : X < F.half) :
    F.chebHalf trans odd cia X = ∑ l ∈ Finset.range F.L, F.own trans odd (F.loc trans odd cia) l X := by
  have hL := h.L_pos
  unfold chebHalf
  rw [leafOut_eq h]
  have e : F.own trans odd (F.downSweep trans (F.upSweep trans odd cia).ck) (F.L - 1) X =
      F.own trans odd (F.dn trans (F.upSweep trans odd cia).ck) (F.L - 1) X := by
    unfold own
    rw [downSweep_eq trans _ (F.L - 1) (by omega)]
  have hc := upSweep_ck h hT hR trans odd cia
  rw [e, dn_value h hT trans odd _ (fun l l' h1 h2 c m hm => by rw [hc l (by omega)]; exact loc_zero hR trans odd cia h1 h2 c m hm)
    hX _ (by omega), show F.L - 1 + 1 = F.L by omega]
  refine Finset.sum_congr rfl fun l hl => ?_
  unfold own
  congr 1
  unfold ev
  refine Finset.sum_congr rfl fun m _ => ?_
  rw [hc l (Finset.mem_range.1 hl)]

end FMMLevel
end Shenfun
