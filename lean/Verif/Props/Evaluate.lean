import Verif.Model.Evaluate
import Verif.Lemmas.Loop
import Mathlib.Tactic.Ring
import Mathlib.Tactic.Linarith
import Mathlib.Tactic.NormNum
import Mathlib.Algebra.BigOperators.Ring.Finset

/-!
# C82: evaluation at points
-/

namespace Shenfun

open Complex Finset

namespace Eval

/-! ## Specification -/

/-- How often the mode with wavenumber `k` of a real function of `N` points is counted: the modes `0 < k < N/2` stand for themselves
and for `-k`. -/
def Spec.mult (N k : ℕ) : ℝ := if k = 0 ∨ 2 * k = N then 1 else 2

/-- Value of a function without R2C axis. -/
noncomputable def Spec.value2 (n0 n1 : ℕ) (u : ℕ → ℕ → ℂ) (φ0 φ1 : ℕ → ℂ) : ℂ :=
  ∑ k ∈ range n0, ∑ l ∈ range n1, u k l * φ0 k * φ1 l

/-- Value of a real function whose axis `ax` is R2C with `N` points; the local coefficients begin at wavenumber `start`. -/
noncomputable def Spec.real2 (N ax start n0 n1 : ℕ) (u : ℕ → ℕ → ℂ) (φ0 φ1 : ℕ → ℂ) : ℝ :=
  ∑ k ∈ range n0, ∑ l ∈ range n1, Spec.mult N ((if ax = 0 then k else l) + start) * (u k l * φ0 k * φ1 l).re

/-- The contribution of the Nyquist modes to `Spec.real2`. -/
noncomputable def Spec.nyquist2 (N ax start n0 n1 : ℕ) (u : ℕ → ℕ → ℂ) (φ0 φ1 : ℕ → ℂ) : ℝ :=
  ∑ k ∈ range n0, ∑ l ∈ range n1, if 2 * ((if ax = 0 then k else l) + start) = N then (u k l * φ0 k * φ1 l).re else 0

noncomputable def Spec.value3 (n0 n1 n2 : ℕ) (u : ℕ → ℕ → ℕ → ℂ) (φ0 φ1 φ2 : ℕ → ℂ) : ℂ :=
  ∑ k ∈ range n0, ∑ l ∈ range n1, ∑ m ∈ range n2, u k l m * φ0 k * φ1 l * φ2 m

noncomputable def Spec.real3 (N ax start n0 n1 n2 : ℕ) (u : ℕ → ℕ → ℕ → ℂ) (φ0 φ1 φ2 : ℕ → ℂ) : ℝ :=
  ∑ k ∈ range n0, ∑ l ∈ range n1, ∑ m ∈ range n2,
    Spec.mult N ((if ax = 0 then k else if ax = 1 then l else m) + start) * (u k l m * φ0 k * φ1 l * φ2 m).re

noncomputable def Spec.nyquist3 (N ax start n0 n1 n2 : ℕ) (u : ℕ → ℕ → ℕ → ℂ) (φ0 φ1 φ2 : ℕ → ℂ) : ℝ :=
  ∑ k ∈ range n0, ∑ l ∈ range n1, ∑ m ∈ range n2,
    if 2 * ((if ax = 0 then k else if ax = 1 then l else m) + start) = N then (u k l m * φ0 k * φ1 l * φ2 m).re else 0

/-! ## Loops -/

theorem forN_add {A : Type*} [AddCommMonoid A] (g : ℕ → A) (f : ℕ → A → A) (n : ℕ) (hf : ∀ k < n, ∀ b, f k b = b + g k) (b : A) :
    forN f b n = b + ∑ k ∈ range n, g k := by
  induction n with
  | zero => simp
  | succ n ih => rw [forN_succ, hf n (by omega), ih fun k hk => hf k (by omega), Finset.sum_range_succ, add_assoc]

/-- The compiled condition holds for every positive index when there is an R2C axis: the bound `M` has no effect. -/
theorem twice_iff (ii : ℕ) (M : ℤ) : twice ii M ↔ 0 < ii ∧ 0 < M := by
  unfold twice
  rw [Nat.zero_and]
  simp

theorem addR2C_eq (p : ℝ) (ii : ℕ) (N : ℕ) (b : ℝ) :
    addR2C p ii (lastConj N) b = b + (Spec.mult N ii * p + if 2 * ii = N then (if ii = 0 then 0 else p) else 0) ∨ N = 0 := by
  rcases Nat.eq_zero_or_pos N with h | h
  · exact Or.inr h
  left
  have hM : (0:ℤ) < lastConj N := by
    unfold lastConj
    dsimp only
    split_ifs <;> omega
  unfold addR2C Spec.mult
  by_cases h0 : ii = 0
  · subst h0
    simp [twice_iff]
  · have : twice ii (lastConj N) := (twice_iff _ _).2 ⟨by omega, hM⟩
    simp only [this, if_true, h0, false_or, if_false]
    split_ifs <;> ring

theorem addR2C_pos {N : ℕ} (hN : 0 < N) (p : ℝ) (ii : ℕ) (b : ℝ) :
    addR2C p ii (lastConj N) b = b + (Spec.mult N ii * p + if 2 * ii = N then p else 0) := by
  rcases addR2C_eq p ii N b with h | h
  · rw [h]
    congr 2
    split_ifs with h1 h2
    · omega
    · rfl
    · rfl
  · omega

theorem sum_mul_re2 (a : ℕ → ℕ → ℝ) (c : ℕ → ℕ → ℝ) (n0 n1 : ℕ) :
    ∑ k ∈ range n0, ∑ l ∈ range n1, (a k l + c k l) =
      ∑ k ∈ range n0, ∑ l ∈ range n1, a k l + ∑ k ∈ range n0, ∑ l ∈ range n1, c k l := by
  rw [← Finset.sum_add_distrib]
  exact Finset.sum_congr rfl fun k _ => Finset.sum_add_distrib

theorem plain2_eq (n0 n1 : ℕ) (u : ℕ → ℕ → ℂ) (P0 P1 : ℕ → ℂ) (b : ℂ) :
    plain2 n0 n1 u P0 P1 b = b + Spec.value2 n0 n1 u P0 P1 := by
  unfold plain2 Spec.value2
  exact forN_add _ _ _ (fun k _ b => forN_add _ _ _ (fun l _ b => rfl) b) b

theorem real2_eq {N : ℕ} (hN : 0 < N) (ax : ℕ) (start n0 n1 : ℕ) (u : ℕ → ℕ → ℂ) (P0 P1 : ℕ → ℂ) (b : ℝ) :
    real2 n0 n1 u P0 P1 ax (lastConj N) start b =
      b + (Spec.real2 N ax start n0 n1 u P0 P1 + Spec.nyquist2 N ax start n0 n1 u P0 P1) := by
  unfold real2 Spec.real2 Spec.nyquist2
  rw [← sum_mul_re2]
  refine forN_add _ _ _ (fun k _ b => forN_add _ _ _ (fun l _ b => ?_) b) b
  have e : (if (ax:ℤ) = 0 then k + start else l + start) = (if ax = 0 then k else l) + start := by
    split_ifs <;> first | rfl | omega
  rw [e, addR2C_pos hN]

/-- **C82** Method 1, two axes, no R2C: the value of the expansion. -/
theorem C82_eval2D (n0 n1 : ℕ) (u : ℕ → ℕ → ℂ) (P0 P1 : Row) (r2c M : ℤ) (hr : r2c < 0) (start : ℕ) :
    evaluate2D n0 n1 u P0 P1 r2c M start = Spec.value2 n0 n1 u P0.val P1.val := by
  unfold evaluate2D
  have h := plain2_eq n0 n1 u P0.val P1.val 0
  rw [zero_add] at h
  rcases P0 with P0 | P0 <;> rcases P1 with P1 | P1 <;> simp only [if_pos hr] <;> exact h

/-- **C82** Method 1, two axes with an R2C axis of `N` points: the value of the real function **plus once more the contribution of the
Nyquist modes**. -/
theorem C82_eval2D_R2C {N : ℕ} (hN : 0 < N) (ax start n0 n1 : ℕ) (u : ℕ → ℕ → ℂ) (P0 P1 : Row)
    (hc : (∃ Q, P0 = .c Q) ∨ ∃ Q, P1 = .c Q) :
    evaluate2D n0 n1 u P0 P1 ax (lastConj N) start =
      ((Spec.real2 N ax start n0 n1 u P0.val P1.val + Spec.nyquist2 N ax start n0 n1 u P0.val P1.val : ℝ) : ℂ) := by
  unfold evaluate2D
  have h := real2_eq hN ax start n0 n1 u P0.val P1.val 0
  rw [zero_add] at h
  have hr : ¬ ((ax:ℤ) < 0) := by omega
  rcases P0 with P0 | P0 <;> rcases P1 with P1 | P1 <;> simp only [if_neg hr]
  · rcases hc with ⟨Q, h⟩ | ⟨Q, h⟩ <;> exact absurd h (by simp)
  all_goals rw [h]

/-- **C82** For odd `N`, or vanishing Nyquist coefficients, the default evaluation is right. -/
theorem C82_eval2D_ok {N : ℕ} (hN : 0 < N) (ax start n0 n1 : ℕ) (u : ℕ → ℕ → ℂ) (P0 P1 : Row)
    (hc : (∃ Q, P0 = .c Q) ∨ ∃ Q, P1 = .c Q)
    (hny : ∀ k < n0, ∀ l < n1, 2 * ((if ax = 0 then k else l) + start) = N → u k l = 0) :
    evaluate2D n0 n1 u P0 P1 ax (lastConj N) start = (Spec.real2 N ax start n0 n1 u P0.val P1.val : ℝ) := by
  rw [C82_eval2D_R2C hN ax start n0 n1 u P0 P1 hc]
  have : Spec.nyquist2 N ax start n0 n1 u P0.val P1.val = 0 := by
    unfold Spec.nyquist2
    refine Finset.sum_eq_zero fun k hk => Finset.sum_eq_zero fun l hl => ?_
    by_cases h : 2 * ((if ax = 0 then k else l) + start) = N
    · rw [if_pos h, hny k (Finset.mem_range.1 hk) l (Finset.mem_range.1 hl) h]; simp
    · rw [if_neg h]
  rw [this, add_zero]

theorem lastConj_eq (N : ℕ) (hN : 0 < N) (k : ℕ) (hk : k ≤ N / 2) : k < lastConj N ↔ 2 * k ≠ N := by
  unfold lastConj
  dsimp only
  split_ifs <;> omega

/-- **C82** Method 2 (Python), second axis R2C: the value of the real function, for every parity and every local slice
`[off, off + n1)` of the wavenumbers. -/
theorem C82_python2 {N : ℕ} (hN : 0 < N) (off n0 n1 : ℕ) (h1 : off + n1 ≤ N / 2 + 1) (u : ℕ → ℕ → ℂ) (P0 P1 : ℕ → ℂ) :
    python2 n0 n1 u P0 P1 N off (off + n1) = Spec.real2 N 1 off n0 n1 u P0 P1 := by
  unfold python2 Spec.real2
  dsimp only
  rw [Finset.sum_filter, ← Finset.sum_add_distrib, Finset.sum_comm]
  refine Finset.sum_congr rfl fun l hl => ?_
  have hl := Finset.mem_range.1 hl
  have e : (P1 l).re * (∑ k ∈ range n0, P0 k * u k l).re - (P1 l).im * (∑ k ∈ range n0, P0 k * u k l).im =
      ∑ k ∈ range n0, (u k l * P0 k * P1 l).re := by
    rw [← Complex.mul_re, Finset.mul_sum, Complex.re_sum]
    exact Finset.sum_congr rfl fun k _ => by congr 1; ring
  simp only [one_ne_zero, if_false]
  rw [e, ← Finset.mul_sum]
  have hc : ((if off = 0 then 1 else off) - off ≤ l ∧ l < min (lastConj N) (off + n1) - off) ↔ ¬ (l + off = 0 ∨ 2 * (l + off) = N) := by
    have := lastConj_eq N hN (l + off) (by omega)
    constructor
    · rintro ⟨h2, h3⟩
      have h4 : l + off < lastConj N := by omega
      have := this.1 h4
      split_ifs at h2 <;> omega
    · intro h
      have h4 : l + off < lastConj N := this.2 (by omega)
      split_ifs <;> omega
  unfold Spec.mult
  by_cases h : l + off = 0 ∨ 2 * (l + off) = N
  · rw [if_neg (by rw [hc]; exact not_not_intro h), if_pos h]; ring
  · rw [if_pos (hc.2 h), if_neg h]; ring

/-- **C82** (refutation) Default evaluation and Python evaluation of the same function differ: `û = 1` in the Nyquist mode of two points,
evaluated at the origin, gives 2 instead of 1. -/
theorem C82_nyquist_twice :
    evaluate2D 1 2 (fun _ l => if l = 1 then 1 else 0) (.c fun _ => 1) (.c fun _ => 1) 1 (lastConj 2) 0 = 2 ∧
    python2 1 2 (fun _ l => if l = 1 then 1 else 0) (fun _ => 1) (fun _ => 1) 2 0 2 = 1 := by
  constructor
  · have := C82_eval2D_R2C (N := 2) (by omega) 1 0 1 2 (fun _ l => if l = 1 then 1 else 0) (.c fun _ => 1) (.c fun _ => 1) (Or.inl ⟨_, rfl⟩)
    rw [Nat.cast_one] at this
    rw [this]
    norm_num [Spec.real2, Spec.nyquist2, Row.val, Spec.mult, Finset.sum_range_succ]
  · rw [show (2:ℕ) = 0 + 2 from rfl, C82_python2 (by omega) 0 1 2 (by omega)]
    norm_num [Spec.real2, Spec.mult, Finset.sum_range_succ]

/-! ## Three dimensions -/

theorem plain3_eq (n0 n1 n2 : ℕ) (u : ℕ → ℕ → ℕ → ℂ) (P0 P1 P2 : ℕ → ℂ) (b : ℂ) :
    plain3 n0 n1 n2 u P0 P1 P2 b = b + Spec.value3 n0 n1 n2 u P0 P1 P2 := by
  unfold plain3 Spec.value3
  exact forN_add _ _ _ (fun k _ b => forN_add _ _ _ (fun l _ b => forN_add _ _ _ (fun m _ b => rfl) b) b) b

theorem contract3_eq (n0 n1 n2 : ℕ) (u : ℕ → ℕ → ℕ → ℂ) (P0 P1 P2 : ℕ → ℂ) (b : ℂ) :
    contract3 n0 n1 n2 u P0 P1 P2 b = b + Spec.value3 n0 n1 n2 u P0 P1 P2 := by
  unfold contract3
  extract_lets c c2
  have hc : ∀ k < n0, ∀ l < n1, c k l = ∑ m ∈ range n2, u k l m * P2 m := by
    have inner : ∀ (k l n : ℕ) (c0 : ℕ → ℕ → ℂ), forN (fun m c => fun k' l' =>
        if k' = k ∧ l' = l then c k l + u k l m * P2 m else c k' l') c0 n =
        fun k' l' => if k' = k ∧ l' = l then c0 k l + ∑ m ∈ range n, u k l m * P2 m else c0 k' l' := by
      intro k l n c0
      induction n with
      | zero => funext k' l'; simp only [forN_zero, Finset.range_zero, Finset.sum_empty, add_zero]; split_ifs with h
                · rw [h.1, h.2]
                · rfl
      | succ n ih =>
        rw [forN_succ, ih]
        funext k' l'
        by_cases h : k' = k ∧ l' = l
        · simp [h, Finset.sum_range_succ, add_assoc]
        · simp [h]
    have mid : ∀ (k n : ℕ) (c0 : ℕ → ℕ → ℂ) (k' l' : ℕ), forN (fun l c => forN (fun m c => fun k' l' =>
        if k' = k ∧ l' = l then c k l + u k l m * P2 m else c k' l') c n2) c0 n k' l' =
        if k' = k ∧ l' < n then c0 k l' + ∑ m ∈ range n2, u k l' m * P2 m else c0 k' l' := by
      intro k n c0 k' l'
      induction n with
      | zero => simp
      | succ n ih =>
        rw [forN_succ, inner]
        dsimp only
        by_cases h : k' = k ∧ l' = n
        · obtain ⟨rfl, rfl⟩ := h
          have := ih
          simp only [true_and, lt_irrefl, if_false] at this
          rw [if_pos ⟨rfl, rfl⟩, if_pos ⟨rfl, by omega⟩, this]
        · rw [if_neg h, ih]
          by_cases h2 : k' = k ∧ l' < n
          · rw [if_pos h2, if_pos ⟨h2.1, by omega⟩]
          · rw [if_neg h2, if_neg (by omega)]
    have outer : ∀ (n : ℕ) (k' l' : ℕ), forN (fun k c => forN (fun l c => forN (fun m c => fun k' l' =>
        if k' = k ∧ l' = l then c k l + u k l m * P2 m else c k' l') c n2) c n1) (fun _ _ => (0:ℂ)) n k' l' =
        if k' < n ∧ l' < n1 then ∑ m ∈ range n2, u k' l' m * P2 m else 0 := by
      intro n k' l'
      induction n with
      | zero => simp
      | succ n ih =>
        rw [forN_succ, mid]
        by_cases h : k' = n ∧ l' < n1
        · obtain ⟨rfl, h2⟩ := h
          rw [if_pos ⟨rfl, h2⟩, if_pos ⟨by omega, h2⟩, ih, if_neg (by omega), zero_add]
        · rw [if_neg h, ih]
          by_cases h2 : k' < n ∧ l' < n1
          · rw [if_pos h2, if_pos ⟨by omega, h2.2⟩]
          · rw [if_neg h2, if_neg (by omega)]
    intro k hk l hl
    exact (outer n0 k l).trans (if_pos ⟨hk, hl⟩)
  have hc2 : ∀ k < n0, c2 k = ∑ l ∈ range n1, c k l * P1 l := by
    have inner : ∀ (k n : ℕ) (c0 : ℕ → ℂ), forN (fun l c2 => Function.update c2 k (c2 k + c k l * P1 l)) c0 n =
        Function.update c0 k (c0 k + ∑ l ∈ range n, c k l * P1 l) := by
      intro k n c0
      induction n with
      | zero => simp
      | succ n ih => rw [forN_succ, ih, Function.update_self, Function.update_idem, Finset.sum_range_succ, add_assoc]
    have outer : ∀ (n k' : ℕ), forN (fun k c2 => forN (fun l c2 => Function.update c2 k (c2 k + c k l * P1 l)) c2 n1)
        (fun _ => (0:ℂ)) n k' = if k' < n then ∑ l ∈ range n1, c k' l * P1 l else 0 := by
      intro n k'
      induction n with
      | zero => simp
      | succ n ih =>
        rw [forN_succ, inner, Function.update_apply]
        by_cases h : k' = n
        · subst h
          rw [if_pos rfl, if_pos (by omega), ih, if_neg (by omega), zero_add]
        · rw [if_neg h, ih]
          by_cases h2 : k' < n
          · rw [if_pos h2, if_pos (by omega)]
          · rw [if_neg h2, if_neg (by omega)]
    intro k hk
    exact (outer n0 k).trans (if_pos hk)
  rw [forN_add (fun k => c2 k * P0 k) _ _ (fun k _ b => rfl)]
  congr 1
  unfold Spec.value3
  refine Finset.sum_congr rfl fun k hk => ?_
  rw [hc2 k (Finset.mem_range.1 hk), Finset.sum_mul]
  refine Finset.sum_congr rfl fun l hl => ?_
  rw [hc k (Finset.mem_range.1 hk) l (Finset.mem_range.1 hl), Finset.sum_mul, Finset.sum_mul]
  exact Finset.sum_congr rfl fun m _ => by ring

theorem sum_add3 (a c : ℕ → ℕ → ℕ → ℝ) (n0 n1 n2 : ℕ) :
    ∑ k ∈ range n0, ∑ l ∈ range n1, ∑ m ∈ range n2, (a k l m + c k l m) =
      ∑ k ∈ range n0, ∑ l ∈ range n1, ∑ m ∈ range n2, a k l m + ∑ k ∈ range n0, ∑ l ∈ range n1, ∑ m ∈ range n2, c k l m := by
  rw [← sum_mul_re2]
  exact Finset.sum_congr rfl fun k _ => Finset.sum_congr rfl fun l _ => Finset.sum_add_distrib

/-- Loops that add `p` through `addR2C`. -/
theorem real3_loop {N : ℕ} (hN : 0 < N) (ax start n0 n1 n2 : ℕ) (u : ℕ → ℕ → ℕ → ℂ) (P0 P1 P2 : ℕ → ℂ)
    (p : ℕ → ℕ → ℕ → ℝ) (hp : ∀ k l m, p k l m = (u k l m * P0 k * P1 l * P2 m).re)
    (ii : ℕ → ℕ → ℕ → ℕ) (hi : ∀ k l m, ii k l m = (if ax = 0 then k else if ax = 1 then l else m) + start) :
    forN (fun k b => forN (fun l b => forN (fun m b => addR2C (p k l m) (ii k l m) (lastConj N) b) b n2) b n1) 0 n0 =
      Spec.real3 N ax start n0 n1 n2 u P0 P1 P2 + Spec.nyquist3 N ax start n0 n1 n2 u P0 P1 P2 := by
  unfold Spec.real3 Spec.nyquist3
  rw [← sum_add3]
  refine Eq.trans (forN_add _ _ _ (fun k _ b => forN_add _ _ _ (fun l _ b => forN_add _ _ _ (fun m _ b => ?_) b) b) 0) (zero_add _)
  rw [hp, hi, addR2C_pos hN]

/-- Number of non-Fourier axes. -/
def Spec.nonFourier : List Row → ℕ
  | [] => 0
  | .r _ :: L => Spec.nonFourier L + 1
  | .c _ :: L => Spec.nonFourier L

/-- **C82** Method 1, three axes, no R2C: the value of the expansion, unless exactly two axes are non-Fourier. -/
theorem C82_eval3D (n0 n1 n2 : ℕ) (u : ℕ → ℕ → ℕ → ℂ) (P0 P1 P2 : Row) (h2 : Spec.nonFourier [P0, P1, P2] ≠ 2) (r2c M : ℤ)
    (hr : r2c < 0) (start : ℕ) :
    evaluate3D n0 n1 n2 u P0 P1 P2 r2c M start = some (Spec.value3 n0 n1 n2 u P0.val P1.val P2.val) := by
  have e1 := plain3_eq n0 n1 n2 u P0.val P1.val P2.val 0
  have e2 := contract3_eq n0 n1 n2 u P0.val P1.val P2.val 0
  rw [zero_add] at e1 e2
  unfold evaluate3D
  rcases P0 with P0 | P0 <;> rcases P1 with P1 | P1 <;> rcases P2 with P2 | P2 <;> simp only [if_pos hr]
  · exact congrArg some e1
  · exact absurd rfl h2
  · exact absurd rfl h2
  · exact congrArg some e2
  · exact absurd rfl h2
  · exact congrArg some e1
  · exact congrArg some e1
  · exact congrArg some e2

/-- **C82** (refutation) With two non-Fourier axes and a complex-to-complex Fourier axis `eval` raises an `AssertionError`, whatever the
order of the axes and the data. -/
theorem C82_c2c_two_nonperiodic (n0 n1 n2 : ℕ) (u : ℕ → ℕ → ℕ → ℂ) (P0 P1 P2 : Row) (h2 : Spec.nonFourier [P0, P1, P2] = 2) (r2c M : ℤ)
    (hr : r2c < 0) (start : ℕ) : evaluate3D n0 n1 n2 u P0 P1 P2 r2c M start = none := by
  unfold evaluate3D one1
  rcases P0 with P0 | P0 <;> rcases P1 with P1 | P1 <;> rcases P2 with P2 | P2 <;>
    first
    | exact absurd (show (3:ℕ) = 2 from h2) (by decide)
    | exact absurd (show (1:ℕ) = 2 from h2) (by decide)
    | exact absurd (show (0:ℕ) = 2 from h2) (by decide)
    | (dsimp only; rw [if_neg (by omega)]; rfl)

/-- **C82** Method 1, three axes, R2C axis `ax` (a Fourier axis): the value of the real function **plus once more the Nyquist modes**. -/
theorem C82_eval3D_R2C {N : ℕ} (hN : 0 < N) (ax : ℕ) (start n0 n1 n2 : ℕ) (u : ℕ → ℕ → ℕ → ℂ) (P0 P1 P2 : Row)
    (hc : (ax = 0 ∧ ∃ Q, P0 = .c Q) ∨ (ax = 1 ∧ ∃ Q, P1 = .c Q) ∨ (ax = 2 ∧ ∃ Q, P2 = .c Q)) :
    evaluate3D n0 n1 n2 u P0 P1 P2 ax (lastConj N) start =
      some ((Spec.real3 N ax start n0 n1 n2 u P0.val P1.val P2.val + Spec.nyquist3 N ax start n0 n1 n2 u P0.val P1.val P2.val : ℝ) : ℂ) := by
  have hr : ¬ ((ax:ℤ) < 0) := by omega
  have hax : ax = 0 ∨ ax = 1 ∨ ax = 2 := by omega
  have K := fun p hp ii hi => real3_loop hN ax start n0 n1 n2 u P0.val P1.val P2.val p hp ii hi
  rcases P0 with P0 | P0 <;> rcases P1 with P1 | P1 <;> rcases P2 with P2 | P2 <;>
    simp only [reduceCtorEq, exists_false, and_false, or_false, false_or, Row.c.injEq, exists_eq', and_true] at hc <;>
    simp only [evaluate3D, if_neg hr]
  · subst hc
    simp only [one1, Nat.cast_ofNat, if_true, Option.map_some]
    rw [K _ (fun k l m => rfl) _ (fun k l m => by simp)]
  · subst hc
    simp only [one1, Nat.cast_one, if_true, Option.map_some]
    rw [K _ (fun k l m => rfl) _ (fun k l m => by simp)]
  · rw [if_pos (by omega)]
    simp only [rcc1]
    rw [K _ (fun k l m => ?_) _ (fun k l m => ?_)]
    · simp [Row.val]; ring
    · rcases hc with rfl | rfl <;> simp
  · subst hc
    simp only [one1, Nat.cast_zero, if_true, Option.map_some]
    rw [K _ (fun k l m => rfl) _ (fun k l m => by simp)]
  · rw [if_pos (by omega)]
    simp only [crc1]
    rw [K _ (fun k l m => ?_) _ (fun k l m => ?_)]
    · simp [Row.val]; ring
    · rcases hc with rfl | rfl <;> simp
  · rw [if_pos (by omega)]
    simp only [ccr1]
    rw [K _ (fun k l m => ?_) _ (fun k l m => ?_)]
    · simp [Row.val]; ring
    · rcases hc with rfl | rfl <;> simp
  · simp only [ccc1]
    rw [K _ (fun k l m => ?_) _ (fun k l m => ?_)]
    · simp [Row.val]; ring
    · rcases hax with rfl | rfl | rfl <;> simp

/-- **C82** Three axes: for vanishing Nyquist coefficients (in particular for odd `N`) the default evaluation is right. -/
theorem C82_eval3D_ok {N : ℕ} (hN : 0 < N) (ax : ℕ) (start n0 n1 n2 : ℕ) (u : ℕ → ℕ → ℕ → ℂ) (P0 P1 P2 : Row)
    (hc : (ax = 0 ∧ ∃ Q, P0 = .c Q) ∨ (ax = 1 ∧ ∃ Q, P1 = .c Q) ∨ (ax = 2 ∧ ∃ Q, P2 = .c Q))
    (hny : ∀ k < n0, ∀ l < n1, ∀ m < n2, 2 * ((if ax = 0 then k else if ax = 1 then l else m) + start) = N → u k l m = 0) :
    evaluate3D n0 n1 n2 u P0 P1 P2 ax (lastConj N) start = some ((Spec.real3 N ax start n0 n1 n2 u P0.val P1.val P2.val : ℝ) : ℂ) := by
  rw [C82_eval3D_R2C hN ax start n0 n1 n2 u P0 P1 P2 hc]
  have : Spec.nyquist3 N ax start n0 n1 n2 u P0.val P1.val P2.val = 0 := by
    unfold Spec.nyquist3
    refine Finset.sum_eq_zero fun k hk => Finset.sum_eq_zero fun l hl => Finset.sum_eq_zero fun m hm => ?_
    by_cases h : 2 * ((if ax = 0 then k else if ax = 1 then l else m) + start) = N
    · rw [if_pos h, hny k (Finset.mem_range.1 hk) l (Finset.mem_range.1 hl) m (Finset.mem_range.1 hm) h]; simp
    · rw [if_neg h]
  rw [this, add_zero]

/-- Non-vacuity of `C82_eval3D_ok` and `C82_eval3D_R2C`: a Chebyshev × Fourier × Fourier(R2C) space of 5 points. -/
example (u : ℕ → ℕ → ℕ → ℂ) (T : ℕ → ℝ) (E F : ℕ → ℂ) :
    evaluate3D 4 6 3 u (.r T) (.c E) (.c F) 2 (lastConj 5) 0 =
      some ((Spec.real3 5 2 0 4 6 3 u (Row.r T).val (Row.c E).val (Row.c F).val : ℝ) : ℂ) :=
  C82_eval3D_ok (N := 5) (by omega) 2 0 4 6 3 u _ _ _ (Or.inr (Or.inr ⟨rfl, _, rfl⟩)) fun k _ l _ m _ h => by
    simp only [OfNat.ofNat_ne_zero, OfNat.ofNat_ne_one, if_false] at h; omega

/-! ## One dimension -/

/-- **C82** One-dimensional R2C space: `eval` gives the value of the real function, for both parities. -/
theorem C82_r2c1 {N : ℕ} (hN : 0 < N) (u P : ℕ → ℂ) :
    r2c1 N u P = ∑ k ∈ range (N / 2 + 1), Spec.mult N k * (u k * P k).re := by
  unfold r2c1
  dsimp only
  have e : ∀ k ∈ range (N / 2 + 1), Spec.mult N k * (u k * P k).re =
      (P k * u k).re + if 1 ≤ k ∧ k < lastConj N then (P k * u k).re else 0 := by
    intro k hk
    have hk := Finset.mem_range.1 hk
    have := lastConj_eq N hN k (by omega)
    rw [mul_comm (u k)]
    unfold Spec.mult
    by_cases h : k = 0 ∨ 2 * k = N
    · rw [if_pos h, if_neg (by omega)]; ring
    · rw [if_neg h, if_pos ⟨by omega, this.2 (by omega)⟩]; ring
  rw [Finset.sum_congr rfl e, Finset.sum_add_distrib, Complex.re_sum, ← Finset.sum_filter]
  congr 1
  have hf : ∀ c ≤ N / 2 + 1, c = lastConj N → (range (N / 2 + 1)).filter (fun k => 1 ≤ k ∧ k < lastConj N) = Finset.Ico 1 c := by
    intro c hc he
    ext k
    simp only [Finset.mem_filter, Finset.mem_range, Finset.mem_Ico]
    omega
  split_ifs with h
  · rw [hf (N / 2 + 1 - 1) (by omega) (by unfold lastConj; simp [h]), Complex.conj_re, Complex.re_sum]
  · rw [hf (N / 2 + 1) le_rfl (by unfold lastConj; simp [h]), Complex.conj_re, Complex.re_sum]

/-! ## Method 0 -/

theorem re_mul_exp (z : ℂ) (t : ℝ) : z.re * Real.cos t - z.im * Real.sin t = (z * Complex.exp (t * I)).re := by
  rw [Complex.mul_re, Complex.exp_ofReal_mul_I_re, Complex.exp_ofReal_mul_I_im]

/-- **C82** Method 0, two Fourier axes: the same numbers as method 1 with the basis functions `exp(i w x)`. -/
theorem C82_lm_cc1 (n0 n1 : ℕ) (u : ℕ → ℕ → ℂ) (x0 x1 : ℝ) (w0 w1 : ℕ → ℝ) (r2c M : ℤ) (hr : 0 ≤ r2c) (start : ℕ) :
    (lmcc1 n0 n1 u x0 x1 w0 w1 r2c M start 0 : ℂ) =
      evaluate2D n0 n1 u (.c fun k => Complex.exp ((w0 k * x0 : ℝ) * I)) (.c fun l => Complex.exp ((w1 l * x1 : ℝ) * I)) r2c M start := by
  simp only [evaluate2D, if_neg (not_lt.2 hr), Row.val, lmcc1, real2]
  congr 1
  have e : ∀ k l, (u k l).re * Real.cos (w0 k * x0 + w1 l * x1) - (u k l).im * Real.sin (w0 k * x0 + w1 l * x1) =
      (u k l * Complex.exp ((w0 k * x0 : ℝ) * I) * Complex.exp ((w1 l * x1 : ℝ) * I)).re := by
    intro k l
    rw [re_mul_exp, mul_assoc, ← Complex.exp_add, ← add_mul]
    norm_cast
  simp only [e]

/-- **C82** (refutation) Method 0 with a non-Fourier axis in the middle and an R2C axis takes the wavenumbers of the third axis from the
second: with `w0 = 0`, `w1 = (0, 1)`, `w2 = (0, -1)` (three points: wavenumbers 0, 1, -1 …) the coefficient of `exp(-i x2)` is
evaluated as `exp(i x2)`. -/
theorem C82_lm_crc1 : ∃ (u : ℕ → ℕ → ℕ → ℂ) (w0 w1 w2 : ℕ → ℝ) (x0 x2 : ℝ),
    evaluate3D 1 1 2 u (.c fun k => Complex.exp ((w0 k * x0 : ℝ) * I)) (.r fun _ => 1) (.c fun m => Complex.exp ((w2 m * x2 : ℝ) * I)) 0
      (lastConj 3) 0 ≠ some ((lmcrc1 1 1 2 u x0 x2 (fun _ => 1) w0 w1 w2 0 (lastConj 3) 0 0 : ℝ) : ℂ) := by
  refine ⟨fun _ _ m => if m = 1 then I else 0, fun _ => 0, fun l => l, fun m => if m = 1 then -1 else 0, 0, Real.pi / 2, ?_⟩
  have := C82_eval3D_R2C (N := 3) (by omega) 0 0 1 1 2 (fun _ _ m => if m = 1 then I else 0) (.c fun k => Complex.exp (((0:ℝ) * 0 : ℝ) * I))
    (.r fun _ => 1) (.c fun m => Complex.exp (((if m = 1 then -1 else 0 : ℝ) * (Real.pi / 2) : ℝ) * I)) (Or.inl ⟨rfl, _, rfl⟩)
  rw [Nat.cast_zero] at this
  rw [this]
  have hval : Complex.exp (((-(Real.pi / 2) : ℝ) : ℂ) * I) = -I := by
    apply Complex.ext
    · rw [Complex.exp_ofReal_mul_I_re, Real.cos_neg, Real.cos_pi_div_two]; simp
    · rw [Complex.exp_ofReal_mul_I_im, Real.sin_neg, Real.sin_pi_div_two]; simp
  have hl : lmcrc1 1 1 2 (fun _ _ m => if m = 1 then I else 0) 0 (Real.pi / 2) (fun _ => 1) (fun _ => 0) (fun l => (l:ℝ))
      (fun m => if m = 1 then -1 else 0) 0 (lastConj 3) 0 0 = -1 := by
    simp [lmcrc1, forN, addR2C, twice_iff]
  have hs : Spec.real3 3 0 0 1 1 2 (fun _ _ m => if m = 1 then I else 0) (Row.c fun k => Complex.exp (((0:ℝ) * 0 : ℝ) * I)).val
      (Row.r fun _ => 1).val (Row.c fun m => Complex.exp (((if m = 1 then -1 else 0 : ℝ) * (Real.pi / 2) : ℝ) * I)).val = 1 := by
    simp only [Spec.real3, Finset.sum_range_succ, Finset.sum_range_zero, Row.val, Spec.mult]
    simp only [if_true, zero_ne_one, if_false, neg_mul, one_mul, hval]
    norm_num
  have hn : Spec.nyquist3 3 0 0 1 1 2 (fun _ _ m => if m = 1 then I else 0) (Row.c fun k => Complex.exp (((0:ℝ) * 0 : ℝ) * I)).val
      (Row.r fun _ => 1).val (Row.c fun m => Complex.exp (((if m = 1 then -1 else 0 : ℝ) * (Real.pi / 2) : ℝ) * I)).val = 0 := by
    simp [Spec.nyquist3, Finset.sum_range_succ]
  rw [hs, hn, hl]
  norm_num

/-! ## Parallel evaluation -/

/-- **C82** Distributed coefficients: every process evaluates the box of wavenumbers `box p` it owns; if the boxes partition the index set,
the sum over the processes (`allreduce`) is the value of the whole expansion — for the plain sum and the doubled one alike (`g` is the
summand of `Spec.value2` or `Spec.real2`). -/
theorem C82_parallel {ι A I : Type*} [Fintype ι] [AddCommMonoid A] [DecidableEq I] (box : ι → Finset I) (all : Finset I)
    (hd : ∀ p q, p ≠ q → Disjoint (box p) (box q)) (hu : Finset.univ.biUnion box = all) (g : I → A) :
    ∑ p, ∑ i ∈ box p, g i = ∑ i ∈ all, g i := by
  rw [← hu, Finset.sum_biUnion fun p _ q _ h => hd p q h]

/-- **C82** What a process with coefficients `[o0, o0+n0) × [o1, o1+n1)` of `û` computes is the part of the global sum over its box. -/
theorem C82_parallel_box (N ax o0 o1 n0 n1 : ℕ) (u : ℕ → ℕ → ℂ) (φ0 φ1 : ℕ → ℂ) :
    Spec.real2 N ax (if ax = 0 then o0 else o1) n0 n1 (fun k l => u (o0 + k) (o1 + l)) (fun k => φ0 (o0 + k)) (fun l => φ1 (o1 + l)) =
      ∑ i ∈ Finset.Ico o0 (o0 + n0) ×ˢ Finset.Ico o1 (o1 + n1),
        Spec.mult N (if ax = 0 then i.1 else i.2) * (u i.1 i.2 * φ0 i.1 * φ1 i.2).re := by
  rw [Finset.sum_product, Finset.sum_Ico_eq_sum_range]
  unfold Spec.real2
  rw [Nat.add_sub_cancel_left]
  refine Finset.sum_congr rfl fun k _ => ?_
  rw [Finset.sum_Ico_eq_sum_range, Nat.add_sub_cancel_left]
  refine Finset.sum_congr rfl fun l _ => ?_
  congr 2
  split_ifs <;> omega

end Eval

end Shenfun
