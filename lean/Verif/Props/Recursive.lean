import Verif.Model.Recursive
import Verif.Props.Recursions
import Mathlib.RingTheory.Polynomial.Chebyshev

/-!
# C38: recursive evaluation equals the sum

The specification is the plain sum `Σ_k Q_k(x_j) û_k` (or `Σ_j Q_k(x_j) w_j u_j` for the scalar product), with `Q_k` the
polynomials of the family and not the recurrence.
-/

namespace Shenfun

open Polynomial Spec

variable {K E : Type*} [Field K] [AddCommGroup E] [Module K E]

/-- The values `q_n` at one point `x` satisfy the recurrence held in the rows, `x q_n = anm_n q_{n+1} + ann_n q_n +
anp_n q_{n-1}`, up to degree `D`. -/
structure ThreeTerm (r : RecRows K) (D : ℕ) (x : K) (q : ℕ → K) : Prop where
  ne : ∀ n < D, r.anm n ≠ 0
  zero : q 0 = 1
  one : 0 < D → x * q 0 = r.anm 0 * q 1 + r.ann 0 * q 0
  step : ∀ n, n + 1 < D → x * q (n + 1) = r.anm (n + 1) * q (n + 2) + r.ann (n + 1) * q (n + 1) + r.anp (n + 1) * q n

theorem ThreeTerm.next {r : RecRows K} {D : ℕ} {x : K} {q : ℕ → K} (h : ThreeTerm r D x q) {n : ℕ} (hn : n + 1 < D) :
    q (n + 2) = (x - r.ann (n + 1)) / r.anm (n + 1) * q (n + 1) - r.anp (n + 1) / r.anm (n + 1) * q n := by
  have h0 := h.ne (n + 1) hn
  have h1 := h.step n hn
  field_simp
  linear_combination -h1

theorem ThreeTerm.first {r : RecRows K} {D : ℕ} {x : K} {q : ℕ → K} (h : ThreeTerm r D x q) (hn : 0 < D) :
    q 1 = (x - r.ann 0) / r.anm 0 := by
  have h0 := h.ne 0 hn
  have h1 := h.one hn
  have h2 := h.zero
  rw [h2] at h1
  field_simp
  linear_combination -h1

/-- State of the work arrays at stage `k`: degrees `k`, `k+1`, `k+2` at every point below `N`. -/
def Stage (N : ℕ) (q : ℕ → ℕ → K) (k : ℕ) (s : RecSt K E) : Prop :=
  ∀ j < N, s.Lnm j = q j k ∧ s.Ln j = q j (k + 1) ∧ s.Lnp j = q j (k + 2)

theorem stage_init {r : RecRows K} {D N : ℕ} {x : ℕ → K} {q : ℕ → ℕ → K} (hD : 1 < D)
    (h : ∀ j < N, ThreeTerm r D (x j) (q j)) (out : ℕ → E) : Stage N q 0 (recInit r x out) := by
  intro j hj
  have h0 := (h j hj).zero
  have h1 := (h j hj).first (by omega)
  refine ⟨h0.symm, h1.symm, ?_⟩
  have h2 := (h j hj).next (n := 0) (by omega)
  rw [h0] at h2
  simp only [zero_add] at h2 ⊢
  rw [h2, h1]
  rfl

/-- One inner loop moves the stage by one, whatever is done to the other components. -/
theorem stage_inner {r : RecRows K} {D N : ℕ} {x : ℕ → K} {q : ℕ → ℕ → K} (k : ℕ) (hk : k + 2 < D)
    (h : ∀ j < N, ThreeTerm r D (x j) (q j)) {S : Type*} (π : S → RecSt K E) (f : ℕ → S → S)
    (hf : ∀ j t, (π (f j t)).Lnm = ((π t).shift x (1 / r.anm (k+2)) (r.anp (k+2) / r.anm (k+2)) (r.ann (k+2)) j).Lnm ∧
      (π (f j t)).Ln = ((π t).shift x (1 / r.anm (k+2)) (r.anp (k+2) / r.anm (k+2)) (r.ann (k+2)) j).Ln ∧
      (π (f j t)).Lnp = ((π t).shift x (1 / r.anm (k+2)) (r.anp (k+2) / r.anm (k+2)) (r.ann (k+2)) j).Lnp)
    (s : S) (hs : Stage N q k (π s)) :
    ∀ n ≤ N, (∀ j < n, (π (forN f s n)).Lnm j = q j (k+1) ∧ (π (forN f s n)).Ln j = q j (k+2) ∧
        (π (forN f s n)).Lnp j = q j (k+3)) ∧
      (∀ j, n ≤ j → j < N → (π (forN f s n)).Lnm j = q j k ∧ (π (forN f s n)).Ln j = q j (k+1) ∧
        (π (forN f s n)).Lnp j = q j (k+2)) := by
  intro n hn
  induction n with
  | zero => exact ⟨fun j hj => by omega, fun j _ hj => hs j hj⟩
  | succ n ih =>
    obtain ⟨i1, i2⟩ := ih (by omega)
    obtain ⟨e1, e2, e3⟩ := hf n (forN f s n)
    obtain ⟨b1, b2, b3⟩ := i2 n le_rfl (by omega)
    have hx := (h n (by omega)).next (n := k + 1) (by omega)
    refine ⟨fun j hj => ?_, fun j hj hj' => ?_⟩
    · rw [forN_succ, e1, e2, e3]
      unfold RecSt.shift
      dsimp only
      by_cases hjn : j = n
      · subst hjn
        simp only [Function.update_self]
        refine ⟨b2, b3, ?_⟩
        rw [b2, b3, hx]
        field_simp
      · simp only [Function.update_of_ne hjn]
        exact i1 j (by omega)
    · rw [forN_succ, e1, e2, e3]
      unfold RecSt.shift
      dsimp only
      simp only [Function.update_of_ne (show j ≠ n by omega)]
      exact i2 j (by omega) hj'

theorem evaluateBody_spec {r : RecRows K} {D N : ℕ} {x : ℕ → K} {q : ℕ → ℕ → K} (k : ℕ) (hk : k + 2 < D)
    (h : ∀ j < N, ThreeTerm r D (x j) (q j)) (u : ℕ → E) (s : RecSt K E) (hs : Stage N q k s) :
    Stage N q (k+1) (evaluateBody r x u N k s) ∧
      ∀ j < N, (evaluateBody r x u N k s).out j = s.out j + q j k • u k := by
  have key := stage_inner k hk h id (fun j (t : RecSt K E) =>
    RecSt.shift x (1 / r.anm (k+2)) (r.anp (k+2) / r.anm (k+2)) (r.ann (k+2)) j
      { t with out := Function.update t.out j (t.out j + t.Lnm j • u k) }) (fun j t => ⟨rfl, rfl, rfl⟩) s hs
  refine ⟨(key N le_rfl).1, ?_⟩
  have : ∀ n ≤ N, ∀ j, (forN (fun j (t : RecSt K E) =>
      RecSt.shift x (1 / r.anm (k+2)) (r.anp (k+2) / r.anm (k+2)) (r.ann (k+2)) j
      { t with out := Function.update t.out j (t.out j + t.Lnm j • u k) }) s n).out j =
      if j < n then s.out j + q j k • u k else s.out j := by
    intro n hn
    induction n with
    | zero => intro j; simp
    | succ n ih =>
      intro j
      rw [forN_succ]
      have hb := ((key n (by omega)).2 n le_rfl (by omega)).1
      simp only [id] at hb
      unfold RecSt.shift
      dsimp only
      unfold RecSt.shift at hb ih
      dsimp only at hb ih
      by_cases hjn : j = n
      · subst hjn
        rw [Function.update_self, ih (by omega), hb]
        simp
      · rw [Function.update_of_ne hjn, ih (by omega) j]
        by_cases h1 : j < n
        · rw [if_pos h1, if_pos (by omega)]
        · rw [if_neg h1, if_neg (by omega)]
  intro j hj
  have := this N le_rfl j
  rw [if_pos hj] at this
  exact this

/-- **C38** (recurrence form) The recursive evaluation returns `Σ_{k<M} û_k q_k(x_j)` at every point, for any family
satisfying the recurrence up to degree `M + 2`: entries `0, …, M+1` of the rows are read. -/
theorem evaluateExpansionAll_eq {r : RecRows K} {M N : ℕ} {x : ℕ → K} {q : ℕ → ℕ → K}
    (h : ∀ j < N, ThreeTerm r (M + 2) (x j) (q j)) (u : ℕ → E) (j : ℕ) (hj : j < N) :
    evaluateExpansionAll r x M N u j = ∑ k ∈ Finset.range M, q j k • u k := by
  have : ∀ k ≤ M, Stage N q k (forN (evaluateBody r x u N) (recInit r x fun _ => 0) k) ∧
      ∀ j < N, (forN (evaluateBody r x u N) (recInit r x fun _ => 0) k).out j = ∑ i ∈ Finset.range k, q j i • u i := by
    intro k
    induction k with
    | zero => intro _; exact ⟨stage_init (by omega) h _, fun j _ => by simp [recInit]⟩
    | succ k ih =>
      intro hk
      obtain ⟨i1, i2⟩ := ih (by omega)
      by_cases hD : k + 2 < M + 2
      · obtain ⟨e1, e2⟩ := evaluateBody_spec k hD h u _ i1
        refine ⟨e1, fun j hj => ?_⟩
        rw [forN_succ, e2 j hj, i2 j hj, Finset.sum_range_succ]
      · omega
  exact (this M le_rfl).2 j hj

theorem scalarBody_spec {r : RecRows K} {D N : ℕ} {x : ℕ → K} {q : ℕ → ℕ → K} (k : ℕ) (hk : k + 2 < D)
    (h : ∀ j < N, ThreeTerm r D (x j) (q j)) (w : ℕ → K) (u : ℕ → E) (s : RecSt K E) (hs : Stage N q k s) :
    Stage N q (k+1) (scalarBody r x w u N k s) ∧
      (scalarBody r x w u N k s).out = Function.update s.out k (∑ j ∈ Finset.range N, (q j k * w j) • u j) := by
  have key := stage_inner k hk h Prod.snd (fun j (t : E × RecSt K E) =>
    (t.1 + (t.2.Lnm j * w j) • u j,
      RecSt.shift x (1 / r.anm (k+2)) (r.anp (k+2) / r.anm (k+2)) (r.ann (k+2)) j t.2))
    (fun j t => ⟨rfl, rfl, rfl⟩) (0, s) hs
  refine ⟨(key N le_rfl).1, ?_⟩
  have : ∀ n ≤ N, (forN (fun j (t : E × RecSt K E) =>
    (t.1 + (t.2.Lnm j * w j) • u j,
      RecSt.shift x (1 / r.anm (k+2)) (r.anp (k+2) / r.anm (k+2)) (r.ann (k+2)) j t.2)) (0, s) n).1 =
      ∑ j ∈ Finset.range n, (q j k * w j) • u j ∧ (forN (fun j (t : E × RecSt K E) =>
    (t.1 + (t.2.Lnm j * w j) • u j,
      RecSt.shift x (1 / r.anm (k+2)) (r.anp (k+2) / r.anm (k+2)) (r.ann (k+2)) j t.2)) (0, s) n).2.out = s.out := by
    intro n hn
    induction n with
    | zero => exact ⟨by simp, rfl⟩
    | succ n ih =>
      obtain ⟨i1, i2⟩ := ih (by omega)
      have hb := ((key n (by omega)).2 n le_rfl (by omega)).1
      refine ⟨?_, ?_⟩
      · rw [forN_succ, Finset.sum_range_succ, ← i1]
        dsimp only
        rw [hb]
      · rw [forN_succ]
        exact i2
  obtain ⟨t1, t2⟩ := this N le_rfl
  unfold scalarBody
  dsimp only
  rw [t1, t2]

theorem scalar_loop {r : RecRows K} {M N : ℕ} {x : ℕ → K} {q : ℕ → ℕ → K}
    (h : ∀ j < N, ThreeTerm r (M + 2) (x j) (q j)) (w : ℕ → K) (u out : ℕ → E) :
    ∀ k ≤ M, Stage N q k (forN (scalarBody r x w u N) (recInit r x out) k) ∧
      ∀ m, (forN (scalarBody r x w u N) (recInit r x out) k).out m =
        if m < k then ∑ j ∈ Finset.range N, (q j m * w j) • u j else out m := by
  intro k
  induction k with
  | zero => intro _; exact ⟨stage_init (by omega) h _, fun j => by simp [recInit]⟩
  | succ k ih =>
    intro hk
    obtain ⟨i1, i2⟩ := ih (by omega)
    obtain ⟨e1, e2⟩ := scalarBody_spec k (by omega) h w u _ i1
    refine ⟨e1, fun m => ?_⟩
    rw [forN_succ, e2]
    by_cases hm : m = k
    · subst hm
      simp
    · rw [Function.update_of_ne hm, i2 m]
      by_cases h1 : m < k
      · rw [if_pos h1, if_pos (by omega)]
      · rw [if_neg h1, if_neg (by omega)]

/-- **C38** (recurrence form) The recursive scalar product stores `Σ_j q_k(x_j) w_j u_j` in entry `k < M` and leaves the
rest of the output alone. -/
theorem scalarProductRec_eq {r : RecRows K} {M N : ℕ} {x : ℕ → K} {q : ℕ → ℕ → K}
    (h : ∀ j < N, ThreeTerm r (M + 2) (x j) (q j)) (w : ℕ → K) (u out : ℕ → E) (k : ℕ) :
    scalarProductRec r x w M N u out k =
      if k < M then ∑ j ∈ Finset.range N, (q j k * w j) • u j else out k :=
  (scalar_loop h w u out M le_rfl).2 k

/-- The compiled version agrees when the two lengths agree (as they do in every call made by a space: both arrays have
the length of the quadrature mesh). -/
theorem scalarProductPtr_eq {r : RecRows K} {N : ℕ} {x : ℕ → K} {q : ℕ → ℕ → K}
    (h : ∀ j < N, ThreeTerm r (N + 2) (x j) (q j)) (w : ℕ → K) (u out : ℕ → E) (k : ℕ) (hk : k < N) :
    scalarProductPtr r x w N N u out k = ∑ j ∈ Finset.range N, (q j k * w j) • u j := by
  have := (scalar_loop h w u (fun j => if j < N then 0 else out j) N le_rfl).2 k
  rw [if_pos hk] at this
  exact this

theorem restrictedBody_spec {r : RecRows K} {D : ℕ} {x : ℕ → K} {q : ℕ → ℕ → K} (i0 a0 len k : ℕ)
    (hk : k + a0 + 2 < D) (h : ∀ j < len, ThreeTerm r D (x (i0 + j)) (q (i0 + j))) (u : ℕ → E) (s : RecSt K E)
    (hs : Stage len (fun j => q (i0 + j)) (k + a0) s) :
    Stage len (fun j => q (i0 + j)) (k + 1 + a0) (restrictedBody r x u i0 a0 len k s) ∧
      (restrictedBody r x u i0 a0 len k s).out =
        Function.update s.out k (∑ j ∈ Finset.range len, q (i0 + j) (k + a0) • u (i0 + j)) := by
  have key := stage_inner (k + a0) hk h Prod.snd (fun j (t : E × RecSt K E) =>
    (t.1 + t.2.Lnm j • u (i0 + j),
      RecSt.shift (fun j => x (i0 + j)) (1 / r.anm (k+a0+2)) (r.anp (k+a0+2) / r.anm (k+a0+2)) (r.ann (k+a0+2)) j t.2))
    (fun j t => ⟨rfl, rfl, rfl⟩) (0, s) hs
  refine ⟨?_, ?_⟩
  · rw [show k + 1 + a0 = k + a0 + 1 by omega]
    exact (key len le_rfl).1
  have : ∀ n ≤ len, (forN (fun j (t : E × RecSt K E) =>
    (t.1 + t.2.Lnm j • u (i0 + j),
      RecSt.shift (fun j => x (i0 + j)) (1 / r.anm (k+a0+2)) (r.anp (k+a0+2) / r.anm (k+a0+2)) (r.ann (k+a0+2)) j t.2))
        (0, s) n).1 =
      ∑ j ∈ Finset.range n, q (i0 + j) (k + a0) • u (i0 + j) ∧ (forN (fun j (t : E × RecSt K E) =>
    (t.1 + t.2.Lnm j • u (i0 + j),
      RecSt.shift (fun j => x (i0 + j)) (1 / r.anm (k+a0+2)) (r.anp (k+a0+2) / r.anm (k+a0+2)) (r.ann (k+a0+2)) j t.2))
        (0, s) n).2.out = s.out := by
    intro n hn
    induction n with
    | zero => exact ⟨by simp, rfl⟩
    | succ n ih =>
      obtain ⟨i1, i2⟩ := ih (by omega)
      have hb := ((key n (by omega)).2 n le_rfl (by omega)).1
      refine ⟨?_, ?_⟩
      · rw [forN_succ, Finset.sum_range_succ, ← i1]
        dsimp only
        rw [hb]
      · rw [forN_succ]
        exact i2
  obtain ⟨t1, t2⟩ := this len le_rfl
  unfold restrictedBody
  dsimp only
  rw [t1, t2]

/-- **C38** (recurrence form) `restricted_product` stores `Σ_{i0≤j<i1} q_{k+a0}(x_j) u_j` in entry `k`. -/
theorem restrictedProduct_eq {r : RecRows K} {x : ℕ → K} {q : ℕ → ℕ → K} (i0 i1 a0 M : ℕ)
    (h : ∀ j, i0 ≤ j → j < i1 → ThreeTerm r (a0 + M + 2) (x j) (q j)) (Lnm0 Ln0 : ℕ → K)
    (h0 : ∀ j < i1 - i0, Lnm0 j = q (i0 + j) a0) (h1 : ∀ j < i1 - i0, Ln0 j = q (i0 + j) (a0 + 1)) (u out : ℕ → E)
    (k : ℕ) (hk : k < M) :
    restrictedProduct r x Lnm0 Ln0 i0 i1 a0 M u out k = ∑ j ∈ Finset.Ico i0 i1, q j (k + a0) • u j := by
  have h' : ∀ j < i1 - i0, ThreeTerm r (a0 + M + 2) (x (i0 + j)) (q (i0 + j)) := fun j hj => h _ (by omega) (by omega)
  have hs : Stage (i1 - i0) (fun j => q (i0 + j)) (0 + a0) (restrictedInit r x Lnm0 Ln0 i0 a0 out) := by
    intro j hj
    rw [zero_add]
    refine ⟨h0 j hj, h1 j hj, ?_⟩
    unfold restrictedInit
    dsimp only
    rw [(h' j hj).next (by omega), h0 j hj, h1 j hj, add_comm 1 a0]
  have : ∀ k ≤ M, Stage (i1 - i0) (fun j => q (i0 + j)) (k + a0)
      (forN (restrictedBody r x u i0 a0 (i1 - i0)) (restrictedInit r x Lnm0 Ln0 i0 a0 out) k) ∧
      ∀ m < k, (forN (restrictedBody r x u i0 a0 (i1 - i0)) (restrictedInit r x Lnm0 Ln0 i0 a0 out) k).out m =
        ∑ j ∈ Finset.range (i1 - i0), q (i0 + j) (m + a0) • u (i0 + j) := by
    intro k
    induction k with
    | zero => intro _; exact ⟨hs, fun m hm => by omega⟩
    | succ k ih =>
      intro hk
      obtain ⟨i1', i2⟩ := ih (by omega)
      obtain ⟨e1, e2⟩ := restrictedBody_spec i0 a0 (i1 - i0) k (by omega) h' u _ i1'
      refine ⟨e1, fun m hm => ?_⟩
      rw [forN_succ, e2]
      by_cases hmk : m = k
      · subst hmk
        simp
      · rw [Function.update_of_ne hmk]
        exact i2 m (by omega)
  rw [Finset.sum_Ico_eq_sum_range]
  exact (this M le_rfl).2 k hk

/-! ## The rows of the recursion matrices satisfy the recurrence of the family -/

theorem sort_three {K : Type*} [Field K] (f g h : ℕ → K) :
    SM.sortD [((-1 : ℤ), f), (0, g), (1, h)] = [(-1, f), (0, g), (1, h)] := by
  simp [SM.sortD, List.insertionSort]

theorem sort_two {K : Type*} [Field K] (f h : ℕ → K) : SM.sortD [((-1 : ℤ), f), (1, h)] = [(-1, f), (1, h)] := by
  simp [SM.sortD, List.insertionSort]

theorem recRows_three (f g h : ℕ → ℝ) (M N : ℕ) :
    (SM.new [((-1 : ℤ), f), (0, g), (1, h)] M N 1).recRows = ⟨f, g, fun j => h (j - 1)⟩ := by
  simp [SM.recRows, recRows, SM.toDia, SM.new, sort_three]

theorem recRows_two (f h : ℕ → ℝ) (M N : ℕ) :
    (SM.new [((-1 : ℤ), f), (1, h)] M N 1).recRows = ⟨f, fun _ => 0, fun j => h (j - 1)⟩ := by
  simp [SM.recRows, recRows, SM.toDia, SM.new, sort_two]

theorem aEntry_lower_ne {a b : ℝ} (ha : -1 < a) (hb : -1 < b) (n : ℕ) : aEntry a b ((n:ℤ) + 1) n ≠ 0 := by
  rcases n with _ | n
  · simp only [aEntry]
    have : a + b + 2 ≠ 0 := ne_of_gt (by linarith)
    simp [this]
  · unfold aEntry kdelta
    rw [if_neg (by push_cast; omega), if_neg (by push_cast; omega), if_neg (by omega), if_neg (by omega),
      if_pos (by omega)]
    have h0 : (0:ℝ) ≤ n := by positivity
    push_cast
    have h1 : (2 * ((n:ℝ) + 1) + a + b + 2) ≠ 0 := ne_of_gt (by linarith)
    have h2 : (2 * ((n:ℝ) + 1) + a + b + 1) ≠ 0 := ne_of_gt (by linarith)
    have h3 : ((n:ℝ) + 1 + a + b + 1) ≠ 0 := ne_of_gt (by linarith)
    have h4 : ((n:ℝ) + 1 + 1) ≠ 0 := ne_of_gt (by linarith)
    simp only [mul_zero, zero_sub, mul_one, sub_zero, zero_add, neg_zero, ne_eq]
    exact div_ne_zero (mul_ne_zero (mul_ne_zero two_ne_zero h4) h3) (mul_ne_zero h1 h2)

theorem aEntry_diag_zero {a : ℝ} (n : ℕ) : aEntry a a n n = 0 := by
  unfold aEntry kdelta
  by_cases h : (n:ℤ) = 0
  · simp [h]
  · rw [if_neg (by omega), if_neg (by omega), if_neg (by omega), if_neg (c := (n:ℤ) - 1 = n) (by omega)]
    simp

/-- The three-term recurrence of the scaled family in terms of the entries. -/
theorem scaled_recurrence {a b : ℝ} {gn : ℕ → ℝ} {Q : ℕ → ℝ[X]} (h : ScaledJacobi a b gn Q) (x : ℝ) (n : ℕ) :
    x * (Q (n+1)).eval x = gn (n+1) / gn (n+2) * aEntry a b ((n:ℤ)+2) ((n:ℤ)+1) * (Q (n+2)).eval x
      + aEntry a b ((n:ℤ)+1) ((n:ℤ)+1) * (Q (n+1)).eval x
      + gn (n+1) / gn n * aEntry a b n ((n:ℤ)+1) * (Q n).eval x := by
  have e := congrArg (Polynomial.eval x) (aEntry_expand h.ha h.hb (n+1))
  rw [Finset.sum_range_succ, Finset.sum_range_succ, Finset.sum_range_succ, Finset.sum_eq_zero, zero_add] at e
  · simp only [eval_add, eval_mul, eval_X, eval_C] at e
    rw [h.hQ, h.hQ, h.hQ]
    simp only [eval_mul, eval_C]
    have g0 := h.hg n
    have g2 := h.hg (n+2)
    push_cast at e
    field_simp
    linear_combination gn (n+1) * e
  · intro m hm
    rw [tri_aEntry a b m _ (by have := Finset.mem_range.1 hm; push_cast; omega)]
    simp

theorem scaled_recurrence_zero {a b : ℝ} {gn : ℕ → ℝ} {Q : ℕ → ℝ[X]} (h : ScaledJacobi a b gn Q) (x : ℝ) :
    x * (Q 0).eval x = gn 0 / gn 1 * aEntry a b 1 0 * (Q 1).eval x + aEntry a b 0 0 * (Q 0).eval x := by
  have e := congrArg (Polynomial.eval x) (aEntry_expand h.ha h.hb 0)
  rw [Finset.sum_range_succ, Finset.sum_range_one] at e
  simp only [eval_add, eval_mul, eval_X, eval_C] at e
  rw [h.hQ, h.hQ]
  simp only [eval_mul, eval_C]
  have g1 := h.hg 1
  push_cast at e
  field_simp
  linear_combination gn 0 * e

/-- The parameters for which sympy evaluates every entry of the recursion matrix (the others: `C52_a_refuted_lower`,
`C52_a_refuted_diagonal`). -/
def RegularParams (a b : ℝ) : Prop := a = b ∨ (a + b ≠ 0 ∧ a + b ≠ -1)

theorem threeTerm_recursionMatrix {a b : ℝ} {gn : ℕ → ℝ} {Q : ℕ → ℝ[X]} (h : ScaledJacobi a b gn Q)
    (hr : RegularParams a b) (h0 : gn 0 = 1) (nan : ℝ) (M N D : ℕ) (x : ℝ) :
    ThreeTerm (recursionMatrix nan a b gn M N).recRows D x fun k => (Q k).eval x := by
  have hnan : (fun i j => if i = 1 ∧ j = 0 ∧ a + b = -1 ∧ a ≠ b then nan else matpow (aEntry a b) 1 gn i j) =
      matpow (aEntry a b) 1 gn := by
    funext i j
    rw [if_neg]
    rcases hr with hr | hr
    · exact fun hc => hc.2.2.2 hr
    · exact fun hc => hr.2 hc.2.2.1
  have q0 : (Q 0).eval x = 1 := by rw [h.hQ]; simp [jacobi_zero, h0]
  have lower : ∀ n : ℕ, diagOf (matpow (aEntry a b) 1 gn) (-1) n = gn n / gn (n+1) * aEntry a b ((n:ℤ)+1) n := by
    intro n
    simp only [diagOf]
    rw [if_neg (by omega)]
    show gn ((n:ℤ)).toNat / gn ((n:ℤ) - -1).toNat * aEntry a b ((n:ℤ) - -1) n = _
    rw [show ((n:ℤ)).toNat = n by omega, show ((n:ℤ) - -1).toNat = n+1 by omega, show (n:ℤ) - -1 = (n:ℤ)+1 by ring]
  have diag : ∀ n : ℕ, diagOf (matpow (aEntry a b) 1 gn) 0 n = aEntry a b n n := by
    intro n
    simp only [diagOf]
    rw [if_pos le_rfl]
    show gn ((n:ℤ) + 0).toNat / gn (n:ℤ).toNat * aEntry a b n ((n:ℤ)+0) = _
    rw [add_zero, div_self (h.hg _), one_mul]
  have upper : ∀ n : ℕ, diagOf (matpow (aEntry a b) 1 gn) 1 n = gn (n+1) / gn n * aEntry a b n ((n:ℤ)+1) := by
    intro n
    simp only [diagOf]
    rw [if_pos (by omega)]
    show gn ((n:ℤ) + 1).toNat / gn (n:ℤ).toNat * aEntry a b n ((n:ℤ)+1) = _
    rw [show ((n:ℤ)).toNat = n by omega, show ((n:ℤ) + 1).toNat = n+1 by omega]
  have hne : ∀ n : ℕ, gn n / gn (n+1) * aEntry a b ((n:ℤ)+1) n ≠ 0 := fun n =>
    mul_ne_zero (div_ne_zero (h.hg _) (h.hg _)) (aEntry_lower_ne h.ha h.hb n)
  have s0 := scaled_recurrence_zero h x
  have s1 := fun n => scaled_recurrence h x n
  unfold recursionMatrix
  dsimp only
  rw [hnan]
  by_cases hab : a ^ 2 = b ^ 2
  · rw [if_pos hab, recRows_two]
    have hab' : a = b := by
      rcases hr with hr | hr
      · exact hr
      · rcases sq_eq_sq_iff_eq_or_eq_neg.1 hab with h1 | h1
        · exact h1
        · exact absurd (by linarith) hr.1
    subst hab'
    refine ⟨fun n _ => ?_, q0, fun _ => ?_, fun n _ => ?_⟩
    · show diagOf (matpow (aEntry a _) 1 gn) (-1) n ≠ 0
      rw [lower]; exact hne n
    · dsimp only
      have z := aEntry_diag_zero (a := a) 0
      rw [lower]
      push_cast at z ⊢
      rw [s0, z]
    · dsimp only
      have z := aEntry_diag_zero (a := a) (n+1)
      rw [lower, Nat.add_sub_cancel, upper]
      push_cast at z ⊢
      rw [s1 n, z]
      ring_nf
  · rw [if_neg hab, recRows_three]
    refine ⟨fun n _ => ?_, q0, fun _ => ?_, fun n _ => ?_⟩
    · show diagOf (matpow (aEntry a _) 1 gn) (-1) n ≠ 0
      rw [lower]; exact hne n
    · dsimp only
      rw [lower, diag]
      push_cast
      rw [s0]
    · dsimp only
      rw [lower, diag, Nat.add_sub_cancel, upper]
      push_cast
      rw [s1 n]
      ring_nf

/-- The Legendre rows. -/
theorem threeTerm_leg (M N D : ℕ) (x : ℝ) : ThreeTerm (legRecursionMatrix M N).recRows D x fun k => (legP k).eval x := by
  have s0 := scaled_recurrence_zero scaledJacobi_legP x
  have s1 := fun n => scaled_recurrence scaledJacobi_legP x n
  unfold legRecursionMatrix
  rw [recRows_two]
  refine ⟨fun n _ => ?_, ?_, fun _ => ?_, fun n _ => ?_⟩
  · have : (0:ℝ) ≤ n := by positivity
    dsimp only
    positivity
  · simp [legP, jacobi_zero]
  · dsimp only
    rw [s0]
    simp [aEntry]
  · dsimp only
    rw [s1 n]
    have h0 : (0:ℝ) ≤ n := by positivity
    have e1 : aEntry 0 0 ((n:ℤ)+2) ((n:ℤ)+1) = ((n:ℝ)+1+1) / (2*((n:ℝ)+1)+1) := by
      unfold aEntry kdelta
      rw [if_neg (by omega), if_neg (by omega), if_neg (by omega), if_neg (by omega), if_pos (by omega)]
      push_cast
      have : (2*((n:ℝ)+1)+1) ≠ 0 := by positivity
      have : (n:ℝ) + 2 ≠ 0 := by positivity
      have : (2*((n:ℝ)+1) + 2) ≠ 0 := by positivity
      field_simp
      ring
    have e2 : aEntry 0 0 (n:ℤ) ((n:ℤ)+1) = ((n:ℝ)+1) / (2*(n:ℝ)+3) := by
      unfold aEntry kdelta
      rw [if_neg (by omega), if_neg (by omega), if_pos (by omega), if_neg (by omega), if_neg (by omega)]
      push_cast
      have : (2*((n:ℝ)+1)+1) ≠ 0 := by positivity
      have : (2*((n:ℝ)+1)) ≠ 0 := by positivity
      have : (2*(n:ℝ) + 3) ≠ 0 := by positivity
      field_simp
      ring
    have e3 := aEntry_diag_zero (a := 0) (n+1)
    push_cast at e3
    rw [e1, e2, e3, Nat.add_sub_cancel]
    push_cast
    ring

/-! ## The property -/

section Real

variable {E : Type*} [AddCommGroup E] [Module ℝ E]

/-- **C38** Evaluating a series by recursion: for every Jacobi family with the recursion matrix of the space, every
number of coefficients and points, every coefficient array (real, complex, multidimensional), the result is
`Σ_k û_k Q_k(x_j)`. -/
theorem C38_evaluate {a b : ℝ} {gn : ℕ → ℝ} {Q : ℕ → ℝ[X]} (h : ScaledJacobi a b gn Q) (hr : RegularParams a b)
    (h0 : gn 0 = 1) (nan : ℝ) (M N L : ℕ) (x : ℕ → ℝ) (u : ℕ → E) (j : ℕ) (hj : j < N) :
    evaluateExpansionAll (recursionMatrix nan a b gn L L).recRows x M N u j =
      ∑ k ∈ Finset.range M, (Q k).eval (x j) • u k :=
  evaluateExpansionAll_eq (q := fun j k => (Q k).eval (x j))
    (fun j _ => threeTerm_recursionMatrix h hr h0 nan L L (M+2) (x j)) u j hj

/-- **C38** The scalar product by recursion is the discrete inner product of the input with every basis function. -/
theorem C38_scalar_product {a b : ℝ} {gn : ℕ → ℝ} {Q : ℕ → ℝ[X]} (h : ScaledJacobi a b gn Q) (hr : RegularParams a b)
    (h0 : gn 0 = 1) (nan : ℝ) (M N L : ℕ) (x w : ℕ → ℝ) (u out : ℕ → E) (k : ℕ) (hk : k < M) :
    scalarProductRec (recursionMatrix nan a b gn L L).recRows x w M N u out k =
      ∑ j ∈ Finset.range N, ((Q k).eval (x j) * w j) • u j := by
  rw [scalarProductRec_eq (q := fun j k => (Q k).eval (x j))
    (fun j _ => threeTerm_recursionMatrix h hr h0 nan L L (M+2) (x j)) w u out k, if_pos hk]

/-- **C38** The compiled scalar product, on arrays of equal length. -/
theorem C38_scalar_product_compiled {a b : ℝ} {gn : ℕ → ℝ} {Q : ℕ → ℝ[X]} (h : ScaledJacobi a b gn Q)
    (hr : RegularParams a b) (h0 : gn 0 = 1) (nan : ℝ) (N L : ℕ) (x w : ℕ → ℝ) (u out : ℕ → E) (k : ℕ) (hk : k < N) :
    scalarProductPtr (recursionMatrix nan a b gn L L).recRows x w N N u out k =
      ∑ j ∈ Finset.range N, ((Q k).eval (x j) * w j) • u j :=
  scalarProductPtr_eq (q := fun j k => (Q k).eval (x j))
    (fun j _ => threeTerm_recursionMatrix h hr h0 nan L L (N+2) (x j)) w u out k hk

/-- **C38** The restricted product over points `i0 ≤ j < i1` and degrees from `a0` on. -/
theorem C38_restricted {a b : ℝ} {gn : ℕ → ℝ} {Q : ℕ → ℝ[X]} (h : ScaledJacobi a b gn Q) (hr : RegularParams a b)
    (h0 : gn 0 = 1) (nan : ℝ) (i0 i1 a0 M L : ℕ) (x : ℕ → ℝ) (u out : ℕ → E) (k : ℕ) (hk : k < M) :
    restrictedProduct (recursionMatrix nan a b gn L L).recRows x (fun j => (Q a0).eval (x (i0 + j)))
        (fun j => (Q (a0+1)).eval (x (i0 + j))) i0 i1 a0 M u out k =
      ∑ j ∈ Finset.Ico i0 i1, (Q (k + a0)).eval (x j) • u j :=
  restrictedProduct_eq (q := fun j k => (Q k).eval (x j)) i0 i1 a0 M
    (fun j _ _ => threeTerm_recursionMatrix h hr h0 nan L L _ (x j)) _ _ (fun _ _ => rfl) (fun _ _ => rfl) u out k hk

/-- **C38** Legendre spaces override the recursion matrix; the three functions still return the sums. -/
theorem C38_legendre (M N L : ℕ) (x w : ℕ → ℝ) (u out : ℕ → E) :
    (∀ j < N, evaluateExpansionAll (legRecursionMatrix L L).recRows x M N u j =
      ∑ k ∈ Finset.range M, (legP k).eval (x j) • u k) ∧
    (∀ k < M, scalarProductRec (legRecursionMatrix L L).recRows x w M N u out k =
      ∑ j ∈ Finset.range N, ((legP k).eval (x j) * w j) • u j) ∧
    (∀ i0 i1 a0, ∀ k < M, restrictedProduct (legRecursionMatrix L L).recRows x (fun j => (legP a0).eval (x (i0 + j)))
        (fun j => (legP (a0+1)).eval (x (i0 + j))) i0 i1 a0 M u out k =
      ∑ j ∈ Finset.Ico i0 i1, (legP (k + a0)).eval (x j) • u j) := by
  refine ⟨fun j hj => ?_, fun k hk => ?_, fun i0 i1 a0 k hk => ?_⟩
  · exact evaluateExpansionAll_eq (q := fun j k => (legP k).eval (x j)) (fun j _ => threeTerm_leg L L (M+2) (x j)) u j hj
  · rw [scalarProductRec_eq (q := fun j k => (legP k).eval (x j)) (fun j _ => threeTerm_leg L L (M+2) (x j)) w u out k,
      if_pos hk]
  · exact restrictedProduct_eq (q := fun j k => (legP k).eval (x j)) i0 i1 a0 M
      (fun j _ _ => threeTerm_leg L L _ (x j)) _ _ (fun _ _ => rfl) (fun _ _ => rfl) u out k hk

end Real

/-- **C38** Clenshaw: `chebval(x, c)` is `Σ_{k<N} c_k T_k(x)` for every number of coefficients `N ≥ 1`, over any field. -/
theorem C38_chebval (N : ℕ) (hN : 1 ≤ N) (c : ℕ → E) (x : K) :
    chebval N c x = ∑ k ∈ Finset.range N, ((Chebyshev.T K k).eval x) • c k := by
  have key : ∀ t, t + 2 ≤ N →
      (∑ k ∈ Finset.range (N - 2 - t), ((Chebyshev.T K k).eval x) • c k) +
        ((Chebyshev.T K ((N - 2 - t : ℕ) : ℤ)).eval x) •
          (forN (fun t (p : E × E) => (c (N - (t+3)) - p.2, p.1 + (2 * x) • p.2)) (c (N - 2), c (N - 1)) t).1 +
        ((Chebyshev.T K ((N - 2 - t + 1 : ℕ) : ℤ)).eval x) •
          (forN (fun t (p : E × E) => (c (N - (t+3)) - p.2, p.1 + (2 * x) • p.2)) (c (N - 2), c (N - 1)) t).2 =
      ∑ k ∈ Finset.range N, ((Chebyshev.T K k).eval x) • c k := by
    intro t
    induction t with
    | zero =>
      intro ht
      obtain ⟨m, rfl⟩ : ∃ m, N = m + 2 := ⟨N - 2, by omega⟩
      rw [Finset.sum_range_succ, Finset.sum_range_succ]
      simp [show m + 2 - 1 = m + 1 by omega]
    | succ t ih =>
      intro ht
      rw [← ih (by omega)]
      obtain ⟨m, hm⟩ : ∃ m, N - 2 - t = m + 1 := ⟨N - 2 - t - 1, by omega⟩
      rw [hm, show N - 2 - (t+1) = m by omega, Finset.sum_range_succ, forN_succ]
      dsimp only
      rw [show N - (t+3) = m by omega]
      have hT : (Chebyshev.T K ((m + 1 + 1 : ℕ) : ℤ)).eval x =
          2 * x * (Chebyshev.T K ((m + 1 : ℕ) : ℤ)).eval x - (Chebyshev.T K (m : ℤ)).eval x := by
        push_cast
        rw [show (m:ℤ) + 1 + 1 = (m:ℤ) + 2 by ring, Chebyshev.T_add_two]
        simp
      rw [hT]
      set p := forN (fun t (p : E × E) => (c (N - (t+3)) - p.2, p.1 + (2 * x) • p.2)) (c (N - 2), c (N - 1)) t
      module
  unfold chebval
  dsimp only
  by_cases h1 : N = 1
  · subst h1
    simp
  · rw [if_neg h1]
    by_cases h2 : N = 2
    · subst h2
      simp [Finset.sum_range_succ]
    · rw [if_neg h2, ← key (N-2) (by omega)]
      simp

/-! ## Non-vacuity and refutations -/

/-- The hypotheses hold for the families of the library: Chebyshev, Legendre, and a Jacobi family with three rows. -/
example : RegularParams (-(1/2)) (-(1/2)) ∧ RegularParams 0 0 ∧ RegularParams 1 2 ∧ cnF (-(1/2)) (-(1/2)) 0 = 1 := by
  refine ⟨Or.inl rfl, Or.inl rfl, Or.inr ⟨by norm_num, by norm_num⟩, ?_⟩
  unfold cnF
  simp [jacobi_zero]

/-- The recursion matrix is called with `L = N + 3` rows, and the largest entry read, `anm[M+1]`, is stored. -/
example (M N L : ℕ) (hM : M ≤ N) (hL : L = N + 3) : M + 1 < min L (L - 1) := by omega

/-- The compiled scalar product exchanges the two lengths.  A call with three points and two outputs sums over two points
only, and writes to entry 2 of an output array with two entries. -/
theorem C38_scalar_product_compiled_refuted :
    ∃ (x w u out : ℕ → ℚ), scalarProductPtr ⟨fun _ => 1, fun _ => 0, fun _ => 0⟩ x w 3 2 u out 0 ≠
        ∑ j ∈ Finset.range 3, w j * u j ∧
      scalarProductPtr ⟨fun _ => 1, fun _ => 0, fun _ => 0⟩ x w 3 2 u out 2 ≠ out 2 := by
  refine ⟨fun j => j, fun _ => 1, fun _ => 1, fun _ => 0, ?_, ?_⟩ <;> decide +kernel

end Shenfun
