import Verif.Props.Recursions
import Verif.Props.Norms

/-!
# C53: shifted matrices and `Lmat`
-/

namespace Shenfun

open Polynomial Spec

theorem diagEntry_shift (d : ℤ × (ℕ → ℝ)) (r s m n : ℕ) :
    diagEntry (d.1 + (r:ℤ) - (s:ℤ),
      fun t : ℕ => d.2 ((t:ℤ) + max ((r:ℤ) + min d.1 0) (s - max d.1 0)).toNat) m n = diagEntry d (m + r) (n + s) := by
  unfold diagEntry
  by_cases h : (n:ℤ) = m + (d.1 + r - s)
  · rw [if_pos h, if_pos (show ((n + s : ℕ) : ℤ) = ((m + r : ℕ) : ℤ) + d.1 by push_cast; omega)]
    show d.2 _ = d.2 _
    refine congrArg d.2 ?_
    show (((if 0 ≤ d.1 + (r:ℤ) - s then m else n : ℕ) : ℤ) + max ((r:ℤ) + min d.1 0) (s - max d.1 0)).toNat =
      if 0 ≤ d.1 then m + r else n + s
    split_ifs <;> omega
  · rw [if_neg h, if_neg (show ¬ ((n + s : ℕ) : ℤ) = ((m + r : ℕ) : ℤ) + d.1 by push_cast; omega)]

/-- **C53** Entry `(m, n)` of `ShiftedMatrix(A, q, r, s)` is entry `(m+r, n+s)` of `A`, for every unscaled `A` and all
shifts. -/
theorem C53_shifted (A : SM ℝ) (r s M N m n : ℕ) (hm : m < M) (hn : n < N) :
    (shifted A r s M N).denseAt m n = diagsEntry A.diags (m + r) (n + s) := by
  unfold shifted
  rw [denseAt_new _ _ _ _ _ hm hn]
  unfold diagsEntry
  rw [List.map_map]
  congr 1
  exact List.map_congr_left fun d _ => diagEntry_shift d r s m n

/-- **C53** The slices taken by `ShiftedMatrix` lie within the stored diagonals and have the length the new shape needs:
`A` has shape `(M + max r s, N + max r s)`, its diagonal `key` has the length of that shape, and the slice starts at a
nonnegative index. -/
theorem C53_slices (r s M N : ℕ) (key : ℤ) :
    let j := max ((r:ℤ) + min key 0) (s - max key 0)
    let nkey := key + r - s
    let w : ℤ := max (r:ℤ) s
    let len : ℤ := if 0 ≤ key then min (N + w - key) (M + w) else min (M + w + key) (N + w)
    let new : ℤ := if 0 ≤ nkey then min (N - nkey) M else min (M + nkey) N
    0 ≤ j ∧ j + new ≤ len := by
  intro j nkey w len new
  have h1 : j = max ((r:ℤ) + min key 0) (s - max key 0) := rfl
  have h2 : nkey = key + r - s := rfl
  have h0 : w = max (r:ℤ) s := rfl
  have h3 : len = if 0 ≤ key then min ((N:ℤ) + w - key) (M + w) else min (M + w + key) (N + w) := rfl
  have h4 : new = if 0 ≤ nkey then min (N - nkey) (M:ℤ) else min (M + nkey) (N:ℤ) := rfl
  clear_value j nkey w len new
  split_ifs at h3 h4 <;> omega

/-- **C53** A scale factor of the argument is lost: the shifted copy of a `SparseMatrix` with `scale = 2` and diagonal
ones has entries 1, not 2. -/
theorem C53_scale_refuted : ∃ A : SM ℝ, A.denseAt 1 1 = 2 ∧ (shifted A 1 1 1 1).denseAt 0 0 = 1 := by
  refine ⟨⟨2, 2, 2, [(0, fun _ => 1)]⟩, ?_, ?_⟩
  · simp [SM.denseAt, diagsEntry, diagEntry]
  · rw [C53_shifted _ _ _ _ _ _ _ (by norm_num) (by norm_num)]
    simp [diagsEntry, diagEntry]

/-- The test function of `Lmat`, documented in `/repo/shenfun/jacobi/recursions.py:609-613`. -/
noncomputable def phiK (a b : ℝ) (gn : ℕ → ℝ) (Q : ℕ → ℝ[X]) (k m : ℕ) : ℝ[X] :=
  C (1 / hF a b (m+k) k gn) * ((1 - X^2)^k * derivative^[k] (Q (m+k)))

theorem hF_pos {a b : ℝ} {gn : ℕ → ℝ} {Q : ℕ → ℝ[X]} (h : ScaledJacobi a b gn Q) {k : ℕ} (hk : 1 ≤ k) (m : ℕ) :
    0 < hF a b (m+k) k gn := by
  have hk0 : (0:ℝ) ≤ k := by positivity
  have := C51_h h.ha h.hb gn k (m+k) (m+k) (by omega) (by omega) (Or.inl (by omega))
  rw [if_pos rfl] at this
  rw [← this]
  refine wInt_sq_pos (by linarith [h.ha]) (by linarith [h.hb]) ?_
  rw [iterate_derivative_C_mul, iterate_derivative_jacobi_psi]
  refine mul_ne_zero (C_ne_zero.2 (h.hg _)) (mul_ne_zero (C_ne_zero.2 (psiF_ne_zero h.ha h.hb (by omega))) ?_)
  intro h0
  have hd := degree_jacobi (a := a + k) (b := b + k) (by linarith [h.ha]) (by linarith [h.hb]) m
  rw [h0, degree_zero] at hd
  exact absurd hd (by simp)

/-- `(∂^k Q_j, φ_m)_ω` is the Kronecker delta. -/
theorem phiK_dual {a b : ℝ} {gn : ℕ → ℝ} {Q : ℕ → ℝ[X]} (h : ScaledJacobi a b gn Q) {k : ℕ} (hk : 1 ≤ k) (m j : ℕ) :
    wInt a b (phiK a b gn Q k m * derivative^[k] (Q j)) = if j = m + k then 1 else 0 := by
  rcases lt_or_ge j k with hj | hj
  · rw [h.iterate_derivative_zero hj, mul_zero, wInt_zero, if_neg (by omega)]
  · unfold phiK
    rw [mul_assoc, wInt_C_mul, mul_assoc, ← wInt_add_nat h.ha h.hb, h.hQ, h.hQ,
      C51_h h.ha h.hb gn k _ _ (by omega) hj (Or.inl (by omega))]
    by_cases hjm : j = m + k
    · subst hjm
      rw [if_pos rfl, if_pos rfl, one_div_mul_cancel (hF_pos h hk m).ne']
    · rw [if_neg (Ne.symm hjm), if_neg hjm, mul_zero]

/-- Entries of the two factors. -/
noncomputable def aCut (k q : ℕ) (a b : ℝ) (gn : ℕ → ℝ) (i j : ℕ) : ℝ :=
  if i < k ∨ j < k then 0 else aUnder k q a b gn i j

noncomputable def bCut (l : ℕ) (a b : ℝ) (gn : ℕ → ℝ) (i j : ℕ) : ℝ :=
  if i < l then 0 else gn j / gn i * matpowAux (bEntry a b) (bEntry a b) l i j

theorem bCut_band (l : ℕ) (a b : ℝ) (gn : ℕ → ℝ) (i j : ℕ) (h : j + l < i) : bCut l a b gn i j = 0 := by
  unfold bCut
  split_ifs
  · rfl
  · rw [matpowAux_band (tri_bEntry a b) l i j (by left; omega), mul_zero]

theorem bCut_zero {a b : ℝ} {gn : ℕ → ℝ} {Q : ℕ → ℝ[X]} (h : ScaledJacobi a b gn Q) (i j : ℕ) :
    bCut 0 a b gn i j = if i = j then 1 else 0 := by
  unfold bCut
  rw [if_neg (by omega)]
  show gn j / gn i * kdelta i j = _
  unfold kdelta
  by_cases hij : i = j
  · subst hij; rw [if_pos rfl, if_pos rfl, mul_one, div_self (h.hg i)]
  · rw [if_neg (by omega), if_neg hij, mul_zero]

theorem aCut_zero {a b : ℝ} {gn : ℕ → ℝ} {Q : ℕ → ℝ[X]} (h : ScaledJacobi a b gn Q) (k i j : ℕ) (hi : k ≤ i) :
    aCut k 0 a b gn i j = if i = j then 1 else 0 := by
  unfold aCut
  by_cases hij : i = j
  · subst hij
    rw [if_neg (by omega), if_pos rfl]
    unfold aUnder
    show _ * (_ * kdelta _ _) = _
    unfold kdelta
    rw [if_pos rfl, mul_one, Int.toNat_natCast, div_self (h.hg i), one_mul, div_self (psiF_ne_zero h.ha h.hb hi)]
  · rw [if_neg hij]
    split_ifs
    · rfl
    · unfold aUnder
      show _ * (_ * kdelta _ _) = _
      unfold kdelta
      rw [if_neg (by omega), mul_zero, mul_zero]

/-- The inner product of `Lmat` as a sum over products of entries. -/
theorem inner_eq_sum {a b : ℝ} {gn : ℕ → ℝ} {Q : ℕ → ℝ[X]} (h : ScaledJacobi a b gn Q) {k q l : ℕ} (hk : 1 ≤ k)
    (hl : l ≤ k) (m n S : ℕ) (hS : n + l < S) :
    wInt a b (derivative^[k-l] (Q n) * (X^q * phiK a b gn Q k m)) =
      ∑ i ∈ Finset.range S, aCut k q a b gn (m+k) i * bCut l a b gn i n := by
  have hB : derivative^[k-l] (Q n) = ∑ i ∈ Finset.range S, C (bCut l a b gn i n) * derivative^[k] (Q i) := by
    have := (C52_b h l S (n+1) n (by omega) hS).1
    conv_lhs => rw [this]
    rw [iterate_derivative_sum]
    refine Finset.sum_congr rfl fun i hi => ?_
    rw [denseAt_pmatB _ _ _ _ _ _ _ _ (Finset.mem_range.1 hi) (by omega), iterate_derivative_C_mul,
      ← Function.iterate_add_apply, Nat.sub_add_cancel hl]
    rfl
  have hA : ∀ i, X^q * derivative^[k] (Q i) =
      ∑ j ∈ Finset.range (i + q + m + k + 1), C (aCut k q a b gn j i) * derivative^[k] (Q j) := fun i => by
    rw [C52_a_under h k q (i + q + m + k + 1) (i+1) i (by omega) (by omega)]
    refine Finset.sum_congr rfl fun j hj => ?_
    rw [denseAt_aMat _ _ _ _ _ _ _ _ _ (Finset.mem_range.1 hj) (by omega)]
    rfl
  rw [hB, Finset.sum_mul, wInt_sum h.ha h.hb]
  refine Finset.sum_congr rfl fun i _ => ?_
  rw [show C (bCut l a b gn i n) * derivative^[k] (Q i) * (X^q * phiK a b gn Q k m) =
    C (bCut l a b gn i n) * (phiK a b gn Q k m * (X^q * derivative^[k] (Q i))) by ring, wInt_C_mul, hA, Finset.mul_sum,
    wInt_sum h.ha h.hb, Finset.sum_eq_single (m+k)]
  · rw [mul_left_comm, wInt_C_mul, phiK_dual h hk, if_pos rfl]; ring
  · intro j _ hj
    rw [mul_left_comm, wInt_C_mul, phiK_dual h hk, if_neg hj, mul_zero]
  · intro hnot
    exact absurd (Finset.mem_range.2 (by omega)) hnot

theorem diagsEntry_pmatB (a b : ℝ) (l : ℕ) (gn : ℕ → ℝ) (M N i j : ℕ) :
    diagsEntry (pmatB a b l gn M N).diags i j = bCut l a b gn i j := by
  have h1 := denseAt_pmatB a b l gn (max M (i+1)) (max N (j+1)) i j (by omega) (by omega)
  have h2 := denseAt_new ((offsets l).map fun k =>
    (k, diagOf (fun i j => if i < l then 0 else matpow (bEntry a b) l gn i j) k)) (max M (i+1)) (max N (j+1)) i j
      (by omega) (by omega)
  rw [show diagsEntry (pmatB a b l gn M N).diags i j = _ from SM.diagsEntry_perm (SM.sortD_perm _) i j]
  rw [← h2]
  exact h1

theorem diagsEntry_aMat (k q : ℕ) (a b : ℝ) (gn : ℕ → ℝ) (M N i j : ℕ) :
    diagsEntry (aMat k q a b gn M N).diags i j = aCut k q a b gn i j := by
  have h1 := denseAt_aMat k q a b gn (max M (i+1)) (max N (j+1)) i j (by omega) (by omega)
  have h2 := denseAt_new ((offsets q).map fun o => (o, fun t => if t < k then (0:ℝ) else diagOf (aUnder k q a b gn) o t))
    (max M (i+1)) (max N (j+1)) i j (by omega) (by omega)
  rw [show diagsEntry (aMat k q a b gn M N).diags i j = _ from SM.diagsEntry_perm (SM.sortD_perm _) i j]
  rw [← h2]
  exact h1

theorem denseAt_I (k M N m n : ℕ) (hm : m < M) (hn : n < N) :
    (SM.new [((k:ℤ), fun _ => (1:ℝ))] M N 1).denseAt m n = if n = m + k then 1 else 0 := by
  rw [denseAt_new _ _ _ _ _ hm hn]
  simp only [diagsEntry, List.map_cons, List.map_nil, List.sum_cons, List.sum_nil, add_zero, diagEntry]
  refine if_congr ?_ rfl rfl
  omega

/-- **C53** Entry `(m, n)` of `Lmat(k, q, l, M, N, alf, bet, gn)` is the documented inner product
`(∂^{k-l} Q_n, x^q φ^{(k)}_m)_ω`, for every Jacobi family, all `1 ≤ k`, `l ≤ k`, all powers `q` and all shapes. -/
theorem C53_Lmat {a b : ℝ} {gn : ℕ → ℝ} {Q : ℕ → ℝ[X]} (h : ScaledJacobi a b gn Q) {k q l : ℕ} (hk : 1 ≤ k)
    (hl : l ≤ k) (M N m n : ℕ) (hm : m < M) (hn : n < N) :
    Lmat k q l M N a b gn m n = wInt a b (derivative^[k-l] (Q n) * (X^q * phiK a b gn Q k m)) := by
  have hA : ∀ i < N, (shifted (aMat k q a b gn (M + max k k) (N + max k k)) k k M N).denseAt m i =
      aCut k q a b gn (m+k) (i+k) := fun i hi => by
    rw [C53_shifted _ _ _ _ _ _ _ hm hi, diagsEntry_aMat]
  rw [inner_eq_sum h hk hl m n (k + N + l) (by omega)]
  unfold Lmat
  by_cases h1 : l = 0 ∧ q = 0
  · obtain ⟨rfl, rfl⟩ := h1
    rw [if_pos ⟨rfl, rfl⟩]
    show (SM.new [((k:ℤ), fun _ => (1:ℝ))] M N 1).denseAt m n = _
    rw [denseAt_I _ _ _ _ _ hm hn, Finset.sum_eq_single n]
    · rw [bCut_zero h, if_pos rfl, mul_one, aCut_zero h k _ _ (by omega)]
      exact if_congr eq_comm rfl rfl
    · intro i _ hi
      rw [bCut_zero h, if_neg hi, mul_zero]
    · intro hnot
      exact absurd (Finset.mem_range.2 (by omega)) hnot
  · rw [if_neg h1]
    by_cases h2 : l = 0
    · subst h2
      rw [if_pos rfl]
      show ∑ i ∈ Finset.range N, _ * (SM.new [((k:ℤ), fun _ => (1:ℝ))] N N 1).denseAt i n = _
      rw [Finset.sum_eq_single (f := fun i => aCut k q a b gn (m+k) i * bCut 0 a b gn i n) n]
      · rw [bCut_zero h, if_pos rfl, mul_one]
        rcases lt_or_ge n k with hnk | hnk
        · rw [show aCut k q a b gn (m+k) n = 0 from if_pos (Or.inr hnk)]
          refine Finset.sum_eq_zero fun i hi => ?_
          rw [denseAt_I _ _ _ _ _ (Finset.mem_range.1 hi) hn, if_neg (by omega), mul_zero]
        · rw [Finset.sum_eq_single (n-k)]
          · rw [denseAt_I _ _ _ _ _ (by omega) hn, if_pos (by omega), mul_one, hA _ (by omega), Nat.sub_add_cancel hnk]
          · intro i hi hne
            rw [denseAt_I _ _ _ _ _ (Finset.mem_range.1 hi) hn, if_neg (by omega), mul_zero]
          · intro hnot
            exact absurd (Finset.mem_range.2 (by omega)) hnot
      · intro i _ hi
        rw [bCut_zero h, if_neg hi, mul_zero]
      · intro hnot
        exact absurd (Finset.mem_range.2 (by omega)) hnot
    · rw [if_neg h2]
      by_cases h3 : q = 0
      · subst h3
        rw [if_pos rfl, C53_shifted _ _ _ _ _ _ _ hm hn, diagsEntry_pmatB, Nat.add_zero]
        by_cases hmk : m + k < k + N + l
        · rw [Finset.sum_eq_single (m+k)]
          · rw [aCut_zero h k _ _ (by omega), if_pos rfl, one_mul]
          · intro i _ hi
            rw [aCut_zero h k _ _ (by omega), if_neg (Ne.symm hi), zero_mul]
          · intro hnot
            exact absurd (Finset.mem_range.2 (by omega)) hnot
        · rw [bCut_band _ _ _ _ _ _ (by omega)]
          refine (Finset.sum_eq_zero fun i hi => ?_).symm
          have := Finset.mem_range.1 hi
          rw [aCut_zero h k _ _ (by omega), if_neg (by omega), zero_mul]
      · rw [if_neg h3]
        rw [show k + N + l = k + (N + l) by ring, Finset.sum_range_add, Finset.sum_range_add,
          Finset.sum_eq_zero (s := Finset.range k) fun i hi => by
            rw [show aCut k q a b gn (m+k) i = 0 from if_pos (Or.inr (Finset.mem_range.1 hi)), zero_mul], zero_add,
          Finset.sum_eq_zero (s := Finset.range l) fun i hi => by rw [bCut_band _ _ _ _ _ _ (by omega), mul_zero], add_zero]
        refine Finset.sum_congr rfl fun i hi => ?_
        have hi' := Finset.mem_range.1 hi
        rw [hA _ hi', C53_shifted _ _ _ _ _ _ _ hi' hn, diagsEntry_pmatB, Nat.add_zero, add_comm k i]

example : Lmat 2 2 1 10 12 (-(1/2)) (-(1/2)) (cnF (-(1/2)) (-(1/2))) 3 4 = wInt (-(1/2)) (-(1/2))
    (derivative^[1] (chebT 4) * (X^2 * phiK (-(1/2)) (-(1/2)) (cnF (-(1/2)) (-(1/2))) chebT 2 3)) :=
  C53_Lmat scaledJacobi_chebT (by norm_num) (by norm_num) 10 12 3 4 (by norm_num) (by norm_num)

end Shenfun
