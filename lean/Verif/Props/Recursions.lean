import Verif.Lemmas.MatPow
import Verif.Props.BoundaryExist
import Verif.Props.Sparse

/-!
# C52: recursion matrices
-/

namespace Shenfun

open Polynomial Spec

theorem sum_ite_mem {α : Type*} [DecidableEq α] (L : List α) (hL : L.Nodup) (d : α) (c : ℝ) :
    (L.map fun k => if k = d then c else 0).sum = if d ∈ L then c else 0 := by
  induction L with
  | nil => simp
  | cons x L ih =>
    rw [List.nodup_cons] at hL
    rw [List.map_cons, List.sum_cons, ih hL.2]
    by_cases h : x = d
    · subst h; simp [hL.1]
    · have : ¬ d = x := fun h' => h h'.symm
      simp [h, this]

theorem offsets_nodup (q : ℕ) : (offsets q).Nodup := by
  unfold offsets
  refine List.Nodup.map (fun x y h => ?_) List.nodup_range
  omega

theorem mem_offsets (q : ℕ) (k : ℤ) : k ∈ offsets q ↔ -q ≤ k ∧ k ≤ q := by
  unfold offsets
  simp only [List.mem_map, List.mem_range]
  constructor
  · rintro ⟨i, hi, rfl⟩; omega
  · intro h; exact ⟨(k + q).toNat, by omega, by omega⟩

theorem diagsEntry_offsets (e : ℤ → ℤ → ℝ) (q i j : ℕ) :
    diagsEntry ((offsets q).map fun k => (k, diagOf e k)) i j =
      if (i:ℤ) ≤ j + q ∧ (j:ℤ) ≤ i + q then e i j else 0 := by
  unfold diagsEntry
  rw [List.map_map]
  have : (fun d => diagEntry d i j) ∘ (fun k => (k, diagOf e k)) = fun k => if k = (j:ℤ) - i then e i j else 0 := by
    funext k
    simp only [Function.comp, diagEntry]
    by_cases h : (j:ℤ) = i + k
    · rw [if_pos h, if_pos (show k = (j:ℤ) - i by omega)]
      unfold diagOf
      by_cases hk : 0 ≤ k
      · simp only [if_pos hk, ← h]
      · simp only [if_neg hk]
        congr 1
        omega
    · rw [if_neg h, if_neg (show ¬ k = (j:ℤ) - i by omega)]
  rw [this, sum_ite_mem _ (offsets_nodup q)]
  simp only [mem_offsets]
  refine if_congr ?_ rfl rfl
  omega

theorem denseAt_new (d : List (ℤ × (ℕ → ℝ))) (M N i j : ℕ) (hi : i < M) (hj : j < N) :
    (SM.new d M N 1).denseAt i j = diagsEntry d i j := by
  have := SM.entry_new d M N (1:ℝ) i j
  rw [one_mul] at this
  rw [← this]
  unfold SM.denseAt SM.entry
  exact if_pos ⟨hi, hj⟩

theorem denseAt_pmat {mat : ℤ → ℤ → ℝ} (h : Tri mat) (q : ℕ) (gn : ℕ → ℝ) (M N i j : ℕ) (hi : i < M) (hj : j < N) :
    (pmat mat q gn M N).denseAt i j = gn j / gn i * matpowAux mat mat q i j := by
  unfold pmat
  rw [denseAt_new _ _ _ _ _ hi hj, diagsEntry_offsets]
  split_ifs with hc
  · rfl
  · rw [matpowAux_band h q i j (by omega), mul_zero]

/-- The family used by a space: `Q_n = g_n P_n^{(a,b)}` with nonzero scaling. -/
structure ScaledJacobi (a b : ℝ) (gn : ℕ → ℝ) (Q : ℕ → ℝ[X]) : Prop where
  ha : -1 < a
  hb : -1 < b
  hg : ∀ n, gn n ≠ 0
  hQ : ∀ n, Q n = C (gn n) * jacobi a b n

theorem scaledJacobi_chebT : ScaledJacobi (-(1/2)) (-(1/2)) (cnF (-(1/2)) (-(1/2))) chebT :=
  ⟨by norm_num, by norm_num, fun n => by
    unfold cnF; rw [jacobi_eval_one]; exact (one_div_pos.2 (gbinom_pos _ (by norm_num) n)).ne', fun n => by
    unfold cnF; rw [jacobi_eval_one]; exact chebyshevT_eq_jacobi n⟩

theorem scaledJacobi_chebU : ScaledJacobi (1/2) (1/2) (unF (1/2) (1/2)) chebU :=
  ⟨by norm_num, by norm_num, fun n => by
    unfold unF; rw [jacobi_eval_one]; exact (div_pos (by positivity) (gbinom_pos _ (by norm_num) n)).ne', fun n => by
    unfold unF; rw [jacobi_eval_one]; exact chebyshevU_eq_jacobi n⟩

theorem scaledJacobi_legP : ScaledJacobi 0 0 (fun _ => 1) legP :=
  ⟨by norm_num, by norm_num, fun _ => one_ne_zero, fun n => by simp [legP]⟩

theorem scaledJacobi_jacobi {a b : ℝ} (ha : -1 < a) (hb : -1 < b) : ScaledJacobi a b (fun _ => 1) (jacobi a b) :=
  ⟨ha, hb, fun _ => one_ne_zero, fun n => by simp⟩

theorem scaledJacobi_ultraQ {a : ℝ} (ha : -1 < a) : ScaledJacobi a a (cnF a a) (ultraQ a) :=
  ⟨ha, ha, fun n => by
    unfold cnF; rw [jacobi_eval_one]; exact (one_div_pos.2 (gbinom_pos _ ha n)).ne', fun _ => rfl⟩

theorem scaledJacobi_gegenC {a : ℝ} (ha : -1 < a) (h : a ≠ -(1/2)) : ScaledJacobi a a (wnF a) (gegenC a) := by
  refine ⟨ha, ha, fun n => ?_, fun _ => rfl⟩
  unfold wnF rf
  refine div_ne_zero (Finset.prod_ne_zero_iff.2 fun i _ => ?_) (Finset.prod_ne_zero_iff.2 fun i _ => ?_)
  · rcases i with _ | i
    · intro h'; apply h; push_cast at h'; linarith
    · have : (0:ℝ) ≤ i := by positivity
      push_cast
      exact ne_of_gt (by linarith)
  · have : (0:ℝ) ≤ i := by positivity
    exact ne_of_gt (by linarith)

theorem sum_extend {n q M : ℕ} (h : n + q < M) {mat : ℤ → ℤ → ℝ} (ht : Tri mat) (V : ℕ → ℝ[X]) :
    ∑ m ∈ Finset.range (n+q+1), C (matpowAux mat mat q m n) * V m =
      ∑ m ∈ Finset.range M, C (matpowAux mat mat q m n) * V m := by
  refine Finset.sum_subset (fun x hx => by simp at hx ⊢; omega) fun x _ hx => ?_
  simp at hx
  rw [matpowAux_band ht q x n (by left; omega), C_0, zero_mul]

/-- Expansion in the scaled family. -/
theorem scaled_sum {a b : ℝ} {gn : ℕ → ℝ} {Q : ℕ → ℝ[X]} (h : ScaledJacobi a b gn Q) {mat : ℤ → ℤ → ℝ} (ht : Tri mat)
    (q M N n : ℕ) (hN : n < N) (V : ℕ → ℝ[X]) :
    C (gn n) * ∑ m ∈ Finset.range M, C (matpowAux mat mat q m n) * V m =
      ∑ m ∈ Finset.range M, C ((pmat mat q gn M N).denseAt m n) * (C (gn m) * V m) := by
  rw [Finset.mul_sum]
  refine Finset.sum_congr rfl fun m hm => ?_
  rw [denseAt_pmat ht q gn M N m n (by simpa using hm) hN, ← mul_assoc, ← mul_assoc, ← C_mul, ← C_mul]
  congr 2
  have := h.hg m
  field_simp

/-- **C52** `x^q Q_n = Σ_m A^q[m,n] Q_m`: column `n` of `pmat(a, q, alf, bet, M, N, gn)` holds the coefficients of
`x^q Q_n`, for every power, every family and all shapes that can hold them. -/
theorem C52_a {a b : ℝ} {gn : ℕ → ℝ} {Q : ℕ → ℝ[X]} (h : ScaledJacobi a b gn Q) (q M N n : ℕ) (hN : n < N)
    (hM : n + q < M) :
    X^q * Q n = ∑ m ∈ Finset.range M, C ((pmat (aEntry a b) q gn M N).denseAt m n) * Q m := by
  have e := matpow_expand (tri_aEntry a b) q (fun j l => X^(q-j) * jacobi a b l) (fun j hj l => by
    show X^(q-j) * jacobi a b l = ∑ m ∈ Finset.range (l+2), C (aEntry a b m l) * (X^(q-(j+1)) * jacobi a b m)
    obtain ⟨t, ht⟩ : ∃ t, q - j = t + 1 := ⟨q-j-1, by omega⟩
    rw [show q - (j+1) = t by omega, ht, pow_succ, mul_assoc, aEntry_expand h.ha h.hb l, Finset.mul_sum]
    exact Finset.sum_congr rfl fun m _ => by ring) (Or.inl (by simp [aEntry, kdelta])) n
  simp only [Nat.sub_zero, Nat.sub_self, pow_zero, one_mul] at e
  rw [h.hQ n, mul_left_comm, e, sum_extend hM (tri_aEntry a b), scaled_sum h (tri_aEntry a b) q M N n hN]
  exact Finset.sum_congr rfl fun m _ => by rw [h.hQ m]

/-- The operator `(1-x²) d/dx`. -/
noncomputable def weightedD (p : ℝ[X]) : ℝ[X] := (1 - X^2) * derivative p

/-- **C52** `((1-x²)∂)^q Q_n = Σ_m C^q[m,n] Q_m`. -/
theorem C52_c {a b : ℝ} {gn : ℕ → ℝ} {Q : ℕ → ℝ[X]} (h : ScaledJacobi a b gn Q) (q M N n : ℕ) (hN : n < N)
    (hM : n + q < M) :
    weightedD^[q] (Q n) = ∑ m ∈ Finset.range M, C ((pmat (cEntry a b) q gn M N).denseAt m n) * Q m := by
  have hC : ∀ (r : ℕ) (c : ℝ) (p : ℝ[X]), weightedD^[r] (C c * p) = C c * weightedD^[r] p := by
    intro r c
    induction r with
    | zero => intro p; rfl
    | succ r ih =>
      intro p
      rw [Function.iterate_succ_apply, Function.iterate_succ_apply, ← ih]
      congr 1
      unfold weightedD
      rw [derivative_C_mul]; ring
  have hS : ∀ (r : ℕ) (s : Finset ℕ) (f : ℕ → ℝ[X]), weightedD^[r] (∑ i ∈ s, f i) = ∑ i ∈ s, weightedD^[r] (f i) := by
    intro r s
    induction r with
    | zero => intro f; rfl
    | succ r ih =>
      intro f
      simp only [Function.iterate_succ_apply]
      rw [← ih]
      congr 1
      unfold weightedD
      rw [derivative_sum, Finset.mul_sum]
  have e := matpow_expand (tri_cEntry a b) q (fun j l => weightedD^[q-j] (jacobi a b l)) (fun j hj l => by
    show weightedD^[q-j] (jacobi a b l) = ∑ m ∈ Finset.range (l+2), C (cEntry a b m l) * weightedD^[q-(j+1)] (jacobi a b m)
    obtain ⟨t, ht⟩ : ∃ t, q - j = t + 1 := ⟨q-j-1, by omega⟩
    rw [show q - (j+1) = t by omega, ht, Function.iterate_succ_apply]
    have : weightedD (jacobi a b l) = _ := cEntry_expand h.ha h.hb l
    rw [this, hS]
    exact Finset.sum_congr rfl fun m _ => by rw [hC]) (Or.inl (by simp [cEntry, kdelta])) n
  simp only [Nat.sub_zero, Nat.sub_self, Function.iterate_zero, id] at e
  rw [h.hQ n, hC, e, sum_extend hM (tri_cEntry a b), scaled_sum h (tri_cEntry a b) q M N n hN]
  exact Finset.sum_congr rfl fun m _ => by rw [h.hQ m]

theorem denseAt_pmatB (a b : ℝ) (q : ℕ) (gn : ℕ → ℝ) (M N i j : ℕ) (hi : i < M) (hj : j < N) :
    (pmatB a b q gn M N).denseAt i j =
      if i < q then 0 else gn j / gn i * matpowAux (bEntry a b) (bEntry a b) q i j := by
  unfold pmatB
  rw [denseAt_new _ _ _ _ _ hi hj, diagsEntry_offsets]
  by_cases hq : i < q
  · rw [if_pos (c := i < q) hq]
    simp [hq]
  · rw [if_neg (c := i < q) hq]
    split_ifs with hc h2 h2
    · omega
    · rfl
    · rw [matpowAux_band (tri_bEntry a b) q i j (by omega), mul_zero]

theorem ScaledJacobi.iterate_derivative_zero {a b : ℝ} {gn : ℕ → ℝ} {Q : ℕ → ℝ[X]} (h : ScaledJacobi a b gn Q)
    {m q : ℕ} (hm : m < q) : derivative^[q] (Q m) = 0 := by
  rw [h.hQ, iterate_derivative_C_mul, iterate_derivative_eq_zero ((natDegree_jacobi_le a b m).trans_lt hm), mul_zero]

/-- **C52** `Q_n = Σ_m B^q[m,n] ∂^q Q_m`: column `n` of `pmat(b, q, ...)` holds a `q`-fold antiderivative of `Q_n`, and
the first `q` rows, which do not contribute, are zero. -/
theorem C52_b {a b : ℝ} {gn : ℕ → ℝ} {Q : ℕ → ℝ[X]} (h : ScaledJacobi a b gn Q) (q M N n : ℕ) (hN : n < N)
    (hM : n + q < M) :
    Q n = ∑ m ∈ Finset.range M, C ((pmatB a b q gn M N).denseAt m n) * derivative^[q] (Q m) ∧
    ∀ m < q, m < M → (pmatB a b q gn M N).denseAt m n = 0 := by
  refine ⟨?_, fun m hm hM' => by rw [denseAt_pmatB _ _ _ _ _ _ _ _ hM' hN, if_pos hm]⟩
  have e := matpow_expand (tri_bEntry a b) q (fun j l => derivative^[j] (jacobi a b l)) (fun j hj l => by
    show derivative^[j] (jacobi a b l) = ∑ m ∈ Finset.range (l+2), C (bEntry a b m l) * derivative^[j+1] (jacobi a b m)
    conv_lhs => rw [bEntry_expand h.ha h.hb l]
    rw [iterate_derivative_sum]
    exact Finset.sum_congr rfl fun m _ => by rw [iterate_derivative_C_mul, ← Function.iterate_succ_apply])
    (Or.inr fun j _ => by simp [jacobi_zero, Function.iterate_succ_apply]) n
  simp only [Function.iterate_zero, id] at e
  rw [h.hQ n, e, sum_extend hM (tri_bEntry a b), Finset.mul_sum]
  refine Finset.sum_congr rfl fun m hm => ?_
  rw [denseAt_pmatB _ _ _ _ _ _ _ _ (by simpa using hm) hN]
  split_ifs with hq
  · rw [C_0, zero_mul, iterate_derivative_eq_zero ((natDegree_jacobi_le a b m).trans_lt hq), mul_zero, mul_zero]
  · rw [h.hQ m, iterate_derivative_C_mul, ← mul_assoc, ← mul_assoc, ← C_mul, ← C_mul]
    congr 2
    have := h.hg m
    field_simp

theorem psiF_ne_zero {a b : ℝ} (ha : -1 < a) (hb : -1 < b) {n k : ℕ} (h : k ≤ n) : psiF a b n k ≠ 0 := by
  unfold psiF rf
  refine div_ne_zero (Finset.prod_ne_zero_iff.2 fun i hi => ?_) (by positivity)
  have hi' : (i:ℝ) + 1 ≤ k := by exact_mod_cast Finset.mem_range.1 hi
  have hi0 : (0:ℝ) ≤ i := by positivity
  have : (k:ℝ) ≤ n := by exact_mod_cast h
  exact ne_of_gt (by linarith)

theorem iterate_derivative_jacobi_psi (a b : ℝ) (n k : ℕ) :
    derivative^[k] (jacobi a b (n+k)) = C (psiF a b (n+k) k) * jacobi (a+k) (b+k) n := by
  rw [iterate_derivative_jacobi]
  congr 2
  unfold psiF rf
  rw [Finset.prod_div_distrib, Finset.prod_const, Finset.card_range]
  push_cast
  rfl

theorem denseAt_aMat (k q : ℕ) (a b : ℝ) (gn : ℕ → ℝ) (M N i j : ℕ) (hi : i < M) (hj : j < N) :
    (aMat k q a b gn M N).denseAt i j = if i < k ∨ j < k then 0 else aUnder k q a b gn i j := by
  unfold aMat
  have e : ((offsets q).map fun o => (o, fun t => if t < k then (0:ℝ) else diagOf (aUnder k q a b gn) o t)) =
      (offsets q).map fun o => (o, diagOf (fun i j => if i < k ∨ j < k then 0 else aUnder k q a b gn i j) o) := by
    refine List.map_congr_left fun o _ => ?_
    refine Prod.ext rfl ?_
    funext t
    simp only [diagOf]
    by_cases ho : 0 ≤ o
    · simp only [if_pos ho]
      refine if_congr ?_ rfl rfl
      omega
    · simp only [if_neg ho]
      refine if_congr ?_ rfl rfl
      omega
  rw [e, denseAt_new _ _ _ _ _ hi hj, diagsEntry_offsets]
  simp only [Nat.cast_lt]
  split_ifs with h1 h2 h3
  · rfl
  · rfl
  · rfl
  · unfold aUnder
    rw [matpowAux_band (tri_aEntry _ _) q _ _ (by omega), mul_zero, mul_zero]

/-- **C52** `x^q ∂^k Q_n = Σ_m A^{(k,q)}[m,n] ∂^k Q_m` for the matrix of `a_mat(a_, k, q, ...)`. -/
theorem C52_a_under {a b : ℝ} {gn : ℕ → ℝ} {Q : ℕ → ℝ[X]} (h : ScaledJacobi a b gn Q) (k q M N n : ℕ)
    (hN : n < N) (hM : n + q < M) :
    X^q * derivative^[k] (Q n) =
      ∑ m ∈ Finset.range M, C ((aMat k q a b gn M N).denseAt m n) * derivative^[k] (Q m) := by
  have hk0 : (0:ℝ) ≤ k := by positivity
  rcases lt_or_ge n k with hn | hn
  · rw [h.iterate_derivative_zero hn, mul_zero]
    refine (Finset.sum_eq_zero fun m hm => ?_).symm
    rw [denseAt_aMat _ _ _ _ _ _ _ _ _ (by simpa using hm) hN, if_pos (Or.inr hn), C_0, zero_mul]
  · obtain ⟨n, rfl⟩ := Nat.exists_eq_add_of_le' hn
    obtain ⟨M', rfl⟩ : ∃ M', M = k + M' := ⟨M - k, by omega⟩
    have hs := scaledJacobi_jacobi (a := a + k) (b := b + k) (by linarith [h.ha]) (by linarith [h.hb])
    have e := C52_a hs q M' (n+1) n (by omega) (by omega)
    rw [h.hQ, iterate_derivative_C_mul, iterate_derivative_jacobi_psi, mul_left_comm, mul_left_comm (X^q), e,
      Finset.sum_range_add, Finset.sum_eq_zero (s := Finset.range k) fun m hm => by
        rw [h.iterate_derivative_zero (Finset.mem_range.1 hm), mul_zero], zero_add, Finset.mul_sum, Finset.mul_sum]
    refine Finset.sum_congr rfl fun m hm => ?_
    have hm' := Finset.mem_range.1 hm
    rw [denseAt_aMat _ _ _ _ _ _ _ _ _ (by omega) hN, if_neg (by omega), denseAt_pmat (tri_aEntry _ _) _ _ _ _ _ _ hm' (by omega),
      h.hQ, iterate_derivative_C_mul, show k + m = m + k by ring, iterate_derivative_jacobi_psi, ← mul_assoc, ← mul_assoc,
      ← mul_assoc, ← mul_assoc, ← C_mul, ← C_mul, ← C_mul, ← C_mul]
    congr 2
    unfold aUnder
    have h1 := h.hg (m+k)
    have h2 := psiF_ne_zero h.ha h.hb (show k ≤ m + k by omega)
    rw [show ((m + k : ℕ) : ℤ) - k = m by push_cast; ring, show ((n + k : ℕ) : ℤ) - k = n by push_cast; ring,
      Int.toNat_natCast, Int.toNat_natCast]
    field_simp

example : X^3 * chebT 5 = ∑ m ∈ Finset.range 9,
    C ((pmat (aEntry (-(1/2)) (-(1/2))) 3 (cnF (-(1/2)) (-(1/2))) 9 6).denseAt m 5) * chebT m :=
  C52_a scaledJacobi_chebT 3 9 6 5 (by norm_num) (by norm_num)

example : (X^2 : ℝ[X]) * derivative^[2] (legP 5) = ∑ m ∈ Finset.range 9,
    C ((aMat 2 2 0 0 (fun _ => 1) 9 6).denseAt m 5) * derivative^[2] (legP m) :=
  C52_a_under scaledJacobi_legP 2 2 9 6 5 (by norm_num) (by norm_num)

/-- **C52** The parameter line `alf + bet = -1` (other than Chebyshev): sympy cancels the factor `m - 1` of the lower
diagonal before the index is inserted, and the entry `(1,0)` becomes 1.  No value of the diagonal entry makes the
recursion for `Q_0` right. -/
theorem C52_a_refuted_lower {a b : ℝ} (hab : a + b = -1) (d : ℝ) :
    X * jacobi a b 0 ≠ C d * jacobi a b 0 + C (aLowerSimplified 0) * jacobi a b 1 := by
  intro h
  rw [jacobi_one, jacobi_zero] at h
  have := congrArg (fun p => p.coeff 1) h
  simp [aLowerSimplified, coeff_one, coeff_C] at this
  linarith

/-- **C52** The parameter line `alf = -bet ≠ 0`: the expression of the diagonal simplifies to zero, the diagonal is left
out, and no lower entry makes the recursion for `Q_0` right. -/
theorem C52_a_refuted_diagonal {a b : ℝ} (hab : a + b = 0) (h0 : a ≠ 0) (c : ℝ) :
    X * jacobi a b 0 ≠ C c * jacobi a b 1 := by
  intro h
  rw [jacobi_one, jacobi_zero] at h
  have h1 := congrArg (fun p => p.coeff 1) h
  have h2 := congrArg (fun p => p.coeff 0) h
  simp [coeff_C] at h1 h2
  have : c = 1 := by rw [show a + b + 2 = 2 by linarith] at h1; linarith
  subst this
  apply h0
  rcases h2 with h2 | h2 <;> linarith

end Shenfun
