import Verif.Lemmas.GaussRoots

/-!
# C63: Gauss and Gauss-Lobatto rules of the Jacobi families
-/

namespace Shenfun

open Real Spec Polynomial Finset

/-- What the Newton iteration of `/repo/shenfun/legendre/lobatto.py:20-39` has to return: the roots of `P_{N-1}'` in
`(-1, 0)`, in increasing order, at the positions `1, ..., N/2-1`. -/
structure LobattoRoots (N : ℕ) (y : ℕ → ℝ) : Prop where
  mem : ∀ j, 1 ≤ j → j < N / 2 → -1 < y j ∧ y j < 0
  mono : ∀ i j, 1 ≤ i → i < j → j < N / 2 → y i < y j
  root : ∀ j, 1 ≤ j → j < N / 2 → (derivative (legP (N - 1))).eval (y j) = 0

/-- **C63** The Gauss-Lobatto points are strictly increasing from -1 to 1. -/
theorem C63_lobatto_increasing {N : ℕ} (hN : 2 ≤ N) {y : ℕ → ℝ} (hy : LobattoRoots N y) :
    lobattoX N y 0 = -1 ∧ lobattoX N y (N-1) = 1 ∧ ∀ i j, i < j → j < N → lobattoX N y i < lobattoX N y j := by
  refine ⟨by simp [lobattoX], by simp only [lobattoX]; rw [if_neg (by omega), if_pos trivial], fun i j hij hj => ?_⟩
  -- the value is in the stated range
  have hval : ∀ k < N, (k = 0 ∧ lobattoX N y k = -1) ∨ (k = N - 1 ∧ lobattoX N y k = 1) ∨
      (1 ≤ k ∧ k < N / 2 ∧ lobattoX N y k = y k) ∨
      (N / 2 ≤ k ∧ k < N - 1 ∧ N - 1 - k < N / 2 ∧ lobattoX N y k = -y (N - 1 - k)) ∨
      (k = N / 2 ∧ N % 2 = 1 ∧ lobattoX N y k = 0) := by
    intro k hk
    by_cases h0 : k = 0
    · left; exact ⟨h0, by simp [lobattoX, h0]⟩
    by_cases h1 : k = N - 1
    · right; left; exact ⟨h1, by simp only [lobattoX]; rw [if_neg h0, if_pos h1]⟩
    by_cases h2 : k < N / 2
    · right; right; left
      exact ⟨by omega, h2, by simp only [lobattoX]; rw [if_neg h0, if_neg h1, if_pos h2]⟩
    by_cases h3 : k = N / 2 ∧ N % 2 = 1
    · right; right; right; right
      refine ⟨h3.1, h3.2, ?_⟩
      simp only [lobattoX]
      rw [if_neg h0, if_neg h1, if_neg h2, if_neg (by omega : ¬ N % 2 = 0), if_neg (by omega)]
    · right; right; right; left
      refine ⟨by omega, by omega, by omega, ?_⟩
      simp only [lobattoX]
      rw [if_neg h0, if_neg h1, if_neg h2]
      by_cases he : N % 2 = 0
      · rw [if_pos he, if_pos (by omega), show N / 2 - 1 - (k - N / 2) = N - 1 - k by omega]
      · rw [if_neg he, if_pos (by omega), show N / 2 - 1 - (k - (N / 2 + 1)) = N - 1 - k by omega]
  rcases hval i (by omega) with ⟨hi, ei⟩ | ⟨hi, ei⟩ | ⟨hi, hi', ei⟩ | ⟨hi, hi', hi'', ei⟩ | ⟨hi, hi', ei⟩ <;>
  rcases hval j hj with ⟨hj, ej⟩ | ⟨hj, ej⟩ | ⟨hj, hj', ej⟩ | ⟨hj, hj', hj'', ej⟩ | ⟨hj, hj', ej⟩ <;>
  rw [ei, ej] <;> first | (exfalso; omega) | skip
  · norm_num
  · exact (hy.mem j (by omega) (by omega)).1
  · have := (hy.mem (N-1-j) (by omega) (by omega)).2; linarith
  · norm_num
  · have := (hy.mem i (by omega) (by omega)).2; linarith
  · exact hy.mono i j (by omega) (by omega) (by omega)
  · have h1 := (hy.mem i (by omega) (by omega)).2
    have h2 := (hy.mem (N-1-j) (by omega) (by omega)).2
    linarith
  · exact (hy.mem i (by omega) (by omega)).2
  · have := (hy.mem (N-1-i) (by omega) (by omega)).1; linarith
  · have := hy.mono (N-1-j) (N-1-i) (by omega) (by omega) (by omega); linarith
  · norm_num
  · have := (hy.mem (N-1-j) (by omega) (by omega)).2; linarith

theorem lobattoX_nodes {N : ℕ} (hN : 2 ≤ N) {y : ℕ → ℝ} (hy : LobattoRoots N y) :
    LobattoNodes (N-1) (lobattoX N y) := by
  obtain ⟨h0, h1, hm⟩ := C63_lobatto_increasing hN hy
  refine ⟨fun i hi j hj e => ?_, fun j hj => ?_⟩
  · rcases lt_trichotomy i j with l | l | l
    · exact absurd e (hm i j l (by omega)).ne
    · exact l
    · exact absurd e (hm j i l (by omega)).ne'
  · have hpar := derivative_legP_eval_neg (N-1)
    rw [eval_mul]
    by_cases c0 : j = 0
    · rw [c0, h0]; simp
    by_cases c1 : j = N - 1
    · rw [c1, h1]; simp
    have hd : (derivative (legP (N-1))).eval (lobattoX N y j) = 0 := by
      simp only [lobattoX]
      rw [if_neg c0, if_neg c1]
      split_ifs with c2 c3 c4 c4
      · exact hy.root j (by omega) c2
      · rw [hpar, hy.root _ (by omega) (by omega), mul_zero]
      · omega
      · rw [hpar, hy.root _ (by omega) (by omega), mul_zero]
      · have := hpar 0
        rw [neg_zero, show N - 1 = 2 * (N / 2) by omega, pow_mul, neg_one_sq, one_pow, ← show N - 1 = 2 * (N / 2) by omega]
          at this
        linarith
    rw [hd, mul_zero]

/-- **C63** The points and weights of `legendre_lobatto_nodes_and_weights` integrate every polynomial of degree at most
`2N-3` exactly. -/
theorem C63_lobatto {N : ℕ} (hN : 2 ≤ N) {y : ℕ → ℝ} (hy : LobattoRoots N y) :
    ExactRule 0 0 (lobattoX N y) (lobattoW N (lobattoX N y)) N (2 * N - 2) := by
  have hx := lobattoX_nodes hN hy
  obtain ⟨w, hw⟩ := lobatto_exists_weights (by omega : 1 ≤ N - 1) hx
  intro p hp
  have := hw p (by rwa [show 2 * (N - 1) = 2 * N - 2 by omega])
  rw [← this, show N - 1 + 1 = N by omega]
  refine sum_congr rfl fun j hj => ?_
  rw [lobatto_weights (by omega : 1 ≤ N - 1) hx hw j (by rw [mem_range] at hj; omega), show N - 1 + 1 = N by omega]

/-- **C63** The discrete norms with Gauss-Lobatto points are the ones of `l2_norm_sq`: those of the integral except the last
one, `2/(N-1)`. -/
theorem C63_lobatto_norms {N : ℕ} (hN : 2 ≤ N) {y : ℕ → ℝ} (hy : LobattoRoots N y) :
    DiscreteNorms (lobattoX N y) (lobattoW N (lobattoX N y)) N N legP (legNormSq true N) := by
  have h := C63_lobatto hN hy
  have := lobatto_norms (by omega : 1 ≤ N - 1) (lobattoX_nodes hN hy)
    (w := lobattoW N (lobattoX N y)) (by rwa [show N - 1 + 1 = N by omega, show 2 * (N-1) = 2 * N - 2 by omega])
  rwa [show N - 1 + 1 = N by omega] at this

/-- **C63** With the exact norm of the last function, `2/(2N-1)`, in place of `2/(N-1)`, the discrete norms would be wrong. -/
theorem C63_lobatto_last_norm {N : ℕ} (hN : 2 ≤ N) {y : ℕ → ℝ} (hy : LobattoRoots N y) :
    ¬ DiscreteNorms (lobattoX N y) (lobattoW N (lobattoX N y)) N N legP (legNormSq false N) := by
  intro h
  have h1 := h (N-1) (by omega) (N-1) (by omega)
  rw [C63_lobatto_norms hN hy (N-1) (by omega) (N-1) (by omega), if_pos rfl, if_pos rfl] at h1
  unfold legNormSq at h1
  rw [if_pos ⟨rfl, rfl⟩, if_neg (by simp)] at h1
  have hc : ((N - 1 : ℕ) : ℝ) = N - 1 := by push_cast [Nat.cast_sub (show 1 ≤ N by omega)]; ring
  rw [hc] at h1
  have h2 : (2:ℝ) ≤ N := by exact_mod_cast hN
  rw [div_eq_div_iff (by linarith) (by linarith)] at h1
  linarith

/-- **C63** The roots the iteration looks for exist, for every `N`, and are unique. -/
theorem C63_lobatto_roots (N : ℕ) : ∃ y, LobattoRoots N y ∧
    ∀ y', LobattoRoots N y' → ∀ j, 1 ≤ j → j < N / 2 → y' j = y j := by
  by_cases hN : N < 4
  · exact ⟨fun _ => 0, ⟨fun j _ _ => by omega, fun i j _ _ _ => by omega, fun j _ _ => by omega⟩, fun _ _ j _ _ => by omega⟩
  obtain ⟨m, rfl⟩ : ∃ m, N = m + 2 := ⟨N - 2, by omega⟩
  have hder : derivative (legP (m+1)) = C (((m:ℝ) + 2)/2) * jacobi 1 1 m := by
    have := derivative_jacobi 0 0 m
    unfold legP
    rw [this]; norm_num; left; ring_nf
  have hev : ∀ t, (derivative (legP (m+1))).eval t = 0 ↔ (jacobi 1 1 m).eval t = 0 := by
    intro t
    rw [hder, eval_mul, eval_C, mul_eq_zero]
    exact ⟨fun h => h.resolve_left (by positivity), Or.inr⟩
  obtain ⟨x, hx⟩ := exists_jacobi_roots m (a := 1) (b := 1) (by norm_num) (by norm_num)
  have hdeg := degree_jacobi (a := 1) (b := 1) (by norm_num) (by norm_num) m
  have hrefl : IncRoots m (fun j => - x (m - 1 - j)) (jacobi 1 1 m) := by
    refine ⟨fun j hj => ?_, fun i j hij hj => ?_, fun j hj => ?_⟩
    · have := hx.1 (m-1-j) (by omega)
      constructor <;> linarith
    · have := hx.2.1 (m-1-j) (m-1-i) (by omega) (by omega)
      linarith
    · rw [← hev, derivative_legP_eval_neg, (hev _).2 (hx.2.2 (m-1-j) (by omega)), mul_zero]
  have hsym : ∀ j < m, x j = - x (m-1-j) := fun j hj => hx.unique hdeg hrefl j hj
  have hneg : ∀ j, 2 * j + 1 < m → x j < 0 := by
    intro j hj
    have h1 := hx.2.1 j (m-1-j) (by omega) (by omega)
    have h2 := hsym j (by omega)
    linarith
  refine ⟨fun j => x (j-1), ⟨fun j h1 h2 => ⟨(hx.1 (j-1) (by omega)).1, hneg (j-1) (by omega)⟩,
    fun i j h1 h2 h3 => hx.2.1 _ _ (by omega) (by omega),
    fun j h1 h2 => (hev _).2 (hx.2.2 (j-1) (by omega))⟩, fun y' hy' j h1 h2 => ?_⟩
  -- the interior Lobatto points are the roots in increasing order
  obtain ⟨e0, e1, em⟩ := C63_lobatto_increasing (N := m+2) (by omega) hy'
  have hn := lobattoX_nodes (N := m+2) (by omega) hy'
  have hI : IncRoots m (fun j => lobattoX (m+2) y' (j+1)) (jacobi 1 1 m) := by
    refine ⟨fun j hj => ?_, fun i j hij hj => em _ _ (by omega) (by omega), fun j hj => ?_⟩
    · have a1 := em 0 (j+1) (by omega) (by omega)
      have a2 := em (j+1) (m+2-1) (by omega) (by omega)
      rw [e0] at a1; rw [e1] at a2
      exact ⟨a1, a2⟩
    · have a1 := em 0 (j+1) (by omega) (by omega)
      have a2 := em (j+1) (m+2-1) (by omega) (by omega)
      rw [e0] at a1; rw [e1] at a2
      have h0 := hn.2 (j+1) (by omega)
      rw [show m + 2 - 1 = m + 1 by omega, eval_mul] at h0
      rw [← hev]
      refine (mul_eq_zero.1 h0).resolve_left ?_
      simp only [eval_sub, eval_one, eval_pow, eval_X]
      nlinarith
  have := hI.unique hdeg hx (j-1) (by omega)
  simp only [show j - 1 + 1 = j by omega] at this
  beta_reduce
  rw [← this]
  simp only [lobattoX]
  rw [if_neg (by omega), if_neg (by omega), if_pos h2]

/-- Non-vacuity: with four points the root is `-1/√5`. -/
example : LobattoRoots 4 (fun _ => -(1 / √5)) ∧ lobattoX 4 (fun _ => -(1 / √5)) 2 = 1 / √5 := by
  refine ⟨⟨fun j h1 h2 => ?_, fun i j h1 h2 h3 => by omega, fun j h1 h2 => ?_⟩, ?_⟩
  · have h5 : 1 < √5 := by rw [Real.lt_sqrt (by norm_num)]; norm_num
    have : 1 / √5 < 1 := by rw [div_lt_one (by linarith)]; exact h5
    have : 0 < 1 / √5 := by positivity
    constructor <;> linarith
  · have h := derivative_legP_add_two 1
    have hs : (√5)^2 = 5 := Real.sq_sqrt (by norm_num)
    have h2 := legP_bonnet 0
    have h2e := congrArg (fun p => p.eval (-(1/√5))) h2
    rw [show (4:ℕ) - 1 = 1 + 2 from rfl, h, legP_one]
    rw [zero_add, zero_add, legP_one, legP_zero] at h2e
    simp only [eval_mul, eval_C, eval_sub, eval_X, eval_one, Nat.cast_zero] at h2e
    simp only [derivative_X, eval_add, eval_one, eval_mul, eval_C, Nat.cast_one, show 1 + 1 = 2 from rfl]
    have : (1/√5)^2 = 1/5 := by rw [div_pow, hs, one_pow]
    nlinarith
  · simp [lobattoX]

/-- **C63** For every Jacobi weight and every number of points the Gauss rule exists (points inside the interval, positive
weights), so the precondition of the theorems on the families below can always be met. -/
theorem C63_gauss_exists (N : ℕ) {a b : ℝ} (ha : -1 < a) (hb : -1 < b) :
    ∃ x w : ℕ → ℝ, ExactRule a b x w N (2 * N) ∧ (∀ j < N, -1 < x j ∧ x j < 1 ∧ 0 < w j) ∧
      ∀ i j, i < j → j < N → x i < x j := by
  obtain ⟨x, w, h1, h2, h3⟩ := exists_gauss N ha hb
  exact ⟨x, w, h1, fun j hj => ⟨(h2.1 j hj).1, (h2.1 j hj).2, h3 j hj⟩, h2.2.1⟩

/-- **C63** The Gauss rule is unique: points in increasing order that integrate every polynomial of degree below `2N` are the
roots of the Jacobi polynomial.  So any correct implementation (scipy's, fastgl's) returns the same points. -/
theorem C63_gauss_unique {N : ℕ} {a b : ℝ} (ha : -1 < a) (hb : -1 < b) {x w x' w' : ℕ → ℝ}
    (h : ExactRule a b x w N (2 * N)) (h' : ExactRule a b x' w' N (2 * N))
    (hm : ∀ i j, i < j → j < N → x i < x j) (hm' : ∀ i j, i < j → j < N → x' i < x' j) (j : ℕ) (hj : j < N) :
    x j = x' j ∧ w j = w' j := by
  have inj : ∀ z : ℕ → ℝ, (∀ i j, i < j → j < N → z i < z j) → Set.InjOn z (range N) := by
    intro z hz i hi j hj e
    have hi : i < N := by simpa using hi
    have hj : j < N := by simpa using hj
    rcases lt_trichotomy i j with l | l | l
    · exact absurd e (hz i j l hj).ne
    · exact l
    · exact absurd e (hz j i l hi).ne'
  -- every point of an exact rule is a root of the Jacobi polynomial
  have root : ∀ z v : ℕ → ℝ, ExactRule a b z v N (2*N) → (∀ i j, i < j → j < N → z i < z j) →
      ∀ j < N, (jacobi a b N).eval (z j) = 0 := by
    intro z v hz hzm j hj
    have hzi := inj z hzm
    set L := Lagrange.basis (range N) z j with hL
    have hLd : L.degree = ((N - 1 : ℕ) : WithBot ℕ) := by
      rw [hL, Lagrange.degree_basis hzi (mem_range.2 hj), card_range]
    have hL0 : L ≠ 0 := by intro h0; rw [h0, degree_zero] at hLd; exact WithBot.bot_ne_coe hLd
    have hsum : ∀ p : ℝ[X], ∑ i ∈ range N, v i * (L * p).eval (z i) = v j * p.eval (z j) := by
      intro p
      rw [sum_eq_single j]
      · rw [eval_mul, hL, Lagrange.eval_basis_self hzi (mem_range.2 hj), one_mul]
      · intro i hi hij
        rw [eval_mul, hL, Lagrange.eval_basis_of_ne (Ne.symm hij) hi]; ring
      · intro h; exact absurd (mem_range.2 hj) h
    have h1 := hz (L * L) (by rw [degree_mul, hLd]; exact_mod_cast (by omega))
    rw [hsum] at h1
    have hv : v j ≠ 0 := by
      intro h0
      rw [h0, zero_mul] at h1
      exact (wInt_sq_pos ha hb hL0).ne h1
    have h2 := hz (L * jacobi a b N) (by
      rw [degree_mul, hLd, degree_jacobi ha hb]; exact_mod_cast (by omega))
    rw [hsum, jacobi_orthogonal_lower ha hb N L (by rw [hLd]; exact_mod_cast (by omega))] at h2
    exact (mul_eq_zero.1 h2).resolve_left hv
  have hxx : ∀ i < N, x i = x' i := by
    classical
    have hp := degree_jacobi ha hb N
    have hp0 : jacobi a b N ≠ 0 := by intro e; rw [e, degree_zero] at hp; exact WithBot.bot_ne_coe hp
    have key : ∀ z v : ℕ → ℝ, ExactRule a b z v N (2*N) → (∀ i j, i < j → j < N → z i < z j) →
        Set.range (fun i : Fin N => z i) = {t | (jacobi a b N).eval t = 0} := by
      intro z v hz hzm
      have hr := root z v hz hzm
      have hsub : (range N).image z ⊆ (jacobi a b N).roots.toFinset := by
        intro t ht
        obtain ⟨i, hi, rfl⟩ := mem_image.1 ht
        rw [Multiset.mem_toFinset, mem_roots hp0]
        exact hr i (mem_range.1 hi)
      have hcard : (jacobi a b N).roots.toFinset.card ≤ ((range N).image z).card := by
        rw [card_image_of_injOn (inj z hzm), card_range]
        have h1 := (Multiset.toFinset_card_le (jacobi a b N).roots).trans (card_roots' _)
        rwa [natDegree_eq_of_degree_eq_some hp] at h1
      have he := eq_of_subset_of_card_le hsub hcard
      ext t
      simp only [Set.mem_range, Set.mem_ofPred_eq]
      constructor
      · rintro ⟨i, rfl⟩
        exact hr i i.2
      · intro ht
        have : t ∈ (jacobi a b N).roots.toFinset := by rw [Multiset.mem_toFinset, mem_roots hp0]; exact ht
        rw [← he] at this
        obtain ⟨i, hi, rfl⟩ := mem_image.1 this
        exact ⟨⟨i, mem_range.1 hi⟩, rfl⟩
    have mono : ∀ z : ℕ → ℝ, (∀ i j, i < j → j < N → z i < z j) → StrictMono (fun i : Fin N => z i) :=
      fun z hz i j hij => hz i j hij j.2
    have := (StrictMono.range_inj (mono x hm) (mono x' hm')).1 ((key x w h hm).trans (key x' w' h' hm').symm)
    exact fun i hi => congrFun this ⟨i, hi⟩
  refine ⟨hxx j hj, ?_⟩
  have hxi := inj x hm
  set L := Lagrange.basis (range N) x j with hL
  have hLd : L.degree < ((2 * N : ℕ) : WithBot ℕ) := by
    rw [hL, Lagrange.degree_basis hxi (mem_range.2 hj), card_range]
    exact_mod_cast (by omega)
  have e1 : ∑ i ∈ range N, w i * L.eval (x i) = w j := by
    rw [sum_eq_single j]
    · rw [hL, Lagrange.eval_basis_self hxi (mem_range.2 hj), mul_one]
    · intro i hi hij
      rw [hL, Lagrange.eval_basis_of_ne (Ne.symm hij) hi, mul_zero]
    · intro h; exact absurd (mem_range.2 hj) h
  have e2 : ∑ i ∈ range N, w' i * L.eval (x' i) = w' j := by
    rw [sum_eq_single j]
    · rw [← hxx j hj, hL, Lagrange.eval_basis_self hxi (mem_range.2 hj), mul_one]
    · intro i hi hij
      rw [← hxx i (mem_range.1 hi), hL, Lagrange.eval_basis_of_ne (Ne.symm hij) hi, mul_zero]
    · intro h; exact absurd (mem_range.2 hj) h
  rw [← e1, ← e2, h L hLd, h' L hLd]

/-- **C63** The families: with a Gauss rule the squared norms used by `forward` are the discrete ones, for Legendre,
Chebyshev of both kinds, ultraspherical, Gegenbauer and Jacobi spaces. -/
theorem C63_families {N : ℕ} {a b : ℝ} {x w : ℕ → ℝ} (ha : -1 < a) (hb : -1 < b) (h : ExactRule a b x w N (2 * N)) :
    (a = 0 → b = 0 → DiscreteNorms x w N N legP legL2) ∧
    (a + b ≠ -1 → DiscreteNorms x w N N (jacobi a b) (jacobiL2 a b)) ∧
    (a = b → DiscreteNorms x w N N (ultraQ a) (ultraL2 a)) ∧
    (a = -(1/2) → b = -(1/2) → DiscreteNorms x w N N chebT chebL2) ∧
    (a = 1/2 → b = 1/2 → DiscreteNorms x w N N chebU chebuL2) := by
  have hD : 2 * N - 1 ≤ 2 * N := by omega
  refine ⟨?_, fun hab => ?_, ?_, ?_, ?_⟩
  · rintro rfl rfl; exact C63_norms h hD C51_legendre degree_legP
  · exact C63_norms h hD (C51_jacobi_partial ha hb hab) (degree_jacobi ha hb)
  · rintro rfl; exact C63_norms h hD (C51_ultraspherical ha) (degree_ultraQ ha)
  · rintro rfl rfl; exact C63_norms h hD C51_chebyshev degree_chebT
  · rintro rfl rfl; exact C63_norms h hD C51_chebyshevu degree_chebU

/-- Non-vacuity: a complete instance, the Legendre transform with `N` Gauss points. -/
example (N : ℕ) : ∃ x w : ℕ → ℝ, ∀ u : ℕ → ℝ, ∀ k < N,
    vanderForward x w legP legL2 1 N (vanderBackward x legP N u) k = u k := by
  obtain ⟨x, w, h, _⟩ := C63_gauss_exists N (a := 0) (b := 0) (by norm_num) (by norm_num)
  exact ⟨x, w, fun u k hk => C63_forward_backward ((C63_families (by norm_num) (by norm_num) h).1 rfl rfl) 1 one_ne_zero
    (fun k _ => by unfold legL2; positivity) u k hk⟩

/-- Non-vacuity: the Legendre transform with `N` Gauss-Lobatto points, last norm `2/(N-1)`. -/
example (N : ℕ) (hN : 2 ≤ N) : ∃ y, ∀ u : ℕ → ℝ, ∀ k < N,
    vanderForward (lobattoX N y) (lobattoW N (lobattoX N y)) legP (legNormSq true N) 1 N
      (vanderBackward (lobattoX N y) legP N u) k = u k := by
  obtain ⟨y, hy, _⟩ := C63_lobatto_roots N
  refine ⟨y, fun u k hk => C63_forward_backward (C63_lobatto_norms hN hy) 1 one_ne_zero (fun k _ => ?_) u k hk⟩
  have := legNormSq_ne (by omega : 1 ≤ N - 1) k
  rwa [show N - 1 + 1 = N by omega] at this

end Shenfun
