import Verif.Props.Boundary
import Verif.Props.StencilLeg

/-!
# C26: inhomogeneous boundary conditions are satisfied on the physical domain
-/

namespace Shenfun

open Polynomial Spec

/-! ## Derivatives through the affine map -/

theorem iteratedDeriv_comp_affine (p : ℝ[X]) (l u : ℝ) (k : ℕ) (x : ℝ) :
    iteratedDeriv k (fun y => p.eval (toReference l u y)) x =
      (2 / (u - l)) ^ k * (derivative^[k] p).eval (toReference l u x) := by
  induction k generalizing x with
  | zero => simp
  | succ k ih =>
    rw [iteratedDeriv_succ, funext ih, Function.iterate_succ_apply']
    have h1 : HasDerivAt (toReference l u) (2 / (u - l)) x := by
      unfold toReference
      have := ((hasDerivAt_id x).sub_const l).mul_const (2 / (u - l))
      simpa using this.const_add (-1)
    have h2 := ((derivative^[k] p).hasDerivAt (toReference l u x)).comp x h1
    have h3 := (h2.const_mul ((2 / (u - l)) ^ k)).deriv
    rw [show (fun y => (2 / (u - l)) ^ k * eval (toReference l u y) (derivative^[k] p)) =
      fun y => (2 / (u - l)) ^ k * ((fun z => eval z (derivative^[k] p)) ∘ toReference l u) y from rfl, h3]
    ring

theorem toReference_end {l u : ℝ} (h : l < u) (s : Side) : toReference l u (s.end l u) = s.pt := by
  have : u - l ≠ 0 := by linarith
  cases s
  · simp [toReference, Side.end, Side.pt]
  · simp only [toReference, Side.end, Side.pt]
    field_simp
    ring

/-! ## What the user asks for -/

/-- Meaning of a dictionary entry as documented, `/repo/shenfun/spectralbase.py:1823-1861`. -/
def asked : BCKind → BCVal → Option Asked
  | .D, .num v => some (.deriv 0 v)
  | .N, .num v => some (.deriv 1 v)
  | .N2, .num v => some (.deriv 2 v)
  | .N3, .num v => some (.deriv 3 v)
  | .N4, .num v => some (.deriv 4 v)
  | .N5, .num v => some (.deriv 5 v)
  | .R, .pair c d => some (.robin c d)
  | .W, .pair c d => some (.wentzell c d)
  | _, _ => none

/-- The function with coefficients `w` of length `N` (boundary dofs last) on the physical interval: interior functions
`φ`, boundary functions `χ`. -/
noncomputable def physical (l u : ℝ) (N m : ℕ) (φ : ℕ → ℝ[X]) (χ : Fin m → ℝ[X]) (w : ℕ → ℝ) : ℝ → ℝ := fun x =>
  (∑ i ∈ Finset.range (N - m), C (w i) * φ i + ∑ s : Fin m, C (w (N - m + s)) * χ s).eval (toReference l u x)

/-! ## Bookkeeping -/

theorem mapM_some {α β : Type*} {f : α → Option β} {l : List α} {l' : List β} (h : l.mapM f = some l') :
    List.Forall₂ (fun a b => f a = some b) l l' := by
  induction l generalizing l' with
  | nil => simp at h; subst h; exact List.Forall₂.nil
  | cons a l ih =>
    rw [List.mapM_cons] at h
    simp only [Option.bind_eq_bind, Option.bind_eq_some_iff, Option.pure_def, Option.some.injEq] at h
    obtain ⟨b, hb, l'', hl, rfl⟩ := h
    exact List.Forall₂.cons hb (ih hl)

theorem mapM_of_forall₂ {α β : Type*} {f : α → Option β} {l : List α} {l' : List β}
    (h : List.Forall₂ (fun a b => f a = some b) l l') : l.mapM f = some l' := by
  induction h with
  | nil => simp
  | cons h _ ih => rw [List.mapM_cons, h, ih]; simp

theorem entries_new (raw : BCs) (d : Option (ℝ × ℝ)) :
    (raw.new d).entries = raw.entries.map fun e => (e.1, e.2.1, BCs.scaleKey (BCs.df d) e.2.1 e.2.2) := by
  simp only [BCs.entries, BCs.new, List.map_append, List.map_filterMap, Option.map_map]
  rfl

theorem setBoundaryDofs_last (N : ℕ) (vals : List ℝ) (w : ℕ → ℝ) (h : vals.length ≤ N) (s : Fin vals.length) :
    setBoundaryDofs N vals w (N - vals.length + s) = vals.get s := by
  have := s.2
  unfold setBoundaryDofs
  rw [if_pos (by omega), show N - vals.length + (s:ℕ) - (N - vals.length) = s by omega]
  simp

/-! ## The conditions the code imposes -/

/-- The boundary dofs force the computed conditions on the reference interval. -/
theorem reference_conditions {Q : ℕ → ℝ[X]} {bv : ℕ → Side → ℕ → ℝ} (hQ : BoundaryValuesOf Q bv)
    {b : BCs} {rows : List (Side × BCRow)} (hrows : bcRows b = some rows) {nd first : ℕ}
    (hfirst : getBcFirst bv rows nd = some first) {N : ℕ} (hN : rows.length ≤ N) (φ : ℕ → ℝ[X])
    (hφ : ∀ i < N - rows.length, ∀ r ∈ rows, condValue r (φ i) = 0) (w : ℕ → ℝ) :
    ∀ (t : Fin rows.length) (e : Side × BCKind × BCVal), b.entries[(t:ℕ)]? = some e →
      (bcRow e.2.1 e.2.2).map (fun r => (e.1, r)) = some (rows.get t) ∧
      condValue (rows.get t) (∑ i ∈ Finset.range (N - rows.length), C (setBoundaryDofs N b.orderedvals w i) * φ i +
        ∑ s : Fin rows.length, C (setBoundaryDofs N b.orderedvals w (N - rows.length + s)) *
          bcBasisFunction Q bv rows first s) = e.2.2.value := by
  intro t e he
  have hF := mapM_some hrows
  have hlen : b.entries.length = rows.length := hF.length_eq
  have ht : (t:ℕ) < b.entries.length := by rw [hlen]; exact t.2
  have he' : b.entries.get ⟨t, ht⟩ = e := by
    rw [List.getElem?_eq_getElem ht] at he
    exact Option.some.inj he
  refine ⟨?_, ?_⟩
  · rw [← he']
    exact (List.forall₂_iff_get.1 hF).2 t ht t.2
  · rw [condValue_add, condValue_sum, condValue_sum]
    simp only [condValue_C_mul]
    rw [Finset.sum_eq_zero fun i hi => by
      rw [hφ i (Finset.mem_range.1 hi) _ (List.get_mem rows t), mul_zero], zero_add]
    rw [Finset.sum_eq_single t]
    · rw [C49_get_bc_basis hQ hfirst, if_pos rfl, mul_one]
      have hv : b.orderedvals.length = rows.length := by simp [BCs.orderedvals, hlen]
      have := setBoundaryDofs_last N b.orderedvals w (by omega) ⟨t, by rw [hv]; exact t.2⟩
      simp only [hv] at this
      rw [this, ← he']
      simp [BCs.orderedvals]
    · intro s _ hs
      rw [C49_get_bc_basis hQ hfirst, if_neg hs, mul_zero]
    · intro h; exact absurd (Finset.mem_univ _) h

/-- **C26** (values and derivatives up to order three).  Whatever conditions the dictionary holds, after the boundary
dofs have been set the function represented by the coefficients satisfies every condition of kind `D`, `N`, `N2`, `N3`
*on the physical domain* with the value the user gave, for every interior coefficient vector.  The interior functions
`φ` are only assumed to satisfy the homogeneous conditions (C27, C47, `C49_get_stencil_matrix`).
Missing for the full property: `N4`, `N5`, `R`, `W` on domains of length other than two, where it is false, see below. -/
theorem C26_conditions_satisfied_partial {Q : ℕ → ℝ[X]} {bv : ℕ → Side → ℕ → ℝ} (hQ : BoundaryValuesOf Q bv)
    (raw : BCs) {l u : ℝ} (hlu : l < u) {rows : List (Side × BCRow)}
    (hrows : bcRows (raw.new (some (l, u))) = some rows) {nd first : ℕ}
    (hfirst : getBcFirst bv rows nd = some first) {N : ℕ} (hN : rows.length ≤ N) (φ : ℕ → ℝ[X])
    (hφ : ∀ i < N - rows.length, ∀ r ∈ rows, condValue r (φ i) = 0) (w : ℕ → ℝ)
    (e : Side × BCKind × BCVal) (he : e ∈ raw.entries) (hk : e.2.1 ∈ [BCKind.D, .N, .N2, .N3] ∨ u - l = 2)
    (a : Asked) (ha : asked e.2.1 e.2.2 = some a) :
    a.holds (physical l u N rows.length φ (bcBasisFunction Q bv rows first)
      (setBoundaryDofs N (raw.new (some (l, u))).orderedvals w)) (e.1.end l u) := by
  obtain ⟨t, ht, rfl⟩ := List.getElem_of_mem he
  have hlen : (raw.new (some (l, u))).entries.length = rows.length := (mapM_some hrows).length_eq
  have hlen' : raw.entries.length = rows.length := by rw [← hlen, entries_new]; simp
  obtain ⟨h1, h2⟩ := reference_conditions hQ hrows hfirst hN φ hφ w ⟨t, by omega⟩
    (raw.entries[t].1, raw.entries[t].2.1, BCs.scaleKey (BCs.df (some (l, u))) raw.entries[t].2.1 raw.entries[t].2.2)
    (by rw [entries_new]; simp [ht])
  generalize raw.entries[t] = e at *
  obtain ⟨s, k, v⟩ := e
  unfold physical
  generalize hp : (∑ i ∈ Finset.range (N - rows.length), C (setBoundaryDofs N (raw.new (some (l, u))).orderedvals w i) * φ i +
        ∑ s : Fin rows.length, C (setBoundaryDofs N (raw.new (some (l, u))).orderedvals w (N - rows.length + s)) *
          bcBasisFunction Q bv rows first s) = p at *
  have hdf : BCs.df (some (l, u)) = 2 / (u - l) := rfl
  rw [hdf] at h1 h2
  have hpos : (2 / (u - l)) ≠ 0 := div_ne_zero two_ne_zero (by linarith)
  have hend := toReference_end hlu s
  have hD := fun k => (iteratedDeriv_comp_affine p l u k (s.end l u)).trans (by rw [hend])
  have hp0 : p.eval (toReference l u (s.end l u)) = p.eval s.pt := by rw [hend]
  generalize rows.get ⟨t, by omega⟩ = r at *
  generalize hfd : 2 / (u - l) = f at *
  have hf : k ∈ [BCKind.D, .N, .N2, .N3] ∨ f = 1 := hk.imp id fun h => by rw [← hfd, h]; norm_num
  cases k <;> cases v <;> simp only [asked, Option.some.injEq, reduceCtorEq] at ha <;> subst ha <;>
    simp only [BCs.scaleKey, BCs.scaleVal, bcRow, Option.map_some, Option.some.injEq, reduceCtorEq, Option.map_none] at h1 <;>
    first
    | (subst h1
       simp only [BCs.scaleKey, BCs.scaleVal, BCVal.value, condValue] at h2
       simp only [Asked.holds, hD, hp0, h2]
       first
       | (field_simp; done)
       | (simp; done)
       | (have hf1 : f = 1 := hf.resolve_left (by decide)
          rw [hf1]
          simp only [one_pow, one_mul, ← h2, Function.iterate_zero, id]
          ))

/-! ## The ways to write boundary conditions -/

/-- **C26** (tuple form).  A tuple of `2K` values, `K ≤ 6`, gives on the left the conditions `D, N, N2, ...` with the
first `K` values and on the right the same with the last `K`. -/
theorem C26_tuple (vs : List ℝ) (K : ℕ) (hK : 1 ≤ K) (hK' : K ≤ 6) (hlen : vs.length = 2 * K) :
    ∃ b, BCs.ofTuple (vs.map some) = some b ∧
      b.entries = List.zipWith (fun k v => (Side.left, k, BCVal.num v)) BCs.tupleKeys (vs.take K) ++
        List.zipWith (fun k v => (Side.right, k, BCVal.num v)) BCs.tupleKeys (vs.drop K) := by
  interval_cases K
  · obtain ⟨a, b, rfl⟩ := List.length_eq_two.1 hlen
    refine ⟨_, rfl, ?_⟩
    simp [BCs.entries, BCs.sortedKeys, BCs.sideOf, BCs.tupleKeys, List.find?]
  all_goals
    iterate 12 (first | (rcases vs with _ | ⟨_, vs⟩; · simp at hlen) | skip)
    simp only [List.length_cons] at hlen
    obtain rfl : vs = [] := List.length_eq_zero_iff.1 (by omega)
    refine ⟨_, rfl, ?_⟩
    simp [BCs.entries, BCs.sortedKeys, BCs.sideOf, BCs.tupleKeys, List.find?]

/-- The rows of the tuple form: value and derivatives of order less than `K` at both ends. -/
theorem tuple_rows (vs : List ℝ) (K : ℕ) (hK : 1 ≤ K) (hK' : K ≤ 5) (hlen : vs.length = 2 * K) (d : Option (ℝ × ℝ))
    {b : BCs} (hb : BCs.ofTuple (vs.map some) = some b) : bcRows (b.new d) = some (bothRows K) := by
  obtain ⟨b', hb', he⟩ := C26_tuple vs K hK (by omega) hlen
  obtain rfl : b = b' := by rw [hb] at hb'; exact Option.some.inj hb'
  unfold bcRows
  rw [entries_new, he]
  clear he hb hb'
  interval_cases K
  all_goals
    iterate 10 (first | (rcases vs with _ | ⟨_, vs⟩; · simp at hlen) | skip)
    simp only [List.length_cons] at hlen
    obtain rfl : vs = [] := List.length_eq_zero_iff.1 (by omega)
    simp [BCs.tupleKeys, bcRow, BCs.scaleKey, BCs.scaleVal, bothRows, both, List.range_succ]

theorem condValue_bothRows {K : ℕ} {p : ℝ[X]} (h : Homogeneous (both K) p) : ∀ r ∈ bothRows K, condValue r p = 0 := by
  intro r hr
  obtain ⟨bc, hbc, rfl⟩ := List.mem_map.1 hr
  exact h bc hbc

/-- **C26** (tuple form, end to end).  `bc = (a_0, ..., a_{K-1}, b_0, ..., b_{K-1})`, `K ≤ 5`, on the domain `[l, u]` in
any space of any Jacobi family whose interior functions satisfy the homogeneous conditions: the boundary basis exists
and the function satisfies `u^(k)(l) = a_k`, `u^(k)(u) = b_k` for `k ≤ 3` (for `k = 4` if `u - l = 2`), whatever the
interior coefficients are. -/
theorem C26_tuple_conditions_partial {Q : ℕ → ℝ[X]} {bv : ℕ → Side → ℕ → ℝ} (hQ : BoundaryValuesOf Q bv)
    (hd : ∀ n, (Q n).degree = n) (vs : List ℝ) (K : ℕ) (hK : 1 ≤ K) (hK' : K ≤ 5) (hlen : vs.length = 2 * K)
    {l u : ℝ} (hlu : l < u) {b : BCs} (hb : BCs.ofTuple (vs.map some) = some b) (nd : ℕ)
    {N : ℕ} (hN : 2 * K ≤ N) (φ : ℕ → ℝ[X]) (hφ : ∀ i < N - 2 * K, Homogeneous (both K) (φ i)) (w : ℕ → ℝ) :
    ∃ first, getBcFirst bv (bothRows K) nd = some first ∧
      ∀ k < K, (k ≤ 3 ∨ u - l = 2) →
        let f := physical l u N (bothRows K).length φ (bcBasisFunction Q bv (bothRows K) first)
          (setBoundaryDofs N (b.new (some (l, u))).orderedvals w)
        iteratedDeriv k f l = vs.getD k 0 ∧ iteratedDeriv k f u = vs.getD (K + k) 0 := by
  refine ⟨0, C49_get_bc_basis_both hQ hd K nd, fun k hk hk3 => ?_⟩
  obtain ⟨b', hb', he⟩ := C26_tuple vs K hK (by omega) hlen
  obtain rfl : b = b' := by rw [hb] at hb'; exact Option.some.inj hb'
  have hl2 : (bothRows K).length = 2 * K := by simp [bothRows, both]; omega
  have main := C26_conditions_satisfied_partial hQ b hlu (tuple_rows vs K hK hK' hlen (some (l, u)) hb)
    (C49_get_bc_basis_both hQ hd K nd) (N := N) (by omega) φ
    (fun i hi => condValue_bothRows (hφ i (by omega))) w
  have hkey : ∀ v, ∃ kd ∈ BCs.tupleKeys[k]?, asked kd (.num v) = some (.deriv k v) ∧
      (k ≤ 3 → kd ∈ [BCKind.D, .N, .N2, .N3]) := by
    intro v
    have : k < 5 := by omega
    interval_cases k <;> simp [BCs.tupleKeys, asked]
  have hget : ∀ j < vs.length, vs[j]? = some (vs.getD j 0) := fun j hj => by simp [hj]
  constructor
  · obtain ⟨kd, hkd, ha, hin⟩ := hkey (vs.getD k 0)
    have hmem : (Side.left, kd, BCVal.num (vs.getD k 0)) ∈ b.entries := by
      rw [he]
      refine List.mem_append_left _ (List.mem_of_getElem? (i := k) ?_)
      rw [List.getElem?_zipWith, hkd, List.getElem?_take_of_lt hk, hget k (by omega)]
    exact main _ hmem (hk3.imp hin id) _ ha
  · obtain ⟨kd, hkd, ha, hin⟩ := hkey (vs.getD (K + k) 0)
    have hmem : (Side.right, kd, BCVal.num (vs.getD (K + k) 0)) ∈ b.entries := by
      rw [he]
      refine List.mem_append_right _ (List.mem_of_getElem? (i := k) ?_)
      rw [List.getElem?_zipWith, hkd, List.getElem?_drop, hget (K + k) (by omega)]
    exact main _ hmem (hk3.imp hin id) _ ha

/-- Non-vacuity: Legendre biharmonic space on `[0, 5]` with `u(0)=1, u'(0)=2, u(5)=3, u'(5)=4`. -/
example (w : ℕ → ℝ) : ∃ f : ℝ → ℝ, iteratedDeriv 0 f 0 = 1 ∧ iteratedDeriv 1 f 0 = 2 ∧
    iteratedDeriv 0 f 5 = 3 ∧ iteratedDeriv 1 f 5 = 4 := by
  obtain ⟨first, -, h⟩ := C26_tuple_conditions_partial C49_bnd_legendre degree_legP [1, 2, 3, 4] 2 (by norm_num) (by norm_num)
    rfl (l := 0) (u := 5) (by norm_num) rfl 2 (N := 8) (by norm_num)
    (basisFunction legP (stencilMatrix LegStencil.ShenBiharmonic 8 4))
    (fun i hi => C27_leg_ShenBiharmonic 8 i hi) w
  have h0 := h 0 (by norm_num) (by norm_num)
  have h1 := h 1 (by norm_num) (by norm_num)
  exact ⟨_, h0.1, h1.1, h0.2, h1.2⟩

/-- **C26** refuted for fourth derivatives: the value of `N4` is not scaled with the domain, so on every domain of length
other than two, in every family and for every choice of interior functions, the condition `u''''(l) = 1` of a 10-tuple is
violated. -/
theorem C26_N4_refuted {Q : ℕ → ℝ[X]} {bv : ℕ → Side → ℕ → ℝ} (hQ : BoundaryValuesOf Q bv)
    (hd : ∀ n, (Q n).degree = n) {l u : ℝ} (hlu : l < u) (h2 : u - l ≠ 2) {b : BCs}
    (hb : BCs.ofTuple ([0, 0, 0, 0, 1, 0, 0, 0, 0, 0].map some) = some b)
    {N : ℕ} (hN : 10 ≤ N) (φ : ℕ → ℝ[X]) (hφ : ∀ i < N - 10, Homogeneous (both 5) (φ i)) (w : ℕ → ℝ) :
    getBcFirst bv (bothRows 5) 20 = some 0 ∧
    iteratedDeriv 4 (physical l u N (bothRows 5).length φ (bcBasisFunction Q bv (bothRows 5) 0)
      (setBoundaryDofs N (b.new (some (l, u))).orderedvals w)) l ≠ 1 := by
  have hfirst := C49_get_bc_basis_both hQ hd 5 20
  have hl2 : (bothRows 5).length = 10 := rfl
  refine ⟨hfirst, ?_⟩
  have hrows := tuple_rows [0, 0, 0, 0, 1, 0, 0, 0, 0, 0] 5 (by norm_num) (by norm_num) rfl (some (l, u)) hb
  obtain ⟨b', hb', he⟩ := C26_tuple [0, 0, 0, 0, 1, 0, 0, 0, 0, 0] 5 (by norm_num) (by norm_num) rfl
  obtain rfl : b = b' := by rw [hb] at hb'; exact Option.some.inj hb'
  obtain ⟨-, h⟩ := reference_conditions hQ hrows hfirst (N := N) (by omega) φ
    (fun i hi => condValue_bothRows (hφ i (by omega))) w ⟨4, by rw [hl2]; norm_num⟩ (Side.left, .N4, .num 1)
    (by rw [entries_new, he]; rfl)
  unfold physical
  generalize (∑ i ∈ Finset.range (N - (bothRows 5).length), C (setBoundaryDofs N (b.new (some (l, u))).orderedvals w i) * φ i +
        ∑ s : Fin (bothRows 5).length, C (setBoundaryDofs N (b.new (some (l, u))).orderedvals w
          (N - (bothRows 5).length + s)) * bcBasisFunction Q bv (bothRows 5) 0 s) = p at *
  have hend := toReference_end hlu .left
  simp only [Side.end] at hend
  rw [iteratedDeriv_comp_affine, hend]
  have h' : (derivative^[4] p).eval Side.left.pt = 1 := h
  rw [h', mul_one]
  intro h4
  have hpos : 0 < 2 / (u - l) := div_pos two_pos (by linarith)
  have h1 : 2 / (u - l) = 1 := by
    have := (pow_eq_one_iff_of_nonneg hpos.le (by norm_num : (4:ℕ) ≠ 0)).1 h4
    exact this
  rw [div_eq_one_iff_eq (by linarith)] at h1
  exact h2 h1.symm

/-- **C26** refuted for tuples of length 12: the condition `N5` is accepted, but neither the stencil nor the boundary
basis can be computed. -/
theorem C26_N5_refuted (vs : List ℝ) (hlen : vs.length = 12) (d : Option (ℝ × ℝ)) :
    ∃ b, BCs.ofTuple (vs.map some) = some b ∧ bcRows (b.new d) = none ∧ (b.new d).numDerivatives = none := by
  obtain ⟨b, hb, he⟩ := C26_tuple vs 6 (by norm_num) (by norm_num) hlen
  refine ⟨b, hb, ?_, ?_⟩
  all_goals
    first | unfold bcRows | unfold BCs.numDerivatives
    rw [entries_new, he]
    clear he hb
    iterate 12 (first | (rcases vs with _ | ⟨_, vs⟩; · simp at hlen) | skip)
    simp only [List.length_cons] at hlen
    obtain rfl : vs = [] := List.length_eq_zero_iff.1 (by omega)
    simp [BCs.tupleKeys, bcRow, BCs.scaleKey, BCs.scaleVal, BCs.derivOrder]

/-- **C26** refuted for Robin conditions: on `[0, 1]` the condition `u(0) + 2 u'(0) = d` is not satisfied, since the factor
`2` is used with the derivative on the reference interval.  Legendre, two modes, `φ_0 = 1 - x` satisfies the condition
that the code imposes. -/
theorem C26_robin_refuted (d : ℝ) :
    ∃ (φ : ℕ → ℝ[X]) (rows : List (Side × BCRow)),
      bcRows ((BCs.empty.set .left .R (.pair 2 d)).new (some (0, 1))) = some rows ∧
      (∀ i < 2 - rows.length, ∀ r ∈ rows, condValue r (φ i) = 0) ∧
      getBcFirst (bndValues 0 0 fun _ => 1) rows 0 = some 0 ∧
      ¬ (Asked.robin 2 d).holds (physical 0 1 2 rows.length φ (bcBasisFunction legP (bndValues 0 0 fun _ => 1) rows 0)
        (setBoundaryDofs 2 ((BCs.empty.set .left .R (.pair 2 d)).new (some (0, 1))).orderedvals fun _ => 1)) 0 := by
  have hent : (BCs.empty.set .left .R (.pair 2 d)).entries = [(Side.left, .R, .pair 2 d)] := rfl
  have hrows : bcRows ((BCs.empty.set .left .R (.pair 2 d)).new (some (0, 1))) = some [(Side.left, .mixed 0 2)] := by
    unfold bcRows
    rw [entries_new, hent]
    rfl
  have hφ : ∀ i < 2 - [(Side.left, BCRow.mixed 0 2)].length, ∀ r ∈ [(Side.left, BCRow.mixed 0 2)],
      condValue r ((fun _ : ℕ => (1 - X : ℝ[X])) i) = 0 := by
    intro i _ r hr
    obtain rfl := List.mem_singleton.1 hr
    simp [condValue, Side.pt]; norm_num
  have hfirst : getBcFirst (bndValues 0 0 fun _ => 1) [(Side.left, BCRow.mixed 0 2)] 0 = some 0 := by
    have hdet : (bcSystem (bndValues 0 0 fun _ => 1) [(Side.left, BCRow.mixed 0 2)] 0).det ≠ 0 := by
      have : (bcSystem (bndValues 0 0 fun _ => 1) [(Side.left, BCRow.mixed 0 2)] 0).det = 1 := by
        refine (Matrix.det_fin_one (bcSystem (bndValues 0 0 fun _ => 1) [(Side.left, BCRow.mixed 0 2)] 0)).trans ?_
        simp [bcSystem, rowValue, bndValues, spBinomial, gbinom, bndGam]
      rw [this]; exact one_ne_zero
    unfold getBcFirst
    rw [List.range_one, List.find?_cons_of_pos (by simpa using hdet)]
  refine ⟨fun _ => 1 - X, _, hrows, hφ, hfirst, ?_⟩
  have hbf : bcBasisFunction legP (bndValues 0 0 fun _ => 1) [(Side.left, BCRow.mixed 0 2)] 0 ⟨0, by simp⟩ = 1 := by
    have hd := C49_get_bc_basis C49_bnd_legendre hfirst ⟨0, by simp⟩ ⟨0, by simp⟩
    unfold bcBasisFunction at hd ⊢
    simp only [List.length_singleton, Finset.sum_range_succ, Finset.sum_range_zero, zero_add, if_true, List.get_eq_getElem,
      List.getElem_cons_zero] at hd ⊢
    rw [condValue_C_mul] at hd
    have e : legP 0 = 1 := jacobi_zero 0 0
    rw [e] at hd ⊢
    have e2 : condValue (Side.left, BCRow.mixed 0 2) 1 = 1 := by simp [condValue]
    rw [e2, mul_one] at hd
    rw [hd]; simp
  have hpoly : (∑ i ∈ Finset.range (2 - [(Side.left, BCRow.mixed 0 2)].length),
      C (setBoundaryDofs 2 ((BCs.empty.set .left .R (.pair 2 d)).new (some (0, 1))).orderedvals (fun _ => 1) i) * (1 - X) +
      ∑ s : Fin [(Side.left, BCRow.mixed 0 2)].length,
        C (setBoundaryDofs 2 ((BCs.empty.set .left .R (.pair 2 d)).new (some (0, 1))).orderedvals (fun _ => 1)
          (2 - [(Side.left, BCRow.mixed 0 2)].length + s)) *
        bcBasisFunction legP (bndValues 0 0 fun _ => 1) [(Side.left, BCRow.mixed 0 2)] 0 s) = 1 - X + C d := by
    have hv : ((BCs.empty.set .left .R (.pair 2 d)).new (some (0, 1))).orderedvals = [d] := by
      unfold BCs.orderedvals
      rw [entries_new, hent]
      rfl
    rw [hv]
    have hs : ∀ f : Fin [(Side.left, BCRow.mixed 0 2)].length → ℝ[X], ∑ s, f s = f ⟨0, by simp⟩ := fun f =>
      Fin.sum_univ_one f
    rw [hs, hbf]
    simp [setBoundaryDofs]
  unfold physical
  simp only [Asked.holds]
  rw [hpoly, iteratedDeriv_comp_affine]
  simp only [toReference, Function.iterate_one, derivative_add, derivative_sub, derivative_one, derivative_X, derivative_C,
    eval_add, eval_sub, eval_one, eval_X, eval_C, eval_zero]
  intro h
  norm_num at h
  linarith

open Classical in
/-- **C26** (string form).  Conditions `u''..'(x)=v` joined by `&&`, with at most four primes and every `x` an end point:
the dictionary holds, for each end and each order, the value of the last condition given for it. -/
theorem C26_string {l u : ℝ} (h : 1e-8 ≤ u - l) (parts : List (ℕ × ℝ × ℝ))
    (hp : ∀ e ∈ parts, e.1 ≤ 4 ∧ (e.2.1 = l ∨ e.2.1 = u)) :
    ∃ b, BCs.ofString l u parts = some b ∧ ∀ s k, b.side s k =
      (parts.reverse.find? fun e => decide (BCs.stringKey e.1 = some k ∧ e.2.1 = s.end l u)).map
        fun e => BCVal.num e.2.2 := by
  have hlu : l ≠ u := by intro h'; rw [h'] at h; norm_num at h
  induction parts using List.reverseRecOn with
  | nil => exact ⟨BCs.empty, by simp [BCs.ofString], fun s k => by cases s <;> simp [BCs.side, BCs.empty]⟩
  | append_singleton L e ih =>
    obtain ⟨b, hb, hs⟩ := ih fun e he => hp e (List.mem_append_left _ he)
    obtain ⟨h4, hx⟩ := hp e (by simp)
    obtain ⟨k0, hk0⟩ : ∃ k0, BCs.stringKey e.1 = some k0 := by
      have := e.1
      generalize e.1 = n at h4
      interval_cases n <;> simp [BCs.stringKey]
    unfold BCs.ofString at hb ⊢
    rw [List.foldlM_append, hb]
    simp only [List.foldlM_cons, List.foldlM_nil, hk0, Option.bind_eq_bind, Option.bind_some,
      List.reverse_append, List.reverse_singleton, List.singleton_append]
    rcases hx with hx | hx
    · rw [hx, if_pos (by norm_num)]
      refine ⟨_, rfl, fun s k => ?_⟩
      by_cases hc : k0 = k ∧ s = .left
      · obtain ⟨rfl, rfl⟩ := hc
        rw [List.find?_cons_of_pos (by simp [hk0, hx, Side.end])]
        simp [BCs.side, BCs.set]
      · have hneg : ¬ (BCs.stringKey e.1 = some k ∧ e.2.1 = s.end l u) := by
          rintro ⟨h1, h2⟩
          refine hc ⟨by rw [hk0] at h1; exact Option.some.inj h1, ?_⟩
          cases s
          · rfl
          · rw [hx] at h2; exact absurd h2 hlu
        rw [List.find?_cons_of_neg (by simpa using hneg), ← hs]
        cases s
        · have : k ≠ k0 := fun h' => hc ⟨h'.symm, rfl⟩
          simp [BCs.side, BCs.set, this]
        · simp [BCs.side, BCs.set]
    · rw [hx, if_neg (by rw [abs_of_nonneg (by linarith)]; linarith), if_pos (by norm_num)]
      refine ⟨_, rfl, fun s k => ?_⟩
      by_cases hc : k0 = k ∧ s = .right
      · obtain ⟨rfl, rfl⟩ := hc
        rw [List.find?_cons_of_pos (by simp [hk0, hx, Side.end])]
        simp [BCs.side, BCs.set]
      · have hneg : ¬ (BCs.stringKey e.1 = some k ∧ e.2.1 = s.end l u) := by
          rintro ⟨h1, h2⟩
          refine hc ⟨by rw [hk0] at h1; exact Option.some.inj h1, ?_⟩
          cases s
          · rw [hx] at h2; exact absurd h2.symm hlu
          · rfl
        rw [List.find?_cons_of_neg (by simpa using hneg), ← hs]
        cases s
        · simp [BCs.side, BCs.set]
        · have : k ≠ k0 := fun h' => hc ⟨h'.symm, rfl⟩
          simp [BCs.side, BCs.set, this]

/-- **C26** (string form, errors).  A condition at a point that is not an end point, or with more than four primes, is
refused whatever the other conditions are. -/
theorem C26_string_error {l u : ℝ} (parts : List (ℕ × ℝ × ℝ)) (e : ℕ × ℝ × ℝ) (he : e ∈ parts)
    (hbad : 4 < e.1 ∨ (1e-8 ≤ |e.2.1 - l| ∧ 1e-8 ≤ |e.2.1 - u|)) : BCs.ofString l u parts = none := by
  unfold BCs.ofString
  generalize BCs.empty = b0
  induction parts generalizing b0 with
  | nil => simp at he
  | cons e' L ih =>
    rw [List.foldlM_cons]
    rcases List.mem_cons.1 he with rfl | he
    · rcases hbad with hb | ⟨h1, h2⟩
      · have : BCs.stringKey e.1 = none := by
          unfold BCs.stringKey
          split <;> first | omega | rfl
        simp [this]
      · have hn : ((BCs.stringKey e.1).bind fun k =>
            if |e.2.1 - l| < 1e-8 then some (b0.set .left k (.num e.2.2))
            else if |e.2.1 - u| < 1e-8 then some (b0.set .right k (.num e.2.2)) else none) = none := by
          simp only [if_neg (not_lt.2 h1), if_neg (not_lt.2 h2)]
          cases BCs.stringKey e.1 <;> rfl
        rw [hn]
        rfl
    · refine Option.bind_eq_none_iff.2 fun b _ => ih he b

/-- Two conditions in string form on `[0, 2]`. -/
example : ∃ b, BCs.ofString 0 2 [(0, 0, 7), (1, 2, 9)] = some b ∧ b.left .D = some (.num 7) ∧ b.right .N = some (.num 9) ∧
    b.right .D = none := by
  obtain ⟨b, hb, h⟩ := C26_string (l := 0) (u := 2) (by norm_num) [(0, 0, 7), (1, 2, 9)] (by simp)
  refine ⟨b, hb, ?_, ?_, ?_⟩
  · have := h .left .D; simpa [BCs.side, BCs.stringKey, Side.end, List.find?] using this
  · have := h .right .N; simpa [BCs.side, BCs.stringKey, Side.end, List.find?] using this
  · have := h .right .D; simpa [BCs.side, BCs.stringKey, Side.end, List.find?] using this

/-- **C26** (one-sided forms).  `(None, a)` and `(a, None)` set exactly one Dirichlet condition. -/
theorem C26_one_sided (a : ℝ) :
    (∃ b, BCs.ofTuple [none, some a] = some b ∧ b.entries = [(Side.right, .D, .num a)]) ∧
    (∃ b, BCs.ofTuple [some a, none] = some b ∧ b.entries = [(Side.left, .D, .num a)]) :=
  ⟨⟨_, rfl, rfl⟩, ⟨_, rfl, rfl⟩⟩

end Shenfun
