import Verif.Spec.Composite
import Mathlib.Data.List.GetD
import Mathlib.Tactic.Ring

/-!
# C33, C34, C37, C58: composite spaces
-/

namespace Shenfun

open Spec

/-! ## C33: indexing -/

theorem flatten_eq_scalars : ∀ s : Spc, s.flatten = scalars s
  | .scalar d a => by rw [Spc.flatten, scalars]
  | .comp k l => by
    rw [Spc.flatten, scalars]
    congr 1
    exact List.map_congr_left fun s _ => flatten_eq_scalars s

theorem scalars_comp (k : CKind) (l : List Spc) : scalars (.comp k l) = (l.map scalars).flatten := by rw [scalars]

theorem scalars_vector (d : ℕ) (as : List ℕ) (k : CKind) :
    scalars (.comp k (as.map (Spc.scalar d))) = as.map fun a => (d, a) := by
  rw [scalars_comp, List.map_map]
  induction as with
  | nil => rfl
  | cons a as ih =>
    rw [List.map_cons, List.flatten_cons, ih, List.map_cons]
    simp [scalars]

/-- **C33** (number of components). -/
theorem C33_numComponents {s : Spc} (h : ValidSpc s) : s.numComponents = (scalars s).length := by
  cases h with
  | scalar d a => rw [Spc.numComponents, scalars]; rfl
  | composite l h => rw [Spc.numComponents, flatten_eq_scalars]
  | vector d as h =>
    rw [Spc.numComponents, Spc.dimensions, flatten_eq_scalars, scalars_vector, List.length_map]
    cases as with
    | nil => rfl
    | cons a as => simp [← h]
  | tensor d ass h h' =>
    rw [Spc.numComponents, Spc.dimensions, flatten_eq_scalars, scalars_comp, List.map_map]
    have h1 : (scalars ∘ fun as => Spc.comp .vector (as.map (Spc.scalar d))) = fun as : List ℕ => as.map fun a => (d, a) := by
      funext as; exact scalars_vector d as _
    rw [h1]
    have h2 : ∀ L : List (List ℕ), (∀ as ∈ L, as.length = d) → (L.map fun as => as.map fun a => (d, a)).flatten.length = L.length * d := by
      intro L
      induction L with
      | nil => intro _; simp
      | cons as L ih =>
        intro hL
        rw [List.map_cons, List.flatten_cons, List.length_append, ih fun as h => hL as (by simp [h]), List.length_map,
          hL as (by simp), List.length_cons]
        ring
    rw [h2 ass h', h]
    cases ass with
    | nil => subst h; rfl
    | cons as ass =>
      have h3 := h' as (by simp)
      have h4 : 0 < d := by rw [← h]; simp
      cases as with
      | nil => simp at h3; omega
      | cons a as => simp; ring

theorem ValidSpc_sub {k : CKind} {l : List Spc} (h : ValidSpc (.comp k l)) : ∀ s ∈ l, ValidSpc s := by
  cases h with
  | composite l h => exact h
  | vector d as h =>
    intro s hs
    obtain ⟨a, -, rfl⟩ := List.mem_map.1 hs
    exact .scalar d a
  | tensor d ass h h' =>
    intro s hs
    obtain ⟨as, ha, rfl⟩ := List.mem_map.1 hs
    exact .vector d as (h' as ha)

theorem pyGet?_nat {α : Type*} (l : List α) (i : ℕ) : pyGet? l (i : ℤ) = l[i]? := by
  unfold pyGet?
  rw [if_neg (by omega), Int.toNat_natCast]

theorem offsetBefore_eq {l : List Spc} (h : ∀ s ∈ l, ValidSpc s) (i : ℕ) :
    offsetBefore l i = ((l.take i).map scalars).flatten.length := by
  unfold offsetBefore
  rw [Int.toNat_natCast, List.length_flatten, List.map_map]
  congr 1
  exact List.map_congr_left fun s hs => C33_numComponents (h s (List.mem_of_mem_take hs))

theorem scalars_split {k : CKind} {l : List Spc} {i : ℕ} {s : Spc} (hi : l[i]? = some s) :
    scalars (.comp k l) = ((l.take i).map scalars).flatten ++ (scalars s ++ ((l.drop (i+1)).map scalars).flatten) := by
  rw [scalars_comp]
  obtain ⟨hlt, rfl⟩ := List.getElem?_eq_some_iff.1 hi
  conv_lhs => rw [← List.take_append_drop i l, List.drop_eq_getElem_cons hlt]
  rw [List.map_append, List.flatten_append, List.map_cons, List.flatten_cons]

/-- One step of indexing. -/
theorem getitem_nat {v : CView} {k : CKind} {l : List Spc} (hs : v.space = .comp k l) (hv : ValidSpc (.comp k l))
    (hl : v.len = some (scalars v.space).length) {i : ℕ} {s : Spc} (hi : l[i]? = some s) (h0 : (scalars s).length ≠ 0) :
    v.getitem i = some ⟨s, v.start + ((l.take i).map scalars).flatten.length,
      if (scalars s).length = 1 then none else some (scalars s).length,
      ((l.take i).map scalars).flatten.length + v.offset⟩ := by
  have hmem : s ∈ l := List.mem_of_getElem? hi
  have hn := C33_numComponents (ValidSpc_sub hv s hmem)
  have hlen := congrArg List.length (scalars_split (k := k) hi)
  rw [List.length_append, List.length_append] at hlen
  have ho := offsetBefore_eq (ValidSpc_sub hv) i
  unfold CView.getitem
  rw [hl, hs]
  dsimp only
  rw [pyGet?_nat, hi]
  dsimp only
  rw [ho, hn]
  by_cases h1 : (scalars s).length > 1
  · rw [if_pos h1, if_neg (by omega), Nat.min_eq_left (by omega), Nat.min_eq_left (by omega)]
    simp
  · rw [if_neg h1, if_pos (by omega), if_pos (by omega)]

/-- **C33** (views): indexing a function along any path of indices gives the function on that subspace, showing exactly its scalar
components out of all components `scalars space` (each component being labelled), and `offset()` is the position of the first.
Excluded are paths through composite spaces with a single component. -/
theorem C33_view {space : Spc} (hv : ValidSpc space) (p : List ℕ) {s : Spc} (hp : subspace space p = some s)
    (h1 : NoSingletons space p) (hne : (scalars s).length ≠ 0) :
    ∃ v, (CView.whole space).path (p.map Int.ofNat) = some v ∧ v.space = s ∧ shown v (scalars space) = scalars s ∧
      v.offset = v.start ∧ v.start + (scalars s).length ≤ (scalars space).length := by
  have key : ∀ (p : List ℕ) (v : CView) (pre post : List (ℕ × ℕ)) (s : Spc), ValidSpc v.space → subspace v.space p = some s →
      NoSingletons v.space p → (scalars s).length ≠ 0 →
      v.start = pre.length → v.offset = v.start → (p ≠ [] → v.len = some (scalars v.space).length) →
      (v.len.getD 1 = (scalars v.space).length) →
      ∃ w pre' post', v.path (p.map Int.ofNat) = some w ∧ w.space = s ∧ w.offset = w.start ∧ w.start = pre'.length ∧
        w.len.getD 1 = (scalars s).length ∧ pre ++ (scalars v.space ++ post) = pre' ++ (scalars s ++ post') := by
    intro p
    induction p with
    | nil =>
      intro v pre post s _ hp _ _ hst hof _ hlen
      have : v.space = s := by simpa [subspace] using hp
      subst this
      exact ⟨v, pre, post, rfl, rfl, hof, hst, hlen, rfl⟩
    | cons i p ih =>
      intro v pre post s hv hp h1 hne hst hof hl hlen
      have hl := hl (by simp)
      cases hsp : v.space with
      | scalar d a => rw [hsp] at hp; simp [subspace] at hp
      | comp k l =>
        rw [hsp] at hp h1 hv
        simp only [subspace, Option.bind_eq_some_iff] at hp
        obtain ⟨t, hi, hp⟩ := hp
        simp only [NoSingletons] at h1
        obtain ⟨h1a, h1b⟩ := h1 t hi
        have ht0 : (scalars t).length ≠ 0 := by
          clear ih
          have : ∀ (p : List ℕ) (t : Spc), subspace t p = some s → (scalars t).length ≠ 0 := by
            intro p
            induction p with
            | nil => intro t h; simp [subspace] at h; subst h; exact hne
            | cons j p ih =>
              intro t h
              cases t with
              | scalar d a => simp [subspace] at h
              | comp k l =>
                simp only [subspace, Option.bind_eq_some_iff] at h
                obtain ⟨t', hj, h⟩ := h
                have := ih t' h
                rw [scalars_split hj, List.length_append, List.length_append]
                omega
          exact this p t hp
        have hg := getitem_nat hsp hv (by rw [hsp] at hl ⊢; exact hl) hi ht0
        set w : CView := ⟨t, v.start + ((l.take i).map scalars).flatten.length,
          if (scalars t).length = 1 then none else some (scalars t).length,
          ((l.take i).map scalars).flatten.length + v.offset⟩ with hw
        obtain ⟨w', pre', post', e1, e2, e3, e4, e5, e6⟩ := ih w (pre ++ ((l.take i).map scalars).flatten)
          (((l.drop (i+1)).map scalars).flatten ++ post) s (ValidSpc_sub hv t (List.mem_of_getElem? hi)) hp h1b hne
          (by rw [List.length_append, ← hst]) (by rw [hw]; dsimp only; omega)
          (fun hpne => by rw [hw]; dsimp only; rw [if_neg (h1a hpne)])
          (by rw [hw]; dsimp only; split_ifs with h <;> simp [h])
        refine ⟨w', pre', post', ?_, e2, e3, e4, e5, ?_⟩
        · rw [List.map_cons, CView.path]
          have hg' : v.getitem (Int.ofNat i) = some w := hg
          rw [hg']
          exact e1
        · rw [← e6, scalars_split (k := k) hi]
          simp [List.append_assoc, hw]
  obtain ⟨w, pre', post', e1, e2, e3, e4, e5, e6⟩ := key p (CView.whole space) [] [] s hv hp h1 hne rfl rfl
    (fun _ => by rw [CView.whole, C33_numComponents hv]) (by rw [CView.whole, C33_numComponents hv]; rfl)
  rw [List.nil_append, List.append_nil] at e6
  have e6 : scalars space = pre' ++ (scalars s ++ post') := e6
  refine ⟨w, e1, e2, ?_, e3, ?_⟩
  · unfold shown
    rw [e6, e4, e5, List.drop_left, List.take_left]
  · rw [e6, e4, List.length_append, List.length_append]; omega

/-- **C33** (test and trial functions): the offset is the number of scalar components ahead, so the basis function and the view of
the function refer to the same components. -/
theorem C33_basis {space : Spc} (hv : ValidSpc space) (p : List ℕ) {s : Spc} (hp : subspace space p = some s) :
    ∃ o post, (CBasis.mk space 0).path (p.map Int.ofNat) = some ⟨s, o⟩ ∧
      scalars space = (scalars space).take o ++ (scalars s ++ post) ∧ o ≤ (scalars space).length := by
  have key : ∀ (p : List ℕ) (t : Spc) (o : ℕ) (pre post : List (ℕ × ℕ)), ValidSpc t → subspace t p = some s → o = pre.length →
      ∃ o' pre' post', (CBasis.mk t o).path (p.map Int.ofNat) = some ⟨s, o'⟩ ∧ o' = pre'.length ∧
        pre ++ (scalars t ++ post) = pre' ++ (scalars s ++ post') := by
    intro p
    induction p with
    | nil =>
      intro t o pre post _ hp ho
      have : t = s := by simpa [subspace] using hp
      subst this
      exact ⟨o, pre, post, rfl, ho, rfl⟩
    | cons i p ih =>
      intro t o pre post hv hp ho
      cases t with
      | scalar d a => simp [subspace] at hp
      | comp k l =>
        simp only [subspace, Option.bind_eq_some_iff] at hp
        obtain ⟨t, hi, hp⟩ := hp
        obtain ⟨o', pre', post', e1, e2, e3⟩ := ih t (o + offsetBefore l i) (pre ++ ((l.take i).map scalars).flatten)
          (((l.drop (i+1)).map scalars).flatten ++ post) (ValidSpc_sub hv t (List.mem_of_getElem? hi)) hp
          (by rw [List.length_append, ← ho, offsetBefore_eq (ValidSpc_sub hv)])
        refine ⟨o', pre', post', ?_, e2, ?_⟩
        · rw [List.map_cons, CBasis.path]
          have hg : (CBasis.mk (.comp k l) o).getitem (Int.ofNat i) = some ⟨t, o + offsetBefore l i⟩ := by
            show (pyGet? l (i : ℤ)).map _ = _
            rw [pyGet?_nat, hi]; rfl
          rw [hg]; exact e1
        · rw [← e3, scalars_split (k := k) hi]
          simp [List.append_assoc]
  obtain ⟨o', pre', post', e1, e2, e3⟩ := key p space 0 [] [] hv hp rfl
  rw [List.nil_append, List.append_nil] at e3
  refine ⟨o', post', e1, ?_, ?_⟩
  · conv_lhs => rw [e3]
    congr 1
    rw [e3, e2, List.take_left]
  · rw [e3, e2, List.length_append]; omega

/-- **C33** (disjoint and covering): every component of a composite function is shown by exactly one of the views `u[i]`. -/
theorem C33_partition {k : CKind} {l : List Spc} (hv : ValidSpc (.comp k l)) (hne : ∀ s ∈ l, (scalars s).length ≠ 0) (c : ℕ)
    (hc : c < (scalars (.comp k l)).length) :
    ∃! i : ℕ, i < l.length ∧ ∃ v, (CView.whole (.comp k l)).getitem i = some v ∧ v.start ≤ c ∧ c < v.start + v.len.getD 1 := by
  have hview : ∀ i (hi : i < l.length), ∃ v, (CView.whole (.comp k l)).getitem i = some v ∧
      v.start = ((l.take i).map scalars).flatten.length ∧ v.start + v.len.getD 1 = ((l.take (i+1)).map scalars).flatten.length := by
    intro i hi
    have hi' : l[i]? = some l[i] := List.getElem?_eq_getElem hi
    refine ⟨_, getitem_nat rfl hv (by rw [CView.whole, C33_numComponents hv]) hi' (hne _ (List.getElem_mem hi)), by simp [CView.whole], ?_⟩
    rw [List.take_succ_eq_append_getElem hi, List.map_append, List.flatten_append, List.length_append]
    simp only [CView.whole, Nat.zero_add, List.map_cons, List.map_nil, List.flatten_cons, List.flatten_nil, List.append_nil]
    split_ifs with h <;> simp [h]
  have hmono : ∀ i j, i ≤ j → ((l.take i).map scalars).flatten.length ≤ ((l.take j).map scalars).flatten.length := by
    intro i j hij
    have : l.take i = (l.take j).take i := by rw [List.take_take, Nat.min_eq_left hij]
    rw [this]
    conv_rhs => rw [← List.take_append_drop i (l.take j)]
    rw [List.map_append, List.flatten_append, List.length_append]; omega
  -- existence
  have hex : ∃ i, i < l.length ∧ ((l.take i).map scalars).flatten.length ≤ c ∧ c < ((l.take (i+1)).map scalars).flatten.length := by
    by_contra hcon
    push Not at hcon
    have : ∀ i, i ≤ l.length → ((l.take i).map scalars).flatten.length ≤ c := by
      intro i
      induction i with
      | zero => intro _; simp
      | succ i ih => intro hi; exact hcon i (by omega) (ih (by omega))
    have h := this l.length le_rfl
    rw [List.take_length, ← scalars_comp k] at h
    omega
  obtain ⟨i, hi, h1, h2⟩ := hex
  refine ⟨i, ⟨hi, ?_⟩, ?_⟩
  · obtain ⟨v, e1, e2, e3⟩ := hview i hi
    exact ⟨v, e1, by omega, by omega⟩
  · rintro j ⟨hj, v, e1, e2, e3⟩
    obtain ⟨v', f1, f2, f3⟩ := hview j hj
    rw [e1] at f1
    obtain rfl := Option.some.inj f1
    rcases Nat.lt_trichotomy i j with h | h | h
    · have := hmono (i+1) j h; omega
    · exact h.symm
    · have := hmono (j+1) i h; omega

/-- A non-trivial space: `CompositeSpace([VectorSpace(T), T, CompositeSpace([T, TensorSpace(T)])])` in two dimensions, with labels. -/
def exampleSpc : Spc :=
  .comp .composite [.comp .vector ([0, 1].map (Spc.scalar 2)), .scalar 2 2,
    .comp .composite [.scalar 2 3, .comp .tensor ([[4, 5], [6, 7]].map fun as => .comp .vector (as.map (Spc.scalar 2)))]]

theorem exampleSpc_valid : ValidSpc exampleSpc := by
  refine .composite _ fun s hs => ?_
  simp only [List.mem_cons, List.not_mem_nil, or_false] at hs
  rcases hs with rfl | rfl | rfl
  · exact .vector 2 [0, 1] rfl
  · exact .scalar 2 2
  · refine .composite _ fun s hs => ?_
    simp only [List.mem_cons, List.not_mem_nil, or_false] at hs
    rcases hs with rfl | rfl
    · exact .scalar 2 3
    · exact .tensor 2 [[4, 5], [6, 7]] rfl (by simp)

example : ∃ v, (CView.whole exampleSpc).path [2, 1, 1] = some v ∧ shown v (scalars exampleSpc) = [(2, 6), (2, 7)] := by
  obtain ⟨v, h1, h2, h3, -⟩ := C33_view exampleSpc_valid [2, 1, 1] (s := .comp .vector ([6, 7].map (Spc.scalar 2)))
    (by simp [subspace, exampleSpc]) (by simp [NoSingletons, exampleSpc, scalars]) (by simp [scalars])
  exact ⟨v, h1, by rw [h3]; simp [scalars]⟩

/-- With negative indices the subspace is right and the components are wrong: `u[-1]` of a composite function with two scalar
components shows component 0 instead of component 1, for the function as well as for test and trial functions. -/
theorem C33_negative_index_wrong : ∃ space : Spc, ValidSpc space ∧ (∃ v, (CView.whole space).getitem (-1) = some v ∧
      v.space = .scalar 2 7 ∧ shown v (scalars space) = [(2, 5)]) ∧
    (CBasis.mk space 0).getitem (-1) = some ⟨.scalar 2 7, 0⟩ := by
  refine ⟨.comp .composite [.scalar 2 5, .scalar 2 7], .composite _ fun s hs => ?_, ?_, ?_⟩
  · simp only [List.mem_cons, List.not_mem_nil, or_false] at hs
    rcases hs with rfl | rfl
    · exact .scalar 2 5
    · exact .scalar 2 7
  · refine ⟨⟨.scalar 2 7, 0, none, 0⟩, ?_, rfl, ?_⟩
    · simp [CView.getitem, CView.whole, Spc.numComponents, Spc.flatten, pyGet?, offsetBefore]
    · simp [shown, scalars]
  · simp [CBasis.getitem, pyGet?, offsetBefore]

/-- A nested composite space with a single component: `u[0]` is an array without leading axis, and `u[0][0]` indexes the array along
its first coordinate instead of returning the component. -/
theorem C33_single_component_wrong : ∃ space : Spc, ValidSpc space ∧ subspace space [0, 0] = some (.scalar 2 5) ∧
    (CView.whole space).path [0, 0] = none := by
  refine ⟨.comp .composite [.comp .composite [.scalar 2 5], .scalar 2 7], .composite _ fun s hs => ?_, ?_, ?_⟩
  · simp only [List.mem_cons, List.not_mem_nil, or_false] at hs
    rcases hs with rfl | rfl
    · exact .composite _ fun s hs => by
        rw [List.mem_singleton] at hs
        subst hs
        exact .scalar 2 5
    · exact .scalar 2 7
  · simp [subspace]
  · simp [CView.path, CView.getitem, CView.whole, Spc.numComponents, Spc.flatten, pyGet?, offsetBefore]

end Shenfun
