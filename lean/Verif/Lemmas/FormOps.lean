import Verif.Props.Forms
import Mathlib.Algebra.BigOperators.Fin

/-!
# Values of the building blocks of the differential operators
-/

namespace Shenfun

open Spec

variable {R : Type*} [CommRing R] {n m : ℕ} (D : Fin n → Derivation ℤ R R) (u : ℕ → R)

theorem value_item (e : FExpr R n) (i : ℕ) : value D u (FExpr.item e i) 0 = value D u e i := rfl

theorem length_item (e : FExpr R n) (i : ℕ) : (FExpr.item e i).length = 1 := rfl

theorem value_row (e : FExpr R n) (i j : ℕ) (hj : j < n) : value D u (FExpr.row e i) j = value D u e (i * n + j) := by
  unfold value FExpr.row
  rw [List.getD_eq_getElem?_getD, List.getD_eq_getElem?_getD, List.getElem?_take, if_pos hj, List.getElem?_drop]

theorem length_row (e : FExpr R n) (i : ℕ) (h : (i + 1) * n ≤ e.length) : (FExpr.row e i).length = n := by
  unfold FExpr.row
  rw [List.length_take, List.length_drop]
  rw [Nat.add_mul, Nat.one_mul] at h
  omega

theorem foldl_add_length (L : List (FExpr R n)) (e : FExpr R n) (h : ∀ f ∈ L, f.length = e.length) :
    (L.foldl FExpr.add e).length = e.length := by
  induction L generalizing e with
  | nil => rfl
  | cons f L ih =>
    have hf := h f (by simp)
    have h1 := (C31_add (D := fun i => (0 : Derivation ℤ R R)) (u := fun _ => 0) e f hf.symm 0).1
    rw [List.foldl_cons, ih _ (fun f' hf' => by rw [h1]; exact h f' (by simp [hf'])), h1]

theorem foldl_add_value (L : List (FExpr R n)) (e : FExpr R n) (h : ∀ f ∈ L, f.length = e.length) (i : ℕ) :
    value D u (L.foldl FExpr.add e) i = value D u e i + (L.map fun f => value D u f i).sum := by
  induction L generalizing e with
  | nil => simp
  | cons f L ih =>
    have hf := h f (by simp)
    have h1 := C31_add D u e f hf.symm i
    rw [List.foldl_cons, ih _ (fun f' hf' => by rw [h1.1]; exact h f' (by simp [hf'])), h1.2, List.map_cons, List.sum_cons]
    ring

theorem length_sumE (L : List (FExpr R n)) (l : ℕ) (h : ∀ f ∈ L, f.length = l) (hne : L ≠ []) : (FExpr.sumE L).length = l := by
  cases L with
  | nil => exact absurd rfl hne
  | cons e L =>
    have he := h e (by simp)
    unfold FExpr.sumE
    rw [foldl_add_length _ _ (fun f hf => by rw [he]; exact h f (by simp [hf])), he]

theorem value_sumE (L : List (FExpr R n)) (l : ℕ) (h : ∀ f ∈ L, f.length = l) (i : ℕ) :
    value D u (FExpr.sumE L) i = (L.map fun f => value D u f i).sum := by
  cases L with
  | nil => rfl
  | cons e L =>
    have he := h e (by simp)
    unfold FExpr.sumE
    rw [foldl_add_value _ _ _ _ (fun f hf => by rw [he]; exact h f (by simp [hf])), List.map_cons, List.sum_cons]

theorem flatten_of_length_one {α : Type*} [Inhabited α] (L : List (List α)) (h : ∀ c ∈ L, c.length = 1) :
    L.flatten = L.map fun c => c.getD 0 default := by
  induction L with
  | nil => rfl
  | cons c L ih =>
    have hc := h c (by simp)
    rw [List.length_eq_one_iff] at hc
    obtain ⟨a, rfl⟩ := hc
    rw [List.flatten_cons, ih (fun c hc => h c (by simp [hc]))]
    rfl

section env

variable (E : FormEnv R n m)

theorem fromComponents_eq (d : List (FExpr R n)) (h : ∀ c ∈ d, c.length = 1) :
    (E.fromComponents d).length = d.length ∧ ∀ (i : ℕ) (hi : i < d.length), ∀ D : Fin n → Derivation ℤ R R, ∀ u : ℕ → R,
      value D u (E.fromComponents d) i = value D u d[i] 0 * E.his d.length i := by
  have h1 : ∀ c ∈ d.mapIdx (fun i c => FExpr.mul c (E.his d.length i)), c.length = 1 := by
    intro c hc
    rw [List.mem_mapIdx] at hc
    obtain ⟨i, hi, rfl⟩ := hc
    unfold FExpr.mul
    rw [List.length_map]
    exact h _ (List.getElem_mem hi)
  unfold FormEnv.fromComponents
  rw [flatten_of_length_one _ h1]
  refine ⟨by simp, ?_⟩
  intro i hi D u
  rw [value, List.getD_eq_getElem _ _ (by simpa using hi), List.getElem_map, List.getElem_mapIdx]
  exact (C31_mul D u _ _ 0).2

theorem his_vec (i : Fin n) (l : ℕ) (hl : l = n) : E.his l i = if E.normal then E.hi i else 1 := by
  unfold FormEnv.his
  rw [if_pos hl, dif_pos i.2]

theorem his_tensor (i j : Fin n) (hn : n ≠ 1) (l : ℕ) (hl : l = n ^ 2) :
    E.his l (i * n + j) = if E.normal then E.hi i * E.hi j else 1 := by
  unfold FormEnv.his
  have hi := i.2
  have hj := j.2
  have hl' : l ≠ n := by
    rw [hl, sq]; intro h
    have : n * n = n * 1 := by omega
    have := Nat.eq_of_mul_eq_mul_left (by omega) this
    exact hn this
  have h1 : ((i:ℕ) * n + j) / n = i := by
    rw [mul_comm, Nat.mul_add_div (by omega), Nat.div_eq_of_lt hj, add_zero]
  have h2 : ((i:ℕ) * n + j) % n = j := by
    rw [mul_comm, Nat.mul_add_mod, Nat.mod_eq_of_lt hj]
  rw [if_neg hl', if_pos hl, dif_pos ⟨by rw [h1]; exact hi, by rw [h2]; exact hj⟩]
  simp only [h1, h2]

theorem value_comp (e : FExpr R n) (i : Fin n) :
    (E.comp e i).length = 1 ∧ value D u (E.comp e i) 0 = value D u e i * (if E.normal then Ring.inverse (E.hi i) else 1) := by
  unfold FormEnv.comp
  split_ifs
  · exact ⟨(C31_mul D u _ _ 0).1, (C31_mul D u _ _ 0).2⟩
  · exact ⟨rfl, by rw [mul_one]; rfl⟩

theorem value_comp2 (e : FExpr R n) (i j : Fin n) :
    (E.comp2 e i j).length = 1 ∧ value D u (E.comp2 e i j) 0 =
      value D u e (i * n + j) * (if E.normal then Ring.inverse (E.hi i * E.hi j) else 1) := by
  unfold FormEnv.comp2
  split_ifs
  · refine ⟨(C31_mul D u _ _ 0).1, ?_⟩
    rw [(C31_mul D u _ _ 0).2, value_item, value_row _ _ _ _ _ j.2]
  · refine ⟨rfl, ?_⟩
    rw [mul_one, value_item, value_row _ _ _ _ _ j.2]

theorem mem_unlessZero {sc : R} {e f : FExpr R n} (h : f ∈ E.unlessZero sc e) : f.length = e.length := by
  unfold FormEnv.unlessZero at h
  split_ifs at h
  · simp at h
  · rw [List.mem_singleton] at h; subst h; simp [FExpr.mul]

theorem unlessZero_sum (hz : ∀ a, E.isZero a = true → a = 0) (sc : R) (e : FExpr R n) (i : ℕ) :
    ((E.unlessZero sc e).map fun f => value D u f i).sum = value D u e i * sc := by
  unfold FormEnv.unlessZero
  split_ifs with h
  · rw [hz _ h]; simp
  · simp [(C31_mul D u e sc i).2]

end env

theorem sum_map_flatMap {α β : Type*} (L : List α) (F : α → List β) (f : β → R) :
    ((L.flatMap F).map f).sum = (L.map fun a => ((F a).map f).sum).sum := by
  induction L with
  | nil => rfl
  | cons a L ih => rw [List.flatMap_cons, List.map_append, List.sum_append, ih, List.map_cons, List.sum_cons]

theorem sum_finRange (f : Fin n → R) : ((List.finRange n).map f).sum = ∑ i, f i := by
  rw [Fin.sum_univ_def]

theorem getElem?_flatMap_const {α β : Type*} (L : List α) (F : α → List β) (k : ℕ) (hF : ∀ a, (F a).length = k) (i j : ℕ)
    (hj : j < k) : (L.flatMap F)[i * k + j]? = L[i]?.bind fun a => (F a)[j]? := by
  induction L generalizing i with
  | nil => simp
  | cons a L ih =>
    rw [List.flatMap_cons]
    cases i with
    | zero => rw [Nat.zero_mul, Nat.zero_add, List.getElem?_append_left (by rw [hF]; exact hj)]; rfl
    | succ i =>
      rw [List.getElem?_append_right (by rw [hF, Nat.add_mul]; omega), hF, List.getElem?_cons_succ, ← ih]
      congr 1
      rw [Nat.add_mul]; omega

end Shenfun
