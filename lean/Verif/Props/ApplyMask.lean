import Verif.Model.ApplyMask
import Verif.Lemmas.Loop
import Mathlib.Tactic.Ring
import Mathlib.Tactic.Linarith

/-!
# C81: `apply_mask` multiplies by the mask
-/

namespace Shenfun

open Cy (Mem)

namespace Mask

variable {K : Type*} [Field K]

/-- `idx` is an index of an array of shape `sh`. -/
def InShape (sh idx : List ℕ) : Prop := List.Forall₂ (fun i s => i < s) idx sh

/-- What `u_hat *= mask` means, element by element: `u` has shape `ush` and lies at `p`, a mask of shape `ms` is broadcast over the
trailing axes, and no memory outside `u` is written. -/
def IsMasked (ush ms : List ℕ) (mask : List ℕ → ℤ) (p : ℤ) (m m' : Mem K) : Prop :=
  (∀ idx, InShape ush idx → m' (p + offset ush idx) =
    m (p + offset ush idx) * (mask (bcast ms (idx.drop (ush.length - ms.length))) : ℤ)) ∧
  ∀ a, (∀ idx, InShape ush idx → a ≠ p + offset ush idx) → m' a = m a

theorem offset_lt {sh idx : List ℕ} (h : InShape sh idx) : offset sh idx < sh.prod := by
  induction h with
  | nil => simp [offset]
  | @cons i s idx sh hi _ ih =>
    simp only [offset, List.prod_cons]
    calc i * sh.prod + offset sh idx < i * sh.prod + sh.prod := by omega
      _ = (i + 1) * sh.prod := by ring
      _ ≤ s * sh.prod := Nat.mul_le_mul_right _ hi

theorem unflat_offset {sh idx : List ℕ} (h : InShape sh idx) : unflat sh (offset sh idx) = idx := by
  induction h with
  | nil => rfl
  | @cons i s idx sh hi hr ih =>
    have hl := offset_lt hr
    have hp : 0 < sh.prod := by omega
    simp only [offset, unflat]
    rw [Nat.add_comm, Nat.add_mul_div_right _ _ hp, Nat.div_eq_of_lt hl, Nat.add_mul_mod_self_right, Nat.mod_eq_of_lt hl, ih,
      zero_add]

theorem offset_inj {sh i j : List ℕ} (hi : InShape sh i) (hj : InShape sh j) (h : offset sh i = offset sh j) : i = j := by
  rw [← unflat_offset hi, ← unflat_offset hj, h]

theorem offset_unflat (sh : List ℕ) (a : ℕ) (ha : a < sh.prod) : InShape sh (unflat sh a) ∧ offset sh (unflat sh a) = a := by
  induction sh generalizing a with
  | nil => simp only [List.prod_nil] at ha; exact ⟨List.Forall₂.nil, by simp [unflat, offset]; omega⟩
  | cons s sh ih =>
    rw [List.prod_cons] at ha
    have hp : 0 < sh.prod := by
      rcases Nat.eq_zero_or_pos sh.prod with h | h
      · rw [h] at ha; omega
      · exact h
    obtain ⟨h1, h2⟩ := ih (a % sh.prod) (Nat.mod_lt _ hp)
    refine ⟨List.Forall₂.cons (Nat.div_lt_of_lt_mul (by rw [Nat.mul_comm]; exact ha)) h1, ?_⟩
    simp only [unflat, offset]
    rw [h2]; exact Nat.div_add_mod' a sh.prod

/-- The cells of `A` have become zero and no other cell has changed. -/
def Zeroed (A : Set ℤ) (m m' : Mem K) : Prop := ∀ a, (a ∈ A → m' a = 0) ∧ (a ∉ A → m' a = m a)

theorem Zeroed.loop (g : ℕ → Mem K → Mem K) (A : ℕ → Set ℤ) (c : ℕ) (hg : ∀ q < c, ∀ m, Zeroed (A q) m (g q m)) (m : Mem K) :
    Zeroed {a | ∃ q < c, a ∈ A q} m (forN g m c) := by
  induction c with
  | zero => intro a; exact ⟨by rintro ⟨q, hq, _⟩; omega, fun _ => rfl⟩
  | succ c ih =>
    intro a
    rw [forN_succ]
    have h1 := ih (fun q hq => hg q (by omega)) a
    have h2 := hg c (by omega) (forN g m c) a
    constructor
    · rintro ⟨q, hq, ha⟩
      by_cases hc : a ∈ A c
      · exact h2.1 hc
      · rw [h2.2 hc]
        refine h1.1 ⟨q, ?_, ha⟩
        rcases Nat.lt_succ_iff_lt_or_eq.1 hq with h | rfl
        · exact h
        · exact absurd ha hc
    · intro ha
      rw [h2.2 fun hc => ha ⟨c, by omega, hc⟩, h1.2 fun ⟨q, hq, h⟩ => ha ⟨q, by omega, h⟩]

theorem Zeroed.loops (bounds : List ℕ) (body : List ℕ → Mem K → Mem K) (A : List ℕ → Set ℤ)
    (hb : ∀ idx, InShape bounds idx → ∀ m, Zeroed (A idx) m (body idx m)) (m : Mem K) :
    Zeroed {a | ∃ idx, InShape bounds idx ∧ a ∈ A idx} m (Mask.loops bounds body m) := by
  induction bounds generalizing body A m with
  | nil =>
    have e : {a | ∃ idx, InShape [] idx ∧ a ∈ A idx} = A [] := by
      ext a; constructor
      · rintro ⟨idx, h, ha⟩; cases h; exact ha
      · intro ha; exact ⟨[], List.Forall₂.nil, ha⟩
    rw [e]; exact hb [] List.Forall₂.nil m
  | cons s rest ih =>
    have e : {a | ∃ idx, InShape (s :: rest) idx ∧ a ∈ A idx} =
        {a | ∃ q < s, a ∈ {a | ∃ idx, InShape rest idx ∧ a ∈ A (q :: idx)}} := by
      ext a; constructor
      · rintro ⟨idx, h, ha⟩
        cases h with
        | cons h1 h2 => exact ⟨_, h1, _, h2, ha⟩
      · rintro ⟨q, hq, idx, h, ha⟩; exact ⟨q :: idx, List.Forall₂.cons hq h, ha⟩
    rw [e]
    exact Zeroed.loop _ _ s (fun q hq m => ih _ (fun idx => A (q :: idx))
      (fun idx h m => hb (q :: idx) (List.Forall₂.cons hq h) m) m) m

/-- The cells a masking loop clears. -/
def cleared (outer inner ush sh : List ℕ) (mk : ℕ → ℤ) (p : ℤ) : Set ℤ :=
  {a | ∃ idx, InShape outer idx ∧ mk (offset sh idx) = 0 ∧ ∃ c, InShape inner c ∧ a = p + offset ush (c ++ idx)}

theorem zeroed_masking (outer inner ush sh : List ℕ) (mk : ℕ → ℤ) (p : ℤ) (m : Mem K) :
    Zeroed (cleared outer inner ush sh mk p) m (loops outer (fun idx m => if mk (offset sh idx) = 0 then
      loops inner (fun c m => clear ush p (c ++ idx) m) m else m) m) := by
  have := Zeroed.loops outer (fun idx m => if mk (offset sh idx) = 0 then
      loops inner (fun c m => clear ush p (c ++ idx) m) m else m)
    (fun idx => {a | mk (offset sh idx) = 0 ∧ ∃ c, InShape inner c ∧ a = p + offset ush (c ++ idx)}) ?_ m
  · exact this
  · intro idx _ m
    split_ifs with h
    · have hz := Zeroed.loops inner (fun c m => clear ush p (c ++ idx) m) (fun c => {a | a = p + offset ush (c ++ idx)})
        (by
          intro c _ m a
          unfold clear
          refine ⟨fun ha => ?_, fun ha => ?_⟩
          · rw [Set.mem_setOf_eq] at ha; rw [ha, Function.update_self]
          · rw [Set.mem_setOf_eq] at ha; rw [Function.update_of_ne ha]) m
      simpa [h] using hz
    · intro a
      exact ⟨fun ha => absurd ha.1 h, fun _ => rfl⟩

theorem copyMask_offset (ms sh : List ℕ) (mask : List ℕ → ℤ) (junk : ℕ → ℤ) {idx : List ℕ} (h : InShape sh idx) :
    copyMask ms sh mask junk (offset sh idx) = mask (bcast ms idx) := by
  unfold copyMask
  rw [if_pos (offset_lt h), unflat_offset h]

theorem InShape.append {cs sh c idx : List ℕ} (hc : InShape cs c) (h : InShape sh idx) : InShape (cs ++ sh) (c ++ idx) :=
  List.rel_append hc h

theorem InShape.split {cs sh i : List ℕ} (h : InShape (cs ++ sh) i) : InShape cs (i.take cs.length) ∧ InShape sh (i.drop cs.length) := by
  induction cs generalizing i with
  | nil => simpa using ⟨List.Forall₂.nil, h⟩
  | cons s cs ih =>
    cases h with
    | cons h1 h2 =>
      obtain ⟨a, b⟩ := ih h2
      exact ⟨List.Forall₂.cons h1 a, b⟩

/-- Loops over exactly the components `cs` and the mask axes `sh`. -/
theorem isMasked_of_loops (cs sh ms : List ℕ) (hl : sh.length = ms.length) (mask : List ℕ → ℤ) (h01 : ∀ i, mask i = 0 ∨ mask i = 1)
    (junk : ℕ → ℤ) (p : ℤ) (m m' : Mem K) (hz : Zeroed (cleared sh cs (cs ++ sh) sh (copyMask ms sh mask junk) p) m m') :
    IsMasked (cs ++ sh) ms mask p m m' := by
  have hd : (cs ++ sh).length - ms.length = cs.length := by rw [List.length_append]; omega
  constructor
  · intro i hi
    rw [hd]
    obtain ⟨hc, hs⟩ := hi.split
    rcases h01 (bcast ms (i.drop cs.length)) with h | h
    · rw [h, Int.cast_zero, mul_zero]
      refine (hz _).1 ⟨i.drop cs.length, hs, ?_, i.take cs.length, hc, by rw [List.take_append_drop]⟩
      rw [copyMask_offset _ _ _ _ hs, h]
    · rw [h, Int.cast_one, mul_one]
      refine (hz _).2 ?_
      rintro ⟨idx, hidx, hmk, c, hcc, e⟩
      rw [copyMask_offset _ _ _ _ hidx] at hmk
      have e2 : i = c ++ idx := offset_inj hi (hcc.append hidx) (by omega)
      have : c.length = cs.length := List.Forall₂.length_eq hcc
      rw [e2, ← this, List.drop_left, hmk] at h
      omega
  · intro a ha
    refine (hz a).2 ?_
    rintro ⟨idx, hidx, _, c, hc, e⟩
    exact ha _ (hc.append hidx) e

/-- **C81** The Python version, and the fallback of the compiled one, multiply by the mask. -/
theorem C81_times (ush ms : List ℕ) (mask : List ℕ → ℤ) (p : ℤ) (m : Mem K) : IsMasked ush ms mask p m (times ush ms mask p m) := by
  constructor
  · intro idx h
    have := offset_lt h
    unfold times
    have e : (p + (offset ush idx : ℤ) - p).toNat = offset ush idx := by omega
    rw [if_pos (by omega), e, unflat_offset h]
  · intro a ha
    unfold times
    rw [if_neg]
    rintro ⟨h1, h2⟩
    obtain ⟨h3, h4⟩ := offset_unflat ush (a - p).toNat (by omega)
    exact ha _ h3 (by rw [h4]; omega)

/-- **C81** Compiled `apply_mask`: unless `u_hat` has two axes more than the mask, the mask has one or three axes and
`u_hat.shape[1] ≠ u_hat.shape[2]`, the result is `u_hat * mask`, for every shape and mask of zeros and ones. -/
theorem C81_apply (ush ms : List ℕ) (hl : ms.length ≤ ush.length)
    (hok : ush.length = ms.length + 2 → ms.length = 1 ∨ ms.length = 3 → ush.getD 1 0 = ush.getD 2 0)
    (mask : List ℕ → ℤ) (h01 : ∀ i, mask i = 0 ∨ mask i = 1) (junk : ℕ → ℤ) (p : ℤ) (m : Mem K) :
    IsMasked ush ms mask p m (apply ush ms mask junk p m) := by
  unfold apply
  split_ifs with h4 he
  · exact isMasked_of_loops [] ush ms he mask h01 junk p m _ (zeroed_masking _ _ _ _ _ _ _)
  · rcases ush with _ | ⟨u0, sh⟩
    · exact C81_times _ _ _ _ _
    dsimp only
    split_ifs with h1
    · exact isMasked_of_loops [u0] sh ms h1 mask h01 junk p m _ (zeroed_masking _ _ _ _ _ _ _)
    rcases sh with _ | ⟨u1, sh⟩
    · exact C81_times _ _ _ _ _
    dsimp only
    split_ifs with h2
    · refine isMasked_of_loops [u0, u1] sh ms h2 mask h01 junk p m _ ?_
      have hgood := zeroed_masking sh [u0, u1] (u0 :: u1 :: sh) sh (copyMask ms sh mask junk) p m
      unfold b2mask
      split
      · rename_i s
        simp only [List.length_cons, List.length_nil] at h2 hok
        have := hok (by omega) (by omega)
        simp only [List.getD_eq_getElem?_getD, List.getElem?_cons_succ, List.getElem?_cons_zero, Option.getD_some] at this
        subst this
        exact hgood
      · rename_i s s' s''
        simp only [List.length_cons, List.length_nil] at h2 hok
        have := hok (by omega) (by omega)
        simp only [List.getD_eq_getElem?_getD, List.getElem?_cons_succ, List.getElem?_cons_zero, Option.getD_some] at this
        subst this
        exact hgood
      · exact hgood
    · exact C81_times _ _ _ _ _
  · exact C81_times _ _ _ _ _

/-- **C81** (refutation) A rank-two field over a one-dimensional space with more coefficients than `u_hat.shape[1]`: the coefficient
`u_hat[0, 0, u_hat.shape[1]]` is not masked. -/
theorem C81_b2mask_1D (u0 u1 s : ℕ) (h0 : 0 < u0) (h1 : 0 < u1) (hs : u1 < s) (junk : ℕ → ℤ) (p : ℤ) (m : Mem K)
    (hm : m (p + offset [u0, u1, s] [0, 0, u1]) ≠ 0) :
    ¬ IsMasked [u0, u1, s] [s] (fun _ => 0) p m (apply [u0, u1, s] [s] (fun _ => 0) junk p m) := by
  intro h
  have hin : InShape [u0, u1, s] [0, 0, u1] := .cons h0 (.cons h1 (.cons hs .nil))
  have e := h.1 _ hin
  rw [Int.cast_zero, mul_zero] at e
  have hz : Zeroed _ m (apply [u0, u1, s] [s] (fun _ => 0) junk p m) :=
    zeroed_masking [u1] [u0, u1] [u0, u1, s] [s] (copyMask [s] [s] (fun _ => 0) junk) p m
  rw [(hz _).2] at e
  · exact hm e
  · rintro ⟨idx, hidx, _, c, hc, e⟩
    have hin2 : InShape ([u0, u1] ++ [s]) (c ++ idx) := by
      refine InShape.append hc ?_
      cases hidx with
      | cons a b => cases b; exact .cons (by omega) .nil
    have e2 : [0, 0, u1] = c ++ idx := offset_inj hin hin2 (by omega)
    cases hidx with
    | cons a b =>
      cases b
      cases hc with
      | cons a' b' =>
        cases b' with
        | cons a'' b'' =>
          cases b''
          simp only [List.cons_append, List.nil_append, List.cons.injEq] at e2
          omega

/-- **C81** (refutation) A rank-two field over a three-dimensional space with `u_hat.shape[1] < u_hat.shape[2]` (for instance 3×3
components on a grid of more than 3 points): the cell directly behind the array is set to zero. -/
theorem C81_b2mask_3D (u0 u1 s0 s1 s2 : ℕ) (h0 : 0 < u0) (hs : u1 < s0) (h1 : 0 < s1) (h2 : 0 < s2) (junk : ℕ → ℤ) (p : ℤ) (m : Mem K) :
    apply [u0, u1, s0, s1, s2] [s0, s1, s2] (fun _ => 0) junk p m (p + ([u0, u1, s0, s1, s2].prod : ℕ)) = 0 ∧
    ∀ idx, InShape [u0, u1, s0, s1, s2] idx → p + ([u0, u1, s0, s1, s2].prod : ℕ) ≠ p + offset [u0, u1, s0, s1, s2] idx := by
  constructor
  · have hz : Zeroed _ m (apply [u0, u1, s0, s1, s2] [s0, s1, s2] (fun _ => 0) junk p m) :=
      zeroed_masking [s0, s1, s2] [u0, s0] [u0, u1, s0, s1, s2] [s0, s1, s2] (copyMask [s0, s1, s2] [s0, s1, s2] (fun _ => 0) junk) p m
    refine (hz _).1 ⟨[0, 0, 0], .cons (by omega) (.cons h1 (.cons h2 .nil)), ?_, [u0 - 1, u1],
      .cons (by omega) (.cons hs .nil), ?_⟩
    · exact copyMask_offset _ _ _ _ (.cons (by omega) (.cons h1 (.cons h2 .nil)))
    · obtain ⟨w, rfl⟩ : ∃ w, u0 = w + 1 := ⟨u0 - 1, by omega⟩
      simp only [offset, List.prod_cons, List.prod_nil, List.cons_append, List.nil_append, Nat.add_sub_cancel]
      push_cast
      ring
  · intro idx h e
    have := offset_lt h
    omega

/-- The hypotheses of `C81_apply` are met, e.g. by a vector field on a 4×6 grid whose mask has shape `(4, 1)`; the masked entry
vanishes. -/
example : ∃ mask : List ℕ → ℤ, (∀ i, mask i = 0 ∨ mask i = 1) ∧
    apply [3, 4, 6] [4, 1] mask (fun _ => 5) 10 (fun _ => (1:ℚ)) (10 + offset [3, 4, 6] [1, 2, 3]) = 0 ∧
    apply [3, 4, 6] [4, 1] mask (fun _ => 5) 10 (fun _ => (1:ℚ)) (10 + offset [3, 4, 6] [1, 1, 3]) = 1 := by
  refine ⟨fun i => if i = [2, 0] then 0 else 1, fun i => by dsimp only; split_ifs <;> simp, ?_, ?_⟩
  · rw [(C81_apply [3, 4, 6] [4, 1] (by decide) (by decide) _ (fun i => by split_ifs <;> simp) _ 10 _).1 [1, 2, 3]
      (.cons (by omega) (.cons (by omega) (.cons (by omega) .nil)))]
    simp [bcast]
  · rw [(C81_apply [3, 4, 6] [4, 1] (by decide) (by decide) _ (fun i => by split_ifs <;> simp) _ 10 _).1 [1, 1, 3]
      (.cons (by omega) (.cons (by omega) (.cons (by omega) .nil)))]
    simp [bcast]

end Mask

end Shenfun
