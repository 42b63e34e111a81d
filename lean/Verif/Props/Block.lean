import Verif.Model.Block
import Verif.Props.TPList
import Verif.Props.Axis

/-!
# C75: block matrices
-/

namespace Shenfun

open TPM Heap

set_option linter.unusedSectionVars false

variable {K : Type*} [Field K] {D : ℕ}

/-! ## One merge step -/

theorem mergeStep_cases (h : Heap D K) (B : List ℕ) (a : ℕ) (hn : (B ++ [a]).Nodup)
    (hp : B.Pairwise (fun b c => ¬ (h.obj b).eq (h.obj c))) :
    (∃ b ∈ B, (h.obj a).eq (h.obj b) ∧ mergeStep (h, B) a =
      ({ h with obj := Function.update h.obj b ((h.obj b).iadd (h.obj a)) }, B)) ∨
    mergeStep (h, B) a = (h, B ++ [a]) := by
  have haB : a ∉ B := fun hc => (List.nodup_append.1 hn).2.2 a hc a (by simp) rfl
  by_cases hex : ∃ b ∈ B, (h.obj a).eq (h.obj b)
  · obtain ⟨b, hb, heb⟩ := hex
    have hu : ∀ c ∈ B, c ≠ b → ¬ (h.obj a).eq (h.obj c) := by
      intro c hc hcb hac
      have hsym : Std.Symm fun b c => ¬ (h.obj b).eq (h.obj c) := ⟨fun x y hxy hyx => hxy (TPM.eq_symm hyx)⟩
      exact hp.forall hb hc (Ne.symm hcb) (TPM.eq_trans (TPM.eq_symm heb) hac)
    refine Or.inl ⟨b, hb, heb, ?_⟩
    simp only [mergeStep]
    rw [mergeInto_one a b B (h, false) (List.nodup_append.1 hn).1 haB hb heb hu]
    simp
  · push Not at hex
    refine Or.inr ?_
    simp only [mergeStep]
    rw [mergeInto_none a B (h, false) hex]
    simp

theorem mergeStep_facts (h : Heap D K) (B : List ℕ) (a : ℕ) (hn : (B ++ [a]).Nodup)
    (hp : B.Pairwise (fun b c => ¬ (h.obj b).eq (h.obj c))) (has : ∀ r ∈ B ++ [a], (h.obj r).Assembled) :
    (∀ I J, (∀ r ∈ B ++ [a], (h.obj r).InShape I J) →
      opSum (mergeStep (h, B) a).1 (mergeStep (h, B) a).2 I J = opSum h B I J + (h.obj a).op I J) ∧
    (∀ r, r ∉ B → (mergeStep (h, B) a).1.obj r = h.obj r) ∧
    (mergeStep (h, B) a).2.Sublist (B ++ [a]) ∧
    ((mergeStep (h, B) a).2.Pairwise fun b c =>
      ¬ ((mergeStep (h, B) a).1.obj b).eq ((mergeStep (h, B) a).1.obj c)) ∧
    (∀ r, SameButScale ((mergeStep (h, B) a).1.obj r) (h.obj r)) ∧
    (∀ r, ((mergeStep (h, B) a).1.obj r).simplified = (h.obj r).simplified) := by
  obtain ⟨q1, -, -, q4, q5⟩ := merge_foldl [a] h B hn hp has
  simp only [List.foldl_cons, List.foldl_nil] at q1 q4 q5
  refine ⟨fun I J hIJ => ?_, ?_, ?_, q4, q5, ?_⟩
  · rw [q1 I J hIJ]
    simp [opSum]
  all_goals rcases mergeStep_cases h B a hn hp with ⟨b, hb, -, hstep⟩ | hstep <;> rw [hstep]
  · exact fun r hr => Function.update_of_ne (fun e : r = b => hr (e ▸ hb)) _ _
  · exact fun _ _ => rfl
  · exact List.sublist_append_left _ _
  · intro r
    by_cases hr : r = b
    · subst hr; simp [TPM.iadd]
    · simp [Function.update_of_ne hr]
  · exact fun _ => rfl

/-! ## `__iadd__` -/

/-- References of a list whose matrix belongs to block `(i, j)`. -/
def inBlock (h : Heap D K) (i j : ℕ) (R : List ℕ) : List ℕ := R.filter fun r => (h.obj r).gidx = some (i, j)

/-- A consistent block matrix: block `(i, j)` holds different matrices with that global index, all assembled. -/
structure BM.Ok (h : Heap D K) (B : BM) : Prop where
  gidx : ∀ i j, ∀ r ∈ B i j, (h.obj r).gidx = some (i, j)
  nodup : ∀ i j, (B i j).Nodup
  distinct : ∀ i j, (B i j).Pairwise fun b c => ¬ (h.obj b).eq (h.obj c)
  assembled : ∀ i j, ∀ r ∈ B i j, (h.obj r).Assembled

theorem BM.ok_empty (h : Heap D K) : BM.Ok h BM.empty := by
  constructor <;> intro i j <;> simp [BM.empty]

theorem SameButScale.inShape {s t : TPM D K} (h : SameButScale s t) (I J : Fin D → ℕ) : s.InShape I J ↔ t.InShape I J := by
  simp [InShape, h.2.1]

theorem SameButScale.assembled {s t : TPM D K} (h : SameButScale s t) (ht : t.Assembled) : s.Assembled :=
  ⟨fun a => by rw [h.2.1]; exact ht.unit a, fun a ha => by rw [h.2.1]; rw [h.2.2] at ha; exact ht.main a ha⟩

theorem SameButScale.eq_iff {s t s' t' : TPM D K} (h : SameButScale s t) (h' : SameButScale s' t') :
    s.eq s' ↔ t.eq t' := by
  simp [TPM.eq, h.1, h.2.1, h'.1, h'.2.1]

theorem SameButScale.trans {s t u : TPM D K} (h : SameButScale s t) (g : SameButScale t u) : SameButScale s u :=
  ⟨h.1.trans g.1, h.2.1.trans g.2.1, h.2.2.trans g.2.2⟩

/-- What a block matrix knows after `+=`. -/
theorem iadd_spec (R : List ℕ) : ∀ (h : Heap D K) (B : BM), BM.Ok h B → R.Nodup → (∀ i j, ∀ r ∈ B i j, r ∉ R) →
    (∀ r ∈ R, (h.obj r).Assembled) → (∀ r ∈ R, (h.obj r).gidx ≠ none) →
    let res := BM.iadd (h, B) R
    BM.Ok res.1 res.2 ∧
    (∀ i j I J, (∀ r ∈ B i j ++ inBlock h i j R, (h.obj r).InShape I J) →
      opSum res.1 (res.2 i j) I J = opSum h (B i j) I J + opSum h (inBlock h i j R) I J) ∧
    (∀ r, (∀ i j, r ∉ B i j) → r ∉ R → res.1.obj r = h.obj r) ∧
    (∀ i j, ∀ r ∈ res.2 i j, r ∈ B i j ∨ r ∈ R) ∧
    (∀ r, SameButScale (res.1.obj r) (h.obj r)) ∧
    (∀ r, (res.1.obj r).simplified = (h.obj r).simplified) := by
  induction R with
  | nil =>
    intro h B hB _ _ _ _
    refine ⟨hB, fun i j I J _ => by simp [BM.iadd, inBlock, opSum], fun r _ _ => rfl, fun i j r hr => Or.inl hr,
      fun r => ⟨rfl, rfl, rfl⟩, fun r => rfl⟩
  | cons a R ih =>
    intro h B hB hn hd has hg
    rw [List.nodup_cons] at hn
    obtain ⟨⟨i0, j0⟩, hga⟩ := Option.ne_none_iff_exists'.1 (hg a (by simp))
    have hnd : (B i0 j0 ++ [a]).Nodup := by
      rw [List.nodup_append]
      refine ⟨hB.nodup _ _, by simp, ?_⟩
      intro x hx y hy
      simp only [List.mem_singleton] at hy
      subst hy
      rintro rfl
      exact hd i0 j0 x hx (by simp)
    obtain ⟨q1, q2, q3, q4, q5, q7⟩ := mergeStep_facts h (B i0 j0) a hnd (hB.distinct i0 j0) (by
      intro r hr
      rcases List.mem_append.1 hr with hr | hr
      · exact hB.assembled _ _ r hr
      · rw [List.mem_singleton] at hr; subst hr; exact has r (by simp))
    set m := mergeStep (h, B i0 j0) a with hm
    set B1 : BM := fun i' j' => if i' = i0 ∧ j' = j0 then m.2 else B i' j' with hB1
    have hstep : BM.addMat (h, B) a = (m.1, B1) := by
      unfold BM.addMat
      simp only [hga, ← hm]
      rfl
    have hres : BM.iadd (h, B) (a :: R) = BM.iadd (m.1, B1) R := by
      unfold BM.iadd
      rw [List.foldl_cons, hstep]
    have hmem : ∀ i j, ∀ r ∈ B1 i j, r ∈ B i j ∨ r = a := by
      intro i j r hr
      simp only [hB1] at hr
      split_ifs at hr with hij
      · obtain ⟨rfl, rfl⟩ := hij
        have := q3.subset hr
        simpa using this
      · exact Or.inl hr
    have hgm : ∀ r, (m.1.obj r).gidx = (h.obj r).gidx := fun r => (q5 r).1
    have hblk : ∀ i j, ¬ (i = i0 ∧ j = j0) → ∀ r ∈ B i j, m.1.obj r = h.obj r := by
      intro i j hij r hr
      apply q2
      intro hc
      have h1 := hB.gidx i j r hr
      rw [hB.gidx i0 j0 r hc] at h1
      simp only [Option.some.injEq, Prod.mk.injEq] at h1
      exact hij ⟨h1.1.symm, h1.2.symm⟩
    have hok : BM.Ok m.1 B1 := by
      constructor
      · intro i j r hr
        simp only [hB1] at hr
        rw [hgm]
        split_ifs at hr with hij
        · obtain ⟨rfl, rfl⟩ := hij
          have := q3.subset hr
          simp only [List.mem_append, List.mem_singleton] at this
          rcases this with h' | h'
          · exact hB.gidx _ _ r h'
          · rw [h', hga]
        · exact hB.gidx _ _ r hr
      · intro i j
        simp only [hB1]
        split_ifs with hij
        · exact hnd.sublist q3
        · exact hB.nodup i j
      · intro i j
        simp only [hB1]
        split_ifs with hij
        · exact q4
        · exact (hB.distinct i j).imp fun {x y} hxy => by rwa [SameButScale.eq_iff (q5 x) (q5 y)]
      · intro i j r hr
        rcases hmem i j r hr with h' | rfl
        · exact (q5 r).assembled (hB.assembled i j r h')
        · exact (q5 _).assembled (has _ (by simp))
    obtain ⟨p1, p2, p3, p4, p5, p6⟩ := ih m.1 B1 hok hn.2
      (by
        intro i j r hr hR
        rcases hmem i j r hr with h' | rfl
        · exact hd i j r h' (by simp [hR])
        · exact hn.1 hR)
      (fun r hr => (q5 r).assembled (has r (by simp [hr])))
      (fun r hr => by rw [hgm]; exact hg r (by simp [hr]))
    simp only [hres]
    have hin : ∀ i j, inBlock m.1 i j R = inBlock h i j R := by
      intro i j; unfold inBlock; congr 1; funext r; rw [hgm]
    have hRobj : ∀ r ∈ R, m.1.obj r = h.obj r := fun r hr =>
      q2 r fun hc => hd i0 j0 r hc (by simp [hr])
    refine ⟨p1, ?_, ?_, ?_, ?_, ?_⟩
    · intro i j I J hIJ
      have hIJ' : ∀ r ∈ B1 i j ++ inBlock m.1 i j R, (m.1.obj r).InShape I J := by
        intro r hr
        rw [(q5 r).inShape]
        rw [hin] at hr
        rcases List.mem_append.1 hr with hr | hr
        · rcases hmem i j r hr with h' | rfl
          · exact hIJ r (by simp [h'])
          · apply hIJ
            have hg1 := hok.gidx i j r hr
            rw [hgm] at hg1
            simp [inBlock, hg1]
        · apply hIJ
          unfold inBlock at hr ⊢
          rw [List.mem_append]
          right
          rw [List.mem_filter] at hr ⊢
          exact ⟨by simp [hr.1], hr.2⟩
      rw [p2 i j I J hIJ', hin]
      have e2 : opSum m.1 (inBlock h i j R) I J = opSum h (inBlock h i j R) I J := by
        apply opSum_congr
        intro r hr
        exact hRobj r (List.mem_of_mem_filter hr)
      rw [e2]
      by_cases hij : i = i0 ∧ j = j0
      · obtain ⟨rfl, rfl⟩ := hij
        have e1 : opSum m.1 (B1 i j) I J = opSum h (B i j) I J + (h.obj a).op I J := by
          simp only [hB1, and_self, if_true]
          apply q1
          intro r hr
          apply hIJ
          rcases List.mem_append.1 hr with hr | hr
          · simp [hr]
          · rw [List.mem_singleton] at hr; subst hr
            simp [inBlock, hga]
        have e3 : inBlock h i j (a :: R) = a :: inBlock h i j R := by
          unfold inBlock; rw [List.filter_cons_of_pos (by simp [hga])]
        rw [e1, e3]
        simp only [opSum, List.map_cons, List.sum_cons]
        ring
      · have e1 : opSum m.1 (B1 i j) I J = opSum h (B i j) I J := by
          simp only [hB1, if_neg hij]
          exact opSum_congr (hblk i j hij) I J
        have e3 : inBlock h i j (a :: R) = inBlock h i j R := by
          unfold inBlock
          rw [List.filter_cons_of_neg]
          simp only [hga, Option.some.injEq, Prod.mk.injEq, decide_eq_true_eq]
          exact fun hc => hij ⟨hc.1.symm, hc.2.symm⟩
        rw [e1, e3]
    · intro r hr hr'
      rw [p3 r (by
          intro i j hc
          rcases hmem i j r hc with h' | rfl
          · exact hr i j h'
          · exact hr' (by simp)) (fun hc => hr' (by simp [hc]))]
      exact q2 r (hr i0 j0)
    · intro i j r hr
      rcases p4 i j r hr with h' | h'
      · rcases hmem i j r h' with h'' | rfl
        · exact Or.inl h''
        · exact Or.inr (by simp)
      · exact Or.inr (by simp [h'])
    · exact fun r => (p5 r).trans (q5 r)
    · exact fun r => (p6 r).trans (q7 r)

/-! ## `__init__` -/

/-- The merge loop of `get_simplified_tpmatrices`, block by block. -/
theorem merge_foldl_block (A : List ℕ) : ∀ (h : Heap D K) (B : List ℕ), (B ++ A).Nodup →
    B.Pairwise (fun b c => ¬ (h.obj b).eq (h.obj c)) → (∀ r ∈ B ++ A, (h.obj r).Assembled) →
    let res := A.foldl mergeStep (h, B)
    (∀ i j I J, (∀ r ∈ inBlock h i j (B ++ A), (h.obj r).InShape I J) →
      opSum res.1 (inBlock res.1 i j res.2) I J = opSum h (inBlock h i j (B ++ A)) I J) ∧
    res.2.Sublist (B ++ A) ∧ (∀ r, (res.1.obj r).simplified = (h.obj r).simplified) := by
  induction A with
  | nil =>
    intro h B _ _ _
    simp
  | cons a A ih =>
    intro h B hn hp has
    have hn' : (B ++ [a]).Nodup := hn.sublist (List.Sublist.append_left (List.singleton_sublist.2 (by simp)) B)
    have has' : ∀ r ∈ B ++ [a], (h.obj r).Assembled := by
      intro r hr; apply has; simp at hr ⊢; tauto
    obtain ⟨-, -, q3, q4, q5, q7⟩ := mergeStep_facts h B a hn' hp has'
    simp only [List.foldl_cons]
    set m := mergeStep (h, B) a with hm
    have hsubl : (m.2 ++ A).Sublist (B ++ a :: A) := by
      have : B ++ a :: A = (B ++ [a]) ++ A := by simp
      rw [this]
      exact q3.append_right A
    obtain ⟨p1, p2, p3⟩ := ih m.1 m.2 (hn.sublist hsubl) q4
      (fun r hr => (q5 r).assembled (has r (hsubl.subset hr)))
    have hin : ∀ i j R, inBlock m.1 i j R = inBlock h i j R := by
      intro i j R; unfold inBlock; congr 1; funext r; rw [(q5 r).1]
    refine ⟨?_, p2.trans hsubl, fun r => (p3 r).trans (q7 r)⟩
    intro i j I J hIJ
    rw [p1 i j I J (by
      intro r hr
      rw [(q5 r).inShape]
      rw [hin] at hr
      apply hIJ
      unfold inBlock at hr ⊢
      rw [List.mem_filter] at hr ⊢
      exact ⟨hsubl.subset hr.1, hr.2⟩), hin]
    clear p1 p2 p3 ih
    have hBn : B.Nodup := (List.nodup_append.1 hn).1
    rcases mergeStep_cases h B a hn' hp with ⟨b, hb, heb, hstep⟩ | hstep
    · have hm2 : m.2 = B := by rw [hm, hstep]
      have hm1 : m.1 = { h with obj := Function.update h.obj b ((h.obj b).iadd (h.obj a)) } := by rw [hm, hstep]
      have hbA : b ∉ A := fun hc => (List.nodup_append.1 hn).2.2 b hb b (by simp [hc]) rfl
      rw [hm2]
      have hA : ∀ r ∈ A, m.1.obj r = h.obj r := by
        intro r hr
        rw [hm1]
        exact Function.update_of_ne (fun e : r = b => hbA (e ▸ hr)) _ _
      unfold inBlock
      simp only [List.filter_append, List.filter_cons]
      by_cases hga : (h.obj a).gidx = some (i, j)
      · have hgb : (h.obj b).gidx = some (i, j) := heb.1 ▸ hga
        have e1 : opSum m.1 (B.filter fun r => decide ((h.obj r).gidx = some (i, j))) I J =
            opSum h (B.filter fun r => decide ((h.obj r).gidx = some (i, j))) I J + (h.obj a).op I J := by
          rw [hm1]
          apply opSum_update h _ b _ _ I J _ (hBn.filter _) (by rw [List.mem_filter]; exact ⟨hb, by simp [hgb]⟩)
          refine iadd_op _ _ (has b (by simp [hb])) (has a (by simp)) heb I J (hIJ b ?_)
          unfold inBlock
          rw [List.mem_filter]
          exact ⟨by simp [hb], by simp [hgb]⟩
        have e2 : opSum m.1 (A.filter fun r => decide ((h.obj r).gidx = some (i, j))) I J =
            opSum h (A.filter fun r => decide ((h.obj r).gidx = some (i, j))) I J :=
          opSum_congr (fun r hr => hA r (List.mem_of_mem_filter hr)) I J
        simp only [hga, decide_true, if_true]
        simp only [opSum, List.map_append, List.sum_append, List.map_cons, List.sum_cons] at e1 e2 ⊢
        rw [e1, e2]
        ring
      · have hgb : (h.obj b).gidx ≠ some (i, j) := heb.1 ▸ hga
        simp only [hga, decide_false, Bool.false_eq_true, if_false]
        apply opSum_congr
        intro r hr
        rcases List.mem_append.1 hr with hr | hr
        · rw [hm1]
          refine Function.update_of_ne (fun e : r = b => ?_) _ _
          rw [List.mem_filter, e] at hr
          simp [hgb] at hr
        · exact hA r (List.mem_of_mem_filter hr)
    · have hm2 : m.2 = B ++ [a] := by rw [hm, hstep]
      have hm1 : m.1 = h := by rw [hm, hstep]
      rw [hm1, hm2]
      simp

/-- Element by element, the first loop of `get_simplified_tpmatrices` keeps operator and block. -/
theorem simplifyAll_forall2 (h : Heap D K) (R : List ℕ) (hR : ∀ r ∈ R, r < h.next)
    (has : ∀ r ∈ R, (h.obj r).Assembled) :
    List.Forall₂ (fun r s => (∀ I J, ((h.simplifyAll R).1.obj s).op I J = (h.obj r).op I J) ∧
      ((h.simplifyAll R).1.obj s).gidx = (h.obj r).gidx ∧
      ∀ I J, ((h.simplifyAll R).1.obj s).InShape I J ↔ (h.obj r).InShape I J) R (h.simplifyAll R).2 := by
  induction R using List.reverseRecOn with
  | nil => exact List.Forall₂.nil
  | append_singleton R r ih =>
    have hR' : ∀ s ∈ R, s < h.next := fun s hs => hR s (by simp [hs])
    have has' : ∀ s ∈ R, (h.obj s).Assembled := fun s hs => has s (by simp [hs])
    obtain ⟨e1, e2, e3, -⟩ := simplifyAll_spec h R hR' has'
    have ih := ih hR' has'
    rw [simplifyAll_append]
    set g := h.simplifyAll R with hg
    have hr : r < h.next := hR r (by simp)
    have hro : g.1.obj r = h.obj r := e2 r hr
    by_cases hself : (h.obj r).returnsSelf
    · have hgs : g.1.getSimplified r = (g.1, r) := by
        rw [getSimplified, if_pos (by rw [hro]; exact hself)]
      rw [hgs]
      refine List.rel_append ih (List.Forall₂.cons ?_ List.Forall₂.nil)
      simp only [hro]
      exact ⟨fun _ _ => trivial, trivial, fun _ _ => trivial⟩
    · have hgs : g.1.getSimplified r =
          ({ obj := Function.update g.1.obj g.1.next (g.1.obj r).simplify, next := g.1.next + 1 }, g.1.next) := by
        rw [getSimplified, if_neg (by rw [hro]; exact hself)]
      rw [hgs]
      refine List.rel_append ?_ (List.Forall₂.cons ?_ List.Forall₂.nil)
      · have : ∀ s ∈ g.2, (Function.update g.1.obj g.1.next (g.1.obj r).simplify) s = g.1.obj s := by
          intro s hs
          exact Function.update_of_ne (Nat.ne_of_lt (e3 s hs)) _ _
        rw [List.forall₂_iff_get] at ih ⊢
        refine ⟨ih.1, fun k h1 h2 => ?_⟩
        have := this _ (List.get_mem g.2 ⟨k, h2⟩)
        simp only [this]
        exact ih.2 k h1 h2
      · simp only [Function.update_self, hro]
        exact ⟨fun I J => C16_simplify_op _ (has r (by simp)) I J, rfl, fun I J => simplify_inShape _ I J⟩

theorem opSum_forall2 (h h' : Heap D K) (i j : ℕ) (I J : Fin D → ℕ) (R S : List ℕ)
    (hf : List.Forall₂ (fun r s => (∀ I J, (h'.obj s).op I J = (h.obj r).op I J) ∧ (h'.obj s).gidx = (h.obj r).gidx ∧
      ∀ I J, (h'.obj s).InShape I J ↔ (h.obj r).InShape I J) R S) :
    opSum h' (inBlock h' i j S) I J = opSum h (inBlock h i j R) I J ∧
    ((∀ r ∈ inBlock h i j R, (h.obj r).InShape I J) → ∀ s ∈ inBlock h' i j S, (h'.obj s).InShape I J) := by
  induction hf with
  | nil => exact ⟨rfl, fun _ => by simp [inBlock]⟩
  | @cons r s R S hrs _ ih =>
    obtain ⟨h1, h2, h3⟩ := hrs
    unfold inBlock at ih ⊢
    simp only [List.filter_cons, h2]
    by_cases hg : (h.obj r).gidx = some (i, j)
    · simp only [hg, decide_true, if_true, List.mem_cons, forall_eq_or_imp]
      refine ⟨?_, fun hh => ⟨(h3 I J).2 hh.1, ih.2 hh.2⟩⟩
      have := ih.1
      simp only [opSum, List.map_cons, List.sum_cons] at this ⊢
      rw [this, h1]
    · simp only [hg, decide_false, Bool.false_eq_true, if_false]
      exact ih

/-- **C75 (construction).** `BlockMatrix(mats)`: for every block `(i, j)` the matrices it holds have the same sum
as the given matrices with that global index. The list must not contain the same object twice (or all its matrices
are copied by the simplification). -/
theorem C75_init (h : Heap D K) (simp : Bool) (R : List ℕ) (hR : ∀ r ∈ R, r < h.next)
    (has : ∀ r ∈ R, (h.obj r).Assembled) (hg : ∀ r ∈ R, (h.obj r).gidx ≠ none)
    (hn : R.Nodup ∨ (simp = true ∧ ∀ r ∈ R, ¬ (h.obj r).returnsSelf)) :
    BM.Ok (BM.init h simp R).1 (BM.init h simp R).2 ∧
    ∀ i j I J, (∀ r ∈ inBlock h i j R, (h.obj r).InShape I J) →
      opSum (BM.init h simp R).1 ((BM.init h simp R).2 i j) I J = opSum h (inBlock h i j R) I J := by
  cases simp with
  | false =>
    rcases hn with hn | ⟨hc, -⟩
    · obtain ⟨p1, p2, -⟩ := iadd_spec R h BM.empty (BM.ok_empty h) hn (by simp [BM.empty]) has hg
      refine ⟨p1, fun i j I J hIJ => ?_⟩
      have := p2 i j I J (by simpa [BM.empty] using hIJ)
      rw [show opSum h (BM.empty i j) I J = 0 by simp [opSum, BM.empty], zero_add] at this
      exact this
    · exact absurd hc (by simp)
  | true =>
    obtain ⟨e1, e2, e3, e4, e5, e6, e7, e8, e9, e10⟩ := simplifyAll_spec h R hR has
    have hf2 := simplifyAll_forall2 h R hR has
    have hnd : (h.simplifyAll R).2.Nodup := by
      rcases hn with hn | ⟨-, hn⟩
      · exact e8 hn
      · exact (e7 hn).1
    simp only [BM.init, if_true, getSimplifiedTpmatrices]
    have hgs : ∀ s ∈ (h.simplifyAll R).2, ((h.simplifyAll R).1.obj s).gidx ≠ none := by
      intro s hs
      rw [List.forall₂_iff_get] at hf2
      obtain ⟨k, hk⟩ := List.get_of_mem hs
      have := (hf2.2 k.1 (by rw [hf2.1]; exact k.2) k.2).2.1
      rw [← hk, this]
      exact hg _ (List.get_mem _ _)
    clear e1 e2 e3 e5 e6 e7 e8 e9 e10
    revert hf2 e4 hnd hgs
    rcases h.simplifyAll R with ⟨h', _ | ⟨a, A⟩⟩
    · intro e4 hf2 hnd hgs
      obtain rfl : R = [] := by simpa using hf2
      refine ⟨BM.ok_empty h', fun i j I J _ => ?_⟩
      simp [BM.iadd, opSum, BM.empty, inBlock]
    · intro e4 hf2 hnd hgs
      obtain ⟨r1, r2, r3⟩ := merge_foldl_block A h' [a] (by simpa using hnd) (by simp) (by simpa using e4)
      obtain ⟨-, -, -, -, q5⟩ := merge_foldl A h' [a] (by simpa using hnd) (by simp) (by simpa using e4)
      simp only
      set m := A.foldl mergeStep (h', [a]) with hm
      obtain ⟨p1, p2, -⟩ := iadd_spec m.2 m.1 BM.empty (BM.ok_empty _) ((by simpa using hnd : ([a] ++ A).Nodup).sublist r2)
        (by simp [BM.empty])
        (fun r hr => (q5 r).assembled (e4 r (by simpa using r2.subset hr)))
        (fun r hr => by rw [(q5 r).1]; exact hgs r (by simpa using r2.subset hr))
      refine ⟨p1, fun i j I J hIJ => ?_⟩
      obtain ⟨f1, f2⟩ := opSum_forall2 h h' i j I J R (a :: A) hf2
      have hin : ∀ R, inBlock m.1 i j R = inBlock h' i j R := by
        intro R; unfold inBlock; congr 1; funext r; rw [(q5 r).1]
      have := p2 i j I J (by
        intro r hr
        rw [(q5 r).inShape]
        apply f2 hIJ
        rw [hin] at hr
        simp only [BM.empty, List.nil_append] at hr
        unfold inBlock at hr ⊢
        rw [List.mem_filter] at hr ⊢
        exact ⟨by simpa using r2.subset hr.1, hr.2⟩)
      rw [show opSum m.1 (BM.empty i j) I J = 0 by simp [opSum, BM.empty], zero_add] at this
      rw [this, r1 i j I J (by simpa using f2 hIJ)]
      exact f1

/-- **C75 (construction leaves the caller's matrices alone)** when they all have a diagonal (Fourier) axis and have
not been simplified in place. -/
theorem C75_init_caller (h : Heap D K) (R : List ℕ) (hR : ∀ r ∈ R, r < h.next)
    (has : ∀ r ∈ R, (h.obj r).Assembled) (hg : ∀ r ∈ R, (h.obj r).gidx ≠ none)
    (hf : ∀ r ∈ R, ¬ (h.obj r).returnsSelf) : ∀ r < h.next, (BM.init h true R).1.obj r = h.obj r := by
  intro r hr
  rw [← C16_caller_unchanged h R hR has hf r hr]
  obtain ⟨e1, e2, e3, e4, e5, e6, e7, e8, e9, e10⟩ := simplifyAll_spec h R hR has
  have hf2 := simplifyAll_forall2 h R hR has
  have hgs : ∀ s ∈ (h.simplifyAll R).2, ((h.simplifyAll R).1.obj s).gidx ≠ none := by
    intro s hs
    rw [List.forall₂_iff_get] at hf2
    obtain ⟨k, hk⟩ := List.get_of_mem hs
    have := (hf2.2 k.1 (by rw [hf2.1]; exact k.2) k.2).2.1
    rw [← hk, this]
    exact hg _ (List.get_mem _ _)
  have hnd := (e7 hf).1
  have hnew := (e7 hf).2
  simp only [BM.init, if_true, getSimplifiedTpmatrices]
  clear e1 e2 e3 e5 e6 e7 e8 e9 e10 hf2
  revert e4 hnd hgs hnew
  rcases h.simplifyAll R with ⟨h', _ | ⟨a, A⟩⟩
  · intro _ _ _ _
    rfl
  · intro e4 hgs hnd hnew
    obtain ⟨r1, r2, r3⟩ := merge_foldl_block A h' [a] (by simpa using hnd) (by simp) (by simpa using e4)
    obtain ⟨-, -, -, -, q5⟩ := merge_foldl A h' [a] (by simpa using hnd) (by simp) (by simpa using e4)
    simp only
    set m := A.foldl mergeStep (h', [a]) with hm
    obtain ⟨-, -, p3, -⟩ := iadd_spec m.2 m.1 BM.empty (BM.ok_empty _) ((by simpa using hnd : ([a] ++ A).Nodup).sublist r2)
      (by simp [BM.empty])
      (fun r hr => (q5 r).assembled (e4 r (by simpa using r2.subset hr)))
      (fun r hr => by rw [(q5 r).1]; exact hgs r (by simpa using r2.subset hr))
    apply p3 r (by simp [BM.empty])
    intro hc
    have := hnew r (by simpa using r2.subset hc)
    omega

/-! ## Addition -/

theorem inBlock_getMats (h : Heap D K) (B : BM) (hB : ∀ i j, ∀ r ∈ B i j, (h.obj r).gidx = some (i, j)) (r c i j : ℕ)
    (hi : i < r) (hj : j < c) : inBlock h i j (BM.getMats r c B) = B i j := by
  have hone : ∀ i' j', inBlock h i j (B i' j') = if i' = i ∧ j' = j then B i j else [] := by
    intro i' j'
    split_ifs with hij
    · obtain ⟨rfl, rfl⟩ := hij
      exact List.filter_eq_self.2 fun x hx => by simpa using hB _ _ x hx
    · apply List.filter_eq_nil_iff.2
      intro x hx
      simp only [hB _ _ x hx, Option.some.injEq, Prod.mk.injEq, decide_eq_true_eq]
      exact hij
  have hflat : ∀ (n : ℕ) (f : ℕ → List ℕ) (k : ℕ) (X : List ℕ),
      (∀ k', inBlock h i j (f k') = if k' = k then X else []) → k < n →
      inBlock h i j ((List.range n).flatMap f) = X := by
    intro n f k X hf hk
    induction n with
    | zero => omega
    | succ n ih =>
      rw [List.range_succ, List.flatMap_append]
      have happ : ∀ L M, inBlock h i j (L ++ M) = inBlock h i j L ++ inBlock h i j M := fun L M => List.filter_append _ _
      rw [happ]
      simp only [List.flatMap_cons, List.flatMap_nil, List.append_nil]
      rcases Nat.lt_or_ge k n with h1 | h1
      · rw [ih h1, hf n, if_neg (by omega), List.append_nil]
      · obtain rfl : k = n := by omega
        rw [hf k, if_pos rfl]
        have : ∀ m, m ≤ k → inBlock h i j ((List.range m).flatMap f) = [] := by
          intro m hm
          induction m with
          | zero => rfl
          | succ m ihm =>
            rw [List.range_succ, List.flatMap_append, happ, ihm (by omega)]
            simp only [List.flatMap_cons, List.flatMap_nil, List.append_nil, List.nil_append]
            rw [hf m, if_neg (by omega)]
        rw [this k le_rfl, List.nil_append]
  apply hflat r _ i (B i j) _ hi
  intro i'
  by_cases hii : i' = i
  · subst hii
    rw [if_pos rfl]
    exact hflat c _ j (B i' j) (fun j' => by rw [hone]; simp) hj
  · rw [if_neg hii]
    apply List.filter_eq_nil_iff.2
    intro x hx
    obtain ⟨j', -, hx⟩ := List.mem_flatMap.1 hx
    simp only [hB _ _ x hx, Option.some.injEq, Prod.mk.injEq, decide_eq_true_eq]
    exact fun hc => hii hc.1

/-- **C75 (addition).** Block `(i, j)` of `A + B` is the sum of the blocks of `A` and `B` (as they were before the
addition), provided the two share no matrix object. -/
theorem C75_add (h : Heap D K) (simp : Bool) (r c : ℕ) (A B : BM) (hA : BM.Ok h A) (hB : BM.Ok h B)
    (hlt : ∀ x ∈ BM.getMats r c A ++ BM.getMats r c B, x < h.next)
    (hn : (BM.getMats r c A ++ BM.getMats r c B).Nodup) (i j : ℕ) (hi : i < r) (hj : j < c) (I J : Fin D → ℕ)
    (hIJ : ∀ x ∈ A i j ++ B i j, (h.obj x).InShape I J) :
    opSum (BM.add h simp r c A B).1 ((BM.add h simp r c A B).2 i j) I J
      = opSum h (A i j) I J + opSum h (B i j) I J := by
  have hmem : ∀ (B : BM) (x : ℕ), x ∈ BM.getMats r c B → ∃ i j, x ∈ B i j := by
    intro B x hx
    unfold BM.getMats at hx
    obtain ⟨i, -, hx⟩ := List.mem_flatMap.1 hx
    obtain ⟨j, -, hx⟩ := List.mem_flatMap.1 hx
    exact ⟨i, j, hx⟩
  have hin : inBlock h i j (BM.getMats r c A ++ BM.getMats r c B) = A i j ++ B i j := by
    have h1 := inBlock_getMats h A hA.gidx r c i j hi hj
    have h2 := inBlock_getMats h B hB.gidx r c i j hi hj
    unfold inBlock at h1 h2 ⊢
    rw [List.filter_append, h1, h2]
  have := (C75_init h simp _ hlt
    (by
      intro x hx
      rcases List.mem_append.1 hx with hx | hx
      · obtain ⟨i, j, hx⟩ := hmem A x hx; exact hA.assembled i j x hx
      · obtain ⟨i, j, hx⟩ := hmem B x hx; exact hB.assembled i j x hx)
    (by
      intro x hx
      rcases List.mem_append.1 hx with hx | hx
      · obtain ⟨i, j, hx⟩ := hmem A x hx; rw [hA.gidx i j x hx]; simp
      · obtain ⟨i, j, hx⟩ := hmem B x hx; rw [hB.gidx i j x hx]; simp)
    (Or.inl hn)).2 i j I J (by rw [hin]; exact hIJ)
  unfold BM.add
  rw [this, hin]
  simp [opSum]

/-! ## matvec -/

/-- The part of `TPMatrix.matvec` after `get_simplified`. -/
noncomputable def applyT (t' : TPM D K) (pencil : Bool) (v : (Fin D → ℕ) → K) : (Fin D → ℕ) → K :=
  match t'.naxes with
  | [] => fun I => t'.scale I * v I
  | [a] => fun I => (t'.mats a).sm.matvecAxis a v I * t'.scale I
  | [a, b] =>
    if pencil then fun I => (t'.mats b).sm.matvecAxis b ((t'.mats a).sm.matvecAxis a v) I * t'.scale I
    else fun I => (t'.mats a).sm.matvecAxis a ((t'.mats b).sm.matvecAxis b v) I * t'.scale I
  | _ => fun _ => 0

theorem applyT_congr (s t : TPM D K) (h1 : s.mats = t.mats) (h2 : s.scale = t.scale) (h3 : s.diag = t.diag)
    (pencil : Bool) (v : (Fin D → ℕ) → K) : applyT s pencil v = applyT t pencil v := by
  have hn : s.naxes = t.naxes := by unfold TPM.naxes; rw [h3]
  unfold applyT
  rw [hn, h1, h2]

open Classical in
theorem matvec_eq_applyT (t : TPM D K) (pencil : Bool) (v : (Fin D → ℕ) → K) :
    t.matvec pencil v = applyT (if t.returnsSelf then t else t.simplify) pencil v := rfl

/-- Applying simplified and unsimplified matrices is the same thing when the diagonal factors are identities. -/
theorem matvec_simplified (t : TPM D K) (hi : ∀ a, t.diag a = true →
      t.mats a = ident (t.mats a).sm.rows (t.mats a).sm.cols) (pencil : Bool) (v : (Fin D → ℕ) → K) (I : Fin D → ℕ) :
    t.matvec pencil v I = ({ t with simplified := false } : TPM D K).matvec pencil v I := by
  classical
  have hsimp : ∀ s : TPM D K, s.mats = t.mats → s.scale = t.scale → s.diag = t.diag →
      applyT (if s.returnsSelf then s else s.simplify) pencil v = applyT t pencil v := by
    intro s h1 h2 h3
    split_ifs
    · exact applyT_congr s t h1 h2 h3 pencil v
    refine applyT_congr s.simplify t ?_ ?_ h3 pencil v
    · funext a
      simp only [TPM.simplify, TPM.simpMats, h1, h3]
      split_ifs with hd
      · exact (hi a hd).symm
      · rfl
    · funext I
      show s.simpScale I = t.scale I
      rw [simpScale_eq, h2]
      rw [Finset.prod_eq_one, mul_one]
      intro a _
      rw [h1, h3]
      by_cases hd : t.diag a = true
      · rw [if_pos hd, hi a hd]
        simp [diagFactor, ident, SM.getItem]
      · rw [if_neg hd]
  rw [matvec_eq_applyT, matvec_eq_applyT, hsimp t rfl rfl rfl]
  exact (congrFun (hsimp { t with simplified := false } rfl rfl rfl) I).symm

/-- The matrices `BlockMatrix.matvec` can handle (C36): assembled, square along the Fourier axes, at most two
non-diagonal axes, and either not simplified or simplified to identities along the Fourier axes. -/
structure TPM.Applicable (t : TPM D K) : Prop where
  assembled : t.Assembled
  fits : t.Fits
  square : ∀ a, t.diag a = true → (t.mats a).sm.rows = (t.mats a).sm.cols
  axes : t.naxes.length ≤ 2
  state : t.simplified = false ∨ ∀ a, t.diag a = true → t.mats a = ident (t.mats a).sm.rows (t.mats a).sm.cols

theorem TPM.Applicable.matvec {t : TPM D K} (ht : t.Applicable) (pencil : Bool) (v : (Fin D → ℕ) → K) (I : Fin D → ℕ)
    (hI : ∀ a, I a < (t.mats a).sm.rows) :
    t.matvec pencil v I = Spec.tensorApply (fun a => (t.mats a).sm.cols) t.op v I := by
  rcases ht.state with hs | hs
  · exact C36_matvec t ht.assembled hs ht.fits ht.square ht.axes pencil v I hI
  · rw [matvec_simplified t hs]
    exact C36_matvec { t with simplified := false } ⟨ht.assembled.unit, ht.assembled.main⟩ rfl ht.fits ht.square
      ht.axes pencil v I hI

/-- **C75 (matvec).** Component `i` of `M.matvec(v)` is the sum over the trial components `j` of block `(i, j)`
applied to `v[j]`; blocks that were never set contribute nothing. `n j` is the shape of the trial space `j`. -/
theorem C75_matvec (h : Heap D K) (B : BM) (c : ℕ) (pencil : Bool) (v : ℕ → (Fin D → ℕ) → K) (i : ℕ) (I : Fin D → ℕ)
    (n : ℕ → Fin D → ℕ)
    (hok : ∀ j < c, ∀ m ∈ B i j, (h.obj m).Applicable ∧ (∀ a, ((h.obj m).mats a).sm.cols = n j a) ∧
      ∀ a, I a < ((h.obj m).mats a).sm.rows) :
    BM.matvec h B c pencil v i I
      = ∑ j ∈ Finset.range c, Spec.tensorApply (n j) (opSum h (B i j)) (v j) I := by
  unfold BM.matvec
  rw [← List.sum_toFinset _ (List.nodup_range), List.toFinset_range]
  refine Finset.sum_congr rfl fun j hj => ?_
  have hj' := hok j (Finset.mem_range.1 hj)
  generalize B i j = L at hj'
  induction L with
  | nil => simp [opSum, Spec.tensorApply]
  | cons m L ih =>
    have h1 := hj' m (by simp)
    have ih := ih fun m hm => hj' m (by simp [hm])
    rw [List.map_cons, List.sum_cons, ih, h1.1.matvec pencil (v j) I h1.2.2]
    have hc : (fun a => ((h.obj m).mats a).sm.cols) = n j := funext h1.2.1
    rw [hc]
    unfold Spec.tensorApply
    rw [← Finset.sum_add_distrib]
    refine Finset.sum_congr rfl fun J _ => ?_
    simp only [opSum, List.map_cons, List.sum_cons]
    ring

/-! ## What is not true -/

/-- **C75 (refuted: the operands of `+`).** `A + B` writes into the matrices of `A`: whenever the first matrix of
`B` equals (up to scale) a matrix of `A` and needs no simplification, the operator of `A` is changed by the
addition. Here for one block with one matrix each. -/
theorem C75_add_mutates (h : Heap D K) (x y : ℕ) (hxy : x ≠ y) (i j r c : ℕ) (hi : i < r) (hj : j < c)
    (hgx : (h.obj x).gidx = some (i, j)) (he : (h.obj y).eq (h.obj x)) (I : Fin D → ℕ) :
    ((BM.add h false r c (fun i' j' => if i' = i ∧ j' = j then [x] else []) (fun i' j' => if i' = i ∧ j' = j then [y] else [])).1.obj x).scale I
      = (h.obj x).scale I + (h.obj y).scale I := by
  have hone : ∀ z, BM.getMats r c (fun i' j' => if i' = i ∧ j' = j then [z] else []) = [z] := by
    intro z
    let g : Heap D K := { obj := fun _ => { h.obj x with gidx := some (i, j) }, next := 0 }
    have h1 := inBlock_getMats g (fun i' j' => if i' = i ∧ j' = j then [z] else []) (by
      intro i' j' s hs
      split_ifs at hs with hij
      · obtain ⟨rfl, rfl⟩ := hij; rfl
      · simp at hs) r c i j hi hj
    have h2 : ∀ L, inBlock g i j L = L := fun L => List.filter_eq_self.2 fun s _ => by simp [g]
    rw [h2] at h1
    simpa using h1
  have hgy : (h.obj y).gidx = some (i, j) := he.1.trans hgx
  unfold BM.add BM.init
  rw [hone, hone]
  simp only [Bool.false_eq_true, if_false, List.cons_append, List.nil_append]
  unfold BM.iadd
  have s1 : BM.addMat (h, BM.empty) x = (h, fun i' j' => if i' = i ∧ j' = j then [x] else []) := by
    unfold BM.addMat
    simp only [hgx, BM.empty]
    rfl
  rw [List.foldl_cons, s1, List.foldl_cons, List.foldl_nil]
  unfold BM.addMat
  simp only [hgy, and_self, if_true]
  have hm : mergeStep (h, [x]) y = ({ h with obj := Function.update h.obj x ((h.obj x).iadd (h.obj y)) }, [x]) := by
    simp only [mergeStep]
    rw [mergeInto_one y x [x] (h, false) (by simp) (by simpa using hxy.symm) (by simp) he (by simp)]
    simp
  rw [hm]
  simp [TPM.iadd]

/-- **C75 (refuted: repeated objects).** `BlockMatrix([A, A, A])` of an all-Fourier matrix is `4 A`, not `3 A`. -/
theorem C75_triple (h : Heap D K) (x i j : ℕ) (hg : (h.obj x).gidx = some (i, j)) (I J : Fin D → ℕ) :
    opSum (BM.init h false [x, x, x]).1 ((BM.init h false [x, x, x]).2 i j) I J = 4 * (h.obj x).op I J ∧
      opSum h (inBlock h i j [x, x, x]) I J = 3 * (h.obj x).op I J := by
  constructor
  · have hstep : ∀ h : Heap D K, mergeStep (h, [x]) x =
        ({ h with obj := Function.update h.obj x ((h.obj x).iadd (h.obj x)) }, [x]) := by
      intro h
      have hi : mergeInto x (h, false) [x] =
          ({ h with obj := Function.update h.obj x ((h.obj x).iadd (h.obj x)) }, true) := by
        simp only [mergeInto, List.foldl_cons, List.foldl_nil]
        rw [if_pos (TPM.eq_refl _)]
      simp only [mergeStep]
      rw [hi]
      simp
    have hadd : ∀ h : Heap D K, (h.obj x).gidx = some (i, j) →
        BM.addMat (h, fun i' j' => if i' = i ∧ j' = j then [x] else []) x =
        ({ h with obj := Function.update h.obj x ((h.obj x).iadd (h.obj x)) },
          fun i' j' => if i' = i ∧ j' = j then [x] else []) := by
      intro h hg
      unfold BM.addMat
      simp only [hg, and_self, if_true, hstep]
      congr 1
      funext i' j'
      split_ifs <;> rfl
    have s1 : BM.addMat (h, BM.empty) x = (h, fun i' j' => if i' = i ∧ j' = j then [x] else []) := by
      unfold BM.addMat
      simp only [hg, BM.empty]
      rfl
    unfold BM.init BM.iadd
    simp only [Bool.false_eq_true, if_false]
    rw [List.foldl_cons, s1, List.foldl_cons, hadd h hg, List.foldl_cons, hadd _ (by simpa [TPM.iadd] using hg),
      List.foldl_nil]
    simp only [opSum, and_self, if_true, List.map_cons, List.map_nil, List.sum_cons, List.sum_nil, add_zero,
      Function.update_self]
    simp only [TPM.op, Spec.tensorEntry, TPM.iadd]
    ring
  · unfold inBlock
    simp only [List.filter_cons, hg, decide_true, if_true, List.filter_nil, opSum, List.map_cons, List.map_nil,
      List.sum_cons, List.sum_nil]
    ring

/-- **C75 (refuted: `+=`).** `__iadd__` returns `None`, so after `A += B` the name `A` no longer refers to a block
matrix, whatever `B` is. -/
theorem C75_iadd_none (b : BMObj D K) (R : List ℕ) : (b.iadd R).2 = none := rfl

/-- **C75 (refuted: stale assembly).** The scipy matrix assembled by an earlier `matvec` or `solve` is used again
after `__iadd__`, although the blocks have changed. -/
theorem C75_stale (entries : Heap D K → List ℕ → (Fin D → ℕ) → (Fin D → ℕ) → K) (b : BMObj D K) (R : List ℕ) :
    (((b.assemble entries).iadd R).1.assemble entries).Ai = (b.assemble entries).Ai ∧
      (b.Ai = none → (b.assemble entries).Ai = some fun i j => entries b.heap (b.blk i j)) := by
  constructor
  · unfold BMObj.assemble BMObj.iadd
    rcases b with ⟨hp, bl, _ | A⟩ <;> rfl
  · intro h
    unfold BMObj.assemble
    rw [h]

/-! ## The hypotheses are met -/

/-- Four matrices of a 2 x 2 block matrix in two dimensions (Fourier x tridiagonal); 0 and 1 go to the same block
and differ only in the scale. -/
def exBlocks : Heap 2 ℚ :=
  { obj := fun r => { exTP (r + 1) false with gidx := some (if r ≤ 1 then (0, 0) else (1, r - 2)) }, next := 4 }

theorem exBlocks_assembled (r : ℕ) : (exBlocks.obj r).Assembled := by
  constructor
  · intro a; fin_cases a <;> rfl
  · intro a ha
    fin_cases a
    · exact ⟨_, rfl⟩
    · simp [exBlocks, exTP] at ha

theorem exBlocks_self (r : ℕ) : ¬ (exBlocks.obj r).returnsSelf := by
  rintro (h | h)
  · have := h 0; simp [exBlocks, exTP] at this
  · simp [exBlocks, exTP] at h

theorem exBlocks_inShape (r : ℕ) : (exBlocks.obj r).InShape ![1, 2] ![1, 3] := by
  intro a
  fin_cases a <;> simp [exBlocks, exTP, exFourier, exTri]

/-- `C75_init` and `C75_init_caller`: the block (0,0) receives the sum of the matrices 0 and 1. -/
example : opSum (BM.init exBlocks true [0, 1, 2, 3]).1 ((BM.init exBlocks true [0, 1, 2, 3]).2 0 0) ![1, 2] ![1, 3]
    = (exBlocks.obj 0).op ![1, 2] ![1, 3] + (exBlocks.obj 1).op ![1, 2] ![1, 3] := by
  rw [(C75_init exBlocks true [0, 1, 2, 3] (by simp [exBlocks]) (fun r _ => exBlocks_assembled r)
    (fun r _ => by simp [exBlocks]) (Or.inl (by decide))).2 0 0 _ _ (fun r _ => exBlocks_inShape r)]
  have : inBlock exBlocks 0 0 [0, 1, 2, 3] = [0, 1] := by
    simp [inBlock, exBlocks]
  rw [this]
  simp [opSum]

example : ∀ r < 4, (BM.init exBlocks true [0, 1, 2, 3]).1.obj r = exBlocks.obj r :=
  C75_init_caller exBlocks [0, 1, 2, 3] (by simp [exBlocks]) (fun r _ => exBlocks_assembled r)
    (fun r _ => by simp [exBlocks]) (fun r _ => exBlocks_self r)

/-- `C75_add_mutates`: its hypotheses hold for the matrices 0 and 1. -/
example : (exBlocks.obj 0).gidx = some (0, 0) ∧ (exBlocks.obj 1).eq (exBlocks.obj 0) := by
  refine ⟨by simp [exBlocks], by simp [exBlocks], fun a => ?_⟩
  exact TPM.matEq_refl _

/-- `C75_matvec`: the matrices are applicable. -/
example : (exBlocks.obj 3).Applicable ∧ (∀ a, ((exBlocks.obj 3).mats a).sm.cols = 4) ∧
    ∀ a, (![1, 2] : Fin 2 → ℕ) a < ((exBlocks.obj 3).mats a).sm.rows := by
  refine ⟨⟨exBlocks_assembled 3, ?_, ?_, ?_, Or.inl rfl⟩, ?_, ?_⟩
  · intro a d hd
    fin_cases a <;> simp [exBlocks, exTP, exFourier, exTri] at hd ⊢
    · subst hd; simp
    · rcases hd with rfl | rfl | rfl <;> simp
  · intro a _; fin_cases a <;> rfl
  · exact (List.length_filter_le _ _).trans (by simp)
  · intro a; fin_cases a <;> rfl
  · intro a; fin_cases a <;> simp [exBlocks, exTP, exFourier, exTri]

end Shenfun
