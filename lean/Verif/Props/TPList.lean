import Verif.Model.TP
import Verif.Spec.Tensor
import Verif.Props.Sparse

/-!
# Lists of tensor product matrices: C16, C17
-/

set_option linter.unusedSimpArgs false
set_option linter.unusedSectionVars false

namespace Shenfun

open Heap TPM

variable {K : Type*} [Field K] {D : ℕ}

/-- The operator a `TPMatrix` stands for. -/
def TPM.op (t : TPM D K) (I J : Fin D → ℕ) : K :=
  Spec.tensorEntry t.scale (fun a => (t.mats a).sm.entry) I J

/-- The multi-indices are inside the shape of the matrix. -/
def TPM.InShape (t : TPM D K) (I J : Fin D → ℕ) : Prop :=
  ∀ a, I a < (t.mats a).sm.rows ∧ J a < (t.mats a).sm.cols

/-- What holds of the matrices `inner` assembles (`SpectralMatrix.__init__` calls `incorporate_scale`,
`/repo/shenfun/matrixbase.py:696`): the one-dimensional matrices have scale one and those along diagonal
axes consist of the main diagonal. -/
structure TPM.Assembled (t : TPM D K) : Prop where
  unit : ∀ a, (t.mats a).sm.scale = 1
  main : ∀ a, t.diag a = true → ∃ f, (t.mats a).sm.diags = [(0, f)]

theorem TPM.matEq_refl (m : Mat1 K) : matEq m m := ⟨rfl, rfl, rfl, fun _ _ _ _ => rfl⟩

theorem TPM.matEq_symm {m n : Mat1 K} (h : matEq m n) : matEq n m := by
  obtain ⟨h1, h2, h3, h4⟩ := h
  exact ⟨h1.symm, h2.symm, h3.symm, fun i hi j hj => (h4 i (h2 ▸ hi) j (h3 ▸ hj)).symm⟩

theorem TPM.matEq_trans {m n p : Mat1 K} (h : matEq m n) (g : matEq n p) : matEq m p := by
  obtain ⟨h1, h2, h3, h4⟩ := h
  obtain ⟨g1, g2, g3, g4⟩ := g
  exact ⟨h1.trans g1, h2.trans g2, h3.trans g3,
    fun i hi j hj => (h4 i hi j hj).trans (g4 i (h2 ▸ hi) j (h3 ▸ hj))⟩

theorem TPM.eq_refl (t : TPM D K) : t.eq t := ⟨rfl, fun _ => matEq_refl _⟩
theorem TPM.eq_symm {s t : TPM D K} (h : s.eq t) : t.eq s := ⟨h.1.symm, fun a => matEq_symm (h.2 a)⟩
theorem TPM.eq_trans {s t u : TPM D K} (h : s.eq t) (g : t.eq u) : s.eq u :=
  ⟨h.1.trans g.1, fun a => matEq_trans (h.2 a) (g.2 a)⟩

/-! ## `get_simplified` keeps the operator -/

theorem simpScale_foldl (t : TPM D K) (L : List (Fin D)) : ∀ (s : (Fin D → ℕ) → K) (I : Fin D → ℕ),
    L.foldl (fun s a => if t.diag a then (fun I => s I * diagFactor (t.mats a) (I a)) else s) s I
      = s I * (L.map fun a => if t.diag a then diagFactor (t.mats a) (I a) else 1).prod := by
  induction L with
  | nil => simp
  | cons a L ih =>
    intro s I
    rw [List.foldl_cons, ih]
    by_cases h : t.diag a <;> simp [h, mul_assoc]

theorem simpScale_eq (t : TPM D K) (I : Fin D → ℕ) :
    t.simpScale I = t.scale I * ∏ a, (if t.diag a then diagFactor (t.mats a) (I a) else 1) := by
  rw [simpScale, simpScale_foldl, ← List.prod_ofFn, List.ofFn_eq_map]

theorem ident_entry (r c i j : ℕ) : (ident r c : Mat1 K).sm.entry i j = if i = j then 1 else 0 := by
  simp only [SM.entry, ident, Spec.diagsEntry, Spec.diagEntry, List.map_cons, List.map_nil, List.sum_cons,
    List.sum_nil, add_zero, one_mul]
  by_cases h : i = j
  · simp [h]
  · rw [if_neg (by omega), if_neg h]

/-- Simplifying one assembled tensor product matrix does not change the operator. -/
theorem C16_simplify_op (t : TPM D K) (ht : t.Assembled) (I J : Fin D → ℕ) :
    t.simplify.op I J = t.op I J := by
  simp only [TPM.op, Spec.tensorEntry, simplify]
  rw [simpScale_eq, mul_assoc, ← Finset.prod_mul_distrib]
  congr 1
  apply Finset.prod_congr rfl
  intro a _
  by_cases h : t.diag a
  · obtain ⟨f, hf⟩ := ht.main a h
    rw [if_pos h, simpMats, if_pos h, ident_entry]
    have hs := ht.unit a
    simp only [diagFactor, hf, hs, SM.entry, Spec.diagsEntry, Spec.diagEntry, SM.getItem]
    by_cases hij : I a = J a
    · simp [hij]
    · have : ¬ ((J a : ℤ) = I a + 0) := by omega
      simp [hij]
      omega
  · simp [h, simpMats]

theorem simplify_assembled (t : TPM D K) (ht : t.Assembled) : t.simplify.Assembled := by
  refine ⟨fun a => ?_, fun a ha => ?_⟩
  · simp only [simplify, simpMats]
    by_cases h : t.diag a
    · rw [if_pos h]; rfl
    · rw [if_neg h]; exact ht.unit a
  · simp only [simplify] at ha
    refine ⟨fun _ => 1, ?_⟩
    simp only [simplify, simpMats]
    rw [if_pos ha]; rfl

theorem simplify_inShape (t : TPM D K) (I J : Fin D → ℕ) : t.simplify.InShape I J ↔ t.InShape I J := by
  simp only [InShape, simplify, simpMats]
  constructor <;> intro h a <;> specialize h a <;> by_cases hd : t.diag a <;> simp_all [ident]

/-- Adding an equal matrix adds the operators. -/
theorem iadd_op (s t : TPM D K) (hs : s.Assembled) (ht : t.Assembled) (h : t.eq s) (I J : Fin D → ℕ)
    (hIJ : s.InShape I J) : (s.iadd t).op I J = s.op I J + t.op I J := by
  simp only [TPM.op, Spec.tensorEntry, iadd, add_mul]
  congr 2
  apply Finset.prod_congr rfl
  intro a _
  obtain ⟨_, h2, h3, h4⟩ := h.2 a
  simp only [SM.entry, hs.unit a, ht.unit a, one_mul]
  exact (h4 _ (h2 ▸ (hIJ a).1) _ (h3 ▸ (hIJ a).2)).symm

theorem eq_inShape {s t : TPM D K} (h : s.eq t) (I J : Fin D → ℕ) : s.InShape I J ↔ t.InShape I J := by
  have e : ∀ a, (s.mats a).sm.rows = (t.mats a).sm.rows ∧ (s.mats a).sm.cols = (t.mats a).sm.cols :=
    fun a => ⟨(h.2 a).2.1, (h.2 a).2.2.1⟩
  constructor <;> intro g a
  · rw [← (e a).1, ← (e a).2]; exact g a
  · rw [(e a).1, (e a).2]; exact g a

/-! ## The merge loop -/

/-- Only the scale may differ. -/
def SameButScale (s t : TPM D K) : Prop := s.gidx = t.gidx ∧ s.mats = t.mats ∧ s.diag = t.diag

theorem SameButScale.eq_left {s t : TPM D K} (h : SameButScale s t) (u : TPM D K) : s.eq u ↔ t.eq u := by
  simp [TPM.eq, h.1, h.2.1]

theorem mergeInto_none (a : ℕ) (B : List ℕ) : ∀ (s : Heap D K × Bool),
    (∀ b ∈ B, ¬ (s.1.obj a).eq (s.1.obj b)) → mergeInto a s B = s := by
  induction B with
  | nil => intro s _; rfl
  | cons b B ih =>
    intro s h
    rw [mergeInto, List.foldl_cons, if_neg (h b (by simp))]
    exact ih s fun c hc => h c (by simp [hc])

theorem mergeInto_one (a b : ℕ) (B : List ℕ) : ∀ (s : Heap D K × Bool), B.Nodup → a ∉ B → b ∈ B →
    (s.1.obj a).eq (s.1.obj b) → (∀ c ∈ B, c ≠ b → ¬ (s.1.obj a).eq (s.1.obj c)) →
    mergeInto a s B
      = ({ s.1 with obj := Function.update s.1.obj b ((s.1.obj b).iadd (s.1.obj a)) }, true) := by
  induction B with
  | nil => simp
  | cons c B ih =>
    intro s hn ha hb he hu
    rw [mergeInto, List.foldl_cons]
    by_cases hcb : c = b
    · subst hcb
      rw [if_pos he]
      refine mergeInto_none a B _ ?_
      intro d hd
      have hdc : d ≠ c := by rintro rfl; exact (List.nodup_cons.1 hn).1 hd
      have hac : a ≠ c := by rintro rfl; simp at ha
      simp only [Function.update_of_ne hdc, Function.update_of_ne hac]
      exact hu d (by simp [hd]) hdc
    · rw [if_neg (hu c (by simp) hcb)]
      exact ih s (List.nodup_cons.1 hn).2 (fun h => ha (by simp [h]))
        (by simpa [Ne.symm hcb] using hb) he (fun d hd => hu d (by simp [hd]))

/-- Sum of the operators of the objects referenced by a list. -/
def opSum (h : Heap D K) (R : List ℕ) (I J : Fin D → ℕ) : K := (R.map fun r => (h.obj r).op I J).sum

theorem opSum_congr {h h' : Heap D K} {R : List ℕ} (e : ∀ r ∈ R, h.obj r = h'.obj r) (I J : Fin D → ℕ) :
    opSum h R I J = opSum h' R I J := by
  unfold opSum
  congr 1
  exact List.map_congr_left fun r hr => by rw [e r hr]

theorem opSum_update (h : Heap D K) (B : List ℕ) (b : ℕ) (t : TPM D K) (x : K) (I J : Fin D → ℕ)
    (ht : t.op I J = (h.obj b).op I J + x) (hn : B.Nodup) (hb : b ∈ B) :
    opSum { h with obj := Function.update h.obj b t } B I J = opSum h B I J + x := by
  induction B with
  | nil => simp at hb
  | cons c B ih =>
    by_cases hcb : c = b
    · subst hcb
      have : ∀ r ∈ B, (Function.update h.obj c t) r = h.obj r := by
        intro r hr
        rw [Function.update_of_ne]
        rintro rfl
        exact (List.nodup_cons.1 hn).1 hr
      simp only [opSum, List.map_cons, List.sum_cons, Function.update_self]
      rw [List.map_congr_left fun r hr => by rw [this r hr], ht]
      ring
    · have := ih (List.nodup_cons.1 hn).2 (by simpa [Ne.symm hcb] using hb)
      simp only [opSum, List.map_cons, List.sum_cons] at this ⊢
      rw [Function.update_of_ne hcb, this]
      ring

/-- Invariant of the outer loop: `B` are pairwise different references of pairwise different matrices. -/
theorem merge_foldl (A : List ℕ) : ∀ (h : Heap D K) (B : List ℕ), (B ++ A).Nodup →
    B.Pairwise (fun b c => ¬ (h.obj b).eq (h.obj c)) → (∀ r ∈ B ++ A, (h.obj r).Assembled) →
    let res := A.foldl mergeStep (h, B)
    (∀ I J, (∀ r ∈ B ++ A, (h.obj r).InShape I J) → opSum res.1 res.2 I J = opSum h (B ++ A) I J) ∧
    (∀ r, r ∉ B ++ A → res.1.obj r = h.obj r) ∧
    (∀ r ∈ res.2, r ∈ B ++ A) ∧
    (res.2.Pairwise (fun b c => ¬ (res.1.obj b).eq (res.1.obj c))) ∧
    (∀ r, SameButScale (res.1.obj r) (h.obj r)) := by
  induction A with
  | nil => intro h B _ hp _; simp [SameButScale]; exact hp
  | cons a A ih =>
    intro h B hn hp has
    have haB : a ∉ B := fun hc => (List.nodup_append.1 hn).2.2 a hc a (by simp) rfl
    have hBn : B.Nodup := (List.nodup_append.1 hn).1
    simp only [List.foldl_cons]
    by_cases hex : ∃ b ∈ B, (h.obj a).eq (h.obj b)
    · obtain ⟨b, hb, heb⟩ := hex
      have hu : ∀ c ∈ B, c ≠ b → ¬ (h.obj a).eq (h.obj c) := by
        intro c hc hcb hac
        haveI hsym : Std.Symm fun b c => ¬ (h.obj b).eq (h.obj c) := ⟨fun x y hxy hyx => hxy (eq_symm hyx)⟩
        exact hp.forall hb hc (Ne.symm hcb) (eq_trans (eq_symm heb) hac)
      have hstep : mergeStep (h, B) a =
          ({ h with obj := Function.update h.obj b ((h.obj b).iadd (h.obj a)) }, B) := by
        simp only [mergeStep]
        rw [mergeInto_one a b B (h, false) hBn haB hb heb hu]
        simp
      rw [hstep]
      set h1 : Heap D K := { h with obj := Function.update h.obj b ((h.obj b).iadd (h.obj a)) } with hh1
      have hsame : ∀ r, SameButScale (h1.obj r) (h.obj r) := by
        intro r
        simp only [hh1]
        by_cases hr : r = b
        · subst hr; simp [iadd, SameButScale]
        · simp [Function.update_of_ne hr, SameButScale]
      have hab : a ≠ b := fun e => haB (e ▸ hb)
      have hsub : (B ++ A).Nodup := by
        refine hn.sublist ?_
        exact List.Sublist.append_left (List.sublist_cons_self a A) B
      have hbA : b ∉ A := fun hc => (List.nodup_append.1 hsub).2.2 b hb b hc rfl
      have heq : ∀ r r', (h1.obj r).eq (h1.obj r') ↔ (h.obj r).eq (h.obj r') := by
        intro r r'
        simp [TPM.eq, (hsame r).1, (hsame r).2.1, (hsame r').1, (hsame r').2.1]
      have hin : ∀ r I J, (h1.obj r).InShape I J ↔ (h.obj r).InShape I J := by
        intro r I J
        simp [InShape, (hsame r).2.1]
      obtain ⟨q1, q2, q3, q4, q5⟩ := ih h1 B hsub (hp.imp fun {x y} hxy => by rwa [heq])
        (by
          intro r hr
          have := has r (by simp at hr ⊢; tauto)
          exact ⟨fun a => by rw [(hsame r).2.1]; exact this.unit a,
            fun a ha => by rw [(hsame r).2.1]; rw [(hsame r).2.2] at ha; exact this.main a ha⟩)
      refine ⟨?_, ?_, ?_, q4, ?_⟩
      · intro I J hIJ
        rw [q1 I J (fun r hr => (hin r I J).2 (hIJ r (by simp at hr ⊢; tauto)))]
        have h1sum : opSum h1 B I J = opSum h B I J + (h.obj a).op I J := by
          apply opSum_update h B b _ _ I J _ hBn hb
          exact iadd_op _ _ (has b (by simp [hb])) (has a (by simp)) heb I J (hIJ b (by simp [hb]))
        have hAsum : opSum h1 A I J = opSum h A I J := by
          apply opSum_congr
          intro r hr
          simp only [hh1]
          rw [Function.update_of_ne]
          rintro rfl
          exact hbA hr
        simp only [opSum, List.map_append, List.sum_append, List.map_cons, List.sum_cons] at *
        rw [h1sum, hAsum]
        ring
      · intro r hr
        rw [q2 r (fun hc => hr (by simp at hc ⊢; tauto))]
        simp only [hh1]
        rw [Function.update_of_ne]
        rintro rfl
        exact hr (by simp [hb])
      · intro r hr
        have := q3 r hr
        simp at this ⊢; tauto
      · intro r
        refine ⟨(q5 r).1.trans (hsame r).1, (q5 r).2.1.trans (hsame r).2.1, (q5 r).2.2.trans (hsame r).2.2⟩
    · push Not at hex
      have hstep : mergeStep (h, B) a = (h, B ++ [a]) := by
        simp only [mergeStep]
        rw [mergeInto_none a B (h, false) hex]
        simp
      rw [hstep]
      have happ : B ++ [a] ++ A = B ++ a :: A := by simp
      have := ih h (B ++ [a]) (by rwa [happ])
        (by
          rw [List.pairwise_append]
          refine ⟨hp, by simp, ?_⟩
          intro x hx y hy
          simp only [List.mem_singleton] at hy
          subst hy
          exact fun hc => hex x hx (eq_symm hc))
        (by rwa [happ])
      rw [happ] at this
      exact this

/-! ## The first loop -/

theorem simplifyAll_append (h : Heap D K) (R : List ℕ) (r : ℕ) :
    h.simplifyAll (R ++ [r]) =
      (((h.simplifyAll R).1.getSimplified r).1, (h.simplifyAll R).2 ++ [((h.simplifyAll R).1.getSimplified r).2]) := by
  simp [simplifyAll, List.foldl_append]

/-- What the first loop does: existing objects are kept, the resulting references stand for the same
operators. -/
theorem simplifyAll_spec (h : Heap D K) (R : List ℕ) (hR : ∀ r ∈ R, r < h.next)
    (has : ∀ r ∈ R, (h.obj r).Assembled) :
    let res := h.simplifyAll R
    h.next ≤ res.1.next ∧ (∀ r < h.next, res.1.obj r = h.obj r) ∧ (∀ r ∈ res.2, r < res.1.next) ∧
    (∀ r ∈ res.2, (res.1.obj r).Assembled) ∧
    (∀ I J, opSum res.1 res.2 I J = opSum h R I J) ∧
    (∀ I J, (∀ r ∈ R, (h.obj r).InShape I J) → ∀ r ∈ res.2, (res.1.obj r).InShape I J) ∧
    ((∀ r ∈ R, ¬ (h.obj r).returnsSelf) → res.2.Nodup ∧ ∀ r ∈ res.2, h.next ≤ r) ∧
    (R.Nodup → res.2.Nodup) ∧ (∀ r ∈ res.2, r < h.next → r ∈ R) ∧ res.2.length = R.length := by
  induction R using List.reverseRecOn with
  | nil => simp [simplifyAll, opSum]
  | append_singleton R r ih =>
    obtain ⟨e1, e2, e3, e4, e5, e6, e7, e8, e9, e10⟩ := ih (fun s hs => hR s (by simp [hs]))
      (fun s hs => has s (by simp [hs]))
    rw [simplifyAll_append]
    set g := h.simplifyAll R with hg
    have hr : r < h.next := hR r (by simp)
    have hro : g.1.obj r = h.obj r := e2 r hr
    by_cases hself : (h.obj r).returnsSelf
    · have hgs : g.1.getSimplified r = (g.1, r) := by
        rw [getSimplified, if_pos (by rw [hro]; exact hself)]
      rw [hgs]
      refine ⟨e1, e2, ?_, ?_, ?_, ?_, ?_, ?_, ?_, by simp [e10]⟩
      · intro s hs
        simp at hs
        rcases hs with hs | rfl
        · exact e3 s hs
        · exact lt_of_lt_of_le hr e1
      · intro s hs
        simp at hs
        rcases hs with hs | rfl
        · exact e4 s hs
        · rw [hro]; exact has s (by simp)
      · intro I J
        have := e5 I J
        simp only [opSum, List.map_append, List.sum_append, List.map_cons, List.sum_cons, List.map_nil,
          List.sum_nil] at this ⊢
        rw [this, hro]
      · intro I J hIJ s hs
        simp at hs
        rcases hs with hs | rfl
        · exact e6 I J (fun q hq => hIJ q (by simp [hq])) s hs
        · rw [hro]; exact hIJ s (by simp)
      · intro hall
        exact absurd hself (hall r (by simp))
      · intro hnd
        rw [List.nodup_append] at hnd
        rw [List.nodup_append]
        refine ⟨e8 hnd.1, by simp, ?_⟩
        intro x hx y hy hxy
        simp only [List.mem_singleton] at hy
        rw [hy] at hxy
        rw [hxy] at hx
        exact hnd.2.2 r (e9 r hx hr) r (by simp) rfl
      · intro s hs hlt
        simp at hs ⊢
        rcases hs with hs | rfl
        · exact Or.inl (e9 s hs hlt)
        · simp
    · have hgs : g.1.getSimplified r =
          ({ obj := Function.update g.1.obj g.1.next (h.obj r).simplify, next := g.1.next + 1 }, g.1.next) := by
        rw [getSimplified, if_neg (by rw [hro]; exact hself), hro]
      rw [hgs]
      have hold : ∀ s ∈ g.2, Function.update g.1.obj g.1.next (h.obj r).simplify s = g.1.obj s := by
        intro s hs
        rw [Function.update_of_ne]
        have := e3 s hs
        omega
      have hrA : (h.obj r).Assembled := has r (by simp)
      refine ⟨by simp; omega, ?_, ?_, ?_, ?_, ?_, ?_, ?_, ?_, by simp [e10]⟩
      · intro s hs
        simp only
        rw [Function.update_of_ne (by omega)]
        exact e2 s hs
      · intro s hs
        simp at hs
        rcases hs with hs | rfl
        · have := e3 s hs; simp; omega
        · simp
      · intro s hs
        simp at hs
        rcases hs with hs | rfl
        · simp only [hold s hs]; exact e4 s hs
        · simp only [Function.update_self]; exact simplify_assembled _ hrA
      · intro I J
        have := e5 I J
        simp only [opSum, List.map_append, List.sum_append, List.map_cons, List.sum_cons, List.map_nil,
          List.sum_nil] at this ⊢
        rw [List.map_congr_left (g := fun r => (g.1.obj r).op I J) fun s hs => by rw [hold s hs], this,
          Function.update_self, C16_simplify_op _ hrA]
      · intro I J hIJ s hs
        simp at hs
        rcases hs with hs | rfl
        · simp only [hold s hs]; exact e6 I J (fun q hq => hIJ q (by simp [hq])) s hs
        · simp only [Function.update_self]; rw [simplify_inShape]; exact hIJ r (by simp)
      · intro hall
        obtain ⟨f1, f2⟩ := e7 fun q hq => hall q (by simp [hq])
        constructor
        · rw [List.nodup_append]
          refine ⟨f1, by simp, ?_⟩
          intro x hx y hy hxy
          simp only [List.mem_singleton] at hy
          have := e3 x hx
          omega
        · intro s hs
          simp at hs
          rcases hs with hs | rfl
          · exact f2 s hs
          · exact e1
      · intro hnd
        rw [List.nodup_append]
        refine ⟨e8 (List.nodup_append.1 hnd).1, by simp, ?_⟩
        intro x hx y hy hxy
        simp only [List.mem_singleton] at hy
        have := e3 x hx
        omega
      · intro s hs hlt
        simp at hs ⊢
        rcases hs with hs | rfl
        · exact Or.inl (e9 s hs hlt)
        · omega

/-- **C16** (the sum).  `get_simplified_tpmatrices` of a list of assembled tensor product matrices without
repeated objects returns matrices with the same sum; no two of them are equal up to scale. -/
theorem C16_sum (h : Heap D K) (R : List ℕ) (hR : ∀ r ∈ R, r < h.next) (has : ∀ r ∈ R, (h.obj r).Assembled)
    (hn : R.Nodup ∨ ∀ r ∈ R, ¬ (h.obj r).returnsSelf) :
    let res := h.getSimplifiedTpmatrices R
    (∀ I J, (∀ r ∈ R, (h.obj r).InShape I J) → opSum res.1 res.2 I J = opSum h R I J) ∧
    res.2.Pairwise (fun b c => ¬ (res.1.obj b).eq (res.1.obj c)) := by
  obtain ⟨e1, e2, e3, e4, e5, e6, e7, e8, e9, e10⟩ := simplifyAll_spec h R hR has
  have hnd : (h.simplifyAll R).2.Nodup := by
    rcases hn with hn | hn
    · exact e8 hn
    · exact (e7 hn).1
  simp only [getSimplifiedTpmatrices]
  revert e1 e2 e3 e4 e5 e6 e7 e8 e9 e10 hnd
  rcases h.simplifyAll R with ⟨h', _ | ⟨a, A⟩⟩
  · intro e1 e2 e3 e4 e5 e6 e7 e8 e9 e10 hnd
    exact ⟨fun I J _ => e5 I J, by simp⟩
  · intro e1 e2 e3 e4 e5 e6 e7 e8 e9 e10 hnd
    obtain ⟨q1, q2, q3, q4, q5⟩ := merge_foldl A h' [a] (by simpa using hnd) (by simp) (by simpa using e4)
    refine ⟨fun I J hIJ => ?_, q4⟩
    rw [q1 I J (fun r hr => e6 I J hIJ r (by simpa using hr))]
    simpa using e5 I J

/-- **C16** (no side effect).  When every matrix in the list has a diagonal (Fourier) axis and has not been
simplified in place before, the matrices the caller holds are untouched. -/
theorem C16_caller_unchanged (h : Heap D K) (R : List ℕ) (hR : ∀ r ∈ R, r < h.next)
    (has : ∀ r ∈ R, (h.obj r).Assembled) (hf : ∀ r ∈ R, ¬ (h.obj r).returnsSelf) :
    ∀ r < h.next, (h.getSimplifiedTpmatrices R).1.obj r = h.obj r := by
  obtain ⟨e1, e2, e3, e4, e5, e6, e7, e8, e9, e10⟩ := simplifyAll_spec h R hR has
  simp only [getSimplifiedTpmatrices]
  revert e1 e2 e3 e4 e5 e6 e7 e8 e9 e10
  rcases h.simplifyAll R with ⟨h', _ | ⟨a, A⟩⟩
  · intro e1 e2 e3 e4 e5 e6 e7 e8 e9 e10 r hr
    exact e2 r hr
  · intro e1 e2 e3 e4 e5 e6 e7 e8 e9 e10 r hr
    obtain ⟨q1, q2, q3, q4, q5⟩ := merge_foldl A h' [a] (by simpa using (e7 hf).1) (by simp) (by simpa using e4)
    rw [q2 r]
    · exact e2 r hr
    · intro hc
      have := (e7 hf).2 r (by simpa using hc)
      omega

/-! ## C17 -/

/-- The class of a one-dimensional matrix (its key) determines whether it is a boundary matrix:
`SpectralMatrix.__hash__` contains the class of the trial function, and `boundary_condition()` is a
constant of that class. -/
def KeyDeterminesBc (h : Heap D K) : Prop :=
  ∀ r s a, ((h.obj r).mats a).key = ((h.obj s).mats a).key → ((h.obj r).mats a).bc = ((h.obj s).mats a).bc

theorem isBc_of_eq {h : Heap D K} (hk : KeyDeterminesBc h) {r s : ℕ} (e : (h.obj r).eq (h.obj s)) :
    (h.obj r).isBc = (h.obj s).isBc := by
  have : ∀ a, ((h.obj r).mats a).bc = ((h.obj s).mats a).bc := fun a => hk r s a (e.2 a).1
  simp [isBc, this]

theorem pyRemove_append (h : Heap D K) (r : ℕ) (p s : List ℕ)
    (hp : ∀ x ∈ p, ¬ (x = r ∨ (h.obj x).eq (h.obj r))) : h.pyRemove (p ++ r :: s) r = p ++ s := by
  induction p with
  | nil => simp [pyRemove]
  | cons x p ih =>
    rw [List.cons_append, pyRemove, if_neg (hp x (by simp)), ih fun y hy => hp y (by simp [hy])]
    rfl

theorem extractOne_eq {h : Heap D K} (hk : KeyDeterminesBc h) (acc a : List ℕ) :
    h.extractOne acc a = (acc ++ a.filter (fun r => (h.obj r).isBc), a.filter fun r => !(h.obj r).isBc) := by
  have key : ∀ (s p acc : List ℕ), (∀ x ∈ p, (h.obj x).isBc = false) →
      s.foldl (fun s b => if (h.obj b).isBc then (s.1 ++ [b], h.pyRemove s.2 b) else s) (acc, p ++ s)
        = (acc ++ s.filter (fun r => (h.obj r).isBc), p ++ s.filter fun r => !(h.obj r).isBc) := by
    intro s
    induction s with
    | nil => simp
    | cons b s ih =>
      intro p acc hp
      rw [List.foldl_cons]
      by_cases hb : (h.obj b).isBc
      · rw [if_pos hb, pyRemove_append]
        · rw [ih p _ hp]; simp [hb]
        · rintro x hx (rfl | he)
          · rw [hp x hx] at hb; simp at hb
          · rw [← isBc_of_eq hk he, hp x hx] at hb; simp at hb
      · rw [if_neg hb]
        have := ih (p ++ [b]) acc (by
          intro x hx
          simp at hx
          rcases hx with hx | rfl
          · exact hp x hx
          · simpa using hb)
        simp only [List.append_assoc, List.singleton_append] at this
        rw [this]
        simp [hb]
  simpa [extractOne] using key a [] acc (by simp)

/-- **C17.**  `extract_bc_matrices` returns exactly the boundary matrices, in order and with repetitions,
and leaves in the caller's lists exactly the others, in order. -/
theorem C17_extract (h : Heap D K) (hk : KeyDeterminesBc h) (mats : List (List ℕ)) :
    h.extractBcMatrices mats =
      ((mats.flatten).filter (fun r => (h.obj r).isBc), mats.map fun a => a.filter fun r => !(h.obj r).isBc) := by
  have key : ∀ (mats : List (List ℕ)) (acc : List ℕ) (out : List (List ℕ)),
      mats.foldl (fun s a => let e := h.extractOne s.1 a; (e.1, s.2 ++ [e.2])) (acc, out)
        = (acc ++ (mats.flatten).filter (fun r => (h.obj r).isBc),
            out ++ mats.map fun a => a.filter fun r => !(h.obj r).isBc) := by
    intro mats
    induction mats with
    | nil => simp
    | cons a mats ih =>
      intro acc out
      rw [List.foldl_cons, extractOne_eq hk]
      simp only
      rw [ih]
      simp
  simpa [extractBcMatrices] using key mats [] []

/-! ## Concrete cases, and the part of C16 that is false of the code -/

/-- A diagonal (Fourier like) matrix. -/
def exFourier : Mat1 ℚ :=
  { sm := { rows := 4, cols := 4, scale := 1, diags := [(0, fun i => i + 1)] }, key := 1, scalar := false, bc := false }

/-- A tridiagonal matrix. -/
def exTri (bc : Bool) : Mat1 ℚ :=
  { sm := { rows := 4, cols := 4, scale := 1, diags := [(-1, fun _ => 1), (0, fun i => i + 2), (1, fun _ => 1)] },
    key := if bc then 3 else 2, scalar := false, bc := bc }

/-- Fourier axis times tridiagonal axis. -/
def exTP (c : ℚ) (bc : Bool) : TPM 2 ℚ :=
  { gidx := none, mats := ![exFourier, exTri bc], scale := fun _ => c, diag := ![true, false], simplified := false }

/-- Three matrices, two of them equal up to the scale. -/
def exHeap : Heap 2 ℚ := { obj := fun r => exTP (r + 1) (r == 2), next := 3 }

/-- The hypotheses of `C16_sum` and `C16_caller_unchanged` are met. -/
example : (∀ r ∈ [0, 1, 2], r < exHeap.next) ∧ (∀ r ∈ [0, 1, 2], (exHeap.obj r).Assembled) ∧
    (∀ r ∈ [0, 1, 2], ¬ (exHeap.obj r).returnsSelf) ∧
    (∀ r ∈ [0, 1, 2], (exHeap.obj r).InShape ![1, 2] ![1, 3]) ∧ [0, 1, 2].Nodup := by
  refine ⟨by simp [exHeap], ?_, ?_, ?_, by decide⟩
  · intro r _
    refine ⟨?_, ?_⟩
    · intro a; fin_cases a <;> rfl
    · intro a ha
      fin_cases a
      · exact ⟨_, rfl⟩
      · simp [exHeap, exTP] at ha
  · intro r _ h
    rcases h with h | h
    · have := h 0; simp [exHeap, exTP] at this
    · simp [exHeap, exTP] at h
  · intro r _ a
    fin_cases a <;> simp [exHeap, exTP, exFourier, exTri]

/-- The hypothesis of `C17_extract` is met, and there is both a boundary matrix and another. -/
example : KeyDeterminesBc exHeap ∧ (exHeap.obj 2).isBc = true ∧ (exHeap.obj 1).isBc = false := by
  refine ⟨?_, by decide, by decide⟩
  intro r s a h
  fin_cases a
  · rfl
  · simp only [exHeap, exTP, exTri] at h ⊢
    simp at h ⊢
    split_ifs at h <;> simp_all

/-- The full statement of C16, without the hypotheses on aliasing and on the scales of the factors. -/
def C16Full (D : ℕ) (K : Type*) [Field K] : Prop :=
  ∀ (h : Heap D K) (R : List ℕ), (∀ r ∈ R, r < h.next) →
    (∀ r ∈ R, ∀ a, (h.obj r).diag a = true → ∃ f, ((h.obj r).mats a).sm.diags = [(0, f)]) →
    ((∀ I J, (∀ r ∈ R, (h.obj r).InShape I J) →
      opSum (h.getSimplifiedTpmatrices R).1 (h.getSimplifiedTpmatrices R).2 I J = opSum h R I J) ∧
    ∀ r < h.next, (h.getSimplifiedTpmatrices R).1.obj r = h.obj r)

/-- When no axis is diagonal, `get_simplified` returns the caller's object and `+=` writes into it: after
`get_simplified_tpmatrices([A, B])` with `A == B`, `A.scale` is the sum of both scales.  Calling it again on
the same list therefore gives a different operator. -/
theorem C16_aliasing (h : Heap D K) (h0 : ∀ a, (h.obj 0).diag a = false) (h1 : ∀ a, (h.obj 1).diag a = false)
    (he : (h.obj 1).eq (h.obj 0)) :
    ∀ I, ((h.getSimplifiedTpmatrices [0, 1]).1.obj 0).scale I = (h.obj 0).scale I + (h.obj 1).scale I ∧
      (((h.getSimplifiedTpmatrices [0, 1]).1.getSimplifiedTpmatrices [0, 1]).1.obj 0).scale I
        = (h.obj 0).scale I + 2 * (h.obj 1).scale I := by
  have step : ∀ h : Heap D K, (∀ a, (h.obj 0).diag a = false) → (∀ a, (h.obj 1).diag a = false) →
      (h.obj 1).eq (h.obj 0) → h.getSimplifiedTpmatrices [0, 1]
        = ({ h with obj := Function.update h.obj 0 ((h.obj 0).iadd (h.obj 1)) }, [0]) := by
    intro h h0 h1 he
    have hs : h.simplifyAll [0, 1] = (h, [0, 1]) := by
      have g0 : h.getSimplified 0 = (h, 0) := by exact if_pos (Or.inl h0)
      have g1 : h.getSimplified 1 = (h, 1) := by exact if_pos (Or.inl h1)
      simp [simplifyAll, g0, g1]
    rw [getSimplifiedTpmatrices, hs]
    simp only [List.foldl_cons, List.foldl_nil, mergeStep]
    rw [mergeInto_one 1 0 [0] (h, false) (by simp) (by simp) (by simp) he (by simp)]
    simp
  intro I
  rw [step h h0 h1 he]
  rw [step]
  · simp [iadd]; ring
  · intro a; simp [iadd, h0]
  · intro a; simp [h1]
  · simp only [Function.update_self]
    rw [Function.update_of_ne (by decide)]
    exact he

/-- The full statement of C16 is false: the caller's matrices can be modified. -/
theorem C16_full_refuted : ¬ C16Full 1 ℚ := by
  intro hc
  let t : TPM 1 ℚ := { gidx := none, mats := fun _ => exTri false, scale := fun _ => 1, diag := fun _ => false,
                       simplified := false }
  let h : Heap 1 ℚ := { obj := fun _ => t, next := 2 }
  have := (hc h [0, 1] (by simp [h]) (by simp [h, t])).2 0 (by simp [h])
  have e := (C16_aliasing h (by simp [h, t]) (by simp [h, t]) (TPM.eq_refl t) fun _ => 0).1
  rw [this] at e
  norm_num [h, t] at e

/-- A second, independent failure: if the scalar main diagonal of a factor carries a `scale` (for instance
`2*Identity`), `get_simplified` drops that scale. -/
theorem C16_scalar_scale_dropped (s c : K) (r : ℕ) :
    let m : Mat1 K := { (ident r r : Mat1 K) with sm := { (ident r r : Mat1 K).sm with scale := s } }
    let t : TPM 1 K := { gidx := none, mats := fun _ => m, scale := fun _ => c, diag := fun _ => true,
                         simplified := false }
    t.op (fun _ => 0) (fun _ => 0) = c * s ∧ t.simplify.op (fun _ => 0) (fun _ => 0) = c := by
  intro m t
  constructor
  · simp [t, m, TPM.op, Spec.tensorEntry, SM.entry, ident, Spec.diagsEntry, Spec.diagEntry]
  · simp only [TPM.op, Spec.tensorEntry, simplify]
    rw [simpScale_eq]
    simp [t, m, simpMats, SM.entry, ident, Spec.diagsEntry, Spec.diagEntry, diagFactor, SM.getItem]

end Shenfun
