import Verif.Lemmas.Matvecs
import Verif.Spec.Matvec
import Verif.Props.ChebSolvers
import Verif.Props.Helmholtz
import Verif.Props.Biharmonic
import Verif.Props.LegMatrices

/-!
# C69: optimised matrix-vector products
-/

namespace Shenfun

open Polynomial Spec Finset ChebLA

set_option linter.unusedSimpArgs false

namespace SpecMat

/-- A scale is applied unless it is so near to 1 that `scale_array` leaves it out; exactly 1 is no loss. -/
def ScaleOK (sc : ℝ) : Prop := sc = 1 ∨ 1e-8 < |sc - 1|

theorem band_product (d : DMat) (rows cols : ℕ) (F : ℕ → ℕ → ℝ) (hM : IsMatrixOf d rows cols F) (v : ℕ → ℝ) (i : ℕ) (hi : i < rows) :
    ∑ j ∈ range cols, F i j * v j = bandRow cols (d.map fun e => (e.1, e.2.get)) v i := by
  rw [← sum_diagsEntry]
  refine Finset.sum_congr rfl fun j hj => ?_
  rw [← hM.entries i hi j (Finset.mem_range.1 hj), DMat.mat, denseAt_new _ _ _ _ _ hi (Finset.mem_range.1 hj)]

/-- Mass matrices. -/
theorem mass_product (d : DMat) (rows cols : ℕ) (I : ℝ[X] →ₗ[ℝ] ℝ) (φ ψ : ℕ → ℝ[X])
    (hM : IsMatrixOf d rows cols fun k j => I (φ k * ψ j)) (c : ℝ) (v out : ℕ → ℝ)
    (hrow : ∀ i < rows, out i = c * bandRow cols (d.map fun e => (e.1, e.2.get)) v i) (hrest : ∀ i, rows ≤ i → out i = 0) :
    IsFormProduct (fun p q => I (p * q)) φ ψ rows cols c v out :=
  ⟨fun i hi => by rw [hrow i hi, form_sum, ← band_product d rows cols _ hM v i hi], hrest⟩

/-- Matrices with derivatives. -/
theorem cheb_product (r : ℕ) (d : DMat) (rows cols : ℕ) (φ ψ : ℕ → ℝ[X])
    (hM : IsMatrixOf d rows cols fun k j => chebForm r (φ k) (ψ j)) (c : ℝ) (v out : ℕ → ℝ)
    (hrow : ∀ i < rows, out i = c * bandRow cols (d.map fun e => (e.1, e.2.get)) v i) (hrest : ∀ i, rows ≤ i → out i = 0) :
    IsFormProduct (chebForm r) φ ψ rows cols c v out :=
  ⟨fun i hi => by rw [hrow i hi, chebForm_sum, ← band_product d rows cols _ hM v i hi], hrest⟩

/-- Unfold the kernel and the rows of the matrix. -/
macro "mv_open" : tactic => `(tactic|
  (simp only [SpecMat.get, DMat.at, List.find?, List.map_cons, List.map_nil, bandRow, List.sum_cons, List.sum_nil, bandTerm_0, bandTerm_1,
    bandTerm_2, bandTerm_3, bandTerm_4, bandTerm_m1, bandTerm_m2, bandTerm_m3, bandTerm_m4, DVal.get, fill_apply, Function.update_apply, zeros,
    setSlice, addSlice, Int.reduceBEq, Int.reduceNeg, Nat.sub_zero, beq_self_eq_true, Nat.add_zero]))

/-- Close one row. -/
macro "mv_close" : tactic => `(tactic|
  (simp (disch := omega) only [if_pos, if_neg, zero_add, Nat.reduceAdd, Nat.sub_sub, Nat.reduceSub, Nat.sub_zero, ↓reduceIte, and_true, true_and]
   try ring))

/-- **C69** `BSDSDmat`, compiled. -/
theorem C69_BSDSD (N : ℕ) (hN : 6 ≤ N) (h : ℕ → ℝ) (I : ℝ[X] →ₗ[ℝ] ℝ) (hh : ChebNorms N N h) (hI : OrthogonalForm chebT I N N h)
    (ks s : ℝ) (hs : ScaleOK s) (v : ℕ → ℝ) :
    IsFormProduct (fun p q => I (p * q)) (chebSD N) (chebSD N) (N-2) (N-2) (s * ks) v
      (matvecBSDSD (N-2) ⟨ChebMat.BSDSD N N h, ks, s⟩ v) := by
  refine mass_product _ _ _ I _ _ (C28_cheb_BSDSD N N h I hh hI) _ _ _ (fun i hi => ?_) fun i hi => ?_
  · unfold matvecBSDSD kernelTridiagonal ChebMat.BSDSD
    rw [scaleArray_apply _ _ hs]
    mv_open
    rcases (by omega : i = 0 ∨ i = 1 ∨ (2 ≤ i ∧ i < N-2-2) ∨ i = N-2-2 ∨ i = N-2-1) with hc | hc | hc | hc | hc <;> try subst hc
    all_goals mv_close
  · unfold matvecBSDSD kernelTridiagonal
    rw [scaleArray_apply _ _ hs]
    mv_open
    mv_close



/-- **C69** `BSDSDmat`, numpy. -/
theorem C69_BSDSD_self (N : ℕ) (hN : 4 ≤ N) (h : ℕ → ℝ) (I : ℝ[X] →ₗ[ℝ] ℝ) (hh : ChebNorms N N h) (hI : OrthogonalForm chebT I N N h)
    (ks s : ℝ) (hs : ScaleOK s) (v : ℕ → ℝ) :
    IsFormProduct (fun p q => I (p * q)) (chebSD N) (chebSD N) (N-2) (N-2) (s * ks) v (matvecBSDSDself (N-2) ⟨ChebMat.BSDSD N N h, ks, s⟩ v) := by
  refine mass_product _ _ _ I _ _ (C28_cheb_BSDSD N N h I hh hI) _ _ _ (fun i hi => ?_) fun i hi => ?_
  · unfold matvecBSDSDself  ChebMat.BSDSD
    rw [scaleArray_apply _ _ hs]
    mv_open
    split_ifs <;> first | omega | ring | mv_close
  · unfold matvecBSDSDself 
    rw [scaleArray_apply _ _ hs]
    mv_open
    mv_close

/-- **C69** `BTTmat`, format `self`. -/
theorem C69_BTT (N : ℕ) (hN : 0 ≤ N) (h : ℕ → ℝ) (I : ℝ[X] →ₗ[ℝ] ℝ) (hh : ChebNorms N N h) (hI : OrthogonalForm chebT I N N h)
    (ks s : ℝ) (hs : ScaleOK s) (v : ℕ → ℝ) :
    IsFormProduct (fun p q => I (p * q)) (chebT) (chebT) (N) (N) (s * ks) v (matvecBTT N ⟨ChebMat.BTT N N h, ks, s⟩ v) := by
  refine mass_product _ _ _ I _ _ (C28_cheb_BTT N N h I hh hI) _ _ _ (fun i hi => ?_) fun i hi => ?_
  · unfold matvecBTT  ChebMat.BTT
    rw [scaleArray_apply _ _ hs]
    mv_open
    rcases (by omega : 0 ≤ i ∨ i = 0) with hc | hc <;> try subst hc
    all_goals mv_close
  · unfold matvecBTT 
    rw [scaleArray_apply _ _ hs]
    mv_open
    mv_close

/-- **C69** `BSDSNmat`, compiled. -/
theorem C69_BSDSN (N : ℕ) (hN : 6 ≤ N) (h : ℕ → ℝ) (I : ℝ[X] →ₗ[ℝ] ℝ) (hh : ChebNorms N N h) (hI : OrthogonalForm chebT I N N h)
    (ks s : ℝ) (hs : ScaleOK s) (v : ℕ → ℝ) :
    IsFormProduct (fun p q => I (p * q)) (chebSD N) (chebSN N) (N-2) (N-2) (s * ks) v (matvecBSDSN (N-2) ⟨ChebMat.BSDSN N N h, ks, s⟩ v) := by
  refine mass_product _ _ _ I _ _ (C28_cheb_BSDSN N N h I hh hI) _ _ _ (fun i hi => ?_) fun i hi => ?_
  · unfold matvecBSDSN kernelBDN ChebMat.BSDSN
    rw [scaleArray_apply _ _ hs]
    mv_open
    rcases (by omega : i = 0 ∨ i = 1 ∨ (2 ≤ i ∧ i < N-2-2) ∨ i = N-2-2 ∨ i = N-2-1) with hc | hc | hc | hc | hc <;> try subst hc
    all_goals mv_close
  · unfold matvecBSDSN kernelBDN
    rw [scaleArray_apply _ _ hs]
    mv_open
    mv_close

/-- **C69** `BSBSBmat`, compiled. -/
theorem C69_BSBSB (N : ℕ) (hN : 12 ≤ N) (h : ℕ → ℝ) (I : ℝ[X] →ₗ[ℝ] ℝ) (hh : ChebNorms N N h) (hI : OrthogonalForm chebT I N N h)
    (ks s : ℝ) (hs : ScaleOK s) (v : ℕ → ℝ) :
    IsFormProduct (fun p q => I (p * q)) (chebSB N) (chebSB N) (N-4) (N-4) (s * ks) v (matvecBSBSB (N-4) ⟨ChebMat.BSBSB N N h, ks, s⟩ v) := by
  refine mass_product _ _ _ I _ _ (C28_cheb_BSBSB N h I hh hI) _ _ _ (fun i hi => ?_) fun i hi => ?_
  · unfold matvecBSBSB kernelPentadiagonal ChebMat.BSBSB
    rw [scaleArray_apply _ _ hs]
    mv_open
    rcases (by omega : i = 0 ∨ i = 1 ∨ i = 2 ∨ i = 3 ∨ (4 ≤ i ∧ i < N-4-4) ∨ i = N-4-4 ∨ i = N-4-3 ∨ i = N-4-2 ∨ i = N-4-1) with hc | hc | hc | hc | hc | hc | hc | hc | hc <;> try subst hc
    all_goals mv_close
  · unfold matvecBSBSB kernelPentadiagonal
    rw [scaleArray_apply _ _ hs]
    mv_open
    mv_close

/-- **C69** `BSBSBmat`, numpy. -/
theorem C69_BSBSB_self (N : ℕ) (hN : 8 ≤ N) (h : ℕ → ℝ) (I : ℝ[X] →ₗ[ℝ] ℝ) (hh : ChebNorms N N h) (hI : OrthogonalForm chebT I N N h)
    (ks s : ℝ) (hs : ScaleOK s) (v : ℕ → ℝ) :
    IsFormProduct (fun p q => I (p * q)) (chebSB N) (chebSB N) (N-4) (N-4) (s * ks) v (matvecBSBSBself (N-4) ⟨ChebMat.BSBSB N N h, ks, s⟩ v) := by
  refine mass_product _ _ _ I _ _ (C28_cheb_BSBSB N h I hh hI) _ _ _ (fun i hi => ?_) fun i hi => ?_
  · unfold matvecBSBSBself  ChebMat.BSBSB
    rw [scaleArray_apply _ _ hs]
    mv_open
    split_ifs <;> first | omega | ring | mv_close
  · unfold matvecBSBSBself 
    rw [scaleArray_apply _ _ hs]
    mv_open
    mv_close

/-- **C69** `BSBSDmat`, compiled. -/
theorem C69_BSBSD (N : ℕ) (hN : 8 ≤ N) (h : ℕ → ℝ) (I : ℝ[X] →ₗ[ℝ] ℝ) (hh : ChebNorms N N h) (hI : OrthogonalForm chebT I N N h)
    (ks s : ℝ) (hs : ScaleOK s) (v : ℕ → ℝ) :
    IsFormProduct (fun p q => I (p * q)) (chebSB N) (chebSD N) (N-4) (N-2) (s * ks) v (matvecBSBSD (N-6) ⟨ChebMat.BSBSD N N h, ks, s⟩ v) := by
  refine mass_product _ _ _ I _ _ (C28_cheb_BSBSD N N h I hh hI) _ _ _ (fun i hi => ?_) fun i hi => ?_
  · unfold matvecBSBSD kernelBBD ChebMat.BSBSD
    rw [scaleArray_apply _ _ hs]
    mv_open
    rcases (by omega : i = 0 ∨ i = 1 ∨ (2 ≤ i ∧ i < N-6) ∨ i = N-6 ∨ i = N-6+1) with hc | hc | hc | hc | hc <;> try subst hc
    all_goals mv_close
  · unfold matvecBSBSD kernelBBD
    rw [scaleArray_apply _ _ hs]
    mv_open
    mv_close

/-- **C69** `BSBSDmat`, numpy. -/
theorem C69_BSBSD_self (N : ℕ) (hN : 6 ≤ N) (h : ℕ → ℝ) (I : ℝ[X] →ₗ[ℝ] ℝ) (hh : ChebNorms N N h) (hI : OrthogonalForm chebT I N N h)
    (ks s : ℝ) (hs : ScaleOK s) (v : ℕ → ℝ) :
    IsFormProduct (fun p q => I (p * q)) (chebSB N) (chebSD N) (N-4) (N-2) (s * ks) v (matvecBSBSDself (N-4) ⟨ChebMat.BSBSD N N h, ks, s⟩ v) := by
  refine mass_product _ _ _ I _ _ (C28_cheb_BSBSD N N h I hh hI) _ _ _ (fun i hi => ?_) fun i hi => ?_
  · unfold matvecBSBSDself  ChebMat.BSBSD
    rw [scaleArray_apply _ _ hs]
    mv_open
    split_ifs <;> first | omega | ring | mv_close
  · unfold matvecBSBSDself 
    rw [scaleArray_apply _ _ hs]
    mv_open
    mv_close

/-- **C69** `CSDSNmat`, compiled. -/
theorem C69_CSDSN (N : ℕ) (hN : 4 ≤ N) (ks s : ℝ) (hs : ScaleOK s) (v : ℕ → ℝ) :
    IsFormProduct (chebForm 1) (chebSD N) (chebSN N) (N-2) (N-2) (s * ks) v (matvecCSD (N-2) ⟨ChebMat.CSDSN N, ks, s⟩ v) := by
  refine cheb_product 1 _ _ _ _ _ (C28_cheb_CSDSN N) _ _ _ (fun i hi => ?_) fun i hi => ?_
  · unfold matvecCSD kernelCDN ChebMat.CSDSN
    rw [scaleArray_apply _ _ hs]
    mv_open
    rcases (by omega : i = 0 ∨ (1 ≤ i ∧ i < N-2-1) ∨ i = N-2-1) with hc | hc | hc <;> try subst hc
    all_goals mv_close
  · unfold matvecCSD kernelCDN
    rw [scaleArray_apply _ _ hs]
    mv_open
    mv_close

/-- **C69** `CSDSDmat`, compiled. -/
theorem C69_CSDSD (N : ℕ) (hN : 4 ≤ N) (ks s : ℝ) (hs : ScaleOK s) (v : ℕ → ℝ) :
    IsFormProduct (chebForm 1) (chebSD N) (chebSD N) (N-2) (N-2) (s * ks) v (matvecCSD (N-2) ⟨ChebMat.CSDSD N, ks, s⟩ v) := by
  refine cheb_product 1 _ _ _ _ _ (C28_cheb_CSDSD N) _ _ _ (fun i hi => ?_) fun i hi => ?_
  · unfold matvecCSD kernelCDN ChebMat.CSDSD
    rw [scaleArray_apply _ _ hs]
    mv_open
    rcases (by omega : i = 0 ∨ (1 ≤ i ∧ i < N-2-1) ∨ i = N-2-1) with hc | hc | hc <;> try subst hc
    all_goals mv_close
  · unfold matvecCSD kernelCDN
    rw [scaleArray_apply _ _ hs]
    mv_open
    mv_close

/-- **C69** `CSDSDmat`, numpy. -/
theorem C69_CSDSD_self (N : ℕ) (hN : 3 ≤ N) (ks s : ℝ) (hs : ScaleOK s) (v : ℕ → ℝ) :
    IsFormProduct (chebForm 1) (chebSD N) (chebSD N) (N-2) (N-2) (s * ks) v (matvecCSDSDself (N-2) ⟨ChebMat.CSDSD N, ks, s⟩ v) := by
  refine cheb_product 1 _ _ _ _ _ (C28_cheb_CSDSD N) _ _ _ (fun i hi => ?_) fun i hi => ?_
  · unfold matvecCSDSDself  ChebMat.CSDSD
    rw [scaleArray_apply _ _ hs]
    mv_open
    split_ifs <;> first | omega | ring | mv_close
  · unfold matvecCSDSDself 
    rw [scaleArray_apply _ _ hs]
    mv_open
    mv_close

/-- **C69** `CSBSDmat`, compiled. -/
theorem C69_CSBSD (N : ℕ) (hN : 6 ≤ N) (ks s : ℝ) (hs : ScaleOK s) (v : ℕ → ℝ) :
    IsFormProduct (chebForm 1) (chebSB N) (chebSD N) (N-4) (N-2) (s * ks) v (matvecCSBSD (N-5) ⟨ChebMat.CSBSD N, ks, s⟩ v) := by
  refine cheb_product 1 _ _ _ _ _ (C28_cheb_CSBSD N) _ _ _ (fun i hi => ?_) fun i hi => ?_
  · unfold matvecCSBSD kernelCBD ChebMat.CSBSD
    rw [scaleArray_apply _ _ hs]
    mv_open
    rcases (by omega : i = 0 ∨ (1 ≤ i ∧ i < N-5) ∨ i = N-5) with hc | hc | hc <;> try subst hc
    all_goals mv_close
  · unfold matvecCSBSD kernelCBD
    rw [scaleArray_apply _ _ hs]
    mv_open
    mv_close

/-- **C69** `CSBSDmat`, numpy. -/
theorem C69_CSBSD_self (N : ℕ) (hN : 5 ≤ N) (ks s : ℝ) (hs : ScaleOK s) (v : ℕ → ℝ) :
    IsFormProduct (chebForm 1) (chebSB N) (chebSD N) (N-4) (N-2) (s * ks) v (matvecCSBSDself (N-4) ⟨ChebMat.CSBSD N, ks, s⟩ v) := by
  refine cheb_product 1 _ _ _ _ _ (C28_cheb_CSBSD N) _ _ _ (fun i hi => ?_) fun i hi => ?_
  · unfold matvecCSBSDself  ChebMat.CSBSD
    rw [scaleArray_apply _ _ hs]
    mv_open
    split_ifs <;> first | omega | ring | mv_close
  · unfold matvecCSBSDself 
    rw [scaleArray_apply _ _ hs]
    mv_open
    mv_close

/-- **C69** `CSDSBmat`, compiled. -/
theorem C69_CSDSB (N : ℕ) (hN : 8 ≤ N) (ks s : ℝ) (hs : ScaleOK s) (v : ℕ → ℝ) :
    IsFormProduct (chebForm 1) (chebSD N) (chebSB N) (N-2) (N-4) (s * ks) v (matvecCSDSB (N-5) ⟨ChebMat.CSDSB N, ks, s⟩ v) := by
  refine cheb_product 1 _ _ _ _ _ (C28_cheb_CSDSB N) _ _ _ (fun i hi => ?_) fun i hi => ?_
  · unfold matvecCSDSB kernelCDB ChebMat.CSDSB
    rw [scaleArray_apply _ _ hs]
    mv_open
    rcases (by omega : i = 0 ∨ i = 1 ∨ i = 2 ∨ (3 ≤ i ∧ i < N-5) ∨ i = N-5 ∨ i = N-5+1 ∨ i = N-5+2) with hc | hc | hc | hc | hc | hc | hc <;> try subst hc
    all_goals try simp only [show N - 5 + 2 - 3 = N - 5 - 1 by omega]
    all_goals mv_close
  · unfold matvecCSDSB kernelCDB
    rw [scaleArray_apply _ _ hs]
    mv_open
    mv_close

/-- **C69** `CSDSBmat`, numpy. -/
theorem C69_CSDSB_self (N : ℕ) (hN : 5 ≤ N) (ks s : ℝ) (hs : ScaleOK s) (v : ℕ → ℝ) :
    IsFormProduct (chebForm 1) (chebSD N) (chebSB N) (N-2) (N-4) (s * ks) v (matvecCSDSBself (N-2) ⟨ChebMat.CSDSB N, ks, s⟩ v) := by
  refine cheb_product 1 _ _ _ _ _ (C28_cheb_CSDSB N) _ _ _ (fun i hi => ?_) fun i hi => ?_
  · unfold matvecCSDSBself  ChebMat.CSDSB
    rw [scaleArray_apply _ _ hs]
    mv_open
    split_ifs <;> first | omega | ring | mv_close
  · unfold matvecCSDSBself 
    rw [scaleArray_apply _ _ hs]
    mv_open
    mv_close

/-- **C69** `ASBSBmat`, compiled. -/
theorem C69_ASBSB (N : ℕ) (hN : 8 ≤ N) (ks s : ℝ) (hs : ScaleOK s) (v : ℕ → ℝ) :
    IsFormProduct (chebForm 2) (chebSB N) (chebSB N) (N-4) (N-4) (s * ks) v (matvecASBSB (N-4) ⟨ChebMat.ASBSB N, ks, s⟩ v) := by
  refine cheb_product 2 _ _ _ _ _ (C28_cheb_ASBSB N) _ _ _ (fun i hi => ?_) fun i hi => ?_
  · unfold matvecASBSB kernelTridiagonal ChebMat.ASBSB
    rw [scaleArray_apply _ _ hs]
    mv_open
    rcases (by omega : i = 0 ∨ i = 1 ∨ (2 ≤ i ∧ i < N-4-2) ∨ i = N-4-2 ∨ i = N-4-1) with hc | hc | hc | hc | hc <;> try subst hc
    all_goals mv_close
  · unfold matvecASBSB kernelTridiagonal
    rw [scaleArray_apply _ _ hs]
    mv_open
    mv_close

/-- **C69** `ASBSBmat`, numpy. -/
theorem C69_ASBSB_self (N : ℕ) (hN : 6 ≤ N) (ks s : ℝ) (hs : ScaleOK s) (v : ℕ → ℝ) :
    IsFormProduct (chebForm 2) (chebSB N) (chebSB N) (N-4) (N-4) (s * ks) v (matvecASBSBself (N-4) ⟨ChebMat.ASBSB N, ks, s⟩ v) := by
  refine cheb_product 2 _ _ _ _ _ (C28_cheb_ASBSB N) _ _ _ (fun i hi => ?_) fun i hi => ?_
  · unfold matvecASBSBself  ChebMat.ASBSB
    rw [scaleArray_apply _ _ hs]
    mv_open
    split_ifs <;> first | omega | ring | mv_close
  · unfold matvecASBSBself 
    rw [scaleArray_apply _ _ hs]
    mv_open
    mv_close



end SpecMat

end Shenfun
