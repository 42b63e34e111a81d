import Verif.Model.Axis

/-!
# `BlockMatrix`, `/repo/shenfun/matrixbase.py:898-1273`

A `BlockMatrix` holds, for every pair (test component, trial component), a list of references to `TPMatrix` objects
of the heap of Model/TP (the integer 0 of line 980 is the empty list). Not modelled: the assertion that
`get_simplified_tpmatrices` is only used for `TPMatrix` input (the flag `simp` is line 974-975), boundary matrices
(C17), the conversion to one scipy matrix (`bmat`), MPI.
-/

namespace Shenfun

variable {K : Type*} [Field K] {D : ℕ}

/-- `self.mats`, `/repo/shenfun/matrixbase.py:980`. -/
abbrev BM := ℕ → ℕ → List ℕ

namespace BM

/-- `np.zeros(dims, dtype=int).tolist()`, `/repo/shenfun/matrixbase.py:980`. -/
def empty : BM := fun _ _ => []

/-- One pass of the loops of `BlockMatrix.__iadd__`, `/repo/shenfun/matrixbase.py:1004-1018`: `mergeStep` is the
common pattern "add to every equal matrix, append if there is none" of lines 1007-1018 and 1668-1675; for an empty
block it gives `[m]` (line 1008-1009). A matrix without `global_index` (a TypeError in the code) is skipped. -/
noncomputable def addMat (s : Heap D K × BM) (m : ℕ) : Heap D K × BM :=
  match (s.1.obj m).gidx with
  | none => s
  | some (i, j) =>
    let t := Heap.mergeStep (s.1, s.2 i j) m
    (t.1, fun i' j' => if i' = i ∧ j' = j then t.2 else s.2 i' j')

/-- `BlockMatrix.__iadd__`, `/repo/shenfun/matrixbase.py:989-1018`, effect on `self` and on the heap. -/
noncomputable def iadd (s : Heap D K × BM) (R : List ℕ) : Heap D K × BM := R.foldl addMat s

/-- `BlockMatrix.__init__`, `/repo/shenfun/matrixbase.py:971-983`. `simp` is the test
`len(tpmats[0].naxes) > 0` of line 974. -/
noncomputable def init (h : Heap D K) (simp : Bool) (R : List ℕ) : Heap D K × BM :=
  let s := if simp then h.getSimplifiedTpmatrices R else (h, R)
  iadd (s.1, empty) s.2

/-- `BlockMatrix.get_mats`, `/repo/shenfun/matrixbase.py:1020-1037`, `r` by `c` blocks. -/
def getMats (r c : ℕ) (B : BM) : List ℕ := (List.range r).flatMap fun i => (List.range c).flatMap fun j => B i j

/-- `BlockMatrix.__add__`, `/repo/shenfun/matrixbase.py:985-987`. -/
noncomputable def add (h : Heap D K) (simp : Bool) (r c : ℕ) (A B : BM) : Heap D K × BM :=
  init h simp (getMats r c A ++ getMats r c B)

/-- `BlockMatrix.matvec` with `use_scipy=False`, `/repo/shenfun/matrixbase.py:1106-1118`: component `i` of the
result; `c` trial components. -/
noncomputable def matvec (h : Heap D K) (B : BM) (c : ℕ) (pencil : Bool) (v : ℕ → (Fin D → ℕ) → K) (i : ℕ)
    (I : Fin D → ℕ) : K :=
  ((List.range c).map fun j => ((B i j).map fun m => (h.obj m).matvec pencil (v j) I).sum).sum

end BM

/-- A `BlockMatrix` with its cache `_Ai`, `/repo/shenfun/matrixbase.py:981`. The cached scipy matrix is
represented by the entries it had when it was assembled. -/
structure BMObj (D : ℕ) (K : Type*) where
  heap : Heap D K
  blk : BM
  Ai : Option (ℕ → ℕ → (Fin D → ℕ) → (Fin D → ℕ) → K)

namespace BMObj

/-- `BlockMatrix.assemble`, `/repo/shenfun/matrixbase.py:1141-1166`: nothing is done if `_Ai` exists. `entries` is
what `diags` computes from the current matrices. -/
def assemble (entries : Heap D K → List ℕ → (Fin D → ℕ) → (Fin D → ℕ) → K) (b : BMObj D K) : BMObj D K :=
  match b.Ai with
  | some _ => b
  | none => { b with Ai := some fun i j => entries b.heap (b.blk i j) }

/-- `BlockMatrix.__iadd__` leaves `_Ai` (and `solver`) alone, `/repo/shenfun/matrixbase.py:989-1018`. The method
has no return statement: the second component is its return value, which the statement `A += B` assigns to `A`. -/
noncomputable def iadd (b : BMObj D K) (R : List ℕ) : BMObj D K × Option (BMObj D K) :=
  let s := BM.iadd (b.heap, b.blk) R
  ({ b with heap := s.1, blk := s.2 }, none)

end BMObj

end Shenfun
