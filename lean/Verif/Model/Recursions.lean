import Verif.Model.Boundary
import Mathlib.Analysis.SpecialFunctions.Gamma.Beta

/-!
# Norms and recursion matrices of the Jacobi families

`/repo/shenfun/jacobi/recursions.py` and the `L2_norm_sq` methods of the families.  Exact real arithmetic replaces
`float` and sympy.
-/

namespace Shenfun

open Polynomial Spec

/-! ## Norms -/

/-- `sp.rf(x, y)` for a second argument that is not a natural number. -/
noncomputable def rfReal (x y : ℝ) : ℝ := Real.Gamma (x + y) / Real.Gamma x

/-- `psi`, `/repo/shenfun/jacobi/recursions.py:294-310`. -/
noncomputable def psiF (alf bet : ℝ) (n k : ℕ) : ℝ := rf (n + alf + bet + 1) k / 2 ^ k

/-- `gamma`, `/repo/shenfun/jacobi/recursions.py:343-359`.  The code gives `nan` when `n = 0` and `alf + bet = -1`;
the value of this function is then meaningless. -/
noncomputable def gammaF (alf bet : ℝ) (n : ℕ) : ℝ :=
  rfReal (n + 1) alf / rfReal (n + bet + 1) alf * (2:ℝ) ^ (alf + bet + 1) / (2 * n + alf + bet + 1)

/-- `h`, `/repo/shenfun/jacobi/recursions.py:361-384`, with the scaling function already applied to the parameters. -/
noncomputable def hF (alf bet : ℝ) (n k : ℕ) (gn : ℕ → ℝ) : ℝ :=
  gn n ^ 2 * (gammaF (alf + k) (bet + k) (n - k) * psiF alf bet n k ^ 2)

/-- `chebyshev.bases.Orthogonal.L2_norm_sq`, `/repo/shenfun/chebyshev/bases.py:268-269`. -/
noncomputable def chebL2 (i : ℕ) : ℝ := (1 + if i = 0 then 1 else 0) * Real.pi / 2

/-- `chebyshevu.bases.Orthogonal.L2_norm_sq`, `/repo/shenfun/chebyshevu/bases.py:178-179`. -/
noncomputable def chebuL2 (_ : ℕ) : ℝ := Real.pi / 2

/-- `legendre.bases.Orthogonal.L2_norm_sq`, `/repo/shenfun/legendre/bases.py:154-155`. -/
noncomputable def legL2 (i : ℕ) : ℝ := 2 / (2 * i + 1)

/-- `jacobi.bases.JacobiBase.L2_norm_sq`, `/repo/shenfun/jacobi/bases.py:47-48`, `gn = 1`. -/
noncomputable def jacobiL2 (alf bet : ℝ) (i : ℕ) : ℝ := hF alf bet i 0 fun _ => 1

/-- `ultraspherical.bases.Orthogonal.L2_norm_sq`, `/repo/shenfun/ultraspherical/bases.py:165-168`; the simplification
at `i = 0` cancels the factor `2 alfa + 1`. -/
noncomputable def ultraL2 (a : ℝ) (i : ℕ) : ℝ :=
  if i = 0 then (2:ℝ) ^ (a + a + 1) * (Real.Gamma (a + 1) * Real.Gamma (a + 1) / Real.Gamma (a + a + 2))
  else hF a a i 0 (cnF a a)

/-- `gegenbauer.bases.Orthogonal.L2_norm_sq`, `/repo/shenfun/gegenbauer/bases.py:178-183`. -/
noncomputable def gegenL2 (a : ℝ) (i : ℕ) : ℝ :=
  if i = 0 then (2:ℝ) ^ (a + a + 1) * (Real.Gamma (a + 1) * Real.Gamma (a + 1) / Real.Gamma (a + a + 2))
  else hF a a i 0 (wnF a)


/-! ## Recursion matrices -/

/-- `sp.KroneckerDelta(i, j)`. -/
def kdelta (i j : ℤ) : ℝ := if i = j then 1 else 0

/-- `_a`, `/repo/shenfun/jacobi/recursions.py:180-187`.  The entries `(0,0)` and `(1,0)` have removable singularities at
`alf + bet = 0` and `alf + bet = -1`; they are given in cancelled form (the code substitutes the index first, so that
sympy cancels the common factor; `C52` states for which parameters it does not). -/
noncomputable def aEntry (alf bet : ℝ) (i j : ℤ) : ℝ :=
  if i = 0 ∧ j = 0 then -((alf - bet) / (alf + bet + 2))
  else if i = 1 ∧ j = 0 then 2 / (alf + bet + 2)
  else
    2 * (j + alf) * (j + bet) / ((2 * j + alf + bet + 1) * (2 * j + alf + bet)) * kdelta (i + 1) j -
    (alf ^ 2 - bet ^ 2) / ((2 * j + alf + bet + 2) * (2 * j + alf + bet)) * kdelta i j +
    2 * (j + 1) * (j + alf + bet + 1) / ((2 * j + alf + bet + 2) * (2 * j + alf + bet + 1)) * kdelta (i - 1) j

/-- `_b`, `/repo/shenfun/jacobi/recursions.py:189-195`.  The factor `alf + bet` of the diagonal and the factor
`alf + bet + 1` of entry `(1,0)` are cancelled. -/
noncomputable def bEntry (alf bet : ℝ) (i j : ℤ) : ℝ :=
  if i = 1 ∧ j = 0 then 2 / (alf + bet + 2)
  else
    2 * (i + alf + bet) / ((2 * i + alf + bet) * (2 * i + alf + bet - 1)) * kdelta i (j + 1) +
    -(2 * (i + alf + 1) * (i + bet + 1) / ((2 * i + alf + bet + 3) * (2 * i + alf + bet + 2) * (i + alf + bet + 1))) *
      kdelta i (j - 1) +
    2 * (alf - bet) / ((2 * i + alf + bet + 2) * (2 * i + alf + bet)) * kdelta i j

/-- `_c`, `/repo/shenfun/jacobi/recursions.py:197-203`. -/
noncomputable def cEntry (alf bet : ℝ) (i j : ℤ) : ℝ :=
  2 * (i + alf + 1) * (i + bet + 1) * (i + alf + bet + 2) / ((2 * i + alf + bet + 2) * (2 * i + alf + bet + 3)) *
    kdelta i (j - 1) -
  2 * (i - 1) * i * (i + alf + bet) / ((2 * i + alf + bet - 1) * (2 * i + alf + bet)) * kdelta i (j + 1) +
  2 * i * (alf - bet) * (i + alf + bet + 1) / ((2 * i + alf + bet) * (2 * i + alf + bet + 2)) * kdelta i j

/-- `d2` of `_matpow`, `/repo/shenfun/jacobi/recursions.py:415-419`. -/
noncomputable def d2 (mat m2 : ℤ → ℤ → ℝ) (i j : ℤ) : ℝ :=
  mat i (i - 1) * m2 (i - 1) j + mat i i * m2 i j + mat i (i + 1) * m2 (i + 1) j

/-- `_matpow`, `/repo/shenfun/jacobi/recursions.py:407-424`. -/
noncomputable def matpowAux (mat : ℤ → ℤ → ℝ) : (ℤ → ℤ → ℝ) → ℕ → ℤ → ℤ → ℝ
  | _, 0 => kdelta
  | _, 1 => mat
  | m2, 2 => d2 mat m2
  | m2, q + 3 => matpowAux mat (d2 mat m2) (q + 2)

/-- `matpow(mat, q, alf, bet, i, j, gn)`, `/repo/shenfun/jacobi/recursions.py:386-405` (without `assert q < 7`). -/
noncomputable def matpow (mat : ℤ → ℤ → ℝ) (q : ℕ) (gn : ℕ → ℝ) (i j : ℤ) : ℝ :=
  gn j.toNat / gn i.toNat * matpowAux mat mat q i j

/-- Storage of a diagonal of a matrix given by its entries: position `t` of offset `k` is `(t, t+k)` for `k ≥ 0`,
`(t-k, t)` for `k < 0` (the index arithmetic of `/repo/shenfun/jacobi/recursions.py:456-487`). -/
def diagOf (e : ℤ → ℤ → ℝ) (k : ℤ) : ℕ → ℝ := fun t => if 0 ≤ k then e t (t + k) else e (t - k) t

/-- The offsets `range(-q, q+1)`, `/repo/shenfun/jacobi/recursions.py:453`. -/
def offsets (q : ℕ) : List ℤ := (List.range (2 * q + 1)).map fun i : ℕ => (i : ℤ) - (q : ℤ)

/-- `pmat(mat, q, alf, bet, M, N, gn)` for `mat = a` or `c`, `/repo/shenfun/jacobi/recursions.py:429-489`.  Diagonals
whose expression is zero are left out by the code and kept here; the cache is not modelled. -/
noncomputable def pmat (mat : ℤ → ℤ → ℝ) (q : ℕ) (gn : ℕ → ℝ) (M N : ℕ) : SM ℝ :=
  SM.new ((offsets q).map fun k => (k, diagOf (matpow mat q gn) k)) M N 1

/-- `pmat` for `mat = b`: the rows below `q` are zero, `/repo/shenfun/jacobi/recursions.py:460-465, 472-479`. -/
noncomputable def pmatB (alf bet : ℝ) (q : ℕ) (gn : ℕ → ℝ) (M N : ℕ) : SM ℝ :=
  SM.new ((offsets q).map fun k =>
    (k, diagOf (fun i j => if i < q then 0 else matpow (bEntry alf bet) q gn i j) k)) M N 1

/-- Lower diagonal of `pmat(a, 1, alf, bet, M, N)` when `alf + bet = -1` and not both are `-1/2`,
`/repo/shenfun/jacobi/recursions.py:455-458, 487`: row `m` of the substituted expression
`2 m (m-1) / ((2m-1) (2m-2))` is simplified to `m / (2m-1)` before `m = t + 1` is inserted. -/
noncomputable def aLowerSimplified (t : ℕ) : ℝ := (t + 1) / (2 * (t + 1) - 1)

/-- `a_(k, q, alf, bet, i, j, gn)`, `/repo/shenfun/jacobi/recursions.py:312-341`. -/
noncomputable def aUnder (k q : ℕ) (alf bet : ℝ) (gn : ℕ → ℝ) (i j : ℤ) : ℝ :=
  gn j.toNat / gn i.toNat * (psiF alf bet j.toNat k / psiF alf bet i.toNat k *
    matpowAux (aEntry (alf + k) (bet + k)) (aEntry (alf + k) (bet + k)) q (i - k) (j - k))

/-- `a_mat(a_, k, q, alf, bet, M, N, gn)`, `/repo/shenfun/jacobi/recursions.py:493-543`: the first `k` positions of every
diagonal stay zero. -/
noncomputable def aMat (k q : ℕ) (alf bet : ℝ) (gn : ℕ → ℝ) (M N : ℕ) : SM ℝ :=
  SM.new ((offsets q).map fun o => (o, fun t => if t < k then 0 else diagOf (aUnder k q alf bet gn) o t)) M N 1

/-- `ShiftedMatrix` of a `SparseMatrix` with the final shape `(M, N)`, `/repo/shenfun/jacobi/recursions.py:578-598`. -/
def shifted (A : SM ℝ) (r s M N : ℕ) : SM ℝ :=
  SM.new (A.diags.map fun d =>
    let nkey := d.1 + (r:ℤ) - (s:ℤ)
    let j := max ((r:ℤ) + min d.1 0) (s - max d.1 0)
    (nkey, fun t => d.2 ((t:ℤ) + j).toNat)) M N 1

/-- Dense entry of a `SparseMatrix` within its shape (`.diags('csr')`). -/
noncomputable def SM.denseAt (A : SM ℝ) (i j : ℕ) : ℝ :=
  if i < A.rows ∧ j < A.cols then A.scale * diagsEntry A.diags i j else 0

/-- `Lmat(k, q, l, M, N, alf, bet, gn)`, `/repo/shenfun/jacobi/recursions.py:600-644`: entry `(m, n)` of the returned
csr matrix; sparse products are sums over the inner dimension. -/
noncomputable def Lmat (k q l M N : ℕ) (alf bet : ℝ) (gn : ℕ → ℝ) (m n : ℕ) : ℝ :=
  let A := shifted (aMat k q alf bet gn (M + max k k) (N + max k k)) k k M N
  let I : ℕ → ℕ → SM ℝ := fun M N => SM.new [((k:ℤ), fun _ => 1)] M N 1
  if l = 0 ∧ q = 0 then (I M N).denseAt m n
  else if l = 0 then ∑ i ∈ Finset.range N, A.denseAt m i * (I N N).denseAt i n
  else if q = 0 then (shifted (pmatB alf bet l gn (M + max k 0) (N + max k 0)) k 0 M N).denseAt m n
  else ∑ i ∈ Finset.range N, A.denseAt m i *
    (shifted (pmatB alf bet l gn (N + max k 0) (N + max k 0)) k 0 N N).denseAt i n

end Shenfun
