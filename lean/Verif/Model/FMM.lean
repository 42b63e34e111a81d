import Verif.Model.Leg2Cheb
import Mathlib.RingTheory.Polynomial.Chebyshev

/-!
# The hierarchical (fast multipole) conversion between Legendre and Chebyshev coefficients

`/repo/shenfun/optimization/cython/transforms.pyx:384-413, 662-1098`,
`/repo/shenfun/optimization/cython/leg2chebm.pyx:16-260` and `/repo/shenfun/legendre/dlt.py:762-1360`.

Simplifications.  Exact real arithmetic; one line of a multidimensional array at a time.  A flattened work array
`wk[level][(block*D[level]+q)*Mmax + n]` is `wk level (block*D level+q) n`.  The low-rank coefficient matrices, stored one
after another in `fk` (sizes in `Nk`) in the order (level descending, block, q, p) in which `getChebyshev` appends them and
`FMMcheb` reads them (`ik`, `Nc`), are `A level block q p` of size `Nk level block q p`.
-/

namespace Shenfun

variable {E : Type*} [AddCommGroup E] [Module ℝ E]

/-- Attributes of an `FMMLevel` object, `/repo/shenfun/optimization/cython/leg2chebm.pyx:29-124`. -/
structure FMMLevel where
  L : ℕ
  D : ℕ → ℕ
  s : ℕ
  diags : ℕ
  Mmin : ℕ → ℕ
  Nk : ℕ → ℕ → ℕ → ℕ → ℕ
  A : ℕ → ℕ → ℕ → ℕ → ℕ → ℕ → ℝ
  /-- `Th`, by number of domains `d` and subdomain `q` (`Th[s1+q]`, `s1` the offset of `d`). -/
  Th : ℕ → ℕ → ℕ → ℕ → ℝ

namespace FMMLevel

variable (F : FMMLevel)

/-- `get_h`, `/repo/shenfun/optimization/cython/transforms.pyx:379-386`, `/repo/shenfun/legendre/dlt.py:961-963`. -/
def getH (level : ℕ) : ℕ := forN (fun i h => h * F.D (level + 1 + i)) 1 (F.L - (level + 1))

/-- `get_number_of_blocks`, `/repo/shenfun/optimization/cython/transforms.pyx:388-399`,
`/repo/shenfun/legendre/dlt.py:965-967`. -/
def nBlocks (level : ℕ) : ℕ :=
  forN (fun i s => s + forN (fun j nd => nd * F.D (level - j - 1)) 1 (i + 1)) 1 level

/-- First component of `get_ij`, `/repo/shenfun/optimization/cython/transforms.pyx:409-415`,
`/repo/shenfun/legendre/dlt.py:954-959`. -/
def rowStart (level block : ℕ) : ℕ := block * F.D level * F.s * F.getH level

/-- Second component of `get_ij`, the same lines. -/
def colStart (level block : ℕ) : ℕ :=
  forN (fun i j0 => j0 + F.s * F.getH (level + 1 + i)) (F.diags + F.rowStart level block) (F.L - (level + 1))

/-- `Nn//2`: half the padded length, `/repo/shenfun/optimization/cython/leg2chebm.pyx:93-103` and
`/repo/shenfun/legendre/dlt.py:887-888`. -/
def half : ℕ := F.diags + F.s * F.nBlocks F.L

/-- `T[odd][t, n]`: `chebvander(linspace(-1, 1, 2*s+1)[:-1], …)` split by parity,
`/repo/shenfun/optimization/cython/leg2chebm.pyx:121-124`. -/
noncomputable def T (odd t n : ℕ) : ℝ :=
  (Polynomial.Chebyshev.T ℝ n).eval (-1 + ((2 * t + odd : ℕ) : ℝ) / F.s)

end FMMLevel

/-- The pair of work arrays `wk`, `ck` (level, cell, mode), `/repo/shenfun/optimization/cython/transforms.pyx:743-746`. -/
structure FMMWork (E : Type*) where
  wk : ℕ → ℕ → ℕ → E
  ck : ℕ → ℕ → ℕ → E

/-- `a[l][c][:] += g`. -/
def cellAdd (v : ℕ → ℕ → ℕ → E) (l c : ℕ) (g : ℕ → E) : ℕ → ℕ → ℕ → E :=
  fun l' c' n => if l' = l ∧ c' = c then v l' c' n + g n else v l' c' n

/-- `a[l][c][:M] = g[:M]`. -/
def cellSet (v : ℕ → ℕ → ℕ → E) (l c M : ℕ) (g : ℕ → E) : ℕ → ℕ → ℕ → E :=
  fun l' c' n => if l' = l ∧ c' = c ∧ n < M then g n else v l' c' n

/-- `_matvec`/`_matvecadd` increment with `transpose == 0`: rows `i < m`, columns `j < n`,
`/repo/shenfun/optimization/cython/transforms.pyx:61-100`. -/
def mv (A : ℕ → ℕ → ℝ) (x : ℕ → E) (m n : ℕ) : ℕ → E :=
  fun i => if i < m then ∑ j ∈ Finset.range n, A i j • x j else 0

/-- `_matvecadd` increment with `transpose == 1` (`b[j] += x[i]*A[i][j]`), the same lines. -/
def mvT (A : ℕ → ℕ → ℝ) (x : ℕ → E) (m n : ℕ) : ℕ → E :=
  fun j => if j < n then ∑ i ∈ Finset.range m, A i j • x i else 0

/-- `_matvectri` with `lower == 0`, `/repo/shenfun/optimization/cython/transforms.pyx:102-117`. -/
def mvLow (A : ℕ → ℕ → ℝ) (x : ℕ → E) (m : ℕ) : ℕ → E :=
  fun i => if i < m then ∑ j ∈ Finset.range (i + 1), A i j • x j else 0

/-- `_matvectri` with `lower == 1` and the transposed matrix, `/repo/shenfun/optimization/cython/transforms.pyx:118-126`;
`A i j` is an entry of the matrix before transposition. -/
def mvUp (A : ℕ → ℕ → ℝ) (x : ℕ → E) (m : ℕ) : ℕ → E :=
  fun i => if i < m then ∑ j ∈ Finset.range (m - i), A (i + j) i • x (i + j) else 0

namespace FMMLevel

variable (F : FMMLevel)

/-- One pass of the innermost three loops of the upward sweep with `trans == 0`,
`/repo/shenfun/optimization/cython/transforms.pyx:774-787`. -/
noncomputable def upStep (odd : ℕ) (cia : ℕ → E) (level block q : ℕ) (w : FMMWork E) : FMMWork E :=
  let cell := block * F.D level + q
  let w : FMMWork E := if level = F.L - 1 then
      ⟨cellSet w.wk level cell (F.Mmin level)
          (mvT (F.T odd) (fun t => cia (F.colStart level block + (q + 1) * F.s + t)) F.s (F.Mmin level)), w.ck⟩
    else w
  let w : FMMWork E := if level > 0 ∧ block > 0 then
      ⟨cellAdd w.wk (level - 1)
          ((block - 1) / F.D (level - 1) * F.D (level - 1) + (block - 1) % F.D (level - 1))
          (mvLow (F.Th (F.D level) q) (w.wk level cell) (F.Mmin level)), w.ck⟩
    else w
  forN (fun p w => ⟨w.wk, cellAdd w.ck level (block * F.D level + p)
      (mv (F.A level block q p) (w.wk level cell) (F.Nk level block q p) (F.Nk level block q p))⟩) w (q + 1)

/-- The same with `trans == 1`, `/repo/shenfun/optimization/cython/transforms.pyx:836-848`; `p` here counts the outer of the
two loops. -/
noncomputable def upStepT (odd : ℕ) (cia : ℕ → E) (level block p : ℕ) (w : FMMWork E) : FMMWork E :=
  forN (fun q w =>
    let cell := block * F.D level + q
    let w : FMMWork E := if q = p then
        let w : FMMWork E := if level = F.L - 1 then
            ⟨cellAdd w.wk level cell
                (mvT (F.T odd) (fun t => cia (F.rowStart level block + q * F.s + t)) F.s (F.Mmin level)), w.ck⟩
          else w
        if level > 0 ∧ block < F.nBlocks level - 1 then
          ⟨cellAdd w.wk (level - 1) (block / F.D level * F.D level + block % F.D level)
              (mvLow (F.Th (F.D level) q) (w.wk level cell) (F.Mmin level)), w.ck⟩
        else w
      else w
    ⟨w.wk, cellAdd w.ck level (block * F.D level + p)
        (mvT (F.A level block p q) (w.wk level cell) (F.Nk level block p q) (F.Nk level block p q))⟩) w (p + 1)

/-- The upward sweep `for level in range(L-1, -1, -1): for block …`,
`/repo/shenfun/optimization/cython/transforms.pyx:763-787, 825-848`. -/
noncomputable def upSweep (trans : Bool) (odd : ℕ) (cia : ℕ → E) : FMMWork E :=
  forN (fun t w => forN (fun block w => forN
      ((if trans then F.upStepT odd cia else F.upStep odd cia) (F.L - 1 - t) block) w (F.D (F.L - 1 - t)))
    w (F.nBlocks (F.L - 1 - t))) ⟨fun _ _ _ => 0, fun _ _ _ => 0⟩ F.L

/-- The downward sweep, `/repo/shenfun/optimization/cython/transforms.pyx:789-800` (`trans == 0`; the running index `j1` is
`block*D[level+1]+p`) and `850-860`. -/
noncomputable def downSweep (trans : Bool) (ck : ℕ → ℕ → ℕ → E) : ℕ → ℕ → ℕ → E :=
  forN (fun level ck =>
    if trans then
      forN (fun b ck => forN (fun p ck => cellAdd ck (level + 1) ((b + 1) * F.D (level + 1) + p)
          (mvUp (F.Th (F.D (level + 1)) p)
            (ck level (b / F.D level * F.D level + b % F.D level)) (F.Mmin level))) ck (F.D (level + 1)))
        ck (F.nBlocks (level + 1) - 1)
    else
      forN (fun b ck => forN (fun p ck => cellAdd ck (level + 1) (b * F.D (level + 1) + p)
          (mvUp (F.Th (F.D (level + 1)) p) (ck level b) (F.Mmin level))) ck (F.D (level + 1)))
        ck (F.nBlocks (level + 1) - 1)) ck (F.L - 1)

/-- `coa[start+t] += Σ_n T[t, n] c[n]` for `t < s`: the last loop,
`/repo/shenfun/optimization/cython/transforms.pyx:801-807, 862-870`. -/
noncomputable def leafOut (trans : Bool) (odd : ℕ) (ck : ℕ → ℕ → ℕ → E) : ℕ → E :=
  forN (fun block coa => forN (fun p coa =>
      let start := if trans then F.colStart (F.L - 1) block + (p + 1) * F.s else F.rowStart (F.L - 1) block + p * F.s
      forN (fun t coa => Function.update coa (start + t) (coa (start + t) +
        ∑ n ∈ Finset.range (F.Mmin (F.L - 1)), F.T odd t n • ck (F.L - 1) (block * F.D (F.L - 1) + p) n)) coa F.s)
    coa (F.D (F.L - 1))) (fun _ => 0) (F.nBlocks (F.L - 1))

/-- `FMMcheb` for one parity: `cia` is the zero-padded half array,
`/repo/shenfun/optimization/cython/transforms.pyx:749-810, 812-873`. -/
noncomputable def chebHalf (trans : Bool) (odd : ℕ) (cia : ℕ → E) : ℕ → E :=
  F.leafOut trans odd (F.downSweep trans (F.upSweep trans odd cia).ck)

/-- `FMMcheb(u, v, …)`: entries `2i+odd < N` of the output, `/repo/shenfun/optimization/cython/transforms.pyx:751-755, 809-810`
(`N//2+(N%2)*(1-odd)` entries of parity `odd`). -/
noncomputable def cheb (N : ℕ) (trans : Bool) (u : ℕ → E) : ℕ → E :=
  fun i => F.chebHalf trans (i % 2) (fun I => if I < N / 2 + (N % 2) * (1 - i % 2) then u (2 * I + i % 2) else 0) (i / 2)

/-- `FMMdirect2(u, v, a, h, Nd, n0, trans)`, `/repo/shenfun/optimization/cython/transforms.pyx:959-998`,
`/repo/shenfun/optimization/numba/transforms.py:339-351`; `n = 2t`. -/
def direct2 (a : ℕ → ℝ) (N h Nd n0 : ℕ) (trans : Bool) (u v : ℕ → E) : ℕ → E :=
  forN (fun k v => forN (fun t v => forN (fun j v =>
      if trans then
        Function.update v (n0 + k * h + 2 * t + j) (v (n0 + k * h + 2 * t + j) +
          (a ((2 * t + n0) / 2) * a (k * h + (n0 + 2 * t) / 2 + j)) • u (k * h + j))
      else
        Function.update v (k * h + j) (v (k * h + j) +
          (a ((2 * t + n0) / 2) * a (k * h + (n0 + 2 * t) / 2 + j)) • u (n0 + k * h + 2 * t + j)))
    v (min (N - (n0 + k * h + 2 * t)) (h - 2 * t))) v ((h + 1) / 2)) v Nd

/-- `FMMdirect3(u, v, dn, a, h, Nd, n0)`, `/repo/shenfun/optimization/cython/transforms.pyx:1022-1051`,
`/repo/shenfun/optimization/numba/transforms.py:355-363`. -/
def direct3 (dn a : ℕ → ℝ) (N h Nd n0 : ℕ) (u v : ℕ → E) : ℕ → E :=
  forN (fun k v => forN (fun t v => forN (fun j v =>
        Function.update v (k * h + j) (v (k * h + j) -
          (dn ((2 * t + n0) / 2) * a (k * h + (n0 + 2 * t) / 2 + j)) • u (n0 + k * h + 2 * t + j)))
    v (min (N - (n0 + k * h + 2 * t)) (h - 2 * t))) v ((h + 1) / 2)) v Nd

/-- `Leg2Cheb.apply`, `/repo/shenfun/optimization/cython/leg2chebm.pyx:180-184`, `/repo/shenfun/legendre/dlt.py:1074-1077`
(the two direct parts in the other order). -/
noncomputable def applyL2C (N : ℕ) (trans : Bool) (u : ℕ → E) : ℕ → E :=
  FMMdirect1 l2cA N F.diags trans u
    (direct2 l2cA N (2 * F.s) (F.nBlocks F.L) (2 * F.diags) trans u (F.cheb N trans u))

/-- `Cheb2Leg.apply`, `/repo/shenfun/optimization/cython/leg2chebm.pyx:246-249`. -/
noncomputable def applyC2L (N : ℕ) (u : ℕ → E) : ℕ → E :=
  FMMdirect4 c2lD c2lA N F.diags u
    (direct3 c2lD c2lA N (2 * F.s) (F.nBlocks F.L) (2 * F.diags) u (F.cheb N false u))

/-- `Leg2Cheb.__call__` for `N > use_direct`, `/repo/shenfun/optimization/cython/leg2chebm.pyx:158-178`. -/
noncomputable def leg2cheb (N : ℕ) (transpose : Bool) (c : ℕ → E) : ℕ → E :=
  if transpose then
    let cv : ℕ → E := fun i => (2 / Real.pi) • c i
    F.applyL2C N true (Function.update cv 0 ((1 / 2 : ℝ) • cv 0))
  else
    let v : ℕ → E := fun i => (2 / Real.pi) • F.applyL2C N false c i
    Function.update v 0 ((1 / 2 : ℝ) • v 0)

/-- `Cheb2Leg.__call__` for `N > use_direct`, `/repo/shenfun/optimization/cython/leg2chebm.pyx:232-244`. -/
noncomputable def cheb2leg (N : ℕ) (c : ℕ → E) : ℕ → E :=
  fun i => ((i:ℝ) + 1 / 2) • F.applyC2L N (c2lIn c) i

/-- `conversionmatrix(D, M)[q, k, m]`, `/repo/shenfun/legendre/dlt.py:1353-1362`: `dct` is the unnormalised type II transform
`2 Σ_j x_j cos(mπ(j+1/2)/M)`. -/
noncomputable def convMat (D M q k m : ℕ) : ℝ :=
  let X : ℕ → ℝ := fun j => Real.cos (((j:ℝ) + 1 / 2) * Real.pi / M)
  let y := 2 * ∑ j ∈ Finset.range M, Real.cos (k * Real.arccos ((X j + 1 + 2 * q - D) / D)) *
    Real.cos (m * (((j:ℝ) + 1 / 2) * Real.pi / M))
  if m = 0 then y / M / 2 else y / M

/-- `Mxy`, `/repo/shenfun/legendre/dlt.py:348`. -/
noncomputable def Mxy (x y : ℝ) : ℝ := Lam ((y - x) / 2) * Lam ((y + x) / 2)

/-- `Lxy`, `/repo/shenfun/legendre/dlt.py:349`. -/
noncomputable def Lxy (x y : ℝ) : ℝ := -1 / (x + y + 1) / (y - x) * Lam ((y - x - 2) / 2) * Lam ((y + x - 1) / 2)

/-- The entry `f[m, n]` of `getChebyshev` for the submatrix with the domains `2*(i0+i*h), …` and `2*(j0+(j+1)*h), …` of length
`2h`, `/repo/shenfun/legendre/dlt.py:818-833`: a two-dimensional type II transform with `Nx` points over `Nx²`, first row and
column halved, zero beyond `Nx`. -/
noncomputable def subCoef (fn : ℝ → ℝ → ℝ) (Nx h r c m n : ℕ) : ℝ :=
  let X : ℕ → ℝ := fun j => Real.cos (((j:ℝ) + 1 / 2) * Real.pi / Nx)
  let map : ℕ → ℝ → ℝ := fun a x => 2 * a + h * (x + 1)
  let f : ℝ := if m < Nx ∧ n < Nx then
      (2 * ∑ j ∈ Finset.range Nx, (2 * ∑ k ∈ Finset.range Nx, fn (map r (X j)) (map c (X k)) *
        Real.cos (n * (((k:ℝ) + 1 / 2) * Real.pi / Nx))) * Real.cos (m * (((j:ℝ) + 1 / 2) * Real.pi / Nx))) / Nx ^ 2
    else 0
  let f := if m = 0 then f / 2 else f
  if n = 0 then f / 2 else f

/-- The object as `FMMLevel.__init__` builds it: the conversion matrices from `conversionmatrix(D, Mmax)` with `Mmax` at least
every `Mmin` (`/repo/shenfun/optimization/cython/leg2chebm.pyx:113-119`), the submatrices from `getChebyshev` with some number of
points `Nx` for each (`Nx`, `Nx2` there). -/
structure Built (F : FMMLevel) (fn : ℝ → ℝ → ℝ) (Mmax : ℕ) (Nx : ℕ → ℕ → ℕ → ℕ → ℕ) : Prop where
  Mmax_ge : ∀ l < F.L, F.Mmin l ≤ Mmax
  Th_eq : ∀ l < F.L, ∀ q < F.D l, F.Th (F.D l) q = convMat (F.D l) Mmax q
  A_eq : ∀ l < F.L, ∀ b < F.nBlocks l, ∀ q < F.D l, ∀ p ≤ q, ∀ m n, F.A l b q p m n =
    subCoef fn (Nx l b q p) (F.s * F.getH l) (F.rowStart l b + p * (F.s * F.getH l))
      (F.colStart l b + (q + 1) * (F.s * F.getH l)) m n

/-- The submatrix size of the Cython class, `/repo/shenfun/optimization/cython/leg2chebm.pyx:93-99`. -/
def cySize (N diags Nd : ℕ) : ℕ :=
  if (N / 2 - diags) % Nd > 0 ∨ N % 2 = 1 then (N / 2 - diags) / Nd + 1 else (N / 2 - diags) / Nd

/-- `np.ceil(N/(2*(1+Nb)))`, the submatrix size and number of diagonals of the Python class,
`/repo/shenfun/legendre/dlt.py:884-891`. -/
def pySize (N Nb : ℕ) : ℕ := (N + (2 * (1 + Nb) - 1)) / (2 * (1 + Nb))

end FMMLevel

end Shenfun
