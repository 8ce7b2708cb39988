import Verif.Model.LinAlg
import Mathlib.Analysis.SpecialFunctions.Pow.Real

/-!
# Model of `PyQCodes/chan/param.py`

A one-dimensional numpy array of floats is a `List ℝ`.  Sizes and ranks are natural numbers.  Where the code
divides by a zero trace, numpy returns an array of `nan`; the model returns the error `unmodelled`.

Not modelled: `ParameterizationABC` (lines 52-73, only abstract methods).
-/

namespace PyQ

open scoped ComplexOrder

noncomputable section

/-- `complex(x, y)`. (param.py lines 147-157, 324, 538) -/
def pyComplex (x y : ℝ) : ℂ := ⟨x, y⟩

/-- `[complex(vec[x], vec[x + 1]) for x in range(0, len(vec), 2)]`: `IndexError` if the length is odd.
(param.py lines 324, 538) -/
def complexPairs : List ℝ → Except PyErr (List ℂ)
  | [] => .ok []
  | [_] => .error .index
  | x :: y :: rest => do
    let r ← complexPairs rest
    return pyComplex x y :: r

/-- `product / np.trace(product)` with `product = a a†`, param.py lines 326-328 and 543-544. -/
def normalizedGram (a : Arr ℂ) : Except PyErr (Arr ℂ) :=
  let product : Arr ℂ := a.mul ⟨a.cols, a.rows, fun i j => star (a.get j i)⟩
  let tr := ∑ i ∈ Finset.range product.rows, product.get i i
  if tr = 0 then .error .unmodelled
  else .ok ⟨product.rows, product.cols, fun i j => product.get i j / tr⟩

namespace StandardBasis

/-- `numb_variables(d)`, param.py lines 113-116. -/
def numbVariables (d : ℕ) : ℕ := d ^ 2

/-- `bounds(d)`, param.py lines 118-121. -/
def bounds (d : ℕ) : List (ℝ × ℝ) := List.replicate (numbVariables d) (-1, 1)

/-- The matrix built so far and the `counter` of `rho_from_vec`. (param.py lines 143-159) -/
structure RhoState where
  rho : ℕ → ℕ → ℂ
  counter : ℕ

/-- `m[i, j] += x`. (param.py lines 147-157) -/
def addAt (m : ℕ → ℕ → ℂ) (i j : ℕ) (x : ℂ) : ℕ → ℕ → ℂ :=
  fun p q => if p = i ∧ q = j then m p q + x else m p q

/-- The loop body of `rho_from_vec`, param.py lines 147-159.  The assertion on the length of `vec` keeps the
indices in range, so that the default of `getD` is never read. -/
def rhoStep (vec : List ℝ) (i : ℕ) (s : RhoState) (j : ℕ) : RhoState :=
  let c := s.counter
  let rho := addAt s.rho i j (pyComplex (vec.getD c 0) 0)
  if i = j then ⟨rho, c + 1⟩
  else
    let rho := addAt rho i j (pyComplex 0 (vec.getD (c + 1) 0))
    let rho := addAt rho j i (pyComplex (vec.getD c 0) 0)
    let rho := addAt rho j i (pyComplex 0 (-vec.getD (c + 1) 0))
    ⟨rho, c + 2⟩

/-- `for j in range(i, nrows)`, param.py line 146. -/
def rhoRow (vec : List ℝ) (n : ℕ) (s : RhoState) (i : ℕ) : RhoState :=
  (List.range' i (n - i)).foldl (rhoStep vec i) s

/-- `rho_from_vec(vec, nrows)`, param.py lines 123-161. -/
def rhoFromVec (vec : List ℝ) (n : ℕ) : Except PyErr (Arr ℂ) := do
  pyAssert (vec.length = n * n)
  return ⟨n, n, ((List.range n).foldl (rhoRow vec n) ⟨fun _ _ => 0, 0⟩).rho⟩

/-- The vector built so far and the `counter` of `vec_from_rho`. (param.py lines 183-190) -/
structure VecState where
  vec : ℕ → ℝ
  counter : ℕ

/-- The loop body of `vec_from_rho`, param.py lines 186-190. -/
def vecStep (rho : Arr ℂ) (i : ℕ) (s : VecState) (j : ℕ) : VecState :=
  let s := ⟨Function.update s.vec s.counter (rho.get i j).re, s.counter + 1⟩
  if i ≠ j then ⟨Function.update s.vec s.counter (rho.get i j).im, s.counter + 1⟩ else s

/-- `for j in range(i, nrows)`, param.py line 185. -/
def vecRow (rho : Arr ℂ) (n : ℕ) (s : VecState) (i : ℕ) : VecState :=
  (List.range' i (n - i)).foldl (vecStep rho i) s

/-- `vec_from_rho(rho, nrows)`, param.py lines 163-191. -/
def vecFromRho (rho : Arr ℂ) (n : ℕ) : Except PyErr (List ℝ) := do
  pyAssert (rho.rows = n ∧ rho.cols = n)
  return (List.range (n ^ 2)).map ((List.range n).foldl (vecRow rho n) ⟨fun _ => 0, 0⟩).vec

end StandardBasis

/-- The argument `dist` of `random_vectors`: "normal", "uniform" or anything else. (param.py lines 227, 411) -/
inductive Dist
  | normal
  | uniform
  | other
  deriving DecidableEq

namespace OverParam

/-- `numb_variables(nsize, rank)`, param.py lines 260-264. -/
def numbVariables (nsize rank : ℕ) : ℕ := 2 * rank * nsize

/-- `random_vectors(nsize, rank, dist)`, param.py lines 227-258; `normal` and `uniform` are the streams of
random numbers. -/
def randomVectors (normal uniform : ℕ → ℝ) (nsize rank : ℕ) : Dist → Except PyErr (List ℝ)
  | .normal => .ok ((List.range (numbVariables nsize rank)).map normal)
  | .uniform => .ok ((List.range (numbVariables nsize rank)).map uniform)
  | .other => .error .type

/-- `bounds(nsize, rank)`, param.py lines 266-288. -/
def bounds (nsize rank : ℕ) : List (ℝ × ℝ) := List.replicate (numbVariables nsize rank) (-1, 1)

/-- The end of `rho_from_vec`, param.py lines 323-328. -/
def rhoOfRank (vec : List ℝ) (nsize rank : ℕ) : Except PyErr (Arr ℂ) := do
  let complexVec ← complexPairs vec
  if complexVec.length = nsize * rank then
    normalizedGram ⟨nsize, rank, fun i j => complexVec.getD (i * rank + j) 0⟩
  else .error .value

/-- `rho_from_vec(vec, nsize, rank)`, param.py lines 290-328. -/
def rhoFromVec (vec : List ℝ) (nsize : ℕ) : Option ℕ → Except PyErr (Arr ℂ)
  | some rank => do
    pyAssert (rank ≤ nsize)
    pyAssert (vec.length = 2 * rank * nsize)
    rhoOfRank vec nsize rank
  | none => if nsize = 0 then .error .zeroDivision else rhoOfRank vec nsize (vec.length / (2 * nsize))

/-- `eigs[np.abs(eigs) < 1e-5] = 0`, param.py line 355. -/
def clip (x : ℝ) : ℝ := if |x| < 1 / 10 ^ 5 then 0 else x

/-- The matrix `U sqrt(D)` of the last `rank` eigenvectors, param.py lines 354-359. -/
def factor (eigh : Eigh) (rho : Arr ℂ) (nsize rank : ℕ) : Arr ℂ :=
  let p := eigh rho
  ⟨nsize, rank, fun i j => p.2.get i (nsize - rank + j) * (Real.sqrt (clip (p.1 (nsize - rank + j))) : ℂ)⟩

/-- `vec_from_rho(rho, nsize, rank)`, param.py lines 330-367, for `rank ≤ nsize` and `rho` of shape
`(nsize, nsize)` (the code has no checks). -/
def vecFromRho (eigh : Eigh) (rho : Arr ℂ) (nsize rank : ℕ) : List ℝ :=
  let a := factor eigh rho nsize rank
  (List.range (nsize * rank)).flatMap fun t =>
    [(a.get (t / rank) (t % rank)).re, (a.get (t / rank) (t % rank)).im]

end OverParam

namespace CholeskyParam

/-- `numb_variables(nsize, rank)`, param.py lines 454-457. -/
def numbVariables (nsize rank : ℤ) : ℤ := rank * (rank + 1) + 2 * (nsize - rank) * rank - rank

/-- `random_vectors(nsize, rank, dist, l_bnd, u_bnd)`, param.py lines 410-452.  `normal mean dev` and
`uniform lo hi` are streams of random numbers; numpy raises `ValueError` for a negative size and for a negative
deviation, and `np.max` for an empty array.  If all normal draws for the diagonal are zero, numpy's quotients are `nan`; here
they are zero. -/
def randomVectors (normal uniform : ℝ → ℝ → ℕ → ℝ) (nsize rank : ℕ) (dist : Dist) (l u : ℝ) :
    Except PyErr (List ℝ) := do
  pyAssert (u ≥ 0)
  let rest := numbVariables nsize rank - rank
  match dist with
  | .normal =>
    let eigs := (List.range rank).map fun i => |normal (u / 2) (u / 4) i|
    match eigs.max? with
    | none => .error .value
    | some m =>
      if rest < 0 ∨ u < l then .error .value
      else return eigs.map (· / m) ++
        (List.range rest.toNat).map fun i => normal ((u - l) / 2) ((u - l) / 4) (rank + i)
  | .uniform =>
    if rest < 0 then .error .value
    else return (List.range rank).map (fun i => uniform 0 u i) ++
      (List.range rest.toNat).map fun i => uniform l u (rank + i)
  | .other => .error .type

/-- `bounds(nsize, rank, l_bnd, u_bnd)`, param.py lines 459-492. -/
def bounds (nsize rank : ℕ) (l u : ℝ) : List (ℝ × ℝ) :=
  List.replicate rank (0, u) ++ List.replicate (numbVariables nsize rank - rank).toNat (l, u)

/-- `np.tril_indices(nsize, k=-1, m=rank)`: the positions strictly below the diagonal, row by row.
(param.py lines 540, 587-589) -/
def trilIndices (nsize rank : ℕ) : List (ℕ × ℕ) :=
  (List.range nsize).flatMap fun i => (List.range (min i rank)).map fun j => (i, j)

/-- The Cholesky factor of `rho_from_vec`, param.py lines 535-542.  No position occurs twice in
`tril_indices`, so the fancy assignment puts the `k`-th number at the `k`-th position. -/
def factor (vec : List ℝ) (cvec : List ℂ) (nsize rank : ℕ) : Arr ℂ :=
  ⟨nsize, rank, fun i j =>
    if i = j then (vec.getD i 0 : ℂ)
    else if (i, j) ∈ trilIndices nsize rank then cvec.getD ((trilIndices nsize rank).idxOf (i, j)) 0 else 0⟩

/-- `rho_from_vec(vec, nsize, rank)`, param.py lines 494-544. -/
def rhoFromVec (vec : List ℝ) (nsize : ℕ) (rank : Option ℕ) : Except PyErr (Arr ℂ) := do
  let rank := rank.getD nsize
  pyAssert (1 ≤ rank ∧ rank ≤ nsize)
  pyAssert ((vec.length : ℤ) = numbVariables nsize rank)
  let cvec ← complexPairs (vec.drop rank)
  if cvec.length = (trilIndices nsize rank).length then
    normalizedGram (factor vec cvec nsize rank)
  else .error .value

/-- A routine like `np.linalg.cholesky`. (param.py line 583) -/
abbrev Cholesky := Arr ℂ → Except PyErr (Arr ℂ)

/-- What `np.linalg.cholesky` promises: for a positive definite matrix, the lower triangular factor with
positive diagonal; `LinAlgError` for any other Hermitian matrix. (param.py line 583) -/
def Cholesky.Correct (chol : Cholesky) : Prop :=
  ∀ (A : Arr ℂ) (n : ℕ), A.rows = n → A.cols = n → (A.mat n n).IsHermitian →
    ((A.mat n n).PosDef → ∃ L, chol A = .ok L ∧ L.rows = n ∧ L.cols = n ∧
      L.mat n n * (L.mat n n).conjTranspose = A.mat n n ∧
      (∀ i < n, ∀ j < n, i < j → L.get i j = 0) ∧
      ∀ i < n, 0 < (L.get i i).re ∧ (L.get i i).im = 0) ∧
    (¬ (A.mat n n).PosDef → chol A = .error .linalg)

/-- `vec_from_rho(rho, nsize, rank)`, param.py lines 546-590: the diagonal, then all real parts, then all
imaginary parts.  For `rho` of shape `(nsize, nsize)`. -/
def vecFromRho (chol : Cholesky) (rho : Arr ℂ) (nsize : ℕ) (rank : Option ℕ) : Except PyErr (List ℝ) := do
  let rank := rank.getD nsize
  pyAssert (1 ≤ rank ∧ rank ≤ nsize)
  let L ← chol rho
  return (List.range L.rows).map (fun i => (L.get i i).re) ++
    (trilIndices nsize rank).map (fun p => (L.get p.1 p.2).re) ++
    (trilIndices nsize rank).map (fun p => (L.get p.1 p.2).im)

end CholeskyParam

end

end PyQ
