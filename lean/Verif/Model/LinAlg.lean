import Verif.Np
import Mathlib.Data.Complex.Basic
import Mathlib.LinearAlgebra.Matrix.ConjTranspose
import Mathlib.LinearAlgebra.Matrix.Charpoly.Basic
import Mathlib.LinearAlgebra.Matrix.PosDef
import Mathlib.Analysis.Complex.Basic

/-!
# Contracts of the numerical routines used by PyQCodes

`np.linalg.eigh`, `np.linalg.eigvalsh` and `scipy.linalg.sqrtm` are not modelled: the model takes them as
parameters and the theorems quantify over every routine that meets these contracts, with exact arithmetic.
-/

namespace PyQ

open Matrix Polynomial
open scoped ComplexOrder

/-- A routine like `np.linalg.eigh`: eigenvalues and the matrix whose columns are eigenvectors.
(codes.py 292, 298; chan/_choi.py 270; chan/param.py 354) -/
abbrev Eigh := Arr ℂ → (ℕ → ℝ) × Arr ℂ

/-- What `np.linalg.eigh` promises: for every Hermitian matrix, real eigenvalues in ascending order and an
orthonormal basis of eigenvectors.  Any such basis is allowed.
(codes.py 292, 298; chan/_choi.py 270; chan/param.py 354) -/
def Eigh.Correct (eigh : Eigh) : Prop :=
  ∀ (A : Arr ℂ) (n : ℕ), A.rows = n → A.cols = n → (A.mat n n).IsHermitian →
    (eigh A).2.rows = n ∧ (eigh A).2.cols = n ∧
    (∀ i j, i ≤ j → j < n → (eigh A).1 i ≤ (eigh A).1 j) ∧
    ((eigh A).2.mat n n)ᴴ * (eigh A).2.mat n n = 1 ∧
    A.mat n n * (eigh A).2.mat n n =
      (eigh A).2.mat n n * Matrix.diagonal fun i : Fin n => ((eigh A).1 i : ℂ)

/-- A routine like `np.linalg.eigvalsh`. (chan/channel.py 523-525) -/
abbrev Eigvalsh := Arr ℂ → ℕ → ℝ

/-- What `np.linalg.eigvalsh` promises: the eigenvalues of a Hermitian matrix, with multiplicity.
(chan/channel.py 523-525) -/
def Eigvalsh.Correct (eig : Eigvalsh) : Prop :=
  ∀ (A : Arr ℂ) (n : ℕ), A.rows = n → A.cols = n → (A.mat n n).IsHermitian →
    (A.mat n n).charpoly = ∏ i : Fin n, (X - C ((eig A i : ℝ) : ℂ))

/-- A routine like `scipy.linalg.sqrtm`. (chan/channel.py 395-396; chan/_choi.py 219) -/
abbrev Sqrtm := Arr ℂ → Arr ℂ

/-- What `scipy.linalg.sqrtm` promises: for a positive semidefinite matrix, its positive semidefinite
square root. (chan/channel.py 395-396; chan/_choi.py 219) -/
def Sqrtm.Correct (sqrtm : Sqrtm) : Prop :=
  ∀ (A : Arr ℂ) (n : ℕ), A.rows = n → A.cols = n → (A.mat n n).PosSemidef →
    (sqrtm A).rows = n ∧ (sqrtm A).cols = n ∧ ((sqrtm A).mat n n).PosSemidef ∧
    (sqrtm A).mat n n * (sqrtm A).mat n n = A.mat n n

end PyQ
