import Verif.Np
import Mathlib.Data.Complex.Basic
import Mathlib.Algebra.Star.Basic

/-!
# Three- and four-dimensional numpy (and `sparse.COO`) arrays

Nothing here is specific to PyQCodes.  A sparse array is represented by its dense entries: the `sparse`
package only changes the storage.  Numbers are exact complex numbers instead of `complex128`.
-/

namespace PyQ

/-- A three-dimensional array: `shape = (len, rows, cols)` and its entries. -/
structure Arr3 (α : Type) where
  len : ℕ
  rows : ℕ
  cols : ℕ
  get : ℕ → ℕ → ℕ → α

/-- A four-dimensional array. -/
structure Arr4 (α : Type) where
  d0 : ℕ
  d1 : ℕ
  d2 : ℕ
  d3 : ℕ
  get : ℕ → ℕ → ℕ → ℕ → α

namespace Arr3

variable {α : Type}

/-- Equality of arrays: same shape and same entries. -/
def Same (A B : Arr3 α) : Prop :=
  A.len = B.len ∧ A.rows = B.rows ∧ A.cols = B.cols ∧
    ∀ k < A.len, ∀ i < A.rows, ∀ j < A.cols, A.get k i j = B.get k i j

/-- The matrices of the array as Mathlib matrices of a given shape. -/
def ops (A : Arr3 α) (l r c : ℕ) : Fin l → Matrix (Fin r) (Fin c) α := fun k i j => A.get k i j

/-- The matrix `A[k]`. -/
def nth (A : Arr3 α) (k : ℕ) : Arr α := ⟨A.rows, A.cols, A.get k⟩

/-- `np.array(list of matrices)`: `ValueError` for matrices of different shapes.  The empty list gives a
one-dimensional array, on which the transposition that every user of this function does next raises
`ValueError`; the model reports it here. -/
def ofList [Zero α] : List (Arr α) → Except PyErr (Arr3 α)
  | [] => .error .value
  | A :: l =>
    if ∀ B ∈ l, B.rows = A.rows ∧ B.cols = A.cols then
      .ok ⟨l.length + 1, A.rows, A.cols, fun k => ((A :: l).getD k (Arr.zeros 0 0)).get⟩
    else .error .value

/-- `np.kron` of three-dimensional arrays. -/
def kron [Mul α] (A B : Arr3 α) : Arr3 α :=
  ⟨A.len * B.len, A.rows * B.rows, A.cols * B.cols, fun k i j =>
    A.get (k / B.len) (i / B.rows) (j / B.cols) * B.get (k % B.len) (i % B.rows) (j % B.cols)⟩

/-- `np.conj(np.transpose(A, (0, 2, 1)))`. -/
def conjT [Star α] (A : Arr3 α) : Arr3 α := ⟨A.len, A.cols, A.rows, fun k i j => star (A.get k j i)⟩

/-- `np.matmul(A, B)` with a two-dimensional `B`. -/
def matmul2 [AddCommMonoid α] [Mul α] (A : Arr3 α) (B : Arr α) : Except PyErr (Arr3 α) :=
  if A.cols = B.rows then
    .ok ⟨A.len, A.rows, B.cols, fun k i j => ∑ t ∈ Finset.range A.cols, A.get k i t * B.get t j⟩
  else .error .value

/-- `np.matmul(A, B)` with three-dimensional arrays: the first axes are equal or one of them has length
one. -/
def matmul3 [AddCommMonoid α] [Mul α] (A B : Arr3 α) : Except PyErr (Arr3 α) :=
  if A.cols = B.rows ∧ (A.len = B.len ∨ A.len = 1 ∨ B.len = 1) then
    .ok ⟨if A.len = 1 then B.len else A.len, A.rows, B.cols, fun k i j =>
      ∑ t ∈ Finset.range A.cols,
        A.get (if A.len = 1 then 0 else k) i t * B.get (if B.len = 1 then 0 else k) t j⟩
  else .error .value

/-- `np.sum(A, axis=0)`, also `np.einsum("ijk->jk", A)`. -/
def sum0 [AddCommMonoid α] (A : Arr3 α) : Arr α :=
  ⟨A.rows, A.cols, fun i j => ∑ k ∈ Finset.range A.len, A.get k i j⟩

/-- `np.tensordot(A, B, axes=((2), (1)))` with its axes reordered so that the two list axes come first:
entry `[i, j, k, l]` is `sum_t A[i, k, t] B[j, t, l]`. -/
def tensordot [AddCommMonoid α] [Mul α] (A B : Arr3 α) : Except PyErr (Arr4 α) :=
  if A.cols = B.rows then
    .ok ⟨A.len, B.len, A.rows, B.cols, fun i j k l =>
      ∑ t ∈ Finset.range A.cols, A.get i k t * B.get j t l⟩
  else .error .value

/-- `np.einsum("ijk,mkl->imjl", A, B)` reshaped to `(len A * len B, rows A, cols B)`. -/
def compose [AddCommMonoid α] [Mul α] (A B : Arr3 α) : Arr3 α :=
  ⟨A.len * B.len, A.rows, B.cols, fun k i j =>
    ∑ t ∈ Finset.range A.cols, A.get (k / B.len) i t * B.get (k % B.len) t j⟩

theorem Same.refl (A : Arr3 α) : Same A A := ⟨rfl, rfl, rfl, fun _ _ _ _ _ _ => rfl⟩

theorem Same.symm {A B : Arr3 α} (h : Same A B) : Same B A :=
  ⟨h.1.symm, h.2.1.symm, h.2.2.1.symm, fun k hk i hi j hj =>
    (h.2.2.2 k (h.1 ▸ hk) i (h.2.1 ▸ hi) j (h.2.2.1 ▸ hj)).symm⟩

theorem Same.trans {A B C : Arr3 α} (h : Same A B) (h' : Same B C) : Same A C :=
  ⟨h.1.trans h'.1, h.2.1.trans h'.2.1, h.2.2.1.trans h'.2.2.1, fun k hk i hi j hj =>
    (h.2.2.2 k hk i hi j hj).trans (h'.2.2.2 k (h.1 ▸ hk) i (h.2.1 ▸ hi) j (h.2.2.1 ▸ hj))⟩

end Arr3

end PyQ
