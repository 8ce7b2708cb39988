import Mathlib.Data.Matrix.Basic
import Mathlib.Algebra.BigOperators.Group.Finset.Basic
import Mathlib.Algebra.BigOperators.Ring.Finset
import Mathlib.Algebra.BigOperators.Fin

/-!
# Python values used by the model

Exceptions as values and two-dimensional numpy arrays.  Nothing here is specific to PyQCodes.
-/

namespace PyQ

/-- The Python exceptions that the modelled functions can raise. -/
inductive PyErr
  | assertion      -- AssertionError
  | type           -- TypeError
  | value          -- ValueError
  | runtime        -- RuntimeError
  | index          -- IndexError
  | attribute      -- AttributeError
  | unboundLocal   -- UnboundLocalError
  | zeroDivision   -- ZeroDivisionError
  | overflow       -- OverflowError
  | name           -- NameError
  | recursion      -- RecursionError
  | linalg         -- numpy.linalg.LinAlgError
  | key            -- KeyError
  | notImplemented -- NotImplementedError
  | unmodelled     -- a path of the code outside the model (listed in DESIGN.md)
  deriving DecidableEq, Repr

/-- `assert cond` of Python. -/
def pyAssert (c : Prop) [Decidable c] : Except PyErr Unit :=
  if c then .ok () else .error .assertion

/-- A two-dimensional numpy array: its `shape` and its entries.  Only entries with `i < rows`, `j < cols`
are meaningful. -/
structure Arr (α : Type) where
  rows : ℕ
  cols : ℕ
  get : ℕ → ℕ → α

namespace Arr

variable {α : Type}

/-- Equality of numpy arrays: same shape and same entries. -/
def Same (A B : Arr α) : Prop :=
  A.rows = B.rows ∧ A.cols = B.cols ∧ ∀ i < A.rows, ∀ j < A.cols, A.get i j = B.get i j

/-- The array as a Mathlib matrix of a given shape. -/
def mat (A : Arr α) (r c : ℕ) : Matrix (Fin r) (Fin c) α := fun i j => A.get i j

/-- The array with the entries of a Mathlib matrix. -/
def ofMat [Zero α] {r c : ℕ} (M : Matrix (Fin r) (Fin c) α) : Arr α :=
  ⟨r, c, fun i j => if h : i < r ∧ j < c then M ⟨i, h.1⟩ ⟨j, h.2⟩ else 0⟩

/-- A row as a list, `A[i]`. -/
def row (A : Arr α) (i : ℕ) : List α := (List.range A.cols).map (A.get i)

/-- `np.array(list of rows)` for a rectangular list of rows with `c` columns. -/
def ofRows [Zero α] (c : ℕ) (L : List (List α)) : Arr α :=
  ⟨L.length, c, fun i j => (L.getD i []).getD j 0⟩

/-- `np.kron`. -/
def kron [Mul α] (A B : Arr α) : Arr α :=
  ⟨A.rows * B.rows, A.cols * B.cols,
    fun i j => A.get (i / B.rows) (j / B.cols) * B.get (i % B.rows) (j % B.cols)⟩

/-- The entries of a matrix product; `A.cols = B.rows` is checked by `dot`. -/
def mul [AddCommMonoid α] [Mul α] (A B : Arr α) : Arr α :=
  ⟨A.rows, B.cols, fun i j => ∑ t ∈ Finset.range A.cols, A.get i t * B.get t j⟩

/-- `A.dot(B)`: `ValueError` if the shapes are not aligned. -/
def dot [AddCommMonoid α] [Mul α] (A B : Arr α) : Except PyErr (Arr α) :=
  if A.cols = B.rows then .ok (A.mul B) else .error .value

/-- Entry-wise sum of arrays of the same shape. -/
def add [Add α] (A B : Arr α) : Arr α := ⟨A.rows, A.cols, fun i j => A.get i j + B.get i j⟩

/-- `A.T`. -/
def transpose (A : Arr α) : Arr α := ⟨A.cols, A.rows, fun i j => A.get j i⟩

/-- Multiplication of every entry by a scalar. -/
def smul [Mul α] (c : α) (A : Arr α) : Arr α := ⟨A.rows, A.cols, fun i j => c * A.get i j⟩

/-- `np.eye(n)`. -/
def eye [Zero α] [One α] (n : ℕ) : Arr α := ⟨n, n, fun i j => if i = j then 1 else 0⟩

/-- `np.zeros((r, c))`. -/
def zeros [Zero α] (r c : ℕ) : Arr α := ⟨r, c, fun _ _ => 0⟩

/-- The slice `A[r0:r1, c0:c1]` for bounds inside the shape. -/
def slice (A : Arr α) (r0 r1 c0 c1 : ℕ) : Arr α :=
  ⟨r1 - r0, c1 - c0, fun i j => A.get (r0 + i) (c0 + j)⟩

@[simp] theorem mat_apply (A : Arr α) (r c : ℕ) (i : Fin r) (j : Fin c) : A.mat r c i j = A.get i j := rfl

@[simp] theorem rows_mul [AddCommMonoid α] [Mul α] (A B : Arr α) : (A.mul B).rows = A.rows := rfl
@[simp] theorem cols_mul [AddCommMonoid α] [Mul α] (A B : Arr α) : (A.mul B).cols = B.cols := rfl
@[simp] theorem rows_kron [Mul α] (A B : Arr α) : (A.kron B).rows = A.rows * B.rows := rfl
@[simp] theorem cols_kron [Mul α] (A B : Arr α) : (A.kron B).cols = A.cols * B.cols := rfl

theorem mat_mul [NonUnitalNonAssocSemiring α] (A B : Arr α) (r m c : ℕ) (h : A.cols = m) :
    (A.mul B).mat r c = A.mat r m * B.mat m c := by
  subst h
  ext i j
  simp only [mat_apply, mul, Matrix.mul_apply, Finset.sum_range]

theorem Same.refl (A : Arr α) : Same A A := ⟨rfl, rfl, fun _ _ _ _ => rfl⟩

theorem Same.symm {A B : Arr α} (h : Same A B) : Same B A :=
  ⟨h.1.symm, h.2.1.symm, fun i hi j hj => (h.2.2 i (h.1 ▸ hi) j (h.2.1 ▸ hj)).symm⟩

theorem Same.trans {A B C : Arr α} (h : Same A B) (h' : Same B C) : Same A C :=
  ⟨h.1.trans h'.1, h.2.1.trans h'.2.1, fun i hi j hj =>
    (h.2.2 i hi j hj).trans (h'.2.2 i (h.1 ▸ hi) j (h.2.1 ▸ hj))⟩

theorem same_iff_mat (A B : Arr α) :
    Same A B ↔ A.rows = B.rows ∧ A.cols = B.cols ∧ A.mat A.rows A.cols = B.mat A.rows A.cols := by
  constructor
  · rintro ⟨h1, h2, h3⟩
    exact ⟨h1, h2, by ext i j; exact h3 i i.2 j j.2⟩
  · rintro ⟨h1, h2, h3⟩
    exact ⟨h1, h2, fun i hi j hj => congrFun (congrFun h3 ⟨i, hi⟩) ⟨j, hj⟩⟩

end Arr

end PyQ
