import Verif.Model.Pauli
import Mathlib.LinearAlgebra.Matrix.Rank
import Mathlib.Data.Rat.Cast.Defs

/-!
# `StabilizerCode`: construction, normal form and logical operators (`PyQCodes/codes.py`)

The generator array is `Arr ℤ` (the code has integers, or the floats `0.` and `1.` on the string path).
`np.linalg.matrix_rank` is the rank over the rationals (which is the rank over the reals for an integer array).
-/

namespace PyQ

namespace Arr

/-- Exchange two columns through a temporary copy, as in codes.py 738-740. -/
def swapCols {α : Type} (A : Arr α) (a b : ℕ) : Arr α :=
  ⟨A.rows, A.cols, fun i j => A.get i (if j = a then b else if j = b then a else j)⟩

/-- Exchange two rows through a temporary copy, as in codes.py 748-750. -/
def swapRows {α : Type} (A : Arr α) (a b : ℕ) : Arr α :=
  ⟨A.rows, A.cols, fun i j => A.get (if i = a then b else if i = b then a else i) j⟩

/-- `output[dst, :] = (output[src, :] + output[dst, :]) % 2` (codes.py 762, 842). -/
def addRow (A : Arr ℤ) (src dst : ℕ) : Arr ℤ :=
  ⟨A.rows, A.cols, fun i j => if i = dst then (A.get src j + A.get dst j) % 2 else A.get i j⟩

/-- `np.hstack((A, B))` for arrays with the same number of rows. (codes.py 902, 908) -/
def hstack {α : Type} (A B : Arr α) : Arr α :=
  ⟨A.rows, A.cols + B.cols, fun i j => if j < A.cols then A.get i j else B.get i (j - A.cols)⟩

/-- `A % 2`, entry-wise. (codes.py 902) -/
def mod2 (A : Arr ℤ) : Arr ℤ := ⟨A.rows, A.cols, fun i j => A.get i j % 2⟩

end Arr

/-- `np.linalg.matrix_rank` of an integer array (codes.py 724, 798), in exact arithmetic. -/
noncomputable def npRank (A : Arr ℤ) : ℕ := ((A.mat A.rows A.cols).map (Int.cast : ℤ → ℚ)).rank

/-- `np.linalg.matrix_rank` as called in codes.py 724 and 798: an array without entries has no largest singular value and
raises `ValueError`. -/
noncomputable def matrixRank (A : Arr ℤ) : Except PyErr ℕ :=
  if A.rows = 0 ∨ A.cols = 0 then .error .value else .ok (npRank A)

/-- The search of codes.py 733-751: the first `(i_col, j_row)`, columns outermost, with entry one.
The flag `did_not_swap` of the code makes only the first hit count, so later iterations change nothing. -/
def findPivot (A : Arr ℤ) (n j : ℕ) : Option (ℕ × ℕ) :=
  ((List.range' j (n - j)).flatMap fun c => (List.range' j (A.rows - j)).map fun r => (c, r)).find?
    fun cr => A.get cr.2 cr.1 = 1

/-- codes.py 731-751: bring a one to position `(j, j)` by a swap of qubits and of rows. -/
def pivotSwap1 (n j : ℕ) (A : Arr ℤ) : Arr ℤ :=
  if A.get j j = 0 then
    match findPivot A n j with
    | none => A
    | some (c, r) => ((A.swapCols c j).swapCols (c + n) (j + n)).swapRows j r
  else A

/-- codes.py 760-762 and 840-842: clear column `col` in the rows listed, using row `p`. -/
def elimColumn (rows : List ℕ) (p col : ℕ) (A : Arr ℤ) : Arr ℤ :=
  rows.foldl (fun A i => if i ≠ p ∧ A.get i col ≠ 0 then A.addRow p i else A) A

/-- One iteration of the loop of `_gaussian_elimination_first_block` (codes.py 729-762; the warning of line 755 is
output only). -/
def firstBlockStep (n : ℕ) (A : Arr ℤ) (j : ℕ) : Arr ℤ :=
  elimColumn (List.range A.rows) j j (pivotSwap1 n j A)

/-- `_gaussian_elimination_first_block` (codes.py 700-764) with the computed rank as an argument. -/
def firstBlock (n rank : ℕ) (A : Arr ℤ) : Arr ℤ :=
  (List.range rank).foldl (firstBlockStep n) A

/-- codes.py 803-811, one iteration with `j = n + t`: swap row `t` with the first lower row that has a one in column `j`. -/
def rowSwap2 (n : ℕ) (A : Arr ℤ) (t : ℕ) : Arr ℤ :=
  if A.get t (n + t) = 0 then
    match (List.range' (t + 1) (A.rows - (t + 1))).find? (fun i => A.get i (n + t) = 1) with
    | none => A
    | some i => A.swapRows i t
  else A

/-- codes.py 817-831, one iteration with `j = n + t`: swap in the first later column with a one in row `t`. -/
def colSwap2 (n : ℕ) (A : Arr ℤ) (t : ℕ) : Arr ℤ :=
  if A.get t (n + t) = 0 then
    match (List.range' (n + t + 1) (2 * n - (n + t + 1))).find? (fun c => A.get t c = 1) with
    | none => A
    | some c => (A.swapCols c (n + t)).swapCols (c - n) t
  else A

/-- One iteration of the second loop of `_gaussian_elimination_second_block` (codes.py 815-842). -/
def secondBlockStep (n k rank : ℕ) (A : Arr ℤ) (t : ℕ) : Arr ℤ :=
  elimColumn (List.range' rank (n - k - rank)) t (n + t) (colSwap2 n A t)

/-- The two loops of `_gaussian_elimination_second_block` (codes.py 801-843) with the two ranks as arguments. -/
def secondBlockLoops (n k rank rankE : ℕ) (A : Arr ℤ) : Arr ℤ :=
  (List.range' rank rankE).foldl (secondBlockStep n k rank) ((List.range' rank rankE).foldl (rowSwap2 n) A)

/-- `_gaussian_elimination_second_block` (codes.py 766-843).  `IndexError` when the loop of line 840 runs past the
last row, which happens only if there are fewer than `n - k` generators (string input with a wrong count). -/
noncomputable def secondBlock (n k rank : ℕ) (A : Arr ℤ) : Except PyErr (Arr ℤ) :=
  if rank = A.rows then .ok A
  else do
    let rankE ← matrixRank (A.slice rank A.rows (n + rank) A.cols)
    if 0 < rankE ∧ A.rows + k < n then .error .index
    else .ok (secondBlockLoops n k rank rankE A)

/-- `_standard_normal_form` (codes.py 845-847). -/
noncomputable def standardNormalForm (n k : ℕ) (A : Arr ℤ) : Except PyErr (Arr ℤ × ℕ) := do
  let rank ← matrixRank (A.slice 0 A.rows 0 n)
  let nf ← secondBlock n k rank (firstBlock n rank A)
  return (nf, rank)

/-- The assertion of `_matrix_blocks_standard_form` (codes.py 862-863) for integer entries. -/
def topLeftIdentity (nf : Arr ℤ) (rank : ℕ) : Prop :=
  ∀ i < rank, ∀ j < rank, nf.get i j = if i = j then 1 else 0

instance (nf : Arr ℤ) (rank : ℕ) : Decidable (topLeftIdentity nf rank) :=
  inferInstanceAs (Decidable (∀ i < rank, ∀ j < rank, _))

/-- The block `A_2` (codes.py 866). -/
def blockA2 (n k rank : ℕ) (nf : Arr ℤ) : Arr ℤ := nf.slice 0 rank (n - k) n
/-- The block `C_1` (codes.py 867). -/
def blockC1 (n k rank : ℕ) (nf : Arr ℤ) : Arr ℤ := nf.slice 0 rank (n + rank) (2 * n - k)
/-- The block `C_2` (codes.py 868). -/
def blockC2 (n k rank : ℕ) (nf : Arr ℤ) : Arr ℤ := nf.slice 0 rank (2 * n - k) (2 * n)
/-- The block `E` (codes.py 869). -/
def blockE (n k rank : ℕ) (nf : Arr ℤ) : Arr ℤ := nf.slice rank nf.rows (2 * n - k) (2 * n)

/-- The logical X operators (codes.py 898-902). -/
def logicalXOf (n k rank : ℕ) (nf : Arr ℤ) : Arr ℤ :=
  let e := blockE n k rank nf
  let c1 := blockC1 n k rank nf
  let c2 := blockC2 n k rank nf
  ((((Arr.zeros k rank).hstack e.transpose).hstack (Arr.eye k)).hstack
    ((e.transpose.mul c1.transpose).add c2.transpose).mod2).hstack (Arr.zeros k (n - rank))

/-- The logical Z operators (codes.py 904-908). -/
def logicalZOf (n k rank : ℕ) (nf : Arr ℤ) : Arr ℤ :=
  (((Arr.zeros k n).hstack (blockA2 n k rank nf).transpose).hstack (Arr.zeros k (n - k - rank))).hstack (Arr.eye k)

/-- `logical_operators` (codes.py 872-910), including the assertion of `_matrix_blocks_standard_form` (849-870).
When the number of generators is not `n - k` the product `e.T.dot(c1.T)`, or the negative dimension of `np.zeros`,
raises `ValueError`; this covers `k > n`. -/
def logicalOperators (n k rank : ℕ) (nf : Arr ℤ) : Except PyErr (Arr ℤ × Arr ℤ) := do
  pyAssert (topLeftIdentity nf rank)
  if nf.rows + k ≠ n then .error .value
  else return (logicalXOf n k rank nf, logicalZOf n k rank nf)

/-- `_is_stabilizer_code` (codes.py 240-261).  The code keeps looping over `i` after a failure; `inner_prod` cannot raise
on rows of one array of even width, so stopping early gives the same value. -/
def isStabilizerCode (A : Arr ℤ) : Except PyErr Bool :=
  (List.range A.rows).allM fun i => (List.range A.rows).allM fun j =>
    if i = j then .ok true else do
      let v ← innerProd (A.row i) (A.row j)
      return v = 0

/-- A constructed `StabilizerCode` object: the attributes set by `__init__` (codes.py 177-198). -/
structure StabCode where
  n : ℕ
  k : ℕ
  stab : Arr ℤ
  pauliStab : List (List Char)
  normalForm : Arr ℤ
  rank : ℕ
  logicalX : Arr ℤ
  logicalZ : Arr ℤ

/-- The argument `stabilizer_group` of the constructor: a list of strings or a list of rows.
(codes.py 127, 169-175) -/
inductive StabInput
  | strs (l : List (List Char))
  | rows (l : List (List ℤ))

/-- codes.py 169-175: conversion and shape checks.  A ragged list of rows has no `shape[1]` (`IndexError`).
For strings whose first length is not `n` see `Model/StabInput`. -/
def initArray (s : StabInput) (n k : ℕ) : Except PyErr (Arr ℤ) :=
  match s with
  | .strs l => do
    let rows ← pauliStrToBinaryRepresentation l
    let c := 2 * (l.headD []).length
    if c ≠ 2 * n then .error .unmodelled else return Arr.ofRows c rows
  | .rows [] => .error .index
  | .rows (r0 :: rest) => do
    if ∃ r ∈ rest, r.length ≠ r0.length then .error .index
    else
      let A := Arr.ofRows r0.length (r0 :: rest)
      pyAssert (A.cols = 2 * n)
      pyAssert (A.rows + k = n)
      return A

/-- `StabilizerCode.__init__` (codes.py 127-198). `logical` is the optional pair of arrays `logical_ops`. -/
noncomputable def stabInit (s : StabInput) (n k : ℕ) (logical : Option (Arr ℤ × Arr ℤ)) : Except PyErr StabCode := do
  let A ← initArray s n k
  let ok ← isStabilizerCode A
  pyAssert (ok = true)
  let strs ← (List.range A.rows).mapM fun i => binaryRepToPauliStr (A.row i)
  let (nf, rank) ← standardNormalForm n k A
  let (lx, lz) ← (match logical with
    | none => logicalOperators n k rank nf
    | some (lx, lz) => do
      pyAssert (lx.cols = 2 * n)
      pyAssert (lz.cols = 2 * n)
      return (lx, lz) : Except PyErr (Arr ℤ × Arr ℤ))
  return ⟨n, k, A, strs, nf, rank, lx, lz⟩

/-- `StabilizerCode.__iter__` (codes.py 235-238): the rows yielded by iterating over the code. -/
def StabCode.iter (c : StabCode) : List (List ℤ) := (List.range c.normalForm.rows).map c.normalForm.row

end PyQ
