import Verif.Model.StabInput

/-!
# `StabilizerCode.__init__` with any integer `k` (`PyQCodes/codes.py` 127-198)

The constructor never asks for the sign of `k`.  The definitions here are those of `Model/StabInput` with an integer `k`; for
`k ≥ 0` they agree with them (`C136_agrees`).  `n` is still a natural number.
-/

namespace PyQ

/-- One iteration of codes.py 815-842: the loop of line 840 runs over `range(rank, n - k)` and raises `IndexError` when there
are fewer than `n - k` rows. -/
def secondBlockStepInt (n : ℕ) (k : ℤ) (rank : ℕ) (A : Arr ℤ) (t : ℕ) : Except PyErr (Arr ℤ) := do
  let B ← colSwapAny n A t
  if (B.rows : ℤ) < n - k then .error .index
  else return elimColumn (List.range' rank (((n : ℤ) - k).toNat - rank)) t (n + t) B

/-- `_gaussian_elimination_second_block` (codes.py 766-843). -/
noncomputable def secondBlockInt (n : ℕ) (k : ℤ) (rank : ℕ) (A : Arr ℤ) : Except PyErr (Arr ℤ) :=
  if rank = A.rows then .ok A
  else do
    let rankE ← matrixRank (A.pySlice rank A.rows (n + rank : ℕ) A.cols)
    (List.range' rank rankE).foldlM (secondBlockStepInt n k rank) ((List.range' rank rankE).foldl (rowSwap2 n) A)

/-- `_standard_normal_form` (codes.py 845-847). -/
noncomputable def standardNormalFormInt (n : ℕ) (k : ℤ) (A : Arr ℤ) : Except PyErr (Arr ℤ × ℕ) := do
  let rank ← matrixRank (A.pySlice 0 A.rows 0 (n : ℕ))
  let B ← firstBlockAny n rank A
  let nf ← secondBlockInt n k rank B
  return (nf, rank)

/-- `logical_operators` (codes.py 872-910): after the assertion of line 863, `np.zeros((k, rank))` of line 898 raises
`ValueError` for a negative `k`. -/
def logicalOperatorsInt (n : ℕ) (k : ℤ) (rank : ℕ) (nf : Arr ℤ) : Except PyErr (Arr ℤ × Arr ℤ) := do
  pyAssert (topLeftIdentity nf rank)
  if k < 0 then .error .value else logicalOperatorsAny n k.toNat rank nf

/-- codes.py 169-175: conversion and shape checks.  A ragged list of rows has no `shape[1]` (`IndexError`). -/
def initArrayInt (s : StabInput) (n : ℕ) (k : ℤ) : Except PyErr (Arr ℤ) :=
  match s with
  | .strs l => do
    let rows ← pauliStrToBinaryRepresentation l
    return Arr.ofRows (2 * (l.headD []).length) rows
  | .rows [] => .error .index
  | .rows (r0 :: rest) => do
    if ∃ r ∈ rest, r.length ≠ r0.length then .error .index
    else
      let A := Arr.ofRows r0.length (r0 :: rest)
      pyAssert (A.cols = 2 * n)
      pyAssert ((A.rows : ℤ) = n - k)
      return A

/-- The attributes set by `__init__` (codes.py 177-198), with `k` as it was given. -/
structure StabCodeInt where
  n : ℕ
  k : ℤ
  stab : Arr ℤ
  pauliStab : List (List Char)
  normalForm : Arr ℤ
  rank : ℕ
  logicalX : Arr ℤ
  logicalZ : Arr ℤ

/-- A code with a natural number of unencoded qubits, seen as one with an integer. (codes.py 177-198) -/
def StabCode.toInt (c : StabCode) : StabCodeInt :=
  ⟨c.n, c.k, c.stab, c.pauliStab, c.normalForm, c.rank, c.logicalX, c.logicalZ⟩

/-- `StabilizerCode.__init__` (codes.py 127-198) for any integer `k`. -/
noncomputable def stabInitInt (s : StabInput) (n : ℕ) (k : ℤ) (logical : Option (Arr ℤ × Arr ℤ)) :
    Except PyErr StabCodeInt := do
  let A ← initArrayInt s n k
  let ok ← isStabilizerCode A
  pyAssert (ok = true)
  let strs ← (List.range A.rows).mapM fun i => binaryRepToPauliStr (A.row i)
  let (nf, rank) ← standardNormalFormInt n k A
  let (lx, lz) ← (match logical with
    | none => logicalOperatorsInt n k rank nf
    | some (lx, lz) => do
      pyAssert (lx.cols = 2 * n)
      pyAssert (lz.cols = 2 * n)
      return (lx, lz) : Except PyErr (Arr ℤ × Arr ℤ))
  return ⟨n, k, A, strs, nf, rank, lx, lz⟩

end PyQ
