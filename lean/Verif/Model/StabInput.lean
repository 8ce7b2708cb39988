import Verif.Model.Stabilizer

/-!
# `StabilizerCode.__init__` for strings of any length (`PyQCodes/codes.py` 127-198)

On the string path neither the length of the strings nor their number is compared with `n` and `k`.  The constructor then
runs on an array whose width need not be `2 n`.  The definitions here are those of `Model/Stabilizer` with the index and
shape errors of numpy made explicit; for strings of length `n` they agree with them (`C74_agrees`).
-/

namespace PyQ

/-- A bound of a slice of an axis of length `len`, as Python normalises it: negative bounds count from the end, and all
bounds are clipped to the axis. (codes.py 863-869) -/
def sliceBound (len : ℕ) (i : ℤ) : ℕ := if i < 0 then (i + len).toNat else min i.toNat len

/-- `A[r0:r1, c0:c1]` for any bounds of the columns and bounds of the rows inside the shape. (codes.py 863-869) -/
def Arr.pySlice {α : Type} (A : Arr α) (r0 r1 : ℕ) (c0 c1 : ℤ) : Arr α :=
  A.slice r0 r1 (sliceBound A.cols c0) (sliceBound A.cols c1)

/-- `np.hstack` of a first array and further ones: `ValueError` unless all have the same number of rows.
(codes.py 902, 908) -/
def hstackAll (A : Arr ℤ) (l : List (Arr ℤ)) : Except PyErr (Arr ℤ) :=
  if ∀ B ∈ l, B.rows = A.rows then .ok (l.foldl Arr.hstack A) else .error .value

/-- codes.py 731-751 (`pivotSwap1`) on an array of any width.  The search reads every column below `n`, even after the swap,
so an array with fewer columns raises `IndexError`; so does a partner column `i_col + n` outside the array. -/
def pivotSwapAny (n j : ℕ) (A : Arr ℤ) : Except PyErr (Arr ℤ) :=
  if A.get j j = 0 then
    if A.cols < n then .error .index
    else match findPivot A n j with
      | none => .ok A
      | some (c, r) =>
        if A.cols ≤ c + n then .error .index
        else .ok (((A.swapCols c j).swapCols (c + n) (j + n)).swapRows j r)
  else .ok A

/-- One iteration of codes.py 729-762. -/
def firstBlockStepAny (n : ℕ) (A : Arr ℤ) (j : ℕ) : Except PyErr (Arr ℤ) := do
  let B ← pivotSwapAny n j A
  return elimColumn (List.range B.rows) j j B

/-- `_gaussian_elimination_first_block` (codes.py 700-764) with the computed rank as an argument. -/
def firstBlockAny (n rank : ℕ) (A : Arr ℤ) : Except PyErr (Arr ℤ) :=
  (List.range rank).foldlM (firstBlockStepAny n) A

/-- codes.py 817-831 (`colSwap2`) on an array of any width: the search stops at the first one, and raises `IndexError` when
it leaves the array before. -/
def colSwapAny (n : ℕ) (A : Arr ℤ) (t : ℕ) : Except PyErr (Arr ℤ) :=
  if A.get t (n + t) = 0 then
    match (List.range' (n + t + 1) (2 * n - (n + t + 1))).find? (fun c => A.cols ≤ c ∨ A.get t c = 1) with
    | none => .ok A
    | some c => if A.cols ≤ c then .error .index else .ok ((A.swapCols c (n + t)).swapCols (c - n) t)
  else .ok A

/-- One iteration of codes.py 815-842.  The loop of line 840 reads row `i` for every `i < n - k` and raises `IndexError` when
there are fewer rows. -/
def secondBlockStepAny (n k rank : ℕ) (A : Arr ℤ) (t : ℕ) : Except PyErr (Arr ℤ) := do
  let B ← colSwapAny n A t
  if B.rows + k < n then .error .index
  else return elimColumn (List.range' rank (n - k - rank)) t (n + t) B

/-- `_gaussian_elimination_second_block` (codes.py 766-843). -/
noncomputable def secondBlockAny (n k rank : ℕ) (A : Arr ℤ) : Except PyErr (Arr ℤ) :=
  if rank = A.rows then .ok A
  else do
    let rankE ← matrixRank (A.pySlice rank A.rows (n + rank : ℕ) A.cols)
    (List.range' rank rankE).foldlM (secondBlockStepAny n k rank) ((List.range' rank rankE).foldl (rowSwap2 n) A)

/-- `_standard_normal_form` (codes.py 845-847). -/
noncomputable def standardNormalFormAny (n k : ℕ) (A : Arr ℤ) : Except PyErr (Arr ℤ × ℕ) := do
  let rank ← matrixRank (A.pySlice 0 A.rows 0 (n : ℕ))
  let B ← firstBlockAny n rank A
  let nf ← secondBlockAny n k rank B
  return (nf, rank)

/-- `logical_operators` (codes.py 872-910) with `_matrix_blocks_standard_form` (849-870): Python slices, `ValueError` for
shapes that do not fit and for a negative dimension in `np.zeros` (line 905). -/
def logicalOperatorsAny (n k rank : ℕ) (nf : Arr ℤ) : Except PyErr (Arr ℤ × Arr ℤ) := do
  pyAssert (topLeftIdentity nf rank)
  let a2 := nf.pySlice 0 rank ((n : ℤ) - k) n
  let c1 := nf.pySlice 0 rank ((n : ℤ) + rank) (2 * n - k)
  let c2 := nf.pySlice 0 rank (2 * n - k) nf.cols
  let e := nf.pySlice rank nf.rows (2 * n - k) nf.cols
  let p ← e.transpose.dot c1.transpose
  let x ← hstackAll (Arr.zeros k rank) [e.transpose, Arr.eye k, (p.add c2.transpose).mod2, Arr.zeros k (n - rank)]
  if n < k + rank then .error .value
  else
    let z ← hstackAll (Arr.zeros k n) [a2.transpose, Arr.zeros k (n - k - rank), Arr.eye k]
    return (x, z)

/-- codes.py 169-175: the array the constructor works on. -/
def initArrayAny (s : StabInput) (n k : ℕ) : Except PyErr (Arr ℤ) :=
  match s with
  | .strs l => do
    let rows ← pauliStrToBinaryRepresentation l
    return Arr.ofRows (2 * (l.headD []).length) rows
  | .rows l => initArray (.rows l) n k

/-- `StabilizerCode.__init__` (codes.py 127-198) for any strings or rows. -/
noncomputable def stabInitAny (s : StabInput) (n k : ℕ) (logical : Option (Arr ℤ × Arr ℤ)) : Except PyErr StabCode := do
  let A ← initArrayAny s n k
  let ok ← isStabilizerCode A
  pyAssert (ok = true)
  let strs ← (List.range A.rows).mapM fun i => binaryRepToPauliStr (A.row i)
  let (nf, rank) ← standardNormalFormAny n k A
  let (lx, lz) ← (match logical with
    | none => logicalOperatorsAny n k rank nf
    | some (lx, lz) => do
      pyAssert (lx.cols = 2 * n)
      pyAssert (lz.cols = 2 * n)
      return (lx, lz) : Except PyErr (Arr ℤ × Arr ℤ))
  return ⟨n, k, A, strs, nf, rank, lx, lz⟩

end PyQ
