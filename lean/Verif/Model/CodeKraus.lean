import Verif.Model.Stabilizer
import Verif.Model.LinAlg

/-!
# `StabilizerCode`: matrices of the encoder, corrected errors, concatenation (`PyQCodes/codes.py`)

`normalizer` and `undetectable_errors` (lines 687-698, 945-973) are in `Model/Normalizer`.
`np.int` (removed in numpy 1.24) is taken to exist.
-/

namespace PyQ

noncomputable section

/-- `A.conjugate().T`. (codes.py 297) -/
def Arr.conjT (A : Arr ℂ) : Arr ℂ := ⟨A.cols, A.rows, fun i j => star (A.get j i)⟩

/-- `_obtain_eigenspace_one(eigen, vecs)` (codes.py 286-287): the columns whose eigenvalue is within `1e-5` of one. -/
def plusOneColumns (eigen : ℕ → ℝ) (vecs : Arr ℂ) : Arr ℂ :=
  let cols := (List.range vecs.cols).filter fun i => decide (|eigen i - 1| < 1 / 10 ^ 5)
  ⟨vecs.rows, cols.length, fun i j => vecs.get i (cols.getD j 0)⟩

/-- One pass of the loop of `encode_krauss_operators` (codes.py 296-300). -/
def encodeStep (eigh : Eigh) (evecs stab : Arr ℂ) : Except PyErr (Arr ℂ) := do
  let conju ← evecs.conjT.dot (← stab.dot evecs)
  let p := eigh conju
  evecs.dot (plusOneColumns p.1 p.2)

/-- `encode_krauss_operators(sparse)` (codes.py 263-304).  `csr_matrix(evecs)` has the same entries, so the flag is not
modelled.  `stabilizers[0]` raises `IndexError` if there are no generators. -/
def encodeKraus (eigh : Eigh) (c : StabCode) : Except PyErr (Arr ℂ) := do
  let stabilizers ← binaryRepToPauliMat ℂ ((List.range c.stab.rows).map c.stab.row)
  match stabilizers with
  | [] => .error .index
  | stab1 :: rest => rest.foldlM (encodeStep eigh) (plusOneColumns (eigh stab1).1 (eigh stab1).2)

/-- `np.all(abs(error_p + p_error) < 1e-5)` (codes.py 348). -/
def antiCommutes (errorP pError : Arr ℂ) : Prop :=
  ∀ i < errorP.rows, ∀ j < errorP.cols, ‖errorP.get i j + pError.get i j‖ < 1 / 10 ^ 5

open Classical in
/-- The loop over the generators for one error (codes.py 340-356). -/
def correctOne (error : Arr ℂ) : List (Arr ℂ) → Except PyErr (Arr ℂ)
  | [] => .ok error
  | p :: ps => do
    let pError ← p.dot error
    let errorP ← error.dot p
    if antiCommutes errorP pError then p.dot error else correctOne error ps

/-- `kraus_operators_correcting_errors(pauli_errors, sparse)` (codes.py 306-357), for a list of matrices and
`sparse=False`; with `sparse=True` the test of line 348 asks `scipy.sparse` for the truth value of a matrix, which is not
modelled. -/
def krausCorrectingErrors (c : StabCode) (errors : List (Arr ℂ)) : Except PyErr (List (Arr ℂ)) := do
  let stabilizers ← binaryRepToPauliMat ℂ ((List.range c.stab.rows).map c.stab.row)
  errors.mapM fun e => correctOne e stabilizers

end

/-! ### `concatenate_codes` -/

/-- The generator of the inner code `row` on block `i` of `blocks` (codes.py 1019-1030, 1060-1071). -/
def blockRow (m blocks i : ℕ) (row : List ℤ) : List ℤ :=
  (List.replicate (i * m) 0 ++ row.take m ++ List.replicate ((blocks - i - 1) * m) 0) ++
    (List.replicate (i * m) 0 ++ row.drop m ++ List.replicate ((blocks - i - 1) * m) 0)

/-- All generators of the inner code on all blocks (codes.py 1017-1030, 1060-1071). -/
def blockRows (m blocks : ℕ) (inner : List (List ℤ)) : List (List ℤ) :=
  (List.range blocks).flatMap fun i => inner.map (blockRow m blocks i)

/-- The part of a new generator for one letter of the outer generator, X half and Z half (codes.py 1039-1051). -/
def substLetter (m : ℕ) (lx lz : List ℤ) (x z : ℤ) : List ℤ × List ℤ :=
  if x = 1 ∧ z = 0 then (lx.take m, List.replicate m 0)
  else if x = 0 ∧ z = 1 then (List.replicate m 0, lz.drop m)
  else if x = 1 ∧ z = 1 then (lx.take m, lz.drop m)
  else (List.replicate m 0, List.replicate m 0)

/-- The new generator for one generator of the outer code, `l = 1` (codes.py 1036-1052). -/
def substRow (n m : ℕ) (lx lz row : List ℤ) : List ℤ :=
  let parts := (List.range n).map fun j => substLetter m lx lz (row.getD j 0) (row.getD (n + j) 0)
  parts.flatMap Prod.fst ++ parts.flatMap Prod.snd

/-- The rows of an array as lists. (codes.py 1036, 1076) -/
def Arr.rowList {α : Type} (A : Arr α) : List (List α) := (List.range A.rows).map A.row

/-- The list `generator` for `l = 1` (codes.py 1013-1052).  `stab2.logical_x[0]` raises `IndexError` when logical operators
without rows were given. -/
def concatRowsOne (c1 c2 : StabCode) : Except PyErr (List (List ℤ)) :=
  if c2.logicalX.rows = 0 ∨ c2.logicalZ.rows = 0 then .error .index
  else .ok (blockRows c2.n c1.n c2.stab.rowList ++
    c1.stab.rowList.map (substRow c1.n c2.n (c2.logicalX.row 0) (c2.logicalZ.row 0)))

/-- `a[lo:hi] = (a[lo:hi] + b) % 2`: `ValueError` when the slice, cut at the end of `a`, has not the length of `b`
(`b` has at least two entries here, so numpy does not broadcast). (codes.py 1097-1100) -/
def addSlice (a : List ℤ) (lo hi : ℕ) (b : List ℤ) : Except PyErr (List ℤ) :=
  if min hi a.length - min lo a.length = b.length then
    .ok ((List.range a.length).map fun t =>
      if lo ≤ t ∧ t < hi then (a.getD t 0 + b.getD (t - lo) 0) % 2 else a.getD t 0)
  else .error .value

/-- `logical[i]`. (codes.py 1085-1091) -/
def logicalAt (A : Arr ℤ) (i : ℕ) : Except PyErr (List ℤ) :=
  if i < A.rows then .ok (A.row i) else .error .index

/-- The choice of `current_logical` (codes.py 1085-1091): for a letter that is none of X, Y, Z the value of the previous
letter stays; it is unbound before the first such letter. -/
def chooseLogical (c2 : StabCode) (which : ℕ) (x z : ℤ) (cur : Option (List ℤ)) :
    Except PyErr (Option (List ℤ)) :=
  if x = 1 ∧ z = 0 then do return some (← logicalAt c2.logicalX which)
  else if x = 0 ∧ z = 1 then do return some (← logicalAt c2.logicalZ which)
  else if x = 1 ∧ z = 1 then do
    let a ← logicalAt c2.logicalZ which
    let b ← logicalAt c2.logicalX which
    return some (List.zipWith (fun s t => (s + t) % 2) a b)
  else .ok cur

/-- The variables of the loop over the letters: `new_gen_x`, `new_gen_z` and `current_logical`.
(codes.py 1077-1100) -/
structure ConcatState where
  x : List ℤ
  z : List ℤ
  cur : Option (List ℤ)

/-- One letter of one outer generator, `l > 1` (codes.py 1080-1100). -/
def concatLetter (c1 c2 : StabCode) (blocks : ℕ) (row : List ℤ) (s : ConcatState) (j : ℕ) :
    Except PyErr ConcatState := do
  let block := j / blocks
  let cur ← chooseLogical c2 (j % blocks) (row.getD j 0) (row.getD (c1.n + j) 0) s.cur
  match cur with
  | none => .error .unboundLocal
  | some l => do
    let x ← addSlice s.x (c1.n * block) (c1.n * (block + 1)) (l.take c2.n)
    let z ← addSlice s.z (c1.n * block) (c1.n * (block + 1)) (l.drop c2.n)
    return ⟨x, z, cur⟩

/-- One outer generator, `l > 1` (codes.py 1075-1102); `current_logical` survives from one generator to the next. -/
def concatRow (c1 c2 : StabCode) (blocks : ℕ) (acc : List (List ℤ) × Option (List ℤ)) (row : List ℤ) :
    Except PyErr (List (List ℤ) × Option (List ℤ)) := do
  let s ← (List.range c1.n).foldlM (concatLetter c1 c2 blocks row)
    ⟨List.replicate (blocks * c2.n) 0, List.replicate (blocks * c2.n) 0, acc.2⟩
  return (acc.1 ++ [s.x ++ s.z], s.cur)

/-- `concatenate_codes(stab1, stab2)` (codes.py 975-1104).  The error object of line 1011 is asserted, not raised, so when `l`
does not divide `n` the method returns `None`. -/
noncomputable def concatenateCodes (c1 c2 : StabCode) : Except PyErr (Option StabCode) :=
  if c2.k = 0 then .error .zeroDivision
  else if c2.k = 1 then do
    let gens ← concatRowsOne c1 c2
    return some (← stabInit (.rows gens) (c1.n * c2.n) c1.k none)
  else if c1.n % c2.k = 0 then do
    let blocks := c1.n / c2.k
    let r ← c1.stab.rowList.foldlM (concatRow c1 c2 blocks) ([], none)
    return some (← stabInit (.rows (blockRows c2.n blocks c2.stab.rowList ++ r.1)) (blocks * c2.n) c1.k none)
  else .ok none

end PyQ
