import Verif.Np

/-!
# Pauli strings, binary representations and Pauli matrices (`PyQCodes/codes.py`)

A Python `str` is modelled as `List Char`, a one-dimensional integer array as `List ℤ`.
Entries that come from the string path are floats `0.`/`1.` in the code; they are integers here.
-/

namespace PyQ

/-- One step of the loop body of `binary_rep_to_pauli_str` (codes.py 1132-1143): the letter for the pair `(x, z)`. -/
def pauliChar (x z : ℤ) : Except PyErr Char :=
  if x = 1 ∧ z = 1 then .ok 'Y'
  else if x = 0 ∧ z = 0 then .ok 'I'
  else if x = 1 then .ok 'X'
  else if z = 1 then .ok 'Z'
  else .error .runtime

/-- `StabilizerCode.binary_rep_to_pauli_str` (codes.py 1106-1144).
`binary_rep[:n]` is walked together with `binary_rep[n + i]`, where `n = len // 2`.
The type assertion of line 1129 is met by construction. -/
def binaryRepToPauliStr (b : List ℤ) : Except PyErr (List Char) :=
  let n := b.length / 2
  ((b.take n).zip (b.drop n)).mapM fun xz => pauliChar xz.1 xz.2

/-- The bits written for one symbol in `pauli_str_to_binary_representation` (codes.py 1206-1218). -/
def pauliBits (c : Char) : Except PyErr (ℤ × ℤ) :=
  if c = 'X' then .ok (1, 0)
  else if c = 'Z' then .ok (0, 1)
  else if c = 'Y' then .ok (1, 1)
  else if c = 'I' then .ok (0, 0)
  else .error .value

/-- `p[j]` and the bits written for it (codes.py 1206-1218); `IndexError` when `p` is too short. -/
def symbolAt (p : List Char) (j : ℕ) : Except PyErr (ℤ × ℤ) :=
  match p[j]? with
  | none => .error .index
  | some c => pauliBits c

/-- The row written for the string `p` when the first string has length `n` (codes.py 1205-1218).
`p[j]` raises `IndexError` when `p` is shorter than `n`. -/
def pauliStrRow (n : ℕ) (p : List Char) : Except PyErr (List ℤ) := do
  let bits ← (List.range n).mapM (symbolAt p)
  return bits.map Prod.fst ++ bits.map Prod.snd

/-- `StabilizerCode.pauli_str_to_binary_representation` (codes.py 1187-1219), as the list of rows.
`paulis[0]` raises `IndexError` for the empty list. -/
def pauliStrToBinaryRepresentation (paulis : List (List Char)) : Except PyErr (List (List ℤ)) :=
  match paulis with
  | [] => .error .index
  | p0 :: _ => paulis.mapM (pauliStrRow p0.length)

section Matrices

variable (R : Type) [Ring R]

/-- The constant `X` (codes.py 42). -/
def pauliX : Arr R := ⟨2, 2, fun i j => if i = j then 0 else 1⟩

/-- The constant `Y` (codes.py 42-43): `[[0, -i], [i, 0]] * (-i) = [[0, -1], [1, 0]]`. -/
def pauliY : Arr R := ⟨2, 2, fun i j => if i = j then 0 else if i = 0 then -1 else 1⟩

/-- The constant `Z` (codes.py 44). -/
def pauliZ : Arr R := ⟨2, 2, fun i j => if i = j then (if i = 0 then 1 else -1) else 0⟩

/-- The constant `I` (codes.py 44). -/
def pauliI : Arr R := Arr.eye 2

/-- `StabilizerCode.index_to_qubit_pauli` (codes.py 1221-1253).  The sparse constants `XS, YS, ZS, IS`
(codes.py 46-49) have the same entries, so the flag `sparse` is not modelled. -/
def indexToQubitPauli (x z : ℤ) : Except PyErr (Arr R) :=
  if x = 1 ∧ z = 0 then .ok (pauliX R)
  else if x = 1 ∧ z = 1 then .ok (pauliY R)
  else if x = 0 ∧ z = 1 then .ok (pauliZ R)
  else if x = 0 ∧ z = 0 then .ok (pauliI R)
  else .error .value

/-- `stab[j]` for a non-negative index. (codes.py 1171-1184) -/
def idx (stab : List ℤ) (j : ℕ) : Except PyErr ℤ :=
  match stab[j]? with
  | none => .error .index
  | some v => .ok v

/-- The matrix of one row in `binary_rep_to_pauli_mat` (codes.py 1171-1184): left fold of `np.kron`. -/
def rowToPauliMat (stab : List ℤ) : Except PyErr (Arr R) := do
  let n := stab.length / 2
  let first ← indexToQubitPauli R (← idx stab 0) (← idx stab n)
  (List.range' 1 (n - 1)).foldlM (fun acc j => do
    let m ← indexToQubitPauli R (← idx stab j) (← idx stab (j + n))
    return acc.kron m) first

/-- `StabilizerCode.binary_rep_to_pauli_mat` (codes.py 1146-1185) on a two-dimensional array, given by its rows.
(The `TypeError` of line 1165 for other dimensions is excluded by the type.) -/
def binaryRepToPauliMat (rows : List (List ℤ)) : Except PyErr (List (Arr R)) :=
  rows.mapM (rowToPauliMat R)

end Matrices

/-- `a.dot(b)` for one-dimensional arrays: `ValueError` if the lengths differ. (codes.py 931) -/
def dot1 (a b : List ℤ) : Except PyErr ℤ :=
  if a.length = b.length then .ok (List.zipWith (· * ·) a b).sum else .error .value

/-- `StabilizerCode.inner_prod` (codes.py 912-931). -/
def innerProd (p q : List ℤ) : Except PyErr ℤ := do
  let n := p.length / 2
  let a ← dot1 (p.take n) (q.drop n)
  let b ← dot1 (p.drop n) (q.take n)
  return (a + b) % 2

end PyQ
