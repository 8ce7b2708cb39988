import Verif.Model.Stabilizer

/-!
# `normalizer`, `undetectable_errors` and `generator_set_pauli_elements` (`PyQCodes/codes.py` 687-698, 933-973)

`normalizer` calls `self._commute` and `undetectable_errors` calls `self._convert_binary_representation_to_pauli`.
Neither name is defined in the class, its base class or anywhere else in the package, so looking them up raises
`AttributeError`.  The two lookups are arguments of the definitions ending in `With`: this gives both the code as it is
and the code with the two missing methods supplied.
-/

namespace PyQ

/-- `itertools.product([0, 1], repeat=m)` as lists (codes.py 959, 962): the last entry varies fastest. -/
def productBits : ℕ → List (List ℤ)
  | 0 => [[]]
  | m + 1 => [0, 1].flatMap fun b => (productBits m).map (b :: ·)

/-- The inner loop of `normalizer` (codes.py 963-969): stops at the first generator that does not commute. -/
def commutesAll (commute : List ℤ → List ℤ → Except PyErr Bool) (rows : List (List ℤ)) (p : List ℤ) : Except PyErr Bool :=
  rows.allM fun stab => commute stab p

/-- `normalizer` (codes.py 945-973) with the method `_commute` as an argument; the array returned is its list of rows. -/
def normalizerWith (commute : List ℤ → List ℤ → Except PyErr Bool) (c : StabCode) : Except PyErr (List (List ℤ)) :=
  (productBits (2 * c.n)).foldlM (fun acc p => do
    let ok ← commutesAll commute ((List.range c.stab.rows).map c.stab.row) p
    return if ok then acc ++ [p] else acc) []

/-- `undetectable_errors` (codes.py 687-698) with the two missing methods as arguments. -/
def undetectableWith (commute : List ℤ → List ℤ → Except PyErr Bool) (convert : List ℤ → Except PyErr (List Char))
    (c : StabCode) : Except PyErr (List (List Char)) := do
  (← normalizerWith commute c).mapM convert

/-- `normalizer` as it is: `self._commute` does not exist (codes.py 967). -/
def normalizer (c : StabCode) : Except PyErr (List (List ℤ)) := normalizerWith (fun _ _ => .error .attribute) c

/-- `undetectable_errors` as it is (codes.py 697-698). -/
def undetectableErrors (c : StabCode) : Except PyErr (List (List Char)) :=
  undetectableWith (fun _ _ => .error .attribute) (fun _ => .error .attribute) c

/-- The method `_commute` that `normalizer` needs, written with the existing `inner_prod` (codes.py 912-931).  It is not
part of the code. -/
def commuteByInnerProd (stab p : List ℤ) : Except PyErr Bool := do
  let v ← innerProd stab p
  return v = 0

/-- `np.vstack((A, B))` for arrays with the same number of columns. (codes.py 943) -/
def Arr.vstack {α : Type} (A B : Arr α) : Arr α :=
  ⟨A.rows + B.rows, A.cols, fun i j => if i < A.rows then A.get i j else B.get (i - A.rows) j⟩

/-- `x_comps[i][i] += 1` (codes.py 941). -/
def bumpDiag (A : Arr ℤ) (i : ℕ) : Arr ℤ :=
  ⟨A.rows, A.cols, fun r c => if r = i ∧ c = i then A.get r c + 1 else A.get r c⟩

/-- `generator_set_pauli_elements` (codes.py 933-943). -/
def generatorSetPauliElements (c : StabCode) : Arr ℤ :=
  let zeros : Arr ℤ := Arr.zeros c.n c.n
  let x := (List.range c.n).foldl bumpDiag zeros
  (x.hstack zeros).vstack (zeros.hstack x)

end PyQ
