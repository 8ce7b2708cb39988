import Verif.Spec.Stabilizer

/-! What decides whether a list of 0/1 rows is accepted as a stabilizer code. -/

namespace PyQ.Spec

/-- The X half of a list of rows, with entries in `R`. -/
def xHalf (R : Type) [Ring R] (l : List (List ℤ)) (n : ℕ) : Matrix (Fin l.length) (Fin n) R :=
  Matrix.of fun i j => ((l[i].getD j 0 : ℤ) : R)

/-- A list of `n - k` pairwise commuting generators on `n` qubits; nothing is said about independence. -/
structure Commutative (l : List (List ℤ)) (n k : ℕ) : Prop where
  nonempty : l ≠ []
  width : ∀ r ∈ l, r.length = 2 * n
  count : l.length + k = n
  commute : ∀ p ∈ l, ∀ q ∈ l, symp (rowPauli n p) (rowPauli n q) = 0

/-- The X half has the same rank over the rationals as modulo two. -/
def RanksAgree (l : List (List ℤ)) (n : ℕ) : Prop := (xHalf ℚ l n).rank = (xHalf (ZMod 2) l n).rank

/-- A list that `np.array` does not turn into an array with rows: it is empty or its rows have different lengths. -/
def Ragged (l : List (List ℤ)) : Prop := l = [] ∨ ∃ p ∈ l, ∃ q ∈ l, p.length ≠ q.length

/-- The same generator with the qubits renamed. -/
def renamed (n : ℕ) (π : Equiv.Perm (Fin n)) (r : List ℤ) : List ℤ :=
  (List.ofFn fun j : Fin n => r.getD (π j) 0) ++ List.ofFn fun j : Fin n => r.getD (n + π j) 0

end PyQ.Spec
