import Verif.Spec.Accept

/-! Lists of generators counted with any integer `k`. -/

namespace PyQ.Spec

/-- A list of `n - k` pairwise commuting generators on `n` qubits, where `k` may be negative. -/
structure CommutativeInt (l : List (List ℤ)) (n : ℕ) (k : ℤ) : Prop where
  nonempty : l ≠ []
  width : ∀ r ∈ l, r.length = 2 * n
  count : (l.length : ℤ) = n - k
  commute : ∀ p ∈ l, ∀ q ∈ l, symp (rowPauli n p) (rowPauli n q) = 0

end PyQ.Spec
