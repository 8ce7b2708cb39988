import Verif.Spec.Rounds
import Verif.Spec.Distance
import Verif.Props.BestTable
import Verif.Props.Rounds

/-! # Specification for C135: how often rounds of error correction succeed -/

namespace PyQ.Spec

open PyQ

/-- Rounds of error correction with the errors `es` give back every encoded state, times one number. -/
def Restored (c : StabCode) (k : ℕ) (table : List (ZMod 2) → List ℤ) (es : List (List ℤ)) : Prop :=
  ∃ z : ℂ, ∀ ψ, Encoded c c.n k ψ → Normalised ψ → ∀ φ, Rounds c table ψ es φ → φ = z • ψ

open Classical in
/-- In each of `m` rounds a Pauli error happens, independently of the other rounds and with probabilities `q`: the probability
that the rounds give back what was encoded. -/
noncomputable def restoredProb (c : StabCode) (k : ℕ) (q : Pauli c.n → ℝ) (table : List (ZMod 2) → List ℤ) (m : ℕ) : ℝ :=
  ∑ es : Fin m → Pauli c.n, if Restored c k table ((List.ofFn es).map pauliRow) then ∏ i, q (es i) else 0

/-- The product of the logical operators X listed by `a` and of the logical operators Z listed by `b`. -/
def logicalVec (c : StabCode) {k : ℕ} (a b : Fin k → ZMod 2) : BVec c.n :=
  ∑ i : Fin k, a i • (rowPauli c.n (c.logicalX.row i)).vec + ∑ i : Fin k, b i • (rowPauli c.n (c.logicalZ.row i)).vec

/-- The probability that the error of a single round times the correction the table holds for it anticommutes with the operator
`L`: that the round changes the sign of `L`. -/
noncomputable def flipProb (c : StabCode) (q : Pauli c.n → ℝ) (table : List (ZMod 2) → List ℤ) (L : BVec c.n) : ℝ :=
  ∑ p : Pauli c.n, if sympV L (p.vec + (rowPauli c.n (table (signs c.n c.iter p.vec))).vec) = 1 then q p else 0

/-- Independent noise on the qubits: `u 0 0`, `u 1 0`, `u 0 1`, `u 1 1` are the probabilities of no error, X, Z and Y. -/
def independentNoise {n : ℕ} (u : ZMod 2 → ZMod 2 → ℝ) (p : Pauli n) : ℝ := ∏ j, u (p.x j) (p.z j)

end PyQ.Spec
