import Verif.Spec.Stabilizer

/-! # Specification: the distance of a list of generators -/

namespace PyQ.Spec

/-- The number of qubits on which a Pauli operator is not the identity. -/
def weight {n : ℕ} (p : Pauli n) : ℕ := (Finset.univ.filter fun j => p.x j ≠ 0 ∨ p.z j ≠ 0).card

/-- Every Pauli operator on fewer than `d` qubits that commutes with all generators is, up to phase, a product of
generators. -/
def DistanceAtLeast (n : ℕ) (rows : List (List ℤ)) (d : ℕ) : Prop :=
  ∀ p : Pauli n, (∀ g ∈ rows, symp (rowPauli n g) p = 0) → p.vec ∉ groupOf n rows → d ≤ weight p

end PyQ.Spec
