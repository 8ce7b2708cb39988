import Verif.Spec.Circuit

/-!
# Specification: noise operators that act on some of the qubits
-/

namespace PyQ.Spec

/-- The operator acts on the qubits of `T` only: an entry vanishes unless the two labels agree on the other qubits, and it does not
depend on these. -/
def ActsOn {n : ℕ} (T : Finset (Fin n)) (A : Matrix (Fin n → ZMod 2) (Fin n → ZMod 2) ℂ) : Prop :=
  (∀ a b, A a b ≠ 0 → ∀ j ∉ T, a j = b j) ∧ ∀ a b d, (∀ j ∈ T, d j = 0) → A (a + d) (b + d) = A a b

/-- A Pauli operator that is the identity outside `T`. -/
def SupportedOn {n : ℕ} (T : Finset (Fin n)) (p : Pauli n) : Prop := ∀ j ∉ T, p.x j = 0 ∧ p.z j = 0

end PyQ.Spec
