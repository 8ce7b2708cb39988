import Verif.Spec.Stabilizer
import Verif.Spec.Circuit

/-! # Specification: states with the qubits in another order -/

namespace PyQ.Spec

/-- The state in which qubit `j` is what was qubit `σ j`. -/
def permuteQubits {n : ℕ} (σ : Equiv.Perm (Fin n)) (ψ : Amp n) : Amp n := fun b => ψ (b ∘ σ.symm)

end PyQ.Spec
