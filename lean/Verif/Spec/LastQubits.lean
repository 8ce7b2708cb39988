import Verif.Spec.Circuit

/-! What is seen on the last qubits of a register when the first ones are ignored. -/

namespace PyQ.Spec

open Matrix

/-- The density matrix of the last `k` of `n + k` qubits in the state `Ψ`, the first `n` being ignored. -/
noncomputable def lastQubits {n k : ℕ} (Ψ : Amp (n + k)) : Matrix (Fin k → ZMod 2) (Fin k → ZMod 2) ℂ :=
  fun x y => ∑ b : Fin n → ZMod 2, Ψ (Fin.append b x) * star (Ψ (Fin.append b y))

/-- The density matrix of a pure state. -/
noncomputable def pureState {k : ℕ} (ψ : Amp k) : Matrix (Fin k → ZMod 2) (Fin k → ZMod 2) ℂ := fun x y => ψ x * star (ψ y)

end PyQ.Spec
