import Verif.Spec.Circuit
import Mathlib.Analysis.SpecialFunctions.Complex.Circle

/-!
# Specification: circuits with phase gates

A state of `N` qubits is its table of amplitudes, as in `Verif.Spec.Circuit`.
-/

namespace PyQ.Spec

/-- A gate of the device: the phase gate `R(θ) = diag(1, exp(iθ))` on a qubit, possibly controlled by another
qubit, or the Hadamard gate. -/
inductive DGate
  | R (ctrl : Option ℕ) (θ : ℝ) (wire : ℕ)
  | H (wire : ℕ)

/-- The state after a gate. -/
noncomputable def applyD {N : ℕ} : DGate → Amp N → Amp N
  | .R ctrl θ wire => fun ψ b =>
      if (∀ c ∈ ctrl, bitAt b c = 1) ∧ bitAt b wire = 1 then Complex.exp (θ * Complex.I) * ψ b else ψ b
  | .H wire => applyGate ⟨none, .H, wire⟩

/-- The state after a list of gates, first gate first. -/
noncomputable def runD {N : ℕ} (gs : List DGate) (ψ : Amp N) : Amp N := gs.foldl (fun ψ g => applyD g ψ) ψ

end PyQ.Spec
