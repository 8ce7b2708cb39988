import Verif.Spec.Circuit
import Verif.Spec.Concat

/-!
# Specification: encoding every qubit of a state

The `n * m` qubits are `n` blocks of `m` qubits, one after the other.
-/

namespace PyQ.Spec

/-- The state with `W i` on block `i`. -/
def blockState {n m : ℕ} (W : Fin n → Amp m) : Amp (n * m) := fun c => ∏ i, W i fun q => c (finProdFinEquiv (i, q))

/-- Every qubit of `φ` replaced by a block of `m` qubits: `|0⟩` by the state `w 0` and `|1⟩` by the state `w 1`. -/
noncomputable def blockEncode {n m : ℕ} (w : ZMod 2 → Amp m) (φ : Amp n) : Amp (n * m) :=
  ∑ b : Fin n → ZMod 2, φ b • blockState fun i => w (b i)

end PyQ.Spec
