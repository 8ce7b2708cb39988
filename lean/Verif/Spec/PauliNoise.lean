import Verif.Spec.StdChannels
import Verif.Spec.Choi

/-!
# Pauli noise on a qubit, and partial transposition

Independent of the code.
-/

namespace PyQ.Spec

open Matrix

/-- The identity and the Pauli matrices `X`, `Y`, `Z`. -/
def pauliOp : Fin 4 → Matrix (Fin 2) (Fin 2) ℂ :=
  ![!![1, 0; 0, 1], !![0, 1; 1, 0], !![0, -Complex.I; Complex.I, 0], !![1, 0; 0, -1]]

/-- The channel that applies the identity, `X`, `Y` or `Z` with the probabilities `w`. -/
noncomputable def pauliNoise (w : Fin 4 → ℝ) : Fin 4 → Matrix (Fin 2) (Fin 2) ℂ := fun k => amp (w k) • pauliOp k

/-- The partial transpose of a Choi matrix, on the input. -/
def transposeInput {n m : ℕ} (C : Matrix (Fin (n * m)) (Fin (n * m)) ℂ) : Matrix (Fin (n * m)) (Fin (n * m)) ℂ := fun i j =>
  C (finProdFinEquiv (j.divNat, i.modNat)) (finProdFinEquiv (i.divNat, j.modNat))

end PyQ.Spec
