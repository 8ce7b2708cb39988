import Verif.Spec.Circuit
import Verif.Spec.Distance

/-! # Specification: the size of a circuit -/

namespace PyQ.Spec

/-- The qubits on which a Pauli operator is not the identity, in increasing order. -/
def support {n : ℕ} (p : Pauli n) : List ℕ :=
  ((List.finRange n).filter fun j => decide (p.x j ≠ 0 ∨ p.z j ≠ 0)).map Fin.val

/-- The number of gates with a control. -/
def controlled (gs : List Gate) : ℕ := gs.countP fun g => g.ctrl.isSome

end PyQ.Spec
