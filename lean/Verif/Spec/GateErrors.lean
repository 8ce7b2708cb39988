import Verif.Model.Circuit
import Verif.Spec.Stabilizer

/-! # Specification for C147: an error inside a syndrome measurement -/

namespace PyQ.Spec

open PyQ

/-- The part of a Pauli operator on `n + 1` qubits that acts on the first `n`. -/
def regPart {n : ℕ} (q : Pauli (n + 1)) : Pauli n := ⟨fun j => q.x (Fin.castAdd 1 j), fun j => q.z (Fin.castAdd 1 j)⟩

/-- Whether it flips the last qubit. -/
def ancX {n : ℕ} (q : Pauli (n + 1)) : ZMod 2 := q.x (Fin.last n)

/-- Whether it changes the phase of the last qubit. -/
def ancZ {n : ℕ} (q : Pauli (n + 1)) : ZMod 2 := q.z (Fin.last n)

/-- The letters of `p` on the qubits that some gate of the list acts on. -/
def doneBy {n : ℕ} (gs : List Gate) (p : Pauli n) : Pauli n :=
  ⟨fun j => if ∃ g ∈ gs, g.wire = j.val then p.x j else 0, fun j => if ∃ g ∈ gs, g.wire = j.val then p.z j else 0⟩

/-- A call of `single_syndrome_measurement` with a fresh ancilla as in `FreshStep`, in which the Pauli operator `q` hits the
register and the ancilla after the first `i` gates. -/
def BrokenStep (c : StabCode) (i : ℕ) (q : Pauli (c.n + 1)) (φ : Amp c.n) (s : StabArg) (r : ZMod 2) (φ' : Amp c.n) : Prop :=
  ∃ gs w, syndromeCircuit c c.n c.n s = .ok (gs, w) ∧
    measProb w r (run (gs.drop i) (pauliAct q (run (gs.take i) (tensor φ (qubit 0))))) ≠ 0 ∧
    collapse w r (run (gs.drop i) (pauliAct q (run (gs.take i) (tensor φ (qubit 0))))) = tensor φ' (qubit r)

end PyQ.Spec
