import Verif.Spec.NoisyCircuits

/-! # Specification for C149: encoding, rounds of error correction and decoding, with errors everywhere -/

namespace PyQ.Spec

open PyQ

/-- The part of a Pauli operator on `n + m` qubits that acts on the first `n`. -/
def Pauli.onCode {n m : ℕ} (q : Pauli (n + m)) : Pauli n := ⟨fun j => q.x (Fin.castAdd m j), fun j => q.z (Fin.castAdd m j)⟩

/-- The part that acts on the last `m`. -/
def Pauli.onMessage {n m : ℕ} (q : Pauli (n + m)) : Pauli m := ⟨fun j => q.x (Fin.natAdd n j), fun j => q.z (Fin.natAdd n j)⟩

end PyQ.Spec
