import Verif.Model.Circuit

/-!
# `decoding_circuit` with all its effects

`decodingCircuit` gives the gates and `decodingReturn` the list returned; here both are put together with the measurements
and with what happens to the list `register` of the caller.
-/

namespace PyQ

open Spec

/-- What one call of `decoding_circuit` does: the gates sent, the qubits measured after them (in order), the list returned,
and the content of the caller's list `register` afterwards.  Qubits are given by their numbers. (codes.py 590-629) -/
structure DecodeRun where
  gates : List Gate
  measured : List ℕ
  returned : List ℕ
  register : List ℕ

/-- `decoding_circuit(eng, register, add_ancilla_bits, deallocate_nqubits)` (codes.py 590-629) on a register with `len`
qubits.  With `add_ancilla_bits` the statement `del register` (line 623) unbinds a local name and leaves the list of the
caller as it is; without it `del register[:self.n]` (line 627) removes the qubits from the list of the caller. -/
def decodingRun (c : StabCode) (len : ℕ) (addAncilla dealloc : Bool) : Except PyErr DecodeRun := do
  let gs ← decodingCircuit c len addAncilla
  let register := List.range len
  if dealloc then
    if addAncilla then
      return ⟨gs, register, decodingReturn c len addAncilla dealloc, register⟩
    else
      return ⟨gs, register.take c.n, decodingReturn c len addAncilla dealloc, register.drop c.n⟩
  else
    return ⟨gs, [], decodingReturn c len addAncilla dealloc, register⟩

end PyQ
