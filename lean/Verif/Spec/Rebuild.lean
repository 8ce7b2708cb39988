import Verif.Model.Circuit

/-! # Specification: two codes with the same circuits -/

namespace PyQ.Spec

/-- Two codes send the same gates, and raise the same exceptions, on every call of every circuit builder. -/
structure SameCircuits (c c' : StabCode) : Prop where
  encoding : ∀ len δ, encodingCircuit c len δ = encodingCircuit c' len δ
  decoding : ∀ len add, decodingCircuit c len add = decodingCircuit c' len add
  logical : ∀ len op, logicalCircuit c len op = logicalCircuit c' len op
  syndrome : ∀ active len s, syndromeCircuit c active len s = syndromeCircuit c' active len s

end PyQ.Spec
