import Verif.Spec.Circuit

/-!
# Measuring several qubits

Specification of `All(Measure) | qubits`: the qubits are read one after the other.
-/

namespace PyQ.Spec

/-- `Reads Ψ qs rs p Ψ'`: reading the qubits `qs` in this order on the state `Ψ` can give the values `rs`; this has
probability `p` and leaves the state `Ψ'`. -/
inductive Reads {N : ℕ} : Amp N → List ℕ → List (ZMod 2) → ℝ → Amp N → Prop
  | nil (Ψ : Amp N) : Reads Ψ [] [] 1 Ψ
  | cons {Ψ Ψ' : Amp N} {q : ℕ} {r : ZMod 2} {qs : List ℕ} {rs : List (ZMod 2)} {p : ℝ} :
      measProb q r Ψ ≠ 0 → Reads (collapse q r Ψ) qs rs p Ψ' → Reads Ψ (q :: qs) (r :: rs) (measProb q r Ψ * p) Ψ'

end PyQ.Spec
