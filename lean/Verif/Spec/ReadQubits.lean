import Verif.Spec.Circuit

/-! # Specification for C144: reading qubits of the register one after the other -/

namespace PyQ.Spec

/-- The qubits in the list are read one after the other: the results, the probability of these results, and the state that
remains. -/
inductive QubitReadings {n : ℕ} : Amp n → List ℕ → List (ZMod 2) → ℝ → Amp n → Prop
  | nil (ψ : Amp n) : QubitReadings ψ [] [] 1 ψ
  | cons {ψ ψ' : Amp n} {q : ℕ} {qs : List ℕ} {r : ZMod 2} {rs : List (ZMod 2)} {p : ℝ} :
      measProb q r ψ ≠ 0 → QubitReadings (collapse q r ψ) qs rs p ψ' → QubitReadings ψ (q :: qs) (r :: rs) (measProb q r ψ * p) ψ'

end PyQ.Spec
