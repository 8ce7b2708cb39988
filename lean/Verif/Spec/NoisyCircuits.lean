import Verif.Spec.Propagate
import Verif.Spec.GateErrors
import Verif.Spec.Rounds

/-! # Specification for C148: error correction with Pauli errors anywhere in the measurements -/

namespace PyQ.Spec

open PyQ

/-- A call of `single_syndrome_measurement` with a fresh ancilla as in `FreshStep`, in which the Pauli operator `e i` hits the
register and the ancilla after the first `i` gates, for every `i`. -/
def NoisyStep (c : StabCode) (e : ℕ → Pauli (c.n + 1)) (φ : Amp c.n) (s : StabArg) (r : ZMod 2) (φ' : Amp c.n) : Prop :=
  ∃ gs w, syndromeCircuit c c.n c.n s = .ok (gs, w) ∧ measProb w r (runNoisy gs e (tensor φ (qubit 0))) ≠ 0 ∧
    collapse w r (runNoisy gs e (tensor φ (qubit 0))) = tensor φ' (qubit r)

/-- Such calls, one after the other, each with its errors. -/
inductive CircuitReadings (c : StabCode) : Amp c.n → List ((ℕ → Pauli (c.n + 1)) × List ℤ) → List (ZMod 2) → Amp c.n → Prop
  | nil (φ : Amp c.n) : CircuitReadings c φ [] [] φ
  | cons {φ φ' φ'' : Amp c.n} {e : ℕ → Pauli (c.n + 1)} {g : List ℤ} {es : List ((ℕ → Pauli (c.n + 1)) × List ℤ)} {r : ZMod 2}
      {rs : List (ZMod 2)} :
      NoisyStep c e φ (.bin g) r φ' → CircuitReadings c φ' es rs φ'' → CircuitReadings c φ ((e, g) :: es) (r :: rs) φ''

/-- Rounds of error correction as in `Rounds`, in which all errors happen inside the measurements, a list of errors for every
measurement.  An error before a round is one before the first gate of its first measurement. -/
inductive CircuitRounds (c : StabCode) (table : List (ZMod 2) → List ℤ) :
    Amp c.n → List (List (ℕ → Pauli (c.n + 1))) → Amp c.n → Prop
  | nil (φ : Amp c.n) : CircuitRounds c table φ [] φ
  | cons {φ φ' φ'' : Amp c.n} {es : List (ℕ → Pauli (c.n + 1))} {ess : List (List (ℕ → Pauli (c.n + 1)))} {rs : List (ZMod 2)}
      {corr : List Gate} :
      CircuitReadings c φ (es.zip c.iter) rs φ' →
      applyStabilizerCircuit c.n (.bin (table rs)) = .ok corr → CircuitRounds c table (run corr φ') ess φ'' →
      CircuitRounds c table φ (es :: ess) φ''

/-- All errors of the measurement of the row `g`, taken to its end. -/
def stepError (c : StabCode) (g : List ℤ) (e : ℕ → Pauli (c.n + 1)) : Pauli (c.n + 1) :=
  match syndromeCircuit c c.n c.n (.bin g) with
  | .ok (gs, _) => totalError gs e
  | .error _ => ⟨0, 0⟩

/-- The results of the measurements and what is on the register in the end, up to a phase, if `v` is there to begin with. -/
def readAll (c : StabCode) : BVec c.n → List ((ℕ → Pauli (c.n + 1)) × List ℤ) → List (ZMod 2) × BVec c.n
  | v, [] => ([], v)
  | v, (e, g) :: l =>
    let p := readAll c (v + (regPart (stepError c g e)).vec) l
    ((sympV (rowPauli c.n g).vec v + ancX (stepError c g e)) :: p.1, p.2)

/-- What is left on the register, up to a phase, after the rounds. -/
def leftoverCircuit (c : StabCode) (table : List (ZMod 2) → List ℤ) : BVec c.n → List (List (ℕ → Pauli (c.n + 1))) → BVec c.n
  | v, [] => v
  | v, es :: ess =>
    let p := readAll c v (es.zip c.iter)
    leftoverCircuit c table (p.2 + (rowPauli c.n (table p.1)).vec) ess

end PyQ.Spec
