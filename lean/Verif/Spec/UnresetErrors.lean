import Verif.Spec.NoisyCircuits

/-! # Specification for C150: measurements with errors and an ancilla that is not reset -/

namespace PyQ.Spec

open PyQ

/-- Calls of `single_syndrome_measurement`, each with a fresh ancilla, in which the Pauli operator `e i` hits the register and the
ancilla after the first `i` gates, for every `i`: the results, the probability of these results, and the state of the register
that remains. -/
inductive FreshErrorReadings (c : StabCode) :
    Amp c.n → List ((ℕ → Pauli (c.n + 1)) × StabArg) → List (ZMod 2) → ℝ → Amp c.n → Prop
  | nil (φ : Amp c.n) : FreshErrorReadings c φ [] [] 1 φ
  | cons {φ φ' φ'' : Amp c.n} {e : ℕ → Pauli (c.n + 1)} {s : StabArg} {l : List ((ℕ → Pauli (c.n + 1)) × StabArg)} {r : ZMod 2}
      {rs : List (ZMod 2)} {p : ℝ} {gs : List Gate} {w : ℕ} :
      syndromeCircuit c c.n c.n s = .ok (gs, w) → measProb w r (runNoisy gs e (tensor φ (qubit 0))) ≠ 0 →
      collapse w r (runNoisy gs e (tensor φ (qubit 0))) = tensor φ' (qubit r) → FreshErrorReadings c φ' l rs p φ'' →
      FreshErrorReadings c φ ((e, s) :: l) (r :: rs) (measProb w r (runNoisy gs e (tensor φ (qubit 0))) * p) φ''

/-- The same on an engine with `n + 1` qubits, the last of which serves for all the measurements and is never reset: the state of
all `n + 1` qubits. -/
inductive SharedErrorReadings (c : StabCode) :
    Amp (c.n + 1) → List ((ℕ → Pauli (c.n + 1)) × StabArg) → List (ZMod 2) → ℝ → Amp (c.n + 1) → Prop
  | nil (Ψ : Amp (c.n + 1)) : SharedErrorReadings c Ψ [] [] 1 Ψ
  | cons {Ψ Ψ' : Amp (c.n + 1)} {e : ℕ → Pauli (c.n + 1)} {s : StabArg} {l : List ((ℕ → Pauli (c.n + 1)) × StabArg)} {r : ZMod 2}
      {rs : List (ZMod 2)} {p : ℝ} {gs : List Gate} {w : ℕ} :
      syndromeCircuit c (c.n + 1) (c.n + 1) s = .ok (gs, w) → measProb w r (runNoisy gs e Ψ) ≠ 0 →
      SharedErrorReadings c (collapse w r (runNoisy gs e Ψ)) l rs p Ψ' →
      SharedErrorReadings c Ψ ((e, s) :: l) (r :: rs) (measProb w r (runNoisy gs e Ψ) * p) Ψ'

/-- The rows to be measured, with their errors, as arguments of `single_syndrome_measurement`. -/
def asArgs {n : ℕ} (l : List ((ℕ → Pauli (n + 1)) × List ℤ)) : List ((ℕ → Pauli (n + 1)) × StabArg) :=
  l.map fun x => (x.1, .bin x.2)

/-- Rounds of error correction as in `CircuitRounds` with one more qubit in the register, which serves for all the measurements
and is never reset: the user looks up the results of a round together with the last result of the round before (at first, the
value the qubit holds). -/
inductive SharedCircuitRounds (c : StabCode) (table : ZMod 2 → List (ZMod 2) → List ℤ) :
    Amp c.n → ZMod 2 → List (List (ℕ → Pauli (c.n + 1))) → Amp c.n → Prop
  | nil (φ : Amp c.n) (a : ZMod 2) : SharedCircuitRounds c table φ a [] φ
  | cons {φ φ' φ'' : Amp c.n} {a b : ZMod 2} {es : List (ℕ → Pauli (c.n + 1))} {ess : List (List (ℕ → Pauli (c.n + 1)))}
      {rs : List (ZMod 2)} {p : ℝ} {corr : List Gate} :
      SharedErrorReadings c (tensor φ (qubit a)) (asArgs (es.zip c.iter)) rs p (tensor φ' (qubit b)) →
      applyStabilizerCircuit c.n (.bin (table a rs)) = .ok corr →
      SharedCircuitRounds c table (run corr φ') (rs.getLastD a) ess φ'' →
      SharedCircuitRounds c table φ a (es :: ess) φ''

/-- What is left on the register, up to a phase, after these rounds: the table is looked up with running sums of what fresh
ancillas would give. -/
def leftoverCircuitShared (c : StabCode) (table : ZMod 2 → List (ZMod 2) → List ℤ) :
    BVec c.n → ZMod 2 → List (List (ℕ → Pauli (c.n + 1))) → BVec c.n
  | v, _, [] => v
  | v, a, es :: ess =>
    let p := readAll c v (es.zip c.iter)
    let rs := runningSums a p.1
    leftoverCircuitShared c table (p.2 + (rowPauli c.n (table a rs)).vec) (rs.getLastD a) ess

end PyQ.Spec
