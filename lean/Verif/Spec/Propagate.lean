import Verif.Spec.Circuit

/-! # Specification for C148: Pauli errors anywhere in a circuit -/

namespace PyQ.Spec

/-- The powers of X and Z in an operation that is a Pauli operator up to phase. -/
def opPauli : Op → ZMod 2 × ZMod 2
  | .H => (0, 0)
  | .X => (1, 0)
  | .Z => (0, 1)
  | .Y => (1, 1)
  | .negIY => (1, 1)

/-- The Pauli operator after the gate that does the same, up to a phase, as `q` before the gate.  A Hadamard gate exchanges X
and Z.  A controlled Pauli operator puts itself on the target if `q` flips the control, and Z on the control if it anticommutes
with `q`; since `-i Y` squares to `-1`, the controlled one puts one more Z on the control if `q` flips that. -/
def pushed {N : ℕ} (g : Gate) (q : Pauli N) : Pauli N :=
  match g.ctrl with
  | none =>
    if g.op = .H then ⟨setBit q.x g.wire (bitAt q.z g.wire), setBit q.z g.wire (bitAt q.x g.wire)⟩ else q
  | some c =>
    ⟨fun j => q.x j + if j.val = g.wire then bitAt q.x c * (opPauli g.op).1 else 0,
     fun j => q.z j + (if j.val = g.wire then bitAt q.x c * (opPauli g.op).2 else 0) +
      if j.val = c then
        (opPauli g.op).1 * bitAt q.z g.wire + (opPauli g.op).2 * bitAt q.x g.wire + (if g.op = .negIY then bitAt q.x c else 0)
      else 0⟩

/-- The state after a list of gates, when the Pauli operator `e i` happens after the first `i` of them, for every `i`. -/
noncomputable def runNoisy {N : ℕ} : List Gate → (ℕ → Pauli N) → Amp N → Amp N
  | [], e, ψ => pauliAct (e 0) ψ
  | g :: gs, e, ψ => runNoisy gs (fun i => e (i + 1)) (applyGate g (pauliAct (e 0) ψ))

/-- All these errors, taken through the gates that come after them and multiplied. -/
def totalError {N : ℕ} : List Gate → (ℕ → Pauli N) → Pauli N
  | [], e => e 0
  | g :: gs, e =>
    let p := gs.foldl (fun q g => pushed g q) (pushed g (e 0))
    let t := totalError gs fun i => e (i + 1)
    ⟨t.x + p.x, t.z + p.z⟩

/-- A gate all of whose effects on Pauli operators are again Pauli operators: a Hadamard gate without control, or a Pauli
operator with or without control. -/
def Gate.Plain (g : Gate) : Prop := g.op = .H → g.ctrl = none

end PyQ.Spec
