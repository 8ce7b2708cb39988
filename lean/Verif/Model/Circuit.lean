import Verif.Model.Stabilizer
import Verif.Spec.Circuit

/-!
# The circuit builders of `StabilizerCode` (`PyQCodes/codes.py` 359-685)

An engine is modelled by the list of gates sent to it.  Qubits are named by their position in the register; qubits the
builder allocates itself come after the register.  `eng.flush()` and `print` have no effect on the gates.
`QubitOperator('Yj', -1.j) | register` is the gate `-i Y` on `register[j]`, `QubitOperator('Yj', 1.)` is `Y`.
When a builder raises, the gates it sent before are not recorded here; they are in `Model/Sent`.
-/

namespace PyQ

open Spec (Gate Op)

/-- `register[q]`: `IndexError` when the register is too short.
(codes.py 413-421, 462, 474, 491-498, 537-539, 603, 613-617, 680-684) -/
def onWire (len q : ℕ) : Except PyErr ℕ := if q < len then .ok q else .error .index

/-- `QubitOperator('Yq', ...) | register`: ProjectQ raises `ValueError` when the register is too short.
(codes.py 417, 494, 544, 615, 682) -/
def onQureg (len q : ℕ) : Except PyErr ℕ := if q < len then .ok q else .error .value

/-- The gates for one letter of a Pauli string (codes.py 489-498, 611-617, 679-684; letters other than X, Y, Z send none). -/
def letterGates (len : ℕ) (ctrl : Option ℕ) (q : ℕ) (c : Char) : Except PyErr (List Gate) :=
  if c = 'X' then do return [⟨ctrl, .X, ← onWire len q⟩]
  else if c = 'Y' then do return [⟨ctrl, .negIY, ← onQureg len q⟩]
  else if c = 'Z' then do return [⟨ctrl, .Z, ← onWire len q⟩]
  else .ok []

/-- `for j, pauli_op in enumerate(pauli_str)` (codes.py 611-617, 678-684). -/
def pauliGates (len : ℕ) (ctrl : Option ℕ) (s : List Char) : Except PyErr (List Gate) := do
  let l ← s.zipIdx.mapM fun cj => letterGates len ctrl cj.2 cj.1
  return l.flatten

/-- The X gate for one entry of the state (codes.py 459-462). -/
def prepareBit (n k : ℕ) (bi : ℤ × ℕ) : Except PyErr (List Gate) := do
  pyAssert (bi.1 = 0 ∨ bi.1 = 1)
  return if bi.1 = 1 then [⟨none, .X, n - k + bi.2⟩] else []

/-- The controlled X gates of logical X operator `i` (codes.py 470-475).  `register[i - k]` counts from the end. -/
def logicalXGates (c : StabCode) (i : ℕ) : List Gate :=
  (List.range' c.rank (c.n - c.k - c.rank)).flatMap fun q =>
    if c.logicalX.get i q = 1 then [⟨some (c.n - c.k + i), .X, q⟩] else []

/-- One letter of a generator inside the encoder: nothing on the control qubit itself (codes.py 488-499). -/
def generatorLetter (len i : ℕ) (cj : Char × ℕ) : Except PyErr (List Gate) :=
  if cj.2 ≠ i then letterGates len (some i) cj.2 cj.1 else .ok []

/-- The gates for generator `i` of the first kind (codes.py 481-499). -/
def generatorGates (c : StabCode) (len i : ℕ) : Except PyErr (List Gate) := do
  let s ← binaryRepToPauliStr (c.normalForm.row i)
  let l ← s.zipIdx.mapM (generatorLetter len i)
  return ⟨none, .H, i⟩ :: l.flatten

/-- `encoding_circuit` (codes.py 434-500) on a register of length `len`.  Line 470 raises `IndexError` if there are fewer
than `k` logical X operators. -/
def encodingCircuit (c : StabCode) (len : ℕ) (state : List ℤ) : Except PyErr (List Gate) := do
  pyAssert (state.length = c.k)
  pyAssert (len = c.n)
  let prep ← state.zipIdx.mapM (prepareBit c.n c.k)
  let lx ← (if c.rank < c.stab.rows then
      if c.logicalX.rows < c.k then .error .index else .ok ((List.range c.k).reverse.flatMap (logicalXGates c))
    else .ok [] : Except PyErr (List Gate))
  let gens ← (List.range c.rank).mapM (generatorGates c len)
  return prep.flatten ++ lx ++ gens.flatten

/-- The argument `stabilizer` of the functions below: a string, or a binary row. (codes.py 359, 502) -/
inductive StabArg
  | str (s : List Char)
  | bin (b : List ℤ)

/-- One letter of `apply_stabilizer_circuit` (codes.py 534-544): here Y is the gate Y itself. -/
def applyLetter (len : ℕ) (cj : Char × ℕ) : Except PyErr (List Gate) :=
  if cj.1 = 'X' then do return [⟨none, .X, ← onWire len cj.2⟩]
  else if cj.1 = 'Z' then do return [⟨none, .Z, ← onWire len cj.2⟩]
  else if cj.1 = 'Y' then do return [⟨none, .Y, ← onQureg len cj.2⟩]
  else .ok []

/-- `apply_stabilizer_circuit` (codes.py 502-545).  With a string the local `pauli_str` is never assigned and line 534
raises `UnboundLocalError`. -/
def applyStabilizerCircuit (len : ℕ) (stabilizer : StabArg) : Except PyErr (List Gate) :=
  match stabilizer with
  | .str _ => .error .unboundLocal
  | .bin b => do
    let s ← binaryRepToPauliStr b
    let l ← s.zipIdx.mapM (applyLetter len)
    return l.flatten

/-- `logical_z[i]` and `logical_x[i]`: `IndexError` when there is no such row. (codes.py 600, 607, 667-675) -/
def rowAt (A : Arr ℤ) (i : ℕ) : Except PyErr (List ℤ) := if i < A.rows then .ok (A.row i) else .error .index

/-- The CNOT gates towards ancilla `i` (codes.py 599-603); ancilla `i` is the wire `n + i`, or a fresh qubit. -/
def copyGates (c : StabCode) (len base total i : ℕ) : Except PyErr (List Gate) := do
  let z ← rowAt c.logicalZ i
  let l ← (z.drop c.n).zipIdx.mapM fun vj =>
    if vj.1 = 1 then do return [(⟨some (← onWire len vj.2), .X, ← onWire total (base + i)⟩ : Gate)] else .ok []
  return l.flatten

/-- The controlled logical X operator `i` (codes.py 606-617). -/
def uncomputeGates (c : StabCode) (len base total i : ℕ) : Except PyErr (List Gate) := do
  let x ← rowAt c.logicalX i
  let a ← onWire total (base + i)
  let s ← binaryRepToPauliStr x
  pauliGates len (some a) s

/-- `decoding_circuit` (codes.py 547-629): the gates sent.  With `add_ancilla_bits` the ancillas are `k` fresh qubits after
the register of length `len`; without it they are `register[n:]`.  The measurements and deletions of lines 620-627 happen
after all gates and are not modelled. -/
def decodingCircuit (c : StabCode) (len : ℕ) (addAncilla : Bool) : Except PyErr (List Gate) := do
  let base := if addAncilla then len else c.n
  let total := if addAncilla then len + c.k else len
  let copy ← (List.range c.k).mapM (copyGates c len base total)
  let unc ← (List.range c.k).mapM (uncomputeGates c len base total)
  return copy.flatten ++ unc.flatten

/-- The wires in the list returned by `decoding_circuit` (codes.py 620-629).  `register + register_ancilla` repeats the
ancillas when they were part of the register. -/
def decodingReturn (c : StabCode) (len : ℕ) (addAncilla dealloc : Bool) : List ℕ :=
  let anc := if addAncilla then List.range' len c.k else List.range' c.n (len - c.n)
  if dealloc then anc else List.range len ++ anc

/-- The row selected by `logical_circuit` (codes.py 664-676). -/
def logicalRow (c : StabCode) (p : Char) (i : ℕ) : Except PyErr (List ℤ) :=
  if p = 'X' then rowAt c.logicalX i
  else if p = 'Z' then rowAt c.logicalZ i
  else do
    let z ← rowAt c.logicalZ i
    let x ← rowAt c.logicalX i
    return (List.zipWith (· + ·) z x).map (· % 2)

/-- `int(ch)` for one character: its value for the digits 0-9, `ValueError` otherwise.  (Digits of other alphabets,
which Python accepts, are outside the model.) (codes.py 664-675) -/
def intOfChar (ch : Char) : Except PyErr ℕ :=
  if '0' ≤ ch ∧ ch ≤ '9' then .ok (ch.toNat - '0'.toNat) else .error .value

/-- `logical_circuit` (codes.py 631-685). -/
def logicalCircuit (c : StabCode) (len : ℕ) (op : List Char) : Except PyErr (List Gate) :=
  match op with
  | [p, d] => do
    pyAssert (p = 'X' ∨ p = 'Y' ∨ p = 'Z')
    let i ← intOfChar d
    pyAssert (i < c.k)
    let row ← logicalRow c p i
    let s ← binaryRepToPauliStr row
    pauliGates len none s
  | _ => .error .assertion

/-- One letter of the controlled block of `single_syndrome_measurement` (codes.py 411-421). -/
def syndromeLetter (len : ℕ) (anc : ℕ) (cj : Char × ℕ) : Except PyErr (List Gate) :=
  if cj.1 = 'X' ∨ cj.1 = 'Y' ∨ cj.1 = 'Z' then letterGates len (some anc) cj.2 cj.1
  else if cj.1 = 'I' then .ok []
  else .error .runtime

/-- `single_syndrome_measurement` (codes.py 359-432) up to the measurement: the gates sent and the qubit measured.
`active` is the number of active qubits of the engine, `len` the length of the register.  With `active = n` a fresh
qubit (after the register) is the ancilla, otherwise the last qubit of the register is. -/
def syndromeCircuit (c : StabCode) (active len : ℕ) (stabilizer : StabArg) : Except PyErr (List Gate × ℕ) := do
  if active ≠ c.n ∧ active ≠ c.n + 1 then .error .type
  else
    let anc ← (if active = c.n then .ok len else if len = 0 then .error .index else .ok (len - 1) : Except PyErr ℕ)
    let s ← (match stabilizer with
      | .str s => .ok s
      | .bin b => binaryRepToPauliStr b : Except PyErr (List Char))
    let l ← s.zipIdx.mapM (syndromeLetter len anc)
    return (⟨none, .H, anc⟩ :: l.flatten ++ [⟨none, .H, anc⟩], anc)

/-- One call of `single_syndrome_measurement` on an engine with `n + 1` qubits in state `Ψ` (codes.py 425-432): `r` is a
possible reading, `Ψ'` the state afterwards. -/
def SharedStep (c : StabCode) (Ψ : Spec.Amp (c.n + 1)) (s : StabArg) (r : ZMod 2) (Ψ' : Spec.Amp (c.n + 1)) : Prop :=
  ∃ gs q, syndromeCircuit c (c.n + 1) (c.n + 1) s = .ok (gs, q) ∧
    Spec.measProb q r (Spec.run gs Ψ) ≠ 0 ∧ Ψ' = Spec.collapse q r (Spec.run gs Ψ)

/-- One call on an engine with `n` qubits in state `φ` (codes.py 398-399, 425-432): a qubit in state 0 is allocated, read,
and deleted; `φ'` is the state of the register that remains. -/
def FreshStep (c : StabCode) (φ : Spec.Amp c.n) (s : StabArg) (r : ZMod 2) (φ' : Spec.Amp c.n) : Prop :=
  ∃ gs q, syndromeCircuit c c.n c.n s = .ok (gs, q) ∧
    Spec.measProb q r (Spec.run gs (Spec.tensor φ (Spec.qubit 0))) ≠ 0 ∧
    Spec.collapse q r (Spec.run gs (Spec.tensor φ (Spec.qubit 0))) = Spec.tensor φ' (Spec.qubit r)

/-- A sequence of calls, each starting from the state the previous one left: the results and the last state.
(codes.py 359-432) -/
inductive History {σ : Type} (step : σ → StabArg → ZMod 2 → σ → Prop) : σ → List StabArg → List (ZMod 2) → σ → Prop
  | nil (x : σ) : History step x [] [] x
  | cons {x y z : σ} {s : StabArg} {r : ZMod 2} {ss : List StabArg} {rs : List (ZMod 2)} :
      step x s r y → History step y ss rs z → History step x (s :: ss) (r :: rs) z

end PyQ
