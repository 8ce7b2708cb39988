import Verif.Spec.Pauli
import Verif.Np
import Mathlib.Data.Complex.Basic
import Mathlib.Analysis.Real.Sqrt
import Mathlib.LinearAlgebra.Matrix.Notation
import Mathlib.Algebra.BigOperators.Fin

/-!
# Specification: state vectors and gates

A pure state of `N` qubits is its table of amplitudes.  A gate is a 2×2 matrix on one qubit, possibly controlled by
another qubit.  Written without reference to the model.
-/

namespace PyQ.Spec

/-- The amplitudes of a state of `N` qubits. -/
abbrev Amp (N : ℕ) := (Fin N → ZMod 2) → ℂ

/-- The computational basis state `|b⟩`. -/
def ket {N : ℕ} (b : Fin N → ZMod 2) : Amp N := fun a => if a = b then 1 else 0

/-- The inner product of two states. -/
noncomputable def braket {N : ℕ} (φ ψ : Amp N) : ℂ := ∑ b, (starRingEnd ℂ) (φ b) * ψ b

/-- The one-qubit operations sent to the engine: Hadamard, X, Z, Y and `-i Y`. -/
inductive Op | H | X | Z | Y | negIY
  deriving DecidableEq, Repr

/-- The matrix of an operation (a bit is an element of `ZMod 2`, that is of `Fin 2`). -/
noncomputable def opMat : Op → Matrix (ZMod 2) (ZMod 2) ℂ := fun op => show Matrix (Fin 2) (Fin 2) ℂ from match op with
  | .H => ((Real.sqrt 2 : ℝ) : ℂ)⁻¹ • !![1, 1; 1, -1]
  | .X => !![0, 1; 1, 0]
  | .Z => !![1, 0; 0, -1]
  | .Y => !![0, -Complex.I; Complex.I, 0]
  | .negIY => -Complex.I • !![0, -Complex.I; Complex.I, 0]

/-- A gate: an operation on the qubit `wire`, controlled by the qubit `ctrl` if there is one. -/
structure Gate where
  ctrl : Option ℕ
  op : Op
  wire : ℕ
  deriving DecidableEq, Repr

/-- The value of qubit `q` in a bit string (0 beyond the end). -/
def bitAt {N : ℕ} (b : Fin N → ZMod 2) (q : ℕ) : ZMod 2 := if h : q < N then b ⟨q, h⟩ else 0

/-- The bit string with qubit `q` set to `v`. -/
def setBit {N : ℕ} (b : Fin N → ZMod 2) (q : ℕ) (v : ZMod 2) : Fin N → ZMod 2 := fun j => if j.val = q then v else b j

/-- A gate acts only where its control is one. -/
def Gate.active {N : ℕ} (g : Gate) (b : Fin N → ZMod 2) : Prop := ∀ c ∈ g.ctrl, bitAt b c = 1

instance {N : ℕ} (g : Gate) (b : Fin N → ZMod 2) : Decidable (g.active b) := by unfold Gate.active; infer_instance

/-- The state after a gate. -/
noncomputable def applyGate {N : ℕ} (g : Gate) (ψ : Amp N) : Amp N := fun b =>
  if g.active b then ∑ v : ZMod 2, opMat g.op (bitAt b g.wire) v * ψ (setBit b g.wire v) else ψ b

/-- The state after a list of gates, first gate first. -/
noncomputable def run {N : ℕ} (gs : List Gate) (ψ : Amp N) : Amp N := gs.foldl (fun ψ g => applyGate g ψ) ψ

/-- A gate that acts on `N` qubits: its wires exist and its control is not its target. -/
def Gate.WF (N : ℕ) (g : Gate) : Prop := g.wire < N ∧ ∀ c ∈ g.ctrl, c < N ∧ c ≠ g.wire

/-- A Pauli operator (product of `X^x Z^z`) acting on a state. -/
noncomputable def pauliAct {n : ℕ} (p : Pauli n) (ψ : Amp n) : Amp n := (pauliMatrix ℂ p).mulVec ψ

/-- `2^(-r/2) ∏ (1 + g_i) |b⟩`, the factor of the first operator applied first. -/
noncomputable def projected {n : ℕ} (gs : List (Pauli n)) (b : Fin n → ZMod 2) : Amp n :=
  gs.foldl (fun ψ g => ((Real.sqrt 2 : ℝ) : ℂ)⁻¹ • (ψ + pauliAct g ψ)) (ket b)

/-- The label `(0^r, E δ, δ)` of the basis state from which the codeword of `δ` is built; `E` is the block of the lower
rows of the normal form in the last `k` Z columns. -/
def codeLabel (n k r : ℕ) (nf : Arr ℤ) (δ : ℕ → ZMod 2) : Fin n → ZMod 2 := fun j =>
  if j.val < r then 0
  else if j.val < n - k then ∑ i ∈ Finset.range k, ((nf.get j (n + (n - k) + i) : ℤ) : ZMod 2) * δ i
  else δ (j.val - (n - k))

/-- The encoded state of `δ` in closed form: `2^(-r/2) ∏_{i<r} (1 + g_i) |0^r, E δ, δ⟩` with `g_i` the Pauli operator of
row `i` of the normal form. -/
noncomputable def codeword (n k r : ℕ) (nf : Arr ℤ) (δ : ℕ → ZMod 2) : Amp n :=
  projected ((List.range r).map fun i => rowPauli n (nf.row i)) (codeLabel n k r nf δ)

/-- A list of bits as a function. -/
def bitFn (δ : List ℤ) : ℕ → ZMod 2 := fun i => ((δ.getD i 0 : ℤ) : ZMod 2)

/-- A bit string as a list of the integers 0 and 1. -/
def bitsList {k : ℕ} (δ : Fin k → ZMod 2) : List ℤ := List.ofFn fun i => (((δ i).val : ℕ) : ℤ)

/-- The Pauli operator of a string, as an operator on the first qubits of an `N`-qubit register. -/
def strPauli (N : ℕ) (s : List Char) : Pauli N :=
  ⟨fun j => (((bits (s.getD j 'I')).1 : ℤ) : ZMod 2), fun j => (((bits (s.getD j 'I')).2 : ℤ) : ZMod 2)⟩

/-- The state `ψ ⊗ φ`, the qubits of `ψ` first. -/
def tensor {n m : ℕ} (ψ : Amp n) (φ : Amp m) : Amp (n + m) :=
  fun b => ψ (fun j => b (Fin.castAdd m j)) * φ (fun j => b (Fin.natAdd n j))

/-- Probability of reading `v` on qubit `q`. -/
noncomputable def measProb {N : ℕ} (q : ℕ) (v : ZMod 2) (ψ : Amp N) : ℝ :=
  ∑ b, if bitAt b q = v then Complex.normSq (ψ b) else 0

/-- The state after reading `v` on qubit `q`: the amplitudes with another value are dropped, the rest is normalised. -/
noncomputable def collapse {N : ℕ} (q : ℕ) (v : ZMod 2) (ψ : Amp N) : Amp N := fun b =>
  if bitAt b q = v then ((Real.sqrt (measProb q v ψ) : ℝ) : ℂ)⁻¹ * ψ b else 0

/-- The state of a single qubit with a definite value. -/
def qubit (v : ZMod 2) : Amp 1 := ket fun _ => v

/-- Total probability one. -/
def Normalised {N : ℕ} (ψ : Amp N) : Prop := ∑ b, Complex.normSq (ψ b) = 1

end PyQ.Spec
