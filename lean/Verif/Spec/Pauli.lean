import Mathlib.Data.ZMod.Basic
import Mathlib.Data.Matrix.Basic
import Mathlib.Algebra.BigOperators.Fin

/-!
# Specification: Pauli letters and the symplectic form

Written without reference to the model.
-/

namespace PyQ.Spec

/-- The four Pauli letters. -/
def IsPauli (c : Char) : Prop := c = 'I' ∨ c = 'X' ∨ c = 'Y' ∨ c = 'Z'

instance (c : Char) : Decidable (IsPauli c) := inferInstanceAs (Decidable (_ ∨ _))

/-- A string consists of Pauli letters. -/
def IsPauliString (s : List Char) : Prop := ∀ c ∈ s, IsPauli c

/-- A vector of zeros and ones. -/
def IsBinary (b : List ℤ) : Prop := ∀ v ∈ b, v = 0 ∨ v = 1

/-- The pair of bits standing for a Pauli letter: X ↦ 10, Z ↦ 01, Y ↦ 11, I ↦ 00. -/
def bits (c : Char) : ℤ × ℤ :=
  if c = 'X' then (1, 0) else if c = 'Z' then (0, 1) else if c = 'Y' then (1, 1) else (0, 0)

/-- A Pauli operator on `n` qubits without its phase: `x j = 1` means a factor X on qubit `j`, `z j = 1` a factor Z;
both mean the factor XZ. -/
structure Pauli (n : ℕ) where
  x : Fin n → ZMod 2
  z : Fin n → ZMod 2

/-- `(-1)^a`. -/
def sgn {R : Type} [Ring R] (a : ZMod 2) : R := if a = 0 then 1 else -1

/-- `Σ_j a_j b_j` modulo two. -/
def dotp {n : ℕ} (a b : Fin n → ZMod 2) : ZMod 2 := ∑ j, a j * b j

/-- The symplectic form of two Pauli operators: the parity of the number of qubits on which they anticommute. -/
def symp {n : ℕ} (p q : Pauli n) : ZMod 2 := dotp p.x q.z + dotp p.z q.x

/-- The tensor product of `X^x_j Z^z_j` in the computational basis labelled by bit strings:
`|b⟩ ↦ (-1)^(z·b) |b + x⟩`. -/
def pauliMatrix {n : ℕ} (R : Type) [Ring R] (p : Pauli n) : Matrix (Fin n → ZMod 2) (Fin n → ZMod 2) R :=
  fun a b => if a = b + p.x then sgn (dotp p.z b) else 0

/-- The bit string of the basis index `i < 2^n`, qubit 0 being the most significant bit. -/
def bitsOf (n : ℕ) (i : ℕ) : Fin n → ZMod 2 := fun j => ((i / 2 ^ (n - 1 - j.val) : ℕ) : ZMod 2)

/-- The Pauli operator a binary row `(x | z)` of length `2n` stands for. -/
def rowPauli (n : ℕ) (b : List ℤ) : Pauli n :=
  ⟨fun j => ((b.getD j 0 : ℤ) : ZMod 2), fun j => ((b.getD (n + j) 0 : ℤ) : ZMod 2)⟩

end PyQ.Spec
