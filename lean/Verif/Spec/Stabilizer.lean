import Verif.Spec.Pauli
import Verif.Np
import Mathlib.LinearAlgebra.Span.Basic
import Mathlib.LinearAlgebra.Dimension.Finrank
import Mathlib.LinearAlgebra.Pi
import Mathlib.LinearAlgebra.Prod
import Mathlib.LinearAlgebra.Matrix.Rank

/-!
# Specification: binary generator arrays, the group they generate, relabelling of qubits
-/

namespace PyQ.Spec

/-- A Pauli operator up to phase as a vector `(x, z)` over the field with two elements. -/
abbrev BVec (n : ℕ) := (Fin n → ZMod 2) × (Fin n → ZMod 2)

/-- The vector of a Pauli. -/
def Pauli.vec {n : ℕ} (p : Pauli n) : BVec n := (p.x, p.z)

/-- The Pauli of a vector. -/
def ofVec {n : ℕ} (v : BVec n) : Pauli n := ⟨v.1, v.2⟩

/-- The parity of the number of Y's. -/
def parityY {n : ℕ} (p : Pauli n) : ZMod 2 := dotp p.z p.x

/-- The symplectic form on vectors: 0 if the Paulis commute, 1 if they anticommute. -/
def sympV {n : ℕ} (u v : BVec n) : ZMod 2 := dotp u.1 v.2 + dotp u.2 v.1

/-- Row `i` of an array with columns `(x | z)` on `n` qubits, modulo two. -/
def rowVec (n : ℕ) (A : Arr ℤ) (i : ℕ) : BVec n :=
  (fun j => ((A.get i j : ℤ) : ZMod 2), fun j => ((A.get i (n + j) : ℤ) : ZMod 2))

/-- The group (up to phases) generated by the rows. -/
def rowSpan (n : ℕ) (A : Arr ℤ) : Submodule (ZMod 2) (BVec n) :=
  Submodule.span (ZMod 2) (Set.range fun i : Fin A.rows => rowVec n A i)

/-- Renaming of the qubits, applied to the X and to the Z part. -/
def relabel {n : ℕ} (σ : Equiv.Perm (Fin n)) : BVec n ≃ₗ[ZMod 2] BVec n where
  toFun v := (v.1 ∘ σ, v.2 ∘ σ)
  invFun v := (v.1 ∘ σ.symm, v.2 ∘ σ.symm)
  map_add' _ _ := rfl
  map_smul' _ _ := rfl
  left_inv v := by ext j <;> simp
  right_inv v := by ext j <;> simp

/-- All rows commute pairwise. -/
def Commuting (n : ℕ) (A : Arr ℤ) : Prop :=
  ∀ i < A.rows, ∀ j < A.rows, sympV (rowVec n A i) (rowVec n A j) = 0

/-- The rows are independent generators. -/
def Independent (n : ℕ) (A : Arr ℤ) : Prop :=
  LinearIndependent (ZMod 2) fun i : Fin A.rows => rowVec n A i

/-- All entries are zero or one. -/
def BinaryArr (A : Arr ℤ) : Prop := ∀ i < A.rows, ∀ j < A.cols, A.get i j = 0 ∨ A.get i j = 1

/-- The rank of the X half modulo two. -/
noncomputable def xRank2 (n : ℕ) (A : Arr ℤ) : ℕ :=
  Matrix.rank (Matrix.of fun (i : Fin A.rows) (j : Fin n) => ((A.get i j : ℤ) : ZMod 2))

/-- The rank of the X half over the rationals. -/
noncomputable def xRankQ (n : ℕ) (A : Arr ℤ) : ℕ :=
  Matrix.rank (Matrix.of fun (i : Fin A.rows) (j : Fin n) => ((A.get i j : ℤ) : ℚ))

/-- The documented normal form `[I A1 A2 | B C1 C2; 0 0 0 | D I E]` with `r` rows in the upper part. -/
structure NormalShape (n k r : ℕ) (A : Arr ℤ) : Prop where
  rows : A.rows + k = n
  cols : A.cols = 2 * n
  rank_le : r ≤ A.rows
  binary : BinaryArr A
  upperI : ∀ i < r, ∀ j < r, A.get i j = if i = j then 1 else 0
  lowerX : ∀ i, r ≤ i → i < A.rows → ∀ j < n, A.get i j = 0
  lowerI : ∀ i, r ≤ i → i < A.rows → ∀ j, r ≤ j → j < A.rows → A.get i (n + j) = if i = j then 1 else 0

/-- The binary row `(x | z)` of a string of Pauli letters. -/
def stringRow (p : List Char) : List ℤ := p.map (fun c => (bits c).1) ++ p.map (fun c => (bits c).2)

/-- The group (up to phases) generated by a list of binary rows. -/
def groupOf (n : ℕ) (rows : List (List ℤ)) : Submodule (ZMod 2) (BVec n) :=
  Submodule.span (ZMod 2) {v | ∃ r ∈ rows, v = (rowPauli n r).vec}

end PyQ.Spec
