import Mathlib.LinearAlgebra.Matrix.Kronecker
import Mathlib.LinearAlgebra.Matrix.PosDef
import Mathlib.LinearAlgebra.UnitaryGroup
import Mathlib.Topology.Algebra.Star.Unitary
import Mathlib.Topology.Instances.Matrix
import Mathlib.MeasureTheory.Constructions.BorelSpace.Basic
import Mathlib.Analysis.Complex.Basic

/-!
# Specification: random unitaries used twice

A tester prepares a state of two copies of the register and of a system of their own, has the same unitary applied to
both copies, and then makes a measurement with two outcomes.  A random unitary is as good as a uniformly distributed
one for this tester if the probabilities of the outcomes are the same.
-/

namespace PyQ.Spec

open MeasureTheory Matrix
open scoped Kronecker ComplexOrder

variable {N : ℕ} {ι : Type} [Fintype ι] [DecidableEq ι]

/-- The operators of the system of the tester and two copies of the register. -/
abbrev TwoCopies (ι : Type) (N : ℕ) : Type :=
  Matrix (ι × ((Fin N → ZMod 2) × (Fin N → ZMod 2))) (ι × ((Fin N → ZMod 2) × (Fin N → ZMod 2))) ℂ

/-- The state `X` after `U` has acted on both copies of the register. -/
noncomputable def twice (U : Matrix (Fin N → ZMod 2) (Fin N → ZMod 2) ℂ) (X : TwoCopies ι N) : TwoCopies ι N :=
  ((1 : Matrix ι ι ℂ) ⊗ₖ (U ⊗ₖ U)) * X * ((1 : Matrix ι ι ℂ) ⊗ₖ (U ⊗ₖ U))ᴴ

/-- The outcome `yes` of a measurement: an operator between zero and one. -/
structure IsEffect {n : Type} [Fintype n] [DecidableEq n] (E : Matrix n n ℂ) : Prop where
  /-- Probabilities are not negative. -/
  nonneg : E.PosSemidef
  /-- Probabilities are at most one. -/
  le_one : (1 - E).PosSemidef

/-- The probability of the outcome `E` in the state `X`. -/
noncomputable def chance {n : Type} [Fintype n] (E X : Matrix n n ℂ) : ℝ := (E * X).trace.re

/-- The sets of unitaries that have a probability. -/
noncomputable instance : MeasurableSpace (unitaryGroup (Fin N → ZMod 2) ℂ) := borel _

instance : BorelSpace (unitaryGroup (Fin N → ZMod 2) ℂ) := ⟨rfl⟩

/-- `μ` is the uniform distribution of a unitary of the register. -/
structure UniformUnitaries (μ : Measure (unitaryGroup (Fin N → ZMod 2) ℂ)) : Prop where
  /-- It is a probability distribution. -/
  prob : μ Set.univ = 1
  /-- It does not change when a fixed unitary acts afterwards. -/
  left : ∀ W, μ.map (fun V => W * V) = μ
  /-- It does not change when a fixed unitary acts before. -/
  right : ∀ W, μ.map (fun V => V * W) = μ

end PyQ.Spec
