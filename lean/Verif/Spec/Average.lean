import Verif.Spec.Circuit
import Mathlib.MeasureTheory.Integral.Bochner.Basic
import Mathlib.MeasureTheory.Constructions.BorelSpace.Complex
import Mathlib.LinearAlgebra.Matrix.ConjTranspose

/-!
# Specification: the average fidelity of a channel

A channel is given by its Kraus operators.  The average runs over all pure states of the register, distributed
uniformly: the distribution does not change under any linear map that keeps the length of every vector.
-/

namespace PyQ.Spec

open MeasureTheory

variable {N : ℕ}

/-- The square of the length of a vector. -/
noncomputable def lenSq (ψ : Amp N) : ℝ := ∑ b, Complex.normSq (ψ b)

/-- A vector divided by its length. -/
noncomputable def direction (ψ : Amp N) : Amp N := ((Real.sqrt (lenSq ψ))⁻¹ : ℂ) • ψ

/-- `μ` is the uniform distribution of a normalised state of the register. -/
structure UniformStates (μ : Measure (Amp N)) : Prop where
  /-- It is a probability distribution. -/
  prob : μ Set.univ = 1
  /-- Only normalised states occur. -/
  normalised : ∀ᵐ ψ ∂μ, lenSq ψ = 1
  /-- No unitary map changes it. -/
  invariant : ∀ L : Amp N →ₗ[ℂ] Amp N, (∀ ψ, lenSq (L ψ) = lenSq ψ) → μ.map L = μ

/-- The fidelity of `ψ` with the image `∑ⱼ Kⱼ |ψ⟩⟨ψ| Kⱼ†` of `ψ`, which is `∑ⱼ |⟨ψ|Kⱼψ⟩|²`. -/
noncomputable def stateFidelity {J : ℕ} (K : Fin J → Matrix (Fin N → ZMod 2) (Fin N → ZMod 2) ℂ) (ψ : Amp N) : ℝ :=
  ∑ j, Complex.normSq (braket ψ ((K j).mulVec ψ))

/-- The average of the fidelity over the pure states distributed by `μ`. -/
noncomputable def avgFidelity {J : ℕ} (μ : Measure (Amp N))
    (K : Fin J → Matrix (Fin N → ZMod 2) (Fin N → ZMod 2) ℂ) : ℝ :=
  ∫ ψ, stateFidelity K ψ ∂μ

end PyQ.Spec
