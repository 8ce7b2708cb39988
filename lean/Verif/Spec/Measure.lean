import Verif.Spec.Circuit

/-!
# Specification: measuring a Pauli operator

The textbook measurement of an observable with eigenvalues 1 and -1.  Written without reference to the model.
-/

namespace PyQ.Spec

/-- Squared length of a state. -/
noncomputable def normSq {n : ℕ} (φ : Amp n) : ℝ := ∑ b, Complex.normSq (φ b)

/-- `(1 + (-1)^r S) φ / 2`: for an operator `S` with square one, the projection of `φ` to the eigenspace of `(-1)^r`. -/
noncomputable def part {n : ℕ} (p : Pauli n) (r : ZMod 2) (φ : Amp n) : Amp n :=
  (1 / 2 : ℂ) • (φ + (sgn r : ℂ) • pauliAct p φ)

end PyQ.Spec
