import Verif.Spec.Stabilizer
import Mathlib.Analysis.SpecialFunctions.Log.Base

/-! # Specification: what the syndrome leaves open about Pauli noise -/

namespace PyQ.Spec

open Classical in
/-- Error `i` has probability `q i`: the probability that the error is related to error `i`. -/
noncomputable def probOf {ι : Type} [Fintype ι] (q : ι → ℝ) (R : ι → ι → Prop) (i : ι) : ℝ := ∑ j, if R i j then q j else 0

/-- Two errors have the same syndrome: they anticommute with the same generators. -/
def SameSyndrome {n : ℕ} (rows : List (List ℤ)) (p p' : Pauli n) : Prop :=
  ∀ g ∈ rows, symp (rowPauli n g) p = symp (rowPauli n g) p'

/-- Two errors differ by an operator of the group of the generators. -/
def SameClass {n : ℕ} (rows : List (List ℤ)) (p p' : Pauli n) : Prop := p.vec + p'.vec ∈ groupOf n rows

/-- What the syndrome leaves open, in bits: the average of `log₂` of the probability of the syndrome over the probability of the
class of the error, that is, the conditional entropy of the class given the syndrome. -/
noncomputable def openBits {ι : Type} [Fintype ι] {n : ℕ} (rows : List (List ℤ)) (q : ι → ℝ) (p : ι → Pauli n) : ℝ :=
  ∑ i, q i * Real.logb 2 (probOf q (fun i j => SameSyndrome rows (p i) (p j)) i / probOf q (fun i j => SameClass rows (p i) (p j)) i)

end PyQ.Spec
