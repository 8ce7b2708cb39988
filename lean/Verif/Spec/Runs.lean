import Verif.Model.Device
import Verif.Spec.Average

/-!
# Specification: the random runs of `estimate_average_fidelity` on a noisy simulator

Every trial makes its random draws uniformly.  The channel, given by its Kraus operators, turns a state `φ` into
`Kⱼφ`, divided by its length, with the probability `‖Kⱼφ‖²`.  The measurement of a state `φ` gives zero for every
qubit with the probability `|φ(0)|²`.
-/

namespace PyQ

/-- The random draws of one round of the two-design. -/
abbrev RoundDraw (N : ℕ) : Type := (Fin N → Fin 3) × (Fin N → Fin N → Bool)

/-- The draws of `T` rounds as the argument of the model; later rounds are never read. -/
def drawsOf {N T : ℕ} (δ : Fin T → RoundDraw N) : Draws where
  single := fun r i => if h : r < T ∧ i < N then (δ ⟨r, h.1⟩).1 ⟨i, h.2⟩ else 0
  ctrl := fun r i j => if h : r < T ∧ i < N ∧ j < N then (δ ⟨r, h.1⟩).2 ⟨i, h.2.1⟩ ⟨j, h.2.2⟩ else false

namespace Spec

variable {N J : ℕ}

/-- The number of rounds for `N` qubits and the precision `epsilon`. -/
noncomputable def rounds (N : ℕ) (epsilon : ℝ) : ℕ := (2 * ⌈Real.logb 2 (1 / epsilon) / N⌉ + 1).toNat

/-- The draws of one call. -/
abbrev CallDraw (N : ℕ) (epsilon : ℝ) : Type := Fin (rounds N epsilon) → RoundDraw N

/-- The probability that every qubit is measured as zero when the circuit `gs` acts on `|0...0⟩`, then the channel,
then the circuit `gs'`. -/
noncomputable def zeroChance (K : Fin J → Matrix (Fin N → ZMod 2) (Fin N → ZMod 2) ℂ) (gs gs' : List DGate) : ℝ :=
  ∑ j, Complex.normSq (runD gs' ((K j).mulVec (runD gs (ket 0))) 0)

/-- `n` trials on a finite probability space `Ω` with the probabilities `P`: `draw ω t` are the draws of trial `t`,
`kraus ω t` is the Kraus operator that acts in trial `t`, and `w ω` is what the model of the code sees of them. -/
structure RandomRuns {Ω : Type} [Fintype Ω] (P : Ω → ℝ) (K : Fin J → Matrix (Fin N → ZMod 2) (Fin N → ZMod 2) ℂ)
    (epsilon : ℝ) (n : ℕ) (draw : Ω → ℕ → CallDraw N epsilon) (kraus : Ω → ℕ → Fin J) (w : Ω → World N) : Prop where
  /-- Probabilities are not negative. -/
  nonneg : ∀ ω, 0 ≤ P ω
  /-- They add up to one. -/
  total : ∑ ω, P ω = 1
  /-- The code makes the draws `draw`. -/
  draws : ∀ ω, ∀ t < n, (w ω).draws t = drawsOf (draw ω t)
  /-- The channel applies the Kraus operator `kraus`. -/
  channel : ∀ ω, ∀ t < n, ∀ φ, (w ω).channel t φ = .ok (direction ((K (kraus ω t)).mulVec φ))
  /-- The draws are uniform, and `Kⱼ` acts on the state prepared by `gs` with the probability `‖Kⱼψ‖²`. -/
  law : ∀ t < n, ∀ (e : CallDraw N epsilon) (j : Fin J) (gs : List DGate) (phases : List (List ℝ)),
    twoDesign N epsilon (drawsOf e) = .ok (gs, phases) →
    ∑ ω with draw ω t = e ∧ kraus ω t = j, P ω =
      lenSq ((K j).mulVec (runD gs (ket 0))) / Fintype.card (CallDraw N epsilon)
  /-- The measurement of the state `φ` of the register gives all zeros with the probability `|φ(0)|²`. -/
  born : ∀ t < n, ∀ (e : CallDraw N epsilon) (j : Fin J) (gs gs' : List DGate) (phases : List (List ℝ)),
    twoDesign N epsilon (drawsOf e) = .ok (gs, phases) → inverseDesign N phases = .ok gs' →
    ∀ φ, φ = runD gs' (direction ((K j).mulVec (runD gs (ket 0)))) →
    ∑ ω with (draw ω t = e ∧ kraus ω t = j) ∧ (w ω).outcome t φ = 0, P ω =
      Complex.normSq (φ 0) * ∑ ω with draw ω t = e ∧ kraus ω t = j, P ω

end Spec

end PyQ
