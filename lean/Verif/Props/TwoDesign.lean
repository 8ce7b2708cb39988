import Verif.Lemmas.DesignHaar
import Verif.Lemmas.DesignSharp
import Verif.Lemmas.HaarUnitary

/-!
# C111: the circuits of `approximate_unitary_two_design` used twice
-/

namespace PyQ

open Spec Matrix MeasureTheory
open scoped Kronecker ComplexOrder

variable {N : ℕ} {ι : Type} [Fintype ι] [DecidableEq ι] {μ : Measure (unitaryGroup (Fin N → ZMod 2) ℂ)}

/-- The unitary of the circuit. -/
theorem design_unitary {epsilon : ℝ} {e : CallDraw N epsilon} {gs : List DGate} {phases : List (List ℝ)}
    (h : twoDesign N epsilon (drawsOf e) = .ok (gs, phases)) (ψ : Amp N) : runD gs ψ = designMat e *ᵥ ψ := by
  rw [C54_circuit h, designMat_mulVec]
  rfl

theorem design_matrix (hN : 0 < N) {epsilon : ℝ} (he : 0 < epsilon)
    (U : CallDraw N epsilon → Matrix (Fin N → ZMod 2) (Fin N → ZMod 2) ℂ)
    (hU : ∀ e gs phases, twoDesign N epsilon (drawsOf e) = .ok (gs, phases) → ∀ ψ, runD gs ψ = U e *ᵥ ψ)
    (e : CallDraw N epsilon) : U e = designMat e := by
  obtain ⟨r, hr⟩ := (C42_accepted (N := N) epsilon (drawsOf e)).mpr ⟨he, hN⟩
  have hr' : twoDesign N epsilon (drawsOf e) = .ok (r.1, r.2) := hr
  ext x y
  have h1 := hU e _ _ hr' (Pi.single y 1)
  rw [design_unitary hr'] at h1
  have h2 := congrFun h1 x
  simpa using h2.symm

theorem rounds_power (hN : 0 < N) (l : ℕ) : rounds N (((2 : ℝ) ^ N) ^ l)⁻¹ = 2 * l + 1 := by
  have hN' : (N : ℝ) ≠ 0 := by exact_mod_cast hN.ne'
  unfold rounds
  have : Real.logb 2 (1 / (((2 : ℝ) ^ N) ^ l)⁻¹) / N = ((l : ℤ) : ℝ) := by
    rw [one_div, inv_inv, Real.logb_pow, Real.logb_pow, Real.logb_self_eq_one (by norm_num), mul_one, mul_div_assoc,
      div_self hN', mul_one, Int.cast_natCast]
  rw [this, Int.ceil_intCast]
  omega

/-- C111.  A tester prepares any state of two copies of the register and of a system of their own, has the circuit of
`approximate_unitary_two_design(epsilon)` act on both copies, with the same random draws, and makes any measurement.
The probability of every outcome differs from the one for a uniformly random unitary by at most `epsilon`: for every
register, every `epsilon`, every system of the tester, every state and every measurement. -/
theorem C111_design (hN : 0 < N) {epsilon : ℝ} (he : 0 < epsilon) (hμ : UniformUnitaries μ)
    (U : CallDraw N epsilon → Matrix (Fin N → ZMod 2) (Fin N → ZMod 2) ℂ)
    (hU : ∀ e gs phases, twoDesign N epsilon (drawsOf e) = .ok (gs, phases) → ∀ ψ, runD gs ψ = U e *ᵥ ψ)
    {X : TwoCopies ι N} (hX : X.PosSemidef) (ht : X.trace = 1) {E : TwoCopies ι N} (hE : IsEffect E) :
    |(∑ e, chance E (twice (U e) X)) / Fintype.card (CallDraw N epsilon) -
      ∫ V : unitaryGroup (Fin N → ZMod 2) ℂ, chance E (twice V.1 X) ∂μ| ≤ epsilon := by
  have hU' := design_matrix hN he U hU
  simp only [hU']
  rw [chance_average]
  have ht' : X.trace.re = 1 := by rw [ht]; rfl
  rcases rounds_cases hN he with h | ⟨l, h, h1⟩
  · have hP : (roundMat^[rounds N epsilon] X).PosSemidef ∧ (roundMat^[rounds N epsilon] X).trace = X.trace := by
      generalize rounds N epsilon = T
      induction T with
      | zero => exact ⟨hX, rfl⟩
      | succ T ih =>
        rw [Function.iterate_succ_apply']
        exact ⟨roundMat_posSemidef ih.1, (roundMat_trace _).trans ih.2⟩
    have b1 := chance_nonneg hE.nonneg hP.1
    have b2 := chance_le hE hP.1
    rw [hP.2, ht'] at b2
    obtain ⟨b3, b4⟩ := haar_mem hμ hE hX
    rw [ht'] at b4
    rw [abs_le]
    constructor <;> linarith
  · rw [h]
    refine (oddRounds_error hN hμ hE hX l).trans ?_
    rwa [ht', mul_one]

/-- C111.  The bound cannot be lowered: at the precision `epsilon = 2^(-N (l + 1))` a tester without a system of their
own has a state and a measurement for which the probabilities differ by `epsilon (1 - 1 / (2^N - 1))`, which is two
thirds of `epsilon` for two qubits and tends to `epsilon` as the register grows. -/
theorem C111_sharp (hN : 0 < N) (l : ℕ) {epsilon : ℝ} (he : epsilon = (((2 : ℝ) ^ N) ^ (l + 1))⁻¹)
    (hμ : UniformUnitaries μ) (U : CallDraw N epsilon → Matrix (Fin N → ZMod 2) (Fin N → ZMod 2) ℂ)
    (hU : ∀ e gs phases, twoDesign N epsilon (drawsOf e) = .ok (gs, phases) → ∀ ψ, runD gs ψ = U e *ᵥ ψ) :
    ∃ X E : TwoCopies Unit N, X.PosSemidef ∧ X.trace = 1 ∧ IsEffect E ∧
      (∑ e, chance E (twice (U e) X)) / Fintype.card (CallDraw N epsilon) -
        ∫ V : unitaryGroup (Fin N → ZMod 2) ℂ, chance E (twice V.1 X) ∂μ = epsilon * (1 - 1 / ((2 : ℝ) ^ N - 1)) := by
  have hpos : 0 < epsilon := by rw [he]; positivity
  have hU' := design_matrix hN hpos U hU
  have hw : (Pi.single ⟨0, hN⟩ 1 : Fin N → ZMod 2) ≠ 0 := by
    intro h
    have := congrFun h ⟨0, hN⟩
    rw [Pi.single_eq_same] at this
    exact one_ne_zero this
  refine ⟨antiState (Pi.single ⟨0, hN⟩ 1), antiEffect (Pi.single ⟨0, hN⟩ 1), antiState_posSemidef _, antiState_trace hw,
    antiEffect_isEffect _, ?_⟩
  simp only [hU']
  rw [chance_average]
  have hr : rounds N epsilon = 2 * (l + 1) + 1 := by rw [he, rounds_power hN]
  rw [hr, anti_error hN hμ hw l, he, one_div]

/-- C111.  The circuits are therefore no design at the precision `epsilon` in the stronger sense of the diamond norm,
for which the probabilities of every measurement must differ by at most `epsilon / 2`: two qubits, `epsilon = 1/4`. -/
theorem C111_diamond_refuted {μ : Measure (unitaryGroup (Fin 2 → ZMod 2) ℂ)} (hμ : UniformUnitaries μ) :
    ¬ ∀ (U : CallDraw 2 (1 / 4) → Matrix (Fin 2 → ZMod 2) (Fin 2 → ZMod 2) ℂ),
      (∀ e gs phases, twoDesign 2 (1 / 4) (drawsOf e) = .ok (gs, phases) → ∀ ψ, runD gs ψ = U e *ᵥ ψ) →
      ∀ X E : TwoCopies Unit 2, X.PosSemidef → X.trace = 1 → IsEffect E →
        |(∑ e, chance E (twice (U e) X)) / Fintype.card (CallDraw 2 (1 / 4)) -
          ∫ V : unitaryGroup (Fin 2 → ZMod 2) ℂ, chance E (twice V.1 X) ∂μ| ≤ 1 / 4 / 2 := by
  intro h
  have hU : ∀ (e : CallDraw 2 (1 / 4)) gs phases, twoDesign 2 (1 / 4) (drawsOf e) = .ok (gs, phases) →
      ∀ ψ, runD gs ψ = designMat e *ᵥ ψ := fun _ _ _ h' ψ => design_unitary h' ψ
  obtain ⟨X, E, h1, h2, h3, h4⟩ := C111_sharp (N := 2) (by norm_num) 0 (epsilon := 1 / 4) (by norm_num) hμ _ hU
  have := h _ hU X E h1 h2 h3
  rw [h4, abs_le] at this
  norm_num at this

/-- C111.  Circuits with their unitaries exist for all draws, and there is a uniform distribution of the unitaries. -/
theorem C111_exists (hN : 0 < N) {epsilon : ℝ} (he : 0 < epsilon) :
    (∃ U : CallDraw N epsilon → Matrix (Fin N → ZMod 2) (Fin N → ZMod 2) ℂ,
      (∀ e, U e ∈ unitaryGroup (Fin N → ZMod 2) ℂ) ∧
      ∀ e, ∃ gs phases, twoDesign N epsilon (drawsOf e) = .ok (gs, phases) ∧ ∀ ψ, runD gs ψ = U e *ᵥ ψ) ∧
    ∃ μ : Measure (unitaryGroup (Fin N → ZMod 2) ℂ), UniformUnitaries μ := by
  refine ⟨⟨fun e => designMat e, fun e => designMat_unitary e, fun e => ?_⟩, _, uniformUnitaries_exist N⟩
  obtain ⟨r, hr⟩ := (C42_accepted (N := N) epsilon (drawsOf e)).mpr ⟨he, hN⟩
  have hr' : twoDesign N epsilon (drawsOf e) = .ok (r.1, r.2) := hr
  exact ⟨r.1, r.2, hr', design_unitary hr'⟩

/-- Two qubits, `epsilon = 1/4`: a distribution, circuits, a state and a measurement that meet the hypotheses of
`C111_design`, with probabilities that differ by `1/6`. -/
example : ∃ (μ : Measure (unitaryGroup (Fin 2 → ZMod 2) ℂ))
    (U : CallDraw 2 (1 / 4) → Matrix (Fin 2 → ZMod 2) (Fin 2 → ZMod 2) ℂ) (X E : TwoCopies Unit 2),
    UniformUnitaries μ ∧
    (∀ e gs phases, twoDesign 2 (1 / 4) (drawsOf e) = .ok (gs, phases) → ∀ ψ, runD gs ψ = U e *ᵥ ψ) ∧
    X.PosSemidef ∧ X.trace = 1 ∧ IsEffect E ∧
    |(∑ e, chance E (twice (U e) X)) / Fintype.card (CallDraw 2 (1 / 4)) -
      ∫ V : unitaryGroup (Fin 2 → ZMod 2) ℂ, chance E (twice V.1 X) ∂μ| = 1 / 6 := by
  obtain ⟨μ, hμ⟩ : ∃ μ : Measure (unitaryGroup (Fin 2 → ZMod 2) ℂ), UniformUnitaries μ := ⟨_, uniformUnitaries_exist 2⟩
  have hU : ∀ (e : CallDraw 2 (1 / 4)) gs phases, twoDesign 2 (1 / 4) (drawsOf e) = .ok (gs, phases) →
      ∀ ψ, runD gs ψ = designMat e *ᵥ ψ := fun _ _ _ h' ψ => design_unitary h' ψ
  obtain ⟨X, E, h1, h2, h3, h4⟩ := C111_sharp (N := 2) (by norm_num) 0 (epsilon := 1 / 4) (by norm_num) hμ _ hU
  refine ⟨μ, _, X, E, hμ, hU, h1, h2, h3, ?_⟩
  rw [h4]
  norm_num

end PyQ
