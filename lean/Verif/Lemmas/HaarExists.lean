import Verif.Spec.Average
import Mathlib.MeasureTheory.Measure.Lebesgue.EqHaar
import Mathlib.MeasureTheory.Measure.Lebesgue.Complex
import Mathlib.MeasureTheory.Measure.Haar.OfBasis

/-!
# There is a uniform distribution of states
-/

namespace PyQ

open Spec MeasureTheory

variable {N : ℕ}

theorem lenSq_continuous : Continuous (lenSq : Amp N → ℝ) := by
  unfold lenSq
  exact continuous_finsetSum _ fun b _ => Complex.continuous_normSq.comp (continuous_apply b)

theorem lenSq_nonneg (ψ : Amp N) : 0 ≤ lenSq ψ := Finset.sum_nonneg fun _ _ => Complex.normSq_nonneg _

theorem lenSq_eq_zero {ψ : Amp N} : lenSq ψ = 0 ↔ ψ = 0 := by
  unfold lenSq
  rw [Finset.sum_eq_zero_iff_of_nonneg fun _ _ => Complex.normSq_nonneg _]
  constructor
  · intro h
    funext b
    exact Complex.normSq_eq_zero.mp (h b (Finset.mem_univ b))
  · rintro rfl b _
    simp

theorem lenSq_smul (c : ℂ) (ψ : Amp N) : lenSq (c • ψ) = Complex.normSq c * lenSq ψ := by
  unfold lenSq
  rw [Finset.mul_sum]
  apply Finset.sum_congr rfl; intro b _
  rw [Pi.smul_apply, smul_eq_mul, map_mul]

/-- The vectors of length at most one. -/
def unitBall (N : ℕ) : Set (Amp N) := {ψ | lenSq ψ ≤ 1}

theorem unitBall_measurable : MeasurableSet (unitBall N) :=
  (isClosed_le lenSq_continuous continuous_const).measurableSet

theorem unitBall_finite : volume (unitBall N) < ⊤ := by
  refine lt_of_le_of_lt (measure_mono ?_) (measure_closedBall_lt_top (x := (0 : Amp N)) (r := 1))
  intro ψ h
  rw [mem_closedBall_zero_iff, pi_norm_le_iff_of_nonneg zero_le_one]
  intro b
  have h1 : Complex.normSq (ψ b) ≤ 1 := le_trans
    (Finset.single_le_sum (f := fun b => Complex.normSq (ψ b)) (fun _ _ => Complex.normSq_nonneg _) (Finset.mem_univ b)) h
  rw [Complex.normSq_eq_norm_sq] at h1
  exact (sq_le_one_iff₀ (norm_nonneg _)).mp h1

theorem unitBall_pos : 0 < volume (unitBall N) := by
  have ho : IsOpen {ψ : Amp N | lenSq ψ < 1} := isOpen_lt lenSq_continuous continuous_const
  refine lt_of_lt_of_le (ho.measure_pos volume ⟨0, ?_⟩) (measure_mono fun ψ (h : lenSq ψ < 1) => h.le)
  show lenSq (0 : Amp N) < 1
  rw [lenSq_eq_zero.mpr rfl]
  norm_num

theorem direction_measurable : Measurable (direction : Amp N → Amp N) := by
  unfold direction
  have h1 : Measurable fun ψ : Amp N => (((Real.sqrt (lenSq ψ)))⁻¹ : ℂ) :=
    (Complex.measurable_ofReal.comp (Real.continuous_sqrt.measurable.comp lenSq_continuous.measurable)).inv
  exact measurable_pi_lambda _ fun b => h1.mul (measurable_pi_apply b)

theorem direction_len {ψ : Amp N} (h : ψ ≠ 0) : lenSq (direction ψ) = 1 := by
  have h0 : lenSq ψ ≠ 0 := fun h' => h (lenSq_eq_zero.mp h')
  unfold direction
  rw [lenSq_smul, ← Complex.ofReal_inv, Complex.normSq_ofReal, ← mul_inv, Real.mul_self_sqrt (lenSq_nonneg ψ), inv_mul_cancel₀ h0]

/-- The uniform distribution: a point of the ball, divided by its length. -/
noncomputable def uniformMeasure (N : ℕ) : Measure (Amp N) :=
  ((volume (unitBall N))⁻¹ • volume.restrict (unitBall N)).map direction

theorem volume_invariant (L : Amp N →ₗ[ℂ] Amp N) (hL : ∀ ψ, lenSq (L ψ) = lenSq ψ) :
    (volume : Measure (Amp N)).map L = volume := by
  have hinj : Function.Injective (L.restrictScalars ℝ) := by
    rw [← LinearMap.ker_eq_bot, LinearMap.ker_eq_bot']
    intro ψ h
    have h' : L ψ = 0 := h
    rw [← lenSq_eq_zero, ← hL, h', lenSq_eq_zero]
  have hdet : LinearMap.det (L.restrictScalars ℝ) ≠ 0 := by
    have : IsUnit (L.restrictScalars ℝ) := (LinearMap.isUnit_iff_ker_eq_bot _).mpr (LinearMap.ker_eq_bot.mpr hinj)
    exact (LinearMap.isUnit_det _ this).ne_zero
  have h1 := Measure.map_linearMap_addHaar_eq_smul_addHaar (volume : Measure (Amp N)) hdet
  have h2 : (volume : Measure (Amp N)).map L = ENNReal.ofReal |(LinearMap.det (L.restrictScalars ℝ))⁻¹| • volume := h1
  have hm : Measurable L := (LinearMap.continuous_of_finiteDimensional L).measurable
  have hpre : L ⁻¹' unitBall N = unitBall N := by
    ext ψ
    show lenSq (L ψ) ≤ 1 ↔ lenSq ψ ≤ 1
    rw [hL]
  have h3 := congrArg (fun μ : Measure (Amp N) => μ (unitBall N)) h2
  simp only [Measure.map_apply hm unitBall_measurable, hpre, Measure.smul_apply, smul_eq_mul] at h3
  have h4 : ENNReal.ofReal |(LinearMap.det (L.restrictScalars ℝ))⁻¹| = 1 := by
    have := (ENNReal.mul_eq_right unitBall_pos.ne' unitBall_finite.ne).mp h3.symm
    exact this
  rw [h2, h4, one_smul]

theorem uniformStates_uniformMeasure (N : ℕ) : UniformStates (uniformMeasure N) := by
  have hB0 := (unitBall_pos (N := N)).ne'
  have hB1 := (unitBall_finite (N := N)).ne
  refine ⟨?_, ?_, ?_⟩
  · unfold uniformMeasure
    rw [Measure.map_apply direction_measurable MeasurableSet.univ, Set.preimage_univ, Measure.smul_apply,
      Measure.restrict_apply MeasurableSet.univ, Set.univ_inter, smul_eq_mul, ENNReal.inv_mul_cancel hB0 hB1]
  · unfold uniformMeasure
    have hset : MeasurableSet {ψ : Amp N | lenSq ψ = 1} :=
      (isClosed_eq lenSq_continuous continuous_const).measurableSet
    show ∀ᵐ ψ ∂_, lenSq ψ = 1
    rw [ae_map_iff direction_measurable.aemeasurable hset]
    refine Measure.ae_smul_measure ?_ _
    refine ae_restrict_of_ae ?_
    have h0 : ∀ᵐ ψ ∂(volume : Measure (Amp N)), ψ ≠ 0 := by
      rw [ae_iff]
      have : {ψ : Amp N | ¬ψ ≠ 0} = {0} := by ext; simp
      rw [this]
      exact measure_singleton 0
    exact h0.mono fun ψ h => direction_len h
  · intro L hL
    have hL' : ∀ ψ, lenSq (L ψ) = lenSq ψ := hL
    have hm : Measurable L := (LinearMap.continuous_of_finiteDimensional L).measurable
    have hpre : L ⁻¹' unitBall N = unitBall N := by
      ext ψ
      show lenSq (L ψ) ≤ 1 ↔ lenSq ψ ≤ 1
      rw [hL']
    have hcomm : (fun ψ => L (direction ψ)) = fun ψ => direction (L ψ) := by
      funext ψ
      unfold direction
      rw [map_smul, hL']
    unfold uniformMeasure
    rw [Measure.map_map hm direction_measurable]
    have : (⇑L ∘ direction) = direction ∘ L := hcomm
    rw [this, ← Measure.map_map direction_measurable hm]
    congr 1
    rw [Measure.map_smul]
    congr 1
    have h := Measure.restrict_map (μ := (volume : Measure (Amp N))) hm (unitBall_measurable (N := N))
    rw [volume_invariant L hL', hpre] at h
    exact h.symm

end PyQ
