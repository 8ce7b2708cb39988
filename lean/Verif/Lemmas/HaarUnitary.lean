import Verif.Spec.TwoDesign
import Mathlib.Analysis.CStarAlgebra.Matrix
import Mathlib.MeasureTheory.Measure.Haar.Unique

/-!
# There is a uniform distribution of unitaries
-/

namespace PyQ

open Spec Matrix MeasureTheory

variable {N : ℕ}

instance unitary_compact : CompactSpace (unitaryGroup (Fin N → ZMod 2) ℂ) := by
  have h : IsCompact (unitaryGroup (Fin N → ZMod 2) ℂ : Set (Matrix (Fin N → ZMod 2) (Fin N → ZMod 2) ℂ)) := by
    have hk : IsCompact (Set.univ.pi fun _ : Fin N → ZMod 2 => Set.univ.pi fun _ : Fin N → ZMod 2 =>
        Metric.closedBall (0 : ℂ) 1) :=
      isCompact_univ_pi fun _ => isCompact_univ_pi fun _ => isCompact_closedBall 0 1
    have hc : IsClosed (unitaryGroup (Fin N → ZMod 2) ℂ : Set (Matrix (Fin N → ZMod 2) (Fin N → ZMod 2) ℂ)) :=
      isClosed_unitary
    refine IsCompact.of_isClosed_subset hk hc ?_
    intro V hV x _ y _
    rw [mem_closedBall_zero_iff]
    exact entry_norm_bound_of_unitary hV x y
  exact isCompact_iff_compactSpace.mp h

/-- The uniform distribution of unitaries. -/
noncomputable def uniformUnitary (N : ℕ) : Measure (unitaryGroup (Fin N → ZMod 2) ℂ) := Measure.haarMeasure ⊤

theorem uniformUnitaries_exist (N : ℕ) : UniformUnitaries (uniformUnitary N) := by
  have h1 : uniformUnitary N Set.univ = 1 := by
    have := Measure.haarMeasure_self (K₀ := (⊤ : TopologicalSpace.PositiveCompacts (unitaryGroup (Fin N → ZMod 2) ℂ)))
    simpa [uniformUnitary] using this
  have hh : (uniformUnitary N).IsHaarMeasure := by
    unfold uniformUnitary
    infer_instance
  refine ⟨h1, fun W => map_mul_left_eq_self _ W, fun W => ?_⟩
  have hf : IsFiniteMeasure (uniformUnitary N) := ⟨by rw [h1]; exact ENNReal.one_lt_top⟩
  have h2 := Measure.isMulInvariant_eq_smul_of_compactSpace ((uniformUnitary N).map (fun V => V * W)) (uniformUnitary N)
  have hm : Measurable fun V : unitaryGroup (Fin N → ZMod 2) ℂ => V * W := (continuous_id.mul continuous_const).measurable
  have h3 := congrArg (fun ν : Measure (unitaryGroup (Fin N → ZMod 2) ℂ) => ν Set.univ) h2
  simp only [Measure.map_apply hm MeasurableSet.univ, Set.preimage_univ, h1, Measure.smul_apply] at h3
  rw [h2]
  have h4 : Measure.haarScalarFactor ((uniformUnitary N).map (fun V => V * W)) (uniformUnitary N) = 1 := by
    rw [ENNReal.smul_def, smul_eq_mul, mul_one] at h3
    exact_mod_cast h3.symm
  rw [h4, one_smul]

end PyQ
