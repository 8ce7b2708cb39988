import Verif.Props.Optimize
import Verif.Model.ParamInst

/-!
# C91: the objects `OverParam()`, `CholeskyParam()` and `StandardBasis()` as the argument `param`
-/

namespace PyQ

noncomputable section

variable {g : Rng} {sp : Scipy} {c : ChanView} {rank maxiter : ℕ} {optimizer objective : String}
  {lipschitz usePool : PyNum} {samples : SamplesArg}

/-- What the strings select is the class. -/
theorem overParamAt_class (g : Rng) : g.overParamAt false = g.overParam := rfl

theorem choleskyParamAt_class (g : Rng) (b : Bool) : g.choleskyParamAt b = g.choleskyParam := by
  cases b <;> rfl

/-- C91.  The object `CholeskyParam()` gives what the string `"cholesky"` gives, for every combination of options. -/
theorem C91_cholesky :
    optimizeProcedure g sp c rank optimizer (.inst (g.choleskyParamAt true)) objective lipschitz usePool maxiter samples =
      optimizeProcedure g sp c rank optimizer (.str "cholesky") objective lipschitz usePool maxiter samples := by
  rw [choleskyParamAt_class]
  rfl

/-- C91, the part that holds for `OverParam()`: without the Lipschitz sampler it gives what the string
`"overparam"` gives.  Missing: `lipschitz` different from zero, where the claim is false
(`C91_overparam_refuted`). -/
theorem C91_overparam_partial (h : lipschitz.toInt ≤ 0) :
    optimizeProcedure g sp c rank optimizer (.inst (g.overParamAt true)) objective lipschitz usePool maxiter samples =
      optimizeProcedure g sp c rank optimizer (.str "overparam") objective lipschitz usePool maxiter samples := by
  have h0 : lipschitz.toInt.toNat = 0 := Int.toNat_of_nonpos h
  unfold optimizeProcedure
  rw [h0]
  rfl

theorem overParamAt_random (t nsize rank : ℕ) : (g.overParamAt true).random t nsize rank = .error .type := rfl

/-- C91, false for `OverParam()`: whenever the options pass the checks and `lipschitz` is positive (as SLSQP
requires), the object raises `TypeError`, whatever the channel, the size, the rank and the random numbers. -/
theorem C91_overparam_refuted (hl : 0 < lipschitz.toInt)
    (hc : Spec.NonnegInt usePool ∧ (samples.elems = [] ∨ samples.isList = true) ∧ Spec.NonnegInt lipschitz)
    (ho : objective = "coherent" ∨ objective = "fidelity") :
    optimizeProcedure g sp c rank optimizer (.inst (g.overParamAt true)) objective lipschitz usePool maxiter samples =
      .error .type := by
  have hf : ∃ f, chooseObjective c (g.overParamAt true) c.inputDim rank objective = .ok f := by
    unfold chooseObjective
    rcases ho with rfl | rfl
    · exact ⟨_, if_pos rfl⟩
    · rw [if_neg (by decide), if_pos rfl]; exact ⟨_, rfl⟩
  obtain ⟨f, hf⟩ := hf
  have hk : checkOptions optimizer lipschitz usePool samples = .ok () :=
    checkOptions_ok_iff.mpr ⟨hc.1, hc.2.1, hc.2.2, fun _ _ => hl⟩
  have h0 : lipschitz.toInt.toNat ≠ 0 := by omega
  unfold optimizeProcedure
  rw [show getScheme g (.inst (g.overParamAt true)) = .ok (g.overParamAt true) from rfl]
  simp only [bind, Except.bind]
  rw [hf]
  simp only
  rw [hk]
  simp only
  rw [show (g.overParamAt true).bounds c.inputDim rank = .ok (OverParam.bounds c.inputDim rank) from rfl]
  simp only [gatherSamples, initialGuesses, bind, Except.bind]
  rw [if_pos h0, overParamAt_random]

/-- With the same options the string `"overparam"` draws its first sample: what fails is only the lookup on the
object. -/
theorem C91_overparam_string (t nsize rank : ℕ) :
    ∃ v, (g.overParamAt false).random t nsize rank = .ok v ∧ v.length = OverParam.numbVariables nsize rank :=
  ⟨_, rfl, by simp⟩

/-- C91, false for `StandardBasis()`: options that pass the checks lead to `TypeError`. -/
theorem C91_standard_refuted
    (hc : checkOptions optimizer lipschitz usePool samples = .ok ())
    (ho : objective = "coherent" ∨ objective = "fidelity") :
    optimizeProcedure g sp c rank optimizer (.inst standardBasisInst) objective lipschitz usePool maxiter samples =
      .error .type := by
  have hf : ∃ f, chooseObjective c standardBasisInst c.inputDim rank objective = .ok f := by
    unfold chooseObjective
    rcases ho with rfl | rfl
    · exact ⟨_, if_pos rfl⟩
    · rw [if_neg (by decide), if_pos rfl]; exact ⟨_, rfl⟩
  obtain ⟨f, hf⟩ := hf
  unfold optimizeProcedure
  rw [show getScheme g (.inst standardBasisInst) = .ok standardBasisInst from rfl]
  simp only [bind, Except.bind]
  rw [hf]
  simp only
  rw [hc]
  simp only
  rw [show standardBasisInst.bounds c.inputDim rank = .error .type from rfl]

/-- The hypotheses are met by the default call `optimize_coherent(n, rank, "slsqp", OverParam(), lipschitz=50)`. -/
example : optimizeProcedure g sp c rank "slsqp" (.inst (g.overParamAt true)) "coherent" (.int 50) (.int 0) 50 ⟨true, []⟩ =
    .error .type :=
  C91_overparam_refuted (by decide) ⟨⟨rfl, by decide⟩, Or.inl rfl, rfl, by decide⟩ (Or.inl rfl)

example : optimizeProcedure g sp c rank "diffev" (.inst standardBasisInst) "fidelity" (.int 0) (.int 0) 50 ⟨true, []⟩ =
    .error .type :=
  C91_standard_refuted (checkOptions_ok_iff.mpr ⟨⟨rfl, by decide⟩, Or.inl rfl, ⟨rfl, by decide⟩, fun _ h => by simp at h⟩)
    (Or.inr rfl)

end

end PyQ
