import Verif.Props.DeviceExpected
import Verif.Props.ChoiInfo

/-!
# C77: the estimate of the average fidelity against `average_entanglement_fidelity`
-/

namespace PyQ

open Spec MeasureTheory

variable {q : QutipChecks} {C : Arr ℂ} {a b d e : ℕ} {o : ChoiObj}

theorem submatrix_tp {l N n : ℕ} {K : Fin l → Matrix (Fin N) (Fin N) ℂ} (hK : Spec.TracePreserving K)
    (σ : (Fin n → ZMod 2) ≃ Fin N) : ∑ j, ((K j).submatrix σ σ).conjTranspose * (K j).submatrix σ σ = 1 := by
  have : ∀ j, ((K j).submatrix σ σ).conjTranspose * (K j).submatrix σ σ = ((K j).conjTranspose * K j).submatrix σ σ := by
    intro j
    rw [Matrix.conjTranspose_submatrix, Matrix.submatrix_mul_equiv]
  simp only [this]
  have h2 : ∑ j, ((K j).conjTranspose * K j).submatrix σ σ = (∑ j, (K j).conjTranspose * K j).submatrix σ σ := by
    ext x y
    simp [Matrix.sum_apply]
  rw [h2, show ∑ j, (K j).conjTranspose * K j = 1 from hK, Matrix.submatrix_one_equiv]

/-- C77.  For a channel on `n` qubits given by its Choi matrix, let `v` be the value of
`average_entanglement_fidelity([1], [I / 2ⁿ])`.  The average fidelity of the channel over all pure states is
`(2ⁿ v + 1) / (2ⁿ + 1)`.  `σ` is the numbering of the basis states by the rows of the Kraus operators. -/
theorem C77_average {l N n : ℕ} (hn : 0 < n) (K : Fin l → Matrix (Fin N) (Fin N) ℂ) (hK : Spec.TracePreserving K)
    (hN : d ^ a = N) (hN' : e ^ b = N) (hN2 : 2 ^ n = N) (h : ChoiObj.init q C a b d e = .ok o) (hsq : C.rows = C.cols)
    (hC : C.mat (N * N) (N * N) = Spec.choi K) {ρ : Arr ℂ} (hρ : ρ.rows = N ∧ ρ.cols = N)
    (hρ' : ρ.mat N N = (1 / N : ℂ) • 1) {μ : Measure (Amp n)} (hμ : UniformStates μ) (σ : (Fin n → ZMod 2) ≃ Fin N) :
    ∃ v : ℝ, o.avgFidelity [1] [ρ] = .ok (v : ℂ) ∧
      avgFidelity μ (fun j => (K j).submatrix σ σ) = (2 ^ n * v + 1) / (2 ^ n + 1) := by
  have hherm : (ρ.mat N N).IsHermitian := by
    rw [hρ']
    unfold Matrix.IsHermitian
    rw [Matrix.conjTranspose_smul, Matrix.conjTranspose_one]
    simp
  refine ⟨_, C35_value K hN hN' h hsq hC [(1, ρ)] (by
    intro x hx
    rw [List.mem_singleton] at hx
    subst hx
    exact ⟨hρ.1, hρ.2, hherm⟩), ?_⟩
  have hNR : (N : ℝ) = 2 ^ n := by rw [← hN2]; push_cast; rfl
  have hK' := submatrix_tp hK σ
  rw [avgFidelity_eq hn hμ, Finset.sum_add_distrib, frob_total hK']
  have ht : ∀ j, Complex.normSq ((K j).submatrix σ σ).trace = (2 ^ n) ^ 2 * ‖Matrix.trace (K j * ρ.mat N N)‖ ^ 2 := by
    intro j
    have h1 : ((K j).submatrix σ σ).trace = (K j).trace := by
      unfold Matrix.trace
      exact Equiv.sum_comp σ fun x => (K j) x x
    rw [h1, hρ', Matrix.mul_smul, mul_one, Matrix.trace_smul, norm_smul, Complex.normSq_eq_norm_sq, mul_pow, ← mul_assoc]
    have h3 : ‖(1 / N : ℂ)‖ = 1 / 2 ^ n := by
      rw [norm_div, norm_one, Complex.norm_natCast, hNR]
    rw [h3]
    have : (2 : ℝ) ^ n ≠ 0 := by positivity
    field_simp
  simp only [ht, ← Finset.mul_sum]
  simp only [List.map_cons, List.map_nil, Spec.avgEntanglementFidelity]
  have : (0 : ℝ) < 2 ^ n := by positivity
  field_simp
  ring

/-- C77.  On a simulator the expected value of `estimate_average_fidelity(channel, ntimes, epsilon)` is within
`epsilon²` of `(2ⁿ v + 1) / (2ⁿ + 1)`, where `v` is the value of `average_entanglement_fidelity([1], [I / 2ⁿ])` for the
Choi matrix of the channel. -/
theorem C77_estimate {l N n : ℕ} (hn : 0 < n) (K : Fin l → Matrix (Fin N) (Fin N) ℂ) (hK : Spec.TracePreserving K)
    (hN : d ^ a = N) (hN' : e ^ b = N) (hN2 : 2 ^ n = N) (h : ChoiObj.init q C a b d e = .ok o) (hsq : C.rows = C.cols)
    (hC : C.mat (N * N) (N * N) = Spec.choi K) {ρ : Arr ℂ} (hρ : ρ.rows = N ∧ ρ.cols = N)
    (hρ' : ρ.mat N N = (1 / N : ℂ) • 1) (σ : (Fin n → ZMod 2) ≃ Fin N) {epsilon : ℝ} (he : 0 < epsilon)
    {Ω : Type} [Fintype Ω] {P : Ω → ℝ} {m : ℕ} (hm : 0 < m) {draw : Ω → ℕ → CallDraw n epsilon}
    {kraus : Ω → ℕ → Fin l} {w : Ω → World n} (hr : RandomRuns P (fun j => (K j).submatrix σ σ) epsilon m draw kraus w)
    (cheat : Bool) (χ : Amp n) :
    ∃ (v : ℝ) (E : Ω → ℝ), o.avgFidelity [1] [ρ] = .ok (v : ℂ) ∧
      (∀ ω, estimateFidelity false cheat (w ω) m epsilon χ = .ok (E ω)) ∧
      |∑ ω, P ω * E ω - (2 ^ n * v + 1) / (2 ^ n + 1)| ≤ epsilon ^ 2 := by
  have hμ := uniformStates_uniformMeasure n
  obtain ⟨v, h1, h2⟩ := C77_average hn K hK hN hN' hN2 h hsq hC hρ hρ' hμ σ
  have hK' := submatrix_tp hK σ
  obtain ⟨E, h3, h4⟩ := C75_expected hn he hμ hK' hm hr cheat χ
  rw [h2] at h4
  exact ⟨v, E, h1, h3, h4⟩

/-- Beside C77: the dephasing channel on one qubit. -/
example (m : ℕ) (hm : 0 < m) (χ : Amp 1) : ∃ (o : ChoiObj) (Ω : Type) (_ : Fintype Ω) (P : Ω → ℝ) (w : Ω → World 1)
    (v : ℝ) (E : Ω → ℝ), ChoiObj.init ⟨fun _ _ _ => true, fun _ _ _ => true⟩ dephChoi 1 1 2 2 = .ok o ∧
      o.avgFidelity [1] [mixedState] = .ok (v : ℂ) ∧
      (∀ ω, estimateFidelity false false (w ω) m (1 / 10) χ = .ok (E ω)) ∧
      |∑ ω, P ω * E ω - (2 ^ 1 * v + 1) / (2 ^ 1 + 1)| ≤ (1 / 10) ^ 2 := by
  have ho : ChoiObj.init ⟨fun _ _ _ => true, fun _ _ _ => true⟩ dephChoi 1 1 2 2 = .ok ⟨dephChoi, 1, 1, 2, 2⟩ :=
    rfl
  have σ : (Fin 1 → ZMod 2) ≃ Fin 2 := Fintype.equivFinOfCardEq (by simp [ZMod.card])
  have hρ : mixedState.mat 2 2 = (1 / (2 : ℕ) : ℂ) • 1 := by
    ext i j
    fin_cases i <;> fin_cases j <;> simp [mixedState, Arr.mat]
  obtain ⟨Ω, _, P, draw, kraus, w, -, hr, -⟩ :=
    randomRuns_exist (N := 1) (by norm_num) (epsilon := 1 / 10) (by norm_num) (submatrix_tp dephOps_tp σ) m
  obtain ⟨v, E, h1, h2, h3⟩ := C77_estimate (by norm_num) (dephOps.ops 2 2 2) dephOps_tp rfl rfl rfl ho rfl (Arr.ofMat_mat _)
    ⟨rfl, rfl⟩ hρ σ (by norm_num) hm hr false χ
  exact ⟨_, Ω, _, P, w, v, E, ho, h1, h2, h3⟩

end PyQ
