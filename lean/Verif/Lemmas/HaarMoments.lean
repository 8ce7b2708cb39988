import Verif.Lemmas.DeviceMoments
import Verif.Spec.Average
import Mathlib.MeasureTheory.Integral.Bochner.ContinuousLinearMap
import Mathlib.MeasureTheory.Integral.IntegrableOn

/-!
# The second moments of uniformly distributed states
-/

namespace PyQ

open Spec MeasureTheory

variable {N : ℕ} {μ : Measure (Amp N)}

theorem chi_comm (x y : Fin N → ZMod 2) : chi x y = chi y x := by
  unfold chi
  simp only [mul_comm]

/-- A layer of phases and Hadamards as a linear map. -/
noncomputable def diagHadamardLin (θ : (Fin N → ZMod 2) → ℝ) : Amp N →ₗ[ℂ] Amp N where
  toFun := Spec.diagHadamard θ
  map_add' φ ψ := by
    funext x
    simp only [Spec.diagHadamard, Pi.add_apply, mul_add, Finset.sum_add_distrib]
  map_smul' c ψ := by
    funext x
    simp only [Spec.diagHadamard, Pi.smul_apply, smul_eq_mul, RingHom.id_apply, Finset.mul_sum]
    apply Finset.sum_congr rfl; intro y _
    ring

theorem diagHadamard_braket (θ : (Fin N → ZMod 2) → ℝ) (φ ψ : Amp N) :
    braket (Spec.diagHadamard θ φ) (Spec.diagHadamard θ ψ) = braket φ ψ := by
  have hs : (starRingEnd ℂ) (((Real.sqrt 2 : ℝ) : ℂ)⁻¹ ^ N) = ((Real.sqrt 2 : ℝ) : ℂ)⁻¹ ^ N := by
    rw [map_pow, map_inv₀, Complex.conj_ofReal]
  have h2 : (((Real.sqrt 2 : ℝ) : ℂ)⁻¹ ^ N) ^ 2 = ((2 : ℂ) ^ N)⁻¹ := by
    have h : ((Real.sqrt 2 : ℝ) : ℂ) ^ 2 = 2 := by
      rw [← Complex.ofReal_pow, Real.sq_sqrt (by norm_num)]; norm_num
    calc (((Real.sqrt 2 : ℝ) : ℂ)⁻¹ ^ N) ^ 2 = (((Real.sqrt 2 : ℝ) : ℂ) ^ 2)⁻¹ ^ N := by ring
      _ = _ := by rw [h, inv_pow]
  have hd : (2 : ℂ) ^ N ≠ 0 := pow_ne_zero _ (by norm_num)
  have h1 : ∀ x, (starRingEnd ℂ) (Spec.diagHadamard θ φ x) * Spec.diagHadamard θ ψ x =
      ((2 : ℂ) ^ N)⁻¹ * ∑ y, ∑ z, (chi y x * chi z x) *
        ((starRingEnd ℂ) (Complex.exp (θ y * Complex.I) * φ y) * (Complex.exp (θ z * Complex.I) * ψ z)) := by
    intro x
    unfold Spec.diagHadamard
    rw [map_mul, hs, map_sum, ← h2]
    rw [show ∀ s a b : ℂ, s * a * (s * b) = s ^ 2 * (a * b) from fun s a b => by ring, Finset.sum_mul_sum]
    refine congrArg (fun t => _ * t) ?_
    apply Finset.sum_congr rfl; intro y _
    apply Finset.sum_congr rfl; intro z _
    rw [map_mul, conj_sgn, chi_comm y x, chi_comm z x]
    unfold chi
    ring
  unfold braket
  simp only [h1]
  rw [← Finset.mul_sum, Finset.sum_comm]
  have h3 : ∀ y, ∑ x, ∑ z, (chi y x * chi z x) *
        ((starRingEnd ℂ) (Complex.exp (θ y * Complex.I) * φ y) * (Complex.exp (θ z * Complex.I) * ψ z)) =
      2 ^ N * ((starRingEnd ℂ) (φ y) * ψ y) := by
    intro y
    rw [Finset.sum_comm]
    simp only [← Finset.sum_mul, chi_prod_sum, ite_mul, zero_mul, Finset.sum_ite_eq', Finset.mem_univ, if_true]
    rw [map_mul, conj_exp_real]
    have : Complex.exp (-θ y * Complex.I) * Complex.exp (θ y * Complex.I) = 1 := by
      rw [← Complex.exp_add]; simp
    linear_combination (2 ^ N * ((starRingEnd ℂ) (φ y) * ψ y)) * this
  simp only [h3]
  rw [← Finset.mul_sum, ← mul_assoc, inv_mul_cancel₀ hd, one_mul]

theorem braket_self (ψ : Amp N) : braket ψ ψ = ((∑ b, Complex.normSq (ψ b) : ℝ) : ℂ) := by
  unfold braket
  push_cast
  apply Finset.sum_congr rfl; intro b _
  rw [mul_comm, Complex.mul_conj]

theorem diagHadamard_norm (θ : (Fin N → ZMod 2) → ℝ) (ψ : Amp N) :
    ∑ b, Complex.normSq (Spec.diagHadamard θ ψ b) = ∑ b, Complex.normSq (ψ b) := by
  have h := diagHadamard_braket θ ψ ψ
  rw [braket_self, braket_self] at h
  exact_mod_cast h

/-- Renaming the basis states. -/
def permLin (σ : Equiv.Perm (Fin N → ZMod 2)) : Amp N →ₗ[ℂ] Amp N where
  toFun ψ := fun x => ψ (σ x)
  map_add' _ _ := rfl
  map_smul' _ _ := rfl

theorem stateTab_continuous (x y x' y' : Fin N → ZMod 2) : Continuous fun ψ : Amp N => stateTab ψ x y x' y' := by
  unfold stateTab
  fun_prop

theorem normSq_le_one {ψ : Amp N} (h : ∑ b, Complex.normSq (ψ b) = 1) (x : Fin N → ZMod 2) : ‖ψ x‖ ≤ 1 := by
  have h1 : Complex.normSq (ψ x) ≤ 1 := by
    rw [← h]
    exact Finset.single_le_sum (f := fun b => Complex.normSq (ψ b)) (fun _ _ => Complex.normSq_nonneg _) (Finset.mem_univ x)
  rw [Complex.normSq_eq_norm_sq] at h1
  exact (sq_le_one_iff₀ (norm_nonneg _)).mp h1

theorem stateTab_bound {ψ : Amp N} (h : ∑ b, Complex.normSq (ψ b) = 1) (x y x' y' : Fin N → ZMod 2) :
    ‖stateTab ψ x y x' y'‖ ≤ 1 := by
  unfold stateTab
  rw [norm_mul, norm_mul, norm_mul, RCLike.norm_conj, RCLike.norm_conj]
  have := normSq_le_one h
  have h1 := mul_le_one₀ (this x) (norm_nonneg _) (this y)
  have h2 := mul_le_one₀ h1 (norm_nonneg _) (this x')
  exact mul_le_one₀ h2 (norm_nonneg _) (this y')

theorem stateTab_integrable (hμ : UniformStates μ) (x y x' y' : Fin N → ZMod 2) :
    Integrable (fun ψ : Amp N => stateTab ψ x y x' y') μ := by
  have : IsProbabilityMeasure μ := ⟨hμ.prob⟩
  exact Integrable.of_bound (stateTab_continuous x y x' y').aestronglyMeasurable 1
    (hμ.normalised.mono fun ψ h => stateTab_bound h x y x' y')

/-- The averaged table of uniformly distributed states. -/
noncomputable def haarTab (μ : Measure (Amp N)) : Tab N := fun x y x' y' => ∫ ψ, stateTab ψ x y x' y' ∂μ

theorem haarTab_invariant (hμ : UniformStates μ) {L : Amp N →ₗ[ℂ] Amp N}
    (hL : ∀ ψ, lenSq (L ψ) = lenSq ψ) (x y x' y' : Fin N → ZMod 2) :
    ∫ ψ, stateTab (L ψ) x y x' y' ∂μ = haarTab μ x y x' y' := by
  have h := hμ.invariant L hL
  have hm : AEMeasurable L μ := (LinearMap.continuous_of_finiteDimensional L).aemeasurable
  unfold haarTab
  conv_rhs => rw [← h]
  rw [integral_map hm (stateTab_continuous x y x' y').aestronglyMeasurable]

theorem haarTab_round (hμ : UniformStates μ) : roundTab (haarTab μ) = haarTab μ := by
  funext x y x' y'
  have hc : (3 ^ N * 2 ^ (N * N) : ℂ) ≠ 0 := mul_ne_zero (pow_ne_zero _ (by norm_num)) (pow_ne_zero _ (by norm_num))
  have h1 : ∀ e : RoundDraw N, ∫ ψ, stateTab (Spec.diagHadamard (Spec.diagPhase e.1 e.2) ψ) x y x' y' ∂μ =
      haarTab μ x y x' y' := fun e =>
    haarTab_invariant hμ (L := diagHadamardLin (Spec.diagPhase e.1 e.2)) (diagHadamard_norm _) x y x' y'
  have h2 : ∀ e : RoundDraw N,
      Integrable (fun ψ => stateTab (Spec.diagHadamard (Spec.diagPhase e.1 e.2) ψ) x y x' y') μ := by
    intro e
    have : IsProbabilityMeasure μ := ⟨hμ.prob⟩
    have hcont : Continuous (diagHadamardLin (Spec.diagPhase e.1 e.2)) :=
      LinearMap.continuous_of_finiteDimensional _
    exact Integrable.of_bound ((stateTab_continuous x y x' y').comp hcont).aestronglyMeasurable 1
      (hμ.normalised.mono fun ψ h => stateTab_bound ((diagHadamard_norm _ ψ).trans h) x y x' y')
  have h3 : ∫ ψ, (∑ e : RoundDraw N, stateTab (Spec.diagHadamard (Spec.diagPhase e.1 e.2) ψ) x y x' y') /
      (3 ^ N * 2 ^ (N * N)) ∂μ = haarTab μ x y x' y' := by
    rw [integral_div, integral_finsetSum _ fun e _ => h2 e]
    simp only [h1]
    rw [Finset.sum_const, Finset.card_univ, nsmul_eq_mul, card_roundDraw, mul_div_assoc, mul_comm, div_mul_cancel₀ _ hc]
  rw [← h3]
  simp only [round_moment]
  unfold roundTab haarTab
  rw [integral_const_mul]
  have hi := stateTab_integrable hμ
  refine congrArg (fun t => _ * t) ?_
  rw [integral_finsetSum]
  swap
  · intro a _
    exact integrable_finsetSum _ fun b _ => integrable_finsetSum _ fun a' _ => integrable_finsetSum _ fun b' _ =>
      ((hi a b a' b').const_mul _).const_mul _
  apply Finset.sum_congr rfl; intro a _
  rw [integral_finsetSum]
  swap
  · intro b _
    exact integrable_finsetSum _ fun a' _ => integrable_finsetSum _ fun b' _ => ((hi a b a' b').const_mul _).const_mul _
  apply Finset.sum_congr rfl; intro b _
  rw [integral_finsetSum]
  swap
  · intro a' _
    exact integrable_finsetSum _ fun b' _ => ((hi a b a' b').const_mul _).const_mul _
  apply Finset.sum_congr rfl; intro a' _
  rw [integral_finsetSum]
  swap
  · intro b' _
    exact ((hi a b a' b').const_mul _).const_mul _
  apply Finset.sum_congr rfl; intro b' _
  rw [integral_const_mul, integral_const_mul]

theorem haarTab_perm (hμ : UniformStates μ) (σ : Equiv.Perm (Fin N → ZMod 2)) (x y x' y' : Fin N → ZMod 2) :
    haarTab μ (σ x) (σ y) (σ x') (σ y') = haarTab μ x y x' y' :=
  haarTab_invariant hμ (L := permLin σ) (fun ψ => Equiv.sum_comp σ fun b => Complex.normSq (ψ b)) x y x' y'

theorem haarTab_swap (x y x' y' : Fin N → ZMod 2) : haarTab μ x y y' x' = haarTab μ x y x' y' := by
  unfold haarTab stateTab
  simp only [mul_right_comm]

theorem perm_pair {α : Type} [DecidableEq α] {a b c d : α} (h : a ≠ b) (h' : c ≠ d) : ∃ σ : Equiv.Perm α, σ a = c ∧ σ b = d := by
  refine ⟨(Equiv.swap a c).trans (Equiv.swap (Equiv.swap a c b) d), ?_, ?_⟩
  · simp only [Equiv.trans_apply, Equiv.swap_apply_left]
    apply Equiv.swap_apply_of_ne_of_ne _ h'
    intro hc
    apply h
    apply (Equiv.swap a c).injective
    rw [Equiv.swap_apply_left]
    exact hc
  · simp

theorem haarTab_eq (hN : 0 < N) (hμ : UniformStates μ) :
    haarTab μ = fun x y x' y' => (((2 ^ N) ^ 2 + 2 ^ N : ℝ)⁻¹ : ℂ) * tabA x y x' y' := by
  have hd : (2 : ℂ) ^ N ≠ 0 := pow_ne_zero _ (by norm_num)
  have h01 : (0 : Fin N → ZMod 2) ≠ 1 := fun h => by
    have := congrFun h ⟨0, hN⟩
    simp at this
  set p := haarTab μ 0 1 0 1 with hp
  set q := haarTab μ 0 0 0 0 with hq
  have hoff : ∀ a b, a ≠ b → haarTab μ a b a b = p := by
    intro a b hab
    obtain ⟨σ, rfl, rfl⟩ := perm_pair h01 hab
    exact haarTab_perm hμ σ 0 1 0 1
  have hdiag : ∀ a, haarTab μ a a a a = q := by
    intro a
    have := haarTab_perm hμ (Equiv.swap 0 a) 0 0 0 0
    rwa [Equiv.swap_apply_left] at this
  have h1 : roundTab (haarTab μ) = roundTab (fun x y x' y' => (q - p) * tabA x y x' y' + (2 * p - q) * tabZ x y x' y') := by
    apply roundTab_congr
    intro a b a' b'
    unfold pairInd
    split_ifs with hpq
    · rcases hpq with ⟨rfl, rfl⟩ | ⟨rfl, rfl⟩
      · by_cases h : a' = b'
        · subst h
          rw [hdiag]
          simp [tabA, tabZ, bits_pair_cancel]
          ring
        · rw [hoff _ _ h]
          simp [tabA, tabZ, bits_pair_cancel, h, Ne.symm h]
          ring
      · by_cases h : a' = b'
        · subst h
          rw [hdiag]
          simp [tabA, tabZ, bits_pair_cancel]
          ring
        · rw [haarTab_swap, hoff _ _ (Ne.symm h)]
          simp [tabA, tabZ, bits_pair_cancel', h, Ne.symm h]
          ring
    · ring
  have h2 : haarTab μ = fun x y x' y' => p * tabA x y x' y' + (-((2 * p - q) / 2 ^ N)) * tabZ x y x' y' := by
    rw [← haarTab_round hμ, h1]
    funext x y x' y'
    rw [roundTab_AZ]
    ring
  have h3 : 2 * p - q = 0 := by
    have h := congrFun (congrFun (congrFun (congrFun h2 0) 1) 0) 1
    rw [← hp] at h
    simp only [tabA, tabZ, bits_pair_cancel, and_self, if_true, h01, h01.symm, if_false] at h
    have : (2 * p - q) / 2 ^ N = 0 := by linear_combination h
    rcases div_eq_zero_iff.mp this with h | h
    · exact h
    · exact absurd h hd
  have h4 : haarTab μ = fun x y x' y' => p * tabA x y x' y' := by
    rw [h2, h3]
    funext x y x' y'
    ring
  have h5 : ∑ x, ∑ y, haarTab μ x y x y = 1 := by
    have : IsProbabilityMeasure μ := ⟨hμ.prob⟩
    have hi := stateTab_integrable hμ
    have : ∑ x, ∑ y, haarTab μ x y x y = ∫ ψ, ∑ x, ∑ y, stateTab ψ x y x y ∂μ := by
      rw [integral_finsetSum _ fun x _ => integrable_finsetSum _ fun y _ => hi x y x y]
      apply Finset.sum_congr rfl; intro x _
      rw [integral_finsetSum _ fun y _ => hi x y x y]
      rfl
    rw [this]
    have h6 : ∀ᵐ ψ ∂μ, ∑ x, ∑ y, stateTab ψ x y x y = (1 : ℂ) := by
      refine hμ.normalised.mono fun ψ h => ?_
      have : ∀ x y, stateTab ψ x y x y = (Complex.normSq (ψ x) : ℂ) * (Complex.normSq (ψ y) : ℂ) := by
        intro x y
        unfold stateTab
        rw [← Complex.mul_conj, ← Complex.mul_conj]
        ring
      simp only [this]
      unfold lenSq at h
      rw [← Finset.sum_mul_sum, ← Complex.ofReal_sum, h]
      norm_num
    rw [integral_congr_ae h6]
    simp
  have h6 : p * ((2 ^ N) ^ 2 + 2 ^ N) = 1 := by
    rw [h4] at h5
    simp only [← Finset.mul_sum, tabA, and_self, if_true, Finset.sum_add_distrib] at h5
    have e1 : ∀ x : Fin N → ZMod 2, ∑ y, (if x = y ∧ y = x then (1 : ℂ) else 0) = 1 := by
      intro x
      rw [Finset.sum_eq_single x]
      · simp
      · intro y _ hy; simp [hy]
      · simp
    simp only [e1] at h5
    rw [Finset.sum_const, Finset.sum_const, card_bits] at h5
    rw [← h5]
    simp only [nsmul_eq_mul]
    push_cast
    ring
  have h7 : ((2 : ℂ) ^ N) ^ 2 + 2 ^ N ≠ 0 := fun h => by rw [h, mul_zero] at h6; exact zero_ne_one h6
  rw [h4]
  funext x y x' y'
  push_cast
  rw [eq_inv_of_mul_eq_one_left h6]

/-- The average fidelity of a channel in terms of the traces of its Kraus operators. -/
theorem avgFidelity_eq (hN : 0 < N) (hμ : UniformStates μ) {J : ℕ}
    (K : Fin J → Matrix (Fin N → ZMod 2) (Fin N → ZMod 2) ℂ) :
    avgFidelity μ K = (∑ j, (Complex.normSq (K j).trace + frob (K j))) / ((2 ^ N) ^ 2 + 2 ^ N) := by
  have hi := stateTab_integrable hμ
  have h1 : ((avgFidelity μ K : ℝ) : ℂ) = ∑ j, contract (K j) (haarTab μ) := by
    unfold avgFidelity stateFidelity
    rw [← integral_complex_ofReal]
    simp only [Complex.ofReal_sum, normSq_contract]
    have hint : ∀ (j : Fin J) (u v u' v' : Fin N → ZMod 2), Integrable (fun ψ : Amp N =>
        K j u v * (starRingEnd ℂ) (K j u' v') * stateTab ψ v u' u v') μ := fun j u v u' v' => (hi v u' u v').const_mul _
    unfold contract
    rw [integral_finsetSum _ fun j _ => integrable_finsetSum _ fun u _ => integrable_finsetSum _ fun v _ =>
      integrable_finsetSum _ fun u' _ => integrable_finsetSum _ fun v' _ => hint j u v u' v']
    apply Finset.sum_congr rfl; intro j _
    rw [integral_finsetSum _ fun u _ => integrable_finsetSum _ fun v _ =>
      integrable_finsetSum _ fun u' _ => integrable_finsetSum _ fun v' _ => hint j u v u' v']
    apply Finset.sum_congr rfl; intro u _
    rw [integral_finsetSum _ fun v _ =>
      integrable_finsetSum _ fun u' _ => integrable_finsetSum _ fun v' _ => hint j u v u' v']
    apply Finset.sum_congr rfl; intro v _
    rw [integral_finsetSum _ fun u' _ => integrable_finsetSum _ fun v' _ => hint j u v u' v']
    apply Finset.sum_congr rfl; intro u' _
    rw [integral_finsetSum _ fun v' _ => hint j u v u' v']
    apply Finset.sum_congr rfl; intro v' _
    rw [integral_const_mul]
    rfl
  have h2 : ∀ j, contract (K j) (haarTab μ) = (((2 ^ N) ^ 2 + 2 ^ N : ℝ)⁻¹ : ℂ) *
      ((Complex.normSq (K j).trace + frob (K j) : ℝ) : ℂ) := by
    intro j
    rw [haarTab_eq hN hμ, contract_smul, contract_A]
  simp only [h2] at h1
  rw [← Finset.mul_sum, ← Complex.ofReal_sum] at h1
  have h3 : avgFidelity μ K = ((2 ^ N) ^ 2 + 2 ^ N : ℝ)⁻¹ * ∑ j, (Complex.normSq (K j).trace + frob (K j)) := by
    exact_mod_cast h1
  rw [h3, div_eq_inv_mul]

end PyQ
