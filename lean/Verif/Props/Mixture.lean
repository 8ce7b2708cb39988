import Verif.Lemmas.Mixture
import Verif.Props.DataProcessing
import Verif.Props.ChoiInfo

/-!
# C95: mixtures of states and of channels
-/

namespace PyQ

open Matrix Polynomial
open scoped ComplexOrder

variable {eig : Eigvalsh}

/-! ## What the API computes, in terms of Kraus operators on spaces of given dimensions -/

theorem shannon_specSum (heig : eig.Correct) {A : Arr ℂ} {m : ℕ} (h1 : A.rows = m) (h2 : A.cols = m)
    (hA : (A.mat m m).PosSemidef) :
    Spec.shannon (fun i : Fin m => eig A i) = specSum Real.negMulLog (A.mat m m) / Real.log 2 := by
  rw [shannon_negMulLog, specSum_eq hA (heig A m h1 h2 hA.isHermitian) Real.negMulLog_zero]

theorem api_kraus (heig : eig.Correct) {sp : Bool} {ops : Arr3 ℂ} {a b d e : ℕ} {orth : List ℕ} {o : KrausObj}
    (h : QChan.init sp ops a b d e orth = .ok o) (ho : sp = true ∨ orth = [])
    (htp : Spec.TracePreserving (ops.ops ops.len (e ^ b) (d ^ a))) (calls : List QChan.Call) (n : ℕ)
    (hsafe : Spec.SafeUses sp (calls.map QChan.Call.uses ++ [n])) {N M : ℕ} (hN : (d ^ a) ^ n = N) (hM : (e ^ b) ^ n = M) :
    ∃ K : Fin (ops.len ^ n) → Matrix (Fin M) (Fin N) ℂ, Spec.TracePreserving K ∧
      (∀ x : Arr ℂ, x.rows = N → x.cols = N → ∃ y, (QChan.channel (QChan.history o calls) x n false).1 = .ok y ∧
        y.rows = M ∧ y.cols = M ∧ y.mat M M = Spec.applyKraus K (x.mat N N)) ∧
      ∀ rho : Arr ℂ, rho.rows = N → rho.cols = N → Spec.IsDensity (rho.mat N N) →
        ∃ v, (QChan.coherentInformation eig (QChan.history o calls) rho n false).1 = .ok v ∧
          v ≤ krausInfo K (rho.mat N N) / Real.log 2 + (ops.len ^ n : ℕ) * (4 / 10 ^ 9) ∧
          krausInfo K (rho.mat N N) / Real.log 2 - M * (4 / 10 ^ 9) ≤ v := by
  subst hN hM
  have htp' := Spec.tensorPow_tp _ n htp
  refine ⟨Spec.tensorPow (ops.ops ops.len (e ^ b) (d ^ a)) n, htp',
    fun x h1 h2 => api_channel h calls n hsafe x h1 h2, fun rho hr hc hrho => ?_⟩
  obtain ⟨out, W, -, x2, x3, x4, w2, w3, w4, hv⟩ := C45_coherent_value (eig := eig) h ho calls n hsafe rho hr hc false
  obtain ⟨D1, D2⟩ := kraus_densities _ _ htp' hrho
  rw [← x4] at D1
  rw [← w4] at D2
  refine ⟨_, hv, ?_⟩
  obtain ⟨a1, a2⟩ := entropyOne_cut heig x2 x3 D1
  obtain ⟨b1, b2⟩ := entropyOne_cut heig w2 w3 D2
  rw [shannon_specSum heig x2 x3 D1.1] at a1 a2
  rw [shannon_specSum heig w2 w3 D2.1] at b1 b2
  unfold krausInfo
  rw [if_neg (by simp), ← x4, ← w4, sub_div]
  constructor <;> linarith

/-- The entropy of a choice between two alternatives, in bits. -/
noncomputable def Spec.choiceEntropy (p : ℝ) : ℝ := Spec.shannon ![p, 1 - p]

theorem choiceEntropy_eq (p : ℝ) : Spec.choiceEntropy p = (Real.negMulLog p + Real.negMulLog (1 - p)) / Real.log 2 := by
  unfold Spec.choiceEntropy
  rw [shannon_negMulLog]
  simp [Fin.sum_univ_two]

/-! ## The theorems -/

/-- **C95, states**.  For density matrices `A` and `B` and the mixture `M = p A + (1 - p) B`, the entropy that the code computes
for `M` is at least the mean of the entropies of `A` and `B`, and exceeds it by at most the entropy of the choice.  The summand
is the effect of the cut-off of small eigenvalues, at most `4e-9` for each eigenvalue. -/
theorem C95_states (heig : eig.Correct) {m : ℕ} {A B M : Arr ℂ} (hA : A.rows = m ∧ A.cols = m) (hB : B.rows = m ∧ B.cols = m)
    (hM : M.rows = m ∧ M.cols = m) (dA : Spec.IsDensity (A.mat m m)) (dB : Spec.IsDensity (B.mat m m)) {p : ℝ} (h0 : 0 ≤ p)
    (h1 : p ≤ 1) (hmix : M.mat m m = (p : ℂ) • A.mat m m + ((1 - p : ℝ) : ℂ) • B.mat m m) :
    ∃ s t u, entropyList eig entropyCut [A] = .ok s ∧ entropyList eig entropyCut [B] = .ok t ∧
      entropyList eig entropyCut [M] = .ok u ∧
      p * s + (1 - p) * t ≤ u + m * (4 / 10 ^ 9) ∧
      u ≤ p * s + (1 - p) * t + Spec.choiceEntropy p + m * (4 / 10 ^ 9) := by
  have hp1 := sub_nonneg.mpr h1
  have pM : (M.mat m m).PosSemidef := by
    rw [hmix]
    exact (dA.1.smul (by exact_mod_cast h0)).add (dB.1.smul (by exact_mod_cast hp1))
  have dM : Spec.IsDensity (M.mat m m) := by
    refine ⟨pM, ?_⟩
    rw [hmix, trace_add, trace_smul, trace_smul, dA.2, dB.2]
    push_cast
    simp
  refine ⟨_, _, _, entropyList_one eig entropyCut A (hA.1.trans hA.2.symm),
    entropyList_one eig entropyCut B (hB.1.trans hB.2.symm), entropyList_one eig entropyCut M (hM.1.trans hM.2.symm), ?_⟩
  obtain ⟨a1, a2⟩ := entropyOne_cut heig hA.1 hA.2 dA
  obtain ⟨b1, b2⟩ := entropyOne_cut heig hB.1 hB.2 dB
  obtain ⟨c1, c2⟩ := entropyOne_cut heig hM.1 hM.2 dM
  rw [shannon_specSum heig hA.1 hA.2 dA.1] at a1 a2
  rw [shannon_specSum heig hB.1 hB.2 dB.1] at b1 b2
  rw [shannon_specSum heig hM.1 hM.2 dM.1] at c1 c2
  have pM' := pM
  rw [hmix] at pM'
  have k1 := entropy_concave h0 h1 dA.1 dB.1 pM'
  have k2 := entropy_mix_le h0 h1 dA.1 dB.1 dA.2 dB.2 pM'
  rw [← hmix] at k1 k2
  have hlog : 0 < Real.log 2 := Real.log_pos (by norm_num)
  have k1' := div_le_div_of_nonneg_right k1 hlog.le
  have k2' := div_le_div_of_nonneg_right k2 hlog.le
  rw [add_div, mul_div_assoc, mul_div_assoc] at k1' 
  rw [add_div, add_div (p * _), mul_div_assoc, mul_div_assoc, ← choiceEntropy_eq] at k2'
  have l1 := mul_le_mul_of_nonneg_left a1 h0
  have l2 := mul_le_mul_of_nonneg_left b1 hp1
  have l3 := mul_le_mul_of_nonneg_left a2 h0
  have l4 := mul_le_mul_of_nonneg_left b2 hp1
  constructor
  · linarith
  · nlinarith

/-- The hypotheses of the theorem are met by the maximally mixed qubit, a basis state and the weight `1/3`. -/
example : ∃ (eig : Eigvalsh) (A M : Arr ℂ), eig.Correct ∧ A.mat 2 2 = diagonal ![1, 0] ∧
    M.mat 2 2 = diagonal ![2 / 3, 1 / 3] ∧
    ∃ s t u, entropyList eig entropyCut [A] = .ok s ∧ entropyList eig entropyCut [mixedState] = .ok t ∧
      entropyList eig entropyCut [M] = .ok u ∧ 1 / 3 * s + (1 - 1 / 3) * t ≤ u + 2 * (4 / 10 ^ 9) := by
  obtain ⟨eig, heig⟩ := exists_eigvalsh
  have dA : Spec.IsDensity ((Arr.ofMat (diagonal ![1, 0] : Matrix (Fin 2) (Fin 2) ℂ)).mat 2 2) := by
    rw [Arr.ofMat_mat]
    refine ⟨?_, by simp⟩
    rw [posSemidef_diagonal_iff]
    intro i
    fin_cases i <;> simp
  obtain ⟨s, t, u, hs, ht, hu, h, -⟩ := C95_states heig (m := 2) (A := Arr.ofMat (diagonal ![1, 0]))
    (B := mixedState) (M := Arr.ofMat (diagonal ![2 / 3, 1 / 3])) ⟨rfl, rfl⟩ ⟨rfl, rfl⟩ ⟨rfl, rfl⟩ dA mixedState_density
    (p := 1 / 3) (by norm_num) (by norm_num) (by
      rw [Arr.ofMat_mat, Arr.ofMat_mat]
      ext i j
      simp only [Matrix.add_apply, Matrix.smul_apply, mixedState, Arr.mat]
      fin_cases i <;> fin_cases j <;> simp <;> norm_num)
  exact ⟨eig, _, _, heig, Arr.ofMat_mat _, Arr.ofMat_mat _, s, t, u, hs, ht, hu, by exact_mod_cast h⟩

section Channels

variable {sp₁ sp₂ sp : Bool} {ops₁ ops₂ ops : Arr3 ℂ} {a₁ b₁ d₁ e₁ a₂ b₂ d₂ e₂ a b d e : ℕ} {orth₁ orth₂ orth : List ℕ}
  {o₁ o₂ o : KrausObj}

/-- **C95, channels**.  If the outputs of one channel object are the mixtures, with the weights `p` and `1 - p`, of the outputs of
two channel objects, then for every density matrix its coherent information is at most the mean of the two, and falls short of it
by at most the entropy of the choice, up to the cut-off of small eigenvalues.  The objects may have any history and use the
channel a different number of times, as long as the dimensions agree. -/
theorem C95_channels (heig : eig.Correct) (i₁ : QChan.init sp₁ ops₁ a₁ b₁ d₁ e₁ orth₁ = .ok o₁)
    (i₂ : QChan.init sp₂ ops₂ a₂ b₂ d₂ e₂ orth₂ = .ok o₂) (i : QChan.init sp ops a b d e orth = .ok o)
    (x₁ : sp₁ = true ∨ orth₁ = []) (x₂ : sp₂ = true ∨ orth₂ = []) (x : sp = true ∨ orth = [])
    (t₁ : Spec.TracePreserving (ops₁.ops ops₁.len (e₁ ^ b₁) (d₁ ^ a₁)))
    (t₂ : Spec.TracePreserving (ops₂.ops ops₂.len (e₂ ^ b₂) (d₂ ^ a₂)))
    (t : Spec.TracePreserving (ops.ops ops.len (e ^ b) (d ^ a)))
    (c₁ c₂ c : List QChan.Call) (n₁ n₂ n : ℕ) (s₁ : Spec.SafeUses sp₁ (c₁.map QChan.Call.uses ++ [n₁]))
    (s₂ : Spec.SafeUses sp₂ (c₂.map QChan.Call.uses ++ [n₂])) (s : Spec.SafeUses sp (c.map QChan.Call.uses ++ [n]))
    {N M : ℕ} (hN₁ : (d₁ ^ a₁) ^ n₁ = N) (hM₁ : (e₁ ^ b₁) ^ n₁ = M) (hN₂ : (d₂ ^ a₂) ^ n₂ = N) (hM₂ : (e₂ ^ b₂) ^ n₂ = M)
    (hN : (d ^ a) ^ n = N) (hM : (e ^ b) ^ n = M) {p : ℝ} (h0 : 0 ≤ p) (h1 : p ≤ 1)
    (hmix : ∀ x : Arr ℂ, x.rows = N → x.cols = N →
      ∃ y₁ y₂ y, (QChan.channel (QChan.history o₁ c₁) x n₁ false).1 = .ok y₁ ∧
        (QChan.channel (QChan.history o₂ c₂) x n₂ false).1 = .ok y₂ ∧
        (QChan.channel (QChan.history o c) x n false).1 = .ok y ∧
        y.mat M M = (p : ℂ) • y₁.mat M M + ((1 - p : ℝ) : ℂ) • y₂.mat M M)
    (rho : Arr ℂ) (hr : rho.rows = N) (hc : rho.cols = N) (hrho : Spec.IsDensity (rho.mat N N)) :
    ∃ v₁ v₂ v, (QChan.coherentInformation eig (QChan.history o₁ c₁) rho n₁ false).1 = .ok v₁ ∧
      (QChan.coherentInformation eig (QChan.history o₂ c₂) rho n₂ false).1 = .ok v₂ ∧
      (QChan.coherentInformation eig (QChan.history o c) rho n false).1 = .ok v ∧
      v ≤ p * v₁ + (1 - p) * v₂ + ((ops.len ^ n : ℕ) + (M : ℝ)) * (4 / 10 ^ 9) ∧
      p * v₁ + (1 - p) * v₂ - Spec.choiceEntropy p -
        (((max (ops₁.len ^ n₁) (ops₂.len ^ n₂) : ℕ) : ℝ) + (M : ℝ)) * (4 / 10 ^ 9) ≤ v := by
  obtain ⟨K₁, q₁, g₁, f₁⟩ := api_kraus heig i₁ x₁ t₁ c₁ n₁ s₁ hN₁ hM₁
  obtain ⟨K₂, q₂, g₂, f₂⟩ := api_kraus heig i₂ x₂ t₂ c₂ n₂ s₂ hN₂ hM₂
  obtain ⟨K, q, g, f⟩ := api_kraus heig i x t c n s hN hM
  have hK : ∀ ρ, Spec.applyKraus K ρ = (p : ℂ) • Spec.applyKraus K₁ ρ + ((1 - p : ℝ) : ℂ) • Spec.applyKraus K₂ ρ := by
    intro ρ
    obtain ⟨y₁, y₂, y, r₁, r₂, r, hy⟩ := hmix (Arr.ofMat ρ) rfl rfl
    obtain ⟨z₁, w₁, -, -, m₁⟩ := g₁ (Arr.ofMat ρ) rfl rfl
    obtain ⟨z₂, w₂, -, -, m₂⟩ := g₂ (Arr.ofMat ρ) rfl rfl
    obtain ⟨z, w, -, -, m⟩ := g (Arr.ofMat ρ) rfl rfl
    rw [r₁] at w₁
    rw [r₂] at w₂
    rw [r] at w
    injection w₁ with w₁
    injection w₂ with w₂
    injection w with w
    subst w₁ w₂ w
    rw [Arr.ofMat_mat] at m₁ m₂ m
    rw [← m₁, ← m₂, ← m, hy]
  obtain ⟨k1, k2⟩ := kraus_mix h0 h1 K₁ K₂ K q₁ q₂ hK hrho.1 hrho.2
  obtain ⟨v₁, hv₁, u₁, l₁⟩ := f₁ rho hr hc hrho
  obtain ⟨v₂, hv₂, u₂, l₂⟩ := f₂ rho hr hc hrho
  obtain ⟨v, hv, u, l⟩ := f rho hr hc hrho
  refine ⟨v₁, v₂, v, hv₁, hv₂, hv, ?_⟩
  have hp1 := sub_nonneg.mpr h1
  have hlog : 0 < Real.log 2 := Real.log_pos (by norm_num)
  have k1' := div_le_div_of_nonneg_right k1 hlog.le
  have k2' := div_le_div_of_nonneg_right k2 hlog.le
  rw [add_div, mul_div_assoc, mul_div_assoc] at k1'
  rw [sub_div, add_div, mul_div_assoc, mul_div_assoc, ← choiceEntropy_eq] at k2'
  have e1 := mul_le_mul_of_nonneg_left l₁ h0
  have e2 := mul_le_mul_of_nonneg_left l₂ hp1
  have e3 := mul_le_mul_of_nonneg_left u₁ h0
  have e4 := mul_le_mul_of_nonneg_left u₂ hp1
  constructor
  · nlinarith
  · have m1 : ((ops₁.len ^ n₁ : ℕ) : ℝ) ≤ ((max (ops₁.len ^ n₁) (ops₂.len ^ n₂) : ℕ) : ℝ) := by
      exact_mod_cast le_max_left _ _
    have m2 : ((ops₂.len ^ n₂ : ℕ) : ℝ) ≤ ((max (ops₁.len ^ n₁) (ops₂.len ^ n₂) : ℕ) : ℝ) := by
      exact_mod_cast le_max_right _ _
    have m1' := mul_le_mul_of_nonneg_left m1 h0
    have m2' := mul_le_mul_of_nonneg_left m2 hp1
    generalize ((max (ops₁.len ^ n₁) (ops₂.len ^ n₂) : ℕ) : ℝ) = z at *
    generalize ((ops₁.len ^ n₁ : ℕ) : ℝ) = z₁ at *
    generalize ((ops₂.len ^ n₂ : ℕ) : ℝ) = z₂ at *
    linarith

/-- The channel of the Pauli matrix `Z`. -/
def zOps : Arr3 ℂ := ⟨1, 2, 2, fun _ i j => if i = j then (if i = 0 then 1 else -1) else 0⟩

theorem zOps_tp : Spec.TracePreserving (zOps.ops zOps.len (2 ^ 1) (2 ^ 1)) := by
  unfold Spec.TracePreserving
  change ∑ i : Fin 1, (zOps.ops 1 2 2 i)ᴴ * zOps.ops 1 2 2 i = (1 : Matrix (Fin 2) (Fin 2) ℂ)
  ext i j
  simp only [zOps, Matrix.sum_apply, Matrix.mul_apply, conjTranspose_apply, Arr3.ops, Matrix.one_apply]
  fin_cases i <;> fin_cases j <;> simp [Fin.sum_univ_two]

/-- The dephasing channel is half the identity and half the channel of `Z`. -/
theorem deph_mix (ρ : Matrix (Fin 2) (Fin 2) ℂ) :
    Spec.applyKraus (dephOps.ops 2 2 2) ρ = ((1 / 2 : ℝ) : ℂ) • Spec.applyKraus ((idOps 1).ops 1 2 2) ρ +
      ((1 - 1 / 2 : ℝ) : ℂ) • Spec.applyKraus (zOps.ops 1 2 2) ρ := by
  unfold Spec.applyKraus
  ext i j
  simp only [Matrix.add_apply, Matrix.smul_apply, Matrix.sum_apply, Matrix.mul_apply, conjTranspose_apply, dephOps, idOps, zOps,
    Arr3.ops]
  fin_cases i <;> fin_cases j <;> simp [Fin.sum_univ_two] <;> ring

/-- The hypotheses of C95 are met by the identity, the channel of `Z` and dephasing, for every state. -/
example : ∃ (eig : Eigvalsh) (o₁ o₂ o : KrausObj), eig.Correct ∧ QChan.init false (idOps 1) 1 1 2 2 [] = .ok o₁ ∧
    QChan.init true zOps 1 1 2 2 [] = .ok o₂ ∧ QChan.init false dephOps 1 1 2 2 [] = .ok o ∧
    ∀ rho : Arr ℂ, rho.rows = 2 → rho.cols = 2 → Spec.IsDensity (rho.mat 2 2) →
    ∃ v₁ v₂ v, (QChan.coherentInformation eig o₁ rho 1 false).1 = .ok v₁ ∧
      (QChan.coherentInformation eig o₂ rho 1 false).1 = .ok v₂ ∧
      (QChan.coherentInformation eig (QChan.history o [.update 3]) rho 1 false).1 = .ok v ∧
      v ≤ 1 / 2 * v₁ + (1 - 1 / 2) * v₂ + 4 * (4 / 10 ^ 9) := by
  obtain ⟨eig, heig⟩ := exists_eigvalsh
  obtain ⟨o₁, i₁⟩ := init_exact false (idOps 1) 1 1 2 2 [] (by decide) rfl rfl (idOps_tp 1)
  obtain ⟨o₂, i₂⟩ := init_exact true zOps 1 1 2 2 [] (by decide) rfl rfl zOps_tp
  obtain ⟨o, i⟩ := deph_ok false []
  refine ⟨eig, o₁, o₂, o, heig, i₁, i₂, i, fun rho h1 h2 h3 => ?_⟩
  have s : Spec.SafeUses false (([.update 3] : List QChan.Call).map QChan.Call.uses ++ [1]) :=
    ⟨by simp [QChan.Call.uses], by simp [QChan.Call.uses]⟩
  have s₁ : ∀ sp, Spec.SafeUses sp (([] : List QChan.Call).map QChan.Call.uses ++ [1]) := fun sp => ⟨by simp, by simp⟩
  obtain ⟨v₁, v₂, v, hv₁, hv₂, hv, hle, -⟩ := C95_channels heig i₁ i₂ i (Or.inr rfl) (Or.inl rfl) (Or.inr rfl) (idOps_tp 1)
    zOps_tp dephOps_tp [] [] [.update 3] 1 1 1 (s₁ _) (s₁ _) s (N := 2) (M := 2) rfl rfl rfl rfl rfl rfl
    (p := 1 / 2) (by norm_num) (by norm_num) (fun x hx hx' => by
      obtain ⟨y₁, r₁, -, -, m₁⟩ := api_channel i₁ [] 1 (s₁ _) x hx hx'
      obtain ⟨y₂, r₂, -, -, m₂⟩ := api_channel i₂ [] 1 (s₁ _) x hx hx'
      obtain ⟨y, r, -, -, m⟩ := api_channel i [.update 3] 1 s x hx hx'
      refine ⟨y₁, y₂, y, r₁, r₂, r, ?_⟩
      rw [tensorPow_one_eq] at m₁ m₂ m
      have hm := deph_mix (x.mat 2 2)
      exact m.trans (hm.trans (congrArg₂ (· + ·) (congrArg _ m₁.symm) (congrArg _ m₂.symm)))) rho h1 h2 h3
  refine ⟨v₁, v₂, v, hv₁, hv₂, hv, hle.trans (le_of_eq ?_)⟩
  simp only [dephOps]
  norm_num

end Channels

end PyQ
