import Verif.Lemmas.Continuity
import Verif.Props.SamplerLip
import Mathlib.Analysis.SpecialFunctions.BinaryEntropy

/-! # C110: states that differ little have nearly the same coherent information -/

namespace PyQ

open Matrix Spec
open scoped ComplexOrder

/-- `(1 + T) log2 (1 + T) - T log2 T`, which tends to zero with `T`. -/
noncomputable def Spec.mixingBits (T : ℝ) : ℝ := (1 + T) * Real.logb 2 (1 + T) - T * Real.logb 2 T

theorem mixingBits_eq (T : ℝ) : mixingBits T = mixNats T / Real.log 2 := by
  unfold mixingBits mixNats Real.logb
  ring

section
variable {eig : Eigvalsh}

/-- C110, `entropy`: if the absolute values of the entries of `A - B` add up to at most `2 T`, the entropies of the two
states differ by at most `T log2 m + (1 + T) log2 (1 + T) - T log2 T`, up to what the cut-off at `1e-10` drops. -/
theorem C110_entropy (heig : eig.Correct) {m : ℕ} {A B : Arr ℂ} (hA : A.rows = m ∧ A.cols = m) (hB : B.rows = m ∧ B.cols = m)
    (dA : IsDensity (A.mat m m)) (dB : IsDensity (B.mat m m)) {T : ℝ}
    (hT : ∑ i, ∑ j, ‖A.mat m m i j - B.mat m m i j‖ ≤ 2 * T) :
    ∃ s t, entropyList eig entropyCut [A] = .ok s ∧ entropyList eig entropyCut [B] = .ok t ∧
      |s - t| ≤ T * Real.logb 2 m + mixingBits T + m * (4 / 10 ^ 9) := by
  have hlog : 0 < Real.log 2 := Real.log_pos (by norm_num)
  refine ⟨_, _, entropyList_one eig entropyCut A (hA.1.trans hA.2.symm), entropyList_one eig entropyCut B (hB.1.trans hB.2.symm), ?_⟩
  obtain ⟨a1, a2⟩ := entropyOne_cut heig hA.1 hA.2 dA
  obtain ⟨b1, b2⟩ := entropyOne_cut heig hB.1 hB.2 dB
  rw [shannon_specSum heig hA.1 hA.2 dA.1] at a1 a2
  rw [shannon_specSum heig hB.1 hB.2 dB.1] at b1 b2
  have hT' : ∑ i, ∑ j, ‖B.mat m m i j - A.mat m m i j‖ ≤ 2 * T := by
    simpa only [norm_sub_rev] using hT
  obtain ⟨hT0, P, Q, hP, hQ, h⟩ := exists_split dA dB hT
  have c1 := div_le_div_of_nonneg_right (entropy_close dA dB hP hQ hT0 h) hlog.le
  have c2 := div_le_div_of_nonneg_right (entropy_close dB dA hQ hP hT0 h.symm) hlog.le
  rw [sub_div, add_div, ← mixingBits_eq, mul_div_assoc] at c1 c2
  rw [show Real.log (m : ℝ) / Real.log 2 = Real.logb 2 m from rfl] at c1 c2
  rw [abs_le]
  constructor <;> linarith

/-- C110.  If the absolute values of the entries of `rho - sigma` add up to at most `2 T`, then `coherent_information` of the
two states differs by at most `T (log2 D + log2 E) + 2 ((1 + T) log2 (1 + T) - T log2 T)`, where `D` is the dimension of the
output and `E` the number of operators of the `n` uses, up to what the cut-off at `1e-10` drops. -/
theorem C110_coherent (heig : eig.Correct) {sp : Bool} {ops : Arr3 ℂ} {a b d e : ℕ} {orth : List ℕ} {o : KrausObj}
    (h : QChan.init sp ops a b d e orth = .ok o) (ho : sp = true ∨ orth = [])
    (htp : TracePreserving (ops.ops ops.len (e ^ b) (d ^ a))) (calls calls' : List QChan.Call) (n : ℕ)
    (hsafe : SafeUses sp (calls.map QChan.Call.uses ++ [n])) (hsafe' : SafeUses sp (calls'.map QChan.Call.uses ++ [n]))
    (rho sigma : Arr ℂ) (hr : rho.rows = (d ^ a) ^ n) (hc : rho.cols = (d ^ a) ^ n) (hr' : sigma.rows = (d ^ a) ^ n)
    (hc' : sigma.cols = (d ^ a) ^ n) (hrho : IsDensity (rho.mat ((d ^ a) ^ n) ((d ^ a) ^ n)))
    (hsigma : IsDensity (sigma.mat ((d ^ a) ^ n) ((d ^ a) ^ n))) {T : ℝ}
    (hT : ∑ i, ∑ j, ‖rho.mat ((d ^ a) ^ n) ((d ^ a) ^ n) i j - sigma.mat ((d ^ a) ^ n) ((d ^ a) ^ n) i j‖ ≤ 2 * T) :
    ∃ v w, (QChan.coherentInformation eig (QChan.history o calls) rho n false).1 = .ok v ∧
      (QChan.coherentInformation eig (QChan.history o calls') sigma n false).1 = .ok w ∧
      |v - w| ≤ T * (Real.logb 2 ((e ^ b) ^ n : ℕ) + Real.logb 2 (ops.len ^ n : ℕ)) + 2 * mixingBits T +
        (((e ^ b) ^ n : ℕ) + (ops.len ^ n : ℕ)) * (4 / 10 ^ 9) := by
  have hlog : 0 < Real.log 2 := Real.log_pos (by norm_num)
  obtain ⟨v, v0, v1, v2⟩ := api_info heig h ho htp calls n hsafe rho hr hc hrho
  obtain ⟨w, w0, w1, w2⟩ := api_info heig h ho htp calls' n hsafe' sigma hr' hc' hsigma
  refine ⟨v, w, v0, w0, ?_⟩
  have hT' : ∑ i, ∑ j, ‖sigma.mat ((d ^ a) ^ n) ((d ^ a) ^ n) i j - rho.mat ((d ^ a) ^ n) ((d ^ a) ^ n) i j‖ ≤ 2 * T := by
    simpa only [norm_sub_rev] using hT
  have c1 := div_le_div_of_nonneg_right (krausInfo_close _ (tensorPow_tp _ n htp) hrho hsigma hT) hlog.le
  have c2 := div_le_div_of_nonneg_right (krausInfo_close _ (tensorPow_tp _ n htp) hsigma hrho hT') hlog.le
  have e1 : (T * (Real.log ((e ^ b) ^ n : ℕ) + Real.log (ops.len ^ n : ℕ)) + 2 * mixNats T) / Real.log 2 =
      T * (Real.logb 2 ((e ^ b) ^ n : ℕ) + Real.logb 2 (ops.len ^ n : ℕ)) + 2 * mixingBits T := by
    rw [mixingBits_eq]
    unfold Real.logb
    ring
  rw [e1, sub_div] at c1 c2
  rw [abs_le]
  constructor <;> linarith

/-- C110: the bound tends to zero with the distance of the states. -/
theorem C110_vanishes (x : ℝ) : Filter.Tendsto (fun T => T * x + 2 * mixingBits T) (nhds 0) (nhds 0) := by
  have hc : Continuous fun T : ℝ => T * x + 2 * (-(Real.negMulLog (1 + T)) + Real.negMulLog T) / Real.log 2 := by
    have := Real.continuous_negMulLog
    fun_prop
  have e : (fun T => T * x + 2 * mixingBits T) =
      fun T : ℝ => T * x + 2 * (-(Real.negMulLog (1 + T)) + Real.negMulLog T) / Real.log 2 := by
    funext T
    rw [mixingBits_eq, mixNats]
    unfold Real.negMulLog
    ring
  rw [e]
  have := hc.tendsto 0
  simpa using this

/-- C110 is false with a Lipschitz constant (chan/README.md: "the coherent information is lipschitz with lipschitz constant
1"): for every constant `L` there are two states of a qubit for which the coherent information of the identity channel
differs by more than `L` times the sum of the absolute values of the entries of their difference. -/
theorem C110_lipschitz_refuted (heig : eig.Correct) (L : ℝ) :
    ∃ (o : KrausObj) (rho sigma : Arr ℂ) (v w : ℝ), QChan.init true (idOps 1) 1 1 2 2 [] = .ok o ∧
      rho.rows = 2 ∧ rho.cols = 2 ∧ sigma.rows = 2 ∧ sigma.cols = 2 ∧
      IsDensity (rho.mat 2 2) ∧ IsDensity (sigma.mat 2 2) ∧
      (QChan.coherentInformation eig o rho 1 false).1 = .ok v ∧
      (QChan.coherentInformation eig o sigma 1 false).1 = .ok w ∧
      L * ∑ i, ∑ j, ‖rho.mat 2 2 i j - sigma.mat 2 2 i j‖ < |v - w| := by
  have hlog : 0 < Real.log 2 := Real.log_pos (by norm_num)
  obtain ⟨o, ho⟩ := init_exact true (idOps 1) 1 1 2 2 [] (by decide) rfl rfl (idOps_tp 1)
  set c : ℝ := entropyCut with hcdef
  have hc0 : 0 < c := by rw [hcdef]; unfold entropyCut; norm_num
  have hc1 : c < 1 / 10 := by rw [hcdef]; unfold entropyCut; norm_num
  set M : ℝ := Real.negMulLog c / Real.log 2 with hM
  have hMpos : 0 < M := by
    refine div_pos ?_ hlog
    unfold Real.negMulLog
    have := Real.log_neg hc0 (by linarith)
    nlinarith
  set δ : ℝ := min (1 / 10) (M / (4 * (|L| + 1))) with hδ
  have hL : 0 < 4 * (|L| + 1) := by positivity
  have hδ0 : 0 < δ := lt_min (by norm_num) (div_pos hMpos hL)
  have hδ1 : δ ≤ 1 / 10 := min_le_left _ _
  have hδ2 : δ * (4 * (|L| + 1)) ≤ M := (le_div_iff₀ hL).1 (min_le_right _ _)
  have dens : ∀ x : ℝ, 0 ≤ x → x ≤ 1 → IsDensity (diagonal fun i => ((![1 - x, x] i : ℝ) : ℂ) : Matrix (Fin 2) (Fin 2) ℂ) := by
    intro x h0 h1
    refine ⟨PosSemidef.diagonal ?_, ?_⟩
    · intro i
      fin_cases i
      · exact Complex.zero_le_real.2 (by simpa using h1)
      · exact Complex.zero_le_real.2 (by simpa using h0)
    · simp [Matrix.trace, Fin.sum_univ_two]
  have val : ∀ x : ℝ, 0 ≤ x → x ≤ 1 → _ := fun x h0 h1 =>
    coherent_diag heig ho (A := Arr.ofMat (diagonal fun i => ((![1 - x, x] i : ℝ) : ℂ) : Matrix (Fin 2) (Fin 2) ℂ)) rfl rfl
      (by rw [Arr.ofMat_mat]; exact dens x h0 h1) (1 - x) x (by rw [Arr.ofMat_mat])
  refine ⟨o, Arr.ofMat (diagonal fun i => ((![1 - (c + δ), c + δ] i : ℝ) : ℂ) : Matrix (Fin 2) (Fin 2) ℂ),
    Arr.ofMat (diagonal fun i => ((![1 - c, c] i : ℝ) : ℂ) : Matrix (Fin 2) (Fin 2) ℂ), _, _, ho, rfl, rfl, rfl, rfl,
    by rw [Arr.ofMat_mat]; exact dens _ (by linarith) (by linarith),
    by rw [Arr.ofMat_mat]; exact dens _ hc0.le (by linarith),
    val (c + δ) (by linarith) (by linarith), val c hc0.le (by linarith), ?_⟩
  rw [Arr.ofMat_mat, Arr.ofMat_mat]
  have hdist : ∑ i : Fin 2, ∑ j : Fin 2, ‖(diagonal fun i => ((![1 - (c + δ), c + δ] i : ℝ) : ℂ) : Matrix (Fin 2) (Fin 2) ℂ) i j -
      (diagonal fun i => ((![1 - c, c] i : ℝ) : ℂ) : Matrix (Fin 2) (Fin 2) ℂ) i j‖ = 2 * δ := by
    have e1 : ‖((1 - (c + δ) : ℝ) : ℂ) - ((1 - c : ℝ) : ℂ)‖ = δ := by
      rw [← Complex.ofReal_sub, Complex.norm_real, Real.norm_eq_abs, show 1 - (c + δ) - (1 - c) = -δ by ring, abs_neg,
        abs_of_pos hδ0]
    have e2 : ‖((c + δ : ℝ) : ℂ) - (c : ℂ)‖ = δ := by
      rw [← Complex.ofReal_sub, Complex.norm_real, Real.norm_eq_abs, show c + δ - c = δ by ring, abs_of_pos hδ0]
    simp only [Fin.sum_univ_two, diagonal_apply_eq, Matrix.cons_val_zero, Matrix.cons_val_one,
      diagonal_apply_ne _ (show (0 : Fin 2) ≠ 1 by decide), diagonal_apply_ne _ (show (1 : Fin 2) ≠ 0 by decide), sub_self,
      norm_zero, e1, e2]
    ring
  rw [hdist]
  have hx : -(entropyTerm c (1 - (c + δ)) + entropyTerm c (c + δ)) = Real.binEntropy (c + δ) / Real.log 2 := by
    unfold entropyTerm Real.logb
    rw [if_pos (by rw [abs_of_pos (by linarith)]; linarith), if_pos (by rw [abs_of_pos (by linarith)]; linarith),
      Real.binEntropy_eq_negMulLog_add_negMulLog_one_sub]
    unfold Real.negMulLog
    ring
  have hy : -(entropyTerm c (1 - c) + entropyTerm c c) = Real.binEntropy c / Real.log 2 - M := by
    unfold entropyTerm Real.logb
    rw [if_pos (by rw [abs_of_pos (by linarith)]; linarith), if_neg (by rw [abs_of_pos hc0]; exact lt_irrefl _), hM,
      Real.binEntropy_eq_negMulLog_add_negMulLog_one_sub]
    unfold Real.negMulLog
    ring
  rw [hx, hy]
  have hmono : Real.binEntropy c / Real.log 2 ≤ Real.binEntropy (c + δ) / Real.log 2 := by
    refine div_le_div_of_nonneg_right ?_ hlog.le
    refine (Real.binEntropy_strictMonoOn ⟨hc0.le, ?_⟩ ⟨by linarith, ?_⟩ (by linarith)).le
    · norm_num; linarith
    · norm_num; linarith
  refine lt_of_lt_of_le ?_ (le_abs_self _)
  have hLabs := le_abs_self L
  nlinarith

/-- The hypotheses are met: the identity channel, the maximally mixed state and the state `diag (3/4, 1/4)`. -/
example (heig : eig.Correct) : ∃ (o : KrausObj) (rho sigma : Arr ℂ) (v w : ℝ), QChan.init true (idOps 1) 1 1 2 2 [] = .ok o ∧
    (QChan.coherentInformation eig o rho 1 false).1 = .ok v ∧ (QChan.coherentInformation eig o sigma 1 false).1 = .ok w ∧
    |v - w| ≤ 1 / 4 + 2 * mixingBits (1 / 4) + 3 * (4 / 10 ^ 9) := by
  obtain ⟨o, ho⟩ := init_exact true (idOps 1) 1 1 2 2 [] (by decide) rfl rfl (idOps_tp 1)
  have dens : ∀ x : ℝ, 0 ≤ x → x ≤ 1 → IsDensity (diagonal fun i => ((![1 - x, x] i : ℝ) : ℂ) : Matrix (Fin 2) (Fin 2) ℂ) := by
    intro x h0 h1
    refine ⟨PosSemidef.diagonal ?_, ?_⟩
    · intro i
      fin_cases i
      · exact Complex.zero_le_real.2 (by simpa using h1)
      · exact Complex.zero_le_real.2 (by simpa using h0)
    · simp [Matrix.trace, Fin.sum_univ_two]
  obtain ⟨v, w, hv, hw, hb⟩ := C110_coherent heig ho (Or.inl rfl) (idOps_tp 1) [] [] 1 ⟨by simp, by simp⟩ ⟨by simp, by simp⟩
    (Arr.ofMat (diagonal fun i => ((![1 - (1 / 2), 1 / 2] i : ℝ) : ℂ) : Matrix (Fin 2) (Fin 2) ℂ))
    (Arr.ofMat (diagonal fun i => ((![1 - (1 / 4), 1 / 4] i : ℝ) : ℂ) : Matrix (Fin 2) (Fin 2) ℂ)) rfl rfl rfl rfl
    (by change IsDensity (Arr.mat _ 2 2); rw [Arr.ofMat_mat]; exact dens (1 / 2) (by norm_num) (by norm_num))
    (by change IsDensity (Arr.mat _ 2 2); rw [Arr.ofMat_mat]; exact dens (1 / 4) (by norm_num) (by norm_num)) (T := 1 / 4) (by
      change ∑ i : Fin 2, ∑ j : Fin 2, ‖(Arr.ofMat (diagonal fun i => ((![1 - (1 / 2), 1 / 2] i : ℝ) : ℂ) : Matrix (Fin 2) (Fin 2) ℂ)).mat 2 2 i j -
        (Arr.ofMat (diagonal fun i => ((![1 - (1 / 4), 1 / 4] i : ℝ) : ℂ) : Matrix (Fin 2) (Fin 2) ℂ)).mat 2 2 i j‖ ≤ _
      rw [Arr.ofMat_mat, Arr.ofMat_mat]
      have e1 : ‖((1 - 1 / 2 : ℝ) : ℂ) - ((1 - 1 / 4 : ℝ) : ℂ)‖ = 1 / 4 := by
        rw [← Complex.ofReal_sub, Complex.norm_real, Real.norm_eq_abs]; norm_num
      have e2 : ‖((1 / 2 : ℝ) : ℂ) - ((1 / 4 : ℝ) : ℂ)‖ = 1 / 4 := by
        rw [← Complex.ofReal_sub, Complex.norm_real, Real.norm_eq_abs]; norm_num
      simp only [Fin.sum_univ_two, diagonal_apply_eq, Matrix.cons_val_zero, Matrix.cons_val_one,
        diagonal_apply_ne _ (show (0 : Fin 2) ≠ 1 by decide), diagonal_apply_ne _ (show (1 : Fin 2) ≠ 0 by decide), sub_self,
        norm_zero, e1, e2]
      norm_num)
  refine ⟨o, _, _, v, w, ho, hv, hw, ?_⟩
  have hl : (idOps 1).len = 1 := rfl
  rw [hl] at hb
  norm_num at hb ⊢
  exact hb

end

end PyQ
