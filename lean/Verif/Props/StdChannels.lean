import Verif.Props.Degradable
import Verif.Props.SearchWithin

/-!
# C106: the coherent information of the standard qubit channels
-/

namespace PyQ

open Matrix Spec
open scoped ComplexOrder

/-! ### Tools -/

theorem tensorProd_smul_one (c : ℂ) (a n : ℕ) :
    tensorProd (fun _ : Fin n => c • (1 : Matrix (Fin a) (Fin a) ℂ)) = c ^ n • (1 : Matrix (Fin (a ^ n)) (Fin (a ^ n)) ℂ) := by
  rw [← tensorProd_one]
  ext i j
  simp only [tensorProd, Matrix.smul_apply, smul_eq_mul, Finset.prod_mul_distrib, Finset.prod_const, Finset.card_univ,
    Fintype.card_fin]

theorem mixed_power (n : ℕ) : tensorProd (fun _ : Fin n => (1 / 2 : ℂ) • (1 : Matrix (Fin 2) (Fin 2) ℂ)) =
    (1 / 2 ^ n : ℂ) • (1 : Matrix (Fin (2 ^ n)) (Fin (2 ^ n)) ℂ) := by
  rw [tensorProd_smul_one, _root_.one_div_pow]

theorem tensorProd_density {a n : ℕ} {ρ : Fin n → Matrix (Fin a) (Fin a) ℂ} (h : ∀ t, IsDensity (ρ t)) :
    IsDensity (tensorProd ρ) := by
  refine ⟨tensorProd_psd fun t => (h t).1, ?_⟩
  rw [tensorProd_trace]
  exact Finset.prod_eq_one fun t _ => (h t).2

theorem uses_bound {l l' a b n : ℕ} (D : Fin l' → Matrix (Fin l) (Fin a) ℂ) (hD : TracePreserving D)
    (K : Fin l → Matrix (Fin a) (Fin b) ℂ) (hK : TracePreserving K)
    (h : ∀ ρ, applyKraus D (applyKraus K ρ) = entropyExchange K ρ) {c : ℝ} (hc : ∀ σ, IsDensity σ → krausInfo K σ ≤ c)
    {ρ : Matrix (Fin (b ^ n)) (Fin (b ^ n)) ℂ} (hρ : IsDensity ρ) : krausInfo (tensorPow K n) ρ ≤ n * c := by
  refine (degradable_subadd D hD K hK h hρ.1).trans ((Finset.sum_le_sum fun t _ => hc _ (marginal_density hρ t)).trans ?_)
  simp

theorem uses_attain {l a b n : ℕ} (K : Fin l → Matrix (Fin a) (Fin b) ℂ) (hK : TracePreserving K)
    {σ : Matrix (Fin b) (Fin b) ℂ} (hσ : IsDensity σ) {c : ℝ} (hc : krausInfo K σ = c) :
    krausInfo (tensorPow K n) (tensorProd fun _ => σ) = n * c := by
  rw [krausInfo_tensorProd K hK fun _ => hσ, hc]
  simp

variable {eig : Eigvalsh} {sp : Bool} {ops : Arr3 ℂ} {orth : List ℕ} {o : KrausObj}

theorem api_family (heig : eig.Correct) {a b d e l M N : ℕ} (h : QChan.init sp ops a b d e orth = .ok o) (ho : sp = true ∨ orth = [])
    (hl : ops.len = l) (hM : e ^ b = M) (hN : d ^ a = N) {K : Fin l → Matrix (Fin M) (Fin N) ℂ} (hops : ops.ops l M N = K)
    (hK : TracePreserving K) (calls : List QChan.Call) (n : ℕ) (hsafe : SafeUses sp (calls.map QChan.Call.uses ++ [n]))
    (rho : Arr ℂ) (hr : rho.rows = N ^ n) (hc : rho.cols = N ^ n) (hrho : IsDensity (rho.mat (N ^ n) (N ^ n))) :
    ∃ v, (QChan.coherentInformation eig (QChan.history o calls) rho n false).1 = .ok v ∧
      v ≤ krausInfo (tensorPow K n) (rho.mat (N ^ n) (N ^ n)) / Real.log 2 + l ^ n * (4 / 10 ^ 9) ∧
      krausInfo (tensorPow K n) (rho.mat (N ^ n) (N ^ n)) / Real.log 2 ≤ v + M ^ n * (4 / 10 ^ 9) := by
  subst hl hM hN hops
  obtain ⟨v, hv, h1, h2⟩ := api_info heig h ho hK calls n hsafe rho hr hc hrho
  refine ⟨v, hv, ?_, ?_⟩
  · exact_mod_cast h1
  · rw [sub_le_iff_le_add] at h2
    exact_mod_cast h2

theorem api_family_one (heig : eig.Correct) {a b d e l M N : ℕ} (h : QChan.init sp ops a b d e orth = .ok o)
    (ho : sp = true ∨ orth = [])
    (hl : ops.len = l) (hM : e ^ b = M) (hN : d ^ a = N) {K : Fin l → Matrix (Fin M) (Fin N) ℂ} (hops : ops.ops l M N = K)
    (hK : TracePreserving K) (calls : List QChan.Call) (hsafe : SafeUses sp (calls.map QChan.Call.uses ++ [1]))
    (rho : Arr ℂ) (hr : rho.rows = N) (hc : rho.cols = N) (hrho : IsDensity (rho.mat N N)) :
    ∃ v, (QChan.coherentInformation eig (QChan.history o calls) rho 1 false).1 = .ok v ∧
      v ≤ krausInfo K (rho.mat N N) / Real.log 2 + l * (4 / 10 ^ 9) ∧
      krausInfo K (rho.mat N N) / Real.log 2 ≤ v + M * (4 / 10 ^ 9) := by
  subst hl hM hN hops
  obtain ⟨v, hv, h1, h2⟩ := api_info_one heig h ho hK calls hsafe rho hr hc hrho
  refine ⟨v, hv, h1, ?_⟩
  rw [sub_le_iff_le_add] at h2
  exact_mod_cast h2

/-- What a search reports if the largest coherent information is known. -/
theorem search_family {g : Rng} {scipy : Scipy} {rank maxiter : ℕ} {name : String} {lipschitz usePool : PyNum}
    {samples : SamplesArg} {out : OptOutput} {δ : ℝ} {sqrtm : Sqrtm} {reg : Bool} {o' : KrausObj}
    (hsp : scipy.Correct) (hmin : scipy.FindsWithin δ) (heig : eig.Correct) {a b d e l M N : ℕ}
    (h : QChan.init sp ops a b d e orth = .ok o) (ho : sp = true ∨ orth = [])
    (hl : ops.len = l) (hM : e ^ b = M) (hN : d ^ a = N) {K : Fin l → Matrix (Fin M) (Fin N) ℂ} (hops : ops.ops l M N = K)
    (hK : TracePreserving K) {calls : List QChan.Call} {n : ℕ} (hsafe : SafeUses sp (calls.map QChan.Call.uses ++ [n]))
    (hopt : QChan.optimizeCoherent g scipy eig sqrtm (QChan.history o calls) n rank "diffev" (.str name) lipschitz
      usePool maxiter samples reg = (.ok out, o')) {c : ℝ}
    (hb : ∀ ρ : Matrix (Fin (N ^ n)) (Fin (N ^ n)) ℂ, IsDensity ρ → krausInfo (tensorPow K n) ρ ≤ c) :
    ∃ v, out.val = .num v ∧ v * (if reg then (n : ℝ) else 1) ≤ c / Real.log 2 + l ^ n * (4 / 10 ^ 9) ∧
      ∀ σ, DensityOfRank σ rank → krausInfo (tensorPow K n) σ = c →
        c / Real.log 2 ≤ v * (if reg then (n : ℝ) else 1) + M ^ n * (4 / 10 ^ 9) + δ := by
  have hlog : 0 < Real.log 2 := Real.log_pos (by norm_num)
  have hn : (0 : ℝ) < n := by exact_mod_cast hsafe.1 n (by simp)
  have hk : (0 : ℝ) < if reg then (n : ℝ) else 1 := by split_ifs <;> simp [hn]
  obtain ⟨v, hv, ⟨rho, r1, r2, r3, r4⟩, hle⟩ := C92_coherent_within hsp hmin heig h ho hsafe hopt
  obtain ⟨calls', rfl, hsafe'⟩ := optimized_history hsafe hopt
  rw [hN] at r1 r2 r3
  have hreg : ∀ {ρ : Arr ℂ} {w : ℝ}, (QChan.coherentInformation eig (QChan.history o calls') ρ n false).1 = .ok w →
      (QChan.coherentInformation eig (QChan.history o calls') ρ n reg).1 = .ok (w / if reg then (n : ℝ) else 1) := by
    intro ρ w hw
    cases reg with
    | false => simpa using hw
    | true => simpa using coherent_reg hw
  refine ⟨v, hv, ?_, fun σ hσ hσc => ?_⟩
  · obtain ⟨w, hw, w1, -⟩ := api_family heig h ho hl hM hN hops hK calls' n hsafe' rho r1 r2 ⟨r3.1, r3.2.1⟩
    have e1 := hreg hw
    rw [r4] at e1
    injection e1 with e1
    rw [e1, div_mul_cancel₀ _ hk.ne']
    have := div_le_div_of_nonneg_right (hb _ ⟨r3.1, r3.2.1⟩) hlog.le
    linarith
  · have em : (Arr.ofMat σ).mat (N ^ n) (N ^ n) = σ := Arr.ofMat_mat σ
    obtain ⟨w, hw, -, w2⟩ := api_family heig h ho hl hM hN hops hK calls' n hsafe' (Arr.ofMat σ) rfl rfl
      (by rw [em]; exact ⟨hσ.1, hσ.2.1⟩)
    rw [em, hσc] at w2
    have := hle (Arr.ofMat σ) (by rw [hN]; rfl) (by rw [hN]; rfl) (by rw [hN, em]; exact hσ) _ (hreg hw)
    rw [div_le_iff₀ hk, add_mul, div_mul_cancel₀ _ hk.ne'] at this
    linarith

theorem full_rank {N : ℕ} {σ : Matrix (Fin N) (Fin N) ℂ} (h : IsDensity σ) : DensityOfRank σ N :=
  ⟨h.1, h.2, by simpa using rank_le_card_width σ⟩

theorem flip_value (p : ℝ) (n : ℕ) : n * (Real.log 2 - (Real.negMulLog p + Real.negMulLog (1 - p))) / Real.log 2 =
    n * (1 - choiceEntropy p) := by
  have hlog : Real.log 2 ≠ 0 := (Real.log_pos (by norm_num)).ne'
  rw [choiceEntropy_eq, mul_div_assoc, sub_div, div_self hlog]

theorem damping_value (g t : ℝ) : (choiceNats ((1 - g) * t) - choiceNats (g * t)) / Real.log 2 =
    choiceEntropy ((1 - g) * t) - choiceEntropy (g * t) := by
  rw [choiceEntropy_eq, choiceEntropy_eq, sub_div]
  rfl

theorem qubit_diag {rho : Arr ℂ} (hrho : IsDensity (rho.mat 2 2)) (h01 : rho.get 0 1 = 0) :
    0 ≤ (rho.get 1 1).re ∧ (rho.get 1 1).re ≤ 1 ∧
      rho.mat 2 2 = !![((1 - (rho.get 1 1).re : ℝ) : ℂ), 0; 0, (((rho.get 1 1).re : ℝ) : ℂ)] := by
  have ht : rho.get 0 0 + rho.get 1 1 = 1 := by
    have := hrho.2
    rw [trace, Fin.sum_univ_two] at this
    exact this
  have p0 := Complex.le_def.mp (hrho.1.diag_nonneg (i := 0))
  have p1 := Complex.le_def.mp (hrho.1.diag_nonneg (i := 1))
  change (0 : ℂ).re ≤ (rho.get 0 0).re ∧ (0 : ℂ).im = (rho.get 0 0).im at p0
  change (0 : ℂ).re ≤ (rho.get 1 1).re ∧ (0 : ℂ).im = (rho.get 1 1).im at p1
  have r1 : rho.get 1 1 = (((rho.get 1 1).re : ℝ) : ℂ) := by
    apply Complex.ext
    · simp
    · rw [Complex.ofReal_im, ← p1.2]; simp
  have r0 : rho.get 0 0 = ((1 - (rho.get 1 1).re : ℝ) : ℂ) := by
    rw [Complex.ofReal_sub, ← r1, Complex.ofReal_one]
    exact eq_sub_of_add_eq ht
  have h10 : rho.get 1 0 = 0 := by
    have := hrho.1.isHermitian.apply 1 0
    change star (rho.get 0 1) = rho.get 1 0 at this
    rw [← this, h01, star_zero]
  refine ⟨p1.1, ?_, ?_⟩
  · have := p0.1
    rw [r0] at this
    simp only [Complex.zero_re, Complex.ofReal_re] at this
    linarith
  · rw [← r0, ← r1]
    ext i j
    fin_cases i <;> fin_cases j
    · rfl
    · exact h01
    · exact h10
    · rfl

theorem diag_density {t : ℝ} (t0 : 0 ≤ t) (t1 : t ≤ 1) : IsDensity !![((1 - t : ℝ) : ℂ), 0; 0, (t : ℂ)] := by
  have e : !![((1 - t : ℝ) : ℂ), 0; 0, (t : ℂ)] = diagonal ![((1 - t : ℝ) : ℂ), (t : ℂ)] := by
    ext i j
    fin_cases i <;> fin_cases j <;> simp
  rw [e]
  refine ⟨posSemidef_diagonal_iff.mpr fun i => ?_, ?_⟩
  · fin_cases i
    · exact Complex.zero_le_real.mpr (by linarith)
    · exact Complex.zero_le_real.mpr t0
  · rw [trace_diagonal, Fin.sum_univ_two]
    simp

theorem damping_max {γ : ℝ} (h0 : 0 ≤ γ) (h1 : γ ≤ 1 / 2) {c : ℝ}
    (hb : ∀ t, 0 ≤ t → t ≤ 1 → choiceEntropy ((1 - γ) * t) - choiceEntropy (γ * t) ≤ c) {n : ℕ}
    {ρ : Matrix (Fin (2 ^ n)) (Fin (2 ^ n)) ℂ} (hρ : IsDensity ρ) :
    krausInfo (tensorPow (damping γ) n) ρ ≤ n * (c * Real.log 2) := by
  have hlog : 0 < Real.log 2 := Real.log_pos (by norm_num)
  have hg : 0 < 1 - γ := by linarith
  have b0 : 0 ≤ γ / (1 - γ) := div_nonneg h0 hg.le
  have b1 : γ / (1 - γ) ≤ 1 := by rw [div_le_one hg]; linarith
  refine uses_bound _ (damping_tp (g := 1 - γ / (1 - γ)) (by linarith) (by linarith)) _ (damping_tp h0 (by linarith))
    (damping_degrade h0 h1) (fun σ hσ => (damping_bound h0 h1 hσ).trans ?_) hρ
  have p0 := Complex.le_def.mp (hσ.1.diag_nonneg (i := 0))
  have p1 := Complex.le_def.mp (hσ.1.diag_nonneg (i := 1))
  have ht : σ 0 0 + σ 1 1 = 1 := by
    have := hσ.2
    rwa [trace, Fin.sum_univ_two] at this
  have hre : (σ 0 0).re + (σ 1 1).re = 1 := by
    rw [← Complex.add_re, ht, Complex.one_re]
  have := hb (σ 1 1).re p1.1 (by have := p0.1; simp only [Complex.zero_re] at this; linarith)
  rw [← damping_value, div_le_iff₀ hlog] at this
  exact this

/-! ## Flips -/

section
variable {p : ℝ} (heig : eig.Correct) (h : QChan.init sp ops 1 1 2 2 orth = .ok o) (ho : sp = true ∨ orth = [])
  (hl : ops.len = 2) (h0 : 0 ≤ p) (h1 : p ≤ 1) (calls : List QChan.Call) (n : ℕ)
  (hsafe : SafeUses sp (calls.map QChan.Call.uses ++ [n])) (rho : Arr ℂ) (hr : rho.rows = 2 ^ n) (hc : rho.cols = 2 ^ n)
  (hrho : IsDensity (rho.mat (2 ^ n) (2 ^ n)))
include heig h ho hl h0 h1 hsafe hr hc hrho

/-- **C106, phase flips**.  For every density matrix of `n` qubits, the coherent information of `n` uses of the channel that flips
the phase with probability `p` is at most `n (1 - h(p))`, with `h` the entropy of a choice, and it is that much for the maximally
mixed state; up to the cut-off of small eigenvalues. -/
theorem C106_phase (hops : ops.ops 2 2 2 = phaseFlip p) :
    ∃ v, (QChan.coherentInformation eig (QChan.history o calls) rho n false).1 = .ok v ∧
      v ≤ n * (1 - choiceEntropy p) + 2 ^ n * (4 / 10 ^ 9) ∧
      (rho.mat (2 ^ n) (2 ^ n) = (1 / 2 ^ n : ℂ) • 1 → n * (1 - choiceEntropy p) ≤ v + 2 ^ n * (4 / 10 ^ 9)) := by
  have hlog : 0 < Real.log 2 := Real.log_pos (by norm_num)
  obtain ⟨v, hv, v1, v2⟩ := api_family heig h ho hl (by norm_num) (by norm_num) hops (phaseFlip_tp h0 h1) calls n hsafe rho hr hc
    hrho
  refine ⟨v, hv, ?_, fun hm => ?_⟩
  · have := div_le_div_of_nonneg_right (uses_bound _ (phaseDegrade_tp h0 h1) _ (phaseFlip_tp h0 h1) (phaseFlip_degrade h0 h1)
      (fun σ hσ => phaseFlip_bound h0 h1 hσ) hrho) hlog.le
    rw [flip_value] at this
    push_cast at v1
    linarith
  · rw [hm, ← mixed_power, uses_attain _ (phaseFlip_tp h0 h1) mixed_density (phaseFlip_mixed h0 h1), flip_value] at v2
    exact_mod_cast v2

/-- **C106, bit flips**.  The same for the channel of the README that flips the bit with probability `p`. -/
theorem C106_bit (hops : ops.ops 2 2 2 = bitFlip p) :
    ∃ v, (QChan.coherentInformation eig (QChan.history o calls) rho n false).1 = .ok v ∧
      v ≤ n * (1 - choiceEntropy p) + 2 ^ n * (4 / 10 ^ 9) ∧
      (rho.mat (2 ^ n) (2 ^ n) = (1 / 2 ^ n : ℂ) • 1 → n * (1 - choiceEntropy p) ≤ v + 2 ^ n * (4 / 10 ^ 9)) := by
  have hlog : 0 < Real.log 2 := Real.log_pos (by norm_num)
  obtain ⟨v, hv, v1, v2⟩ := api_family heig h ho hl (by norm_num) (by norm_num) hops (bitFlip_tp h0 h1) calls n hsafe rho hr hc
    hrho
  refine ⟨v, hv, ?_, fun hm => ?_⟩
  · have := div_le_div_of_nonneg_right (uses_bound _ (bitDegrade_tp h0 h1) _ (bitFlip_tp h0 h1) (bitFlip_degrade h0 h1)
      (fun σ hσ => bitFlip_bound h0 h1 hσ) hrho) hlog.le
    rw [flip_value] at this
    push_cast at v1
    linarith
  · rw [hm, ← mixed_power, uses_attain _ (bitFlip_tp h0 h1) mixed_density (bitFlip_mixed h0 h1), flip_value] at v2
    exact_mod_cast v2

end

/-- The hypotheses are met for every `p`, by dense and by sparse objects. -/
example (sp : Bool) {p : ℝ} (h0 : 0 ≤ p) (h1 : p ≤ 1) : ∃ o, QChan.init sp (opsArr (bitFlip p)) 1 1 2 2 [] = .ok o ∧
    (opsArr (bitFlip p)).len = 2 ∧ (opsArr (bitFlip p)).ops 2 2 2 = bitFlip p := by
  obtain ⟨o, ho⟩ := opsArr_init sp (a := 1) (b := 1) (d := 2) (e := 2) (bitFlip p) (by decide) (bitFlip_tp h0 h1) []
  exact ⟨o, ho, rfl, opsArr_ops _⟩

/-! ## Erasure -/

theorem specSum_le_log {N : ℕ} {σ : Matrix (Fin N) (Fin N) ℂ} (hσ : IsDensity σ) :
    specSum Real.negMulLog σ ≤ Real.log N := by
  have hlog : 0 < Real.log 2 := Real.log_pos (by norm_num)
  obtain ⟨V, w, hw, hc⟩ := exists_eigen hσ.1
  have hs : ∑ i, w i = 1 := by
    have := eigen_trace hw
    rw [hσ.2] at this
    exact_mod_cast this.symm
  have h0 : ∀ i, 0 ≤ w i := hw.nonneg
  have := shannon_le w h0 hs
  rw [shannon_negMulLog, Real.logb, div_le_div_iff_of_pos_right hlog] at this
  rwa [specSum_eq hσ.1 hc Real.negMulLog_zero]

theorem erasure_max {q : ℝ} (h0 : 0 ≤ q) (h1 : q ≤ 1 / 2) {σ : Matrix (Fin 2) (Fin 2) ℂ} (hσ : IsDensity σ) :
    krausInfo (erasure q) σ ≤ (1 - 2 * q) * Real.log 2 := by
  rw [erasure_info h0 (by linarith) hσ]
  exact mul_le_mul_of_nonneg_left (by simpa using specSum_le_log hσ) (by linarith)

theorem erasure_mixed {q : ℝ} (h0 : 0 ≤ q) (h1 : q ≤ 1) :
    krausInfo (erasure q) ((1 / 2 : ℂ) • 1) = (1 - 2 * q) * Real.log 2 := by
  rw [erasure_info h0 h1 mixed_density, half_diag, specSum_diagonal (fun _ => by norm_num) Real.negMulLog_zero, two_halves]

section
variable {q : ℝ} (heig : eig.Correct) (h : QChan.init sp ops 1 1 2 3 orth = .ok o) (ho : sp = true ∨ orth = [])
  (hl : ops.len = 3) (hops : ops.ops 3 3 2 = erasure q) (calls : List QChan.Call)
include heig h ho hl hops

/-- **C106, erasure, one use**.  The coherent information of one use of the channel that loses the qubit with probability `q` is
`1 - 2q` times the entropy of the state, up to the cut-off of small eigenvalues. -/
theorem C106_erasure_one (h0 : 0 ≤ q) (h1 : q ≤ 1) (hsafe : SafeUses sp (calls.map QChan.Call.uses ++ [1])) (rho : Arr ℂ)
    (hr : rho.rows = 2) (hc : rho.cols = 2) (hrho : IsDensity (rho.mat 2 2)) :
    ∃ v s, (QChan.coherentInformation eig (QChan.history o calls) rho 1 false).1 = .ok v ∧
      entropyList eig entropyCut [rho] = .ok s ∧ |v - (1 - 2 * q) * s| ≤ 5 * (4 / 10 ^ 9) := by
  obtain ⟨v, hv, v1, v2⟩ := api_family_one heig h ho hl (by norm_num) (by norm_num) hops (erasure_tp h0 h1) calls hsafe rho hr hc
    hrho
  refine ⟨v, _, hv, entropyList_one eig entropyCut rho (hr.trans hc.symm), ?_⟩
  obtain ⟨s1, s2⟩ := entropyOne_cut heig hr hc hrho
  rw [shannon_specSum heig hr hc hrho.1] at s1 s2
  rw [erasure_info h0 h1 hrho, mul_div_assoc] at v1 v2
  push_cast at v1 v2 s2
  generalize specSum Real.negMulLog (rho.mat 2 2) / Real.log 2 = S at *
  generalize entropyOne eig entropyCut rho = s at *
  have b1 : (1 - 2 * q) * (S - s) ≤ 2 * (4 / 10 ^ 9) := by nlinarith
  have b2 : -(2 * (4 / 10 ^ 9)) ≤ (1 - 2 * q) * (S - s) := by nlinarith
  rw [abs_le]
  constructor <;> linarith

/-- **C106, erasure**.  For every density matrix of `n` qubits, the coherent information of `n` uses of the channel that loses the
qubit with probability `q ≤ 1/2` is at most `n (1 - 2q)`, and it is that much for the maximally mixed state. -/
theorem C106_erasure (h0 : 0 ≤ q) (h1 : q ≤ 1 / 2) (n : ℕ) (hsafe : SafeUses sp (calls.map QChan.Call.uses ++ [n]))
    (rho : Arr ℂ) (hr : rho.rows = 2 ^ n) (hc : rho.cols = 2 ^ n) (hrho : IsDensity (rho.mat (2 ^ n) (2 ^ n))) :
    ∃ v, (QChan.coherentInformation eig (QChan.history o calls) rho n false).1 = .ok v ∧
      v ≤ n * (1 - 2 * q) + 3 ^ n * (4 / 10 ^ 9) ∧
      (rho.mat (2 ^ n) (2 ^ n) = (1 / 2 ^ n : ℂ) • 1 → n * (1 - 2 * q) ≤ v + 3 ^ n * (4 / 10 ^ 9)) := by
  have hlog : 0 < Real.log 2 := Real.log_pos (by norm_num)
  have hq : 0 < 1 - q := by linarith
  have hD : TracePreserving (eraseMore (q / (1 - q))) :=
    eraseMore_tp (div_nonneg h0 hq.le) (by rw [div_le_one hq]; linarith)
  have hK := erasure_tp h0 (show q ≤ 1 by linarith)
  have hval : n * ((1 - 2 * q) * Real.log 2) / Real.log 2 = n * (1 - 2 * q) := by field_simp
  obtain ⟨v, hv, v1, v2⟩ := api_family heig h ho hl (by norm_num) (by norm_num) hops hK calls n hsafe rho hr hc hrho
  refine ⟨v, hv, ?_, fun hm => ?_⟩
  · have := div_le_div_of_nonneg_right (uses_bound _ hD _ hK (erasure_degrade h0 h1) (fun σ hσ => erasure_max h0 h1 hσ) hrho)
      hlog.le
    rw [hval] at this
    push_cast at v1
    linarith
  · rw [hm, ← mixed_power, uses_attain _ hK mixed_density (erasure_mixed h0 (by linarith)), hval] at v2
    exact_mod_cast v2

/-- **C106, erasure of every second qubit or more**.  For `q ≥ 1/2` no density matrix has positive coherent information, however
many uses are made. -/
theorem C106_erasure_half (h0 : 1 / 2 ≤ q) (h1 : q ≤ 1) (n : ℕ) (hsafe : SafeUses sp (calls.map QChan.Call.uses ++ [n]))
    (rho : Arr ℂ) (hr : rho.rows = 2 ^ n) (hc : rho.cols = 2 ^ n) (hrho : IsDensity (rho.mat (2 ^ n) (2 ^ n))) :
    ∃ v, (QChan.coherentInformation eig (QChan.history o calls) rho n false).1 = .ok v ∧ v ≤ 3 ^ n * (4 / 10 ^ 9) := by
  have hlog : 0 < Real.log 2 := Real.log_pos (by norm_num)
  have hq : 0 < q := by linarith
  have hB : TracePreserving (eraseBack ((1 - q) / q)) :=
    eraseBack_tp (div_nonneg (by linarith) hq.le) (by rw [div_le_one hq]; linarith)
  have hK := erasure_tp hq.le h1
  obtain ⟨v, hv, v1, -⟩ := api_family heig h ho hl (by norm_num) (by norm_num) hops hK calls n hsafe rho hr hc hrho
  have := div_le_div_of_nonneg_right (antidegradable_nonpos _ (tensorPow_tp _ n hB) _
    (antidegradable_pow _ _ (erasure_back h0 h1) n) hrho.1) hlog.le
  rw [zero_div] at this
  push_cast at v1
  exact ⟨v, hv, by linarith⟩

end

/-- The hypotheses are met for every `q`. -/
example (sp : Bool) {q : ℝ} (h0 : 0 ≤ q) (h1 : q ≤ 1) : ∃ o, QChan.init sp (opsArr (erasure q)) 1 1 2 3 [] = .ok o ∧
    (opsArr (erasure q)).len = 3 ∧ (opsArr (erasure q)).ops 3 3 2 = erasure q := by
  obtain ⟨o, ho⟩ := opsArr_init sp (a := 1) (b := 1) (d := 2) (e := 3) (erasure q) (by decide) (erasure_tp h0 h1) []
  exact ⟨o, ho, rfl, opsArr_ops _⟩

/-! ## Amplitude damping -/

section
variable {γ : ℝ} (heig : eig.Correct) (h : QChan.init sp ops 1 1 2 2 orth = .ok o) (ho : sp = true ∨ orth = [])
  (hl : ops.len = 2) (hops : ops.ops 2 2 2 = damping γ) (calls : List QChan.Call)
include heig h ho hl hops

/-- **C106, amplitude damping, one use**.  With `t` the population of the second level, the coherent information of one use of the
channel with decay probability `γ ≤ 1/2` is at most `h((1 - γ) t) - h(γ t)`, with `h` the entropy of a choice, and it is that
much for diagonal states; up to the cut-off of small eigenvalues. -/
theorem C106_damping_one (h0 : 0 ≤ γ) (h1 : γ ≤ 1 / 2) (hsafe : SafeUses sp (calls.map QChan.Call.uses ++ [1])) (rho : Arr ℂ)
    (hr : rho.rows = 2) (hc : rho.cols = 2) (hrho : IsDensity (rho.mat 2 2)) :
    ∃ v, (QChan.coherentInformation eig (QChan.history o calls) rho 1 false).1 = .ok v ∧
      v ≤ choiceEntropy ((1 - γ) * (rho.get 1 1).re) - choiceEntropy (γ * (rho.get 1 1).re) + 2 * (4 / 10 ^ 9) ∧
      (rho.get 0 1 = 0 → choiceEntropy ((1 - γ) * (rho.get 1 1).re) - choiceEntropy (γ * (rho.get 1 1).re) ≤
        v + 2 * (4 / 10 ^ 9)) := by
  have hlog : 0 < Real.log 2 := Real.log_pos (by norm_num)
  obtain ⟨v, hv, v1, v2⟩ := api_family_one heig h ho hl (by norm_num) (by norm_num) hops (damping_tp h0 (by linarith)) calls hsafe
    rho hr hc hrho
  push_cast at v1 v2
  refine ⟨v, hv, ?_, fun h01 => ?_⟩
  · have := div_le_div_of_nonneg_right (damping_bound h0 h1 hrho) hlog.le
    rw [damping_value] at this
    change _ ≤ choiceEntropy ((1 - γ) * (rho.get 1 1).re) - choiceEntropy (γ * (rho.get 1 1).re) at this
    linarith
  · obtain ⟨t0, t1, hd⟩ := qubit_diag hrho h01
    rw [hd, damping_diag h0 (by linarith) t0 t1, damping_value] at v2
    exact v2

/-- **C106, amplitude damping**.  If `c` bounds `h((1 - γ) t) - h(γ t)` for all `t`, then `n c` bounds the coherent information of
`n` uses of the channel with decay probability `γ ≤ 1/2`, for every density matrix of `n` qubits. -/
theorem C106_damping (h0 : 0 ≤ γ) (h1 : γ ≤ 1 / 2) (c : ℝ)
    (hb : ∀ t, 0 ≤ t → t ≤ 1 → choiceEntropy ((1 - γ) * t) - choiceEntropy (γ * t) ≤ c) (n : ℕ)
    (hsafe : SafeUses sp (calls.map QChan.Call.uses ++ [n]))
    (rho : Arr ℂ) (hr : rho.rows = 2 ^ n) (hc : rho.cols = 2 ^ n) (hrho : IsDensity (rho.mat (2 ^ n) (2 ^ n))) :
    ∃ v, (QChan.coherentInformation eig (QChan.history o calls) rho n false).1 = .ok v ∧ v ≤ n * c + 2 ^ n * (4 / 10 ^ 9) := by
  have hlog : 0 < Real.log 2 := Real.log_pos (by norm_num)
  obtain ⟨v, hv, v1, -⟩ := api_family heig h ho hl (by norm_num) (by norm_num) hops (damping_tp h0 (by linarith)) calls n hsafe
    rho hr hc hrho
  refine ⟨v, hv, ?_⟩
  have := div_le_div_of_nonneg_right (damping_max h0 h1 hb hrho) hlog.le
  have hval : n * (c * Real.log 2) / Real.log 2 = n * c := by field_simp
  rw [hval] at this
  push_cast at v1
  linarith

/-- **C106, strong amplitude damping**.  For `γ ≥ 1/2` no density matrix has positive coherent information, however many uses are
made. -/
theorem C106_damping_half (h0 : 1 / 2 ≤ γ) (h1 : γ ≤ 1) (n : ℕ) (hsafe : SafeUses sp (calls.map QChan.Call.uses ++ [n]))
    (rho : Arr ℂ) (hr : rho.rows = 2 ^ n) (hc : rho.cols = 2 ^ n) (hrho : IsDensity (rho.mat (2 ^ n) (2 ^ n))) :
    ∃ v, (QChan.coherentInformation eig (QChan.history o calls) rho n false).1 = .ok v ∧ v ≤ 2 ^ n * (4 / 10 ^ 9) := by
  have hlog : 0 < Real.log 2 := Real.log_pos (by norm_num)
  have hg : 0 < γ := by linarith
  have b0 : 0 ≤ (1 - γ) / γ := div_nonneg (by linarith) hg.le
  have b1 : (1 - γ) / γ ≤ 1 := by rw [div_le_one hg]; linarith
  have hB : TracePreserving (damping (1 - (1 - γ) / γ)) := damping_tp (by linarith) (by linarith)
  have hK := damping_tp hg.le h1
  obtain ⟨v, hv, v1, -⟩ := api_family heig h ho hl (by norm_num) (by norm_num) hops hK calls n hsafe rho hr hc hrho
  have := div_le_div_of_nonneg_right (antidegradable_nonpos _ (tensorPow_tp _ n hB) _
    (antidegradable_pow _ _ (damping_back h0 h1) n) hrho.1) hlog.le
  rw [zero_div] at this
  push_cast at v1
  exact ⟨v, hv, by linarith⟩

end

/-- The hypotheses are met for every `γ`. -/
example (sp : Bool) {γ : ℝ} (h0 : 0 ≤ γ) (h1 : γ ≤ 1) : ∃ o, QChan.init sp (opsArr (damping γ)) 1 1 2 2 [] = .ok o ∧
    (opsArr (damping γ)).len = 2 ∧ (opsArr (damping γ)).ops 2 2 2 = damping γ := by
  obtain ⟨o, ho⟩ := opsArr_init sp (a := 1) (b := 1) (d := 2) (e := 2) (damping γ) (by decide) (damping_tp h0 h1) []
  exact ⟨o, ho, rfl, opsArr_ops _⟩

/-! ## What a search reports -/

section
variable {g : Rng} {scipy : Scipy} {maxiter n : ℕ} {name : String} {lipschitz usePool : PyNum} {samples : SamplesArg}
  {out : OptOutput} {δ : ℝ} {sqrtm : Sqrtm} {reg : Bool} {o' : KrausObj} {calls : List QChan.Call}
  (hsp : scipy.Correct) (hmin : scipy.FindsWithin δ) (heig : eig.Correct) (ho : sp = true ∨ orth = [])
  (hsafe : SafeUses sp (calls.map QChan.Call.uses ++ [n]))
  (hopt : QChan.optimizeCoherent g scipy eig sqrtm (QChan.history o calls) n (2 ^ n) "diffev" (.str name) lipschitz
      usePool maxiter samples reg = (.ok out, o'))
include hsp hmin heig ho hsafe hopt

/-- **C106, search, phase flips**.  If differential evolution comes within `δ` of the minimum of its objective, then the value that
`optimize_coherent(n, 2**n, "diffev", ...)` reports for `n` uses of the phase flip channel is `n (1 - h(p))`, `1 - h(p)` if it is
regularised, up to `δ` and the cut-off of small eigenvalues. -/
theorem C106_search_phase {p : ℝ} (h : QChan.init sp ops 1 1 2 2 orth = .ok o) (hl : ops.len = 2)
    (hops : ops.ops 2 2 2 = phaseFlip p) (h0 : 0 ≤ p) (h1 : p ≤ 1) :
    ∃ v, out.val = .num v ∧ v * (if reg then (n : ℝ) else 1) ≤ n * (1 - choiceEntropy p) + 2 ^ n * (4 / 10 ^ 9) ∧
      n * (1 - choiceEntropy p) ≤ v * (if reg then (n : ℝ) else 1) + 2 ^ n * (4 / 10 ^ 9) + δ := by
  obtain ⟨v, hv, v1, v2⟩ := search_family hsp hmin heig h ho hl (by norm_num) (by norm_num) hops (phaseFlip_tp h0 h1) hsafe hopt
    fun ρ hρ => uses_bound _ (phaseDegrade_tp h0 h1) _ (phaseFlip_tp h0 h1) (phaseFlip_degrade h0 h1)
      (fun σ hσ => phaseFlip_bound h0 h1 hσ) hρ
  have := v2 _ (full_rank (tensorProd_density fun _ => mixed_density))
    (uses_attain _ (phaseFlip_tp h0 h1) mixed_density (phaseFlip_mixed h0 h1))
  rw [flip_value] at v1 this
  exact ⟨v, hv, by exact_mod_cast v1, by exact_mod_cast this⟩

/-- **C106, search, bit flips**. -/
theorem C106_search_bit {p : ℝ} (h : QChan.init sp ops 1 1 2 2 orth = .ok o) (hl : ops.len = 2)
    (hops : ops.ops 2 2 2 = bitFlip p) (h0 : 0 ≤ p) (h1 : p ≤ 1) :
    ∃ v, out.val = .num v ∧ v * (if reg then (n : ℝ) else 1) ≤ n * (1 - choiceEntropy p) + 2 ^ n * (4 / 10 ^ 9) ∧
      n * (1 - choiceEntropy p) ≤ v * (if reg then (n : ℝ) else 1) + 2 ^ n * (4 / 10 ^ 9) + δ := by
  obtain ⟨v, hv, v1, v2⟩ := search_family hsp hmin heig h ho hl (by norm_num) (by norm_num) hops (bitFlip_tp h0 h1) hsafe hopt
    fun ρ hρ => uses_bound _ (bitDegrade_tp h0 h1) _ (bitFlip_tp h0 h1) (bitFlip_degrade h0 h1)
      (fun σ hσ => bitFlip_bound h0 h1 hσ) hρ
  have := v2 _ (full_rank (tensorProd_density fun _ => mixed_density))
    (uses_attain _ (bitFlip_tp h0 h1) mixed_density (bitFlip_mixed h0 h1))
  rw [flip_value] at v1 this
  exact ⟨v, hv, by exact_mod_cast v1, by exact_mod_cast this⟩

/-- **C106, search, erasure**. -/
theorem C106_search_erasure {q : ℝ} (h : QChan.init sp ops 1 1 2 3 orth = .ok o) (hl : ops.len = 3)
    (hops : ops.ops 3 3 2 = erasure q) (h0 : 0 ≤ q) (h1 : q ≤ 1 / 2) :
    ∃ v, out.val = .num v ∧ v * (if reg then (n : ℝ) else 1) ≤ n * (1 - 2 * q) + 3 ^ n * (4 / 10 ^ 9) ∧
      n * (1 - 2 * q) ≤ v * (if reg then (n : ℝ) else 1) + 3 ^ n * (4 / 10 ^ 9) + δ := by
  have hlog : 0 < Real.log 2 := Real.log_pos (by norm_num)
  have hq : 0 < 1 - q := by linarith
  have hD : TracePreserving (eraseMore (q / (1 - q))) :=
    eraseMore_tp (div_nonneg h0 hq.le) (by rw [div_le_one hq]; linarith)
  have hK := erasure_tp h0 (show q ≤ 1 by linarith)
  have hval : n * ((1 - 2 * q) * Real.log 2) / Real.log 2 = n * (1 - 2 * q) := by field_simp
  obtain ⟨v, hv, v1, v2⟩ := search_family hsp hmin heig h ho hl (by norm_num) (by norm_num) hops hK hsafe hopt
    fun ρ hρ => uses_bound _ hD _ hK (erasure_degrade h0 h1) (fun σ hσ => erasure_max h0 h1 hσ) hρ
  have := v2 _ (full_rank (tensorProd_density fun _ => mixed_density))
    (uses_attain _ hK mixed_density (erasure_mixed h0 (by linarith)))
  rw [hval] at v1 this
  exact ⟨v, hv, by exact_mod_cast v1, by exact_mod_cast this⟩

/-- **C106, search, amplitude damping**.  If `c` is the largest `h((1 - γ) t) - h(γ t)`, the value reported is `n c`, or `c` if it
is regularised. -/
theorem C106_search_damping {γ : ℝ} (h : QChan.init sp ops 1 1 2 2 orth = .ok o) (hl : ops.len = 2)
    (hops : ops.ops 2 2 2 = damping γ) (h0 : 0 ≤ γ) (h1 : γ ≤ 1 / 2) {c : ℝ}
    (hc : IsGreatest {x | ∃ t, 0 ≤ t ∧ t ≤ 1 ∧ x = choiceEntropy ((1 - γ) * t) - choiceEntropy (γ * t)} c) :
    ∃ v, out.val = .num v ∧ v * (if reg then (n : ℝ) else 1) ≤ n * c + 2 ^ n * (4 / 10 ^ 9) ∧
      n * c ≤ v * (if reg then (n : ℝ) else 1) + 2 ^ n * (4 / 10 ^ 9) + δ := by
  have hlog : 0 < Real.log 2 := Real.log_pos (by norm_num)
  have hK := damping_tp h0 (show γ ≤ 1 by linarith)
  have hval : n * (c * Real.log 2) / Real.log 2 = n * c := by field_simp
  obtain ⟨⟨t, t0, t1, ht⟩, hb⟩ := hc
  obtain ⟨v, hv, v1, v2⟩ := search_family hsp hmin heig h ho hl (by norm_num) (by norm_num) hops hK hsafe hopt
    fun ρ hρ => damping_max h0 h1 (fun t t0 t1 => hb ⟨t, t0, t1, rfl⟩) hρ
  have hat : krausInfo (damping γ) !![((1 - t : ℝ) : ℂ), 0; 0, (t : ℂ)] = c * Real.log 2 := by
    rw [damping_diag h0 (by linarith) t0 t1, ht, ← damping_value, div_mul_cancel₀ _ hlog.ne']
  have := v2 _ (full_rank (tensorProd_density fun _ => diag_density t0 t1)) (uses_attain _ hK (diag_density t0 t1) hat)
  rw [hval] at v1 this
  exact ⟨v, hv, by exact_mod_cast v1, by exact_mod_cast this⟩

end

/-- The largest value `c` that `C106_search_damping` speaks of exists. -/
example (γ : ℝ) : ∃ c, IsGreatest {x | ∃ t, 0 ≤ t ∧ t ≤ 1 ∧ x = choiceEntropy ((1 - γ) * t) - choiceEntropy (γ * t)} c := by
  have hcont : Continuous fun t => choiceEntropy ((1 - γ) * t) - choiceEntropy (γ * t) := by
    simp only [choiceEntropy_eq]
    have := Real.continuous_negMulLog
    fun_prop
  obtain ⟨t, ⟨t0, t1⟩, hm⟩ := isCompact_Icc.exists_isMaxOn (Set.nonempty_Icc.mpr zero_le_one) hcont.continuousOn
  refine ⟨_, ⟨t, t0, t1, rfl⟩, ?_⟩
  rintro x ⟨s, s0, s1, rfl⟩
  exact hm ⟨s0, s1⟩

/-- The hypotheses are met: the search for three uses of a bit flip with probability `1/10` returns with an optimiser that comes
within `10⁻⁶` of the minimum. -/
example {eig : Eigvalsh} (heig : eig.Correct) (g : Rng) (sqrtm : Sqrtm) :
    ∃ (o : KrausObj) (scipy : Scipy) (out : OptOutput) (o' : KrausObj), QChan.init true (opsArr (bitFlip (1 / 10))) 1 1 2 2 [] = .ok o ∧
      scipy.Correct ∧ scipy.FindsWithin (1 / 10 ^ 6) ∧
      QChan.optimizeCoherent g scipy eig sqrtm (QChan.history o []) 3 (2 ^ 3) "diffev" (.str "cholesky") (.int 0) (.int 0) 50
        ⟨true, []⟩ true = (.ok out, o') := by
  have hK := bitFlip_tp (p := 1 / 10) (by norm_num) (by norm_num)
  obtain ⟨o, ho⟩ := opsArr_init true (a := 1) (b := 1) (d := 2) (e := 2) (bitFlip (1 / 10)) (by decide) hK []
  have htp : TracePreserving ((opsArr (bitFlip (1 / 10))).ops (opsArr (bitFlip (1 / 10))).len (2 ^ 1) (2 ^ 1)) := by
    have : (opsArr (bitFlip (1 / 10))).ops (opsArr (bitFlip (1 / 10))).len (2 ^ 1) (2 ^ 1) = bitFlip (1 / 10) := opsArr_ops _
    rw [this]
    exact hK
  obtain ⟨scipy, h1, h2, out, o', hrun⟩ := C92_within_runs (δ := 1 / 10 ^ 6) (by norm_num) heig ho (Or.inl rfl) htp (calls := []) (n := 3)
    ⟨by simp, by simp⟩ (rank := 2 ^ 3) ⟨by norm_num, by norm_num⟩ g sqrtm true
  exact ⟨o, scipy, out, o', ho, h1, h2, hrun⟩

end PyQ
