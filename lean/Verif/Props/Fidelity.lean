import Verif.Lemmas.Fidelity
import Verif.Props.Optimize
import Verif.Props.OptimizeBest
import Verif.Props.Choi

/-!
# C50: the fidelity between a state and the output of the channel
-/

namespace PyQ

open Matrix
open scoped ComplexOrder

/-- `S` is the positive semidefinite square root of `M`. -/
def Spec.IsSqrt {n : ℕ} (S M : Matrix (Fin n) (Fin n) ℂ) : Prop := S.PosSemidef ∧ S * S = M

/-- `F` is the fidelity `tr √(√ρ σ √ρ)` of `ρ` and `σ`. -/
def Spec.IsFidelity {n : ℕ} (ρ σ : Matrix (Fin n) (Fin n) ℂ) (F : ℝ) : Prop :=
  ∃ R S, Spec.IsSqrt R ρ ∧ Spec.IsSqrt S (R * σ * R) ∧ trace S = (F : ℂ)

/-- There is only one fidelity. -/
theorem Spec.IsFidelity.unique {n : ℕ} {ρ σ : Matrix (Fin n) (Fin n) ℂ} {F G : ℝ} (hF : Spec.IsFidelity ρ σ F)
    (hG : Spec.IsFidelity ρ σ G) : F = G := by
  obtain ⟨R, S, h1, h2, h3⟩ := hF
  obtain ⟨R', S', h1', h2', h3'⟩ := hG
  have hR : R = R' := sqrt_unique h1.1 h1'.1 (h1.2.trans h1'.2.symm)
  subst hR
  have hS : S = S' := sqrt_unique h2.1 h2'.1 (h2.2.trans h2'.2.symm)
  subst hS
  rw [h3] at h3'
  exact_mod_cast h3'

/-- The fidelity of two states is between zero and one. -/
theorem Spec.IsFidelity.range {n : ℕ} {ρ σ : Matrix (Fin n) (Fin n) ℂ} {F : ℝ} (hF : Spec.IsFidelity ρ σ F)
    (hρ : Spec.IsDensity ρ) (hσ : Spec.IsDensity σ) : 0 ≤ F ∧ F ≤ 1 := by
  obtain ⟨R, S, h1, h2, h3⟩ := hF
  constructor
  · have := h2.1.trace_nonneg
    rw [h3] at this
    exact_mod_cast this
  · obtain ⟨sqrtm, hsq⟩ := exists_sqrtm
    obtain ⟨-, -, t1, t2⟩ := hsq (Arr.ofMat σ) n rfl rfl (by rw [Arr.ofMat_mat]; exact hσ.1)
    rw [Arr.ofMat_mat] at t2
    have := trace_sqrt_le h1.1 t1 h2.1 (by rw [t2]; exact h2.2)
    rw [h1.2, t2, hρ.2, hσ.2, h3] at this
    simpa using this

/-- The fidelity of a state with itself is one. -/
theorem Spec.isFidelity_self {n : ℕ} {ρ : Matrix (Fin n) (Fin n) ℂ} (hρ : Spec.IsDensity ρ) :
    Spec.IsFidelity ρ ρ 1 := by
  obtain ⟨sqrtm, hsq⟩ := exists_sqrtm
  obtain ⟨-, -, t1, t2⟩ := hsq (Arr.ofMat ρ) n rfl rfl (by rw [Arr.ofMat_mat]; exact hρ.1)
  rw [Arr.ofMat_mat] at t2
  generalize (sqrtm (Arr.ofMat ρ)).mat n n = R at t1 t2
  refine ⟨R, ρ, ⟨t1, t2⟩, ⟨hρ.1, ?_⟩, by rw [hρ.2]; simp⟩
  rw [← t2]
  simp only [Matrix.mul_assoc]

/-- The fidelity of a pure state `ψ` with `σ` is `√⟨ψ, σ ψ⟩`. -/
theorem Spec.isFidelity_pure {n : ℕ} {ψ : Fin n → ℂ} (hψ : star ψ ⬝ᵥ ψ = 1) {σ : Matrix (Fin n) (Fin n) ℂ}
    (hσ : σ.PosSemidef) :
    Spec.IsFidelity (vecMulVec ψ (star ψ)) σ (Real.sqrt (star ψ ⬝ᵥ σ *ᵥ ψ).re) := by
  have hP : (vecMulVec ψ (star ψ)).PosSemidef := posSemidef_vecMulVec_self_star ψ
  have hPP : vecMulVec ψ (star ψ) * vecMulVec ψ (star ψ) = vecMulVec ψ (star ψ) := by
    rw [vecMulVec_mul_vecMulVec, hψ]
    simp
  have hq : 0 ≤ star ψ ⬝ᵥ σ *ᵥ ψ := hσ.dotProduct_mulVec_nonneg ψ
  set q := star ψ ⬝ᵥ σ *ᵥ ψ with hqd
  have hqre : q = ((q.re : ℝ) : ℂ) := by
    have := (Complex.le_def.mp hq).2
    exact Complex.ext rfl (by simpa using this.symm)
  have hq0 : 0 ≤ q.re := (Complex.le_def.mp hq).1
  refine ⟨vecMulVec ψ (star ψ), ((Real.sqrt q.re : ℝ) : ℂ) • vecMulVec ψ (star ψ), ⟨hP, hPP⟩, ⟨?_, ?_⟩, ?_⟩
  · exact hP.smul (by exact_mod_cast Real.sqrt_nonneg _)
  · rw [Matrix.smul_mul, Matrix.mul_smul, smul_smul, hPP, Matrix.mul_assoc, mul_vecMulVec,
      vecMulVec_mul_vecMulVec, ← Complex.ofReal_mul, Real.mul_self_sqrt hq0, ← hqre, hqd]
    ext i j
    simp [vecMulVec_apply]
    ring
  · rw [trace_smul, trace_vecMulVec, dotProduct_comm, hψ]
    simp

variable {sqrtm : Sqrtm}

/-- `fidelityOf` computes the fidelity, for every routine that meets the contract of `sqrtm`. -/
theorem fidelityOf_ok (hsqrt : sqrtm.Correct) (rho out : Arr ℂ) (n : ℕ) (h1 : rho.rows = n) (h2 : rho.cols = n)
    (h3 : out.rows = n) (h4 : out.cols = n) (hr : (rho.mat n n).PosSemidef) (ho : (out.mat n n).PosSemidef) :
    ∃ F, fidelityOf sqrtm rho out = .ok F ∧ Spec.IsFidelity (rho.mat n n) (out.mat n n) F := by
  obtain ⟨a1, a2, a3, a4⟩ := hsqrt rho n h1 h2 hr
  have hd1 : (sqrtm rho).dot out = .ok ((sqrtm rho).mul out) := by rw [Arr.dot, if_pos (by rw [a2, h3])]
  have hd2 : ((sqrtm rho).mul out).dot (sqrtm rho) = .ok (((sqrtm rho).mul out).mul (sqrtm rho)) := by
    rw [Arr.dot, if_pos]
    rw [a1]
    exact h4
  set M := ((sqrtm rho).mul out).mul (sqrtm rho) with hM
  have hmat : M.mat n n = (sqrtm rho).mat n n * out.mat n n * (sqrtm rho).mat n n := by
    rw [hM, Arr.mat_mul _ _ n n n (by exact h4), Arr.mat_mul _ _ n n n a2]
  have hpsd : (M.mat n n).PosSemidef := by
    rw [hmat]
    have := ho.conjTranspose_mul_mul_same ((sqrtm rho).mat n n)
    rwa [a3.isHermitian.eq] at this
  obtain ⟨b1, b2, b3, b4⟩ := hsqrt M n a1 a2 hpsd
  have htr : (∑ i ∈ Finset.range (min (sqrtm M).rows (sqrtm M).cols), (sqrtm M).get i i) =
      trace ((sqrtm M).mat n n) := by
    rw [b1, b2, min_self, Finset.sum_range]
    rfl
  have him : (trace ((sqrtm M).mat n n)).im = 0 := by
    have := b3.trace_nonneg
    have := (Complex.le_def.mp this).2
    simpa using this.symm
  refine ⟨(trace ((sqrtm M).mat n n)).re, ?_, (sqrtm rho).mat n n, (sqrtm M).mat n n, ⟨a3, a4⟩,
    ⟨b3, by rw [b4, hmat]⟩, ?_⟩
  · unfold fidelityOf
    simp only [hd1, hd2, bind, Except.bind]
    rw [htr, him, abs_zero, pyAssert, if_pos (by norm_num)]
    rfl
  · exact Complex.ext rfl (by simp [him])

variable {sp : Bool} {ops : Arr3 ℂ} {a b d e : ℕ} {orth : List ℕ} {o : KrausObj}

/-- C50.  `fidelity_two_states(rho, n)` is the fidelity `tr √(√ρ N(ρ) √ρ)` between `rho` and the output of the
channel on `n` uses, for every channel with equal input and output dimension, every history and every positive
semidefinite `rho`; it does not raise. -/
theorem C50_value (hsqrt : sqrtm.Correct) (h : QChan.init sp ops a b d e orth = .ok o)
    (calls : List QChan.Call) (n : ℕ) (hsafe : Spec.SafeUses sp (calls.map QChan.Call.uses ++ [n]))
    (N : ℕ) (hin : d ^ a = N) (hout : e ^ b = N)
    (rho : Arr ℂ) (hr : rho.rows = N ^ n) (hc : rho.cols = N ^ n) (hrho : (rho.mat (N ^ n) (N ^ n)).PosSemidef) :
    ∃ F, (QChan.fidelityTwoStates sqrtm (QChan.history o calls) rho n).1 = .ok F ∧
      Spec.IsFidelity (rho.mat (N ^ n) (N ^ n))
        (Spec.applyKraus (Spec.tensorPow (ops.ops ops.len N N) n) (rho.mat (N ^ n) (N ^ n))) F := by
  obtain ⟨out, x1, x2, x3, x4⟩ := api_channel h calls n hsafe rho (by rw [hin]; exact hr) (by rw [hin]; exact hc)
  subst hin
  rw [hout] at x2 x3 x4
  obtain ⟨F, f1, f2⟩ := fidelityOf_ok hsqrt rho out _ hr hc x2 x3 hrho (by
    rw [x4]; exact Spec.applyKraus_posSemidef _ hrho)
  refine ⟨F, ?_, ?_⟩
  · unfold QChan.fidelityTwoStates
    rcases hch : QChan.channel (QChan.history o calls) rho n false with ⟨y, o'⟩
    rw [hch] at x1
    simp only at x1
    subst x1
    exact f1
  · rw [x4] at f2
    exact f2

/-- C50.  For a trace preserving channel and a density matrix the value is between zero and one. -/
theorem C50_range (hsqrt : sqrtm.Correct) (h : QChan.init sp ops a b d e orth = .ok o)
    (calls : List QChan.Call) (n : ℕ) (hsafe : Spec.SafeUses sp (calls.map QChan.Call.uses ++ [n]))
    (N : ℕ) (hin : d ^ a = N) (hout : e ^ b = N) (htp : Spec.TracePreserving (ops.ops ops.len N N))
    (rho : Arr ℂ) (hr : rho.rows = N ^ n) (hc : rho.cols = N ^ n)
    (hrho : Spec.IsDensity (rho.mat (N ^ n) (N ^ n))) :
    ∃ F, (QChan.fidelityTwoStates sqrtm (QChan.history o calls) rho n).1 = .ok F ∧ 0 ≤ F ∧ F ≤ 1 := by
  obtain ⟨F, f1, f2⟩ := C50_value hsqrt h calls n hsafe N hin hout rho hr hc hrho.1
  exact ⟨F, f1, f2.range hrho ⟨Spec.applyKraus_posSemidef _ hrho.1,
    (Spec.applyKraus_trace _ (Spec.tensorPow_tp _ n htp) _).trans hrho.2⟩⟩

/-- C50.  If the channel leaves the state unchanged, the value is one. -/
theorem C50_fixed_state (hsqrt : sqrtm.Correct) (h : QChan.init sp ops a b d e orth = .ok o)
    (calls : List QChan.Call) (n : ℕ) (hsafe : Spec.SafeUses sp (calls.map QChan.Call.uses ++ [n]))
    (N : ℕ) (hin : d ^ a = N) (hout : e ^ b = N)
    (rho : Arr ℂ) (hr : rho.rows = N ^ n) (hc : rho.cols = N ^ n)
    (hrho : Spec.IsDensity (rho.mat (N ^ n) (N ^ n)))
    (hfix : Spec.applyKraus (Spec.tensorPow (ops.ops ops.len N N) n) (rho.mat (N ^ n) (N ^ n)) =
      rho.mat (N ^ n) (N ^ n)) :
    (QChan.fidelityTwoStates sqrtm (QChan.history o calls) rho n).1 = .ok 1 := by
  obtain ⟨F, f1, f2⟩ := C50_value hsqrt h calls n hsafe N hin hout rho hr hc hrho.1
  rw [hfix] at f2
  rw [f1, f2.unique (Spec.isFidelity_self hrho)]

/-- C50.  For a pure state `ψ` the value is `√⟨ψ, N(|ψ⟩⟨ψ|) ψ⟩`. -/
theorem C50_pure_state (hsqrt : sqrtm.Correct) (h : QChan.init sp ops a b d e orth = .ok o)
    (calls : List QChan.Call) (n : ℕ) (hsafe : Spec.SafeUses sp (calls.map QChan.Call.uses ++ [n]))
    (N : ℕ) (hin : d ^ a = N) (hout : e ^ b = N)
    (rho : Arr ℂ) (hr : rho.rows = N ^ n) (hc : rho.cols = N ^ n)
    (ψ : Fin (N ^ n) → ℂ) (hψ : star ψ ⬝ᵥ ψ = 1) (hrho : rho.mat (N ^ n) (N ^ n) = vecMulVec ψ (star ψ)) :
    (QChan.fidelityTwoStates sqrtm (QChan.history o calls) rho n).1 = .ok (Real.sqrt
      (star ψ ⬝ᵥ Spec.applyKraus (Spec.tensorPow (ops.ops ops.len N N) n) (vecMulVec ψ (star ψ)) *ᵥ ψ).re) := by
  have hP : (vecMulVec ψ (star ψ)).PosSemidef := posSemidef_vecMulVec_self_star ψ
  obtain ⟨F, f1, f2⟩ := C50_value hsqrt h calls n hsafe N hin hout rho hr hc (by rw [hrho]; exact hP)
  rw [hrho] at f2
  rw [f1, f2.unique (Spec.isFidelity_pure hψ (Spec.applyKraus_posSemidef _ hP))]

/-- C50.  If the output dimension differs from the input dimension the call raises `ValueError`. -/
theorem C50_dimensions (hsqrt : sqrtm.Correct) (h : QChan.init sp ops a b d e orth = .ok o)
    (calls : List QChan.Call) (n : ℕ) (hsafe : Spec.SafeUses sp (calls.map QChan.Call.uses ++ [n]))
    (rho : Arr ℂ) (hr : rho.rows = (d ^ a) ^ n) (hc : rho.cols = (d ^ a) ^ n)
    (hrho : (rho.mat ((d ^ a) ^ n) ((d ^ a) ^ n)).PosSemidef) (hne : (d ^ a) ^ n ≠ (e ^ b) ^ n) :
    (QChan.fidelityTwoStates sqrtm (QChan.history o calls) rho n).1 = .error .value := by
  obtain ⟨out, x1, x2, x3, x4⟩ := api_channel h calls n hsafe rho hr hc
  obtain ⟨a1, a2, -⟩ := hsqrt rho _ hr hc hrho
  unfold QChan.fidelityTwoStates
  rcases hch : QChan.channel (QChan.history o calls) rho n false with ⟨y, o'⟩
  rw [hch] at x1
  simp only at x1
  subst x1
  simp only
  unfold fidelityOf
  simp only [Arr.dot]
  rw [if_neg (by rw [a2, x2]; exact hne)]
  rfl

/-- C50.  For a channel given by the Choi matrix of `K`, `fidelity_two_states(rho, 1)` is the fidelity between
`rho` and the output of the channel. -/
theorem C50_choi (hsqrt : sqrtm.Correct) {q : QutipChecks} {C : Arr ℂ} {o : ChoiObj} {l N : ℕ}
    (h : ChoiObj.init q C a a d e = .ok o) (hsq : C.rows = C.cols) (hin : d ^ a = N) (hout : e ^ a = N)
    (K : Fin l → Matrix (Fin N) (Fin N) ℂ) (hC : C.mat (N * N) (N * N) = Spec.choi K)
    (rho : Arr ℂ) (hr : rho.rows = N) (hc : rho.cols = N) (hrho : (rho.mat N N).PosSemidef) :
    ∃ F, ChoiQ.fidelityTwoStates sqrtm o rho 1 = .ok F ∧
      Spec.IsFidelity (rho.mat N N) (Spec.applyKraus K (rho.mat N N)) F := by
  obtain ⟨out, x1, x2, x3, x4⟩ := C33_choi_channel h hsq rho (by rw [hin]; exact hr) (by rw [hin]; exact hc)
  subst hin
  rw [hout] at x2 x3 x4
  rw [hC, Spec.choiChannel_choi] at x4
  obtain ⟨F, f1, f2⟩ := fidelityOf_ok hsqrt rho out _ hr hc x2 x3 hrho (by
    rw [x4]; exact Spec.applyKraus_posSemidef _ hrho)
  refine ⟨F, ?_, by rw [x4] at f2; exact f2⟩
  unfold ChoiQ.fidelityTwoStates
  rw [x1]
  exact f1

/-! ### Cases that meet the hypotheses -/

/-- The vector `|+⟩`. -/
noncomputable def plusVec : Fin 2 → ℂ := fun _ => ((Real.sqrt (1 / 2) : ℝ) : ℂ)

theorem sqrtHalf_mul : ((Real.sqrt (1 / 2) : ℝ) : ℂ) * ((Real.sqrt (1 / 2) : ℝ) : ℂ) = 1 / 2 := by
  rw [← Complex.ofReal_mul, Real.mul_self_sqrt (by norm_num)]
  norm_num

theorem plusVec_unit : star plusVec ⬝ᵥ plusVec = 1 := by
  simp only [dotProduct, Fin.sum_univ_two, Pi.star_apply, plusVec, Complex.star_def, Complex.conj_ofReal,
    sqrtHalf_mul]
  norm_num

/-- The dephasing channel halves the overlap of `|+⟩` with itself. -/
theorem deph_plus : star plusVec ⬝ᵥ Spec.applyKraus (dephOps.ops 2 2 2) (vecMulVec plusVec (star plusVec)) *ᵥ
    plusVec = 1 / 2 := by
  have hK : Spec.applyKraus (dephOps.ops 2 2 2) (vecMulVec plusVec (star plusVec)) =
      (1 / 2 : ℂ) • (1 : Matrix (Fin 2) (Fin 2) ℂ) := by
    ext i j
    simp only [Spec.applyKraus, Matrix.sum_apply, Matrix.mul_apply, Fin.sum_univ_two, conjTranspose_apply,
      Arr3.ops, dephOps, vecMulVec_apply, Pi.star_apply, plusVec, Complex.star_def, Complex.conj_ofReal,
      sqrtHalf_mul, Matrix.smul_apply, smul_eq_mul]
    fin_cases i <;> fin_cases j <;> simp
  rw [hK, smul_mulVec, one_mulVec, dotProduct_smul, plusVec_unit]
  simp

/-- After any history that asks for one use, `fidelity_two_states` of `|+⟩⟨+|` is `√(1/2)` for the dephasing
channel: the hypotheses of `C50_pure_state` hold and the value is neither 0 nor 1. -/
example (hsqrt : sqrtm.Correct) (sp : Bool) : ∃ o, QChan.init sp dephOps 1 1 2 2 [] = .ok o ∧
    (QChan.fidelityTwoStates sqrtm (QChan.history o []) (Arr.ofMat (vecMulVec plusVec (star plusVec))) 1).1 =
      .ok (Real.sqrt (1 / 2)) := by
  obtain ⟨o, ho⟩ := deph_ok sp []
  obtain ⟨out, x1, x2, x3, x4⟩ := api_channel_one ho [] (by constructor <;> simp)
    (Arr.ofMat (vecMulVec plusVec (star plusVec))) rfl rfl
  refine ⟨o, ho, ?_⟩
  have hP : (vecMulVec plusVec (star plusVec)).PosSemidef := posSemidef_vecMulVec_self_star plusVec
  have hin : (Arr.ofMat (vecMulVec plusVec (star plusVec))).mat (2 ^ 1) (2 ^ 1) =
      vecMulVec plusVec (star plusVec) := Arr.ofMat_mat _
  rw [hin] at x4
  obtain ⟨F, f1, f2⟩ := fidelityOf_ok hsqrt (Arr.ofMat (vecMulVec plusVec (star plusVec))) out (2 ^ 1) rfl rfl x2 x3
    (by rw [hin]; exact hP) (by rw [x4]; exact Spec.applyKraus_posSemidef _ hP)
  rw [hin, x4] at f2
  have h1 := f2.unique (Spec.isFidelity_pure plusVec_unit (Spec.applyKraus_posSemidef _ hP))
  have h2 : (star plusVec ⬝ᵥ Spec.applyKraus (dephOps.ops dephOps.len (2 ^ 1) (2 ^ 1))
      (vecMulVec plusVec (star plusVec)) *ᵥ plusVec).re = 1 / 2 := by
    have := congrArg Complex.re deph_plus
    rw [show ((1 / 2 : ℂ)).re = 1 / 2 by norm_num] at this
    exact this
  rw [h2] at h1
  unfold QChan.fidelityTwoStates
  rcases hch : QChan.channel (QChan.history o []) (Arr.ofMat (vecMulVec plusVec (star plusVec))) 1 false with ⟨y, o'⟩
  rw [hch] at x1
  simp only at x1
  subst x1
  rw [← h1]
  exact f1

end PyQ
