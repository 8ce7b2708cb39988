import Verif.Props.EntFid
import Verif.Props.DataProcessing
import Verif.Props.AvgFid
import Verif.Lemmas.Unchanged

/-!
# C113: a fidelity of one means that nothing was changed
-/

namespace PyQ

open Matrix Spec
open scoped ComplexOrder

/-- States of fidelity one are equal. -/
theorem Spec.IsFidelity.eq_one {n : ℕ} {ρ σ : Matrix (Fin n) (Fin n) ℂ} (h : Spec.IsFidelity ρ σ 1) (hρ : Spec.IsDensity ρ)
    (hσ : Spec.IsDensity σ) : σ = ρ := by
  obtain ⟨R, S, h1, h2, h3⟩ := h
  obtain ⟨sqrtm, hsq⟩ := exists_sqrtm
  obtain ⟨-, -, t1, t2⟩ := hsq (Arr.ofMat σ) n rfl rfl (by rw [Arr.ofMat_mat]; exact hσ.1)
  rw [Arr.ofMat_mat] at t2
  have := trace_sqrt_eq h1.1 t1 h2.1 (by rw [t2]; exact h2.2) (by rw [t2, h1.2, hσ.2, hρ.2])
    (by rw [h3, h1.2, hρ.2, Complex.ofReal_one])
  rw [h1.2, t2] at this
  exact this.symm

section

variable {sqrtm : Sqrtm} {sp : Bool} {ops : Arr3 ℂ} {a b d e : ℕ} {orth : List ℕ} {o : KrausObj}

/-- **C113**, one state.  For trace preserving channels, all histories, numbers of uses and density matrices: `fidelity_two_states`
returns 1 exactly when `channel` returns the state it was given. -/
theorem C113_state (hsqrt : sqrtm.Correct) (h : QChan.init sp ops a b d e orth = .ok o)
    (calls : List QChan.Call) (n : ℕ) (hsafe : Spec.SafeUses sp (calls.map QChan.Call.uses ++ [n]))
    (N : ℕ) (hin : d ^ a = N) (hout : e ^ b = N) (htp : Spec.TracePreserving (ops.ops ops.len N N))
    (rho : Arr ℂ) (hr : rho.rows = N ^ n) (hc : rho.cols = N ^ n) (hrho : Spec.IsDensity (rho.mat (N ^ n) (N ^ n))) :
    (QChan.fidelityTwoStates sqrtm (QChan.history o calls) rho n).1 = .ok 1 ↔
      ∃ out, (QChan.channel (QChan.history o calls) rho n false).1 = .ok out ∧ Arr.Same out rho := by
  obtain ⟨out, x1, x2, x3, x4⟩ := api_channel h calls n hsafe rho (by rw [hin]; exact hr) (by rw [hin]; exact hc)
  rw [hout] at x2 x3
  rw [hin, hout] at x4
  constructor
  · intro hF
    obtain ⟨F, f1, f2⟩ := C50_value hsqrt h calls n hsafe N hin hout rho hr hc hrho.1
    rw [hF] at f1
    injection f1 with f1
    subst f1
    refine ⟨out, x1, ?_⟩
    have hD := (kraus_densities _ _ (Spec.tensorPow_tp _ n htp) hrho).1
    rw [Arr.same_iff_mat, x2, x3, hr, hc]
    exact ⟨rfl, rfl, x4.trans (f2.eq_one hrho hD)⟩
  · rintro ⟨out', y1, hs⟩
    rw [x1] at y1
    injection y1 with y1
    subst y1
    rw [Arr.same_iff_mat, x2, x3] at hs
    exact C50_fixed_state hsqrt h calls n hsafe N hin hout rho hr hc hrho (x4.symm.trans hs.2.2)

/-- The hypotheses of C113 are met, on both sides: full dephasing changes the state with equal amplitudes, so that its fidelity is
not one, and keeps the maximally mixed one. -/
example (hsqrt : sqrtm.Correct) : ∃ o, QChan.init false dephOps 1 1 2 2 [] = .ok o ∧
    (QChan.fidelityTwoStates sqrtm o mixedState 1).1 = .ok 1 ∧
    (QChan.fidelityTwoStates sqrtm o plusState 1).1 ≠ .ok 1 := by
  obtain ⟨o, ho⟩ := deph_ok false []
  have hout : ∀ x : Arr ℂ, x.rows = 2 → x.cols = 2 → ∃ out, (QChan.channel o x 1 false).1 = .ok out ∧ out.rows = 2 ∧ out.cols = 2 ∧
      out.mat 2 2 = diagonal fun i => x.mat 2 2 i i := by
    intro x h1 h2
    obtain ⟨out, x1, x2, x3, x4⟩ := api_channel_one ho [] ⟨by simp, by simp⟩ x h1 h2
    refine ⟨out, x1, x2, x3, ?_⟩
    have x4' : out.mat 2 2 = applyKraus (dephOps.ops 2 2 2) (x.mat 2 2) := x4
    rw [x4']
    ext i j
    simp only [Spec.applyKraus, dephOps, Matrix.sum_apply, Matrix.mul_apply, conjTranspose_apply, Arr3.ops]
    fin_cases i <;> fin_cases j <;> simp [Fin.sum_univ_two]
  have hdm : IsDensity (mixedState.mat 2 2) := mixedState_density
  have hdp : IsDensity (plusState.mat 2 2) := by
    have h1 : plusState.mat 2 2 = (1 / 2 : ℂ) • vecMulVec (fun _ : Fin 2 => (1 : ℂ)) (star fun _ : Fin 2 => (1 : ℂ)) := by
      ext i j
      simp [plusState, Arr.mat, vecMulVec_apply]
    rw [h1]
    refine ⟨(posSemidef_vecMulVec_self_star _).smul (by positivity), ?_⟩
    simp [trace, vecMulVec_apply]
  refine ⟨o, ho, ?_, fun hcon => ?_⟩
  · refine (C113_state hsqrt ho [] 1 ⟨by simp, by simp⟩ 2 rfl rfl dephOps_tp mixedState rfl rfl hdm).mpr ?_
    obtain ⟨out, x1, x2, x3, x4⟩ := hout mixedState rfl rfl
    refine ⟨out, x1, ?_⟩
    rw [Arr.same_iff_mat, x2, x3]
    refine ⟨rfl, rfl, x4.trans ?_⟩
    ext i j
    fin_cases i <;> fin_cases j <;> simp [mixedState, Arr.mat]
  · obtain ⟨out, x1, hs⟩ := (C113_state hsqrt ho [] 1 ⟨by simp, by simp⟩ 2 rfl rfl dephOps_tp plusState rfl rfl hdp).mp hcon
    obtain ⟨out', y1, y2, y3, y4⟩ := hout plusState rfl rfl
    have x1' : (QChan.channel o plusState 1 false).1 = .ok out := x1
    rw [x1'] at y1
    injection y1 with y1
    subst y1
    rw [Arr.same_iff_mat, y2, y3, y4] at hs
    have := congrFun (congrFun hs.2.2 0) 1
    simp [plusState, Arr.mat] at this

end

/-- The average over an ensemble is one exactly when every term is. -/
theorem Spec.avgEntanglementFidelity_one {l N : ℕ} {K : Fin l → Matrix (Fin N) (Fin N) ℂ} (hK : TracePreserving K)
    (ens : List (ℝ × Matrix (Fin N) (Fin N) ℂ)) (hens : ∀ x ∈ ens, 0 < x.1 ∧ IsDensity x.2) :
    Spec.avgEntanglementFidelity K ens = (ens.map Prod.fst).sum ↔ ∀ x ∈ ens, ∑ k, ‖trace (K k * x.2)‖ ^ 2 = 1 := by
  induction ens with
  | nil => simp [Spec.avgEntanglementFidelity]
  | cons x xs ih =>
    have ih' := ih fun y hy => hens y (by simp [hy])
    obtain ⟨p, ρ⟩ := x
    have hx := hens (p, ρ) (by simp)
    have h1 := (Spec.avgEntanglementFidelity_range K hK [(1, ρ)] (by simpa using hx.2)).2
    have h2 := (Spec.avgEntanglementFidelity_range K hK xs fun y hy => ⟨(hens y (by simp [hy])).1.le, (hens y (by simp [hy])).2⟩).2
    simp only [Spec.avgEntanglementFidelity, List.map_cons, List.map_nil, List.sum_cons, List.sum_nil, one_mul, add_zero] at h1
    simp only [Spec.avgEntanglementFidelity, List.map_cons, List.sum_cons, List.forall_mem_cons, ← ih']
    have hp : 0 < p := hx.1
    constructor
    · intro h
      have h3 : p * ∑ k, ‖trace (K k * ρ)‖ ^ 2 ≤ p := by simpa using mul_le_mul_of_nonneg_left h1 hp.le
      have h4 : p * ∑ k, ‖trace (K k * ρ)‖ ^ 2 = p := by linarith
      refine ⟨?_, by linarith⟩
      exact mul_left_cancel₀ hp.ne' (h4.trans (mul_one p).symm)
    · rintro ⟨h3, h4⟩
      rw [h3, h4, mul_one]

section

variable {q : QutipChecks} {C : Arr ℂ} {o : ChoiObj} {a d e : ℕ}

/-- **C113**, ensembles.  For objects made of the Choi matrix of a trace preserving channel and ensembles of density matrices
with positive probabilities: `average_entanglement_fidelity` returns 1 exactly when `channel` leaves unchanged every matrix
`rho Y rho` for the states `rho` of the ensemble, that is, everything on their supports. -/
theorem C113_ensemble {l N : ℕ} (K : Fin l → Matrix (Fin N) (Fin N) ℂ) (hK : TracePreserving K)
    (h : ChoiObj.init q C a a d e = .ok o) (hsq : C.rows = C.cols) (hin : d ^ a = N) (hout : e ^ a = N)
    (hC : C.mat (N * N) (N * N) = Spec.choi K) (ens : List (ℝ × Arr ℂ))
    (hens : ∀ x ∈ ens, 0 < x.1 ∧ x.2.rows = N ∧ x.2.cols = N ∧ IsDensity (x.2.mat N N)) (hsum : (ens.map Prod.fst).sum = 1) :
    o.avgFidelity (ens.map Prod.fst) (ens.map Prod.snd) = .ok 1 ↔
      ∀ x ∈ ens, ∀ X : Arr ℂ, X.rows = N → X.cols = N → (∃ Y, X.mat N N = x.2.mat N N * Y * x.2.mat N N) →
        ∃ out, ChoiQ.channel o X 1 false = .ok out ∧ Arr.Same out X := by
  rw [C35_value K hin hout h hsq hC ens fun x hx => ⟨(hens x hx).2.1, (hens x hx).2.2.1, (hens x hx).2.2.2.1.isHermitian⟩]
  have h1 := Spec.avgEntanglementFidelity_one hK (ens.map fun x => (x.1, x.2.mat N N)) (by
    intro y hy
    rw [List.mem_map] at hy
    obtain ⟨x, hx, rfl⟩ := hy
    exact ⟨(hens x hx).1, (hens x hx).2.2.2⟩)
  rw [List.map_map, show ((ens.map (Prod.fst ∘ fun x : ℝ × Arr ℂ => (x.1, x.2.mat N N))).sum) = 1 from hsum] at h1
  have h2 : (Except.ok ((Spec.avgEntanglementFidelity K (ens.map fun x => (x.1, x.2.mat N N)) : ℝ) : ℂ) : Except PyErr ℂ) = .ok 1 ↔
      Spec.avgEntanglementFidelity K (ens.map fun x => (x.1, x.2.mat N N)) = 1 := by
    rw [Except.ok.injEq]
    exact_mod_cast Iff.rfl
  rw [h2, h1]
  simp only [List.mem_map, forall_exists_index, and_imp, forall_apply_eq_imp_iff₂]
  refine forall₂_congr fun x hx => ?_
  obtain ⟨-, -, -, hρ⟩ := hens x hx
  rw [entFid_one hK hρ.1 hρ.2]
  have hch : ∀ X : Arr ℂ, X.rows = N → X.cols = N → ∃ out, ChoiQ.channel o X 1 false = .ok out ∧ out.rows = N ∧ out.cols = N ∧
      out.mat N N = applyKraus K (X.mat N N) := by
    intro X hr hc
    subst hin
    obtain ⟨out, x1, x2, x3, x4⟩ := C33_choi_channel h hsq X hr hc
    rw [hout] at x2 x3 x4
    rw [hC, Spec.choiChannel_choi] at x4
    exact ⟨out, x1, x2, x3, x4⟩
  constructor
  · rintro h3 X hr hc Y hY
    obtain ⟨out, x1, x2, x3, x4⟩ := hch X hr hc
    refine ⟨out, x1, ?_⟩
    rw [Arr.same_iff_mat, x2, x3, hr, hc, x4, hY, h3]
    exact ⟨rfl, rfl, rfl⟩
  · intro h3 Y
    obtain ⟨out, x1, hs⟩ := h3 (Arr.ofMat (x.2.mat N N * Y * x.2.mat N N)) rfl rfl Y (by rw [Arr.ofMat_mat])
    obtain ⟨out', y1, y2, y3, y4⟩ := hch (Arr.ofMat (x.2.mat N N * Y * x.2.mat N N)) rfl rfl
    rw [x1] at y1
    injection y1 with y1
    subst y1
    rw [Arr.same_iff_mat, y2, y3] at hs
    rw [Arr.ofMat_mat] at y4 hs
    rw [← y4, hs.2.2]

/-- **C113**, a state of full rank.  One such state is a test for all: `average_entanglement_fidelity([1], [rho])` is 1 exactly when
the channel changes no matrix at all. -/
theorem C113_identity {l N : ℕ} (K : Fin l → Matrix (Fin N) (Fin N) ℂ) (hK : TracePreserving K)
    (h : ChoiObj.init q C a a d e = .ok o) (hsq : C.rows = C.cols) (hin : d ^ a = N) (hout : e ^ a = N)
    (hC : C.mat (N * N) (N * N) = Spec.choi K) (rho : Arr ℂ) (hr : rho.rows = N) (hc : rho.cols = N)
    (hrho : (rho.mat N N).PosDef) (htr : (rho.mat N N).trace = 1) :
    o.avgFidelity [1] [rho] = .ok 1 ↔
      ∀ X : Arr ℂ, X.rows = N → X.cols = N → ∃ out, ChoiQ.channel o X 1 false = .ok out ∧ Arr.Same out X := by
  have h1 := C113_ensemble K hK h hsq hin hout hC [(1, rho)] (by simpa using ⟨hr, hc, hrho.posSemidef, htr⟩) (by simp)
  simp only [List.map_cons, List.map_nil, List.mem_singleton, forall_eq] at h1
  rw [h1]
  refine forall₃_congr fun X _ _ => ?_
  have hu : IsUnit (rho.mat N N).det := (Matrix.isUnit_iff_isUnit_det _).mp hrho.isUnit
  refine ⟨fun h2 => h2 ⟨(rho.mat N N)⁻¹ * X.mat N N * (rho.mat N N)⁻¹, ?_⟩, fun h2 _ => h2⟩
  rw [Matrix.mul_assoc, Matrix.mul_assoc, Matrix.nonsing_inv_mul _ hu, Matrix.mul_one, ← Matrix.mul_assoc,
    Matrix.mul_nonsing_inv _ hu, Matrix.one_mul]

/-- The hypotheses of C113 are met: the operators 3/5 and 4i/5 describe the channel that does nothing, so that the value is 1 at
the maximally mixed state, and at that state the value of full dephasing is not 1. -/
example : ∃ o o', ChoiObj.init ⟨fun _ _ _ => true, fun _ _ _ => true⟩ (Arr.ofMat (Spec.choi fun k : Fin 2 =>
      (![3 / 5, 4 / 5 * Complex.I] k : ℂ) • (1 : Matrix (Fin 2) (Fin 2) ℂ))) 1 1 2 2 = .ok o ∧
    ChoiObj.init ⟨fun _ _ _ => true, fun _ _ _ => true⟩ dephChoi 1 1 2 2 = .ok o' ∧
    o.avgFidelity [1] [mixedState] = .ok 1 ∧ o'.avgFidelity [1] [mixedState] ≠ .ok 1 := by
  have hpd : (mixedState.mat 2 2).PosDef := by
    have h1 : mixedState.mat 2 2 = (1 / 2 : ℂ) • (1 : Matrix (Fin 2) (Fin 2) ℂ) := by
      ext i j
      simp [mixedState, Arr.mat, Matrix.one_apply, Fin.ext_iff]
    rw [h1]
    exact Matrix.PosDef.one.smul (by norm_num)
  have hun : ∀ X : Matrix (Fin 2) (Fin 2) ℂ, applyKraus (fun k : Fin 2 =>
      (![3 / 5, 4 / 5 * Complex.I] k : ℂ) • (1 : Matrix (Fin 2) (Fin 2) ℂ)) X = X := by
    intro X
    unfold applyKraus
    simp only [conjTranspose_smul, conjTranspose_one, Matrix.smul_mul, Matrix.mul_smul, Matrix.one_mul, Matrix.mul_one,
      smul_smul, Fin.sum_univ_two, ← add_smul]
    convert one_smul ℂ X
    simp [Complex.ext_iff]
    norm_num
  have htp : TracePreserving (fun k : Fin 2 => (![3 / 5, 4 / 5 * Complex.I] k : ℂ) • (1 : Matrix (Fin 2) (Fin 2) ℂ)) := by
    unfold TracePreserving
    simp only [conjTranspose_smul, conjTranspose_one, Matrix.mul_smul, Matrix.mul_one, smul_smul, Fin.sum_univ_two, ← add_smul]
    convert one_smul ℂ (1 : Matrix (Fin 2) (Fin 2) ℂ)
    simp [Complex.ext_iff]
    norm_num
  refine ⟨_, _, rfl, rfl, ?_, fun hcon => ?_⟩
  · rw [C113_identity (q := ⟨fun _ _ _ => true, fun _ _ _ => true⟩) (a := 1) (d := 2) (e := 2) _ htp rfl rfl rfl rfl (Arr.ofMat_mat _)
      mixedState rfl rfl hpd mixedState_density.2]
    intro X h1 h2
    obtain ⟨out, x1, x2, x3, x4⟩ := C33_choi_channel (q := ⟨fun _ _ _ => true, fun _ _ _ => true⟩)
      (C := Arr.ofMat (Spec.choi fun k : Fin 2 => (![3 / 5, 4 / 5 * Complex.I] k : ℂ) • (1 : Matrix (Fin 2) (Fin 2) ℂ)))
      (a := 1) (d := 2) (e := 2) rfl rfl X h1 h2
    refine ⟨out, x1, ?_⟩
    rw [Arr.same_iff_mat, x2, x3, h1, h2]
    refine ⟨rfl, rfl, x4.trans (Eq.trans ?_ (hun (X.mat 2 2)))⟩
    exact Eq.trans (congrFun (congrArg Spec.choiChannel (Arr.ofMat_mat _)) _) (Spec.choiChannel_choi _ _)
  · have hcon := (C113_identity (q := ⟨fun _ _ _ => true, fun _ _ _ => true⟩) (C := dephChoi) (a := 1) (d := 2) (e := 2) (dephOps.ops 2 2 2)
      dephOps_tp rfl rfl rfl rfl (Arr.ofMat_mat _) mixedState rfl rfl hpd mixedState_density.2).mp hcon
    obtain ⟨out, x1, hs⟩ := hcon plusState rfl rfl
    obtain ⟨out', y1, y2, y3, y4⟩ := C33_choi_channel (q := ⟨fun _ _ _ => true, fun _ _ _ => true⟩) (C := dephChoi) (a := 1) (d := 2) (e := 2)
      rfl rfl plusState rfl rfl
    rw [x1] at y1
    injection y1 with y1
    subst y1
    rw [Arr.same_iff_mat, y2, y3] at hs
    have h5 : applyKraus (dephOps.ops 2 2 2) (plusState.mat 2 2) = plusState.mat 2 2 :=
      ((Spec.choiChannel_choi _ _).symm.trans ((congrFun (congrArg Spec.choiChannel (Arr.ofMat_mat _)) _).symm.trans y4.symm)).trans hs.2.2
    have h6 := congrFun (congrFun h5 0) 1
    simp [Spec.applyKraus, dephOps, Matrix.sum_apply, Matrix.mul_apply, conjTranspose_apply, Arr3.ops, Fin.sum_univ_two, plusState,
      Arr.mat] at h6

end

section

variable {ks : List (Arr ℂ)} {q0 q1 di do' : ℕ}

/-- Entanglement fidelity one of a decoder after noise. -/
theorem entangFidelity_one {l k s N : ℕ} {R : Fin l → Matrix (Fin s) (Fin N) ℂ} {K : Fin k → Matrix (Fin N) (Fin s) ℂ}
    (hR : TracePreserving R) (hK : TracePreserving K) (hs : 0 < s) :
    entangFidelity R K = 1 ↔ ∀ X, applyKraus R (applyKraus K X) = X := by
  have hs' : (s : ℂ) ≠ 0 := by exact_mod_cast hs.ne'
  have hP : TracePreserving fun x : Fin l × Fin k => R x.1 * K x.2 := by
    unfold TracePreserving at hR hK ⊢
    rw [Fintype.sum_prod_type_right, ← hK]
    refine Finset.sum_congr rfl fun j _ => ?_
    simp only [conjTranspose_mul]
    calc ∑ i, (K j)ᴴ * (R i)ᴴ * (R i * K j) = ∑ i, (K j)ᴴ * ((R i)ᴴ * R i) * K j := by simp only [Matrix.mul_assoc]
      _ = (K j)ᴴ * K j := by rw [← Matrix.sum_mul, ← Matrix.mul_sum, hR, Matrix.mul_one]
  have happ : ∀ X, applyKraus (fun x : Fin l × Fin k => R x.1 * K x.2) X = applyKraus R (applyKraus K X) := by
    intro X
    unfold applyKraus
    rw [Fintype.sum_prod_type]
    refine Finset.sum_congr rfl fun i _ => ?_
    rw [Matrix.mul_sum, Matrix.sum_mul]
    refine Finset.sum_congr rfl fun j _ => ?_
    rw [conjTranspose_mul]
    simp only [Matrix.mul_assoc]
  have key := entFid_one hP (ρ := ((s : ℂ)⁻¹) • 1) (Matrix.PosSemidef.one.smul (by positivity)) (by
    rw [trace_smul, trace_one, Fintype.card_fin, smul_eq_mul, inv_mul_cancel₀ hs'])
  have hf : entangFidelity R K = ∑ x : Fin l × Fin k, ‖trace (R x.1 * K x.2 * (((s : ℂ)⁻¹) • 1))‖ ^ 2 := by
    unfold entangFidelity
    rw [Fintype.sum_prod_type, Finset.sum_div]
    refine Finset.sum_congr rfl fun i _ => ?_
    rw [Finset.sum_div]
    refine Finset.sum_congr rfl fun j _ => ?_
    rw [Matrix.mul_smul, Matrix.mul_one, trace_smul, norm_smul, norm_inv, Complex.norm_natCast, mul_pow, inv_pow, div_eq_inv_mul]
  rw [hf, key]
  constructor
  · intro h X
    have h1 := h ((s : ℂ) ^ 2 • X)
    rw [happ] at h1
    have h2 : ((s : ℂ)⁻¹ • (1 : Matrix (Fin s) (Fin s) ℂ)) * ((s : ℂ) ^ 2 • X) * ((s : ℂ)⁻¹ • 1) = X := by
      rw [Matrix.smul_mul, Matrix.one_mul, Matrix.mul_smul, Matrix.mul_one, smul_smul, smul_smul]
      rw [show (s : ℂ)⁻¹ * (s : ℂ)⁻¹ * (s : ℂ) ^ 2 = 1 by field_simp, one_smul]
    rwa [h2] at h1
  · intro h Y
    rw [happ, h]

/-- **C113**, decoders.  For noise with real Kraus operators that preserve the trace, the optimisation of the decoder reports the
largest value there is, `(do'^q1 / di^q0)²` (1 up to the scale of C46), exactly when some decoder undoes the noise, and then
the returned matrix is the Choi matrix of one that does. -/
theorem C113_decoder {sol : SdpSolver} (hsol : sol.Correct) (hne : ks ≠ [])
    (hsh : ∀ k ∈ ks, k.rows = di ^ q0 ∧ k.cols = do' ^ q1) (hd : 0 < do') (hdi : 0 < di)
    (hreal : ∀ k ∈ ks, ∀ i < k.rows, ∀ j < k.cols, star (k.get i j) = k.get i j)
    (htp : TracePreserving fun b : Fin ks.length => ks[b].mat (di ^ q0) (do' ^ q1)) :
    ∃ (X : Arr ℂ) (v : ℝ), optimizeEntangFid sol ks q0 q1 di do' = .ok (X, v) ∧
      (v = (((do' ^ q1 : ℕ) : ℝ) / ((di ^ q0 : ℕ) : ℝ)) ^ 2 ↔
        ∃ (m : ℕ) (S : Fin m → Matrix (Fin (do' ^ q1)) (Fin (di ^ q0)) ℂ), TracePreserving S ∧
          ∀ Y, applyKraus S (applyKraus (fun b : Fin ks.length => ks[b].mat (di ^ q0) (do' ^ q1)) Y) = Y) ∧
      (v = (((do' ^ q1 : ℕ) : ℝ) / ((di ^ q0 : ℕ) : ℝ)) ^ 2 →
        ∃ (m : ℕ) (S : Fin m → Matrix (Fin (do' ^ q1)) (Fin (di ^ q0)) ℂ), TracePreserving S ∧
          X.mat (di ^ q0 * do' ^ q1) (di ^ q0 * do' ^ q1) = choi S ∧
          ∀ Y, applyKraus S (applyKraus (fun b : Fin ks.length => ks[b].mat (di ^ q0) (do' ^ q1)) Y) = Y) := by
  obtain ⟨X, v, l, R, h1, h2, h3, h4, h5⟩ := C46_solution_partial hsol hne hsh hd hdi hreal
  have hs : 0 < do' ^ q1 := Nat.pow_pos hd
  have hscale : ((((do' ^ q1 : ℕ) : ℝ) / ((di ^ q0 : ℕ) : ℝ)) ^ 2) ≠ 0 := by positivity
  have hone : v = (((do' ^ q1 : ℕ) : ℝ) / ((di ^ q0 : ℕ) : ℝ)) ^ 2 ↔
      entangFidelity R (fun b : Fin ks.length => ks[b].mat (di ^ q0) (do' ^ q1)) = 1 := by
    rw [h5]
    exact mul_eq_right₀ hscale
  refine ⟨X, v, h1, ⟨fun hv => ⟨l, R, h2, (entangFidelity_one h2 htp hs).mp (hone.mp hv)⟩, ?_⟩,
    fun hv => ⟨l, R, h2, h3, (entangFidelity_one h2 htp hs).mp (hone.mp hv)⟩⟩
  rintro ⟨m, S, hS, hun⟩
  have h6 := (entangFidelity_one hS htp hs).mpr hun
  have h7 := h4 m S hS
  rw [h6] at h7
  exact hone.mpr (le_antisymm (entangFidelity_le_one h2 htp) h7)

/-- The hypotheses of C113 are met by the noise that attaches a random qubit: the reported value is the largest one, 1/4. -/
example {sol : SdpSolver} (hsol : sol.Correct) : ∃ X, optimizeEntangFid sol
    [⟨4, 2, fun i j => attachOps.get 0 i j⟩, ⟨4, 2, fun i j => attachOps.get 1 i j⟩] 2 1 2 2 = .ok (X, 1 / 4) := by
  have hmat : (fun b : Fin 2 => ([⟨4, 2, fun i j => attachOps.get 0 i j⟩, ⟨4, 2, fun i j => attachOps.get 1 i j⟩] : List (Arr ℂ))[b].mat
      (2 ^ 2) (2 ^ 1)) = attachOps.ops attachOps.len (2 ^ 2) (2 ^ 1) := by
    funext b
    fin_cases b <;> rfl
  obtain ⟨X, v, h1, h2, -⟩ := C113_decoder (q0 := 2) (q1 := 1) (di := 2) (do' := 2) hsol
    (ks := [⟨4, 2, fun i j => attachOps.get 0 i j⟩, ⟨4, 2, fun i j => attachOps.get 1 i j⟩]) (by simp) (by simp) (by norm_num)
    (by norm_num) (by
      simp only [List.mem_cons, List.not_mem_nil, or_false, forall_eq_or_imp, forall_eq, attachOps]
      constructor <;> intro i _ j _ <;> split_ifs <;> simp) (by
      have := attachOps_tp
      rw [← hmat] at this
      exact this)
  have h3 := h2.mpr ⟨_, ptraceOps.ops ptraceOps.len (2 ^ 1) (2 ^ 2), ptraceOps_tp, fun Y => by
    have := attach_undone Y
    rw [← hmat] at this
    exact this⟩
  refine ⟨X, ?_⟩
  rw [h1, h3]
  norm_num

end

end PyQ
