import Verif.Props.ChoiInfo
import Verif.Props.Fidelity
import Verif.Lemmas.EntFid

/-!
# C96, C97: the two fidelities of a channel

`average_entanglement_fidelity` (_choi.py 227-259) is computed from the Choi matrix by a formula, `fidelity_two_states`
(channel.py 374-398) from matrix square roots of the state and of the output.  The theorems compare what
the two calls return on the same object.
-/

namespace PyQ

open Matrix
open scoped ComplexOrder

variable {q : QutipChecks} {C : Arr ℂ} {a d e : ℕ} {o : ChoiObj} {sqrtm : Sqrtm}

/-- The squares of the fidelities `F` of the members of an ensemble, weighted by its probabilities. -/
def Spec.weighted : List (ℝ × Arr ℂ) → List ℝ → ℝ
  | x :: xs, F :: Fs => x.1 * F ^ 2 + Spec.weighted xs Fs
  | _, _ => 0

theorem Spec.avg_singleton {l N : ℕ} (K : Fin l → Matrix (Fin N) (Fin N) ℂ) (ρ : Matrix (Fin N) (Fin N) ℂ) :
    Spec.avgEntanglementFidelity K [(1, ρ)] = ∑ k, ‖trace (K k * ρ)‖ ^ 2 := by
  simp [Spec.avgEntanglementFidelity]

theorem Spec.IsFidelity.entFid_le {l N : ℕ} (K : Fin l → Matrix (Fin N) (Fin N) ℂ) {ρ : Matrix (Fin N) (Fin N) ℂ} {F : ℝ}
    (h : Spec.IsFidelity ρ (Spec.applyKraus K ρ) F) : ∑ k, ‖trace (K k * ρ)‖ ^ 2 ≤ F ^ 2 := by
  obtain ⟨R, S, hR, hS, ht⟩ := h
  have := PyQ.entFid_le K hR.1 hS.1 (hS.2.trans (by rw [hR.2])) ht
  rwa [hR.2] at this

/-- The fidelity of a pure state, squared. -/
theorem Spec.overlap_eq {l N : ℕ} (K : Fin l → Matrix (Fin N) (Fin N) ℂ) (ψ : Fin N → ℂ) :
    (star ψ ⬝ᵥ Spec.applyKraus K (vecMulVec ψ (star ψ)) *ᵥ ψ).re = ∑ k, ‖star ψ ⬝ᵥ K k *ᵥ ψ‖ ^ 2 := by
  unfold Spec.applyKraus
  rw [sum_mulVec, dotProduct_sum, Complex.re_sum]
  refine Finset.sum_congr rfl fun k _ => ?_
  have h1 : K k * vecMulVec ψ (star ψ) * (K k)ᴴ = vecMulVec (K k *ᵥ ψ) (star (K k *ᵥ ψ)) := by
    rw [mul_vecMulVec, vecMulVec_mul, star_mulVec]
  rw [h1, vecMulVec_mulVec, dotProduct_smul]
  have h2 : star (K k *ᵥ ψ) ⬝ᵥ ψ = star (star ψ ⬝ᵥ K k *ᵥ ψ) := by
    rw [star_dotProduct]
  rw [h2]
  simp only [MulOpposite.smul_eq_mul_unop, MulOpposite.unop_op]
  rw [Complex.star_def, Complex.mul_conj, Complex.ofReal_re, Complex.normSq_eq_norm_sq]

theorem Spec.trace_pure {N : ℕ} (A : Matrix (Fin N) (Fin N) ℂ) (ψ : Fin N → ℂ) :
    trace (A * vecMulVec ψ (star ψ)) = star ψ ⬝ᵥ A *ᵥ ψ := by
  rw [mul_vecMulVec, trace_vecMulVec, dotProduct_comm]

theorem Spec.pure_fidelity_sq {l N : ℕ} (K : Fin l → Matrix (Fin N) (Fin N) ℂ) {ψ : Fin N → ℂ} (hψ : star ψ ⬝ᵥ ψ = 1) {F : ℝ}
    (h : Spec.IsFidelity (vecMulVec ψ (star ψ)) (Spec.applyKraus K (vecMulVec ψ (star ψ))) F) :
    F ^ 2 = ∑ k, ‖star ψ ⬝ᵥ K k *ᵥ ψ‖ ^ 2 := by
  rw [h.unique (Spec.isFidelity_pure hψ (Spec.applyKraus_posSemidef _ (posSemidef_vecMulVec_self_star ψ))), Spec.overlap_eq,
    Real.sq_sqrt (Finset.sum_nonneg fun k _ => by positivity)]

/-- C96.  On a channel object built from a Choi matrix, the entanglement fidelity that `average_entanglement_fidelity` returns
for an ensemble is at most the average of the squares of what `fidelity_two_states` returns for its members. -/
theorem C96_ensemble (hsqrt : sqrtm.Correct) {l N : ℕ} (K : Fin l → Matrix (Fin N) (Fin N) ℂ)
    (h : ChoiObj.init q C a a d e = .ok o) (hsq : C.rows = C.cols) (hin : d ^ a = N) (hout : e ^ a = N)
    (hC : C.mat (N * N) (N * N) = Spec.choi K) (ens : List (ℝ × Arr ℂ))
    (hens : ∀ x ∈ ens, 0 ≤ x.1 ∧ x.2.rows = N ∧ x.2.cols = N ∧ (x.2.mat N N).PosSemidef) :
    ∃ (v : ℝ) (Fs : List ℝ), o.avgFidelity (ens.map Prod.fst) (ens.map Prod.snd) = .ok (v : ℂ) ∧
      ens.map (fun x => ChoiQ.fidelityTwoStates sqrtm o x.2 1) = Fs.map Except.ok ∧ v ≤ Spec.weighted ens Fs := by
  have hv := C35_value K hin hout h hsq hC ens fun x hx => ⟨(hens x hx).2.1, (hens x hx).2.2.1, (hens x hx).2.2.2.isHermitian⟩
  suffices hs : ∃ Fs : List ℝ, ens.map (fun x => ChoiQ.fidelityTwoStates sqrtm o x.2 1) = Fs.map Except.ok ∧
      Spec.avgEntanglementFidelity K (ens.map fun x => (x.1, x.2.mat N N)) ≤ Spec.weighted ens Fs by
    obtain ⟨Fs, f1, f2⟩ := hs
    exact ⟨_, Fs, hv, f1, f2⟩
  clear hv
  induction ens with
  | nil => exact ⟨[], rfl, by simp [Spec.avgEntanglementFidelity, Spec.weighted]⟩
  | cons x xs ih =>
    obtain ⟨h0, h1, h2, h3⟩ := hens x (by simp)
    obtain ⟨Fs, f1, f2⟩ := ih fun y hy => hens y (by simp [hy])
    obtain ⟨F, g1, g2⟩ := C50_choi hsqrt h hsq hin hout K hC x.2 h1 h2 h3
    refine ⟨F :: Fs, by rw [List.map_cons, List.map_cons, f1, g1], ?_⟩
    have := mul_le_mul_of_nonneg_left g2.entFid_le h0
    simp only [List.map_cons, Spec.avgEntanglementFidelity, Spec.weighted]
    linarith

/-- C96.  For an ensemble of pure states the two sides are equal. -/
theorem C96_pure (hsqrt : sqrtm.Correct) {l N : ℕ} (K : Fin l → Matrix (Fin N) (Fin N) ℂ)
    (h : ChoiObj.init q C a a d e = .ok o) (hsq : C.rows = C.cols) (hin : d ^ a = N) (hout : e ^ a = N)
    (hC : C.mat (N * N) (N * N) = Spec.choi K) (ens : List (ℝ × Arr ℂ))
    (hens : ∀ x ∈ ens, x.2.rows = N ∧ x.2.cols = N ∧ ∃ ψ : Fin N → ℂ, star ψ ⬝ᵥ ψ = 1 ∧ x.2.mat N N = vecMulVec ψ (star ψ)) :
    ∃ (v : ℝ) (Fs : List ℝ), o.avgFidelity (ens.map Prod.fst) (ens.map Prod.snd) = .ok (v : ℂ) ∧
      ens.map (fun x => ChoiQ.fidelityTwoStates sqrtm o x.2 1) = Fs.map Except.ok ∧ v = Spec.weighted ens Fs := by
  have hpsd : ∀ x ∈ ens, (x.2.mat N N).PosSemidef := by
    intro x hx
    obtain ⟨ψ, -, hψ⟩ := (hens x hx).2.2
    rw [hψ]
    exact posSemidef_vecMulVec_self_star ψ
  have hv := C35_value K hin hout h hsq hC ens fun x hx => ⟨(hens x hx).1, (hens x hx).2.1, (hpsd x hx).isHermitian⟩
  suffices hs : ∃ Fs : List ℝ, ens.map (fun x => ChoiQ.fidelityTwoStates sqrtm o x.2 1) = Fs.map Except.ok ∧
      Spec.avgEntanglementFidelity K (ens.map fun x => (x.1, x.2.mat N N)) = Spec.weighted ens Fs by
    obtain ⟨Fs, f1, f2⟩ := hs
    exact ⟨_, Fs, hv, f1, f2⟩
  clear hv
  induction ens with
  | nil => exact ⟨[], rfl, by simp [Spec.avgEntanglementFidelity, Spec.weighted]⟩
  | cons x xs ih =>
    obtain ⟨h1, h2, ψ, hψ, h3⟩ := hens x (by simp)
    obtain ⟨Fs, f1, f2⟩ := ih (fun y hy => hens y (by simp [hy])) fun y hy => hpsd y (by simp [hy])
    obtain ⟨F, g1, g2⟩ := C50_choi hsqrt h hsq hin hout K hC x.2 h1 h2 (hpsd x (by simp))
    refine ⟨F :: Fs, by rw [List.map_cons, List.map_cons, f1, g1], ?_⟩
    rw [h3] at g2
    simp only [List.map_cons, Spec.avgEntanglementFidelity, Spec.weighted]
    rw [f2, h3, Spec.pure_fidelity_sq K hψ g2]
    simp only [Spec.trace_pure]

/-- C97.  If `fidelity_two_states` of a trace preserving channel is at least `f` for every pure state, then
`average_entanglement_fidelity` of every ensemble of density matrices is at least `1 - 3 (1 - f ²) / 2`. -/
theorem C97_entanglement (hsqrt : sqrtm.Correct) {l N : ℕ} (K : Fin l → Matrix (Fin N) (Fin N) ℂ) (hK : Spec.TracePreserving K)
    (h : ChoiObj.init q C a a d e = .ok o) (hsq : C.rows = C.cols) (hin : d ^ a = N) (hout : e ^ a = N)
    (hC : C.mat (N * N) (N * N) = Spec.choi K) {f : ℝ} (hf0 : 0 ≤ f)
    (hf : ∀ (psi : Arr ℂ) (ψ : Fin N → ℂ) (F : ℝ), psi.rows = N → psi.cols = N → star ψ ⬝ᵥ ψ = 1 →
      psi.mat N N = vecMulVec ψ (star ψ) → ChoiQ.fidelityTwoStates sqrtm o psi 1 = .ok F → f ≤ F)
    (ens : List (ℝ × Arr ℂ))
    (hens : ∀ x ∈ ens, 0 ≤ x.1 ∧ x.2.rows = N ∧ x.2.cols = N ∧ Spec.IsDensity (x.2.mat N N))
    (hsum : (ens.map Prod.fst).sum = 1) :
    ∃ v : ℝ, o.avgFidelity (ens.map Prod.fst) (ens.map Prod.snd) = .ok (v : ℂ) ∧ 1 - 3 / 2 * (1 - f ^ 2) ≤ v := by
  refine ⟨_, C35_value K hin hout h hsq hC ens fun x hx => ⟨(hens x hx).2.1, (hens x hx).2.2.1,
    (hens x hx).2.2.2.1.isHermitian⟩, ?_⟩
  have hpure : ∀ ψ : Fin N → ℂ, star ψ ⬝ᵥ ψ = 1 → 1 - (1 - f ^ 2) ≤ ∑ i, ‖star ψ ⬝ᵥ K i *ᵥ ψ‖ ^ 2 := by
    intro ψ hψ
    obtain ⟨F, g1, g2⟩ := C50_choi hsqrt h hsq hin hout K hC (Arr.ofMat (vecMulVec ψ (star ψ))) rfl rfl
      (by rw [Arr.ofMat_mat]; exact posSemidef_vecMulVec_self_star ψ)
    rw [Arr.ofMat_mat] at g2
    have h1 := hf _ ψ F rfl rfl hψ (Arr.ofMat_mat _) g1
    rw [← Spec.pure_fidelity_sq K hψ g2]
    nlinarith
  have hall : ∀ x ∈ ens, 1 - 3 / 2 * (1 - f ^ 2) ≤ ∑ k, ‖trace (K k * x.2.mat N N)‖ ^ 2 := fun x hx =>
    entFid_ge K hK hpure (hens x hx).2.2.2.1 (hens x hx).2.2.2.2
  suffices hs : (1 - 3 / 2 * (1 - f ^ 2)) * (ens.map Prod.fst).sum ≤
      Spec.avgEntanglementFidelity K (ens.map fun x => (x.1, x.2.mat N N)) by
    rwa [hsum, mul_one] at hs
  clear hsum
  induction ens with
  | nil => simp [Spec.avgEntanglementFidelity]
  | cons x xs ih =>
    have h1 := ih (fun y hy => hens y (by simp [hy])) fun y hy => hall y (by simp [hy])
    have h2 := mul_le_mul_of_nonneg_left (hall x (by simp)) (hens x (by simp)).1
    simp only [List.map_cons, List.sum_cons, Spec.avgEntanglementFidelity]
    linarith

/-! ### Cases that meet the hypotheses -/

theorem deph_trace (A : Matrix (Fin 2) (Fin 2) ℂ) (k : Fin 2) : trace (dephOps.ops 2 2 2 k * A) = A k k := by
  simp only [trace, diag_apply, Matrix.mul_apply, Fin.sum_univ_two, Arr3.ops, dephOps]
  fin_cases k <;> simp

/-- The dephasing channel leaves the maximally mixed state alone (fidelity one), yet its entanglement fidelity is one half: the
inequality of `C96_ensemble` can be strict. -/
example (hsqrt : sqrtm.Correct) : ∃ (o : ChoiObj) (v F : ℝ),
    ChoiObj.init ⟨fun _ _ _ => true, fun _ _ _ => true⟩ dephChoi 1 1 2 2 = .ok o ∧
    o.avgFidelity [1] [mixedState] = .ok (v : ℂ) ∧ ChoiQ.fidelityTwoStates sqrtm o mixedState 1 = .ok F ∧
    v = 1 / 2 ∧ v ≤ F ^ 2 := by
  have ho : ChoiObj.init ⟨fun _ _ _ => true, fun _ _ _ => true⟩ dephChoi 1 1 2 2 = .ok ⟨dephChoi, 1, 1, 2, 2⟩ := rfl
  obtain ⟨v, Fs, h1, h2, h3⟩ := C96_ensemble hsqrt (dephOps.ops 2 2 2) ho rfl rfl rfl (Arr.ofMat_mat _) [(1, mixedState)] (by
    intro x hx
    simp only [List.mem_singleton] at hx
    subst hx
    exact ⟨zero_le_one, rfl, rfl, mixedState_density.1⟩)
  have hv := C35_value (dephOps.ops 2 2 2) rfl rfl ho rfl (Arr.ofMat_mat _) [(1, mixedState)] (by
    intro x hx
    simp only [List.mem_singleton] at hx
    subst hx
    exact ⟨rfl, rfl, mixedState_density.1.isHermitian⟩)
  rw [h1] at hv
  simp only [Except.ok.injEq, Complex.ofReal_inj, List.map_cons, List.map_nil, Spec.avg_singleton] at hv
  rcases Fs with _ | ⟨F, _ | ⟨G, Fs⟩⟩
  · simp at h2
  swap
  · simp at h2
  · simp only [List.map_cons, List.map_nil, List.cons.injEq, and_true] at h2
    simp only [Spec.weighted, one_mul, add_zero] at h3
    refine ⟨_, v, F, ho, h1, h2, ?_, h3⟩
    rw [hv]
    have hm : ∀ k : Fin 2, trace (dephOps.ops 2 2 2 k * mixedState.mat 2 2) = 1 / 2 := by
      intro k
      rw [deph_trace]
      fin_cases k <;> simp [mixedState, Arr.mat]
    exact (Finset.sum_congr rfl fun k _ => by rw [hm k]).trans (by norm_num [Fin.sum_univ_two])

/-- Dephasing keeps a fidelity of at least `√(1/2)` for every pure state, so every ensemble has an entanglement fidelity of at
least a quarter. -/
example (hsqrt : sqrtm.Correct) : ∃ (o : ChoiObj) (v : ℝ),
    ChoiObj.init ⟨fun _ _ _ => true, fun _ _ _ => true⟩ dephChoi 1 1 2 2 = .ok o ∧
    o.avgFidelity [1] [mixedState] = .ok (v : ℂ) ∧ 1 / 4 ≤ v := by
  have ho : ChoiObj.init ⟨fun _ _ _ => true, fun _ _ _ => true⟩ dephChoi 1 1 2 2 = .ok ⟨dephChoi, 1, 1, 2, 2⟩ := rfl
  obtain ⟨v, h1, h2⟩ := C97_entanglement hsqrt (dephOps.ops 2 2 2) dephOps_tp ho rfl rfl rfl (Arr.ofMat_mat _)
    (Real.sqrt_nonneg (1 / 2)) (by
      intro psi ψ F hr hc hψ hm hF
      obtain ⟨F', g1, g2⟩ := C50_choi (N := 2) hsqrt ho rfl rfl rfl (dephOps.ops 2 2 2) (Arr.ofMat_mat _) psi hr hc
        (by rw [hm]; exact posSemidef_vecMulVec_self_star ψ)
      rw [hF] at g1
      injection g1 with g1
      subst g1
      rw [hm] at g2
      have hF0 : 0 ≤ F := by
        rw [g2.unique (Spec.isFidelity_pure hψ (Spec.applyKraus_posSemidef _ (posSemidef_vecMulVec_self_star ψ)))]
        exact Real.sqrt_nonneg _
      refine Real.sqrt_le_iff.mpr ⟨hF0, ?_⟩
      rw [Spec.pure_fidelity_sq _ hψ g2]
      simp only [← Spec.trace_pure]
      have h2 : ∀ k : Fin 2, ‖trace (dephOps.ops 2 2 2 k * vecMulVec ψ (star ψ))‖ = ‖ψ k‖ ^ 2 := by
        intro k
        rw [deph_trace, vecMulVec_apply, norm_mul, Pi.star_apply, norm_star, sq]
      have h3 : ‖ψ 0‖ ^ 2 + ‖ψ 1‖ ^ 2 = 1 := by
        have := congrArg Complex.re hψ
        simp only [dotProduct, Fin.sum_univ_two, Pi.star_apply, Complex.star_def, mul_comm (starRingEnd ℂ _), Complex.mul_conj,
          Complex.normSq_eq_norm_sq] at this
        exact_mod_cast this
      have h4 : ∑ k : Fin 2, ‖trace (dephOps.ops 2 2 2 k * vecMulVec ψ (star ψ))‖ ^ 2 = (‖ψ 0‖ ^ 2) ^ 2 + (‖ψ 1‖ ^ 2) ^ 2 := by
        rw [Fin.sum_univ_two, h2, h2]
      refine le_trans ?_ (le_of_eq h4.symm)
      nlinarith [sq_nonneg (‖ψ 0‖ ^ 2 - ‖ψ 1‖ ^ 2)]) [(1, mixedState)] (by
    intro x hx
    simp only [List.mem_singleton] at hx
    subst hx
    exact ⟨zero_le_one, rfl, rfl, mixedState_density⟩) (by simp)
  refine ⟨_, v, ho, h1, ?_⟩
  rw [Real.sq_sqrt (by norm_num)] at h2
  linarith

end PyQ
