import Verif.Lemmas.WorstFidelity
import Verif.Props.SearchWithin
import Verif.Props.Degradable
import Verif.Lemmas.OpsArr
import Verif.Lemmas.Dephrasure

/-!
# C108: the worst fidelity of the standard qubit channels
-/

namespace PyQ

open Matrix Spec
open scoped ComplexOrder

variable {g : Rng} {scipy : Scipy} {c : ChanView} {maxiter : ℕ} {name : String} {lipschitz usePool : PyNum}
  {samples : SamplesArg} {out : OptOutput} {δ : ℝ} {eig : Eigvalsh} {sqrtm : Sqrtm} {sp : Bool} {ops : Arr3 ℂ} {a b d e : ℕ}
  {orth : List ℕ} {o o' : KrausObj} {n : ℕ} {calls : List QChan.Call}

theorem procedure_fidelity_within (hmin : scipy.FindsWithin δ)
    (h : optimizeProcedure g scipy c 1 "diffev" (.str name) "fidelity" lipschitz usePool maxiter samples = .ok out) :
    ∃ v, out.val = .num v ∧ ∀ rho : Arr ℂ, rho.rows = c.inputDim → rho.cols = c.inputDim →
      Spec.DensityOfRank (rho.mat c.inputDim c.inputDim) 1 →
      ∃ ρ', Arr.Same ρ' rho ∧ ∀ w, c.fidelity ρ' = .ok w → v ≤ w + δ := by
  obtain ⟨P, f, bounds, all, r, val, x, hP, hf, -, hb, -, hr, hv, hx, hrho, ho, -⟩ := optimizeProcedure_ok h
  obtain ⟨i, p, q, hq, rfl⟩ := diffev_ok hr
  rw [finalVal, if_neg (by decide)] at hv
  injection hv with hv
  rw [chooseObjective, if_neg (by decide), if_pos rfl] at hf
  injection hf with hf
  refine ⟨q.fun_, by rw [ho, ← hv], fun rho h1 h2 hd => ?_⟩
  obtain ⟨v, ρ', hw, hv', hs⟩ := scheme_reach hP hrho hb rho h1 h2 hd
  refine ⟨ρ', hs, fun w hcw => hmin f bounds i p maxiter q hq v hw w ?_⟩
  rw [← hf]
  simp only [hv', hcw, bind, Except.bind]

/-- **C92, fidelity, with a tolerance**.  If differential evolution ends within `δ` of the minimum over the bounds it is given, the
value reported by `optimize_fidelity(n, "diffev", ...)` is the fidelity of some pure state, and no pure state has a fidelity that
is smaller by more than `δ`. -/
theorem C92_fidelity_within (hsp : scipy.Correct) (hmin : scipy.FindsWithin δ) (hsqrt : sqrtm.Correct)
    (h : QChan.init sp ops a b d e orth = .ok o)
    (hsafe : SafeUses sp (calls.map QChan.Call.uses ++ [n])) (N : ℕ) (hin : d ^ a = N) (hout : e ^ b = N)
    (hopt : QChan.optimizeFidelity g scipy eig sqrtm (QChan.history o calls) n "diffev" (.str name) lipschitz
      usePool maxiter samples = (.ok out, o')) :
    ∃ v, out.val = .num v ∧
      (∃ ψ : Fin (N ^ n) → ℂ, star ψ ⬝ᵥ ψ = 1 ∧ v = Real.sqrt
        (star ψ ⬝ᵥ applyKraus (tensorPow (ops.ops ops.len N N) n) (vecMulVec ψ (star ψ)) *ᵥ ψ).re) ∧
      ∀ ψ : Fin (N ^ n) → ℂ, star ψ ⬝ᵥ ψ = 1 → v ≤ Real.sqrt
        (star ψ ⬝ᵥ applyKraus (tensorPow (ops.ops ops.len N N) n) (vecMulVec ψ (star ψ)) *ᵥ ψ).re + δ := by
  obtain ⟨v, hv, hval⟩ := C39_optimize_fidelity hsp hopt (Or.inl rfl)
  obtain ⟨d1, d2, d3⟩ := C51_fidelity_state h hopt
  unfold QChan.optimizeFidelity at hopt
  rcases hs : QChan.sync (QChan.history o calls) n with ⟨x | u, o1⟩
  · rw [hs] at hopt
    have := congrArg Prod.fst hopt
    cases this
  rw [hs] at hopt
  simp only [Prod.mk.injEq] at hopt
  obtain ⟨hopt, rfl⟩ := hopt
  obtain ⟨v', hv', hbest⟩ := procedure_fidelity_within hmin hopt
  rw [hv] at hv'
  injection hv' with hv'
  subst hv'
  have hi : (QChan.view eig sqrtm o1 n).inputDim = (d ^ a) ^ n := sync_input h hs
  rw [hi] at hbest
  subst hin
  obtain ⟨rr, rfl⟩ := sync_history hs
  have hsafe2 : Spec.SafeUses sp ((calls ++ [QChan.Call.channel rr n false]).map QChan.Call.uses ++ [n]) := by
    rw [List.map_append]; exact safe_twice hsafe
  refine ⟨v, hv, ?_, ?_⟩
  · obtain ⟨ψ, hψ, hρ⟩ := exists_pure d3
    refine ⟨ψ, hψ, ?_⟩
    have := C50_pure_state hsqrt h _ n hsafe2 _ rfl hout out.rho d1 d2 ψ hψ hρ
    rw [hval] at this
    injection this
  · intro ψ hψ
    obtain ⟨ρ', hsame, hle⟩ := hbest (Arr.ofMat (vecMulVec ψ (star ψ))) rfl rfl (by
      rw [Arr.ofMat_mat]; exact pure_rank hψ)
    rw [Arr.same_iff_mat] at hsame
    obtain ⟨s1, s2, s3⟩ := hsame
    rw [s1, s2] at s3
    exact hle _ (C50_pure_state hsqrt h _ n hsafe2 _ rfl hout ρ' s1 s2 ψ hψ (s3.trans (Arr.ofMat_mat _)))

/-! ### Channels with one diagonal operator -/

theorem fid_pure (hsqrt : sqrtm.Correct) {l : ℕ} {K : Fin l → Matrix (Fin 2) (Fin 2) ℂ}
    (h : QChan.init sp ops 1 1 2 2 orth = .ok o) (hl : ops.len = l) (hops : ops.ops l 2 2 = K)
    (hsafe : SafeUses sp (calls.map QChan.Call.uses ++ [n])) {rho : Arr ℂ} (hr : rho.rows = 2 ^ n) (hc : rho.cols = 2 ^ n)
    {ψ : Fin (2 ^ n) → ℂ} (hψ : star ψ ⬝ᵥ ψ = 1) (hrho : rho.mat (2 ^ n) (2 ^ n) = vecMulVec ψ (star ψ)) :
    (QChan.fidelityTwoStates sqrtm (QChan.history o calls) rho n).1 =
      .ok (Real.sqrt (star ψ ⬝ᵥ applyKraus (tensorPow K n) (vecMulVec ψ (star ψ)) *ᵥ ψ).re) := by
  subst hl hops
  exact C50_pure_state hsqrt h calls n hsafe 2 rfl rfl rho hr hc ψ hψ hrho

theorem fid_search (hsp : scipy.Correct) (hmin : scipy.FindsWithin δ) (hsqrt : sqrtm.Correct) {l : ℕ}
    {K : Fin l → Matrix (Fin 2) (Fin 2) ℂ} (h : QChan.init sp ops 1 1 2 2 orth = .ok o) (hl : ops.len = l)
    (hops : ops.ops l 2 2 = K) (hsafe : SafeUses sp (calls.map QChan.Call.uses ++ [n]))
    (hopt : QChan.optimizeFidelity g scipy eig sqrtm (QChan.history o calls) n "diffev" (.str name) lipschitz
      usePool maxiter samples = (.ok out, o')) {w : ℝ}
    (hge : ∀ ψ : Fin (2 ^ n) → ℂ, star ψ ⬝ᵥ ψ = 1 →
      w ≤ (star ψ ⬝ᵥ applyKraus (tensorPow K n) (vecMulVec ψ (star ψ)) *ᵥ ψ).re)
    {φ : Fin (2 ^ n) → ℂ} (hφ : star φ ⬝ᵥ φ = 1)
    (hat : (star φ ⬝ᵥ applyKraus (tensorPow K n) (vecMulVec φ (star φ)) *ᵥ φ).re = w) :
    ∃ v, out.val = .num v ∧ √w ≤ v ∧ v ≤ √w + δ := by
  subst hl hops
  obtain ⟨v, hv, ⟨ψ, hψ, hvψ⟩, hle⟩ := C92_fidelity_within hsp hmin hsqrt h hsafe 2 rfl rfl hopt
  refine ⟨v, hv, ?_, ?_⟩
  · rw [hvψ]
    exact Real.sqrt_le_sqrt (hge ψ hψ)
  · have := hle φ hφ
    rwa [hat] at this

theorem worst_prod {l : ℕ} {K : Fin l → Matrix (Fin 2) (Fin 2) ℂ} {φ : Fin 2 → ℂ} {w : ℝ}
    (hw : ∑ k, Complex.normSq (star φ ⬝ᵥ K k *ᵥ φ) = w) :
    (star (prodVec n φ) ⬝ᵥ applyKraus (tensorPow K n) (vecMulVec (prodVec n φ) (star (prodVec n φ))) *ᵥ prodVec n φ).re = w ^ n := by
  rw [unchanged_prod, Complex.ofReal_re, hw]

section
variable {p : ℝ}

theorem sqrt_pow_two (h : p ≤ 1) : (√(1 - p) ^ n) ^ 2 = (1 - p) ^ n := by
  rw [← pow_mul, mul_comm, pow_mul, Real.sq_sqrt (sub_nonneg.mpr h)]

theorem bitFlip_ge (h1 : p ≤ 1) {ψ : Fin (2 ^ n) → ℂ} (hψ : star ψ ⬝ᵥ ψ = 1) :
    (1 - p) ^ n ≤ (star ψ ⬝ᵥ applyKraus (tensorPow (bitFlip p) n) (vecMulVec ψ (star ψ)) *ᵥ ψ).re := by
  rw [← sqrt_pow_two h1]
  refine unchanged_ge (bitFlip p) 0 (fun _ => √(1 - p)) ?_ (Real.sqrt_nonneg _) (fun _ => le_rfl) hψ
  ext i j
  fin_cases i <;> fin_cases j <;> simp [bitFlip, amp]

theorem phaseFlip_ge (h1 : p ≤ 1) {ψ : Fin (2 ^ n) → ℂ} (hψ : star ψ ⬝ᵥ ψ = 1) :
    (1 - p) ^ n ≤ (star ψ ⬝ᵥ applyKraus (tensorPow (phaseFlip p) n) (vecMulVec ψ (star ψ)) *ᵥ ψ).re := by
  rw [← sqrt_pow_two h1]
  refine unchanged_ge (phaseFlip p) 0 (fun _ => √(1 - p)) ?_ (Real.sqrt_nonneg _) (fun _ => le_rfl) hψ
  ext i j
  fin_cases i <;> fin_cases j <;> simp [phaseFlip, amp]

theorem damping_ge (h0 : 0 ≤ p) (h1 : p ≤ 1) {ψ : Fin (2 ^ n) → ℂ} (hψ : star ψ ⬝ᵥ ψ = 1) :
    (1 - p) ^ n ≤ (star ψ ⬝ᵥ applyKraus (tensorPow (damping p) n) (vecMulVec ψ (star ψ)) *ᵥ ψ).re := by
  rw [← sqrt_pow_two h1]
  refine unchanged_ge (damping p) 0 ![1, √(1 - p)] ?_ (Real.sqrt_nonneg _) ?_ hψ
  · ext i j
    fin_cases i <;> fin_cases j <;> simp [damping, amp]
  · intro i
    fin_cases i
    · show √(1 - p) ≤ 1
      exact Real.sqrt_le_one.mpr (by linarith)
    · exact le_rfl

/-- The states that are disturbed most. -/
noncomputable def halfVec : Fin 2 → ℂ := fun _ => ((√(1 / 2) : ℝ) : ℂ)

theorem halfVec_unit : star halfVec ⬝ᵥ halfVec = 1 := by
  rw [dotProduct, Fin.sum_univ_two]
  simp only [halfVec, Pi.star_apply, Complex.star_def, Complex.conj_ofReal, ← Complex.ofReal_mul, ← Complex.ofReal_add]
  rw [Real.mul_self_sqrt (by norm_num)]
  norm_num

theorem bitFlip_at (h1 : p ≤ 1) : ∑ k, Complex.normSq (star ![1, 0] ⬝ᵥ bitFlip p k *ᵥ ![1, 0]) = 1 - p := by
  rw [Fin.sum_univ_two]
  simp [bitFlip, amp, dotProduct, mulVec, Real.mul_self_sqrt (sub_nonneg.mpr h1)]

theorem phaseFlip_at (h1 : p ≤ 1) : ∑ k, Complex.normSq (star halfVec ⬝ᵥ phaseFlip p k *ᵥ halfVec) = 1 - p := by
  rw [Fin.sum_univ_two]
  have e0 : star halfVec ⬝ᵥ phaseFlip p 0 *ᵥ halfVec = amp (1 - p) := by
    have : phaseFlip p 0 = amp (1 - p) • 1 := by
      ext i j
      fin_cases i <;> fin_cases j <;> simp [phaseFlip]
    rw [this, smul_mulVec, one_mulVec, dotProduct_smul, halfVec_unit, smul_eq_mul, mul_one]
  have e1 : star halfVec ⬝ᵥ phaseFlip p 1 *ᵥ halfVec = 0 := by
    simp [phaseFlip, halfVec, dotProduct, mulVec]
  rw [e0, e1, amp, Complex.normSq_ofReal, Real.mul_self_sqrt (sub_nonneg.mpr h1)]
  simp

theorem damping_at (h1 : p ≤ 1) : ∑ k, Complex.normSq (star ![0, 1] ⬝ᵥ damping p k *ᵥ ![0, 1]) = 1 - p := by
  rw [Fin.sum_univ_two]
  simp [damping, amp, dotProduct, mulVec, Real.mul_self_sqrt (sub_nonneg.mpr h1)]

theorem zeros_proj : vecMulVec (prodVec n ![1, 0]) (star (prodVec n ![1, 0])) =
    (fun i j => if (i : ℕ) = 0 ∧ (j : ℕ) = 0 then 1 else 0 : Matrix (Fin (2 ^ n)) (Fin (2 ^ n)) ℂ) := by
  have e : ∀ i : Fin (2 ^ n), prodVec n ![1, 0] i = if (i : ℕ) = 0 then 1 else 0 := by
    intro i
    split_ifs with h
    · rw [← digits_zero] at h
      simp [prodVec, prodVecs, h]
    · rw [← digits_zero] at h
      obtain ⟨t, ht⟩ := Function.ne_iff.mp h
      refine Finset.prod_eq_zero (Finset.mem_univ t) ?_
      generalize digit i t = x at ht
      fin_cases x
      · exact absurd rfl ht
      · rfl
  ext i j
  rw [vecMulVec_apply, Pi.star_apply, e, e]
  by_cases h1 : (i : ℕ) = 0 <;> by_cases h2 : (j : ℕ) = 0 <;> simp [h1, h2]

theorem ones_proj : vecMulVec (prodVec n ![0, 1]) (star (prodVec n ![0, 1])) =
    (fun i j => if (i : ℕ) = 2 ^ n - 1 ∧ (j : ℕ) = 2 ^ n - 1 then 1 else 0 : Matrix (Fin (2 ^ n)) (Fin (2 ^ n)) ℂ) := by
  have e : ∀ i : Fin (2 ^ n), prodVec n ![0, 1] i = if (i : ℕ) = 2 ^ n - 1 then 1 else 0 := by
    intro i
    split_ifs with h
    · rw [← digits_one] at h
      simp [prodVec, prodVecs, h]
    · rw [← digits_one] at h
      obtain ⟨t, ht⟩ := Function.ne_iff.mp h
      refine Finset.prod_eq_zero (Finset.mem_univ t) ?_
      generalize digit i t = x at ht
      fin_cases x
      · rfl
      · exact absurd rfl ht
  ext i j
  rw [vecMulVec_apply, Pi.star_apply, e, e]
  by_cases h1 : (i : ℕ) = 2 ^ n - 1 <;> by_cases h2 : (j : ℕ) = 2 ^ n - 1 <;> simp [h1, h2]

theorem plus_proj : vecMulVec (prodVec n halfVec) (star (prodVec n halfVec)) =
    (fun _ _ => 1 / 2 ^ n : Matrix (Fin (2 ^ n)) (Fin (2 ^ n)) ℂ) := by
  ext i j
  rw [vecMulVec_apply, Pi.star_apply]
  simp only [prodVec, prodVecs, halfVec, Complex.star_def, Finset.prod_const, Finset.card_univ, Fintype.card_fin, map_pow,
    Complex.conj_ofReal]
  rw [← mul_pow, ← Complex.ofReal_mul, Real.mul_self_sqrt (by norm_num)]
  push_cast
  rw [_root_.one_div_pow]

end

/-! ## The theorems -/

section
variable {p : ℝ} (hsqrt : sqrtm.Correct) (h : QChan.init sp ops 1 1 2 2 orth = .ok o)
  (hsafe : SafeUses sp (calls.map QChan.Call.uses ++ [n])) (h0 : 0 ≤ p) (h1 : p ≤ 1)
include hsqrt h hsafe h0 h1

omit h0 in
/-- **C108, bit flips**.  The fidelity of every pure state of `n` qubits after `n` uses of the bit flip channel is at least
`√((1 - p) ^ n)`, and it is that for the state in which all qubits are zero. -/
theorem C108_bit (hl : ops.len = 2) (hops : ops.ops 2 2 2 = bitFlip p) (rho : Arr ℂ) (hr : rho.rows = 2 ^ n)
    (hc : rho.cols = 2 ^ n) (hrho : DensityOfRank (rho.mat (2 ^ n) (2 ^ n)) 1) :
    ∃ v, (QChan.fidelityTwoStates sqrtm (QChan.history o calls) rho n).1 = .ok v ∧ √((1 - p) ^ n) ≤ v ∧
      ((∀ i < 2 ^ n, ∀ j < 2 ^ n, rho.get i j = if i = 0 ∧ j = 0 then 1 else 0) → v = √((1 - p) ^ n)) := by
  obtain ⟨ψ, hψ, hm⟩ := exists_pure hrho
  refine ⟨_, fid_pure hsqrt h hl hops hsafe hr hc hψ hm, Real.sqrt_le_sqrt (bitFlip_ge h1 hψ), fun hz => ?_⟩
  have em : rho.mat (2 ^ n) (2 ^ n) = vecMulVec (prodVec n ![1, 0]) (star (prodVec n ![1, 0])) := by
    rw [zeros_proj]
    ext i j
    exact hz i i.2 j j.2
  have a1 := fid_pure hsqrt h hl hops hsafe hr hc (prodVec_unit (n := n) (φ := ![1, 0]) (by simp [dotProduct])) em
  rw [fid_pure hsqrt h hl hops hsafe hr hc hψ hm, worst_prod (bitFlip_at h1)] at a1
  injection a1

omit h0 in
/-- **C108, phase flips**.  As `C108_bit`; the worst state is the equal superposition. -/
theorem C108_phase (hl : ops.len = 2) (hops : ops.ops 2 2 2 = phaseFlip p) (rho : Arr ℂ) (hr : rho.rows = 2 ^ n)
    (hc : rho.cols = 2 ^ n) (hrho : DensityOfRank (rho.mat (2 ^ n) (2 ^ n)) 1) :
    ∃ v, (QChan.fidelityTwoStates sqrtm (QChan.history o calls) rho n).1 = .ok v ∧ √((1 - p) ^ n) ≤ v ∧
      ((∀ i < 2 ^ n, ∀ j < 2 ^ n, rho.get i j = 1 / 2 ^ n) → v = √((1 - p) ^ n)) := by
  obtain ⟨ψ, hψ, hm⟩ := exists_pure hrho
  refine ⟨_, fid_pure hsqrt h hl hops hsafe hr hc hψ hm, Real.sqrt_le_sqrt (phaseFlip_ge h1 hψ), fun hz => ?_⟩
  have em : rho.mat (2 ^ n) (2 ^ n) = vecMulVec (prodVec n halfVec) (star (prodVec n halfVec)) := by
    rw [plus_proj]
    ext i j
    exact hz i i.2 j j.2
  have a1 := fid_pure hsqrt h hl hops hsafe hr hc (prodVec_unit (n := n) halfVec_unit) em
  rw [fid_pure hsqrt h hl hops hsafe hr hc hψ hm, worst_prod (phaseFlip_at h1)] at a1
  injection a1

/-- **C108, damping**.  As `C108_bit`; the worst state is the one in which all qubits are one. -/
theorem C108_damping (hl : ops.len = 2) (hops : ops.ops 2 2 2 = damping p) (rho : Arr ℂ) (hr : rho.rows = 2 ^ n)
    (hc : rho.cols = 2 ^ n) (hrho : DensityOfRank (rho.mat (2 ^ n) (2 ^ n)) 1) :
    ∃ v, (QChan.fidelityTwoStates sqrtm (QChan.history o calls) rho n).1 = .ok v ∧ √((1 - p) ^ n) ≤ v ∧
      ((∀ i < 2 ^ n, ∀ j < 2 ^ n, rho.get i j = if i = 2 ^ n - 1 ∧ j = 2 ^ n - 1 then 1 else 0) → v = √((1 - p) ^ n)) := by
  obtain ⟨ψ, hψ, hm⟩ := exists_pure hrho
  refine ⟨_, fid_pure hsqrt h hl hops hsafe hr hc hψ hm, Real.sqrt_le_sqrt (damping_ge h0 h1 hψ), fun hz => ?_⟩
  have em : rho.mat (2 ^ n) (2 ^ n) = vecMulVec (prodVec n ![0, 1]) (star (prodVec n ![0, 1])) := by
    rw [ones_proj]
    ext i j
    exact hz i i.2 j j.2
  have a1 := fid_pure hsqrt h hl hops hsafe hr hc (prodVec_unit (n := n) (φ := ![0, 1]) (by simp [dotProduct])) em
  rw [fid_pure hsqrt h hl hops hsafe hr hc hψ hm, worst_prod (damping_at h1)] at a1
  injection a1

/-- **C108, the search**.  If differential evolution ends within `δ` of the minimum over its bounds, `optimize_fidelity(n, "diffev")`
reports `√((1 - p) ^ n)` up to `δ` for bit flips, phase flips and damping, for every number of uses. -/
theorem C108_search (hl : ops.len = 2)
    (hops : ops.ops 2 2 2 = bitFlip p ∨ ops.ops 2 2 2 = phaseFlip p ∨ ops.ops 2 2 2 = damping p) (hsp : scipy.Correct)
    (hmin : scipy.FindsWithin δ)
    (hopt : QChan.optimizeFidelity g scipy eig sqrtm (QChan.history o calls) n "diffev" (.str name) lipschitz
      usePool maxiter samples = (.ok out, o')) :
    ∃ v, out.val = .num v ∧ √((1 - p) ^ n) ≤ v ∧ v ≤ √((1 - p) ^ n) + δ := by
  rcases hops with hops | hops | hops
  · exact fid_search hsp hmin hsqrt h hl hops hsafe hopt (fun ψ hψ => bitFlip_ge h1 hψ)
      (prodVec_unit (n := n) (φ := ![1, 0]) (by simp [dotProduct])) (worst_prod (bitFlip_at h1))
  · exact fid_search hsp hmin hsqrt h hl hops hsafe hopt (fun ψ hψ => phaseFlip_ge h1 hψ) (prodVec_unit (n := n) halfVec_unit)
      (worst_prod (phaseFlip_at h1))
  · exact fid_search hsp hmin hsqrt h hl hops hsafe hopt (fun ψ hψ => damping_ge h0 h1 hψ)
      (prodVec_unit (n := n) (φ := ![0, 1]) (by simp [dotProduct])) (worst_prod (damping_at h1))

/-- **C108, depolarizing noise**.  `n` uses of the depolarizing channel leave every product of pure states of `n` qubits with the
fidelity `√((1 - 2p/3) ^ n)`. -/
theorem C108_depolarizing (hl : ops.len = 4) (hops : ops.ops 4 2 2 = depolarizing p) (rho : Arr ℂ) (hr : rho.rows = 2 ^ n)
    (hc : rho.cols = 2 ^ n) (σ : Fin n → Matrix (Fin 2) (Fin 2) ℂ) (hσ : ∀ t, DensityOfRank (σ t) 1)
    (hrho : rho.mat (2 ^ n) (2 ^ n) = tensorProd σ) :
    (QChan.fidelityTwoStates sqrtm (QChan.history o calls) rho n).1 = .ok √((1 - 2 * p / 3) ^ n) := by
  choose φ hφ hm using fun t => exists_pure (hσ t)
  rw [fid_pure hsqrt h hl hops hsafe hr hc (prodVecs_unit hφ) (by
    rw [hrho, prodVecs_proj]
    exact congrArg tensorProd (funext hm)), unchanged_prods]
  simp only [depolarizing_at h0 h1 (hφ _)]
  rw [← Complex.ofReal_prod, Complex.ofReal_re]
  simp

/-- For one use that is every pure state, so it is also what `optimize_fidelity(1, ...)` reports, whatever the optimiser finds. -/
theorem C108_depolarizing_search (hn : n = 1) (hl : ops.len = 4) (hops : ops.ops 4 2 2 = depolarizing p) (hsp : scipy.Correct)
    {method : String}
    (hopt : QChan.optimizeFidelity g scipy eig sqrtm (QChan.history o calls) n method (.str name) lipschitz
      usePool maxiter samples = (.ok out, o')) (hm : method = "diffev" ∨ usePool.toInt ≠ 0) :
    out.val = .num √(1 - 2 * p / 3) := by
  obtain ⟨v, hv, hval⟩ := C39_optimize_fidelity hsp hopt hm
  obtain ⟨d1, d2, d3⟩ := C51_fidelity_state h hopt
  have ho' : ∃ rr, o' = QChan.history o (calls ++ [QChan.Call.channel rr n false]) := by
    unfold QChan.optimizeFidelity at hopt
    rcases hs : QChan.sync (QChan.history o calls) n with ⟨x | u, o1⟩
    · rw [hs] at hopt
      have := congrArg Prod.fst hopt
      cases this
    rw [hs] at hopt
    simp only [Prod.mk.injEq] at hopt
    obtain ⟨-, rfl⟩ := hopt
    obtain ⟨rr, rfl⟩ := sync_history hs
    exact ⟨rr, rfl⟩
  obtain ⟨rr, rfl⟩ := ho'
  have hsafe2 : Spec.SafeUses sp ((calls ++ [QChan.Call.channel rr n false]).map QChan.Call.uses ++ [n]) := by
    rw [List.map_append]; exact safe_twice hsafe
  subst hn
  have := C108_depolarizing hsqrt h hsafe2 h0 h1 hl hops out.rho d1 d2 (fun _ => out.rho.mat 2 2) (fun _ => d3) (mat_one out.rho 2).symm
  rw [hval] at this
  injection this with this
  rw [hv, this, pow_one]

end

/-! ### The hypotheses are met -/

/-- With an optimiser that ends within `δ > 0` of the minimum `optimize_fidelity(n, "diffev", "cholesky", lipschitz=0)` returns,
for every channel with equal input and output dimension, every history and number of uses. -/
theorem C92_fidelity_within_runs (hδ : 0 < δ) (hsqrt : sqrtm.Correct) (h : QChan.init sp ops a b d e orth = .ok o)
    (hsafe : SafeUses sp (calls.map QChan.Call.uses ++ [n])) (hpos : 0 < d ^ a) (heq : e ^ b = d ^ a) (g : Rng) (eig : Eigvalsh) :
    ∃ scipy : Scipy, scipy.Correct ∧ scipy.FindsWithin δ ∧ ∃ out o', QChan.optimizeFidelity g scipy eig sqrtm (QChan.history o calls) n
      "diffev" (.str "cholesky") (.int 0) (.int 0) 50 ⟨true, []⟩ = (.ok out, o') := by
  refine ⟨nearScipy δ, nearScipy_correct δ, nearScipy_finds δ, ?_⟩
  obtain ⟨rr, hs⟩ := sync_safe h hsafe
  have hsafe2 : Spec.SafeUses sp ((calls ++ [QChan.Call.channel rr n false]).map QChan.Call.uses ++ [n]) := by
    rw [List.map_append]; exact safe_twice hsafe
  have hin : QChan.inputDimension (QChan.history o (calls ++ [QChan.Call.channel rr n false])) = (d ^ a) ^ n := sync_input h hs
  have hN : 0 < (d ^ a) ^ n := Nat.pow_pos hpos
  obtain ⟨x, A, hxb, hxA, -⟩ := (C92_cholesky ((d ^ a) ^ n) 1 ⟨le_rfl, hN⟩
    (Arr.ofMat (vecMulVec (Pi.single ⟨0, hN⟩ 1) (star (Pi.single ⟨0, hN⟩ (1 : ℂ))))) rfl rfl).mpr (by
      rw [Arr.ofMat_mat]
      exact pure_rank (ψ := Pi.single (⟨0, hN⟩ : Fin ((d ^ a) ^ n)) (1 : ℂ)) (by simp [dotProduct, Pi.single_apply]))
  have hdens : ∀ y ρ, CholeskyParam.rhoFromVec y ((d ^ a) ^ n) (some 1) = .ok ρ →
      ∃ w, (QChan.fidelityTwoStates sqrtm (QChan.history o (calls ++ [QChan.Call.channel rr n false])) ρ n).1 = .ok w ∧ 0 ≤ w := by
    intro y ρ hy
    obtain ⟨y1, y2, y3⟩ := cholesky_density hy
    obtain ⟨ψ, hψ, hm⟩ := exists_pure y3
    exact ⟨_, C50_pure_state hsqrt h _ n hsafe2 _ rfl heq ρ y1 y2 ψ hψ hm, Real.sqrt_nonneg _⟩
  let f : Objective := fun vec => do
    let rho ← CholeskyParam.rhoFromVec vec ((d ^ a) ^ n) (some 1)
    (QChan.fidelityTwoStates sqrtm (QChan.history o (calls ++ [QChan.Call.channel rr n false])) rho n).1
  obtain ⟨wA, hwA, -⟩ := hdens x A hxA
  have hfx : f x = .ok wA := by
    simp only [f, hxA, hwA, bind, Except.bind]
  obtain ⟨r, hr⟩ := nearScipy_returns hδ (i := none) (p := 50) (m := 50) (B := 0) hxb hfx (by
    intro y _ w hw
    obtain ⟨ρ, hρ, hw⟩ := bind_ok_iff.mp hw
    obtain ⟨z', hz', hle⟩ := hdens y ρ hρ
    rw [hw] at hz'
    injection hz' with hz'
    rwa [hz'])
  obtain ⟨ρ, hρ, -⟩ := bind_ok_iff.mp (nearScipy_ok hr).1
  have hproc : optimizeProcedure g (nearScipy δ) (QChan.view eig sqrtm
      (QChan.history o (calls ++ [QChan.Call.channel rr n false])) n) 1 "diffev" (.str "cholesky") "fidelity" (.int 0)
      (.int 0) 50 ⟨true, []⟩ = .ok ⟨ρ, .num r.fun_, "diffev", false, r.success, "fidelity"⟩ := by
    refine diffev_run (P := g.choleskyParam) (f := f) (bounds := CholeskyParam.bounds ((d ^ a) ^ n) 1 (-1) 1) rfl ?_ ?_ hr ?_ ?_
    · show chooseObjective _ _ (QChan.inputDimension _) _ _ = _
      rw [hin]; rfl
    · show _ = _
      simp only [QChan.view]
      rw [hin]; rfl
    · rw [finalVal, if_neg (by decide)]
    · simp only [QChan.view]
      rw [hin]; exact hρ
  unfold QChan.optimizeFidelity
  rw [hs]
  refine ⟨⟨ρ, .num r.fun_, "diffev", false, r.success, "fidelity"⟩,
    QChan.history o (calls ++ [QChan.Call.channel rr n false]), ?_⟩
  simp only [hproc]

example (sp : Bool) {p : ℝ} (h0 : 0 ≤ p) (h1 : p ≤ 1) : ∃ o, QChan.init sp (opsArr (depolarizing p)) 1 1 2 2 [] = .ok o ∧
    (opsArr (depolarizing p)).len = 4 ∧ (opsArr (depolarizing p)).ops 4 2 2 = depolarizing p := by
  obtain ⟨o, ho⟩ := opsArr_init sp (a := 1) (b := 1) (d := 2) (e := 2) (depolarizing p) (by decide) (depolarizing_tp h0 h1) []
  exact ⟨o, ho, rfl, opsArr_ops _⟩

/-- The state `(|000⟩ + |111⟩) / √2`. -/
noncomputable def ghz : Fin (2 ^ 3) → ℂ := fun i => if (i : ℕ) = 0 ∨ (i : ℕ) = 7 then ((√(1 / 2) : ℝ) : ℂ) else 0

/-- A pure state of three qubits that is not a product. -/
example : ∃ rho : Arr ℂ, rho.rows = 2 ^ 3 ∧ rho.cols = 2 ^ 3 ∧ DensityOfRank (rho.mat (2 ^ 3) (2 ^ 3)) 1 ∧ rho.get 0 7 = 1 / 2 := by
  refine ⟨Arr.ofMat (vecMulVec ghz (star ghz)), rfl, rfl, ?_, ?_⟩
  · rw [Arr.ofMat_mat]
    apply pure_rank
    show ∑ i : Fin 8, star (ghz i) * ghz i = 1
    have hs : ((√(1 / 2) : ℝ) : ℂ) * ((√(1 / 2) : ℝ) : ℂ) = 1 / 2 := by
      rw [← Complex.ofReal_mul, Real.mul_self_sqrt (by norm_num)]
      norm_num
    rw [Finset.sum_eq_add (0 : Fin 8) 7 (by decide) (fun i _ hi => ?_) (by simp) (by simp)]
    · show star (((√(1 / 2) : ℝ) : ℂ)) * ((√(1 / 2) : ℝ) : ℂ) + star (((√(1 / 2) : ℝ) : ℂ)) * ((√(1 / 2) : ℝ) : ℂ) = 1
      rw [Complex.star_def, Complex.conj_ofReal, hs]
      norm_num
    · have : ghz i = 0 := if_neg (by
        rintro (h | h)
        · exact hi.1 (Fin.ext h)
        · exact hi.2 (Fin.ext h))
      rw [this, mul_zero]
  · have e0 : ∀ i : Fin (2 ^ 3), ((i : ℕ) = 0 ∨ (i : ℕ) = 7) → ghz i = ((√(1 / 2) : ℝ) : ℂ) := fun i hi => if_pos hi
    have : (Arr.ofMat (vecMulVec ghz (star ghz))).mat (2 ^ 3) (2 ^ 3) ⟨0, by norm_num⟩ ⟨7, by norm_num⟩ = 1 / 2 := by
      rw [Arr.ofMat_mat, vecMulVec_apply, Pi.star_apply, e0 _ (Or.inl rfl), e0 _ (Or.inr rfl), Complex.star_def, Complex.conj_ofReal,
        ← Complex.ofReal_mul, Real.mul_self_sqrt (by norm_num)]
      norm_num
    exact this

end PyQ
