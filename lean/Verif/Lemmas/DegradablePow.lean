import Verif.Spec.Marginal
import Verif.Lemmas.Degradable
import Verif.Props.Additive
import Verif.Props.FidelityProduct

/-!
# Several uses of a channel whose environment can be made from the output
-/

namespace PyQ

open Matrix Polynomial Spec
open scoped ComplexOrder

/-! ### Marginals -/

/-- The operator `A` on system `t`. -/
def onSite {a n : ℕ} (t : Fin n) (A : Matrix (Fin a) (Fin a) ℂ) : Matrix (Fin (a ^ n)) (Fin (a ^ n)) ℂ :=
  tensorProd fun s => if s = t then A else 1

theorem onSite_apply {a n : ℕ} (t : Fin n) (A : Matrix (Fin a) (Fin a) ℂ) (i j : Fin (a ^ n)) :
    onSite t A i j = if ∀ s, s ≠ t → digit i s = digit j s then A (digit i t) (digit j t) else 0 := by
  unfold onSite tensorProd
  split_ifs with h
  · rw [Finset.prod_eq_single t]
    · simp
    · intro s _ hs
      simp only [if_neg hs]
      rw [h s hs, one_apply_eq]
    · simp
  · push Not at h
    obtain ⟨s, hs, hne⟩ := h
    refine Finset.prod_eq_zero (Finset.mem_univ s) ?_
    simp only [if_neg hs]
    exact one_apply_ne hne

/-- What the state of one system is: it gives the means of the operators on that system. -/
theorem trace_marginal {a n : ℕ} (ρ : Matrix (Fin (a ^ n)) (Fin (a ^ n)) ℂ) (t : Fin n) (A : Matrix (Fin a) (Fin a) ℂ) :
    trace (marginal ρ t * A) = trace (ρ * onSite t A) := by
  have h1 : trace (marginal ρ t * A) = ∑ x, ∑ x', ∑ i, ∑ j,
      if digit i t = x ∧ digit j t = x' ∧ ∀ s, s ≠ t → digit i s = digit j s then ρ i j * A x' x else 0 := by
    simp only [trace, diag_apply, Matrix.mul_apply, marginal, Finset.sum_mul, ite_mul, zero_mul]
  have h2 : trace (ρ * onSite t A) = ∑ i, ∑ j,
      if ∀ s, s ≠ t → digit i s = digit j s then ρ i j * A (digit j t) (digit i t) else 0 := by
    simp only [trace, diag_apply, Matrix.mul_apply, onSite_apply, mul_ite, mul_zero]
    refine Finset.sum_congr rfl fun i _ => Finset.sum_congr rfl fun j _ => ?_
    simp only [eq_comm]
  rw [h1, h2]
  have h3 : ∀ x, ∑ x', ∑ i, ∑ j, (if digit i t = x ∧ digit j t = x' ∧ ∀ s, s ≠ t → digit i s = digit j s then
      ρ i j * A x' x else 0) = ∑ i, ∑ j, ∑ x', if digit i t = x ∧ digit j t = x' ∧ ∀ s, s ≠ t → digit i s = digit j s then
      ρ i j * A x' x else 0 := by
    intro x
    rw [Finset.sum_comm]
    exact Finset.sum_congr rfl fun i _ => Finset.sum_comm
  simp only [h3]
  rw [Finset.sum_comm]
  refine Finset.sum_congr rfl fun i _ => ?_
  rw [Finset.sum_comm]
  refine Finset.sum_congr rfl fun j _ => ?_
  rw [Finset.sum_eq_single (digit i t), Finset.sum_eq_single (digit j t)]
  · simp
  · intro x' _ hx
    rw [if_neg fun h => hx h.2.1.symm]
  · simp
  · intro x _ hx
    exact Finset.sum_eq_zero fun x' _ => if_neg fun h => hx h.1.symm
  · simp

theorem trace_mul_single {a : ℕ} (A : Matrix (Fin a) (Fin a) ℂ) (x x' : Fin a) :
    trace (A * Matrix.single x' x 1) = A x x' := by
  rw [trace, Finset.sum_eq_single x]
  · rw [diag_apply, Matrix.mul_apply, Finset.sum_eq_single x']
    · simp
    · intro z _ hz
      simp [Ne.symm hz]
    · simp
  · intro y _ hy
    rw [diag_apply, Matrix.mul_apply]
    refine Finset.sum_eq_zero fun z _ => ?_
    simp [Ne.symm hy]
  · simp

theorem matrix_ext_trace {a : ℕ} {A B : Matrix (Fin a) (Fin a) ℂ} (h : ∀ M, trace (A * M) = trace (B * M)) : A = B := by
  ext x x'
  have := h (Matrix.single x' x 1)
  rwa [trace_mul_single, trace_mul_single] at this

/-- A channel on every system acts on the state of each. -/
theorem marginal_applyKraus {l a b n : ℕ} (K : Fin l → Matrix (Fin a) (Fin b) ℂ) (hK : TracePreserving K)
    (ρ : Matrix (Fin (b ^ n)) (Fin (b ^ n)) ℂ) (t : Fin n) :
    marginal (applyKraus (tensorPow K n) ρ) t = applyKraus K (marginal ρ t) := by
  refine matrix_ext_trace fun M => ?_
  rw [trace_marginal, Spec.duality, Spec.duality, trace_marginal]
  congr 2
  unfold onSite
  rw [adjointKraus_tensor]
  congr 1
  funext s
  split_ifs
  · rfl
  · exact adjointKraus_one K hK

theorem onSite_mul {a n : ℕ} (t : Fin n) (U : Fin n → Matrix (Fin a) (Fin a) ℂ) (hU : ∀ s, U s * (U s)ᴴ = 1)
    (A : Matrix (Fin a) (Fin a) ℂ) : tensorProd U * onSite t A * (tensorProd U)ᴴ = onSite t (U t * A * (U t)ᴴ) := by
  unfold onSite
  rw [tensorProd_conjTranspose, tensorProd_mul, tensorProd_mul]
  congr 1
  funext s
  by_cases h : s = t
  · subst h; simp
  · rw [if_neg h, if_neg h, Matrix.mul_one, hU]

theorem marginal_posSemidef {a n : ℕ} {ρ : Matrix (Fin (a ^ n)) (Fin (a ^ n)) ℂ} (hρ : ρ.PosSemidef) (t : Fin n) :
    (marginal ρ t).PosSemidef := by
  have hherm : (marginal ρ t).IsHermitian := by
    ext x x'
    rw [conjTranspose_apply, marginal, marginal]
    simp only [star_sum, apply_ite star, star_zero]
    rw [Finset.sum_comm]
    refine Finset.sum_congr rfl fun i _ => Finset.sum_congr rfl fun j _ => ?_
    have : star (ρ j i) = ρ i j := by
      have := congrFun (congrFun hρ.isHermitian i) j
      rwa [conjTranspose_apply] at this
    rw [this]
    refine if_congr ?_ rfl rfl
    constructor <;> rintro ⟨h1, h2, h3⟩ <;> exact ⟨h2, h1, fun s hs => (h3 s hs).symm⟩
  refine PosSemidef.of_dotProduct_mulVec_nonneg hherm fun v => ?_
  have e : star v ⬝ᵥ (marginal ρ t *ᵥ v) = trace (marginal ρ t * vecMulVec v (star v)) := by
    rw [mul_vecMulVec, trace_vecMulVec, dotProduct_comm]
  rw [e, trace_marginal]
  have hp : (onSite t (vecMulVec v (star v))).PosSemidef := by
    refine tensorProd_psd fun s => ?_
    split_ifs
    · exact posSemidef_vecMulVec_self_star v
    · exact PosSemidef.one
  obtain ⟨S, rfl⟩ := exists_factor hρ
  rw [Matrix.mul_assoc, trace_mul_comm]
  exact (hp.conjTranspose_mul_mul_same S).trace_nonneg

theorem marginal_trace {a n : ℕ} (ρ : Matrix (Fin (a ^ n)) (Fin (a ^ n)) ℂ) (t : Fin n) :
    trace (marginal ρ t) = trace ρ := by
  have h := trace_marginal ρ t 1
  have h1 : onSite t (1 : Matrix (Fin a) (Fin a) ℂ) = 1 := by
    unfold onSite
    simp only [ite_self]
    exact tensorProd_one
  rwa [h1, Matrix.mul_one, Matrix.mul_one] at h

theorem marginal_density {a n : ℕ} {ρ : Matrix (Fin (a ^ n)) (Fin (a ^ n)) ℂ} (hρ : IsDensity ρ) (t : Fin n) :
    IsDensity (marginal ρ t) := ⟨marginal_posSemidef hρ.1 t, (marginal_trace ρ t).trans hρ.2⟩

/-! ### The entropy of the parts and of the whole -/

theorem eigen_tensorProd {a n : ℕ} {A V : Fin n → Matrix (Fin a) (Fin a) ℂ} {w : Fin n → Fin a → ℝ}
    (h : ∀ t, Eigen (A t) (V t) (w t)) :
    Eigen (tensorProd A) (tensorProd V) fun x => ∏ t, w t (digit x t) := by
  refine ⟨?_, ?_, ?_, fun x => Finset.prod_nonneg fun t _ => (h t).nonneg _⟩
  · rw [tensorProd_conjTranspose, tensorProd_mul]
    simp only [(h _).left]
    exact tensorProd_one
  · rw [tensorProd_conjTranspose, tensorProd_mul]
    simp only [(h _).right]
    exact tensorProd_one
  · have : (diagonal fun x : Fin (a ^ n) => ((∏ t, w t (digit x t) : ℝ) : ℂ)) =
        tensorProd fun t => diagonal fun i => ((w t i : ℝ) : ℂ) := by
      rw [Spec.tensorProd_diagonal]
      congr 1
      funext x
      push_cast
      rfl
    rw [this, tensorProd_conjTranspose, tensorProd_mul, tensorProd_mul]
    congr 1
    funext t
    exact (h t).eq

/-- The relative entropy of a state and the product of its marginals. -/
theorem relEnt_marginals {a n : ℕ} {ρ V : Matrix (Fin (a ^ n)) (Fin (a ^ n)) ℂ} {p : Fin (a ^ n) → ℝ} (hρ : Eigen ρ V p)
    {U : Fin n → Matrix (Fin a) (Fin a) ℂ} {q : Fin n → Fin a → ℝ} (hq : ∀ t, Eigen (marginal ρ t) (U t) (q t)) :
    relEnt p (fun x => ∏ t, q t (digit x t)) ((tensorProd U)ᴴ * V) =
      ∑ t, ∑ i, Real.negMulLog (q t i) - ∑ i, Real.negMulLog (p i) ∧
    Supported p (fun x => ∏ t, q t (digit x t)) ((tensorProd U)ᴴ * V) := by
  have hU := (eigen_tensorProd hq).right
  set r : Fin (a ^ n) → ℝ := fun j => (((tensorProd U)ᴴ * ρ * tensorProd U) j j).re with hr
  have hpsd := (eigen_posSemidef hρ).conjTranspose_mul_mul_same (tensorProd U)
  have r0 : ∀ j, 0 ≤ r j := fun j => (Complex.le_def.mp (hpsd.diag_nonneg (i := j))).1
  have rsum : ∀ t x, ∑ j, (if digit j t = x then r j else 0) = q t x := by
    intro t x
    have e1 : trace ((tensorProd U)ᴴ * ρ * tensorProd U * onSite t (Matrix.single x x 1)) =
        ∑ j, if digit j t = x then ((tensorProd U)ᴴ * ρ * tensorProd U) j j else 0 := by
      rw [trace]
      refine Finset.sum_congr rfl fun j _ => ?_
      rw [diag_apply, Matrix.mul_apply, Finset.sum_eq_single j]
      · rw [onSite_apply, if_pos fun _ _ => rfl, Matrix.single_apply]
        by_cases h : digit j t = x
        · simp [h]
        · simp [h, Ne.symm h]
      · intro i _ hi
        rw [onSite_apply]
        split_ifs with h
        · rw [Matrix.single_apply]
          rw [if_neg, mul_zero]
          rintro ⟨h1, h2⟩
          apply hi
          apply digit_injective
          funext s
          by_cases hs : s = t
          · subst hs; rw [← h1, ← h2]
          · exact h s hs
        · exact mul_zero _
      · simp
    have e2 : trace ((tensorProd U)ᴴ * ρ * tensorProd U * onSite t (Matrix.single x x 1)) = ((q t x : ℝ) : ℂ) := by
      rw [Matrix.mul_assoc, Matrix.mul_assoc, trace_mul_comm, Matrix.mul_assoc, onSite_mul t U fun s => (hq s).right,
        ← trace_marginal, ← Matrix.mul_assoc, trace_mul_comm, ← Matrix.mul_assoc, ← Matrix.mul_assoc, trace_mul_single]
      have hd : (U t)ᴴ * marginal ρ t * U t = diagonal fun i => ((q t i : ℝ) : ℂ) := by
        rw [(hq t).eq, show (U t)ᴴ * (U t * diagonal (fun i => (q t i : ℂ)) * (U t)ᴴ) * U t =
          ((U t)ᴴ * U t) * diagonal (fun i => (q t i : ℂ)) * ((U t)ᴴ * U t) by simp only [Matrix.mul_assoc], (hq t).left,
          Matrix.one_mul, Matrix.mul_one]
      rw [hd, diagonal_apply_eq]
    have e3 := congrArg Complex.re (e1.symm.trans e2)
    rw [Complex.re_sum, Complex.ofReal_re] at e3
    rw [← e3]
    refine Finset.sum_congr rfl fun j _ => ?_
    split_ifs <;> simp [hr]
  have rz : ∀ t j, q t (digit j t) = 0 → r j = 0 := by
    intro t j h
    have := rsum t (digit j t)
    rw [h] at this
    have := (Finset.sum_eq_zero_iff_of_nonneg (fun i _ => by split_ifs <;> [exact r0 i; exact le_rfl])).mp this j
      (Finset.mem_univ j)
    rwa [if_pos rfl] at this
  constructor
  · rw [relEnt_eq hρ hU]
    have h1 : ∀ j, r j * Real.log (∏ t, q t (digit j t)) = ∑ t, r j * Real.log (q t (digit j t)) := by
      intro j
      by_cases h : ∀ t, q t (digit j t) ≠ 0
      · rw [Real.log_prod fun t _ => h t, Finset.mul_sum]
      · push Not at h
        obtain ⟨t, ht⟩ := h
        simp only [rz t j ht, zero_mul, Finset.sum_const_zero]
    have h2 : ∑ j, r j * Real.log (∏ t, q t (digit j t)) = -∑ t, ∑ i, Real.negMulLog (q t i) := by
      simp only [h1]
      rw [Finset.sum_comm, ← Finset.sum_neg_distrib]
      refine Finset.sum_congr rfl fun t _ => ?_
      rw [← Finset.sum_neg_distrib]
      have h3 : ∀ i, -Real.negMulLog (q t i) = ∑ j, if digit j t = i then r j * Real.log (q t i) else 0 := by
        intro i
        rw [Real.negMulLog, neg_mul, neg_neg]
        nth_rw 1 [← rsum t i]
        rw [Finset.sum_mul]
        exact Finset.sum_congr rfl fun j _ => by split_ifs <;> simp
      simp only [h3]
      rw [Finset.sum_comm]
      refine Finset.sum_congr rfl fun j _ => ?_
      simp
    have h4 := h2
    simp only [hr] at h4
    rw [h4]
    ring
  · intro j i h0
    obtain ⟨t, -, ht⟩ := Finset.prod_eq_zero_iff.mp h0
    have h2 := rz t j ht
    simp only [hr] at h2
    rw [← weights_row hρ] at h2
    exact (Finset.sum_eq_zero_iff_of_nonneg (fun i _ => mul_nonneg (sq_nonneg _) (hρ.nonneg i))).mp h2 i (Finset.mem_univ i)

/-- What the parts of a state know of each other does not grow under channels on the parts. -/
theorem mutual_mono {l a b n : ℕ} (B : Fin l → Matrix (Fin a) (Fin b) ℂ) (hB : TracePreserving B)
    {ρ : Matrix (Fin (b ^ n)) (Fin (b ^ n)) ℂ} (hρ : ρ.PosSemidef) :
    ∑ t, specSum Real.negMulLog (applyKraus B (marginal ρ t)) - specSum Real.negMulLog (applyKraus (tensorPow B n) ρ) ≤
      ∑ t, specSum Real.negMulLog (marginal ρ t) - specSum Real.negMulLog ρ := by
  have hρ' := Spec.applyKraus_posSemidef (tensorPow B n) hρ
  have hm := fun t => marginal_posSemidef hρ t
  have hm' := fun t => Spec.applyKraus_posSemidef B (hm t)
  obtain ⟨V, p, e1, c1⟩ := exists_eigen hρ
  choose U q e2 c2 using fun t => exists_eigen (hm t)
  obtain ⟨V', p', e3, c3⟩ := exists_eigen hρ'
  choose U' q' e4 c4 using fun t => exists_eigen (hm' t)
  obtain ⟨r1, s1⟩ := relEnt_marginals e1 e2
  obtain ⟨r2, s2⟩ := relEnt_marginals e3 (q := q') (U := U') fun t => by
    rw [marginal_applyKraus B hB]; exact e4 t
  simp only [specSum_eq (hm _) (c2 _) Real.negMulLog_zero, specSum_eq (hm' _) (c4 _) Real.negMulLog_zero,
    specSum_eq hρ c1 Real.negMulLog_zero, specSum_eq hρ' c3 Real.negMulLog_zero]
  rw [← r1, ← r2]
  refine relEnt_mono (tensorPow B n) (tensorPow_tp B n hB) e1 (eigen_tensorProd e2) hρ (tensorProd_psd hm) e3 ?_ s1 s2
  rw [applyKraus_tensor]
  exact eigen_tensorProd e4

/-! ### Several uses -/

theorem compl_tensorPow {l a b : ℕ} (K : Fin l → Matrix (Fin a) (Fin b) ℂ) (n : ℕ) :
    tensorPow (complOps K) n = complOps (tensorPow K n) := rfl

theorem exchange_tensorPow {l a b : ℕ} (K : Fin l → Matrix (Fin a) (Fin b) ℂ) (n : ℕ)
    (ρ : Matrix (Fin (b ^ n)) (Fin (b ^ n)) ℂ) :
    entropyExchange (tensorPow K n) ρ = applyKraus (tensorPow (complOps K) n) ρ := by
  rw [compl_tensorPow, applyKraus_compl]

/-- If each environment can be made from the output, so can those of `n` uses. -/
theorem degradable_pow {l l' a b : ℕ} (D : Fin l' → Matrix (Fin l) (Fin a) ℂ) (K : Fin l → Matrix (Fin a) (Fin b) ℂ)
    (h : ∀ ρ, applyKraus D (applyKraus K ρ) = entropyExchange K ρ) (n : ℕ) (ρ : Matrix (Fin (b ^ n)) (Fin (b ^ n)) ℂ) :
    applyKraus (tensorPow D n) (applyKraus (tensorPow K n) ρ) = entropyExchange (tensorPow K n) ρ := by
  rw [exchange_tensorPow, ← applyKraus_comp_pow]
  refine Spec.sameChannel_tensorPow (fun σ => ?_) n ρ
  rw [applyKraus_compl, ← h]
  unfold applyKraus
  simp only [Matrix.mul_sum, Matrix.sum_mul]
  rw [← sum_finProd fun i j => D i * (K j * σ * (K j)ᴴ) * (D i)ᴴ]
  simp only [conjTranspose_mul, Matrix.mul_assoc]

/-- If each output can be made from the environment, so can those of `n` uses. -/
theorem antidegradable_pow {l l' a b : ℕ} (D : Fin l' → Matrix (Fin a) (Fin l) ℂ) (K : Fin l → Matrix (Fin a) (Fin b) ℂ)
    (h : ∀ ρ, applyKraus D (entropyExchange K ρ) = applyKraus K ρ) (n : ℕ) (ρ : Matrix (Fin (b ^ n)) (Fin (b ^ n)) ℂ) :
    applyKraus (tensorPow D n) (entropyExchange (tensorPow K n) ρ) = applyKraus (tensorPow K n) ρ := by
  have := degradable_pow D (complOps K) (fun σ => by rw [applyKraus_compl, h, exchange_compl]) n ρ
  rwa [compl_tensorPow, applyKraus_compl, exchange_compl] at this

/-- If the environment can be made from the output, `n` uses on any state have at most the coherent information of one use each on
the parts. -/
theorem degradable_subadd {l l' a b n : ℕ} (D : Fin l' → Matrix (Fin l) (Fin a) ℂ) (hD : TracePreserving D)
    (K : Fin l → Matrix (Fin a) (Fin b) ℂ) (hK : TracePreserving K)
    (h : ∀ ρ, applyKraus D (applyKraus K ρ) = entropyExchange K ρ) {ρ : Matrix (Fin (b ^ n)) (Fin (b ^ n)) ℂ}
    (hρ : ρ.PosSemidef) : krausInfo (tensorPow K n) ρ ≤ ∑ t, krausInfo K (marginal ρ t) := by
  have key := mutual_mono D hD (Spec.applyKraus_posSemidef (tensorPow K n) hρ)
  simp only [marginal_applyKraus K hK, h, degradable_pow D K h] at key
  unfold krausInfo
  rw [Finset.sum_sub_distrib]
  linarith

end PyQ
