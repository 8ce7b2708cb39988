import Verif.Lemmas.Repair
import Verif.Props.FidelityProduct
import Mathlib.Algebra.Order.Chebyshev

/-! Lemmas for C125: channels whose operators differ little. -/

namespace PyQ

open Matrix Spec
open scoped ComplexOrder

/-- Two states whose difference is a difference of positive matrices of small trace have nearly the same entropy. -/
theorem entropy_near {N : ℕ} {A B P Z : Matrix (Fin N) (Fin N) ℂ} (hA : IsDensity A) (hB : IsDensity B) (hP : P.PosSemidef)
    (hZ : Z.PosSemidef) {T : ℝ} (hT : 0 < T) (h : A + Z = B + P) (ht : (trace Z).re ≤ T) :
    |specSum Real.negMulLog A - specSum Real.negMulLog B| ≤ T * Real.log N + mixNats T := by
  have hre : ∀ {A : Matrix (Fin N) (Fin N) ℂ}, A.PosSemidef → trace A = (((trace A).re : ℝ) : ℂ) := fun hA =>
    Complex.ext rfl (by simpa using (Complex.le_def.1 hA.trace_nonneg).2.symm)
  have htr : (trace P).re = (trace Z).re := by
    have := congrArg (fun A => (trace A).re) h
    simp only [trace_add, Complex.add_re, hA.2, hB.2] at this
    linarith
  obtain ⟨s, hs⟩ : ∃ s, s = T - (trace Z).re := ⟨_, rfl⟩
  have hs0 : 0 ≤ s := by rw [hs]; linarith
  have hTi : (0 : ℂ) ≤ ((T⁻¹ : ℝ) : ℂ) := by exact_mod_cast (inv_pos.2 hT).le
  have dens : ∀ {X : Matrix (Fin N) (Fin N) ℂ}, X.PosSemidef → (trace X).re = (trace Z).re →
      IsDensity (((T⁻¹ : ℝ) : ℂ) • (X + (s : ℂ) • A)) := by
    intro X hX hsum
    refine ⟨(hX.add (hA.1.smul (by exact_mod_cast hs0))).smul hTi, ?_⟩
    rw [trace_smul, trace_add, trace_smul, hA.2, hre hX, hsum, smul_eq_mul, smul_eq_mul, mul_one, ← Complex.ofReal_add, hs,
      ← Complex.ofReal_mul, add_sub_cancel, inv_mul_cancel₀ hT.ne', Complex.ofReal_one]
  have D1 := dens hP htr
  have D2 := dens hZ rfl
  have hsm : ∀ A : Matrix (Fin N) (Fin N) ℂ, (T : ℂ) • (((T⁻¹ : ℝ) : ℂ) • A) = A := fun A => by
    rw [smul_smul, ← Complex.ofReal_mul, mul_inv_cancel₀ hT.ne', Complex.ofReal_one, one_smul]
  have e : A + (T : ℂ) • (((T⁻¹ : ℝ) : ℂ) • (Z + (s : ℂ) • A)) = B + (T : ℂ) • (((T⁻¹ : ℝ) : ℂ) • (P + (s : ℂ) • A)) := by
    rw [hsm, hsm, ← add_assoc, ← add_assoc, h]
  rw [abs_le]
  have c1 := entropy_close hA hB D1 D2 hT.le e
  have c2 := entropy_close hB hA D2 D1 hT.le e.symm
  constructor <;> linarith

section
variable {l p q : ℕ}

/-- The operators between two families, weighted. -/
theorem near_split (K L : Fin l → Matrix (Fin p) (Fin q) ℂ) (ρ : Matrix (Fin q) (Fin q) ℂ) {t : ℝ} (ht : t ≠ 0) :
    applyKraus K ρ + (((t ^ 2 : ℝ) : ℂ) • applyKraus L ρ + ((1 / t ^ 2 - 1 : ℝ) : ℂ) • applyKraus (fun k => K k - L k) ρ) =
      applyKraus L ρ + applyKraus (fun k => (t : ℂ) • L k + ((t⁻¹ : ℝ) : ℂ) • (K k - L k)) ρ ∧
    Spec.entropyExchange K ρ + (((t ^ 2 : ℝ) : ℂ) • Spec.entropyExchange L ρ +
        ((1 / t ^ 2 - 1 : ℝ) : ℂ) • Spec.entropyExchange (fun k => K k - L k) ρ) =
      Spec.entropyExchange L ρ + Spec.entropyExchange (fun k => (t : ℂ) • L k + ((t⁻¹ : ℝ) : ℂ) • (K k - L k)) ρ := by
  have ht' : (t : ℂ) ≠ 0 := by exact_mod_cast ht
  have key : ∀ i j : Fin l, K i * ρ * (K j)ᴴ + (((t ^ 2 : ℝ) : ℂ) • (L i * ρ * (L j)ᴴ) +
      ((1 / t ^ 2 - 1 : ℝ) : ℂ) • ((K i - L i) * ρ * (K j - L j)ᴴ)) = L i * ρ * (L j)ᴴ +
      ((t : ℂ) • L i + ((t⁻¹ : ℝ) : ℂ) • (K i - L i)) * ρ * ((t : ℂ) • L j + ((t⁻¹ : ℝ) : ℂ) • (K j - L j))ᴴ := by
    intro i j
    have e1 : K i * ρ * (K j)ᴴ = L i * ρ * (L j)ᴴ + L i * ρ * (K j - L j)ᴴ + (K i - L i) * ρ * (L j)ᴴ +
        (K i - L i) * ρ * (K j - L j)ᴴ := by
      rw [conjTranspose_sub]
      simp only [Matrix.sub_mul, Matrix.mul_sub]
      abel
    rw [e1]
    generalize K i - L i = X
    generalize K j - L j = Y
    rw [conjTranspose_add, conjTranspose_smul, conjTranspose_smul, Complex.star_def, Complex.conj_ofReal,
      Complex.conj_ofReal]
    simp only [Matrix.add_mul, Matrix.mul_add, Matrix.smul_mul, Matrix.mul_smul, smul_add, smul_smul]
    have f1 : (t : ℂ) * ((t⁻¹ : ℝ) : ℂ) = 1 := by rw [← Complex.ofReal_mul, mul_inv_cancel₀ ht, Complex.ofReal_one]
    have f2 : ((t⁻¹ : ℝ) : ℂ) * (t : ℂ) = 1 := by rw [mul_comm]; exact f1
    have f3 : (t : ℂ) * (t : ℂ) = ((t ^ 2 : ℝ) : ℂ) := by push_cast; ring
    have f4 : ((t⁻¹ : ℝ) : ℂ) * ((t⁻¹ : ℝ) : ℂ) = ((1 / t ^ 2 - 1 : ℝ) : ℂ) + 1 := by push_cast; field_simp; ring
    rw [f1, f2, f3, f4, one_smul, one_smul, add_smul, one_smul]
    abel
  constructor
  · unfold applyKraus
    rw [Finset.smul_sum, Finset.smul_sum, ← Finset.sum_add_distrib, ← Finset.sum_add_distrib, ← Finset.sum_add_distrib]
    exact Finset.sum_congr rfl fun k _ => key k k
  · funext i j
    have := congrArg trace (key i j)
    simp only [trace_add, trace_smul] at this
    exact this

/-- What two trace preserving families make of a state, when the family of the differences makes little of it. -/
theorem near_outputs {K L : Fin l → Matrix (Fin p) (Fin q) ℂ} (hK : TracePreserving K) (hL : TracePreserving L)
    {ρ : Matrix (Fin q) (Fin q) ℂ} (hρ : IsDensity ρ) {ε : ℝ} (h0 : 0 < ε)
    (h : (trace (applyKraus (fun k => K k - L k) ρ)).re ≤ ε ^ 2) :
    (∃ P Z : Matrix (Fin p) (Fin p) ℂ, P.PosSemidef ∧ Z.PosSemidef ∧ applyKraus K ρ + Z = applyKraus L ρ + P ∧
      (trace Z).re ≤ 2 * ε) ∧
    ∃ P Z : Matrix (Fin l) (Fin l) ℂ, P.PosSemidef ∧ Z.PosSemidef ∧ Spec.entropyExchange K ρ + Z = Spec.entropyExchange L ρ + P ∧
      (trace Z).re ≤ 2 * ε := by
  obtain ⟨t, ht0, ht1, htb⟩ : ∃ t : ℝ, 0 < t ∧ t ^ 2 ≤ 1 ∧ t ^ 2 + (1 / t ^ 2 - 1) * ε ^ 2 ≤ 2 * ε := by
    rcases le_total ε 1 with h1 | h1
    · refine ⟨√ε, Real.sqrt_pos.2 h0, by rw [Real.sq_sqrt h0.le]; exact h1, ?_⟩
      rw [Real.sq_sqrt h0.le]
      have : 1 / ε * ε ^ 2 = ε := by field_simp
      nlinarith [sq_nonneg ε]
    · exact ⟨1, one_pos, by norm_num, by norm_num; linarith⟩
  have hs : 0 ≤ 1 / t ^ 2 - 1 := by
    have : 1 ≤ 1 / t ^ 2 := by rw [le_div_iff₀ (by positivity)]; linarith
    linarith
  have c1 : (0 : ℂ) ≤ ((t ^ 2 : ℝ) : ℂ) := by exact_mod_cast (by positivity : (0 : ℝ) ≤ t ^ 2)
  have c2 : (0 : ℂ) ≤ ((1 / t ^ 2 - 1 : ℝ) : ℂ) := by exact_mod_cast hs
  obtain ⟨s1, s2⟩ := near_split K L ρ ht0.ne'
  refine ⟨⟨_, _, applyKraus_posSemidef _ hρ.1, ((applyKraus_posSemidef _ hρ.1).smul c1).add
    ((applyKraus_posSemidef _ hρ.1).smul c2), s1, ?_⟩, _, _, exchange_posSemidef _ hρ.1,
    ((exchange_posSemidef _ hρ.1).smul c1).add ((exchange_posSemidef _ hρ.1).smul c2), s2, ?_⟩
  · rw [trace_add, trace_smul, trace_smul, applyKraus_trace L hL, hρ.2]
    simp only [smul_eq_mul, Complex.add_re, Complex.re_ofReal_mul, Complex.ofReal_re, Complex.one_re, mul_one]
    have := mul_le_mul_of_nonneg_left h hs
    linarith
  · rw [trace_add, trace_smul, trace_smul, exchange_trace, exchange_trace, applyKraus_trace L hL, hρ.2]
    simp only [smul_eq_mul, Complex.add_re, Complex.re_ofReal_mul, Complex.ofReal_re, Complex.one_re, mul_one]
    have := mul_le_mul_of_nonneg_left h hs
    linarith

/-- The coherent information of two families. -/
theorem krausInfo_near {K L : Fin l → Matrix (Fin p) (Fin q) ℂ} (hK : TracePreserving K) (hL : TracePreserving L)
    {ρ : Matrix (Fin q) (Fin q) ℂ} (hρ : IsDensity ρ) {ε : ℝ} (h0 : 0 < ε)
    (h : (trace (applyKraus (fun k => K k - L k) ρ)).re ≤ ε ^ 2) :
    |krausInfo K ρ - krausInfo L ρ| ≤ 2 * ε * (Real.log p + Real.log l) + 2 * mixNats (2 * ε) := by
  obtain ⟨⟨P, Z, hP, hZ, e, ht⟩, P', Z', hP', hZ', e', ht'⟩ := near_outputs hK hL hρ h0 h
  obtain ⟨a1, a2⟩ := kraus_densities K ρ hK hρ
  obtain ⟨b1, b2⟩ := kraus_densities L ρ hL hρ
  have k1 := abs_le.1 (entropy_near a1 b1 hP hZ (by linarith) e ht)
  have k2 := abs_le.1 (entropy_near a2 b2 hP' hZ' (by linarith) e' ht')
  unfold krausInfo
  rw [abs_le]
  constructor <;> nlinarith

end

/-! ### Several uses -/

section
variable {l p q : ℕ}

/-- The tensor product in which the use `i` has the difference, the earlier ones the second and the later ones the first
family. -/
def stepOps (K L : Fin l → Matrix (Fin p) (Fin q) ℂ) (n : ℕ) (i : Fin n) : Fin n → Fin l → Matrix (Fin p) (Fin q) ℂ :=
  fun t => if t < i then L else if t = i then fun k => K k - L k else K

theorem step_prod {n : ℕ} (f g : Fin n → ℂ) :
    ∏ t, f t - ∏ t, g t = ∑ i, ∏ t, (if t < i then g t else if t = i then f t - g t else f t) := by
  have h := Finset.prod_sub_ordered (R := ℂ) Finset.univ f fun t => f t - g t
  simp only [sub_sub_cancel] at h
  rw [h, sub_sub_cancel]
  refine Finset.sum_congr rfl fun i _ => ?_
  have e1 : ∀ t, (if t < i then g t else if t = i then f t - g t else f t) =
      (if t < i then g t else 1) * (if t = i then f t - g t else 1) * (if i < t then f t else 1) := by
    intro t
    rcases lt_trichotomy t i with h | h | h
    · rw [if_pos h, if_pos h, if_neg h.ne, if_neg (not_lt.2 h.le), mul_one, mul_one]
    · subst h; simp
    · rw [if_neg (not_lt.2 h.le), if_neg h.ne', if_neg (not_lt.2 h.le), if_neg h.ne', if_pos h, one_mul, one_mul]
  rw [Finset.prod_congr rfl fun t _ => e1 t, Finset.prod_mul_distrib, Finset.prod_mul_distrib, Finset.prod_filter, Finset.prod_filter,
    Finset.prod_ite_eq' Finset.univ i, if_pos (Finset.mem_univ i)]
  ring

theorem step_sum (K L : Fin l → Matrix (Fin p) (Fin q) ℂ) (n : ℕ) (k : Fin (l ^ n)) :
    tensorPow K n k - tensorPow L n k = ∑ i, tensorProd fun t => stepOps K L n i t (digit k t) := by
  ext x y
  rw [Matrix.sub_apply, Matrix.sum_apply]
  simp only [tensorPow, tensorProd]
  rw [step_prod]
  refine Finset.sum_congr rfl fun i _ => Finset.prod_congr rfl fun t _ => ?_
  unfold stepOps
  split_ifs <;> rfl

theorem applyKraus_trace_eq {m : ℕ} (K : Fin m → Matrix (Fin p) (Fin q) ℂ) (ρ : Matrix (Fin q) (Fin q) ℂ) :
    trace (applyKraus K ρ) = trace ((∑ k, (K k)ᴴ * K k) * ρ) := by
  unfold applyKraus
  rw [trace_sum, Finset.sum_mul, trace_sum]
  exact Finset.sum_congr rfl fun k _ => trace_mul_cycle _ _ _

theorem psd_factor {n : ℕ} {M : Matrix (Fin n) (Fin n) ℂ} (h : M.PosSemidef) : ∃ C : Matrix (Fin n) (Fin n) ℂ, M = Cᴴ * C := by
  obtain ⟨S, h1, h2⟩ := exists_root h
  exact ⟨S, by rw [h1.1.eq, h2]⟩

/-- One step makes little of every state. -/
theorem step_small {K L : Fin l → Matrix (Fin p) (Fin q) ℂ} (hK : TracePreserving K) (hL : TracePreserving L) {δ : ℝ}
    (hD : ((δ : ℂ) • 1 - ∑ k, (K k - L k)ᴴ * (K k - L k)).PosSemidef) (n : ℕ) (i : Fin n)
    {ρ : Matrix (Fin (q ^ n)) (Fin (q ^ n)) ℂ} (hρ : IsDensity ρ) :
    (trace (applyKraus (fun k : Fin (l ^ n) => tensorProd fun t => stepOps K L n i t (digit k t)) ρ)).re ≤ δ := by
  rw [applyKraus_trace_eq]
  simp only [tensorProd_conjTranspose, tensorProd_mul]
  rw [tensorProd_sum (fun t k => (stepOps K L n i t k)ᴴ * stepOps K L n i t k)]
  have e : ∀ t, ∑ k, (stepOps K L n i t k)ᴴ * stepOps K L n i t k =
      if t = i then ∑ k, (K k - L k)ᴴ * (K k - L k) else 1 := by
    intro t
    unfold stepOps
    rcases lt_trichotomy t i with h | h | h
    · rw [if_pos h, if_neg h.ne]; exact hL
    · subst h; simp
    · rw [if_neg (not_lt.2 h.le), if_neg h.ne', if_neg h.ne']; exact hK
  simp only [e]
  generalize (∑ k, (K k - L k)ᴴ * (K k - L k)) = G at hD
  have hps : (tensorProd fun t : Fin n => if t = i then ((δ : ℂ) • 1 - G) else 1).PosSemidef :=
    tensorProd_psd fun t => by split_ifs; exacts [hD, PosSemidef.one]
  have hsub : (tensorProd fun t : Fin n => if t = i then ((δ : ℂ) • 1 - G) else 1) =
      (δ : ℂ) • 1 - tensorProd fun t : Fin n => if t = i then G else 1 := by
    rw [← tensorProd_one]
    ext x y
    simp only [tensorProd, Matrix.sub_apply, Matrix.smul_apply, smul_eq_mul]
    have f : ∀ M : Matrix (Fin q) (Fin q) ℂ, ∏ t, (if t = i then M else 1 : Matrix (Fin q) (Fin q) ℂ) (digit x t) (digit y t) =
        M (digit x i) (digit y i) * ∏ t ∈ Finset.univ.erase i, (1 : Matrix (Fin q) (Fin q) ℂ) (digit x t) (digit y t) := by
      intro M
      rw [← Finset.mul_prod_erase _ _ (Finset.mem_univ i), if_pos rfl]
      congr 1
      refine Finset.prod_congr rfl fun t ht => ?_
      rw [if_neg (Finset.ne_of_mem_erase ht)]
    rw [f, f, ← Finset.mul_prod_erase _ _ (Finset.mem_univ i), Matrix.sub_apply, Matrix.smul_apply, smul_eq_mul]
    ring
  rw [hsub] at hps
  obtain ⟨C, hC⟩ := psd_factor hρ.1
  have hnn := (hps.mul_mul_conjTranspose_same C).trace_nonneg
  rw [trace_mul_cycle, ← hC, Matrix.mul_sub, trace_sub, Matrix.mul_smul, Matrix.mul_one, trace_smul, hρ.2, smul_eq_mul, mul_one,
    trace_mul_comm] at hnn
  have := (Complex.le_def.1 hnn).1
  simp only [Complex.zero_re, Complex.sub_re, Complex.ofReal_re] at this
  linarith

theorem trace_sandwich {m r s : ℕ} (X : Fin m → Matrix (Fin r) (Fin s) ℂ) (C : Matrix (Fin s) (Fin s) ℂ) :
    (trace (applyKraus X (Cᴴ * C))).re = ∑ k, ∑ x, ∑ y, ‖(X k * Cᴴ) x y‖ ^ 2 := by
  unfold applyKraus
  rw [trace_sum, Complex.re_sum]
  refine Finset.sum_congr rfl fun k _ => ?_
  have : X k * (Cᴴ * C) * (X k)ᴴ = (X k * Cᴴ) * (X k * Cᴴ)ᴴ := by
    rw [conjTranspose_mul, conjTranspose_conjTranspose]
    simp only [Matrix.mul_assoc]
  rw [this, trace, Complex.re_sum]
  refine Finset.sum_congr rfl fun x _ => ?_
  rw [diag_apply, Matrix.mul_apply, Complex.re_sum]
  refine Finset.sum_congr rfl fun y _ => ?_
  rw [conjTranspose_apply, Complex.star_def, Complex.mul_conj, Complex.ofReal_re, Complex.normSq_eq_norm_sq]

/-- The differences of `n` uses make little of every state. -/
theorem pow_small {K L : Fin l → Matrix (Fin p) (Fin q) ℂ} (hK : TracePreserving K) (hL : TracePreserving L) {δ : ℝ}
    (hD : ((δ : ℂ) • 1 - ∑ k, (K k - L k)ᴴ * (K k - L k)).PosSemidef) (n : ℕ)
    {ρ : Matrix (Fin (q ^ n)) (Fin (q ^ n)) ℂ} (hρ : IsDensity ρ) :
    (trace (applyKraus (fun k => tensorPow K n k - tensorPow L n k) ρ)).re ≤ n ^ 2 * δ := by
  obtain ⟨C, hC⟩ := psd_factor hρ.1
  have hstep := fun i => step_small hK hL hD n i hρ
  simp only [step_sum]
  rw [hC] at hstep ⊢
  simp only [trace_sandwich] at hstep ⊢
  have hcs : ∀ (k : Fin (l ^ n)) x y, ‖((∑ i, tensorProd fun t => stepOps K L n i t (digit k t)) * Cᴴ) x y‖ ^ 2 ≤
      n * ∑ i, ‖((tensorProd fun t => stepOps K L n i t (digit k t)) * Cᴴ) x y‖ ^ 2 := by
    intro k x y
    rw [Matrix.sum_mul, Matrix.sum_apply]
    have h1 := norm_sum_le Finset.univ fun i => ((tensorProd fun t => stepOps K L n i t (digit k t)) * Cᴴ) x y
    have h2 := sq_sum_le_card_mul_sum_sq (s := Finset.univ) (f := fun i => ‖((tensorProd fun t => stepOps K L n i t (digit k t)) * Cᴴ) x y‖)
    rw [Finset.card_univ, Fintype.card_fin] at h2
    exact (pow_le_pow_left₀ (norm_nonneg _) h1 2).trans h2
  calc _ ≤ ∑ k : Fin (l ^ n), ∑ x, ∑ y, (n : ℝ) * ∑ i, ‖((tensorProd fun t => stepOps K L n i t (digit k t)) * Cᴴ) x y‖ ^ 2 :=
        Finset.sum_le_sum fun k _ => Finset.sum_le_sum fun x _ => Finset.sum_le_sum fun y _ => hcs k x y
    _ = n * ∑ i, ∑ k : Fin (l ^ n), ∑ x, ∑ y, ‖((tensorProd fun t => stepOps K L n i t (digit k t)) * Cᴴ) x y‖ ^ 2 := by
        simp only [← Finset.mul_sum]
        congr 1
        rw [Finset.sum_comm (s := (Finset.univ : Finset (Fin n)))]
        refine Finset.sum_congr rfl fun k _ => ?_
        rw [Finset.sum_comm (s := (Finset.univ : Finset (Fin n)))]
        refine Finset.sum_congr rfl fun x _ => ?_
        rw [Finset.sum_comm (s := (Finset.univ : Finset (Fin n)))]
    _ ≤ n * ∑ _i : Fin n, δ := by
        gcongr with i
        exact hstep i
    _ = n ^ 2 * δ := by
        rw [Finset.sum_const, Finset.card_univ, Fintype.card_fin, nsmul_eq_mul]; ring

/-- A bound on the squares of all entries bounds the sum of the products. -/
theorem entries_psd (D : Fin l → Matrix (Fin p) (Fin q) ℂ) {δ : ℝ} (h : ∑ k, ∑ i, ∑ j, ‖D k i j‖ ^ 2 ≤ δ) :
    ((δ : ℂ) • 1 - ∑ k, (D k)ᴴ * D k).PosSemidef := by
  have hS : (∑ k, (D k)ᴴ * D k).PosSemidef := posSemidef_sum _ fun k _ => posSemidef_conjTranspose_mul_self (D k)
  have htr : trace (∑ k, (D k)ᴴ * D k) = ((∑ k, ∑ i, ∑ j, ‖D k i j‖ ^ 2 : ℝ) : ℂ) := by
    rw [trace_sum]
    push_cast
    refine Finset.sum_congr rfl fun k _ => ?_
    rw [trace_mul_comm, trace]
    refine Finset.sum_congr rfl fun x _ => ?_
    rw [diag_apply, Matrix.mul_apply]
    refine Finset.sum_congr rfl fun y _ => ?_
    rw [conjTranspose_apply, Complex.star_def, Complex.mul_conj, Complex.normSq_eq_norm_sq]
    push_cast
    rfl
  generalize hG : (∑ k, (D k)ᴴ * D k) = G at hS htr
  obtain ⟨V, w, hw, -⟩ := exists_eigen hS
  have hsum : ∑ i, w i ≤ δ := by
    have := eigen_trace hw
    rw [htr] at this
    have h2 : (∑ k, ∑ i, ∑ j, ‖D k i j‖ ^ 2 : ℝ) = ∑ i, w i := by exact_mod_cast this
    linarith
  have e : (δ : ℂ) • 1 - G = V * diagonal (fun i => ((δ - w i : ℝ) : ℂ)) * Vᴴ := by
    have : diagonal (fun i => ((δ - w i : ℝ) : ℂ)) = (δ : ℂ) • 1 - diagonal (fun i => (w i : ℂ)) := by
      ext i j
      by_cases hij : i = j
      · subst hij; simp
      · simp [hij]
    rw [this, Matrix.mul_sub, Matrix.sub_mul, Matrix.mul_smul, Matrix.mul_one, Matrix.smul_mul, hw.right, ← hw.eq]
  rw [e]
  refine PosSemidef.mul_mul_conjTranspose_same ?_ V
  rw [posSemidef_diagonal_iff]
  intro i
  have h1 : w i ≤ ∑ i, w i := Finset.single_le_sum (f := w) (fun j _ => hw.nonneg j) (Finset.mem_univ i)
  exact_mod_cast (by linarith : (0 : ℝ) ≤ δ - w i)

end

end PyQ
