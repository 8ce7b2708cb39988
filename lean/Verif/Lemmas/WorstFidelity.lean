import Verif.Lemmas.StdChannels

/-!
# The fidelity of pure states of `n` systems after `n` uses of a channel
-/

namespace PyQ

open Matrix Spec
open scoped ComplexOrder

section
variable {ι r : Type} [Fintype ι] [Fintype r]

/-- How likely a state is found unchanged. -/
theorem unchanged_sum (K : ι → Matrix r r ℂ) (ψ : r → ℂ) :
    star ψ ⬝ᵥ applyKraus K (vecMulVec ψ (star ψ)) *ᵥ ψ = ((∑ k, Complex.normSq (star ψ ⬝ᵥ K k *ᵥ ψ) : ℝ) : ℂ) := by
  unfold applyKraus
  rw [Matrix.sum_mulVec, dotProduct_sum, Complex.ofReal_sum]
  refine Finset.sum_congr rfl fun k _ => ?_
  rw [mul_vecMulVec, vecMulVec_mul, vecMulVec_mulVec, dotProduct_smul, ← Complex.mul_conj]
  have : star ψ ᵥ* (K k)ᴴ ⬝ᵥ ψ = (starRingEnd ℂ) (star ψ ⬝ᵥ K k *ᵥ ψ) := by
    rw [← star_mulVec, dotProduct_comm, ← Complex.star_def, star_dotProduct, star_star, dotProduct_comm]
  rw [this]
  simp

end

/-- The product of `n` vectors. -/
def prodVecs {N n : ℕ} (φ : Fin n → Fin N → ℂ) : Fin (N ^ n) → ℂ := fun i => ∏ t, φ t (digit i t)

theorem prodVecs_form {N n : ℕ} (φ : Fin n → Fin N → ℂ) (A : Fin n → Matrix (Fin N) (Fin N) ℂ) :
    star (prodVecs φ) ⬝ᵥ tensorProd A *ᵥ prodVecs φ = ∏ t, star (φ t) ⬝ᵥ A t *ᵥ φ t := by
  have e : ∀ t, star (φ t) ⬝ᵥ A t *ᵥ φ t = ∑ i, ∑ j, star (φ t i) * (A t i j * φ t j) := by
    intro t
    simp only [dotProduct, mulVec, Pi.star_apply, Finset.mul_sum]
  simp only [e]
  rw [prod_sum_pi (fun t i => ∑ j, star (φ t i) * (A t i j * φ t j)), ← sum_digits, dotProduct]
  refine Finset.sum_congr rfl fun i _ => ?_
  rw [prod_sum_pi (fun t j => star (φ t (digit i t)) * (A t (digit i t) j * φ t j)), ← sum_digits, mulVec, dotProduct,
    Finset.mul_sum]
  refine Finset.sum_congr rfl fun j _ => ?_
  simp only [prodVecs, tensorProd, Pi.star_apply, star_prod, Finset.prod_mul_distrib]

theorem prodVecs_unit {N n : ℕ} {φ : Fin n → Fin N → ℂ} (h : ∀ t, star (φ t) ⬝ᵥ φ t = 1) :
    star (prodVecs φ) ⬝ᵥ prodVecs φ = 1 := by
  have := prodVecs_form φ fun _ => 1
  simp only [tensorProd_one, one_mulVec, h, Finset.prod_const_one] at this
  exact this

theorem prodVecs_proj {N n : ℕ} (φ : Fin n → Fin N → ℂ) :
    vecMulVec (prodVecs φ) (star (prodVecs φ)) = tensorProd fun t => vecMulVec (φ t) (star (φ t)) := by
  ext i j
  simp only [vecMulVec_apply, Pi.star_apply, prodVecs, tensorProd, star_prod, Finset.prod_mul_distrib]

/-- Products: the probabilities multiply. -/
theorem unchanged_prods {l N n : ℕ} (K : Fin l → Matrix (Fin N) (Fin N) ℂ) (φ : Fin n → Fin N → ℂ) :
    star (prodVecs φ) ⬝ᵥ applyKraus (tensorPow K n) (vecMulVec (prodVecs φ) (star (prodVecs φ))) *ᵥ prodVecs φ =
      ∏ t, star (φ t) ⬝ᵥ applyKraus K (vecMulVec (φ t) (star (φ t))) *ᵥ φ t := by
  rw [prodVecs_proj, applyKraus_tensor, prodVecs_form]

/-- The product of `n` copies of a vector. -/
def prodVec {N : ℕ} (n : ℕ) (φ : Fin N → ℂ) : Fin (N ^ n) → ℂ := prodVecs fun _ : Fin n => φ

theorem prodVec_unit {N n : ℕ} {φ : Fin N → ℂ} (h : star φ ⬝ᵥ φ = 1) : star (prodVec n φ) ⬝ᵥ prodVec n φ = 1 :=
  prodVecs_unit fun _ => h

theorem unchanged_prod {l N n : ℕ} (K : Fin l → Matrix (Fin N) (Fin N) ℂ) (φ : Fin N → ℂ) :
    star (prodVec n φ) ⬝ᵥ applyKraus (tensorPow K n) (vecMulVec (prodVec n φ) (star (prodVec n φ))) *ᵥ prodVec n φ =
      (((∑ k, Complex.normSq (star φ ⬝ᵥ K k *ᵥ φ)) ^ n : ℝ) : ℂ) := by
  unfold prodVec
  rw [unchanged_prods, unchanged_sum]
  simp

/-- If one operator is diagonal with entries of at least `c`, then every state is found unchanged at least so often. -/
theorem unchanged_ge {l N n : ℕ} (K : Fin l → Matrix (Fin N) (Fin N) ℂ) (k0 : Fin l) (w : Fin N → ℝ)
    (hk : K k0 = diagonal fun i => ((w i : ℝ) : ℂ)) {c : ℝ} (hc : 0 ≤ c) (hw : ∀ i, c ≤ w i) {ψ : Fin (N ^ n) → ℂ}
    (hψ : star ψ ⬝ᵥ ψ = 1) :
    (c ^ n) ^ 2 ≤ (star ψ ⬝ᵥ applyKraus (tensorPow K n) (vecMulVec ψ (star ψ)) *ᵥ ψ).re := by
  rw [unchanged_sum, Complex.ofReal_re]
  let k : Fin (l ^ n) := (digitEquiv l n).symm fun _ => k0
  have hdig : digit k = fun _ => k0 := by
    rw [← digitEquiv_apply]
    exact (digitEquiv l n).apply_symm_apply _
  refine le_trans ?_ (Finset.single_le_sum (fun _ _ => Complex.normSq_nonneg _) (Finset.mem_univ k))
  have e1 : tensorPow K n k = diagonal fun i => ((∏ t, w (digit i t) : ℝ) : ℂ) := by
    unfold tensorPow
    rw [hdig]
    simp only [hk]
    ext i j
    rw [tensorProd]
    by_cases hij : i = j
    · subst hij
      simp
    · rw [diagonal_apply_ne _ hij]
      obtain ⟨t, ht⟩ := Function.ne_iff.mp fun h => hij (digit_injective h)
      exact Finset.prod_eq_zero (Finset.mem_univ t) (diagonal_apply_ne _ ht)
  have e2 : star ψ ⬝ᵥ tensorPow K n k *ᵥ ψ = ((∑ i, (∏ t, w (digit i t)) * Complex.normSq (ψ i) : ℝ) : ℂ) := by
    rw [e1, dotProduct, Complex.ofReal_sum]
    refine Finset.sum_congr rfl fun i _ => ?_
    rw [mulVec_diagonal, Pi.star_apply, Complex.star_def, Complex.ofReal_mul, Complex.normSq_eq_conj_mul_self]
    ring
  have e3 : ∑ i, Complex.normSq (ψ i) = 1 := by
    have : (((∑ i, Complex.normSq (ψ i)) : ℝ) : ℂ) = 1 := by
      rw [← hψ, dotProduct, Complex.ofReal_sum]
      exact Finset.sum_congr rfl fun i _ => Complex.normSq_eq_conj_mul_self
    exact_mod_cast this
  have e4 : c ^ n ≤ ∑ i, (∏ t, w (digit i t)) * Complex.normSq (ψ i) := by
    calc c ^ n = ∑ i, c ^ n * Complex.normSq (ψ i) := by rw [← Finset.mul_sum, e3, mul_one]
      _ ≤ _ := Finset.sum_le_sum fun i _ => mul_le_mul_of_nonneg_right (by
        have : c ^ n = ∏ _t : Fin n, c := by simp
        rw [this]
        exact Finset.prod_le_prod (fun _ _ => hc) fun t _ => hw _) (Complex.normSq_nonneg _)
  rw [e2, Complex.normSq_ofReal, ← pow_two]
  exact pow_le_pow_left₀ (pow_nonneg hc n) e4 2

theorem depolarizing_out {p : ℝ} (h0 : 0 ≤ p) (h1 : p ≤ 1) (x : Matrix (Fin 2) (Fin 2) ℂ) :
    applyKraus (depolarizing p) x = (1 - 4 * p / 3 : ℂ) • x + (2 * p / 3 * trace x : ℂ) • (1 : Matrix (Fin 2) (Fin 2) ℂ) := by
  have e0 := amp_mul_self (show 0 ≤ p / 3 by linarith)
  have e1 := amp_mul_self (sub_nonneg.mpr h1)
  push_cast at e0 e1
  ext i j
  rw [applyKraus_apply]
  fin_cases i <;> fin_cases j <;> simp [depolarizing, Fin.sum_univ_four, Fin.sum_univ_two, amp_conj, trace]
  · linear_combination x 0 0 * e1 + (x 0 0 + 2 * x 1 1) * e0 - amp (p / 3) * amp (p / 3) * x 1 1 * Complex.I_sq
  · linear_combination x 0 1 * e1 - x 0 1 * e0 + amp (p / 3) * amp (p / 3) * x 1 0 * Complex.I_sq
  · linear_combination x 1 0 * e1 - x 1 0 * e0 + amp (p / 3) * amp (p / 3) * x 0 1 * Complex.I_sq
  · linear_combination x 1 1 * e1 + (x 1 1 + 2 * x 0 0) * e0 - amp (p / 3) * amp (p / 3) * x 0 0 * Complex.I_sq

theorem depolarizing_at {p : ℝ} (h0 : 0 ≤ p) (h1 : p ≤ 1) {φ : Fin 2 → ℂ} (hφ : star φ ⬝ᵥ φ = 1) :
    star φ ⬝ᵥ applyKraus (depolarizing p) (vecMulVec φ (star φ)) *ᵥ φ = ((1 - 2 * p / 3 : ℝ) : ℂ) := by
  have hφ' : φ ⬝ᵥ star φ = 1 := by rw [dotProduct_comm, hφ]
  rw [depolarizing_out h0 h1, trace_vecMulVec, hφ', add_mulVec, dotProduct_add, smul_mulVec, smul_mulVec, one_mulVec,
    dotProduct_smul, dotProduct_smul, hφ, vecMulVec_mulVec, hφ, MulOpposite.op_one, one_smul, hφ]
  simp only [smul_eq_mul]
  push_cast
  ring

theorem depolarizing_tp {p : ℝ} (h0 : 0 ≤ p) (h1 : p ≤ 1) : TracePreserving (depolarizing p) := by
  have e0 := amp_mul_self (show 0 ≤ p / 3 by linarith)
  have e1 := amp_mul_self (sub_nonneg.mpr h1)
  push_cast at e0 e1
  rw [tp_apply]
  intro i j
  fin_cases i <;> fin_cases j <;> simp [depolarizing, Fin.sum_univ_four, Fin.sum_univ_two, amp_conj] <;>
    linear_combination 3 * e0 + e1 - amp (p / 3) * amp (p / 3) * Complex.I_sq

end PyQ
