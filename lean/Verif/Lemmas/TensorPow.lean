import Verif.Spec.Channel
import Mathlib.Algebra.BigOperators.Ring.Finset
import Mathlib.LinearAlgebra.Matrix.PosDef
import Mathlib.Logic.Equiv.Fin.Basic
import Mathlib.Algebra.Order.Star.Basic
import Mathlib.Analysis.Complex.Order
import Mathlib.Analysis.Complex.Basic

/-! Helper lemmas about tensor products numbered by digits and about Kraus maps. -/

namespace PyQ.Spec

open Matrix

/-- The digits as a bijection. -/
def digitEquiv (m n : ℕ) : Fin (m ^ n) ≃ (Fin n → Fin m) :=
  finFunctionFinEquiv.symm.trans (Equiv.arrowCongr Fin.revPerm (Equiv.refl _))

theorem digitEquiv_apply {m n : ℕ} (x : Fin (m ^ n)) : digitEquiv m n x = digit x := by
  funext t
  apply Fin.ext
  simp only [digitEquiv, Equiv.trans_apply, Equiv.arrowCongr_apply, Equiv.coe_refl, Function.comp,
    id, Fin.revPerm_symm, Fin.revPerm_apply, finFunctionFinEquiv_symm_apply_val, digit, Fin.val_rev]
  congr 3
  omega

theorem sum_digits {m n : ℕ} {M : Type} [AddCommMonoid M] (f : (Fin n → Fin m) → M) :
    ∑ x : Fin (m ^ n), f (digit x) = ∑ k, f k := by
  rw [← (digitEquiv m n).sum_comp]
  simp only [digitEquiv_apply]

theorem digit_injective {m n : ℕ} : Function.Injective (digit : Fin (m ^ n) → Fin n → Fin m) := by
  intro x y h
  apply (digitEquiv m n).injective
  rw [digitEquiv_apply, digitEquiv_apply, h]

theorem prod_sum_pi {n : ℕ} {m : ℕ} (f : Fin n → Fin m → ℂ) :
    ∏ t, ∑ k, f t k = ∑ k : Fin n → Fin m, ∏ t, f t (k t) := by
  rw [Finset.prod_univ_sum, Fintype.piFinset_univ]

theorem tensorProd_mul {a b c n : ℕ} (A : Fin n → Matrix (Fin a) (Fin b) ℂ)
    (B : Fin n → Matrix (Fin b) (Fin c) ℂ) :
    tensorProd A * tensorProd B = tensorProd fun t => A t * B t := by
  ext i j
  simp only [tensorProd, Matrix.mul_apply]
  rw [prod_sum_pi, ← sum_digits]
  apply Finset.sum_congr rfl
  intro x _
  rw [← Finset.prod_mul_distrib]

theorem tensorProd_conjTranspose {a b n : ℕ} (A : Fin n → Matrix (Fin a) (Fin b) ℂ) :
    (tensorProd A)ᴴ = tensorProd fun t => (A t)ᴴ := by
  ext i j
  simp only [tensorProd, Matrix.conjTranspose_apply, star_prod]

theorem tensorProd_sum {a b n l : ℕ} (A : Fin n → Fin l → Matrix (Fin a) (Fin b) ℂ) :
    ∑ k : Fin (l ^ n), tensorProd (fun t => A t (digit k t)) = tensorProd fun t => ∑ k, A t k := by
  ext i j
  rw [Matrix.sum_apply]
  simp only [tensorProd, Matrix.sum_apply]
  rw [prod_sum_pi, ← sum_digits]

theorem tensorProd_one {a n : ℕ} : tensorProd (fun _ : Fin n => (1 : Matrix (Fin a) (Fin a) ℂ)) = 1 := by
  ext i j
  simp only [tensorProd, Matrix.one_apply]
  by_cases h : i = j
  · subst h; simp
  · rw [if_neg h]
    have : digit i ≠ digit j := fun h' => h (digit_injective h')
    obtain ⟨t, ht⟩ := Function.ne_iff.mp this
    exact Finset.prod_eq_zero (Finset.mem_univ t) (if_neg ht)

theorem tensorProd_trace {a n : ℕ} (A : Fin n → Matrix (Fin a) (Fin a) ℂ) :
    trace (tensorProd A) = ∏ t, trace (A t) := by
  simp only [trace, diag_apply, tensorProd]
  rw [prod_sum_pi, ← sum_digits]

theorem tensorPow_tp {l a b : ℕ} (K : Fin l → Matrix (Fin a) (Fin b) ℂ) (n : ℕ)
    (h : TracePreserving K) : TracePreserving (tensorPow K n) := by
  unfold TracePreserving tensorPow
  simp only [tensorProd_conjTranspose, tensorProd_mul]
  rw [tensorProd_sum (fun _ k => (K k)ᴴ * K k)]
  unfold TracePreserving at h
  simp only [h, tensorProd_one]

/-- `n` uses on a product of states. -/
theorem applyKraus_tensor {l a b : ℕ} (K : Fin l → Matrix (Fin a) (Fin b) ℂ) (n : ℕ)
    (ρ : Fin n → Matrix (Fin b) (Fin b) ℂ) :
    applyKraus (tensorPow K n) (tensorProd ρ) = tensorProd fun t => applyKraus K (ρ t) := by
  unfold applyKraus tensorPow
  simp only [tensorProd_conjTranspose, tensorProd_mul]
  rw [tensorProd_sum (fun t k => K k * ρ t * (K k)ᴴ)]

theorem adjointKraus_tensor {l a b : ℕ} (K : Fin l → Matrix (Fin a) (Fin b) ℂ) (n : ℕ)
    (σ : Fin n → Matrix (Fin a) (Fin a) ℂ) :
    adjointKraus (tensorPow K n) (tensorProd σ) = tensorProd fun t => adjointKraus K (σ t) := by
  unfold adjointKraus tensorPow
  simp only [tensorProd_conjTranspose, tensorProd_mul]
  rw [tensorProd_sum (fun t k => (K k)ᴴ * σ t * K k)]

section Kraus

variable {ι r c : Type} [Fintype ι] [Fintype r] [Fintype c]

theorem applyKraus_add (K : ι → Matrix r c ℂ) (ρ σ : Matrix c c ℂ) :
    applyKraus K (ρ + σ) = applyKraus K ρ + applyKraus K σ := by
  simp only [applyKraus, Matrix.mul_add, Matrix.add_mul, Finset.sum_add_distrib]

theorem applyKraus_smul (K : ι → Matrix r c ℂ) (z : ℂ) (ρ : Matrix c c ℂ) :
    applyKraus K (z • ρ) = z • applyKraus K ρ := by
  simp only [applyKraus, Matrix.mul_smul, Matrix.smul_mul, Finset.smul_sum]

theorem applyKraus_conjTranspose (K : ι → Matrix r c ℂ) (ρ : Matrix c c ℂ) :
    (applyKraus K ρ)ᴴ = applyKraus K ρᴴ := by
  simp only [applyKraus, Matrix.conjTranspose_sum, Matrix.conjTranspose_mul,
    Matrix.conjTranspose_conjTranspose, Matrix.mul_assoc]

theorem applyKraus_trace [DecidableEq c] (K : ι → Matrix r c ℂ) (h : TracePreserving K)
    (ρ : Matrix c c ℂ) : trace (applyKraus K ρ) = trace ρ := by
  unfold TracePreserving at h
  simp only [applyKraus, trace_sum]
  have : ∀ i, trace (K i * ρ * (K i)ᴴ) = trace ((K i)ᴴ * K i * ρ) := fun i => by
    rw [Matrix.trace_mul_cycle]
  simp only [this]
  rw [← trace_sum, ← Finset.sum_mul, h, Matrix.one_mul]

open scoped ComplexOrder in
theorem applyKraus_posSemidef (K : ι → Matrix r c ℂ) {ρ : Matrix c c ℂ} (h : ρ.PosSemidef) :
    (applyKraus K ρ).PosSemidef :=
  posSemidef_sum _ fun i _ => h.mul_mul_conjTranspose_same (K i)

theorem duality (K : ι → Matrix r c ℂ) (ρ : Matrix c c ℂ) (σ : Matrix r r ℂ) :
    trace (applyKraus K ρ * σ) = trace (ρ * adjointKraus K σ) := by
  simp only [applyKraus, adjointKraus, Finset.sum_mul, Finset.mul_sum, trace_sum]
  apply Finset.sum_congr rfl
  intro i _
  rw [Matrix.mul_assoc, Matrix.mul_assoc, Matrix.trace_mul_comm, Matrix.mul_assoc, Matrix.mul_assoc]

theorem adjointKraus_one [DecidableEq r] [DecidableEq c] (K : ι → Matrix r c ℂ)
    (h : TracePreserving K) : adjointKraus K 1 = 1 := by
  simp only [adjointKraus, Matrix.mul_one]
  exact h

theorem exchange_duality (K : ι → Matrix r c ℂ) (ρ : Matrix c c ℂ) (σ : Matrix ι ι ℂ) :
    trace (entropyExchange K ρ * σ) = trace (ρ * entropyExchangeAdj K σ) := by
  have : trace (entropyExchange K ρ * σ) = ∑ i, ∑ j, entropyExchange K ρ i j * σ j i := rfl
  rw [this]
  simp only [entropyExchangeAdj, Finset.mul_sum, trace_sum, Matrix.mul_smul, trace_smul, smul_eq_mul]
  rw [Finset.sum_comm]
  apply Finset.sum_congr rfl; intro i _
  apply Finset.sum_congr rfl; intro j _
  rw [entropyExchange, Matrix.trace_mul_cycle, Matrix.trace_mul_comm, mul_comm]

theorem exchange_trace (K : ι → Matrix r c ℂ) (ρ : Matrix c c ℂ) :
    trace (entropyExchange K ρ) = trace (applyKraus K ρ) := by
  simp only [applyKraus, trace_sum]
  rfl

theorem exchange_conjTranspose (K : ι → Matrix r c ℂ) (ρ : Matrix c c ℂ) :
    (entropyExchange K ρ)ᴴ = entropyExchange K ρᴴ := by
  ext i j
  simp only [Matrix.conjTranspose_apply, entropyExchange]
  rw [← trace_conjTranspose]
  simp only [Matrix.conjTranspose_mul, Matrix.conjTranspose_conjTranspose, Matrix.mul_assoc]

open scoped ComplexOrder in
theorem exchange_posSemidef (K : ι → Matrix r c ℂ) {ρ : Matrix c c ℂ} (h : ρ.PosSemidef) :
    (entropyExchange K ρ).PosSemidef := by
  -- each row of the operators contributes a positive matrix
  have : entropyExchange K ρ = ∑ t : r, (Matrix.of fun i x => K i t x) * ρ *
      (Matrix.of fun i x => K i t x)ᴴ := by
    ext i j
    simp only [entropyExchange, trace, diag_apply, Matrix.sum_apply, Matrix.mul_apply, of_apply,
      conjTranspose_apply]
  rw [this]
  exact posSemidef_sum _ fun t _ => h.mul_mul_conjTranspose_same _

end Kraus

/-- Composition of two Kraus lists, numbered as `i * l₂ + j`. -/
theorem applyKraus_comp_pow {l₁ l₂ a b c : ℕ} (K₁ : Fin l₁ → Matrix (Fin a) (Fin b) ℂ)
    (K₂ : Fin l₂ → Matrix (Fin b) (Fin c) ℂ) (n : ℕ) (ρ : Matrix (Fin (c ^ n)) (Fin (c ^ n)) ℂ) :
    applyKraus (tensorPow (fun k : Fin (l₁ * l₂) => K₁ k.divNat * K₂ k.modNat) n) ρ =
      applyKraus (tensorPow K₁ n) (applyKraus (tensorPow K₂ n) ρ) := by
  simp only [applyKraus, tensorPow]
  simp only [← tensorProd_mul, Matrix.conjTranspose_mul]
  rw [sum_digits (fun k => tensorProd (fun t => K₁ (k t).divNat) * tensorProd (fun t => K₂ (k t).modNat) * ρ *
    ((tensorProd (fun t => K₂ (k t).modNat))ᴴ * (tensorProd (fun t => K₁ (k t).divNat))ᴴ))]
  rw [sum_digits (fun k => tensorProd (fun t => K₁ (k t)) *
    (∑ i : Fin (l₂ ^ n), tensorProd (fun t => K₂ (digit i t)) * ρ * (tensorProd fun t => K₂ (digit i t))ᴴ) *
      (tensorProd fun t => K₁ (k t))ᴴ)]
  rw [sum_digits (fun k => tensorProd (fun t => K₂ (k t)) * ρ * (tensorProd fun t => K₂ (k t))ᴴ)]
  simp only [Matrix.mul_sum, Matrix.sum_mul]
  rw [← Fintype.sum_prod_type']
  refine Fintype.sum_equiv ((Equiv.arrowCongr (Equiv.refl _) finProdFinEquiv.symm).trans
    (Equiv.arrowProdEquivProdArrow _ _ _)) _ _ ?_
  intro k
  simp only [Matrix.mul_assoc]
  rfl

theorem tp_comp {l₁ l₂ a b c : ℕ} (K₁ : Fin l₁ → Matrix (Fin a) (Fin b) ℂ)
    (K₂ : Fin l₂ → Matrix (Fin b) (Fin c) ℂ) (h₁ : TracePreserving K₁) (h₂ : TracePreserving K₂) :
    TracePreserving (fun k : Fin (l₁ * l₂) => K₁ k.divNat * K₂ k.modNat) := by
  unfold TracePreserving at *
  have e : ∀ k : Fin (l₁ * l₂), (K₁ k.divNat * K₂ k.modNat)ᴴ * (K₁ k.divNat * K₂ k.modNat) =
      (fun p : Fin l₁ × Fin l₂ => (K₂ p.2)ᴴ * ((K₁ p.1)ᴴ * K₁ p.1) * K₂ p.2) (finProdFinEquiv.symm k) := by
    intro k
    simp only [finProdFinEquiv_symm_apply, Matrix.conjTranspose_mul, Matrix.mul_assoc]
  simp only [e]
  rw [Equiv.sum_comp finProdFinEquiv.symm (fun p : Fin l₁ × Fin l₂ =>
    (K₂ p.2)ᴴ * ((K₁ p.1)ᴴ * K₁ p.1) * K₂ p.2), Fintype.sum_prod_type_right]
  rw [← h₂]
  apply Finset.sum_congr rfl
  intro j _
  simp only [← Matrix.sum_mul, ← Matrix.mul_sum]
  rw [h₁, Matrix.mul_one]

/-! ### `kron` -/

theorem sum_finProd {m n : ℕ} {M : Type} [AddCommMonoid M] (f : Fin m → Fin n → M) :
    ∑ x : Fin (m * n), f x.divNat x.modNat = ∑ i, ∑ j, f i j := by
  rw [← Fintype.sum_prod_type', ← Equiv.sum_comp finProdFinEquiv.symm]
  rfl

theorem kron_mul {a b c d p q : ℕ} (A : Matrix (Fin a) (Fin c) ℂ) (B : Matrix (Fin b) (Fin d) ℂ)
    (A' : Matrix (Fin c) (Fin p) ℂ) (B' : Matrix (Fin d) (Fin q) ℂ) :
    kron A B * kron A' B' = kron (A * A') (B * B') := by
  ext i j
  simp only [kron, Matrix.mul_apply, Finset.sum_mul_sum]
  rw [← sum_finProd]
  apply Finset.sum_congr rfl
  intro x _
  ring

theorem kron_conjTranspose {a b c d : ℕ} (A : Matrix (Fin a) (Fin c) ℂ) (B : Matrix (Fin b) (Fin d) ℂ) :
    (kron A B)ᴴ = kron Aᴴ Bᴴ := by
  ext i j
  simp only [kron, conjTranspose_apply, star_mul']

theorem kron_sum {l₁ l₂ a b c d : ℕ} (A : Fin l₁ → Matrix (Fin a) (Fin c) ℂ)
    (B : Fin l₂ → Matrix (Fin b) (Fin d) ℂ) :
    ∑ k : Fin (l₁ * l₂), kron (A k.divNat) (B k.modNat) = kron (∑ i, A i) (∑ j, B j) := by
  rw [sum_finProd (fun i j => kron (A i) (B j))]
  ext i j
  simp only [Matrix.sum_apply, kron, Finset.sum_mul_sum]

theorem kron_one {a b : ℕ} :
    kron (1 : Matrix (Fin a) (Fin a) ℂ) (1 : Matrix (Fin b) (Fin b) ℂ) = 1 := by
  ext i j
  simp only [kron, Matrix.one_apply]
  by_cases h : i = j
  · subst h; simp
  · rw [if_neg h]
    by_cases h1 : i.divNat = j.divNat
    · have h2 : i.modNat ≠ j.modNat := fun h2 => h (finProdFinEquiv.symm.injective (Prod.ext h1 h2))
      rw [if_neg h2, mul_zero]
    · rw [if_neg h1, zero_mul]

theorem applyKraus_kron {l₁ l₂ a b c d : ℕ} (K : Fin l₁ → Matrix (Fin a) (Fin c) ℂ)
    (L : Fin l₂ → Matrix (Fin b) (Fin d) ℂ) (ρ : Matrix (Fin c) (Fin c) ℂ) (σ : Matrix (Fin d) (Fin d) ℂ) :
    applyKraus (fun k : Fin (l₁ * l₂) => kron (K k.divNat) (L k.modNat)) (kron ρ σ) =
      kron (applyKraus K ρ) (applyKraus L σ) := by
  simp only [applyKraus, kron_conjTranspose, kron_mul]
  rw [kron_sum (fun i => K i * ρ * (K i)ᴴ) (fun j => L j * σ * (L j)ᴴ)]

theorem tp_kron {l₁ l₂ a b c d : ℕ} (K : Fin l₁ → Matrix (Fin a) (Fin c) ℂ)
    (L : Fin l₂ → Matrix (Fin b) (Fin d) ℂ) (h₁ : TracePreserving K) (h₂ : TracePreserving L) :
    TracePreserving (fun k : Fin (l₁ * l₂) => kron (K k.divNat) (L k.modNat)) := by
  unfold TracePreserving at *
  simp only [kron_conjTranspose, kron_mul]
  rw [kron_sum (fun i => (K i)ᴴ * K i) (fun j => (L j)ᴴ * L j), h₁, h₂, kron_one]

end PyQ.Spec
