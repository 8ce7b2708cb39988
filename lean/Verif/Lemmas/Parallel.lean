import Verif.Lemmas.RateLaws
import Verif.Lemmas.DegradablePow
import Verif.Lemmas.Recovery

/-!
# Two different channels side by side on a joint state
-/

namespace PyQ

open Matrix Spec
open scoped ComplexOrder Kronecker

set_option linter.unusedSectionVars false

section Finite

variable {κ m R κ' m' R' : Type} [Fintype κ] [Fintype m] [Fintype R] [DecidableEq κ] [DecidableEq m] [DecidableEq R]
  [Fintype κ'] [Fintype m'] [Fintype R'] [DecidableEq κ'] [DecidableEq m'] [DecidableEq R']

/-- The operators of two channels side by side. -/
def pairOps (K : κ → Matrix m R ℂ) (L : κ' → Matrix m' R' ℂ) : κ × κ' → Matrix (m × m') (R × R') ℂ :=
  fun k => K k.1 ⊗ₖ L k.2

theorem kron_sum_sum (A : κ → Matrix m R ℂ) (B : κ' → Matrix m' R' ℂ) :
    ∑ k : κ × κ', A k.1 ⊗ₖ B k.2 = (∑ i, A i) ⊗ₖ ∑ j, B j := by
  ext ⟨x, x'⟩ ⟨y, y'⟩
  simp only [Matrix.sum_apply, kroneckerMap_apply, Fintype.sum_prod_type, Finset.sum_mul_sum]

theorem pairOps_apply (K : κ → Matrix m R ℂ) (L : κ' → Matrix m' R' ℂ) (A : Matrix R R ℂ) (B : Matrix R' R' ℂ) :
    applyKraus (pairOps K L) (A ⊗ₖ B) = applyKraus K A ⊗ₖ applyKraus L B := by
  unfold applyKraus pairOps
  rw [← kron_sum_sum]
  refine Finset.sum_congr rfl fun k _ => ?_
  rw [conjTranspose_kronecker, ← mul_kronecker_mul, ← mul_kronecker_mul]

theorem pairOps_adjoint (K : κ → Matrix m R ℂ) (L : κ' → Matrix m' R' ℂ) (A : Matrix m m ℂ) (B : Matrix m' m' ℂ) :
    adjointKraus (pairOps K L) (A ⊗ₖ B) = adjointKraus K A ⊗ₖ adjointKraus L B := by
  unfold adjointKraus pairOps
  rw [← kron_sum_sum]
  refine Finset.sum_congr rfl fun k _ => ?_
  rw [conjTranspose_kronecker, ← mul_kronecker_mul, ← mul_kronecker_mul]

theorem adjoint_one {K : κ → Matrix m R ℂ} (hK : TracePreserving K) : adjointKraus K 1 = 1 := by
  unfold adjointKraus
  simp only [Matrix.mul_one]
  exact hK

theorem pairOps_tp {K : κ → Matrix m R ℂ} {L : κ' → Matrix m' R' ℂ} (hK : TracePreserving K) (hL : TracePreserving L) :
    TracePreserving (pairOps K L) := by
  have h := pairOps_adjoint K L 1 1
  rw [adjoint_one hK, adjoint_one hL, one_kronecker_one, one_kronecker_one] at h
  unfold adjointKraus at h
  simp only [Matrix.mul_one] at h
  exact h

theorem ext_of_trace {A B : Matrix m m ℂ} (h : ∀ M, trace (A * M) = trace (B * M)) : A = B := by
  ext x y
  have hs : ∀ A : Matrix m m ℂ, trace (A * Matrix.single y x (1 : ℂ)) = A x y := by
    intro A
    rw [trace, Finset.sum_eq_single x]
    · rw [diag_apply, mul_single_apply_same, mul_one]
    · intro z _ hz
      rw [diag_apply, mul_single_apply_of_ne _ _ _ _ _ hz]
    · simp
  have := h (Matrix.single y x 1)
  rwa [hs, hs] at this

theorem firstPart_side (K : κ → Matrix m R ℂ) {L : κ' → Matrix m' R' ℂ} (hL : TracePreserving L)
    (ρ : Matrix (R × R') (R × R') ℂ) : firstPart (applyKraus (pairOps K L) ρ) = applyKraus K (firstPart ρ) := by
  refine ext_of_trace fun M => ?_
  rw [← trace_firstPart, duality, pairOps_adjoint, adjoint_one hL, trace_firstPart, duality]

theorem secondPart_side {K : κ → Matrix m R ℂ} (hK : TracePreserving K) (L : κ' → Matrix m' R' ℂ)
    (ρ : Matrix (R × R') (R × R') ℂ) : secondPart (applyKraus (pairOps K L) ρ) = applyKraus L (secondPart ρ) := by
  refine ext_of_trace fun M => ?_
  rw [← trace_secondPart, duality, pairOps_adjoint, adjoint_one hK, trace_secondPart, duality]

theorem firstPart_psd {ρ : Matrix (R × R') (R × R') ℂ} (hρ : ρ.PosSemidef) : (firstPart ρ).PosSemidef := by
  have h : firstPart ρ = ∑ y, ρ.submatrix (fun x => (x, y)) (fun x => (x, y)) := by
    ext x x'
    simp [firstPart, Matrix.sum_apply]
  rw [h]
  exact posSemidef_sum _ fun y _ => hρ.submatrix _

theorem secondPart_psd {ρ : Matrix (R × R') (R × R') ℂ} (hρ : ρ.PosSemidef) : (secondPart ρ).PosSemidef := by
  have h : secondPart ρ = ∑ y, ρ.submatrix (fun x => (y, x)) (fun x => (y, x)) := by
    ext x x'
    simp [secondPart, Matrix.sum_apply]
  rw [h]
  exact posSemidef_sum _ fun y _ => hρ.submatrix _

/-- What two parts know of each other does not grow under channels on the parts. -/
theorem mutual_mono_two {B : κ → Matrix m R ℂ} {C : κ' → Matrix m' R' ℂ} (hB : TracePreserving B) (hC : TracePreserving C)
    {ρ : Matrix (R × R') (R × R') ℂ} (hρ : ρ.PosSemidef) :
    specSum Real.negMulLog (applyKraus B (firstPart ρ)) + specSum Real.negMulLog (applyKraus C (secondPart ρ)) -
        specSum Real.negMulLog (applyKraus (pairOps B C) ρ) ≤
      specSum Real.negMulLog (firstPart ρ) + specSum Real.negMulLog (secondPart ρ) - specSum Real.negMulLog ρ := by
  have hρ' := applyKraus_posSemidef (pairOps B C) hρ
  have h1 := firstPart_psd hρ
  have h2 := secondPart_psd hρ
  have h1' := applyKraus_posSemidef B h1
  have h2' := applyKraus_posSemidef C h2
  obtain ⟨V, p, e, c⟩ := exists_eigen hρ
  obtain ⟨U1, q1, e1, c1⟩ := exists_eigen h1
  obtain ⟨U2, q2, e2, c2⟩ := exists_eigen h2
  obtain ⟨V', p', e', c'⟩ := exists_eigen hρ'
  obtain ⟨U1', q1', e1', c1'⟩ := exists_eigen h1'
  obtain ⟨U2', q2', e2', c2'⟩ := exists_eigen h2'
  obtain ⟨r1, s1⟩ := relEnt_parts e e1 e2
  obtain ⟨r2, s2⟩ := relEnt_parts (U := U1') (u := q1') (W := U2') (v := q2') e' (by rw [firstPart_side B hC]; exact e1')
    (by rw [secondPart_side hB C]; exact e2')
  rw [specSum_eq h1 c1 Real.negMulLog_zero, specSum_eq h2 c2 Real.negMulLog_zero, specSum_eq hρ c Real.negMulLog_zero,
    specSum_eq h1' c1' Real.negMulLog_zero, specSum_eq h2' c2' Real.negMulLog_zero, specSum_eq hρ' c' Real.negMulLog_zero,
    ← r1, ← r2]
  refine relEnt_mono (pairOps B C) (pairOps_tp hB hC) e (eigen_kron e1 e2) hρ (h1.kronecker h2) e' ?_ s1 s2
  rw [pairOps_apply]
  exact eigen_kron e1' e2'

/-- Two additive maps that agree on products agree. -/
theorem map_ext_kron {F G : Matrix (R × R') (R × R') ℂ →+ Matrix m m ℂ}
    (h : ∀ (A : Matrix R R ℂ) (B : Matrix R' R' ℂ), F (A ⊗ₖ B) = G (A ⊗ₖ B)) (ρ : Matrix (R × R') (R × R') ℂ) : F ρ = G ρ := by
  induction ρ using Matrix.induction_on' with
  | h_zero => rw [map_zero, map_zero]
  | h_add p q hp hq => rw [map_add, map_add, hp, hq]
  | h_std_basis i j x =>
    have : Matrix.single i j x = Matrix.single i.1 j.1 x ⊗ₖ Matrix.single i.2 j.2 (1 : ℂ) := by
      rw [single_kronecker_single, mul_one]
    rw [this, h]

/-- A channel as an additive map. -/
def krausHom (K : κ → Matrix m R ℂ) : Matrix R R ℂ →+ Matrix m m ℂ where
  toFun := applyKraus K
  map_zero' := by simp [applyKraus]
  map_add' A B := by simp [applyKraus, Matrix.mul_add, Matrix.add_mul, Finset.sum_add_distrib]

theorem pairOps_compl (K : κ → Matrix m R ℂ) (L : κ' → Matrix m' R' ℂ) :
    complOps (pairOps K L) = pairOps (complOps K) (complOps L) := rfl

/-- If both environments can be made from the outputs, so can the joint one. -/
theorem degradable_side {δ δ' : Type} [Fintype δ] [Fintype δ'] [DecidableEq δ] [DecidableEq δ']
    {D : δ → Matrix κ m ℂ} {E : δ' → Matrix κ' m' ℂ}
    {K : κ → Matrix m R ℂ} {L : κ' → Matrix m' R' ℂ} (hD : ∀ ρ, applyKraus D (applyKraus K ρ) = entropyExchange K ρ)
    (hE : ∀ ρ, applyKraus E (applyKraus L ρ) = entropyExchange L ρ) (ρ : Matrix (R × R') (R × R') ℂ) :
    applyKraus (pairOps D E) (applyKraus (pairOps K L) ρ) = entropyExchange (pairOps K L) ρ := by
  rw [← applyKraus_compl, pairOps_compl]
  refine map_ext_kron (F := (krausHom (pairOps D E)).comp (krausHom (pairOps K L)))
    (G := krausHom (pairOps (complOps K) (complOps L))) (fun A B => ?_) ρ
  show applyKraus (pairOps D E) (applyKraus (pairOps K L) (A ⊗ₖ B)) = applyKraus (pairOps (complOps K) (complOps L)) (A ⊗ₖ B)
  rw [pairOps_apply, pairOps_apply, pairOps_apply, hD, hE, applyKraus_compl, applyKraus_compl]

/-- If both environments can be made from the outputs, two channels on a joint state have at most the coherent information of
each on its part. -/
theorem degradable_subadd_two {δ δ' : Type} [Fintype δ] [Fintype δ'] [DecidableEq δ] [DecidableEq δ']
    {D : δ → Matrix κ m ℂ} {E : δ' → Matrix κ' m' ℂ} (hD' : TracePreserving D) (hE' : TracePreserving E)
    {K : κ → Matrix m R ℂ} {L : κ' → Matrix m' R' ℂ} (hK : TracePreserving K) (hL : TracePreserving L)
    (hD : ∀ ρ, applyKraus D (applyKraus K ρ) = entropyExchange K ρ)
    (hE : ∀ ρ, applyKraus E (applyKraus L ρ) = entropyExchange L ρ) {ρ : Matrix (R × R') (R × R') ℂ} (hρ : ρ.PosSemidef) :
    krausInfo (pairOps K L) ρ ≤ krausInfo K (firstPart ρ) + krausInfo L (secondPart ρ) := by
  have key := mutual_mono_two hD' hE' (applyKraus_posSemidef (pairOps K L) hρ)
  rw [firstPart_side K hL, secondPart_side hK L, hD, hE, degradable_side hD hE] at key
  unfold krausInfo
  linarith

end Finite

/-! ### The same for numbered operators -/

section Numbered

variable {l₁ l₂ a b c d : ℕ}

theorem kron_pairOps (K : Fin l₁ → Matrix (Fin a) (Fin c) ℂ) (L : Fin l₂ → Matrix (Fin b) (Fin d) ℂ) :
    (fun k : Fin (l₁ * l₂) => kron (K k.divNat) (L k.modNat)) =
      fun k => (pairOps K L (finProdFinEquiv.symm k)).submatrix finProdFinEquiv.symm finProdFinEquiv.symm := rfl

theorem krausInfo_parallel {K : Fin l₁ → Matrix (Fin a) (Fin c) ℂ} {L : Fin l₂ → Matrix (Fin b) (Fin d) ℂ}
    {ρ : Matrix (Fin (c * d)) (Fin (c * d)) ℂ} (hρ : ρ.PosSemidef) :
    krausInfo (fun k : Fin (l₁ * l₂) => kron (K k.divNat) (L k.modNat)) ρ =
      krausInfo (pairOps K L) (ρ.submatrix finProdFinEquiv finProdFinEquiv) := by
  have h := krausInfo_reindex finProdFinEquiv.symm finProdFinEquiv.symm finProdFinEquiv.symm (pairOps K L)
    (hρ.submatrix (finProdFinEquiv : Fin c × Fin d ≃ Fin (c * d)))
  rw [submatrix_submatrix] at h
  simp only [Equiv.self_comp_symm, submatrix_id_id] at h
  rw [kron_pairOps, h]

/-- If each environment can be made from the output, so can that of the product. -/
theorem degradable_kron {p q : ℕ} {D : Fin p → Matrix (Fin l₁) (Fin a) ℂ} {E : Fin q → Matrix (Fin l₂) (Fin b) ℂ}
    {K : Fin l₁ → Matrix (Fin a) (Fin c) ℂ} {L : Fin l₂ → Matrix (Fin b) (Fin d) ℂ}
    (hD : ∀ ρ, applyKraus D (applyKraus K ρ) = entropyExchange K ρ)
    (hE : ∀ ρ, applyKraus E (applyKraus L ρ) = entropyExchange L ρ) (ρ : Matrix (Fin (c * d)) (Fin (c * d)) ℂ) :
    applyKraus (fun k : Fin (p * q) => kron (D k.divNat) (E k.modNat))
        (applyKraus (fun k : Fin (l₁ * l₂) => kron (K k.divNat) (L k.modNat)) ρ) =
      entropyExchange (fun k : Fin (l₁ * l₂) => kron (K k.divNat) (L k.modNat)) ρ := by
  have hρ : ρ = (ρ.submatrix (finProdFinEquiv : Fin c × Fin d ≃ Fin (c * d)) finProdFinEquiv).submatrix finProdFinEquiv.symm
      finProdFinEquiv.symm := by
    rw [submatrix_submatrix]; simp
  have hc : complOps (fun k : Fin (l₁ * l₂) => kron (K k.divNat) (L k.modNat)) =
      fun k => (pairOps (complOps K) (complOps L) (finProdFinEquiv.symm k)).submatrix finProdFinEquiv.symm finProdFinEquiv.symm := rfl
  rw [← applyKraus_compl, hc, kron_pairOps, kron_pairOps]
  rw [hρ, applyKraus_reindex, applyKraus_reindex, applyKraus_reindex]
  congr 1
  rw [degradable_side hD hE, ← applyKraus_compl, pairOps_compl]

/-- If each output can be made from the environment, so can that of the product. -/
theorem antidegradable_kron {p q : ℕ} {D : Fin p → Matrix (Fin a) (Fin l₁) ℂ} {E : Fin q → Matrix (Fin b) (Fin l₂) ℂ}
    {K : Fin l₁ → Matrix (Fin a) (Fin c) ℂ} {L : Fin l₂ → Matrix (Fin b) (Fin d) ℂ}
    (hD : ∀ ρ, applyKraus D (entropyExchange K ρ) = applyKraus K ρ)
    (hE : ∀ ρ, applyKraus E (entropyExchange L ρ) = applyKraus L ρ) (ρ : Matrix (Fin (c * d)) (Fin (c * d)) ℂ) :
    applyKraus (fun k : Fin (p * q) => kron (D k.divNat) (E k.modNat))
        (entropyExchange (fun k : Fin (l₁ * l₂) => kron (K k.divNat) (L k.modNat)) ρ) =
      applyKraus (fun k : Fin (l₁ * l₂) => kron (K k.divNat) (L k.modNat)) ρ := by
  have h := degradable_kron (K := complOps K) (L := complOps L) (D := D) (E := E)
    (fun σ => by rw [applyKraus_compl, hD, exchange_compl]) (fun σ => by rw [applyKraus_compl, hE, exchange_compl]) ρ
  have hc : (fun k : Fin (a * b) => kron (complOps K k.divNat) (complOps L k.modNat)) =
      complOps (fun k : Fin (l₁ * l₂) => kron (K k.divNat) (L k.modNat)) := rfl
  rwa [hc, applyKraus_compl, exchange_compl] at h

end Numbered

end PyQ
