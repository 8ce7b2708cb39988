import Verif.Lemmas.Singleton
import Mathlib.FieldTheory.Finiteness

/-! # Vectors orthogonal to a subspace that can be moved off a set of qubits -/

namespace PyQ

open Spec Module

variable {n : ℕ}

theorem sympB_refl : (sympB n).IsRefl := fun u v h => by
  rw [sympB_apply, sympV_comm]; exact h

theorem mem_orth {S : Submodule (ZMod 2) (BVec n)} {v : BVec n} : v ∈ (sympB n).orthogonal S ↔ ∀ s ∈ S, sympV s v = 0 := Iff.rfl

theorem orth_orth (S : Submodule (ZMod 2) (BVec n)) : (sympB n).orthogonal ((sympB n).orthogonal S) = S :=
  LinearMap.BilinForm.orthogonal_orthogonal sympB_nondeg sympB_refl S

theorem orth_sup (A B : Submodule (ZMod 2) (BVec n)) :
    (sympB n).orthogonal (A ⊔ B) = (sympB n).orthogonal A ⊓ (sympB n).orthogonal B := by
  refine le_antisymm (le_inf (LinearMap.BilinForm.orthogonal_le le_sup_left) (LinearMap.BilinForm.orthogonal_le le_sup_right)) ?_
  rintro v ⟨hA, hB⟩ s hs
  obtain ⟨a, ha, b, hb, rfl⟩ := Submodule.mem_sup.mp hs
  show sympV (a + b) v = 0
  rw [sympV_add_left, mem_orth.mp hA a ha, mem_orth.mp hB b hb, add_zero]

theorem dotp_zero_r (a : Fin n → ZMod 2) : dotp a 0 = 0 := by simp [dotp]

theorem orth_supported (T : Finset (Fin n)) : (sympB n).orthogonal (supported T) = supported Tᶜ := by
  classical
  ext v
  rw [mem_orth]
  constructor
  · intro h j hj
    have hjT : j ∈ T := by simpa using hj
    have h1 := h (0, Pi.single j 1) fun i hi => ⟨rfl, by
      have : i ≠ j := fun e => hi (e ▸ hjT)
      simp [this]⟩
    have h2 := h (Pi.single j 1, 0) fun i hi => ⟨by
      have : i ≠ j := fun e => hi (e ▸ hjT)
      simp [this], rfl⟩
    rw [sympV_comm] at h1 h2
    constructor
    · simpa [sympV, dotp_single, dotp_zero_r] using h1
    · simpa [sympV, dotp_single, dotp_zero_r] using h2
  · intro h s hs
    unfold sympV dotp
    rw [Finset.sum_eq_zero, Finset.sum_eq_zero, add_zero]
    · intro j _
      by_cases hj : j ∈ T
      · rw [(h j (by simpa using hj)).1, mul_zero]
      · rw [(hs j hj).2, zero_mul]
    · intro j _
      by_cases hj : j ∈ T
      · rw [(h j (by simpa using hj)).2, mul_zero]
      · rw [(hs j hj).1, zero_mul]

/-- Everything orthogonal to `S` can be moved off `T` by elements of `S` if and only if everything on `T` orthogonal to `S` is in `S`. -/
theorem clean_iff (T : Finset (Fin n)) (S : Submodule (ZMod 2) (BVec n)) :
    (sympB n).orthogonal S ≤ S ⊔ supported Tᶜ ↔ (sympB n).orthogonal S ⊓ supported T ≤ S := by
  have h1 : (sympB n).orthogonal (S ⊔ supported Tᶜ) = (sympB n).orthogonal S ⊓ supported T := by
    rw [orth_sup, orth_supported, compl_compl]
  constructor
  · intro h
    have h2 := LinearMap.BilinForm.orthogonal_le (B := sympB n) h
    rwa [orth_orth, h1] at h2
  · intro h
    rw [← h1] at h
    have h2 := LinearMap.BilinForm.orthogonal_le (B := sympB n) h
    rwa [orth_orth] at h2

theorem finrank_bvec : finrank (ZMod 2) (BVec n) = 2 * n := by
  rw [Module.finrank_prod]; simp; ring

theorem finrank_orth (S : Submodule (ZMod 2) (BVec n)) :
    finrank (ZMod 2) S + finrank (ZMod 2) ((sympB n).orthogonal S) = 2 * n := by
  have h1 := LinearMap.BilinForm.finrank_orthogonal sympB_nondeg S
  have h2 := Submodule.finrank_le S
  rw [finrank_bvec] at h1 h2
  omega

theorem finrank_supported (T : Finset (Fin n)) : finrank (ZMod 2) (supported T) = 2 * T.card := by
  classical
  let f : ((T → ZMod 2) × (T → ZMod 2)) ≃ₗ[ZMod 2] supported T :=
    { toFun := fun v => ⟨extendFrom T v, fun j hj => by simp [extendFrom, hj]⟩
      map_add' := fun u v => Subtype.ext (map_add _ _ _)
      map_smul' := fun a v => Subtype.ext (map_smul _ _ _)
      invFun := fun v => restrictTo T v
      left_inv := fun v => by ext j <;> simp [extendFrom, restrictTo]
      right_inv := fun v => by
        refine Subtype.ext (Prod.ext (funext fun j => ?_) (funext fun j => ?_)) <;> by_cases hj : j ∈ T
        · simp [extendFrom, restrictTo, hj]
        · simp [extendFrom, restrictTo, hj, (v.2 j hj).1]
        · simp [extendFrom, restrictTo, hj]
        · simp [extendFrom, restrictTo, hj, (v.2 j hj).2] }
  rw [← f.finrank_eq, Module.finrank_prod]; simp; ring

/-- What lives on `T` and what lives off `T`. -/
theorem clean_dim (T : Finset (Fin n)) (S : Submodule (ZMod 2) (BVec n)) :
    finrank (ZMod 2) ↥((sympB n).orthogonal S ⊓ supported T) + finrank (ZMod 2) S =
      2 * T.card + finrank (ZMod 2) ↥(S ⊓ supported Tᶜ) := by
  have h1 : (sympB n).orthogonal (S ⊔ supported Tᶜ) = (sympB n).orthogonal S ⊓ supported T := by
    rw [orth_sup, orth_supported, compl_compl]
  have h2 := finrank_orth (S ⊔ supported Tᶜ)
  have h3 := Submodule.finrank_sup_add_finrank_inf_eq S (supported Tᶜ)
  rw [h1] at h2
  rw [finrank_supported, Finset.card_compl, Fintype.card_fin] at h3
  have h4 : T.card ≤ n := by simpa using Finset.card_le_univ T
  omega

theorem clean_dims (T : Finset (Fin n)) (S : Submodule (ZMod 2) (BVec n)) :
    finrank (ZMod 2) ↥((sympB n).orthogonal S ⊓ supported T) + finrank (ZMod 2) ↥((sympB n).orthogonal S ⊓ supported Tᶜ) +
        2 * finrank (ZMod 2) S =
      2 * n + finrank (ZMod 2) ↥(S ⊓ supported T) + finrank (ZMod 2) ↥(S ⊓ supported Tᶜ) := by
  have h1 := clean_dim T S
  have h2 := clean_dim Tᶜ S
  rw [compl_compl, Finset.card_compl, Fintype.card_fin] at h2
  have h4 : T.card ≤ n := by simpa using Finset.card_le_univ T
  omega

/-- The number of Pauli operators whose vectors lie in a subspace. -/
theorem pauli_ncard (W : Submodule (ZMod 2) (BVec n)) : {p : Pauli n | p.vec ∈ W}.ncard = 2 ^ finrank (ZMod 2) W := by
  have h1 : {p : Pauli n | p.vec ∈ W}.ncard = (W : Set (BVec n)).ncard := by
    refine Set.ncard_congr (fun p _ => p.vec) (fun p hp => hp) (fun p q _ _ h => ?_) (fun v hv => ⟨ofVec v, hv, rfl⟩)
    cases p; cases q
    simpa [Pauli.vec] using h
  rw [h1, ← Nat.card_coe_set_eq]
  have := Module.natCard_eq_pow_finrank (K := ZMod 2) (V := W)
  simpa using this

end PyQ
