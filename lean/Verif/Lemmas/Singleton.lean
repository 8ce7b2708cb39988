import Verif.Spec.Distance
import Verif.Lemmas.Normalizer
import Mathlib.LinearAlgebra.Dual.Lemmas

/-! # Disjoint correctable sets of qubits have no more qubits than there are independent generators -/

namespace PyQ

open Spec Module

variable {n : ℕ}

/-- The part of a vector on the qubits of `T`. -/
def restrictTo (T : Finset (Fin n)) : BVec n →ₗ[ZMod 2] (T → ZMod 2) × (T → ZMod 2) where
  toFun v := (fun j => v.1 j, fun j => v.2 j)
  map_add' _ _ := rfl
  map_smul' _ _ := rfl

/-- A vector on the qubits of `T`, zero on the others. -/
def extendFrom (T : Finset (Fin n)) : (T → ZMod 2) × (T → ZMod 2) →ₗ[ZMod 2] BVec n where
  toFun v := (fun j => if h : j ∈ T then v.1 ⟨j, h⟩ else 0, fun j => if h : j ∈ T then v.2 ⟨j, h⟩ else 0)
  map_add' u v := by
    ext j <;> by_cases h : j ∈ T <;> simp [h]
  map_smul' a v := by
    ext j <;> by_cases h : j ∈ T <;> simp [h]

/-- The vectors that are zero outside `T`. -/
def supported (T : Finset (Fin n)) : Submodule (ZMod 2) (BVec n) where
  carrier := {v | ∀ j ∉ T, v.1 j = 0 ∧ v.2 j = 0}
  add_mem' hu hv j hj := by simp [hu j hj, hv j hj]
  zero_mem' _ _ := ⟨rfl, rfl⟩
  smul_mem' a v hv j hj := by simp [hv j hj]

/-- The symplectic form with a vector on the qubits of `T`, as a function of the part on `T` of the other. -/
def sympOn (T : Finset (Fin n)) : (T → ZMod 2) × (T → ZMod 2) →ₗ[ZMod 2] (T → ZMod 2) × (T → ZMod 2) →ₗ[ZMod 2] ZMod 2 :=
  LinearMap.mk₂ (ZMod 2) (fun v w => (∑ j, w.1 j * v.2 j) + ∑ j, w.2 j * v.1 j)
    (fun u v w => by simp only [Prod.fst_add, Prod.snd_add, Pi.add_apply, mul_add, Finset.sum_add_distrib]; ring)
    (fun a v w => by simp only [Prod.smul_fst, Prod.smul_snd, Pi.smul_apply, smul_eq_mul, Finset.mul_sum, mul_add, mul_left_comm])
    (fun u v w => by simp only [Prod.fst_add, Prod.snd_add, Pi.add_apply, add_mul, Finset.sum_add_distrib]; ring)
    (fun a v w => by simp only [Prod.smul_fst, Prod.smul_snd, Pi.smul_apply, smul_eq_mul, Finset.mul_sum, mul_add, mul_assoc])

theorem sympOn_extend (T : Finset (Fin n)) (v : (T → ZMod 2) × (T → ZMod 2)) (w : BVec n) :
    sympOn T v (restrictTo T w) = sympV w (extendFrom T v) := by
  have h : ∀ a b : Fin n → ZMod 2, (∀ j ∉ T, b j = 0) → ∑ j : T, a j * b j = ∑ j, a j * b j := by
    intro a b hb
    rw [Finset.sum_coe_sort T fun j => a j * b j]
    exact Finset.sum_subset (Finset.subset_univ _) fun j _ hj => by rw [hb j hj, mul_zero]
  unfold sympV dotp
  rw [← h w.1 (extendFrom T v).2 (fun j hj => by simp [extendFrom, hj]), ← h w.2 (extendFrom T v).1 (fun j hj => by simp [extendFrom, hj])]
  simp [sympOn, restrictTo, extendFrom]

/-- If every vector on `T` orthogonal to `S` is in `S`, the dimensions satisfy `2 |T| + dim {s ∈ S, zero on T} ≤ dim {s ∈ S, zero outside
T} + dim S`. -/
theorem correctable_dim (T : Finset (Fin n)) (S : Submodule (ZMod 2) (BVec n))
    (h : ∀ v ∈ supported T, (∀ s ∈ S, sympV s v = 0) → v ∈ S) :
    2 * T.card + finrank (ZMod 2) ↥(S ⊓ LinearMap.ker (restrictTo T)) ≤
      finrank (ZMod 2) ↥(S ⊓ supported T) + finrank (ZMod 2) S := by
  set S' := S.map (restrictTo T) with hS'
  -- the part on T of S
  have h1 : finrank (ZMod 2) S' + finrank (ZMod 2) ↥(S ⊓ LinearMap.ker (restrictTo T)) = finrank (ZMod 2) S := by
    have := LinearMap.finrank_range_add_finrank_ker ((restrictTo T).comp S.subtype)
    have e1 : LinearMap.range ((restrictTo T).comp S.subtype) = S' := by
      rw [LinearMap.range_comp, Submodule.range_subtype]
    have e2 : finrank (ZMod 2) (LinearMap.ker ((restrictTo T).comp S.subtype)) = finrank (ZMod 2) ↥(S ⊓ LinearMap.ker (restrictTo T)) := by
      rw [LinearMap.ker_comp, ← Submodule.map_comap_subtype, Submodule.finrank_map_subtype_eq]
    rw [e1, e2] at this
    exact this
  -- what is orthogonal to it
  set Φ : (T → ZMod 2) × (T → ZMod 2) →ₗ[ZMod 2] Dual (ZMod 2) S' := (Submodule.dualRestrict S').comp (sympOn T) with hΦ
  have h2 := LinearMap.finrank_range_add_finrank_ker Φ
  have h3 : finrank (ZMod 2) (LinearMap.range Φ) ≤ finrank (ZMod 2) S' := by
    rw [← Subspace.dual_finrank_eq (V := S')]
    exact Submodule.finrank_le _
  have h4 : finrank (ZMod 2) ((T → ZMod 2) × (T → ZMod 2)) = 2 * T.card := by
    rw [Module.finrank_prod]; simp; ring
  have h5 : finrank (ZMod 2) (LinearMap.ker Φ) ≤ finrank (ZMod 2) ↥(S ⊓ supported T) := by
    have hinj : Function.Injective (extendFrom T) := by
      intro u v huv
      have e1 := congrArg Prod.fst huv
      have e2 := congrArg Prod.snd huv
      ext j
      · have := congrFun e1 j
        simpa [extendFrom] using this
      · have := congrFun e2 j
        simpa [extendFrom] using this
    have hmem : ∀ v : LinearMap.ker Φ, extendFrom T v ∈ S ⊓ supported T := by
      rintro ⟨v, hv⟩
      have hsup : extendFrom T v ∈ supported T := fun j hj => by simp [extendFrom, hj]
      refine ⟨h _ hsup fun s hs => ?_, hsup⟩
      rw [← sympOn_extend]
      have hv0 : Φ v = 0 := hv
      exact LinearMap.congr_fun hv0 (⟨restrictTo T s, Submodule.mem_map_of_mem hs⟩ : S')
    refine LinearMap.finrank_le_finrank_of_injective (f := ((extendFrom T).comp (LinearMap.ker Φ).subtype).codRestrict _ hmem) ?_
    intro u v huv
    exact Subtype.ext (hinj (congrArg Subtype.val huv))
  omega

/-- Two disjoint sets of which every vector orthogonal to `S` is in `S` have together at most `dim S` elements. -/
theorem correctable_disjoint (A B : Finset (Fin n)) (hAB : Disjoint A B) (S : Submodule (ZMod 2) (BVec n))
    (hA : ∀ v ∈ supported A, (∀ s ∈ S, sympV s v = 0) → v ∈ S) (hB : ∀ v ∈ supported B, (∀ s ∈ S, sympV s v = 0) → v ∈ S) :
    A.card + B.card ≤ finrank (ZMod 2) S := by
  have key : ∀ A B : Finset (Fin n), Disjoint A B →
      finrank (ZMod 2) ↥(S ⊓ supported B) ≤ finrank (ZMod 2) ↥(S ⊓ LinearMap.ker (restrictTo A)) := by
    intro A B hAB
    refine Submodule.finrank_mono fun v hv => ⟨hv.1, ?_⟩
    have h0 : ∀ j : A, v.1 j = 0 ∧ v.2 j = 0 := fun j => hv.2 j fun hj => Finset.disjoint_left.mp hAB j.2 hj
    show restrictTo A v = 0
    ext j
    · exact (h0 j).1
    · exact (h0 j).2
  have h1 := correctable_dim A S hA
  have h2 := correctable_dim B S hB
  have h3 := key A B hAB
  have h4 := key B A hAB.symm
  omega

end PyQ
