import Verif.Spec.Distance
import Verif.Lemmas.Normalizer
import Mathlib.LinearAlgebra.Dual.Lemmas
import Mathlib.FieldTheory.Finiteness
import Mathlib.Data.Fintype.BigOperators
import Mathlib.Data.Nat.Choose.Sum

/-! # Counting errors: how many a table of corrections can undo, how many act on few qubits -/

namespace PyQ

open Spec Module

variable {n m : ℕ}

theorem bvec_add_self (v : BVec n) : v + v = 0 := by rw [← two_smul (ZMod 2)]; exact zero_smul _ _

/-- With which of the generators a vector anticommutes. -/
def readsV (g : Fin m → BVec n) (v : BVec n) : Fin m → ZMod 2 := fun i => sympV (g i) v

theorem readsV_add (g : Fin m → BVec n) (u v : BVec n) : readsV g (u + v) = readsV g u + readsV g v := by
  funext i; exact sympV_add_right _ _ _

theorem readsV_group {g : Fin m → BVec n} (hc : ∀ i j, sympV (g i) (g j) = 0) {v : BVec n}
    (hv : v ∈ Submodule.span (ZMod 2) (Set.range g)) : readsV g v = 0 := by
  funext i
  have h : Submodule.span (ZMod 2) (Set.range g) ≤ LinearMap.ker (sympB n (g i)) := by
    rw [Submodule.span_le]
    rintro _ ⟨j, rfl⟩
    exact hc i j
  exact h hv

/-- Every list of results is the list of results of some error. -/
theorem readsV_surjective {g : Fin m → BVec n} (hg : LinearIndependent (ZMod 2) g) : Function.Surjective (readsV g) := by
  let f : BVec n →ₗ[ZMod 2] (Fin m → ZMod 2) := LinearMap.pi fun i => sympB n (g i)
  have hf : ∀ v, f v = readsV g v := fun v => rfl
  rw [show readsV g = f from rfl]
  rw [← LinearMap.range_eq_top]
  by_contra hne
  obtain ⟨φ, hφ, hle⟩ := Submodule.exists_le_ker_of_lt_top _ (lt_top_iff_ne_top.mpr hne)
  refine hφ ?_
  have hz : ∑ i, φ (Pi.single i 1) • g i = 0 := by
    refine sympV_nondeg fun w => ?_
    rw [sympV_sum_left]
    have h1 : φ (f w) = 0 := hle (LinearMap.mem_range_self f w)
    rw [← h1]
    conv_rhs => rw [LinearMap.pi_apply_eq_sum_univ φ (f w)]
    refine Finset.sum_congr rfl fun i _ => ?_
    rw [sympV_smul_left, smul_eq_mul, mul_comm]
    congr 1
    congr 1
    funext j
    rw [Pi.single_apply]
    by_cases h : i = j
    · simp [h]
    · rw [if_neg h, if_neg (Ne.symm h)]
  have h0 := Fintype.linearIndependent_iff.mp hg _ hz
  refine LinearMap.pi_ext' fun i => LinearMap.ext_ring ?_
  simpa using h0 i

/-- The errors a table undoes: as many as the group has members, for every list of results whose entry has these results. -/
theorem undone_card {g : Fin m → BVec n} (hc : ∀ i j, sympV (g i) (g j) = 0) (T : (Fin m → ZMod 2) → BVec n) :
    {v : BVec n | v + T (readsV g v) ∈ Submodule.span (ZMod 2) (Set.range g)}.ncard =
      {σ : Fin m → ZMod 2 | readsV g (T σ) = σ}.ncard * 2 ^ finrank (ZMod 2) (Submodule.span (ZMod 2) (Set.range g)) := by
  set S := Submodule.span (ZMod 2) (Set.range g)
  have hS : Nat.card S = 2 ^ finrank (ZMod 2) S := by
    rw [Module.natCard_eq_pow_finrank (K := ZMod 2), Nat.card_zmod]
  rw [← hS, ← Nat.card_coe_set_eq, ← Nat.card_coe_set_eq, ← Nat.card_prod]
  refine (Nat.card_congr (Equiv.ofBijective (fun x : {σ : Fin m → ZMod 2 | readsV g (T σ) = σ} × S =>
    (⟨x.2.1 + T x.1.1, ?_⟩ : {v : BVec n | v + T (readsV g v) ∈ S})) ⟨?_, ?_⟩)).symm
  · show _ ∈ S
    rw [readsV_add, readsV_group hc x.2.2, zero_add, x.1.2, add_assoc, bvec_add_self, add_zero]
    exact x.2.2
  · rintro ⟨⟨σ, hσ⟩, ⟨u, hu⟩⟩ ⟨⟨σ', hσ'⟩, ⟨u', hu'⟩⟩ h
    have h1 : u + T σ = u' + T σ' := congrArg Subtype.val h
    have h2 : σ = σ' := by
      have h3 := congrArg (readsV g) h1
      rw [readsV_add, readsV_add, readsV_group hc hu, readsV_group hc hu', zero_add, zero_add] at h3
      rw [← show readsV g (T σ) = σ from hσ, ← show readsV g (T σ') = σ' from hσ', h3]
    subst h2
    have h4 := add_right_cancel h1
    subst h4
    rfl
  · rintro ⟨v, hv⟩
    have hv' : v + T (readsV g v) ∈ S := hv
    have h1 : readsV g (T (readsV g v)) = readsV g v := by
      have h2 := readsV_group hc hv'
      rw [readsV_add] at h2
      funext i
      have hz : ∀ a b : ZMod 2, a + b = 0 → b = a := by decide
      exact hz _ _ (congrFun h2 i)
    refine ⟨(⟨readsV g v, h1⟩, ⟨_, hv'⟩), Subtype.ext ?_⟩
    show v + T (readsV g v) + T (readsV g v) = v
    rw [add_assoc, bvec_add_self, add_zero]

/-- Errors with different results: no more than there are lists of results. -/
theorem apart_card {g : Fin m → BVec n} {E : Set (BVec n)} (h : ∀ u ∈ E, ∀ v ∈ E, readsV g u = readsV g v → u = v) :
    E.ncard ≤ 2 ^ m := by
  have h1 : (readsV g '' E).ncard = E.ncard := Set.ncard_image_of_injOn fun u hu v hv => h u hu v hv
  rw [← h1]
  refine (Set.ncard_le_ncard (Set.subset_univ _)).trans (le_of_eq ?_)
  rw [Set.ncard_univ]
  simp

/-- The errors on at most `t` qubits. -/
theorem weight_card (n t : ℕ) : {p : Pauli n | weight p ≤ t}.ncard = ∑ j ∈ Finset.range (t + 1), n.choose j * 3 ^ j := by
  classical
  let e : Pauli n ≃ (Fin n → ZMod 2 × ZMod 2) :=
    ⟨fun p j => (p.x j, p.z j), fun f => ⟨fun j => (f j).1, fun j => (f j).2⟩, fun _ => rfl, fun _ => rfl⟩
  let supp : (Fin n → ZMod 2 × ZMod 2) → Finset (Fin n) := fun f => Finset.univ.filter fun j => f j ≠ 0
  have hw : ∀ p : Pauli n, weight p = (supp (e p)).card := by
    intro p
    unfold weight
    congr 1
    ext j
    simp only [supp, e, Finset.mem_filter, Finset.mem_univ, true_and, Equiv.coe_fn_mk, ne_eq, Prod.mk_eq_zero]
    tauto
  have hA : ∀ A : Finset (Fin n), (Finset.univ.filter fun f => supp f = A).card = 3 ^ A.card := by
    intro A
    have h1 : (Finset.univ.filter fun f => supp f = A) =
        Fintype.piFinset (fun j => if j ∈ A then (Finset.univ.erase (0 : ZMod 2 × ZMod 2)) else {0}) := by
      ext f
      simp only [Finset.mem_filter, Finset.mem_univ, true_and, Fintype.mem_piFinset, supp]
      constructor
      · rintro rfl j
        by_cases h : f j = 0 <;> simp [h]
      · intro h
        ext j
        have := h j
        by_cases hj : j ∈ A
        · simp only [hj, if_true, Finset.mem_erase, Finset.mem_univ, and_true] at this
          simp [hj, this]
        · simp only [hj, if_false, Finset.mem_singleton] at this
          simp [hj, this]
    rw [h1, Fintype.card_piFinset]
    have h2 : ∀ j, (if j ∈ A then (Finset.univ.erase (0 : ZMod 2 × ZMod 2)) else {0}).card = if j ∈ A then 3 else 1 := by
      intro j
      split_ifs <;> decide
    simp only [h2]
    rw [Finset.prod_ite]
    simp
  have h1 : {p : Pauli n | weight p ≤ t}.ncard = (Finset.univ.filter fun f => (supp f).card ≤ t).card := by
    rw [← Set.ncard_coe_finset, ← Set.ncard_image_of_injective {p : Pauli n | weight p ≤ t} e.injective]
    congr 1
    ext f
    simp only [Set.mem_image, Set.mem_setOf_eq, Finset.coe_filter, Finset.mem_univ, true_and]
    constructor
    · rintro ⟨p, hp, rfl⟩
      rwa [← hw]
    · intro hf
      exact ⟨e.symm f, by rw [hw, Equiv.apply_symm_apply]; exact hf, Equiv.apply_symm_apply _ _⟩
  rw [h1]
  have h2 : ∀ j, (Finset.univ.filter fun f => (supp f).card = j).card = n.choose j * 3 ^ j := by
    intro j
    have h3 : (Finset.univ.filter fun f => (supp f).card = j) =
        (Finset.powersetCard j (Finset.univ : Finset (Fin n))).biUnion fun A => Finset.univ.filter fun f => supp f = A := by
      ext f
      simp
    rw [h3, Finset.card_biUnion]
    · rw [Finset.sum_congr rfl fun A _ => hA A, Finset.sum_congr rfl fun A hA' => by rw [(Finset.mem_powersetCard.mp hA').2]]
      simp
    · intro A _ B _ hAB
      refine Finset.disjoint_left.mpr fun f hf hf' => hAB ?_
      rw [← (Finset.mem_filter.mp hf).2, (Finset.mem_filter.mp hf').2]
  rw [← Finset.sum_congr rfl fun j _ => h2 j]
  rw [← Finset.card_biUnion]
  · congr 1
    ext f
    simp [Nat.lt_succ_iff]
  · intro i _ j _ hij
    refine Finset.disjoint_left.mpr fun f hf hf' => hij ?_
    rw [← (Finset.mem_filter.mp hf).2, (Finset.mem_filter.mp hf').2]

end PyQ
