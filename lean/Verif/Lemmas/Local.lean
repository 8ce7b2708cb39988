import Verif.Spec.Local
import Verif.Lemmas.PauliAlg
import Mathlib.LinearAlgebra.Span.Basic
import Mathlib.Data.Complex.Basic
import Mathlib.Data.Complex.BigOperators
import Mathlib.Tactic.LinearCombination
import Mathlib.Tactic.FieldSimp

/-! # Every operator is a combination of Pauli operators on the qubits it acts on -/

namespace PyQ

open Spec

variable {n : ℕ}

theorem sum_sgn_dotp (c : Fin n → ZMod 2) : ∑ z : Fin n → ZMod 2, (sgn (dotp z c) : ℂ) = if c = 0 then 2 ^ n else 0 := by
  split_ifs with h
  · subst h
    simp [ZMod.card]
  · obtain ⟨j, hj⟩ := Function.ne_iff.mp h
    have hj1 : c j = 1 := (zmod2_cases (c j)).resolve_left hj
    set e : Fin n → ZMod 2 := Pi.single j 1 with he
    have h1 : ∑ z : Fin n → ZMod 2, (sgn (dotp z c) : ℂ) = ∑ z : Fin n → ZMod 2, (sgn (dotp (z + e) c) : ℂ) :=
      (Equiv.sum_comp (Equiv.addRight e) fun z => (sgn (dotp z c) : ℂ)).symm
    have h2 : dotp e c = 1 := by
      unfold dotp
      rw [Finset.sum_eq_single j, he, Pi.single_eq_same, one_mul, hj1]
      · intro b _ hb
        rw [he, Pi.single_eq_of_ne hb, zero_mul]
      · simp
    simp only [dotp_add_left, h2, sgn_add, sgn_one, mul_neg, mul_one, Finset.sum_neg_distrib] at h1
    linear_combination (1 / 2 : ℂ) * h1

/-- The coefficient of a Pauli operator. -/
noncomputable def pauliCoeff (A : Matrix (Fin n → ZMod 2) (Fin n → ZMod 2) ℂ) (x z : Fin n → ZMod 2) : ℂ :=
  (2 ^ n : ℂ)⁻¹ * ∑ b, A (b + x) b * sgn (dotp z b)

theorem pauli_expansion (A : Matrix (Fin n → ZMod 2) (Fin n → ZMod 2) ℂ) :
    A = ∑ x, ∑ z, pauliCoeff A x z • pauliMatrix ℂ ⟨x, z⟩ := by
  ext a b
  simp only [Matrix.sum_apply, Matrix.smul_apply, smul_eq_mul, pauliMatrix]
  have h1 : ∀ x, ∑ z, pauliCoeff A x z * (if a = b + x then sgn (dotp z b) else 0) = if x = a + b then A a b else 0 := by
    intro x
    have hiff : a = b + x ↔ x = a + b := by
      constructor
      · rintro rfl
        rw [add_comm b x, add_add_cancel_f]
      · rintro rfl
        rw [add_comm a b, ← add_assoc, add_self_f, zero_add]
    split_ifs with h1 h2 h2
    · unfold pauliCoeff
      simp only [mul_assoc, Finset.sum_mul]
      rw [← Finset.mul_sum, Finset.sum_comm]
      have h3 : ∀ b', ∑ z : Fin n → ZMod 2, A (b' + x) b' * ((sgn (dotp z b') : ℂ) * sgn (dotp z b)) =
          if b' = b then A (b' + x) b' * 2 ^ n else 0 := by
        intro b'
        simp only [← sgn_add, ← dotp_add_right]
        rw [← Finset.mul_sum, sum_sgn_dotp]
        have : b' + b = 0 ↔ b' = b := by
          constructor
          · intro h
            have := congrArg (· + b) h
            simpa [add_add_cancel_f] using this
          · rintro rfl
            exact add_self_f b'
        simp only [this]
        split_ifs <;> simp
      simp only [h3]
      rw [Finset.sum_ite_eq' Finset.univ b, if_pos (Finset.mem_univ b), h1]
      have : (2 : ℂ) ^ n ≠ 0 := pow_ne_zero _ two_ne_zero
      field_simp
    · exact absurd (hiff.mp h1) h2
    · exact absurd (hiff.mpr h2) h1
    · simp
  simp only [h1]
  rw [Finset.sum_ite_eq' Finset.univ (a + b), if_pos (Finset.mem_univ _)]

theorem actsOn_span {T : Finset (Fin n)} {A : Matrix (Fin n → ZMod 2) (Fin n → ZMod 2) ℂ} (h : ActsOn T A) :
    A ∈ Submodule.span ℂ {M | ∃ p : Pauli n, SupportedOn T p ∧ M = pauliMatrix ℂ p} := by
  rw [pauli_expansion A]
  refine Submodule.sum_mem _ fun x _ => Submodule.sum_mem _ fun z _ => ?_
  by_cases hs : SupportedOn T ⟨x, z⟩
  · exact Submodule.smul_mem _ _ (Submodule.subset_span ⟨_, hs, rfl⟩)
  · have h0 : pauliCoeff A x z = 0 := by
      unfold SupportedOn at hs
      push Not at hs
      obtain ⟨j, hj, hxz⟩ := hs
      simp only at hxz
      unfold pauliCoeff
      by_cases hx : x j = 0
      · have hz : z j = 1 := (zmod2_cases (z j)).resolve_left (hxz hx)
        set e : Fin n → ZMod 2 := Pi.single j 1 with he
        have h1 : ∑ b, A (b + x) b * (sgn (dotp z b) : ℂ) = ∑ b, A (b + e + x) (b + e) * (sgn (dotp z (b + e)) : ℂ) :=
          (Equiv.sum_comp (Equiv.addRight e) fun b => A (b + x) b * (sgn (dotp z b) : ℂ)).symm
        have h2 : dotp z e = 1 := by
          unfold dotp
          rw [Finset.sum_eq_single j, he, Pi.single_eq_same, mul_one, hz]
          · intro b _ hb
            rw [he, Pi.single_eq_of_ne hb, mul_zero]
          · simp
        have h3 : ∀ b, A (b + e + x) (b + e) = A (b + x) b := by
          intro b
          rw [add_right_comm]
          refine h.2 _ _ e fun i hi => ?_
          rw [he, Pi.single_eq_of_ne]
          rintro rfl
          exact hj hi
        simp only [h3, dotp_add_right, h2, sgn_add, sgn_one, mul_neg, mul_one, Finset.sum_neg_distrib] at h1
        have h4 : ∑ b, A (b + x) b * (sgn (dotp z b) : ℂ) = 0 := by linear_combination (1 / 2 : ℂ) * h1
        rw [h4, mul_zero]
      · have h1 : ∀ b, A (b + x) b = 0 := by
          intro b
          by_contra hb
          have := h.1 _ _ hb j hj
          rw [Pi.add_apply] at this
          exact hx (by simpa using this)
        simp [h1]
    rw [h0, zero_smul]
    exact Submodule.zero_mem _

end PyQ
