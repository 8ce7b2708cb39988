import Verif.Lemmas.Group
import Mathlib.LinearAlgebra.BilinearForm.Orthogonal

/-! Operators commuting with all rows of a code. -/

namespace PyQ

open Spec Module

variable {n m k : ℕ}

/-- The symplectic form as a bilinear form. -/
def sympB (n : ℕ) : LinearMap.BilinForm (ZMod 2) (BVec n) :=
  LinearMap.mk₂ (ZMod 2) sympV sympV_add_left sympV_smul_left sympV_add_right sympV_smul_right

theorem sympB_apply (u v : BVec n) : sympB n u v = sympV u v := rfl

theorem dotp_single (a : Fin n → ZMod 2) (i : Fin n) : dotp a (Pi.single i 1) = a i := by
  unfold dotp; simp [Pi.single_apply]

theorem sympV_nondeg {v : BVec n} (h : ∀ w, sympV v w = 0) : v = 0 := by
  refine Prod.ext (funext fun i => ?_) (funext fun i => ?_)
  · have := h (0, Pi.single i 1)
    simpa [sympV, dotp_single] using this
  · have := h (Pi.single i 1, 0)
    simpa [sympV, dotp_single] using this

theorem sympB_nondeg : (sympB n).Nondegenerate :=
  ⟨fun v h => sympV_nondeg fun w => h w, fun v h => sympV_nondeg fun w => by rw [sympV_comm]; exact h w⟩

theorem sympV_sum_right {ι : Type} (s : Finset ι) (u : BVec n) (f : ι → BVec n) :
    sympV u (∑ i ∈ s, f i) = ∑ i ∈ s, sympV u (f i) := map_sum (sympB n u) f s

theorem sympV_sum_left {ι : Type} (s : Finset ι) (u : BVec n) (f : ι → BVec n) :
    sympV (∑ i ∈ s, f i) u = ∑ i ∈ s, sympV (f i) u := by
  rw [sympV_comm, sympV_sum_right]; exact Finset.sum_congr rfl fun i _ => sympV_comm _ _

/-- Independent commuting generators with a full set of logical pairs: an operator that commutes with all of them is
generated by the generators. -/
theorem commutant_mem {g : Fin m → BVec n} {x z : Fin k → BVec n} (hm : m + k = n) (hg : LinearIndependent (ZMod 2) g)
    (hgg : ∀ i j, sympV (g i) (g j) = 0) (hxg : ∀ i j, sympV (x i) (g j) = 0) (hzg : ∀ i j, sympV (z i) (g j) = 0)
    (hxz : ∀ i j, sympV (x i) (z j) = if i = j then 1 else 0) (hxx : ∀ i j, sympV (x i) (x j) = 0)
    (hzz : ∀ i j, sympV (z i) (z j) = 0) {v : BVec n}
    (h1 : ∀ i, sympV v (g i) = 0) (h2 : ∀ i, sympV v (x i) = 0) (h3 : ∀ i, sympV v (z i) = 0) :
    v ∈ Submodule.span (ZMod 2) (Set.range g) := by
  set f : Fin m ⊕ (Fin k ⊕ Fin k) → BVec n := Sum.elim g (Sum.elim x z) with hf
  have hli : LinearIndependent (ZMod 2) f := by
    rw [Fintype.linearIndependent_iff]
    intro a ha
    rw [Fintype.sum_sum_type, Fintype.sum_sum_type] at ha
    simp only [hf, Sum.elim_inl, Sum.elim_inr] at ha
    have hx0 : ∀ i, a (.inr (.inl i)) = 0 := by
      intro i
      have := congrArg (fun w => sympV w (z i)) ha
      simp only [sympV_add_left, sympV_sum_left, sympV_smul_left, sympV_zero_left, hxz, hzz, mul_zero,
        Finset.sum_const_zero, add_zero] at this
      rw [Finset.sum_eq_zero fun j _ => by rw [sympV_comm, hzg, mul_zero]] at this
      simpa using this
    have hz0 : ∀ i, a (.inr (.inr i)) = 0 := by
      intro i
      have := congrArg (fun w => sympV w (x i)) ha
      simp only [sympV_add_left, sympV_sum_left, sympV_smul_left, sympV_zero_left, hxx, mul_zero,
        Finset.sum_const_zero, zero_add] at this
      rw [Finset.sum_eq_zero fun j _ => by rw [sympV_comm, hxg, mul_zero], zero_add] at this
      simp only [sympV_comm (z _), hxz] at this
      simpa using this
    simp only [hx0, hz0, zero_smul, Finset.sum_const_zero, add_zero] at ha
    have hg0 := Fintype.linearIndependent_iff.mp hg _ ha
    rintro (i | i | i)
    exacts [hg0 i, hx0 i, hz0 i]
  have hT : finrank (ZMod 2) (Submodule.span (ZMod 2) (Set.range f)) = m + (k + k) := by
    rw [finrank_span_eq_card hli]; simp
  have hO := LinearMap.BilinForm.finrank_orthogonal (sympB_nondeg (n := n)) (Submodule.span (ZMod 2) (Set.range f))
  rw [hT] at hO
  have hV : finrank (ZMod 2) (BVec n) = n + n := by rw [Module.finrank_prod]; simp
  rw [hV] at hO
  have hle : Submodule.span (ZMod 2) (Set.range g) ≤ (sympB n).orthogonal (Submodule.span (ZMod 2) (Set.range f)) := by
    rw [Submodule.span_le]
    rintro _ ⟨i, rfl⟩
    rw [SetLike.mem_coe, LinearMap.BilinForm.mem_orthogonal_iff]
    intro w hw
    rw [sympB_apply]
    induction hw using Submodule.span_induction with
    | zero => exact sympV_zero_left _
    | add a b _ _ ha hb => rw [sympV_add_left, ha, hb, add_zero]
    | smul c a _ ha => rw [sympV_smul_left, ha, mul_zero]
    | mem a ha =>
      obtain ⟨j, rfl⟩ := ha
      rcases j with j | j | j
      exacts [hgg j i, hxg j i, hzg j i]
  have hS : finrank (ZMod 2) (Submodule.span (ZMod 2) (Set.range g)) = m := by
    rw [finrank_span_eq_card hg]; simp
  have heq := Submodule.eq_of_le_of_finrank_le hle (by rw [hO, hS]; omega)
  rw [heq, LinearMap.BilinForm.mem_orthogonal_iff]
  intro w hw
  rw [sympB_apply]
  induction hw using Submodule.span_induction with
  | zero => exact sympV_zero_left _
  | add a b _ _ ha hb => rw [sympV_add_left, ha, hb, add_zero]
  | smul c a _ ha => rw [sympV_smul_left, ha, mul_zero]
  | mem a ha =>
    obtain ⟨j, rfl⟩ := ha
    rw [sympV_comm]
    rcases j with j | j | j
    exacts [h1 j, h2 j, h3 j]

end PyQ
