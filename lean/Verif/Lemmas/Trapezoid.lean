import Mathlib.Analysis.InnerProductSpace.PiL2
import Mathlib.Analysis.Matrix.PosDef
import Mathlib.Analysis.Matrix.Spectrum

/-!
# Lower trapezoidal factors of positive semidefinite matrices of low rank
-/

namespace PyQ

open Matrix
open scoped ComplexOrder InnerProductSpace

/-- An orthonormal basis whose first vector has the direction of a given vector. -/
theorem exists_basis_first {r : ℕ} (a : EuclideanSpace ℂ (Fin (r + 1))) :
    ∃ e : OrthonormalBasis (Fin (r + 1)) ℂ (EuclideanSpace ℂ (Fin (r + 1))), a = (‖a‖ : ℂ) • e 0 := by
  by_cases ha : a = 0
  · exact ⟨EuclideanSpace.basisFun _ _, by simp [ha]⟩
  · have hn : ‖a‖ ≠ 0 := norm_ne_zero_iff.mpr ha
    let v : Fin (r + 1) → EuclideanSpace ℂ (Fin (r + 1)) := fun _ => (‖a‖ : ℂ)⁻¹ • a
    have hv : Orthonormal ℂ (({0} : Set (Fin (r + 1))).restrict v) := by
      constructor
      · intro i
        show ‖(‖a‖ : ℂ)⁻¹ • a‖ = 1
        rw [norm_smul, norm_inv, Complex.norm_real, norm_norm, inv_mul_cancel₀ hn]
      · intro i j hij
        exact absurd (Subtype.ext (i.2.trans j.2.symm)) hij
    obtain ⟨b, hb⟩ := hv.exists_orthonormalBasis_extension_of_card_eq (by simp)
    refine ⟨b, ?_⟩
    rw [hb 0 rfl]
    simp only [v]
    rw [smul_smul, mul_inv_cancel₀ (by exact_mod_cast hn), one_smul]

/-- Vectors of length `r` have the inner products of the rows of a lower trapezoidal matrix with real
nonnegative diagonal. -/
theorem exists_trapezoid (n : ℕ) : ∀ (r : ℕ) (A : Matrix (Fin n) (Fin r) ℂ),
    ∃ L : Matrix (Fin n) (Fin r) ℂ, L * Lᴴ = A * Aᴴ ∧ (∀ (i : Fin n) (j : Fin r), (i : ℕ) < j → L i j = 0) ∧
      ∀ (i : Fin n) (j : Fin r), (i : ℕ) = j → 0 ≤ (L i j).re ∧ (L i j).im = 0 := by
  induction n with
  | zero => exact fun r A => ⟨A, rfl, fun i => i.elim0, fun i => i.elim0⟩
  | succ n ih =>
    intro r A
    cases r with
    | zero => exact ⟨A, rfl, fun _ j => j.elim0, fun _ j => j.elim0⟩
    | succ r =>
      let row : Fin (n + 1) → EuclideanSpace ℂ (Fin (r + 1)) := fun i => WithLp.toLp 2 (A i)
      obtain ⟨e, he⟩ := exists_basis_first (row 0)
      -- the rows in the new basis
      let B : Matrix (Fin (n + 1)) (Fin (r + 1)) ℂ := fun i j => ⟪e j, row i⟫_ℂ
      have hB : B * Bᴴ = A * Aᴴ := by
        ext i k
        rw [mul_apply, mul_apply]
        have h1 := e.sum_inner_mul_inner (row k) (row i)
        have h2 : ⟪row k, row i⟫_ℂ = ∑ j, A i j * star (A k j) := by
          rw [PiLp.inner_apply]
          exact Finset.sum_congr rfl fun j _ => by simp [row]
        rw [h2] at h1
        simp only [conjTranspose_apply]
        rw [← h1]
        refine Finset.sum_congr rfl fun j _ => ?_
        simp only [B]
        rw [← inner_conj_symm (row k) (e j), mul_comm]
        rfl
      have hB0 : ∀ j, B 0 j = if j = 0 then (‖row 0‖ : ℂ) else 0 := by
        intro j
        have h5 : B 0 j = (‖row 0‖ : ℂ) * ⟪e j, e 0⟫_ℂ := by
          rw [← inner_smul_right, ← he]
        rw [h5]
        by_cases hj : j = 0
        · subst hj
          simp
        · rw [e.orthonormal.2 hj, mul_zero, if_neg hj]
      obtain ⟨L', h1, h2, h3⟩ := ih r (fun i j => B i.succ j.succ)
      let L : Matrix (Fin (n + 1)) (Fin (r + 1)) ℂ :=
        Fin.cases (B 0) fun i => Fin.cases (B i.succ 0) fun j => L' i j
      refine ⟨L, ?_, ?_, ?_⟩
      · rw [← hB]
        ext i k
        rw [mul_apply, mul_apply, Fin.sum_univ_succ, Fin.sum_univ_succ]
        simp only [conjTranspose_apply]
        have hz : ∀ j : Fin r, B 0 j.succ = 0 := fun j => by rw [hB0, if_neg (Fin.succ_ne_zero j)]
        refine Fin.cases ?_ (fun i => ?_) i <;> refine Fin.cases ?_ (fun k => ?_) k
        · rfl
        · simp [L, hz]
        · simp [L, hz]
        · have h4 := congrFun (congrFun h1 i) k
          simp only [mul_apply, conjTranspose_apply] at h4
          exact congrArg (B i.succ 0 * star (B k.succ 0) + ·) h4
      · intro i j
        refine Fin.cases (fun h => ?_) (fun i => ?_) i
        · simp only [L, Fin.cases_zero]
          rw [hB0, if_neg]
          rintro rfl
          simp at h
        · refine Fin.cases (fun h => by simp at h) (fun j h => ?_) j
          exact h2 i j (by simpa using h)
      · intro i j
        refine Fin.cases (fun h => ?_) (fun i => ?_) i
        · obtain rfl : j = 0 := by
            apply Fin.ext
            simpa using h.symm
          simp only [L, Fin.cases_zero]
          rw [hB0, if_pos rfl]
          exact ⟨by simp, by simp⟩
        · refine Fin.cases (fun h => by simp at h) (fun j h => ?_) j
          exact h3 i j (by simpa using h)

end PyQ
