import Verif.Model.LinAlg
import Mathlib.Analysis.Matrix.Spectrum
import Mathlib.Analysis.Matrix.PosDef
import Mathlib.LinearAlgebra.Matrix.Charpoly.Coeff
import Mathlib.LinearAlgebra.Matrix.Charpoly.Eigs
import Mathlib.Data.Fin.Tuple.Sort

/-!
# The contracts of the numerical routines can be met
-/

namespace PyQ

open Matrix Polynomial
open scoped ComplexOrder

theorem Arr.ofMat_mat {r c : ℕ} (M : Matrix (Fin r) (Fin c) ℂ) : (Arr.ofMat M).mat r c = M := by
  ext i j
  simp [Arr.mat, Arr.ofMat]

/-- Every Hermitian matrix is `V diag(w) V†` with ascending `w` and unitary `V`. -/
theorem hermitian_decomp {n : ℕ} (A : Matrix (Fin n) (Fin n) ℂ) (hA : A.IsHermitian) :
    ∃ (w : Fin n → ℝ) (V : Matrix (Fin n) (Fin n) ℂ), Monotone w ∧ Vᴴ * V = 1 ∧
      A * V = V * diagonal fun i => (w i : ℂ) := by
  let U : Matrix (Fin n) (Fin n) ℂ := hA.eigenvectorUnitary
  have hU : Uᴴ * U = 1 := Unitary.coe_star_mul_self hA.eigenvectorUnitary
  have hAU : A * U = U * diagonal fun i => (hA.eigenvalues i : ℂ) := by
    ext i j
    have h := congrFun (hA.mulVec_eigenvectorBasis j) i
    rw [Matrix.mul_apply, mul_diagonal]
    change ∑ k, A i k * (hA.eigenvectorBasis j) k = (hA.eigenvectorBasis j) i * _
    change ∑ k, A i k * (hA.eigenvectorBasis j) k = _ at h
    rw [h, mul_comm]
    rfl
  let σ := Tuple.sort hA.eigenvalues
  refine ⟨hA.eigenvalues ∘ σ, U.submatrix id σ, Tuple.monotone_sort _, ?_, ?_⟩
  · ext i j
    have := congrFun (congrFun hU (σ i)) (σ j)
    rw [Matrix.mul_apply] at this ⊢
    simp only [conjTranspose_apply, submatrix_apply, id, Matrix.one_apply, σ.injective.eq_iff] at this ⊢
    exact this
  · ext i j
    have := congrFun (congrFun hAU i) (σ j)
    rw [Matrix.mul_apply, mul_diagonal] at this ⊢
    exact this

theorem charpoly_of_decomp {n : ℕ} (A V : Matrix (Fin n) (Fin n) ℂ) (w : Fin n → ℝ) (hV : Vᴴ * V = 1)
    (hA : A * V = V * diagonal fun i => (w i : ℂ)) :
    A.charpoly = ∏ i, (X - C ((w i : ℝ) : ℂ)) := by
  have hV' : V * Vᴴ = 1 := mul_eq_one_comm.mp hV
  have : A = V * diagonal (fun i => (w i : ℂ)) * Vᴴ := by
    rw [← hA, Matrix.mul_assoc, hV', Matrix.mul_one]
  rw [this, Matrix.charpoly_mul_comm, ← Matrix.mul_assoc, hV, Matrix.one_mul, charpoly_diagonal]

/-- There is a routine that meets the contract of `np.linalg.eigh`. -/
theorem exists_eigh : ∃ eigh : Eigh, eigh.Correct := by
  classical
  refine ⟨fun A => if h : (A.mat A.rows A.rows).IsHermitian then
    (fun i => if hi : i < A.rows then (hermitian_decomp _ h).choose ⟨i, hi⟩ else 0,
      Arr.ofMat (hermitian_decomp _ h).choose_spec.choose) else (0, A), ?_⟩
  intro A n hr hc hA
  subst hr
  obtain ⟨h1, h2, h3⟩ := (hermitian_decomp _ hA).choose_spec.choose_spec
  simp only [dif_pos hA]
  refine ⟨rfl, rfl, ?_, ?_, ?_⟩
  · intro i j hij hj
    rw [dif_pos (lt_of_le_of_lt hij hj), dif_pos hj]
    exact h1 hij
  · rw [Arr.ofMat_mat]
    exact h2
  · rw [Arr.ofMat_mat]
    simp only [Fin.is_lt, dif_pos]
    exact h3

/-- There is a routine that meets the contract of `np.linalg.eigvalsh`. -/
theorem exists_eigvalsh : ∃ eig : Eigvalsh, eig.Correct := by
  obtain ⟨eigh, h⟩ := exists_eigh
  refine ⟨fun A => (eigh A).1, ?_⟩
  intro A n hr hc hA
  obtain ⟨-, -, -, h4, h5⟩ := h A n hr hc hA
  exact charpoly_of_decomp _ _ _ h4 h5

/-- There is a routine that meets the contract of `scipy.linalg.sqrtm`. -/
theorem exists_sqrtm : ∃ sqrtm : Sqrtm, sqrtm.Correct := by
  have key : ∀ (n : ℕ) (A : Matrix (Fin n) (Fin n) ℂ), A.PosSemidef →
      ∃ B : Matrix (Fin n) (Fin n) ℂ, B.PosSemidef ∧ B * B = A := by
    intro n A hA
    obtain ⟨w, V, -, h2, h3⟩ := hermitian_decomp A hA.isHermitian
    have hV' : V * Vᴴ = 1 := mul_eq_one_comm.mp h2
    have hD : diagonal (fun i => ((w i : ℝ) : ℂ)) = Vᴴ * A * V := by
      rw [Matrix.mul_assoc, h3, ← Matrix.mul_assoc, h2, Matrix.one_mul]
    have hw : ∀ i, 0 ≤ w i := by
      have hP : (diagonal (fun i => ((w i : ℝ) : ℂ))).PosSemidef := by
        rw [hD]
        exact hA.conjTranspose_mul_mul_same V
      rw [posSemidef_diagonal_iff] at hP
      intro i
      exact_mod_cast hP i
    refine ⟨V * diagonal (fun i => ((Real.sqrt (w i) : ℝ) : ℂ)) * Vᴴ, ?_, ?_⟩
    · apply PosSemidef.mul_mul_conjTranspose_same
      rw [posSemidef_diagonal_iff]
      intro i
      exact_mod_cast Real.sqrt_nonneg _
    · have : ∀ i, ((Real.sqrt (w i) : ℝ) : ℂ) * (Real.sqrt (w i) : ℝ) = (w i : ℝ) := by
        intro i
        rw [← Complex.ofReal_mul, Real.mul_self_sqrt (hw i)]
      calc V * diagonal (fun i => ((Real.sqrt (w i) : ℝ) : ℂ)) * Vᴴ *
            (V * diagonal (fun i => ((Real.sqrt (w i) : ℝ) : ℂ)) * Vᴴ)
          = V * diagonal (fun i => ((Real.sqrt (w i) : ℝ) : ℂ)) * (Vᴴ * V) *
            diagonal (fun i => ((Real.sqrt (w i) : ℝ) : ℂ)) * Vᴴ := by simp only [Matrix.mul_assoc]
        _ = V * diagonal (fun i => ((w i : ℝ) : ℂ)) * Vᴴ := by
          rw [h2, Matrix.mul_one, Matrix.mul_assoc V, diagonal_mul_diagonal]
          simp only [this]
        _ = A := by rw [← h3, Matrix.mul_assoc, hV', Matrix.mul_one]
  classical
  refine ⟨fun A => if h : (A.mat A.rows A.rows).PosSemidef then Arr.ofMat (key _ _ h).choose else A, ?_⟩
  intro A n hr hc hA
  subst hr
  simp only [dif_pos hA]
  obtain ⟨h1, h2⟩ := (key _ _ hA).choose_spec
  refine ⟨rfl, rfl, ?_, ?_⟩
  · rw [Arr.ofMat_mat]; exact h1
  · rw [Arr.ofMat_mat]; exact h2

end PyQ
