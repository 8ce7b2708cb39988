import Verif.Lemmas.LinAlg
import Mathlib.Analysis.Matrix.Order

/-! Helper lemmas about square roots of positive semidefinite matrices and the fidelity. -/

namespace PyQ

open Matrix
open scoped ComplexOrder MatrixOrder

/-- The positive semidefinite square root is unique. -/
theorem sqrt_unique {n : ℕ} {S T : Matrix (Fin n) (Fin n) ℂ} (hS : S.PosSemidef) (hT : T.PosSemidef)
    (h : S * S = T * T) : S = T := by
  have h1 := CFC.sqrt_unique h hS.nonneg
  have h2 := CFC.sqrt_unique (rfl : T * T = T * T) hT.nonneg
  rw [← h1, h2]

/-- `re tr(X† Y) ≤ (tr(X† X) + tr(Y† Y)) / 2`. -/
theorem trace_amgm {m n : ℕ} (X Y : Matrix (Fin m) (Fin n) ℂ) :
    (trace (Xᴴ * Y)).re ≤ ((trace (Xᴴ * X)).re + (trace (Yᴴ * Y)).re) / 2 := by
  have h0 : 0 ≤ (trace ((X - Y)ᴴ * (X - Y))).re := by
    have := (posSemidef_conjTranspose_mul_self (X - Y)).trace_nonneg
    exact (Complex.le_def.mp this).1
  have h1 : (X - Y)ᴴ * (X - Y) = Xᴴ * X - Xᴴ * Y - (Xᴴ * Y)ᴴ + Yᴴ * Y := by
    rw [conjTranspose_sub, conjTranspose_mul, conjTranspose_conjTranspose, Matrix.sub_mul, Matrix.mul_sub,
      Matrix.mul_sub]
    abel
  rw [h1, trace_add, trace_sub, trace_sub, trace_conjTranspose] at h0
  simp only [Complex.add_re, Complex.sub_re, Complex.star_def, Complex.conj_re] at h0
  linarith

/-- The trace of `√(R T² R)` as an inner product of `T W` and `R V` for a contraction `W` and a unitary `V`. -/
theorem trace_sqrt_polar {n : ℕ} {R T S : Matrix (Fin n) (Fin n) ℂ} (hR : R.PosSemidef) (hT : T.PosSemidef)
    (hS : S.PosSemidef) (h : S * S = R * (T * T) * R) :
    ∃ V W : Matrix (Fin n) (Fin n) ℂ, V * Vᴴ = 1 ∧ (1 - W * Wᴴ).PosSemidef ∧ trace S = trace ((T * W)ᴴ * (R * V)) := by
  obtain ⟨w, V, -, h2, h3⟩ := hermitian_decomp S hS.isHermitian
  have hV' : V * Vᴴ = 1 := mul_eq_one_comm.mp h2
  set D : Matrix (Fin n) (Fin n) ℂ := diagonal fun i => ((w i : ℝ) : ℂ) with hD
  set D' : Matrix (Fin n) (Fin n) ℂ := diagonal fun i => (((w i)⁻¹ : ℝ) : ℂ) with hD'
  have hDH : D'ᴴ = D' := by
    rw [hD', diagonal_conjTranspose]
    congr 1
    funext i
    simp
  have hS' : S = V * D * Vᴴ := by rw [← h3, Matrix.mul_assoc, hV', Matrix.mul_one]
  set A := T * R with hA
  have hAA : Aᴴ * A = S * S := by
    rw [h, hA, conjTranspose_mul, hR.isHermitian.eq, hT.isHermitian.eq]
    simp only [Matrix.mul_assoc]
  set W := A * V * D' with hW
  have hSS : Vᴴ * (S * S) * V = D * D := by
    rw [hS']
    simp only [Matrix.mul_assoc, h2, Matrix.mul_one]
    rw [← Matrix.mul_assoc Vᴴ V, h2, Matrix.one_mul, ← Matrix.mul_assoc Vᴴ V, h2, Matrix.one_mul]
  have hWW : Wᴴ * W = D' * (D * D) * D' := by
    rw [hW, conjTranspose_mul, conjTranspose_mul, hDH, ← hSS, ← hAA]
    simp only [Matrix.mul_assoc]
  have hWE : W * (Wᴴ * W) = W := by
    rw [hWW, hW, hD, hD']
    simp only [Matrix.mul_assoc, diagonal_mul_diagonal]
    congr 3
    funext i
    by_cases hi : w i = 0
    · simp [hi]
    · have : ((w i : ℝ) : ℂ) ≠ 0 := by exact_mod_cast hi
      push_cast
      field_simp
  have hproj : (1 - W * Wᴴ).PosSemidef := by
    have hP : (1 - W * Wᴴ)ᴴ * (1 - W * Wᴴ) = 1 - W * Wᴴ := by
      rw [conjTranspose_sub, conjTranspose_one, conjTranspose_mul, conjTranspose_conjTranspose, Matrix.sub_mul,
        Matrix.one_mul, Matrix.mul_sub, Matrix.mul_one]
      have : W * Wᴴ * (W * Wᴴ) = W * Wᴴ := by
        rw [Matrix.mul_assoc, ← Matrix.mul_assoc Wᴴ, ← Matrix.mul_assoc, hWE]
      rw [this, sub_self, sub_zero]
    rw [← hP]
    exact posSemidef_conjTranspose_mul_self _
  refine ⟨V, W, hV', hproj, ?_⟩
  have h1 : (T * W)ᴴ * (R * V) = D' * (D * D) := by
    rw [← hSS, ← hAA, hW, conjTranspose_mul, conjTranspose_mul, conjTranspose_mul, hDH, hT.isHermitian.eq]
    simp only [Matrix.mul_assoc, hA]
  rw [h1, hS', trace_mul_comm, ← Matrix.mul_assoc, h2, Matrix.one_mul, hD, hD']
  simp only [diagonal_mul_diagonal]
  congr 2
  funext i
  by_cases hi : w i = 0
  · simp [hi]
  · have : ((w i : ℝ) : ℂ) ≠ 0 := by exact_mod_cast hi
    push_cast
    field_simp

/-- `tr √(R T² R) ≤ (tr R² + tr T²) / 2` for positive semidefinite `R`, `T`. -/
theorem trace_sqrt_le {n : ℕ} {R T S : Matrix (Fin n) (Fin n) ℂ} (hR : R.PosSemidef) (hT : T.PosSemidef)
    (hS : S.PosSemidef) (h : S * S = R * (T * T) * R) :
    (trace S).re ≤ ((trace (R * R)).re + (trace (T * T)).re) / 2 := by
  obtain ⟨V, W, hV', hproj, htr⟩ := trace_sqrt_polar hR hT hS h
  have hX : (trace ((T * W)ᴴ * (T * W))).re ≤ (trace (T * T)).re := by
    have h0 := (hproj.conjTranspose_mul_mul_same T).trace_nonneg
    have h1 : Tᴴ * (1 - W * Wᴴ) * T = T * T - T * W * Wᴴ * T := by
      rw [hT.isHermitian.eq, Matrix.mul_sub, Matrix.mul_one, Matrix.sub_mul]
      simp only [Matrix.mul_assoc]
    rw [h1, trace_sub] at h0
    have h4 : trace (T * W * Wᴴ * T) = trace ((T * W)ᴴ * (T * W)) := by
      rw [conjTranspose_mul T W, hT.isHermitian.eq, Matrix.mul_assoc (T * W), trace_mul_comm]
    rw [h4] at h0
    have := (Complex.le_def.mp h0).1
    simp only [Complex.zero_re, Complex.sub_re] at this
    linarith
  have hY : trace ((R * V)ᴴ * (R * V)) = trace (R * R) := by
    rw [trace_mul_comm, conjTranspose_mul, hR.isHermitian.eq, Matrix.mul_assoc, ← Matrix.mul_assoc V, hV',
      Matrix.one_mul]
  rw [htr]
  refine (trace_amgm (T * W) (R * V)).trans ?_
  rw [hY]
  linarith

/-- Equality holds only if `R² = T²`. -/
theorem trace_sqrt_eq {n : ℕ} {R T S : Matrix (Fin n) (Fin n) ℂ} (hR : R.PosSemidef) (hT : T.PosSemidef)
    (hS : S.PosSemidef) (h : S * S = R * (T * T) * R) (htrace : trace (T * T) = trace (R * R))
    (heq : trace S = trace (R * R)) : R * R = T * T := by
  obtain ⟨V, W, hV', hproj, htr⟩ := trace_sqrt_polar hR hT hS h
  have hpsd : (T * T - T * W * (T * W)ᴴ).PosSemidef := by
    have h0 := hproj.conjTranspose_mul_mul_same T
    rw [hT.isHermitian.eq, Matrix.mul_sub, Matrix.mul_one, Matrix.sub_mul] at h0
    rw [conjTranspose_mul T W, hT.isHermitian.eq]
    simpa only [Matrix.mul_assoc] using h0
  have hRV : R * V * (R * V)ᴴ = R * R := by
    rw [conjTranspose_mul, hR.isHermitian.eq, Matrix.mul_assoc, ← Matrix.mul_assoc V, hV', Matrix.one_mul]
  have hD : trace ((T * W - R * V)ᴴ * (T * W - R * V)) = -trace (T * T - T * W * (T * W)ᴴ) := by
    have e1 : (T * W - R * V)ᴴ * (T * W - R * V) = (T * W)ᴴ * (T * W) - (T * W)ᴴ * (R * V) - ((T * W)ᴴ * (R * V))ᴴ +
        (R * V)ᴴ * (R * V) := by
      rw [conjTranspose_sub, conjTranspose_mul ((T * W)ᴴ), conjTranspose_conjTranspose, Matrix.sub_mul, Matrix.mul_sub,
        Matrix.mul_sub]
      abel
    rw [e1, trace_add, trace_sub, trace_sub, trace_conjTranspose, ← htr, ← trace_conjTranspose, hS.isHermitian.eq, heq,
      trace_mul_comm ((R * V)ᴴ), hRV, trace_sub, htrace, trace_mul_comm ((T * W)ᴴ)]
    ring
  have h1 := (posSemidef_conjTranspose_mul_self (T * W - R * V)).trace_nonneg
  have h2 := hpsd.trace_nonneg
  have h3 : trace (T * T - T * W * (T * W)ᴴ) = 0 := by
    rw [hD] at h1
    exact le_antisymm (by simpa using h1) h2
  rw [h3, neg_zero, trace_conjTranspose_mul_self_eq_zero_iff, sub_eq_zero] at hD
  have h4 := hpsd.trace_eq_zero_iff.mp h3
  rw [hD, hRV, sub_eq_zero] at h4
  exact h4.symm

end PyQ
