import Verif.Lemmas.KnillLaflamme
import Mathlib.Analysis.Matrix.Order

/-! # Channels of entanglement fidelity one -/

namespace PyQ

open Matrix
open scoped ComplexOrder

variable {ι r c : Type} [Fintype ι] [Fintype r] [DecidableEq r] [Fintype c] [DecidableEq c]

omit [DecidableEq r] in
/-- Operators of a map with a single operator are multiples of it. -/
theorem kraus_single {A : ι → Matrix r c ℂ} {B : Matrix r c ℂ} (h : ∀ X, Spec.applyKraus A X = B * X * Bᴴ) (i : ι) :
    ∃ a : ℂ, A i = a • B := by
  have conj : ∀ (M : Matrix r c ℂ) (x y : c) (u v : r), (M * single x y (1 : ℂ) * Mᴴ) u v = M u x * star (M v y) := by
    intro M x y u v
    rw [Matrix.mul_apply, Finset.sum_eq_single y]
    · rw [Matrix.mul_apply, Finset.sum_eq_single x]
      · simp [conjTranspose_apply]
      · intro z _ hz
        rw [single_apply_of_row_ne hz.symm, mul_zero]
      · simp
    · intro z _ hz
      rw [Matrix.mul_apply, Finset.sum_eq_zero, zero_mul]
      intro w _
      rw [single_apply_of_col_ne _ _ hz.symm, mul_zero]
    · simp
  have key : ∀ (x y : c) (u v : r), ∑ i, A i u x * star (A i v y) = B u x * star (B v y) := by
    intro x y u v
    rw [← conj B, ← h (single x y 1)]
    unfold Spec.applyKraus
    rw [Matrix.sum_apply]
    exact Finset.sum_congr rfl fun i _ => (conj (A i) x y u v).symm
  by_cases hB : B = 0
  · refine ⟨0, ?_⟩
    ext u x
    have h1 := key x x u u
    rw [hB, Matrix.zero_apply, zero_mul] at h1
    simpa using normSq_sum_zero (f := fun i => A i u x) h1 i
  · obtain ⟨u0, x0, h0⟩ : ∃ u x, B u x ≠ 0 := by
      by_contra hcon
      push Not at hcon
      exact hB (by ext u x; exact hcon u x)
    refine ⟨A i u0 x0 / B u0 x0, ?_⟩
    ext u x
    have h1 : ∑ i, (A i u x * B u0 x0 - A i u0 x0 * B u x) * star (A i u x * B u0 x0 - A i u0 x0 * B u x) = 0 := by
      have e1 : ∀ i, (A i u x * B u0 x0 - A i u0 x0 * B u x) * star (A i u x * B u0 x0 - A i u0 x0 * B u x) =
          A i u x * star (A i u x) * (B u0 x0 * star (B u0 x0)) - A i u x * star (A i u0 x0) * (B u0 x0 * star (B u x)) -
            A i u0 x0 * star (A i u x) * (B u x * star (B u0 x0)) + A i u0 x0 * star (A i u0 x0) * (B u x * star (B u x)) := by
        intro i
        rw [star_sub, star_mul, star_mul]
        ring
      simp only [e1, Finset.sum_add_distrib, Finset.sum_sub_distrib, ← Finset.sum_mul, key]
      ring
    have h2 := normSq_sum_zero h1 i
    rw [Matrix.smul_apply, smul_eq_mul]
    field_simp
    linear_combination h2

omit [DecidableEq r] [DecidableEq c] in
theorem psd_mul_zero {ρ : Matrix c c ℂ} (hρ : ρ.PosSemidef) {A : Matrix r c ℂ} (h : trace (A * ρ * Aᴴ) = 0) : A * ρ = 0 := by
  have h1 := (hρ.mul_mul_conjTranspose_same A).trace_eq_zero_iff.mp h
  have h2 : ρ * Aᴴ = 0 := by
    ext u i
    have h3 : star (fun z => Aᴴ z i) ⬝ᵥ ρ *ᵥ (fun z => Aᴴ z i) = 0 := by
      have h4 := congrFun (congrFun h1 i) i
      rw [Matrix.mul_assoc] at h4
      refine Eq.trans ?_ h4
      simp [dotProduct, mulVec, Matrix.mul_apply, conjTranspose_apply]
    exact congrFun ((hρ.dotProduct_mulVec_zero_iff _).mp h3) u
  have h5 := congrArg conjTranspose h2
  rwa [conjTranspose_mul, conjTranspose_conjTranspose, hρ.isHermitian.eq, conjTranspose_zero] at h5

/-- The entanglement fidelity of a state is one exactly when the channel leaves everything on its support unchanged. -/
theorem entFid_one {K : ι → Matrix c c ℂ} (hK : Spec.TracePreserving K) {ρ : Matrix c c ℂ} (hρ : ρ.PosSemidef) (h1 : ρ.trace = 1) :
    ∑ k, ‖trace (K k * ρ)‖ ^ 2 = 1 ↔ ∀ y, Spec.applyKraus K (ρ * y * ρ) = ρ * y * ρ := by
  have hsq : ∀ z : ℂ, ((‖z‖ ^ 2 : ℝ) : ℂ) = z * star z := fun z => by
    rw [← Complex.normSq_eq_norm_sq, show star z = (starRingEnd ℂ) z from rfl, Complex.mul_conj]
  have hscale : ∀ w : ι → ℂ, (∀ k, K k * ρ = w k • ρ) → ∀ y, Spec.applyKraus K (ρ * y * ρ) = (∑ k, w k * star (w k)) • (ρ * y * ρ) := by
    intro w hw y
    unfold Spec.applyKraus
    rw [Finset.sum_smul]
    refine Finset.sum_congr rfl fun k _ => ?_
    have h3 : ρ * (K k)ᴴ = star (w k) • ρ := by
      have := congrArg conjTranspose (hw k)
      rwa [conjTranspose_mul, conjTranspose_smul, hρ.isHermitian.eq] at this
    rw [Matrix.mul_assoc, Matrix.mul_assoc (ρ * y), h3, Matrix.mul_assoc ρ y, ← Matrix.mul_assoc (K k), hw, Matrix.smul_mul,
      Matrix.mul_smul, Matrix.mul_smul, smul_smul, Matrix.mul_assoc ρ y]
  constructor
  · intro h y
    have hsum : ∑ k, trace ((K k - trace (K k * ρ) • 1) * ρ * (K k - trace (K k * ρ) • 1)ᴴ) = 0 := by
      have e1 : ∀ k, trace ((K k - trace (K k * ρ) • 1) * ρ * (K k - trace (K k * ρ) • 1)ᴴ) =
          trace (K k * ρ * (K k)ᴴ) - trace (K k * ρ) * star (trace (K k * ρ)) := by
        intro k
        have e2 : trace (ρ * (K k)ᴴ) = star (trace (K k * ρ)) := by
          rw [← trace_conjTranspose, conjTranspose_mul, hρ.isHermitian.eq]
        rw [conjTranspose_sub, conjTranspose_smul, conjTranspose_one, Matrix.mul_sub, Matrix.sub_mul, Matrix.sub_mul,
          Matrix.smul_mul, Matrix.one_mul, Matrix.mul_smul, Matrix.mul_one, Matrix.smul_mul, trace_sub, trace_sub, trace_smul, trace_smul,
          trace_sub, trace_smul, e2, h1]
        simp only [smul_eq_mul]
        ring
      rw [Finset.sum_congr rfl fun k _ => e1 k, Finset.sum_sub_distrib, ← trace_sum]
      have e3 : trace (∑ k, K k * ρ * (K k)ᴴ) = 1 := (Spec.applyKraus_trace K hK ρ).trans h1
      rw [e3, ← Complex.ofReal_one, ← h, Complex.ofReal_sum, sub_eq_zero]
      exact Finset.sum_congr rfl fun k _ => hsq _
    have hz : ∀ k, trace ((K k - trace (K k * ρ) • 1) * ρ * (K k - trace (K k * ρ) • 1)ᴴ) = 0 := fun k =>
      (Finset.sum_eq_zero_iff_of_nonneg fun k _ => (hρ.mul_mul_conjTranspose_same _).trace_nonneg).mp hsum k (Finset.mem_univ k)
    have hw : ∀ k, K k * ρ = trace (K k * ρ) • ρ := by
      intro k
      have := psd_mul_zero hρ (hz k)
      rw [Matrix.sub_mul, Matrix.smul_mul, Matrix.one_mul, sub_eq_zero] at this
      exact this
    rw [hscale _ hw y]
    have : ∑ k, trace (K k * ρ) * star (trace (K k * ρ)) = 1 := by
      rw [← Complex.ofReal_one, ← h, Complex.ofReal_sum]
      exact Finset.sum_congr rfl fun k _ => (hsq _).symm
    rw [this, one_smul]
  · intro h
    have hk : ∀ k, ∃ w : ℂ, K k * ρ = w • ρ := by
      refine kraus_single (A := fun k => K k * ρ) fun X => ?_
      rw [hρ.isHermitian.eq, ← h X]
      unfold Spec.applyKraus
      refine Finset.sum_congr rfl fun k _ => ?_
      rw [conjTranspose_mul, hρ.isHermitian.eq]
      simp only [Matrix.mul_assoc]
    choose w hw using hk
    have h2 := (hscale w hw 1).symm.trans (h 1)
    have hne : trace (ρ * 1 * ρ) ≠ 0 := by
      intro h3
      have h4 := psd_mul_zero (A := ρ) (ρ := (1 : Matrix c c ℂ)) Matrix.PosSemidef.one (by rw [hρ.isHermitian.eq]; exact h3)
      rw [Matrix.mul_one] at h4
      rw [h4, trace_zero] at h1
      exact zero_ne_one h1
    have h3 := congrArg trace h2
    rw [trace_smul, smul_eq_mul] at h3
    have h4 : ∑ k, w k * star (w k) = 1 := mul_right_cancel₀ hne (h3.trans (one_mul _).symm)
    have h5 : ((∑ k, ‖trace (K k * ρ)‖ ^ 2 : ℝ) : ℂ) = 1 := by
      rw [Complex.ofReal_sum, ← h4]
      refine Finset.sum_congr rfl fun k _ => ?_
      rw [hsq, hw, trace_smul, h1, smul_eq_mul, mul_one]
    exact_mod_cast h5

end PyQ
