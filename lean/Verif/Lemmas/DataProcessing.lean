import Verif.Lemmas.Spectrum
import Mathlib.LinearAlgebra.Matrix.Kronecker
import Mathlib.Analysis.Calculus.Deriv.MeanValue
import Mathlib.Analysis.SpecialFunctions.Log.Deriv

/-!
# Relative entropies do not grow under a channel

The proof writes the relative entropy as an integral over `t` of suprema of
`2 Re tr (x† ρ) - tr (x† σ x) - t tr (x ρ x†)`, which a channel can only lower.
-/

namespace PyQ

open Matrix
open scoped ComplexOrder Kronecker

section Finite

variable {ι κ r r' : Type} [Fintype ι] [Fintype κ] [Fintype r] [Fintype r'] [DecidableEq r] [DecidableEq r']

/-- `ρ` has the eigenvalues `p` in the orthonormal basis of the columns of `V`. -/
structure Eigen (ρ V : Matrix r r ℂ) (p : r → ℝ) : Prop where
  left : Vᴴ * V = 1
  right : V * Vᴴ = 1
  eq : ρ = V * diagonal (fun i => (p i : ℂ)) * Vᴴ
  nonneg : ∀ i, 0 ≤ p i

/-- Every positive semidefinite matrix has eigenvalues in an orthonormal basis. -/
theorem exists_eigen {ρ : Matrix r r ℂ} (hρ : ρ.PosSemidef) :
    ∃ (V : Matrix r r ℂ) (p : r → ℝ), Eigen ρ V p ∧ ρ.charpoly = ∏ i, (Polynomial.X - Polynomial.C ((p i : ℝ) : ℂ)) := by
  obtain ⟨p, V, h1, h2, h3, h4⟩ := hermitian_diag ρ hρ.isHermitian
  refine ⟨V, p, ⟨h1, h2, ?_, ?_⟩, h4⟩
  · rw [← h3, Matrix.mul_assoc, h2, Matrix.mul_one]
  · have hD : diagonal (fun i => ((p i : ℝ) : ℂ)) = Vᴴ * ρ * V := by
      rw [Matrix.mul_assoc, h3, ← Matrix.mul_assoc, h1, Matrix.one_mul]
    have hP : (diagonal (fun i => ((p i : ℝ) : ℂ))).PosSemidef := by
      rw [hD]; exact hρ.conjTranspose_mul_mul_same V
    rw [posSemidef_diagonal_iff] at hP
    intro i; exact_mod_cast hP i

/-- Every positive semidefinite matrix has the form `S S†`. -/
theorem exists_factor {ρ : Matrix r r ℂ} (hρ : ρ.PosSemidef) : ∃ S : Matrix r r ℂ, ρ = S * Sᴴ := by
  obtain ⟨V, p, h, -⟩ := exists_eigen hρ
  refine ⟨V * diagonal fun i => ((Real.sqrt (p i) : ℝ) : ℂ), ?_⟩
  have e : (diagonal fun i : r => ((Real.sqrt (p i) : ℝ) : ℂ))ᴴ = diagonal fun i => ((Real.sqrt (p i) : ℝ) : ℂ) := by
    rw [diagonal_conjTranspose]
    congr 1
    funext i
    simp
  rw [conjTranspose_mul, e, Matrix.mul_assoc, ← Matrix.mul_assoc (diagonal _), diagonal_mul_diagonal, ← Matrix.mul_assoc]
  have e2 : (fun i : r => ((Real.sqrt (p i) : ℝ) : ℂ) * ((Real.sqrt (p i) : ℝ) : ℂ)) = fun i => (p i : ℂ) := by
    funext i
    rw [← Complex.ofReal_mul, Real.mul_self_sqrt (h.nonneg i)]
  rw [e2]
  exact h.eq

/-- The squared entries of a matrix add up to `tr (A A†)`. -/
theorem trace_normSq (A : Matrix ι κ ℂ) : (trace (A * Aᴴ)).re = ∑ i, ∑ j, ‖A i j‖ ^ 2 := by
  rw [trace, Complex.re_sum]
  refine Finset.sum_congr rfl fun i _ => ?_
  rw [diag_apply, Matrix.mul_apply, Complex.re_sum]
  refine Finset.sum_congr rfl fun j _ => ?_
  rw [conjTranspose_apply, Complex.star_def, Complex.mul_conj, Complex.ofReal_re, Complex.normSq_eq_norm_sq]

theorem trace_normSq_nonneg (A : Matrix ι κ ℂ) : 0 ≤ (trace (A * Aᴴ)).re := by
  rw [trace_normSq]; positivity

omit [DecidableEq r'] in
/-- The inequality of Kadison and Schwarz for the adjoint of a channel. -/
theorem kadison_schwarz (B : ι → Matrix r' r ℂ) (hB : Spec.TracePreserving B) (σ : Matrix r r ℂ) (hσ : σ.PosSemidef)
    (x : Matrix r' r' ℂ) :
    (trace ((Spec.adjointKraus B x)ᴴ * σ * Spec.adjointKraus B x)).re ≤
      (trace (xᴴ * Spec.applyKraus B σ * x)).re := by
  obtain ⟨S₀, hS₀⟩ := exists_factor hσ
  obtain ⟨S, hS⟩ : ∃ S : Matrix r r ℂ, σ = Sᴴ * S := ⟨S₀ᴴ, by rw [conjTranspose_conjTranspose]; exact hS₀⟩
  set Z : ι → Matrix r r' ℂ := fun b => S * (B b)ᴴ * x with hZ
  set Y : Matrix r r ℂ := ∑ b, Z b * B b with hY
  have hYx : S * Spec.adjointKraus B x = Y := by
    rw [hY, Spec.adjointKraus, Matrix.mul_sum]
    refine Finset.sum_congr rfl fun b _ => ?_
    simp only [hZ, Matrix.mul_assoc]
  have h1 : trace ((Spec.adjointKraus B x)ᴴ * σ * Spec.adjointKraus B x) = trace (Y * Yᴴ) := by
    rw [trace_mul_comm Y, ← hYx, hS, conjTranspose_mul]
    simp only [Matrix.mul_assoc]
  have h2 : trace (xᴴ * Spec.applyKraus B σ * x) = ∑ b, trace (Z b * (Z b)ᴴ) := by
    rw [Spec.applyKraus, Matrix.mul_sum, Matrix.sum_mul, trace_sum]
    refine Finset.sum_congr rfl fun b _ => ?_
    rw [trace_mul_comm (Z b), hS]
    simp only [hZ, conjTranspose_mul, conjTranspose_conjTranspose, Matrix.mul_assoc]
  clear_value Z
  have h3 : ∑ b, trace ((Z b - Y * (B b)ᴴ) * (Z b - Y * (B b)ᴴ)ᴴ) =
      ∑ b, trace (Z b * (Z b)ᴴ) - trace (Y * Yᴴ) := by
    have e1 : ∀ b, trace ((Z b - Y * (B b)ᴴ) * (Z b - Y * (B b)ᴴ)ᴴ) =
        trace (Z b * (Z b)ᴴ) - trace (Z b * B b * Yᴴ) - trace (Y * (Z b * B b)ᴴ) + trace (Y * ((B b)ᴴ * B b) * Yᴴ) := by
      intro b
      rw [conjTranspose_sub, conjTranspose_mul Y, conjTranspose_conjTranspose, conjTranspose_mul (Z b), Matrix.sub_mul,
        Matrix.mul_sub, Matrix.mul_sub, trace_sub, trace_sub, trace_sub]
      simp only [Matrix.mul_assoc]
      ring
    simp only [e1]
    rw [Finset.sum_add_distrib, Finset.sum_sub_distrib, Finset.sum_sub_distrib, ← trace_sum, ← trace_sum, ← trace_sum,
      ← trace_sum, ← Matrix.sum_mul, ← Matrix.mul_sum, ← Matrix.sum_mul, ← Matrix.mul_sum, ← conjTranspose_sum]
    unfold Spec.TracePreserving at hB
    rw [hB, ← hY, Matrix.mul_one]
    ring
  have h4 : 0 ≤ (∑ b, trace ((Z b - Y * (B b)ᴴ) * (Z b - Y * (B b)ᴴ)ᴴ)).re := by
    rw [Complex.re_sum]
    exact Finset.sum_nonneg fun b _ => trace_normSq_nonneg _
  rw [h3, Complex.sub_re] at h4
  rw [h1, h2]
  linarith

/-- The expression whose supremum over `x` is used. -/
noncomputable def resolventForm (t : ℝ) (ρ σ x : Matrix r r ℂ) : ℝ :=
  2 * (trace (xᴴ * ρ)).re - (trace (xᴴ * σ * x)).re - t * (trace (x * ρ * xᴴ)).re

omit [Fintype r] [DecidableEq r] [DecidableEq r'] in
theorem adjointKraus_conjTranspose (B : ι → Matrix r' r ℂ) (x : Matrix r' r' ℂ) :
    (Spec.adjointKraus B x)ᴴ = Spec.adjointKraus B xᴴ := by
  unfold Spec.adjointKraus
  rw [conjTranspose_sum]
  refine Finset.sum_congr rfl fun b _ => ?_
  simp only [conjTranspose_mul, conjTranspose_conjTranspose, Matrix.mul_assoc]

/-- A channel lowers the expression. -/
theorem resolventForm_mono (B : ι → Matrix r' r ℂ) (hB : Spec.TracePreserving B) {ρ σ : Matrix r r ℂ}
    (hρ : ρ.PosSemidef) (hσ : σ.PosSemidef) {t : ℝ} (ht : 0 ≤ t) (x : Matrix r' r' ℂ) :
    resolventForm t (Spec.applyKraus B ρ) (Spec.applyKraus B σ) x ≤ resolventForm t ρ σ (Spec.adjointKraus B x) := by
  unfold resolventForm
  have h1 := kadison_schwarz B hB σ hσ x
  have h2 := kadison_schwarz B hB ρ hρ xᴴ
  rw [conjTranspose_conjTranspose, ← adjointKraus_conjTranspose, conjTranspose_conjTranspose] at h2
  have h3 : trace ((Spec.adjointKraus B x)ᴴ * ρ) = trace (xᴴ * Spec.applyKraus B ρ) := by
    rw [adjointKraus_conjTranspose, Spec.adjointKraus, Spec.applyKraus, Matrix.sum_mul, Matrix.mul_sum, trace_sum,
      trace_sum]
    refine Finset.sum_congr rfl fun b _ => ?_
    rw [show (B b)ᴴ * xᴴ * B b * ρ = (B b)ᴴ * (xᴴ * B b * ρ) by simp only [Matrix.mul_assoc], trace_mul_comm]
    simp only [Matrix.mul_assoc]
  rw [h3]
  have := mul_le_mul_of_nonneg_left h2 ht
  linarith

/-! ### In the eigenbases -/

/-- The supremum in terms of eigenvalues. -/
noncomputable def resolventSup (t : ℝ) (p q : r → ℝ) (c : Matrix r r ℂ) : ℝ :=
  ∑ j, ∑ i, p i ^ 2 * ‖c j i‖ ^ 2 / (q j + t * p i)

theorem resolventForm_eigen {ρ σ V U : Matrix r r ℂ} {p q : r → ℝ} (hρ : Eigen ρ V p) (hσ : Eigen σ U q) (t : ℝ)
    (y : Matrix r r ℂ) :
    resolventForm t ρ σ (U * y * Vᴴ) =
      ∑ j, ∑ i, (2 * p i * (star (y j i) * (Uᴴ * V) j i).re - (q j + t * p i) * ‖y j i‖ ^ 2) := by
  have h1 : trace ((U * y * Vᴴ)ᴴ * ρ) = ∑ j, ∑ i, (p i : ℂ) * (star (y j i) * (Uᴴ * V) j i) := by
    have e : trace ((U * y * Vᴴ)ᴴ * ρ) = trace (((Uᴴ * V) * diagonal (fun i => (p i : ℂ))) * yᴴ) := by
      rw [hρ.eq, conjTranspose_mul, conjTranspose_mul, conjTranspose_conjTranspose]
      rw [show V * (yᴴ * Uᴴ) * (V * diagonal (fun i => (p i : ℂ)) * Vᴴ) =
        V * ((yᴴ * Uᴴ) * V * diagonal (fun i => (p i : ℂ)) * Vᴴ) by simp only [Matrix.mul_assoc], trace_mul_comm,
        Matrix.mul_assoc, hρ.left, Matrix.mul_one, trace_mul_comm _ yᴴ]
      simp only [Matrix.mul_assoc]
    rw [e, trace]
    refine Finset.sum_congr rfl fun j _ => ?_
    rw [diag_apply, Matrix.mul_apply]
    refine Finset.sum_congr rfl fun i _ => ?_
    rw [mul_diagonal, conjTranspose_apply]
    ring
  have h2 : trace ((U * y * Vᴴ)ᴴ * σ * (U * y * Vᴴ)) = ∑ j, ∑ i, ((q j * ‖y j i‖ ^ 2 : ℝ) : ℂ) := by
    have e : trace ((U * y * Vᴴ)ᴴ * σ * (U * y * Vᴴ)) = trace (diagonal (fun i => (q i : ℂ)) * y * yᴴ) := by
      rw [hσ.eq, conjTranspose_mul, conjTranspose_mul, conjTranspose_conjTranspose]
      rw [show V * (yᴴ * Uᴴ) * (U * diagonal (fun i => (q i : ℂ)) * Uᴴ) * (U * y * Vᴴ) =
        V * (yᴴ * (Uᴴ * U) * diagonal (fun i => (q i : ℂ)) * (Uᴴ * U) * y * Vᴴ) by simp only [Matrix.mul_assoc],
        trace_mul_comm, Matrix.mul_assoc, hρ.left, Matrix.mul_one, hσ.left, Matrix.mul_one, Matrix.mul_one,
        Matrix.mul_assoc, trace_mul_comm]
    rw [e, trace]
    refine Finset.sum_congr rfl fun j _ => ?_
    rw [diag_apply, Matrix.mul_apply]
    refine Finset.sum_congr rfl fun i _ => ?_
    rw [diagonal_mul, conjTranspose_apply, mul_assoc, Complex.star_def, Complex.mul_conj, Complex.normSq_eq_norm_sq]
    push_cast; ring
  have h3 : trace ((U * y * Vᴴ) * ρ * (U * y * Vᴴ)ᴴ) = ∑ j, ∑ i, ((p i * ‖y j i‖ ^ 2 : ℝ) : ℂ) := by
    have e : trace ((U * y * Vᴴ) * ρ * (U * y * Vᴴ)ᴴ) = trace (y * diagonal (fun i => (p i : ℂ)) * yᴴ) := by
      rw [hρ.eq, conjTranspose_mul, conjTranspose_mul, conjTranspose_conjTranspose]
      rw [show (U * y * Vᴴ) * (V * diagonal (fun i => (p i : ℂ)) * Vᴴ) * (V * (yᴴ * Uᴴ)) =
        U * (y * (Vᴴ * V) * diagonal (fun i => (p i : ℂ)) * (Vᴴ * V) * yᴴ * Uᴴ) by simp only [Matrix.mul_assoc],
        trace_mul_comm, Matrix.mul_assoc, hσ.left, Matrix.mul_one, hρ.left, Matrix.mul_one, Matrix.mul_one]
    rw [e, trace]
    refine Finset.sum_congr rfl fun j _ => ?_
    rw [diag_apply, Matrix.mul_apply]
    refine Finset.sum_congr rfl fun i _ => ?_
    rw [mul_diagonal, conjTranspose_apply, mul_right_comm, Complex.star_def, Complex.mul_conj, Complex.normSq_eq_norm_sq]
    push_cast; ring
  unfold resolventForm
  rw [h1, h2, h3]
  simp only [Complex.re_sum, Complex.ofReal_re, Complex.re_ofReal_mul, Finset.mul_sum, ← Finset.sum_sub_distrib]
  refine Finset.sum_congr rfl fun j _ => Finset.sum_congr rfl fun i _ => ?_
  ring

theorem resolvent_term {p q t : ℝ} (hp : 0 ≤ p) (hq : 0 ≤ q) (ht : 0 < t) (y c : ℂ) :
    2 * p * (star y * c).re - (q + t * p) * ‖y‖ ^ 2 ≤ p ^ 2 * ‖c‖ ^ 2 / (q + t * p) := by
  rcases hp.eq_or_lt with rfl | hp
  · have : 0 ≤ q * ‖y‖ ^ 2 := by positivity
    simp; linarith
  have hs : 0 < q + t * p := by positivity
  have h1 : (star y * c).re ≤ ‖y‖ * ‖c‖ := by
    refine (Complex.re_le_norm _).trans ?_
    rw [norm_mul, Complex.star_def, Complex.norm_conj]
  rw [le_div_iff₀ hs]
  have h2 := mul_le_mul_of_nonneg_left h1 (by positivity : 0 ≤ 2 * p * (q + t * p))
  nlinarith [sq_nonneg ((q + t * p) * ‖y‖ - p * ‖c‖)]

theorem resolventForm_le {ρ σ V U : Matrix r r ℂ} {p q : r → ℝ} (hρ : Eigen ρ V p) (hσ : Eigen σ U q) {t : ℝ}
    (ht : 0 < t) (x : Matrix r r ℂ) : resolventForm t ρ σ x ≤ resolventSup t p q (Uᴴ * V) := by
  have hx : x = U * (Uᴴ * x * V) * Vᴴ := by
    rw [show U * (Uᴴ * x * V) * Vᴴ = (U * Uᴴ) * x * (V * Vᴴ) by simp only [Matrix.mul_assoc], hσ.right, hρ.right,
      Matrix.one_mul, Matrix.mul_one]
  rw [hx, resolventForm_eigen hρ hσ]
  exact Finset.sum_le_sum fun j _ => Finset.sum_le_sum fun i _ => resolvent_term (hρ.nonneg i) (hσ.nonneg j) ht _ _

theorem resolventForm_attained {ρ σ V U : Matrix r r ℂ} {p q : r → ℝ} (hρ : Eigen ρ V p) (hσ : Eigen σ U q) {t : ℝ}
    (ht : 0 < t) : ∃ x, resolventForm t ρ σ x = resolventSup t p q (Uᴴ * V) := by
  refine ⟨U * (Matrix.of fun j i => ((p i / (q j + t * p i) : ℝ) : ℂ) * (Uᴴ * V) j i) * Vᴴ, ?_⟩
  rw [resolventForm_eigen hρ hσ]
  refine Finset.sum_congr rfl fun j _ => Finset.sum_congr rfl fun i _ => ?_
  rw [of_apply]
  generalize (Uᴴ * V) j i = c
  have hc : (star (((p i / (q j + t * p i) : ℝ) : ℂ) * c) * c).re = p i / (q j + t * p i) * ‖c‖ ^ 2 := by
    rw [star_mul', Complex.star_def, Complex.conj_ofReal, mul_assoc, Complex.re_ofReal_mul,
      mul_comm _ c, Complex.mul_conj, Complex.ofReal_re, Complex.normSq_eq_norm_sq]
  rw [hc, norm_mul, Complex.norm_real, Real.norm_eq_abs, mul_pow, sq_abs]
  rcases (hρ.nonneg i).eq_or_lt with hp | hp
  · rw [← hp]; simp
  have hs : 0 < q j + t * p i := by have := hσ.nonneg j; positivity
  field_simp
  ring

/-- A channel lowers the suprema. -/
theorem resolventSup_mono (B : ι → Matrix r' r ℂ) (hB : Spec.TracePreserving B) {ρ σ V U : Matrix r r ℂ} {p q : r → ℝ}
    (hρ : Eigen ρ V p) (hσ : Eigen σ U q) (hρ0 : ρ.PosSemidef) (hσ0 : σ.PosSemidef) {V' U' : Matrix r' r' ℂ}
    {p' q' : r' → ℝ} (hρ' : Eigen (Spec.applyKraus B ρ) V' p') (hσ' : Eigen (Spec.applyKraus B σ) U' q') {t : ℝ} (ht : 0 < t) :
    resolventSup t p' q' (U'ᴴ * V') ≤ resolventSup t p q (Uᴴ * V) := by
  obtain ⟨x, hx⟩ := resolventForm_attained hρ' hσ' ht
  rw [← hx]
  exact (resolventForm_mono B hB hρ0 hσ0 ht.le x).trans (resolventForm_le hρ hσ ht _)

/-! ### The integral -/

/-- The relative entropy in terms of eigenvalues. -/
noncomputable def relEnt (p q : r → ℝ) (c : Matrix r r ℂ) : ℝ :=
  ∑ j, ∑ i, ‖c j i‖ ^ 2 * p i * (Real.log (p i) - Real.log (q j))

/-- The integral of `resolventSup` up to `T`. -/
noncomputable def relInt (T : ℝ) (p q : r → ℝ) (c : Matrix r r ℂ) : ℝ :=
  ∑ j, ∑ i, ‖c j i‖ ^ 2 * p i * (Real.log (q j + T * p i) - Real.log (q j))

/-- Where the second matrix vanishes the first one does. -/
def Supported (p q : r → ℝ) (c : Matrix r r ℂ) : Prop := ∀ j i, q j = 0 → ‖c j i‖ ^ 2 * p i = 0

omit [DecidableEq r] in
theorem relInt_zero (p q : r → ℝ) (c : Matrix r r ℂ) : relInt 0 p q c = 0 := by
  unfold relInt; simp

omit [DecidableEq r] in
theorem relInt_deriv {p q : r → ℝ} {c : Matrix r r ℂ} (hp : ∀ i, 0 ≤ p i) (hq : ∀ j, 0 ≤ q j) (hs : Supported p q c)
    {T : ℝ} (hT : 0 ≤ T) : HasDerivAt (fun T => relInt T p q c) (resolventSup T p q c) T := by
  unfold relInt resolventSup
  refine HasDerivAt.fun_sum fun j _ => HasDerivAt.fun_sum fun i _ => ?_
  by_cases hw : ‖c j i‖ ^ 2 * p i = 0
  · have e : p i ^ 2 * ‖c j i‖ ^ 2 / (q j + T * p i) = 0 := by
      rw [show p i ^ 2 * ‖c j i‖ ^ 2 = p i * (‖c j i‖ ^ 2 * p i) by ring, hw]; simp
    rw [e]
    simp only [hw, zero_mul]
    exact hasDerivAt_const _ _
  · have hqj : 0 < q j := lt_of_le_of_ne (hq j) fun h => hw (hs j i h.symm)
    have hpos : q j + T * p i ≠ 0 := by have := hp i; positivity
    have h1 : HasDerivAt (fun T => q j + T * p i) (p i) T := by
      simpa using ((hasDerivAt_id T).mul_const (p i)).const_add (q j)
    have h2 := ((h1.log hpos).sub_const (Real.log (q j))).const_mul (‖c j i‖ ^ 2 * p i)
    refine h2.congr_deriv ?_
    ring

omit [DecidableEq r] in
theorem relInt_limit {p q : r → ℝ} {c : Matrix r r ℂ} (hp : ∀ i, 0 ≤ p i) :
    Filter.Tendsto (fun T => relInt T p q c - (∑ j, ∑ i, ‖c j i‖ ^ 2 * p i) * Real.log T) Filter.atTop
      (nhds (relEnt p q c)) := by
  have h1 : ∀ T, relInt T p q c - (∑ j, ∑ i, ‖c j i‖ ^ 2 * p i) * Real.log T =
      ∑ j, ∑ i, ‖c j i‖ ^ 2 * p i * (Real.log (q j + T * p i) - Real.log T - Real.log (q j)) := by
    intro T
    unfold relInt
    rw [Finset.sum_mul, ← Finset.sum_sub_distrib]
    refine Finset.sum_congr rfl fun j _ => ?_
    rw [Finset.sum_mul, ← Finset.sum_sub_distrib]
    refine Finset.sum_congr rfl fun i _ => ?_
    ring
  simp only [h1]
  unfold relEnt
  refine tendsto_finsetSum _ fun j _ => tendsto_finsetSum _ fun i _ => ?_
  rcases (hp i).eq_or_lt with h0 | h0
  · rw [← h0]; simp
  refine Filter.Tendsto.const_mul _ (Filter.Tendsto.sub_const ?_ _)
  have h2 : Filter.Tendsto (fun T : ℝ => q j / T + p i) Filter.atTop (nhds (0 + p i)) :=
    (tendsto_const_nhds.div_atTop Filter.tendsto_id).add_const _
  rw [zero_add] at h2
  have h3 := (Real.continuousAt_log h0.ne').tendsto.comp h2
  refine h3.congr' ?_
  have h4 : ∀ᶠ T : ℝ in Filter.atTop, 0 < q j / T + p i := h2.eventually (lt_mem_nhds h0)
  filter_upwards [h4, Filter.eventually_gt_atTop (0 : ℝ)] with T hT hT0
  have e : q j + T * p i = T * (q j / T + p i) := by field_simp
  rw [Function.comp_apply, e, Real.log_mul hT0.ne' hT.ne']
  ring

theorem weights_sum {ρ V U : Matrix r r ℂ} {p : r → ℝ} (hρ : Eigen ρ V p) (hU : U * Uᴴ = 1) :
    ∑ j, ∑ i, ‖(Uᴴ * V) j i‖ ^ 2 * p i = (trace ρ).re := by
  have h1 : trace ρ = trace ((Uᴴ * V) * diagonal (fun i => (p i : ℂ)) * (Uᴴ * V)ᴴ) := by
    rw [conjTranspose_mul, conjTranspose_conjTranspose, show Uᴴ * V * diagonal (fun i => (p i : ℂ)) * (Vᴴ * U) =
      Uᴴ * (V * diagonal (fun i => (p i : ℂ)) * Vᴴ * U) by simp only [Matrix.mul_assoc], trace_mul_comm,
      Matrix.mul_assoc, hU, Matrix.mul_one, ← hρ.eq]
  rw [h1, trace, Complex.re_sum]
  refine Finset.sum_congr rfl fun j _ => ?_
  rw [diag_apply, Matrix.mul_apply, Complex.re_sum]
  refine Finset.sum_congr rfl fun i _ => ?_
  rw [mul_diagonal, conjTranspose_apply, mul_right_comm, Complex.star_def, Complex.mul_conj, Complex.normSq_eq_norm_sq,
    ← Complex.ofReal_mul, Complex.ofReal_re]

/-- The relative entropy does not grow under a channel. -/
theorem relEnt_mono (B : ι → Matrix r' r ℂ) (hB : Spec.TracePreserving B) {ρ σ V U : Matrix r r ℂ} {p q : r → ℝ}
    (hρ : Eigen ρ V p) (hσ : Eigen σ U q) (hρ0 : ρ.PosSemidef) (hσ0 : σ.PosSemidef) {V' U' : Matrix r' r' ℂ}
    {p' q' : r' → ℝ} (hρ' : Eigen (Spec.applyKraus B ρ) V' p') (hσ' : Eigen (Spec.applyKraus B σ) U' q')
    (hs : Supported p q (Uᴴ * V)) (hs' : Supported p' q' (U'ᴴ * V')) :
    relEnt p' q' (U'ᴴ * V') ≤ relEnt p q (Uᴴ * V) := by
  have hD : ∀ T, 0 ≤ T → HasDerivAt (fun T => relInt T p q (Uᴴ * V) - relInt T p' q' (U'ᴴ * V'))
      (resolventSup T p q (Uᴴ * V) - resolventSup T p' q' (U'ᴴ * V')) T := fun T hT =>
    (relInt_deriv hρ.nonneg hσ.nonneg hs hT).sub (relInt_deriv hρ'.nonneg hσ'.nonneg hs' hT)
  have hmono : MonotoneOn (fun T => relInt T p q (Uᴴ * V) - relInt T p' q' (U'ᴴ * V')) (Set.Ici 0) := by
    refine monotoneOn_of_deriv_nonneg (convex_Ici 0) (fun T hT => (hD T hT).continuousAt.continuousWithinAt) ?_ ?_
    · intro T hT
      rw [interior_Ici] at hT
      exact (hD T (le_of_lt hT)).differentiableAt.differentiableWithinAt
    · intro T hT
      rw [interior_Ici] at hT
      rw [(hD T (le_of_lt hT)).deriv, sub_nonneg]
      exact resolventSup_mono B hB hρ hσ hρ0 hσ0 hρ' hσ' hT
  have hle : ∀ T, 0 ≤ T → relInt T p' q' (U'ᴴ * V') ≤ relInt T p q (Uᴴ * V) := by
    intro T hT
    have := hmono (Set.mem_Ici.mpr le_rfl) (Set.mem_Ici.mpr hT) hT
    simp only [relInt_zero, sub_zero] at this
    linarith
  have hw : ∑ j, ∑ i, ‖(U'ᴴ * V') j i‖ ^ 2 * p' i = ∑ j, ∑ i, ‖(Uᴴ * V) j i‖ ^ 2 * p i := by
    rw [weights_sum hρ' hσ'.right, weights_sum hρ hσ.right, Spec.applyKraus_trace B hB]
  have l1 := relInt_limit (q := q) (c := Uᴴ * V) hρ.nonneg
  have l2 := relInt_limit (q := q') (c := U'ᴴ * V') hρ'.nonneg
  rw [hw] at l2
  refine le_of_tendsto_of_tendsto l2 l1 ?_
  filter_upwards [Filter.eventually_ge_atTop (0 : ℝ)] with T hT
  have := hle T hT
  linarith

end Finite

end PyQ
